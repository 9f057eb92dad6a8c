/-!
# Specification: reading a two-line comma separated file
-/

namespace Verif.Spec.Csv

/-- Pieces between occurrences of `sep`; `n` occurrences give `n + 1` pieces. -/
def split (sep : Char) : List Char → List (List Char)
  | [] => [[]]
  | c :: cs =>
    if c = sep then [] :: split sep cs
    else match split sep cs with
      | [] => [[c]]
      | t :: ts => (c :: t) :: ts

/-- A reader: the text must consist of two lines, each ended by a newline; every field of a line is ended
by a comma; both lines must have the same number of fields.  Fields are paired by column. -/
def read (text : List Char) : Option (List (List Char × List Char)) :=
  match split '\n' text with
  | [head, values, []] =>
    let h := split ',' head
    let v := split ',' values
    if h.getLast? = some [] ∧ v.getLast? = some [] ∧ h.length = v.length then
      some (h.dropLast.zip v.dropLast)
    else none
  | _ => none

end Verif.Spec.Csv
