import Mathlib.Data.List.Basic

/-!
# Text formatting used by the code

Strings are lists of characters.  `%d`-style formatting of non-negative numbers
(boost::format), splitting at a separator (boost::split without token compression, as called by
`XT::Common::tokenize`) and reading an unsigned number (`from_string<size_t>`).
These are models of library functions, used by df_io.cc, localsolutionmanager.cc,
localsolution_proxy.cc, msfem_solver.cc and outputparameter.cc.
-/

namespace Verif.Text

/-- The character of a decimal digit. -/
def digitChar (d : ℕ) : Char := Char.ofNat (48 + d)

/-- `%d` for a natural number. -/
def decimal (n : ℕ) : List Char :=
  if n < 10 then [digitChar n] else decimal (n / 10) ++ [digitChar (n % 10)]
termination_by n
decreasing_by omega

/-- `%0wd` for a natural number: zero padding on the left to width at least `w`. -/
def padded (w n : ℕ) : List Char :=
  List.replicate (w - (decimal n).length) '0' ++ decimal n

/-- Value of a digit character, `none` for other characters. -/
def charDigit (c : Char) : Option ℕ :=
  if 48 ≤ c.toNat ∧ c.toNat ≤ 57 then some (c.toNat - 48) else none

/-- `from_string<size_t>` on a string that consists of digits only; `none` otherwise.
(Leading blanks, signs and overflow are outside the model: the strings converted
in the code are produced by `%d` from an index.) -/
def parseNat (s : List Char) : Option ℕ :=
  match s with
  | [] => none
  | _ => s.foldl (fun acc c => acc.bind fun a => (charDigit c).map fun d => 10 * a + d) (some 0)

/-- Split at every occurrence of `sep`; always at least one token. -/
def tokenize (sep : Char) : List Char → List (List Char)
  | [] => [[]]
  | c :: cs =>
    if c = sep then [] :: tokenize sep cs
    else match tokenize sep cs with
      | [] => [[c]]
      | t :: ts => (c :: t) :: ts

end Verif.Text
