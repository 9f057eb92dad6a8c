import Verif.Spec.Csv
import Mathlib.Data.Rat.Defs
import Mathlib.Algebra.Order.Field.Rat

/-!
# Specification: reading decimal numbers, numbers with six digits
-/

namespace Verif.Spec.Decimal

/-- Value of a word of digits; `none` if another character occurs. -/
def natVal (s : List Char) : Option ℕ :=
  if ∀ c ∈ s, 48 ≤ c.toNat ∧ c.toNat ≤ 57 then some (s.foldl (fun a c => 10 * a + (c.toNat - 48)) 0) else none

/-- `digits` or `digits.digits`, with at least one digit on each side of the point. -/
def mantissa (s : List Char) : Option ℚ :=
  match Csv.split '.' s with
  | [ip] => if ip = [] then none else (natVal ip).map fun n => (n : ℚ)
  | [ip, fp] => if ip = [] ∨ fp = [] then none else (natVal (ip ++ fp)).map fun n => (n : ℚ) / 10 ^ fp.length
  | _ => none

/-- A number without sign: a mantissa, possibly followed by `e+digits` or `e-digits`. -/
def readPos (s : List Char) : Option ℚ :=
  match Csv.split 'e' s with
  | [m] => mantissa m
  | [m, '+' :: x] => if x = [] then none else (mantissa m).bind fun q => (natVal x).map fun n => q * 10 ^ n
  | [m, '-' :: x] => if x = [] then none else (mantissa m).bind fun q => (natVal x).map fun n => q / 10 ^ n
  | _ => none

/-- A decimal number. -/
def read (s : List Char) : Option ℚ :=
  match s with
  | '-' :: t => (readPos t).map fun q => -q
  | t => readPos t

/-- The numbers that can be written with at most six digits and a power of ten. -/
def Six (r : ℚ) : Prop := ∃ k j : ℤ, |k| < 10 ^ 6 ∧ r = k * 10 ^ j

end Verif.Spec.Decimal
