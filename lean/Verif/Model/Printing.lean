import Verif.Model.Text
import Mathlib.Data.Int.Log
import Mathlib.Data.Rat.Floor
import Mathlib.Data.List.DropRight

/-!
# Numbers in errors.csv

Source: `common/error_calc.cc:330-332`, `*csvfile << key_val.second << sep` for a `double` on a stream
nobody has configured: `operator<<(double)` prints like `printf("%.6g")` in the classic locale (C++ standard
[facet.num.put.virtuals], C standard 7.21.6.1).  Decimal conversion is exact with rounding half to even
(glibc in the default rounding mode).  The finite value of a `double` is a rational number; the model is for all
rational numbers.
-/

namespace Verif.Printing

/-- Value of a `double`: finite (the sign of zero is kept separately), infinite, not a number. -/
inductive Value where
  | fin (x : ℚ) (negZero : Bool)
  | inf (neg : Bool)
  | nan (neg : Bool)
deriving DecidableEq

/-- Rounding to the nearest integer, half to even. -/
def roundEven (q : ℚ) : ℤ :=
  if q - ⌊q⌋ < 1 / 2 then ⌊q⌋
  else if 1 / 2 < q - ⌊q⌋ then ⌊q⌋ + 1
  else if ⌊q⌋ % 2 = 0 then ⌊q⌋ else ⌊q⌋ + 1

/-- Conversion `%.5e` of a positive number: the six digits as a number and the decimal exponent. -/
def significand (x : ℚ) : ℕ × ℤ :=
  let e := Int.log 10 x
  let m := roundEven (x / 10 ^ (e - 5))
  if m = 10 ^ 6 then (10 ^ 5, e + 1) else (m.toNat, e)

/-- Decimal point between `ip` and `fp`; trailing zeros are removed, and the point if nothing is left. -/
def point (ip fp : List Char) : List Char :=
  let f := fp.rdropWhile (· = '0')
  if f = [] then ip else ip ++ '.' :: f

/-- Exponent part: sign and at least two digits. -/
def exponent (X : ℤ) : List Char :=
  'e' :: (if X < 0 then '-' else '+') :: Text.padded 2 X.natAbs

/-- `%.6g` of a positive number. -/
def general (x : ℚ) : List Char :=
  let m := (significand x).1
  let X := (significand x).2
  let ds := Text.decimal m
  if -4 ≤ X ∧ X < 6 then
    if 0 ≤ X then point (ds.take (X.toNat + 1)) (ds.drop (X.toNat + 1))
    else point ['0'] (List.replicate (-X - 1).toNat '0' ++ ds)
  else point (ds.take 1) (ds.drop 1) ++ exponent X

/-- `operator<<(double)`. -/
def print : Value → List Char
  | .fin x negZero =>
    if x = 0 then (if negZero then ['-', '0'] else ['0'])
    else if x < 0 then '-' :: general (-x) else general x
  | .inf neg => if neg then "-inf".toList else "inf".toList
  | .nan neg => if neg then "-nan".toList else "nan".toList

end Verif.Printing
