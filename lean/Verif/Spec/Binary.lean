import Mathlib.Algebra.Order.Field.Rat
import Mathlib.Algebra.Order.Group.Unbundled.Abs

/-!
# Specification: numbers with 53 binary digits
-/

namespace Verif.Spec.Binary

/-- `r` has at most 53 significant binary digits. -/
def Digits53 (r : ℚ) : Prop := ∃ k j : ℤ, |k| ≤ 2 ^ 53 ∧ r = k * 2 ^ j

/-- `rd` rounds to a nearest number with 53 binary digits. -/
structure Nearest (rd : ℚ → ℚ) : Prop where
  digits : ∀ x, Digits53 (rd x)
  best : ∀ x r, Digits53 r → |x - rd x| ≤ |x - r|

end Verif.Spec.Binary
