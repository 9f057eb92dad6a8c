import Verif.Spec.Box
import Mathlib.Order.Monotone.Basic

/-!
# Specification: cells of a raster, floating point rounding
-/

namespace Verif.Spec

/-- `x` lies in cell `i` of the raster with `n` cells on `[a, b]`: cells are half open, the last one is closed. -/
def InCell (a b : ℚ) (n i : ℕ) (x : ℚ) : Prop :=
  i < n ∧ node a b n i ≤ x ∧ (x < node a b n (i + 1) ∨ (i + 1 = n ∧ x ≤ b))

/-- What is used of floating point rounding: monotone, exact on natural numbers up to `2^53`. -/
structure MonotoneRounding (rd : ℚ → ℚ) : Prop where
  mono : Monotone rd
  nat : ∀ n : ℕ, n ≤ 2 ^ 53 → rd (n : ℚ) = n

end Verif.Spec
