import Mathlib.Data.Matrix.Mul
import Mathlib.Algebra.Order.BigOperators.Ring.Finset
import Mathlib.Tactic.Linarith

/-!
# Specification: symmetric matrices with bounds of the quadratic form
-/

namespace Verif.Spec.Ellipticity

variable {d : Type} [Fintype d] {R : Type} [CommRing R] [LinearOrder R]

/-- `A` is symmetric and its quadratic form lies between `l |v|²` and `u |v|²`. -/
def Elliptic (l u : R) (A : Matrix d d R) : Prop :=
  A.transpose = A ∧ ∀ v : d → R, l * (v ⬝ᵥ v) ≤ v ⬝ᵥ (A.mulVec v) ∧ v ⬝ᵥ (A.mulVec v) ≤ u * (v ⬝ᵥ v)

end Verif.Spec.Ellipticity
