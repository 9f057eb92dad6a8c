import Mathlib.Data.Rat.Floor
import Mathlib.Algebra.BigOperators.Ring.Finset
import Mathlib.Data.Set.Basic

/-!
# Specification vocabulary: axis-parallel boxes

Independent of the model of the code.
-/

namespace Verif.Spec

/-- The closed box with the given corners. -/
def box {d : ℕ} (lo hi : Fin d → ℚ) : Set (Fin d → ℚ) :=
  {x | ∀ i, lo i ≤ x i ∧ x i ≤ hi i}

/-- The open box with the given corners. -/
def openBox {d : ℕ} (lo hi : Fin d → ℚ) : Set (Fin d → ℚ) :=
  {x | ∀ i, lo i < x i ∧ x i < hi i}

/-- Volume of the box with the given corners. -/
def volume {d : ℕ} (lo hi : Fin d → ℚ) : ℚ := ∏ i, (hi i - lo i)

/-- Node `j` of the equidistant grid with `n` cells on `[a, b]`. -/
def node (a b : ℚ) (n j : ℕ) : ℚ := a + (j : ℚ) * ((b - a) / (n : ℚ))

end Verif.Spec
