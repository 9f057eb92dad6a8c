import Mathlib.Algebra.Order.Ring.Defs
import Mathlib.Algebra.Order.Field.Basic

/-!
# Specification: multilinear interpolation
-/

namespace Verif.Spec

variable {K : Type} [Field K]

/-- Linear interpolation. -/
def lerp (t a b : K) : K := a + t * (b - a)

/-- Bilinear interpolation of the values `v` at the corners of the cell `(j0, j1)`. -/
def bilinear (v : ℕ → ℕ → K) (j0 j1 : ℕ) (t0 t1 : K) : K :=
  lerp t0 (lerp t1 (v j0 j1) (v j0 (j1 + 1))) (lerp t1 (v (j0 + 1) j1) (v (j0 + 1) (j1 + 1)))

/-- Trilinear interpolation of the values `v` at the corners of the cell `(j0, j1, j2)`. -/
def trilinear (v : ℕ → ℕ → ℕ → K) (j0 j1 j2 : ℕ) (t0 t1 t2 : K) : K :=
  lerp t0 (bilinear (v j0) j1 j2 t1 t2) (bilinear (v (j0 + 1)) j1 j2 t1 t2)

end Verif.Spec
