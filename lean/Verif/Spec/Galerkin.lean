import Mathlib.Data.Matrix.Mul

/-!
# Specification: Galerkin matrix and load vector of sampled basis functions

A sample is what a quadrature point contributes: a weight, the diffusion tensor and the
source there, and values and gradients of the basis functions living there.
-/

namespace Verif.Spec.Galerkin
open Matrix

structure Sample (d n : ℕ) (G R : Type) where
  weight : R
  tensor : Matrix (Fin d) (Fin d) R
  source : R
  dofs : Fin n → G
  val : Fin n → R
  grad : Fin n → (Fin d → R)
  /-- gradient of the boundary lifting -/
  lifting : Fin d → R

variable {d n : ℕ} {G R : Type} [DecidableEq G] [CommRing R]

/-- Stiffness entry for test function `a` and trial function `b`. -/
def stiffness (S : List (Sample d n G R)) (a b : G) : R :=
  (S.map fun s => ∑ i, ∑ j, if s.dofs i = a ∧ s.dofs j = b then
    s.weight * ((s.tensor *ᵥ s.grad j) ⬝ᵥ s.grad i) else 0).sum

/-- Load entry for test function `a`. -/
def load (S : List (Sample d n G R)) (a : G) : R :=
  (S.map fun s => ∑ i, if s.dofs i = a then
    s.weight * (s.source * s.val i - (s.tensor *ᵥ s.lifting) ⬝ᵥ s.grad i) else 0).sum

/-- Gradient at a sample of the function with coefficients `u`. -/
def Sample.gradOf (s : Sample d n G R) (u : G → R) : Fin d → R := ∑ i, u (s.dofs i) • s.grad i

/-- Diffusion energy of the function with coefficients `u`. -/
def energy (S : List (Sample d n G R)) (u : G → R) : R :=
  (S.map fun s => s.weight * ((s.tensor *ᵥ s.gradOf u) ⬝ᵥ s.gradOf u)).sum

end Verif.Spec.Galerkin
