import Mathlib.Data.Matrix.Mul

/-!
# Specification: discrete boundary value problem

`u` takes the prescribed values at the constrained degrees of freedom and satisfies the equation of every
other degree of freedom.
-/

namespace Verif.Spec.Dirichlet
open Matrix

variable {ι R : Type} [Fintype ι] [CommRing R]

structure IsSolution (A : Matrix ι ι R) (load data : ι → R) (D : ι → Bool) (u : ι → R) : Prop where
  boundary : ∀ i, D i = true → u i = data i
  equation : ∀ i, D i = false → (A *ᵥ u) i = load i

/-- The block of unconstrained rows and columns is injective. -/
def FreeInjective (A : Matrix ι ι R) (D : ι → Bool) : Prop :=
  ∀ v : ι → R, (∀ i, D i = true → v i = 0) → (∀ i, D i = false → (A *ᵥ v) i = 0) → v = 0

end Verif.Spec.Dirichlet
