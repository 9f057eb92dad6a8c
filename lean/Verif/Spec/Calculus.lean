import Mathlib.Analysis.Calculus.Deriv.Basic
import Mathlib.Analysis.Calculus.FDeriv.Basic
import Mathlib.Analysis.Normed.Module.FiniteDimension

/-!
# Specification: gradient, divergence, ellipticity in two dimensions
-/

namespace Verif.Spec.Calculus

/-- A point, or a vector, of the plane. -/
abbrev Vec2 := Fin 2 → ℝ

/-- `a` is the partial derivative of `f` in direction `i` at `x`. -/
def IsPartial (f : Vec2 → ℝ) (i : Fin 2) (x : Vec2) (a : ℝ) : Prop :=
  HasDerivAt (fun t => f (Function.update x i t)) a (x i)

/-- `g` is the gradient of `f` at `x`: `f` is (totally) differentiable at `x` and its derivative is
`v ↦ g 0 * v 0 + g 1 * v 1`. -/
def IsGradient (f : Vec2 → ℝ) (x g : Vec2) : Prop :=
  HasFDerivAt f (g 0 • ContinuousLinearMap.proj (R := ℝ) (φ := fun _ : Fin 2 => ℝ) 0 +
    g 1 • ContinuousLinearMap.proj (R := ℝ) (φ := fun _ : Fin 2 => ℝ) 1) x

/-- `a` is the divergence of the vector field `F` at `x`. -/
def IsDivergence (F : Vec2 → Vec2) (x : Vec2) (a : ℝ) : Prop :=
  ∃ a0 a1, IsPartial (fun y => F y 0) 0 x a0 ∧ IsPartial (fun y => F y 1) 1 x a1 ∧ a = a0 + a1

/-- Euclidean inner product. -/
def dot (v w : Vec2) : ℝ := v 0 * w 0 + v 1 * w 1

end Verif.Spec.Calculus
