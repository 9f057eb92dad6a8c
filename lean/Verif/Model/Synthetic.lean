import Verif.Spec.Calculus
import Mathlib.Analysis.SpecialFunctions.Trigonometric.Basic
import Mathlib.Data.Matrix.Basic

/-!
# The problems Synthetic and ER2007

Source: `dune/multiscale/problems/synthetic.cc`, `dune/multiscale/problems/er2007.hh`,
`dune/multiscale/problems/er2007.cc`, `dune/multiscale/problems/random.cc`.

`double` is modelled by the real numbers; rounding is not modelled.  Result objects passed by reference are
modelled by their content before the call.  The space dimension is at least two.
-/

noncomputable section

namespace Verif.Synthetic
open Real

/-- A point in dimension `n + 2`. -/
abbrev Point (n : ℕ) := Fin (n + 2) → ℝ

/-- A matrix result object in dimension `n + 2`. -/
abbrev Mat (n : ℕ) := Matrix (Fin (n + 2)) (Fin (n + 2)) ℝ

/-- A jacobian result object (one row) in dimension `n + 2`. -/
abbrev Row (n : ℕ) := Fin (n + 2) → ℝ

/-- Assignment `ret[i][j] = v`. -/
def assign {n : ℕ} (ret : Mat n) (i j : Fin (n + 2)) (v : ℝ) : Mat n :=
  fun a b => if a = i ∧ b = j then v else ret a b

/-- `M_TWOPI`. -/
def twoPi : ℝ := 2 * π

/-- synthetic.cc:123-130 `Diffusion::evaluate`. -/
def diffusion {n : ℕ} (eps : ℝ) (x : Point n) (ret : Mat n) : Mat n :=
  let x0eps := x 0 / eps
  let invPi8Pi := 1 / (8 * π * π)
  let cosEval := cos (twoPi * x0eps)
  assign (assign ret 0 0 (2 * invPi8Pi * (1 / (2 + cosEval)))) 1 1 (invPi8Pi * (1 + 0.5 * cosEval))

/-- synthetic.cc:132-140 `Diffusion::diffusiveFlux`; `junk` is the content of the local variable `eval` before
it is passed to `evaluate`, `flux` the content of the result object. -/
def diffusiveFlux {n : ℕ} (eps : ℝ) (junk : Mat n) (x : Point n) (direction flux : Row n) : Row n :=
  let eval := diffusion eps x junk
  fun i => if i = 0 then eval 0 0 * direction 0 else if i = 1 then eval 1 1 * direction 1 else flux i

/-- synthetic.cc:160-173 `ExactSolution::evaluate`. -/
def exact {n : ℕ} (eps : ℝ) (x : Point n) : ℝ :=
  let x0eps := x 0 / eps
  let sinX0eps := sin (twoPi * x0eps)
  let x0TwoPi := twoPi * x 0
  let x1TwoPi := twoPi * x 1
  sin x0TwoPi * sin x1TwoPi + 0.5 * eps * cos x0TwoPi * sin x1TwoPi * sinX0eps

/-- synthetic.cc:175-192 `ExactSolution::jacobian`. -/
def exactJacobian {n : ℕ} (eps : ℝ) (x : Point n) (gradU : Row n) : Row n :=
  let x0eps := x 0 / eps
  let cosX0eps := cos (twoPi * x0eps)
  let sinX0eps := sin (twoPi * x0eps)
  let x0TwoPi := twoPi * x 0
  let x1TwoPi := twoPi * x 1
  let sinX0 := sin x0TwoPi
  let cosX0 := cos x0TwoPi
  let sinX1 := sin x1TwoPi
  let cosX1 := cos x1TwoPi
  let epsPiSin := eps * π * sinX0eps
  fun i =>
    if i = 0 then twoPi * cosX0 * sinX1 - epsPiSin * sinX0 * sinX1 + π * cosX0 * sinX1 * cosX0eps
    else if i = 1 then twoPi * sinX0 * cosX1 + epsPiSin * cosX0 * cosX1
    else gradU i

/-- synthetic.cc:93-121 `Source::evaluate`; `pow(·, -2.0)` is the inverse of the square. -/
def source {n : ℕ} (eps : ℝ) (x : Point n) : ℝ :=
  let piSquare := π * π
  let x0eps := x 0 / eps
  let cosX0eps := cos (twoPi * x0eps)
  let sinX0eps := sin (twoPi * x0eps)
  let coefficient0 := 2 * (1 / (8 * π * π)) * (1 / (2 + cosX0eps))
  let coefficient1 := (1 / (8 * π * π)) * (1 + 0.5 * cosX0eps)
  let sinX0 := sin (twoPi * x 0)
  let cosX0 := cos (twoPi * x 0)
  let sinX1 := sin (twoPi * x 1)
  let dX0coefficient0 := ((2 + cosX0eps) ^ 2)⁻¹ * (1 / twoPi) * (1 / eps) * sinX0eps
  let gradU := twoPi * cosX0 * sinX1 + (-1) * eps * π * (sinX0 * sinX1 * sinX0eps)
    + π * (cosX0 * sinX1 * cosX0eps)
  let dX0X0u := -(4 * piSquare * sinX0 * sinX1)
    - 2 * piSquare * (eps + 1 / eps) * cosX0 * sinX1 * sinX0eps
    - 4 * piSquare * sinX0 * sinX1 * cosX0eps
  let dX1X1u := -(4 * piSquare * sinX0 * sinX1) - 2 * piSquare * eps * cosX0 * sinX1 * sinX0eps
  let y := -(dX0coefficient0 * gradU) - coefficient0 * dX0X0u - coefficient1 * dX1X1u
  y

/-- synthetic.cc:194-202: the Dirichlet data are those of the exact solution. -/
def dirichlet {n : ℕ} (eps : ℝ) (x : Point n) : ℝ := exact eps x

/-! ### ER2007 -/

/-- er2007.cc:53-57 `Diffusion::evaluate`. -/
def erDiffusion {n : ℕ} (_x : Point n) (ret : Mat n) : Mat n := assign (assign ret 0 0 1) 1 1 1

/-- er2007.cc:59-65 `Diffusion::diffusiveFlux`. -/
def erDiffusiveFlux {n : ℕ} (_x : Point n) (direction flux : Row n) : Row n :=
  fun i => if i = 0 then direction 0 else if i = 1 then direction 1 else flux i

/-- er2007.hh:84 `Source`. -/
def erSource (x : Point 0) : ℝ := 64 * π * π * (cos (8 * π * x 0) + cos (8 * π * x 1))

/-- er2007.hh:88 `ExactSolution`. -/
def erExact (x : Point 0) : ℝ := cos (8 * π * x 0) + cos (8 * π * x 1)

/-- er2007.hh:66 `exact_deriv`, the components of the jacobian. -/
def exactDeriv (x : Point 0) : Row 0 :=
  fun i => if i = 0 then -8 * π * sin (8 * π * x 0) else -8 * π * sin (8 * π * x 1)

/-- er2007.hh:84: the jacobian of `Source` is built from `exact_deriv`. -/
def erSourceJacobian (x : Point 0) : Row 0 := exactDeriv x

/-- er2007.hh:88: the jacobian of `ExactSolution`. -/
def erExactJacobian (x : Point 0) : Row 0 := exactDeriv x

/-! ### Random, result object only -/

/-- random.cc:132-143 `Diffusion::evaluate`: `ret = 0`, then every diagonal entry is the permeability at the
point (`field`). -/
def randomDiffusion {n : ℕ} (field : Point n → ℝ) (x : Point n) (_ret : Mat n) : Mat n :=
  fun i j => if i = j then field x else 0

/-- random.cc:145-155 `Diffusion::diffusiveFlux`: `flux = 0`, then every component is assigned; `junk` is the content of the local
variable `eval` before the call of `evaluate`. -/
def randomFlux {n : ℕ} (field : Point n → ℝ) (junk : Mat n) (x : Point n) (direction _flux : Row n) : Row n :=
  let eval := randomDiffusion field x junk
  fun i => eval i i * direction i

end Verif.Synthetic
