import Verif.Model.Quadrature
import Verif.Model.FemSolver
import Mathlib.Analysis.Real.Sqrt

/-!
# The reported error norms

Source: `common/error_calc.cc:37-45` (types), `144` (`over_integrate`), `202-253` (registration), `255-311` (square roots and ratios);
orders of the exact solutions: `problems/synthetic.cc:150-153`, `problems/er2007.cc` (expression function of order 3,
`problems/base.hh` MSEXPRESSIONFUNCTION).

The localizable products of dune-gdt and the difference of functions of dune-stuff are external (transcribed).  One process.  Which of the
numbers goes under which name in `errors.csv` is the subject of Model/ErrorReport.
-/

namespace Verif.ErrorNorms
open Matrix Verif.CoarseAssembly Verif.LocalAssembly Verif.Q1Grid Verif.Boundary Verif.FemSolver Verif.Quadrature

variable {d : ℕ} {R : Type} [Field R]

/-- A function on the cells of a grid: order, values and gradient, in coordinates of the reference cell. -/
structure LocalFn (cells : Fin d → ℕ) (R : Type) where
  order : ℕ
  value : CellIndex cells → (Fin d → R) → R
  grad : CellIndex cells → (Fin d → R) → Fin d → R

/-- A discrete function on the fine grid. -/
def discrete (G : Grid d R) (u : Node G.cells → R) : LocalFn G.cells R where
  order := elementOrder
  value := fun j x => valueOf u j x
  grad := fun j x => (element G.lower G.width [] j).gradOf u x

/-- The exact solution with its declared order. -/
def analytic (G : Grid d R) (order : ℕ) (u : (Fin d → R) → R) (du : (Fin d → R) → Fin d → R) : LocalFn G.cells R where
  order := order
  value := fun j x => u ((element G.lower G.width [] j).toGlobal x)
  grad := fun j x => du ((element G.lower G.width [] j).toGlobal x)

/-- `DSFu::Difference` (dune-stuff, external). -/
def difference {cells : Fin d → ℕ} (f g : LocalFn cells R) : LocalFn cells R where
  order := max f.order g.order
  value := fun j x => f.value j x - g.value j x
  grad := fun j x => f.grad j x - g.grad j x

/-- `ExactSolution::order()` of the problems that have one. -/
def exactOrder : Problem → Option ℕ
  | .synthetic => some 1
  | .er2007 => some 3
  | _ => none

/-- Order of `GDT::LocalEvaluation::Product` with the constant one (external). -/
def productOrder (f over : ℕ) : ℕ := f + f + over

/-- Order of the semi product: `GDT::LocalEvaluation::Elliptic` with the constant one (external). -/
def semiOrder (f over : ℕ) : ℕ := ellipticOrder 0 f f + over

/-- Sum over the cells of the interior partition with the rule of the given order. -/
def integrate (gauss : ℕ → List (R × R)) (G : Grid d R) (order : ℕ) (F : CellIndex G.cells → (Fin d → R) → R) : R :=
  (G.order.map fun j => ((scaleRule G.width (tensor (gauss (gaussPoints order)) d)).map fun q => q.weight * F j q.pos).sum).sum

/-- `L2Localizable::apply2`. -/
def l2Square (gauss : ℕ → List (R × R)) (G : Grid d R) (over : ℕ) (f : LocalFn G.cells R) : R :=
  integrate gauss G (productOrder f.order over) fun j x => f.value j x * f.value j x

/-- `H1SemiLocalizable::apply2`. -/
def semiSquare (gauss : ℕ → List (R × R)) (G : Grid d R) (over : ℕ) (f : LocalFn G.cells R) : R :=
  integrate gauss G (semiOrder f.order over) fun j x => f.grad j x ⬝ᵥ f.grad j x

/-- The reported numbers, error_calc.cc:258-305. -/
noncomputable def l2 (gauss : ℕ → List (ℝ × ℝ)) (G : Grid d ℝ) (over : ℕ) (f : LocalFn G.cells ℝ) : ℝ :=
  Real.sqrt (l2Square gauss G over f)

noncomputable def semi (gauss : ℕ → List (ℝ × ℝ)) (G : Grid d ℝ) (over : ℕ) (f : LocalFn G.cells ℝ) : ℝ :=
  Real.sqrt (semiSquare gauss G over f)

/-- Result of a division of floating point numbers. -/
inductive Quotient where
  | number (x : ℝ)
  | infinite
  | nan

/-- `x / y` for numbers that are not negative. -/
noncomputable def divide (x y : ℝ) : Quotient :=
  if y = 0 then (if x = 0 then .nan else .infinite) else .number (x / y)

/-- error_calc.cc:291: relative difference to the coarse finite element solution, printed without test of the norm. -/
noncomputable def relativeCoarse (error norm : ℝ) : Quotient := divide error norm

/-- error_calc.cc:300-303: relative difference to the fine one; the absolute difference for small norms. -/
noncomputable def relativeFine (error norm : ℝ) : Quotient :=
  if |norm| > 1 / 1000000000000 then divide error norm else .number error

end Verif.ErrorNorms
