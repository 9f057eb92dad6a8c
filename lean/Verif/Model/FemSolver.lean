import Verif.Model.Q1Grid
import Verif.Model.DirichletSolve

/-!
# The reference solution on a structured grid

Source: `msfem/fem_solver.cc:49-131` `Elliptic_FEM_Solver::apply`, with the assemblers of dune-gdt (external) on a structured grid with
multilinear elements.  `coarse_scale_operator.cc:71-91` has the same sequence of calls.

The assembler walks over the grid twice: lines 83-88 with operator, functionals and projection, line 100 for the constraints.
Whether the functors of the first walk are still registered in the second one depends on the version of
dune-stuff; this is the parameter `forgets`.
-/

namespace Verif.FemSolver
open Matrix Verif.CoarseAssembly Verif.LocalAssembly Verif.LocalSolve Verif.Q1Grid Verif.DirichletSolve

variable {d : ℕ} {R : Type} [Field R]

/-- The grid of the solver, order of the walk and quadrature rules of operator and volume functional. -/
structure Grid (d : ℕ) (R : Type) where
  lower : Fin d → R
  width : Fin d → R
  cells : Fin d → ℕ
  order : List (CellIndex cells)
  matrixRule : List (QPoint d R)
  loadRule : List (QPoint d R)

/-- The cells in the order of the walk. -/
def Grid.elements (G : Grid d R) (rule : List (QPoint d R)) : List (Element d (2 ^ d) (Node G.cells) R) :=
  G.order.map (element G.lower G.width rule)

/-- Integrand of `GDT::Functionals::L2Volume` with the source, fem_solver.cc:70-71 (external). -/
def sourceProduct (source : (Fin d → R) → R) {cells : Fin d → ℕ} (e : Element d (2 ^ d) (Node cells) R) (x : Fin d → R)
    (k : Fin (2 ^ d)) : R := source (e.toGlobal x) * shape (corner k) x

/-- Matrix and right-hand side during one walk with the functors of fem_solver.cc:84-86; `neumann` is the functional of the Neumann
data. -/
def Grid.pass (G : Grid d R) (diffusion : (Fin d → R) → Matrix (Fin d) (Fin d) R) (source : (Fin d → R) → R)
    (neumann : Node G.cells → R) (s : (Node G.cells → Node G.cells → R) × (Node G.cells → R)) :
    (Node G.cells → Node G.cells → R) × (Node G.cells → R) :=
  (addElliptic diffusion (G.elements G.matrixRule) s.1,
    addFunctional (sourceProduct source) (G.elements G.loadRule) s.2 + neumann)

/-- fem_solver.cc:88-101: first walk, subtract the action on the extension `g`, second walk, constraints. -/
def Grid.system (G : Grid d R) (forgets : Bool) (diffusion : (Fin d → R) → Matrix (Fin d) (Fin d) R) (source : (Fin d → R) → R)
    (neumann : Node G.cells → R) (D : Node G.cells → Bool) (g : Node G.cells → R) : System (Node G.cells) R :=
  let first := G.pass diffusion source neumann (fun _ _ => 0, 0)
  let tmp := Matrix.of first.1 *ᵥ g
  let rhs := first.2 - tmp
  let second := if forgets then (first.1, rhs) else G.pass diffusion source neumann (first.1, rhs)
  { matrix := constrainMat D (Matrix.of second.1), rhs := constrainVec D second.2, extension := g }

/-- fem_solver.cc:49-131; `old` is the content of `solution` on entry.  The projection of the Dirichlet data writes the same values in
both walks. -/
def Grid.apply (G : Grid d R) (forgets : Bool) (s : Solver (Node G.cells) R) (diffusion : (Fin d → R) → Matrix (Fin d) (Fin d) R)
    (source : (Fin d → R) → R) (neumann data : Node G.cells → R) (D : Node G.cells → Bool) (old : Node G.cells → R) :
    SolveOutcome (Node G.cells → R) :=
  let sys := G.system forgets diffusion source neumann D (dirichletProject D data old)
  match s sys.matrix sys.rhs old with
  | .ok x => .ok (x + sys.extension)
  | .failed => .other
  | .other => .other

end Verif.FemSolver
