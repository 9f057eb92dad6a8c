import Verif.Model.Q1Grid
import Verif.Model.DirichletSolve
import Verif.Model.SolutionManager

/-!
# One run of the multiscale solver on a structured grid

Source: `msfem/msfem_solver.cc:43-142` with the phases it calls: `msfem/localproblems/localproblemsolver.cc:61-162`,
`msfem/localproblems/localoperator.cc:31-195`, `msfem/coarse_scale_operator.cc:36-138`, `msfem/localsolution_proxy.cc:33-50`.

The phases are those of `Model/LocalAssembly.lean`, `Model/SolutionManager.lean`, `Model/CoarseAssembly.lean`, `Model/Q1Grid.lean` and
`Model/DirichletSolve.lean`, here with the data handed from one to the next.  Simplifications: one process, no oversampling, direct
local solver, exact arithmetic.
-/

namespace Verif.Pipeline
open Matrix Verif.CoarseAssembly Verif.LocalAssembly Verif.LocalSolve Verif.Q1Grid Verif.DirichletSolve

variable {d : ℕ} {R : Type} [Field R]

/-- The functions of a problem (`ProblemContainer`): all are evaluated at positions in the domain.  `flux` is
`DiffusionBase::diffusiveFlux`. -/
structure Data (d : ℕ) (R : Type) where
  diffusion : (Fin d → R) → Matrix (Fin d) (Fin d) R
  flux : (Fin d → R) → (Fin d → R) → (Fin d → R)
  source : (Fin d → R) → R
  neumann : (Fin d → R) → R
  dirichlet : (Fin d → R) → R

/-- Quadrature point of a face functional on a cell of a grid: position in the reference element, weight times integration element. -/
structure FacePoint (d : ℕ) (cells : Fin d → ℕ) (R : Type) where
  cell : CellIndex cells
  pos : Fin d → R
  weight : R

/-- What boundary info and grid determine: Dirichlet nodes of the coarse grid, constrained nodes of the local problems, and
the points on which the face functionals of the coarse (coarse_scale_operator.cc:75-76) and of the local problems
(localoperator.cc:79) act. -/
structure Boundary (S : Setup d R) where
  isDirichlet : Node S.cells → Bool
  constrained : Node S.micro → Bool
  faces : List (FacePoint d S.cells R)
  localFaces : CellIndex S.cells → List (FacePoint d S.micro R)

/-- Linear solvers, validity checks, previous contents of temporaries, number of walks of the local assembler, and the index of
a coarse cell in the index set. -/
structure Machine (S : Setup d R) where
  walks : ℕ
  valid : (Node S.micro → R) → Bool
  solvers : CellIndex S.cells → Solvers (Node S.micro) R
  coarseValid : (Node S.cells → R) → Bool
  coarseSolver : Solver (Node S.cells) R
  tmpMatrix : Fin (2 ^ d) → Fin (2 ^ d) → R
  tmpLoad : Fin (2 ^ d) → R
  index : CellIndex S.cells → ℕ

/-- Position of a point of the reference element of a cell. -/
def globalPos (lower width : Fin d → R) {cells : Fin d → ℕ} (j : CellIndex cells) (x : Fin d → R) : Fin d → R :=
  fun i => lower i + (((j i).1 : R) + x i) * width i

/-- Position of a node of the coarse grid. -/
def nodePos (S : Setup d R) (g : Node S.cells) : Fin d → R := fun i => S.lower i + ((g i).1 : R) * S.width i

/-- `L2Face` on the local grid of a coarse cell (external): the functional of the Neumann data, localoperator.cc:51-52, 79. -/
def localNeumann (S : Setup d R) (B : Boundary S) (g : (Fin d → R) → R) (J : CellIndex S.cells) : Node S.micro → R :=
  (B.localFaces J).foldl (fun b p => (List.finRange (2 ^ d)).foldl (fun b k =>
    addToVec b (cornerNode p.cell (corner k))
      (p.weight * g (globalPos (S.cellLower J) S.localWidth p.cell p.pos) * shape (corner k) p.pos)) b) 0

/-- The points of the coarse face functional with the values of the Neumann data. -/
def neumannPoints (S : Setup d R) (B : Boundary S) (g : (Fin d → R) → R) : List (NeumannPoint S) :=
  B.faces.map fun p => ⟨p.cell, p.pos, p.weight * g (globalPos S.lower S.width p.cell p.pos)⟩

/-- Local problem of a cell. -/
def localCell (S : Setup d R) (B : Boundary S) (P : Data d R) (J : CellIndex S.cells) :
    Cell d (2 ^ d) (2 ^ d) (Node S.micro) R := S.cell B.constrained (localNeumann S B P.neumann J) J

/-- localoperator.cc:60-75: the Dirichlet extension on a coarse cell. -/
def localExtension (S : Setup d R) (B : Boundary S) (P : Data d R) (J : CellIndex S.cells) (k : Fin (2 ^ d)) : R :=
  dirichletProject B.isDirichlet (fun g => P.dirichlet (nodePos S g)) 0 (cornerNode J (corner k))

/-- localproblemsolver.cc:61-162: local solutions of all cells with the key under which they are saved. -/
def localSolutions (S : Setup d R) (B : Boundary S) (P : Data d R) (m : Machine S) :
    Outcome (List (ℕ × List (Node S.micro → R))) :=
  S.order.mapM fun J => do
    let xs ← (localCell S B P J).solve m.valid (m.solvers J) true m.walks P.flux (localExtension S B P J)
    return (m.index J, xs)

/-- coarse_scale_operator.cc:36-138; `loaded` holds for every coarse cell of the walk first the solutions loaded by the assembler of
the matrix, then those loaded by the functional.  Every exception ends the run. -/
def coarseSolution (S : Setup d R) (B : Boundary S) (P : Data d R) (m : Machine S) (loaded : List (List (Node S.micro → R))) :
    Outcome (Node S.cells → R) :=
  let forMatrix := fun J => loaded.getD (2 * S.order.idxOf J) []
  let forLoad := fun J => loaded.getD (2 * S.order.idxOf J + 1) []
  match coarseSolve m.coarseValid m.coarseSolver (S.coarseMatrix P.diffusion forMatrix m.tmpMatrix)
      (S.coarseLoad P.flux P.source forLoad m.tmpLoad (neumannPoints S B P.neumann))
      (fun g => P.dirichlet (nodePos S g)) B.isDirichlet 0 with
  | .ok u => .ok u
  | .invalidState => .throw
  | .other => .throw

/-- Coefficients of a coarse function on the cell with the given index. -/
def coefficients (S : Setup d R) (m : Machine S) (u : Node S.cells → R) (key : ℕ) : List R :=
  List.ofFn fun k : Fin (2 ^ d) =>
    match S.order.find? fun J => m.index J = key with
    | some J => u (cornerNode J (corner k))
    | none => 0

/-- msfem_solver.cc:121-142 `apply`: coarse solution, and the solution on the local grids of the cells in the order of the walk. -/
def apply (S : Setup d R) (B : Boundary S) (P : Data d R) (m : Machine S) :
    Outcome ((Node S.cells → R) × List (Node S.micro → R)) := do
  let cells ← localSolutions S B P m
  let w := Manager.solveAll .init cells
  let (w, loaded) ← Manager.loadAll w (S.order.flatMap fun J => [(m.index J, 2 ^ d + 2), (m.index J, 2 ^ d + 2)])
  let u ← coarseSolution S B P m loaded
  let (_, corrections) ← Manager.reconstructAll (2 ^ d + 2) 0 (fun _ => []) (coefficients S m u) w (S.order.map m.index)
  return (u, List.zipWith (fun J c => (localCell S B P J).add (fun k => u (cornerNode J (corner k))) c) S.order corrections)

end Verif.Pipeline
