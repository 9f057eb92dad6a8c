import Verif.Model.Oversampling
import Verif.Model.Pipeline

/-!
# One run of the multiscale solver with oversampling

Source: `msfem/msfem_solver.cc:43-142` with the phases it calls: `msfem/localproblems/localproblemsolver.cc:61-162`,
`msfem/localproblems/localoperator.cc:31-195`, `msfem/coarse_scale_operator.cc:36-138`, `msfem/coarse_scale_assembler.cc:122-180`,
`msfem/coarse_rhs_functional.cc:117-164`, `msfem/localproblems/localgridlist.cc:119-125`, `msfem/localsolution_proxy.cc:33-50`.

As `Model/Pipeline.lean`, but the local grids are those of `Model/Oversampling.lean`.  All local solutions share one store, so functions
are kept as functions on the nodes of all local grids, zero outside their own grid.  Simplifications: one process, direct local
solver, exact arithmetic.
-/

namespace Verif.Oversampling
open Matrix Verif.CoarseAssembly Verif.LocalAssembly Verif.LocalSolve Verif.LocalGrid Verif.Q1Grid Verif.DirichletSolve Verif.Pipeline

variable {d : ℕ}

/-- Grids and rules without oversampling, number of layers, orders in which the cells of local grids are visited, tolerance of
`checkInside`. -/
structure Layered (d : ℕ) where
  base : Setup d ℚ
  layers : ℕ
  localOrder : (e : Fin d → ℕ) → List (CellIndex e)
  tol : ℚ

/-- The local grids. -/
abbrev Layered.patches (O : Layered d) : Patches d where
  lower := O.base.lower
  width := O.base.width
  cells := O.base.cells
  micro := O.base.micro
  layers := O.layers
  localOrder := O.localOrder
  localRule := O.base.localRule
  tol := O.tol

/-- Coarse cells. -/
abbrev Layered.Coarse (O : Layered d) : Type := CellIndex O.base.cells

/-- Nodes of the local grid of a coarse cell. -/
abbrev Layered.Local (O : Layered d) (J : O.Coarse) : Type := O.patches.LocalNode J

/-- Nodes of all local grids. -/
abbrev Layered.Point (O : Layered d) : Type := Σ J : O.Coarse, O.Local J

/-- A function on the local grid of `J` among functions on all local grids. -/
def Layered.embed (O : Layered d) (J : O.Coarse) (v : O.Local J → ℚ) : O.Point → ℚ :=
  fun p => if h : p.1 = J then v (h ▸ p.2) else 0

/-- Its values on the local grid of `J`. -/
def Layered.part (O : Layered d) (J : O.Coarse) (v : O.Point → ℚ) : O.Local J → ℚ := fun node => v ⟨J, node⟩

/-- What boundary info and grid determine, as in Model/Pipeline. -/
structure Layered.Boundary (O : Layered d) where
  isDirichlet : Node O.base.cells → Bool
  constrained : (J : O.Coarse) → O.Local J → Bool
  faces : List (FacePoint d O.base.cells ℚ)
  localFaces : (J : O.Coarse) → List (FacePoint d (O.patches.grid J).elements ℚ)

/-- Solvers, checks, temporaries, number of walks and indices, as in Model/Pipeline. -/
structure Layered.Machine (O : Layered d) where
  walks : ℕ
  valid : (J : O.Coarse) → (O.Local J → ℚ) → Bool
  solvers : (J : O.Coarse) → Solvers (O.Local J) ℚ
  coarseValid : (Node O.base.cells → ℚ) → Bool
  coarseSolver : Solver (Node O.base.cells) ℚ
  tmpMatrix : Fin (2 ^ d) → Fin (2 ^ d) → ℚ
  tmpLoad : Fin (2 ^ d) → ℚ
  index : O.Coarse → ℕ

/-- `L2Face` on the local grid (external), localoperator.cc:51-52, 79. -/
def Layered.localNeumann (O : Layered d) (B : O.Boundary) (g : (Fin d → ℚ) → ℚ) (J : O.Coarse) : O.Local J → ℚ :=
  (B.localFaces J).foldl (fun b p => (List.finRange (2 ^ d)).foldl (fun b k =>
    addToVec b (cornerNode p.cell (corner k))
      (p.weight * g (globalPos (O.patches.grid J).lower (O.patches.patchWidth J) p.cell p.pos) * shape (corner k) p.pos)) b) 0

/-- localoperator.cc:60-75: the Dirichlet extension in the coarse space. -/
def Layered.extension (O : Layered d) (B : O.Boundary) (P : Data d ℚ) : Node O.base.cells → ℚ :=
  dirichletProject B.isDirichlet (fun g => P.dirichlet (Pipeline.nodePos O.base g)) 0

/-- localproblemsolver.cc:61-162: local solutions of all cells with the key under which they are saved. -/
def Layered.localSolutions (O : Layered d) (B : O.Boundary) (P : Data d ℚ) (m : O.Machine) :
    Outcome (List (ℕ × List (O.Point → ℚ))) :=
  O.base.order.mapM fun J => do
    let xs ← O.patches.solve J (B.constrained J) (O.localNeumann B P.neumann J) (m.valid J) (m.solvers J) true m.walks P.flux
      (O.extension B P)
    return (m.index J, xs.map (O.embed J))

/-- localgridlist.cc:119-125 `covers`: the centre of the local cell is in the coarse cell. -/
def Layered.covers (O : Layered d) (J : O.Coarse) (j : CellIndex (O.patches.grid J).elements) : Bool :=
  O.patches.inside J fun i => (O.patches.grid J).cellCenter i (j i).1

/-- Coarse cell `J` as the assemblers of the coarse system see it; `xs` are its local solutions. -/
def Layered.coarseCell (O : Layered d) (rule : List (QPoint d ℚ)) (J : O.Coarse) (xs : List (O.Local J → ℚ)) :
    CoarseCell d (2 ^ d) (Node O.base.cells) ℚ where
  dofs := fun k => cornerNode J (corner k)
  phi := fun k x => shape (corner k) x
  gradPhi := fun k x i => shapeGrad (corner k) x i / O.base.width i
  toLocal := O.patches.toCoarse J
  cells := (O.localOrder (O.patches.grid J).elements).map fun j =>
    let e := element (O.patches.grid J).lower (O.patches.patchWidth J) rule j
    { covered := O.covers J j
      quad := e.quad
      toGlobal := e.toGlobal
      valQ := fun k => valueOf (xs.getD k.1 0) j
      gradQ := fun k => e.gradOf (xs.getD k.1 0)
      gradDirichlet := e.gradOf (xs.getD (dirichletSlot (2 ^ d)) 0)
      gradNeumann := e.gradOf (xs.getD (neumannSlot (2 ^ d)) 0) }

/-- The coarse matrix before the constraints, coarse_scale_operator.cc:36-92. -/
def Layered.coarseMatrix (O : Layered d) (diffusion : (Fin d → ℚ) → Matrix (Fin d) (Fin d) ℚ)
    (xs : (J : O.Coarse) → List (O.Local J → ℚ)) (tmp : Fin (2 ^ d) → Fin (2 ^ d) → ℚ) :
    Matrix (Node O.base.cells) (Node O.base.cells) ℚ :=
  Matrix.of (assembleMatrix diffusion (O.base.order.map fun J => O.coarseCell O.base.matrixRule J (xs J)) (fun _ _ => 0, tmp)).1

/-- The points of the coarse face functional with the values of the Neumann data. -/
def Layered.neumannPoints (O : Layered d) (B : O.Boundary) (g : (Fin d → ℚ) → ℚ) : List (NeumannPoint O.base) :=
  B.faces.map fun p => ⟨p.cell, p.pos, p.weight * g (globalPos O.base.lower O.base.width p.cell p.pos)⟩

/-- The coarse load before the Dirichlet extension is subtracted, coarse_scale_operator.cc:52-76. -/
def Layered.coarseLoad (O : Layered d) (flux : (Fin d → ℚ) → (Fin d → ℚ) → (Fin d → ℚ)) (source : (Fin d → ℚ) → ℚ)
    (xs : (J : O.Coarse) → List (O.Local J → ℚ)) (tmp : Fin (2 ^ d) → ℚ) (pts : List (NeumannPoint O.base)) :
    Node O.base.cells → ℚ :=
  O.base.addNeumann pts (assembleLoad flux source (O.base.order.map fun J => O.coarseCell O.base.loadRule J (xs J)) (0, tmp)).1

/-- coarse_scale_operator.cc:36-138; `loaded` holds for every coarse cell of the walk first the solutions loaded by the assembler of
the matrix, then those loaded by the functional. -/
def Layered.coarseSolution (O : Layered d) (B : O.Boundary) (P : Data d ℚ) (m : O.Machine) (loaded : List (List (O.Point → ℚ))) :
    Outcome (Node O.base.cells → ℚ) :=
  let forMatrix := fun J => (loaded.getD (2 * O.base.order.idxOf J) []).map (O.part J)
  let forLoad := fun J => (loaded.getD (2 * O.base.order.idxOf J + 1) []).map (O.part J)
  match coarseSolve m.coarseValid m.coarseSolver (O.coarseMatrix P.diffusion forMatrix m.tmpMatrix)
      (O.coarseLoad P.flux P.source forLoad m.tmpLoad (O.neumannPoints B P.neumann))
      (fun g => P.dirichlet (Pipeline.nodePos O.base g)) B.isDirichlet 0 with
  | .ok u => .ok u
  | .invalidState => .throw
  | .other => .throw

/-- The coarse cell with a given index. -/
def Layered.cellOf (O : Layered d) (m : O.Machine) (key : ℕ) : Option O.Coarse := O.base.order.find? fun J => m.index J = key

/-- Coefficients of a coarse function on the cell with the given index. -/
def Layered.coefficients (O : Layered d) (m : O.Machine) (u : Node O.base.cells → ℚ) (key : ℕ) : List ℚ :=
  List.ofFn fun k : Fin (2 ^ d) =>
    match O.cellOf m key with
    | some J => u (cornerNode J (corner k))
    | none => 0

/-- Lagrange points visited on the local grid of the cell with the given index, msfem_solver.cc:86-100. -/
def Layered.visits (O : Layered d) (m : O.Machine) (key : ℕ) : List (O.Point × Bool) :=
  match O.cellOf m key with
  | some J => (O.patches.visits J).map fun p => (⟨J, p.1⟩, p.2)
  | none => []

/-- msfem_solver.cc:121-142 `apply`: coarse solution, and the solution on the local grids of the cells in the order of the walk. -/
def Layered.apply (O : Layered d) (B : O.Boundary) (P : Data d ℚ) (m : O.Machine) :
    Outcome ((Node O.base.cells → ℚ) × List (O.Point → ℚ)) := do
  let cells ← O.localSolutions B P m
  let w := Manager.solveAll .init cells
  let (w, loaded) ← Manager.loadAll w (O.base.order.flatMap fun J => [(m.index J, 2 ^ d + 2), (m.index J, 2 ^ d + 2)])
  let u ← O.coarseSolution B P m loaded
  let (_, corrections) ← Manager.reconstructAll (2 ^ d + 2) O.layers (O.visits m) (O.coefficients m u) w (O.base.order.map m.index)
  return (u, List.zipWith (fun J c => O.embed J (O.part J c + O.patches.prolong J u)) O.base.order corrections)

end Verif.Oversampling
