import Verif.Model.Q1Grid
import Verif.Model.LocalGrid
import Mathlib.Algebra.Order.Group.Abs

/-!
# Local problems with oversampling

Source: `msfem/localproblems/localgridlist.cc:45-74` (local grid of a coarse cell and the layers around it),
`msfem/localproblems/localoperator.cc:31-170`, `msfem/localproblems/localproblemsolver.cc:61-114`,
`msfem/msfem_solver.cc:54-118`, `msfem/localsolution_proxy.cc:33-50`.

Structured grids and multilinear elements as in `Verif.Model.Q1Grid`; arithmetic is exact.
-/

namespace Verif.Oversampling
open Matrix Verif.CoarseAssembly Verif.LocalAssembly Verif.LocalSolve Verif.LocalGrid Verif.Q1Grid

variable {d : ℕ}

/-- Coarse grid, refinement and oversampling.  `localOrder` is the order in which the cells of a structured grid with the
given numbers of cells are visited, `tol` the tolerance of `checkInside` (dune-geometry, external). -/
structure Patches (d : ℕ) where
  lower : Fin d → ℚ
  width : Fin d → ℚ
  cells : Fin d → ℕ
  micro : Fin d → ℕ
  layers : ℕ
  localOrder : (e : Fin d → ℕ) → List (CellIndex e)
  localRule : List (QPoint d ℚ)
  tol : ℚ

/-- What localgridlist.cc:59-70 works on for coarse cell `J`. -/
def Patches.dir (P : Patches d) (J : CellIndex P.cells) (i : Fin d) : DirInput :=
  coarseCell (P.lower i) (P.lower i + (P.cells i : ℚ) * P.width i) (P.cells i) (J i).1 (P.micro i) P.layers

/-- The local grid of coarse cell `J`, localgridlist.cc:56-73. -/
def Patches.grid (P : Patches d) (J : CellIndex P.cells) : CubeGrid d := makeLocalGrid (P.dir J)

/-- Nodes of the local grid. -/
abbrev Patches.LocalNode (P : Patches d) (J : CellIndex P.cells) : Type := Node (P.grid J).elements

/-- Edge lengths of its cells. -/
def Patches.patchWidth (P : Patches d) (J : CellIndex P.cells) (i : Fin d) : ℚ :=
  ((P.grid J).upper i - (P.grid J).lower i) / ((P.grid J).elements i : ℚ)

/-- Position of a node of the local grid. -/
def Patches.nodePos (P : Patches d) (J : CellIndex P.cells) (node : P.LocalNode J) (i : Fin d) : ℚ :=
  (P.grid J).lower i + ((node i).1 : ℚ) * P.patchWidth J i

/-- Lower corner of a coarse cell. -/
def Patches.cellLower (P : Patches d) (J : CellIndex P.cells) (i : Fin d) : ℚ := P.lower i + ((J i).1 : ℚ) * P.width i

/-- `coarse_entity.geometry().local`. -/
def Patches.toCoarse (P : Patches d) (J : CellIndex P.cells) (x : Fin d → ℚ) (i : Fin d) : ℚ :=
  (x i - P.cellLower J i) / P.width i

/-- The local problem of coarse cell `J`.  The functionals evaluate the coarse basis functions of `J` also outside the coarse
cell (diffusion_evaluation.hh:112-118 converts the point to coordinates of the coarse cell), so `nodal` are the basis
functions continued as polynomials.  Boundary correctors are computed if the coarse cell, not the patch, has
faces on the boundary (localproblemsolver.cc:67, localoperator.cc:126). -/
def Patches.cell (P : Patches d) (J : CellIndex P.cells) (constrained : P.LocalNode J → Bool) (neumann : P.LocalNode J → ℚ) :
    Cell d (2 ^ d) (2 ^ d) (P.LocalNode J) ℚ where
  elements := (P.localOrder (P.grid J).elements).map (element (P.grid J).lower (P.patchWidth J) P.localRule)
  constrained := constrained
  hasBoundary := decide (∃ i, (J i).1 = 0 ∨ (J i).1 + 1 = P.cells i)
  toCoarse := P.toCoarse J
  coarseJac := fun k x i => shapeGrad (corner k) x i / P.width i
  nodal := fun k node => shape (corner k) (P.toCoarse J (P.nodePos J node))
  neumann := neumann

/-- Value at `x` of the function of the coarse space with coefficients `u`: sum of the hat functions of the coarse grid. -/
def Patches.coarseValue (P : Patches d) (u : Node P.cells → ℚ) (x : Fin d → ℚ) : ℚ :=
  ∑ g : Node P.cells, u g * ∏ i, max 0 (1 - |(x i - P.lower i) / P.width i - ((g i).1 : ℚ)|)

/-- `LagrangeProlongation` of a coarse function to the local grid (localoperator.cc:75-76, localsolution_proxy.cc:42-47);
on the patch it is the coarse function, not the continuation of its part on the coarse cell. -/
def Patches.prolong (P : Patches d) (J : CellIndex P.cells) (u : Node P.cells → ℚ) (node : P.LocalNode J) : ℚ :=
  P.coarseValue u (P.nodePos J node)

/-- localproblemsolver.cc:61-114 for coarse cell `J`; `ext` is the Dirichlet extension in the coarse space (localoperator.cc:61-77). -/
def Patches.solve (P : Patches d) (J : CellIndex P.cells) (constrained : P.LocalNode J → Bool) (neumann : P.LocalNode J → ℚ)
    (valid : (P.LocalNode J → ℚ) → Bool) (s : Solvers (P.LocalNode J) ℚ) (umfpack : Bool) (walks : ℕ)
    (flux : (Fin d → ℚ) → (Fin d → ℚ) → (Fin d → ℚ)) (ext : Node P.cells → ℚ) : Outcome (List (P.LocalNode J → ℚ)) :=
  let K := P.cell J constrained neumann
  solveCell valid s umfpack false K.hasBoundary (2 ^ d + 2) constrained (K.inner walks flux) (K.neumannRhs walks)
    (repeatWalk walks (addFunctional (dirichletProduct flux (P.prolong J ext)) K.elements) 0)

/-- `reference_element.checkInside(coarse_geometry.local(x))`, msfem_solver.cc:93-97. -/
def Patches.inside (P : Patches d) (J : CellIndex P.cells) (x : Fin d → ℚ) : Bool :=
  decide (∀ i, -P.tol ≤ P.toCoarse J x i ∧ P.toCoarse J x i ≤ 1 + P.tol)

/-- msfem_solver.cc:86-100: the Lagrange points in the order in which they are visited. -/
def Patches.visits (P : Patches d) (J : CellIndex P.cells) : List (P.LocalNode J × Bool) :=
  (P.localOrder (P.grid J).elements).flatMap fun j => (List.finRange (2 ^ d)).map fun k =>
    (cornerNode j (corner k), P.inside J (P.nodePos J (cornerNode j (corner k))))

/-- msfem_solver.cc:121-143 `apply` as far as coarse cell `J` is concerned: `cells` are stored local solutions (of the
cells with as many local cells as `J`), `key` is the index of `J`, `u` the coarse solution. -/
def Patches.solution (P : Patches d) (J : CellIndex P.cells) (cells : List (ℕ × List (P.LocalNode J → ℚ))) (key : ℕ)
    (u : Node P.cells → ℚ) : Outcome (P.LocalNode J → ℚ) := do
  let (_, correction) ← Manager.reconstruct (2 ^ d + 2) P.layers (P.visits J) (Manager.solveAll .init cells) key
    (List.ofFn fun k : Fin (2 ^ d) => u (cornerNode J (corner k)))
  return correction + P.prolong J u

end Verif.Oversampling
