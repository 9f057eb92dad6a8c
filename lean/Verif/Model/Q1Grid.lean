import Verif.Model.LocalAssembly
import Verif.Model.Boundary
import Mathlib.Algebra.BigOperators.Pi
import Mathlib.Data.Fintype.Pi
import Mathlib.Data.Nat.Bitwise

/-!
# Coarse and local problems on structured grids with multilinear elements

Source: `common/grid_creation.cc:24-99` (structured grids), `msfem/localproblems/localgridlist.cc:45-74` (the local grid of a
coarse cell is a structured grid of the cell, without oversampling), `common/traits.hh:57-62` and
`config.h.cmake:61` (continuous spaces of order one), `msfem/coarse_scale_assembler.cc:35-180`, `msfem/coarse_rhs_functional.cc:27-164`,
`msfem/coarse_scale_operator.cc:36-92`.

Shape functions, numbering of corners and grids come from dune-pdelab, dune-geometry and dune-grid (external,
transcribed).  Arithmetic is exact.  A grid has `cells i` cells in direction `i`; nodes and cells are given by
their position in each direction.
-/

namespace Verif.Q1Grid
open Matrix Verif.CoarseAssembly Verif.LocalAssembly Verif.LocalSolve

variable {d : ℕ} {R : Type} [Field R]

/-- Nodes of a structured grid. -/
abbrev Node (cells : Fin d → ℕ) : Type := ∀ i, Fin (cells i + 1)

/-- Cells of a structured grid. -/
abbrev CellIndex (cells : Fin d → ℕ) : Type := ∀ i, Fin (cells i)

/-- Corner `k` of the reference cube: bit `l` of `k` is coordinate `l` (dune-geometry, external). -/
def corner (k : Fin (2 ^ d)) (l : Fin d) : Bool := k.1.testBit l.1

/-- Linear shape function on the unit interval and its derivative. -/
def hat (b : Bool) (t : R) : R := if b then t else 1 - t
def hatSlope (b : Bool) : R := if b then 1 else -1

/-- Multilinear shape function of the corner `v` of the reference cube (dune-localfunctions, external). -/
def shape (v : Fin d → Bool) (x : Fin d → R) : R := ∏ l, hat (v l) (x l)

/-- Its gradient. -/
def shapeGrad (v : Fin d → Bool) (x : Fin d → R) (i : Fin d) : R :=
  ∏ l, if l = i then hatSlope (v l) else hat (v l) (x l)

/-- Node at corner `v` of cell `j`. -/
def cornerNode {cells : Fin d → ℕ} (j : CellIndex cells) (v : Fin d → Bool) : Node cells :=
  fun i => if v i then (j i).succ else (j i).castSucc

/-- A quadrature rule of the reference cube on a cell with the given edge lengths: weight times integration element. -/
def scaleRule (width : Fin d → R) (rule : List (QPoint d R)) : List (QPoint d R) :=
  rule.map fun q => ⟨q.pos, q.weight * ∏ i, width i⟩

/-- Cell `j` of a structured grid with lower corner `lower` and edge lengths `width`. -/
def element (lower width : Fin d → R) {cells : Fin d → ℕ} (rule : List (QPoint d R)) (j : CellIndex cells) :
    Element d (2 ^ d) (Node cells) R where
  dofs := fun k => cornerNode j (corner k)
  grad := fun k x i => shapeGrad (corner k) x i / width i
  toGlobal := fun x i => lower i + (((j i).1 : R) + x i) * width i
  quad := scaleRule width rule
  quadOp := scaleRule width rule

/-- Coarse grid, local grids and quadrature rules.  The lists are the orders in which the cells are visited. -/
structure Setup (d : ℕ) (R : Type) where
  lower : Fin d → R
  width : Fin d → R
  /-- coarse cells per direction -/
  cells : Fin d → ℕ
  /-- local cells per direction in each coarse cell -/
  micro : Fin d → ℕ
  order : List (CellIndex cells)
  localOrder : List (CellIndex micro)
  /-- rule of the local problems -/
  localRule : List (QPoint d R)
  /-- rule of the coarse matrix (coarse_scale_assembler.cc:46-50) -/
  matrixRule : List (QPoint d R)
  /-- rule of the coarse load (coarse_rhs_functional.cc:37-43) -/
  loadRule : List (QPoint d R)

/-- Lower corner of a coarse cell. -/
def Setup.cellLower (S : Setup d R) (J : CellIndex S.cells) : Fin d → R :=
  fun i => S.lower i + ((J i).1 : R) * S.width i

/-- Edge lengths of the local cells. -/
def Setup.localWidth (S : Setup d R) : Fin d → R := fun i => S.width i / (S.micro i : R)

/-- The local problem of coarse cell `J` (without oversampling). -/
def Setup.cell (S : Setup d R) (constrained : Node S.micro → Bool) (neumann : Node S.micro → R) (J : CellIndex S.cells) :
    Cell d (2 ^ d) (2 ^ d) (Node S.micro) R where
  elements := S.localOrder.map (element (S.cellLower J) S.localWidth S.localRule)
  constrained := constrained
  hasBoundary := decide (∃ i, (J i).1 = 0 ∨ (J i).1 + 1 = S.cells i)
  toCoarse := fun x i => (x i - S.cellLower J i) / S.width i
  coarseJac := fun k x i => shapeGrad (corner k) x i / S.width i
  nodal := fun k node => shape (corner k) fun i => ((node i).1 : R) / (S.micro i : R)
  neumann := neumann

/-- Value of a discrete function on cell `j` of the local grid. -/
def valueOf {cells : Fin d → ℕ} (v : Node cells → R) (j : CellIndex cells) (x : Fin d → R) : R :=
  ∑ k : Fin (2 ^ d), v (cornerNode j (corner k)) * shape (corner k) x

/-- Coarse cell `J` as the assemblers of the coarse system see it; `xs` are its local solutions, in the slots of
coarse_rhs_functional.cc:88-102 and coarse_scale_assembler.cc:92-98.  Every local cell is covered by the
coarse cell. -/
def Setup.coarseCell (S : Setup d R) (rule : List (QPoint d R)) (J : CellIndex S.cells) (xs : List (Node S.micro → R)) :
    CoarseCell d (2 ^ d) (Node S.cells) R where
  dofs := fun k => cornerNode J (corner k)
  phi := fun k x => shape (corner k) x
  gradPhi := fun k x i => shapeGrad (corner k) x i / S.width i
  toLocal := fun x i => (x i - S.cellLower J i) / S.width i
  cells := S.localOrder.map fun j =>
    let e := element (S.cellLower J) S.localWidth rule j
    { covered := true
      quad := e.quad
      toGlobal := e.toGlobal
      valQ := fun k => valueOf (xs.getD k.1 0) j
      gradQ := fun k => e.gradOf (xs.getD k.1 0)
      gradDirichlet := e.gradOf (xs.getD (dirichletSlot (2 ^ d)) 0)
      gradNeumann := e.gradOf (xs.getD (neumannSlot (2 ^ d)) 0) }

/-- The coarse matrix before the constraints, coarse_scale_operator.cc:36-92; `xs J` are the local solutions of cell `J`, `tmp` the
previous content of the temporary. -/
def Setup.coarseMatrix (S : Setup d R) (diffusion : (Fin d → R) → Matrix (Fin d) (Fin d) R)
    (xs : CellIndex S.cells → List (Node S.micro → R)) (tmp : Fin (2 ^ d) → Fin (2 ^ d) → R) :
    Matrix (Node S.cells) (Node S.cells) R :=
  Matrix.of (assembleMatrix diffusion (S.order.map fun J => S.coarseCell S.matrixRule J (xs J)) (fun _ _ => 0, tmp)).1

/-- A quadrature point on a Neumann face of the boundary: the coarse cell, the position in its reference element, and weight times
integration element times value of the Neumann data. -/
structure NeumannPoint (S : Setup d R) where
  cell : CellIndex S.cells
  pos : Fin d → R
  value : R

/-- `GDT::Functionals::L2Face` on the coarse grid (external), coarse_scale_operator.cc:69-76. -/
def Setup.addNeumann (S : Setup d R) (pts : List (NeumannPoint S)) (b : Node S.cells → R) : Node S.cells → R :=
  pts.foldl (fun b p => (List.finRange (2 ^ d)).foldl (fun b k =>
    addToVec b (cornerNode p.cell (corner k)) (p.value * shape (corner k) p.pos)) b) b

/-- The coarse load before the Dirichlet extension is subtracted, coarse_scale_operator.cc:52-76. -/
def Setup.coarseLoad (S : Setup d R) (flux : (Fin d → R) → (Fin d → R) → (Fin d → R)) (source : (Fin d → R) → R)
    (xs : CellIndex S.cells → List (Node S.micro → R)) (tmp : Fin (2 ^ d) → R) (pts : List (NeumannPoint S)) :
    Node S.cells → R :=
  S.addNeumann pts (assembleLoad flux source (S.order.map fun J => S.coarseCell S.loadRule J (xs J)) (0, tmp)).1

end Verif.Q1Grid
