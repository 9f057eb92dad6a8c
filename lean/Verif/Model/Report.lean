import Verif.Model.ErrorNorms
import Verif.Model.Projection

/-!
# From the multiscale solution to the reported numbers

Source: `common/error_calc.cc:146-178` (grids, coarse finite element solution, prolongation, projection), `229-241` and `285-297` (norm of
the multiscale solution, difference to the coarse finite element solution); `common/heterogenous.cc:10-96`.

One process, structured grids, multilinear elements, no oversampling.  The search finds the local cell that corresponds to the fine cell, or a
neighbour of it in the same local grid, which has the same value at the common node (Model/Proxy has the search).
-/

namespace Verif.Report
open Verif.Q1Grid Verif.FemSolver Verif.ErrorNorms Verif.Projection

variable {d : ℕ} {R : Type} [Field R]

/-- Cells of the fine grid, grid_creation.cc:86-103. -/
def fineCells (S : Setup d R) : Fin d → ℕ := fun i => S.cells i * S.micro i

/-- The fine grid on which the norms are computed, error_calc.cc:146-159; `order` is the order of the walk. -/
def fineGrid (S : Setup d R) (order : List (CellIndex (fineCells S))) : Grid d R where
  lower := S.lower
  width := S.localWidth
  cells := fineCells S
  order := order
  matrixRule := []
  loadRule := []

/-- The coarse cell which the search finds for a fine cell. -/
def coarseOf (S : Setup d R) (j : CellIndex (fineCells S)) : CellIndex S.cells :=
  fun i => ⟨(j i).1 / S.micro i, Nat.div_lt_of_lt_mul ((j i).2.trans_eq (Nat.mul_comm _ _))⟩

/-- The cell of the local grid that corresponds to a fine cell. -/
def localOf (S : Setup d R) (j : CellIndex (fineCells S)) : CellIndex S.micro :=
  fun i => ⟨(j i).1 % S.micro i, Nat.mod_lt _ (Nat.pos_of_ne_zero fun h => by
    have := (j i).2
    simp [fineCells, h] at this)⟩

/-- A fine cell in the projection: its nodes, and the values of the multiscale solution there; `f J` are the nodal values on coarse cell `J`
(heterogenous.cc:25-45). -/
def fineElement (S : Setup d R) (f : CellIndex S.cells → Node S.micro → R) (j : CellIndex (fineCells S)) :
    Elem (Node (fineCells S)) R where
  interior := true
  nodes := (List.finRange (2 ^ d)).map fun k => cornerNode j (corner k)
  values := (List.finRange (2 ^ d)).map fun k => some (f (coarseOf S j) (cornerNode (localOf S j) (corner k)))

/-- error_calc.cc:175-178: the multiscale solution on the fine grid. `order` is the order of the walk, `leaf` that of the leaf view, `old` the
content of the new function. -/
def msfemOnFine (S : Setup d R) (m : WriteMode) (f : CellIndex S.cells → Node S.micro → R)
    (order leaf : List (CellIndex (fineCells S))) (old : Node (fineCells S) → R) : Outcome (Node (fineCells S) → R) :=
  project m (order.map (fineElement S f)) (leaf.map (fineElement S f)) old

/-- error_calc.cc:165-167, `LagrangeProlongation` (dune-gdt, external): the value of the coarse function at a fine node, evaluated in the coarse
cell `host n` in which the node was found. -/
def prolong (S : Setup d R) (host : Node (fineCells S) → CellIndex S.cells) (u : Node S.cells → R) : Node (fineCells S) → R :=
  fun n => valueOf u (host n) fun i => ((n i).1 : R) / (S.micro i : R) - ((host n i).1 : R)

/-- The numbers of error_calc.cc:285-297: `msfem_L2`, `msfem_coarse_fem_L2`, `msfem_coarse_fem_H1s` and the printed quotient. -/
structure Numbers where
  norm : ℝ
  coarseL2 : ℝ
  coarseH1 : ℝ
  relative : ErrorNorms.Quotient

/-- error_calc.cc:229-241, 285-297 for the projected solution `w` and the prolonged coarse solution `c`. -/
noncomputable def numbers (gauss : ℕ → List (ℝ × ℝ)) (G : Grid d ℝ) (over : ℕ) (w c : Node G.cells → ℝ) : Numbers :=
  let norm := l2 gauss G over (discrete G w)
  let error := l2 gauss G over (difference (discrete G w) (discrete G c))
  { norm := norm
    coarseL2 := error
    coarseH1 := semi gauss G over (difference (discrete G w) (discrete G c))
    relative := relativeCoarse error norm }

/-- The part of `print` from the multiscale solution to its numbers; `u` is the coarse finite element solution. -/
noncomputable def report (S : Setup d ℝ) (m : WriteMode) (gauss : ℕ → List (ℝ × ℝ)) (over : ℕ)
    (f : CellIndex S.cells → Node S.micro → ℝ) (order leaf : List (CellIndex (fineCells S)))
    (host : Node (fineCells S) → CellIndex S.cells) (u : Node S.cells → ℝ) : Outcome Numbers :=
  msfemOnFine S m f order leaf 0 >>= fun w => .ok (numbers gauss (fineGrid S order) over w (prolong S host u))

end Verif.Report
