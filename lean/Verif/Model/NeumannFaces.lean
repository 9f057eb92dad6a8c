import Verif.Model.Pipeline

/-!
# Faces on which the Neumann functionals act

Source: `msfem/localproblems/localoperator.cc:36-37, 51-52, 77-81` (local problems), `msfem/coarse_scale_operator.cc:69-76` (coarse problem).

The walk over the grid, intersections and quadrature rules on faces come from dune-stuff, dune-grid and dune-geometry (external).
A walk visits the intersections of every cell, so a face between two cells is visited from both sides.  A functional that is added without
a second argument acts on all intersections (default `ApplyOn::AllIntersections` of the walker).  The world has dimension `n + 1`.
-/

namespace Verif.Pipeline
open Verif.LocalAssembly Verif.Q1Grid Verif.Boundary

variable {n : ℕ} {R : Type} [Field R]

/-- A point of a quadrature rule on the reference face. -/
structure FaceRulePoint (n : ℕ) (R : Type) where
  pos : Fin n → R
  weight : R

/-- Intersections of a cell of a structured grid. -/
def intersections (n : ℕ) : List (Face (n + 1)) := (List.finRange (n + 1)).flatMap fun i => [(i, false), (i, true)]

/-- `intersection.boundary()`. -/
def isBoundary {cells : Fin (n + 1) → ℕ} (j : CellIndex cells) (f : Face (n + 1)) : Bool :=
  if f.2 then (j f.1).1 + 1 == cells f.1 else (j f.1).1 == 0

/-- Quadrature points of a face of cell `j`: position in the reference element of the cell, weight times integration element. -/
def facePoints (width : Fin (n + 1) → R) (rule : List (FaceRulePoint n R)) {cells : Fin (n + 1) → ℕ} (j : CellIndex cells)
    (f : Face (n + 1)) : List (FacePoint (n + 1) cells R) :=
  rule.map fun q => ⟨j, f.1.insertNth (if f.2 then 1 else 0) q.pos, q.weight * ∏ m : Fin n, width (f.1.succAbove m)⟩

/-- Points of all selected intersections in the order of the walk. -/
def walkFaces (width : Fin (n + 1) → R) (rule : List (FaceRulePoint n R)) {cells : Fin (n + 1) → ℕ} (order : List (CellIndex cells))
    (which : CellIndex cells → Face (n + 1) → Bool) : List (FacePoint (n + 1) cells R) :=
  order.flatMap fun j => ((intersections n).filter (which j)).flatMap (facePoints width rule j)

/-- `ApplyOn::NeumannIntersections` (dune-stuff, external). -/
def neumannIntersections (close : (Fin (n + 1) → ℚ) → (Fin (n + 1) → ℚ) → Bool) (info : Info (n + 1))
    (normal : Face (n + 1) → Fin (n + 1) → ℚ) {cells : Fin (n + 1) → ℕ} (j : CellIndex cells) (f : Face (n + 1)) : Bool :=
  isBoundary j f && info.neumann close (normal f)

/-- `ApplyOn::AllIntersections` (dune-stuff, external). -/
def allIntersections {cells : Fin (n + 1) → ℕ} (_j : CellIndex cells) (_f : Face (n + 1)) : Bool := true

/-- The boundary of a problem on a structured grid: constraints (coarse_scale_operator.cc:83-91, localoperator.cc:102, 158) and
the points of the Neumann functionals, coarse_scale_operator.cc:75-76 with, localoperator.cc:79 without a
condition on the intersections. -/
def boundaryOf (S : Setup (n + 1) R) (close : (Fin (n + 1) → ℚ) → (Fin (n + 1) → ℚ) → Bool) (info subInfo : Info (n + 1))
    (normal : Face (n + 1) → Fin (n + 1) → ℚ) (rule localRule : List (FaceRulePoint n R)) : Boundary S where
  isDirichlet g := constrainedNode close info normal S.cells fun i => (g i).1
  constrained g := constrainedNode close subInfo normal S.micro fun i => (g i).1
  faces := walkFaces S.width rule S.order (neumannIntersections close info normal)
  localFaces _ := walkFaces S.localWidth localRule S.localOrder allIntersections

end Verif.Pipeline
