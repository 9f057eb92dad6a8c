import Verif.Model.Outcome
import Verif.Model.Q1Grid

/-!
# The flow through the left side of the domain

Source: `common/error_calc.cc:337-384` `surface_flow_gdt` and its call in `ErrorCalculator::print`, lines 184-187.

Faces, quadrature rules and the gradient of a discrete function come from dune-grid, dune-geometry and dune-pdelab
(external).  The world has dimension `n + 1`; arithmetic is exact.  A new discrete function has coefficients zero
(dune-gdt, external).
-/

namespace Verif.Flow
open Verif.Q1Grid

variable {n : ℕ} {R : Type} [Field R] [DecidableEq R]

/-- An intersection as the function uses it; faces have local coordinates in `Fin n → R`. -/
structure Face (n : ℕ) (R : Type) where
  boundary : Bool
  centre : Fin (n + 1) → R
  volume : R
  toGlobal : (Fin n → R) → Fin (n + 1) → R

/-- A cell of the interior partition with its intersections; `jacobian` is the gradient of the local function of the
solution and takes a position in the reference element. -/
structure FlowCell (n : ℕ) (R : Type) where
  jacobian : (Fin (n + 1) → R) → Fin (n + 1) → R
  faces : List (Face n R)

/-- Points of `QRS::rule(type, 2)`. -/
structure FacePoint (n : ℕ) (R : Type) where
  pos : Fin n → R
  weight : R

/-- error_calc.cc:368-379: one intersection.  The position given to `jacobian` is the global one, line 376. -/
def faceFlow (diffusion : (Fin (n + 1) → R) → Matrix (Fin (n + 1)) (Fin (n + 1)) R) (rule : List (FacePoint n R))
    (cell : FlowCell n R) (localFlux : R) (face : Face n R) : R :=
  if face.boundary ∧ face.centre 0 = 0 then
    rule.foldl (fun localFlux q =>
      let pos := face.toGlobal q.pos
      localFlux - q.weight * face.volume * diffusion pos 0 0 * cell.jacobian pos 0) localFlux
  else localFlux

/-- error_calc.cc:353-381: the flux of one process.  Line 357 dereferences the iterator to the first interior cell without asking
whether there is one. -/
def localFlow (diffusion : (Fin (n + 1) → R) → Matrix (Fin (n + 1)) (Fin (n + 1)) R) (rule : List (FacePoint n R))
    (cells : List (FlowCell n R)) : Outcome R :=
  if cells.isEmpty then .ub
  else .ok (cells.foldl (fun localFlux cell => cell.faces.foldl (faceFlow diffusion rule cell) localFlux) 0)

/-- error_calc.cc:382: the sum over all processes. -/
def surfaceFlow (diffusion : (Fin (n + 1) → R) → Matrix (Fin (n + 1)) (Fin (n + 1)) R) (rule : List (FacePoint n R))
    (processes : List (List (FlowCell n R))) : Outcome R :=
  processes.foldl (fun sum cells => sum >>= fun s => localFlow diffusion rule cells >>= fun x => .ok (s + x)) (.ok 0)

/-- A structured grid. -/
structure Grid (n : ℕ) (R : Type) where
  lower : Fin (n + 1) → R
  width : Fin (n + 1) → R
  cells : Fin (n + 1) → ℕ

/-- Position in the domain of a position in the reference element of cell `j`. -/
def Grid.toGlobal (G : Grid n R) (j : CellIndex G.cells) (x : Fin (n + 1) → R) : Fin (n + 1) → R :=
  fun i => G.lower i + (((j i).1 : R) + x i) * G.width i

/-- Face of cell `j` in direction `i`, lower or upper. -/
def Grid.face (G : Grid n R) (j : CellIndex G.cells) (i : Fin (n + 1)) (upper : Bool) : Face n R where
  boundary := if upper then decide ((j i).1 + 1 = G.cells i) else decide ((j i).1 = 0)
  centre := G.toGlobal j (i.insertNth (if upper then 1 else 0) fun _ => 1 / 2)
  volume := ∏ m : Fin n, G.width (i.succAbove m)
  toGlobal := fun s => G.toGlobal j (i.insertNth (if upper then 1 else 0) s)

/-- Cell `j` with the discrete function with coefficients `u`. -/
def Grid.flowCell (G : Grid n R) (u : Node G.cells → R) (j : CellIndex G.cells) : FlowCell n R where
  jacobian := fun x i => ∑ k : Fin (2 ^ (n + 1)), u (cornerNode j (corner k)) * (shapeGrad (corner k) x i / G.width i)
  faces := (List.finRange (n + 1)).flatMap fun i => [G.face j i false, G.face j i true]

/-- `surface_flow_gdt` for a discrete function; `parts` are the interior cells of the processes. -/
def Grid.flow (G : Grid n R) (diffusion : (Fin (n + 1) → R) → Matrix (Fin (n + 1)) (Fin (n + 1)) R)
    (rule : List (FacePoint n R)) (parts : List (List (CellIndex G.cells))) (u : Node G.cells → R) : Outcome R :=
  surfaceFlow diffusion rule (parts.map fun part => part.map (G.flowCell u))

/-- error_calc.cc:184-187: the value written to the log after `FLOW`.  The multiscale solution is not used: `coarse_fun` is a new
discrete function. -/
def Grid.printFlow (G : Grid n R) (diffusion : (Fin (n + 1) → R) → Matrix (Fin (n + 1)) (Fin (n + 1)) R)
    (rule : List (FacePoint n R)) (parts : List (List (CellIndex G.cells))) (_msfemSolution : Node G.cells → R) : Outcome R :=
  G.flow diffusion rule parts fun _ => 0

end Verif.Flow
