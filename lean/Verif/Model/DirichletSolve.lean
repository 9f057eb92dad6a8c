import Verif.Model.LocalSolve

/-!
# Global solves with Dirichlet data: coarse MsFEM system and fine FEM system

Source: `msfem/coarse_scale_operator.cc:36-138`, `msfem/fem_solver.cc:49-131`.

Degrees of freedom are `ι`, coefficients `R` in exact arithmetic (`Add`, `Sub` only where validity is the topic).
The assembled matrix `A` and load vector (volume and Neumann part) are data; the
coarse ones are the subject of `Model/CoarseAssembly.lean`.
-/

namespace Verif.DirichletSolve
open Matrix Verif.LocalSolve

/-- What `Solver::apply` may do: return, throw `linear_solver_failed`, throw something else. -/
inductive SolverResult (V : Type) where
  | ok (x : V)
  | failed
  | other
deriving DecidableEq

/-- What `apply_inverse` may do: return with the given solution, throw InvalidStateException,
let another exception pass. -/
inductive SolveOutcome (V : Type) where
  | ok (u : V)
  | invalidState
  | other
deriving DecidableEq

section
variable {ι R : Type} [Fintype ι] [DecidableEq ι] [CommRing R]

/-- `DirichletProjectionLocalizable` (dune-gdt, external contract): overwrites the coefficients at the
Dirichlet degrees of freedom with the nodal values of the Dirichlet data and leaves the others. -/
def dirichletProject (D : ι → Bool) (data old : ι → R) : ι → R := fun i => if D i then data i else old i

/-- Constrained system and Dirichlet extension. -/
structure System (ι R : Type) where
  matrix : Matrix ι ι R
  rhs : ι → R
  extension : ι → R

/-- coarse_scale_operator.cc:78-91 and fem_solver.cc:86-101: given the extension `g`, subtract
`A g` from the load, then unit rows in the matrix and zeros in the right-hand side. -/
def constrainedSystem (A : Matrix ι ι R) (load g : ι → R) (D : ι → Bool) : System ι R :=
  let tmp := A *ᵥ g
  let rhs := load - tmp
  { matrix := constrainMat D A, rhs := constrainVec D rhs, extension := g }

/-- A linear solver: matrix, right-hand side, initial content of the solution. -/
abbrev Solver (ι R : Type) := Matrix ι ι R → (ι → R) → (ι → R) → SolverResult (ι → R)

/-- External contract: a solver that returns has solved the system it was given. -/
def Solver.Correct (s : Solver ι R) : Prop := ∀ M b x0 x, s M b x0 = .ok x → M *ᵥ x = b

/-- coarse_scale_operator.cc:36-92, the constructor: `dirichlet_projection_` is a fresh (zero) function. -/
def coarseSystem (A : Matrix ι ι R) (load data : ι → R) (D : ι → Bool) : System ι R :=
  constrainedSystem A load (dirichletProject D data 0) D

end

/-- coarse_scale_operator.cc:122-133, the decisions of `apply_inverse`: `result` is what the linear solver
did, `g` the Dirichlet extension, `valid` is `dofs_valid`. -/
def finishCoarse {V : Type} [Add V] (valid : V → Bool) (result : SolverResult V) (g : V) : SolveOutcome V :=
  match result with
  | .failed => .invalidState                          -- l.124-128
  | .other => .other                                  -- not caught
  | .ok x =>
    if valid x then .ok (x + g)                       -- l.133
    else .invalidState                                -- l.130-131

section
variable {ι R : Type} [Fintype ι] [DecidableEq ι] [CommRing R]

/-- Constructor followed by coarse_scale_operator.cc:99-138 `apply_inverse(solution)`; `old` is the content
of `solution` on entry. -/
def coarseSolve (valid : (ι → R) → Bool) (s : Solver ι R) (A : Matrix ι ι R) (load data : ι → R)
    (D : ι → Bool) (old : ι → R) : SolveOutcome (ι → R) :=
  let sys := coarseSystem A load data D
  finishCoarse valid (s sys.matrix sys.rhs old) sys.extension

/-- fem_solver.cc:49-131 `apply(solution)`: the Dirichlet extension starts as a copy of `solution`
(l.76); neither failure nor validity is checked, so any exception passes. -/
def femApply (s : Solver ι R) (A : Matrix ι ι R) (load data : ι → R) (D : ι → Bool) (old : ι → R) :
    SolveOutcome (ι → R) :=
  let sys := constrainedSystem A load (dirichletProject D data old) D
  match s sys.matrix sys.rhs old with
  | .ok x => .ok (x + sys.extension)
  | .failed => .other
  | .other => .other

end

end Verif.DirichletSolve
