import Verif.Model.Outcome
import Mathlib.LinearAlgebra.Matrix.NonsingularInverse
import Mathlib.Data.Matrix.Mul

/-!
# Local problems: right-hand sides, solving, slots

Source: `msfem/localproblems/localoperator.cc`, `msfem/localproblems/localproblemsolver.cc`,
`msfem/localproblems/localsolutionmanager.cc:14-31`.

Vectors are functions on the degrees of freedom `ι` of the local space; arithmetic is exact.
`valid` stands for `dofs_valid()` (no NaN or infinity), which is external.
-/

namespace Verif.LocalSolve
open Matrix

variable {ι R : Type} [Fintype ι] [DecidableEq ι] [CommRing R]

/-- localsolutionmanager.cc:20, localproblemsolver.cc:68: number of boundary correctors. -/
def numBoundaryCorrectors (simplex : Bool) : ℕ := if simplex then 1 else 2

/-- localsolutionmanager.cc:21-22: number of local problems; `maxNumDofs` is the largest
number of coarse basis functions on a cell. -/
def numLocalProblems (simplex : Bool) (dim maxNumDofs : ℕ) : ℕ :=
  if simplex then dim + 1 else maxNumDofs + 2

/-- dirichletConstraints_.apply(vector): zero at the constrained degrees of freedom
(dune-gdt, homogeneous constraints; external contract). -/
def constrainVec (D : ι → Bool) (v : ι → R) : ι → R := fun i => if D i then 0 else v i

/-- dirichletConstraints_.apply(matrix): unit rows at the constrained degrees of freedom
(dune-gdt, `set = true`; external contract). -/
def constrainMat (D : ι → Bool) (A : Matrix ι ι R) : Matrix ι ι R :=
  fun i j => if D i then (if i = j then 1 else 0) else A i j

/-- localoperator.cc:113-169, the right-hand sides. `total` is `allLocalRHS.size()`; `inner k` is the
assembled functional of coarse basis function `k` (CoarseBasisProduct), `neumann` and `dirichlet` the
functionals of BoundaryValueHelper (31-91), which exist only for cells with boundary faces:
Neumann in slot `numInner` (l.54), Dirichlet in slot `++numInner` (l.57). -/
def assembleRhs (simplex hasBoundary : Bool) (total : ℕ) (D : ι → Bool) (inner : ℕ → ι → R)
    (neumann dirichlet : ι → R) : Outcome (List (ι → R)) :=
  if simplex then .throw                               -- l.119-120
  else
    if total < 2 then .ub                              -- l.123: unsigned wrap-around
    else
      let numInner := total - 2
      let rhs : List (ι → R) := List.replicate total 0 -- fresh functions, localproblemsolver.cc:83-86
      let rhs := (List.range numInner).foldl (fun r k => r.set k (inner k)) rhs   -- l.141-151
      let rhs := if hasBoundary then (rhs.set numInner neumann).set (numInner + 1) dirichlet else rhs
      .ok (rhs.map (constrainVec D))                   -- l.161-163

/-- A linear solver as the code sees it.  `direct x b`: UMFPack `apply(x, b, stat)`, returns the new
`x`.  `generic b x`: `Solver::apply(rhs, solution, options)` (argument order as in
coarse_scale_operator.cc:123 and fem_solver.cc:124), returns the new `solution`. -/
structure Solvers (ι R : Type) where
  direct : (ι → R) → (ι → R) → Outcome (ι → R)
  generic : (ι → R) → (ι → R) → Outcome (ι → R)

/-- External contract: a solver that returns has solved the system. -/
structure Solvers.Correct (s : Solvers ι R) (A : Matrix ι ι R) : Prop where
  direct : ∀ x b x', s.direct x b = .ok x' → A *ᵥ x' = b
  generic : ∀ b x x', s.generic b x = .ok x' → A *ᵥ x' = b

/-- localoperator.cc:171-195 `apply_inverse(current_rhs, current_solution)`; returns the new content of
`current_solution`.  The right-hand side is copied before use (l.183), so it is not
modified.  In the generic branch (l.191) the call is
`local_inverse.apply(current_solution.vector(), writable_rhs, options)`: the solution is passed
where the solver expects the right-hand side, and the copy of the right-hand side where
it expects the solution. -/
def applyInverse (valid : (ι → R) → Bool) (s : Solvers ι R) (umfpack : Bool)
    (rhs sol : ι → R) : Outcome (ι → R) :=
  if valid rhs then
    if umfpack then
      s.direct sol rhs >>= fun sol' => if valid sol' then .ok sol' else .throw
    else
      s.generic sol rhs >>= fun _writableRhs => if valid sol then .ok sol else .throw
  else .throw

/-- localproblemsolver.cc:89-113: the loop over all local problems. -/
def solveLoop (valid : (ι → R) → Bool) (s : Solvers ι R) (umfpack hasBoundary : Bool)
    (numInner : ℕ) : (i : ℕ) → List (ι → R) → Outcome (List (ι → R))
  | _, [] => .ok []
  | i, rhs :: rest => do
    -- outputs were set to zero before, l.72-73
    let x ← if i ≥ numInner ∧ hasBoundary = false then .ok 0 else applyInverse valid s umfpack rhs 0
    let xs ← solveLoop valid s umfpack hasBoundary numInner (i + 1) rest
    return x :: xs

/-- localproblemsolver.cc:61-114 `solve_all_on_single_cell`. -/
def solveCell (valid : (ι → R) → Bool) (s : Solvers ι R) (umfpack simplex hasBoundary : Bool)
    (total : ℕ) (D : ι → Bool) (inner : ℕ → ι → R) (neumann dirichlet : ι → R) :
    Outcome (List (ι → R)) := do
  let rhs ← assembleRhs simplex hasBoundary total D inner neumann dirichlet
  solveLoop valid s umfpack hasBoundary (total - numBoundaryCorrectors simplex) 0 rhs

/-- Slots from which later phases read, given the number `n` of coarse basis functions of the cell:
coarse_rhs_functional.cc:100 and 102, msfem_solver.cc:103 and 105. -/
def dirichletSlot (n : ℕ) : ℕ := n + 1
def neumannSlot (n : ℕ) : ℕ := n

end Verif.LocalSolve
