import Verif.Model.Outcome
import Mathlib.Algebra.Module.Pi
import Mathlib.Data.List.Basic
import Mathlib.Algebra.Ring.Defs

/-!
# Local solutions as shared functions, and the fine-scale reconstruction

Source: `msfem/localproblems/localsolutionmanager.cc`, `common/df_io.hh:89-125`,
`msfem/localproblems/localproblemsolver.cc:61-162`, `msfem/msfem_solver.cc:43-143` and the guard in
`common/df_io.hh:141-147, 172-175`, `common/df_io.cc:32-43`.

Discrete functions are held by `std::shared_ptr`; the model makes the pointers visible as
references into a memory `mem`.  Functions are never freed here (a shared pointer keeps
them alive).  Arithmetic is exact, so `vector *= 0` gives the zero vector; with floating
point this needs the old content to be finite.
-/

namespace Verif.Manager

/-- Memory of discrete functions plus the contents of the memory backends: per key (coarse cell
index) the list `functions_` of pointers. -/
structure World (V : Type) where
  mem : ℕ → V
  next : ℕ
  store : ℕ → List ℕ

/-- `LocalproblemSolutionManager`: its backend and `localSolutions_`. -/
structure Mgr where
  key : ℕ
  slots : List ℕ
deriving DecidableEq

section
variable {V : Type} [AddCommGroup V]

/-- No functions, no stored solutions. -/
def World.init : World V := ⟨fun _ => 0, 0, fun _ => []⟩

/-- Write to the vector of one function. -/
def World.write (w : World V) (r : ℕ) (v : V) : World V :=
  { w with mem := fun r' => if r' = r then v else w.mem r' }

/-- localsolutionmanager.cc:14-31: constructor, `n` fresh zero functions. `n` is
`numLocalProblems_`. -/
def newMgr (w : World V) (key n : ℕ) : World V × Mgr :=
  ({ w with mem := fun r => if w.next ≤ r ∧ r < w.next + n then 0 else w.mem r, next := w.next + n },
   ⟨key, List.range' w.next n⟩)

/-- localsolutionmanager.cc:54-58 with df_io.hh:103-106: append all pointers. -/
def save (w : World V) (m : Mgr) : World V :=
  { w with store := fun k => if k = m.key then w.store k ++ m.slots else w.store k }

/-- localsolutionmanager.cc:46-51, iterations `i, …, i+cnt-1`: zero the function the slot points to,
then let the slot point to the `i`-th stored function; df_io.hh:108-115 throws beyond the end. -/
def loadFrom : (cnt i : ℕ) → World V → Mgr → Outcome (World V × Mgr)
  | 0, _, w, m => .ok (w, m)
  | cnt + 1, i, w, m =>
    match m.slots[i]? with
    | none => .ub
    | some r =>
      let w' := w.write r 0
      match (w'.store m.key)[i]? with
      | none => .throw
      | some r' => loadFrom cnt (i + 1) w' { m with slots := m.slots.set i r' }

/-- localsolutionmanager.cc:43-52. `n` is `numLocalProblems_`. -/
def load (n : ℕ) (w : World V) (m : Mgr) : Outcome (World V × Mgr) := loadFrom n 0 w m

/-- What a client sees through `getLocalSolutions()`. -/
def view (w : World V) (m : Mgr) : List V := m.slots.map w.mem

/-- The solver writes the values `vs` to the functions in the slots. -/
def writeAll (w : World V) : List ℕ → List V → World V
  | r :: rs, v :: vs => writeAll (w.write r v) rs vs
  | _, _ => w

/-- localproblemsolver.cc:137-150 for one coarse cell: construct a manager, solve (here: put
the given values), save. -/
def solveCell (w : World V) (key : ℕ) (vals : List V) : World V :=
  let (w1, m) := newMgr w key vals.length
  save (writeAll w1 m.slots vals) m

/-- localproblemsolver.cc:116-162 executed in the order of the list. -/
def solveAll (w : World V) (cells : List (ℕ × List V)) : World V :=
  cells.foldl (fun w c => solveCell w c.1 c.2) w

/-- Construct a manager for a cell and load, as the assemblers and the
reconstruction do (coarse_scale_assembler.cc:145-150, coarse_rhs_functional.cc:135-141,
msfem_solver.cc:60-62). -/
def loadFresh (n : ℕ) (w : World V) (key : ℕ) : Outcome (World V × Mgr) :=
  let (w1, m) := newMgr w key n
  load n w1 m

end

section
variable {ι R : Type} [CommRing R]

/-- msfem_solver.cc:75-78: scale the function in slot `dof` in place by the coarse coefficient
and add it to the correction, for all `dof`. -/
def accumulate (w : World (ι → R)) (m : Mgr) : (dof : ℕ) → List R → (corr : ι → R) →
    Outcome (World (ι → R) × (ι → R))
  | _, [], corr => .ok (w, corr)
  | dof, c :: cs, corr =>
    match m.slots[dof]? with
    | none => .ub
    | some r =>
      let w' := w.write r (c • w.mem r)
      accumulate w' m (dof + 1) cs (corr + w'.mem r)

/-- msfem_solver.cc:86-100: one visited Lagrange point: degree of freedom `j` and whether the
point lies in the coarse reference element; `vec.set(lg_i, covered ? vec.get(lg_i) : 0)`. -/
def cutPoint [DecidableEq ι] (v : ι → R) (visit : ι × Bool) : ι → R :=
  fun j => if j = visit.1 then (if visit.2 then v j else 0) else v j

/-- msfem_solver.cc:86-100 over all visited points. -/
def cut [DecidableEq ι] (visits : List (ι × Bool)) (v : ι → R) : ι → R := visits.foldl cutPoint v

/-- msfem_solver.cc:59-118 for one coarse cell: fresh manager, load, zero correction,
accumulate, cut if there are oversampling layers, add slot `n+1`, subtract slot `n`. -/
def reconstruct [DecidableEq ι] (numLocalProblems : ℕ) (oversampling : ℕ) (visits : List (ι × Bool))
    (w : World (ι → R)) (key : ℕ) (coef : List R) : Outcome (World (ι → R) × (ι → R)) := do
  let (w1, m) ← loadFresh numLocalProblems w key
  let (w2, corr) ← accumulate w1 m 0 coef 0
  let corr := if oversampling > 0 then cut visits corr else corr
  match m.slots[coef.length + 1]?, m.slots[coef.length]? with
  | some rd, some rn => .ok (w2, corr + w2.mem rd - w2.mem rn)
  | _, _ => .ub

/-- df_io.cc:32-43 `clear`: all backends are dropped. -/
def World.clear {V : Type} (w : World V) : World V := { w with store := fun _ => [] }

/-- Loads of the coarse assembly, one fresh manager each; `(key, number of solutions)`. -/
def loadAll {V : Type} [AddCommGroup V] (w : World V) : List (ℕ × ℕ) → Outcome (World V × List (List V))
  | [] => .ok (w, [])
  | (k, n) :: ks => do
    let (w', m) ← loadFresh n w k
    let (w'', rest) ← loadAll w' ks
    return (w'', view w' m :: rest)

/-- msfem_solver.cc:54-114: the loop over the coarse cells with their coarse coefficients. -/
def reconstructAll [DecidableEq ι] (numLocalProblems oversampling : ℕ) (visits : ℕ → List (ι × Bool)) (coef : ℕ → List R)
    (w : World (ι → R)) : List ℕ → Outcome (World (ι → R) × List (ι → R))
  | [] => .ok (w, [])
  | k :: ks => do
    let (w', corr) ← reconstruct numLocalProblems oversampling (visits k) w k (coef k)
    let (w'', rest) ← reconstructAll numLocalProblems oversampling visits coef w' ks
    return (w'', corr :: rest)

/-- What one call of `Elliptic_MsFEM_Solver::apply` works on.  `cells` are the local solutions in the order in which they are
computed; `failAfter = some k` means that the solver throws after `k` cells.  `coarse` is the coarse problem: from the loaded
solutions to the coarse coefficients per cell (or an exception). -/
structure Run (ι R : Type) where
  cells : List (ℕ × List (ι → R))
  failAfter : Option ℕ
  loads : List (ℕ × ℕ)
  coarse : List (List (ι → R)) → Outcome (ℕ → List R)
  numLocalProblems : ℕ
  oversampling : ℕ
  visits : ℕ → List (ι × Bool)

/-- msfem_solver.cc:129-141 after the guard was created.  In case of an exception the world is the one before the
phase that threw; what the phase did to single functions is of no consequence because nobody refers to them
after `clear`. -/
def Run.body [DecidableEq ι] (r : Run ι R) (w : World (ι → R)) : World (ι → R) × Outcome (List (ι → R)) :=
  match r.failAfter with
  | some k => (solveAll w (r.cells.take k), .throw)
  | none =>
    let w1 := solveAll w r.cells
    match loadAll w1 r.loads with
    | .ok (w2, loaded) =>
      match r.coarse loaded with
      | .ok coef =>
        match reconstructAll r.numLocalProblems r.oversampling r.visits coef w2 (r.cells.map Prod.fst) with
        | .ok (w3, res) => (w3, .ok res)
        | .throw => (w2, .throw)
        | .ub => (w2, .ub)
      | .throw => (w2, .throw)
      | .ub => (w2, .ub)
    | .throw => (w1, .throw)
    | .ub => (w1, .ub)

/-- msfem_solver.cc:121-143 with the guard of l.127, whose destructor (df_io.hh:141-147) runs on return and on
exceptions. -/
def Run.apply [DecidableEq ι] (r : Run ι R) (w : World (ι → R)) : World (ι → R) × Outcome (List (ι → R)) :=
  let (w', res) := r.body w
  (w'.clear, res)

/-- Several calls of `apply` in one program. -/
def applyAll [DecidableEq ι] (w : World (ι → R)) : List (Run ι R) → List (Outcome (List (ι → R)))
  | [] => []
  | r :: rs => (r.apply w).2 :: applyAll (r.apply w).1 rs

end

end Verif.Manager
