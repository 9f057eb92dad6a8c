import Verif.Model.SolutionManager
import Verif.Model.Pipeline

/-!
# Local problems in several threads

Source: `msfem/localproblems/localproblemsolver.cc:116-162` (a walker visits the coarse cells, `assemble(partitioning)` hands them to threads),
`msfem/localproblems/localsolutionmanager.cc:14-58`, `common/df_io.hh:103-115`; loads during the threaded assembly of the coarse system:
`msfem/coarse_scale_assembler.cc:145-150`, `msfem/coarse_rhs_functional.cc:135-141`.

Every coarse cell is handled by one thread; a schedule lists whose turn it is.  One step is an access to memory another
thread may access as well.  Simplifications: allocation and access to the store are atomic (for the latter see C13), and a function
receives its value in one step, which is of no consequence as long as only its own thread refers to it.
-/

namespace Verif.Manager

/-- Progress of the thread of one coarse cell in localproblemsolver.cc:137-150. -/
inductive SolveTask where
  | start
  /-- functions below `i` have their values -/
  | writing (m : Mgr) (i : ℕ)
  /-- functions below `i` are saved -/
  | saving (m : Mgr) (i : ℕ)
  | finished

/-- Common memory and progress of all threads. -/
structure SolveState (V : Type) where
  world : World V
  task : ℕ → SolveTask

/-- New memory, and progress of one thread. -/
def SolveState.set {V : Type} (s : SolveState V) (w : World V) (t : ℕ) (x : SolveTask) : SolveState V :=
  ⟨w, fun u => if u = t then x else s.task u⟩

/-- df_io.hh:103-106 `append`. -/
def pushBack {V : Type} (w : World V) (key r : ℕ) : World V :=
  { w with store := fun k => if k = key then w.store k ++ [r] else w.store k }

variable {V : Type} [AddCommGroup V]

/-- One step of the thread that handles cell number `t`; `cells` are keys and values of the local solutions. -/
def solveStep (cells : List (ℕ × List V)) (s : SolveState V) (t : ℕ) : SolveState V :=
  match cells[t]? with
  | none => s
  | some c =>
    match s.task t with
    | .start => s.set (newMgr s.world c.1 c.2.length).1 t (.writing (newMgr s.world c.1 c.2.length).2 0)
    | .writing m i =>
      match m.slots[i]?, c.2[i]? with
      | some r, some v => s.set (s.world.write r v) t (.writing m (i + 1))
      | _, _ => s.set s.world t (.saving m 0)
    | .saving m i =>
      match m.slots[i]? with
      | some r => s.set (pushBack s.world m.key r) t (.saving m (i + 1))
      | none => s.set s.world t .finished
    | .finished => s

/-- localproblemsolver.cc:116-162 in several threads. -/
def solveThreads (cells : List (ℕ × List V)) (w : World V) (schedule : List ℕ) : SolveState V :=
  schedule.foldl (solveStep cells) ⟨w, fun _ => .start⟩

/-- Progress of a thread that constructs a manager and loads, localsolutionmanager.cc:43-52. -/
inductive LoadTask where
  | start
  /-- about to set function `i` to zero -/
  | clearing (m : Mgr) (i : ℕ)
  /-- about to read function `i` from the store -/
  | reading (m : Mgr) (i : ℕ)
  | loaded (m : Mgr)
  | threw
  | undefined

/-- Common memory and progress of all threads. -/
structure LoadState (V : Type) where
  world : World V
  task : ℕ → LoadTask

/-- New memory, and progress of one thread. -/
def LoadState.set {V : Type} (s : LoadState V) (w : World V) (t : ℕ) (x : LoadTask) : LoadState V :=
  ⟨w, fun u => if u = t then x else s.task u⟩

/-- One step of thread `t`; `loads` are keys and numbers of local solutions. -/
def loadStep (loads : List (ℕ × ℕ)) (s : LoadState V) (t : ℕ) : LoadState V :=
  match loads[t]? with
  | none => s
  | some c =>
    match s.task t with
    | .start => s.set (newMgr s.world c.1 c.2).1 t (.clearing (newMgr s.world c.1 c.2).2 0)
    | .clearing m i =>
      if i < c.2 then
        match m.slots[i]? with
        | some r => s.set (s.world.write r 0) t (.reading m i)
        | none => s.set s.world t .undefined
      else s.set s.world t (.loaded m)
    | .reading m i =>
      match (s.world.store m.key)[i]? with
      | some r => s.set s.world t (.clearing { m with slots := m.slots.set i r } (i + 1))
      | none => s.set s.world t .threw
    | _ => s

/-- Any number of threads load, as the assemblers of the coarse system do. -/
def loadThreads (loads : List (ℕ × ℕ)) (w : World V) (schedule : List ℕ) : LoadState V :=
  schedule.foldl (loadStep loads) ⟨w, fun _ => .start⟩

/-- What thread `t` has loaded; a phase ends when all its threads have. -/
def LoadState.result {V : Type} (s : LoadState V) (t : ℕ) : Outcome (List V) :=
  match s.task t with
  | .loaded m => .ok (view s.world m)
  | .threw => .throw
  | _ => .ub

end Verif.Manager

namespace Verif.Pipeline
open Verif.Q1Grid

variable {d : ℕ} {R : Type} [Field R]

/-- msfem_solver.cc:121-142 `apply` with threads in the phases that solve the local problems and assemble the coarse system; the reconstruction
(msfem_solver.cc:54-114) is a loop in one thread.  The order in which threads add to the coarse matrix is not part of the
model, see C22 and C24. -/
def applyThreads (S : Setup d R) (B : Boundary S) (P : Data d R) (m : Machine S) (schedule loadSchedule : List ℕ) :
    Outcome ((Node S.cells → R) × List (Node S.micro → R)) := do
  let cells ← localSolutions S B P m
  let loads := S.order.flatMap fun J => [(m.index J, 2 ^ d + 2), (m.index J, 2 ^ d + 2)]
  let s := Manager.loadThreads loads (Manager.solveThreads cells .init schedule).world loadSchedule
  let loaded ← (List.range loads.length).mapM s.result
  let u ← coarseSolution S B P m loaded
  let (_, corrections) ← Manager.reconstructAll (2 ^ d + 2) 0 (fun _ => []) (coefficients S m u) s.world (S.order.map m.index)
  return (u, List.zipWith (fun J c => (localCell S B P J).add (fun k => u (cornerNode J (corner k))) c) S.order corrections)

end Verif.Pipeline
