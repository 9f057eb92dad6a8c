import Mathlib.Logic.Relation
import Mathlib.Data.List.Basic
import Mathlib.Data.Int.Notation

/-!
# The programs: exception handling and exit status

Source: `src/msfem.cc`, `src/cgfem.cc`, `dune/multiscale/common/main_init.cc`.

`abort_all_mpi_processes` is external (dune-xt): it ends all processes, or, without MPI, returns a code which
`main` returns.  `DXTC_TIMINGS.output_per_rank` is taken to involve no communication.
-/

namespace Verif.Program

/-- How the body of the try block of `main` ends (msfem.cc:20-46, cgfem.cc:20-38). -/
inductive Body where
  | normal
  /-- an exception derived from `Dune::Exception` -/
  | dune
  /-- an exception derived from `std::exception` -/
  | std
  /-- anything else -/
  | foreign
  /-- SIGTERM arrives -/
  | sigterm
deriving DecidableEq

/-- How a single process ends. -/
inductive Exit where
  | code (n : ℤ)
  /-- `std::terminate` -/
  | terminated
deriving DecidableEq

/-- The process calling `main`, run on its own (msfem.cc:16-51, cgfem.cc:16-44; handlers main_init.cc:66-80;
signal handler main_init.cc:23-28).  `abortCode` is what `abort_all_mpi_processes` makes the process end with.
Dune::Exception is caught first; both handlers do the same. -/
def exitOf (abortCode : ℤ) : Body → Exit
  | .normal => .code 0
  | .dune => .code abortCode
  | .std => .code abortCode
  | .foreign => .terminated
  | .sigterm => .code 5

/-! ### Several processes

Collective operations complete only if all processes call the same one next. -/

/-- Collective operations of a run. -/
inductive Coll where
  | barrier
  | maxDouble
  | maxLong
  | sumLong
  /-- any other one, e.g. inside the parallel linear solver -/
  | other (tag : ℕ)
deriving DecidableEq

/-- Actions of a process as far as the others can see them. -/
inductive Act where
  | coll (c : Coll)
  | abort
  | exit
deriving DecidableEq

/-- main_init.cc:66-80: `handle_exception` calls `mem_usage` (main_init.cc:99-100: `comm.max`, `comm.sum`)
and then aborts. -/
def handler : List Act := [.coll .maxLong, .coll .sumLong, .abort]

/-- The collective operations of a whole successful run of `msfem`: those of the algorithm (`algo`), then
msfem.cc:40 and `mem_usage` (msfem.cc:43). -/
def msfemColls (algo : List Coll) : List Coll := algo ++ [.maxDouble, .maxLong, .sumLong]

/-- The same for `cgfem`, which has no reduction of the run time. -/
def cgfemColls (algo : List Coll) : List Coll := algo ++ [.maxLong, .sumLong]

/-- One process: `s` are the collective operations of a successful run; `fails = some n` means that an exception
reaches `main` after the first `n` of them. -/
def process (s : List Coll) (fails : Option ℕ) : List Act :=
  match fails with
  | none => s.map .coll ++ [.exit]
  | some n => (s.take n).map .coll ++ handler

/-- Remaining actions of every process. -/
abbrev State (r : ℕ) := Fin r → List Act

/-- A collective operation completes. -/
def Step {r : ℕ} (a b : State r) : Prop := ∃ c, ∀ i, a i = .coll c :: b i

/-- Some process aborts the run. -/
def Aborted {r : ℕ} (a : State r) : Prop := ∃ i, (a i).head? = some .abort

/-- Every process returns from `main` with status 0. -/
def Success {r : ℕ} (a : State r) : Prop := ∀ i, a i = [.exit]

/-- `b` can be reached. -/
abbrev Reaches {r : ℕ} : State r → State r → Prop := Relation.ReflTransGen Step

end Verif.Program
