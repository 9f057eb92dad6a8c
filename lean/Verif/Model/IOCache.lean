import Verif.Model.Text

/-!
# The store of local solutions

Source: `dune/multiscale/common/df_io.hh`, `dune/multiscale/common/df_io.cc`.
-/

namespace Verif.IOCache
open Verif.Text

/-! ## Sequential behaviour -/

section seq
variable (K F : Type) [DecidableEq K]

/-- The `MemoryBackend` part of the `DiscreteFunctionIO` singleton.
`heap` holds the `functions_` vectors of all backends ever created (`none`: destroyed);
`map` is `memory_` (key to backend); `handles` are the references the client
obtained so far, in order. -/
structure State where
  heap : List (Option (List F))
  map : List (K × ℕ)
  handles : List ℕ

/-- Client operations.  `append` and `read` name the reference by the number of
the `get` call that returned it. -/
inductive Op where
  | get (key : K)
  | append (handle : ℕ) (f : F)
  | read (handle : ℕ) (index : ℕ)
  | clear

/-- What the client observes. `ub`: use of a reference that was never obtained or
whose backend was destroyed by `clear`. -/
inductive Out where
  | unit
  | value (f : F)
  | throwOob
  | ub

variable {K F}

/-- `map.find(key)`, df_io.hh:152. -/
def lookup : List (K × ℕ) → K → Option ℕ
  | [], _ => none
  | (k, v) :: m, key => if k = key then some v else lookup m key

/-- df_io.hh:149-160 `get`, single threaded: return the existing backend or create
one and enter it. -/
def get (s : State K F) (key : K) : State K F × ℕ :=
  match lookup s.map key with
  | some id => (s, id)
  | none => ({ s with heap := s.heap ++ [some []], map := (key, s.heap.length) :: s.map }, s.heap.length)

/-- One client operation. `append`: df_io.hh:103-106; `read`: df_io.hh:108-115;
`clear`: df_io.cc:32-43, which destroys all backends. -/
def step (s : State K F) : Op K F → State K F × Out F
  | .get key =>
    let r := get s key
    ({ r.1 with handles := r.1.handles ++ [r.2] }, .unit)
  | .append h f =>
    match s.handles[h]? with
    | none => (s, .ub)
    | some id =>
      match s.heap[id]? with
      | some (some fs) => ({ s with heap := s.heap.set id (some (fs ++ [f])) }, .unit)
      | _ => (s, .ub)
  | .read h i =>
    match s.handles[h]? with
    | none => (s, .ub)
    | some id =>
      match s.heap[id]? with
      | some (some fs) =>
        match fs[i]? with
        | some f => (s, .value f)
        | none => (s, .throwOob)
      | _ => (s, .ub)
  | .clear => ({ s with heap := s.heap.map fun _ => none, map := [] }, .unit)

/-- The singleton before first use. -/
def State.init : State K F := ⟨[], [], []⟩

/-- Outputs of a sequence of operations. -/
def run (s : State K F) : List (Op K F) → List (Out F)
  | [] => []
  | op :: ops => (step s op).2 :: run (step s op).1 ops

end seq

/-- Result of operations of `DiskBackend`. -/
inductive DiskOut where
  | notImplemented
deriving DecidableEq

/-- df_io.hh:66-71: `append` creates the directory `dir_/index_`, increments `index_` and throws.
Returns the new index, the directories created so far and the outcome. -/
def diskAppend (index : ℕ) (dirs : List ℕ) : ℕ × List ℕ × DiskOut := (index + 1, dirs ++ [index], .notImplemented)

/-- df_io.hh:73-77: `read` throws. -/
def diskRead (_index : ℕ) : DiskOut := .notImplemented

/-! ## Keys -/

/-- localsolutionmanager.cc:23-25: `boost::format("local_problems/_localProblemSolutions_%d") % index`. -/
def location (index : ℕ) : List Char := "local_problems/_localProblemSolutions_".toList ++ decimal index

/-- df_io.cc:14-17: key of a file name, the number after the last underscore. -/
def memoryKey (filename : List Char) : Option ℕ :=
  match (tokenize '_' filename).getLast? with
  | none => none
  | some t => parseNat t

/-! ## Concurrent behaviour of `get` (df_io.hh:149-160) -/

/-- Progress of a thread that executes one `get`. The lookup at 152-154 is made without
the mutex, the insertion at 155-159 with it. -/
inductive PC where
  | idle
  /-- inside `map.find` -/
  | finding
  /-- lookup failed, waiting for the mutex -/
  | missed
  /-- holds the mutex, inside `map_emplace` -/
  | inserting
  /-- returned the backend with this id -/
  | done (id : ℕ)
deriving DecidableEq

/-- Fate of the whole process. -/
inductive Status where
  | running
  /-- a lookup and an insertion overlapped: data race on an `unordered_map`, undefined behaviour -/
  | race
  /-- `assert(ret.second)` failed, df_io.hh:158 -/
  | assertFailed
deriving DecidableEq

structure CState (T K : Type) where
  pc : T → PC
  map : List (K × ℕ)
  next : ℕ
  status : Status

variable {T K : Type} [DecidableEq T] [DecidableEq K]

/-- Replace the program counter of one thread. -/
def CState.setPc (s : CState T K) (t : T) (p : PC) : CState T K :=
  { s with pc := fun u => if u = t then p else s.pc u }

/-- One atomic step of thread `t`. `key t` is the key it asks for, `ndebug` whether
asserts are compiled out. -/
inductive CStep (key : T → K) (ndebug : Bool) : CState T K → CState T K → Prop
  /-- begin of `map.find`; a race if some thread is inserting -/
  | beginFind (s : CState T K) (t : T) (hr : s.status = .running) (h : s.pc t = .idle)
      (hno : ∀ u, s.pc u ≠ .inserting) : CStep key ndebug s (s.setPc t .finding)
  | beginFindRace (s : CState T K) (t u : T) (hr : s.status = .running) (h : s.pc t = .idle)
      (hu : s.pc u = .inserting) : CStep key ndebug s { s with status := .race }
  /-- `map.find` returns -/
  | hit (s : CState T K) (t : T) (id : ℕ) (hr : s.status = .running) (h : s.pc t = .finding)
      (hl : lookup s.map (key t) = some id) : CStep key ndebug s (s.setPc t (.done id))
  | miss (s : CState T K) (t : T) (hr : s.status = .running) (h : s.pc t = .finding)
      (hl : lookup s.map (key t) = none) : CStep key ndebug s (s.setPc t .missed)
  /-- the mutex is acquired; only one thread can hold it; a race if some thread is inside `find` -/
  | lock (s : CState T K) (t : T) (hr : s.status = .running) (h : s.pc t = .missed)
      (hfree : ∀ u, s.pc u ≠ .inserting) (hno : ∀ u, s.pc u ≠ .finding) :
      CStep key ndebug s (s.setPc t .inserting)
  | lockRace (s : CState T K) (t u : T) (hr : s.status = .running) (h : s.pc t = .missed)
      (hfree : ∀ u, s.pc u ≠ .inserting) (hu : s.pc u = .finding) :
      CStep key ndebug s { s with status := .race }
  /-- `map_emplace` inserts a new backend -/
  | insertNew (s : CState T K) (t : T) (hr : s.status = .running) (h : s.pc t = .inserting)
      (hl : lookup s.map (key t) = none) :
      CStep key ndebug s { (s.setPc t (.done s.next)) with
        map := (key t, s.next) :: s.map, next := s.next + 1 }
  /-- `map_emplace` finds the key taken: the assert fails, or without asserts the
  existing backend is returned and the new one destroyed -/
  | insertDupDebug (s : CState T K) (t : T) (id : ℕ) (hr : s.status = .running)
      (h : s.pc t = .inserting) (hl : lookup s.map (key t) = some id) (hd : ndebug = false) :
      CStep key ndebug s { s with status := .assertFailed }
  | insertDup (s : CState T K) (t : T) (id : ℕ) (hr : s.status = .running)
      (h : s.pc t = .inserting) (hl : lookup s.map (key t) = some id) (hd : ndebug = true) :
      CStep key ndebug s { (s.setPc t (.done id)) with next := s.next + 1 }

/-- Reachability by any interleaving. -/
inductive CReach (key : T → K) (ndebug : Bool) (s₀ : CState T K) : CState T K → Prop
  | refl : CReach key ndebug s₀ s₀
  | step {s s' : CState T K} : CReach key ndebug s₀ s → CStep key ndebug s s' → CReach key ndebug s₀ s'

/-- All threads about to call `get`, store contents `m`. -/
def CState.start (m : List (K × ℕ)) (next : ℕ) : CState T K := ⟨fun _ => .idle, m, next, .running⟩

end Verif.IOCache
