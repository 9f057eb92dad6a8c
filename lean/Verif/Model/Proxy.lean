import Verif.Model.Outcome
import Verif.Model.Search
import Verif.Model.Projection
import Verif.Model.LocalGrid
import Mathlib.Logic.Function.Basic

/-!
# The multiscale solution as a function: proxy, evaluation and projection

Source: `msfem/localsolution_proxy.cc:11-31`, `msfem/msfem_solver.cc:54-118`,
`msfem/localproblems/localgridsearch.cc:57-68`, `common/heterogenous.cc:10-56`.

The walk over the fine grid is distributed to threads.  Every thread has its own search object
(`PerThreadValue<LocalGridSearch>`, localsolution_proxy.hh:57).  The threads interleave element by
element: an order of the elements together with the thread that processes each of them.
-/

namespace Verif.Proxy
open Verif.LocalGrid

/-- A coarse cell of the leaf view of one process. -/
structure CoarseCell where
  index : ℕ
  interior : Bool

variable {F : Type}

/-- msfem_solver.cc:54-114: one correction for every interior coarse cell, stored under the index of the cell.  Indices are
distinct, so that the unordered map is a list of pairs. -/
def corrections (reconstruct : ℕ → Outcome F) : List CoarseCell → Outcome (List (ℕ × F))
  | [] => .ok []
  | c :: cs =>
    if c.interior then do
      let f ← reconstruct c.index
      let rest ← corrections reconstruct cs
      return (c.index, f) :: rest
    else corrections reconstruct cs

/-- localsolution_proxy.cc:11-21: the constructor.  `asserts` tells whether assertions are compiled in, `leafSize` is
`index_set_.size(0)`, the number of all cells of the process. -/
def construct (asserts : Bool) (corr : List (ℕ × F)) (leafSize : ℕ) : Outcome (List (ℕ × F)) :=
  if corr.isEmpty then .ub                                    -- l.14: `*corrections.begin()->second`
  else if asserts && corr.length != leafSize then .ub         -- l.20
  else .ok corr

/-- localsolution_proxy.cc:23-31 `local_function`: the correction of the current coarse cell of the calling thread's
search; `index` gives the index of the cell at a position of the iteration. -/
def localFunction (corr : List (ℕ × F)) (index : ℕ → ℕ) (s : Search.State) : Outcome F :=
  match s.current with
  | none => .ub                                               -- localgridsearch.cc:89
  | some c =>
    match corr.lookup (index c) with
    | some f => .ok f
    | none => .throw

variable {P E R : Type}

/-- heterogenous.cc:36-49 without the writes: evaluate at all points with the entities found. -/
def values (corr : List (ℕ × F)) (index : ℕ → ℕ) (eval : F → E → P → R) (s : Search.State) :
    List P → List (Option E) → Outcome (List (Option R))
  | [], _ => .ok []
  | _ :: _, [] => .ub                                         -- l.31
  | p :: ps, some e :: es => do
    let f ← localFunction corr index s
    let rest ← values corr index eval s ps es
    return some (eval f e p) :: rest
  | _ :: ps, none :: es => do
    let rest ← values corr index eval s ps es
    return none :: rest

/-- heterogenous.cc:27-44: search for the points of an element and evaluate. -/
def elementValues (env : Search.Env P E) (corr : List (ℕ × F)) (index : ℕ → ℕ) (eval : F → E → P → R) (s : Search.State)
    (points : List P) : Outcome (List (Option R) × Search.State) :=
  match Search.call env s points with
  | .ok ents s' => values corr index eval s' points ents >>= fun vs => .ok (vs, s')
  | .throw _ => .throw
  | .ub => .ub
  | .outOfFuel => .ub

/-- An element of the fine grid with its nodes and their positions (heterogenous.hh:23-38). -/
structure FineElem (ι P : Type) where
  interior : Bool
  nodes : List ι
  points : List P

variable {ι : Type} [DecidableEq ι] [Field R]

/-- heterogenous.cc:24-53: the walk; each element comes with the thread that processes it, `st` are the states of the
threads' search objects. -/
def walk (env : Search.Env P E) (corr : List (ℕ × F)) (index : ℕ → ℕ) (eval : F → E → P → R) :
    List (ℕ × FineElem ι P) → (ℕ → Search.State) → (ι → R) → Outcome (ι → R)
  | [], _, v => .ok v
  | (t, e) :: es, st, v =>
    if e.interior then do
      let (vals, s') ← elementValues env corr index eval (st t) e.points
      let v' ← Projection.pointLoop .overwrite e.nodes vals v
      walk env corr index eval es (Function.update st t s') v'
    else walk env corr index eval es st v

/-- heterogenous.cc:10-56 `project`, with new search objects. -/
def project (env : Search.Env P E) (corr : List (ℕ × F)) (index : ℕ → ℕ) (eval : F → E → P → R)
    (order : List (ℕ × FineElem ι P)) (elems : List (FineElem ι P)) (old : ι → R) : Outcome (ι → R) :=
  walk env corr index eval order (fun _ => .init) (fun i => old i * 0) >>= fun v =>
    .ok (Projection.postprocess (elems.map fun e => (⟨e.interior, e.nodes, []⟩ : Projection.Elem ι R)) v)

/-- localgridsearch.cc:57-68 `covers_strict` for cell `c` of a cube grid: all points have reference coordinates in the
unit cube up to the tolerance of `checkInside` (dune-geometry, external). -/
def coversStrict {d : ℕ} (tol : ℚ) (g : CubeGrid d) (c : Fin d → ℕ) (points : List (Fin d → ℚ)) : Bool :=
  points.all fun p => decide (∀ i,
    -tol ≤ (p i - g.cellLo i (c i)) / (g.cellHi i (c i) - g.cellLo i (c i)) ∧
    (p i - g.cellLo i (c i)) / (g.cellHi i (c i) - g.cellLo i (c i)) ≤ 1 + tol)

end Verif.Proxy
