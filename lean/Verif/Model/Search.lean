import Mathlib.Data.List.Basic

/-!
# Point search over the local grids

Source: `dune/multiscale/msfem/localproblems/localgridsearch.cc:10-91`.

The interior coarse cells are visited in the iteration order of the grid view
and are numbered `0 .. n-1` in this order; position `n` is the end iterator.
`viewSize` is `view.size(0)`, which counts all cells of the process (interior and overlap).
`covers` is `covers_strict` (lines 57-68) and `search` the element search on
one local grid (dune-stuff `EntityInlevelSearch`); both are parameters.
-/

namespace Verif.Search

/-- What the search is constructed with (localgridsearch.cc:70-77), for element type `E` and point type `P`. -/
structure Env (P E : Type) where
  /-- number of coarse cells in the iteration range -/
  n : ℕ
  /-- `view.size(0)` -/
  viewSize : ℕ
  /-- `covers_strict(coarse_entity, points)` -/
  covers : ℕ → List P → Bool
  /-- `current_search_ptr->operator()(points)`; `none` is the null pointer -/
  search : ℕ → List P → List (Option E)

/-- Members that survive a call: `static_iterator_` (`none`: not yet created) and
`current_coarse_entity_` (`none`: not set). -/
structure State where
  it : Option ℕ
  current : Option ℕ
deriving DecidableEq

/-- localgridsearch.cc:70-77 and 79-85: constructor and copy constructor. -/
def State.init : State := ⟨none, none⟩

/-- Outcome of a call. `ub` covers the failing `assert(it != end)` resp. dereferencing the end
iterator, and writing behind the result vector. `outOfFuel` is an artefact of the model;
`C09_terminates` shows that it is never produced. -/
inductive Outcome (E : Type) where
  | ok (entities : List (Option E)) (s : State)
  | throw (s : State)
  | ub
  | outOfFuel
deriving DecidableEq

/-- `move_if(entity_ptrs.begin(), entity_ptrs.end(), first_null, not_null)`, localgridsearch.cc:43:
the non-null elements are written consecutively from position `k`; `none` if this leaves the vector. -/
def moveIf {E : Type} : List (Option E) → ℕ → List (Option E) → Option (List (Option E))
  | ret, _, [] => some ret
  | ret, k, none :: es => moveIf ret k es
  | ret, k, some e :: es => if k < ret.length then moveIf (ret.set k (some e)) (k + 1) es else none

/-- `std::find(ret_entities.begin(), ret_entities.end(), nullptr)`, localgridsearch.cc:41. -/
def firstNull {E : Type} (ret : List (Option E)) : ℕ := ret.findIdx (·.isNone)

/-- `std::count_if(ret_entities.begin(), ret_entities.end(), is_null)`, localgridsearch.cc:44. -/
def nullCount {E : Type} (ret : List (Option E)) : ℕ := ret.countP (·.isNone)

/-- Body of lines 39-45: the result vector after visiting coarse cell `it`; `none` is undefined behaviour. -/
def visit {P E : Type} (env : Env P E) (points : List P) (it : ℕ) (ret : List (Option E)) :
    Option (List (Option E)) :=
  if env.covers it points then moveIf ret (firstNull ret) (env.search it points) else some ret

/-- The while loop, localgridsearch.cc:29-53. -/
def loop {P E : Type} (env : Env P E) (points : List P) :
    ℕ → ℕ → ℕ → Option ℕ → List (Option E) → Outcome E
  | fuel, steps, it, cur, ret =>
    if nullCount ret = 0 then .ok ret ⟨some it, cur⟩
    else match fuel with
      | 0 => .outOfFuel
      | fuel + 1 =>
        if it < env.n then
          match visit env points it ret with
          | none => .ub
          | some ret' =>
            if it + 1 = env.n then
              if steps + 1 < env.viewSize then loop env points fuel (steps + 1) 0 (some it) ret'
              else .throw ⟨some (it + 1), some it⟩
            else loop env points fuel steps (it + 1) (some it) ret'
        else .ub

/-- localgridsearch.cc:10-55 `LocalGridSearch::operator()`. -/
def call {P E : Type} (env : Env P E) (s : State) (points : List P) : Outcome E :=
  loop env points (env.viewSize * env.n + 1) 0 (s.it.getD 0) s.current
    (List.replicate points.length none)

end Verif.Search
