import Verif.Model.Outcome
import Mathlib.Data.List.Basic

/-!
# Error computation: which quantities are computed, and errors.csv

Source: `common/error_calc.cc:86-335`.

Norms are abstract: what is tracked is between which functions a reported number was computed.
-/

namespace Verif.ErrorReport

abbrev Key := List Char

/-- `std::map<std::string, V>`: the entries in ascending order of keys.  `m[k] = v`. -/
def assign {V : Type} (k : Key) (v : V) : List (Key × V) → List (Key × V)
  | [] => [(k, v)]
  | (k', v') :: m =>
    if k < k' then (k, v) :: (k', v') :: m
    else if k = k' then (k, v) :: m
    else (k', v') :: assign k v m

/-- `map_emplace` on an `unordered_map`: an existing entry stays. -/
def emplace {V : Type} (k : Key) (v : V) (m : List (Key × V)) : List (Key × V) :=
  match m.lookup k with
  | some _ => m
  | none => (k, v) :: m

/-- `m.at(k)`: throws if there is no entry. -/
def at' {V : Type} (m : List (Key × V)) (k : Key) : Outcome V :=
  match m.lookup k with
  | some v => .ok v
  | none => .throw

/-- The functions that are compared. `coarse solved`: the coarse FEM solution prolonged to the fine
grid; if the solve threw, it is whatever the fresh function holds (`solved = false`). -/
inductive Fn where
  | exact
  | msfem
  | fem
  | coarse (solved : Bool)
deriving DecidableEq

/-- A difference of two functions. -/
abbrev Diff := Fn × Fn

/-- The numbers: L2 norm and H1 semi norm of a difference, L2 norm of a function. -/
structure Norms (V : Type) where
  l2 : Diff → V
  h1s : Diff → V
  l2Fn : Fn → V

/-- error_calc.cc:86-114, the two constructors, as far as the fine reference solution is concerned.
`given`: constructor with a fem solution; otherwise it is computed if `msfem.fem_comparison` is set
and dropped if the solve throws a Dune exception. -/
def haveFem (given comparison solveOk : Bool) : Bool := given || (comparison && solveOk)

/-- The maps filled in l.191-251 and read in l.255-311. -/
structure Maps where
  l2A : List (Key × Diff)
  h1A : List (Key × Diff)
  l2D : List (Key × Diff)
  h1D : List (Key × Diff)

def kMsfemExact : Key := "msfem_exact".toList
def kFemExact : Key := "fem_exact".toList
def kCoarseFemExact : Key := "coarse_fem_exact".toList
def kMsfemFem : Key := "msfem_fem".toList
def kMsfemCoarseFem : Key := "msfem_coarse_fem".toList

/-- error_calc.cc:202-251: registration of the differences. -/
def register (hasExact msfem fem coarseOk : Bool) : Maps :=
  let m : Maps := ⟨[], [], [], []⟩
  let addA (m : Maps) (k : Key) (d : Diff) : Maps :=
    { m with l2A := emplace k d m.l2A, h1A := emplace k d m.h1A }
  let addD (m : Maps) (k : Key) (d : Diff) : Maps :=
    { m with l2D := emplace k d m.l2D, h1D := emplace k d m.h1D }
  let m := if hasExact then
      let m := if msfem then addA m kMsfemExact (.exact, .msfem) else m          -- 205-212
      let m := if fem then addA m kFemExact (.exact, .fem) else m                -- 214-220
      addA m kCoarseFemExact (.exact, .coarse coarseOk)                          -- 221-226
    else m
  if msfem then
    let m := addD m kMsfemCoarseFem (.msfem, .coarse coarseOk)                   -- 232-241
    if fem then addD m kMsfemFem (.msfem, .fem) else m                           -- 242-250
  else m

/-- error_calc.cc:255-311: the csv map. -/
def collect {V : Type} (N : Norms V) (hasExact msfem fem : Bool) (m : Maps) :
    Outcome (List (Key × V)) := do
  let csv : List (Key × V) := []
  let csv ← if hasExact then do
      let csv ← if msfem then do
          let a ← at' m.l2A kMsfemExact
          let b ← at' m.h1A kMsfemExact
          pure (assign (kMsfemExact ++ "_H1s".toList) (N.h1s b) (assign (kMsfemExact ++ "_L2".toList) (N.l2 a) csv))
        else pure csv
      let csv ← if fem then do
          let a ← at' m.l2A kFemExact
          let b ← at' m.h1A kFemExact
          pure (assign (kFemExact ++ "_H1s".toList) (N.h1s b) (assign (kFemExact ++ "_L2".toList) (N.l2 a) csv))
        else pure csv
      let a ← at' m.l2A kCoarseFemExact
      let b ← at' m.h1A kCoarseFemExact
      pure (assign (kCoarseFemExact ++ "_H1s".toList) (N.h1s b)
        (assign (kCoarseFemExact ++ "_L2".toList) (N.l2 a) csv))
    else pure csv
  if msfem then do
      let csv := assign "msfem_L2".toList (N.l2Fn .msfem) csv
      let a ← at' m.l2D kMsfemCoarseFem
      let b ← at' m.h1D kMsfemCoarseFem
      let csv := assign (kMsfemCoarseFem ++ "_H1s".toList) (N.h1s b)
        (assign (kMsfemCoarseFem ++ "_L2".toList) (N.l2 a) csv)
      if fem then do
          let a ← at' m.l2D kMsfemFem
          let b ← at' m.h1D kMsfemFem
          pure (assign (kMsfemFem ++ "_H1s".toList) (N.h1s b) (assign (kMsfemFem ++ "_L2".toList) (N.l2 a) csv))
        else pure csv
    else pure csv

/-- error_calc.cc:138-335 `print`, returned map. `fem`: a fine reference solution is there on entry;
`coarseOk`: the coarse FEM solve and its prolongation returned; `matchOk`, `projectOk`: `match_check` and the
projection of the multiscale solution returned.  If the coarse solve throws, the *fine*
reference solution is dropped (l.170-173). -/
def print {V : Type} (N : Norms V) (hasExact msfem fem coarseOk matchOk projectOk : Bool) :
    Outcome (List (Key × V)) :=
  let fem := if coarseOk then fem else false
  if msfem && !(matchOk && projectOk) then .throw
  else collect N hasExact msfem fem (register hasExact msfem fem coarseOk)

/-- error_calc.cc:323-333: contents of errors.csv; `show'` is `operator<<` for `double`. -/
def csvText {V : Type} (show' : V → List Char) (csv : List (Key × V)) : List Char :=
  csv.foldl (fun s kv => s ++ (kv.1 ++ [','])) [] ++ ['\n'] ++
    (csv.foldl (fun s kv => s ++ (show' kv.2 ++ [','])) [] ++ ['\n'])

end Verif.ErrorReport
