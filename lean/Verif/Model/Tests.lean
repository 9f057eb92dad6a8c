import Mathlib.Analysis.SpecialFunctions.Sqrt
import Mathlib.Data.Rat.Defs
import Mathlib.Data.Fintype.Pi
import Mathlib.Algebra.BigOperators.Group.Finset.Basic
import Mathlib.Algebra.Order.Field.Rat

/-!
# The tests of the repository

Source: `dune/multiscale/test/compare_cgfem.cc`, `compare_msfem.cc`, `grid_creation.cc`, `projection.cc` and the files
`*.mini` beside them.

A test is a function of what the tested code delivers; its value says whether the test passes.  Exact arithmetic.
`dune-testtools` is external: it makes one configuration of each value in a list marked `| expand` and replaces
`{key}` by the value of `key`, inner braces first.  gtest: `EXPECT_...` records a failure and goes on, the test passes if
nothing was recorded.
-/

namespace Verif.Tests

/-! ### Configuration of the comparison tests -/

/-- Group and key. -/
abbrev Key := String × String

/-- Right-hand sides in the files: numbers, or `{{setup}.key}`, a reference to the group named by the value of `setup`. -/
inductive Entry where
  | given (v : List ℚ)
  | ofSetup (key : String)

/-- A file: the values `setup` is expanded to, and the entries. -/
structure Mini where
  setups : List String
  entries : List (Key × Entry)

/-- `Configuration`: keys with values. -/
abbrev Cfg := Key → Option (List ℚ)

/-- The value of a key which is not a reference. -/
def Mini.plain (f : Mini) (k : Key) : Option (List ℚ) :=
  match f.entries.find? fun e => e.1 == k with
  | some (_, .given v) => some v
  | _ => none

/-- The configuration for one value of `setup`. -/
def Mini.config (f : Mini) (setup : String) : Cfg := fun k =>
  match f.entries.find? fun e => e.1 == k with
  | some (_, .given v) => some v
  | some (_, .ofSetup key) => f.plain (setup, key)
  | none => none

/-- common_grids.mini:1-9, 31-34 (the groups used by the comparison tests; only macro cells and micro cells differ). -/
def commonGrids : List (Key × Entry) :=
  [(("p_small", "grids.macro_cells_per_dim"), .given [4, 4, 4]),
   (("p_small", "grids.micro_cells_per_macrocell_dim"), .given [8, 8, 8]),
   (("p_small", "msfem.oversampling_layers"), .given [0]),
   (("p_large", "grids.macro_cells_per_dim"), .given [20, 20, 20]),
   (("p_large", "grids.micro_cells_per_macrocell_dim"), .given [40, 40, 40]),
   (("p_large", "msfem.oversampling_layers"), .given [0]),
   (("p_minimal", "grids.macro_cells_per_dim"), .given [1, 1, 1]),
   (("p_minimal", "grids.micro_cells_per_macrocell_dim"), .given [1, 1, 1]),
   (("p_minimal", "msfem.oversampling_layers"), .given [0])]

/-- compare_cgfem.mini:10-15, compare_msfem.mini:10-15. -/
def gridEntries : List (Key × Entry) :=
  [(("grids", "macro_cells_per_dim"), .ofSetup "grids.macro_cells_per_dim"),
   (("grids", "micro_cells_per_macrocell_dim"), .ofSetup "grids.micro_cells_per_macrocell_dim"),
   (("msfem", "oversampling_layers"), .ofSetup "msfem.oversampling_layers")]

/-- compare_cgfem.mini:8-31. -/
def cgfemMini : Mini where
  setups := ["p_small", "p_minimal"]
  entries := commonGrids ++ gridEntries ++
    [(("p_small", "fem_exact_L2"), .given [251 / 1000]),
     (("p_small", "fem_exact_H1s"), .given [267 / 100]),
     (("p_large", "fem_exact_L2"), .given [7 / 100]),
     (("p_large", "fem_exact_H1s"), .given [115 / 100]),
     (("p_minimal", "fem_exact_L2"), .given [57 / 100]),
     (("p_minimal", "fem_exact_H1s"), .given [23 / 10]),
     (("expected_errors", "fem_exact_L2"), .ofSetup "fem_exact_L2"),
     (("expected_errors", "fem_exact_H1s"), .ofSetup "fem_exact_H1s")]

/-- compare_msfem.mini:8-31. -/
def msfemMini : Mini where
  setups := ["p_small", "p_minimal"]
  entries := commonGrids ++ gridEntries ++
    [(("p_small", "msfem_exact_L2"), .given [251 / 1000]),
     (("p_small", "msfem_exact_H1s"), .given [267 / 100]),
     (("p_large", "msfem_exact_L2"), .given [7 / 100]),
     (("p_large", "msfem_exact_H1s"), .given [115 / 100]),
     (("p_minimal", "msfem_exact_L2"), .given [57 / 100]),
     (("p_minimal", "msfem_exact_H1s"), .given [23 / 10]),
     (("expected_errors", "fem_exact_L2"), .ofSetup "msfem_exact_L2"),
     (("expected_errors", "fem_exact_H1s"), .ofSetup "msfem_exact_H1s")]

/-! ### The comparison tests -/

/-- A reported error: `none` if it is not a finite number. -/
abbrev Value := Option ℚ

/-- The result of an algorithm, `std::map<std::string, double>`. -/
abbrev Errors := List (String × Value)

/-- `std::map::operator[]`: an entry with value zero is inserted if there is none. -/
def Errors.touch (e : Errors) (key : String) : Value × Errors :=
  match e.find? fun p => p.1 == key with
  | some p => (p.2, e)
  | none => (some 0, e ++ [(key, some 0)])

/-- `DXTC_CONFIG.get(key, -1.)`. -/
def bound (c : Cfg) (key : String) : ℚ := ((c ("expected_errors", key)).bind List.head?).getD (-1)

/-- `EXPECT_GT(a, b)`. -/
def expectGt (a : ℚ) : Value → Bool
  | some b => decide (a > b)
  | none => false

/-- The loops compare_cgfem.cc:24-26, compare_msfem.cc:24-27: every entry of the first run against the entry of the second
run with the same key.  `close` is `FloatCmp::eq`. -/
def sameErrors (close : Value → Value → Bool) : Errors → Errors → Bool
  | [], _ => true
  | (k, v) :: rest, second =>
    let (w, second) := Errors.touch second k
    close v w && sameErrors close rest second

/-- compare_cgfem.cc:15-27, compare_msfem.cc:15-28, with the names of the two errors.  `first`, `second`: the results of the
two runs of the algorithm. -/
def compareTest (keyL2 keyH1 : String) (close : Value → Value → Bool) (c : Cfg) (first second : Errors) : Bool :=
  let (l2, first) := Errors.touch first keyL2
  let okL2 := expectGt (bound c keyL2) l2
  let (h1, first) := Errors.touch first keyH1
  let okH1 := expectGt (bound c keyH1) h1
  okL2 && okH1 && sameErrors close first second

/-- compare_cgfem.cc. -/
def cgfemTest := compareTest "fem_exact_L2" "fem_exact_H1s"

/-- compare_msfem.cc. -/
def msfemTest := compareTest "msfem_exact_L2" "msfem_exact_H1s"

/-! ### The tests of the grids -/

/-- An element of a grid of axis-parallel boxes: lower corner and edge lengths. -/
structure Box (d : ℕ) where
  lo : Fin d → ℚ
  size : Fin d → ℚ

variable {d : ℕ}

/-- `geometry().corner(c)`. -/
def Box.corner (b : Box d) (c : Fin d → Bool) : Fin d → ℚ := fun i => if c i then b.lo i + b.size i else b.lo i

/-- `geometry().local(x)`. -/
def Box.toLocal (b : Box d) (x : Fin d → ℚ) : Fin d → ℚ := fun i => (x i - b.lo i) / b.size i

/-- `reference_element(...).checkInside(x)` (without the tolerance). -/
def checkInside (x : Fin d → ℚ) : Bool := decide (∀ i, 0 ≤ x i ∧ x i ≤ 1)

/-- grid_creation.cc:57-72 `check_fine_lp_in_coarse` (the Lagrange points of the space of order one are the corners). -/
def checkFineLpInCoarse (coarse fine : List (Box d)) : Bool :=
  fine.all fun ent => decide (∀ c : Fin d → Bool,
    -- 67: the local coordinates are taken with respect to `ent`
    (coarse.any fun _ => checkInside (ent.toLocal (ent.corner c))) = true)

/-- grid_creation.cc:152-163 `check_inside`. -/
def checkInsideTest (coarse fine : List (Box d)) : Bool :=
  fine.all fun ent => decide (∀ c : Fin d → Bool,
    -- 158: with respect to `coarse_ent`
    (coarse.any fun coarseEnt => checkInside (coarseEnt.toLocal (ent.corner c))) = true)

/-- What `DSG::dimensions` and `size(0)` tell about a grid. -/
structure Dimensions (d : ℕ) where
  lo : Fin d → ℚ
  hi : Fin d → ℚ
  minVolume : ℚ
  maxVolume : ℚ
  cells : ℕ

/-- The dimensions of a grid of `n i` equal cells in direction `i` on the box from `lo` to `hi`. -/
def uniform (lo hi : Fin d → ℚ) (n : Fin d → ℕ) : Dimensions d where
  lo := lo
  hi := hi
  minVolume := ∏ i, (hi i - lo i) / n i
  maxVolume := ∏ i, (hi i - lo i) / n i
  cells := ∏ i, n i

/-- grid_creation.cc:96-126 `check_dimensions`; `macroCells`, `micro` are the numbers read from the configuration. -/
def checkDimensions (macroCells micro : Fin d → ℕ) (coarse fine : Dimensions d) : Bool :=
  decide (∀ i, coarse.lo i = fine.lo i) && decide (∀ i, coarse.hi i = fine.hi i) &&   -- 101-104
  decide (coarse.maxVolume > fine.maxVolume) && decide (coarse.minVolume > fine.maxVolume) &&   -- 105-107
  decide (∀ i, 0 < macroCells i) && decide (∀ i, 0 < micro i) &&   -- 114-117
  decide (coarse.cells = ∏ i, macroCells i) && decide (fine.cells = (∏ i, macroCells i) * ∏ i, micro i)   -- 118-125

/-! ### The test of the projection -/

/-- projection.cc:47-49: `normSq` is the integral of the squared projected function; `induced_norm` is its square root, of
which the test takes the square root once more. -/
def ProjectionTest (constant normSq : ℝ) : Prop := Real.sqrt (Real.sqrt normSq) = constant

end Verif.Tests
