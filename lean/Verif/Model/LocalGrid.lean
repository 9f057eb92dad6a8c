import Mathlib.Data.Rat.Floor
import Mathlib.Tactic.Linarith
import Mathlib.Data.Fin.VecNotation

/-!
# Local grids around coarse cells

Transcription of the per-direction arithmetic of the `LocalGridList`
constructor and of `LocalGridList::covers`.

Source: `dune/multiscale/msfem/localproblems/localgridlist.cc`.

Simplifications: coordinates are exact rationals instead of `double`;
`oversampling_layer` (an `int` in the code) is a natural number;
`micro_per_macro[i]` (a `double` read from the configuration) is a natural number.
-/

namespace Verif.LocalGrid

/-- The data one loop iteration of localgridlist.cc:59-70 works on: the
coordinate limits of the coarse entity in direction `i` (60-61), the corners of
the domain (41-43), the micro cells per macro cell (36-37) and the oversampling
layers (38). -/
structure DirInput where
  min : ℚ
  max : ℚ
  globalLowerLeft : ℚ
  globalUpperRight : ℚ
  microPerMacro : ℕ
  oversampling : ℕ

/-- localgridlist.cc:63 `delta = (max - min) / double(micro_per_macro[i])`. -/
def DirInput.delta (c : DirInput) : ℚ := (c.max - c.min) / (c.microPerMacro : ℚ)

/-- localgridlist.cc:64 `std::max(min - oversampling_layer * delta, globalLowerLeft[i])`. -/
def DirInput.lowerLeft (c : DirInput) : ℚ :=
  Max.max (c.min - (c.oversampling : ℚ) * c.delta) c.globalLowerLeft

/-- localgridlist.cc:65 `std::min(max + oversampling_layer * delta, globalUpperRight[i])`. -/
def DirInput.upperRight (c : DirInput) : ℚ :=
  Min.min (c.max + (c.oversampling : ℚ) * c.delta) c.globalUpperRight

/-- localgridlist.cc:66. -/
def DirInput.exceedsLeft (c : DirInput) : Bool :=
  decide (c.min - (c.oversampling : ℚ) * c.delta < c.globalLowerLeft)

/-- localgridlist.cc:67. -/
def DirInput.exceedsRight (c : DirInput) : Bool :=
  decide (c.max + (c.oversampling : ℚ) * c.delta > c.globalUpperRight)

/-- localgridlist.cc:68-69
`micro_per_macro[i] + (int(!exceeds_left) + int(!exceeds_right)) * oversampling_layer`. -/
def DirInput.elements (c : DirInput) : ℕ :=
  c.microPerMacro + ((!c.exceedsLeft).toNat + (!c.exceedsRight).toNat) * c.oversampling

/-- A structured cube grid as created by `createCubeGrid`
(mygridfactory.hh:47-56 and 66-81): a box with a number of equal cells per direction. -/
structure CubeGrid (d : ℕ) where
  lower : Fin d → ℚ
  upper : Fin d → ℚ
  elements : Fin d → ℕ

/-- localgridlist.cc:56-73: the local grid of one coarse entity
(`FactoryType::createLocalGrid(lowerLeft, upperRight, elements_per_dim)`). -/
def makeLocalGrid {d : ℕ} (c : Fin d → DirInput) : CubeGrid d where
  lower i := (c i).lowerLeft
  upper i := (c i).upperRight
  elements i := (c i).elements

/-- Lower coordinate of cell `j` in direction `i` of a structured grid with
equidistant cells (the contract of the DUNE structured grids). -/
def CubeGrid.cellLo {d : ℕ} (g : CubeGrid d) (i : Fin d) (j : ℕ) : ℚ :=
  g.lower i + (j : ℚ) * ((g.upper i - g.lower i) / (g.elements i : ℚ))

/-- Upper coordinate of cell `j` in direction `i`. -/
def CubeGrid.cellHi {d : ℕ} (g : CubeGrid d) (i : Fin d) (j : ℕ) : ℚ :=
  g.lower i + ((j : ℚ) + 1) * ((g.upper i - g.lower i) / (g.elements i : ℚ))

/-- Centre coordinate `geometry().center()` of cell `j` in direction `i`. -/
def CubeGrid.cellCenter {d : ℕ} (g : CubeGrid d) (i : Fin d) (j : ℕ) : ℚ :=
  (g.cellLo i j + g.cellHi i j) / 2

/-- `reference_element.checkInside(geometry.local(x))` for an axis-parallel cube
cell `[lo, hi]`: the reference coordinate of `x` lies in `[-tol, 1 + tol]` in
every direction.  `tol` is the tolerance DUNE uses (external, hence a parameter). -/
def checkInside {d : ℕ} (tol : ℚ) (lo hi x : Fin d → ℚ) : Prop :=
  ∀ i, -tol ≤ (x i - lo i) / (hi i - lo i) ∧ (x i - lo i) / (hi i - lo i) ≤ 1 + tol

/-- localgridlist.cc:119-125 `LocalGridList::covers`: the centre of the local
cell with multi-index `J` lies inside the coarse cell. -/
def covers {d : ℕ} (tol : ℚ) (c : Fin d → DirInput) (g : CubeGrid d) (J : Fin d → ℕ) : Prop :=
  checkInside tol (fun i => (c i).min) (fun i => (c i).max) (fun i => g.cellCenter i (J i))

/-- localgridlist.hh:73-85 `LocalGridList::covers_strict`: every corner of the
geometry lies inside the coarse cell. -/
def coversStrict {d : ℕ} (tol : ℚ) (c : Fin d → DirInput) (corners : List (Fin d → ℚ)) : Prop :=
  ∀ x ∈ corners, checkInside tol (fun i => (c i).min) (fun i => (c i).max) x

/-- Direction data of coarse cell number `k` of `N` cells on `[a, b]`, the
coarse grid being the equidistant grid of grid_creation.cc:51-58. -/
def coarseCell (a b : ℚ) (N k m o : ℕ) : DirInput where
  min := a + (k : ℚ) * ((b - a) / (N : ℚ))
  max := a + ((k : ℚ) + 1) * ((b - a) / (N : ℚ))
  globalLowerLeft := a
  globalUpperRight := b
  microPerMacro := m
  oversampling := o

end Verif.LocalGrid
