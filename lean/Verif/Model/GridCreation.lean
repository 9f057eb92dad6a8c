import Verif.Model.LocalGrid
import Mathlib.Algebra.Order.Round

/-!
# Creation of the global grids

Source: `dune/multiscale/common/grid_creation.cc`, `dune/multiscale/common/mygridfactory.hh`.

The configuration access and its validators are external; the values read are parameters.
-/

namespace Verif.GridCreation
open Verif.LocalGrid

/-- The values read by `setup` (grid_creation.cc:24-49) and the domain corners. -/
structure Params (d : ℕ) where
  lowerLeft : Fin d → ℚ
  upperRight : Fin d → ℚ
  /-- `grids.macro_cells_per_dim` -/
  coarseCells : Fin d → ℕ
  /-- `grids.micro_cells_per_macrocell_dim` -/
  microPerMacro : Fin d → ℕ
  /-- `msfem.oversampling_layers` -/
  oversamplingLayers : ℕ
  /-- `grids.overlap` -/
  overlap : ℕ

/-- grid_creation.cc:45 `std::ceil(double(oversamplingLayers) / double(microPerMacro[i]))`.
`rd` is the rounding of the floating point division. -/
def coarseOverlap (rd : ℚ → ℚ) (oversamplingLayers micro : ℕ) : ℤ :=
  ⌈rd ((oversamplingLayers : ℚ) / (micro : ℚ))⌉

/-- grid_creation.cc:44,51-58: the coarse grid (domain box and cells per direction). -/
def coarseGrid {d : ℕ} (p : Params d) : CubeGrid d where
  lower := p.lowerLeft
  upper := p.upperRight
  elements := p.coarseCells

/-- grid_creation.cc:91-103: the fine grid, `elements[i] = coarse_cells[i] * microPerMacro[i]`. -/
def fineGrid {d : ℕ} (p : Params d) : CubeGrid d where
  lower := p.lowerLeft
  upper := p.upperRight
  elements i := p.coarseCells i * p.microPerMacro i

/-- Result of a grid creation call: an exception or a grid with the given overlaps. -/
inductive Creation (α : Type) where
  | throw
  | ok (overlap : α)
deriving DecidableEq, Repr

/-- The loop mygridfactory.hh:77-79 over directions `1 .. dim-1`. -/
def yaspLoop (first : ℕ) : List ℕ → Creation ℕ
  | [] => .ok first
  | o :: rest => if o ≠ first then .throw else yaspLoop first rest

/-- mygridfactory.hh:66-81: YaspGrid specialisation; `overlap` is nonempty (dimension at least 1).
The grid is created with the single overlap `overlap[0]`. -/
def yaspCreate {d : ℕ} (overlap : Fin (d + 1) → ℕ) : Creation ℕ :=
  yaspLoop (overlap 0) (List.ofFn fun i : Fin d => overlap i.succ)

/-- mygridfactory.hh:48-56: SPGrid specialisation, overlaps are passed through. -/
def spCreate {d : ℕ} (overlap : Fin (d + 1) → ℕ) : Creation (Fin (d + 1) → ℕ) := .ok overlap

/-- grid_creation.cc:55-58 on YaspGrid: coarse grid creation up to the factory call. -/
def yaspCoarse {d : ℕ} (rd : ℚ → ℚ) (p : Params (d + 1)) : Creation ℕ :=
  yaspCreate fun i => (coarseOverlap rd p.oversamplingLayers (p.microPerMacro i)).toNat

/-- The same on SPGrid. -/
def spCoarse {d : ℕ} (rd : ℚ → ℚ) (p : Params (d + 1)) : Creation (Fin (d + 1) → ℕ) :=
  spCreate fun i => (coarseOverlap rd p.oversamplingLayers (p.microPerMacro i)).toNat

/-- grid_creation.cc:59 `std::accumulate(elements.begin(), elements.end(), 1u, multiplies<unsigned>())`. -/
def expectedElements (elements : List UInt32) : UInt32 := elements.foldl (· * ·) 1

/-- `int(expected_elements)`: two's complement reinterpretation. -/
def asInt (u : UInt32) : ℤ := u.toBitVec.toInt

/-- The part of one process of a distributed grid, per direction: number of cells of the grid, first own cell, first cell behind. -/
structure Part where
  cells : ℕ
  first : ℕ
  last : ℕ

/-- Cells of the process in one direction, with the layers of overlap, which end at the boundary of the domain (dune-grid). -/
def Part.size (layers : ℕ) (p : Part) : ℕ := min p.cells (p.last + layers) - (p.first - layers)

/-- `size(0)` of a process: own cells and overlap cells. -/
def gridSize (layers : ℕ) (parts : List Part) : ℕ := (parts.map (Part.size layers)).prod

/-- grid_creation.cc:60 `size(0) - overlapSize(0)`.  `overlapSize` is the number of layers (dune-grid: "distance in graph"), not the number
of overlap cells. -/
def actualElements (layers : ℕ) (parts : List Part) : ℤ := (gridSize layers parts : ℤ) - (layers : ℤ)

/-- grid_creation.cc:59-65: does `make_coarse_grid` throw "Rank 0 fail" on a process? `commSize` is the number of processes. -/
def rank0Fail (elements : List UInt32) (commSize layers : ℕ) (parts : List Part) : Bool :=
  decide (commSize > 1) && decide (actualElements layers parts = asInt (expectedElements elements))

/-- localproblemsolver.cc:118, 121-122 and 161: the number of coarse cells written to the log, `size(0) - overlapSize(0)` as above. -/
def announcedCells (layers : ℕ) (parts : List Part) : ℤ := (gridSize layers parts : ℤ) - (layers : ℤ)

/-- localproblemsolver.cc:128-153: the cells visited are those of the partition InteriorBorder, for cells the own ones. -/
def solvedCells (parts : List Part) : ℕ := (parts.map fun p => p.last - p.first).prod

end Verif.GridCreation
