import Verif.Model.CellCounts

/-!
# What the constructor of the grid gets

Source: `dune/multiscale/common/grid_creation.cc`, `dune/multiscale/common/mygridfactory.hh`.

`Model/CellCounts` ends with the numbers of type `unsigned int`; the constructor of `YaspGrid` takes `int`.  Conversion of a value
that does not fit to `int` is implementation-defined; taken modulo `2^32`, as all compilers do.
-/

namespace Verif.GridArguments
open Verif CellCounts

/-- The conversion of `int` to `unsigned int` (grid_creation.cc:46). -/
def asUnsigned (z : ℤ) : ℕ := (z % 2 ^ 32).toNat

/-- The conversion of `unsigned int` to `int` (mygridfactory.hh:74, 80). -/
def asSigned (n : ℕ) : ℤ := if n < 2 ^ 31 then n else n - 2 ^ 32

/-- The arguments of the constructor of `YaspGrid` which are numbers of cells. -/
structure Arguments where
  elements : List ℤ
  overlap : ℤ
deriving DecidableEq

/-- mygridfactory.hh:66-81; `first` and `rest` are the entries of `overlap`. -/
def createCubeGrid (elements : List ℕ) (first : ℕ) (rest : List ℕ) : Outcome Arguments :=
  match GridCreation.yaspLoop first rest with
  | .throw => .throw
  | .ok o => .ok { elements := elements.map asSigned, overlap := asSigned o }

/-- grid_creation.cc:43-44: the loop of `setup`, numbers of coarse cells. -/
def coarseLoop : List ℚ → Outcome (List ℕ)
  | [] => .ok []
  | c :: rest => do
    let e ← coarseCount c
    let es ← coarseLoop rest
    .ok (e :: es)

/-- grid_creation.cc:99-101, coarse and micro cells of each direction. -/
def fineLoop (rd : ℚ → ℚ) : List (ℚ × ℚ) → Outcome (List ℕ)
  | [] => .ok []
  | (c, m) :: rest => do
    let e ← fineCount rd c m
    let es ← fineLoop rd rest
    .ok (e :: es)

/-- grid_creation.cc:51-58, for the overlaps `first`, `rest` found by `setup`. -/
def coarseGrid (cells : List ℚ) (first : ℕ) (rest : List ℕ) : Outcome Arguments := do
  let es ← coarseLoop cells
  createCubeGrid es first rest

/-- grid_creation.cc:85-103; `overlap` is the entry `grids.overlap` of the configuration, not validated (46). -/
def fineGrid (rd : ℚ → ℚ) (cells : List (ℚ × ℚ)) (overlap : ℤ) : Outcome Arguments := do
  let _ ← coarseLoop (cells.map Prod.fst)
  let es ← fineLoop rd cells
  createCubeGrid es (asUnsigned overlap) (List.replicate (cells.length - 1) (asUnsigned overlap))

end Verif.GridArguments
