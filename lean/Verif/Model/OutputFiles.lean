import Verif.Model.Text
import Mathlib.Data.Int.Init
import Mathlib.Order.Lattice
import Mathlib.Algebra.Order.Ring.Int

/-!
# Files written by a run

Source: `dune/multiscale/tools/misc/outputparameter.cc`, `dune/multiscale/common/error_calc.cc`,
`dune/multiscale/msfem/algorithm.cc`, `dune/multiscale/msfem/msfem_solver.cc`,
`dune/multiscale/msfem/localsolution_proxy.cc`, `dune/multiscale/fem/algorithm.cc`,
`dune/multiscale/common/main_init.cc`.

A file name is the list of characters passed to `visualize`; the extension which the VTK writer adds is the
same for all of them and left out.  The name of a visualised function is arbitrary.
-/

namespace Verif.OutputFiles
open Verif.Text

/-- outputparameter.cc:61-64 `"%s/%s_%s" % path % prefix % name`. -/
def fullpath (path pre name : List Char) : List Char := path ++ '/' :: (pre ++ '_' :: name)

/-- The visualisations of one error computation, error_calc.cc:147-325.  `differences` and
`discrete_differences` are unordered maps, so their order in the output is unspecified. -/
inductive Vis where
  | coarseFem      -- 173-174
  | exact          -- 74-84, called in 187
  | msfem          -- 54, called in 188
  | msfemExact     -- 317-318 with the keys of 195-196
  | femExact
  | coarseFemExact
  | msfemFem       -- 319-320
  | msfemCoarseFem
  | fineFem        -- 321-322
deriving DecidableEq

/-- The prefix each visualisation passes to `set_prefix`: error_calc.cc:174, 80, 54, 195-196, 322. -/
def Vis.prefix : Vis → List Char
  | .coarseFem => "coarse-cg-fem_solution_".toList
  | .exact => "exact_solution".toList
  | .msfem => "msfem_solution_".toList
  | .msfemExact => "msfem_exact".toList
  | .femExact => "fem_exact".toList
  | .coarseFemExact => "coarse_fem_exact".toList
  | .msfemFem => "msfem_fem".toList
  | .msfemCoarseFem => "msfem_coarse_fem".toList
  | .fineFem => "fine-cg-fem_solution_".toList

/-- What the error computation has at hand: an exact solution, a multiscale solution, a reference solution at
construction (`fem`), and whether the coarse reference solve succeeds (otherwise the reference is dropped,
error_calc.cc:175-178). -/
structure Avail where
  exact : Bool
  msfem : Bool
  fem : Bool
  coarseOk : Bool

/-- Is the reference solution still there after line 178? -/
def Avail.femLeft (a : Avail) : Bool := a.fem && a.coarseOk

/-- The visualisations of `print` with `global.vtk_output`, error_calc.cc:168-322, in program order (one of
the possible orders for the two unordered maps). -/
def visualised (a : Avail) : List Vis :=
  (if a.coarseOk then [.coarseFem] else []) ++
  (if a.msfem then (if a.exact then [.exact] else []) ++ [.msfem] else []) ++
  (if a.exact then
    (if a.msfem then [.msfemExact] else []) ++ (if a.femLeft then [.femExact] else []) ++ [.coarseFemExact]
   else []) ++
  (if a.msfem then .msfemCoarseFem :: (if a.femLeft then [.msfemFem] else []) else []) ++
  (if a.femLeft then [.fineFem] else [])

/-- The file of one visualisation; `name` gives the name of each visualised function. -/
def visFile (path : List Char) (name : Vis → List Char) (v : Vis) : List Char :=
  fullpath path v.prefix (name v)

/-- The files written by one error computation. -/
def errorFiles (path : List Char) (name : Vis → List Char) (a : Avail) : List (List Char) :=
  (visualised a).map (visFile path name)

/-- msfem_solver.cc:108-111: the file of a local correction, prefix
`"local_%04d_correction_%03d_" % rank % coarse_index`. -/
def correctionFile (path name : List Char) (rank index : ℕ) : List Char :=
  fullpath path
    ("local_".toList ++ (padded 4 rank ++ ("_correction_".toList ++ (padded 3 index ++ "_".toList)))) name

/-- localsolution_proxy.cc:57-68: the file of one part,
`base / ("rank_%04d_msfemsolution_parts_%08i" % rank % id)`; `base` includes the separator which
`boost::filesystem::path::operator/` inserts if necessary. -/
def partFile (base : List Char) (rank id : ℕ) : List Char :=
  base ++ ("rank_".toList ++ (padded 4 rank ++ ("_msfemsolution_parts_".toList ++ padded 8 id)))

/-- msfem/algorithm.cc:69-74: the coarse grid, written with the default prefix (outputparameter.cc:18). -/
def coarseGridFile (path : List Char) : List Char :=
  fullpath path "solutions".toList "Visualization_of_the_coarse_grid".toList

/-- The visualisation files of one process running `msfem_algorithm`: local corrections of the coarse cells
`cells` (msfem_solver.cc:55-115), the coarse grid, the error computation. -/
def msfemRunFiles (path corrName : List Char) (name : Vis → List Char) (a : Avail) (rank : ℕ)
    (cells : List ℕ) : List (List Char) :=
  cells.map (correctionFile path corrName rank) ++ coarseGridFile path :: errorFiles path name a

/-- The visualisation files of `cgfem_algorithm`, fem/algorithm.cc:34-43: the solution is written by the
algorithm and again by the error computation. -/
def cgfemRunFiles (path : List Char) (name : Vis → List Char) (a : Avail) : List (List Char) :=
  visFile path name .fineFem :: errorFiles path name a

/-! ### Memory statistics, main_init.cc:90-110 -/

/-- Two's complement wrap-around to a 64 bit `long` (`MPI_SUM` on `MPI_LONG`; signed overflow in a
reduction operation is outside the C++ standard, wrap-around is what implementations do). -/
def wrap64 (x : ℤ) : ℤ := (x + 2 ^ 63) % 2 ^ 64 - 2 ^ 63

/-- What `mem_usage` writes to memory.csv. -/
structure MemStat where
  max : ℤ
  mean : ℤ
deriving DecidableEq

/-- main_init.cc:97-101: `comm.max`, `comm.sum`, `total / comm.size()` (C++ integer division truncates).
`first` and `rest` are the peaks of the processes. -/
def memStat (first : ℤ) (rest : List ℤ) : MemStat where
  max := rest.foldl Max.max first
  mean := (wrap64 (first + rest.sum)).tdiv (rest.length + 1)

/-- `operator<<` for a `long`. -/
def showInt (x : ℤ) : List Char := if x < 0 then '-' :: decimal x.natAbs else decimal x.natAbs

/-- main_init.cc:106-107: the text of memory.csv. -/
def memText (m : MemStat) : List Char :=
  "global.maxPeakMemoryConsumption,global.meanPeakMemoryConsumption\n".toList ++
    (showInt m.max ++ (',' :: (showInt m.mean ++ "\n".toList)))

/-- main_init.cc:103-108: what the process `rank` writes. -/
def memWrites (first : ℤ) (rest : List ℤ) (rank : ℕ) : Option (List Char) :=
  if rank = 0 then some (memText (memStat first rest)) else none

end Verif.OutputFiles
