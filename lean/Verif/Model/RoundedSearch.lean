import Verif.Model.RoundedGrid
import Verif.Model.Search

/-!
# The search for the points of fine elements in floating point arithmetic

Source: `dune/multiscale/msfem/localproblems/localgridsearch.cc:10-68` (search), `dune/multiscale/common/heterogenous.hh:24-39` (the points),
`dune/multiscale/msfem/localproblems/localgridlist.cc:59-70` (local grids, Model/RoundedGrid).

Every operation on `double` is rounded by `rd`; conversions from integers are exact.  Coordinates of grids, geometries and the test whether
a point is inside come from dune-grid and dune-geometry: `YaspGrid` with equidistant coordinates, `AxisAlignedCubeGeometry` and
`ReferenceElement::checkInside` with the tolerance `tol`, on which the search relies.  Number of dimensions `d`.
-/

namespace Verif.RoundedSearch

/-- One direction: the domain `[a, b]`, coarse cells, micro cells per coarse cell, layers (grid_creation.cc:30-75, Model/GridCreation). -/
structure Dir where
  a : ℚ
  b : ℚ
  N : ℕ
  m : ℕ
  o : ℕ

/-- Coordinate `i` of the grid with `n` cells on `[a, b]`: `a + i * h` with `h = (b - a) / n` (dune-grid). -/
def node (rd : ℚ → ℚ) (a b : ℚ) (n i : ℕ) : ℚ := rd (a + rd ((i : ℚ) * rd (rd (b - a) / (n : ℚ))))

/-- `geometry.global(t)` for `t = 0` or `t = 1` (heterogenous.hh:36): `lower + t * (upper - lower)` (dune-geometry). -/
def global (rd : ℚ → ℚ) (lo hi : ℚ) (t : Bool) : ℚ := rd (lo + rd ((t.toNat : ℚ) * rd (hi - lo)))

/-- `geometry.local(x)` (localgridsearch.cc:64): `(x - lower) / (upper - lower)` (dune-geometry). -/
def localCoord (rd : ℚ → ℚ) (lo hi x : ℚ) : ℚ := rd (rd (x - lo) / rd (hi - lo))

/-- `reference_element.checkInside` in one direction (localgridsearch.cc:64): `l > -tol` and `1 - l > -tol` (dune-geometry). -/
def checkInside (rd : ℚ → ℚ) (tol l : ℚ) : Bool := decide (-tol < l) && decide (-tol < rd (1 - l))

/-- Whether the interval with computed limits `lo`, `hi` contains `x`. -/
def contains (rd : ℚ → ℚ) (tol lo hi x : ℚ) : Bool := checkInside rd tol (localCoord rd lo hi x)

/-- The tolerance of dune-geometry for `double`: 64 times the distance of 1 to the next number. -/
def doubleTol : ℚ := 64 / 2 ^ 52

/-- Coordinate of the point `t` of fine element `j` (heterogenous.hh:34-37): the fine grid has `N * m` cells. -/
def point (rd : ℚ → ℚ) (D : Dir) (j : ℕ) (t : Bool) : ℚ :=
  global rd (node rd D.a D.b (D.N * D.m) j) (node rd D.a D.b (D.N * D.m) (j + 1)) t

/-- Coarse cell `k` contains `x` (localgridsearch.cc:57-68). -/
def coarseContains (rd : ℚ → ℚ) (tol : ℚ) (D : Dir) (k : ℕ) (x : ℚ) : Bool :=
  contains rd tol (node rd D.a D.b D.N k) (node rd D.a D.b D.N (k + 1)) x

/-- What localgridlist.cc:59-70 starts from: coarse cell `k`. -/
def input (rd : ℚ → ℚ) (D : Dir) (k : ℕ) : LocalGrid.DirInput where
  min := node rd D.a D.b D.N k
  max := node rd D.a D.b D.N (k + 1)
  globalLowerLeft := D.a
  globalUpperRight := D.b
  microPerMacro := D.m
  oversampling := D.o

/-- Number of cells of the local grid of coarse cell `k` (localgridlist.cc:68-69). -/
def localCells (rd : ℚ → ℚ) (D : Dir) (k : ℕ) : ℕ := RoundedGrid.elements rd (input rd D k)

/-- Coordinate `i` of the local grid of coarse cell `k` (localgridlist.cc:70-75). -/
def localNode (rd : ℚ → ℚ) (D : Dir) (k i : ℕ) : ℚ :=
  node rd (RoundedGrid.lowerLeft rd (input rd D k)) (RoundedGrid.upperRight rd (input rd D k)) (localCells rd D k) i

/-- Cell `i` of the local grid of coarse cell `k` contains `x` (dune-stuff `EntityInlevelSearch`). -/
def localContains (rd : ℚ → ℚ) (tol : ℚ) (D : Dir) (k i : ℕ) (x : ℚ) : Bool :=
  contains rd tol (localNode rd D k i) (localNode rd D k (i + 1)) x

/-- heterogenous.hh:30-38: the Lagrange points of fine element `J`, its corners in the order of DUNE. -/
def points {d : ℕ} (rd : ℚ → ℚ) (D : Fin d → Dir) (J : Fin d → ℕ) : List (Fin d → ℚ) :=
  (List.range (2 ^ d)).map fun t i => point rd (D i) (J i) (t.testBit i)

/-- What the search is constructed with (localgridsearch.cc:70-77). `index` gives the position of the coarse cells in the order of iteration,
`pick` is the element search on the local grid of a coarse cell for one point. -/
def env {d : ℕ} (rd : ℚ → ℚ) (tol : ℚ) (D : Fin d → Dir) (n viewSize : ℕ) (index : ℕ → Fin d → ℕ)
    (pick : ℕ → (Fin d → ℚ) → Option (Fin d → ℕ)) : Search.Env (Fin d → ℚ) (Fin d → ℕ) where
  n := n
  viewSize := viewSize
  covers c ps := ps.all fun x => decide (∀ i, coarseContains rd tol (D i) (index c i) (x i) = true)
  search c ps := ps.map (pick c)

end Verif.RoundedSearch
