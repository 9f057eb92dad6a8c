import Verif.Model.GridCreation
import Verif.Model.Outcome

/-!
# Numbers of cells as they are read from the configuration

Source: `dune/multiscale/common/grid_creation.cc`, `dune/multiscale/msfem/localproblems/localgridlist.cc`.

`grids.macro_cells_per_dim` and `grids.micro_cells_per_macrocell_dim` are read as `DomainType`, a vector of
`double`, and converted to `unsigned int` where grids are created.  Model/GridCreation and Model/LocalGrid take
natural numbers; here the values are rational numbers.  `rd` is the rounding of the floating point operations.
-/

namespace Verif.CellCounts
open Verif

/-- The implicit conversion of a `double` to `unsigned int` (assignments in grid_creation.cc:44, 100 and
localgridlist.cc:68): the fraction is dropped, and if the result does not fit the behaviour is undefined. -/
def toUnsigned (x : ℚ) : Outcome ℕ :=
  if -1 < x ∧ x < 2 ^ 32 then .ok ⌊x⌋₊ else .ub

/-- grid_creation.cc:44 `elements[i] = coarse_cells[i]`. -/
def coarseCount (c : ℚ) : Outcome ℕ := toUnsigned c

/-- grid_creation.cc:100 `elements[i] = coarse_cells[i] * microPerMacro[i]`. -/
def fineCount (rd : ℚ → ℚ) (c m : ℚ) : Outcome ℕ := toUnsigned (rd (c * m))

/-- localgridlist.cc:68-69: `micro_per_macro[i] + sides * oversampling_layer`, `sides` being the number of sides at
which the local grid does not exceed the domain. -/
def localCount (rd : ℚ → ℚ) (m : ℚ) (sides layers : ℕ) : Outcome ℕ :=
  toUnsigned (rd (m + ((sides * layers : ℕ) : ℚ)))

/-- localgridlist.cc:63-65: the extent of a local grid which does not exceed the domain, exact arithmetic.  `H` is the
width of the coarse cell. -/
def localExtent (H m : ℚ) (layers : ℕ) : ℚ := H + 2 * (layers * (H / m))


end Verif.CellCounts
