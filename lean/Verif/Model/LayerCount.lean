import Verif.Model.CellCounts

/-!
# Numbers of oversampling layers as they are read from the configuration

Source: `dune/multiscale/msfem/localproblems/localgridlist.cc:38, 59-73`, `dune/multiscale/common/grid_creation.cc:34, 45`,
`dune/multiscale/msfem/msfem_solver.cc:83`.

`msfem.oversampling_layers` is read as an `int` without a validator.  Model/LocalGrid takes a natural number; here it is any `int`.
Coordinates are exact.
-/

namespace Verif.LayerCount
open Verif Verif.CellCounts

/-- One direction of a coarse cell: its limits, those of the domain, micro cells per macro cell, layers. -/
structure Dir where
  min : ℚ
  max : ℚ
  globalLower : ℚ
  globalUpper : ℚ
  micro : ℕ
  layers : ℤ

/-- localgridlist.cc:63 -/
def Dir.delta (c : Dir) : ℚ := (c.max - c.min) / (c.micro : ℚ)

/-- localgridlist.cc:64 -/
def Dir.lower (c : Dir) : ℚ := Max.max (c.min - (c.layers : ℚ) * c.delta) c.globalLower

/-- localgridlist.cc:65 -/
def Dir.upper (c : Dir) : ℚ := Min.min (c.max + (c.layers : ℚ) * c.delta) c.globalUpper

/-- localgridlist.cc:66-69: sides at which the local grid does not exceed the domain. -/
def Dir.sides (c : Dir) : ℕ :=
  (!decide (c.min - (c.layers : ℚ) * c.delta < c.globalLower)).toNat + (!decide (c.max + (c.layers : ℚ) * c.delta > c.globalUpper)).toNat

/-- The values of an `int`. -/
def IsInt (z : ℤ) : Prop := -2 ^ 31 ≤ z ∧ z < 2 ^ 31

instance (z : ℤ) : Decidable (IsInt z) := inferInstanceAs (Decidable (_ ∧ _))

/-- localgridlist.cc:68-69: the product is one of two `int`, the sum one of `double`, which is converted to `unsigned int`. -/
def Dir.elements (c : Dir) : Outcome ℕ :=
  if IsInt ((c.sides : ℤ) * c.layers) then toUnsigned ((c.micro : ℚ) + (((c.sides : ℤ) * c.layers : ℤ) : ℚ)) else .ub

/-- grid_creation.cc:45 `std::ceil(double(oversamplingLayers) / double(microPerMacro[i]))`, converted to `unsigned int`; `rd` is the rounding
of the division. -/
def overlap (rd : ℚ → ℚ) (layers : ℤ) (micro : ℕ) : Outcome ℕ := toUnsigned (⌈rd ((layers : ℚ) / (micro : ℚ))⌉ : ℤ)

/-- msfem_solver.cc:83 -/
def cutOverlay (layers : ℤ) : Bool := decide (layers > 0)

/-- Coarse cell `k` of `N` on `[a, b]`. -/
def cell (a b : ℚ) (N k m : ℕ) (layers : ℤ) : Dir where
  min := a + (k : ℚ) * ((b - a) / (N : ℚ))
  max := a + ((k : ℚ) + 1) * ((b - a) / (N : ℚ))
  globalLower := a
  globalUpper := b
  micro := m
  layers := layers

end Verif.LayerCount
