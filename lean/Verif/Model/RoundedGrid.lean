import Verif.Model.LocalGrid
import Verif.Model.Printing

/-!
# Local grids in floating point arithmetic

Source: `dune/multiscale/msfem/localproblems/localgridlist.cc:59-70`.

Model/LocalGrid has the same loop with exact coordinates.  Here every operation on `double` is rounded by `rd`;
conversions from integers are exact.  Range limits of `double` are outside the model.
-/

namespace Verif.RoundedGrid
open Verif.LocalGrid

/-- localgridlist.cc:63 `(max - min) / double(micro_per_macro[i])` -/
def delta (rd : ℚ → ℚ) (c : DirInput) : ℚ := rd (rd (c.max - c.min) / (c.microPerMacro : ℚ))

/-- localgridlist.cc:64-67 `oversampling_layer * delta` -/
def reach (rd : ℚ → ℚ) (c : DirInput) : ℚ := rd ((c.oversampling : ℚ) * delta rd c)

/-- localgridlist.cc:64, 66 `min - (oversampling_layer * delta)` -/
def left (rd : ℚ → ℚ) (c : DirInput) : ℚ := rd (c.min - reach rd c)

/-- localgridlist.cc:65, 67 `max + (oversampling_layer * delta)` -/
def right (rd : ℚ → ℚ) (c : DirInput) : ℚ := rd (c.max + reach rd c)

/-- localgridlist.cc:64 -/
def lowerLeft (rd : ℚ → ℚ) (c : DirInput) : ℚ := Max.max (left rd c) c.globalLowerLeft

/-- localgridlist.cc:65 -/
def upperRight (rd : ℚ → ℚ) (c : DirInput) : ℚ := Min.min (right rd c) c.globalUpperRight

/-- localgridlist.cc:66 -/
def exceedsLeft (rd : ℚ → ℚ) (c : DirInput) : Bool := decide (left rd c < c.globalLowerLeft)

/-- localgridlist.cc:67 -/
def exceedsRight (rd : ℚ → ℚ) (c : DirInput) : Bool := decide (right rd c > c.globalUpperRight)

/-- localgridlist.cc:68-69 -/
def elements (rd : ℚ → ℚ) (c : DirInput) : ℕ :=
  c.microPerMacro + ((!exceedsLeft rd c).toNat + (!exceedsRight rd c).toNat) * c.oversampling

/-- Rounding to 53 binary digits, half to even (IEEE 754 double precision without limits for the exponent). -/
def double (x : ℚ) : ℚ :=
  if x = 0 then 0
  else (Printing.roundEven (x / 2 ^ (Int.log 2 |x| - 52)) : ℚ) * 2 ^ (Int.log 2 |x| - 52)

/-- Coarse cell `k` of `N` on `[a, b]` with the coordinates of an equidistant grid, `a + i * h` with `h = (b - a) / N` (dune-grid), and
the domain itself. -/
def cell (rd : ℚ → ℚ) (a b : ℚ) (N k m o : ℕ) : DirInput where
  min := rd (a + rd ((k : ℚ) * rd (rd (b - a) / (N : ℚ))))
  max := rd (a + rd (((k : ℚ) + 1) * rd (rd (b - a) / (N : ℚ))))
  globalLowerLeft := a
  globalUpperRight := b
  microPerMacro := m
  oversampling := o

end Verif.RoundedGrid
