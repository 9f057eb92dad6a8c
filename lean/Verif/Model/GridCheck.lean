import Verif.Model.Outcome
import Verif.Model.LocalGrid

/-!
# The comparison of the distributed grids before the projection

Source: `common/error_calc.cc:116-136` `match_check`.

`DSG::dimensions` (dune-stuff, external) runs over the corners of all cells of a view; each coordinate occurs
several times there, here once per cell.  A view without cells has no limits (the code has the extreme
values of `double`, which equal each other and nothing else).
-/

namespace Verif.GridCheck
open Verif.LocalGrid

variable {d : ℕ}

/-- One coordinate enters `coord_limits[i]`. -/
def extend : Option (ℚ × ℚ) → ℚ → Option (ℚ × ℚ)
  | none, x => some (x, x)
  | some (a, b), x => some (min a x, max b x)

/-- `coord_limits[i]`: smallest and largest of the coordinates seen. -/
def limits (xs : List ℚ) : Option (ℚ × ℚ) := xs.foldl extend none

/-- `DSG::dimensions(view).coord_limits[i]` of the view with the given cells of a structured grid. -/
def coordLimits (g : CubeGrid d) (cells : List (Fin d → ℕ)) (i : Fin d) : Option (ℚ × ℚ) :=
  limits (cells.flatMap fun c => [g.cellLo i (c i), g.cellHi i (c i)])

/-- error_calc.cc:123-126; `close` is `FloatCmp::eq` (dune-xt, external). -/
def sameLimits (close : ℚ → ℚ → Bool) : Option (ℚ × ℚ) → Option (ℚ × ℚ) → Bool
  | some (a, b), some (a', b') => close a a' && close b b'
  | none, none => true
  | _, _ => false

/-- error_calc.cc:116-136: compares the parts of the calling process, `coarseCells` and `fineCells`. -/
def matchCheck (close : ℚ → ℚ → Bool) (coarse fine : CubeGrid d) (coarseCells fineCells : List (Fin d → ℕ)) : Outcome Unit :=
  (List.finRange d).foldl (fun r i => r >>= fun _ =>
    if sameLimits close (coordLimits coarse coarseCells i) (coordLimits fine fineCells i) then .ok () else .throw) (.ok ())

end Verif.GridCheck
