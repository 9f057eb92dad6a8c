import Verif.Model.GridCreation
import Verif.Model.RandomField
import Mathlib.Algebra.BigOperators.Group.Finset.Basic

/-!
# Distribution of the global grids to processes

Source: `common/grid_creation.cc:51-105`, `common/mygridfactory.hh:66-81`, `problems/random.cc:57-80`.

The grid factory (mygridfactory.hh:80) passes no load balancer, so the default one of YaspGrid is used.  It is not part of the repository:
`candidates`, `cost`, `balance` transcribe `YLoadBalanceDefault` of dune-grid, `torusCoord` and `partOrigin` its `Torus` class.
Quotients of `int`s in `double` are exact rationals.  Process grids are lists of the numbers of processes per direction.
-/

namespace Verif.LoadBalance

/-- The loop `for (int k = 1; k <= P; k++) if (P % k == 0)`. -/
def divisors (P : ℕ) : List ℕ := (List.range' 1 P).filter fun k => P % k == 0

/-- `optimize_dims`: all process grids in the order in which they are tried; the last direction is the outermost loop, direction 0
gets what is left. -/
def candidates : ℕ → ℕ → List (List ℕ)
  | 0, _ => []
  | 1, P => [[P]]
  | d + 2, P => (divisors P).flatMap fun k => (candidates (d + 1) (P / k)).map fun t => t ++ [k]

/-- `optimize_dims`: cells per process in a direction, times three if it is not a whole number. -/
def dirCost (size dims : ℕ) : ℚ :=
  let mm := (size : ℚ) / (dims : ℚ)
  if size % dims = 0 then mm else mm * 3

/-- `optimize_dims`: the maximum over the directions, starting from -1. -/
def cost (size dims : List ℕ) : ℚ := (List.zipWith dirCost size dims).foldl max (-1)

/-- `optimize_dims`: a candidate replaces the best one so far if it costs less. -/
def step (size : List ℕ) (best : Option (List ℕ)) (t : List ℕ) : Option (List ℕ) :=
  match best with
  | none => some t
  | some b => if cost size t < cost size b then some t else some b

/-- `loadbalance`: the process grid for `P` processes.  The initial bound `1E100` exceeds all costs. -/
def balance (size : List ℕ) (P : ℕ) : Option (List ℕ) := (candidates size.length P).foldl (step size) none

/-- `Torus::rank_to_coord`: direction 0 runs fastest. -/
def torusCoord (dims : ℕ → ℕ) (rank i : ℕ) : ℕ := rank / (∏ j ∈ Finset.range i, dims j) % dims i

/-- `Torus::partition`: first cell of the part of process `coord` in a direction with `size` cells and `dims` processes; the
remainder goes to the last processes. -/
def partOrigin (size dims coord : ℕ) : ℕ :=
  let m := size / dims
  let r := size % dims
  if coord < dims - r then coord * m else (dims - r) * m + (coord - (dims - r)) * (m + 1)

/-- `Torus::partition`: number of cells of the part. -/
def partSize (size dims coord : ℕ) : ℕ :=
  let m := size / dims
  let r := size % dims
  if coord < dims - r then m else m + 1

/-- random.cc:61-63, with assertions: the number of segments of the random field, `1 << int(log2l(cells_per_dim[0]))`
(random_permeability.hh:108); `lg` is the logarithm.  Reading the first entry of an empty vector and the logarithm of zero are undefined. -/
def segments (lg : ℕ → ℚ) (cells : List ℕ) : Outcome ℕ :=
  match cells with
  | [] => .ub
  | c :: _ =>
    if cells.all (· == c) then
      if c = 0 then .ub
      else if ⌊lg c⌋.toNat = 0 then .ub                        -- random_permeability.hh:130
      else .ok (2 ^ ⌊lg c⌋.toNat)
    else .ub

end Verif.LoadBalance
