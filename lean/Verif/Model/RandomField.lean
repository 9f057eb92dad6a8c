import Verif.Model.Outcome
import Mathlib.Algebra.Order.Floor.Ring
import Mathlib.Data.Rat.Floor

/-!
# The random permeability field

Source: `dune/multiscale/problems/random_permeability.hh`.

`int` is modelled by natural numbers without overflow (justified by C91 for the grids stated there); all quantities involved are non-negative (differences are explained
where they occur).  `double` is an ordered field `K` with exact arithmetic.
-/

namespace Verif.RandomField

/-! ### Process grid -/

/-- random_permeability.hh:209-220 `partition`.  `lg` is `std::log2` (result rounded to `double`, modelled as a rational number);
`int(h)` truncates, and `h ≥ 0` as there is at least one process.  `none`: `false` is returned and `procPerDim` is
not written. -/
def partition (lg : ℕ → ℚ) (dim nProc : ℕ) : Option (ℕ → ℕ) :=
  let h := lg nProc
  let log2P := ⌊h⌋.toNat
  if (log2P : ℚ) ≠ h then none
  else
    let nAll := log2P / dim
    let nMore := log2P - nAll * dim
    some fun i => 2 ^ (nAll + if i < nMore then 1 else 0)

/-- random_permeability.hh:229-233: `off[0] = 1`, `off[i] = off[i-1] * procPerDim[i-1]`. -/
def off (ppd : ℕ → ℕ) : ℕ → ℕ
  | 0 => 1
  | i + 1 => off ppd i * ppd i

/-- random_permeability.hh:234-237, the loop from `k - 1` down to 0; `iProc` is the remaining index. -/
def posLoop (ppd : ℕ → ℕ) : ℕ → ℕ → (ℕ → ℕ) → ℕ → ℕ
  | 0, _, pos => pos
  | k + 1, iProc, pos =>
    let q := iProc / off ppd k
    posLoop ppd k (iProc - q * off ppd k) (fun i => if i = k then q else pos i)

/-- random_permeability.hh:227-238 `gridPosition`. -/
def gridPosition (ppd : ℕ → ℕ) (dim iProc : ℕ) : ℕ → ℕ := posLoop ppd dim iProc (fun _ => 0)

/-- Index range of the local block in one direction, `_iMin` and `_iMax`. -/
structure Range where
  iMin : ℕ
  iMax : ℕ

/-- random_permeability.hh:252 `_size`. -/
def Range.size (r : Range) : ℕ := r.iMax - r.iMin + 1

/-- random_permeability.hh:249-251; `std::max(0, a - overlap)` is the subtraction of natural numbers. -/
def rangeOf (N overlap ppd pos : ℕ) : Range :=
  let len := N / ppd
  { iMin := len * pos - overlap, iMax := min N (len * (pos + 1) + overlap) }

/-- random_permeability.hh:241-256 `setRange`: the result of `partition` is ignored, so for other numbers of processes
uninitialised memory is read. -/
def setRange (lg : ℕ → ℚ) (dim nProc iProc N overlap : ℕ) : Outcome (ℕ → Range) :=
  match partition lg dim nProc with
  | none => .ub
  | some ppd => .ok fun i => rangeOf N overlap (ppd i) (gridPosition ppd dim iProc i)

/-! ### Redistribution -/

/-- `MPI_Get` of `len` entries starting at `source` of the window of process `rank` to `dest + d`.  Windows have `win` entries;
addressing a process or entries which do not exist is undefined. -/
def mpiGet {α : Type} (nProc win : ℕ) (layer : ℕ → ℕ → α) (dest : ℕ → α) (d rank source len : ℕ) : Outcome (ℕ → α) :=
  if rank < nProc ∧ source + len ≤ win then
    .ok fun q => if d ≤ q ∧ q < d + len then layer rank (source + (q - d)) else dest q
  else .ub

/-- random_permeability.hh:269-274, the loop over `i` in two dimensions; `k` rounds remain. -/
def redistLoop2 {α : Type} (N n0 nProc win : ℕ) (layer : ℕ → ℕ → α) (b1 : Range) :
    ℕ → ℕ → ℕ → (ℕ → α) → Outcome (ℕ → α)
  | 0, _, _, dest => .ok dest
  | k + 1, i, d, dest => do
    let rankSource := i / n0
    let source := (i % n0) * (2 * N) + b1.iMin
    let dest ← mpiGet nProc win layer dest d rankSource source b1.size
    redistLoop2 N n0 nProc win layer b1 k (i + 1) (d + b1.size) dest

/-- random_permeability.hh:259-275 `redistribute` in two dimensions.  `n0` is the number of planes of each process; for
`n0 = 0` there is a division by zero.  `layer r` is the window of process `r`. -/
def redistribute2 {α : Type} (N n0 nProc win : ℕ) (layer : ℕ → ℕ → α) (b0 b1 : Range) (perm : ℕ → α) : Outcome (ℕ → α) :=
  if n0 = 0 then .ub else redistLoop2 N n0 nProc win layer b1 b0.size b0.iMin 0 perm

/-- random_permeability.hh:281-285, the loop over `j` in three dimensions. -/
def redistInner3 {α : Type} (N nProc win : ℕ) (layer : ℕ → ℕ → α) (b2 : Range) (rankSource : ℕ) :
    ℕ → ℕ → ℕ → (ℕ → α) → Outcome (ℕ → α)
  | 0, _, _, dest => .ok dest
  | k + 1, source, d, dest => do
    let dest ← mpiGet nProc win layer dest d rankSource source b2.size
    redistInner3 N nProc win layer b2 rankSource k (source + 2 * N) (d + b2.size) dest

/-- random_permeability.hh:278-286, the loop over `i` in three dimensions. -/
def redistLoop3 {α : Type} (N n0 nProc win : ℕ) (layer : ℕ → ℕ → α) (b1 b2 : Range) :
    ℕ → ℕ → ℕ → (ℕ → α) → Outcome (ℕ → α)
  | 0, _, _, dest => .ok dest
  | k + 1, i, d, dest => do
    let rankSource := i / n0
    let source := (i % n0) * (4 * N * N) + 2 * N * b1.iMin + b2.iMin
    let dest ← redistInner3 N nProc win layer b2 rankSource b1.size source d dest
    redistLoop3 N n0 nProc win layer b1 b2 k (i + 1) (d + b1.size * b2.size) dest

/-- random_permeability.hh:275-292 `redistribute` in three dimensions. -/
def redistribute3 {α : Type} (N n0 nProc win : ℕ) (layer : ℕ → ℕ → α) (b0 b1 b2 : Range) (perm : ℕ → α) :
    Outcome (ℕ → α) :=
  if n0 = 0 then .ub else redistLoop3 N n0 nProc win layer b1 b2 b0.size b0.iMin 0 perm

/-! ### Evaluation -/

section
variable {K : Type} [Field K] [LinearOrder K] [IsStrictOrderedRing K] [FloorRing K]

/-- `_perm[c][_part]`, undefined outside the array of `len` entries. -/
def read {K : Type} (len : ℕ) (perm : ℕ → K × K) (part c : ℕ) : Outcome K :=
  if c < len then .ok (if part = 0 then (perm c).1 else (perm c).2) else .ub

/-- random_permeability.hh:333-335: the coordinate is rejected. -/
def outside (N : ℕ) (b : Range) (x : K) : Bool := decide (x * N < b.iMin) || decide (x * N > b.iMax)

/-- random_permeability.hh:336-337: the cell index in one direction. -/
def cellIndex (N : ℕ) (b : Range) (x : K) : ℕ := ⌊x * N - b.iMin⌋.toNat

/-- random_permeability.hh:338: the position in the cell. -/
def cellPos (N : ℕ) (b : Range) (x : K) : K := x * N - b.iMin - cellIndex N b x

/-- random_permeability.hh:327-348, 367 `operator()` in two dimensions. -/
def evaluate2 (N : ℕ) (b0 b1 : Range) (perm : ℕ → K × K) (part : ℕ) (minimal : K) (x0 x1 : K) : Outcome K :=
  if outside N b0 x0 then .throw
  else if outside N b1 x1 then .throw
  else do
    let t0 := cellPos N b0 x0
    let t1 := cellPos N b1 x1
    let cell := b1.size * (b0.size * 0 + cellIndex N b0 x0) + cellIndex N b1 x1
    let len := b0.size * b1.size
    let c00 := cell
    let c01 := c00 + 1
    let c10 := c00 + b1.size
    let c11 := c10 + 1
    let v00 ← read len perm part c00
    let v01 ← read len perm part c01
    let v10 ← read len perm part c10
    let v11 ← read len perm part c11
    let k := ((1 - t1) * v00 + t1 * v01) * (1 - t0) + ((1 - t1) * v10 + t1 * v11) * t0
    .ok (max k minimal)

/-- random_permeability.hh:327-339, 349-363, 367 `operator()` in three dimensions. -/
def evaluate3 (N : ℕ) (b0 b1 b2 : Range) (perm : ℕ → K × K) (part : ℕ) (minimal : K) (x0 x1 x2 : K) : Outcome K :=
  if outside N b0 x0 then .throw
  else if outside N b1 x1 then .throw
  else if outside N b2 x2 then .throw
  else do
    let t0 := cellPos N b0 x0
    let t1 := cellPos N b1 x1
    let t2 := cellPos N b2 x2
    let cell := b2.size * (b1.size * (b0.size * 0 + cellIndex N b0 x0) + cellIndex N b1 x1) + cellIndex N b2 x2
    let len := b0.size * b1.size * b2.size
    let c000 := cell
    let c001 := c000 + 1
    let c010 := c000 + b2.size
    let c011 := c010 + 1
    let c100 := c000 + b1.size * b2.size
    let c101 := c100 + 1
    let c110 := c100 + b2.size
    let c111 := c110 + 1
    let v000 ← read len perm part c000
    let v001 ← read len perm part c001
    let v010 ← read len perm part c010
    let v011 ← read len perm part c011
    let v100 ← read len perm part c100
    let v101 ← read len perm part c101
    let v110 ← read len perm part c110
    let v111 ← read len perm part c111
    let k := (((1 - t2) * v000 + t2 * v001) * (1 - t1) + ((1 - t2) * v010 + t2 * v011) * t1) * (1 - t0) +
      (((1 - t2) * v100 + t2 * v101) * (1 - t1) + ((1 - t2) * v110 + t2 * v111) * t1) * t0
    .ok (max k minimal)

end

/-! ### New fields -/

/-- State of a `Permeability` object as seen by `create`: `_part`, the number of transforms done so far, and the
content of `_perm`. -/
structure FieldState (α : Type) where
  part : ℕ
  transforms : ℕ
  perm : α × α

/-- random_permeability.hh:102-112: `_part = 1`, the array is zero (`zero`). -/
def FieldState.init {α : Type} (zero : α) : FieldState α := { part := 1, transforms := 0, perm := (zero, zero) }

/-- random_permeability.hh:296-322 `create`: `draws n` are real and imaginary part resulting from the `n`-th transform. -/
def create {α : Type} (draws : ℕ → α × α) (s : FieldState α) : FieldState α :=
  let part := 1 - s.part
  if part = 1 then { s with part := part }
  else { part := part, transforms := s.transforms + 1, perm := draws s.transforms }

/-- The field presented by `operator()`: `_perm[..][_part]`. -/
def FieldState.visible {α : Type} (s : FieldState α) : α := if s.part = 0 then s.perm.1 else s.perm.2

/-- `n` requests for a new field. -/
def requests {α : Type} (draws : ℕ → α × α) (zero : α) : ℕ → FieldState α
  | 0 => FieldState.init zero
  | n + 1 => create draws (requests draws zero n)

end Verif.RandomField
