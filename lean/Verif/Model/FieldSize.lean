import Verif.Model.RandomField
import Verif.Model.LoadBalance

/-!
# Integer arithmetic of the random field

Source: `dune/multiscale/problems/random_permeability.hh`, `dune/multiscale/problems/random.cc`.

`Model/RandomField` computes sizes and indices with natural numbers.  Here the same expressions are evaluated with `int` of
32 bits: a result outside its range is undefined behaviour (also for the conversion of a `ptrdiff_t` to `int`, which is
implementation-defined and gives another number).  Expressions of type `ptrdiff_t` (64 bits) are exact.
-/

namespace Verif.FieldSize

/-- The value of an expression of type `int`. -/
def int (z : ℤ) : Outcome ℤ := if -2147483648 ≤ z ∧ z ≤ 2147483647 then .ok z else .ub

/-- random_permeability.hh:108 `1 << log2Seg`; shifting by a negative number is undefined. -/
def shiftOne (s : ℤ) : Outcome ℤ := if 0 ≤ s then int (2 ^ s.toNat) else .ub

/-- `_iMin`, `_iMax`, `_size` in one direction. -/
structure Block where
  iMin : ℤ
  iMax : ℤ
  size : ℤ
deriving DecidableEq

/-- random_permeability.hh:248-254, the loop of `setRange` over the directions, with `procPerDim` and `pos` of each
direction; the second result is the number of entries of `_perm`. -/
def setRange (N overlap : ℤ) : List (ℤ × ℤ) → ℤ → Outcome (List Block × ℤ)
  | [], size => .ok ([], size)
  | (ppd, pos) :: rest, size => do
    let len := N / ppd
    let a ← int (len * pos)
    let a ← int (a - overlap)
    let next ← int (pos + 1)
    let b ← int (len * next)
    let b ← int (b + overlap)
    let iMin := max 0 a
    let iMax := min N b
    let d ← int (iMax - iMin)
    let s ← int (d + 1)
    let size ← int (size * s)
    let r ← setRange N overlap rest size
    .ok ({ iMin := iMin, iMax := iMax, size := s } :: r.1, r.2)

/-- What `init` computes: `_N`, the blocks, the number of entries of `_perm`, and the divisor in `factor`. -/
structure Sizes where
  N : ℤ
  blocks : List Block
  entries : ℤ
  divisor : ℤ
deriving DecidableEq

/-- random_permeability.hh:102-196 `init`.  `n0` is the number of planes of this process (`_n0`), `ppd` and `pos` the process grid and
the position of this process in it.  The counters `p` (143, 173) and `i` (155, 188) run to the number of local entries. -/
def init (dim : ℕ) (log2Seg overlap : ℤ) (n0 : ℕ) (ppd pos : ℕ → ℕ) : Outcome Sizes := do
  let N ← shiftOne log2Seg                                     -- 108
  let twoN ← int (2 * N)                                       -- 122
  let r ← setRange N overlap ((List.range dim).map fun i => ((ppd i : ℤ), (pos i : ℤ))) 1
  if log2Seg ≤ 0 then .ub else                                 -- 130
  match dim with
  | 2 => do
    let _ ← int (n0 * twoN)                                    -- 146, 155
    let divisor ← int (twoN * twoN)                            -- 154
    .ok { N := N, blocks := r.1, entries := r.2, divisor := divisor }
  | 3 => do
    let _ ← int (n0 * twoN * twoN)                             -- 178, 188
    let square ← int (twoN * twoN)                             -- 187
    let divisor ← int (square * twoN)
    .ok { N := N, blocks := r.1, entries := r.2, divisor := divisor }
  | _ => .throw                                                -- 194

/-- random.cc:61-63, 68, 73: the call of `init` from the configured numbers of cells; `lg` is the logarithm.  The logarithm of
zero and an empty list are undefined; the assertion requires equal numbers. -/
def fieldInit (lg : ℕ → ℚ) (dim : ℕ) (cells : List ℕ) (overlap : ℤ) (n0 : ℕ) (ppd pos : ℕ → ℕ) : Outcome Sizes :=
  match cells with
  | [] => .ub
  | c :: _ =>
    if cells.all (· == c) then
      if c = 0 then .ub else do
        let log2Seg ← int ⌊lg c⌋
        init dim log2Seg overlap n0 ppd pos
    else .ub

/-- random_permeability.hh:268-271: `source` in two dimensions. -/
def source2 (N : ℤ) (n0 : ℕ) (iMin1 : ℤ) (i : ℤ) : Outcome ℤ := do
  let stepSource ← int (2 * N)
  int (i % n0 * stepSource + iMin1)

/-- random_permeability.hh:277-284: `source` in three dimensions after `k` rounds of the loop over `j`. -/
def source3 (N : ℤ) (n0 : ℕ) (iMin1 iMin2 i : ℤ) : ℕ → Outcome ℤ
  | 0 => do
    let t ← int (4 * N)
    let stepSource ← int (t * N)
    let u ← int (2 * N)
    let v ← int (u * iMin1)
    int (i % n0 * stepSource + v + iMin2)
  | k + 1 => do
    let source ← source3 N n0 iMin1 iMin2 i k
    let u ← int (2 * N)
    int (source + u)

/-- random_permeability.hh:329-340: `cell` from the sizes and the cell indices of the directions. -/
def cell : List (ℤ × ℤ) → ℤ → Outcome ℤ
  | [], c => .ok c
  | (size, j) :: rest, c => do
    let t ← int (size * c)
    let c ← int (t + j)
    cell rest c

/-- random_permeability.hh:342-345: `c11`. -/
def last2 (size1 c00 : ℤ) : Outcome ℤ := do
  let c10 ← int (c00 + size1)
  int (c10 + 1)

/-- random_permeability.hh:349-356: `c111`. -/
def last3 (size1 size2 c000 : ℤ) : Outcome ℤ := do
  let t ← int (size1 * size2)
  let c100 ← int (c000 + t)
  let c110 ← int (c100 + size2)
  int (c110 + 1)

end Verif.FieldSize
