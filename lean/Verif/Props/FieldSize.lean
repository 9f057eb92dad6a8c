import Verif.Model.FieldSize
import Verif.Props.FieldDomain
import Mathlib.Tactic.Ring
import Mathlib.Tactic.Linarith
import Mathlib.Tactic.IntervalCases
import Mathlib.Tactic.Positivity
import Mathlib.Tactic.GCongr

/-!
# Resolutions of the random field

C91: for which numbers of cells the sizes and indices of the random field are computed correctly.
-/

namespace Verif.FieldSize
open Verif

theorem int_ok {z : ℤ} (h : -2147483648 ≤ z) (h' : z < 2147483648) : int z = .ok z := by simp only [int]; rw [if_pos ⟨h, by omega⟩]

theorem ok_then {α β : Type} {x : Outcome α} {a : α} (h : x = .ok a) (f : α → Outcome β) : (x >>= f) = f a := by
  subst h; exact Outcome.ok_bind a f

theorem int_then {β : Type} {z : ℤ} (h : -2147483648 ≤ z) (h' : z < 2147483648) (f : ℤ → Outcome β) : (int z >>= f) = f z :=
  ok_then (int_ok h h') f

theorem int_ub {z : ℤ} (h : 2147483648 ≤ z) : int z = .ub := by simp only [int]; rw [if_neg (by omega)]

theorem int_cases (z : ℤ) : int z = .ok z ∨ int z = .ub := by
  unfold int; split <;> simp

/-- Calls which do not throw: the exact number or undefined behaviour. -/
theorem setRange_ne_throw (N overlap : ℤ) (l : List (ℤ × ℤ)) (size : ℤ) : setRange N overlap l size ≠ .throw := by
  induction l generalizing size with
  | nil => simp [setRange]
  | cons a rest ih =>
    obtain ⟨ppd, pos⟩ := a
    rw [setRange]
    rcases int_cases (N / ppd * pos) with h | h <;> rw [h] <;> simp only [Outcome.ok_bind, Outcome.ub_bind] <;> try simp
    rcases int_cases (N / ppd * pos - overlap) with h | h <;> rw [h] <;> simp only [Outcome.ok_bind, Outcome.ub_bind] <;> try simp
    rcases int_cases (pos + 1) with h | h <;> rw [h] <;> simp only [Outcome.ok_bind, Outcome.ub_bind] <;> try simp
    rcases int_cases (N / ppd * (pos + 1)) with h | h <;> rw [h] <;> simp only [Outcome.ok_bind, Outcome.ub_bind] <;> try simp
    rcases int_cases (N / ppd * (pos + 1) + overlap) with h | h <;> rw [h] <;> simp only [Outcome.ok_bind, Outcome.ub_bind] <;> try simp
    generalize min N (N / ppd * (pos + 1) + overlap) - max 0 (N / ppd * pos - overlap) = d
    rcases int_cases d with h | h <;> rw [h] <;> simp only [Outcome.ok_bind, Outcome.ub_bind] <;> try simp
    rcases int_cases (d + 1) with h | h <;> rw [h] <;> simp only [Outcome.ok_bind, Outcome.ub_bind] <;> try simp
    rcases int_cases (size * (d + 1)) with h | h <;> rw [h] <;> simp only [Outcome.ok_bind, Outcome.ub_bind] <;> try simp
    have := ih (size * (d + 1))
    cases hr : setRange N overlap rest (size * (d + 1)) with
    | ok r => simp
    | throw => exact absurd hr this
    | ub => simp

/-- The block of `Model/RandomField` as `int`. -/
def blockOf (b : RandomField.Range) : Block := { iMin := b.iMin, iMax := b.iMax, size := b.size }

/-- The blocks in all directions. -/
def blocksOf (N overlap : ℕ) (l : List (ℕ × ℕ)) : List RandomField.Range :=
  l.map fun p => RandomField.rangeOf N overlap p.1 p.2

theorem rangeOf_le (N overlap ppd pos : ℕ) (h : pos < ppd) :
    (RandomField.rangeOf N overlap ppd pos).iMin ≤ (RandomField.rangeOf N overlap ppd pos).iMax ∧
      (RandomField.rangeOf N overlap ppd pos).iMax ≤ N := by
  have hN : N / ppd * (pos + 1) ≤ N :=
    le_trans (Nat.mul_le_mul_left _ h) (Nat.div_mul_le_self _ _)
  have : N / ppd * (pos + 1) = N / ppd * pos + N / ppd := by ring
  simp only [RandomField.rangeOf]
  rw [this] at hN ⊢
  generalize N / ppd * pos = u at *
  generalize N / ppd = v at *
  omega

theorem bound_tail {size s N k B : ℕ} (h : size * (N + 1) ^ (k + 1) < B) (hs : s ≤ N + 1) : size * s * (N + 1) ^ k < B := by
  refine lt_of_le_of_lt ?_ h
  rw [pow_succ, mul_assoc, mul_comm (_ ^ _) (N + 1)]
  gcongr

theorem bound_head {n N k B : ℕ} (h : n * (N + 1) ^ k < B) : n < B :=
  lt_of_le_of_lt (Nat.le_mul_of_pos_right _ (Nat.pow_pos (Nat.succ_pos N))) h

theorem setRange_ok (N overlap : ℕ) (hN : N < 1073741824) (ho : overlap ≤ 1073741824) (l : List (ℕ × ℕ))
    (hl : ∀ p ∈ l, p.2 < p.1 ∧ p.1 ≤ 1073741824) (size : ℕ) (hs : size * (N + 1) ^ l.length < 2147483648) :
    setRange N overlap (l.map fun p => ((p.1 : ℤ), (p.2 : ℤ))) size =
      .ok ((blocksOf N overlap l).map blockOf, ((size * ((blocksOf N overlap l).map RandomField.Range.size).prod : ℕ) : ℤ)) := by
  induction l generalizing size with
  | nil => simp [setRange, blocksOf]
  | cons a rest ih =>
    obtain ⟨ppd, pos⟩ := a
    have hp : pos < ppd := (hl (ppd, pos) (by simp)).1
    have hp' : ppd ≤ 1073741824 := (hl (ppd, pos) (by simp)).2
    have hle := rangeOf_le N overlap ppd pos hp
    have h1 : N / ppd * (pos + 1) ≤ N := le_trans (Nat.mul_le_mul_left _ hp) (Nat.div_mul_le_self _ _)
    have h2 : N / ppd * (pos + 1) = N / ppd * pos + N / ppd := by ring
    have e1 : ((N : ℤ) / ppd * pos) = ((N / ppd * pos : ℕ) : ℤ) := by push_cast; ring
    have e2 : ((N : ℤ) / ppd * (pos + 1)) = ((N / ppd * (pos + 1) : ℕ) : ℤ) := by push_cast; ring
    have hmin : max 0 ((N : ℤ) / ppd * pos - overlap) = ((RandomField.rangeOf N overlap ppd pos).iMin : ℤ) := by
      rw [e1]; simp only [RandomField.rangeOf]; omega
    have hmax : min (N : ℤ) ((N : ℤ) / ppd * (pos + 1) + overlap) = ((RandomField.rangeOf N overlap ppd pos).iMax : ℤ) := by
      rw [e2]; simp only [RandomField.rangeOf]; omega
    set b := RandomField.rangeOf N overlap ppd pos with hb
    have hsz : (b.iMax : ℤ) - b.iMin + 1 = (b.size : ℤ) := by simp only [RandomField.Range.size]; omega
    have hszN : b.size ≤ N + 1 := by simp only [RandomField.Range.size]; omega
    have hs' := bound_tail hs hszN
    have hs'' := bound_head hs'
    rw [List.map_cons, setRange]
    simp only
    rw [int_then (z := (N : ℤ) / ppd * pos) (by rw [e1]; omega) (by rw [e1]; omega)]
    rw [int_then (z := (N : ℤ) / ppd * pos - overlap) (by rw [e1]; omega) (by rw [e1]; omega)]
    rw [int_then (z := (pos : ℤ) + 1) (by omega) (by omega)]
    rw [int_then (z := (N : ℤ) / ppd * (pos + 1)) (by rw [e2]; omega) (by rw [e2]; omega)]
    rw [int_then (z := (N : ℤ) / ppd * (pos + 1) + overlap) (by rw [e2]; omega) (by rw [e2]; omega)]
    rw [hmin, hmax, int_then (z := (b.iMax : ℤ) - b.iMin) (by omega) (by omega)]
    rw [hsz, int_then (z := (b.size : ℤ)) (by omega) (by omega)]
    rw [show (size : ℤ) * b.size = ((size * b.size : ℕ) : ℤ) by push_cast; ring,
      int_then (z := ((size * b.size : ℕ) : ℤ)) (by omega) (by exact_mod_cast hs'')]
    rw [ok_then (ih (fun p hp => hl p (by simp [hp])) _ hs')]
    simp only [blocksOf, List.map_cons, List.prod_cons, blockOf, ← hb]
    rw [mul_assoc]

/-- Number of segments for the logarithm `l`. -/
theorem shiftOne_ok (l : ℕ) (h : l ≤ 30) : shiftOne l = .ok ((2 ^ l : ℕ) : ℤ) := by
  have : (2 : ℤ) ^ l ≤ 2 ^ 30 := pow_le_pow_right₀ (by norm_num) h
  norm_num at this
  have h0 : (0 : ℤ) < 2 ^ l := by positivity
  simp only [shiftOne, Int.toNat_natCast]
  rw [if_pos (by omega), int_ok (by omega) (by omega)]; push_cast; rfl

/-- What the caller gives to `init` and FFTW reports to it: a position in the process grid, and `n0` planes out of `2 N`. -/
structure Placed (dim l n0 : ℕ) (ppd pos : ℕ → ℕ) : Prop where
  inGrid : ∀ i < dim, pos i < ppd i
  few : ∀ i < dim, ppd i ≤ 1073741824
  planes : n0 ≤ 2 * 2 ^ l

/-- **C91**: if the number of nodes of the extended grid, `(2 N) ^ dim`, is representable, all numbers computed by `init` are the exact ones: the
blocks are those of C45, the array has as many entries as the block has nodes, and the factor is `1 / (2 N) ^ dim`. -/
theorem C91_exact (dim l overlap n0 : ℕ) (ppd pos : ℕ → ℕ) (hdim : dim = 2 ∨ dim = 3) (hl : 1 ≤ l)
    (hb : (2 * 2 ^ l) ^ dim < 2147483648) (ho : overlap ≤ 1073741824) (hp : Placed dim l n0 ppd pos) :
    let blocks := (List.range dim).map fun i => RandomField.rangeOf (2 ^ l) overlap (ppd i) (pos i)
    init dim l overlap n0 ppd pos =
      .ok { N := 2 ^ l, blocks := blocks.map blockOf, entries := ((blocks.map RandomField.Range.size).prod : ℕ),
            divisor := (2 * 2 ^ l) ^ dim } := by
  intro blocks
  have hN1 : 2 ≤ 2 ^ l := by calc 2 = 2 ^ 1 := rfl
    _ ≤ 2 ^ l := Nat.pow_le_pow_right (by norm_num) hl
  set N : ℕ := 2 ^ l with hN
  have hpl := hp.planes
  rw [← hN] at hpl
  have hsq : (2 * N) * (2 * N) < 2147483648 := by
    rcases hdim with h | h <;> subst h
    · calc _ = (2 * N) ^ 2 := by ring
        _ < _ := hb
    · calc _ ≤ (2 * N) * (2 * N) * (2 * N) := Nat.le_mul_of_pos_right _ (by omega)
        _ = (2 * N) ^ 3 := by ring
        _ < _ := hb
  have hNs : 2 * N ≤ (2 * N) * (2 * N) := Nat.le_mul_of_pos_right _ (by omega)
  have hN30 : N < 1073741824 := by omega
  have hl30 : l ≤ 30 := by
    by_contra h
    have : 2 ^ 30 ≤ 2 ^ l := Nat.pow_le_pow_right (by norm_num) (by omega)
    norm_num at this
    omega
  have hset := setRange_ok N overlap hN30 ho ((List.range dim).map fun i => (ppd i, pos i))
    (by
      intro p hp'
      obtain ⟨i, hi, rfl⟩ := List.mem_map.1 hp'
      exact ⟨hp.inGrid i (List.mem_range.1 hi), hp.few i (List.mem_range.1 hi)⟩) 1
    (by
      rw [List.length_map, List.length_range, one_mul]
      exact lt_of_le_of_lt (Nat.pow_le_pow_left (by omega) _) hb)
  rw [List.map_map, Nat.cast_one] at hset
  have hblocks : blocksOf N overlap ((List.range dim).map fun i => (ppd i, pos i)) = blocks := by
    simp only [blocksOf, List.map_map, blocks]; rfl
  rw [hblocks] at hset
  have hset' : setRange (N : ℤ) overlap ((List.range dim).map fun i => ((ppd i : ℤ), (pos i : ℤ))) 1 = _ := hset
  unfold init
  rw [shiftOne_ok l hl30]
  simp only [Outcome.ok_bind]
  rw [← hN, show (2 : ℤ) * (N : ℤ) = ((2 * N : ℕ) : ℤ) by push_cast; ring, int_ok (z := ((2 * N : ℕ) : ℤ)) (by omega) (by omega)]
  simp only [Outcome.ok_bind]
  rw [hset']
  simp only [Outcome.ok_bind]
  rw [if_neg (by omega)]
  rcases hdim with h | h <;> subst h
  · simp only
    have hn : n0 * (2 * N) < 2147483648 := lt_of_le_of_lt (Nat.mul_le_mul_right _ hpl) hsq
    rw [show (n0 : ℤ) * ((2 * N : ℕ) : ℤ) = ((n0 * (2 * N) : ℕ) : ℤ) by push_cast; ring, int_ok (by omega) (by exact_mod_cast hn)]
    simp only [Outcome.ok_bind]
    rw [show ((2 * N : ℕ) : ℤ) * ((2 * N : ℕ) : ℤ) = ((2 * N * (2 * N) : ℕ) : ℤ) by push_cast; ring, int_ok (by omega) (by exact_mod_cast hsq)]
    simp only [Outcome.ok_bind]
    congr 2
    · simp
    · simp only [hN]; push_cast; ring
  · simp only
    have hcube : 2 * N * (2 * N) * (2 * N) < 2147483648 := by
      calc _ = (2 * N) ^ 3 := by ring
        _ < _ := hb
    have hn : n0 * (2 * N) * (2 * N) < 2147483648 := lt_of_le_of_lt (by gcongr) hcube
    rw [show (n0 : ℤ) * ((2 * N : ℕ) : ℤ) * ((2 * N : ℕ) : ℤ) = ((n0 * (2 * N) * (2 * N) : ℕ) : ℤ) by push_cast; ring, int_ok (by omega) (by exact_mod_cast hn)]
    simp only [Outcome.ok_bind]
    rw [show ((2 * N : ℕ) : ℤ) * ((2 * N : ℕ) : ℤ) = ((2 * N * (2 * N) : ℕ) : ℤ) by push_cast; ring, int_ok (by omega) (by exact_mod_cast hsq)]
    simp only [Outcome.ok_bind]
    rw [show ((2 * N * (2 * N) : ℕ) : ℤ) * ((2 * N : ℕ) : ℤ) = ((2 * N * (2 * N) * (2 * N) : ℕ) : ℤ) by push_cast; ring, int_ok (by omega) (by exact_mod_cast hcube)]
    simp only [Outcome.ok_bind]
    congr 2
    · simp
    · simp only [hN]; push_cast; ring

/-- Beyond that bound `init` has undefined behaviour on every process, whatever part of the field it holds. -/
theorem C91_too_fine (dim n0 : ℕ) (l overlap : ℤ) (ppd pos : ℕ → ℕ) (hdim : dim = 2 ∨ dim = 3)
    (hb : 2147483648 ≤ (2 * 2 ^ l.toNat) ^ dim) : init dim l overlap n0 ppd pos = .ub := by
  unfold init
  by_cases h0 : 0 ≤ l
  swap
  · simp [shiftOne, h0]
  obtain ⟨m, rfl⟩ := Int.eq_ofNat_of_zero_le h0
  simp only [Int.toNat_natCast] at hb
  simp only [shiftOne, h0, if_true, Int.toNat_natCast]
  rcases int_cases (2 ^ m) with h | h <;> rw [h] <;> simp only [Outcome.ok_bind, Outcome.ub_bind]
  rcases int_cases (2 * 2 ^ m) with h | h <;> rw [h] <;> simp only [Outcome.ok_bind, Outcome.ub_bind]
  cases hr : setRange (2 ^ m) overlap ((List.range dim).map fun i => ((ppd i : ℤ), (pos i : ℤ))) 1 with
  | throw => exact absurd hr (setRange_ne_throw _ _ _ _)
  | ub => simp
  | ok r =>
    simp only [Outcome.ok_bind]
    split
    · rfl
    have hb' : (2147483648 : ℤ) ≤ (2 * 2 ^ m) ^ dim := by exact_mod_cast hb
    rcases hdim with h | h <;> subst h
    · simp only
      rcases int_cases (n0 * (2 * 2 ^ m)) with h | h <;> rw [h] <;> simp only [Outcome.ok_bind, Outcome.ub_bind]
      rw [int_ub (by rwa [← pow_two])]; rfl
    · simp only
      rcases int_cases (n0 * (2 * 2 ^ m) * (2 * 2 ^ m)) with h | h <;> rw [h] <;> simp only [Outcome.ok_bind, Outcome.ub_bind]
      rcases int_cases (2 * 2 ^ m * (2 * 2 ^ m)) with h | h <;> rw [h] <;> simp only [Outcome.ok_bind, Outcome.ub_bind]
      rw [int_ub (by calc (2147483648 : ℤ) ≤ _ := hb'
          _ = _ := by ring)]; rfl

/-- **C91** In other dimensions `init` throws, once the block of the process is set up. -/
theorem C91_dimension (dim l overlap n0 : ℕ) (ppd pos : ℕ → ℕ) (h2 : dim ≠ 2) (h3 : dim ≠ 3) (hl : 1 ≤ l) (hl' : l < 30)
    (hb : (2 ^ l + 1) ^ dim < 2147483648) (ho : overlap ≤ 1073741824) (hp : Placed dim l n0 ppd pos) :
    init dim l overlap n0 ppd pos = .throw := by
  have hN30 : 2 ^ l < 1073741824 := by
    calc 2 ^ l < 2 ^ 30 := Nat.pow_lt_pow_right (by norm_num) hl'
      _ = _ := by norm_num
  have hset := setRange_ok (2 ^ l) overlap hN30 ho ((List.range dim).map fun i => (ppd i, pos i))
    (by
      intro p hp'
      obtain ⟨i, hi, rfl⟩ := List.mem_map.1 hp'
      exact ⟨hp.inGrid i (List.mem_range.1 hi), hp.few i (List.mem_range.1 hi)⟩) 1
    (by rw [List.length_map, List.length_range, one_mul]; exact hb)
  rw [List.map_map, Nat.cast_one] at hset
  have hset' : setRange ((2 ^ l : ℕ) : ℤ) overlap ((List.range dim).map fun i => ((ppd i : ℤ), (pos i : ℤ))) 1 = _ := hset
  unfold init
  rw [ok_then (shiftOne_ok l hl'.le), int_then (z := 2 * ((2 ^ l : ℕ) : ℤ)) (by generalize 2 ^ l = N at *; omega)
    (by generalize 2 ^ l = N at *; omega), ok_then hset', if_neg (by omega)]
  split
  · exact absurd rfl h2
  · exact absurd rfl h3
  · rfl

/-- Instance: one dimension, two processes. -/
example : init 1 4 1 16 (fun _ => 2) (fun _ => 1) = .throw := by
  refine C91_dimension 1 4 1 16 _ _ (by norm_num) (by norm_num) (by norm_num) (by norm_num) (by norm_num) (by norm_num) ⟨?_, ?_, ?_⟩ <;> norm_num

/-- The number of cells alone decides: `(2 N) ^ dim` is representable for less than `2 ^ 15` cells per direction in two
dimensions and less than `2 ^ 10` in three. -/
theorem representable_iff (dim c : ℕ) (hdim : dim = 2 ∨ dim = 3) (hc : 0 < c) :
    (2 * 2 ^ Nat.log 2 c) ^ dim < 2147483648 ↔ c < if dim = 2 then 32768 else 1024 := by
  have key : ∀ k m : ℕ, (2 * 2 ^ k) ^ m = 2 ^ (m * (k + 1)) := fun k m => by
    rw [show 2 * 2 ^ k = 2 ^ (k + 1) by ring, ← pow_mul, mul_comm]
  have h31 : ∀ a : ℕ, 2 ^ a < 2147483648 ↔ a < 31 := fun a => by
    rw [show (2147483648 : ℕ) = 2 ^ 31 by norm_num]; exact Nat.pow_lt_pow_iff_right (by norm_num)
  rw [key, h31]
  rcases hdim with h | h <;> subst h
  · rw [if_pos rfl, show (32768 : ℕ) = 2 ^ 15 by norm_num, ← Nat.log_lt_iff_lt_pow (by norm_num) hc.ne']; omega
  · rw [if_neg (by norm_num), show (1024 : ℕ) = 2 ^ 10 by norm_num, ← Nat.log_lt_iff_lt_pow (by norm_num) hc.ne']; omega

theorem floor_nat (lg : ℕ → ℚ) (hlg : Spec.AccurateLog2 lg) (c : ℕ) (h0 : 0 < c) (h1 : c < 2 ^ 31) :
    ⌊lg c⌋ = (Nat.log 2 c : ℤ) := by
  rcases Nat.lt_or_ge c 2 with h | h
  · have : c = 2 ^ 0 := by omega
    rw [this, hlg.exact 0 (by norm_num)]; simp
  · have hf := LoadBalance.floor_log lg hlg c h0 h1
    have : 1 ≤ Nat.log 2 c := Nat.log_pos (by norm_num) h
    omega

/-- The field for a grid with `c` cells in each of `dim` directions. -/
theorem fieldInit_eq (lg : ℕ → ℚ) (hlg : Spec.AccurateLog2 lg) (dim c n0 : ℕ) (overlap : ℤ) (ppd pos : ℕ → ℕ) (hdim : dim = 2 ∨ dim = 3)
    (h0 : 0 < c) (h1 : c < 2 ^ 31) :
    fieldInit lg dim (List.replicate dim c) overlap n0 ppd pos = init dim (Nat.log 2 c : ℕ) overlap n0 ppd pos := by
  have hlog : Nat.log 2 c < 31 := (Nat.log_lt_iff_lt_pow (by norm_num) h0.ne').2 h1
  have hstep : (int ⌊lg c⌋ >>= fun l => init dim l overlap n0 ppd pos) = init dim (Nat.log 2 c : ℕ) overlap n0 ppd pos := by
    rw [floor_nat lg hlg c h0 h1, int_then (by omega) (by omega)]
  rcases hdim with h | h <;> subst h
  · rw [show List.replicate 2 c = [c, c] from rfl, fieldInit, if_pos (by simp), if_neg h0.ne']; exact hstep
  · rw [show List.replicate 3 c = [c, c, c] from rfl, fieldInit, if_pos (by simp), if_neg h0.ne']; exact hstep

/-- Grids for which the field can be set up. -/
def Resolvable (dim c : ℕ) : Prop := 2 ≤ c ∧ c < if dim = 2 then 32768 else 1024

/-- **C91** in terms of the configuration: on grids with at least two and less than 32768 (two dimensions) or 1024 (three dimensions) cells per
direction the field is set up on every process, with the exact sizes. -/
theorem C91_cells_partial (lg : ℕ → ℚ) (hlg : Spec.AccurateLog2 lg) (dim c n0 overlap : ℕ) (ppd pos : ℕ → ℕ) (hdim : dim = 2 ∨ dim = 3)
    (hc : Resolvable dim c) (ho : overlap ≤ 1073741824) (hp : Placed dim (Nat.log 2 c) n0 ppd pos) :
    let N := 2 ^ Nat.log 2 c
    let blocks := (List.range dim).map fun i => RandomField.rangeOf N overlap (ppd i) (pos i)
    fieldInit lg dim (List.replicate dim c) overlap n0 ppd pos =
      .ok { N := N, blocks := blocks.map blockOf, entries := ((blocks.map RandomField.Range.size).prod : ℕ), divisor := (2 * N) ^ dim } := by
  intro N blocks
  obtain ⟨h2, hlt⟩ := hc
  have hc31 : c < 2 ^ 31 := by split at hlt <;> omega
  rw [fieldInit_eq lg hlg dim c n0 overlap ppd pos hdim (by omega) hc31]
  have := C91_exact dim (Nat.log 2 c) overlap n0 ppd pos hdim (Nat.log_pos (by norm_num) h2)
    ((representable_iff dim c hdim (by omega)).2 hlt) ho hp
  rw [this]
  simp [N, blocks]

/-- **C91 fails** on finer grids, on all processes and whatever their number: setting up the field has undefined behaviour (overflow
of the product in the scaling factor at the latest) on a grid with 32768 or more cells per direction in two dimensions, 1024 or more in
three; such grids have representable numbers of cells and can be distributed to many processes. -/
theorem C91_violated (lg : ℕ → ℚ) (hlg : Spec.AccurateLog2 lg) (dim c n0 : ℕ) (overlap : ℤ) (ppd pos : ℕ → ℕ) (hdim : dim = 2 ∨ dim = 3)
    (hc : c < 2 ^ 31) (hfine : (if dim = 2 then 32768 else 1024) ≤ c) :
    fieldInit lg dim (List.replicate dim c) overlap n0 ppd pos = .ub := by
  have h0 : 0 < c := by split at hfine <;> omega
  rw [fieldInit_eq lg hlg dim c n0 overlap ppd pos hdim h0 hc]
  refine C91_too_fine dim n0 _ overlap ppd pos hdim ?_
  rw [Int.toNat_natCast]
  by_contra h
  exact absurd ((representable_iff dim c hdim h0).1 (by omega)) (by omega)

/-- A single cell per direction is refused as well. -/
theorem C91_one_cell (lg : ℕ → ℚ) (hlg : Spec.AccurateLog2 lg) (dim n0 : ℕ) (overlap : ℤ) (ppd pos : ℕ → ℕ) (hdim : dim = 2 ∨ dim = 3) :
    fieldInit lg dim (List.replicate dim 1) overlap n0 ppd pos = .ub := by
  rw [fieldInit_eq lg hlg dim 1 n0 overlap ppd pos hdim (by norm_num) (by norm_num)]
  unfold init
  have hs : shiftOne ((Nat.log 2 1 : ℕ) : ℤ) = .ok 1 := by
    have := shiftOne_ok (Nat.log 2 1) (by simp); simpa using this
  rw [ok_then hs, int_then (by norm_num) (by norm_num)]
  cases hr : setRange 1 overlap ((List.range dim).map fun i => ((ppd i : ℤ), (pos i : ℤ))) 1 with
  | throw => exact absurd hr (setRange_ne_throw _ _ _ _)
  | ub => rfl
  | ok r => rw [Outcome.ok_bind, if_pos (by simp)]

/-- Unless there are equal, positive numbers of cells in all directions, and at least one, there is no field, for any logarithm. -/
theorem C91_unequal (lg : ℕ → ℚ) (dim : ℕ) (cells : List ℕ) (overlap : ℤ) (n0 : ℕ) (ppd pos : ℕ → ℕ)
    (h : ¬ ∃ n c, 0 < c ∧ cells = List.replicate (n + 1) c) : fieldInit lg dim cells overlap n0 ppd pos = .ub := by
  cases cells with
  | nil => rfl
  | cons c rest =>
    unfold fieldInit
    dsimp only
    by_cases hall : (c :: rest).all (· == c)
    · rw [if_pos hall]
      by_cases h0 : c = 0
      · rw [if_pos h0]
      · refine absurd ⟨rest.length, c, Nat.pos_of_ne_zero h0, ?_⟩ h
        rw [List.eq_replicate_iff]
        refine ⟨rfl, fun t ht => ?_⟩
        simpa using List.all_eq_true.mp hall t ht
    · rw [if_neg hall]

/-- Instance: unequal numbers. -/
example : ¬ ∃ n c, 0 < c ∧ [4, 4, 8] = List.replicate (n + 1) c := by
  rintro ⟨n, c, -, h⟩
  have h4 := List.eq_of_mem_replicate (h ▸ (by simp : 4 ∈ [4, 4, 8]))
  have h8 := List.eq_of_mem_replicate (h ▸ (by simp : 8 ∈ [4, 4, 8]))
  omega

/-- Non-vacuity: with 1024 cells in each of three directions the grid has `2 ^ 30` cells, with 1023 the field exists (16 processes in a
grid of 4, 2, 2, the process at the origin). -/
example : (1024 : ℕ) ^ 3 < 2 ^ 31 ∧ Resolvable 3 1023 ∧
    Placed 3 (Nat.log 2 1023) 64 (fun i => if i = 0 then 4 else 2) (fun _ => 0) := by
  have h9 : Nat.log 2 1023 = 9 := by rw [Nat.log_eq_iff] <;> norm_num
  refine ⟨by norm_num, ⟨by norm_num, by norm_num⟩, ⟨fun i _ => by split <;> omega, fun i _ => by split <;> omega, ?_⟩⟩
  rw [h9]; norm_num

/-! ### Indices in later calls -/

/-- **C91** for `redistribute`, two dimensions: the offset in the window is the exact one. -/
theorem C91_source2 (N n0 i iMin1 : ℕ) (hN : 2 * N * (2 * N) < 2147483648) (hn : 0 < n0) (hn' : n0 ≤ 2 * N) (hi : iMin1 ≤ N) :
    source2 N n0 iMin1 i = .ok ((i % n0 * (2 * N) + iMin1 : ℕ) : ℤ) := by
  have hm : i % n0 + 1 ≤ 2 * N := le_trans (Nat.mod_lt i hn) hn'
  have h2 : (i % n0 + 1) * (2 * N) ≤ 2 * N * (2 * N) := Nat.mul_le_mul_right _ hm
  have h3 : (i % n0 + 1) * (2 * N) = i % n0 * (2 * N) + 2 * N := by ring
  have hNN : 2 * N ≤ 2 * N * (2 * N) := Nat.le_mul_of_pos_right _ (by omega)
  unfold source2
  rw [int_then (by omega) (by omega),
    show ((i : ℤ) % (n0 : ℤ) * (2 * (N : ℤ)) + (iMin1 : ℤ)) = ((i % n0 * (2 * N) + iMin1 : ℕ) : ℤ) by push_cast; ring]
  exact int_ok (by omega) (by omega)

/-- **C91** for `redistribute`, three dimensions: the offsets in all rounds of the inner loop, and after it. -/
theorem C91_source3 (N n0 i iMin1 iMin2 k : ℕ) (h2N : 2 ≤ N) (hN : 2 * N * (2 * N) * (2 * N) < 2147483648) (hn : 0 < n0) (hn' : n0 ≤ 2 * N)
    (hi : iMin1 + k ≤ N + 1) (hi2 : iMin2 ≤ N) :
    source3 N n0 iMin1 iMin2 i k = .ok ((i % n0 * (4 * N * N) + 2 * N * iMin1 + iMin2 + k * (2 * N) : ℕ) : ℤ) := by
  have hm : i % n0 + 1 ≤ 2 * N := le_trans (Nat.mod_lt i hn) hn'
  have hQ : 2 * N ≤ N * N := Nat.mul_le_mul_right _ h2N
  have h2 : (i % n0 + 1) * (4 * N * N) ≤ 2 * N * (2 * N) * (2 * N) := by
    calc (i % n0 + 1) * (4 * N * N) ≤ 2 * N * (4 * N * N) := Nat.mul_le_mul_right _ hm
      _ = _ := by ring
  have h3 : (i % n0 + 1) * (4 * N * N) = i % n0 * (4 * N * N) + 4 * (N * N) := by ring
  have h4 : 4 * N * N = 4 * (N * N) := by ring
  have h5 : 4 * (N * N) ≤ 2147483647 := by omega
  have h6 : ∀ j, j ≤ N + 1 → 2 * N * j ≤ 2 * (N * N) + 2 * N := fun j hj => by
    calc 2 * N * j ≤ 2 * N * (N + 1) := Nat.mul_le_mul_left _ hj
      _ = _ := by ring
  have total : ∀ a k : ℕ, a + k ≤ N + 1 → i % n0 * (4 * N * N) + 2 * N * a + iMin2 + k * (2 * N) < 2147483648 := by
    intro a k hk
    have e : 2 * N * (a + k) = 2 * N * a + k * (2 * N) := by ring
    have := h6 _ hk
    omega
  induction k with
  | zero =>
    have h7 := h6 iMin1 (by omega)
    have ht := total iMin1 0 (by omega)
    have e1 : 4 * (N : ℤ) * N = ((4 * N * N : ℕ) : ℤ) := by push_cast; ring
    have e2 : 2 * (N : ℤ) * iMin1 = ((2 * N * iMin1 : ℕ) : ℤ) := by push_cast; ring
    rw [source3, int_then (by omega) (by omega), e1, int_then (by omega) (by omega), int_then (by omega) (by omega), e2,
      int_then (by omega) (by omega),
      show ((i : ℤ) % (n0 : ℤ) * ((4 * N * N : ℕ) : ℤ) + ((2 * N * iMin1 : ℕ) : ℤ) + (iMin2 : ℤ)) =
        ((i % n0 * (4 * N * N) + 2 * N * iMin1 + iMin2 + 0 * (2 * N) : ℕ) : ℤ) by push_cast; ring]
    exact int_ok (by omega) (by omega)
  | succ k ih =>
    have ht := total iMin1 (k + 1) hi
    rw [source3, ok_then (ih (by omega)), int_then (by omega) (by omega),
      show (((i % n0 * (4 * N * N) + 2 * N * iMin1 + iMin2 + k * (2 * N) : ℕ) : ℤ) + 2 * (N : ℤ)) =
        ((i % n0 * (4 * N * N) + 2 * N * iMin1 + iMin2 + (k + 1) * (2 * N) : ℕ) : ℤ) by push_cast; ring]
    exact int_ok (by omega) (by omega)

/-- **C91** for the evaluation, two dimensions: first and last of the four indices are the exact ones. -/
theorem C91_cell2 (N s0 s1 j0 j1 : ℕ) (h2N : 2 ≤ N) (hN : 2 * N * (2 * N) < 2147483648) (h0 : s0 ≤ N + 1) (h1 : s1 ≤ N + 1) (hj0 : j0 < s0)
    (hj1 : j1 < s1) :
    cell [((s0 : ℤ), (j0 : ℤ)), ((s1 : ℤ), (j1 : ℤ))] 0 = .ok ((s1 * (s0 * 0 + j0) + j1 : ℕ) : ℤ) ∧
    last2 s1 ((s1 * (s0 * 0 + j0) + j1 : ℕ) : ℤ) = .ok ((s1 * (s0 * 0 + j0) + j1 + s1 + 1 : ℕ) : ℤ) := by
  have hQ : 2 * N ≤ N * N := Nat.mul_le_mul_right _ h2N
  have hs : s1 * j0 + s1 ≤ N * N + 2 * N + 1 := by
    calc s1 * j0 + s1 = s1 * (j0 + 1) := by ring
      _ ≤ (N + 1) * (N + 1) := Nat.mul_le_mul h1 (by omega)
      _ = _ := by ring
  have h4 : 2 * N * (2 * N) = 4 * (N * N) := by ring
  have e1 : (s1 : ℤ) * (j0 : ℤ) = ((s1 * j0 : ℕ) : ℤ) := by push_cast; ring
  have e2 : s1 * (s0 * 0 + j0) = s1 * j0 := by ring
  rw [e2]
  constructor
  · simp only [cell]
    rw [mul_zero, int_then (by norm_num) (by norm_num), zero_add, int_then (by omega) (by omega), e1, int_then (by omega) (by omega)]
    exact ok_then (int_ok (by omega) (by omega)) _
  · unfold last2
    rw [int_then (by push_cast; omega) (by push_cast; omega)]
    exact int_ok (by omega) (by omega)

/-- **C91** for the evaluation, three dimensions: first and last of the eight indices are the exact ones. -/
theorem C91_cell3 (N s0 s1 s2 j0 j1 j2 : ℕ) (h2N : 2 ≤ N) (hN : 2 * N * (2 * N) * (2 * N) < 2147483648) (h0 : s0 ≤ N + 1) (h1 : s1 ≤ N + 1)
    (h2 : s2 ≤ N + 1) (hj0 : j0 < s0) (hj1 : j1 < s1) (hj2 : j2 < s2) :
    cell [((s0 : ℤ), (j0 : ℤ)), ((s1 : ℤ), (j1 : ℤ)), ((s2 : ℤ), (j2 : ℤ))] 0 =
      .ok ((s2 * (s1 * (s0 * 0 + j0) + j1) + j2 : ℕ) : ℤ) ∧
    last3 s1 s2 ((s2 * (s1 * (s0 * 0 + j0) + j1) + j2 : ℕ) : ℤ) =
      .ok ((s2 * (s1 * (s0 * 0 + j0) + j1) + j2 + s1 * s2 + s2 + 1 : ℕ) : ℤ) := by
  have hQ : 2 * N ≤ N * N := Nat.mul_le_mul_right _ h2N
  have hC : 2 * (N * N) ≤ N * N * N := by
    calc 2 * (N * N) ≤ N * (N * N) := Nat.mul_le_mul_right _ h2N
      _ = _ := by ring
  have hs : s1 * j0 + s1 ≤ N * N + 2 * N + 1 := by
    calc s1 * j0 + s1 = s1 * (j0 + 1) := by ring
      _ ≤ (N + 1) * (N + 1) := Nat.mul_le_mul h1 (by omega)
      _ = _ := by ring
  have ht : s2 * (s1 * j0 + j1) + s2 ≤ N * N * N + 3 * (N * N) + 3 * N + 1 := by
    calc s2 * (s1 * j0 + j1) + s2 = s2 * (s1 * j0 + j1 + 1) := by ring
      _ ≤ (N + 1) * (N * N + 2 * N + 1) := Nat.mul_le_mul h2 (by omega)
      _ = _ := by ring
  have hu : s1 * s2 ≤ N * N + 2 * N + 1 := by
    calc s1 * s2 ≤ (N + 1) * (N + 1) := Nat.mul_le_mul h1 h2
      _ = _ := by ring
  have h8 : 2 * N * (2 * N) * (2 * N) = 8 * (N * N * N) := by ring
  have e1 : (s1 : ℤ) * (j0 : ℤ) = ((s1 * j0 : ℕ) : ℤ) := by push_cast; ring
  have e2 : s2 * (s1 * (s0 * 0 + j0) + j1) = s2 * (s1 * j0 + j1) := by ring
  have e3 : (s2 : ℤ) * (((s1 * j0 : ℕ) : ℤ) + (j1 : ℤ)) = ((s2 * (s1 * j0 + j1) : ℕ) : ℤ) := by push_cast; ring
  have e4 : (s1 : ℤ) * (s2 : ℤ) = ((s1 * s2 : ℕ) : ℤ) := by push_cast; ring
  rw [e2]
  generalize hA : s2 * (s1 * j0 + j1) = A at *
  constructor
  · simp only [cell]
    rw [mul_zero, int_then (by norm_num) (by norm_num), zero_add, int_then (by omega) (by omega), e1, int_then (by omega) (by omega),
      int_then (by omega) (by omega), e3, int_then (by omega) (by omega)]
    exact ok_then (int_ok (by omega) (by omega)) _
  · unfold last3
    rw [e4, int_then (by omega) (by omega), int_then (by omega) (by omega), int_then (by omega) (by omega)]
    exact int_ok (by omega) (by omega)

end Verif.FieldSize
