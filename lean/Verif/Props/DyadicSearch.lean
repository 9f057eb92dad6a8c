import Verif.Props.RoundedSearch

/-!
# C97: grids with powers of two
-/

namespace Verif.RoundedSearch
open Verif.Spec.Binary Verif.RoundedGrid Verif.Double

/-- Numbers of cells that are powers of two, on an interval with integer limits. -/
def dyadic (a b : ℤ) (p q o : ℕ) : Dir := ⟨a, b, 2 ^ p, 2 ^ q, o⟩

/-- Exact coordinate `z` of the fine grid. -/
def pos (a b : ℤ) (n : ℕ) (z : ℤ) : ℚ := ((a * 2 ^ n + z * (b - a) : ℤ) : ℚ) / 2 ^ n

/-- The coordinate is that of an equidistant grid. -/
theorem pos_eq (a b : ℤ) (n : ℕ) (z : ℤ) : pos a b n z = a + z * ((b - a) / 2 ^ n) := by
  unfold pos
  push_cast
  field_simp

theorem pos_zero (a b : ℤ) (n : ℕ) : pos a b n 0 = a := by rw [pos_eq]; simp

theorem pos_last (a b : ℤ) (n : ℕ) : pos a b n (2 ^ n) = b := by
  rw [pos_eq]; push_cast; field_simp; ring

theorem pos_lt {a b : ℤ} (hab : a < b) (n : ℕ) {y z : ℤ} : pos a b n y < pos a b n z ↔ y < z := by
  unfold pos
  rw [div_lt_div_iff_of_pos_right (by positivity)]
  have : 0 < b - a := by omega
  norm_cast
  constructor
  · intro h; nlinarith
  · intro h; nlinarith

theorem pos_le {a b : ℤ} (hab : a < b) (n : ℕ) {y z : ℤ} : pos a b n y ≤ pos a b n z ↔ y ≤ z := by
  rw [← not_lt, pos_lt hab, not_lt]

theorem pos_max {a b : ℤ} (hab : a < b) (n : ℕ) (y z : ℤ) : max (pos a b n y) (pos a b n z) = pos a b n (max y z) := by
  rcases le_total y z with hh | hh
  · rw [max_eq_right hh, max_eq_right ((pos_le hab n).mpr hh)]
  · rw [max_eq_left hh, max_eq_left ((pos_le hab n).mpr hh)]

theorem pos_min {a b : ℤ} (hab : a < b) (n : ℕ) (y z : ℤ) : min (pos a b n y) (pos a b n z) = pos a b n (min y z) := by
  rcases le_total y z with hh | hh
  · rw [min_eq_left hh, min_eq_left ((pos_le hab n).mpr hh)]
  · rw [min_eq_right hh, min_eq_right ((pos_le hab n).mpr hh)]

section
variable {rd : ℚ → ℚ} (h : Nearest rd)
include h

theorem rd_fraction (n : ℕ) {z : ℤ} (hz : |z| ≤ 2 ^ 53) : rd ((z : ℚ) / 2 ^ n) = z / 2 ^ n :=
  nearest_exact h ⟨z, -n, hz, by rw [zpow_neg, zpow_natCast, div_eq_mul_inv]⟩

variable {a b : ℤ} {n : ℕ} (hab : a < b) (hbig : (|a| + |b|) * 2 ^ n ≤ 2 ^ 52)
include hab hbig

omit h in
theorem pos_bound {z : ℤ} (h0 : -2 ^ n ≤ z) (h1 : z ≤ 2 * 2 ^ n) : |a * 2 ^ n + z * (b - a)| ≤ 2 ^ 53 := by
  have hQ : (0 : ℤ) < 2 ^ n := by positivity
  generalize (2 : ℤ) ^ n = Q at *
  have hB : 0 < b - a := by omega
  have e1 : z * (b - a) ≤ 2 * Q * (b - a) := mul_le_mul_of_nonneg_right h1 hB.le
  have e2 : -Q * (b - a) ≤ z * (b - a) := mul_le_mul_of_nonneg_right h0 hB.le
  have a1 := mul_le_mul_of_nonneg_right (le_abs_self a) hQ.le
  have a2 := mul_le_mul_of_nonneg_right (neg_abs_le a) hQ.le
  have b1 := mul_le_mul_of_nonneg_right (le_abs_self b) hQ.le
  have b2 := mul_le_mul_of_nonneg_right (neg_abs_le b) hQ.le
  have a3 := mul_nonneg (abs_nonneg a) hQ.le
  have b3 := mul_nonneg (abs_nonneg b) hQ.le
  rw [abs_le]
  constructor <;> nlinarith

omit h in
theorem step_bound {z : ℤ} (h0 : -2 ^ n ≤ z) (h1 : z ≤ 2 ^ n) : |z * (b - a)| ≤ 2 ^ 53 := by
  have hB : 0 < b - a := by omega
  have hz : |z| ≤ 2 ^ n := abs_le.mpr ⟨h0, h1⟩
  rw [abs_mul, abs_of_pos hB]
  have hQ : (0 : ℤ) < 2 ^ n := by positivity
  generalize (2 : ℤ) ^ n = Q at *
  have e1 : b - a ≤ |a| + |b| := by linarith [neg_abs_le a, le_abs_self b]
  calc |z| * (b - a) ≤ Q * (|a| + |b|) := mul_le_mul hz e1 hB.le hQ.le
    _ ≤ 2 ^ 53 := by rw [mul_comm]; linarith

theorem rd_pos_exact {z : ℤ} (h0 : -2 ^ n ≤ z) (h1 : z ≤ 2 * 2 ^ n) : rd (pos a b n z) = pos a b n z :=
  rd_fraction h n (pos_bound hab hbig h0 h1)

theorem rd_step {z : ℤ} (h0 : -2 ^ n ≤ z) (h1 : z ≤ 2 ^ n) :
    rd (((z * (b - a) : ℤ) : ℚ) / 2 ^ n) = ((z * (b - a) : ℤ) : ℚ) / 2 ^ n :=
  rd_fraction h n (step_bound hab hbig h0 h1)

/-- Coordinates of grids whose limits and widths are multiples of the width of a fine cell are exact. -/
theorem node_exact {s : ℤ} {e c i : ℕ} (he : 0 < e) (hi : i ≤ e) (hs : 0 ≤ s) (hend : s + e * c ≤ 2 ^ n) :
    node rd (pos a b n s) (pos a b n (s + e * c)) e i = pos a b n (s + i * c) := by
  have hQ : (0 : ℤ) < 2 ^ n := by positivity
  have heq : (e : ℚ) ≠ 0 := by exact_mod_cast he.ne'
  have hec : (c : ℤ) ≤ e * c := by
    have : (1 : ℤ) ≤ e := by exact_mod_cast he
    nlinarith
  have hic : (i : ℤ) * c ≤ e * c := mul_le_mul_of_nonneg_right (by exact_mod_cast hi) (by positivity)
  have hi0 : (0 : ℤ) ≤ i * c := by positivity
  have hc0 : (0 : ℤ) ≤ c := by positivity
  have hec0 : (0 : ℤ) ≤ e * c := by positivity
  unfold node
  have d1 : pos a b n (s + e * c) - pos a b n s = (((e * c : ℤ) * (b - a) : ℤ) : ℚ) / 2 ^ n := by
    unfold pos; push_cast; ring
  have d2 : (((e * c : ℤ) * (b - a) : ℤ) : ℚ) / 2 ^ n / e = (((c : ℤ) * (b - a) : ℤ) : ℚ) / 2 ^ n := by
    push_cast; field_simp
  have d3 : (i : ℚ) * ((((c : ℤ) * (b - a) : ℤ) : ℚ) / 2 ^ n) = (((i * c : ℤ) * (b - a) : ℤ) : ℚ) / 2 ^ n := by
    push_cast; ring
  have d4 : pos a b n s + (((i * c : ℤ) * (b - a) : ℤ) : ℚ) / 2 ^ n = pos a b n (s + i * c) := by
    unfold pos; push_cast; ring
  rw [d1, rd_step h hab hbig (by omega) (by omega), d2, rd_step h hab hbig (by omega) (by omega), d3,
    rd_step h hab hbig (by omega) (by omega), d4, rd_pos_exact h hab hbig (by omega) (by omega)]

end

section
variable {rd : ℚ → ℚ} (h : Nearest rd) {a b : ℤ} {p q o : ℕ} (hab : a < b) (hbig : (|a| + |b|) * 2 ^ (p + q) ≤ 2 ^ 52) (ho : o ≤ 2 ^ q)
include h hab hbig

theorem fine_exact {j : ℕ} (hj : j ≤ 2 ^ (p + q)) : node rd a b (2 ^ p * 2 ^ q) j = pos a b (p + q) j := by
  have := node_exact h hab hbig (s := 0) (e := 2 ^ p * 2 ^ q) (c := 1) (i := j) (by positivity) (by rw [← pow_add]; exact hj) le_rfl
    (by push_cast; rw [← pow_add]; omega)
  rw [pos_zero] at this
  convert this using 2
  · rw [← pos_last a b (p + q), pow_add]; push_cast; ring_nf
  · ring

theorem coarse_exact {k : ℕ} (hk : k ≤ 2 ^ p) : node rd a b (2 ^ p) k = pos a b (p + q) (k * 2 ^ q : ℕ) := by
  have := node_exact h hab hbig (s := 0) (e := 2 ^ p) (c := 2 ^ q) (i := k) (by positivity) hk le_rfl
    (by push_cast; rw [← pow_add]; omega)
  rw [pos_zero] at this
  convert this using 2
  · rw [← pos_last a b (p + q), pow_add]; push_cast; ring_nf
  · push_cast; ring

theorem point_exact {j : ℕ} (hj : j < 2 ^ (p + q)) (t : Bool) :
    point rd (dyadic a b p q o) j t = pos a b (p + q) ((j + t.toNat : ℕ) : ℤ) := by
  have hj' : (j : ℤ) < 2 ^ (p + q) := by exact_mod_cast hj
  have hQ : (0 : ℤ) < 2 ^ (p + q) := by positivity
  have ht : t.toNat ≤ 1 := Bool.toNat_le t
  unfold point global dyadic
  dsimp only
  rw [fine_exact h hab hbig hj.le, fine_exact h hab hbig hj]
  have d1 : pos a b (p + q) ((j + 1 : ℕ) : ℤ) - pos a b (p + q) (j : ℤ) = (((1 : ℤ) * (b - a) : ℤ) : ℚ) / 2 ^ (p + q) := by
    unfold pos; push_cast; ring
  have d2 : (t.toNat : ℚ) * ((((1 : ℤ) * (b - a) : ℤ) : ℚ) / 2 ^ (p + q)) =
      (((t.toNat : ℤ) * (b - a) : ℤ) : ℚ) / 2 ^ (p + q) := by push_cast; ring
  have d3 : pos a b (p + q) (j : ℤ) + (((t.toNat : ℤ) * (b - a) : ℤ) : ℚ) / 2 ^ (p + q) =
      pos a b (p + q) ((j + t.toNat : ℕ) : ℤ) := by unfold pos; push_cast; ring
  rw [d1, rd_step h hab hbig (by omega) (by omega), d2, rd_step h hab hbig (by omega) (by omega), d3,
    rd_pos_exact h hab hbig (by push_cast; omega) (by push_cast; omega)]

include ho

/-- The local grid of a coarse cell starts and ends on the fine grid, and has its width. -/
theorem local_limits {k : ℕ} (hk : k < 2 ^ p) :
    lowerLeft rd (input rd (dyadic a b p q o) k) = pos a b (p + q) ((k * 2 ^ q - o : ℕ) : ℤ) ∧
    upperRight rd (input rd (dyadic a b p q o) k) = pos a b (p + q) ((min (k * 2 ^ q + 2 ^ q + o) (2 ^ (p + q)) : ℕ) : ℤ) ∧
    localCells rd (dyadic a b p q o) k = min (k * 2 ^ q + 2 ^ q + o) (2 ^ (p + q)) - (k * 2 ^ q - o) := by
  have hN : (k * 2 ^ q + 2 ^ q : ℕ) ≤ 2 ^ (p + q) := by
    have : (k + 1) * 2 ^ q ≤ 2 ^ p * 2 ^ q := Nat.mul_le_mul_right _ hk
    rw [pow_add]; linarith
  have hlast : k * 2 ^ q + 2 ^ q = 2 ^ (p + q) ∨ k * 2 ^ q + 2 ^ q + 2 ^ q ≤ 2 ^ (p + q) := by
    rcases Nat.lt_or_ge (k + 1) (2 ^ p) with hlt | hge
    · right
      have : (k + 1 + 1) * 2 ^ q ≤ 2 ^ p * 2 ^ q := Nat.mul_le_mul_right _ hlt
      rw [pow_add]; linarith
    · left
      have : k + 1 = 2 ^ p := by omega
      rw [pow_add, ← this]; ring
  have hfirst : k * 2 ^ q = 0 ∨ 2 ^ q ≤ k * 2 ^ q := by
    rcases Nat.eq_zero_or_pos k with rfl | hk0
    · left; simp
    · right; exact Nat.le_mul_of_pos_left _ hk0
  have hmin : (input rd (dyadic a b p q o) k).min = pos a b (p + q) (k * 2 ^ q : ℕ) := coarse_exact h hab hbig hk.le
  have hmax : (input rd (dyadic a b p q o) k).max = pos a b (p + q) (k * 2 ^ q + 2 ^ q : ℕ) := by
    have := coarse_exact h hab hbig (Nat.succ_le_of_lt hk)
    rw [show (k.succ * 2 ^ q : ℕ) = k * 2 ^ q + 2 ^ q by rw [Nat.succ_mul]] at this
    exact this
  have hQ : (0 : ℤ) < 2 ^ (p + q) := by positivity
  have hm0 : (0 : ℕ) < 2 ^ q := by positivity
  generalize hKdef : k * 2 ^ q = K at *
  have hNz : ((K + 2 ^ q : ℕ) : ℤ) ≤ 2 ^ (p + q) := by exact_mod_cast hN
  have hoz : (o : ℤ) ≤ ((2 ^ q : ℕ) : ℤ) := by exact_mod_cast ho
  have hmz : (0 : ℤ) < ((2 ^ q : ℕ) : ℤ) := by exact_mod_cast hm0
  have hdelta : delta rd (input rd (dyadic a b p q o) k) = (((1 : ℤ) * (b - a) : ℤ) : ℚ) / 2 ^ (p + q) := by
    unfold delta
    rw [hmin, hmax]
    change rd (rd _ / ((2 ^ q : ℕ) : ℚ)) = _
    have d1 : pos a b (p + q) ((K + 2 ^ q : ℕ) : ℤ) - pos a b (p + q) (K : ℤ) =
        ((((2 ^ q : ℕ) : ℤ) * (b - a) : ℤ) : ℚ) / 2 ^ (p + q) := by
      unfold pos; push_cast; ring
    have d2 : ((((2 ^ q : ℕ) : ℤ) * (b - a) : ℤ) : ℚ) / 2 ^ (p + q) / ((2 ^ q : ℕ) : ℚ) = (((1 : ℤ) * (b - a) : ℤ) : ℚ) / 2 ^ (p + q) := by
      push_cast; field_simp
    rw [d1, rd_step h hab hbig (by omega) (by push_cast at hNz ⊢; omega), d2, rd_step h hab hbig (by omega) (by omega)]
  have hreach : reach rd (input rd (dyadic a b p q o) k) = (((o : ℤ) * (b - a) : ℤ) : ℚ) / 2 ^ (p + q) := by
    unfold reach
    rw [hdelta]
    change rd ((o : ℚ) * _) = _
    have d : (o : ℚ) * ((((1 : ℤ) * (b - a) : ℤ) : ℚ) / 2 ^ (p + q)) = (((o : ℤ) * (b - a) : ℤ) : ℚ) / 2 ^ (p + q) := by push_cast; ring
    rw [d, rd_step h hab hbig (by omega) (by push_cast at hNz hoz ⊢; omega)]
  have hleft : left rd (input rd (dyadic a b p q o) k) = pos a b (p + q) ((K : ℤ) - o) := by
    unfold left
    rw [hreach, hmin]
    have d : pos a b (p + q) (K : ℤ) - (((o : ℤ) * (b - a) : ℤ) : ℚ) / 2 ^ (p + q) = pos a b (p + q) ((K : ℤ) - o) := by
      unfold pos; push_cast; ring
    rw [d, rd_pos_exact h hab hbig (by push_cast at hNz hoz ⊢; omega) (by push_cast at hNz hoz ⊢; omega)]
  have hright : right rd (input rd (dyadic a b p q o) k) = pos a b (p + q) ((K + 2 ^ q + o : ℕ) : ℤ) := by
    unfold right
    rw [hreach, hmax]
    have d : pos a b (p + q) ((K + 2 ^ q : ℕ) : ℤ) + (((o : ℤ) * (b - a) : ℤ) : ℚ) / 2 ^ (p + q) =
        pos a b (p + q) ((K + 2 ^ q + o : ℕ) : ℤ) := by
      unfold pos; push_cast; ring
    rw [d, rd_pos_exact h hab hbig (by push_cast at hNz hoz ⊢; omega) (by push_cast at hNz hoz ⊢; omega)]
  have hlow : (input rd (dyadic a b p q o) k).globalLowerLeft = pos a b (p + q) 0 := (pos_zero a b (p + q)).symm
  have hupp : (input rd (dyadic a b p q o) k).globalUpperRight = pos a b (p + q) (2 ^ (p + q)) := (pos_last a b (p + q)).symm
  refine ⟨?_, ?_, ?_⟩
  · unfold lowerLeft
    rw [hleft, hlow, pos_max hab]
    congr 1
    omega
  · unfold upperRight
    rw [hright, hupp, pos_min hab]
    congr 1
    push_cast
    rfl
  · have hexl : exceedsLeft rd (input rd (dyadic a b p q o) k) = decide (K < o) := by
      unfold exceedsLeft
      rw [hleft, hlow, decide_eq_decide, pos_lt hab]
      omega
    have hexr : exceedsRight rd (input rd (dyadic a b p q o) k) = decide (2 ^ (p + q) < K + 2 ^ q + o) := by
      unfold exceedsRight
      rw [hright, hupp, decide_eq_decide, gt_iff_lt, pos_lt hab]
      exact_mod_cast Iff.rfl
    unfold localCells elements
    rw [hexl, hexr]
    change 2 ^ q + _ * o = _
    generalize 2 ^ q = M at *
    generalize 2 ^ (p + q) = Q at *
    by_cases c1 : K < o <;> by_cases c2 : Q < K + M + o <;> simp [c1, c2] <;> omega

/-- First coordinate of the local grid of coarse cell `k`, counted in the fine grid. -/
def start (q o k : ℕ) : ℕ := k * 2 ^ q - o

theorem localNode_exact {k i : ℕ} (hk : k < 2 ^ p) (hi : i ≤ localCells rd (dyadic a b p q o) k) :
    localNode rd (dyadic a b p q o) k i = pos a b (p + q) ((start q o k + i : ℕ) : ℤ) := by
  obtain ⟨h1, h2, h3⟩ := local_limits h hab hbig ho hk
  have hN : (k * 2 ^ q + 2 ^ q : ℕ) ≤ 2 ^ (p + q) := by
    have : (k + 1) * 2 ^ q ≤ 2 ^ p * 2 ^ q := Nat.mul_le_mul_right _ hk
    rw [pow_add]; linarith
  have hm0 : (0 : ℕ) < 2 ^ q := by positivity
  unfold localNode start
  rw [h1, h2]
  have hsum : k * 2 ^ q - o + localCells rd (dyadic a b p q o) k = min (k * 2 ^ q + 2 ^ q + o) (2 ^ (p + q)) := by
    rw [h3]; omega
  have hpos : 0 < localCells rd (dyadic a b p q o) k := by rw [h3]; omega
  have hend : k * 2 ^ q - o + localCells rd (dyadic a b p q o) k ≤ 2 ^ (p + q) := by rw [hsum]; exact min_le_right _ _
  have := node_exact h hab hbig (s := ((k * 2 ^ q - o : ℕ) : ℤ)) (e := localCells rd (dyadic a b p q o) k) (c := 1) (i := i) hpos hi
    (by positivity) (by push_cast; rw [mul_one]; exact_mod_cast hend)
  rw [← hsum]
  push_cast at this ⊢
  rw [mul_one, mul_one] at this
  exact this

variable {tol : ℚ} (htol : 1 / 2 ^ 49 ≤ tol) (htol' : tol ≤ 1 / 2 ^ 44)
include htol htol'

omit ho in
/-- The coarse cells that cover a coordinate of the fine grid are the right ones. -/
theorem coarse_iff (hq : q ≤ 41) {k z : ℕ} (hk : k < 2 ^ p) :
    coarseContains rd tol (dyadic a b p q o) k (pos a b (p + q) z) = true ↔ k * 2 ^ q ≤ z ∧ z ≤ k * 2 ^ q + 2 ^ q := by
  have htol0 : 0 < tol := lt_of_lt_of_le (by norm_num) htol
  have hm0 : (0 : ℕ) < 2 ^ q := by positivity
  have e0 := coarse_exact h hab hbig hk.le
  have e1 := coarse_exact h hab hbig (Nat.succ_le_of_lt hk)
  rw [show (k.succ * 2 ^ q : ℕ) = k * 2 ^ q + 2 ^ q by rw [Nat.succ_mul]] at e1
  have hlt : pos a b (p + q) ((k * 2 ^ q : ℕ) : ℤ) < pos a b (p + q) ((k * 2 ^ q + 2 ^ q : ℕ) : ℤ) := by
    rw [pos_lt hab]; push_cast; linarith [show (0 : ℤ) < 2 ^ q by positivity]
  unfold coarseContains
  change contains rd tol (node rd a b (2 ^ p) k) (node rd a b (2 ^ p) k.succ) _ = true ↔ _
  rw [e0, e1]
  constructor
  · intro hc
    obtain ⟨b1, b2⟩ := contains_bounds h htol (htol'.trans (by norm_num)) hlt hc
    simp only [pos_eq] at b1 b2
    have hw : (0 : ℚ) < (b - a) / 2 ^ (p + q) := by
      have : (a : ℚ) < b := by exact_mod_cast hab
      exact div_pos (by linarith) (by positivity)
    generalize ((b : ℚ) - a) / 2 ^ (p + q) = w at *
    have hsmall : 4 * tol * (2 ^ q : ℕ) ≤ 1 / 2 := by
      have : ((2 ^ q : ℕ) : ℚ) ≤ 2 ^ 41 := by exact_mod_cast Nat.pow_le_pow_right (by norm_num) hq
      calc 4 * tol * (2 ^ q : ℕ) ≤ 4 * (1 / 2 ^ 44) * 2 ^ 41 := mul_le_mul (by linarith) this (by positivity) (by norm_num)
        _ ≤ 1 / 2 := by norm_num
    have hs : 4 * tol * (((a : ℚ) + ((k * 2 ^ q + 2 ^ q : ℕ) : ℤ) * w) - (a + ((k * 2 ^ q : ℕ) : ℤ) * w)) ≤ 1 / 2 * w := by
      have : ((a : ℚ) + ((k * 2 ^ q + 2 ^ q : ℕ) : ℤ) * w) - (a + ((k * 2 ^ q : ℕ) : ℤ) * w) = (2 ^ q : ℕ) * w := by push_cast; ring
      rw [this, ← mul_assoc]
      exact mul_le_mul_of_nonneg_right hsmall hw.le
    have c1 : (((k * 2 ^ q : ℕ) : ℤ) : ℚ) * w < (((z : ℤ) : ℚ) + 1) * w := by linarith
    have c2 : ((z : ℤ) : ℚ) * w < ((((k * 2 ^ q + 2 ^ q : ℕ) : ℤ) : ℚ) + 1) * w := by linarith
    have d1 := lt_of_mul_lt_mul_right c1 hw.le
    have d2 := lt_of_mul_lt_mul_right c2 hw.le
    have d1' : ((k * 2 ^ q : ℕ) : ℤ) < (z : ℤ) + 1 := by exact_mod_cast d1
    have d2' : (z : ℤ) < ((k * 2 ^ q + 2 ^ q : ℕ) : ℤ) + 1 := by exact_mod_cast d2
    constructor <;> omega
  · rintro ⟨h0, h1⟩
    exact contains_between h htol0 hlt ((pos_le hab _).mpr (by exact_mod_cast h0)) ((pos_le hab _).mpr (by exact_mod_cast h1))

/-- The local elements that contain a coordinate of the fine grid are the right ones. -/
theorem local_iff {k i z : ℕ} (hk : k < 2 ^ p) (hi : i < localCells rd (dyadic a b p q o) k) :
    localContains rd tol (dyadic a b p q o) k i (pos a b (p + q) z) = true ↔ start q o k + i ≤ z ∧ z ≤ start q o k + i + 1 := by
  have htol0 : 0 < tol := lt_of_lt_of_le (by norm_num) htol
  have e0 := localNode_exact h hab hbig ho hk hi.le
  have e1 := localNode_exact h hab hbig ho hk hi
  unfold localContains
  change contains rd tol _ (localNode rd (dyadic a b p q o) k i.succ) _ = true ↔ _
  rw [e0, e1]
  generalize start q o k = S
  have hlt : pos a b (p + q) ((S + i : ℕ) : ℤ) < pos a b (p + q) ((S + i.succ : ℕ) : ℤ) := by
    rw [pos_lt hab]; push_cast; omega
  constructor
  · intro hc
    obtain ⟨b1, b2⟩ := contains_bounds h htol (htol'.trans (by norm_num)) hlt hc
    simp only [pos_eq] at b1 b2
    have hw : (0 : ℚ) < (b - a) / 2 ^ (p + q) := by
      have : (a : ℚ) < b := by exact_mod_cast hab
      exact div_pos (by linarith) (by positivity)
    generalize ((b : ℚ) - a) / 2 ^ (p + q) = w at *
    have hs : 4 * tol * (((a : ℚ) + ((S + i.succ : ℕ) : ℤ) * w) - (a + ((S + i : ℕ) : ℤ) * w)) ≤ 1 / 2 * w := by
      have : ((a : ℚ) + ((S + i.succ : ℕ) : ℤ) * w) - (a + ((S + i : ℕ) : ℤ) * w) = w := by push_cast; ring
      rw [this]
      refine mul_le_mul_of_nonneg_right ?_ hw.le
      norm_num at htol'
      linarith
    have c1 : (((S + i : ℕ) : ℤ) : ℚ) * w < (((z : ℤ) : ℚ) + 1) * w := by linarith
    have c2 : ((z : ℤ) : ℚ) * w < ((((S + i.succ : ℕ) : ℤ) : ℚ) + 1) * w := by linarith
    have d1 := lt_of_mul_lt_mul_right c1 hw.le
    have d2 := lt_of_mul_lt_mul_right c2 hw.le
    have d1' : ((S + i : ℕ) : ℤ) < (z : ℤ) + 1 := by exact_mod_cast d1
    have d2' : (z : ℤ) < ((S + i.succ : ℕ) : ℤ) + 1 := by exact_mod_cast d2
    constructor <;> omega
  · rintro ⟨h0, h1⟩
    exact contains_between h htol0 hlt ((pos_le hab _).mpr (by push_cast; omega)) ((pos_le hab _).mpr (by push_cast; omega))

end

/-- **C97** (powers of two, partial) If the numbers of coarse and micro cells are powers of two and the limits of the domain are integers, then in
every rounding to nearest the search for the points of a fine element succeeds, the coarse cell is the one in which the fine element lies, and every
point is a point of the closed local element that is returned for it. -/
theorem C97_dyadic_partial {d : ℕ} {rd : ℚ → ℚ} (h : Nearest rd) {tol : ℚ} (htol : 1 / 2 ^ 49 ≤ tol) (htol' : tol ≤ 1 / 2 ^ 44)
    (a b : Fin d → ℤ) (p q o : Fin d → ℕ) (hab : ∀ i, a i < b i) (hbig : ∀ i, (|a i| + |b i|) * 2 ^ (p i + q i) ≤ 2 ^ 52)
    (hq : ∀ i, q i ≤ 41) (ho : ∀ i, o i ≤ 2 ^ q i) {n viewSize : ℕ} {index : ℕ → Fin d → ℕ}
    (hrange : ∀ c < n, ∀ i, index c i < 2 ^ p i) (hall : ∀ K : Fin d → ℕ, (∀ i, K i < 2 ^ p i) → ∃ c < n, index c = K)
    {pick : ℕ → (Fin d → ℚ) → Option (Fin d → ℕ)} (hp : Picks rd tol (fun i => dyadic (a i) (b i) (p i) (q i) (o i)) index pick)
    (hv : 2 ≤ viewSize) (J : Fin d → ℕ) (hJ : ∀ i, J i < 2 ^ (p i + q i)) (s : Search.State)
    (hs : Search.Reachable (env rd tol (fun i => dyadic (a i) (b i) (p i) (q i) (o i)) n viewSize index pick) s) :
    ∃ (es : List (Fin d → ℕ)) (s' : Search.State) (c : ℕ), Search.call (env rd tol (fun i => dyadic (a i) (b i) (p i) (q i) (o i)) n viewSize index pick) s
        (points rd (fun i => dyadic (a i) (b i) (p i) (q i) (o i)) J) = .ok (es.map some) s' ∧
      s'.current = some c ∧ (∀ i, index c i = J i / 2 ^ q i) ∧ es.length = 2 ^ d ∧
      ∀ t < 2 ^ d, ∃ e, es[t]? = some e ∧ ∀ i,
        start (q i) (o i) (J i / 2 ^ q i) + e i ≤ J i + (t.testBit i).toNat ∧
        J i + (t.testBit i).toNat ≤ start (q i) (o i) (J i / 2 ^ q i) + e i + 1 := by
  have hpt : ∀ t i, point rd (dyadic (a i) (b i) (p i) (q i) (o i)) (J i) t = pos (a i) (b i) (p i + q i) ((J i + t.toNat : ℕ) : ℤ) :=
    fun t i => point_exact h (hab i) (hbig i) (hJ i) t
  have hmem : ∀ x, x ∈ points rd (fun i => dyadic (a i) (b i) (p i) (q i) (o i)) J ↔
      ∃ t < 2 ^ d, x = fun i : Fin d => pos (a i) (b i) (p i + q i) ((J i + (t.testBit i).toNat : ℕ) : ℤ) := by
    intro x
    unfold points
    rw [List.mem_map]
    constructor
    · rintro ⟨t, ht, rfl⟩
      exact ⟨t, List.mem_range.mp ht, funext fun i => hpt _ i⟩
    · rintro ⟨t, ht, rfl⟩
      exact ⟨t, List.mem_range.mpr ht, funext fun i => hpt _ i⟩
  have hdiv : ∀ i, J i / 2 ^ q i * 2 ^ q i ≤ J i ∧ J i < J i / 2 ^ q i * 2 ^ q i + 2 ^ q i := fun i =>
    ⟨Nat.div_mul_le_self _ _, Nat.lt_div_mul_add (by positivity)⟩
  have hKlt : ∀ i, J i / 2 ^ q i < 2 ^ p i := fun i => by
    rw [Nat.div_lt_iff_lt_mul (by positivity), ← pow_add]; exact hJ i
  -- the cell of the fine element covers, and no other one
  have hcov : ∀ c < n, ((env rd tol (fun i => dyadic (a i) (b i) (p i) (q i) (o i)) n viewSize index pick).covers c
      (points rd (fun i => dyadic (a i) (b i) (p i) (q i) (o i)) J) = true ↔ ∀ i, index c i = J i / 2 ^ q i) := by
    intro c hc
    rw [env_covers_iff]
    constructor
    · intro hcc i
      have h0 := hcc _ ((hmem _).mpr ⟨0, by positivity, rfl⟩) i
      have h1 := hcc _ ((hmem _).mpr ⟨2 ^ d - 1, Nat.sub_lt (by positivity) one_pos, rfl⟩) i
      rw [coarse_iff h (hab i) (hbig i) htol htol' (hq i) (hrange c hc i)] at h0 h1
      have hb : (2 ^ d - 1).testBit i = true := by
        rw [Nat.testBit_two_pow_sub_one]; simp
      rw [hb] at h1
      simp at h0 h1
      symm
      exact Nat.div_eq_of_lt_le (by linarith [h0.1]) (by rw [Nat.succ_mul]; omega)
    · intro hi x hx i
      obtain ⟨t, -, rfl⟩ := (hmem x).mp hx
      dsimp only
      rw [coarse_iff h (hab i) (hbig i) htol htol' (hq i) (hrange c hc i), hi i]
      have := Bool.toNat_le (t.testBit i)
      have := hdiv i
      constructor <;> omega
  have hcomp : Search.LocalSearchComplete (env rd tol (fun i => dyadic (a i) (b i) (p i) (q i) (o i)) n viewSize index pick)
      (fun c e x => Holds rd tol (fun i => dyadic (a i) (b i) (p i) (q i) (o i)) (index c) e x)
      (points rd (fun i => dyadic (a i) (b i) (p i) (q i) (o i)) J) := by
    refine complete_of hp fun c hc hcc x hx => ?_
    have hi := (hcov c hc).mp hcc
    obtain ⟨t, -, rfl⟩ := (hmem x).mp hx
    refine ⟨fun i => J i - start (q i) (o i) (J i / 2 ^ q i), fun i => ?_⟩
    have hcells := (local_limits h (hab i) (hbig i) (ho i) (hKlt i)).2.2
    have hd := hdiv i
    have hlt : J i - start (q i) (o i) (J i / 2 ^ q i) <
        localCells rd (dyadic (a i) (b i) (p i) (q i) (o i)) (J i / 2 ^ q i) := by
      rw [hcells]
      have := hJ i
      unfold start
      omega
    dsimp only
    rw [hi i]
    refine ⟨hlt, (local_iff h (hab i) (hbig i) (ho i) htol htol' (hKlt i) hlt).mpr ?_⟩
    have := Bool.toNat_le (t.testBit i)
    have hst : start (q i) (o i) (J i / 2 ^ q i) ≤ J i := by unfold start; omega
    constructor <;> omega
  obtain ⟨c, hc, hcK⟩ := hall (fun i => J i / 2 ^ q i) hKlt
  obtain ⟨ents, s', hcall⟩ := Search.C09_succeeds _ _ hv (lt_of_le_of_lt (Nat.zero_le c) hc) s hs _ hcomp
    ⟨c, hc, (hcov c hc).mpr fun i => by rw [hcK]⟩
  have hne : points rd (fun i => dyadic (a i) (b i) (p i) (q i) (o i)) J ≠ [] :=
    List.ne_nil_of_mem ((hmem _).mpr ⟨0, by positivity, rfl⟩)
  obtain ⟨c', es, g1, g2, g3, g4, g5⟩ := Search.C08_search_elements _ _ s s' _ ents hne hcomp hcall
  have hi := (hcov c' g2).mp g3
  have hlen : es.length = 2 ^ d := by rw [g5.length_eq]; simp [points]
  refine ⟨es, s', c', by rw [hcall, g4], g1, hi, hlen, fun t ht => ?_⟩
  have htl : t < es.length := by omega
  refine ⟨es[t], List.getElem?_eq_getElem htl, fun i => ?_⟩
  have hF := (List.forall₂_iff_get.mp g5).2 t htl (by rw [← g5.length_eq]; exact htl)
  obtain ⟨f1, f2⟩ := hF i
  have hx : (points rd (fun i => dyadic (a i) (b i) (p i) (q i) (o i)) J).get ⟨t, by rw [← g5.length_eq]; exact htl⟩ i =
      pos (a i) (b i) (p i + q i) ((J i + (t.testBit i).toNat : ℕ) : ℤ) := by
    simp [points, hpt]
  rw [hx] at f2
  dsimp only at f1 f2
  rw [hi i] at f1 f2
  exact (local_iff h (hab i) (hbig i) (ho i) htol htol' (hKlt i) f1).mp f2

/-- Two coarse cells with four micro cells and one layer on the unit square, in double precision. -/
example : ∃ (es : List (Fin 2 → ℕ)) (s' : Search.State) (c : ℕ),
    Search.call (env double doubleTol (fun _ : Fin 2 => dyadic 0 1 1 2 1) 4 4 (fun c => ![c % 2, c / 2])
      (firstPick double doubleTol (fun _ : Fin 2 => dyadic 0 1 1 2 1) fun c => ![c % 2, c / 2])) Search.State.init
      (points double (fun _ : Fin 2 => dyadic 0 1 1 2 1) ![3, 4]) = .ok (es.map some) s' ∧ s'.current = some c ∧ c % 2 = 0 ∧ c / 2 = 1 := by
  obtain ⟨es, s', c, h1, h2, h3, -⟩ := C97_dyadic_partial double_nearest doubleTol_bounds.1 doubleTol_bounds.2 (fun _ : Fin 2 => 0) (fun _ => 1)
    (fun _ => 1) (fun _ => 2) (fun _ => 1) (by simp) (by norm_num) (by norm_num) (by norm_num) (n := 4) (viewSize := 4)
    (index := fun c => ![c % 2, c / 2]) (by
      intro c hc i
      fin_cases i <;> simp <;> omega) (by
      intro K hK
      refine ⟨K 0 + 2 * K 1, ?_, ?_⟩
      · have := hK 0; have := hK 1; omega
      · have := hK 0
        funext i
        fin_cases i <;> simp <;> omega) firstPick_picks (by norm_num) ![3, 4] (by
      intro i
      fin_cases i <;> simp) Search.State.init .init
  exact ⟨es, s', c, h1, h2, by simpa using h3 0, by simpa using h3 1⟩

end Verif.RoundedSearch
