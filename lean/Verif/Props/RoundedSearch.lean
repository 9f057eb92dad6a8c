import Verif.Model.RoundedSearch
import Verif.Props.Search
import Verif.Props.Double

/-!
# C97: the search for the points of fine elements in floating point arithmetic
-/

namespace Verif.RoundedSearch
open Verif.Spec.Binary Verif.RoundedGrid Verif.Double

section contain
variable {rd : ℚ → ℚ} (h : Nearest rd) {tol lo hi x : ℚ}
include h

theorem rd_zero : rd 0 = 0 := by simpa using nearest_nat h 0 (by norm_num)

theorem rd_one : rd 1 = 1 := by simpa using nearest_nat h 1 (by norm_num)

theorem rd_pos {y : ℚ} (hy : 0 < y) : 0 < rd y := by
  have := (abs_le.mp (nearest_accurate h y)).1
  rw [abs_of_pos hy] at this
  norm_num at this
  linarith

theorem rd_nonneg {y : ℚ} (hy : 0 ≤ y) : 0 ≤ rd y := by
  rw [← rd_zero h]
  exact nearest_monotone h hy

/-- A point between the limits is found, whatever the rounding errors. -/
theorem contains_between (htol : 0 < tol) (hlt : lo < hi) (h0 : lo ≤ x) (h1 : x ≤ hi) : contains rd tol lo hi x = true := by
  have hv : 0 < rd (hi - lo) := rd_pos h (by linarith)
  have hu : 0 ≤ rd (x - lo) := rd_nonneg h (by linarith)
  have huv : rd (x - lo) ≤ rd (hi - lo) := nearest_monotone h (by linarith)
  have hq0 : 0 ≤ rd (rd (x - lo) / rd (hi - lo)) := rd_nonneg h (by positivity)
  have hq1 : rd (rd (x - lo) / rd (hi - lo)) ≤ 1 := by
    conv_rhs => rw [← rd_one h]
    exact nearest_monotone h ((div_le_one hv).mpr huv)
  have hr : 0 ≤ rd (1 - rd (rd (x - lo) / rd (hi - lo))) := rd_nonneg h (by linarith)
  unfold contains checkInside localCoord
  rw [Bool.and_eq_true, decide_eq_true_iff, decide_eq_true_iff]
  constructor <;> linarith

/-- A point that is found is not farther away than four times the tolerance. -/
theorem contains_bounds (htol : 1 / 2 ^ 49 ≤ tol) (htol' : tol ≤ 1 / 8) (hlt : lo < hi) (hc : contains rd tol lo hi x = true) :
    lo - 4 * tol * (hi - lo) ≤ x ∧ x ≤ hi + 4 * tol * (hi - lo) := by
  unfold contains checkInside localCoord at hc
  rw [Bool.and_eq_true, decide_eq_true_iff, decide_eq_true_iff] at hc
  obtain ⟨c1, c2⟩ := hc
  have acc := nearest_accurate h
  have hl : 0 < hi - lo := by linarith
  have hv : 0 < rd (hi - lo) := rd_pos h hl
  have a1 := abs_le.mp (acc (hi - lo))
  rw [abs_of_pos hl] at a1
  have a2 := abs_le.mp (acc (x - lo))
  have a3 := abs_le.mp (acc (rd (x - lo) / rd (hi - lo)))
  have a4 := abs_le.mp (acc (1 - rd (rd (x - lo) / rd (hi - lo))))
  generalize rd (1 - rd (rd (x - lo) / rd (hi - lo))) = r at *
  generalize rd (rd (x - lo) / rd (hi - lo)) = q at *
  have hz : rd (x - lo) / rd (hi - lo) * rd (hi - lo) = rd (x - lo) := by field_simp
  generalize rd (x - lo) / rd (hi - lo) = z at *
  generalize rd (x - lo) = u at *
  generalize rd (hi - lo) = v at *
  norm_num at a1 a2 a3 a4 htol htol'
  constructor
  · by_contra hcon
    have hx : x - lo < 0 := by nlinarith
    rw [abs_of_neg hx] at a2
    have hu : u < 0 := by linarith
    have hz0 : z < 0 := by
      by_contra hh
      have := mul_nonneg (not_lt.mp hh) hv.le
      linarith
    rw [abs_of_neg hz0] at a3
    have hz1 : -(5 / 4 * tol) < z := by linarith
    have hu1 : -(5 / 4 * tol) * v < u := by rw [← hz]; exact mul_lt_mul_of_pos_right hz1 hv
    have hv1 : v ≤ 5 / 4 * (hi - lo) := by linarith
    have hu2 : 5 / 4 * tol * v ≤ 5 / 4 * tol * (5 / 4 * (hi - lo)) := mul_le_mul_of_nonneg_left hv1 (by linarith)
    have ht : 0 < tol * (hi - lo) := by
      refine mul_pos ?_ hl
      linarith
    nlinarith
  · by_contra hcon
    have ht0 : 0 < tol := by linarith
    have ht : 0 < tol * (hi - lo) := mul_pos ht0 hl
    have hx : 0 < x - lo := by nlinarith
    rw [abs_of_pos hx] at a2
    have hq : q < 1 + 5 / 4 * tol := by
      by_contra hh
      have : 1 - q < 0 := by linarith
      rw [abs_of_neg this] at a4
      linarith
    have hu : 0 < u := by linarith
    have hz0 : 0 < z := by
      by_contra hh
      have := mul_nonpos_of_nonpos_of_nonneg (not_lt.mp hh) hv.le
      linarith
    rw [abs_of_pos hz0] at a3
    have hz1 : z < 1 + 3 / 2 * tol := by linarith
    have hu1 : u < (1 + 3 / 2 * tol) * v := by rw [← hz]; exact mul_lt_mul_of_pos_right hz1 hv
    have hv1 : v ≤ (1 + tol / 8) * (hi - lo) := by nlinarith
    have hu2 : (1 + 3 / 2 * tol) * v ≤ (1 + 3 / 2 * tol) * ((1 + tol / 8) * (hi - lo)) :=
      mul_le_mul_of_nonneg_left hv1 (by linarith)
    have hu3 : (1 + 3 / 2 * tol) * ((1 + tol / 8) * (hi - lo)) ≤ (1 + 2 * tol) * (hi - lo) := by
      rw [← mul_assoc]
      refine mul_le_mul_of_nonneg_right ?_ hl.le
      nlinarith
    have hx1 : (1 - tol / 8) * (x - lo) ≤ u := by nlinarith
    have hx2 : (1 + 4 * tol) * (hi - lo) < x - lo := by linarith
    have hx3 : (1 - tol / 8) * ((1 + 4 * tol) * (hi - lo)) < (1 - tol / 8) * (x - lo) :=
      mul_lt_mul_of_pos_left hx2 (by linarith)
    have hx4 : (1 + 2 * tol) * (hi - lo) ≤ (1 - tol / 8) * ((1 + 4 * tol) * (hi - lo)) := by
      rw [← mul_assoc]
      refine mul_le_mul_of_nonneg_right ?_ hl.le
      nlinarith
    linarith

end contain

/-- Between the first and the last coordinate of a grid there are no gaps. -/
theorem between_nodes (f : ℕ → ℚ) (e : ℕ) {x : ℚ} (h01 : f 0 < f 1) (h0 : f 0 ≤ x) (h1 : x ≤ f (e + 1)) :
    ∃ i < e + 1, f i < f (i + 1) ∧ f i ≤ x ∧ x ≤ f (i + 1) := by
  induction e with
  | zero => exact ⟨0, by omega, h01, h0, h1⟩
  | succ e ih =>
    by_cases hx : x ≤ f (e + 1)
    · obtain ⟨i, hi, hh⟩ := ih hx
      exact ⟨i, by omega, hh⟩
    · rw [not_le] at hx
      exact ⟨e + 1, by omega, lt_of_lt_of_le hx h1, hx.le, h1⟩

/-- **C97** (no gaps) For every rounding to nearest, the local grid of a coarse cell contains every number between its first and its last
coordinate, without any tolerance: points can only be missed at the ends of a local grid. -/
theorem C97_no_gaps {rd : ℚ → ℚ} (h : Nearest rd) {tol : ℚ} (htol : 0 < tol) (D : Dir) (k : ℕ) {x : ℚ} (he : 0 < localCells rd D k)
    (h01 : localNode rd D k 0 < localNode rd D k 1) (h0 : localNode rd D k 0 ≤ x) (h1 : x ≤ localNode rd D k (localCells rd D k)) :
    ∃ i < localCells rd D k, localContains rd tol D k i x = true := by
  obtain ⟨e, hE⟩ : ∃ e, localCells rd D k = e + 1 := ⟨_, (Nat.succ_pred_eq_of_pos he).symm⟩
  rw [hE] at h1
  obtain ⟨i, hi, hlt, h2, h3⟩ := between_nodes (localNode rd D k) e h01 h0 h1
  exact ⟨i, by omega, contains_between h htol hlt h2 h3⟩

theorem input_eq_cell (rd : ℚ → ℚ) (a b : ℚ) (N k m o : ℕ) : input rd ⟨a, b, N, m, o⟩ k = cell rd a b N k m o := by
  unfold input cell node
  push_cast
  rfl

/-- Coordinates are near the exact ones. -/
theorem node_near {rd : ℚ → ℚ} (h : Nearest rd) {a b : ℚ} (hab : a < b) {n i : ℕ} (hn : 0 < n) (hi : i ≤ n) :
    |node rd a b n i - (a + i * ((b - a) / n))| ≤ 8 * (1 / 2 ^ 53) * (|a| + |b|) := by
  rcases Nat.lt_or_ge i n with hlt | hge
  · exact (cell_near hab hlt (by norm_num) (by norm_num) (nearest_accurate h) 1 0).min
  · obtain rfl : i = n := le_antisymm hi hge
    have := (cell_near (N := i) (k := i - 1) hab (by omega) (by norm_num) (by norm_num) (nearest_accurate h) 1 0).max
    have e : (((i - 1 : ℕ) : ℚ) + 1) = i := by
      rw [Nat.cast_sub hn]; push_cast; ring
    unfold node
    simp only [cell, e] at this
    exact this

section layers
variable {rd : ℚ → ℚ} (h : Nearest rd) {N m o k : ℕ} (ho : 0 < o) (hom : o < m) (hsize : N * m ≤ 2 ^ 40) (hk : k + 1 < N)

/-- Facts about a coarse cell and the limits of its local grid, `w` being the exact width of a fine cell. -/
structure Limits (rd : ℚ → ℚ) (N m o k : ℕ) (w : ℚ) : Prop where
  width : 1 / 2 ^ 40 ≤ w
  half : m * w ≤ 1 / 2
  layers : w ≤ o * w ∧ o * w ≤ m * w
  min : |node rd 0 1 N k - k * m * w| ≤ 8 / 2 ^ 53
  max : |node rd 0 1 N (k + 1) - (k * m + m) * w| ≤ 8 / 2 ^ 53
  upper : upperRight rd (cell rd 0 1 N k m o) ≤ 1 ∧ (k * m + m + o) * w - 104 / 2 ^ 53 ≤ upperRight rd (cell rd 0 1 N k m o)
  lower : 0 ≤ lowerLeft rd (cell rd 0 1 N k m o) ∧ lowerLeft rd (cell rd 0 1 N k m o) ≤ k * m * w + 104 / 2 ^ 53
  lower' : lowerLeft rd (cell rd 0 1 N k m o) ≤ (k * m - o) * w + 104 / 2 ^ 53 ∨ lowerLeft rd (cell rd 0 1 N k m o) = 0
  range : 0 ≤ k * m * w ∧ (k * m + m + o) * w ≤ 1

include h ho hom hsize hk

theorem limits : Limits rd N m o k ((1 - 0) / N / m) := by
  have hN : 0 < N := by omega
  have hm : 0 < m := by omega
  have hNq : (0 : ℚ) < N := by exact_mod_cast hN
  have hmq : (0 : ℚ) < m := by exact_mod_cast hm
  have hacc : Accurate (8 * (1 / 2 ^ 53)) rd := fun x =>
    (nearest_accurate h x).trans (mul_le_mul_of_nonneg_right (by norm_num) (abs_nonneg x))
  have hnear : Near (8 * (1 / 2 ^ 53)) 0 1 N k (cell rd 0 1 N k m o) :=
    cell_near (by norm_num) (by omega) (by norm_num) (by norm_num) (nearest_accurate h) m o
  have hsz : (1 : ℚ) / 2 ^ 40 ≤ (1 - 0) / (N : ℚ) / (m : ℚ) := by
    rw [sub_zero, div_div]
    exact one_div_le_one_div_of_le (by positivity) (by exact_mod_cast hsize)
  have hom' : (o : ℚ) / m ≤ 1 := by rw [div_le_one hmq]; exact_mod_cast hom.le
  have hbound : bound (8 * (1 / 2 ^ 53)) 0 1 m o ≤ 104 / 2 ^ 53 := by
    unfold bound
    rw [abs_zero, abs_one]
    norm_num
    linarith
  have hends := ends_error (c := cell rd 0 1 N k m o) (by norm_num) (by omega) hm (by norm_num) (by norm_num) hacc hnear
  have hleft := left_decision (c := cell rd 0 1 N k m o) (by norm_num) (by omega) hm (by norm_num) (by norm_num) hacc hnear
    (lt_of_le_of_lt hbound (lt_of_lt_of_le (by norm_num) hsz))
  change (exceedsLeft rd (cell rd 0 1 N k m o) = true ↔ o > k * m) ∨ o = k * m at hleft
  change |left rd (cell rd 0 1 N k m o) - (0 + k * ((1 - 0) / N) - exactReach 0 1 N m o)| ≤ bound (8 * (1 / 2 ^ 53)) 0 1 m o ∧
    |right rd (cell rd 0 1 N k m o) - (0 + (k + 1) * ((1 - 0) / N) + exactReach 0 1 N m o)| ≤ bound (8 * (1 / 2 ^ 53)) 0 1 m o at hends
  have hex : (0 : ℚ) + (k + 1) * ((1 - 0) / N) + exactReach 0 1 N m o = (k * m + m + o) * ((1 - 0) / N / m) := by
    unfold exactReach
    field_simp
    ring
  have hel : (0 : ℚ) + k * ((1 - 0) / N) - exactReach 0 1 N m o = (k * m - o) * ((1 - 0) / N / m) := by
    unfold exactReach
    field_simp
    ring
  rw [hex, hel] at hends
  obtain ⟨e1, e2⟩ := hends
  have e1' := (abs_le.mp (e1.trans hbound)).2
  have e2' := (abs_le.mp (e2.trans hbound)).1
  have n1 := hnear.min
  have n2 := hnear.max
  have hmin : node rd 0 1 N k = (cell rd 0 1 N k m o).min := rfl
  have hmax : node rd 0 1 N (k + 1) = (cell rd 0 1 N k m o).max := by unfold node cell; push_cast; rfl
  have hkm : (0 : ℚ) + (k : ℚ) * ((1 - 0) / N) = k * m * ((1 - 0) / N / m) := by field_simp; ring
  have hkm1 : (0 : ℚ) + ((k : ℚ) + 1) * ((1 - 0) / N) = (k * m + m) * ((1 - 0) / N / m) := by field_simp; ring
  rw [hkm, ← hmin] at n1
  rw [hkm1, ← hmax] at n2
  have hw1 : (N * m : ℕ) * (((1 : ℚ) - 0) / N / m) = 1 := by push_cast; field_simp; norm_num
  have hlow : (cell rd 0 1 N k m o).globalLowerLeft = 0 := rfl
  have hupp : (cell rd 0 1 N k m o).globalUpperRight = 1 := rfl
  generalize ((1 : ℚ) - 0) / N / m = w at *
  have hw0 : 0 < w := lt_of_lt_of_le (by norm_num) hsz
  have hend : ((k : ℚ) * m + m + o) * w ≤ 1 := by
    have : k * m + m + o ≤ N * m := by nlinarith
    rw [← hw1]
    exact mul_le_mul_of_nonneg_right (by exact_mod_cast this) hw0.le
  have hkmw : 0 ≤ (k : ℚ) * m * w := by positivity
  have how : w ≤ (o : ℚ) * w := by
    have : (1 : ℚ) ≤ o := by exact_mod_cast ho
    nlinarith
  have hk0 : 0 < k → 0 ≤ ((k : ℚ) * m - o) * w := by
    intro hk0
    have h1 : o ≤ k * m := by nlinarith
    have h2 : (o : ℚ) ≤ (k : ℚ) * m := by exact_mod_cast h1
    exact mul_nonneg (by linarith) hw0.le
  refine ⟨hsz, ?_, ⟨how, mul_le_mul_of_nonneg_right (by exact_mod_cast hom.le) hw0.le⟩, ?_, ?_, ?_, ?_, ?_, hkmw, hend⟩
  · have : (2 * m : ℕ) ≤ N * m := Nat.mul_le_mul_right _ (by omega)
    have h2 : ((2 * m : ℕ) : ℚ) * w ≤ 1 := by
      rw [← hw1]; exact mul_le_mul_of_nonneg_right (by exact_mod_cast this) hw0.le
    push_cast at h2
    linarith
  · refine n1.trans (by norm_num)
  · refine n2.trans (by norm_num)
  · unfold upperRight
    rw [hupp]
    refine ⟨min_le_right _ _, le_min (by linarith) ?_⟩
    have : (0 : ℚ) ≤ 104 / 2 ^ 53 := by norm_num
    linarith
  · unfold lowerLeft
    rw [hlow]
    refine ⟨le_max_right _ _, max_le (by linarith) ?_⟩
    have : (0 : ℚ) ≤ 104 / 2 ^ 53 := by norm_num
    linarith
  · rcases Nat.eq_zero_or_pos k with hk0' | hk0'
    · right
      have hex : exceedsLeft rd (cell rd 0 1 N k m o) = true := by
        rcases hleft with hl | hl
        · exact hl.mpr (by rw [hk0']; omega)
        · rw [hk0'] at hl; omega
      rw [exceedsLeft, decide_eq_true_iff, hlow] at hex
      unfold lowerLeft
      rw [hlow]
      exact max_eq_right hex.le
    · left
      unfold lowerLeft
      rw [hlow]
      refine max_le (by linarith) ?_
      have : (0 : ℚ) ≤ 104 / 2 ^ 53 := by norm_num
      linarith [hk0 hk0']

/-- With at least one layer, the local grid of a coarse cell that is not the last one contains every point which the coarse cell covers. -/
theorem found_layers {tol : ℚ} (htol : 1 / 2 ^ 49 ≤ tol) (htol' : tol ≤ 1 / 2 ^ 44) {x : ℚ} (hx : 0 ≤ x)
    (hc : coarseContains rd tol ⟨0, 1, N, m, o⟩ k x = true) :
    ∃ i < localCells rd ⟨0, 1, N, m, o⟩ k, localContains rd tol ⟨0, 1, N, m, o⟩ k i x = true := by
  obtain ⟨hsz, hmw, ⟨how, homw⟩, n1, n2, hU, hL, hL', hkmw, hend⟩ := limits h ho hom hsize hk
  have hin : input rd ⟨0, 1, N, m, o⟩ k = cell rd 0 1 N k m o := input_eq_cell _ _ _ _ _ _ _
  obtain ⟨n1, n1'⟩ := abs_le.mp n1
  obtain ⟨n2, n2'⟩ := abs_le.mp n2
  have hce : 0 < localCells rd ⟨0, 1, N, m, o⟩ k ∧ localCells rd ⟨0, 1, N, m, o⟩ k ≤ 3 * m := by
    unfold localCells
    rw [hin]
    unfold elements
    generalize exceedsLeft rd (cell rd 0 1 N k m o) = l
    generalize exceedsRight rd (cell rd 0 1 N k m o) = r
    change 0 < m + _ * o ∧ m + _ * o ≤ 3 * m
    cases l <;> cases r <;> simp <;> omega
  obtain ⟨he, he3⟩ := hce
  have hzero : localNode rd ⟨0, 1, N, m, o⟩ k 0 = rd (lowerLeft rd (cell rd 0 1 N k m o)) := by
    unfold localNode node
    rw [hin, Nat.cast_zero, zero_mul, rd_zero h, add_zero]
  have hnode : ∀ i ≤ localCells rd ⟨0, 1, N, m, o⟩ k, lowerLeft rd (cell rd 0 1 N k m o) < upperRight rd (cell rd 0 1 N k m o) →
      |localNode rd ⟨0, 1, N, m, o⟩ k i - (lowerLeft rd (cell rd 0 1 N k m o) + i *
        ((upperRight rd (cell rd 0 1 N k m o) - lowerLeft rd (cell rd 0 1 N k m o)) / localCells rd ⟨0, 1, N, m, o⟩ k))| ≤
        8 * (1 / 2 ^ 53) * (|lowerLeft rd (cell rd 0 1 N k m o)| + |upperRight rd (cell rd 0 1 N k m o)|) := by
    intro i hi hlt
    have := node_near h hlt he hi
    unfold localNode
    rw [hin]
    exact this
  have hrdL := abs_le.mp (nearest_accurate h (lowerLeft rd (cell rd 0 1 N k m o)))
  generalize ((1 : ℚ) - 0) / N / m = w at *
  have hw0 : 0 < w := lt_of_lt_of_le (by norm_num) hsz
  have hb := contains_bounds h htol (by refine htol'.trans ?_; norm_num) (by
    change node rd 0 1 N k < node rd 0 1 N (k + 1)
    norm_num at n1' n2 hsz
    linarith) hc
  change node rd 0 1 N k - 4 * tol * (node rd 0 1 N (k + 1) - node rd 0 1 N k) ≤ x ∧
    x ≤ node rd 0 1 N (k + 1) + 4 * tol * (node rd 0 1 N (k + 1) - node rd 0 1 N k) at hb
  have htol0 : 0 < tol := lt_of_lt_of_le (by norm_num) htol
  generalize node rd 0 1 N k = lo at *
  generalize node rd 0 1 N (k + 1) = hi at *
  generalize lowerLeft rd (cell rd 0 1 N k m o) = L at *
  generalize upperRight rd (cell rd 0 1 N k m o) = U at *
  obtain ⟨hb1, hb2⟩ := hb
  obtain ⟨hU1, hU2⟩ := hU
  obtain ⟨hL1, hL2⟩ := hL
  have htl : 4 * tol * (hi - lo) ≤ 4 * tol := by
    have : hi - lo ≤ 1 := by
      norm_num at n1 n2'
      linarith
    nlinarith
  have hLU : (m : ℚ) * w ≤ U - L := by
    norm_num at hU2 hL2 hsz
    linarith
  have hmw0 : 0 < (m : ℚ) * w := by linarith
  have hlt : L < U := by linarith
  have habs : 8 * (1 / 2 ^ 53) * (|L| + |U|) ≤ 16 / 2 ^ 53 := by
    rw [abs_of_nonneg hL1, abs_of_nonneg (by linarith)]
    norm_num
    linarith
  rw [abs_of_nonneg hL1] at hrdL
  have hr : rd L ≤ L + 1 / 2 ^ 53 := by
    have : (1 : ℚ) / 2 ^ 53 * L ≤ 1 / 2 ^ 53 * 1 := mul_le_mul_of_nonneg_left (by linarith) (by norm_num)
    linarith [hrdL.2]
  refine C97_no_gaps h htol0 _ k he ?_ ?_ ?_
  · have h1 := (abs_le.mp ((hnode 1 he hlt).trans habs)).1
    have heq : (0 : ℚ) < localCells rd ⟨0, 1, N, m, o⟩ k := by exact_mod_cast he
    have he3q : (localCells rd ⟨0, 1, N, m, o⟩ k : ℚ) ≤ 3 * m := by exact_mod_cast he3
    have h2 : w / 3 ≤ (U - L) / localCells rd ⟨0, 1, N, m, o⟩ k := by
      rw [div_le_div_iff₀ (by norm_num) heq]
      nlinarith
    rw [hzero]
    generalize (U - L) / (localCells rd ⟨0, 1, N, m, o⟩ k : ℚ) = q at *
    norm_num at h1 hr hsz
    linarith
  · rw [hzero]
    rcases hL' with hh | hh
    · norm_num at hh hr hsz n1 htol'
      linarith
    · rw [hh, rd_zero h]; exact hx
  · have h1 := (abs_le.mp ((hnode _ le_rfl hlt).trans habs)).1
    have heq : (localCells rd ⟨0, 1, N, m, o⟩ k : ℚ) ≠ 0 := by exact_mod_cast he.ne'
    rw [mul_div_cancel₀ _ heq] at h1
    norm_num at h1 hU2 hsz n2' htol'
    linarith

end layers

section search
variable {d : ℕ} {rd : ℚ → ℚ} {tol : ℚ} {D : Fin d → Dir} {n viewSize : ℕ} {index : ℕ → Fin d → ℕ}
  {pick : ℕ → (Fin d → ℚ) → Option (Fin d → ℕ)}

/-- Element `e` of the local grid of the coarse cell `K` contains `x`. -/
def Holds (rd : ℚ → ℚ) (tol : ℚ) (D : Fin d → Dir) (K e : Fin d → ℕ) (x : Fin d → ℚ) : Prop :=
  ∀ i, e i < localCells rd (D i) (K i) ∧ localContains rd tol (D i) (K i) (e i) (x i) = true

/-- What is assumed of the element search: it returns an element that contains the point, if there is one. -/
structure Picks (rd : ℚ → ℚ) (tol : ℚ) (D : Fin d → Dir) (index : ℕ → Fin d → ℕ) (pick : ℕ → (Fin d → ℚ) → Option (Fin d → ℕ)) : Prop where
  found : ∀ c x e, pick c x = some e → Holds rd tol D (index c) e x
  missed : ∀ c x, pick c x = none → ∀ e, ¬ Holds rd tol D (index c) e x

theorem env_covers_iff {c : ℕ} {ps : List (Fin d → ℚ)} :
    (env rd tol D n viewSize index pick).covers c ps = true ↔
      ∀ x ∈ ps, ∀ i, coarseContains rd tol (D i) (index c i) (x i) = true := by
  change (ps.all fun x => decide (∀ i, coarseContains rd tol (D i) (index c i) (x i) = true)) = true ↔ _
  rw [List.all_eq_true]
  simp only [decide_eq_true_eq]

/-- The local search is complete if every coarse cell that covers the points has elements which contain them. -/
theorem complete_of (hp : Picks rd tol D index pick) {ps : List (Fin d → ℚ)}
    (hall : ∀ c < n, (env rd tol D n viewSize index pick).covers c ps = true → ∀ x ∈ ps, ∃ e, Holds rd tol D (index c) e x) :
    Search.LocalSearchComplete (env rd tol D n viewSize index pick) (fun c e x => Holds rd tol D (index c) e x) ps := by
  intro c hc hcov
  have := hall c hc hcov
  change ∃ es : List (Fin d → ℕ), ps.map (pick c) = es.map some ∧ List.Forall₂ _ es ps
  clear hcov hall
  induction ps with
  | nil => exact ⟨[], rfl, .nil⟩
  | cons x ps ih =>
    obtain ⟨es, h1, h2⟩ := ih fun y hy => this y (List.mem_cons_of_mem _ hy)
    obtain ⟨e, he⟩ := this x List.mem_cons_self
    cases hx : pick c x with
    | none => exact absurd he (hp.missed c x hx e)
    | some e' => exact ⟨e' :: es, by rw [List.map_cons, List.map_cons, hx, h1], .cons (hp.found c x e' hx) h2⟩

/-- **C97** (layers, partial) On the unit cube, in every rounding to nearest, with at least one layer and fewer layers than micro cells in every
direction: a search that returns has found for every point an element which contains it, provided the coarse cells that cover the points are not the
last ones of a direction; and it returns if there is such a coarse cell. Missing: the last coarse cells, and that a coarse cell covers the
points of a fine element. -/
theorem C97_layers_partial (h : Nearest rd) (htol : 1 / 2 ^ 49 ≤ tol) (htol' : tol ≤ 1 / 2 ^ 44) (N m o : Fin d → ℕ)
    (ho : ∀ i, 0 < o i) (hom : ∀ i, o i < m i) (hsize : ∀ i, N i * m i ≤ 2 ^ 40)
    (hp : Picks rd tol (fun i => ⟨0, 1, N i, m i, o i⟩) index pick) (ps : List (Fin d → ℚ)) (hps : ∀ x ∈ ps, ∀ i, 0 ≤ x i) (hne : ps ≠ [])
    (hlast : ∀ c < n, (env rd tol (fun i => ⟨0, 1, N i, m i, o i⟩) n viewSize index pick).covers c ps = true → ∀ i, index c i + 1 < N i)
    (s : Search.State) (hs : Search.Reachable (env rd tol (fun i => ⟨0, 1, N i, m i, o i⟩) n viewSize index pick) s) :
    (∀ ents s', Search.call (env rd tol (fun i => ⟨0, 1, N i, m i, o i⟩) n viewSize index pick) s ps = .ok ents s' →
      ∃ c es, s'.current = some c ∧ (env rd tol (fun i => ⟨0, 1, N i, m i, o i⟩) n viewSize index pick).covers c ps = true ∧
        ents = es.map some ∧ List.Forall₂ (fun e x => Holds rd tol (fun i => ⟨0, 1, N i, m i, o i⟩) (index c) e x) es ps) ∧
    (2 ≤ viewSize → (∃ c < n, (env rd tol (fun i => ⟨0, 1, N i, m i, o i⟩) n viewSize index pick).covers c ps = true) →
      ∃ ents s', Search.call (env rd tol (fun i => ⟨0, 1, N i, m i, o i⟩) n viewSize index pick) s ps = .ok ents s') := by
  have hcomp : Search.LocalSearchComplete (env rd tol (fun i => ⟨0, 1, N i, m i, o i⟩) n viewSize index pick)
      (fun c e x => Holds rd tol (fun i => ⟨0, 1, N i, m i, o i⟩) (index c) e x) ps := by
    refine complete_of hp fun c hc hcov x hx => ?_
    have hl := hlast c hc hcov
    have hcov' := env_covers_iff.mp hcov x hx
    have := fun i => found_layers h (ho i) (hom i) (hsize i) (hl i) htol htol' (hps x hx i) (hcov' i)
    choose e he using this
    exact ⟨e, he⟩
  constructor
  · intro ents s' hcall
    obtain ⟨c, es, h1, -, h3, h4, h5⟩ := Search.C08_search_elements _ _ s s' ps ents hne hcomp hcall
    exact ⟨c, es, h1, h3, h4, h5⟩
  · intro h2 hcov
    obtain ⟨c, hc, hcc⟩ := hcov
    exact Search.C09_succeeds _ _ h2 (lt_of_le_of_lt (Nat.zero_le c) hc) s hs ps hcomp ⟨c, hc, hcc⟩

/-- A search that meets the contract: the first element of every direction. -/
def firstPick (rd : ℚ → ℚ) (tol : ℚ) (D : Fin d → Dir) (index : ℕ → Fin d → ℕ) (c : ℕ) (x : Fin d → ℚ) : Option (Fin d → ℕ) :=
  let es : Fin d → Option ℕ := fun i =>
    (List.range (localCells rd (D i) (index c i))).find? fun k => localContains rd tol (D i) (index c i) k (x i)
  if ∀ i, (es i).isSome then some fun i => (es i).getD 0 else none

theorem firstPick_picks : Picks rd tol D index (firstPick rd tol D index) := by
  constructor
  · intro c x e he i
    unfold firstPick at he
    dsimp only at he
    split_ifs at he with hs
    obtain rfl := Option.some.inj he
    have := hs i
    obtain ⟨k, hk⟩ := Option.isSome_iff_exists.mp this
    simp only [hk, Option.getD_some]
    exact ⟨List.mem_range.mp (List.mem_of_find?_eq_some hk), List.find?_some (p := fun k => localContains rd tol (D i) (index c i) k (x i)) hk⟩
  · intro c x he e hh
    unfold firstPick at he
    dsimp only at he
    split_ifs at he with hs
    refine hs fun i => ?_
    rw [List.find?_isSome]
    exact ⟨e i, List.mem_range.mpr (hh i).1, (hh i).2⟩

end search

theorem doubleTol_bounds : 1 / 2 ^ 49 ≤ doubleTol ∧ doubleTol ≤ 1 / 2 ^ 44 := by
  unfold doubleTol
  constructor <;> norm_num

/-- Three coarse cells with two micro cells and one layer in double precision: the search for a point of the first cell succeeds. -/
example : ∃ ents s', Search.call (env double doubleTol (fun _ : Fin 1 => ⟨0, 1, 3, 2, 1⟩) 3 3 (fun c _ => c)
    (firstPick double doubleTol (fun _ : Fin 1 => ⟨0, 1, 3, 2, 1⟩) fun c _ => c)) Search.State.init [fun _ => 1 / 4] = .ok ents s' := by
  refine (C97_layers_partial double_nearest doubleTol_bounds.1 doubleTol_bounds.2 (fun _ => 3) (fun _ => 2) (fun _ => 1) (by simp) (by simp) (by simp)
    firstPick_picks _ (by simp) (by simp) ?_ _ .init).2 (by norm_num) ⟨0, by norm_num, ?_⟩
  · intro c hc hcov i
    have := env_covers_iff.mp hcov _ (List.mem_singleton_self _) i
    by_contra hlt
    obtain rfl : c = 2 := by omega
    exact absurd this (by decide +kernel)
  · refine env_covers_iff.mpr ?_
    simp only [List.mem_singleton, forall_eq]
    intro _
    decide +kernel

/-- No gaps between the cells of the local grid of coarse cell 1 of three with 44 micro cells. -/
example : ∃ i < 44, localContains double doubleTol ⟨0, 1, 3, 44, 0⟩ 1 i (point double ⟨0, 1, 3, 44, 0⟩ 50 true) = true := by
  have he : localCells double ⟨0, 1, 3, 44, 0⟩ 1 = 44 := by decide +kernel
  obtain ⟨i, hi, h⟩ := C97_no_gaps double_nearest (show 0 < doubleTol by norm_num [doubleTol]) ⟨0, 1, 3, 44, 0⟩ 1
    (x := point double ⟨0, 1, 3, 44, 0⟩ 50 true) (by rw [he]; norm_num) (by decide +kernel) (by decide +kernel) (by decide +kernel)
  exact ⟨i, he ▸ hi, h⟩

end Verif.RoundedSearch
