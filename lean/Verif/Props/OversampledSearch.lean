import Verif.Props.RoundedSearch
import Mathlib.Algebra.Order.Round

/-!
# C97: the unit cube with at least one layer

With at most 60 coarse cells and fewer layers than micro cells in every direction the search succeeds for every fine element, in every
rounding to nearest.
-/

namespace Verif.RoundedSearch
open Verif.Spec.Binary Verif.RoundedGrid Verif.Double

/-! ## Numbers with 53 digits near one -/

/-- There is no number with 53 digits between `1 - 2^-53` and 1. -/
theorem digits_below {r : ℚ} (hr : Digits53 r) (hlt : r < 1) : r ≤ 1 - 1 / 2 ^ 53 := by
  obtain ⟨k, j, hk, rfl⟩ := hr
  rcases le_or_gt (-53) j with hj | hj
  · obtain ⟨t, ht⟩ : ∃ t : ℕ, j = -53 + t := ⟨(j + 53).toNat, by omega⟩
    have e : (k : ℚ) * 2 ^ j = ((k * 2 ^ t : ℤ) : ℚ) / 2 ^ 53 := by
      rw [ht, zpow_add₀ (by norm_num), zpow_natCast]
      push_cast
      rw [zpow_neg]
      norm_num
      ring
    rw [e] at hlt ⊢
    rw [div_lt_one (by positivity)] at hlt
    have : k * 2 ^ t < 2 ^ 53 := by exact_mod_cast hlt
    have h2 : k * 2 ^ t ≤ 2 ^ 53 - 1 := by omega
    have h3 : ((k * 2 ^ t : ℤ) : ℚ) ≤ 2 ^ 53 - 1 := by exact_mod_cast h2
    rw [div_le_iff₀ (by positivity)]
    norm_num at h3 ⊢
    linarith
  · have h1 : (k : ℚ) ≤ 2 ^ 53 := by exact_mod_cast (le_abs_self k).trans hk
    have h2 : (2 : ℚ) ^ j ≤ 2 ^ (-54 : ℤ) := zpow_le_zpow_right₀ (by norm_num) (by omega)
    have h3 : (0 : ℚ) < 2 ^ j := two_zpow_pos j
    calc (k : ℚ) * 2 ^ j ≤ 2 ^ 53 * 2 ^ (-54 : ℤ) := mul_le_mul h1 h2 h3.le (by norm_num)
      _ ≤ 1 - 1 / 2 ^ 53 := by norm_num

/-- There is no number with 53 digits between 1 and `1 + 2^-52`. -/
theorem digits_above {r : ℚ} (hr : Digits53 r) (hlt : 1 < r) : 1 + 1 / 2 ^ 52 ≤ r := by
  obtain ⟨k, j, hk, rfl⟩ := hr
  have h1 : (k : ℚ) ≤ 2 ^ 53 := by exact_mod_cast (le_abs_self k).trans hk
  have h3 : (0 : ℚ) < 2 ^ j := two_zpow_pos j
  rcases le_or_gt (-52) j with hj | hj
  · obtain ⟨t, ht⟩ : ∃ t : ℕ, j = -52 + t := ⟨(j + 52).toNat, by omega⟩
    have e : (k : ℚ) * 2 ^ j = ((k * 2 ^ t : ℤ) : ℚ) / 2 ^ 52 := by
      rw [ht, zpow_add₀ (by norm_num), zpow_natCast]
      push_cast
      rw [zpow_neg]
      norm_num
      ring
    rw [e] at hlt ⊢
    rw [one_lt_div (by positivity)] at hlt
    have : 2 ^ 52 < k * 2 ^ t := by exact_mod_cast hlt
    have h2 : 2 ^ 52 + 1 ≤ k * 2 ^ t := by omega
    have h3 : (2 ^ 52 + 1 : ℚ) ≤ ((k * 2 ^ t : ℤ) : ℚ) := by exact_mod_cast h2
    rw [le_div_iff₀ (by positivity)]
    norm_num at h3 ⊢
    linarith
  · exfalso
    have h2 : (2 : ℚ) ^ j ≤ 2 ^ (-53 : ℤ) := zpow_le_zpow_right₀ (by norm_num) (by omega)
    have : (k : ℚ) * 2 ^ j ≤ 2 ^ 53 * 2 ^ (-53 : ℤ) := mul_le_mul h1 h2 h3.le (by norm_num)
    norm_num at this
    linarith

/-- The distance of a number with 53 digits from one half to one to one has 53 digits. -/
theorem digits_one_sub {r : ℚ} (hr : Digits53 r) (h0 : 1 / 2 < r) (h1 : r ≤ 1) : Digits53 (1 - r) := by
  obtain ⟨k, j, hk, rfl⟩ := hr
  have hkq : (k : ℚ) ≤ 2 ^ 53 := by exact_mod_cast (le_abs_self k).trans hk
  have h3 : (0 : ℚ) < 2 ^ j := two_zpow_pos j
  rcases le_or_gt (-53) j with hj | hj
  · obtain ⟨t, ht⟩ : ∃ t : ℕ, j = -53 + t := ⟨(j + 53).toNat, by omega⟩
    have e : (k : ℚ) * 2 ^ j = ((k * 2 ^ t : ℤ) : ℚ) / 2 ^ 53 := by
      rw [ht, zpow_add₀ (by norm_num), zpow_natCast]
      push_cast
      rw [zpow_neg]
      norm_num
      ring
    rw [e] at h0 h1 ⊢
    rw [div_le_one (by positivity)] at h1
    have h1' : k * 2 ^ t ≤ 2 ^ 53 := by exact_mod_cast h1
    have h0' : 0 < k * 2 ^ t := by
      have : (0 : ℚ) < ((k * 2 ^ t : ℤ) : ℚ) := by
        by_contra hh
        have : ((k * 2 ^ t : ℤ) : ℚ) / 2 ^ 53 ≤ 0 := div_nonpos_of_nonpos_of_nonneg (not_lt.mp hh) (by positivity)
        linarith
      exact_mod_cast this
    refine ⟨2 ^ 53 - k * 2 ^ t, -53, ?_, ?_⟩
    · rw [abs_le]; constructor <;> omega
    · push_cast
      rw [zpow_neg]
      norm_num
      ring
  · exfalso
    have h2 : (2 : ℚ) ^ j ≤ 2 ^ (-54 : ℤ) := zpow_le_zpow_right₀ (by norm_num) (by omega)
    have : (k : ℚ) * 2 ^ j ≤ 2 ^ 53 * 2 ^ (-54 : ℤ) := mul_le_mul hkq h2 h3.le (by norm_num)
    norm_num at this
    linarith

section
variable {rd : ℚ → ℚ} (h : Nearest rd)
include h

theorem one_le_rd {y : ℚ} (hy : 1 - 1 / 2 ^ 54 < y) : 1 ≤ rd y := by
  by_contra hcon
  have h1 := digits_below (h.digits y) (not_le.mp hcon)
  have h2 := h.best y 1 ⟨1, 0, by norm_num, by norm_num⟩
  rcases le_total 1 y with h3 | h3
  · have := nearest_monotone h h3
    rw [rd_one h] at this
    exact hcon this
  · rw [abs_of_nonpos (by linarith : y - 1 ≤ 0)] at h2
    have := le_abs_self (y - rd y)
    norm_num at h1 h2 hy
    linarith

theorem rd_le_one {y : ℚ} (hy : y < 1 + 1 / 2 ^ 53) : rd y ≤ 1 := by
  by_contra hcon
  have h1 := digits_above (h.digits y) (not_le.mp hcon)
  have h2 := h.best y 1 ⟨1, 0, by norm_num, by norm_num⟩
  rcases le_total y 1 with h3 | h3
  · have := nearest_monotone h h3
    rw [rd_one h] at this
    exact hcon this
  · rw [abs_of_nonneg (by linarith : 0 ≤ y - 1)] at h2
    have := neg_abs_le (y - rd y)
    norm_num at h1 h2 hy
    linarith

/-- Rounding a rounded number changes nothing. -/
theorem rd_rd (y : ℚ) : rd (rd y) = rd y := nearest_exact h (h.digits y)

/-- The error of rounding is at most half a unit in the last place. -/
theorem rd_ulp {x : ℚ} {e : ℤ} (hx : |x| ≤ 2 ^ (e + 1)) : |x - rd x| ≤ 2 ^ e * (1 / 2 ^ 53) := by
  have hp := two_zpow_pos (e - 52)
  have hlt : |x / 2 ^ (e - 52)| ≤ 2 ^ 53 := by
    rw [abs_div, abs_of_pos hp, div_le_iff₀ hp]
    refine hx.trans_eq ?_
    rw [← zpow_natCast, ← zpow_add₀ (by norm_num)]
    congr 1
    push_cast
    ring
  have hr : |round (x / 2 ^ (e - 52))| ≤ 2 ^ 53 := by
    have h1 := abs_sub_round (x / 2 ^ (e - 52))
    have h2 : |(round (x / 2 ^ (e - 52)) : ℚ)| < 2 ^ 53 + 1 := by
      have := abs_sub_abs_le_abs_sub (round (x / 2 ^ (e - 52)) : ℚ) (x / 2 ^ (e - 52))
      rw [abs_sub_comm] at this
      linarith
    have h3 : |round (x / 2 ^ (e - 52))| < 2 ^ 53 + 1 := by exact_mod_cast h2
    omega
  refine (h.best x (round (x / 2 ^ (e - 52)) * 2 ^ (e - 52)) ⟨_, _, hr, rfl⟩).trans ?_
  have h1 := abs_sub_round (x / 2 ^ (e - 52))
  have h2 : x - round (x / 2 ^ (e - 52)) * 2 ^ (e - 52) = (x / 2 ^ (e - 52) - round (x / 2 ^ (e - 52))) * 2 ^ (e - 52) := by
    field_simp
  rw [h2, abs_mul, abs_of_pos hp]
  calc _ ≤ 1 / 2 * (2 : ℚ) ^ (e - 52) := mul_le_mul_of_nonneg_right h1 hp.le
    _ = _ := by
      rw [zpow_sub₀ (by norm_num)]
      norm_num
      ring

/-- The width of a grid on the unit interval: the computed cells together are hardly wider than the interval. -/
theorem width_lt {n : ℕ} (hn : 0 < n) : (n : ℚ) * rd (1 / n) < 1 + 1 / 2 ^ 53 := by
  have hnq : (0 : ℚ) < n := by exact_mod_cast hn
  have hx : (0 : ℚ) < 1 / n := by positivity
  have h1 := Int.zpow_log_le_self (R := ℚ) (b := 2) (by norm_num) hx
  have h2 := Int.lt_zpow_succ_log_self (R := ℚ) (b := 2) (by norm_num) ((1 : ℚ) / n)
  generalize Int.log 2 ((1 : ℚ) / n) = e at *
  push_cast at h1 h2
  rcases eq_or_lt_of_le h1 with heq | hlt
  · rw [nearest_exact h ⟨1, e, by norm_num, by rw [← heq]; norm_num⟩]
    field_simp
    norm_num
  · have h3 := rd_ulp h (x := 1 / n) (e := e) (by rw [abs_of_pos hx]; exact h2.le)
    have h4 := neg_abs_le ((1 : ℚ) / n - rd (1 / n))
    have h5 : rd (1 / n) < 1 / n + 1 / n * (1 / 2 ^ 53) := by
      have : (2 : ℚ) ^ e * (1 / 2 ^ 53) < 1 / n * (1 / 2 ^ 53) := mul_lt_mul_of_pos_right hlt (by norm_num)
      linarith
    calc (n : ℚ) * rd (1 / n) < n * (1 / n + 1 / n * (1 / 2 ^ 53)) := mul_lt_mul_of_pos_left h5 hnq
      _ = 1 + 1 / 2 ^ 53 := by field_simp

/-! ## Coordinates on the unit interval -/

theorem unit_node (n i : ℕ) : node rd 0 1 n i = rd (i * rd (1 / n)) := by
  unfold node
  rw [sub_zero, rd_one h, zero_add, rd_rd h]

theorem unit_node_bounds {n i : ℕ} (hn : 0 < n) (hi : i ≤ n) :
    |node rd 0 1 n i - i / n| ≤ 201 / 100 / 2 ^ 53 ∧ 0 ≤ node rd 0 1 n i ∧ node rd 0 1 n i ≤ 1 := by
  have hnq : (0 : ℚ) < n := by exact_mod_cast hn
  have hiq : (i : ℚ) ≤ n := by exact_mod_cast hi
  have hi0 : (0 : ℚ) ≤ i := by positivity
  have hx : (0 : ℚ) < 1 / n := by positivity
  have hr0 : 0 < rd (1 / n) := rd_pos h hx
  rw [unit_node h]
  refine ⟨?_, rd_nonneg h (by positivity), rd_le_one h (lt_of_le_of_lt (mul_le_mul_of_nonneg_right hiq hr0.le) (width_lt h hn))⟩
  have a1 := nearest_accurate h (1 / n)
  have a2 := nearest_accurate h (i * rd (1 / n))
  rw [abs_of_pos hx] at a1
  rw [abs_of_nonneg (show 0 ≤ (i : ℚ) * rd (1 / n) by positivity)] at a2
  have hq : (i : ℚ) / n ≤ 1 := (div_le_one hnq).mpr hiq
  have hq0 : (0 : ℚ) ≤ i / n := by positivity
  have e : (i : ℚ) * rd (1 / n) - i / n = i * (rd (1 / n) - 1 / n) := by ring
  have b1 : |(i : ℚ) * rd (1 / n) - i / n| ≤ 1 / 2 ^ 53 := by
    rw [e, abs_mul, abs_of_nonneg hi0]
    calc (i : ℚ) * |rd (1 / n) - 1 / n| ≤ i * (1 / 2 ^ 53 * (1 / n)) := mul_le_mul_of_nonneg_left a1 hi0
      _ = 1 / 2 ^ 53 * (i / n) := by ring
      _ ≤ 1 / 2 ^ 53 * 1 := mul_le_mul_of_nonneg_left hq (by norm_num)
      _ = 1 / 2 ^ 53 := by ring
  generalize (i : ℚ) * rd (1 / n) = y at *
  generalize (i : ℚ) / n = q at *
  rw [abs_le] at a2 b1 ⊢
  norm_num at a2 b1 ⊢
  constructor <;> linarith

theorem unit_node_strict {n i : ℕ} (hn : 0 < n) (hi : 0 < i) : 0 < node rd 0 1 n i := by
  have hnq : (0 : ℚ) < n := by exact_mod_cast hn
  have hiq : (0 : ℚ) < i := by exact_mod_cast hi
  rw [unit_node h]
  exact rd_pos h (mul_pos hiq (rd_pos h (by positivity)))

/-- Corners of fine elements. -/
theorem unit_point {N m o J : ℕ} (hn : 8 ≤ N * m) (hJ : J < N * m) (t : Bool) :
    |point rd ⟨0, 1, N, m, o⟩ J t - ((J + t.toNat : ℕ) : ℚ) / (N * m : ℕ)| ≤ 32 / 10 / 2 ^ 53 ∧
      0 ≤ point rd ⟨0, 1, N, m, o⟩ J t ∧ point rd ⟨0, 1, N, m, o⟩ J t ≤ 1 := by
  unfold point
  change |global rd (node rd 0 1 (N * m) J) (node rd 0 1 (N * m) (J + 1)) t - _| ≤ _ ∧
    0 ≤ global rd (node rd 0 1 (N * m) J) (node rd 0 1 (N * m) (J + 1)) t ∧ global rd (node rd 0 1 (N * m) J) (node rd 0 1 (N * m) (J + 1)) t ≤ 1
  generalize N * m = n at *
  have hn0 : 0 < n := by omega
  have hnq : (8 : ℚ) ≤ n := by exact_mod_cast hn
  obtain ⟨e1, z1, o1⟩ := unit_node_bounds h hn0 hJ.le
  obtain ⟨e2, z2, o2⟩ := unit_node_bounds h hn0 (Nat.succ_le_of_lt hJ)
  have d1 : Digits53 (node rd 0 1 n J) := h.digits _
  have d2 : Digits53 (node rd 0 1 n (J + 1)) := h.digits _
  unfold global
  cases t
  · simp only [Bool.toNat_false, Nat.cast_zero, zero_mul, rd_zero h, add_zero]
    rw [nearest_exact h d1]
    refine ⟨e1.trans (by norm_num), z1, o1⟩
  · simp only [Bool.toNat_true, Nat.cast_one, one_mul]
    rw [rd_rd h]
    have hw : ((J + 1 : ℕ) : ℚ) / n = J / n + 1 / n := by push_cast; ring
    have hw1 : (1 : ℚ) / n ≤ 1 / 8 := one_div_le_one_div_of_le (by norm_num) hnq
    have hw0 : (0 : ℚ) < 1 / n := by positivity
    have hstrict := fun h0 => unit_node_strict h (i := J) hn0 h0
    have hzero : J = 0 → node rd 0 1 n J = 0 := by
      rintro rfl
      rw [unit_node h, Nat.cast_zero, zero_mul, rd_zero h]
    have hmono : node rd 0 1 n J ≤ node rd 0 1 n (J + 1) := by
      rw [unit_node h, unit_node h]
      refine nearest_monotone h (mul_le_mul_of_nonneg_right (by push_cast; linarith) (rd_pos h hw0).le)
    rw [Nat.succ_eq_add_one, hw] at e2
    rw [hw]
    generalize (J : ℚ) / n = q at *
    generalize (1 : ℚ) / n = w at *
    generalize node rd 0 1 n J = x at *
    generalize node rd 0 1 n (J + 1) = y at *
    have a1 := nearest_accurate h (y - x)
    rw [abs_of_nonneg (show 0 ≤ y - x by linarith)] at a1
    have a2 := nearest_accurate h (x + rd (y - x))
    have hr0 := rd_nonneg h (by linarith : 0 ≤ y - x)
    rw [abs_of_nonneg (show 0 ≤ x + rd (y - x) by linarith)] at a2
    rw [abs_le] at e1 e2 a1 a2
    refine ⟨?_, rd_nonneg h (by linarith), rd_le_one h ?_⟩
    · rw [abs_le]
      norm_num at e1 e2 a1 a2 ⊢
      constructor <;> linarith
    · rcases Nat.eq_zero_or_pos J with hJ0 | hJ0
      · rw [hzero hJ0, sub_zero, nearest_exact h d2]
        norm_num
        linarith
      · have := hstrict hJ0
        norm_num at a1 ⊢
        linarith

/-- A point is found if it is not farther away than 121/128 of the tolerance. -/
theorem contains_near {tol lo hi x : ℚ} (htol : 1 / 2 ^ 46 ≤ tol) (htol' : tol ≤ 1 / 2 ^ 44) (hlt : lo < hi)
    (h0 : lo - 121 / 128 * tol * (hi - lo) ≤ x) (h1 : x ≤ hi + 121 / 128 * tol * (hi - lo)) : contains rd tol lo hi x = true := by
  unfold contains checkInside localCoord
  rw [Bool.and_eq_true, decide_eq_true_iff, decide_eq_true_iff]
  have acc := nearest_accurate h
  have hl : 0 < hi - lo := by linarith
  have hv : 0 < rd (hi - lo) := rd_pos h hl
  have a1 := abs_le.mp (acc (hi - lo))
  rw [abs_of_pos hl] at a1
  have htol0 : 0 < tol := lt_of_lt_of_le (by norm_num) htol
  have hup : x - lo ≤ (hi - lo) + 121 / 128 * tol * (hi - lo) := by linarith
  have hu0 : 0 ≤ x - lo → 0 ≤ rd (x - lo) := fun hh => rd_nonneg h hh
  have hq0 : 0 ≤ rd (x - lo) → 0 ≤ rd (rd (x - lo) / rd (hi - lo)) := fun hh => rd_nonneg h (by positivity)
  have hr0 : 0 ≤ 1 - rd (rd (x - lo) / rd (hi - lo)) → 0 ≤ rd (1 - rd (rd (x - lo) / rd (hi - lo))) := fun hh => rd_nonneg h hh
  have a2 := abs_le.mp (acc (x - lo))
  have a3 := abs_le.mp (acc (rd (x - lo) / rd (hi - lo)))
  have a4 := abs_le.mp (acc (1 - rd (rd (x - lo) / rd (hi - lo))))
  have hz : rd (x - lo) / rd (hi - lo) * rd (hi - lo) = rd (x - lo) := by field_simp
  generalize rd (1 - rd (rd (x - lo) / rd (hi - lo))) = r at *
  generalize rd (rd (x - lo) / rd (hi - lo)) = q at *
  generalize rd (x - lo) / rd (hi - lo) = z at *
  generalize rd (x - lo) = u at *
  generalize rd (hi - lo) = v at *
  generalize hi - lo = l at *
  have hut : 0 < tol * l := mul_pos htol0 hl
  norm_num at a1 a2 a3 a4 htol htol'
  constructor
  · by_cases hx : 0 ≤ x - lo
    · linarith [hq0 (hu0 hx)]
    · rw [abs_of_neg (not_le.mp hx)] at a2
      have hu1 : -(19 / 20 * tol * l) ≤ u := by nlinarith
      have hv1 : 63 / 64 * l ≤ v := by linarith
      have hz1 : -(97 / 100 * tol) ≤ z := by
        by_contra hcon
        have := mul_lt_mul_of_pos_right (not_le.mp hcon) hv
        nlinarith
      rcases le_total 0 z with hz0 | hz0
      · rw [abs_of_nonneg hz0] at a3; linarith
      · rw [abs_of_nonpos hz0] at a3; linarith
  · by_cases hq : 0 ≤ 1 - q
    · linarith [hr0 hq]
    · rw [abs_of_neg (not_le.mp hq)] at a4
      have hx : 0 ≤ x - lo := by
        by_contra hcon
        rw [abs_of_neg (not_le.mp hcon)] at a2
        have hu : u < 0 := by linarith
        have hz0 : z < 0 := by
          by_contra hh
          have := mul_nonneg (not_lt.mp hh) hv.le
          linarith
        rw [abs_of_neg hz0] at a3
        linarith
      rw [abs_of_nonneg hx] at a2
      have hu1 : u ≤ (1 + tol * (121 / 128 + 1 / 100)) * l := by nlinarith
      have hv1 : (1 - tol / 100) * l ≤ v := by nlinarith
      have hz1 : z ≤ 1 + tol * (97 / 100) := by
        by_contra hcon
        have e1 := mul_lt_mul_of_pos_right (not_le.mp hcon) hv
        have e2 : (1 + tol * (97 / 100)) * ((1 - tol / 100) * l) ≤ (1 + tol * (97 / 100)) * v := mul_le_mul_of_nonneg_left hv1 (by linarith)
        have e3 : (1 + tol * (121 / 128 + 1 / 100)) * l ≤ (1 + tol * (97 / 100)) * ((1 - tol / 100) * l) := by
          rw [← mul_assoc]
          refine mul_le_mul_of_nonneg_right ?_ hl.le
          nlinarith
        linarith
      have hz0 : 0 ≤ z := by
        by_contra hh
        rw [abs_of_neg (not_le.mp hh)] at a3
        linarith
      rw [abs_of_nonneg hz0] at a3
      linarith

omit h in
/-- Differences of numbers that are not farther apart than by a factor of two need no more digits. -/
theorem sterbenz {x y : ℚ} (hx : Digits53 x) (hy : Digits53 y) (h0 : 0 ≤ x) (hxy : x ≤ y) (hy2 : y ≤ 2 * x) : Digits53 (y - x) := by
  obtain ⟨k, j, hk, rfl⟩ := hx
  obtain ⟨l, i, hl, rfl⟩ := hy
  have hkq : (k : ℚ) ≤ 2 ^ 53 := by exact_mod_cast (le_abs_self k).trans hk
  have hlq : (l : ℚ) ≤ 2 ^ 53 := by exact_mod_cast (le_abs_self l).trans hl
  rcases le_total j i with hji | hji
  · obtain ⟨t, ht⟩ : ∃ t : ℕ, i = j + t := ⟨(i - j).toNat, by omega⟩
    have hp := two_zpow_pos j
    have e : (l : ℚ) * 2 ^ i = ((l * 2 ^ t : ℤ) : ℚ) * 2 ^ j := by
      rw [ht, zpow_add₀ (by norm_num), zpow_natCast]; push_cast; ring
    rw [e] at hxy hy2 ⊢
    have h1 : (k : ℚ) ≤ ((l * 2 ^ t : ℤ) : ℚ) := le_of_mul_le_mul_right hxy hp
    have h2 : ((l * 2 ^ t : ℤ) : ℚ) ≤ 2 * k := le_of_mul_le_mul_right (by linarith) hp
    refine ⟨l * 2 ^ t - k, j, ?_, by push_cast; ring⟩
    have h3 : k ≤ l * 2 ^ t := by exact_mod_cast h1
    have h4 : l * 2 ^ t ≤ 2 * k := by exact_mod_cast h2
    have h5 : k ≤ 2 ^ 53 := by exact_mod_cast hkq
    rw [abs_of_nonneg (by linarith)]
    linarith
  · obtain ⟨t, ht⟩ : ∃ t : ℕ, j = i + t := ⟨(j - i).toNat, by omega⟩
    have hp := two_zpow_pos i
    have e : (k : ℚ) * 2 ^ j = ((k * 2 ^ t : ℤ) : ℚ) * 2 ^ i := by
      rw [ht, zpow_add₀ (by norm_num), zpow_natCast]; push_cast; ring
    rw [e] at hxy h0 ⊢
    have h1 : ((k * 2 ^ t : ℤ) : ℚ) ≤ l := le_of_mul_le_mul_right hxy hp
    have h2 : (0 : ℚ) ≤ ((k * 2 ^ t : ℤ) : ℚ) := nonneg_of_mul_nonneg_left h0 hp
    refine ⟨l - k * 2 ^ t, i, ?_, by push_cast; ring⟩
    have h3 : k * 2 ^ t ≤ l := by exact_mod_cast h1
    have h4 : 0 ≤ k * 2 ^ t := by exact_mod_cast h2
    have h5 : l ≤ 2 ^ 53 := by exact_mod_cast hlq
    rw [abs_of_nonneg (by linarith)]
    linarith

omit h in
/-- Numbers between 1/2 and 1 are multiples of `2^-53`. -/
theorem digits_half {r : ℚ} (hr : Digits53 r) (h0 : 1 / 2 ≤ r) : ∃ z : ℤ, r = z / 2 ^ 53 := by
  obtain ⟨k, j, hk, rfl⟩ := hr
  have hkq : (k : ℚ) ≤ 2 ^ 53 := by exact_mod_cast (le_abs_self k).trans hk
  have h3 : (0 : ℚ) < 2 ^ j := two_zpow_pos j
  rcases le_or_gt (-53) j with hj | hj
  · obtain ⟨t, ht⟩ : ∃ t : ℕ, j = -53 + t := ⟨(j + 53).toNat, by omega⟩
    refine ⟨k * 2 ^ t, ?_⟩
    rw [ht, zpow_add₀ (by norm_num), zpow_natCast]
    push_cast
    rw [zpow_neg]
    norm_num
    ring
  · have h2 : (2 : ℚ) ^ j ≤ 2 ^ (-54 : ℤ) := zpow_le_zpow_right₀ (by norm_num) (by omega)
    have h4 : (k : ℚ) * 2 ^ j ≤ 2 ^ 53 * 2 ^ (-54 : ℤ) := mul_le_mul hkq h2 h3.le (by norm_num)
    refine ⟨2 ^ 52, ?_⟩
    norm_num at h4 h0 ⊢
    linarith

/-- The corners of fine elements are the coordinates of the fine grid, without further error. -/
theorem corner_eq {n : ℕ} (hn : 0 < n) (J : ℕ) (t : Bool) :
    global rd (node rd 0 1 n J) (node rd 0 1 n (J + 1)) t = node rd 0 1 n (J + t.toNat) := by
  have d1 : Digits53 (node rd 0 1 n J) := h.digits _
  have d2 : Digits53 (node rd 0 1 n (J + 1)) := h.digits _
  unfold global
  cases t
  · simp only [Bool.toNat_false, Nat.cast_zero, zero_mul, rd_zero h, add_zero]
    exact nearest_exact h d1
  · simp only [Bool.toNat_true, Nat.cast_one, one_mul]
    have hnq : (0 : ℚ) < n := by exact_mod_cast hn
    have hw : 0 < rd (1 / n) := rd_pos h (by positivity)
    rcases Nat.eq_zero_or_pos J with rfl | hJ
    · have hz : node rd 0 1 n 0 = 0 := by rw [unit_node h, Nat.cast_zero, zero_mul, rd_zero h]
      rw [hz, sub_zero, zero_add, rd_rd h, rd_rd h, nearest_exact h d2]
    · have hJq : (1 : ℚ) ≤ J := by exact_mod_cast hJ
      have hle : node rd 0 1 n J ≤ node rd 0 1 n (J + 1) := by
        rw [unit_node h, unit_node h]
        exact nearest_monotone h (mul_le_mul_of_nonneg_right (by push_cast; linarith) hw.le)
      have hpos : 0 ≤ node rd 0 1 n J := (unit_node_strict h hn hJ).le
      have htwo : node rd 0 1 n (J + 1) ≤ 2 * node rd 0 1 n J := by
        rw [unit_node h, unit_node h]
        rcases Nat.lt_or_ge J 2 with hJ2 | hJ2
        · obtain rfl : J = 1 := by omega
          obtain ⟨k, j, hk, he⟩ := h.digits (1 / (n : ℚ))
          rw [Nat.cast_one, one_mul, rd_rd h]
          refine le_of_eq ?_
          rw [nearest_exact h]
          · norm_num
          · refine ⟨k, j + 1, hk, ?_⟩
            rw [he, zpow_add₀ (by norm_num)]
            norm_num
            ring
        · have hJq2 : (2 : ℚ) ≤ J := by exact_mod_cast hJ2
          have a1 := (abs_le.mp (nearest_accurate h (((J + 1 : ℕ) : ℚ) * rd (1 / n)))).2
          have a2 := (abs_le.mp (nearest_accurate h ((J : ℚ) * rd (1 / n)))).1
          rw [abs_of_pos (by positivity)] at a1
          rw [abs_of_pos (by positivity)] at a2
          push_cast at a1 ⊢
          have h2w : 2 * rd (1 / n) ≤ J * rd (1 / n) := mul_le_mul_of_nonneg_right hJq2 hw.le
          have e : ((J : ℚ) + 1) * rd (1 / n) = J * rd (1 / n) + rd (1 / n) := by ring
          rw [e] at a1 ⊢
          generalize rd ((J : ℚ) * rd (1 / n) + rd (1 / n)) = b at *
          generalize rd ((J : ℚ) * rd (1 / n)) = a at *
          generalize (J : ℚ) * rd (1 / n) = z at *
          generalize rd (1 / (n : ℚ)) = w at *
          norm_num at a1 a2
          linarith
      rw [rd_rd h, nearest_exact h (sterbenz d1 d2 hpos hle htwo), add_sub_cancel, nearest_exact h d2]

theorem point_eq {N m o J : ℕ} (hn : 0 < N * m) (t : Bool) : point rd ⟨0, 1, N, m, o⟩ J t = node rd 0 1 (N * m) (J + t.toNat) :=
  corner_eq h hn J t

/-- Error of a coordinate before and after the last rounding. -/
theorem node_error {n i : ℕ} (hn : 0 < n) (hi : i < n) (hsize : n ≤ 2 ^ 40) :
    |node rd 0 1 n i - i / n| ≤ (i / n + 1 / 2) / 2 ^ 53 ∧ |node rd 0 1 n i - i / n| ≤ (2 + 1 / 2 ^ 53) * (i / n) / 2 ^ 53 := by
  have hnq : (0 : ℚ) < n := by exact_mod_cast hn
  have hp0 : (0 : ℚ) ≤ i / n := by positivity
  have hp1 : (i : ℚ) / n ≤ 1 - 1 / 2 ^ 40 := by
    have h1 : ((i : ℚ) + 1) / n ≤ 1 := by rw [div_le_one hnq]; exact_mod_cast hi
    have h2 : (1 : ℚ) / 2 ^ 40 ≤ 1 / n := one_div_le_one_div_of_le hnq (by exact_mod_cast hsize)
    rw [add_div] at h1
    linarith
  have e1 : |(i : ℚ) * rd (1 / n) - i / n| ≤ i / n / 2 ^ 53 := by
    have := nearest_accurate h (1 / (n : ℚ))
    rw [show (i : ℚ) * rd (1 / n) - i / n = i * (rd (1 / n) - 1 / n) by ring, abs_mul, abs_of_nonneg (show (0 : ℚ) ≤ i by positivity)]
    rw [abs_of_pos (show (0 : ℚ) < 1 / n by positivity)] at this
    calc (i : ℚ) * |rd (1 / n) - 1 / n| ≤ i * (1 / 2 ^ 53 * (1 / n)) := mul_le_mul_of_nonneg_left this (by positivity)
      _ = _ := by ring
  have hy0 : 0 ≤ (i : ℚ) * rd (1 / n) := mul_nonneg (by positivity) (rd_pos h (by positivity)).le
  rw [unit_node h]
  generalize (i : ℚ) / n = p at *
  generalize (i : ℚ) * rd (1 / n) = y at *
  have hy1 : y ≤ 1 := by
    rw [abs_le] at e1
    norm_num at e1 hp1
    linarith
  have u1 := rd_ulp h (x := y) (e := -1) (by rw [abs_of_nonneg hy0]; norm_num; exact hy1)
  have u2 := nearest_accurate h y
  rw [abs_of_nonneg hy0] at u2
  rw [abs_le] at e1 u1 u2
  constructor
  · rw [abs_le]
    norm_num at e1 u1 ⊢
    constructor <;> linarith
  · rw [abs_le]
    norm_num at e1 u2 ⊢
    constructor <;> linarith

/-- Coordinates of the fine and the coarse grid at the same place differ by hardly more than two units in the last place. -/
theorem same_node {N m k : ℕ} (hN : 0 < N) (hm : 0 < m) (hk : k ≤ N) (hsize : N * m ≤ 2 ^ 40) :
    |node rd 0 1 (N * m) (k * m) - node rd 0 1 N k| ≤ 201 / 100 / 2 ^ 53 := by
  have hNm : 0 < N * m := Nat.mul_pos hN hm
  have hsN : N ≤ 2 ^ 40 := (Nat.le_mul_of_pos_right N hm).trans hsize
  rcases Nat.lt_or_ge k N with hlt | hge
  · obtain ⟨f1, f2⟩ := node_error h hNm (Nat.mul_lt_mul_of_pos_right hlt hm) hsize
    obtain ⟨c1, c2⟩ := node_error h hN hlt hsN
    have hp : ((k * m : ℕ) : ℚ) / ((N * m : ℕ) : ℚ) = k / N := by
      have : (m : ℚ) ≠ 0 := by exact_mod_cast hm.ne'
      push_cast
      rw [mul_div_mul_right _ _ this]
    rw [hp] at f1 f2
    have hNq : (0 : ℚ) < N := by exact_mod_cast hN
    have hp0 : (0 : ℚ) ≤ k / N := by positivity
    have hp1 : (k : ℚ) / N < 1 := by rw [div_lt_one hNq]; exact_mod_cast hlt
    have dF : Digits53 (node rd 0 1 (N * m) (k * m)) := h.digits _
    have dC : Digits53 (node rd 0 1 N k) := h.digits _
    generalize node rd 0 1 (N * m) (k * m) = f at *
    generalize node rd 0 1 N k = c at *
    generalize (k : ℚ) / N = p at *
    by_cases hhalf : 1 / 2 ≤ f ∧ 1 / 2 ≤ c
    · obtain ⟨z, rfl⟩ := digits_half dF hhalf.1
      obtain ⟨w, rfl⟩ := digits_half dC hhalf.2
      rw [abs_le] at f1 c1
      have h1 : ((z - w : ℤ) : ℚ) < 3 := by
        push_cast
        norm_num at f1 c1
        linarith
      have h2 : (-3 : ℚ) < ((z - w : ℤ) : ℚ) := by
        push_cast
        norm_num at f1 c1
        linarith
      have h3 : z - w < 3 := by exact_mod_cast h1
      have h4 : -3 < z - w := by exact_mod_cast h2
      have h5 : |z - w| ≤ 2 := by rw [abs_le]; constructor <;> omega
      have h6 : |((z - w : ℤ) : ℚ)| ≤ 2 := by exact_mod_cast h5
      rw [← sub_div, abs_div, abs_of_pos (show (0 : ℚ) < 2 ^ 53 by norm_num)]
      push_cast at h6
      refine div_le_div_of_nonneg_right (h6.trans (by norm_num)) (by norm_num)
    · have hp2 : p ≤ 1 / 2 + 2 / 2 ^ 53 := by
        rw [not_and_or, not_le, not_le] at hhalf
        rw [abs_le] at f1 c1
        rcases hhalf with hh | hh
        · norm_num at f1 ⊢
          linarith
        · norm_num at c1 ⊢
          linarith
      rw [abs_le] at f2 c2 ⊢
      norm_num at f2 c2 hp2 ⊢
      constructor <;> linarith
  · obtain rfl : k = N := le_antisymm hk hge
    have key : ∀ n : ℕ, 0 < n → 1 - 1 / 2 ^ 53 ≤ node rd 0 1 n n ∧ node rd 0 1 n n ≤ 1 := by
      intro n hn
      have hnq : (0 : ℚ) < n := by exact_mod_cast hn
      refine ⟨?_, (unit_node_bounds h hn le_rfl).2.2⟩
      rw [unit_node h]
      have hd : Digits53 (1 - 1 / 2 ^ 53) := ⟨2 ^ 53 - 1, -53, by norm_num, by norm_num⟩
      rw [← nearest_exact h hd]
      refine nearest_monotone h ?_
      have := (abs_le.mp (nearest_accurate h (1 / (n : ℚ)))).1
      rw [abs_of_pos (show (0 : ℚ) < 1 / n by positivity)] at this
      have h1 := mul_le_mul_of_nonneg_left (show 1 / (n : ℚ) - 1 / 2 ^ 53 * (1 / n) ≤ rd (1 / n) by linarith) hnq.le
      have h2 : (n : ℚ) * (1 / n - 1 / 2 ^ 53 * (1 / n)) = 1 - 1 / 2 ^ 53 := by field_simp
      linarith
    obtain ⟨g1, g2⟩ := key (k * m) hNm
    obtain ⟨g3, g4⟩ := key k hN
    rw [abs_le]
    norm_num at g1 g3 ⊢
    constructor <;> linarith

/-- With at most 60 coarse cells, the coarse cell of a fine element covers its corners. -/
theorem unit_covers {tol : ℚ} (htol : 1 / 2 ^ 46 ≤ tol) (htol' : tol ≤ 1 / 2 ^ 44) {N m o J : ℕ} (hN : N ≤ 60) (hsize : N * m ≤ 2 ^ 40)
    (hJ : J < N * m) (t : Bool) : coarseContains rd tol ⟨0, 1, N, m, o⟩ (J / m) (point rd ⟨0, 1, N, m, o⟩ J t) = true := by
  have hNm : 0 < N * m := by omega
  have hm : 0 < m := Nat.pos_of_mul_pos_left hNm
  have hN0 : 0 < N := Nat.pos_of_mul_pos_right hNm
  have hk : J / m < N := by rw [Nat.div_lt_iff_lt_mul hm]; exact hJ
  have hk0 : J / m * m ≤ J := Nat.div_mul_le_self _ _
  have hk1 : J < J / m * m + m := Nat.lt_div_mul_add hm
  have ht := Bool.toNat_le t
  rw [point_eq h hNm]
  obtain ⟨hlo, -, -⟩ := unit_node_bounds h hN0 hk.le
  obtain ⟨hhi, -, -⟩ := unit_node_bounds h hN0 (Nat.succ_le_of_lt hk)
  obtain ⟨hp, -, -⟩ := unit_node_bounds h hNm (show J + t.toNat ≤ N * m by omega)
  have s0 := same_node h hN0 hm hk.le hsize
  have s1 := same_node h hN0 hm (Nat.succ_le_of_lt hk) hsize
  generalize J / m = k at *
  have hNq : (0 : ℚ) < N := by exact_mod_cast hN0
  have hmq : (0 : ℚ) < m := by exact_mod_cast hm
  have hNmq : (0 : ℚ) < (N * m : ℕ) := by exact_mod_cast hNm
  have hNi : (1 : ℚ) / 60 ≤ 1 / N := one_div_le_one_div_of_le hNq (by exact_mod_cast hN)
  have hwi : (1 : ℚ) / 2 ^ 40 ≤ 1 / (N * m : ℕ) := one_div_le_one_div_of_le hNmq (by exact_mod_cast hsize)
  have hs : ((k.succ : ℕ) : ℚ) / N = k / N + 1 / N := by rw [Nat.succ_eq_add_one]; push_cast; ring
  have b0 : J + t.toNat = k * m ∨ (k : ℚ) / N + 1 / (N * m : ℕ) ≤ ((J + t.toNat : ℕ) : ℚ) / (N * m : ℕ) := by
    rcases Nat.eq_or_lt_of_le (show k * m ≤ J + t.toNat by omega) with hh | hh
    · exact .inl hh.symm
    · right
      have e : (k : ℚ) / N = ((k * m : ℕ) : ℚ) / (N * m : ℕ) := by push_cast; rw [mul_div_mul_right _ _ hmq.ne']
      rw [e, ← add_div]
      exact div_le_div_of_nonneg_right (by exact_mod_cast hh) hNmq.le
  have b1 : J + t.toNat = k.succ * m ∨ ((J + t.toNat : ℕ) : ℚ) / (N * m : ℕ) + 1 / (N * m : ℕ) ≤ (k.succ : ℕ) / N := by
    rcases Nat.eq_or_lt_of_le (show J + t.toNat ≤ k.succ * m by rw [Nat.succ_mul]; omega) with hh | hh
    · exact .inl hh
    · right
      have e : ((k.succ : ℕ) : ℚ) / N = ((k.succ * m : ℕ) : ℚ) / (N * m : ℕ) := by push_cast; rw [mul_div_mul_right _ _ hmq.ne']
      rw [e, ← add_div]
      exact div_le_div_of_nonneg_right (by exact_mod_cast hh) hNmq.le
  unfold coarseContains
  change contains rd tol (node rd 0 1 N k) (node rd 0 1 N k.succ) _ = true
  have d0 : node rd 0 1 N k - 201 / 100 / 2 ^ 53 ≤ node rd 0 1 (N * m) (J + t.toNat) := by
    rcases b0 with hh | hh
    · rw [hh]; linarith [(abs_le.mp s0).1]
    · have := (abs_le.mp hp).1
      have := (abs_le.mp hlo).2
      norm_num at *
      linarith
  have d1 : node rd 0 1 (N * m) (J + t.toNat) ≤ node rd 0 1 N k.succ + 201 / 100 / 2 ^ 53 := by
    rcases b1 with hh | hh
    · rw [hh]; linarith [(abs_le.mp s1).2]
    · have := (abs_le.mp hp).2
      have := (abs_le.mp hhi).1
      norm_num at *
      linarith
  clear s0 s1 b0 b1 hp
  rw [hs] at hhi
  generalize node rd 0 1 (N * m) (J + t.toNat) = x at *
  generalize node rd 0 1 N k = lo at *
  generalize node rd 0 1 N k.succ = hi at *
  generalize (k : ℚ) / N = q at *
  generalize (1 : ℚ) / N = H at *
  rw [abs_le] at hlo hhi
  norm_num at hlo hhi d0 d1
  have hd : 1 / 60 - 1 / 1000000 ≤ hi - lo := by
    norm_num at hNi ⊢
    linarith
  have hth : 1 / 2 ^ 46 * (1 / 60 - 1 / 1000000) ≤ tol * (hi - lo) := mul_le_mul htol hd (by norm_num) (le_trans (by norm_num) htol)
  norm_num at hth
  refine contains_near h htol htol' (by linarith) ?_ ?_
  · linarith
  · linarith

/-- No other coarse cell covers the corners. -/
theorem unit_cell {tol : ℚ} (htol : 1 / 2 ^ 49 ≤ tol) (htol' : tol ≤ 1 / 2 ^ 44) {N m o J k : ℕ} (hsize : N * m ≤ 2 ^ 40) (hn : 8 ≤ N * m)
    (hJ : J < N * m) (hk : k < N) (h0 : coarseContains rd tol ⟨0, 1, N, m, o⟩ k (point rd ⟨0, 1, N, m, o⟩ J false) = true)
    (h1 : coarseContains rd tol ⟨0, 1, N, m, o⟩ k (point rd ⟨0, 1, N, m, o⟩ J true) = true) : k = J / m := by
  have hm : 0 < m := Nat.pos_of_ne_zero fun hm => by rw [hm] at hn; omega
  have hN0 : 0 < N := by omega
  obtain ⟨hp0, -, -⟩ := unit_point h (o := o) hn hJ false
  obtain ⟨hp1, -, -⟩ := unit_point h (o := o) hn hJ true
  obtain ⟨hlo, hlo0, hlo1⟩ := unit_node_bounds h hN0 hk.le
  obtain ⟨hhi, hhi0, hhi1⟩ := unit_node_bounds h hN0 (Nat.succ_le_of_lt hk)
  have hNq : (0 : ℚ) < N := by exact_mod_cast hN0
  have hmq : (0 : ℚ) < m := by exact_mod_cast hm
  have hs : ((k.succ : ℕ) : ℚ) / N = k / N + 1 / N := by rw [Nat.succ_eq_add_one]; push_cast; ring
  have hH : (1 : ℚ) / 2 ^ 40 ≤ 1 / N := by
    refine one_div_le_one_div_of_le hNq ?_
    have : N ≤ 2 ^ 40 := le_trans (Nat.le_mul_of_pos_right N hm) hsize
    exact_mod_cast this
  have hlt : node rd 0 1 N k < node rd 0 1 N k.succ := by
    rw [hs] at hhi
    rw [abs_le] at hlo hhi
    norm_num at hlo hhi hH
    linarith
  obtain ⟨c0, -⟩ := contains_bounds h htol (htol'.trans (by norm_num)) hlt h0
  obtain ⟨-, c1⟩ := contains_bounds h htol (htol'.trans (by norm_num)) hlt h1
  have hw0 : (0 : ℚ) < 1 / (N * m : ℕ) := by positivity
  have hw : (1 : ℚ) / 2 ^ 40 ≤ 1 / (N * m : ℕ) := by
    refine one_div_le_one_div_of_le (by positivity) ?_
    exact_mod_cast hsize
  have e1 : (k : ℚ) / N = (k * m : ℕ) * (1 / (N * m : ℕ)) := by push_cast; field_simp
  have e2 : ((k.succ : ℕ) : ℚ) / N = ((k * m + m : ℕ) : ℚ) * (1 / (N * m : ℕ)) := by rw [Nat.succ_eq_add_one]; push_cast; field_simp
  have e3 : ((J + false.toNat : ℕ) : ℚ) / (N * m : ℕ) = (J : ℚ) * (1 / (N * m : ℕ)) := by simp; ring
  have e4 : ((J + true.toNat : ℕ) : ℚ) / (N * m : ℕ) = ((J + 1 : ℕ) : ℚ) * (1 / (N * m : ℕ)) := by simp; ring
  rw [e1] at hlo
  rw [e2] at hhi
  rw [e3] at hp0
  rw [e4] at hp1
  generalize (1 : ℚ) / (N * m : ℕ) = w at *
  generalize node rd 0 1 N k = lo at *
  generalize node rd 0 1 N k.succ = hi at *
  generalize point rd ⟨0, 1, N, m, o⟩ J false = x at *
  generalize point rd ⟨0, 1, N, m, o⟩ J true = y at *
  have hth : 4 * tol * (hi - lo) ≤ 4 * (1 / 2 ^ 44) * 1 := mul_le_mul (by linarith) (by linarith) (by linarith) (by norm_num)
  rw [abs_le] at hp0 hp1 hlo hhi
  norm_num at hp0 hp1 hlo hhi hth hw
  have d0 : ((k * m : ℕ) : ℚ) * w < (J + 1 : ℕ) * w := by push_cast; linarith
  have d1 : ((J + 1 : ℕ) : ℚ) * w < (k * m + m + 1 : ℕ) * w := by push_cast; linarith
  have d0' : k * m < J + 1 := by exact_mod_cast lt_of_mul_lt_mul_right d0 hw0.le
  have d1' : J + 1 < k * m + m + 1 := by exact_mod_cast lt_of_mul_lt_mul_right d1 hw0.le
  symm
  exact Nat.div_eq_of_lt_le (by omega) (by rw [Nat.succ_mul]; omega)

/-- The last coordinate of a grid that ends at one and is shorter than a quarter. -/
theorem last_one {L e : ℚ} (he : 0 < e) (hL : 0 < 1 - L) (hq : 1 - L ≤ 1 / 4 - 1 / 2 ^ 43) : 1 ≤ rd (L + rd (e * rd ((1 - L) / e))) := by
  refine one_le_rd h ?_
  have hy : e * ((1 - L) / e) = 1 - L := by field_simp
  have hy0 : 0 < (1 - L) / e := div_pos hL he
  generalize (1 - L) / e = y at *
  have a1 := (abs_le.mp (nearest_accurate h y)).1
  have hz0 : 0 < e * rd y := mul_pos he (rd_pos h hy0)
  have a2 := (abs_le.mp (nearest_accurate h (e * rd y))).1
  rw [abs_of_pos hy0] at a1
  rw [abs_of_pos hz0] at a2
  have b1 : e * (y - 1 / 2 ^ 53 * y) ≤ e * rd y := mul_le_mul_of_nonneg_left (by linarith) he.le
  have b2 : e * (y - 1 / 2 ^ 53 * y) = (1 - L) - 1 / 2 ^ 53 * (1 - L) := by rw [← hy]; ring
  rw [b2] at b1
  generalize e * rd y = z at *
  norm_num at a2 b1 hq ⊢
  linarith

/-- The first two coordinates differ. -/
theorem first_step {L y : ℚ} (hL0 : 0 < L) (hL1 : L ≤ 1) (hy : 1 / 2 ^ 42 ≤ y) : L < rd (L + rd y) := by
  have hy0 : 0 < y := lt_of_lt_of_le (by norm_num) hy
  have a1 := nearest_accurate h y
  have a2 := nearest_accurate h (L + rd y)
  have hry := rd_pos h hy0
  rw [abs_of_pos hy0] at a1
  rw [abs_of_pos (show 0 < L + rd y by linarith)] at a2
  rw [abs_le] at a1 a2
  norm_num at a1 a2 hy
  linarith

/-- The local grid of the last coarse cell ends on the boundary of the domain and contains every point which the coarse cell covers. -/
theorem found_last {N m o k : ℕ} (ho : 0 < o) (hom : o < m) (hsize : N * m ≤ 2 ^ 40) (hquarter : 4 * (m + o) < N * m) (hk : k + 1 = N)
    {tol : ℚ} (htol : 1 / 2 ^ 49 ≤ tol) (htol' : tol ≤ 1 / 2 ^ 44) {x : ℚ} (hx : x ≤ 1)
    (hc : coarseContains rd tol ⟨0, 1, N, m, o⟩ k x = true) :
    ∃ i < localCells rd ⟨0, 1, N, m, o⟩ k, localContains rd tol ⟨0, 1, N, m, o⟩ k i x = true := by
  have hN : 0 < N := by omega
  have hkN : k < N := by omega
  have hm : 0 < m := by omega
  have hNq : (0 : ℚ) < N := by exact_mod_cast hN
  have hmq : (0 : ℚ) < m := by exact_mod_cast hm
  have hacc : Accurate (8 * (1 / 2 ^ 53)) rd := fun x =>
    (nearest_accurate h x).trans (mul_le_mul_of_nonneg_right (by norm_num) (abs_nonneg x))
  have hnear : Near (8 * (1 / 2 ^ 53)) 0 1 N k (cell rd 0 1 N k m o) :=
    cell_near (by norm_num) hkN (by norm_num) (by norm_num) (nearest_accurate h) m o
  have hom' : (o : ℚ) / m ≤ 1 := by rw [div_le_one hmq]; exact_mod_cast hom.le
  have hbound : bound (8 * (1 / 2 ^ 53)) 0 1 m o ≤ 104 / 2 ^ 53 := by
    unfold bound
    rw [abs_zero, abs_one]
    norm_num
    linarith
  have hends := ends_error (c := cell rd 0 1 N k m o) (by norm_num) hkN hm (by norm_num) (by norm_num) hacc hnear
  change |left rd (cell rd 0 1 N k m o) - (0 + k * ((1 - 0) / N) - exactReach 0 1 N m o)| ≤ bound (8 * (1 / 2 ^ 53)) 0 1 m o ∧
    |right rd (cell rd 0 1 N k m o) - (0 + (k + 1) * ((1 - 0) / N) + exactReach 0 1 N m o)| ≤ bound (8 * (1 / 2 ^ 53)) 0 1 m o at hends
  have hkq : (k : ℚ) + 1 = N := by exact_mod_cast hk
  have hex : (0 : ℚ) + (k + 1) * ((1 - 0) / N) + exactReach 0 1 N m o = 1 + o * (1 / (N * m)) := by
    unfold exactReach
    rw [hkq]
    field_simp
    ring
  have hel : (0 : ℚ) + k * ((1 - 0) / N) - exactReach 0 1 N m o = 1 - (m + o) * (1 / (N * m)) := by
    unfold exactReach
    rw [show (k : ℚ) = N - 1 by linarith]
    field_simp
    ring
  rw [hex, hel] at hends
  obtain ⟨e1, e2⟩ := hends
  have e1 := abs_le.mp (e1.trans hbound)
  have e2 := (abs_le.mp (e2.trans hbound)).1
  have hw : (1 : ℚ) / 2 ^ 40 ≤ 1 / (N * m) := by
    refine one_div_le_one_div_of_le (by positivity) ?_
    exact_mod_cast hsize
  have hquart : ((m : ℚ) + o) * (1 / (N * m)) ≤ 1 / 4 - 1 / (N * m) / 4 := by
    have : 4 * (m + o) + 1 ≤ N * m := hquarter
    have hq : 4 * ((m : ℚ) + o) + 1 ≤ N * m := by exact_mod_cast this
    have hw1 : (N : ℚ) * m * (1 / (N * m)) = 1 := by field_simp
    have hw0 : (0 : ℚ) < 1 / (N * m) := by positivity
    nlinarith
  have how : 1 / ((N : ℚ) * m) ≤ o * (1 / (N * m)) := by
    have : (1 : ℚ) ≤ o := by exact_mod_cast ho
    have hw0 : (0 : ℚ) < 1 / (N * m) := by positivity
    nlinarith
  have hmw : (m : ℚ) * (1 / (N * m)) = 1 / N := by field_simp
  obtain ⟨hlo, hlo0, hlo1⟩ := unit_node_bounds h hN hkN.le
  obtain ⟨hhi, hhi0, hhi1⟩ := unit_node_bounds h hN (i := k + 1) (by omega)
  have hkN' : (k : ℚ) / N = 1 - m * (1 / (N * m)) := by
    rw [hmw, show (k : ℚ) = N - 1 by linarith]
    field_simp
  have hkN1 : ((k + 1 : ℕ) : ℚ) / N = 1 := by
    rw [hk]; field_simp
  rw [hkN'] at hlo
  rw [hkN1] at hhi
  have hmw' : 1 / ((N : ℚ) * m) ≤ m * (1 / (N * m)) := by
    have : (1 : ℚ) ≤ m := by exact_mod_cast hm
    have hw0 : (0 : ℚ) < 1 / (N * m) := by positivity
    nlinarith
  clear hex hel hmw hkN' hkN1
  generalize (1 : ℚ) / (N * m) = w at *
  have hin : input rd ⟨0, 1, N, m, o⟩ k = cell rd 0 1 N k m o := input_eq_cell _ _ _ _ _ _ _
  have hce : 0 < localCells rd ⟨0, 1, N, m, o⟩ k ∧ localCells rd ⟨0, 1, N, m, o⟩ k ≤ 3 * m := by
    unfold localCells
    rw [hin]
    unfold elements
    generalize exceedsLeft rd (cell rd 0 1 N k m o) = l
    generalize exceedsRight rd (cell rd 0 1 N k m o) = r
    change 0 < m + _ * o ∧ m + _ * o ≤ 3 * m
    cases l <;> cases r <;> simp <;> omega
  obtain ⟨he, he3⟩ := hce
  have hdig : Digits53 (left rd (cell rd 0 1 N k m o)) := h.digits _
  have hU : upperRight rd (cell rd 0 1 N k m o) = 1 := by
    unfold upperRight
    change min (right rd (cell rd 0 1 N k m o)) 1 = 1
    rw [min_eq_right]
    norm_num at e2 hw
    linarith
  have hL : lowerLeft rd (cell rd 0 1 N k m o) = left rd (cell rd 0 1 N k m o) := by
    unfold lowerLeft
    change max (left rd (cell rd 0 1 N k m o)) 0 = _
    rw [max_eq_left]
    norm_num at e1 hw
    linarith
  have hb := contains_bounds h htol (by refine htol'.trans ?_; norm_num) (by
    change node rd 0 1 N k < node rd 0 1 N (k + 1)
    rw [abs_le] at hlo hhi
    norm_num at hlo hhi hw
    linarith) hc
  change node rd 0 1 N k - 4 * tol * (node rd 0 1 N (k + 1) - node rd 0 1 N k) ≤ x ∧ _ at hb
  replace hb := hb.1
  have hnode : ∀ i, localNode rd ⟨0, 1, N, m, o⟩ k i = rd (left rd (cell rd 0 1 N k m o) +
      rd (i * rd ((1 - left rd (cell rd 0 1 N k m o)) / localCells rd ⟨0, 1, N, m, o⟩ k))) := by
    intro i
    unfold localNode node
    rw [hin, hU, hL, nearest_exact h (r := 1 - left rd (cell rd 0 1 N k m o))]
    refine digits_one_sub hdig ?_ ?_
    · norm_num at e1 hw
      linarith
    · norm_num at e1 hw
      linarith
  have hnode0 : localNode rd ⟨0, 1, N, m, o⟩ k 0 = left rd (cell rd 0 1 N k m o) := by
    rw [hnode, Nat.cast_zero, zero_mul, rd_zero h, add_zero, nearest_exact h hdig]
  have heq : (0 : ℚ) < localCells rd ⟨0, 1, N, m, o⟩ k := by exact_mod_cast he
  have he3q : (localCells rd ⟨0, 1, N, m, o⟩ k : ℚ) ≤ 3 * m := by exact_mod_cast he3
  have htol0 : 0 < tol := lt_of_lt_of_le (by norm_num) htol
  have hthl : 4 * tol * (node rd 0 1 N (k + 1) - node rd 0 1 N k) ≤ 4 * (1 / 2 ^ 44) * 1 := by
    have : node rd 0 1 N (k + 1) - node rd 0 1 N k ≤ 1 := by linarith
    rw [abs_le] at hlo hhi
    refine mul_le_mul (by linarith) this ?_ (by norm_num)
    norm_num at hlo hhi hw
    linarith
  have hgap : (m : ℚ) * w ≤ 1 - left rd (cell rd 0 1 N k m o) := by
    norm_num at e1 hw
    linarith
  have hw0 : 0 < w := lt_of_lt_of_le (by norm_num) hw
  have hmw0 : 0 < (m : ℚ) * w := by positivity
  have hyw : w / 3 ≤ (1 - left rd (cell rd 0 1 N k m o)) / localCells rd ⟨0, 1, N, m, o⟩ k := by
    rw [div_le_div_iff₀ (by norm_num) heq]
    have : w * localCells rd ⟨0, 1, N, m, o⟩ k ≤ w * (3 * m) := mul_le_mul_of_nonneg_left he3q hw0.le
    linarith
  refine C97_no_gaps h htol0 _ k he ?_ ?_ ?_
  · rw [hnode0, hnode, Nat.cast_one, one_mul, rd_rd h]
    refine first_step h ?_ ?_ ?_
    · norm_num at e1 hw
      linarith
    · linarith
    · refine le_trans ?_ hyw
      norm_num at hw ⊢
      linarith
  · rw [hnode0]
    rw [abs_le] at hlo
    norm_num at e1 hw hthl hlo
    linarith
  · rw [hnode]
    refine hx.trans (last_one h heq (by linarith) ?_)
    norm_num at e1 hw ⊢
    linarith

end

/-- **C97** (oversampling, partial) On the unit cube, in every rounding to nearest, with at most 60 coarse cells, at least one layer and fewer layers
than micro cells in every direction, and local grids that reach over less than a quarter of the domain (as with at least 8 coarse cells): the search
for the corners of every fine element succeeds, the coarse cell is the one in which the fine element lies, and every corner gets an element
of its local grid that contains it. -/
theorem C97_oversampled_partial {d : ℕ} {rd : ℚ → ℚ} (h : Nearest rd) {tol : ℚ} (htol : 1 / 2 ^ 46 ≤ tol) (htol' : tol ≤ 1 / 2 ^ 44)
    (N m o : Fin d → ℕ) (hN : ∀ i, N i ≤ 60) (ho : ∀ i, 0 < o i) (hom : ∀ i, o i < m i) (hsize : ∀ i, N i * m i ≤ 2 ^ 40)
    (hquarter : ∀ i, 4 * (m i + o i) < N i * m i) {n viewSize : ℕ} {index : ℕ → Fin d → ℕ} (hrange : ∀ c < n, ∀ i, index c i < N i)
    (hall : ∀ K : Fin d → ℕ, (∀ i, K i < N i) → ∃ c < n, index c = K)
    {pick : ℕ → (Fin d → ℚ) → Option (Fin d → ℕ)} (hp : Picks rd tol (fun i => ⟨0, 1, N i, m i, o i⟩) index pick)
    (hv : 2 ≤ viewSize) (J : Fin d → ℕ) (hJ : ∀ i, J i < N i * m i) (s : Search.State)
    (hs : Search.Reachable (env rd tol (fun i => ⟨0, 1, N i, m i, o i⟩) n viewSize index pick) s) :
    ∃ (es : List (Fin d → ℕ)) (s' : Search.State) (c : ℕ),
      Search.call (env rd tol (fun i => ⟨0, 1, N i, m i, o i⟩) n viewSize index pick) s
        (points rd (fun i => ⟨0, 1, N i, m i, o i⟩) J) = .ok (es.map some) s' ∧
      s'.current = some c ∧ (∀ i, index c i = J i / m i) ∧
      List.Forall₂ (fun e x => Holds rd tol (fun i => ⟨0, 1, N i, m i, o i⟩) (index c) e x) es
        (points rd (fun i => ⟨0, 1, N i, m i, o i⟩) J) := by
  have hn8 : ∀ i, 8 ≤ N i * m i := fun i => by have := hquarter i; have := hom i; have := ho i; omega
  have htol49 : 1 / 2 ^ 49 ≤ tol := le_trans (by norm_num) htol
  have hmem : ∀ x, x ∈ points rd (fun i => ⟨0, 1, N i, m i, o i⟩) J ↔
      ∃ t < 2 ^ d, x = fun i : Fin d => point rd ⟨0, 1, N i, m i, o i⟩ (J i) (t.testBit i) := by
    intro x
    unfold points
    rw [List.mem_map]
    constructor
    · rintro ⟨t, ht, rfl⟩; exact ⟨t, List.mem_range.mp ht, rfl⟩
    · rintro ⟨t, ht, rfl⟩; exact ⟨t, List.mem_range.mpr ht, rfl⟩
  have hcov : ∀ c < n, ((env rd tol (fun i => ⟨0, 1, N i, m i, o i⟩) n viewSize index pick).covers c
      (points rd (fun i => ⟨0, 1, N i, m i, o i⟩) J) = true ↔ ∀ i, index c i = J i / m i) := by
    intro c hc
    rw [env_covers_iff]
    constructor
    · intro hcc i
      have h0 := hcc _ ((hmem _).mpr ⟨0, by positivity, rfl⟩) i
      have h1 := hcc _ ((hmem _).mpr ⟨2 ^ d - 1, Nat.sub_lt (by positivity) one_pos, rfl⟩) i
      rw [Nat.zero_testBit] at h0
      rw [Nat.testBit_two_pow_sub_one, decide_eq_true i.isLt] at h1
      exact unit_cell h htol49 htol' (hsize i) (hn8 i) (hJ i) (hrange c hc i) h0 h1
    · intro hi x hx i
      obtain ⟨t, -, rfl⟩ := (hmem x).mp hx
      rw [hi i]
      exact unit_covers h htol htol' (hN i) (hsize i) (hJ i) _
  have hcomp : Search.LocalSearchComplete (env rd tol (fun i => ⟨0, 1, N i, m i, o i⟩) n viewSize index pick)
      (fun c e x => Holds rd tol (fun i => ⟨0, 1, N i, m i, o i⟩) (index c) e x)
      (points rd (fun i => ⟨0, 1, N i, m i, o i⟩) J) := by
    refine complete_of hp fun c hc hcc x hx => ?_
    have hcx := env_covers_iff.mp hcc x hx
    obtain ⟨t, -, rfl⟩ := (hmem x).mp hx
    have : ∀ i, ∃ e < localCells rd ⟨0, 1, N i, m i, o i⟩ (index c i),
        localContains rd tol ⟨0, 1, N i, m i, o i⟩ (index c i) e (point rd ⟨0, 1, N i, m i, o i⟩ (J i) (t.testBit i)) = true := by
      intro i
      obtain ⟨-, p0, p1⟩ := unit_point h (o := o i) (hn8 i) (hJ i) (t.testBit i)
      have hlt := hrange c hc i
      rcases Nat.lt_or_ge (index c i + 1) (N i) with hl | hl
      · exact found_layers h (ho i) (hom i) (hsize i) hl htol49 htol' p0 (hcx i)
      · exact found_last h (ho i) (hom i) (hsize i) (hquarter i) (by omega) htol49 htol' p1 (hcx i)
    choose e he using this
    exact ⟨e, he⟩
  obtain ⟨c, hc, hcK⟩ := hall (fun i => J i / m i) fun i => by
    rw [Nat.div_lt_iff_lt_mul (by have := hom i; omega)]; exact hJ i
  obtain ⟨ents, s', hcall⟩ := Search.C09_succeeds _ _ hv (lt_of_le_of_lt (Nat.zero_le c) hc) s hs _ hcomp
    ⟨c, hc, (hcov c hc).mpr fun i => by rw [hcK]⟩
  have hne : points rd (fun i => ⟨0, 1, N i, m i, o i⟩) J ≠ [] := List.ne_nil_of_mem ((hmem _).mpr ⟨0, by positivity, rfl⟩)
  obtain ⟨c', es, g1, g2, g3, g4, g5⟩ := Search.C08_search_elements _ _ s s' _ ents hne hcomp hcall
  exact ⟨es, s', c', by rw [hcall, g4], g1, (hcov c' g2).mp g3, g5⟩

/-- The configuration `p_large` with one layer, in three dimensions: the element for which the search fails without layers is found. -/
example (s : Search.State) (index : ℕ → Fin 3 → ℕ) (hrange : ∀ c < 8000, ∀ i, index c i < 20)
    (hall : ∀ K : Fin 3 → ℕ, (∀ i, K i < 20) → ∃ c < 8000, index c = K)
    (hs : Search.Reachable (env double doubleTol (fun _ => ⟨0, 1, 20, 40, 1⟩) 8000 8000 index
      (firstPick double doubleTol (fun _ => ⟨0, 1, 20, 40, 1⟩) index)) s) :
    ∃ (es : List (Fin 3 → ℕ)) (s' : Search.State) (c : ℕ), Search.call (env double doubleTol (fun _ => ⟨0, 1, 20, 40, 1⟩) 8000 8000 index
      (firstPick double doubleTol (fun _ => ⟨0, 1, 20, 40, 1⟩) index)) s
      (points double (fun _ => ⟨0, 1, 20, 40, 1⟩) fun _ => 120) = .ok (es.map some) s' ∧ s'.current = some c ∧ ∀ i, index c i = 3 := by
  obtain ⟨es, s', c, h1, h2, h3, -⟩ := C97_oversampled_partial (d := 3) double_nearest (show 1 / 2 ^ 46 ≤ doubleTol by norm_num [doubleTol])
    doubleTol_bounds.2 (fun _ => 20) (fun _ => 40) (fun _ => 1) (by simp) (by simp) (by simp) (by norm_num) (by norm_num) hrange hall
    firstPick_picks (by norm_num) (fun _ => 120) (by norm_num) s hs
  exact ⟨es, s', c, h1, h2, h3⟩

/-- The configuration `p_huge` with one layer: the element for which the search fails without layers is found. -/
example (s : Search.State) (index : ℕ → Fin 2 → ℕ) (hrange : ∀ c < 1600, ∀ i, index c i < 40)
    (hall : ∀ K : Fin 2 → ℕ, (∀ i, K i < 40) → ∃ c < 1600, index c = K)
    (hs : Search.Reachable (env double doubleTol (fun _ => ⟨0, 1, 40, 120, 1⟩) 1600 1600 index
      (firstPick double doubleTol (fun _ => ⟨0, 1, 40, 120, 1⟩) index)) s) :
    ∃ (es : List (Fin 2 → ℕ)) (s' : Search.State) (c : ℕ), Search.call (env double doubleTol (fun _ => ⟨0, 1, 40, 120, 1⟩) 1600 1600 index
      (firstPick double doubleTol (fun _ => ⟨0, 1, 40, 120, 1⟩) index)) s
      (points double (fun _ => ⟨0, 1, 40, 120, 1⟩) fun _ => 4199) = .ok (es.map some) s' ∧ s'.current = some c ∧ ∀ i, index c i = 34 := by
  obtain ⟨es, s', c, h1, h2, h3, -⟩ := C97_oversampled_partial (d := 2) double_nearest (show 1 / 2 ^ 46 ≤ doubleTol by norm_num [doubleTol])
    doubleTol_bounds.2 (fun _ => 40) (fun _ => 120) (fun _ => 1) (by simp) (by simp) (by simp) (by norm_num) (by norm_num) hrange hall
    firstPick_picks (by norm_num) (fun _ => 4199) (by norm_num) s hs
  exact ⟨es, s', c, h1, h2, h3⟩

end Verif.RoundedSearch
