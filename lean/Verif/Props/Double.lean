import Verif.Spec.Binary
import Verif.Props.RoundedGrid
import Verif.Props.GridCreation
import Verif.Props.Permeability
import Verif.Props.CellCounts
import Verif.Props.LayerCount

/-!
# Double precision meets the contracts for rounding

The theorems on C05, C06, C39, C41, C77 and C94 hold for every rounding with certain properties. Here these properties are proved for
rounding to a nearest number with 53 binary digits, so that none of these theorems rests on an assumption about the hardware beyond
that.
-/

namespace Verif.Double
open Verif.Spec Verif.Spec.Binary Verif.RoundedGrid

theorem two_zpow_pos (j : ℤ) : (0 : ℚ) < 2 ^ j := zpow_pos (by norm_num) j

theorem double_grid {x : ℚ} (hx : x ≠ 0) (k : ℤ) :
    |x - double x| ≤ |x - k * 2 ^ (Int.log 2 |x| - 52)| := by
  have hp := two_zpow_pos (Int.log 2 |x| - 52)
  rw [double, if_neg hx, Printing.abs_scaled hp, Printing.abs_scaled hp]
  exact mul_le_mul_of_nonneg_right (Printing.roundEven_best _ _) hp.le

/-- `double` rounds to a nearest number. -/
theorem double_best (x : ℚ) {r : ℚ} (hr : Digits53 r) : |x - double x| ≤ |x - r| := by
  by_cases hx : x = 0
  · rw [hx, double, if_pos rfl, sub_self, abs_zero]; exact abs_nonneg _
  obtain ⟨k, j, hk, rfl⟩ := hr
  have hx' : 0 < |x| := abs_pos.mpr hx
  have hlog := Int.zpow_log_le_self (R := ℚ) (b := 2) (by norm_num) hx'
  push_cast at hlog
  have hk' : |(k : ℚ)| ≤ 2 ^ 53 := by exact_mod_cast hk
  by_cases hj : Int.log 2 |x| - 52 ≤ j
  · obtain ⟨n, hn⟩ := Int.eq_ofNat_of_zero_le (by omega : 0 ≤ j - (Int.log 2 |x| - 52))
    have h := double_grid hx (k * 2 ^ n)
    have he : ((k * 2 ^ n : ℤ) : ℚ) * 2 ^ (Int.log 2 |x| - 52) = k * 2 ^ j := by
      have hj' : j = n + (Int.log 2 |x| - 52) := by omega
      rw [hj', zpow_add₀ (by norm_num)]
      push_cast
      rw [zpow_natCast]
      ring
    rwa [he] at h
  · -- the power of two towards zero is nearer
    have hsmall : |(k : ℚ) * 2 ^ j| ≤ 2 ^ Int.log 2 |x| := by
      rw [abs_mul, abs_of_pos (two_zpow_pos j)]
      have h1 : (2 : ℚ) ^ j ≤ 2 ^ (Int.log 2 |x| - 53) := zpow_le_zpow_right₀ (by norm_num) (by omega)
      calc |(k : ℚ)| * 2 ^ j ≤ 2 ^ 53 * 2 ^ (Int.log 2 |x| - 53) := by gcongr
        _ = 2 ^ Int.log 2 |x| := by
          rw [← zpow_natCast, ← zpow_add₀ (by norm_num)]; congr 1; push_cast; ring
    have he : ((2 ^ 52 : ℤ) : ℚ) * 2 ^ (Int.log 2 |x| - 52) = 2 ^ Int.log 2 |x| := by
      rw [show ((2 ^ 52 : ℤ) : ℚ) = 2 ^ (52 : ℤ) by norm_num, ← zpow_add₀ (by norm_num)]; congr 1; ring
    have hdist := abs_sub_abs_le_abs_sub x ((k : ℚ) * 2 ^ j)
    rcases lt_or_gt_of_ne hx with hneg | hpos
    · have h := double_grid hx (-2 ^ 52)
      have he' : ((-2 ^ 52 : ℤ) : ℚ) * 2 ^ (Int.log 2 |x| - 52) = -2 ^ Int.log 2 |x| := by
        rw [← he]; push_cast; ring
      rw [he'] at h
      rw [abs_of_neg hneg] at hlog hdist hsmall h
      have h2 : |x - -2 ^ Int.log 2 (-x)| = -x - 2 ^ Int.log 2 (-x) := by
        rw [abs_of_nonpos (by linarith)]; ring
      rw [h2] at h
      linarith
    · have h := double_grid hx (2 ^ 52)
      rw [he] at h
      rw [abs_of_pos hpos] at hlog hdist hsmall h
      rw [abs_of_nonneg (by linarith : 0 ≤ x - 2 ^ Int.log 2 x)] at h
      linarith

theorem double_digits (x : ℚ) : Digits53 (double x) := by
  by_cases hx : x = 0
  · exact ⟨0, 0, by norm_num, by rw [double, if_pos hx]; norm_num⟩
  refine ⟨Printing.roundEven (x / 2 ^ (Int.log 2 |x| - 52)), Int.log 2 |x| - 52, ?_, by rw [double, if_neg hx]⟩
  have hlt := Int.lt_zpow_succ_log_self (R := ℚ) (b := 2) (by norm_num) |x|
  push_cast at hlt
  have hp := two_zpow_pos (Int.log 2 |x| - 52)
  have h1 : |x / 2 ^ (Int.log 2 |x| - 52)| < 2 ^ 53 := by
    rw [abs_div, abs_of_pos hp, div_lt_iff₀ hp]
    calc |x| < 2 ^ (Int.log 2 |x| + 1) := hlt
      _ = 2 ^ 53 * 2 ^ (Int.log 2 |x| - 52) := by
        rw [← zpow_natCast, ← zpow_add₀ (by norm_num)]; congr 1; push_cast; ring
  obtain ⟨h2, h3⟩ := abs_lt.mp h1
  obtain ⟨h4, h5⟩ := Printing.roundEven_bounds (a := -2 ^ 53) (b := 2 ^ 53) (by push_cast; linarith) (by push_cast; linarith)
  exact abs_le.mpr ⟨h4, h5⟩

/-- `double` rounds to a nearest number with 53 binary digits. -/
theorem double_nearest : Nearest double := ⟨double_digits, fun x _ => double_best x⟩

section
variable {rd : ℚ → ℚ} (h : Nearest rd)
include h

/-- Numbers with 53 digits are kept. -/
theorem nearest_exact {r : ℚ} (hr : Digits53 r) : rd r = r := by
  have := h.best r r hr
  rw [sub_self, abs_zero] at this
  linarith [abs_eq_zero.mp (le_antisymm this (abs_nonneg _))]

theorem nearest_monotone : Monotone rd := by
  intro x y hxy
  rcases eq_or_lt_of_le hxy with rfl | hlt
  · exact le_rfl
  by_contra hcon
  rw [not_le] at hcon
  have e1 := sq_le_sq.mpr (h.best x _ (h.digits y))
  have e2 := sq_le_sq.mpr (h.best y _ (h.digits x))
  nlinarith [mul_pos (sub_pos.mpr hlt) (sub_pos.mpr hcon)]

theorem nearest_int (z : ℤ) (hz : |z| ≤ 2 ^ 53) : rd z = z := nearest_exact h ⟨z, 0, hz, by simp⟩

theorem nearest_nat (n : ℕ) (hn : n ≤ 2 ^ 53) : rd n = n := by
  have := nearest_int h n (by rw [abs_of_nonneg (by positivity)]; exact_mod_cast hn)
  simpa using this

/-- Every rounding to a nearest number has the relative error of double precision. -/
theorem nearest_accurate : Accurate (1 / 2 ^ 53) rd := by
  intro x
  refine le_trans ?_ (double_accurate x)
  rw [abs_sub_comm, abs_sub_comm (double x)]
  exact h.best x _ (double_digits x)

/-- The contract of Props/Permeability. -/
theorem nearest_monotoneRounding : MonotoneRounding rd := ⟨nearest_monotone h, nearest_nat h⟩

/-- The contract of Props/GridCreation. -/
theorem nearest_rounding : GridCreation.Rounding rd where
  rel x hx _ := by
    have h0 : 0 < x := lt_of_lt_of_le (zpow_pos (by norm_num) _) hx
    have := nearest_accurate h x
    rw [abs_of_pos h0] at this
    refine this.trans (le_of_eq ?_)
    congr 1
    rw [zpow_neg, one_div]
    norm_cast
  int := nearest_nat h

/-- **C05** for rounding to nearest: the least number of coarse layers that hold the requested ones. -/
theorem C05_double (o m : ℕ) (ho : o < 2 ^ 31) (hm : 1 ≤ m) (hm' : m ≤ 2 ^ 31) :
    ∃ k : ℕ, GridCreation.coarseOverlap rd o m = k ∧ IsLeast {k : ℕ | o ≤ k * m} k :=
  GridCreation.C05_coarse_overlap_least rd (nearest_rounding h) o m ho hm hm'

/-- **C06** for rounding to nearest: the coarse grid is refused exactly if two directions need different numbers of coarse layers. -/
theorem C06_double {d : ℕ} (p : GridCreation.Params (d + 1)) (ho : p.oversamplingLayers < 2 ^ 31)
    (hm : ∀ i, 1 ≤ p.microPerMacro i ∧ p.microPerMacro i ≤ 2 ^ 31) :
    GridCreation.yaspCoarse rd p = .throw ↔ ∃ i j k l,
      IsLeast {k : ℕ | p.oversamplingLayers ≤ k * p.microPerMacro i} k ∧
      IsLeast {k : ℕ | p.oversamplingLayers ≤ k * p.microPerMacro j} l ∧ k ≠ l :=
  (GridCreation.C06_coarse_grid rd (nearest_rounding h) p ho hm).1

/-- **C39** for rounding to nearest: the number converted to `size_t` is between 0 and the number of cells. -/
theorem C39_double (x : Fin 3 → ℚ) (hx : x ∈ box Permeability.spe10Lower Permeability.spe10Upper) (d : Fin 3) :
    let q := rd (Permeability.spe10Elements d * rd (rd (x d - Permeability.spe10Lower d) /
      rd (Permeability.spe10Upper d - Permeability.spe10Lower d)))
    0 ≤ q ∧ q ≤ Permeability.spe10Elements d :=
  Permeability.C39_conversion_defined rd (nearest_monotoneRounding h) x hx d

theorem partition_rounded {ne n c : ℕ} (hne : 0 < ne) (hne' : ne ≤ 220) (hn : 0 < n) (hn' : n ≤ 5) {x : ℚ} (hx0 : 0 ≤ x) (hx1 : x ≤ n)
    (hc : c < ne) (hlo : c = 0 ∨ c + 1 / 2 ^ 43 ≤ ne * x / n) (hhi : c + 1 = ne ∨ ne * x / n ≤ c + 1 - 1 / 2 ^ 43) :
    Permeability.whichPartition rd ne 0 n x = c := by
  have hmono := nearest_monotone h
  have hnq : (0 : ℚ) < n := by exact_mod_cast hn
  have hneq : (0 : ℚ) < ne := by exact_mod_cast hne
  have r0 : rd 0 = 0 := by simpa using nearest_nat h 0 (by norm_num)
  have rn : rd (n : ℚ) = n := nearest_nat h n (by omega)
  unfold Permeability.whichPartition
  rw [sub_zero, sub_zero, rn]
  have a0 := nearest_accurate h x
  have p0 : 0 ≤ rd x := by rw [← r0]; exact hmono hx0
  rw [abs_of_nonneg hx0] at a0
  generalize rd x = u at *
  have hu : 0 ≤ u / n := by positivity
  have a1 := nearest_accurate h (u / n)
  have p1 : 0 ≤ rd (u / n) := by rw [← r0]; exact hmono hu
  rw [abs_of_nonneg hu] at a1
  generalize rd (u / n) = v at *
  have hv : 0 ≤ ne * v := by positivity
  have a2 := nearest_accurate h (ne * v)
  have p2 : 0 ≤ rd (ne * v) := by rw [← r0]; exact hmono hv
  rw [abs_of_nonneg hv] at a2
  generalize rd (ne * v) = y at *
  -- accumulated error
  have b0 := abs_le.mp a0
  have b1 := abs_le.mp a1
  have b2 := abs_le.mp a2
  have hxn : x / n ≤ 1 := by rw [div_le_one hnq]; exact hx1
  have hxn0 : 0 ≤ x / n := by positivity
  have c1 : |u / n - x / n| ≤ 1 / 2 ^ 53 * (x / n) := by
    rw [← sub_div, abs_div, abs_of_pos hnq, ← mul_div_assoc]
    exact div_le_div_of_nonneg_right a0 hnq.le
  obtain ⟨c2, c3⟩ := abs_le.mp c1
  generalize u / n = u' at *
  have hxq : (ne : ℚ) * x / n = ne * (x / n) := by ring
  rw [hxq] at hlo hhi
  generalize x / n = x' at *
  have d1 : |v - x'| ≤ 3 / 2 ^ 53 := by
    rw [abs_le]
    norm_num at *
    constructor <;> linarith
  have hne220 : (ne : ℚ) ≤ 220 := by exact_mod_cast hne'
  obtain ⟨d2, d3⟩ := abs_le.mp d1
  have d4 : |ne * v - ne * x'| ≤ 220 * (3 / 2 ^ 53) := by
    rw [← mul_sub, abs_mul, abs_of_pos hneq]
    exact mul_le_mul hne220 d1 (abs_nonneg _) (by norm_num)
  obtain ⟨d5, d6⟩ := abs_le.mp d4
  have d7 : ne * x' ≤ 220 := by nlinarith
  have e1 : |y - ne * x'| < 1 / 2 ^ 43 := by
    rw [abs_lt]
    norm_num at *
    constructor <;> linarith
  obtain ⟨e2, e3⟩ := abs_lt.mp e1
  have f1 : (c : ℤ) ≤ ⌊y⌋ := by
    rw [Int.le_floor]
    rcases hlo with rfl | hlo
    · simpa using p2
    · push_cast; linarith
  rcases hhi with hhi | hhi
  · omega
  · have f2 : ⌊y⌋ < (c : ℤ) + 1 := by
      rw [Int.floor_lt]
      push_cast
      linarith
    omega

/-- **C39** for rounding to nearest: the lookups read the entry of the raster cell which contains the point, for all points at least `2^-43` times
the width of a cell away from the inner faces of the cell. -/
theorem C39_right_cell_double (x : Fin 3 → ℚ) (hx : x ∈ box Permeability.spe10Lower Permeability.spe10Upper) (c : Fin 3 → ℕ)
    (hc : ∀ d, c d < Permeability.spe10Elements d)
    (hlo : ∀ d, c d = 0 ∨ c d + 1 / 2 ^ 43 ≤ Permeability.spe10Elements d * x d / Permeability.spe10Upper d)
    (hhi : ∀ d, c d + 1 = Permeability.spe10Elements d ∨
      Permeability.spe10Elements d * x d / Permeability.spe10Upper d ≤ c d + 1 - 1 / 2 ^ 43) (d : Fin 3) :
    Permeability.spe10Entry rd x d = d.1 * Permeability.entriesPerDim + (c 0 + 60 * c 1 + 13200 * c 2) := by
  have key : ∀ d, Permeability.whichPartition rd (Permeability.spe10Elements d) (Permeability.spe10Lower d)
      (Permeability.spe10Upper d) (x d) = c d := by
    intro d
    obtain ⟨hl, n, hn, hn5, hu⟩ := Permeability.spe10_box d
    have hlo' := hlo d
    have hhi' := hhi d
    obtain ⟨h0, h1⟩ := hx d
    rw [hl] at h0 ⊢
    rw [hu] at h1 hlo' hhi' ⊢
    exact partition_rounded h (Permeability.spe10_elements d).1 (Permeability.spe10_elements d).2 hn hn5 h0 h1 (hc d) hlo' hhi'
  have hs : Permeability.spe10Subdomain rd x = c 0 + 60 * c 1 + 13200 * c 2 := by
    have e0 : Permeability.spe10Elements 0 = 60 := rfl
    have e1 : Permeability.spe10Elements 1 = 220 := rfl
    unfold Permeability.spe10Subdomain
    simp only [key]
    rw [e0, e1]
    ring
  match d with
  | 0 => simp only [Permeability.spe10Entry, hs]; simp
  | 1 => simp only [Permeability.spe10Entry, hs]; simp
  | 2 => simp only [Permeability.spe10Entry, hs]; simp

/-- **C77** for rounding to nearest: integer numbers of cells always fit together. -/
theorem C77_double {a b : ℚ} (hab : a < b) {c m : ℕ} (hc : 0 < c) (hm : 0 < m) (hcm : c * m < 2 ^ 32) :
    CellCounts.fineCount rd c m = .ok (c * m) ∧ CellCounts.localCount rd m 0 0 = .ok m ∧
      CellCounts.Fit a b (CellCounts.coarseCount c) (CellCounts.fineCount rd c m) (CellCounts.localCount rd m 0 0) :=
  (CellCounts.C77_integers hab rd (fun n hn => nearest_nat h n (by omega)) hc hm hcm).2

/-- **C94** for rounding to nearest: negative numbers of layers. -/
theorem C94_double (k m : ℕ) (hm : 0 < m) (hm' : m < 2 ^ 32) :
    LayerCount.overlap rd (-(k : ℤ)) m = if k < m then .ok 0 else .ub := by
  refine LayerCount.C94_overlap rd (fun x hx => ?_) (fun x hx => ?_) (nearest_accurate h) k m hm hm'
  · have := nearest_monotone h hx
    rwa [show rd 0 = 0 by simpa using nearest_int h 0 (by norm_num)] at this
  · have := nearest_monotone h hx
    rwa [show rd (-1) = -1 by simpa using nearest_int h (-1) (by norm_num)] at this

end

/-- Without the distance this fails: `0.3` in double precision is below the face of cells 8 and 9 of the first direction, and is looked up in
cell 9. -/
theorem C39_face : Permeability.whichPartition double 60 0 2 (double (3 / 10)) = 9 ∧ 60 * double (3 / 10) / 2 < 9 := by
  constructor <;> decide +kernel

/-- Instance of `C39_right_cell_double`: the cells (8, 0, 84). -/
example (d : Fin 3) : Permeability.spe10Entry double ![299 / 1000, 0, 1] d = d.1 * Permeability.entriesPerDim + (8 + 60 * 0 + 13200 * 84) := by
  refine C39_right_cell_double double_nearest _ ?_ ![8, 0, 84] (by decide) ?_ ?_ d
  · intro d
    match d with
    | 0 => exact ⟨show (0 : ℚ) ≤ 299 / 1000 by norm_num, show (299 / 1000 : ℚ) ≤ 2 by norm_num⟩
    | 1 => exact ⟨show (0 : ℚ) ≤ 0 by norm_num, show (0 : ℚ) ≤ 5 by norm_num⟩
    | 2 => exact ⟨show (0 : ℚ) ≤ 1 by norm_num, show (1 : ℚ) ≤ 1 by norm_num⟩
  · intro d
    match d with
    | 0 => exact Or.inr (show ((8 : ℕ) : ℚ) + 1 / 2 ^ 43 ≤ ((60 : ℕ) : ℚ) * (299 / 1000) / 2 by norm_num)
    | 1 => exact Or.inl rfl
    | 2 => exact Or.inr (show ((84 : ℕ) : ℚ) + 1 / 2 ^ 43 ≤ ((85 : ℕ) : ℚ) * 1 / 1 by norm_num)
  · intro d
    match d with
    | 0 => exact Or.inr (show ((60 : ℕ) : ℚ) * (299 / 1000) / 2 ≤ ((8 : ℕ) : ℚ) + 1 - 1 / 2 ^ 43 by norm_num)
    | 1 => exact Or.inr (show ((220 : ℕ) : ℚ) * 0 / 5 ≤ ((0 : ℕ) : ℚ) + 1 - 1 / 2 ^ 43 by norm_num)
    | 2 => exact Or.inl rfl

/-- Instances: overlaps and cell numbers in double precision. -/
example : LayerCount.overlap double (-7) 8 = .ok 0 ∧ LayerCount.overlap double (-8) 8 = .ub ∧
    CellCounts.fineCount double 20 40 = .ok 800 :=
  ⟨C94_double double_nearest 7 8 (by norm_num) (by norm_num), C94_double double_nearest 8 8 (by norm_num) (by norm_num),
    (C77_double double_nearest (a := 0) (b := 1) (by norm_num) (c := 20) (m := 40) (by norm_num) (by norm_num) (by norm_num)).1⟩

end Verif.Double
