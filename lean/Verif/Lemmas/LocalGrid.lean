import Verif.Model.LocalGrid
import Mathlib.Tactic.FieldSimp
import Mathlib.Tactic.Ring
import Mathlib.Tactic.Positivity
import Mathlib.Tactic.NormNum
import Mathlib.Tactic.Push

namespace Verif.LocalGrid

theorem DirInput.delta_pos {c : DirInput} (hmm : c.min < c.max) (hm : 1 ≤ c.microPerMacro) :
    0 < c.delta := by
  unfold DirInput.delta
  have : (0 : ℚ) < c.microPerMacro := by exact_mod_cast hm
  exact div_pos (by linarith) this

section coarse
variable {a b : ℚ} {N k m o : ℕ}

theorem delta_coarseCell : (coarseCell a b N k m o).delta = (b - a) / ((N : ℚ) * m) := by
  simp only [DirInput.delta, coarseCell]
  rw [← div_div]
  ring

/-- fine mesh width is positive -/
theorem width_pos (hab : a < b) (hN : 0 < N) (hm : 0 < m) : 0 < (b - a) / ((N : ℚ) * m) := by
  have h1 : (0 : ℚ) < N := by exact_mod_cast hN
  have h2 : (0 : ℚ) < m := by exact_mod_cast hm
  have : 0 < b - a := by linarith
  positivity

theorem coarse_width (hm : 0 < m) : (b - a) / (N : ℚ) = m * ((b - a) / ((N : ℚ) * m)) := by
  have h2 : (m : ℚ) ≠ 0 := by positivity
  by_cases hN : (N : ℚ) = 0
  · simp [hN]
  · field_simp

theorem total_width (hN : 0 < N) (hm : 0 < m) : b = a + (N : ℚ) * m * ((b - a) / ((N : ℚ) * m)) := by
  have h1 : (N : ℚ) ≠ 0 := by positivity
  have h2 : (m : ℚ) ≠ 0 := by positivity
  field_simp
  ring

theorem min_coarseCell (hm : 0 < m) :
    (coarseCell a b N k m o).min = a + ((k : ℚ) * m) * ((b - a) / ((N : ℚ) * m)) := by
  simp only [coarseCell]
  rw [coarse_width hm]; ring

theorem max_coarseCell (hm : 0 < m) :
    (coarseCell a b N k m o).max = a + (((k : ℚ) + 1) * m) * ((b - a) / ((N : ℚ) * m)) := by
  simp only [coarseCell]
  rw [coarse_width hm]; ring

theorem exceedsLeft_coarseCell (hab : a < b) (hN : 0 < N) (hm : 0 < m) :
    (coarseCell a b N k m o).exceedsLeft = decide (k * m < o) := by
  unfold DirInput.exceedsLeft
  rw [min_coarseCell hm, delta_coarseCell]
  have hw := width_pos hab hN hm
  simp only [coarseCell]
  generalize (b - a) / ((N : ℚ) * m) = w at hw
  congr 1
  rw [eq_iff_iff]
  constructor
  · intro h
    have : ((k : ℚ) * m) * w < o * w := by linarith
    have := lt_of_mul_lt_mul_right this hw.le
    exact_mod_cast this
  · intro h
    have h' : ((k : ℚ) * m) < o := by exact_mod_cast h
    have := mul_lt_mul_of_pos_right h' hw
    linarith

theorem exceedsRight_coarseCell (hab : a < b) (hN : 0 < N) (hm : 0 < m) :
    (coarseCell a b N k m o).exceedsRight = decide (N * m < (k + 1) * m + o) := by
  unfold DirInput.exceedsRight
  rw [max_coarseCell hm, delta_coarseCell]
  have hw := width_pos hab hN hm
  have ht := total_width (a := a) (b := b) hN hm
  simp only [coarseCell]
  generalize (b - a) / ((N : ℚ) * m) = w at hw ht
  congr 1
  rw [eq_iff_iff, gt_iff_lt]
  constructor
  · intro h
    have : ((N : ℚ) * m) * w < (((k : ℚ) + 1) * m + o) * w := by linarith
    have := lt_of_mul_lt_mul_right this hw.le
    exact_mod_cast this
  · intro h
    have h' : ((N : ℚ) * m) < (((k : ℚ) + 1) * m + o) := by exact_mod_cast h
    have := mul_lt_mul_of_pos_right h' hw
    linarith

theorem lowerLeft_coarseCell (hab : a < b) (hN : 0 < N) (hm : 0 < m) :
    (coarseCell a b N k m o).lowerLeft =
      a + ((k * m - o : ℕ) : ℚ) * ((b - a) / ((N : ℚ) * m)) := by
  unfold DirInput.lowerLeft
  rw [min_coarseCell hm, delta_coarseCell]
  have hw := width_pos hab hN hm
  simp only [coarseCell]
  generalize (b - a) / ((N : ℚ) * m) = w at hw
  by_cases h : o ≤ k * m
  · have h' : (o : ℚ) ≤ (k : ℚ) * m := by exact_mod_cast h
    rw [max_eq_left (by nlinarith [mul_le_mul_of_nonneg_right h' hw.le])]
    push_cast [Nat.cast_sub h]
    ring
  · have h2 : k * m ≤ o := by omega
    have h' : (k : ℚ) * m ≤ o := by exact_mod_cast h2
    rw [max_eq_right (by nlinarith [mul_le_mul_of_nonneg_right h' hw.le])]
    rw [Nat.sub_eq_zero_of_le h2]; simp

theorem upperRight_coarseCell (hab : a < b) (hN : 0 < N) (hm : 0 < m) :
    (coarseCell a b N k m o).upperRight =
      a + ((min ((k + 1) * m + o) (N * m) : ℕ) : ℚ) * ((b - a) / ((N : ℚ) * m)) := by
  unfold DirInput.upperRight
  rw [max_coarseCell hm, delta_coarseCell]
  have hw := width_pos hab hN hm
  have ht := total_width (a := a) (b := b) hN hm
  simp only [coarseCell]
  generalize (b - a) / ((N : ℚ) * m) = w at hw ht
  by_cases h : (k + 1) * m + o ≤ N * m
  · have h' : (((k : ℚ) + 1) * m + o) ≤ (N : ℚ) * m := by exact_mod_cast h
    rw [min_eq_left (a := (k + 1) * m + o) h]
    rw [min_eq_left (by nlinarith [mul_le_mul_of_nonneg_right h' hw.le])]
    push_cast
    ring
  · have h2 : N * m ≤ (k + 1) * m + o := by omega
    have h' : (N : ℚ) * m ≤ (((k : ℚ) + 1) * m + o) := by exact_mod_cast h2
    rw [min_eq_right (a := (k + 1) * m + o) h2]
    rw [min_eq_right (by nlinarith [mul_le_mul_of_nonneg_right h' hw.le])]
    push_cast
    exact ht

theorem elements_coarseCell (hab : a < b) (hN : 0 < N) (hm : 0 < m) :
    (coarseCell a b N k m o).elements =
      m + ((if o ≤ k * m then o else 0) + (if (k + 1) * m + o ≤ N * m then o else 0)) := by
  unfold DirInput.elements
  rw [exceedsLeft_coarseCell hab hN hm, exceedsRight_coarseCell hab hN hm]
  simp only [coarseCell]
  by_cases h1 : k * m < o <;> by_cases h2 : N * m < (k + 1) * m + o <;>
    simp [h1, h2, Nat.not_le.mpr, Nat.not_lt.mp]
  omega

end coarse
end Verif.LocalGrid
