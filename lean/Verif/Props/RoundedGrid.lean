import Verif.Model.RoundedGrid
import Verif.Props.Printing
import Mathlib.Algebra.Order.Group.MinMax
import Mathlib.Tactic.Linarith
import Mathlib.Tactic.NormNum
import Mathlib.Tactic.Ring
import Mathlib.Tactic.FieldSimp
import Mathlib.Tactic.Positivity

/-!
# C96: number of cells of local grids in floating point arithmetic
-/

namespace Verif.RoundedGrid
open Verif.LocalGrid

/-- Specification of rounding: relative error at most `w`. -/
def Accurate (w : ℚ) (rd : ℚ → ℚ) : Prop := ∀ x, |rd x - x| ≤ w * |x|

/-- Double precision rounds with relative error at most `2^-53`. -/
theorem double_accurate : Accurate (1 / 2 ^ 53) double := by
  intro x
  unfold double
  split_ifs with h
  · simp [h]
  have hx : 0 < |x| := abs_pos.mpr h
  have hlog := Int.zpow_log_le_self (R := ℚ) (b := 2) (by norm_num) hx
  push_cast at hlog
  set e := Int.log 2 |x|
  have hp : (0 : ℚ) < 2 ^ (e - 52) := zpow_pos (by norm_num) _
  have h1 := Printing.roundEven_near (x / 2 ^ (e - 52))
  rw [abs_sub_comm, Printing.abs_scaled hp]
  have h2 : (2 : ℚ) ^ (e - 52) = 2 ^ e / 2 ^ 52 := by
    rw [zpow_sub₀ (by norm_num)]; norm_cast
  have h3 := mul_le_mul_of_nonneg_right h1 hp.le
  rw [h2] at h3 ⊢
  have h4 : (2 : ℚ) ^ e / 2 ^ 52 ≤ |x| / 2 ^ 52 := div_le_div_of_nonneg_right hlog (by positivity)
  calc _ ≤ 1 / 2 * ((2 : ℚ) ^ e / 2 ^ 52) := h3
    _ ≤ 1 / 2 * (|x| / 2 ^ 52) := by linarith
    _ = 1 / 2 ^ 53 * |x| := by ring

/-- A coarse cell whose computed coordinates are near the exact ones: cell `k` of `N` on `[a, b]`. -/
structure Near (w a b : ℚ) (N k : ℕ) (c : DirInput) : Prop where
  min : |c.min - (a + k * ((b - a) / N))| ≤ w * (|a| + |b|)
  max : |c.max - (a + (k + 1) * ((b - a) / N))| ≤ w * (|a| + |b|)
  lower : c.globalLowerLeft = a
  upper : c.globalUpperRight = b

section
variable {w a b : ℚ} {N k : ℕ} {rd : ℚ → ℚ} {c : DirInput}

/-- The exact width of the layers around a cell. -/
def exactReach (a b : ℚ) (N m o : ℕ) : ℚ := (o : ℚ) * ((b - a) / N / m)

theorem size_bounds (hab : a < b) (hk : k < N) :
    0 < (b - a) / N ∧ (b - a) / N ≤ |a| + |b| ∧ |a + k * ((b - a) / N)| ≤ |a| + |b| ∧
      |a + (k + 1) * ((b - a) / N)| ≤ |a| + |b| := by
  have hN : (0 : ℚ) < N := by exact_mod_cast (by omega : 0 < N)
  have hN1 : (1 : ℚ) ≤ N := by exact_mod_cast (by omega : 1 ≤ N)
  have hh : 0 < (b - a) / N := div_pos (by linarith) hN
  have hNh : (N : ℚ) * ((b - a) / N) = b - a := by field_simp
  have ha := neg_abs_le a
  have ha' := le_abs_self a
  have hb := le_abs_self b
  have hb' := neg_abs_le b
  have hk0 : (0 : ℚ) ≤ k := by positivity
  have hk1 : (k : ℚ) + 1 ≤ N := by exact_mod_cast (by omega : k + 1 ≤ N)
  have m1 : (k : ℚ) * ((b - a) / N) ≤ b - a := by
    conv_rhs => rw [← hNh]
    exact mul_le_mul_of_nonneg_right (by linarith) hh.le
  have m2 : ((k : ℚ) + 1) * ((b - a) / N) ≤ b - a := by
    conv_rhs => rw [← hNh]
    exact mul_le_mul_of_nonneg_right hk1 hh.le
  have m0 : 0 ≤ (k : ℚ) * ((b - a) / N) := by positivity
  refine ⟨hh, ?_, ?_, ?_⟩
  · have : (b - a) / N ≤ b - a := by
      conv_rhs => rw [← hNh]
      nlinarith
    linarith
  · rw [abs_le]; constructor <;> linarith [abs_nonneg a, abs_nonneg b]
  · rw [abs_le]; constructor <;> nlinarith [abs_nonneg a, abs_nonneg b]

/-- Error of the computed width of the layers. -/
theorem reach_error (hab : a < b) (hk : k < N) (hm : 0 < c.microPerMacro) (hw0 : 0 ≤ w) (hw : w ≤ 1 / 8)
    (hrd : Accurate w rd) (hc : Near w a b N k c) :
    |reach rd c - exactReach a b N c.microPerMacro c.oversampling| ≤
      8 * w * (|a| + |b|) * (c.oversampling / c.microPerMacro) ∧
    |reach rd c| ≤ 2 * (|a| + |b|) * (c.oversampling / c.microPerMacro) := by
  obtain ⟨hh, hhS, -, -⟩ := size_bounds hab hk
  have hmin := hc.min
  have hmax := hc.max
  unfold reach delta exactReach
  set S := |a| + |b|
  set h := (b - a) / N
  have hS : 0 < S := lt_of_lt_of_le hh hhS
  have hmq : (0 : ℚ) < c.microPerMacro := by exact_mod_cast hm
  have hoq : (0 : ℚ) ≤ c.oversampling := by positivity
  generalize (c.microPerMacro : ℚ) = m at *
  generalize (c.oversampling : ℚ) = o at *
  have hwS : 0 ≤ w * S := by positivity
  have hwwS : w * (w * S) ≤ 1 / 8 * (w * S) := mul_le_mul_of_nonneg_right hw hwS
  -- difference of the coordinates
  have e0 : |(c.max - c.min) - h| ≤ 2 * (w * S) := by
    have : (c.max - c.min) - h = (c.max - (a + (k + 1) * h)) - (c.min - (a + k * h)) := by ring
    rw [this]
    exact (abs_sub _ _).trans (by linarith)
  have a0 : |c.max - c.min| ≤ S + 2 * (w * S) := by
    have : c.max - c.min = h + ((c.max - c.min) - h) := by ring
    rw [this]
    refine (abs_add_le _ _).trans ?_
    rw [abs_of_pos hh]
    linarith
  have e1 : |rd (c.max - c.min) - h| ≤ 4 * (w * S) := by
    have : rd (c.max - c.min) - h = (rd (c.max - c.min) - (c.max - c.min)) + ((c.max - c.min) - h) := by ring
    rw [this]
    have h2 := mul_le_mul_of_nonneg_left a0 hw0
    have h3 : w * (S + 2 * (w * S)) = w * S + 2 * (w * (w * S)) := by ring
    refine (abs_add_le _ _).trans ?_
    linarith [hrd (c.max - c.min)]
  have a1 : |rd (c.max - c.min)| ≤ 2 * S := by
    have : rd (c.max - c.min) = h + (rd (c.max - c.min) - h) := by ring
    rw [this]
    refine (abs_add_le _ _).trans ?_
    rw [abs_of_pos hh]
    nlinarith
  generalize rd (c.max - c.min) = d1 at *
  -- width of a cell, times m
  have e2 : |rd (d1 / m) - h / m| ≤ 6 * (w * S) / m := by
    have : rd (d1 / m) - h / m = (rd (d1 / m) - d1 / m) + (d1 - h) / m := by ring
    rw [this]
    refine (abs_add_le _ _).trans ?_
    have h2 := hrd (d1 / m)
    rw [abs_div, abs_of_pos hmq] at h2
    rw [abs_div, abs_of_pos hmq]
    have h3 : w * (|d1| / m) ≤ w * (2 * S / m) :=
      mul_le_mul_of_nonneg_left (div_le_div_of_nonneg_right a1 hmq.le) hw0
    have h4 : |d1 - h| / m ≤ 4 * (w * S) / m := div_le_div_of_nonneg_right e1 hmq.le
    have h5 : 6 * (w * S) / m = w * (2 * S / m) + 4 * (w * S) / m := by ring
    linarith
  have a2 : |rd (d1 / m)| ≤ 2 * S / m := by
    have : rd (d1 / m) = h / m + (rd (d1 / m) - h / m) := by ring
    rw [this]
    refine (abs_add_le _ _).trans ?_
    rw [abs_of_pos (div_pos hh hmq)]
    have h1 : h / m ≤ S / m := div_le_div_of_nonneg_right hhS hmq.le
    have h2 : 6 * (w * S) / m ≤ S / m := div_le_div_of_nonneg_right (by nlinarith) hmq.le
    have h3 : 2 * S / m = S / m + S / m := by ring
    linarith
  generalize rd (d1 / m) = d2 at *
  have e3 : |rd (o * d2) - o * (h / m)| ≤ 8 * w * S * (o / m) := by
    have : rd (o * d2) - o * (h / m) = (rd (o * d2) - o * d2) + o * (d2 - h / m) := by ring
    rw [this]
    refine (abs_add_le _ _).trans ?_
    have h2 := hrd (o * d2)
    rw [abs_mul, abs_of_nonneg hoq] at h2 ⊢
    have h3 : w * (o * |d2|) ≤ w * (o * (2 * S / m)) :=
      mul_le_mul_of_nonneg_left (mul_le_mul_of_nonneg_left a2 hoq) hw0
    have h4 : o * |d2 - h / m| ≤ o * (6 * (w * S) / m) := mul_le_mul_of_nonneg_left e2 hoq
    have h5 : 8 * w * S * (o / m) = w * (o * (2 * S / m)) + o * (6 * (w * S) / m) := by ring
    linarith
  refine ⟨e3, ?_⟩
  have hom : 0 ≤ o / m := div_nonneg hoq hmq.le
  have : rd (o * d2) = o * (h / m) + (rd (o * d2) - o * (h / m)) := by ring
  rw [this]
  refine (abs_add_le _ _).trans ?_
  rw [abs_of_nonneg (by positivity : 0 ≤ o * (h / m))]
  have h1 : o * (h / m) = h * (o / m) := by ring
  have h2 : h * (o / m) ≤ S * (o / m) := mul_le_mul_of_nonneg_right hhS hom
  have h3 : 8 * w * S * (o / m) ≤ S * (o / m) := mul_le_mul_of_nonneg_right (by nlinarith) hom
  linarith

/-- Bound of the error in the limits of the local grid. -/
def bound (w a b : ℚ) (m o : ℕ) : ℚ := w * (|a| + |b|) * (3 + 10 * (o / m))

theorem ends_error (hab : a < b) (hk : k < N) (hm : 0 < c.microPerMacro) (hw0 : 0 ≤ w) (hw : w ≤ 1 / 8)
    (hrd : Accurate w rd) (hc : Near w a b N k c) :
    |left rd c - (a + k * ((b - a) / N) - exactReach a b N c.microPerMacro c.oversampling)| ≤
      bound w a b c.microPerMacro c.oversampling ∧
    |right rd c - (a + (k + 1) * ((b - a) / N) + exactReach a b N c.microPerMacro c.oversampling)| ≤
      bound w a b c.microPerMacro c.oversampling := by
  obtain ⟨hh, hhS, hkmin, hkmax⟩ := size_bounds hab hk
  obtain ⟨e, ae⟩ := reach_error hab hk hm hw0 hw hrd hc
  have hmin := hc.min
  have hmax := hc.max
  unfold left right bound
  have hq : (0 : ℚ) ≤ c.oversampling / c.microPerMacro := by positivity
  generalize (c.oversampling : ℚ) / c.microPerMacro = q at *
  generalize exactReach a b N c.microPerMacro c.oversampling = R at *
  generalize reach rd c = r at *
  set S := |a| + |b|
  have hS : 0 < S := lt_of_lt_of_le hh hhS
  have hwS : 0 ≤ w * S := by positivity
  have key : ∀ x X y : ℚ, |x - X| ≤ w * S → |X| ≤ S → |y| = |r| →
      |rd (x + y) - (x + y)| ≤ w * (2 * S) + w * (2 * S * q) := by
    intro x X y h1 h2 h3
    refine (hrd (x + y)).trans ?_
    rw [← mul_add]
    refine mul_le_mul_of_nonneg_left ?_ hw0
    refine (abs_add_le _ _).trans ?_
    have : |x| ≤ 2 * S := by
      have e : x = X + (x - X) := by ring
      rw [e]
      refine (abs_add_le _ _).trans ?_
      nlinarith
    linarith
  constructor
  · have h := key c.min _ (-r) hmin hkmin (abs_neg r)
    rw [← sub_eq_add_neg] at h
    have : rd (c.min - r) - (a + k * ((b - a) / N) - R) =
        (rd (c.min - r) - (c.min - r)) + ((c.min - (a + k * ((b - a) / N))) - (r - R)) := by ring
    rw [this]
    refine (abs_add_le _ _).trans ?_
    have h2 := abs_sub (c.min - (a + k * ((b - a) / N))) (r - R)
    linarith
  · have h := key c.max _ r hmax hkmax rfl
    have : rd (c.max + r) - (a + (k + 1) * ((b - a) / N) + R) =
        (rd (c.max + r) - (c.max + r)) + ((c.max - (a + (k + 1) * ((b - a) / N))) + (r - R)) := by ring
    rw [this]
    refine (abs_add_le _ _).trans ?_
    have h2 := abs_add_le (c.max - (a + (k + 1) * ((b - a) / N))) (r - R)
    linarith

/-- The exact local grid ends a whole number of fine cells away from the boundary of the domain. -/
theorem exact_left (hN : 0 < N) (m o : ℕ) (hm : 0 < m) :
    a + k * ((b - a) / N) - exactReach a b N m o = a + (((k * m : ℕ) : ℤ) - (o : ℤ) : ℤ) * ((b - a) / N / m) := by
  have h1 : (N : ℚ) ≠ 0 := by exact_mod_cast hN.ne'
  have h2 : (m : ℚ) ≠ 0 := by exact_mod_cast hm.ne'
  unfold exactReach
  push_cast
  field_simp
  ring

theorem exact_right (hk : k < N) (m o : ℕ) (hm : 0 < m) :
    a + (k + 1) * ((b - a) / N) + exactReach a b N m o =
      b + ((o : ℤ) - ((N - 1 - k) * m : ℕ) : ℤ) * ((b - a) / N / m) := by
  have h1 : (N : ℚ) ≠ 0 := by exact_mod_cast (by omega : N ≠ 0)
  have h2 : (m : ℚ) ≠ 0 := by exact_mod_cast hm.ne'
  have h3 : ((N - 1 - k : ℕ) : ℚ) = N - 1 - k := by
    rw [Nat.sub_sub, Nat.cast_sub (by omega)]; push_cast; ring
  unfold exactReach
  push_cast
  rw [h3]
  field_simp
  ring

theorem coarse_left (m o : ℕ) : (coarseCell a b N k m o).min - (o : ℚ) * (coarseCell a b N k m o).delta =
    a + k * ((b - a) / N) - exactReach a b N m o := by
  have : (coarseCell a b N k m o).delta = (b - a) / N / m := by
    simp only [DirInput.delta, coarseCell]; congr 1; ring
  rw [this]; rfl

theorem coarse_right (m o : ℕ) : (coarseCell a b N k m o).max + (o : ℚ) * (coarseCell a b N k m o).delta =
    a + (k + 1) * ((b - a) / N) + exactReach a b N m o := by
  have : (coarseCell a b N k m o).delta = (b - a) / N / m := by
    simp only [DirInput.delta, coarseCell]; congr 1; ring
  rw [this]; rfl

/-- A computed number which is less than one cell off is on the same side of the boundary, unless it should be on it. -/
theorem side {x X g h E : ℚ} (z : ℤ) (hX : X = g + z * h) (hE : |x - X| ≤ E) (hEh : E < h) (hz : z ≠ 0) :
    (x < g ↔ z < 0) ∧ (g < x ↔ 0 < z) := by
  have h0 : 0 < h := lt_of_le_of_lt ((abs_nonneg _).trans hE) hEh
  obtain ⟨h1, h2⟩ := abs_le.mp hE
  rcases lt_or_gt_of_ne hz with hz | hz
  · have : (z : ℚ) ≤ -1 := by exact_mod_cast (by omega : z ≤ -1)
    have h3 : (z : ℚ) * h ≤ -h := by nlinarith
    exact ⟨⟨fun _ => hz, fun _ => by linarith⟩, ⟨fun h => by linarith, fun h => by omega⟩⟩
  · have : (1 : ℚ) ≤ z := by exact_mod_cast (by omega : 1 ≤ z)
    have h3 : h ≤ (z : ℚ) * h := by nlinarith
    exact ⟨⟨fun h => by linarith, fun h => by omega⟩, ⟨fun _ => hz, fun _ => by linarith⟩⟩

variable (hab : a < b) (hk : k < N) (hm : 0 < c.microPerMacro) (hw0 : 0 ≤ w) (hw : w ≤ 1 / 8)
  (hrd : Accurate w rd) (hc : Near w a b N k c)
  (hsmall : bound w a b c.microPerMacro c.oversampling < (b - a) / N / c.microPerMacro)
include hab hk hm hw0 hw hrd hc hsmall

theorem left_decision : (exceedsLeft rd c = true ↔ c.oversampling > k * c.microPerMacro) ∨
    c.oversampling = k * c.microPerMacro := by
  by_cases h : c.oversampling = k * c.microPerMacro
  · exact Or.inr h
  left
  have he := (ends_error hab hk hm hw0 hw hrd hc).1
  rw [exceedsLeft, decide_eq_true_iff, hc.lower,
    (side _ (exact_left (by omega) _ _ hm) he hsmall (by omega)).1]
  omega

theorem right_decision : (exceedsRight rd c = true ↔ c.oversampling > (N - 1 - k) * c.microPerMacro) ∨
    c.oversampling = (N - 1 - k) * c.microPerMacro := by
  by_cases h : c.oversampling = (N - 1 - k) * c.microPerMacro
  · exact Or.inr h
  left
  have he := (ends_error hab hk hm hw0 hw hrd hc).2
  rw [exceedsRight, decide_eq_true_iff, hc.upper, gt_iff_lt,
    (side _ (exact_right hk _ _ hm) he hsmall (by omega)).2]
  omega

omit hm hw0 hw hrd hc hsmall in
theorem exact_decisions (m o : ℕ) (hm : 0 < m) :
    ((coarseCell a b N k m o).exceedsLeft = true ↔ o > k * m) ∧
    ((coarseCell a b N k m o).exceedsRight = true ↔ o > (N - 1 - k) * m) := by
  have hN : (0 : ℚ) < N := by exact_mod_cast (by omega : 0 < N)
  have hmq : (0 : ℚ) < m := by exact_mod_cast hm
  have hh : 0 < (b - a) / N / m := div_pos (div_pos (by linarith) hN) hmq
  constructor
  · rw [DirInput.exceedsLeft, decide_eq_true_iff]
    change (coarseCell a b N k m o).min - (o : ℚ) * _ < a ↔ _
    rw [coarse_left, exact_left (by omega) m o hm]
    rw [show a + (((k * m : ℕ) : ℤ) - (o : ℤ) : ℤ) * ((b - a) / N / m) < a ↔
      (((k * m : ℕ) : ℤ) - (o : ℤ) : ℤ) * ((b - a) / N / m) < 0 by constructor <;> intro h <;> linarith,
      mul_neg_iff]
    constructor
    · rintro (⟨-, h⟩ | ⟨h, -⟩)
      · linarith
      · have h' : (((k * m : ℕ) : ℤ) - (o : ℤ) : ℤ) < 0 := by exact_mod_cast h
        omega
    · intro h
      refine Or.inr ⟨?_, hh⟩
      have h' : (((k * m : ℕ) : ℤ) - (o : ℤ) : ℤ) < 0 := by omega
      exact_mod_cast h'
  · rw [DirInput.exceedsRight, decide_eq_true_iff]
    change (coarseCell a b N k m o).max + (o : ℚ) * _ > b ↔ _
    rw [coarse_right, exact_right hk m o hm, gt_iff_lt, lt_add_iff_pos_right]
    rw [mul_pos_iff_of_pos_right hh]
    constructor
    · intro h
      have h' : 0 < ((o : ℤ) - ((N - 1 - k) * m : ℕ) : ℤ) := by exact_mod_cast h
      omega
    · intro h
      have h' : 0 < ((o : ℤ) - ((N - 1 - k) * m : ℕ) : ℤ) := by omega
      exact_mod_cast h'

/-- **C96** (exact condition, partial) In rounded arithmetic the local grid of a coarse cell has the number of cells of the exact
one exactly if there are no layers, or if at every side where the local grid should end on the boundary of the domain the computed
limit does not lie outside. -/
theorem C96_count_iff_partial :
    elements rd c = (coarseCell a b N k c.microPerMacro c.oversampling).elements ↔
      c.oversampling = 0 ∨
        ((c.oversampling = k * c.microPerMacro → ¬ left rd c < a) ∧
          (c.oversampling = (N - 1 - k) * c.microPerMacro → ¬ right rd c > b)) := by
  have hl := left_decision hab hk hm hw0 hw hrd hc hsmall
  have hr := right_decision hab hk hm hw0 hw hrd hc hsmall
  obtain ⟨el, er⟩ := exact_decisions (k := k) hab hk c.microPerMacro c.oversampling hm
  have hle : exceedsLeft rd c = true ↔ left rd c < a := by rw [exceedsLeft, decide_eq_true_iff, hc.lower]
  have hre : exceedsRight rd c = true ↔ right rd c > b := by rw [exceedsRight, decide_eq_true_iff, hc.upper]
  rw [← hle, ← hre]
  unfold elements DirInput.elements
  change c.microPerMacro + _ * c.oversampling = c.microPerMacro + _ * c.oversampling ↔ _
  rw [Nat.add_left_cancel_iff, mul_eq_mul_right_iff, or_comm]
  refine or_congr Iff.rfl ?_
  generalize exceedsLeft rd c = L at *
  generalize exceedsRight rd c = R at *
  generalize (coarseCell a b N k c.microPerMacro c.oversampling).exceedsLeft = Le at *
  generalize (coarseCell a b N k c.microPerMacro c.oversampling).exceedsRight = Re at *
  generalize k * c.microPerMacro = p at *
  generalize (N - 1 - k) * c.microPerMacro = q at *
  generalize c.oversampling = o at *
  cases L <;> cases R <;> cases Le <;> cases Re <;> simp at * <;> omega

/-- **C96** (partial) Numbers of cells are right for every number of layers that does not let a local grid end on the boundary of
the domain: in particular for fewer layers than micro cells per macro cell. -/
theorem C96_few_layers_partial (ho : c.oversampling < c.microPerMacro) :
    elements rd c = (coarseCell a b N k c.microPerMacro c.oversampling).elements := by
  rw [C96_count_iff_partial hab hk hm hw0 hw hrd hc hsmall]
  by_cases h0 : c.oversampling = 0
  · exact Or.inl h0
  have key : ∀ j, c.oversampling ≠ j * c.microPerMacro := by
    intro j h
    rcases Nat.eq_zero_or_pos j with rfl | hj
    · omega
    · have := Nat.le_mul_of_pos_left c.microPerMacro hj
      omega
  exact Or.inr ⟨fun h => absurd h (key _), fun h => absurd h (key _)⟩

omit hsmall in
/-- **C96** (limits) The limits of the local grid are those of the exact one up to the error bound. -/
theorem C96_box :
    |lowerLeft rd c - (coarseCell a b N k c.microPerMacro c.oversampling).lowerLeft| ≤
      bound w a b c.microPerMacro c.oversampling ∧
    |upperRight rd c - (coarseCell a b N k c.microPerMacro c.oversampling).upperRight| ≤
      bound w a b c.microPerMacro c.oversampling := by
  obtain ⟨h1, h2⟩ := ends_error hab hk hm hw0 hw hrd hc
  rw [← coarse_left] at h1
  rw [← coarse_right] at h2
  constructor
  · rw [lowerLeft, hc.lower]
    exact (abs_max_sub_max_le_abs _ _ _).trans h1
  · rw [upperRight, hc.upper]
    exact (abs_min_sub_min_le_max _ _ _ _).trans (max_le h2 (by
      change |b - b| ≤ _
      rw [sub_self, abs_zero]
      exact (abs_nonneg _).trans h2))

omit hab hk hm hw0 hw hrd hc hsmall
end

/-- The coordinates of the grids are near the exact ones. -/
theorem cell_near {w a b : ℚ} {N k : ℕ} {rd : ℚ → ℚ} (hab : a < b) (hk : k < N) (hw0 : 0 ≤ w) (hw : w ≤ 1 / 64)
    (hrd : Accurate w rd) (m o : ℕ) : Near (8 * w) a b N k (cell rd a b N k m o) := by
  obtain ⟨hh, hhS, -, -⟩ := size_bounds hab hk
  have hN : (0 : ℚ) < N := by exact_mod_cast (by omega : 0 < N)
  have hba : 0 < b - a := by linarith
  have hbS : b - a ≤ |a| + |b| := by linarith [neg_abs_le a, le_abs_self b]
  have haS : |a| ≤ |a| + |b| := by linarith [abs_nonneg b]
  have hNh : (N : ℚ) * ((b - a) / N) = b - a := by field_simp
  -- width of a coarse cell
  have e1 : |rd (rd (b - a) / N) - (b - a) / N| ≤ 3 * w * ((b - a) / N) := by
    have h1 := hrd (b - a)
    have h2 := hrd (rd (b - a) / N)
    rw [abs_of_pos hba] at h1
    have h3 : |rd (b - a)| ≤ (1 + w) * (b - a) := by
      have : rd (b - a) = (b - a) + (rd (b - a) - (b - a)) := by ring
      rw [this]
      refine (abs_add_le _ _).trans ?_
      rw [abs_of_pos hba]
      linarith
    rw [abs_div, abs_of_pos hN] at h2
    have : rd (rd (b - a) / N) - (b - a) / N = (rd (rd (b - a) / N) - rd (b - a) / N) + (rd (b - a) - (b - a)) / N := by ring
    rw [this]
    refine (abs_add_le _ _).trans ?_
    rw [abs_div, abs_of_pos hN]
    have h4 : |rd (b - a) - (b - a)| / N ≤ w * (b - a) / N := div_le_div_of_nonneg_right h1 hN.le
    have h5 : w * (|rd (b - a)| / N) ≤ w * ((1 + w) * (b - a) / N) :=
      mul_le_mul_of_nonneg_left (div_le_div_of_nonneg_right h3 hN.le) hw0
    have h6 : w * ((1 + w) * (b - a) / N) = w * ((b - a) / N) + w * (w * ((b - a) / N)) := by ring
    have h7 : w * (w * ((b - a) / N)) ≤ 1 / 64 * (w * ((b - a) / N)) :=
      mul_le_mul_of_nonneg_right hw (by positivity)
    have h8 : w * (b - a) / N = w * ((b - a) / N) := by ring
    have h9 : 0 ≤ w * ((b - a) / N) := by positivity
    linarith
  obtain ⟨h', hh'⟩ : ∃ h', h' = rd (rd (b - a) / N) := ⟨_, rfl⟩
  rw [← hh'] at e1
  set h := (b - a) / N
  set S := |a| + |b|
  have key : ∀ j : ℚ, 0 ≤ j → j ≤ N → |rd (a + rd (j * h')) - (a + j * h)| ≤ 8 * w * S := by
    intro j hj0 hjN
    have hjh : j * h ≤ S := by
      have : j * h ≤ N * h := mul_le_mul_of_nonneg_right hjN hh.le
      linarith
    have hjh0 : 0 ≤ j * h := by positivity
    have hS0 : 0 ≤ S := hjh0.trans hjh
    have hwS : 0 ≤ w * S := by positivity
    have hwwS : w * (w * S) ≤ 1 / 64 * (w * S) := mul_le_mul_of_nonneg_right hw hwS
    have hwj : w * (j * h) ≤ w * S := mul_le_mul_of_nonneg_left hjh hw0
    have f1 : |j * h' - j * h| ≤ 3 * (w * S) := by
      rw [← mul_sub, abs_mul, abs_of_nonneg hj0]
      have := mul_le_mul_of_nonneg_left e1 hj0
      have e : j * (3 * w * h) = 3 * (w * (j * h)) := by ring
      linarith
    have f2 : |j * h'| ≤ S + 3 * (w * S) := by
      have : j * h' = j * h + (j * h' - j * h) := by ring
      rw [this]
      refine (abs_add_le _ _).trans ?_
      rw [abs_of_nonneg hjh0]
      linarith
    have f3 : |rd (j * h') - j * h| ≤ 5 * (w * S) := by
      have : rd (j * h') - j * h = (rd (j * h') - j * h') + (j * h' - j * h) := by ring
      rw [this]
      refine (abs_add_le _ _).trans ?_
      have h1 := (hrd (j * h')).trans (mul_le_mul_of_nonneg_left f2 hw0)
      linarith
    have f4 : |a + rd (j * h')| ≤ 3 * S := by
      have : a + rd (j * h') = a + j * h + (rd (j * h') - j * h) := by ring
      rw [this]
      refine (abs_add_le _ _).trans ?_
      have h1 := abs_add_le a (j * h)
      rw [abs_of_nonneg hjh0] at h1
      nlinarith
    have : rd (a + rd (j * h')) - (a + j * h) =
        (rd (a + rd (j * h')) - (a + rd (j * h'))) + (rd (j * h') - j * h) := by ring
    rw [this]
    refine (abs_add_le _ _).trans ?_
    have h1 := (hrd (a + rd (j * h'))).trans (mul_le_mul_of_nonneg_left f4 hw0)
    linarith
  have hk0 : (0 : ℚ) ≤ k := by positivity
  have hk1 : (k : ℚ) + 1 ≤ N := by exact_mod_cast (by omega : k + 1 ≤ N)
  have k1 := key k hk0 (by linarith)
  have k2 := key (k + 1) (by linarith) hk1
  rw [hh'] at k1 k2
  exact ⟨k1, k2, rfl, rfl⟩

/-- **C96** (double precision, partial) On the unit interval, in double precision and with the coordinates of an equidistant grid, fewer layers than micro
cells per macro cell give the right number of cells for all grids with up to `2^40` cells per direction. -/
theorem C96_double_partial (N k m o : ℕ) (hk : k < N) (ho : o < m) (hsize : N * m ≤ 2 ^ 40) :
    elements double (cell double 0 1 N k m o) = (coarseCell 0 1 N k m o).elements := by
  have hm : 0 < m := by omega
  have hmq : (0 : ℚ) < m := by exact_mod_cast hm
  have hNq : (0 : ℚ) < N := by exact_mod_cast (by omega : 0 < N)
  have hacc : Accurate (8 * (1 / 2 ^ 53)) double := fun x =>
    (double_accurate x).trans (mul_le_mul_of_nonneg_right (by norm_num) (abs_nonneg x))
  refine C96_few_layers_partial (c := cell double 0 1 N k m o) (w := 8 * (1 / 2 ^ 53)) (a := 0) (b := 1) (N := N) (k := k)
    (by norm_num) hk hm (by norm_num) (by norm_num) hacc
    (cell_near (by norm_num) hk (by norm_num) (by norm_num) double_accurate m o) ?_ ho
  change bound _ 0 1 m o < (1 - 0) / (N : ℚ) / (m : ℚ)
  have h1 : (o : ℚ) / m ≤ 1 := by
    rw [div_le_one hmq]; exact_mod_cast ho.le
  have h2 : (1 : ℚ) / 2 ^ 40 ≤ (1 - 0) / (N : ℚ) / (m : ℚ) := by
    rw [sub_zero, div_div]
    exact one_div_le_one_div_of_le (by positivity) (by exact_mod_cast hsize)
  refine lt_of_lt_of_le ?_ h2
  unfold bound
  rw [abs_zero, abs_one, zero_add, mul_one]
  calc (8 : ℚ) * (1 / 2 ^ 53) * (3 + 10 * (o / m)) ≤ 8 * (1 / 2 ^ 53) * 13 := by
        refine mul_le_mul_of_nonneg_left ?_ (by norm_num)
        linarith
    _ < 1 / 2 ^ 40 := by norm_num

/-- Instance: the setup of the repository with oversampling, 14 coarse cells, 18 micro cells and 6 layers. -/
example : elements double (cell double 0 1 14 3 18 6) = 30 := by
  rw [C96_double_partial 14 3 18 6 (by norm_num) (by norm_num) (by norm_num)]
  decide +kernel

/-- **C96 is violated**: five coarse cells on the unit interval with eleven micro cells each and eleven layers, in double precision. The local
grid of the second coarse cell should have 33 cells and has 22, on the same interval: it starts at zero and ends between 0.599 and 0.601. -/
theorem C96_violated :
    elements double (cell double 0 1 5 1 11 11) = 22 ∧ (coarseCell 0 1 5 1 11 11).elements = 33 ∧
      lowerLeft double (cell double 0 1 5 1 11 11) = 0 ∧
      599 / 1000 < upperRight double (cell double 0 1 5 1 11 11) ∧ upperRight double (cell double 0 1 5 1 11 11) < 601 / 1000 := by
  refine ⟨?_, ?_, ?_, ?_, ?_⟩ <;> decide +kernel

/-- **C96 is violated** (consequence): no node of that local grid is near the lower limit of its coarse cell, so the coarse cell is not a union
of local cells. -/
theorem C96_not_aligned (j : ℕ) :
    let c := cell double 0 1 5 1 11 11
    1 / 200 < |lowerLeft double c + j * ((upperRight double c - lowerLeft double c) / elements double c) - 1 / 5| := by
  intro c
  obtain ⟨h1, -, h2, h3, h4⟩ := C96_violated
  rw [h1, h2, sub_zero, zero_add]
  generalize upperRight double c = u at h3 h4
  push_cast
  by_cases hj : j ≤ 7
  · have : (j : ℚ) ≤ 7 := by exact_mod_cast hj
    have h5 : (j : ℚ) * (u / 22) ≤ 7 * (u / 22) := mul_le_mul_of_nonneg_right this (by linarith)
    rw [abs_sub_comm]
    exact lt_of_lt_of_le (by linarith) (le_abs_self _)
  · have : (8 : ℚ) ≤ j := by exact_mod_cast (by omega : 8 ≤ j)
    have h5 : 8 * (u / 22) ≤ (j : ℚ) * (u / 22) := mul_le_mul_of_nonneg_right this (by linarith)
    exact lt_of_lt_of_le (by linarith) (le_abs_self _)

/-- The witness meets the hypotheses of `C96_count_iff_partial`; the computed limit lies outside the domain, and not on its boundary. -/
example : left double (cell double 0 1 5 1 11 11) < 0 := by
  have hacc : Accurate (8 * (1 / 2 ^ 53)) double := fun x =>
    (double_accurate x).trans (mul_le_mul_of_nonneg_right (by norm_num) (abs_nonneg x))
  have h := C96_count_iff_partial (c := cell double 0 1 5 1 11 11) (w := 8 * (1 / 2 ^ 53)) (a := 0) (b := 1) (N := 5) (k := 1)
    (by norm_num) (by norm_num) (by decide) (by norm_num) (by norm_num) hacc
    (cell_near (by norm_num) (by norm_num) (by norm_num) (by norm_num) double_accurate 11 11)
    (by simp only [cell]; norm_num [bound])
  obtain ⟨h1, h2, -⟩ := C96_violated
  by_contra hcon
  have := h.mpr (Or.inr ⟨fun _ => hcon, fun h => absurd h (by decide)⟩)
  change elements double (cell double 0 1 5 1 11 11) = (coarseCell 0 1 5 1 11 11).elements at this
  rw [h1, h2] at this
  exact absurd this (by norm_num)

end Verif.RoundedGrid
