import Verif.Model.CellCounts
import Verif.Props.LocalGrid
import Mathlib.Tactic.FieldSimp
import Mathlib.Tactic.LinearCombination
import Mathlib.Tactic.NormNum

/-!
# C77: numbers of cells which are not integers
-/

namespace Verif.CellCounts
open Verif.LocalGrid Verif.Spec Verif

/-! ## Specification -/

/-- Every grid line of the grid with `N` cells on `[a, b]` is a grid line of the one with `n` cells. -/
def Nested (a b : ℚ) (N n : ℕ) : Prop := ∀ k ≤ N, ∃ j ≤ n, node a b N k = node a b n j

/-- One direction: the three numbers of cells fit together.  The coarse grid lines are fine grid lines, and the local
grid of a coarse cell without oversampling has the cells of the fine grid in that cell. -/
def Fit (a b : ℚ) (coarse fine loc : Outcome ℕ) : Prop :=
  ∃ N n l : ℕ, coarse = .ok N ∧ fine = .ok n ∧ loc = .ok l ∧ 0 < N ∧ 0 < l ∧
    Nested a b N n ∧ (b - a) / n = (b - a) / N / l

/-! ## Lemmas -/

theorem toUnsigned_ok {x : ℚ} (h0 : 0 ≤ x) (h1 : x < 2 ^ 32) : toUnsigned x = .ok ⌊x⌋₊ :=
  if_pos ⟨by linarith, h1⟩

theorem toUnsigned_nat {n : ℕ} (h : n < 2 ^ 32) : toUnsigned (n : ℚ) = .ok n := by
  rw [toUnsigned_ok (by positivity) (by exact_mod_cast h), Nat.floor_natCast]

theorem toUnsigned_large {x : ℚ} (h : 2 ^ 32 ≤ x) : toUnsigned x = .ub :=
  if_neg fun hx => absurd hx.2 (not_lt.mpr h)

/-- Nested grids: the number of fine cells is a multiple of the number of coarse cells. -/
theorem nested_iff {a b : ℚ} (hab : a < b) {N n : ℕ} (hN : 0 < N) (hn : 0 < n) : Nested a b N n ↔ N ∣ n := by
  have hNq : (0 : ℚ) < N := by exact_mod_cast hN
  have hnq : (0 : ℚ) < n := by exact_mod_cast hn
  have hd : 0 < b - a := by linarith
  have key : ∀ k j : ℕ, node a b N k = node a b n j ↔ k * n = j * N := by
    intro k j
    unfold node
    rw [add_right_inj]
    have e : (k : ℚ) * ((b - a) / N) = (j : ℚ) * ((b - a) / n) ↔ (k : ℚ) * n = (j : ℚ) * N := by
      rw [← mul_div_assoc, ← mul_div_assoc, div_eq_div_iff hNq.ne' hnq.ne']
      constructor
      · intro h
        have : (b - a) * ((k : ℚ) * n) = (b - a) * ((j : ℚ) * N) := by linarith
        exact mul_left_cancel₀ hd.ne' this
      · intro h
        linear_combination (b - a) * h
    rw [e]
    exact_mod_cast Iff.rfl
  constructor
  · intro h
    obtain ⟨j, -, hj⟩ := h 1 hN
    rw [key, one_mul] at hj
    exact ⟨j, by rw [hj, mul_comm]⟩
  · rintro ⟨q, rfl⟩ k hk
    refine ⟨k * q, ?_, ?_⟩
    · exact Nat.mul_le_mul_right q hk
    · rw [key]; ring

/-! ## C77 -/

/-- **C77** (partial: exact condition) For numbers of at least one with a product below `2^32`, in exact arithmetic,
the grids fit together exactly if the product is less than one above the product of the integer parts. -/
theorem C77_fit_iff_partial {a b : ℚ} (hab : a < b) {c m : ℚ} (hc : 1 ≤ c) (hm : 1 ≤ m) (hcm : c * m < 2 ^ 32) :
    Fit a b (coarseCount c) (fineCount id c m) (localCount id m 0 0) ↔ c * m < (⌊c⌋ : ℚ) * ⌊m⌋ + 1 := by
  have hc0 : (0 : ℚ) ≤ c := by linarith
  have hm0 : (0 : ℚ) ≤ m := by linarith
  have hcl : c < 2 ^ 32 := lt_of_le_of_lt (by nlinarith) hcm
  have hml : m < 2 ^ 32 := lt_of_le_of_lt (by nlinarith) hcm
  have ec : coarseCount c = .ok ⌊c⌋₊ := toUnsigned_ok hc0 hcl
  have ef : fineCount id c m = .ok ⌊c * m⌋₊ := toUnsigned_ok (mul_nonneg hc0 hm0) hcm
  have el : localCount id m 0 0 = .ok ⌊m⌋₊ := by
    unfold localCount
    simp only [Nat.mul_zero, Nat.cast_zero, add_zero, id]
    exact toUnsigned_ok hm0 hml
  have hN : 0 < ⌊c⌋₊ := Nat.floor_pos.mpr hc
  have hl : 0 < ⌊m⌋₊ := Nat.floor_pos.mpr hm
  have hn : 0 < ⌊c * m⌋₊ := Nat.floor_pos.mpr (by nlinarith)
  have cc : (⌊c⌋ : ℚ) = (⌊c⌋₊ : ℚ) := by rw [← natCast_floor_eq_intCast_floor hc0]
  have cm : (⌊m⌋ : ℚ) = (⌊m⌋₊ : ℚ) := by rw [← natCast_floor_eq_intCast_floor hm0]
  have hle : (⌊c⌋₊ : ℚ) * ⌊m⌋₊ ≤ c * m :=
    mul_le_mul (Nat.floor_le hc0) (Nat.floor_le hm0) (by positivity) hc0
  have hNq : (0 : ℚ) < ⌊c⌋₊ := by exact_mod_cast hN
  have hlq : (0 : ℚ) < ⌊m⌋₊ := by exact_mod_cast hl
  have hnq : (0 : ℚ) < ⌊c * m⌋₊ := by exact_mod_cast hn
  rw [cc, cm]
  constructor
  · rintro ⟨N, n, l, h1, h2, h3, -, -, -, hw⟩
    rw [ec] at h1; rw [ef] at h2; rw [el] at h3
    cases h1; cases h2; cases h3
    rw [div_div, div_eq_div_iff hnq.ne' (mul_pos hNq hlq).ne'] at hw
    have e := mul_left_cancel₀ (by linarith : b - a ≠ 0) hw
    have := Nat.lt_floor_add_one (c * m)
    rw [← e] at this
    exact this
  · intro h
    have e : ⌊c * m⌋₊ = ⌊c⌋₊ * ⌊m⌋₊ := by
      rw [Nat.floor_eq_iff (mul_nonneg hc0 hm0)]
      push_cast
      exact ⟨hle, h⟩
    refine ⟨_, _, _, ec, ef, el, hN, hl, (nested_iff hab hN hn).mpr ⟨_, e⟩, ?_⟩
    rw [e, div_div]
    push_cast
    rfl

/-- **C77** (integers) Integer numbers with a product below `2^32` always fit together, for every rounding that keeps
integers below `2^32`, and the numbers of cells are those of the configuration. -/
theorem C77_integers {a b : ℚ} (hab : a < b) (rd : ℚ → ℚ) (hrd : ∀ n : ℕ, n < 2 ^ 32 → rd n = n) {c m : ℕ}
    (hc : 0 < c) (hm : 0 < m) (hcm : c * m < 2 ^ 32) :
    coarseCount c = .ok c ∧ fineCount rd c m = .ok (c * m) ∧ localCount rd m 0 0 = .ok m ∧
    Fit a b (coarseCount c) (fineCount rd c m) (localCount rd m 0 0) := by
  have e1 : coarseCount (c : ℚ) = .ok c := toUnsigned_nat (by nlinarith)
  have e2 : fineCount rd (c : ℚ) (m : ℚ) = .ok (c * m) := by
    unfold fineCount
    have : (c : ℚ) * m = ((c * m : ℕ) : ℚ) := by push_cast; rfl
    rw [this, hrd _ hcm, toUnsigned_nat hcm]
  have e3 : localCount rd (m : ℚ) 0 0 = .ok m := by
    unfold localCount
    simp only [Nat.mul_zero, Nat.cast_zero, add_zero]
    rw [hrd m (by nlinarith), toUnsigned_nat (by nlinarith)]
  refine ⟨e1, e2, e3, c, c * m, m, e1, e2, e3, hc, hm, (nested_iff hab hc (Nat.mul_pos hc hm)).mpr ⟨m, rfl⟩, ?_⟩
  rw [div_div]
  push_cast
  rfl

/-- **C77** (with oversampling, partial) In a local grid that does not exceed the domain, with at least one layer, the
mesh width is that of the coarse cell divided by the integer part exactly if the number of micro cells is an
integer. -/
theorem C77_width_iff_partial {H m : ℚ} (hH : 0 < H) (hm : 1 ≤ m) {layers : ℕ} (hl : 0 < layers)
    (hb : m + (2 * layers : ℕ) < 2 ^ 32) :
    (∃ n, localCount id m 2 layers = .ok n ∧ localExtent H m layers / n = H / ⌊m⌋) ↔ (⌊m⌋ : ℚ) = m := by
  have hm0 : (0 : ℚ) ≤ m := by linarith
  have e : localCount id m 2 layers = .ok (⌊m⌋₊ + 2 * layers) := by
    unfold localCount
    simp only [id]
    rw [toUnsigned_ok (by positivity) hb, Nat.floor_add_natCast hm0]
  have cm : (⌊m⌋ : ℚ) = (⌊m⌋₊ : ℚ) := by rw [← natCast_floor_eq_intCast_floor hm0]
  have hM : (0 : ℚ) < ⌊m⌋₊ := by exact_mod_cast Nat.floor_pos.mpr hm
  have hlq : (0 : ℚ) < layers := by exact_mod_cast hl
  have hmp : 0 < m := by linarith
  rw [cm]
  have step : localExtent H m layers / ((⌊m⌋₊ + 2 * layers : ℕ) : ℚ) = H / ⌊m⌋₊ ↔ (⌊m⌋₊ : ℚ) = m := by
    unfold localExtent
    push_cast
    rw [div_eq_div_iff (by positivity) hM.ne']
    constructor
    · intro h
      have h2 : 2 * (layers : ℚ) * H * ⌊m⌋₊ = 2 * (layers : ℚ) * H * m := by
        have : (H + 2 * ((layers : ℚ) * (H / m))) * ⌊m⌋₊ * m = H * (⌊m⌋₊ + 2 * layers) * m := by rw [h]
        have e2 : (H + 2 * ((layers : ℚ) * (H / m))) * ⌊m⌋₊ * m =
            H * ⌊m⌋₊ * m + 2 * layers * H * ⌊m⌋₊ := by field_simp
        rw [e2] at this
        linarith
      exact mul_left_cancel₀ (by positivity) h2
    · intro h
      rw [h]
      field_simp
  constructor
  · rintro ⟨n, hn, hw⟩
    rw [e] at hn
    cases hn
    exact step.mp hw
  · intro h
    exact ⟨_, e, step.mpr h⟩

/-- **C77** (the negation, coarse) 2.5 coarse cells with 2 micro cells each: two coarse cells, five fine cells.  The
line between the coarse cells lies inside a fine cell, whatever the domain. -/
theorem C77_violated_coarse {a b : ℚ} (hab : a < b) :
    coarseCount (5 / 2) = .ok 2 ∧ fineCount id (5 / 2) 2 = .ok 5 ∧
    ¬ Nested a b 2 5 ∧ node a b 5 2 < node a b 2 1 ∧ node a b 2 1 < node a b 5 3 := by
  refine ⟨?_, ?_, ?_, ?_, ?_⟩
  · unfold coarseCount toUnsigned; decide +kernel
  · unfold fineCount toUnsigned; decide +kernel
  · rw [nested_iff hab (by norm_num) (by norm_num)]; norm_num
  · unfold node; push_cast; linarith
  · unfold node; push_cast; linarith

/-- **C77** (the negation, micro) For every number of coarse cells from two on, 2.5 micro cells per coarse cell give a
fine grid that does not have the mesh width of the local grids. -/
theorem C77_violated_micro {a b : ℚ} (hab : a < b) {c : ℕ} (hc : 2 ≤ c) (hb : (c : ℚ) * (5 / 2) < 2 ^ 32) :
    ¬ Fit a b (coarseCount c) (fineCount id c (5 / 2)) (localCount id (5 / 2) 0 0) := by
  have hcq : (2 : ℚ) ≤ c := by exact_mod_cast hc
  rw [C77_fit_iff_partial hab (by linarith) (by norm_num) hb]
  have h1 : ⌊(c : ℚ)⌋ = c := Int.floor_natCast c
  have h2 : ⌊(5 / 2 : ℚ)⌋ = 2 := by norm_num
  rw [h1, h2]
  push_cast
  linarith

/-- **C77** (the negation, oversampling) With 2 coarse cells of 2.25 micro cells each the global grids are nested and
the local grids without oversampling fit, but with one layer of oversampling the local mesh width is 17/36 of the
coarse one instead of 1/2. -/
theorem C77_violated_oversampling {a b : ℚ} (hab : a < b) :
    Fit a b (coarseCount 2) (fineCount id 2 (9 / 4)) (localCount id (9 / 4) 0 0) ∧
    localCount id (9 / 4) 2 1 = .ok 4 ∧ ∀ H : ℚ, localExtent H (9 / 4) 1 / 4 = 17 / 36 * H := by
  refine ⟨?_, ?_, ?_⟩
  · rw [C77_fit_iff_partial hab (by norm_num) (by norm_num) (by norm_num)]
    have h1 : ⌊(2 : ℚ)⌋ = 2 := by norm_num
    have h2 : ⌊(9 / 4 : ℚ)⌋ = 2 := by norm_num
    rw [h1, h2]
    norm_num
  · unfold localCount toUnsigned; decide +kernel
  · intro H
    unfold localExtent
    push_cast
    ring

/-- **C77** (the negation, range) If the product of the numbers does not fit into 32 bits, the conversion is
undefined. -/
theorem C77_violated_range {c m : ℚ} (h : 2 ^ 32 ≤ c * m) : fineCount id c m = .ub :=
  toUnsigned_large h

/-- **C77** (range) The conversion of a number of cells is defined exactly for numbers greater than -1 and less than
2^32; a negative fraction gives no cells. -/
theorem C77_range (x : ℚ) : (coarseCount x = .ub ↔ x ≤ -1 ∨ 2 ^ 32 ≤ x) ∧ coarseCount x ≠ .throw ∧
    (-1 < x → x ≤ 0 → coarseCount x = .ok 0) := by
  unfold coarseCount toUnsigned
  by_cases h : -1 < x ∧ x < 2 ^ 32
  · rw [if_pos h]
    refine ⟨⟨fun e => by simp at e, fun e => ?_⟩, by simp, fun _ h0 => by rw [Nat.floor_of_nonpos h0]⟩
    rcases e with e | e
    · exact absurd h.1 (not_lt.mpr e)
    · exact absurd h.2 (not_lt.mpr e)
  · rw [if_neg h]
    refine ⟨⟨fun _ => ?_, fun _ => rfl⟩, by simp, fun h1 h0 => absurd ⟨h1, by linarith⟩ h⟩
    by_contra e
    push Not at e
    exact h e

/-- Non-vacuity of `C77_fit_iff_partial`: a number with a small fraction that does no harm, and one that does. -/
example : (21 / 10 : ℚ) * 3 < (⌊(21 / 10 : ℚ)⌋ : ℚ) * ⌊(3 : ℚ)⌋ + 1 ∧
    ¬ (24 / 10 : ℚ) * 3 < (⌊(24 / 10 : ℚ)⌋ : ℚ) * ⌊(3 : ℚ)⌋ + 1 := by
  have h1 : ⌊(21 / 10 : ℚ)⌋ = 2 := by norm_num
  have h2 : ⌊(24 / 10 : ℚ)⌋ = 2 := by norm_num
  have h3 : ⌊(3 : ℚ)⌋ = 3 := by norm_num
  rw [h1, h2, h3]
  norm_num

/-- Non-vacuity of `C77_integers`: the default sizes. -/
example : coarseCount ((8 : ℕ) : ℚ) = .ok 8 ∧ fineCount id ((8 : ℕ) : ℚ) ((4 : ℕ) : ℚ) = .ok 32 :=
  ⟨(C77_integers (a := 0) (b := 1) (by norm_num) id (fun _ _ => rfl) (c := 8) (m := 4) (by norm_num) (by norm_num)
    (by norm_num)).1, (C77_integers (a := 0) (b := 1) (by norm_num) id (fun _ _ => rfl) (c := 8) (m := 4)
    (by norm_num) (by norm_num) (by norm_num)).2.1⟩

/-- Non-vacuity of `C77_width_iff_partial` in both directions. -/
example : (⌊(4 : ℚ)⌋ : ℚ) = 4 ∧ (⌊(9 / 4 : ℚ)⌋ : ℚ) ≠ 9 / 4 := by
  have h1 : ⌊(4 : ℚ)⌋ = 4 := by norm_num
  have h2 : ⌊(9 / 4 : ℚ)⌋ = 2 := by norm_num
  rw [h1, h2]
  norm_num

end Verif.CellCounts
