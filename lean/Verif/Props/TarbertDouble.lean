import Verif.Props.Double

/-!
# C41 with rounded constants

The widths of the raster and the limits of the domain are decimal fractions, which the program rounds to `double`. Quotients of the rounded numbers
need not be the numbers of cells.
-/

namespace Verif.Double
open Verif.Spec Verif.Spec.Binary Verif.RoundedGrid Verif.Permeability

section
variable {rd : ℚ → ℚ} (h : Nearest rd)
include h

/-- Error of the computed quotient, for at most 221 cells. -/
theorem quotient_error {x δ : ℚ} (hδ : 0 < δ) (hx : 0 ≤ x) (hx' : x / δ ≤ 221) : |rd (x / rd δ) - x / δ| ≤ 1 / 2 ^ 44 := by
  have a1 := abs_le.mp (nearest_accurate h δ)
  rw [abs_of_pos hδ] at a1
  have hr : 0 < rd δ := by
    norm_num at a1
    linarith
  have hq0 : 0 ≤ x / δ := by positivity
  have hz0 : 0 ≤ x / rd δ := by positivity
  have e1 : x / δ * δ = x := by field_simp
  have e2 : x / rd δ * rd δ = x := by field_simp
  have a2 := abs_le.mp (nearest_accurate h (x / rd δ))
  rw [abs_of_nonneg hz0] at a2
  generalize x / δ = q at *
  generalize x / rd δ = z at *
  generalize rd z = y at *
  generalize rd δ = r at *
  have h1 : z * r = q * δ := by rw [e1, e2]
  have hz1 : z ≤ q * (1 + 11 / 10 / 2 ^ 53) := by
    have hle : δ ≤ (1 + 11 / 10 / 2 ^ 53) * r := by
      norm_num at a1 ⊢
      linarith
    by_contra hcon
    rw [not_le] at hcon
    have h2 := mul_lt_mul_of_pos_right hcon hr
    have h3 : q * δ ≤ q * ((1 + 11 / 10 / 2 ^ 53) * r) := mul_le_mul_of_nonneg_left hle hq0
    linarith
  have hz2 : q * (1 - 1 / 2 ^ 53) ≤ z := by
    have hle : (1 - 1 / 2 ^ 53) * r ≤ δ := by
      norm_num at a1 ⊢
      linarith
    by_contra hcon
    rw [not_le] at hcon
    have h2 := mul_lt_mul_of_pos_right hcon hr
    have h3 : q * ((1 - 1 / 2 ^ 53) * r) ≤ q * δ := mul_le_mul_of_nonneg_left hle hq0
    linarith
  rw [abs_le]
  norm_num at a2 hz1 hz2 ⊢
  constructor <;> linarith

omit h in
theorem deltas_cells (d : Fin 3) : 0 < deltas d ∧ ∃ n : ℕ, n = ![60, 220, 35] d ∧ n ≤ 220 ∧ tarbertUpper d / deltas d = n := by
  obtain ⟨hd, n, hn, hu⟩ := tarbert_ratio d
  refine ⟨hd, n, hn, ?_, by rw [hu]; field_simp⟩
  rw [hn]
  fin_cases d <;> decide

theorem rounded_upper_le (d : Fin 3) {n : ℕ} (hn : n ≤ 220) (hu : tarbertUpper d / deltas d = n) {x : ℚ} (hx : x ≤ roundedUpper rd d) :
    x / deltas d ≤ n + 1 / 2 ^ 44 := by
  obtain ⟨hd, -⟩ := tarbert_ratio d
  have hn' : (n : ℚ) ≤ 220 := by exact_mod_cast hn
  have hU : tarbertUpper d = n * deltas d := by rw [← hu]; field_simp
  have hU0 : 0 ≤ tarbertUpper d := by rw [hU]; positivity
  have a1 := (abs_le.mp (nearest_accurate h (tarbertUpper d))).2
  rw [abs_of_nonneg hU0] at a1
  unfold roundedUpper at hx
  rw [div_le_iff₀ hd]
  have h1 : (n : ℚ) * deltas d ≤ 220 * deltas d := mul_le_mul_of_nonneg_right hn' hd.le
  rw [hU] at a1
  have : (n + 1 / 2 ^ 44 : ℚ) * deltas d = n * deltas d + 1 / 2 ^ 44 * deltas d := by ring
  rw [this]
  rw [hU] at hx
  norm_num at a1 ⊢
  linarith

/-- **C41** (partial: component block) For rounding to nearest, with the widths of the raster and the limits of the domain rounded: for every point of
the closed domain box, in two (`x 2 = 0`) and three dimensions, the lookups address entries of the right component block, so valid entries of the
array. -/
theorem C41_in_block_double_partial (x : Fin 3 → ℚ) (hx : x ∈ box (fun _ => 0) (roundedUpper rd)) (d : Fin 3) :
    let e := tarbertEntry (tarbertOffset (roundedInterval rd 0 (x 0)) (roundedInterval rd 1 (x 1)) (roundedInterval rd 2 (x 2))) d
    (d.1 * 1122000 : ℤ) ≤ e ∧ e < (d.1 + 1) * 1122000 ∧ e < tarbertSize := by
  have key : ∀ d, 0 ≤ roundedInterval rd d (x d) ∧ roundedInterval rd d (x d) ≤ ![60, 220, 35] d := by
    intro d
    obtain ⟨hd, n, hn, hn220, hu⟩ := deltas_cells d
    obtain ⟨h0, h1⟩ := hx d
    have hq := rounded_upper_le h d hn220 hu h1
    have hn' : (n : ℚ) ≤ 220 := by exact_mod_cast hn220
    have hq0 : 0 ≤ x d / deltas d := div_nonneg h0 hd.le
    have herr := abs_le.mp (quotient_error h hd h0 (by norm_num at hq; linarith))
    constructor
    · refine Int.floor_nonneg.mpr ?_
      have r0 : rd 0 = 0 := by simpa using nearest_nat h 0 (by norm_num)
      have hr : 0 ≤ rd (deltas d) := by
        rw [← r0]; exact nearest_monotone h hd.le
      rw [← r0]
      exact nearest_monotone h (div_nonneg h0 hr)
    · have hlt : roundedInterval rd d (x d) < n + 1 := by
        unfold roundedInterval
        rw [Int.floor_lt]
        push_cast
        norm_num at hq herr
        linarith
      have hnz : (n : ℤ) = ![60, 220, 35] d := by
        rw [hn]
        fin_cases d <;> rfl
      omega
  have k0 : 0 ≤ roundedInterval rd 0 (x 0) ∧ roundedInterval rd 0 (x 0) ≤ 60 := key 0
  have k1 : 0 ≤ roundedInterval rd 1 (x 1) ∧ roundedInterval rd 1 (x 1) ≤ 220 := key 1
  have k2 : 0 ≤ roundedInterval rd 2 (x 2) ∧ roundedInterval rd 2 (x 2) ≤ 35 := key 2
  have hsz : (tarbertSize : ℤ) = 3366000 := rfl
  generalize roundedInterval rd 0 (x 0) = p0 at *
  generalize roundedInterval rd 1 (x 1) = p1 at *
  generalize roundedInterval rd 2 (x 2) = p2 at *
  match d with
  | 0 =>
    show ((0 : ℕ) * 1122000 : ℤ) ≤ tarbertOffset _ _ _ ∧ tarbertOffset _ _ _ < ((0 : ℕ) + 1) * 1122000 ∧
      tarbertOffset _ _ _ < (tarbertSize : ℤ)
    rw [hsz]; unfold tarbertOffset; omega
  | 1 =>
    show ((1 : ℕ) * 1122000 : ℤ) ≤ tarbertOffset _ _ _ + 1122000 ∧
      tarbertOffset _ _ _ + 1122000 < ((1 : ℕ) + 1) * 1122000 ∧ tarbertOffset _ _ _ + 1122000 < (tarbertSize : ℤ)
    rw [hsz]; unfold tarbertOffset; omega
  | 2 =>
    show ((2 : ℕ) * 1122000 : ℤ) ≤ tarbertOffset _ _ _ + 2244000 ∧
      tarbertOffset _ _ _ + 2244000 < ((2 : ℕ) + 1) * 1122000 ∧ tarbertOffset _ _ _ + 2244000 < (tarbertSize : ℤ)
    rw [hsz]; unfold tarbertOffset; omega

/-- **C41** (partial: away from the faces) For rounding to nearest, with rounded widths: the lookups read the entry of the raster cell which contains
the point, for all points at least `2^-43` times the width of a cell away from its faces; the lower faces of the domain need no distance. -/
theorem C41_right_cell_double_partial (x : Fin 3 → ℚ) (h0 : ∀ d, 0 ≤ x d) (c : Fin 3 → ℕ) (hc : ∀ d, c d < ![60, 220, 35] d)
    (hlo : ∀ d, c d = 0 ∨ c d + 1 / 2 ^ 43 ≤ x d / deltas d) (hhi : ∀ d, x d / deltas d ≤ c d + 1 - 1 / 2 ^ 43) (d : Fin 3) :
    tarbertEntry (tarbertOffset (roundedInterval rd 0 (x 0)) (roundedInterval rd 1 (x 1)) (roundedInterval rd 2 (x 2))) d =
      d.1 * 1122000 + (c 0 + 60 * c 1 + 13200 * c 2) := by
  have key : ∀ d, roundedInterval rd d (x d) = c d := by
    intro d
    obtain ⟨hd, n, hn, hn220, hu⟩ := deltas_cells d
    have hcn := hc d
    rw [← hn] at hcn
    have hcq : (c d : ℚ) + 1 ≤ 220 := by exact_mod_cast (show c d + 1 ≤ 220 by omega)
    have hhi' := hhi d
    have herr := abs_le.mp (quotient_error h hd (h0 d) (by norm_num at hhi'; linarith))
    unfold roundedInterval
    rw [Int.floor_eq_iff]
    push_cast
    refine ⟨?_, by norm_num at hhi' herr; linarith⟩
    rcases hlo d with hz | hlo'
    · rw [hz]
      have r0 : rd 0 = 0 := by simpa using nearest_nat h 0 (by norm_num)
      have hr : 0 ≤ rd (deltas d) := by
        rw [← r0]; exact nearest_monotone h hd.le
      rw [Nat.cast_zero, ← r0]
      exact nearest_monotone h (div_nonneg (h0 d) hr)
    · norm_num at hlo' herr
      linarith
  rw [key, key, key]
  match d with
  | 0 => simp only [tarbertEntry, tarbertOffset]; simp; ring
  | 1 => simp only [tarbertEntry, tarbertOffset]; simp; ring
  | 2 => simp only [tarbertEntry, tarbertOffset]; simp; ring

end

/-- Instance: a point in the cell (7, 219, 34). -/
example (d : Fin 3) : tarbertEntry (tarbertOffset (roundedInterval double 0 43) (roundedInterval double 1 670) (roundedInterval double 2 21)) d =
    d.1 * 1122000 + ((7 : ℕ) + 60 * (219 : ℕ) + 13200 * (34 : ℕ)) := by
  refine C41_right_cell_double_partial double_nearest ![43, 670, 21] ?_ ![7, 219, 34] (by decide) ?_ ?_ d
  · intro d; fin_cases d <;> simp
  · intro d; fin_cases d <;> norm_num [deltas]
  · intro d; fin_cases d <;> norm_num [deltas]

/-- **C41** (violated) In double precision, on the upper face in the first direction the lookup reads the entry of another raster cell: at the point
`(365.76, 0, 0)` of cell `(59, 0, 0)` entry 60, of cell `(0, 1, 0)`. -/
theorem C41_violated_double : (![roundedUpper double 0, 0, 0] : Fin 3 → ℚ) ∈ box (fun _ => 0) (roundedUpper double) ∧
    tarbertOffset (roundedInterval double 0 (roundedUpper double 0)) (roundedInterval double 1 0) (roundedInterval double 2 0) = 60 := by
  constructor
  · intro d
    fin_cases d
    · exact ⟨by decide +kernel, le_refl _⟩
    · exact ⟨le_refl _, by decide +kernel⟩
    · exact ⟨le_refl _, by decide +kernel⟩
  · decide +kernel

/-- **C41** In double precision the upper faces in the second and third direction are looked up in the last cells, since the quotients 670.56 / 3.048 and
21.336 / 0.6096 of the rounded numbers are below 220 and 35. In exact arithmetic they are not. -/
theorem C41_upper_faces_double : roundedInterval double 1 (roundedUpper double 1) = 219 ∧ roundedInterval double 2 (roundedUpper double 2) = 34 ∧
    interval id 1 (tarbertUpper 1) = 220 ∧ interval id 2 (tarbertUpper 2) = 35 := by
  refine ⟨by decide +kernel, by decide +kernel, by decide +kernel, by decide +kernel⟩

end Verif.Double
