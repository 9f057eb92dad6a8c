import Verif.Model.Permeability
import Verif.Model.Synthetic
import Verif.Spec.Raster
import Mathlib.Tactic.Linarith
import Mathlib.Tactic.Ring
import Mathlib.Tactic.FieldSimp
import Mathlib.Tactic.NormNum
import Mathlib.Tactic.FinCases

/-!
# C37, C39, C40, C41, C42, C43, C55: tabulated permeabilities
-/

namespace Verif.Permeability
open Verif.Spec

/-! ## C39 -/

theorem spe10_elements (d : Fin 3) : 0 < spe10Elements d ∧ spe10Elements d ≤ 220 := by
  revert d; decide

theorem spe10_box (d : Fin 3) : spe10Lower d = 0 ∧ ∃ n : ℕ, 0 < n ∧ n ≤ 5 ∧ spe10Upper d = n := by
  match d with
  | 0 => exact ⟨rfl, 2, by norm_num, by norm_num, rfl⟩
  | 1 => exact ⟨rfl, 5, by norm_num, by norm_num, rfl⟩
  | 2 => exact ⟨rfl, 1, by norm_num, by norm_num, by show (1 : ℚ) = ((1 : ℕ) : ℚ); norm_num⟩

theorem whichPartition_lt (rd : ℚ → ℚ) {ne : ℕ} (h : 0 < ne) (ll ur x : ℚ) : whichPartition rd ne ll ur x < ne := by
  unfold whichPartition
  have := min_le_right (⌊rd (ne * rd (rd (x - ll) / rd (ur - ll)))⌋).toNat (ne - 1)
  omega

/-- **C39** For every point the three lookups address entries of the three component blocks, so entries of the
array. -/
theorem C39_in_block (rd : ℚ → ℚ) (x : Fin 3 → ℚ) (d : Fin 3) :
    d.1 * entriesPerDim ≤ spe10Entry rd x d ∧ spe10Entry rd x d < (d.1 + 1) * entriesPerDim ∧
      spe10Entry rd x d < 3 * entriesPerDim := by
  have h0 := whichPartition_lt rd (spe10_elements 0).1 (spe10Lower 0) (spe10Upper 0) (x 0)
  have h1 := whichPartition_lt rd (spe10_elements 1).1 (spe10Lower 1) (spe10Upper 1) (x 1)
  have h2 := whichPartition_lt rd (spe10_elements 2).1 (spe10Lower 2) (spe10Upper 2) (x 2)
  have e0 : spe10Elements 0 = 60 := rfl
  have e1 : spe10Elements 1 = 220 := rfl
  have e2 : spe10Elements 2 = 85 := rfl
  have hs : spe10Subdomain rd x < entriesPerDim := by
    unfold spe10Subdomain entriesPerDim
    simp only [e0, e1, e2] at h0 h1 h2 ⊢
    omega
  match d with
  | 0 => simp only [spe10Entry]; simp; omega
  | 1 => simp only [spe10Entry]; simp; omega
  | 2 => simp only [spe10Entry]; simp; omega

/-- **C39** The conversion to `size_t` is defined for every point of the closed domain box: the number is between 0 and the
number of cells, for every monotone rounding. -/
theorem C39_conversion_defined (rd : ℚ → ℚ) (hrd : MonotoneRounding rd) (x : Fin 3 → ℚ)
    (hx : x ∈ box spe10Lower spe10Upper) (d : Fin 3) :
    let q := rd (spe10Elements d * rd (rd (x d - spe10Lower d) / rd (spe10Upper d - spe10Lower d)))
    0 ≤ q ∧ q ≤ spe10Elements d := by
  intro q
  obtain ⟨hl, n, hn, hn5, hu⟩ := spe10_box d
  obtain ⟨hx0, hx1⟩ := hx d
  have r0 : rd 0 = 0 := by simpa using hrd.nat 0 (by norm_num)
  have r1 : rd 1 = 1 := by simpa using hrd.nat 1 (by norm_num)
  have rn : rd (n : ℚ) = n := hrd.nat n (by omega)
  have rne : rd (spe10Elements d : ℚ) = spe10Elements d :=
    hrd.nat _ (le_trans (spe10_elements d).2 (by norm_num))
  have hnq : (0 : ℚ) < n := by exact_mod_cast hn
  rw [hl] at hx0
  rw [hu] at hx1
  have a0 : 0 ≤ rd (x d) := by rw [← r0]; exact hrd.mono hx0
  have a1 : rd (x d) ≤ n := by rw [← rn]; exact hrd.mono hx1
  have b0 : 0 ≤ rd (rd (x d) / n) := by rw [← r0]; exact hrd.mono (by positivity)
  have b1 : rd (rd (x d) / n) ≤ 1 := by
    rw [← r1]; apply hrd.mono; rw [div_le_iff₀ hnq]; linarith
  have hq : q = rd (spe10Elements d * rd (rd (x d) / n)) := by
    simp only [q, hl, hu, sub_zero, rn]
  have c0 : (0 : ℚ) ≤ spe10Elements d := by positivity
  rw [hq]
  constructor
  · rw [← r0]; exact hrd.mono (by positivity)
  · rw [← rne]; exact hrd.mono (by nlinarith [rne])

/-- Exact arithmetic: the cell chosen in one direction is the one containing the point. -/
theorem whichPartition_inCell {ne : ℕ} (hne : 0 < ne) {ll ur x : ℚ} (h : ll < ur) (h0 : ll ≤ x) (h1 : x ≤ ur) :
    InCell ll ur ne (whichPartition id ne ll ur x) x := by
  have hd : 0 < ur - ll := by linarith
  have hn : (0 : ℚ) < ne := by exact_mod_cast hne
  set q : ℚ := ne * ((x - ll) / (ur - ll)) with hq
  have hq0 : 0 ≤ q := by
    have : 0 ≤ x - ll := by linarith
    positivity
  have hxq : x = ll + q * ((ur - ll) / ne) := by
    rw [hq]; field_simp; ring
  have hw : whichPartition id ne ll ur x = min ⌊q⌋.toNat (ne - 1) := rfl
  have hfl : (0 : ℤ) ≤ ⌊q⌋ := Int.floor_nonneg.mpr hq0
  have hcast : ((⌊q⌋.toNat : ℕ) : ℚ) = (⌊q⌋ : ℚ) := by
    have : ((⌊q⌋.toNat : ℕ) : ℤ) = ⌊q⌋ := Int.toNat_of_nonneg hfl
    exact_mod_cast congrArg (Int.cast : ℤ → ℚ) this
  have hs : 0 < (ur - ll) / ne := by positivity
  refine ⟨whichPartition_lt id hne ll ur x, ?_, ?_⟩
  · have hle : ((whichPartition id ne ll ur x : ℕ) : ℚ) ≤ q := by
      rw [hw]
      calc ((min ⌊q⌋.toNat (ne - 1) : ℕ) : ℚ) ≤ (⌊q⌋.toNat : ℕ) := by exact_mod_cast min_le_left _ _
        _ = (⌊q⌋ : ℚ) := hcast
        _ ≤ q := Int.floor_le q
    unfold node
    calc ll + (whichPartition id ne ll ur x : ℚ) * ((ur - ll) / ne)
        ≤ ll + q * ((ur - ll) / ne) := by
          have := mul_le_mul_of_nonneg_right hle hs.le
          linarith
      _ = x := hxq.symm
  · by_cases hc : ⌊q⌋.toNat ≤ ne - 1
    · left
      rw [hw, min_eq_left hc]
      unfold node
      have : q < (⌊q⌋ : ℚ) + 1 := Int.lt_floor_add_one q
      have h3 : q < ((⌊q⌋.toNat + 1 : ℕ) : ℚ) := by push_cast; rw [hcast]; exact this
      calc x = ll + q * ((ur - ll) / ne) := hxq
        _ < ll + ((⌊q⌋.toNat + 1 : ℕ) : ℚ) * ((ur - ll) / ne) := by
          have := mul_lt_mul_of_pos_right h3 hs
          linarith
    · right
      rw [hw, min_eq_right (by omega)]
      exact ⟨by omega, h1⟩

/-- A point lies in one cell only. -/
theorem inCell_unique {a b : ℚ} (hab : a < b) {n i j : ℕ} {x : ℚ} (hi : InCell a b n i x) (hj : InCell a b n j x) :
    i = j := by
  obtain ⟨hi1, hi2, hi3⟩ := hi
  obtain ⟨hj1, hj2, hj3⟩ := hj
  have hn : 0 < n := by omega
  have hnq : (0 : ℚ) < n := by exact_mod_cast hn
  have hs : 0 < (b - a) / n := div_pos (by linarith) hnq
  have mono : ∀ k l : ℕ, k ≤ l → node a b n k ≤ node a b n l := by
    intro k l h
    unfold node
    have : (k : ℚ) ≤ l := by exact_mod_cast h
    have := mul_le_mul_of_nonneg_right this hs.le
    linarith
  rcases lt_trichotomy i j with h | h | h
  · exfalso
    rcases hi3 with h' | ⟨h', -⟩
    · have := mono (i + 1) j h; linarith
    · omega
  · exact h
  · exfalso
    rcases hj3 with h' | ⟨h', -⟩
    · have := mono (j + 1) i h; linarith
    · omega

theorem spe10_lower_lt (d : Fin 3) : spe10Lower d < spe10Upper d := by
  obtain ⟨hl, n, hn, -, hu⟩ := spe10_box d
  rw [hl, hu]; exact_mod_cast hn

/-- **C39** In exact arithmetic the entry read is that of the raster cell which contains the point: if `x` is in cell
`(i, j, k)`, the entry is `i + 60 j + 13200 k` in the block of the component. -/
theorem C39_right_cell (x : Fin 3 → ℚ) (hx : x ∈ box spe10Lower spe10Upper) (c : Fin 3 → ℕ)
    (hc : ∀ d, InCell (spe10Lower d) (spe10Upper d) (spe10Elements d) (c d) (x d)) (d : Fin 3) :
    spe10Entry id x d = d.1 * entriesPerDim + (c 0 + 60 * c 1 + 13200 * c 2) := by
  have key : ∀ d, whichPartition id (spe10Elements d) (spe10Lower d) (spe10Upper d) (x d) = c d := fun d =>
    inCell_unique (spe10_lower_lt d)
      (whichPartition_inCell (spe10_elements d).1 (spe10_lower_lt d) (hx d).1 (hx d).2) (hc d)
  have e0 : spe10Elements 0 = 60 := rfl
  have e1 : spe10Elements 1 = 220 := rfl
  have hs : spe10Subdomain id x = c 0 + 60 * c 1 + 13200 * c 2 := by
    unfold spe10Subdomain
    simp only [key]
    rw [e0, e1]
    ring
  match d with
  | 0 => simp only [spe10Entry, hs]; simp
  | 1 => simp only [spe10Entry, hs]; simp
  | 2 => simp only [spe10Entry, hs]; simp

/-- **C39** In exact arithmetic points of different cells, and different components, address different entries. -/
theorem C39_distinct (x y : Fin 3 → ℚ) (hx : x ∈ box spe10Lower spe10Upper) (hy : y ∈ box spe10Lower spe10Upper)
    (c c' : Fin 3 → ℕ) (hc : ∀ d, InCell (spe10Lower d) (spe10Upper d) (spe10Elements d) (c d) (x d))
    (hc' : ∀ d, InCell (spe10Lower d) (spe10Upper d) (spe10Elements d) (c' d) (y d)) (d d' : Fin 3)
    (h : spe10Entry id x d = spe10Entry id y d') : d = d' ∧ c = c' := by
  rw [C39_right_cell x hx c hc, C39_right_cell y hy c' hc'] at h
  have e0 : spe10Elements 0 = 60 := rfl
  have e1 : spe10Elements 1 = 220 := rfl
  have e2 : spe10Elements 2 = 85 := rfl
  have a0 := (hc 0).1; have a1 := (hc 1).1; have a2 := (hc 2).1
  have b0 := (hc' 0).1; have b1 := (hc' 1).1; have b2 := (hc' 2).1
  rw [e0] at a0 b0; rw [e1] at a1 b1; rw [e2] at a2 b2
  have hE : entriesPerDim = 1122000 := rfl
  rw [hE] at h
  have hd : d.1 = d'.1 := by omega
  refine ⟨Fin.ext hd, ?_⟩
  funext k
  match k with
  | 0 => omega
  | 1 => omega
  | 2 => omega

/-- Every point of the box is in some cell, so `C39_right_cell` applies to all of them. -/
theorem C39_cells_cover (x : Fin 3 → ℚ) (hx : x ∈ box spe10Lower spe10Upper) :
    ∃ c : Fin 3 → ℕ, ∀ d, InCell (spe10Lower d) (spe10Upper d) (spe10Elements d) (c d) (x d) :=
  ⟨_, fun d => whichPartition_inCell (spe10_elements d).1 (spe10_lower_lt d) (hx d).1 (hx d).2⟩

/-- Non-vacuity: the upper corner of the closed box is in the last cell. -/
example : spe10Upper ∈ box spe10Lower spe10Upper ∧ spe10Entry id spe10Upper 2 = 3 * entriesPerDim - 1 := by
  refine ⟨fun d => ⟨(spe10_lower_lt d).le, le_refl _⟩, ?_⟩
  rw [C39_right_cell spe10Upper (fun d => ⟨(spe10_lower_lt d).le, le_refl _⟩) ![59, 219, 84]]
  · rfl
  · intro d
    refine ⟨by revert d; decide, ?_, Or.inr ⟨by revert d; decide, le_refl _⟩⟩
    match d with
    | 0 => norm_num [node, spe10Lower, spe10Upper, spe10Elements]
    | 1 => norm_num [node, spe10Lower, spe10Upper, spe10Elements]
    | 2 =>
      show (0 : ℚ) + ((84 : ℕ) : ℚ) * ((1 - 0) / ((85 : ℕ) : ℚ)) ≤ 1
      norm_num

/-! ## C40 -/

/-- The reading loop: a write outside the array happens iff there are too many numbers; otherwise the entries are
the images of the numbers, in order. -/
theorem fillLoop_eq (cap : ℕ) (f : ℚ → ℚ) (l : List ℚ) (c : ℕ) (a : ℕ → ℚ) :
    (c + l.length ≤ cap → ∃ a', fillLoop cap f l c a = some (c + l.length, a') ∧
      (∀ i, (h : i < l.length) → a' (c + i) = f l[i]) ∧ (∀ i, i < c ∨ c + l.length ≤ i → a' i = a i)) ∧
    (c ≤ cap → cap < c + l.length → fillLoop cap f l c a = none) := by
  induction l generalizing c a with
  | nil =>
    refine ⟨fun _ => ⟨a, rfl, fun i h => absurd h (Nat.not_lt_zero i), fun _ _ => rfl⟩, fun h h' => ?_⟩
    simp only [List.length_nil] at h'
    omega
  | cons v l ih =>
    constructor
    · intro h
      rw [List.length_cons] at h
      obtain ⟨a', h1, h2, h3⟩ := (ih (c + 1) (fun i => if i = c then f v else a i)).1 (by omega)
      refine ⟨a', ?_, ?_, ?_⟩
      · unfold fillLoop
        rw [if_pos (by omega), h1, List.length_cons]
        congr 2
        omega
      · intro i hi
        cases i with
        | zero =>
          rw [Nat.add_zero, h3 c (Or.inl (by omega)), if_pos rfl]
          rfl
        | succ i =>
          have := h2 i (by simpa using hi)
          rw [show c + (i + 1) = c + 1 + i by omega, this]
          rfl
      · intro i hi
        rw [List.length_cons] at hi
        rw [h3 i (by omega), if_neg (by omega)]
    · intro h h'
      unfold fillLoop
      split_ifs with hc
      · rw [List.length_cons] at h'
        exact (ih (c + 1) _).2 (by omega) (by omega)
      · rfl

/-- **C40** (partial: no more numbers than entries) For a file that can be opened and a valid range: reading succeeds exactly
if the file has as many numbers as the array has entries, and then every entry is the affinely transformed corresponding
number; with fewer numbers it is an I/O error. -/
theorem C40_read_partial (lo hi min max : ℚ) (h : min < max) (numbers : List ℚ)
    (hn : numbers.length ≤ 3 * entriesPerDim) :
    (numbers.length = 3 * entriesPerDim ∧ ∃ a, spe10Read lo hi min max (some numbers) = .ok a ∧
      ∀ i, (hi' : i < numbers.length) →
        a i = min + (max - min) / (hi - lo) * (numbers[i] - lo)) ∨
    (numbers.length < 3 * entriesPerDim ∧ spe10Read lo hi min max (some numbers) = .ioError) := by
  obtain ⟨a, h1, h2, -⟩ := (fillLoop_eq (3 * entriesPerDim)
    (fun tmp => tmp * ((max - min) / (hi - lo)) + (min - (max - min) / (hi - lo) * lo)) numbers 0 (fun _ => 0)).1
    (by omega)
  rw [Nat.zero_add] at h1
  have hr : spe10Read lo hi min max (some numbers) =
      if numbers.length ≠ 3 * entriesPerDim then .ioError else .ok a := by
    unfold spe10Read
    simp only [gt_iff_lt, h, if_true]
    rw [h1]
  rcases Nat.lt_or_eq_of_le hn with hlt | heq
  · right
    exact ⟨hlt, by rw [hr, if_pos (by omega)]⟩
  · left
    refine ⟨heq, a, by rw [hr, if_neg (by omega)], fun i hi' => ?_⟩
    have := h2 i hi'
    rw [Nat.zero_add] at this
    rw [this]
    ring

/-- **C40** A missing file is rejected, and so is an empty range. -/
theorem C40_missing_file (lo hi min max : ℚ) :
    spe10Read lo hi min max none = .fileMissing ∧
    ∀ numbers, max ≤ min → spe10Read lo hi min max (some numbers) = .rangeError := by
  refine ⟨rfl, fun numbers h => ?_⟩
  unfold spe10Read
  simp [not_lt.mpr h]

/-- **C40** (the negation) Every file with too many numbers makes the loop write outside the array, before the number of entries
is checked. -/
theorem C40_violated (lo hi min max : ℚ) (h : min < max) (numbers : List ℚ)
    (hn : 3 * entriesPerDim < numbers.length) : spe10Read lo hi min max (some numbers) = .ub := by
  have h1 := (fillLoop_eq (3 * entriesPerDim)
    (fun tmp => tmp * ((max - min) / (hi - lo)) + (min - (max - min) / (hi - lo) * lo)) numbers 0 (fun _ => 0)).2
    (Nat.zero_le _) (by omega)
  unfold spe10Read
  simp only [gt_iff_lt, h, if_true]
  rw [h1]

/-- **C40** With the range of the data set itself, as configured by default, the numbers are stored unchanged. -/
theorem C40_default_identity (lo hi : ℚ) (h : lo < hi) (v : ℚ) : lo + (hi - lo) / (hi - lo) * (v - lo) = v := by
  have : hi - lo ≠ 0 := by intro h'; linarith
  rw [div_self this]; ring

/-- Non-vacuity: the hypothesis of `C40_violated` is met by a file with one number too many. -/
example : 3 * entriesPerDim < (List.replicate (3 * entriesPerDim + 1) (1 : ℚ)).length := by
  rw [List.length_replicate]; exact Nat.lt_succ_self _

/-! ## C41 -/

theorem tarbert_ratio (d : Fin 3) : 0 < deltas d ∧
    ∃ n : ℕ, n = ![60, 220, 35] d ∧ tarbertUpper d = n * deltas d := by
  match d with
  | 0 => exact ⟨by norm_num [deltas], 60, rfl, by norm_num [deltas, tarbertUpper]⟩
  | 1 => exact ⟨by norm_num [deltas], 220, rfl, by norm_num [deltas, tarbertUpper]⟩
  | 2 =>
    refine ⟨by show (0 : ℚ) < 0.6096; norm_num, 35, rfl, ?_⟩
    show (21.336 : ℚ) = ((35 : ℕ) : ℚ) * 0.6096
    norm_num

/-- The interval in one direction is between 0 and the number of intervals, for the closed domain box and every monotone
rounding. -/
theorem interval_bounds (rd : ℚ → ℚ) (hrd : MonotoneRounding rd) (d : Fin 3) (n : ℕ) (hn : n ≤ 220)
    (hu : tarbertUpper d = n * deltas d) (x : ℚ) (h0 : 0 ≤ x) (h1 : x ≤ tarbertUpper d) :
    0 ≤ interval rd d x ∧ interval rd d x ≤ n := by
  have hd := (tarbert_ratio d).1
  have r0 : rd 0 = 0 := by simpa using hrd.nat 0 (by norm_num)
  have rn : rd (n : ℚ) = n := hrd.nat n (by omega)
  constructor
  · apply Int.floor_nonneg.mpr
    rw [← r0]
    exact hrd.mono (by positivity)
  · have hle : rd (x / deltas d) ≤ n := by
      rw [← rn]
      apply hrd.mono
      rw [div_le_iff₀ hd]
      linarith
    have := Int.floor_mono hle
    simpa [interval] using this

/-- **C41** (partial: component block) For every point of the closed domain box, in two (`x 2 = 0`) and three dimensions, and
for every monotone rounding, the lookups address entries of the right component block, so valid entries of the array. -/
theorem C41_in_block_partial (rd : ℚ → ℚ) (hrd : MonotoneRounding rd) (x : Fin 3 → ℚ)
    (hx : x ∈ box (fun _ => 0) tarbertUpper) (d : Fin 3) :
    let e := tarbertEntry (tarbertOffset (interval rd 0 (x 0)) (interval rd 1 (x 1)) (interval rd 2 (x 2))) d
    (d.1 * 1122000 : ℤ) ≤ e ∧ e < (d.1 + 1) * 1122000 ∧ e < tarbertSize := by
  obtain ⟨-, n0, hn0, hu0⟩ := tarbert_ratio 0
  obtain ⟨-, n1, hn1, hu1⟩ := tarbert_ratio 1
  obtain ⟨-, n2, hn2, hu2⟩ := tarbert_ratio 2
  have hn0 : n0 = 60 := hn0
  have hn1 : n1 = 220 := hn1
  have hn2 : n2 = 35 := hn2
  have b0 := interval_bounds rd hrd 0 n0 (by omega) hu0 (x 0) (hx 0).1 (hx 0).2
  have b1 := interval_bounds rd hrd 1 n1 (by omega) hu1 (x 1) (hx 1).1 (hx 1).2
  have b2 := interval_bounds rd hrd 2 n2 (by omega) hu2 (x 2) (hx 2).1 (hx 2).2
  have hsz : (tarbertSize : ℤ) = 3366000 := rfl
  match d with
  | 0 =>
    show ((0 : ℕ) * 1122000 : ℤ) ≤ tarbertOffset _ _ _ ∧ tarbertOffset _ _ _ < ((0 : ℕ) + 1) * 1122000 ∧
      tarbertOffset _ _ _ < (tarbertSize : ℤ)
    rw [hsz]; unfold tarbertOffset; omega
  | 1 =>
    show ((1 : ℕ) * 1122000 : ℤ) ≤ tarbertOffset _ _ _ + 1122000 ∧
      tarbertOffset _ _ _ + 1122000 < ((1 : ℕ) + 1) * 1122000 ∧ tarbertOffset _ _ _ + 1122000 < (tarbertSize : ℤ)
    rw [hsz]; unfold tarbertOffset; omega
  | 2 =>
    show ((2 : ℕ) * 1122000 : ℤ) ≤ tarbertOffset _ _ _ + 2244000 ∧
      tarbertOffset _ _ _ + 2244000 < ((2 : ℕ) + 1) * 1122000 ∧ tarbertOffset _ _ _ + 2244000 < (tarbertSize : ℤ)
    rw [hsz]; unfold tarbertOffset; omega

/-- Exact arithmetic: below the upper boundary the interval is the raster cell containing the coordinate. -/
theorem interval_inCell (d : Fin 3) (n : ℕ) (hu : tarbertUpper d = n * deltas d) (x : ℚ) (h0 : 0 ≤ x)
    (h1 : x < tarbertUpper d) : ∃ i : ℕ, interval id d x = i ∧ InCell 0 (tarbertUpper d) n i x := by
  have hd := (tarbert_ratio d).1
  have hq0 : 0 ≤ x / deltas d := by positivity
  have hqn : x / deltas d < n := by rw [div_lt_iff₀ hd]; linarith
  have hf : 0 ≤ ⌊x / deltas d⌋ := Int.floor_nonneg.mpr hq0
  obtain ⟨i, hi⟩ := Int.eq_ofNat_of_zero_le hf
  have hle : (i : ℚ) ≤ x / deltas d := by
    have := Int.floor_le (x / deltas d); rw [hi] at this; exact_mod_cast this
  have hlt : x / deltas d < i + 1 := by
    have := Int.lt_floor_add_one (x / deltas d); rw [hi] at this; exact_mod_cast this
  have hin : i < n := by
    have : (i : ℚ) < n := lt_of_le_of_lt hle hqn
    exact_mod_cast this
  have hnq : (0 : ℚ) < n := by
    have : 0 < n := by omega
    exact_mod_cast this
  have hstep : (tarbertUpper d - 0) / n = deltas d := by rw [hu]; field_simp; ring
  refine ⟨i, hi, hin, ?_, Or.inl ?_⟩
  · unfold node; rw [hstep]; rw [le_div_iff₀ hd] at hle; linarith
  · unfold node; rw [hstep]; rw [div_lt_iff₀ hd] at hlt; push_cast; linarith

/-- **C41** (partial: below the upper boundary, exact arithmetic) The entries are those of the raster cell containing the
point. -/
theorem C41_right_cell_partial (x : Fin 3 → ℚ) (h0 : ∀ d, 0 ≤ x d) (h1 : ∀ d, x d < tarbertUpper d)
    (c : Fin 3 → ℕ) (hc : ∀ d, InCell 0 (tarbertUpper d) (![60, 220, 35] d) (c d) (x d)) (d : Fin 3) :
    tarbertEntry (tarbertOffset (interval id 0 (x 0)) (interval id 1 (x 1)) (interval id 2 (x 2))) d =
      d.1 * 1122000 + (c 0 + 60 * c 1 + 13200 * c 2) := by
  have key : ∀ d, interval id d (x d) = c d := by
    intro d
    obtain ⟨hd, n, hn, hu⟩ := tarbert_ratio d
    obtain ⟨i, hi, hin⟩ := interval_inCell d n hu (x d) (h0 d) (h1 d)
    have hpos : 0 < tarbertUpper d := lt_of_le_of_lt (h0 d) (h1 d)
    rw [hn] at hin
    rw [hi, inCell_unique hpos hin (hc d)]
  rw [key, key, key]
  match d with
  | 0 => simp only [tarbertEntry, tarbertOffset]; simp; ring
  | 1 => simp only [tarbertEntry, tarbertOffset]; simp; ring
  | 2 => simp only [tarbertEntry, tarbertOffset]; simp; ring

/-- **C41** (partial: below the upper boundary, exact arithmetic) The value: with a completely filled array the evaluation
returns the diagonal matrix whose entry `d` is the value stored for the raster cell of the point in the `d`-th block. -/
theorem C41_value_partial (x : Fin 3 → ℚ) (h0 : ∀ d, 0 ≤ x d) (h1 : ∀ d, x d < tarbertUpper d)
    (c : Fin 3 → ℕ) (hc : ∀ d, InCell 0 (tarbertUpper d) (![60, 220, 35] d) (c d) (x d))
    (perm : ℕ → ℚ) (y : Matrix (Fin 3) (Fin 3) ℚ) :
    ∃ A, tarbertEvaluate id (some fun k => some (perm k)) x y = .ok A ∧
      ∀ d e, A d e = if d = e then perm (d.1 * 1122000 + (c 0 + 60 * c 1 + 13200 * c 2)) else 0 := by
  have key := C41_right_cell_partial x h0 h1 c hc
  have k0 := key 0
  have k1 := key 1
  have k2 := key 2
  refine ⟨Matrix.diagonal fun d => perm (d.1 * 1122000 + (c 0 + 60 * c 1 + 13200 * c 2)), ?_, fun d e => ?_⟩
  · unfold tarbertEvaluate
    simp only [k0, k1, k2]
    have t : ∀ d : ℕ, ((d : ℤ) * 1122000 + (c 0 + 60 * c 1 + 13200 * c 2)).toNat =
        d * 1122000 + (c 0 + 60 * c 1 + 13200 * c 2) := by
      intro d; omega
    have p : ∀ d : ℕ, (0 : ℤ) ≤ (d : ℤ) * 1122000 + (c 0 + 60 * c 1 + 13200 * c 2) := by
      intro d; omega
    rw [if_pos (p _), if_pos (p _), if_pos (p _), t, t, t]
    have v : ∀ f : Fin 3 → ℚ, ![f 0, f 1, f 2] = f := by
      intro f
      funext d
      match d with
      | 0 => rfl
      | 1 => rfl
      | 2 => rfl
    obtain ⟨F, hF⟩ : ∃ F : ℕ → ℚ, ∀ n, perm (n * 1122000 + (c 0 + 60 * c 1 + 13200 * c 2)) = F n := ⟨_, fun _ => rfl⟩
    simp only [hF]
    exact congrArg (fun g => Outcome.ok (Matrix.diagonal g)) (v fun d => F d.1)
  · rw [Matrix.diagonal_apply]

/-- **C41** (the negation) On the face `x[0] = 365.76` of the domain the entry of another raster cell is read: the point
`(365.76, 0, 0)` is in cell `(59, 0, 0)` with entry 59, but entry 60, of cell `(0, 1, 0)`, is used. -/
theorem C41_violated : ∃ x ∈ box (fun _ => 0) tarbertUpper,
    (∀ d, InCell 0 (tarbertUpper d) (![60, 220, 35] d) (![59, 0, 0] d) (x d)) ∧
    tarbertOffset (interval id 0 (x 0)) (interval id 1 (x 1)) (interval id 2 (x 2)) = 60 := by
  refine ⟨fun d => match d with | 0 => 365.76 | 1 => 0 | 2 => 0, fun d => ?_, fun d => ?_, ?_⟩
  · match d with
    | 0 => exact ⟨by norm_num, by norm_num [tarbertUpper]⟩
    | 1 => exact ⟨by norm_num, by norm_num [tarbertUpper]⟩
    | 2 => exact ⟨le_refl _, by show (0 : ℚ) ≤ 21.336; norm_num⟩
  · match d with
    | 0 => exact ⟨by decide, by norm_num [node, tarbertUpper], Or.inr ⟨rfl, by norm_num [tarbertUpper]⟩⟩
    | 1 => exact ⟨by decide, by norm_num [node, tarbertUpper], Or.inl (by norm_num [node, tarbertUpper])⟩
    | 2 =>
      refine ⟨by decide, ?_, Or.inl ?_⟩
      · show (0 : ℚ) + ((0 : ℕ) : ℚ) * ((21.336 - 0) / ((35 : ℕ) : ℚ)) ≤ 0
        norm_num
      · show (0 : ℚ) < (0 : ℚ) + ((0 + 1 : ℕ) : ℚ) * ((21.336 - 0) / ((35 : ℕ) : ℚ))
        norm_num
  · have e0 : interval id 0 (365.76 : ℚ) = 60 := by
      show ⌊(365.76 : ℚ) / 6.096⌋ = 60
      norm_num
    have e1 : interval id 1 (0 : ℚ) = 0 := by simp [interval]
    have e2 : interval id 2 (0 : ℚ) = 0 := by simp [interval]
    simp [e0, e1, e2, tarbertOffset]

/-! ## C42 -/

/-- Reading when white space follows the last number. -/
theorem tarbertLoop_blank (cap : ℕ) (v : ℚ) (rest : List ℚ) (c : ℕ) (a : Buffer) :
    (c + (rest.length + 1) ≤ cap → ∃ a', tarbertLoop cap .blank v rest c a = .ok (c + (rest.length + 1), a') ∧
      (∀ i, (h : i < rest.length + 1) → a' (c + i) = some (v :: rest)[i]) ∧
      (∀ i, i < c ∨ c + (rest.length + 1) ≤ i → a' i = a i)) ∧
    (cap < c + (rest.length + 1) → tarbertLoop cap .blank v rest c a = .ub) := by
  induction rest generalizing v c a with
  | nil =>
    constructor
    · intro h
      refine ⟨_, by unfold tarbertLoop; rw [if_pos (by simpa using h)]; rfl, fun i hi => ?_, fun i hi => ?_⟩
      · have : i = 0 := by simpa using hi
        subst this
        simp
      · rw [if_neg]
        simp at hi
        omega
    · intro h
      unfold tarbertLoop
      rw [if_neg (by simp at h; omega)]
  | cons w rest ih =>
    have hstep : c < cap → tarbertLoop cap .blank v (w :: rest) c a =
        tarbertLoop cap .blank w rest (c + 1) (fun i => if i = c then some v else a i) := by
      intro hc
      rw [tarbertLoop.eq_1]
      rw [if_pos hc]
      cases rest <;> rfl
    constructor
    · intro h
      rw [List.length_cons] at h
      obtain ⟨a', h1, h2, h3⟩ := (ih w (c + 1) (fun i => if i = c then some v else a i)).1 (by omega)
      refine ⟨a', ?_, ?_, ?_⟩
      · rw [hstep (by omega), h1, List.length_cons]
        congr 2
        omega
      · intro i hi
        cases i with
        | zero => rw [Nat.add_zero, h3 c (Or.inl (by omega)), if_pos rfl]; rfl
        | succ i =>
          have := h2 i (by simpa using hi)
          rw [show c + (i + 1) = c + 1 + i by omega, this]
          rfl
      · intro i hi
        rw [List.length_cons] at hi
        rw [h3 i (by omega), if_neg (by omega)]
    · intro h
      rw [List.length_cons] at h
      by_cases hc : c < cap
      · rw [hstep hc]
        exact (ih w (c + 1) _).2 (by omega)
      · rw [tarbertLoop.eq_1, if_neg hc]

/-- Without white space after the last number, reading is as if it were not there. -/
theorem tarbertLoop_bare (cap : ℕ) (v w : ℚ) (rest : List ℚ) (c : ℕ) (a : Buffer) :
    tarbertLoop cap .bare v (w :: rest) c a = tarbertLoop cap .blank v (w :: rest).dropLast c a := by
  induction rest generalizing v w c a with
  | nil =>
    rw [tarbertLoop.eq_1, tarbertLoop.eq_1]
    rfl
  | cons u rest ih =>
    have e : (w :: u :: rest).dropLast = w :: (u :: rest).dropLast := rfl
    rw [e, tarbertLoop.eq_1, tarbertLoop.eq_1]
    by_cases hc : c < cap
    · simp only [hc, if_true]
      rw [ih w u]
      cases h : (u :: rest).dropLast <;> rfl
    · simp only [hc, if_false]

/-- **C42** (partial: at most as many numbers as entries, white space after the last number) After reading, entry `i` is the
`i`-th number; the remaining entries are unset. -/
theorem C42_read_partial (numbers : List ℚ) (h : numbers.length ≤ tarbertSize) :
    ∃ a, tarbertRead (some (numbers, .blank)) = .ok (some (numbers.length, a)) ∧
      (∀ i, (hi : i < numbers.length) → a i = some numbers[i]) ∧ ∀ i, numbers.length ≤ i → a i = none := by
  cases numbers with
  | nil => exact ⟨fun _ => none, rfl, fun i hi => absurd hi (Nat.not_lt_zero i), fun _ _ => rfl⟩
  | cons v rest =>
    rw [List.length_cons] at h
    obtain ⟨a, h1, h2, h3⟩ := (tarbertLoop_blank tarbertSize v rest 0 (fun _ => none)).1 (by omega)
    refine ⟨a, ?_, fun i hi => ?_, fun i hi => ?_⟩
    · cases rest <;> simp only [tarbertRead, h1, List.length_cons] <;> simp
    · have := h2 i (by simpa using hi)
      simpa using this
    · exact h3 i (Or.inr (by simpa using hi))

/-- **C42** (the negation) A file with at most two of the three blocks is accepted, and the evaluation reads memory never written at every
point of the domain. -/
theorem C42_violated_short (rd : ℚ → ℚ) (hrd : MonotoneRounding rd) (numbers : List ℚ) (h : numbers.length ≤ 2 * 1122000) (x : Fin 3 → ℚ)
    (hx : x ∈ box (fun _ => 0) tarbertUpper) (y : Matrix (Fin 3) (Fin 3) ℚ) :
    ∃ a, tarbertRead (some (numbers, .blank)) = .ok (some (numbers.length, a)) ∧ tarbertEvaluate rd (some a) x y = .ub := by
  obtain ⟨a, h1, -, h3⟩ := C42_read_partial numbers (h.trans (by norm_num [tarbertSize]))
  refine ⟨a, h1, ?_⟩
  have hb := C41_in_block_partial rd hrd x hx 2
  have hn : a (tarbertEntry (tarbertOffset (interval rd 0 (x 0)) (interval rd 1 (x 1)) (interval rd 2 (x 2))) 2).toNat = none := by
    refine h3 _ (h.trans ?_)
    have := hb.1
    norm_num at this
    omega
  unfold tarbertEvaluate
  dsimp only
  rw [hn, ite_self]
  split
  · simp_all
  · rfl

/-- **C42** (the negation) A file that ends directly after its last number: the last number is not stored. -/
theorem C42_violated_last (numbers : List ℚ) (v : ℚ) (h : numbers.length ≤ tarbertSize) :
    tarbertRead (some (numbers ++ [v], .bare)) = tarbertRead (some (numbers, .blank)) ∧
    ∃ a, tarbertRead (some (numbers ++ [v], .bare)) = .ok (some (numbers.length, a)) ∧ a numbers.length = none := by
  have key : tarbertRead (some (numbers ++ [v], .bare)) = tarbertRead (some (numbers, .blank)) := by
    cases numbers with
    | nil => rfl
    | cons u rest =>
      have hd : (rest ++ [v]).dropLast = rest := by simp
      cases hr : rest ++ [v] with
      | nil => simp at hr
      | cons w rest' =>
        have hl := tarbertLoop_bare tarbertSize u w rest' 0 (fun _ => none)
        rw [← hr, hd] at hl
        have e1 : tarbertRead (some (u :: rest ++ [v], .bare)) =
            match tarbertLoop tarbertSize .bare u (rest ++ [v]) 0 (fun _ => none) with
            | .ok r => .ok (some r)
            | .throw => .throw
            | .ub => .ub := by
          rw [List.cons_append, hr]
          rfl
        have e2 : tarbertRead (some (u :: rest, .blank)) =
            match tarbertLoop tarbertSize .blank u rest 0 (fun _ => none) with
            | .ok r => .ok (some r)
            | .throw => .throw
            | .ub => .ub := by
          cases rest <;> rfl
        rw [e1, e2, hl]
  refine ⟨key, ?_⟩
  obtain ⟨a, h1, -, h3⟩ := C42_read_partial numbers h
  exact ⟨a, by rw [key, h1], h3 _ (le_refl _)⟩

/-- **C42** (the negation) A file with more numbers than the array has entries makes the loop write outside the array. -/
theorem C42_violated_overflow (numbers : List ℚ) (h : tarbertSize < numbers.length) :
    tarbertRead (some (numbers, .blank)) = .ub := by
  cases numbers with
  | nil => simp at h
  | cons v rest =>
    rw [List.length_cons] at h
    have h1 := (tarbertLoop_blank tarbertSize v rest 0 (fun _ => none)).2 (by omega)
    cases rest <;> simp only [tarbertRead, h1]

theorem tarbertLoop_garbage (cap : ℕ) (v : ℚ) (rest : List ℚ) (c : ℕ) (a : Buffer) :
    tarbertLoop cap .garbage v rest c a = .ub := by
  induction rest generalizing v c a with
  | nil => rw [tarbertLoop.eq_1]; split_ifs <;> rfl
  | cons w rest ih =>
    rw [tarbertLoop.eq_1]
    split_ifs
    · cases rest with
      | nil => exact ih _ _ _
      | cons u rest => exact ih _ _ _
    · rfl

/-- **C42** (the negation) Text which is not a number, after any numbers: the loop never ends regularly and writes outside the
array. -/
theorem C42_violated_garbage (numbers : List ℚ) : tarbertRead (some (numbers, .garbage)) = .ub := by
  cases numbers with
  | nil => rfl
  | cons v rest => cases rest <;> simp only [tarbertRead, tarbertLoop_garbage]

/-- Non-vacuity: two numbers. -/
example : ∃ a, tarbertRead (some ([3, 5], .blank)) = .ok (some (2, a)) ∧ a 1 = some 5 := by
  obtain ⟨a, h1, h2, -⟩ := C42_read_partial [3, 5] (by decide)
  exact ⟨a, h1, h2 1 (by decide)⟩

/-! ## C43 -/

/-- The value of the diffusion (two dimensions) at a point with intervals `p`. -/
def valueAt (perm : ℤ → ℚ) (p : ℤ × ℤ) : Pc := .done (perm (p.1 + p.2 * 60)) (perm (p.1 + p.2 * 60 + 1122000))

/-- **C43** (partial: one thread after the other) If the second evaluation starts after the first one has ended both
threads obtain the value of their own point. -/
theorem C43_sequential_partial (perm : ℤ → ℚ) (p q : ℤ × ℤ) (s : Shared) :
    (runThreads perm p q (List.replicate 8 false ++ List.replicate 8 true) s .writeI0 .writeI0).2 =
      (valueAt perm p, valueAt perm q) := rfl

/-- What is known about the shared members at each position of a thread, if all threads evaluate at points with intervals
`p`. -/
def Good (perm : ℤ → ℚ) (p : ℤ × ℤ) (s : Shared) : Pc → Prop
  | .writeI0 => True
  | .writeI1 => s.i0 = p.1
  | .readI0 => s.i0 = p.1 ∧ s.i1 = p.2
  | .readI1 a => a = p.1 ∧ s.i1 = p.2
  | .writeM00 o => o = p.1 + p.2 * 60
  | .writeM11 o => o = p.1 + p.2 * 60 ∧ s.m00 = perm (p.1 + p.2 * 60)
  | .readM00 => s.m00 = perm (p.1 + p.2 * 60) ∧ s.m11 = perm (p.1 + p.2 * 60 + 1122000)
  | .readM11 y => y = perm (p.1 + p.2 * 60) ∧ s.m11 = perm (p.1 + p.2 * 60 + 1122000)
  | .done a b => Pc.done a b = valueAt perm p

theorem good_self (perm : ℤ → ℚ) (p : ℤ × ℤ) (s : Shared) (a : Pc) (h : Good perm p s a) :
    Good perm p (threadStep perm p.1 p.2 s a).1 (threadStep perm p.1 p.2 s a).2 := by
  cases a <;> simp_all [Good, threadStep, valueAt]

theorem good_other (perm : ℤ → ℚ) (p : ℤ × ℤ) (s : Shared) (a b : Pc) (ha : Good perm p s a) (h : Good perm p s b) :
    Good perm p (threadStep perm p.1 p.2 s a).1 b := by
  cases a <;> cases b <;> simp_all [Good, threadStep]

/-- **C43** (partial: both points in the same raster cell) Then every interleaving gives both threads the right value. -/
theorem C43_same_cell_partial (perm : ℤ → ℚ) (p : ℤ × ℤ) (sched : List Bool) (s : Shared) :
    let r := runThreads perm p p sched s .writeI0 .writeI0
    (∀ y z, r.2.1 = .done y z → Pc.done y z = valueAt perm p) ∧
    (∀ y z, r.2.2 = .done y z → Pc.done y z = valueAt perm p) := by
  have key : ∀ (sched : List Bool) (s : Shared) (a b : Pc), Good perm p s a → Good perm p s b →
      Good perm p (runThreads perm p p sched s a b).1 (runThreads perm p p sched s a b).2.1 ∧
      Good perm p (runThreads perm p p sched s a b).1 (runThreads perm p p sched s a b).2.2 := by
    intro sched
    induction sched with
    | nil => intro s a b ha hb; exact ⟨ha, hb⟩
    | cons t l ih =>
      intro s a b ha hb
      cases t with
      | false => exact ih _ _ _ (good_self perm p s a ha) (good_other perm p s a b ha hb)
      | true => exact ih _ _ _ (good_other perm p s b a hb ha) (good_self perm p s b hb)
  intro r
  obtain ⟨h1, h2⟩ := key sched s .writeI0 .writeI0 trivial trivial
  constructor
  · intro y z h
    have h1' : Good perm p r.1 r.2.1 := h1
    rw [h] at h1'
    exact h1'
  · intro y z h
    have h2' : Good perm p r.1 r.2.2 := h2
    rw [h] at h2'
    exact h2'

/-- **C43** (the negation) For any two points there is an interleaving after which the first thread has obtained the value
of the point of the second. -/
theorem C43_violated (perm : ℤ → ℚ) (p q : ℤ × ℤ) (s : Shared) : ∃ sched,
    (runThreads perm p q sched s .writeI0 .writeI0).2 = (valueAt perm q, valueAt perm q) :=
  ⟨List.replicate 6 false ++ List.replicate 6 true ++ [false, false, true, true], rfl⟩

/-- **C43** (the negation) There is even an interleaving in which the first thread uses an entry which belongs to neither
point: first interval of one and second interval of the other. -/
theorem C43_violated_mixed (perm : ℤ → ℚ) (p q : ℤ × ℤ) (s : Shared) : ∃ sched,
    (runThreads perm p q sched s .writeI0 .writeI0).2.1 = valueAt perm (q.1, p.2) :=
  ⟨[false, true] ++ List.replicate 7 false, rfl⟩

/-- Non-vacuity: two points with different values. -/
example : valueAt (fun i => (i : ℚ)) (0, 0) ≠ valueAt (fun i => (i : ℚ)) (1, 0) := by
  simp [valueAt]

/-! ## C55 -/

/-- **C55** (partial: file missing) Without the data file the object can be constructed and destroyed, and the first
evaluation throws. -/
theorem C55_no_file_partial (rd : ℚ → ℚ) (x : Fin 3 → ℚ) (xs : List (Fin 3 → ℚ)) :
    tarbertLife rd none [] = .ok () ∧ tarbertLife rd none (x :: xs) = .throw := by
  exact ⟨rfl, rfl⟩

/-- **C55** (the negation) Whenever the data file could be opened, whatever is in it and however the object is used, its life
includes undefined behaviour: the array is released with `delete` instead of `delete[]`. -/
theorem C55_violated (rd : ℚ → ℚ) (content : List ℚ × Ending) (xs : List (Fin 3 → ℚ)) :
    tarbertLife rd (some content) xs = .ub := by
  have hr : (tarbertRead (some content) = .ub) ∨ ∃ r, tarbertRead (some content) = .ok (some r) := by
    have hl : ∀ (rest : List ℚ) (cap : ℕ) (e : Ending) (v : ℚ) (c : ℕ) (a : Buffer),
        tarbertLoop cap e v rest c a = .ub ∨ ∃ r, tarbertLoop cap e v rest c a = .ok r := by
      intro rest
      induction rest with
      | nil =>
        intro cap e v c a
        rw [tarbertLoop.eq_1]
        split_ifs
        · cases e <;> simp
        · exact Or.inl rfl
      | cons w rest ih =>
        intro cap e v c a
        rw [tarbertLoop.eq_1]
        split_ifs
        · cases rest with
          | nil =>
            cases e
            · exact ih _ _ _ _ _
            · exact Or.inr ⟨_, rfl⟩
            · exact ih _ _ _ _ _
          | cons u rest => exact ih _ _ _ _ _
        · exact Or.inl rfl
    unfold tarbertRead
    split
    · simp at *
    · exact Or.inl rfl
    · exact Or.inr ⟨_, rfl⟩
    · exact Or.inr ⟨_, rfl⟩
    · rcases hl _ _ _ _ _ _ with h | ⟨r, h⟩
      · rw [h]; exact Or.inl rfl
      · rw [h]; exact Or.inr ⟨r, rfl⟩
  unfold tarbertLife
  rcases hr with h | ⟨r, h⟩
  · rw [h]
  · rw [h]
    simp only [Option.map_some, tarbertDestroy]
    split <;> first | rfl | simp_all

/-! ## C37 -/

/-- A function writing its result into an object passed by reference determines its result: it does not depend on what
was in the object. -/
def Determines {α β γ : Type} (f : α → β → γ) : Prop := ∀ x old old', f x old = f x old'

/-- **C37** (partial: Random and Tarbert) These assign the whole matrix. -/
theorem C37_random_tarbert_partial {n : ℕ} (field : Synthetic.Point n → ℝ) (rd : ℚ → ℚ) (perm : Option Buffer) :
    Determines (Synthetic.randomDiffusion field) ∧ Determines (tarbertEvaluate rd perm) :=
  ⟨fun _ _ _ => rfl, fun _ _ _ => rfl⟩

/-- **C37** (the negation) Synthetic and ER2007, in every dimension, and SPE10 do not: the off-diagonal entries are those
from before the call. -/
theorem C37_violated (n : ℕ) (eps : ℝ) (rd : ℚ → ℚ) (perm : ℕ → ℚ) :
    ¬ Determines (Synthetic.diffusion (n := n) eps) ∧ ¬ Determines (Synthetic.erDiffusion (n := n)) ∧
    ¬ Determines (spe10Evaluate rd perm) := by
  have h01 : (0 : Fin (n + 2)) ≠ 1 := by simp
  refine ⟨fun h => ?_, fun h => ?_, fun h => ?_⟩
  · have := congrFun (congrFun (h 0 0 (fun _ _ => 1)) 0) 1
    simp [Synthetic.diffusion, Synthetic.assign] at this
  · have := congrFun (congrFun (h 0 0 (fun _ _ => 1)) 0) 1
    simp [Synthetic.erDiffusion, Synthetic.assign] at this
  · have := congrFun (congrFun (h 0 0 (fun _ _ => 1)) 0) 1
    simp [spe10Evaluate] at this

/-- **C37** (partial: objects which agree off the diagonal, e.g. new objects if these are zero) Then the results of
all diffusion coefficients agree; in two dimensions for Synthetic and ER2007. -/
theorem C37_same_off_diagonal_partial (eps : ℝ) (rd : ℚ → ℚ) (perm : ℕ → ℚ) :
    (∀ x (old old' : Synthetic.Mat 0), (∀ i j, i ≠ j → old i j = old' i j) →
      Synthetic.diffusion eps x old = Synthetic.diffusion eps x old' ∧
      Synthetic.erDiffusion x old = Synthetic.erDiffusion x old') ∧
    (∀ x old old', (∀ i j, i ≠ j → old i j = old' i j) → spe10Evaluate rd perm x old = spe10Evaluate rd perm x old') := by
  constructor
  · intro x old old' h
    have h01 := h 0 1 (by simp)
    have h10 := h 1 0 (by simp)
    constructor <;> ext i j <;>
      (match i, j with
       | 0, 0 => simp [Synthetic.diffusion, Synthetic.erDiffusion, Synthetic.assign]
       | 0, 1 => simpa [Synthetic.diffusion, Synthetic.erDiffusion, Synthetic.assign] using h01
       | 1, 0 => simpa [Synthetic.diffusion, Synthetic.erDiffusion, Synthetic.assign] using h10
       | 1, 1 => simp [Synthetic.diffusion, Synthetic.erDiffusion, Synthetic.assign])
  · intro x old old' h
    ext i j
    simp only [spe10Evaluate]
    split_ifs with hij
    · rfl
    · exact h i j hij

/-- **C37** (partial: reuse) An object which starts as zero and is used for a sequence of points has, after each call,
the same content as a new zero object evaluated at the last point. -/
theorem C37_reuse_partial (rd : ℚ → ℚ) (perm : ℕ → ℚ) (xs : List (Fin 3 → ℚ)) (x : Fin 3 → ℚ) :
    spe10Evaluate rd perm x (xs.foldl (fun y x => spe10Evaluate rd perm x y) 0) = spe10Evaluate rd perm x 0 ∧
    spe10Evaluate rd perm x 0 = Matrix.diagonal (fun d => perm (spe10Entry rd x d)) := by
  have off : ∀ (l : List (Fin 3 → ℚ)) (y : Matrix (Fin 3) (Fin 3) ℚ), (∀ i j, i ≠ j → y i j = 0) →
      ∀ i j, i ≠ j → (l.foldl (fun y x => spe10Evaluate rd perm x y) y) i j = 0 := by
    intro l
    induction l with
    | nil => intro y h; exact h
    | cons u l ih =>
      intro y h
      refine ih _ (fun i j hij => ?_)
      simp only [spe10Evaluate, hij, if_false]
      exact h i j hij
  constructor
  · apply (C37_same_off_diagonal_partial 1 rd perm).2
    intro i j hij
    rw [off xs 0 (fun _ _ _ => rfl) i j hij]
    rfl
  · ext i j
    simp only [spe10Evaluate, Matrix.diagonal, Matrix.of_apply, Matrix.zero_apply]

end Verif.Permeability
