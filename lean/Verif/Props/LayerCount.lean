import Verif.Model.LayerCount
import Verif.Props.CellCounts
import Verif.Props.GridCreation
import Mathlib.Tactic.IntervalCases

/-!
# C94: numbers of oversampling layers
-/

namespace Verif.LayerCount
open Verif Verif.CellCounts Verif.Spec

/-- A coarse cell inside the domain, with at least one micro cell. -/
structure Dir.Valid (c : Dir) : Prop where
  lower : c.globalLower ≤ c.min
  order : c.min < c.max
  upper : c.max ≤ c.globalUpper
  micro : 1 ≤ c.micro

/-! ## Specification -/

/-- The number is accepted: there are cells, and they cover the coarse cell in this direction. -/
def Serves (c : Dir) : Prop := ∃ n, c.elements = .ok n ∧ 0 < n ∧ c.lower ≤ c.min ∧ c.max ≤ c.upper

/-! ## Non-negative numbers -/

theorem sides_le (c : Dir) : c.sides ≤ 2 := by
  unfold Dir.sides
  have h1 := Bool.toNat_le (!decide (c.min - (c.layers : ℚ) * c.delta < c.globalLower))
  have h2 := Bool.toNat_le (!decide (c.max + (c.layers : ℚ) * c.delta > c.globalUpper))
  omega

theorem delta_pos {c : Dir} (hc : c.Valid) : 0 < c.delta := by
  have h1 : (0 : ℚ) < c.micro := by exact_mod_cast hc.micro
  exact div_pos (by linarith [hc.order]) h1

/-- **C94** (non-negative numbers) The grid is the one of Model/LocalGrid, to which C01 to C03 apply, if the number of cells fits in the types
of the program. -/
theorem C94_nonneg_partial (c : Dir) (o : ℕ) (ho : c.layers = o) (h1 : c.sides * o < 2 ^ 31) (h2 : c.micro + c.sides * o < 2 ^ 32) :
    let e : LocalGrid.DirInput := ⟨c.min, c.max, c.globalLower, c.globalUpper, c.micro, o⟩
    c.elements = .ok e.elements ∧ c.lower = e.lowerLeft ∧ c.upper = e.upperRight ∧ (cutOverlay c.layers = true ↔ o ≠ 0) := by
  intro e
  have hq : ((c.layers : ℤ) : ℚ) = (o : ℚ) := by rw [ho]; rfl
  refine ⟨?_, ?_, ?_, ?_⟩
  · have hs : e.elements = c.micro + c.sides * o := by
      simp only [LocalGrid.DirInput.elements, LocalGrid.DirInput.exceedsLeft, LocalGrid.DirInput.exceedsRight, LocalGrid.DirInput.delta,
        Dir.sides, Dir.delta, hq, e]
      rfl
    rw [hs, Dir.elements, ho, if_pos ⟨le_trans (by norm_num) (Int.natCast_nonneg (c.sides * o)), by exact_mod_cast h1⟩, ← toUnsigned_nat h2]
    push_cast
    rfl
  · simp only [Dir.lower, Dir.delta, LocalGrid.DirInput.lowerLeft, LocalGrid.DirInput.delta, hq, e]
  · simp only [Dir.upper, Dir.delta, LocalGrid.DirInput.upperRight, LocalGrid.DirInput.delta, hq, e]
  · rw [cutOverlay, ho, decide_eq_true_iff]
    omega

/-- **C94** (numbers that do not fit) Otherwise the behaviour is undefined. -/
theorem C94_overflow (c : Dir) (o : ℕ) (ho : c.layers = o) (h : 2 ^ 31 ≤ c.sides * o ∨ 2 ^ 32 ≤ c.micro + c.sides * o) : c.elements = .ub := by
  rw [Dir.elements, ho]
  rcases h with h | h
  · refine if_neg fun hi => ?_
    have : (c.sides : ℤ) * (o : ℤ) < 2 ^ 31 := hi.2
    have h' : c.sides * o < 2 ^ 31 := by exact_mod_cast this
    omega
  · split_ifs
    · refine toUnsigned_large ?_
      have h' : ((2 ^ 32 : ℕ) : ℚ) ≤ ((c.micro + c.sides * o : ℕ) : ℚ) := Nat.cast_le.mpr h
      push_cast at h' ⊢
      exact h'
    · rfl

/-- Instance: so many layers around a cell in a large domain. -/
example : (⟨0, 1, -2 ^ 40, 2 ^ 40, 1, (2 ^ 30 : ℕ)⟩ : Dir).elements = .ub := by
  refine C94_overflow _ (2 ^ 30) rfl (Or.inl ?_)
  have : (⟨0, 1, -2 ^ 40, 2 ^ 40, 1, (2 ^ 30 : ℕ)⟩ : Dir).sides = 2 := by
    rw [Dir.sides, decide_eq_false (by norm_num [Dir.delta]), decide_eq_false (by norm_num [Dir.delta])]
    rfl
  rw [this]
  norm_num

/-! ## Negative numbers -/

theorem negative_facts {c : Dir} (hc : c.Valid) {k : ℕ} (hk : c.layers = -(k : ℤ)) :
    c.sides = 2 ∧ c.lower = c.min + k * c.delta ∧ c.upper = c.max - k * c.delta := by
  have hd := delta_pos hc
  have hkd : 0 ≤ (k : ℚ) * c.delta := by positivity
  have hq : ((c.layers : ℤ) : ℚ) = -(k : ℚ) := by rw [hk]; push_cast; rfl
  have e1 : c.min - (c.layers : ℚ) * c.delta = c.min + k * c.delta := by rw [hq]; ring
  have e2 : c.max + (c.layers : ℚ) * c.delta = c.max - k * c.delta := by rw [hq]; ring
  have h1 := hc.lower
  have h2 := hc.upper
  refine ⟨?_, ?_, ?_⟩
  · rw [Dir.sides, e1, e2, decide_eq_false (by linarith), decide_eq_false (by linarith)]
    rfl
  · rw [Dir.lower, e1, max_eq_left (by linarith)]
  · rw [Dir.upper, e2, min_eq_left (by linarith)]

/-- **C94** (negative numbers) What the program does with `-k`: for `2 k` up to the number of micro cells it takes a grid from which `k` layers
are missing on each side; beyond that the behaviour is undefined. -/
theorem C94_negative (c : Dir) (hc : c.Valid) (hm : c.micro < 2 ^ 32) (k : ℕ) (hk0 : 0 < k) (hk : c.layers = -(k : ℤ)) :
    (2 * k ≤ c.micro → 2 * k ≤ 2 ^ 31 → c.elements = .ok (c.micro - 2 * k)) ∧ (c.micro < 2 * k ∨ 2 ^ 31 < 2 * k → c.elements = .ub) ∧
      c.lower = c.min + k * c.delta ∧ c.upper = c.max - k * c.delta ∧ cutOverlay c.layers = false := by
  obtain ⟨hs, hlo, hup⟩ := negative_facts hc hk
  refine ⟨fun h hi => ?_, fun h => ?_, hlo, hup, ?_⟩
  · rw [Dir.elements, hs, hk, if_pos ⟨by push_cast; omega, by push_cast; omega⟩, ← toUnsigned_nat (n := c.micro - 2 * k) (by omega),
      Nat.cast_sub h]
    push_cast
    congr 1
    ring
  · rw [Dir.elements, hs, hk]
    split_ifs with hint
    · refine if_neg fun h' => ?_
      have h1 := h'.1
      have hint' := hint.1
      push_cast at hint'
      have h : c.micro < 2 * k := h.resolve_right fun h => by omega
      have h2 : ((c.micro + 1 : ℕ) : ℚ) ≤ ((2 * k : ℕ) : ℚ) := Nat.cast_le.mpr h
      push_cast at h1 h2
      linarith
    · rfl
  · rw [cutOverlay, hk]
    exact decide_eq_false (by omega)

/-- **C94** (exact condition, partial) A number serves its purpose exactly if it is not negative, provided the numbers of cells fit in the types
of the program. -/
theorem C94_serves_iff_partial (c : Dir) (hc : c.Valid) (h1 : IsInt ((c.sides : ℤ) * c.layers)) (h2 : (c.micro : ℤ) + c.sides * c.layers < 2 ^ 32) :
    Serves c ↔ 0 ≤ c.layers := by
  have hd := delta_pos hc
  constructor
  · rintro ⟨n, -, -, hlo, -⟩
    by_contra hneg
    obtain ⟨k, hk⟩ : ∃ k : ℕ, c.layers = -(k : ℤ) := ⟨c.layers.natAbs, by omega⟩
    have hk0 : 0 < k := by omega
    have := (negative_facts hc hk).2.1
    have h0 : 0 < (k : ℚ) * c.delta := by positivity
    linarith
  · intro h0
    obtain ⟨o, ho⟩ := Int.eq_ofNat_of_zero_le h0
    rw [ho] at h1 h2
    obtain ⟨e1, e2, e3, -⟩ := C94_nonneg_partial c o ho (by have := h1.2; exact_mod_cast this) (by exact_mod_cast h2)
    have hod : 0 ≤ (o : ℚ) * c.delta := by positivity
    have hq : ((c.layers : ℤ) : ℚ) = (o : ℚ) := by rw [ho]; rfl
    refine ⟨_, e1, ?_, ?_, ?_⟩
    · have := hc.micro
      simp only [LocalGrid.DirInput.elements]
      omega
    · rw [Dir.lower, hq]
      exact max_le (by linarith) hc.lower
    · rw [Dir.upper, hq]
      exact le_min (by linarith) hc.upper

/-- Instance: one layer around a cell with eight micro cells inside the domain. -/
example : (cell 0 1 4 1 8 1).Valid ∧ Serves (cell 0 1 4 1 8 1) ∧ ¬ Serves (cell 0 1 4 1 8 (-1)) := by
  have v : ∀ z, (cell 0 1 4 1 8 z).Valid := fun z => ⟨by norm_num [cell], by norm_num [cell], by norm_num [cell], by norm_num [cell]⟩
  have hs : ∀ z, (cell 0 1 4 1 8 z).sides ≤ 2 := fun z => sides_le _
  refine ⟨v _, (C94_serves_iff_partial _ (v _) ?_ ?_).mpr (by simp [cell]), fun h => ?_⟩
  · have := hs 1
    constructor <;> simp only [cell] at * <;> omega
  · have := hs 1
    simp only [cell] at *
    omega
  · have hk : (cell 0 1 4 1 8 (-1)).layers = -((1 : ℕ) : ℤ) := rfl
    have hn := (negative_facts (v (-1)) hk).1
    exact absurd ((C94_serves_iff_partial _ (v (-1)) (by rw [hn]; decide) (by rw [hn]; decide)).mp h) (by decide)

/-- **C94** (violated) With minus one layer and four micro cells on two coarse cells of the unit interval the program takes local grids of two
cells on `[1/8, 3/8]` and `[5/8, 7/8]`. -/
theorem C94_violated : (∀ k < 2, (cell 0 1 2 k 4 (-1)).elements = .ok 2) ∧ (cell 0 1 2 0 4 (-1)).lower = 1 / 8 ∧
    (cell 0 1 2 0 4 (-1)).upper = 3 / 8 ∧ (cell 0 1 2 1 4 (-1)).lower = 5 / 8 ∧ (cell 0 1 2 1 4 (-1)).upper = 7 / 8 ∧
    ∀ k < 2, ¬ Serves (cell 0 1 2 k 4 (-1)) := by
  have hv : ∀ k < 2, (cell 0 1 2 k 4 (-1)).Valid := by
    intro k hk
    interval_cases k <;> exact ⟨by norm_num [cell], by norm_num [cell], by norm_num [cell], by norm_num [cell]⟩
  have hk : ∀ k, (cell 0 1 2 k 4 (-1)).layers = -((1 : ℕ) : ℤ) := fun k => rfl
  have hn := fun k h => C94_negative _ (hv k h) (by show 4 < 2 ^ 32; norm_num) 1 one_pos (hk k)
  refine ⟨fun k h => (hn k h).1 (by show 2 * 1 ≤ 4; norm_num) (by norm_num), ?_, ?_, ?_, ?_, fun k h hs => ?_⟩
  · rw [(hn 0 (by norm_num)).2.2.1]
    norm_num [cell, Dir.delta]
  · rw [(hn 0 (by norm_num)).2.2.2.1]
    norm_num [cell, Dir.delta]
  · rw [(hn 1 (by norm_num)).2.2.1]
    norm_num [cell, Dir.delta]
  · rw [(hn 1 (by norm_num)).2.2.2.1]
    norm_num [cell, Dir.delta]
  · obtain ⟨n, -, -, h1, -⟩ := hs
    rw [(hn k h).2.2.1] at h1
    have := delta_pos (hv k h)
    push_cast at h1
    linarith

/-- **C94** (gaps) With `-k` layers, no local grid of any coarse cell contains a point which is closer than `k` fine cells to a coarse grid line in
some direction; in particular none contains a node of the coarse grid. -/
theorem C94_gaps {d : ℕ} (a b : Fin d → ℚ) (hab : ∀ i, a i < b i) (N m : Fin d → ℕ) (hN : ∀ i, 0 < N i) (hm : ∀ i, 0 < m i) (k : ℕ)
    (J : Fin d → ℕ) (hJ : ∀ i, J i < N i) (x : Fin d → ℚ) (i : Fin d) (l : ℕ) (hx : |x i - node (a i) (b i) (N i) l| < k * ((b i - a i) / (N i * m i))) :
    x ∉ box (fun i => (cell (a i) (b i) (N i) (J i) (m i) (-(k : ℤ))).lower) (fun i => (cell (a i) (b i) (N i) (J i) (m i) (-(k : ℤ))).upper) := by
  intro hmem
  have hNq : (0 : ℚ) < N i := by exact_mod_cast hN i
  have hmq : (0 : ℚ) < m i := by exact_mod_cast hm i
  have hw : 0 < (b i - a i) / (N i : ℚ) := div_pos (by linarith [hab i]) hNq
  have hJq : ((J i : ℕ) : ℚ) + 1 ≤ N i := by exact_mod_cast hJ i
  have hv : (cell (a i) (b i) (N i) (J i) (m i) (-(k : ℤ))).Valid := by
    refine ⟨?_, ?_, ?_, hm i⟩
    · show a i ≤ a i + _
      have : 0 ≤ (J i : ℚ) * ((b i - a i) / (N i : ℚ)) := by positivity
      linarith
    · show a i + (J i : ℚ) * _ < a i + ((J i : ℚ) + 1) * _
      nlinarith
    · show a i + ((J i : ℚ) + 1) * _ ≤ b i
      have h1 := mul_le_mul_of_nonneg_right hJq hw.le
      rw [mul_div_cancel₀ _ hNq.ne'] at h1
      linarith
  obtain ⟨-, h1, h2⟩ := negative_facts hv (k := k) rfl
  have hd : (cell (a i) (b i) (N i) (J i) (m i) (-(k : ℤ))).delta = (b i - a i) / (N i * m i) := by
    simp only [Dir.delta, cell]
    field_simp
    ring
  have hl := (hmem i).1
  have hu := (hmem i).2
  dsimp only at hl hu
  rw [h1, hd] at hl
  rw [h2, hd] at hu
  simp only [cell] at hl hu
  rw [abs_lt] at hx
  unfold node at hx
  rcases Nat.lt_or_ge (J i) l with h | h
  · have : ((J i : ℚ) + 1) * ((b i - a i) / (N i : ℚ)) ≤ (l : ℚ) * ((b i - a i) / (N i : ℚ)) :=
      mul_le_mul_of_nonneg_right (by exact_mod_cast h) hw.le
    linarith [hx.1]
  · have : (l : ℚ) * ((b i - a i) / (N i : ℚ)) ≤ (J i : ℚ) * ((b i - a i) / (N i : ℚ)) :=
      mul_le_mul_of_nonneg_right (by exact_mod_cast h) hw.le
    linarith [hx.2]

/-- Instance: a node of the coarse grid of the unit square. -/
example (k : ℕ) (hk : 0 < k) : ∃ x : Fin 2 → ℚ, ∀ J : Fin 2 → ℕ, (∀ i, J i < 4) →
    x ∉ box (fun i => (cell 0 1 4 (J i) 8 (-(k : ℤ))).lower) (fun i => (cell 0 1 4 (J i) 8 (-(k : ℤ))).upper) := by
  refine ⟨fun _ => 1 / 4, fun J hJ => C94_gaps (fun _ => 0) (fun _ => 1) (fun _ => one_pos) (fun _ => 4) (fun _ => 8) (fun _ => by norm_num)
    (fun _ => by norm_num) k J hJ _ 0 1 ?_⟩
  have : (0 : ℚ) < k := by exact_mod_cast hk
  norm_num [node]
  positivity

/-- **C94** (volume) The share of the domain on which the coarse system is assembled with `-k` layers: all cells of the local grids lie in their
coarse cell, and their volumes sum up to the product of `(m - 2 k) / m`. -/
theorem C94_volume {d : ℕ} (a b : Fin d → ℚ) (hab : ∀ i, a i < b i) (N m : Fin d → ℕ) (hN : ∀ i, 0 < N i) (hm : ∀ i, 0 < m i) (k : ℕ) :
    ∑ J : ∀ i, Fin (N i), ∏ i, ((cell (a i) (b i) (N i) (J i).1 (m i) (-(k : ℤ))).upper - (cell (a i) (b i) (N i) (J i).1 (m i) (-(k : ℤ))).lower) =
      (∏ i, (b i - a i)) * ∏ i, (1 - 2 * k / (m i : ℚ)) := by
  have key : ∀ (i : Fin d) (j : Fin (N i)), (cell (a i) (b i) (N i) j.1 (m i) (-(k : ℤ))).upper - (cell (a i) (b i) (N i) j.1 (m i) (-(k : ℤ))).lower =
      (b i - a i) / N i * (1 - 2 * k / (m i : ℚ)) := by
    intro i j
    have hNq : (0 : ℚ) < N i := by exact_mod_cast hN i
    have hmq : (0 : ℚ) < m i := by exact_mod_cast hm i
    have hw : 0 < (b i - a i) / (N i : ℚ) := div_pos (by linarith [hab i]) hNq
    have hJq : (j.1 : ℚ) + 1 ≤ N i := by exact_mod_cast j.2
    have hv : (cell (a i) (b i) (N i) j.1 (m i) (-(k : ℤ))).Valid := by
      refine ⟨?_, ?_, ?_, hm i⟩
      · show a i ≤ a i + _
        have : 0 ≤ (j.1 : ℚ) * ((b i - a i) / (N i : ℚ)) := by positivity
        linarith
      · show a i + (j.1 : ℚ) * _ < a i + ((j.1 : ℚ) + 1) * _
        nlinarith
      · show a i + ((j.1 : ℚ) + 1) * _ ≤ b i
        have h1 := mul_le_mul_of_nonneg_right hJq hw.le
        rw [mul_div_cancel₀ _ hNq.ne'] at h1
        linarith
    obtain ⟨-, h1, h2⟩ := negative_facts hv (k := k) rfl
    rw [h1, h2]
    simp only [Dir.delta, cell]
    field_simp
    ring
  simp only [key]
  rw [Finset.sum_const, Finset.card_univ, Fintype.card_pi, nsmul_eq_mul]
  simp only [Fintype.card_fin]
  push_cast
  rw [← Finset.prod_mul_distrib, ← Finset.prod_mul_distrib]
  refine Finset.prod_congr rfl fun i _ => ?_
  have hNq : (N i : ℚ) ≠ 0 := by exact_mod_cast (hN i).ne'
  field_simp

/-- **C94** (overlap of the coarse grid) For every rounding that keeps the sign and numbers up to `-1`, with the relative error of double precision: none for
less layers than micro cells, otherwise undefined. -/
theorem C94_overlap (rd : ℚ → ℚ) (h0 : ∀ x ≤ 0, rd x ≤ 0) (h1 : ∀ x ≤ -1, rd x ≤ -1)
    (h2 : ∀ x, |rd x - x| ≤ 1 / 2 ^ 53 * |x|) (k m : ℕ) (hm : 0 < m) (hm' : m < 2 ^ 32) :
    overlap rd (-(k : ℤ)) m = if k < m then .ok 0 else .ub := by
  have hmq : (0 : ℚ) < m := by exact_mod_cast hm
  have hx : ((-(k : ℤ) : ℤ) : ℚ) / (m : ℚ) = -((k : ℚ) / m) := by
    push_cast
    rw [neg_div]
  have hle : -((k : ℚ) / m) ≤ 0 := by
    have : (0 : ℚ) ≤ (k : ℚ) / m := by positivity
    linarith
  have hiff : rd (-((k : ℚ) / m)) ≤ -1 ↔ m ≤ k := by
    constructor
    · intro hr
      by_contra hcon
      have hk : (k : ℚ) + 1 ≤ m := by exact_mod_cast (by omega : k + 1 ≤ m)
      have hmb : (m : ℚ) ≤ 2 ^ 32 := by exact_mod_cast hm'.le
      have hq : (k : ℚ) / m ≤ 1 - 1 / 2 ^ 32 := by
        rw [div_le_iff₀ hmq]
        have : (1 : ℚ) / 2 ^ 32 * m ≤ 1 := by rw [one_div, inv_mul_le_iff₀ (by norm_num)]; linarith
        linarith
      have hq0 : (0 : ℚ) ≤ (k : ℚ) / m := by positivity
      have h3 := h2 (-((k : ℚ) / m))
      rw [abs_neg, abs_of_nonneg hq0] at h3
      have h4 := (abs_le.mp h3).1
      have h5 : (1 : ℚ) / 2 ^ 53 * (k / m) ≤ 1 / 2 ^ 53 * 1 := mul_le_mul_of_nonneg_left (by linarith) (by norm_num)
      norm_num at h5 hq h4
      linarith
    · intro hmk
      refine h1 _ ?_
      rw [neg_le_neg_iff, le_div_iff₀ hmq, one_mul]
      exact_mod_cast hmk
  unfold overlap
  rw [hx]
  split_ifs with h
  · have hc : ⌈rd (-((k : ℚ) / m))⌉ = 0 := by
      rw [Int.ceil_eq_zero_iff]
      refine ⟨?_, h0 _ hle⟩
      by_contra hn
      exact absurd (hiff.mp (not_lt.mp hn)) (by omega)
    rw [hc]
    simpa using toUnsigned_nat (n := 0) (by norm_num)
  · refine if_neg fun hh => ?_
    have hc : ⌈rd (-((k : ℚ) / m))⌉ ≤ -1 := Int.ceil_le.mpr (by push_cast; exact hiff.mpr (by omega))
    have : ((⌈rd (-((k : ℚ) / m))⌉ : ℤ) : ℚ) ≤ -1 := by exact_mod_cast hc
    linarith [hh.1]

/-- Instance: exact division. -/
example : overlap id (-1) 8 = .ok 0 ∧ overlap id (-8) 8 = .ub :=
  have h : ∀ x : ℚ, |id x - x| ≤ 1 / 2 ^ 53 * |x| := fun x => by simp
  ⟨C94_overlap id (fun _ h => h) (fun _ h => h) h 1 8 (by norm_num) (by norm_num),
    C94_overlap id (fun _ h => h) (fun _ h => h) h 8 8 (by norm_num) (by norm_num)⟩

end Verif.LayerCount
