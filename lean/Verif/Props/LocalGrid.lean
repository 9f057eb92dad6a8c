import Verif.Lemmas.LocalGrid
import Verif.Spec.Box
import Mathlib.Data.Fintype.BigOperators
import Mathlib.Data.Fintype.Pi
import Mathlib.Algebra.Order.BigOperators.Group.Finset
import Mathlib.Order.Interval.Finset.Nat

/-!
# C01, C02, C03: properties of the local grids
-/

namespace Verif.LocalGrid
open Verif.Spec

/-- A coarse cell inside the domain, with at least one micro cell per direction. -/
def DirInput.Valid (c : DirInput) : Prop :=
  c.globalLowerLeft ≤ c.min ∧ c.min < c.max ∧ c.max ≤ c.globalUpperRight ∧ 1 ≤ c.microPerMacro

/-! ## C01 -/

/-- **C01** The local grid contains its coarse cell, lies in the domain, extends the cell by at
most `o` layers, by exactly `o` layers where there is room, and reaches the
domain boundary where there is not. -/
theorem C01_local_grid_box {d : ℕ} (c : Fin d → DirInput) (hc : ∀ i, (c i).Valid) :
    box (fun i => (c i).min) (fun i => (c i).max) ⊆
        box (makeLocalGrid c).lower (makeLocalGrid c).upper ∧
    box (makeLocalGrid c).lower (makeLocalGrid c).upper ⊆
        box (fun i => (c i).globalLowerLeft) (fun i => (c i).globalUpperRight) ∧
    ∀ i, let layers : ℚ := (c i).oversampling * (((c i).max - (c i).min) / (c i).microPerMacro)
      (c i).min - (makeLocalGrid c).lower i = min layers ((c i).min - (c i).globalLowerLeft) ∧
      (makeLocalGrid c).upper i - (c i).max = min layers ((c i).globalUpperRight - (c i).max) := by
  have hpos : ∀ i, 0 ≤ ((c i).oversampling : ℚ) * (c i).delta := fun i =>
    mul_nonneg (by positivity) (DirInput.delta_pos (hc i).2.1 (hc i).2.2.2).le
  refine ⟨?_, ?_, ?_⟩
  · intro x hx i
    obtain ⟨h1, h2⟩ := hx i
    have := hpos i
    obtain ⟨v1, v2, v3, v4⟩ := hc i
    refine ⟨max_le ?_ ?_, le_min ?_ ?_⟩ <;> dsimp only at h1 h2 <;> linarith
  · intro x hx i
    obtain ⟨h1, h2⟩ := hx i
    exact ⟨(le_max_right _ _).trans h1, h2.trans (min_le_right _ _)⟩
  · intro i layers
    have hl : layers = (c i).oversampling * (c i).delta := rfl
    constructor
    · show (c i).min - max _ _ = _
      rw [hl]
      rcases le_total ((c i).min - (c i).oversampling * (c i).delta) (c i).globalLowerLeft with h | h
      · rw [max_eq_right h, min_eq_right (by linarith)]
      · rw [max_eq_left h, min_eq_left (by linarith)]; ring
    · show min _ _ - (c i).max = _
      rw [hl]
      rcases le_total ((c i).max + (c i).oversampling * (c i).delta) (c i).globalUpperRight with h | h
      · rw [min_eq_left h, min_eq_left (by linarith)]; ring
      · rw [min_eq_right h, min_eq_right (by linarith)]

/-- Instance of C01: second of four cells on `[0,1]`, eight micro cells, one layer. -/
example : (coarseCell 0 1 4 1 8 1).Valid ∧
    (coarseCell 0 1 4 1 8 1).lowerLeft = 7/32 ∧ (coarseCell 0 1 4 1 8 1).upperRight = 17/32 := by
  refine ⟨⟨?_, ?_, ?_, ?_⟩, ?_, ?_⟩ <;>
    norm_num [coarseCell, DirInput.lowerLeft, DirInput.upperRight, DirInput.delta]

/-! ## C02 -/

/-- Specification: in one direction the structured grid with `e` cells on
`[lo, hi]` consists of consecutive cells of the equidistant grid with `n` cells on `[a, b]`. -/
def ConsistsOfCells (a b : ℚ) (n : ℕ) (lo hi : ℚ) (e : ℕ) : Prop :=
  ∃ s : ℕ, s + e ≤ n ∧ lo = node a b n s ∧ hi = node a b n (s + e)

theorem node_inj {a b : ℚ} {n : ℕ} (hab : a < b) (hn : 0 < n) {i j : ℕ}
    (h : node a b n i = node a b n j) : i = j := by
  unfold node at h
  have h1 : (0 : ℚ) < n := by exact_mod_cast hn
  have : (b - a) / (n : ℚ) ≠ 0 := by
    have : 0 < b - a := by linarith
    positivity
  have h2 := mul_right_cancel₀ this (add_left_cancel h)
  exact_mod_cast h2

theorem lower_eq_node {a b : ℚ} {N k m o : ℕ} (hab : a < b) (hN : 0 < N) (hm : 0 < m) :
    (coarseCell a b N k m o).lowerLeft = node a b (N * m) (k * m - o) := by
  rw [lowerLeft_coarseCell hab hN hm]; simp [node]

theorem upper_eq_node {a b : ℚ} {N k m o : ℕ} (hab : a < b) (hN : 0 < N) (hm : 0 < m) :
    (coarseCell a b N k m o).upperRight = node a b (N * m) (min ((k + 1) * m + o) (N * m)) := by
  rw [upperRight_coarseCell hab hN hm]; simp [node]

/-- One cell, one direction: exact condition under which the local grid resolves the fine mesh. -/
theorem C02_single_cell {a b : ℚ} {N k m o : ℕ} (hab : a < b) (hk : k < N) (hm : 0 < m) :
    ConsistsOfCells a b (N * m) (coarseCell a b N k m o).lowerLeft
        (coarseCell a b N k m o).upperRight (coarseCell a b N k m o).elements ↔
      (k = 0 ∨ o ≤ k * m) ∧ (k + 1 = N ∨ o ≤ (N - 1 - k) * m) := by
  have hN : 0 < N := by omega
  have hn : 0 < N * m := Nat.mul_pos hN hm
  rw [lower_eq_node hab hN hm, upper_eq_node hab hN hm, elements_coarseCell hab hN hm]
  obtain ⟨q, rfl⟩ : ∃ q, N = k + 1 + q := ⟨N - (k + 1), by omega⟩
  have e1 : k + 1 + q - 1 - k = q := by omega
  have e2 : (k + 1 + q) * m = k * m + m + q * m := by ring
  have e3 : (k + 1) * m = k * m + m := by ring
  rw [e1]
  constructor
  · rintro ⟨s, hs, hlo, hhi⟩
    have h1 := node_inj hab hn hlo
    have h2 := node_inj hab hn hhi
    rw [e2, e3] at *
    subst h1
    generalize hP : k * m = P at *
    generalize hQ : q * m = Q at *
    have hPk : P = 0 → k = 0 := fun h => by
      rcases Nat.mul_eq_zero.mp (hP.trans h) with h | h <;> omega
    have hQk : Q = 0 → q = 0 := fun h => by
      rcases Nat.mul_eq_zero.mp (hQ.trans h) with h | h <;> omega
    split_ifs at h2 hs <;> refine ⟨?_, ?_⟩ <;> first | (right; omega) | (left; first | (apply hPk; omega) | (have := hQk (by omega); omega))
  · rintro ⟨h1, h2⟩
    rw [e2, e3] at *
    have h1' : k * m = 0 ∨ o ≤ k * m := by rcases h1 with rfl | h; · simp
                                           · exact Or.inr h
    have h2' : q * m = 0 ∨ o ≤ q * m := by
      rcases h2 with h | h
      · have : q = 0 := by omega
        simp [this]
      · exact Or.inr h
    generalize k * m = P at *
    generalize q * m = Q at *
    refine ⟨P - o, ?_, rfl, ?_⟩
    · split_ifs <;> omega
    · congr 1
      split_ifs <;> omega

/-- **C02** (partial: the claim without side condition is false, see `C02_violated`.)
On an equidistant coarse grid with `N i` cells and `m i` micro
cells per direction, *all* local grids consist of fine-grid cells in *all*
directions if and only if in every direction the coarse grid has a single cell
or the number of oversampling layers is at most the number of micro cells. -/
theorem C02_resolves_fine_mesh_partial {d : ℕ} (a b : Fin d → ℚ) (N m : Fin d → ℕ) (o : ℕ)
    (hab : ∀ i, a i < b i) (hN : ∀ i, 0 < N i) (hm : ∀ i, 0 < m i) :
    (∀ K : (i : Fin d) → Fin (N i), ∀ i,
      let g := makeLocalGrid (fun i => coarseCell (a i) (b i) (N i) (K i) (m i) o)
      ConsistsOfCells (a i) (b i) (N i * m i) (g.lower i) (g.upper i) (g.elements i)) ↔
    ∀ i, N i = 1 ∨ o ≤ m i := by
  constructor
  · intro h i
    by_contra hcon
    push Not at hcon
    obtain ⟨h1, h2⟩ := hcon
    have hNi := hN i
    have := h (fun j => ⟨if N j = 1 then 0 else 1, by have := hN j; split_ifs <;> omega⟩) i
    simp only [makeLocalGrid] at this
    rw [C02_single_cell (hab i) (by have := hN i; split_ifs <;> omega) (hm i)] at this
    simp only [if_neg h1] at this
    rcases this.1 with h | h <;> omega
  · intro h K i
    simp only [makeLocalGrid]
    rw [C02_single_cell (hab i) (K i).2 (hm i)]
    have hK := (K i).2
    rcases h i with h | h
    · exact ⟨Or.inl (by omega), Or.inl (by omega)⟩
    · constructor
      · rcases Nat.eq_zero_or_pos (K i : ℕ) with hz | hz
        · exact Or.inl hz
        · exact Or.inr (h.trans (Nat.le_mul_of_pos_left _ hz))
      · by_cases hz : (K i : ℕ) + 1 = N i
        · exact Or.inl hz
        · exact Or.inr (h.trans (Nat.le_mul_of_pos_left _ (by omega)))

/-- **C02 is violated** for four cells on `[0,1]`, two micro cells, three layers: the
local grid of the second cell has extent `7/8`, i.e. seven fine cells, but only `5` cells. -/
theorem C02_violated :
    (coarseCell 0 1 4 1 2 3).upperRight - (coarseCell 0 1 4 1 2 3).lowerLeft = 7 * (1 / 8) ∧
    (coarseCell 0 1 4 1 2 3).elements = 5 ∧
    ¬ ConsistsOfCells 0 1 (4 * 2) (coarseCell 0 1 4 1 2 3).lowerLeft
        (coarseCell 0 1 4 1 2 3).upperRight (coarseCell 0 1 4 1 2 3).elements := by
  refine ⟨?_, ?_, ?_⟩
  · norm_num [coarseCell, DirInput.lowerLeft, DirInput.upperRight, DirInput.delta]
  · rw [elements_coarseCell (by norm_num) (by norm_num) (by norm_num)]; norm_num
  · rw [C02_single_cell (by norm_num) (by norm_num) (by norm_num)]; norm_num

/-- Instance of C02: the test configuration `p_wover` (14 coarse cells, 18 micro cells, 6 layers). -/
example : ∀ i : Fin 3, (![14, 14, 14] : Fin 3 → ℕ) i = 1 ∨ 6 ≤ (![18, 18, 18] : Fin 3 → ℕ) i := by
  decide

/-! ## C03 -/

/-- left layers actually counted -/
def leftLayers (k m o : ℕ) : ℕ := if o ≤ k * m then o else 0

section aligned
variable {a b : ℚ} {N k m o : ℕ}

theorem aligned_conditions (hk : k < N) (h : N = 1 ∨ o ≤ m) :
    (k = 0 ∨ o ≤ k * m) ∧ (k + 1 = N ∨ (k + 1) * m + o ≤ N * m) := by
  rcases h with h | h
  · exact ⟨Or.inl (by omega), Or.inl (by omega)⟩
  · constructor
    · rcases Nat.eq_zero_or_pos k with hz | hz
      · exact Or.inl hz
      · exact Or.inr (h.trans (Nat.le_mul_of_pos_left _ hz))
    · by_cases hz : k + 1 = N
      · exact Or.inl hz
      · right
        calc (k + 1) * m + o ≤ (k + 1) * m + m := by omega
          _ = (k + 2) * m := by ring
          _ ≤ N * m := Nat.mul_le_mul_right _ (by omega)

/-- In the aligned case, cell `j` of the local grid is fine cell `k*m - l + j`. -/
theorem aligned_facts (hab : a < b) (hk : k < N) (hm : 0 < m) (h : N = 1 ∨ o ≤ m) :
    let c := coarseCell a b N k m o
    let w := (b - a) / ((N : ℚ) * m)
    c.lowerLeft = a + ((k : ℚ) * m - leftLayers k m o) * w ∧
    leftLayers k m o + m ≤ c.elements ∧ 0 < c.elements ∧
    (c.upperRight - c.lowerLeft) / (c.elements : ℚ) = w := by
  intro c w
  have hN : 0 < N := by omega
  obtain ⟨h1, h2⟩ := aligned_conditions (m := m) (o := o) hk h
  have hlo : c.lowerLeft = a + ((k : ℚ) * m - leftLayers k m o) * w := by
    show (coarseCell a b N k m o).lowerLeft = _
    rw [lowerLeft_coarseCell hab hN hm]
    unfold leftLayers
    split_ifs with hc
    · push_cast [Nat.cast_sub hc]; rfl
    · have : k = 0 := by rcases h1 with h1 | h1 <;> [exact h1; exact absurd h1 hc]
      subst this; simp
  have hel : c.elements = m + (leftLayers k m o + (if (k + 1) * m + o ≤ N * m then o else 0)) :=
    elements_coarseCell hab hN hm
  refine ⟨hlo, by omega, by omega, ?_⟩
  have hw := width_pos hab hN hm
  have hup : c.upperRight = a + (((k : ℚ) + 1) * m + (if (k + 1) * m + o ≤ N * m then o else 0 : ℕ)) * w := by
    show (coarseCell a b N k m o).upperRight = _
    rw [upperRight_coarseCell hab hN hm]
    split_ifs with hc
    · rw [min_eq_left hc]; push_cast; rfl
    · have hkN : k + 1 = N := by rcases h2 with h2 | h2 <;> [exact h2; exact absurd h2 hc]
      rw [min_eq_right (by omega)]
      rw [← hkN]; push_cast; simp [w, ← hkN]
  have hdiff : c.upperRight - c.lowerLeft = (c.elements : ℚ) * w := by
    rw [hup, hlo, hel]; push_cast; ring
  rw [hdiff]
  have : (c.elements : ℚ) ≠ 0 := by
    have : 0 < c.elements := by omega
    positivity
  field_simp

/-- One direction of `covers` in the aligned case. -/
theorem inside_iff (hab : a < b) (hk : k < N) (hm : 0 < m)
    {tol : ℚ} (ht0 : 0 ≤ tol) (ht : tol < 1 / (2 * m)) (l j : ℕ) :
    let w := (b - a) / ((N : ℚ) * m)
    let lo := a + (k : ℚ) * m * w
    let hi := a + ((k : ℚ) + 1) * m * w
    let x := a + ((k : ℚ) * m - l + j + 1 / 2) * w
    (-tol ≤ (x - lo) / (hi - lo) ∧ (x - lo) / (hi - lo) ≤ 1 + tol) ↔ l ≤ j ∧ j < l + m := by
  intro w lo hi x
  have hN : 0 < N := by omega
  have hw : 0 < w := width_pos hab hN hm
  have hmq : (0 : ℚ) < m := by exact_mod_cast hm
  have hq : (x - lo) / (hi - lo) = ((j : ℚ) - l + 1 / 2) / m := by
    have e1 : x - lo = ((j : ℚ) - l + 1 / 2) * w := by simp only [x, lo]; ring
    have e2 : hi - lo = m * w := by simp only [hi, lo]; ring
    rw [e1, e2, mul_div_mul_right _ _ hw.ne']
  rw [hq]
  have htm : tol * m < 1 / 2 := by
    have := mul_lt_mul_of_pos_right ht hmq
    have e : 1 / (2 * (m : ℚ)) * m = 1 / 2 := by field_simp
    linarith
  rw [le_div_iff₀ hmq, div_le_iff₀ hmq]
  constructor
  · rintro ⟨h1, h2⟩
    constructor
    · by_contra hc
      push Not at hc
      have : (j : ℚ) + 1 ≤ l := by exact_mod_cast hc
      linarith
    · by_contra hc
      push Not at hc
      have : (l : ℚ) + m ≤ j := by exact_mod_cast hc
      linarith
  · rintro ⟨h1, h2⟩
    have h1' : (l : ℚ) ≤ j := by exact_mod_cast h1
    have h2' : (j : ℚ) + 1 ≤ l + m := by exact_mod_cast h2
    have : 0 ≤ tol * m := by positivity
    constructor <;> linarith

end aligned

/-- counting multi-indices in a product of integer intervals -/
theorem card_aux {d : ℕ} {e l m : Fin d → ℕ} {cov : Finset ((i : Fin d) → Fin (e i))}
    (hcov : ∀ J, J ∈ cov ↔ ∀ i, l i ≤ (J i : ℕ) ∧ (J i : ℕ) < l i + m i)
    (hel : ∀ i, l i + m i ≤ e i) : cov.card = ∏ i, m i := by
  have : cov = Fintype.piFinset (fun i => (Finset.univ : Finset (Fin (e i))).filter
      (fun j : Fin (e i) => l i ≤ (j : ℕ) ∧ (j : ℕ) < l i + m i)) := by
    ext J
    rw [hcov]
    simp [Fintype.mem_piFinset]
  rw [this, Fintype.card_piFinset]
  refine Finset.prod_congr rfl fun i _ => ?_
  rw [← Finset.card_map Fin.valEmbedding]
  have : (Finset.map Fin.valEmbedding ((Finset.univ : Finset (Fin (e i))).filter
      (fun j : Fin (e i) => l i ≤ (j : ℕ) ∧ (j : ℕ) < l i + m i))) = Finset.Ico (l i) (l i + m i) := by
    ext x
    simp only [Finset.mem_map, Finset.mem_filter, Finset.mem_univ, true_and, Fin.valEmbedding_apply,
      Finset.mem_Ico]
    constructor
    · rintro ⟨j, h, rfl⟩; exact h
    · intro h
      exact ⟨⟨x, lt_of_lt_of_le h.2 (hel i)⟩, h, rfl⟩
  rw [this]; simp

section C03
variable {d : ℕ} (a b : Fin d → ℚ) (N m : Fin d → ℕ) (o : ℕ) (K : Fin d → ℕ)

/-- direction data of the coarse cell with multi-index `K` -/
def coarse : Fin d → DirInput := fun i => coarseCell (a i) (b i) (N i) (K i) (m i) o

/-- the local grid of coarse cell `K` -/
def grid : CubeGrid d := makeLocalGrid (coarse a b N m o K)

variable {a b N m o K}
  (hab : ∀ i, a i < b i) (hm : ∀ i, 0 < m i) (hK : ∀ i, K i < N i)
  (hal : ∀ i, N i = 1 ∨ o ≤ m i)
include hab hm hK hal

theorem grid_cellLo (i : Fin d) (j : ℕ) :
    (grid a b N m o K).cellLo i j =
      a i + ((K i : ℚ) * m i - leftLayers (K i) (m i) o + j) * ((b i - a i) / ((N i : ℚ) * m i)) := by
  obtain ⟨h1, -, -, h4⟩ := aligned_facts (hab i) (hK i) (hm i) (hal i)
  simp only [CubeGrid.cellLo, grid, makeLocalGrid, coarse]
  rw [h4, h1]; ring

theorem grid_cellHi (i : Fin d) (j : ℕ) :
    (grid a b N m o K).cellHi i j =
      a i + ((K i : ℚ) * m i - leftLayers (K i) (m i) o + j + 1) * ((b i - a i) / ((N i : ℚ) * m i)) := by
  obtain ⟨h1, -, -, h4⟩ := aligned_facts (hab i) (hK i) (hm i) (hal i)
  simp only [CubeGrid.cellHi, grid, makeLocalGrid, coarse]
  rw [h4, h1]; ring

theorem grid_covers_iff {tol : ℚ} (ht0 : 0 ≤ tol) (ht : ∀ i, tol < 1 / (2 * m i)) (J : Fin d → ℕ) :
    covers tol (coarse a b N m o K) (grid a b N m o K) J ↔
      ∀ i, leftLayers (K i) (m i) o ≤ J i ∧ J i < leftLayers (K i) (m i) o + m i := by
  unfold covers checkInside
  refine forall_congr' fun i => ?_
  have := inside_iff (hab i) (hK i) (hm i) ht0 (ht i) (leftLayers (K i) (m i) o) (J i)
  dsimp only at this
  rw [← this]
  have e1 : (coarse a b N m o K i).min = a i + (K i : ℚ) * m i * ((b i - a i) / ((N i : ℚ) * m i)) :=
    min_coarseCell (hm i)
  have e2 : (coarse a b N m o K i).max =
      a i + ((K i : ℚ) + 1) * m i * ((b i - a i) / ((N i : ℚ) * m i)) := max_coarseCell (hm i)
  have e3 : (grid a b N m o K).cellCenter i (J i) =
      a i + ((K i : ℚ) * m i - leftLayers (K i) (m i) o + J i + 1 / 2) *
        ((b i - a i) / ((N i : ℚ) * m i)) := by
    unfold CubeGrid.cellCenter
    rw [grid_cellLo hab hm hK hal, grid_cellHi hab hm hK hal]; ring
  beta_reduce
  rw [e1, e2, e3]

open Classical in
/-- **C03** The local cells attributed to coarse cell `K` (centre inside it, up
to a tolerance below half a fine cell) tile the coarse cell: they lie in it, their interiors
are pairwise disjoint, they cover it, there are `∏ m i` of them, their volumes
add up to its volume, and local cells that are not attributed do not meet its interior. -/
theorem C03_covered_cells_tile {tol : ℚ} (ht0 : 0 ≤ tol) (ht : ∀ i, tol < 1 / (2 * m i)) :
    let g := grid a b N m o K
    let c := coarse a b N m o K
    let cell := fun J : (i : Fin d) → Fin (g.elements i) =>
      box (fun i => g.cellLo i (J i)) (fun i => g.cellHi i (J i))
    let cellInt := fun J : (i : Fin d) → Fin (g.elements i) =>
      openBox (fun i => g.cellLo i (J i)) (fun i => g.cellHi i (J i))
    let cov : Finset ((i : Fin d) → Fin (g.elements i)) :=
      Finset.univ.filter (fun J => covers tol c g (fun i => J i))
    let cellK := box (fun i => (c i).min) (fun i => (c i).max)
    (∀ J ∈ cov, cell J ⊆ cellK) ∧
    (∀ J J', J ≠ J' → cellInt J ∩ cellInt J' = ∅) ∧
    (∀ x ∈ cellK, ∃ J ∈ cov, x ∈ cell J) ∧
    (∀ J, J ∉ cov → cellInt J ∩ openBox (fun i => (c i).min) (fun i => (c i).max) = ∅) ∧
    cov.card = ∏ i, m i ∧
    ∑ J ∈ cov, volume (fun i => g.cellLo i (J i)) (fun i => g.cellHi i (J i)) =
      volume (fun i => (c i).min) (fun i => (c i).max) := by
  intro g c cell cellInt cov cellK
  have hN : ∀ i, 0 < N i := fun i => by have := hK i; omega
  have hw : ∀ i, 0 < (b i - a i) / ((N i : ℚ) * m i) := fun i => width_pos (hab i) (hN i) (hm i)
  have hmin : ∀ i, (c i).min = a i + (K i : ℚ) * m i * ((b i - a i) / ((N i : ℚ) * m i)) :=
    fun i => min_coarseCell (hm i)
  have hmax : ∀ i, (c i).max = a i + ((K i : ℚ) + 1) * m i * ((b i - a i) / ((N i : ℚ) * m i)) :=
    fun i => max_coarseCell (hm i)
  have hlo := fun i j => grid_cellLo hab hm hK hal i j
  have hhi := fun i j => grid_cellHi hab hm hK hal i j
  have hcov : ∀ J : (i : Fin d) → Fin (g.elements i), J ∈ cov ↔
      ∀ i, leftLayers (K i) (m i) o ≤ J i ∧ (J i : ℕ) < leftLayers (K i) (m i) o + m i := by
    intro J
    simp only [cov, Finset.mem_filter, Finset.mem_univ, true_and]
    exact grid_covers_iff hab hm hK hal ht0 ht _
  have hel : ∀ i, leftLayers (K i) (m i) o + m i ≤ g.elements i := fun i =>
    (aligned_facts (hab i) (hK i) (hm i) (hal i)).2.1
  refine ⟨?_, ?_, ?_, ?_, ?_, ?_⟩
  · intro J hJ x hx i
    obtain ⟨h1, h2⟩ := (hcov J).1 hJ i
    obtain ⟨x1, x2⟩ := hx i
    simp only [g, hlo, hhi] at x1 x2
    beta_reduce
    rw [hmin, hmax]
    have h1' : ((leftLayers (K i) (m i) o : ℕ) : ℚ) ≤ (J i : ℕ) := by exact_mod_cast h1
    have h2' : ((J i : ℕ) : ℚ) + 1 ≤ (leftLayers (K i) (m i) o : ℕ) + m i := by exact_mod_cast h2
    constructor
    · nlinarith [mul_le_mul_of_nonneg_right h1' (hw i).le]
    · nlinarith [mul_le_mul_of_nonneg_right h2' (hw i).le]
  · intro J J' hne
    rw [Set.eq_empty_iff_forall_notMem]
    rintro x ⟨hx, hx'⟩
    apply hne
    funext i
    obtain ⟨x1, x2⟩ := hx i
    obtain ⟨y1, y2⟩ := hx' i
    simp only [g, hlo, hhi] at x1 x2 y1 y2
    apply Fin.ext
    by_contra hcon
    rcases Nat.lt_or_gt_of_ne hcon with h | h
    · have h' : ((J i : ℕ) : ℚ) + 1 ≤ (J' i : ℕ) := by exact_mod_cast h
      nlinarith [mul_le_mul_of_nonneg_right h' (hw i).le]
    · have h' : ((J' i : ℕ) : ℚ) + 1 ≤ (J i : ℕ) := by exact_mod_cast h
      nlinarith [mul_le_mul_of_nonneg_right h' (hw i).le]
  · intro x hx
    -- in every direction choose the cell containing the coordinate
    have key : ∀ i, ∃ j : ℕ, j < m i ∧
        a i + ((K i : ℚ) * m i + j) * ((b i - a i) / ((N i : ℚ) * m i)) ≤ x i ∧
        x i ≤ a i + ((K i : ℚ) * m i + j + 1) * ((b i - a i) / ((N i : ℚ) * m i)) := by
      intro i
      obtain ⟨x1, x2⟩ := hx i
      dsimp only at x1 x2
      rw [hmin] at x1
      rw [hmax] at x2
      set w := (b i - a i) / ((N i : ℚ) * m i) with hwdef
      have hwi := hw i
      by_contra hcon
      push Not at hcon
      -- then x is above every cell
      have : ∀ j ≤ m i, a i + ((K i : ℚ) * m i + j) * w ≤ x i ∧ (0 < j → a i + ((K i : ℚ) * m i + j) * w < x i) := by
        intro j
        induction j with
        | zero => intro _; exact ⟨by push_cast; linarith, by simp⟩
        | succ j ih =>
          intro hj
          have := hcon j (by omega) (ih (by omega)).1
          push_cast
          constructor
          · have e : a i + ((K i : ℚ) * m i + (j + 1)) * w = a i + ((K i : ℚ) * m i + j + 1) * w := by ring
            rw [e]; exact this.le
          · intro _
            have e : a i + ((K i : ℚ) * m i + (j + 1)) * w = a i + ((K i : ℚ) * m i + j + 1) * w := by ring
            rw [e]; exact this
      have := (this (m i) le_rfl).2 (hm i)
      have e : a i + ((K i : ℚ) * m i + m i) * w = a i + ((K i : ℚ) + 1) * m i * w := by ring
      rw [e] at this
      linarith
    choose j hj using key
    refine ⟨fun i => ⟨leftLayers (K i) (m i) o + j i, by have := (hj i).1; have := hel i; omega⟩, ?_, ?_⟩
    · rw [hcov]
      intro i
      have := (hj i).1
      exact ⟨by simp, by simpa using this⟩
    · intro i
      obtain ⟨-, h1, h2⟩ := hj i
      simp only [g, hlo, hhi]
      push_cast
      constructor
      · refine le_trans (le_of_eq ?_) h1; ring
      · refine le_trans h2 (le_of_eq ?_); ring
  · intro J hJ
    rw [Set.eq_empty_iff_forall_notMem]
    rintro x ⟨hx, hx'⟩
    apply hJ
    rw [hcov]
    intro i
    obtain ⟨x1, x2⟩ := hx i
    obtain ⟨y1, y2⟩ := hx' i
    dsimp only at x1 x2 y1 y2
    rw [hmin] at y1
    rw [hmax] at y2
    simp only [g, hlo, hhi] at x1 x2
    have hwi := hw i
    set w := (b i - a i) / ((N i : ℚ) * m i) with hwdef
    constructor
    · by_contra hcon
      push Not at hcon
      have h' : ((J i : ℕ) : ℚ) + 1 ≤ (leftLayers (K i) (m i) o : ℕ) := by exact_mod_cast hcon
      nlinarith [mul_le_mul_of_nonneg_right h' hwi.le]
    · by_contra hcon
      push Not at hcon
      have h' : ((leftLayers (K i) (m i) o : ℕ) : ℚ) + m i ≤ (J i : ℕ) := by exact_mod_cast hcon
      nlinarith [mul_le_mul_of_nonneg_right h' hwi.le]
  · exact card_aux hcov hel
  · have hvol : ∀ J : (i : Fin d) → Fin (g.elements i),
        volume (fun i => g.cellLo i (J i)) (fun i => g.cellHi i (J i)) =
          ∏ i, (b i - a i) / ((N i : ℚ) * m i) := by
      intro J
      unfold volume
      refine Finset.prod_congr rfl fun i _ => ?_
      simp only [g, hlo, hhi]; ring
    rw [Finset.sum_congr rfl (fun J _ => hvol J), Finset.sum_const, card_aux hcov hel, nsmul_eq_mul]
    push_cast
    rw [← Finset.prod_mul_distrib]
    unfold volume
    refine Finset.prod_congr rfl fun i _ => ?_
    beta_reduce
    rw [hmin, hmax]; ring

/-- **C03** On the cells of the local grid the two tests agree: all corners of a local cell lie in the coarse cell
(`covers_strict`) exactly if its centre does (`covers`).  `corners` is any list of points of the closed local
cell containing its lower and upper corner. -/
theorem C03_strict_iff {tol : ℚ} (ht0 : 0 ≤ tol) (ht : ∀ i, tol < 1 / (2 * m i)) (J : Fin d → ℕ)
    (corners : List (Fin d → ℚ))
    (hlo : (fun i => (grid a b N m o K).cellLo i (J i)) ∈ corners)
    (hhi : (fun i => (grid a b N m o K).cellHi i (J i)) ∈ corners)
    (hbox : ∀ x ∈ corners, x ∈ box (fun i => (grid a b N m o K).cellLo i (J i))
      (fun i => (grid a b N m o K).cellHi i (J i))) :
    coversStrict tol (coarse a b N m o K) corners ↔ covers tol (coarse a b N m o K) (grid a b N m o K) J := by
  have hN : ∀ i, 0 < N i := fun i => by have := hK i; omega
  have hw : ∀ i, 0 < (b i - a i) / ((N i : ℚ) * m i) := fun i => width_pos (hab i) (hN i) (hm i)
  have e1 : ∀ i, (coarse a b N m o K i).min = a i + (K i : ℚ) * m i * ((b i - a i) / ((N i : ℚ) * m i)) :=
    fun i => min_coarseCell (hm i)
  have e2 : ∀ i, (coarse a b N m o K i).max = a i + ((K i : ℚ) + 1) * m i * ((b i - a i) / ((N i : ℚ) * m i)) :=
    fun i => max_coarseCell (hm i)
  have hH : ∀ i, 0 < (coarse a b N m o K i).max - (coarse a b N m o K i).min := by
    intro i
    have hmq : (0 : ℚ) < m i := by exact_mod_cast hm i
    rw [e1, e2]
    have := mul_pos hmq (hw i)
    nlinarith
  constructor
  · intro h i
    have h1 := (h _ hlo i).1
    have h2 := (h _ hhi i).2
    have hle : (grid a b N m o K).cellLo i (J i) ≤ (grid a b N m o K).cellHi i (J i) := by
      rw [grid_cellLo hab hm hK hal, grid_cellHi hab hm hK hal]
      nlinarith [hw i]
    simp only at h1 h2 ⊢
    rw [le_div_iff₀ (hH i)] at h1 ⊢
    rw [div_le_iff₀ (hH i)] at h2 ⊢
    unfold CubeGrid.cellCenter
    constructor <;> linarith
  · intro h x hx i
    obtain ⟨h1, h2⟩ := (grid_covers_iff hab hm hK hal ht0 ht J).1 h i
    obtain ⟨x1, x2⟩ := hbox x hx i
    simp only [grid_cellLo hab hm hK hal, grid_cellHi hab hm hK hal] at x1 x2
    have h1' : ((leftLayers (K i) (m i) o : ℕ) : ℚ) ≤ (J i : ℕ) := by exact_mod_cast h1
    have h2' : ((J i : ℕ) : ℚ) + 1 ≤ (leftLayers (K i) (m i) o : ℕ) + m i := by exact_mod_cast h2
    have y1 : (coarse a b N m o K i).min ≤ x i := by
      rw [e1]; nlinarith [mul_le_mul_of_nonneg_right h1' (hw i).le]
    have y2 : x i ≤ (coarse a b N m o K i).max := by
      rw [e2]; nlinarith [mul_le_mul_of_nonneg_right h2' (hw i).le]
    have hHi := hH i
    beta_reduce
    rw [le_div_iff₀ hHi, div_le_iff₀ hHi]
    constructor <;> nlinarith [mul_nonneg ht0 hHi.le]

end C03

/-- Instance of C03: hypotheses for the test configuration `p_small_wover` in three dimensions,
coarse cell (1,0,3), and the tolerance `1/100`. -/
example : let a : Fin 3 → ℚ := fun _ => 0
    let b : Fin 3 → ℚ := fun _ => 1
    let N : Fin 3 → ℕ := fun _ => 4
    let m : Fin 3 → ℕ := fun _ => 8
    let K : Fin 3 → ℕ := ![1, 0, 3]
    (∀ i, a i < b i) ∧ (∀ i, 0 < m i) ∧ (∀ i, K i < N i) ∧ (∀ i, N i = 1 ∨ 1 ≤ m i) ∧
      (∀ i, (1 / 100 : ℚ) < 1 / (2 * m i)) := by
  refine ⟨fun i => by norm_num, fun i => by norm_num, by decide, fun i => by norm_num,
    fun i => by norm_num⟩

/-- Without alignment C03 fails: for the witness of `C02_violated` the two
covered local cells have total volume `7/20`, the coarse cell `1/4`. -/
theorem C03_fails_without_alignment :
    let c := coarse (fun _ : Fin 1 => (0 : ℚ)) (fun _ => 1) (fun _ => 4) (fun _ => 2) 3 (fun _ => 1)
    let g := grid (fun _ : Fin 1 => (0 : ℚ)) (fun _ => 1) (fun _ => 4) (fun _ => 2) 3 (fun _ => 1)
    covers 0 c g (fun _ => 1) ∧ covers 0 c g (fun _ => 2) ∧
    volume (fun i => g.cellLo i 1) (fun i => g.cellHi i 1) +
      volume (fun i => g.cellLo i 2) (fun i => g.cellHi i 2) = 7 / 20 ∧
    volume (fun i => (c i).min) (fun i => (c i).max) = 1 / 4 := by
  intro c g
  have e : (coarseCell (0 : ℚ) 1 4 1 2 3).elements = 5 := C02_violated.2.1
  have l : (coarseCell (0 : ℚ) 1 4 1 2 3).lowerLeft = 0 := by
    norm_num [coarseCell, DirInput.lowerLeft, DirInput.delta]
  have u : (coarseCell (0 : ℚ) 1 4 1 2 3).upperRight = 7 / 8 := by
    norm_num [coarseCell, DirInput.upperRight, DirInput.delta]
  have mn : (coarseCell (0 : ℚ) 1 4 1 2 3).min = 1 / 4 := by norm_num [coarseCell]
  have mx : (coarseCell (0 : ℚ) 1 4 1 2 3).max = 1 / 2 := by norm_num [coarseCell]
  refine ⟨?_, ?_, ?_, ?_⟩
  · intro i
    simp only [c, g, coarse, grid, CubeGrid.cellCenter, CubeGrid.cellLo, CubeGrid.cellHi,
      makeLocalGrid, e, l, u, mn, mx]
    norm_num
  · intro i
    simp only [c, g, coarse, grid, CubeGrid.cellCenter, CubeGrid.cellLo, CubeGrid.cellHi,
      makeLocalGrid, e, l, u, mn, mx]
    norm_num
  · simp only [volume, g, coarse, grid, CubeGrid.cellLo, CubeGrid.cellHi, makeLocalGrid, e, l, u]
    norm_num
  · simp only [volume, c, coarse, mn, mx]
    norm_num

end Verif.LocalGrid
