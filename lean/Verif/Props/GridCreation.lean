import Verif.Model.GridCreation
import Verif.Props.LocalGrid
import Mathlib.Algebra.BigOperators.Fin
import Mathlib.Tactic.FinCases
import Mathlib.Data.Set.Card

/-!
# C04 - C07: creation of the global grids
-/

namespace Verif.GridCreation
open Verif.LocalGrid Verif.Spec

/-! ## C04 -/

/-- One direction: fine cell `j` lies in coarse cell `k` iff `k = j / m`. -/
theorem cell_subset_iff {a b : ℚ} {N m j k : ℕ} (hab : a < b) (hN : 0 < N) (hm : 0 < m) :
    (node a b N k ≤ node a b (N * m) j ∧ node a b (N * m) (j + 1) ≤ node a b N (k + 1)) ↔
      k * m ≤ j ∧ j < k * m + m := by
  have hw := width_pos hab hN hm
  have e1 : ∀ k : ℕ, node a b N k = a + ((k * m : ℕ) : ℚ) * ((b - a) / ((N : ℚ) * m)) := by
    intro k
    unfold node
    rw [coarse_width hm]; push_cast; ring
  have e2 : ∀ j : ℕ, node a b (N * m) j = a + (j : ℚ) * ((b - a) / ((N : ℚ) * m)) := by
    intro j; unfold node; push_cast; rfl
  simp only [e1, e2, add_le_add_iff_left, mul_le_mul_iff_left₀ hw, Nat.cast_le]
  have : (k + 1) * m = k * m + m := by ring
  omega

theorem cellLo_eq_node {d : ℕ} (g : CubeGrid d) (i : Fin d) (j : ℕ) :
    g.cellLo i j = node (g.lower i) (g.upper i) (g.elements i) j := rfl

theorem cellHi_eq_node {d : ℕ} (g : CubeGrid d) (i : Fin d) (j : ℕ) :
    g.cellHi i j = node (g.lower i) (g.upper i) (g.elements i) (j + 1) := by
  simp [CubeGrid.cellHi, node]

theorem box_subset_iff {d : ℕ} {lo hi lo' hi' : Fin d → ℚ} (h : ∀ i, lo i ≤ hi i) :
    box lo hi ⊆ box lo' hi' ↔ ∀ i, lo' i ≤ lo i ∧ hi i ≤ hi' i := by
  constructor
  · intro hs i
    have h1 := hs (show lo ∈ box lo hi from fun i => ⟨le_rfl, h i⟩) i
    have h2 := hs (show hi ∈ box lo hi from fun i => ⟨h i, le_rfl⟩) i
    exact ⟨h1.1, h2.2⟩
  · intro hs x hx i
    exact ⟨(hs i).1.trans (hx i).1, (hx i).2.trans (hs i).2⟩

/-- The closed cell with multi-index `J` of a structured grid. -/
def cellBox {d : ℕ} (g : CubeGrid d) (J : Fin d → ℕ) : Set (Fin d → ℚ) :=
  box (fun i => g.cellLo i (J i)) (fun i => g.cellHi i (J i))

theorem fine_subset_coarse_iff {d : ℕ} (p : Params d) (hab : ∀ i, p.lowerLeft i < p.upperRight i)
    (hN : ∀ i, 0 < p.coarseCells i) (hm : ∀ i, 0 < p.microPerMacro i) (J K : Fin d → ℕ) :
    cellBox (fineGrid p) J ⊆ cellBox (coarseGrid p) K ↔
      ∀ i, K i * p.microPerMacro i ≤ J i ∧ J i < K i * p.microPerMacro i + p.microPerMacro i := by
  unfold cellBox
  rw [box_subset_iff]
  · refine forall_congr' fun i => ?_
    rw [cellLo_eq_node, cellHi_eq_node, cellLo_eq_node, cellHi_eq_node]
    exact cell_subset_iff (hab i) (hN i) (hm i)
  · intro i
    have hp : 0 < p.coarseCells i * p.microPerMacro i := Nat.mul_pos (hN i) (hm i)
    have h1 : (0 : ℚ) < ((fineGrid p).elements i : ℚ) := by
      show (0 : ℚ) < ((p.coarseCells i * p.microPerMacro i : ℕ) : ℚ)
      exact_mod_cast hp
    have h2 : 0 < (fineGrid p).upper i - (fineGrid p).lower i := sub_pos.mpr (hab i)
    have := div_pos h2 h1
    simp only [CubeGrid.cellLo, CubeGrid.cellHi]
    nlinarith

open Classical in
/-- **C04** Coarse and fine grid cover the same box; the fine grid has
`coarse * micro` cells per direction; every fine cell lies in exactly one coarse
cell; every coarse cell contains exactly `∏ micro` fine cells. -/
theorem C04_fine_grid_nested {d : ℕ} (p : Params d) (hab : ∀ i, p.lowerLeft i < p.upperRight i)
    (hN : ∀ i, 0 < p.coarseCells i) (hm : ∀ i, 0 < p.microPerMacro i) :
    (fineGrid p).lower = (coarseGrid p).lower ∧ (fineGrid p).upper = (coarseGrid p).upper ∧
    (∀ i, (fineGrid p).elements i = (coarseGrid p).elements i * p.microPerMacro i) ∧
    (∀ J : (i : Fin d) → Fin ((fineGrid p).elements i),
      ∃! K : (i : Fin d) → Fin ((coarseGrid p).elements i),
        cellBox (fineGrid p) (fun i => J i) ⊆ cellBox (coarseGrid p) (fun i => K i)) ∧
    (∀ K : (i : Fin d) → Fin ((coarseGrid p).elements i),
      (Finset.univ.filter (fun J : (i : Fin d) → Fin ((fineGrid p).elements i) =>
        cellBox (fineGrid p) (fun i => J i) ⊆ cellBox (coarseGrid p) (fun i => K i))).card =
      ∏ i, p.microPerMacro i) := by
  refine ⟨rfl, rfl, fun i => rfl, ?_, ?_⟩
  · intro J
    refine ⟨fun i => ⟨(J i : ℕ) / p.microPerMacro i, ?_⟩, ?_, ?_⟩
    · have : (J i : ℕ) < p.coarseCells i * p.microPerMacro i := (J i).2
      exact Nat.div_lt_of_lt_mul (by rw [mul_comm]; exact this)
    · beta_reduce
      rw [fine_subset_coarse_iff p hab hN hm]
      intro i
      have h1 := Nat.div_mul_le_self (J i : ℕ) (p.microPerMacro i)
      have h2 := Nat.lt_div_mul_add (a := (J i : ℕ)) (hm i)
      exact ⟨h1, h2⟩
    · intro K hK
      rw [fine_subset_coarse_iff p hab hN hm] at hK
      funext i
      apply Fin.ext
      have := hK i
      show (K i : ℕ) = (J i : ℕ) / p.microPerMacro i
      symm
      apply Nat.div_eq_of_lt_le
      · exact this.1
      · calc (J i : ℕ) < _ := this.2
          _ = _ := by ring
  · intro K
    apply card_aux (l := fun i => (K i : ℕ) * p.microPerMacro i)
    · intro J
      simp only [Finset.mem_filter, Finset.mem_univ, true_and]
      exact fine_subset_coarse_iff p hab hN hm _ _
    · intro i
      have : (K i : ℕ) + 1 ≤ p.coarseCells i := (K i).2
      calc (K i : ℕ) * p.microPerMacro i + p.microPerMacro i = ((K i : ℕ) + 1) * p.microPerMacro i := by ring
        _ ≤ _ := Nat.mul_le_mul_right _ this

/-- Instance of C04: hypotheses for the test configuration `p_aniso`. -/
example : let p : Params 3 := ⟨fun _ => 0, fun _ => 1, ![14, 4, 6], ![3, 32, 8], 0, 1⟩
    (∀ i, p.lowerLeft i < p.upperRight i) ∧ (∀ i, 0 < p.coarseCells i) ∧ (∀ i, 0 < p.microPerMacro i) := by
  refine ⟨fun i => by norm_num, by decide, by decide⟩

/-! ## C05 -/

/-- Contract of IEEE-754 binary64 rounding used here: relative error at most
`2^-53` (required here only between `2^-200` and `2^200`), exact on integers up to `2^53`. -/
structure Rounding (rd : ℚ → ℚ) : Prop where
  rel : ∀ x, (2 : ℚ) ^ (-200 : ℤ) ≤ x → x ≤ 2 ^ (200 : ℤ) → |rd x - x| ≤ (2 : ℚ) ^ (-53 : ℤ) * x
  int : ∀ n : ℕ, n ≤ 2 ^ 53 → rd (n : ℚ) = n

/-- **C05** The overlap in a direction is the least `k` with `o ≤ k * m`, for
every rounding of the division obeying the binary64 contract. -/
theorem C05_coarse_overlap_least (rd : ℚ → ℚ) (hrd : Rounding rd) (o m : ℕ)
    (ho : o < 2 ^ 31) (hm : 1 ≤ m) (hm' : m ≤ 2 ^ 31) :
    ∃ k : ℕ, coarseOverlap rd o m = k ∧ IsLeast {k : ℕ | o ≤ k * m} k := by
  have hmq : (0 : ℚ) < m := by exact_mod_cast hm
  by_cases hdvd : m ∣ o
  · obtain ⟨q, rfl⟩ := hdvd
    refine ⟨q, ?_, ?_, ?_⟩
    · unfold coarseOverlap
      have : ((m * q : ℕ) : ℚ) / m = (q : ℕ) := by push_cast; field_simp
      rw [this, hrd.int q]
      · simp
      · calc q ≤ m * q := Nat.le_mul_of_pos_left _ hm
          _ ≤ 2 ^ 53 := by omega
    · show m * q ≤ q * m; rw [mul_comm]
    · intro k hk
      have : m * q ≤ m * k := by rw [mul_comm m k]; exact hk
      exact Nat.le_of_mul_le_mul_left this hm
  · have ho0 : 0 < o := Nat.pos_of_ne_zero (fun h => hdvd (h ▸ dvd_zero m))
    set q := o / m with hq
    have hqm : q * m < o := by
      have h1 : q * m ≤ o := Nat.div_mul_le_self o m
      rcases Nat.lt_or_eq_of_le h1 with h | h
      · exact h
      · exact absurd ⟨q, by rw [← h, mul_comm]⟩ hdvd
    have hqm' : o < q * m + m := Nat.lt_div_mul_add hm
    refine ⟨q + 1, ?_, ?_, ?_⟩
    · unfold coarseOverlap
      set x : ℚ := (o : ℚ) / m with hx
      have hxo : x * m = o := by rw [hx]; field_simp
      have ho1 : (1 : ℚ) ≤ o := by exact_mod_cast ho0
      have ho2 : (o : ℚ) ≤ 2 ^ 31 := by exact_mod_cast ho.le
      have hm2 : (m : ℚ) ≤ 2 ^ 31 := by exact_mod_cast hm'
      have hm1 : (1 : ℚ) ≤ m := by exact_mod_cast hm
      have hxlow : (2 : ℚ) ^ (-200 : ℤ) ≤ x := by
        have : (1 : ℚ) / 2 ^ 31 ≤ x := by
          rw [hx, div_le_div_iff₀ (by norm_num) hmq]
          nlinarith
        refine le_trans ?_ this
        norm_num
      have hxhigh : x ≤ 2 ^ (200 : ℤ) := by
        have : x ≤ 2 ^ 31 := by
          rw [hx, div_le_iff₀ hmq]
          nlinarith
        exact this.trans (by norm_num)
      have hrel := hrd.rel x hxlow hxhigh
      have hbound : (2 : ℚ) ^ (-53 : ℤ) * x < 1 / m := by
        rw [lt_div_iff₀ hmq, mul_assoc, hxo]
        calc (2 : ℚ) ^ (-53 : ℤ) * o ≤ 2 ^ (-53 : ℤ) * 2 ^ 31 := by
              apply mul_le_mul_of_nonneg_left ho2; positivity
          _ < 1 := by norm_num
      have hlow : (q : ℚ) + 1 / m ≤ x := by
        have : (q : ℚ) * m + 1 ≤ o := by exact_mod_cast hqm
        rw [hx, le_div_iff₀ hmq, add_mul, one_div, inv_mul_cancel₀ hmq.ne']
        exact this
      have hhigh : x ≤ (q : ℚ) + 1 := by
        have : (o : ℚ) ≤ q * m + m := by exact_mod_cast hqm'.le
        rw [hx, div_le_iff₀ hmq]
        linarith
      have hhigh' : x + 1 / m ≤ (q : ℚ) + 1 := by
        have : (o : ℚ) + 1 ≤ q * m + m := by exact_mod_cast hqm'
        rw [hx, ← add_div, div_le_iff₀ hmq]
        linarith
      rw [abs_le] at hrel
      generalize (2 : ℚ) ^ (-53 : ℤ) * x = e at hrel hbound
      rw [Int.ceil_eq_iff]
      push_cast
      constructor <;> linarith [hrel.1, hrel.2]
    · show o ≤ (q + 1) * m
      calc o ≤ q * m + m := hqm'.le
        _ = _ := by ring
    · intro k hk
      have hk' : o ≤ k * m := hk
      by_contra hcon
      push Not at hcon
      have : k * m ≤ q * m := Nat.mul_le_mul_right _ (by omega)
      omega

/-- Instance of C05: exact division obeys the contract; 6 layers with 18 micro cells need one
coarse layer, 19 layers need two. -/
example : Rounding id ∧ coarseOverlap id 6 18 = 1 ∧ coarseOverlap id 19 18 = 2 := by
  refine ⟨⟨fun x h _ => ?_, fun n _ => rfl⟩, ?_, ?_⟩
  · simp only [id, sub_self, abs_zero]
    have : 0 ≤ x := le_trans (zpow_nonneg (by norm_num) _) h
    positivity
  · unfold coarseOverlap; norm_num [Int.ceil_eq_iff]
  · unfold coarseOverlap; norm_num [Int.ceil_eq_iff]

/-! ## C06 -/

theorem yaspLoop_ok_iff (f : ℕ) (l : List ℕ) (g : ℕ) :
    yaspLoop f l = .ok g ↔ g = f ∧ ∀ x ∈ l, x = f := by
  induction l with
  | nil => simp [yaspLoop, eq_comm]
  | cons x l ih =>
    unfold yaspLoop
    split_ifs with h
    · simp [h]
    · push Not at h
      rw [ih]; simp [h]

theorem yaspLoop_throw_iff (f : ℕ) (l : List ℕ) :
    yaspLoop f l = .throw ↔ ∃ x ∈ l, x ≠ f := by
  induction l with
  | nil => simp [yaspLoop]
  | cons x l ih =>
    unfold yaspLoop
    split_ifs with h
    · simp [h]
    · push Not at h
      rw [ih]; simp [h]

/-- **C06** YaspGrid creation succeeds with overlap `g` exactly when every direction asked for `g`,
and throws exactly when two directions asked for different overlaps. -/
theorem C06_yasp_overlap {d : ℕ} (overlap : Fin (d + 1) → ℕ) :
    (∀ g, yaspCreate overlap = .ok g ↔ ∀ i, overlap i = g) ∧
    (yaspCreate overlap = .throw ↔ ∃ i j, overlap i ≠ overlap j) := by
  constructor
  · intro g
    unfold yaspCreate
    rw [yaspLoop_ok_iff]
    simp only [List.mem_ofFn, forall_exists_index, forall_apply_eq_imp_iff]
    constructor
    · rintro ⟨rfl, h⟩ i
      refine Fin.cases rfl (fun j => h j) i
    · intro h
      exact ⟨(h 0).symm, fun j => by rw [h, h]⟩
  · unfold yaspCreate
    rw [yaspLoop_throw_iff]
    simp only [List.mem_ofFn, exists_exists_eq_and]
    constructor
    · rintro ⟨j, h⟩; exact ⟨_, _, h⟩
    · rintro ⟨i, j, h⟩
      by_contra hcon
      push Not at hcon
      have : ∀ i, overlap i = overlap 0 := fun i => Fin.cases rfl (fun j => hcon j) i
      exact h (by rw [this i, this j])

/-- **C06**, consequence for the coarse grid: with the overlaps of C05, creation
throws exactly when two directions need a different number of coarse layers;
it never throws when no layer is requested or when one coarse cell holds all layers in every direction. -/
theorem C06_coarse_grid {d : ℕ} (rd : ℚ → ℚ) (hrd : Rounding rd) (p : Params (d + 1))
    (ho : p.oversamplingLayers < 2 ^ 31)
    (hm : ∀ i, 1 ≤ p.microPerMacro i ∧ p.microPerMacro i ≤ 2 ^ 31) :
    (yaspCoarse rd p = .throw ↔ ∃ i j k l,
      IsLeast {k : ℕ | p.oversamplingLayers ≤ k * p.microPerMacro i} k ∧
      IsLeast {k : ℕ | p.oversamplingLayers ≤ k * p.microPerMacro j} l ∧ k ≠ l) ∧
    (p.oversamplingLayers = 0 → yaspCoarse rd p = .ok 0) ∧
    (0 < p.oversamplingLayers → (∀ i, p.oversamplingLayers ≤ p.microPerMacro i) →
      yaspCoarse rd p = .ok 1) := by
  have hov := fun i => C05_coarse_overlap_least rd hrd p.oversamplingLayers (p.microPerMacro i) ho
    (hm i).1 (hm i).2
  choose k hk hleast using hov
  have hc : yaspCoarse rd p = yaspCreate k := by
    unfold yaspCoarse
    congr 1
    funext i
    rw [hk i]; simp
  rw [hc]
  refine ⟨?_, ?_, ?_⟩
  · rw [(C06_yasp_overlap k).2]
    constructor
    · rintro ⟨i, j, h⟩; exact ⟨i, j, k i, k j, hleast i, hleast j, h⟩
    · rintro ⟨i, j, x, y, hx, hy, h⟩
      refine ⟨i, j, ?_⟩
      rw [(hleast i).unique hx, (hleast j).unique hy]; exact h
  · intro h0
    rw [(C06_yasp_overlap k).1]
    intro i
    apply (hleast i).unique
    rw [h0]; exact ⟨by simp, fun _ _ => Nat.zero_le _⟩
  · intro h0 h1
    rw [(C06_yasp_overlap k).1]
    intro i
    apply (hleast i).unique
    refine ⟨by simpa using h1 i, ?_⟩
    intro x hx
    by_contra hcon
    have : x = 0 := by omega
    subst this
    have : p.oversamplingLayers ≤ 0 * p.microPerMacro i := hx
    omega

/-- **C06** (other back end) On SPGrid the coarse grid is always created, in every direction with the least number of coarse layers that hold
the requested ones; if YaspGrid accepts the overlaps, both grids have the same. -/
theorem C06_spgrid {d : ℕ} (rd : ℚ → ℚ) (hrd : Rounding rd) (p : Params (d + 1)) (ho : p.oversamplingLayers < 2 ^ 31)
    (hm : ∀ i, 1 ≤ p.microPerMacro i ∧ p.microPerMacro i ≤ 2 ^ 31) :
    ∃ overlap, spCoarse rd p = .ok overlap ∧
      (∀ i, IsLeast {k : ℕ | p.oversamplingLayers ≤ k * p.microPerMacro i} (overlap i)) ∧
      ∀ g, yaspCoarse rd p = .ok g → ∀ i, overlap i = g := by
  refine ⟨_, rfl, fun i => ?_, fun g hg => ((C06_yasp_overlap _).1 g).mp hg⟩
  obtain ⟨k, hk, hleast⟩ := C05_coarse_overlap_least rd hrd p.oversamplingLayers (p.microPerMacro i) ho (hm i).1 (hm i).2
  rw [hk]
  simpa using hleast

/-- Instance of C06: overlaps `(1,1,1)` are accepted, `(1,2,1)` rejected. -/
example : yaspCreate (![1, 1, 1] : Fin 3 → ℕ) = .ok 1 ∧ yaspCreate (![1, 2, 1] : Fin 3 → ℕ) = .throw := by
  decide

/-- Instance: the anisotropic test grid (micro cells 3, 32, 8) with 4 layers is rejected, because
the directions need 2, 1 and 1 coarse layers. -/
example : yaspCoarse id (⟨fun _ => 0, fun _ => 1, ![14, 4, 6], ![3, 32, 8], 4, 1⟩ : Params 3) = .throw := by
  have h : yaspCoarse id (⟨fun _ => 0, fun _ => 1, ![14, 4, 6], ![3, 32, 8], 4, 1⟩ : Params 3) =
      yaspCreate (![2, 1, 1] : Fin 3 → ℕ) := by
    unfold yaspCoarse
    congr 1
    funext i
    have h1 : ⌈(4 / 32 : ℚ)⌉ = 1 := by rw [Int.ceil_eq_iff]; norm_num
    have h2 : ⌈(4 / 8 : ℚ)⌉ = 1 := by rw [Int.ceil_eq_iff]; norm_num
    have h3 : ⌈(4 / 3 : ℚ)⌉ = 2 := by rw [Int.ceil_eq_iff]; norm_num
    fin_cases i <;> simp [coarseOverlap, h1, h2, h3]
  rw [h]; decide

/-! ## C07 -/

theorem foldl_toNat (l : List UInt32) (acc : UInt32) :
    (l.foldl (· * ·) acc).toNat = (acc.toNat * (l.map UInt32.toNat).prod) % 2 ^ 32 := by
  induction l generalizing acc with
  | nil => simp [Nat.mod_eq_of_lt acc.toNat_lt]
  | cons x l ih =>
    simp only [List.foldl_cons, List.map_cons, List.prod_cons]
    rw [ih, UInt32.toNat_mul]
    rw [Nat.mod_mul_mod]
    ring_nf

/-- The element count is the product modulo `2^32`. -/
theorem expectedElements_toNat (l : List UInt32) :
    (expectedElements l).toNat = (l.map UInt32.toNat).prod % 2 ^ 32 := by
  unfold expectedElements
  rw [foldl_toNat]; simp

theorem asInt_expected (elements : List UInt32) (hsmall : (elements.map UInt32.toNat).prod < 2 ^ 31) :
    asInt (expectedElements elements) = ((elements.map UInt32.toNat).prod : ℕ) := by
  have h1 := expectedElements_toNat elements
  rw [Nat.mod_eq_of_lt (by omega)] at h1
  unfold asInt
  rw [BitVec.toInt_eq_toNat_of_lt]
  · show (((expectedElements elements).toNat : ℕ) : ℤ) = _
    rw [h1]
  · show 2 * (expectedElements elements).toNat < _
    rw [h1]; omega

/-- The process owns every cell of the grid. -/
def OwnsAll (parts : List Part) : Prop := ∀ p ∈ parts, p.first = 0 ∧ p.last = p.cells

/-- A part of a grid which has cells. -/
def Valid (p : Part) : Prop := 0 < p.cells ∧ p.first ≤ p.last ∧ p.last ≤ p.cells

theorem size_le (layers : ℕ) (p : Part) : p.size layers ≤ p.cells := by
  unfold Part.size
  omega

theorem size_zero_iff {p : Part} (hp : Valid p) : p.size 0 = p.cells ↔ p.first = 0 ∧ p.last = p.cells := by
  unfold Part.size
  have := hp.1
  have := hp.2.1
  have := hp.2.2
  omega

theorem gridSize_le (layers : ℕ) (parts : List Part) : gridSize layers parts ≤ (parts.map Part.cells).prod := by
  induction parts with
  | nil => exact le_refl _
  | cons p parts ih =>
    simp only [gridSize, List.map_cons, List.prod_cons] at ih ⊢
    exact Nat.mul_le_mul (size_le layers p) ih

theorem gridSize_eq_iff (parts : List Part) (hp : ∀ p ∈ parts, Valid p) :
    gridSize 0 parts = (parts.map Part.cells).prod ↔ OwnsAll parts := by
  induction parts with
  | nil => simp [gridSize, OwnsAll]
  | cons p parts ih =>
    have ih' := ih fun q hq => hp q (List.mem_cons_of_mem _ hq)
    have hpos : 0 < (parts.map Part.cells).prod := by
      apply Nat.pos_of_ne_zero
      rw [Ne, List.prod_eq_zero_iff, List.mem_map]
      rintro ⟨q, hq, h0⟩
      have := (hp q (List.mem_cons_of_mem _ hq)).1
      omega
    have hv := hp p List.mem_cons_self
    have h1 := size_le 0 p
    have h2 := gridSize_le 0 parts
    have hiff := size_zero_iff hv
    simp only [gridSize, List.map_cons, List.prod_cons] at ih' h2 ⊢
    have hall : OwnsAll (p :: parts) ↔ (p.first = 0 ∧ p.last = p.cells) ∧ OwnsAll parts := by
      simp only [OwnsAll, List.forall_mem_cons]
    rw [hall, ← hiff, ← ih']
    constructor
    · intro h
      by_cases e1 : p.size 0 = p.cells
      · rw [e1] at h
        exact ⟨e1, Nat.eq_of_mul_eq_mul_left hv.1 h⟩
      · have : p.size 0 * (parts.map (Part.size 0)).prod < p.cells * (parts.map Part.cells).prod :=
          lt_of_le_of_lt (Nat.mul_le_mul_left _ h2) (Nat.mul_lt_mul_of_pos_right (by omega) hpos)
        omega
    · rintro ⟨e1, e2⟩
      rw [e1, e2]

open Classical in
/-- **C07** What `size(0)` counts in one direction: the cells at most `layers` cells away from an own cell. -/
theorem C07_size_counts (layers : ℕ) (p : Part) (h : p.first < p.last) :
    p.size layers =
      ((Finset.range p.cells).filter fun j => ∃ k, p.first ≤ k ∧ k < p.last ∧ j ≤ k + layers ∧ k ≤ j + layers).card := by
  have : ((Finset.range p.cells).filter fun j => ∃ k, p.first ≤ k ∧ k < p.last ∧ j ≤ k + layers ∧ k ≤ j + layers) =
      Finset.Ico (p.first - layers) (min p.cells (p.last + layers)) := by
    ext j
    simp only [Finset.mem_filter, Finset.mem_range, Finset.mem_Ico]
    constructor
    · rintro ⟨h1, k, h2⟩
      omega
    · intro h1
      refine ⟨by omega, ?_⟩
      by_cases h2 : j < p.first
      · exact ⟨p.first, by omega⟩
      · by_cases h3 : j < p.last
        · exact ⟨j, by omega⟩
        · exact ⟨p.last - 1, by omega⟩
  rw [this, Nat.card_Ico]
  rfl

/-- Instance: cells 4, 5 and 6 of ten, two layers. -/
example : (⟨10, 4, 7⟩ : Part).size 2 = 7 ∧ (⟨10, 0, 7⟩ : Part).size 2 = 9 := by decide

/-- **C07** (partial: the number of cells must be below `2^31`, see `C07_violated`, and the grid must be without overlap, see
`C07_violated_overlap`) The exact condition.  Creation throws on a process exactly if several processes take part, the process
owns all cells and the coarse grid has no overlap. -/
theorem C07_rank0_check_partial (elements : List UInt32) (commSize layers : ℕ) (parts : List Part)
    (hparts : parts.map Part.cells = elements.map UInt32.toNat) (hvalid : ∀ p ∈ parts, Valid p)
    (hsmall : (elements.map UInt32.toNat).prod < 2 ^ 31) :
    rank0Fail elements commSize layers parts = true ↔ commSize > 1 ∧ OwnsAll parts ∧ layers = 0 := by
  unfold rank0Fail actualElements
  rw [asInt_expected elements hsmall, ← hparts]
  have hle := gridSize_le layers parts
  have hpos : 0 < (parts.map Part.cells).prod := by
    apply Nat.pos_of_ne_zero
    rw [Ne, List.prod_eq_zero_iff, List.mem_map]
    rintro ⟨q, hq, h0⟩
    have := (hvalid q hq).1
    omega
  simp only [Bool.and_eq_true, decide_eq_true_eq]
  constructor
  · rintro ⟨h1, h2⟩
    have h0 : layers = 0 := by omega
    subst h0
    exact ⟨h1, (gridSize_eq_iff parts hvalid).mp (by omega), rfl⟩
  · rintro ⟨h1, h2, rfl⟩
    have := (gridSize_eq_iff parts hvalid).mpr h2
    exact ⟨h1, by omega⟩

/-- **C07 is violated** on every coarse grid with overlap, which is what oversampling gives (C05): a process that owns all cells of the
grid passes the check, since the number of layers is subtracted instead of the number of overlap cells. -/
theorem C07_violated_overlap (elements : List UInt32) (commSize layers : ℕ) (parts : List Part)
    (hparts : parts.map Part.cells = elements.map UInt32.toNat) (hvalid : ∀ p ∈ parts, Valid p)
    (hsmall : (elements.map UInt32.toNat).prod < 2 ^ 31) (hl : 0 < layers) :
    rank0Fail elements commSize layers parts = false := by
  rw [← Bool.not_eq_true, C07_rank0_check_partial elements commSize layers parts hparts hvalid hsmall]
  omega

/-- **C07 is violated** for `65537 x 65536` coarse cells (more than `2^32`): a process that owns a single row of `65536` cells gets the
exception. -/
theorem C07_violated :
    rank0Fail [65537, 65536] 65537 0 [⟨65537, 0, 1⟩, ⟨65536, 0, 65536⟩] = true ∧
    ¬ OwnsAll [⟨65537, 0, 1⟩, ⟨65536, 0, 65536⟩] := by
  constructor
  · decide
  · intro h
    have := (h ⟨65537, 0, 1⟩ (by simp)).2
    simp at this

/-- Instance of C07: `14 x 14 x 14` cells, two processes, the first of which owns all of them, or half of them; with one layer of overlap
the first case passes. -/
example :
    (([14, 14, 14] : List UInt32).map UInt32.toNat).prod < 2 ^ 31 ∧
    (∀ p ∈ [(⟨14, 0, 14⟩ : Part), ⟨14, 0, 14⟩, ⟨14, 0, 14⟩], Valid p) ∧
    rank0Fail [14, 14, 14] 2 0 [⟨14, 0, 14⟩, ⟨14, 0, 14⟩, ⟨14, 0, 14⟩] = true ∧
    rank0Fail [14, 14, 14] 2 0 [⟨14, 0, 7⟩, ⟨14, 0, 14⟩, ⟨14, 0, 14⟩] = false ∧
    rank0Fail [14, 14, 14] 1 0 [⟨14, 0, 14⟩, ⟨14, 0, 14⟩, ⟨14, 0, 14⟩] = false ∧
    rank0Fail [14, 14, 14] 2 1 [⟨14, 0, 14⟩, ⟨14, 0, 14⟩, ⟨14, 0, 14⟩] = false := by
  refine ⟨by decide, ?_, by decide, by decide, by decide, by decide⟩
  simp [Valid]

/-! ## C87 -/

/-- A box of cells: one index per direction. -/
def InBox (parts : List Part) (lo hi : Part → ℕ) (x : List ℕ) : Prop := List.Forall₂ (fun p j => lo p ≤ j ∧ j < hi p) parts x

open Classical in
theorem box_card (parts : List Part) (lo hi : Part → ℕ) :
    Set.ncard {x | InBox parts lo hi x} = (parts.map fun p => hi p - lo p).prod := by
  induction parts with
  | nil =>
    have : {x | InBox [] lo hi x} = {[]} := by
      ext x
      simp [InBox]
    rw [this, Set.ncard_singleton]
    rfl
  | cons p parts ih =>
    have : {x | InBox (p :: parts) lo hi x} =
        (fun q : ℕ × List ℕ => q.1 :: q.2) '' ((Finset.Ico (lo p) (hi p) : Set ℕ) ×ˢ {x | InBox parts lo hi x}) := by
      ext x
      simp only [InBox, Set.mem_ofPred_eq, Set.mem_image, Set.mem_prod, Finset.coe_Ico, Set.mem_Ico, Prod.exists]
      constructor
      · intro h
        cases h with
        | cons h1 h2 => exact ⟨_, _, ⟨h1, h2⟩, rfl⟩
      · rintro ⟨a, l, ⟨h1, h2⟩, rfl⟩
        exact List.Forall₂.cons h1 h2
    rw [this, Set.ncard_image_of_injective _ (fun a b h => by
      have := List.cons.inj h
      exact Prod.ext this.1 this.2), Set.ncard_prod, ih, Set.ncard_coe_finset, Nat.card_Ico]
    rfl

/-- Own cells of the process. -/
def OwnCell (parts : List Part) (x : List ℕ) : Prop := InBox parts Part.first Part.last x

/-- Cells of other processes that are visible to the process: at most `layers` cells away from an own cell. -/
def OverlapCell (layers : ℕ) (parts : List Part) (x : List ℕ) : Prop :=
  InBox parts (fun p => p.first - layers) (fun p => min p.cells (p.last + layers)) x ∧ ¬ OwnCell parts x

/-- **C87** Local problems are solved once for every own cell. -/
theorem C87_solved (parts : List Part) : solvedCells parts = Set.ncard {x | OwnCell parts x} := (box_card _ _ _).symm

theorem box_finite (parts : List Part) (lo hi : Part → ℕ) : {x | InBox parts lo hi x}.Finite := by
  induction parts with
  | nil =>
    refine (Set.finite_singleton []).subset fun x hx => ?_
    simpa [InBox] using hx
  | cons p parts ih =>
    refine (((Finset.Ico (lo p) (hi p)).finite_toSet.prod ih).image fun q : ℕ × List ℕ => q.1 :: q.2).subset fun x hx => ?_
    simp only [InBox, Set.mem_ofPred_eq] at hx
    cases hx with
    | cons h1 h2 => exact ⟨(_, _), ⟨by simpa using h1, h2⟩, rfl⟩

/-- **C87** (violated, exact size of the error) The number in the log differs from the number of cells for which local problems are solved by
the number of overlap cells minus the number of layers. -/
theorem C87_announced (layers : ℕ) (parts : List Part) (hvalid : ∀ p ∈ parts, Valid p) :
    announcedCells layers parts = (solvedCells parts : ℤ) + (Set.ncard {x | OverlapCell layers parts x} : ℤ) - (layers : ℤ) := by
  have hsub : {x | OwnCell parts x} ⊆ {x | InBox parts (fun p => p.first - layers) (fun p => min p.cells (p.last + layers)) x} := by
    intro x hx
    simp only [Set.mem_ofPred_eq, OwnCell, InBox] at hx ⊢
    induction hx with
    | nil => exact List.Forall₂.nil
    | cons h1 h2 ih =>
      refine List.Forall₂.cons ?_ (ih fun q hq => hvalid q (List.mem_cons_of_mem _ hq) )
      have := hvalid _ List.mem_cons_self
      unfold Valid at this
      omega
  have hbox := box_card parts (fun p => p.first - layers) (fun p => min p.cells (p.last + layers))
  have hdiff : {x | OverlapCell layers parts x} =
      {x | InBox parts (fun p => p.first - layers) (fun p => min p.cells (p.last + layers)) x} \ {x | OwnCell parts x} := rfl
  have hadd := Set.ncard_sdiff_add_ncard_of_subset hsub (box_finite _ _ _)
  rw [← hdiff, hbox, ← C87_solved] at hadd
  have : gridSize layers parts = (parts.map fun p => min p.cells (p.last + layers) - (p.first - layers)).prod := rfl
  rw [announcedCells, this, ← hadd]
  push_cast
  ring

/-- **C87** (partial: without oversampling) The announced number is right if the coarse grid has no overlap. -/
theorem C87_no_overlap_partial (parts : List Part) (hvalid : ∀ p ∈ parts, Valid p) :
    announcedCells 0 parts = solvedCells parts := by
  have : gridSize 0 parts = solvedCells parts := by
    unfold gridSize solvedCells
    congr 1
    refine List.map_congr_left fun p hp => ?_
    have := hvalid p hp
    unfold Valid at this
    unfold Part.size
    omega
  rw [announcedCells, this]
  simp

/-- **C87 is violated** in every run on one process with oversampling: too few cells are announced. -/
theorem C87_violated_serial (layers : ℕ) (parts : List Part) (h : OwnsAll parts) :
    announcedCells layers parts = (solvedCells parts : ℤ) - layers := by
  have : gridSize layers parts = solvedCells parts := by
    unfold gridSize solvedCells
    congr 1
    refine List.map_congr_left fun p hp => ?_
    have := h p hp
    unfold Part.size
    omega
  rw [announcedCells, this]

/-- **C87 is violated**: the announced number can be negative, here one cell in each of two directions and two layers; and it can be too
large, here two processes, each with half of `8 x 8` cells and one layer. -/
theorem C87_violated : announcedCells 2 [⟨1, 0, 1⟩, ⟨1, 0, 1⟩] = -1 ∧ solvedCells [⟨1, 0, 1⟩, ⟨1, 0, 1⟩] = 1 ∧
    announcedCells 1 [⟨8, 0, 4⟩, ⟨8, 0, 8⟩] = 39 ∧ solvedCells [⟨8, 0, 4⟩, ⟨8, 0, 8⟩] = 32 := by decide

/-- Instance of the hypotheses of C87. -/
example : (∀ p ∈ [(⟨8, 0, 4⟩ : Part), ⟨8, 0, 8⟩], Valid p) ∧ OwnsAll [(⟨8, 0, 8⟩ : Part), ⟨8, 0, 8⟩] := by
  simp [Valid, OwnsAll]

end Verif.GridCreation
