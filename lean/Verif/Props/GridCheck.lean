import Verif.Model.GridCheck
import Verif.Props.Partition
import Verif.Props.Program

/-!
# C74: the comparison of the grids before the projection
-/

namespace Verif.GridCheck
open Verif.LocalGrid Verif.GridCreation Verif.LoadBalance

variable {d : ℕ}

/-! ## Limits -/

theorem limits_from (xs : List ℚ) (a b : ℚ) :
    xs.foldl extend (some (a, b)) = some (xs.foldl min a, xs.foldl max b) := by
  induction xs generalizing a b with
  | nil => rfl
  | cons x xs ih => exact ih _ _

theorem foldl_min_eq (xs : List ℚ) (a m : ℚ) (h : m = a ∨ m ∈ xs) (ha : m ≤ a) (hx : ∀ x ∈ xs, m ≤ x) : xs.foldl min a = m := by
  induction xs generalizing a with
  | nil => rcases h with h | h <;> simp_all
  | cons x xs ih =>
    rw [List.foldl_cons]
    have h1 := hx x (by simp)
    apply ih
    · rcases h with rfl | h
      · exact .inl (min_eq_left h1).symm
      · rcases List.mem_cons.mp h with rfl | h
        · exact .inl (min_eq_right ha).symm
        · exact .inr h
    · exact le_min ha h1
    · exact fun y hy => hx y (List.mem_cons_of_mem _ hy)

theorem foldl_max_eq (xs : List ℚ) (a m : ℚ) (h : m = a ∨ m ∈ xs) (ha : a ≤ m) (hx : ∀ x ∈ xs, x ≤ m) : xs.foldl max a = m := by
  induction xs generalizing a with
  | nil => rcases h with h | h <;> simp_all
  | cons x xs ih =>
    rw [List.foldl_cons]
    have h1 := hx x (by simp)
    apply ih
    · rcases h with rfl | h
      · exact .inl (max_eq_left h1).symm
      · rcases List.mem_cons.mp h with rfl | h
        · exact .inl (max_eq_right ha).symm
        · exact .inr h
    · exact max_le ha h1
    · exact fun y hy => hx y (List.mem_cons_of_mem _ hy)

theorem limits_eq (xs : List ℚ) (a b : ℚ) (ha : a ∈ xs) (hb : b ∈ xs) (h : ∀ x ∈ xs, a ≤ x ∧ x ≤ b) : limits xs = some (a, b) := by
  cases xs with
  | nil => simp at ha
  | cons x xs =>
    show List.foldl _ (some (x, x)) xs = _
    rw [limits_from, foldl_min_eq xs x a (List.mem_cons.mp ha) (h x (by simp)).1 fun y hy => (h y (List.mem_cons_of_mem _ hy)).1,
      foldl_max_eq xs x b (List.mem_cons.mp hb) (h x (by simp)).2 fun y hy => (h y (List.mem_cons_of_mem _ hy)).2]

theorem matchCheck_ok_iff (close : ℚ → ℚ → Bool) (coarse fine : CubeGrid d) (coarseCells fineCells : List (Fin d → ℕ)) :
    (matchCheck close coarse fine coarseCells fineCells = .ok () ↔
      ∀ i, sameLimits close (coordLimits coarse coarseCells i) (coordLimits fine fineCells i) = true) ∧
    (matchCheck close coarse fine coarseCells fineCells ≠ .ok () → matchCheck close coarse fine coarseCells fineCells = .throw) := by
  have hthrow : ∀ (l : List (Fin d)) (f : Fin d → Bool),
      l.foldl (fun (r : Outcome Unit) i => r >>= fun _ => if f i then .ok () else .throw) .throw = .throw := by
    intro l f
    induction l with
    | nil => rfl
    | cons i l ih => rw [List.foldl_cons]; exact ih
  have key : ∀ (l : List (Fin d)) (f : Fin d → Bool),
      l.foldl (fun (r : Outcome Unit) i => r >>= fun _ => if f i then .ok () else .throw) (.ok ()) =
        if ∀ i ∈ l, f i = true then .ok () else .throw := by
    intro l f
    induction l with
    | nil => simp
    | cons i l ih =>
      rw [List.foldl_cons]
      cases hf : f i
      · have : (Outcome.ok () >>= fun _ => if f i = true then Outcome.ok () else Outcome.throw) = Outcome.throw := by rw [hf]; rfl
        rw [hf] at this
        rw [this, hthrow, if_neg (by simp [hf])]
      · have : (Outcome.ok () >>= fun _ => if f i = true then Outcome.ok () else Outcome.throw) = Outcome.ok () := by rw [hf]; rfl
        rw [hf] at this
        rw [this, ih]
        simp [hf]
  unfold matchCheck
  rw [key]
  constructor
  · constructor
    · intro h i
      split_ifs at h with hh
      exact hh i (List.mem_finRange i)
    · intro h
      rw [if_pos fun i _ => h i]
  · intro h
    split_ifs at h ⊢ with hh
    · exact absurd rfl h
    · rfl

/-! ## Boxes of cells -/

/-- `cells` are the cells of the box with lower corner `o` and upper corner `e`. -/
def IsBox (cells : List (Fin d → ℕ)) (o e : Fin d → ℕ) : Prop := ∀ c, c ∈ cells ↔ ∀ i, o i ≤ c i ∧ c i < e i

/-- width of the cells of a grid -/
def cellWidth (g : CubeGrid d) (i : Fin d) : ℚ := (g.upper i - g.lower i) / (g.elements i : ℚ)

theorem coordLimits_box (g : CubeGrid d) (cells : List (Fin d → ℕ)) (o e : Fin d → ℕ) (h : IsBox cells o e)
    (hne : ∀ i, o i < e i) (i : Fin d) (hw : 0 < cellWidth g i) :
    coordLimits g cells i = some (g.lower i + (o i : ℚ) * cellWidth g i, g.lower i + (e i : ℚ) * cellWidth g i) := by
  apply limits_eq
  · rw [List.mem_flatMap]
    exact ⟨o, (h o).mpr fun i => ⟨le_rfl, hne i⟩, List.mem_cons.mpr (.inl rfl)⟩
  · rw [List.mem_flatMap]
    refine ⟨fun i => e i - 1, (h _).mpr fun i => ?_, List.mem_cons.mpr (.inr (List.mem_singleton.mpr ?_))⟩
    · have := hne i
      omega
    · have := hne i
      rw [CubeGrid.cellHi, cellWidth, show ((e i - 1 : ℕ) : ℚ) + 1 = e i by
        rw [Nat.cast_sub (by omega)]; push_cast; ring]
  · intro x hx
    rw [List.mem_flatMap] at hx
    obtain ⟨c, hc, hx⟩ := hx
    have hci := (h c).mp hc i
    have h1 : (o i : ℚ) ≤ c i := by exact_mod_cast hci.1
    have h2 : (c i : ℚ) + 1 ≤ e i := by exact_mod_cast hci.2
    rcases List.mem_cons.mp hx with rfl | hx
    · rw [CubeGrid.cellLo, ← cellWidth]
      constructor <;> nlinarith
    · rw [List.mem_singleton.mp hx, CubeGrid.cellHi, ← cellWidth]
      constructor <;> nlinarith

theorem coordLimits_empty (g : CubeGrid d) (i : Fin d) : coordLimits g [] i = none := rfl

theorem box_empty {cells : List (Fin d → ℕ)} {o e : Fin d → ℕ} (h : IsBox cells o e) (hne : ¬ ∀ i, o i < e i) : cells = [] := by
  rw [List.eq_nil_iff_forall_not_mem]
  intro c hc
  exact hne fun i => lt_of_le_of_lt ((h c).mp hc i).1 ((h c).mp hc i).2

/-- two boxes, one in units of `μ`, have the same cells -/
theorem box_eq_iff (o e o' e' μ : Fin d → ℕ) (hμ : ∀ i, 0 < μ i) (hne : ∀ i, o i < e i) (hne' : ∀ i, o' i < e' i) :
    (∀ j : Fin d → ℕ, (∀ i, o' i ≤ j i ∧ j i < e' i) ↔ ∀ i, o i ≤ j i / μ i ∧ j i / μ i < e i) ↔
      ∀ i, o' i = o i * μ i ∧ e' i = e i * μ i := by
  have hd : ∀ i x, (o i ≤ x / μ i ∧ x / μ i < e i) ↔ (o i * μ i ≤ x ∧ x < e i * μ i) := fun i x => by
    rw [Nat.le_div_iff_mul_le (hμ i), Nat.div_lt_iff_lt_mul (hμ i)]
  simp only [hd]
  constructor
  · intro h i
    have hpos : ∀ i, o i * μ i < e i * μ i := fun i => Nat.mul_lt_mul_of_pos_right (hne i) (hμ i)
    have h1 := (h o').mp (fun i => ⟨le_rfl, hne' i⟩) i
    have h2 := (h fun i => e' i - 1).mp (fun i => by have := hne' i; constructor <;> omega) i
    have h3 := (h fun i => o i * μ i).mpr (fun i => ⟨le_rfl, hpos i⟩) i
    have h4 := (h fun i => e i * μ i - 1).mpr (fun i => by have := hpos i; constructor <;> omega) i
    have := hpos i
    have := hne' i
    omega
  · intro h j
    exact forall_congr' fun i => by rw [(h i).1, (h i).2]

/-! ## The check of one process -/

/-- Contract of `FloatCmp::eq`: different coordinates of the fine grid are different. -/
def Tells (close : ℚ → ℚ → Bool) (p : Params d) : Prop :=
  ∀ i (a b : ℕ), close (p.lowerLeft i + (a : ℚ) * cellWidth (fineGrid p) i) (p.lowerLeft i + (b : ℚ) * cellWidth (fineGrid p) i) =
    decide (a = b)

theorem match_box (close : ℚ → ℚ → Bool) (p : Params d) (hd : 0 < d) (hdom : ∀ i, p.lowerLeft i < p.upperRight i)
    (hcc : ∀ i, 0 < p.coarseCells i) (hm : ∀ i, 0 < p.microPerMacro i) (htell : Tells close p)
    (coarseCells fineCells : List (Fin d → ℕ)) (o e o' e' : Fin d → ℕ) (hb : IsBox coarseCells o e) (hb' : IsBox fineCells o' e') :
    matchCheck close (coarseGrid p) (fineGrid p) coarseCells fineCells = .ok () ↔
      ∀ j : Fin d → ℕ, j ∈ fineCells ↔ (fun i => j i / p.microPerMacro i) ∈ coarseCells := by
  rw [(matchCheck_ok_iff _ _ _ _ _).1]
  have hw : ∀ i, 0 < cellWidth (coarseGrid p) i := fun i => by
    have : (0 : ℚ) < p.coarseCells i := by exact_mod_cast hcc i
    exact div_pos (sub_pos.mpr (hdom i)) this
  have hw' : ∀ i, 0 < cellWidth (fineGrid p) i := fun i => by
    have : (0 : ℚ) < (p.coarseCells i * p.microPerMacro i : ℕ) := by exact_mod_cast Nat.mul_pos (hcc i) (hm i)
    exact div_pos (sub_pos.mpr (hdom i)) this
  have hscale : ∀ i, cellWidth (coarseGrid p) i = (p.microPerMacro i : ℚ) * cellWidth (fineGrid p) i := fun i => by
    have h1 : (p.coarseCells i : ℚ) ≠ 0 := by exact_mod_cast (hcc i).ne'
    have h2 : (p.microPerMacro i : ℚ) ≠ 0 := by exact_mod_cast (hm i).ne'
    simp only [cellWidth, coarseGrid, fineGrid]
    push_cast
    field_simp
  by_cases hne : ∀ i, o i < e i <;> by_cases hne' : ∀ i, o' i < e' i
  · rw [show (∀ j : Fin d → ℕ, j ∈ fineCells ↔ (fun i => j i / p.microPerMacro i) ∈ coarseCells) ↔ _ from
      forall_congr' fun j => iff_congr (hb' j) (hb _), box_eq_iff o e o' e' _ hm hne hne']
    refine forall_congr' fun i => ?_
    rw [coordLimits_box _ _ o e hb hne i (hw i), coordLimits_box _ _ o' e' hb' hne' i (hw' i)]
    simp only [sameLimits, Bool.and_eq_true, hscale]
    have e1 : ∀ x : ℕ, (coarseGrid p).lower i + (x : ℚ) * ((p.microPerMacro i : ℚ) * cellWidth (fineGrid p) i) =
        p.lowerLeft i + ((x * p.microPerMacro i : ℕ) : ℚ) * cellWidth (fineGrid p) i := fun x => by
      simp only [coarseGrid]
      push_cast
      ring
    rw [e1, e1, show (fineGrid p).lower i = p.lowerLeft i from rfl, htell, htell, decide_eq_true_iff, decide_eq_true_iff]
    exact ⟨fun h => ⟨h.1.symm, h.2.symm⟩, fun h => ⟨h.1.symm, h.2.symm⟩⟩
  · rw [box_empty hb' hne']
    constructor
    · intro h
      have := h ⟨0, hd⟩
      rw [coordLimits_box _ _ o e hb hne _ (hw _), coordLimits_empty] at this
      simp [sameLimits] at this
    · intro h
      have := (h fun i => o i * p.microPerMacro i).mpr ((hb _).mpr fun i => by
        rw [Nat.mul_div_cancel _ (hm i)]
        exact ⟨le_rfl, hne i⟩)
      simp at this
  · rw [box_empty hb hne]
    constructor
    · intro h
      have := h ⟨0, hd⟩
      rw [coordLimits_box _ _ o' e' hb' hne' _ (hw' _), coordLimits_empty] at this
      simp [sameLimits] at this
    · intro h
      have := (h o').mp ((hb' _).mpr fun i => ⟨le_rfl, hne' i⟩)
      simp at this
  · rw [box_empty hb hne, box_empty hb' hne']
    simp [coordLimits_empty, sameLimits]

/-! ## All processes -/

/-- Cell `c` of the grid with `sizes` cells belongs to process `rank` of the process grid `t`. -/
def Owned (sizes : Fin d → ℕ) (t : ℕ → ℕ) (rank : ℕ) (c : Fin d → ℕ) : Prop :=
  ∀ i, Own (sizes i) (t i) (torusCoord t rank i) (c i)

/-- `cells` are the own cells of the process. -/
def IsPart (sizes : Fin d → ℕ) (t : ℕ → ℕ) (rank : ℕ) (cells : List (Fin d → ℕ)) : Prop := ∀ c, c ∈ cells ↔ Owned sizes t rank c

theorem isPart_box {sizes : Fin d → ℕ} {t : ℕ → ℕ} {rank : ℕ} {cells : List (Fin d → ℕ)} (h : IsPart sizes t rank cells) :
    IsBox cells (fun i => partOrigin (sizes i) (t i) (torusCoord t rank i))
      (fun i => partOrigin (sizes i) (t i) (torusCoord t rank i) + partSize (sizes i) (t i) (torusCoord t rank i)) := h

/-- The hypotheses can be met: every process has a list of own cells, and exact comparison tells coordinates apart. -/
theorem part_exists (sizes : Fin d → ℕ) (t : ℕ → ℕ) (ht : ∀ i < d, 0 < t i) (rank : ℕ) : ∃ cells, IsPart sizes t rank cells := by
  classical
  refine ⟨((Fintype.piFinset fun i => Finset.range (sizes i)).filter (Owned sizes t rank)).toList, fun c => ?_⟩
  rw [Finset.mem_toList, Finset.mem_filter, Fintype.mem_piFinset]
  exact ⟨And.right, fun h => ⟨fun i => Finset.mem_range.mpr (own_lt (ht i i.2) (Nat.mod_lt _ (ht i i.2)) (h i)), h⟩⟩

theorem tells_exact (p : Params d) (hdom : ∀ i, p.lowerLeft i < p.upperRight i)
    (hcc : ∀ i, 0 < p.coarseCells i) (hm : ∀ i, 0 < p.microPerMacro i) : Tells (fun a b => decide (a = b)) p := by
  intro i a b
  have : (0 : ℚ) < (p.coarseCells i * p.microPerMacro i : ℕ) := by exact_mod_cast Nat.mul_pos (hcc i) (hm i)
  have hw : cellWidth (fineGrid p) i ≠ 0 := (div_pos (sub_pos.mpr (hdom i)) this).ne'
  rw [decide_eq_decide, add_right_inj, mul_left_inj' hw, Nat.cast_inj]

/-- **C74** (exact, one process) The check of a process succeeds exactly if its fine cells are those in its coarse cells; otherwise it
throws. -/
theorem C74_match_iff (close : ℚ → ℚ → Bool) (p : Params d) (hd : 0 < d) (hdom : ∀ i, p.lowerLeft i < p.upperRight i)
    (hcc : ∀ i, 0 < p.coarseCells i) (hm : ∀ i, 0 < p.microPerMacro i) (htell : Tells close p) (t t' : ℕ → ℕ) (rank : ℕ)
    (coarseCells fineCells : List (Fin d → ℕ)) (hc : IsPart p.coarseCells t rank coarseCells)
    (hf : IsPart (fun i => p.coarseCells i * p.microPerMacro i) t' rank fineCells) :
    (matchCheck close (coarseGrid p) (fineGrid p) coarseCells fineCells = .ok () ↔
      ∀ j : Fin d → ℕ, Owned (fun i => p.coarseCells i * p.microPerMacro i) t' rank j ↔
        Owned p.coarseCells t rank fun i => j i / p.microPerMacro i) ∧
    (matchCheck close (coarseGrid p) (fineGrid p) coarseCells fineCells ≠ .ok () →
      matchCheck close (coarseGrid p) (fineGrid p) coarseCells fineCells = .throw) := by
  refine ⟨?_, (matchCheck_ok_iff _ _ _ _ _).2⟩
  rw [match_box close p hd hdom hcc hm htell coarseCells fineCells _ _ _ _ (isPart_box hc) (isPart_box hf)]
  exact forall_congr' fun j => iff_congr (hf j) (hc _)

/-- positions in the process grid and ranks -/
theorem torus_exists (t : ℕ → ℕ) (n : ℕ) (ht : ∀ i < n, 0 < t i) (q : ℕ → ℕ) (hq : ∀ i < n, q i < t i) :
    ∃ rank < ∏ j ∈ Finset.range n, t j, ∀ i < n, torusCoord t rank i = q i := by
  induction n with
  | zero => exact ⟨0, by simp, fun i hi => absurd hi (Nat.not_lt_zero i)⟩
  | succ n ih =>
    obtain ⟨r, hr, hr'⟩ := ih (fun i hi => ht i (by omega)) (fun i hi => hq i (by omega))
    have hn := hq n (by omega)
    have hprod : 0 < ∏ j ∈ Finset.range n, t j := Finset.prod_pos fun i hi => ht i (by have := Finset.mem_range.mp hi; omega)
    refine ⟨r + q n * ∏ j ∈ Finset.range n, t j, ?_, ?_⟩
    · rw [Finset.prod_range_succ]
      nlinarith
    · intro i hi
      rcases Nat.lt_succ_iff_lt_or_eq.mp hi with hi | rfl
      · rw [← hr' i hi, torusCoord, torusCoord]
        have hsplit : ∏ j ∈ Finset.range n, t j = (∏ j ∈ Finset.range i, t j) * (t i * ∏ j ∈ Finset.Ico (i + 1) n, t j) := by
          rw [← mul_assoc, ← Finset.prod_range_succ, Finset.prod_range_mul_prod_Ico _ hi]
        have hpi : 0 < ∏ j ∈ Finset.range i, t j := Finset.prod_pos fun j hj => ht j (by have := Finset.mem_range.mp hj; omega)
        rw [hsplit, show q n * ((∏ j ∈ Finset.range i, t j) * (t i * ∏ j ∈ Finset.Ico (i + 1) n, t j)) =
          (∏ j ∈ Finset.range i, t j) * (t i * (q n * ∏ j ∈ Finset.Ico (i + 1) n, t j)) by ring, Nat.add_mul_div_left _ _ hpi,
          Nat.add_mul_mod_self_left]
      · rw [torusCoord, Nat.add_mul_div_right _ _ hprod, Nat.div_eq_of_lt hr, zero_add, Nat.mod_eq_of_lt hn]

/-- every cell belongs to a process -/
theorem owned_exists (sizes : Fin d → ℕ) (t : ℕ → ℕ) (ht : ∀ i < d, 0 < t i) (c : Fin d → ℕ) (hc : ∀ i, c i < sizes i) :
    ∃ rank < ∏ j ∈ Finset.range d, t j, Owned sizes t rank c := by
  have h : ∀ i : Fin d, ∃ q, q < t i ∧ Own (sizes i) (t i) q (c i) := fun i =>
    (C69_parts (sizes i) (t i) (c i) (ht i i.2) (hc i)).exists
  choose q hq ho using h
  obtain ⟨rank, hr, hr'⟩ := torus_exists t d ht (fun i => if h : i < d then q ⟨i, h⟩ else 0) (fun i hi => by
    simp only [hi, dif_pos]
    exact hq ⟨i, hi⟩)
  refine ⟨rank, hr, fun i => ?_⟩
  rw [hr' i i.2]
  simp only [i.2, dif_pos]
  exact ho i

/-- ranks with the same position are the same -/
theorem torus_unique (t : ℕ → ℕ) (n : ℕ) (r r' : ℕ) (hr : r < ∏ j ∈ Finset.range n, t j)
    (hr' : r' < ∏ j ∈ Finset.range n, t j) (h : ∀ i < n, torusCoord t r i = torusCoord t r' i) : r = r' := by
  have key : ∀ k ≤ n, r % ∏ j ∈ Finset.range k, t j = r' % ∏ j ∈ Finset.range k, t j := by
    intro k
    induction k with
    | zero => intro _; simp [Nat.mod_one]
    | succ k ih =>
      intro hk
      have := h k (by omega)
      rw [torusCoord, torusCoord] at this
      rw [Finset.prod_range_succ, Nat.mod_mul, Nat.mod_mul, ih (by omega), this]
  have := key n le_rfl
  rwa [Nat.mod_eq_of_lt hr, Nat.mod_eq_of_lt hr'] at this

theorem owned_unique {sizes : Fin d → ℕ} {t : ℕ → ℕ} (ht : ∀ i < d, 0 < t i) {r r' : ℕ} (hr : r < ∏ j ∈ Finset.range d, t j)
    (hr' : r' < ∏ j ∈ Finset.range d, t j) {c : Fin d → ℕ} (h : Owned sizes t r c) (h' : Owned sizes t r' c) : r = r' :=
  torus_unique t d r r' hr hr' fun i hi => own_unique (ht i hi) (h ⟨i, hi⟩) (h' ⟨i, hi⟩)

/-- **C74** (exact, all processes) The checks of all processes succeed exactly if every fine cell of every process lies in a coarse cell of the
same process, which is what the projection needs (C69). -/
theorem C74_all_iff (close : ℚ → ℚ → Bool) (p : Params d) (hd : 0 < d) (hdom : ∀ i, p.lowerLeft i < p.upperRight i)
    (hcc : ∀ i, 0 < p.coarseCells i) (hm : ∀ i, 0 < p.microPerMacro i) (htell : Tells close p) (t t' : ℕ → ℕ)
    (ht : ∀ i < d, 0 < t i) (ht' : ∀ i < d, 0 < t' i) (P : ℕ) (hP : ∏ j ∈ Finset.range d, t j = P)
    (hP' : ∏ j ∈ Finset.range d, t' j = P)
    (coarseCells fineCells : ℕ → List (Fin d → ℕ)) (hc : ∀ rank, IsPart p.coarseCells t rank (coarseCells rank))
    (hf : ∀ rank, IsPart (fun i => p.coarseCells i * p.microPerMacro i) t' rank (fineCells rank)) :
    (∀ rank < P, matchCheck close (coarseGrid p) (fineGrid p) (coarseCells rank) (fineCells rank) = .ok ()) ↔
      ∀ rank < P, ∀ j : Fin d → ℕ, Owned (fun i => p.coarseCells i * p.microPerMacro i) t' rank j →
        Owned p.coarseCells t rank fun i => j i / p.microPerMacro i := by
  have hiff := fun rank => (C74_match_iff close p hd hdom hcc hm htell t t' rank _ _ (hc rank) (hf rank)).1
  constructor
  · intro h rank hr j hj
    exact ((hiff rank).mp (h rank hr) j).mp hj
  · intro h rank hr
    refine (hiff rank).mpr fun j => ⟨h rank hr j, fun hj => ?_⟩
    -- the fine cell belongs to some process, which must be this one
    have hlt : ∀ i, j i < p.coarseCells i * p.microPerMacro i := fun i => by
      have := own_lt (ht i i.2) (Nat.mod_lt _ (ht i i.2)) (hj i)
      rwa [Nat.div_lt_iff_lt_mul (hm i)] at this
    obtain ⟨rank', hr', hj'⟩ := owned_exists (fun i => p.coarseCells i * p.microPerMacro i) t' ht' j hlt
    rw [hP'] at hr'
    have := owned_unique ht (by rw [hP]; exact hr) (by rw [hP]; exact hr') hj (h rank' hr' j hj')
    rw [this]
    exact hj'

/-- Instance: 4 processes, 8x4 coarse cells, refined by 3 in both directions: all checks succeed. -/
example (close : ℚ → ℚ → Bool) (p : Params 2) (hdom : ∀ i, p.lowerLeft i < p.upperRight i) (hcc : p.coarseCells = ![8, 4])
    (hm : p.microPerMacro = ![3, 3]) (htell : Tells close p)
    (coarseCells fineCells : ℕ → List (Fin 2 → ℕ)) (hc : ∀ rank, IsPart p.coarseCells (fun _ => 2) rank (coarseCells rank))
    (hf : ∀ rank, IsPart (fun i => p.coarseCells i * p.microPerMacro i) (fun _ => 2) rank (fineCells rank)) :
    ∀ rank < 4, matchCheck close (coarseGrid p) (fineGrid p) (coarseCells rank) (fineCells rank) = .ok () := by
  refine (C74_all_iff close p two_pos hdom (fun i => by rw [hcc]; fin_cases i <;> simp) (fun i => by rw [hm]; fin_cases i <;> simp)
    htell _ _ (fun _ _ => two_pos) (fun _ _ => two_pos) 4 (by simp) (by simp) coarseCells fineCells hc hf).mpr ?_
  intro rank _ j hj i
  have h3 : p.microPerMacro i = 3 := by rw [hm]; fin_cases i <;> simp
  have := hj i
  dsimp only at this ⊢
  rw [h3] at this ⊢
  refine (C69_direction_iff (p.coarseCells i) 3 2 two_pos (by omega)).mpr (.inl ?_) _ (Nat.mod_lt _ two_pos) _ this
  rw [hcc]; fin_cases i <;> simp

/-- the process grid of three processes on 5x5 and on 10x10 cells -/
theorem three_processes : balance [5, 5] 3 = some [3, 1] ∧ balance [10, 10] 3 = some [3, 1] := by
  decide +kernel

/-- **C74** (violated, outcome differs between processes) 5x5 coarse cells refined by 2, three processes: the check throws on processes 0 and 1
and succeeds on process 2.  -/
theorem C74_violated_uniform (close : ℚ → ℚ → Bool) (p : Params 2) (hdom : ∀ i, p.lowerLeft i < p.upperRight i)
    (hcc : p.coarseCells = fun _ => 5) (hm : p.microPerMacro = fun _ => 2) (htell : Tells close p)
    (coarseCells fineCells : ℕ → List (Fin 2 → ℕ)) :
    ∃ t, balance [5, 5] 3 = some t ∧ balance [5 * 2, 5 * 2] 3 = some t ∧
      ((∀ rank, IsPart p.coarseCells (fun i => t.getD i 0) rank (coarseCells rank)) →
       (∀ rank, IsPart (fun i => p.coarseCells i * p.microPerMacro i) (fun i => t.getD i 0) rank (fineCells rank)) →
        matchCheck close (coarseGrid p) (fineGrid p) (coarseCells 0) (fineCells 0) = .throw ∧
        matchCheck close (coarseGrid p) (fineGrid p) (coarseCells 1) (fineCells 1) = .throw ∧
        matchCheck close (coarseGrid p) (fineGrid p) (coarseCells 2) (fineCells 2) = .ok ()) := by
  refine ⟨[3, 1], three_processes.1, three_processes.2, fun hc hf => ?_⟩
  have key := fun rank => C74_match_iff close p two_pos hdom (fun i => by simp [hcc]) (fun i => by simp [hm]) htell _ _ rank _ _
    (hc rank) (hf rank)
  simp only [hcc, hm] at key
  have hown : ∀ sizes rank (c : Fin 2 → ℕ), Owned (d := 2) (fun _ => sizes) (fun i => [3, 1].getD i 0) rank c ↔
      Own sizes 3 (rank % 3) (c 0) ∧ Own sizes 1 0 (c 1) := fun sizes rank c => by
    rw [Owned, Fin.forall_fin_two]
    simp [torusCoord, Nat.mod_one]
  simp only [hown, Own, partOrigin, partSize] at key
  refine ⟨(key 0).2 fun h => ?_, (key 1).2 fun h => ?_, (key 2).1.mpr fun j => ?_⟩
  · have := ((key 0).1.mp h) (fun _ => 2)
    simp at this
  · have := ((key 1).1.mp h) (fun i => if i = 0 then 2 else 0)
    simp at this
  · simp
    omega

open Verif.Program in
/-- **C74** (violated, consequence) In this situation the program neither ends nor aborts: process 2 goes on to the next collective operation of
the error computation (the sum of the flow, error_calc.cc:382) while the others wait in the memory statistics of the exception
handler.  `s` are the collective operations of the run, `n` of them happen before the check. -/
theorem C74_violated_hang (close : ℚ → ℚ → Bool) (p : Params 2) (hdom : ∀ i, p.lowerLeft i < p.upperRight i)
    (hcc : p.coarseCells = fun _ => 5) (hm : p.microPerMacro = fun _ => 2) (htell : Tells close p)
    (coarseCells fineCells : ℕ → List (Fin 2 → ℕ)) (hc : ∀ rank, IsPart p.coarseCells (fun i => [3, 1].getD i 0) rank (coarseCells rank))
    (hf : ∀ rank, IsPart (fun i => p.coarseCells i * p.microPerMacro i) (fun i => [3, 1].getD i 0) rank (fineCells rank))
    (s : List Coll) (n : ℕ) (hn : n < s.length) (hs : s[n] ≠ .maxLong) (fails : Fin 3 → Option ℕ)
    (hfails : ∀ r : Fin 3, fails r =
      if matchCheck close (coarseGrid p) (fineGrid p) (coarseCells r) (fineCells r) = .throw then some n else none)
    (b : State 3) (h : Reaches (fun k => process s (fails k)) b) : ¬ Aborted b ∧ ¬ Success b := by
  obtain ⟨t, ht, -, hv⟩ := C74_violated_uniform close p hdom hcc hm htell coarseCells fineCells
  rw [three_processes.1] at ht
  cases ht
  obtain ⟨h0, -, h2⟩ := hv hc hf
  refine C51_violated_general s fails n hn 0 2 ?_ ?_ ?_ ?_ hs b h
  · rw [hfails 0]
    exact if_pos h0
  · intro m hm
    rw [hfails 2] at hm
    rw [if_neg (by rw [show ((2 : Fin 3) : ℕ) = 2 from rfl, h2]; simp)] at hm
    cases hm
  · intro k m hm
    rw [hfails k] at hm
    split_ifs at hm
    exact (Option.some.inj hm).le
  · intro k m hm
    rw [hfails k] at hm
    split_ifs at hm
    have := Option.some.inj hm
    omega

end Verif.GridCheck
