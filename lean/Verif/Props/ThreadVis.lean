import Verif.Model.ThreadVis
import Verif.Props.OutputFiles
import Mathlib.Tactic.FieldSimp
import Mathlib.Tactic.Linarith
import Mathlib.Tactic.NormNum

/-!
# C93: the pictures of the local grids show the local grids

The function with the name of the local grid of a coarse cell marks the fine cells of the coarse cell itself: layers of
oversampling are not shown.
-/

namespace Verif.ThreadVis
open Verif.LocalGrid Verif.Text Verif.OutputFiles

variable {d : ℕ}

/-- Grids as the program creates them. -/
structure Env.Valid (e : Env d) : Prop where
  domain : ∀ i, e.lower i < e.upper i
  cells : ∀ i, 0 < e.cells i
  micro : ∀ i, 0 < e.micro i
  tol : 0 ≤ e.tol
  tolSmall : ∀ i, e.tol < 1 / (2 * e.micro i)

/-- All fine cells, each once. -/
structure Env.AllFine (e : Env d) (fine : List (Idx d)) : Prop where
  mem : ∀ j, j ∈ fine ↔ ∀ i, j i < e.cells i * e.micro i

/-- Spec: the fine cell lies in the box of the local grid of the coarse cell. -/
def Env.InLocalGrid (e : Env d) (K j : Idx d) : Prop :=
  ∀ c : Fin d → Bool, ∀ i, (makeLocalGrid (e.coarse K)).lower i ≤ e.fineCorner j c i ∧
    e.fineCorner j c i ≤ (makeLocalGrid (e.coarse K)).upper i

/-- The fine cell is one of those of the coarse cell, in numbers. -/
def Env.Inside (e : Env d) (K j : Idx d) : Prop := ∀ i, K i * e.micro i ≤ j i ∧ j i < (K i + 1) * e.micro i

theorem coversStrict_iff (e : Env d) (he : e.Valid) (K j : Idx d) : e.coversStrict K j ↔ e.Inside K j := by
  have key : ∀ (c : Fin d → Bool) (i : Fin d),
      (e.fineCorner j c i - (e.coarse K i).min) / ((e.coarse K i).max - (e.coarse K i).min) =
        ((j i : ℚ) + if c i then 1 else 0) / e.micro i - K i := by
    intro c i
    have h1 : e.upper i - e.lower i ≠ 0 := sub_ne_zero.2 (he.domain i).ne'
    have h2 : (e.cells i : ℚ) ≠ 0 := Nat.cast_ne_zero.2 (he.cells i).ne'
    have h3 : (e.micro i : ℚ) ≠ 0 := Nat.cast_ne_zero.2 (he.micro i).ne'
    simp only [Env.fineCorner, Env.coarse, coarseCell]
    have h4 : (e.lower i + ((K i : ℚ) + 1) * ((e.upper i - e.lower i) / e.cells i)) -
        (e.lower i + (K i : ℚ) * ((e.upper i - e.lower i) / e.cells i)) = (e.upper i - e.lower i) / e.cells i := by ring
    rw [h4]
    field_simp
    ring
  unfold Env.coversStrict checkInside Env.Inside
  simp only [key]
  have hm : ∀ i, (0 : ℚ) < e.micro i := fun i => Nat.cast_pos.2 (he.micro i)
  have ht : ∀ i, e.tol * e.micro i < 1 / 2 := fun i => by
    have := he.tolSmall i
    rw [lt_div_iff₀ (by have := hm i; linarith)] at this
    linarith
  constructor
  · intro h i
    have h0 := (h (fun _ => false) i).1
    have h1 := (h (fun _ => true) i).2
    simp only [Bool.false_eq_true, if_false, add_zero, if_true] at h0 h1
    rw [le_sub_iff_add_le, le_div_iff₀ (hm i)] at h0
    rw [sub_le_iff_le_add, div_le_iff₀ (hm i)] at h1
    have := ht i
    constructor
    · by_contra hlt
      have : (j i : ℚ) + 1 ≤ K i * e.micro i := by exact_mod_cast (not_le.mp hlt)
      linarith
    · by_contra hlt
      have : ((K i + 1) * e.micro i : ℚ) ≤ j i := by exact_mod_cast (not_lt.mp hlt)
      nlinarith
  · intro h c i
    obtain ⟨h0, h1⟩ := h i
    have h0 : (K i * e.micro i : ℚ) ≤ j i := by exact_mod_cast h0
    have h1 : (j i : ℚ) + 1 ≤ (K i + 1) * e.micro i := by exact_mod_cast h1
    have ht0 := mul_nonneg he.tol (hm i).le
    rw [le_sub_iff_add_le, le_div_iff₀ (hm i), sub_le_iff_le_add, div_le_iff₀ (hm i)]
    split <;> constructor <;> nlinarith

theorem foldl_update {α : Type} [DecidableEq α] (p : α → Prop) [DecidablePred p] (v : ℕ) (l : List α) (f : α → ℕ) (j : α) :
    l.foldl (fun f j => if p j then Function.update f j v else f) f j = if j ∈ l ∧ p j then v else f j := by
  induction l generalizing f with
  | nil => simp
  | cons x l ih =>
    rw [List.foldl_cons, ih]
    by_cases hx : p x
    · rw [if_pos hx]
      by_cases hj : j = x
      · subst hj
        simp [hx]
      · simp [hj]
    · rw [if_neg hx]
      by_cases hj : j = x
      · subst hj
        simp [hx]
      · simp [hj]

/-- **C93** (partial): the values of the function with the name of the local grid of the coarse cell `K`: the number of `K` on the
fine cells of `K`, zero elsewhere. -/
theorem C93_values (e : Env d) (he : e.Valid) (fine : List (Idx d)) (hf : e.AllFine fine) (K : Idx d)
    (hK : ∀ i, K i < e.cells i) (j : Idx d) :
    (e.Inside K j → (subgridFunction e fine K).value j = e.id K % 2 ^ 32) ∧
    (¬ e.Inside K j → (subgridFunction e fine K).value j = 0) := by
  have hv : (subgridFunction e fine K).value j =
      if j ∈ fine ∧ e.coversStrict K j then idToUlong (e.id K) else 0 :=
    foldl_update (fun j => e.coversStrict K j) _ fine _ j
  rw [hv]
  constructor
  · intro h
    have : j ∈ fine := (hf.mem j).2 fun i => lt_of_lt_of_le (h i).2 (Nat.mul_le_mul_right _ (hK i))
    rw [if_pos ⟨this, (coversStrict_iff e he K j).2 h⟩]
    rfl
  · intro h
    rw [if_neg fun hh => h ((coversStrict_iff e he K j).1 hh.2)]

theorem inLocalGrid_iff (e : Env d) (he : e.Valid) (K j : Idx d)
    (hj : ∀ i, j i < e.cells i * e.micro i) :
    e.InLocalGrid K j ↔ ∀ i, K i * e.micro i ≤ j i + e.layers ∧ j i < (K i + 1) * e.micro i + e.layers := by
  have hw : ∀ i, 0 < (e.upper i - e.lower i) / ((e.cells i : ℚ) * e.micro i) := fun i =>
    div_pos (sub_pos.2 (he.domain i)) (mul_pos (Nat.cast_pos.2 (he.cells i)) (Nat.cast_pos.2 (he.micro i)))
  have h3 : ∀ i, (e.micro i : ℚ) ≠ 0 := fun i => Nat.cast_ne_zero.2 (he.micro i).ne'
  have h2 : ∀ i, (e.cells i : ℚ) ≠ 0 := fun i => Nat.cast_ne_zero.2 (he.cells i).ne'
  have elo : ∀ i, (e.coarse K i).min - (e.layers : ℚ) * (e.coarse K i).delta =
      e.lower i + ((K i : ℚ) * e.micro i - e.layers) * ((e.upper i - e.lower i) / ((e.cells i : ℚ) * e.micro i)) := by
    intro i
    have h3 := h3 i
    have h2 := h2 i
    simp only [Env.coarse, coarseCell, DirInput.delta]
    field_simp
    ring
  have ehi : ∀ i, (e.coarse K i).max + (e.layers : ℚ) * (e.coarse K i).delta =
      e.lower i + (((K i : ℚ) + 1) * e.micro i + e.layers) * ((e.upper i - e.lower i) / ((e.cells i : ℚ) * e.micro i)) := by
    intro i
    have h3 := h3 i
    have h2 := h2 i
    simp only [Env.coarse, coarseCell, DirInput.delta]
    field_simp
    ring
  have eup : ∀ i, e.upper i = e.lower i + ((e.cells i : ℚ) * e.micro i) * ((e.upper i - e.lower i) / ((e.cells i : ℚ) * e.micro i)) := by
    intro i
    have h3 := h3 i
    have h2 := h2 i
    field_simp
    ring
  have hlo : ∀ i, (makeLocalGrid (e.coarse K)).lower i = max ((e.coarse K i).min - (e.layers : ℚ) * (e.coarse K i).delta) (e.lower i) :=
    fun i => rfl
  have hhi : ∀ i, (makeLocalGrid (e.coarse K)).upper i = min ((e.coarse K i).max + (e.layers : ℚ) * (e.coarse K i).delta) (e.upper i) :=
    fun i => rfl
  unfold Env.InLocalGrid
  simp only [hlo, hhi, max_le_iff, le_min_iff, elo, ehi]
  constructor
  · intro h i
    have h0 := (h (fun _ => false) i).1.1
    have h1 := (h (fun _ => true) i).2.1
    simp only [Env.fineCorner, Bool.false_eq_true, if_false, add_zero, if_true] at h0 h1
    have h0 := le_of_mul_le_mul_right (le_of_add_le_add_left h0) (hw i)
    have h1 := le_of_mul_le_mul_right (le_of_add_le_add_left h1) (hw i)
    have h0 : (K i * e.micro i : ℚ) ≤ j i + e.layers := by linarith
    constructor
    · exact_mod_cast h0
    · have : j i + 1 ≤ (K i + 1) * e.micro i + e.layers := by exact_mod_cast h1
      omega
  · intro h c i
    obtain ⟨h0, h1⟩ := h i
    have h0 : (K i * e.micro i : ℚ) ≤ j i + e.layers := by exact_mod_cast h0
    have h1 : (j i : ℚ) + 1 ≤ (K i + 1) * e.micro i + e.layers := by
      have : j i + 1 ≤ (K i + 1) * e.micro i + e.layers := h1
      exact_mod_cast this
    have hj : (j i : ℚ) + 1 ≤ e.cells i * e.micro i := by
      have : j i + 1 ≤ e.cells i * e.micro i := hj i
      exact_mod_cast this
    have hj0 : (0 : ℚ) ≤ j i := Nat.cast_nonneg _
    have hc : (0 : ℚ) ≤ (if c i then 1 else 0) ∧ (if c i then 1 else 0 : ℚ) ≤ 1 := by split <;> norm_num
    have hw := hw i
    have eup := eup i
    simp only [Env.fineCorner]
    generalize (e.upper i - e.lower i) / ((e.cells i : ℚ) * e.micro i) = w at *
    generalize (if c i then 1 else 0 : ℚ) = t at *
    refine ⟨⟨?_, ?_⟩, ?_, ?_⟩
    · exact (add_le_add_iff_left _).2 (mul_le_mul_of_nonneg_right (by linarith) hw.le)
    · have : 0 ≤ ((j i : ℚ) + t) * w := mul_nonneg (by linarith) hw.le
      linarith
    · exact (add_le_add_iff_left _).2 (mul_le_mul_of_nonneg_right (by linarith) hw.le)
    · rw [eup]
      exact (add_le_add_iff_left _).2 (mul_le_mul_of_nonneg_right (by linarith) hw.le)

/-- **C93** (partial: without oversampling, and for coarse cells whose number is not divisible by `2 ^ 32`).  The function
of a coarse cell differs from zero exactly on the fine cells of its local grid. -/
theorem C93_shows_partial (e : Env d) (he : e.Valid) (ho : e.layers = 0) (fine : List (Idx d)) (hf : e.AllFine fine) (K : Idx d)
    (hK : ∀ i, K i < e.cells i) (hid : ¬ 2 ^ 32 ∣ e.id K) (j : Idx d) (hj : j ∈ fine) :
    (subgridFunction e fine K).value j ≠ 0 ↔ e.InLocalGrid K j := by
  rw [inLocalGrid_iff e he K j ((hf.mem j).1 hj), ho]
  have h := C93_values e he fine hf K hK j
  constructor
  · intro hv i
    by_contra hn
    exact hv (h.2 fun hin => hn (hin i))
  · intro hin
    rw [h.1 hin]
    rwa [ne_eq, ← Nat.dvd_iff_mod_eq_zero]

/-- **C93 violated**: with any number of layers and more than one coarse cell in some direction, there is a coarse cell whose
function is zero on a fine cell of its local grid. -/
theorem C93_violated (e : Env d) (he : e.Valid) (ho : 0 < e.layers) (i₀ : Fin d) (hi : 1 < e.cells i₀) (fine : List (Idx d))
    (hf : e.AllFine fine) :
    ∃ K j : Idx d, (∀ i, K i < e.cells i) ∧ j ∈ fine ∧ e.InLocalGrid K j ∧ (subgridFunction e fine K).value j = 0 := by
  refine ⟨fun _ => 0, fun i => if i = i₀ then e.micro i else 0, fun i => he.cells i, ?_, ?_, ?_⟩
  · refine (hf.mem _).2 fun i => ?_
    have hm := he.micro i
    split
    · next h =>
      subst h
      nlinarith
    · exact Nat.mul_pos (he.cells i) hm
  · rw [inLocalGrid_iff e he _ _]
    · intro i
      have hm := he.micro i
      split <;> constructor <;> omega
    · intro i
      have hm := he.micro i
      split
      · next h =>
        subst h
        nlinarith
      · exact Nat.mul_pos (he.cells i) hm
  · refine (C93_values e he fine hf _ (fun i => he.cells i) _).2 fun h => ?_
    have := (h i₀).2
    simp at this

/-- **C93 violated**: a coarse cell whose number is divisible by `2 ^ 32`, such as zero, is not visible at all. -/
theorem C93_zero_violated (e : Env d) (he : e.Valid) (fine : List (Idx d)) (hf : e.AllFine fine) (K : Idx d)
    (hK : ∀ i, K i < e.cells i) (hid : 2 ^ 32 ∣ e.id K) (j : Idx d) : (subgridFunction e fine K).value j = 0 := by
  have h := C93_values e he fine hf K hK j
  by_cases hin : e.Inside K j
  · rw [h.1 hin]
    exact (Nat.dvd_iff_mod_eq_zero).1 hid
  · exact h.2 hin

/-! ### Files -/

theorem fillSlots_ok (e : Env d) (fine : List (Idx d)) (l : List (Idx d)) :
    fillSlots e fine l.length l = .ok (l.map fun K => some (subgridFunction e fine K), l.map fun K => some (cellFunction e K)) := by
  induction l with
  | nil => rfl
  | cons K l ih =>
    show (fillSlots e fine l.length l >>= _) = _
    rw [ih]
    rfl

theorem outputAll_ok (path : List Char) (l : List (Idx d)) (f : Idx d → FVFunc d) :
    outputAll path (l.map fun K => some (f K)) =
      .ok (l.map fun K => (fullpath path "solutions".toList (f K).name, (f K).value)) := by
  induction l with
  | nil => rfl
  | cons K l ih =>
    show (outputAll path (l.map fun K => some (f K)) >>= _) = _
    rw [ih]
    rfl

/-- **C93**, files: with different indices the program writes two files per coarse cell; the second one of each cell is zero
everywhere. -/
theorem C93_files (e : Env d) (path : List Char) (interior fine : List (Idx d)) (hn : (interior.map e.index).Nodup) :
    subgridVis e path interior fine = .ok
      ((interior.map fun K => (fullpath path "solutions".toList (decimal (e.id K) ++ "_subgrid".toList),
          (subgridFunction e fine K).value)) ++
        interior.map fun K => (fullpath path "solutions".toList (decimal (e.id K) ++ "_coarse_cell".toList), fun _ => 0)) := by
  unfold subgridVis listSize
  rw [hn.dedup, List.length_map, fillSlots_ok]
  simp only [Outcome.ok_bind]
  rw [outputAll_ok]
  simp only [Outcome.ok_bind]
  rw [outputAll_ok]
  rfl

theorem fillSlots_throw (e : Env d) (fine : List (Idx d)) (l : List (Idx d)) (n : ℕ) (h : n < l.length) :
    fillSlots e fine n l = .throw := by
  induction l generalizing n with
  | nil => simp at h
  | cons K l ih =>
    cases n with
    | zero => rfl
    | succ n =>
      show (fillSlots e fine n l >>= _) = _
      rw [ih n (by simpa using h)]
      rfl

/-- If two interior cells shared an index, the program would end with an exception. -/
theorem C93_mismatch (e : Env d) (path : List Char) (interior fine : List (Idx d)) (hn : ¬ (interior.map e.index).Nodup) :
    subgridVis e path interior fine = .throw := by
  have hlt : listSize e interior < interior.length := by
    unfold listSize
    have h1 : (interior.map e.index).dedup.length ≤ (interior.map e.index).length :=
      (List.dedup_sublist _).length_le
    rw [List.length_map] at h1
    refine lt_of_le_of_ne h1 fun heq => hn ?_
    have : (interior.map e.index).dedup = interior.map e.index :=
      (List.dedup_sublist _).eq_of_length (by rw [heq, List.length_map])
    rw [← this]
    exact List.nodup_dedup _
  unfold subgridVis
  rw [fillSlots_throw e fine interior _ hlt]
  rfl

/-- **C93**, files: no file is overwritten, if the ids are different. -/
theorem C93_files_distinct (e : Env d) (path : List Char) (interior fine : List (Idx d)) (files : List (File d))
    (hn : interior.Nodup) (hinj : ∀ K ∈ interior, ∀ L ∈ interior, e.id K = e.id L → K = L)
    (h : subgridVis e path interior fine = .ok files) : (files.map Prod.fst).Nodup := by
  have hx : (interior.map e.index).Nodup := by
    by_contra hx
    rw [C93_mismatch e path interior fine hx] at h
    exact absurd h (by simp)
  rw [C93_files e path interior fine hx] at h
  have h := (Outcome.ok.inj h).symm
  have us : ∀ k, '_' ∉ decimal k := fun k => decimal_not_mem k (by decide)
  have cut : ∀ (s t : List Char) (k l : ℕ), fullpath path "solutions".toList (decimal k ++ '_' :: s) =
      fullpath path "solutions".toList (decimal l ++ '_' :: t) → k = l ∧ s = t := by
    intro s t k l hh
    have h1 := List.append_cancel_left (fullpath_inj hh)
    rw [List.cons.injEq] at h1
    obtain ⟨h2, h3⟩ := cut_inj (us k) (us l) h1.2
    exact ⟨decimal_inj h2, h3⟩
  subst h
  rw [List.map_append, List.map_map, List.map_map, List.nodup_append]
  refine ⟨?_, ?_, ?_⟩
  · refine hn.map_on fun K hK L hL hh => hinj K hK L hL ?_
    exact (cut "subgrid".toList "subgrid".toList _ _ hh).1
  · refine hn.map_on fun K hK L hL hh => hinj K hK L hL ?_
    exact (cut "coarse_cell".toList "coarse_cell".toList _ _ hh).1
  · intro a ha b hb hab
    obtain ⟨K, -, rfl⟩ := List.mem_map.1 ha
    obtain ⟨L, -, rfl⟩ := List.mem_map.1 hb
    exact absurd (cut "subgrid".toList "coarse_cell".toList _ _ hab).2 (by decide)

/-- Nonvacuity: two by two coarse cells with three by three micro cells, one layer. -/
def sample : Env 2 where
  lower := fun _ => 0
  upper := fun _ => 1
  cells := fun _ => 2
  micro := fun _ => 3
  layers := 1
  tol := 1 / 100
  index := fun K => K 0 + 2 * K 1
  id := fun K => K 0 + 2 * K 1

example : sample.Valid :=
  ⟨fun _ => by norm_num [sample], fun _ => by norm_num [sample], fun _ => by norm_num [sample], by norm_num [sample],
    fun _ => by norm_num [sample]⟩

example : sample.coversStrict (fun _ => 1) (fun _ => 4) ∧ ¬ sample.coversStrict (fun _ => 1) (fun _ => 2) := by
  constructor <;> decide +kernel

end Verif.ThreadVis
