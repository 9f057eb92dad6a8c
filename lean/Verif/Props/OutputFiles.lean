import Verif.Model.OutputFiles
import Verif.Lemmas.Text
import Verif.Spec.Csv
import Mathlib.Tactic.Linarith
import Mathlib.Tactic.NormNum
import Mathlib.Algebra.BigOperators.Group.List.Basic
import Mathlib.Data.List.Nodup
import Mathlib.Algebra.Order.BigOperators.Group.List

/-!
# C31, C32: names of the files written, memory statistics
-/

namespace Verif.OutputFiles
open Verif.Text

/-! ## C31 -/

/-- Two texts, each cut at a character which does not occur before the cut, are equal only if the pieces are. -/
theorem cut_inj {c : Char} {a b s t : List Char} (ha : c ∉ a) (hb : c ∉ b)
    (h : a ++ c :: s = b ++ c :: t) : a = b ∧ s = t := by
  induction a generalizing b with
  | nil =>
    cases b with
    | nil => exact ⟨rfl, (List.cons.inj h).2⟩
    | cons x xs =>
      have := (List.cons.inj h).1
      subst this
      exact absurd (List.mem_cons_self) hb
  | cons y ys ih =>
    cases b with
    | nil =>
      have := (List.cons.inj h).1
      subst this
      exact absurd (List.mem_cons_self) ha
    | cons x xs =>
      obtain ⟨h1, h2⟩ := List.cons.inj h
      obtain ⟨h3, h4⟩ := ih (fun hm => ha (List.mem_cons_of_mem _ hm))
        (fun hm => hb (List.mem_cons_of_mem _ hm)) h2
      exact ⟨by rw [h1, h3], h4⟩

/-- Equal full paths have the same text after the directory. -/
theorem fullpath_inj {path p q n m : List Char} (h : fullpath path p n = fullpath path q m) :
    p ++ '_' :: n = q ++ '_' :: m :=
  (List.cons.inj (List.append_cancel_left h)).2

/-- If the shorter of two texts followed by anything agrees, it is a prefix of the longer one. -/
theorem prefix_of_append {p q s t : List Char} (h : p ++ s = q ++ t) (hl : p.length ≤ q.length) :
    p <+: q := by
  have h1 : p <+: q ++ t := ⟨s, h⟩
  exact List.prefix_of_prefix_length_le h1 ⟨t, rfl⟩ hl

/-- No prefix followed by an underscore is an initial piece of another one. -/
theorem vis_prefix_code (v w : Vis) (h : v ≠ w) :
    ¬ (v.prefix ++ ['_']) <+: (w.prefix ++ ['_']) := by
  revert h
  cases v <;> cases w <;> decide

theorem visFile_inj {path : List Char} {name : Vis → List Char} {v w : Vis}
    (h : visFile path name v = visFile path name w) : v = w := by
  by_contra hne
  have h1 := fullpath_inj h
  have e1 : v.prefix ++ '_' :: name v = (v.prefix ++ ['_']) ++ name v := by simp
  have e2 : w.prefix ++ '_' :: name w = (w.prefix ++ ['_']) ++ name w := by simp
  rw [e1, e2] at h1
  rcases Nat.le_total (v.prefix ++ ['_']).length (w.prefix ++ ['_']).length with hl | hl
  · exact vis_prefix_code v w hne (prefix_of_append h1 hl)
  · exact vis_prefix_code w v (fun h' => hne h'.symm) (prefix_of_append h1.symm hl)

theorem visualised_nodup (a : Avail) : (visualised a).Nodup := by
  rcases a with ⟨_ | _, _ | _, _ | _, _ | _⟩ <;> decide

/-- **C31** All files written by one error computation have different names, for every output directory,
every choice of the names of the visualised functions and every combination of available solutions; also if the
two unordered maps are traversed in another order. -/
theorem C31_error_files_distinct (path : List Char) (name : Vis → List Char) (a : Avail)
    (order : List Vis) (h : order.Perm (visualised a)) : (order.map (visFile path name)).Nodup := by
  have h1 : order.Nodup := h.nodup_iff.mpr (visualised_nodup a)
  exact List.Nodup.map (fun _ _ => visFile_inj) h1

/-- **C31** The correction files of different ranks or coarse cells have different names, whatever the names of
the corrections. -/
theorem C31_corrections_distinct (path n m : List Char) (r r' i i' : ℕ)
    (h : correctionFile path n r i = correctionFile path m r' i') : r = r' ∧ i = i' := by
  have h1 := fullpath_inj h
  simp only [List.append_assoc] at h1
  have h2 := List.append_cancel_left h1
  have us : ∀ w k, '_' ∉ padded w k := fun w k => padded_not_mem w k (by decide)
  have e : ∀ s : List Char, "_correction_".toList ++ s = '_' :: ("correction_".toList ++ s) := fun s => rfl
  rw [e, e] at h2
  obtain ⟨h3, h4⟩ := cut_inj (us 4 r) (us 4 r') h2
  have h5 := List.append_cancel_left h4
  have e2 : ∀ s : List Char, "_".toList ++ s = '_' :: s := fun s => rfl
  rw [e2, e2] at h5
  obtain ⟨h6, -⟩ := cut_inj (us 3 i) (us 3 i') h5
  exact ⟨padded_inj h3, padded_inj h6⟩

/-- **C31** The files of the parts of a multiscale solution have different names for different ranks or
coarse cells. -/
theorem C31_parts_distinct (base : List Char) (r r' i i' : ℕ)
    (h : partFile base r i = partFile base r' i') : r = r' ∧ i = i' := by
  have h2 := List.append_cancel_left (List.append_cancel_left h)
  have us : ∀ w k, '_' ∉ padded w k := fun w k => padded_not_mem w k (by decide)
  have e : ∀ s : List Char,
      "_msfemsolution_parts_".toList ++ s = '_' :: ("msfemsolution_parts_".toList ++ s) := fun s => rfl
  rw [e, e] at h2
  obtain ⟨h3, h4⟩ := cut_inj (us 4 r) (us 4 r') h2
  exact ⟨padded_inj h3, padded_inj (List.append_cancel_left h4)⟩

/-- The text of a correction file after the directory begins with `local_`. -/
theorem correction_ne_vis (path n : List Char) (name : Vis → List Char) (r i : ℕ) (v : Vis) :
    correctionFile path n r i ≠ visFile path name v := by
  intro h
  have h1 := fullpath_inj h
  rw [List.append_assoc] at h1
  revert h1
  generalize (padded 4 r ++ _ ++ '_' :: n) = s
  cases v <;> intro h1 <;> exact absurd (List.cons.inj h1).1 (by decide)

/-- **C31** All visualisation files which one process writes in `msfem_algorithm` have different names. -/
theorem C31_msfem_run_distinct (path corrName : List Char) (name : Vis → List Char) (a : Avail) (rank : ℕ)
    (cells : List ℕ) (hc : cells.Nodup) : (msfemRunFiles path corrName name a rank cells).Nodup := by
  unfold msfemRunFiles
  rw [List.nodup_append]
  refine ⟨List.Nodup.map
    (fun i j h => (C31_corrections_distinct path corrName corrName rank rank i j h).2) hc, ?_, ?_⟩
  · rw [List.nodup_cons]
    refine ⟨?_, C31_error_files_distinct path name a _ (List.Perm.refl _)⟩
    intro hm
    obtain ⟨v, -, hv⟩ := List.mem_map.mp hm
    have h1 := fullpath_inj hv
    revert h1
    cases v <;> intro h1 <;> exact absurd (List.cons.inj h1).1 (by decide)
  · intro x hx y hy hxy
    obtain ⟨i, -, rfl⟩ := List.mem_map.mp hx
    rcases List.mem_cons.mp hy with rfl | hy
    · have h1 := fullpath_inj hxy
      rw [List.append_assoc] at h1
      exact absurd (List.cons.inj h1).1 (by decide)
    · obtain ⟨v, -, rfl⟩ := List.mem_map.mp hy
      exact correction_ne_vis path corrName name rank i v hxy

/-- **C31** (which files) The error computation writes the reference solution and differences with it exactly when the reference exists and the
solution on the coarse grid could be computed; everything else does not depend on the reference. -/
theorem C31_reference_files (path : List Char) (name : Vis → List Char) (a : Avail) :
    (visFile path name .fineFem ∈ errorFiles path name a ↔ a.fem = true ∧ a.coarseOk = true) ∧
    (visFile path name .femExact ∈ errorFiles path name a ↔ a.exact = true ∧ a.fem = true ∧ a.coarseOk = true) ∧
    (visFile path name .msfemFem ∈ errorFiles path name a ↔ a.msfem = true ∧ a.fem = true ∧ a.coarseOk = true) ∧
    (visFile path name .msfem ∈ errorFiles path name a ↔ a.msfem = true) ∧
    (visFile path name .exact ∈ errorFiles path name a ↔ a.msfem = true ∧ a.exact = true) := by
  have h : ∀ v, visFile path name v ∈ errorFiles path name a ↔ v ∈ visualised a := fun v => by
    rw [errorFiles, List.mem_map]
    constructor
    · rintro ⟨w, hw, hv⟩
      rwa [← visFile_inj hv]
    · exact fun hv => ⟨v, hv, rfl⟩
  simp only [h]
  obtain ⟨e, m, f, c⟩ := a
  cases e <;> cases m <;> cases f <;> cases c <;> simp [visualised, Avail.femLeft]

/-- **C31** (which files, continued) The coarse reference solution is written exactly when it could be computed; differences with it are written
also if it could not. -/
theorem C31_coarse_files (path : List Char) (name : Vis → List Char) (a : Avail) :
    (visFile path name .coarseFem ∈ errorFiles path name a ↔ a.coarseOk = true) ∧
    (visFile path name .coarseFemExact ∈ errorFiles path name a ↔ a.exact = true) ∧
    (visFile path name .msfemCoarseFem ∈ errorFiles path name a ↔ a.msfem = true) ∧
    (visFile path name .msfemExact ∈ errorFiles path name a ↔ a.msfem = true ∧ a.exact = true) := by
  have h : ∀ v, visFile path name v ∈ errorFiles path name a ↔ v ∈ visualised a := fun v => by
    rw [errorFiles, List.mem_map]
    constructor
    · rintro ⟨w, hw, hv⟩
      rwa [← visFile_inj hv]
    · exact fun hv => ⟨v, hv, rfl⟩
  simp only [h]
  obtain ⟨e, m, f, c⟩ := a
  cases e <;> cases m <;> cases f <;> cases c <;> simp [visualised, Avail.femLeft]

theorem decimal_length_le (w n : ℕ) (hw : 0 < w) : (decimal n).length ≤ w ↔ n < 10 ^ w := by
  induction w generalizing n with
  | zero => omega
  | succ w ih =>
    unfold decimal
    split_ifs with h
    · have : 10 ≤ 10 ^ (w + 1) := by
        rw [pow_succ]
        have := Nat.one_le_pow w 10 (by norm_num)
        omega
      simp only [List.length_singleton, Nat.le_add_left, true_iff]
      omega
    · rw [List.length_append, List.length_singleton, Nat.add_le_add_iff_right]
      rcases Nat.eq_zero_or_pos w with rfl | hw
      · have := decimal_ne_nil (n / 10)
        simp only [Nat.le_zero, List.length_eq_zero_iff, this, false_iff]
        omega
      · rw [ih _ hw, pow_succ]
        omega

theorem padded_length (w n : ℕ) (hw : 0 < w) : (padded w n).length = w ↔ n < 10 ^ w := by
  rw [← decimal_length_le w n hw, padded, List.length_append, List.length_replicate]
  omega

/-- **C31** (names in a directory listing) The names of the parts have the same number of characters, so that a listing by name is a listing by
rank and number, exactly up to rank 9999 and number 99999999; likewise for corrections up to rank 9999 and cell 999. -/
theorem C31_fixed_width (base path name : List Char) (rank id : ℕ) (hr : rank < 10000) :
    ((partFile base rank id).length = base.length + 38 ↔ id < 100000000) ∧
      ((correctionFile path name rank id).length = path.length + name.length + 28 ↔ id < 1000) := by
  have h1 := (padded_length 4 rank (by norm_num)).mpr (by omega)
  have h2 := padded_length 8 id (by norm_num)
  have h3 := padded_length 3 id (by norm_num)
  simp only [partFile, correctionFile, fullpath, List.length_append, List.length_cons, h1]
  have e1 : "rank_".toList.length = 5 := rfl
  have e2 : "_msfemsolution_parts_".toList.length = 21 := rfl
  have e3 : "local_".toList.length = 6 := rfl
  have e4 : "_correction_".toList.length = 12 := rfl
  have e5 : "_".toList.length = 1 := rfl
  rw [e1, e2, e3, e4, e5]
  constructor
  · rw [← show (10 : ℕ) ^ 8 = 100000000 by norm_num, ← h2]; omega
  · rw [← show (10 : ℕ) ^ 3 = 1000 by norm_num, ← h3]; omega

example : (partFile [] 3 17).length = 38 ∧ (partFile [] 3 100000000).length ≠ 38 :=
  ⟨(C31_fixed_width [] [] [] 3 17 (by norm_num)).1.mpr (by norm_num), fun h =>
    absurd ((C31_fixed_width [] [] [] 3 100000000 (by norm_num)).1.mp h) (by norm_num)⟩

/-- Outside one error computation: `cgfem_algorithm` writes its solution twice under the same name, if the error
computation also writes it. -/
theorem cgfem_writes_twice (path : List Char) (name : Vis → List Char) (a : Avail)
    (h : a.femLeft = true) : ¬ (cgfemRunFiles path name a).Nodup := by
  unfold cgfemRunFiles
  rw [List.nodup_cons]
  rintro ⟨hn, -⟩
  refine hn (List.mem_map.mpr ⟨.fineFem, ?_, rfl⟩)
  simp [visualised, h]

/-- Non-vacuity: with everything available nine files are written. -/
example : (errorFiles "data".toList (fun _ => "u".toList) ⟨true, true, true, true⟩).length = 9 := by decide

/-- Non-vacuity: two corrections. -/
example : (msfemRunFiles "data".toList "correction".toList (fun _ => "u".toList) ⟨false, true, false, true⟩ 3
    [7, 8]).length = 6 := by
  simp [msfemRunFiles, errorFiles, visualised, Avail.femLeft]

/-! ## C32 -/

theorem wrap64_of_range {x : ℤ} (h0 : 0 ≤ x) (h1 : x < 2 ^ 63) : wrap64 x = x := by
  unfold wrap64
  omega

theorem le_foldl_max (l : List ℤ) (b : ℤ) : b ≤ l.foldl Max.max b ∧ ∀ x ∈ l, x ≤ l.foldl Max.max b := by
  induction l generalizing b with
  | nil => exact ⟨le_refl _, fun x hx => by cases hx⟩
  | cons y ys ih =>
    obtain ⟨h1, h2⟩ := ih (Max.max b y)
    refine ⟨le_trans (le_max_left _ _) h1, fun x hx => ?_⟩
    rcases List.mem_cons.mp hx with rfl | hx
    · exact le_trans (le_max_right _ _) h1
    · exact h2 x hx

theorem foldl_max_mem (l : List ℤ) (b : ℤ) : l.foldl Max.max b ∈ b :: l := by
  induction l generalizing b with
  | nil => exact List.mem_cons_self
  | cons y ys ih =>
    rcases List.mem_cons.mp (ih (Max.max b y)) with h | h
    · show List.foldl Max.max (Max.max b y) ys ∈ _
      rw [h]
      rcases max_choice b y with h' | h' <;> rw [h'] <;> simp
    · exact List.mem_cons_of_mem _ (List.mem_cons_of_mem _ h)

theorem sum_bounds (l : List ℤ) (lo hi : ℤ) (h : ∀ x ∈ l, lo ≤ x ∧ x ≤ hi) :
    lo * l.length ≤ l.sum ∧ l.sum ≤ hi * l.length := by
  induction l with
  | nil => simp
  | cons y ys ih =>
    obtain ⟨h1, h2⟩ := ih fun x hx => h x (List.mem_cons_of_mem _ hx)
    obtain ⟨h3, h4⟩ := h y List.mem_cons_self
    rw [List.sum_cons, List.length_cons]
    push_cast
    constructor <;> linarith [mul_add lo (ys.length : ℤ) 1, mul_add hi (ys.length : ℤ) 1]

/-- **C32** For at least one rank and non-negative peaks whose total fits in a `long`: the reported maximum
is attained and bounds all peaks, the reported mean lies between any lower bound of the peaks (so the minimum)
and the maximum, and it is the total divided by the number of ranks, rounded down. -/
theorem C32_mean_between (first : ℤ) (rest : List ℤ) (h0 : ∀ x ∈ first :: rest, 0 ≤ x)
    (hfit : (first :: rest).sum < 2 ^ 63) :
    let m := memStat first rest
    m.max ∈ first :: rest ∧ (∀ x ∈ first :: rest, x ≤ m.max) ∧
    (∀ lo, (∀ x ∈ first :: rest, lo ≤ x) → lo ≤ m.mean) ∧ m.mean ≤ m.max ∧
    m.mean = (first :: rest).sum / (first :: rest).length := by
  intro m
  have hpos : (0 : ℤ) ≤ (first :: rest).sum := List.sum_nonneg h0
  have hmax : ∀ x ∈ first :: rest, x ≤ m.max := by
    intro x hx
    obtain ⟨h1, h2⟩ := le_foldl_max rest first
    rcases List.mem_cons.mp hx with rfl | hx
    · exact h1
    · exact h2 x hx
  have hmean : m.mean = (first :: rest).sum / ((first :: rest).length : ℤ) := by
    show (wrap64 (first + rest.sum)).tdiv (rest.length + 1) = _
    rw [List.sum_cons] at hpos hfit
    rw [wrap64_of_range hpos hfit, List.sum_cons, List.length_cons, Int.tdiv_eq_ediv_of_nonneg hpos]
    push_cast
    rfl
  have hlen : (0 : ℤ) < (first :: rest).length := by simp only [List.length_cons]; omega
  refine ⟨foldl_max_mem rest first, hmax, fun lo hlo => ?_, ?_, hmean⟩
  · rw [hmean, Int.le_ediv_iff_mul_le hlen]
    exact (sum_bounds _ lo m.max fun x hx => ⟨hlo x hx, hmax x hx⟩).1
  · rw [hmean]
    apply Int.ediv_le_of_le_mul hlen
    exact (sum_bounds _ 0 m.max fun x hx => ⟨h0 x hx, hmax x hx⟩).2

/-- The hypothesis on the total in `C32_mean_between` is needed: two peaks of `2^62` give a negative mean. -/
theorem C32_needs_fit : (memStat (2 ^ 62) [2 ^ 62]).mean < 0 := by decide

open Verif.Spec.Csv in
theorem split_no_sep {c : Char} {s : List Char} (h : c ∉ s) : split c s = [s] := by
  induction s with
  | nil => rfl
  | cons x xs ih =>
    unfold split
    rw [if_neg (fun hx => h (by rw [hx]; exact List.mem_cons_self)),
      ih fun hm => h (List.mem_cons_of_mem _ hm)]

open Verif.Spec.Csv in
theorem split_cut {c : Char} {a s : List Char} (h : c ∉ a) : split c (a ++ c :: s) = a :: split c s := by
  induction a with
  | nil => simp [split]
  | cons x xs ih =>
    rw [List.cons_append, split, if_neg (fun hx => h (by rw [hx]; exact List.mem_cons_self)),
      ih fun hm => h (List.mem_cons_of_mem _ hm)]

theorem showInt_not_mem (x : ℤ) {c : Char} (hc : c.toNat < 45 ∨ 57 < c.toNat) : c ∉ showInt x := by
  have hd : c ∉ decimal x.natAbs := decimal_not_mem _ (by omega)
  unfold showInt
  split_ifs
  · rw [List.mem_cons, not_or]
    refine ⟨fun h => ?_, hd⟩
    subst h
    revert hc
    decide
  · exact hd

open Verif.Spec.Csv in
/-- **C32** memory.csv has two lines; the first has the two column names and the second the two values. -/
theorem C32_columns (m : MemStat) :
    (split '\n' (memText m)).map (split ',') =
      [["global.maxPeakMemoryConsumption".toList, "global.meanPeakMemoryConsumption".toList],
       [showInt m.max, showInt m.mean], [[]]] := by
  have hn : '\n' ∉ showInt m.max ++ ',' :: showInt m.mean := by
    rw [List.mem_append, List.mem_cons]
    rintro (h | h | h)
    · exact showInt_not_mem _ (by decide) h
    · exact absurd h (by decide)
    · exact showInt_not_mem _ (by decide) h
  have hh : "global.maxPeakMemoryConsumption,global.meanPeakMemoryConsumption\n".toList =
      "global.maxPeakMemoryConsumption".toList ++ ',' :: "global.meanPeakMemoryConsumption".toList ++
        ['\n'] := by decide
  have e : memText m = ("global.maxPeakMemoryConsumption".toList ++
      ',' :: "global.meanPeakMemoryConsumption".toList) ++
      '\n' :: ((showInt m.max ++ ',' :: showInt m.mean) ++ '\n' :: []) := by
    unfold memText
    rw [hh]
    generalize "global.maxPeakMemoryConsumption".toList = a
    generalize "global.meanPeakMemoryConsumption".toList = b
    simp
  rw [e, split_cut (by decide), split_cut hn, List.map_cons, List.map_cons,
    split_cut (showInt_not_mem _ (by decide)), split_no_sep (showInt_not_mem _ (by decide)),
    split_cut (by decide), split_no_sep (by decide)]
  rfl

/-- **C32** Exactly rank 0 writes memory.csv. -/
theorem C32_only_rank0 (first : ℤ) (rest : List ℤ) (rank : ℕ) :
    (memWrites first rest rank).isSome ↔ rank = 0 := by
  unfold memWrites
  split_ifs with h <;> simp [h]

/-- **C32** (values) A reader gets back both numbers: a number without sign is a nonnegative one, a minus sign stands only before a positive
number. -/
theorem C32_values (x : ℤ) :
    (0 ≤ x → parseNat (showInt x) = some x.toNat) ∧ (x < 0 → ∃ s, showInt x = '-' :: s ∧ parseNat s = some (-x).toNat) := by
  constructor
  · intro h
    rw [showInt, if_neg (by omega), parseNat_decimal]
    congr 1
    omega
  · intro h
    refine ⟨decimal x.natAbs, by rw [showInt, if_pos h], ?_⟩
    rw [parseNat_decimal]
    congr 1
    omega

/-- Non-vacuity: three ranks. -/
example : memStat 10 [4, 6] = ⟨10, 6⟩ := by decide

end Verif.OutputFiles
