import Verif.Model.ErrorReport
import Verif.Spec.Csv
import Mathlib.Data.List.Lex
import Mathlib.Data.Char
import Mathlib.Order.Basic

/-!
# C29, C30: reported errors and errors.csv
-/

namespace Verif.ErrorReport

/-! ## C29 -/

/-- Specification: which quantity is reported under which name, and when. -/
structure Row (V : Type) where
  key : Key
  present : Bool
  value : V

/-- The table of reported quantities. `e`, `m`, `f`: exact solution, multiscale solution and fine
reference solution are available; `c`: the coarse reference solve succeeded. -/
def table {V : Type} (N : Norms V) (e m f c : Bool) : List (Row V) :=
  [ ⟨"coarse_fem_exact_H1s".toList, e, N.h1s (.exact, .coarse c)⟩,
    ⟨"coarse_fem_exact_L2".toList, e, N.l2 (.exact, .coarse c)⟩,
    ⟨"fem_exact_H1s".toList, e && f && c, N.h1s (.exact, .fem)⟩,
    ⟨"fem_exact_L2".toList, e && f && c, N.l2 (.exact, .fem)⟩,
    ⟨"msfem_L2".toList, m, N.l2Fn .msfem⟩,
    ⟨"msfem_coarse_fem_H1s".toList, m, N.h1s (.msfem, .coarse c)⟩,
    ⟨"msfem_coarse_fem_L2".toList, m, N.l2 (.msfem, .coarse c)⟩,
    ⟨"msfem_exact_H1s".toList, e && m, N.h1s (.exact, .msfem)⟩,
    ⟨"msfem_exact_L2".toList, e && m, N.l2 (.exact, .msfem)⟩,
    ⟨"msfem_fem_H1s".toList, m && f && c, N.h1s (.msfem, .fem)⟩,
    ⟨"msfem_fem_L2".toList, m && f && c, N.l2 (.msfem, .fem)⟩ ]

/-- The entries of the table that are present. -/
def tableEntries {V : Type} (N : Norms V) (e m f c : Bool) : List (Key × V) :=
  ((table N e m f c).filter (·.present)).map fun r => (r.key, r.value)

set_option maxRecDepth 10000 in
/-- **C29** (partial: exact result) The error computation returns exactly the entries of the table, in key
order, for all values; no lookup of a computed quantity fails.  Missing: agreement with the
documented keys and with what the names say, see below. -/
theorem C29_reported_partial {V : Type} (N : Norms V) (e m f c : Bool) :
    print N e m f c true true = .ok (tableEntries N e m f c) := by
  cases e <;> cases m <;> cases f <;> cases c <;> rfl

/-- **C29** It throws exactly if the multiscale solution is given and cannot be projected. -/
theorem C29_throws_iff {V : Type} (N : Norms V) (e m f c matchOk projectOk : Bool) :
    print N e m f c matchOk projectOk = .throw ↔ m = true ∧ (matchOk = false ∨ projectOk = false) := by
  cases m
  · have h : print N e false f c matchOk projectOk = print N e false f c true true := by
      cases matchOk <;> cases projectOk <;> rfl
    rw [h, C29_reported_partial]
    simp
  · cases matchOk
    · simp [print]
    · cases projectOk
      · simp [print]
      · rw [C29_reported_partial]
        simp

/-- The keys present do not depend on the numbers. -/
def tableKeys (e m f c : Bool) : List Key :=
  ((table (⟨fun _ => (), fun _ => (), fun _ => ()⟩ : Norms Unit) e m f c).filter (·.present)).map
    fun r => r.key

theorem tableEntries_keys {V : Type} (N : Norms V) (e m f c : Bool) :
    (tableEntries N e m f c).map Prod.fst = tableKeys e m f c := by
  cases e <;> cases m <;> cases f <;> cases c <;> rfl

/-- **C29 is violated** (documentation): error_calc.hh documents "msfem_exact_H1" and
"fem_exact_H1"; neither is ever reported. -/
theorem C29_violated_documented_keys {V : Type} (N : Norms V) (e m f c matchOk projectOk : Bool)
    (csv : List (Key × V)) (h : print N e m f c matchOk projectOk = .ok csv) :
    "msfem_exact_H1".toList ∉ csv.map Prod.fst ∧ "fem_exact_H1".toList ∉ csv.map Prod.fst := by
  have hok : print N e m f c matchOk projectOk = print N e m f c true true := by
    by_cases ht : print N e m f c matchOk projectOk = .throw
    · rw [ht] at h; cases h
    · rw [C29_throws_iff] at ht
      cases m
      · cases matchOk <;> cases projectOk <;> rfl
      · cases matchOk <;> cases projectOk <;> simp at ht ⊢
  rw [hok, C29_reported_partial] at h
  injection h with h
  subst h
  rw [tableEntries_keys]
  clear hok
  revert e m f c
  decide

/-- **C29 is violated** (failing coarse solve): the errors of the coarse reference are reported although there
is no coarse solution, and those of an available fine reference are not. -/
theorem C29_violated_coarse_failure {V : Type} (N : Norms V) :
    ∃ csv, print N true true true false true true = .ok csv ∧
      ("coarse_fem_exact_L2".toList, N.l2 (.exact, .coarse false)) ∈ csv ∧
      "msfem_fem_L2".toList ∉ csv.map Prod.fst := by
  refine ⟨_, C29_reported_partial N true true true false, ?_, ?_⟩
  · exact List.mem_cons_of_mem _ List.mem_cons_self
  · rw [tableEntries_keys]
    decide

/-- **C29** (partial) When the coarse solve succeeds, a number is reported under a name exactly if the functions
the name mentions are available, and it belongs to these functions. -/
theorem C29_names_partial {V : Type} (N : Norms V) (e m f : Bool) :
    ∃ csv, print N e m f true true true = .ok csv ∧
      (∀ v, ("fem_exact_L2".toList, v) ∈ csv ↔ e = true ∧ f = true ∧ v = N.l2 (.exact, .fem)) ∧
      (∀ v, ("fem_exact_H1s".toList, v) ∈ csv ↔ e = true ∧ f = true ∧ v = N.h1s (.exact, .fem)) ∧
      (∀ v, ("msfem_exact_L2".toList, v) ∈ csv ↔ e = true ∧ m = true ∧ v = N.l2 (.exact, .msfem)) ∧
      (∀ v, ("msfem_exact_H1s".toList, v) ∈ csv ↔ e = true ∧ m = true ∧ v = N.h1s (.exact, .msfem)) ∧
      (∀ v, ("msfem_fem_L2".toList, v) ∈ csv ↔ m = true ∧ f = true ∧ v = N.l2 (.msfem, .fem)) ∧
      (∀ v, ("msfem_fem_H1s".toList, v) ∈ csv ↔ m = true ∧ f = true ∧ v = N.h1s (.msfem, .fem)) ∧
      (∀ v, ("coarse_fem_exact_L2".toList, v) ∈ csv ↔ e = true ∧ v = N.l2 (.exact, .coarse true)) ∧
      (∀ v, ("coarse_fem_exact_H1s".toList, v) ∈ csv ↔ e = true ∧ v = N.h1s (.exact, .coarse true)) ∧
      (∀ v, ("msfem_coarse_fem_L2".toList, v) ∈ csv ↔ m = true ∧ v = N.l2 (.msfem, .coarse true)) ∧
      (∀ v, ("msfem_coarse_fem_H1s".toList, v) ∈ csv ↔ m = true ∧ v = N.h1s (.msfem, .coarse true)) ∧
      (∀ v, ("msfem_L2".toList, v) ∈ csv ↔ m = true ∧ v = N.l2Fn .msfem) := by
  refine ⟨_, C29_reported_partial N e m f true, ?_⟩
  cases e <;> cases m <;> cases f <;> simp [tableEntries, table]

/-- The reference solution is available in the msfem program exactly if asked for and solved. -/
theorem C29_reference (comparison solveOk : Bool) :
    (haveFem true comparison solveOk = true) ∧
    (haveFem false comparison solveOk = true ↔ comparison = true ∧ solveOk = true) := by
  cases comparison <;> cases solveOk <;> simp [haveFem]

/-- **C29** Which differences are computed at all: those to the exact solution only if it is known, those of the multiscale and of the
reference solution only if these are there.  Both norms of a difference are computed together. -/
theorem C29_registered (e m f c : Bool) :
    (register e m f c).l2A = (register e m f c).h1A ∧ (register e m f c).l2D = (register e m f c).h1D ∧
    (∀ k d, (k, d) ∈ (register e m f c).l2A ↔ e = true ∧ ((k = "msfem_exact".toList ∧ d = (.exact, .msfem) ∧ m = true) ∨
      (k = "fem_exact".toList ∧ d = (.exact, .fem) ∧ f = true) ∨ (k = "coarse_fem_exact".toList ∧ d = (.exact, .coarse c)))) ∧
    (∀ k d, (k, d) ∈ (register e m f c).l2D ↔ m = true ∧ ((k = "msfem_coarse_fem".toList ∧ d = (.msfem, .coarse c)) ∨
      (k = "msfem_fem".toList ∧ d = (.msfem, .fem) ∧ f = true))) := by
  refine ⟨?_, ?_, fun k d => ?_, fun k d => ?_⟩
  · cases e <;> cases m <;> cases f <;> rfl
  · cases e <;> cases m <;> cases f <;> rfl
  · have h : (register e m f c).l2A = if e then ("coarse_fem_exact".toList, (.exact, .coarse c)) ::
        ((if f then [("fem_exact".toList, (.exact, .fem))] else []) ++ if m then [("msfem_exact".toList, (.exact, .msfem))] else [])
        else [] := by
      cases e <;> cases m <;> cases f <;> rfl
    rw [h]
    generalize "coarse_fem_exact".toList = a
    generalize "fem_exact".toList = b
    generalize "msfem_exact".toList = b'
    cases e <;> cases m <;> cases f <;> simp <;> tauto
  · have h : (register e m f c).l2D = if m then (if f then [("msfem_fem".toList, (.msfem, .fem))] else []) ++
        [("msfem_coarse_fem".toList, (.msfem, .coarse c))] else [] := by
      cases e <;> cases m <;> cases f <;> rfl
    rw [h]
    generalize "msfem_fem".toList = a
    generalize "msfem_coarse_fem".toList = b
    cases m <;> cases f <;> simp
    tauto

/-- **C29** Reading an entry that is not there is an exception, not undefined behaviour. -/
theorem C29_missing {V : Type} (m : List (Key × V)) (k : Key) : (∀ v, (k, v) ∉ m) ↔ at' m k = .throw := by
  induction m with
  | nil => simp [at']
  | cons p m ih =>
    obtain ⟨k', v'⟩ := p
    unfold at' at ih ⊢
    by_cases h : k = k'
    · subst h
      simpa using ⟨v', fun h => absurd rfl h⟩
    · have hb : (k == k') = false := by simpa using h
      simpa [List.lookup, hb, h] using ih

/-- C29: with everything available eleven quantities are reported. -/
example : (tableEntries (⟨fun _ => 1, fun _ => 2, fun _ => 3⟩ : Norms ℕ) true true true true).length = 11 := rfl

/-! ## C30 -/

section csv
open Spec.Csv

theorem split_ne_nil (sep : Char) (s : List Char) : split sep s ≠ [] := by
  cases s with
  | nil => simp [split]
  | cons c cs =>
    rw [split]
    split_ifs
    · simp
    · split <;> simp

theorem split_append (sep : Char) (a b : List Char) (h : sep ∉ a) :
    split sep (a ++ sep :: b) = a :: split sep b := by
  induction a with
  | nil => simp [split]
  | cons c a ih =>
    rw [List.mem_cons, not_or] at h
    rw [List.cons_append, split, if_neg (fun e => h.1 e.symm), ih h.2]

theorem split_flatMap {α : Type} (sep : Char) (l : List α) (f : α → List Char) (h : ∀ a ∈ l, sep ∉ f a) :
    split sep (l.flatMap fun a => f a ++ [sep]) = l.map f ++ [[]] := by
  induction l with
  | nil => rfl
  | cons a l ih =>
    rw [List.flatMap_cons, List.append_assoc, List.singleton_append,
      split_append _ _ _ (h a List.mem_cons_self), ih (fun b hb => h b (List.mem_cons_of_mem _ hb))]
    rfl

theorem foldl_append_eq {α : Type} (l : List α) (f : α → List Char) (s : List Char) :
    l.foldl (fun s a => s ++ f a) s = s ++ l.flatMap f := by
  induction l generalizing s with
  | nil => simp
  | cons a l ih => rw [List.foldl_cons, ih, List.flatMap_cons, List.append_assoc]

/-- **C30** Reading errors.csv gives back the keys with the printed values, in order, for every map
whose keys and printed values contain neither comma nor newline. -/
theorem C30_roundtrip {V : Type} (show' : V → List Char) (csv : List (Key × V))
    (hk : ∀ p ∈ csv, ',' ∉ p.1 ∧ '\n' ∉ p.1) (hv : ∀ p ∈ csv, ',' ∉ show' p.2 ∧ '\n' ∉ show' p.2) :
    read (csvText show' csv) = some (csv.map fun p => (p.1, show' p.2)) := by
  have hl : ∀ f : Key × V → List Char, (∀ p ∈ csv, '\n' ∉ f p) →
      '\n' ∉ csv.flatMap fun p => f p ++ [','] := by
    intro f hf hmem
    obtain ⟨p, hp, hin⟩ := List.mem_flatMap.mp hmem
    rcases List.mem_append.mp hin with h | h
    · exact hf p hp h
    · simp at h
  have hsplit : split '\n' (csvText show' csv) =
      [csv.flatMap fun p => p.1 ++ [','], csv.flatMap fun p => show' p.2 ++ [','], []] := by
    unfold csvText
    rw [foldl_append_eq csv (fun kv => kv.1 ++ [',']), foldl_append_eq csv (fun kv => show' kv.2 ++ [',']),
      List.nil_append, List.nil_append, List.append_assoc, List.singleton_append,
      split_append _ _ _ (hl _ fun p hp => (hk p hp).2), split_append _ _ _ (hl _ fun p hp => (hv p hp).2)]
    rfl
  unfold Spec.Csv.read
  rw [hsplit]
  dsimp only
  rw [split_flatMap ',' csv (fun p => p.1) (fun p hp => (hk p hp).1),
    split_flatMap ',' csv (fun p => show' p.2) (fun p hp => (hv p hp).1)]
  rw [if_pos (by simp)]
  rw [List.dropLast_concat, List.dropLast_concat, List.zip_map']

/-- **C30** (file of the error computation) The file written by the error computation reads back as the map it
returns, whatever the availability of solutions, if printed numbers contain neither comma nor newline. -/
theorem C30_report_roundtrip {V : Type} (N : Norms V) (show' : V → List Char)
    (hs : ∀ v, ',' ∉ show' v ∧ '\n' ∉ show' v) (e m f c matchOk projectOk : Bool) (csv : List (Key × V))
    (h : print N e m f c matchOk projectOk = .ok csv) :
    read (csvText show' csv) = some (csv.map fun p => (p.1, show' p.2)) := by
  apply C30_roundtrip
  swap
  · exact fun p _ => hs p.2
  have hok : print N e m f c matchOk projectOk = print N e m f c true true := by
    by_cases ht : print N e m f c matchOk projectOk = .throw
    · rw [ht] at h; cases h
    · rw [C29_throws_iff] at ht
      cases m
      · cases matchOk <;> cases projectOk <;> rfl
      · cases matchOk <;> cases projectOk <;> simp at ht ⊢
  rw [hok, C29_reported_partial] at h
  injection h with h
  subst h
  intro p hp
  have hmem : p.1 ∈ ((table N e m f c).map fun r => r.key) := by
    obtain ⟨r, hr, rfl⟩ := List.mem_map.mp hp
    exact List.mem_map.mpr ⟨r, List.mem_of_mem_filter hr, rfl⟩
  revert hmem
  generalize p.1 = k
  intro hmem
  simp only [table, List.map_cons, List.map_nil, List.mem_cons, List.not_mem_nil, or_false] at hmem
  rcases hmem with rfl | rfl | rfl | rfl | rfl | rfl | rfl | rfl | rfl | rfl | rfl <;> decide

theorem assign_keys {V : Type} (k : Key) (v : V) (m : List (Key × V)) (x : Key × V)
    (h : x ∈ assign k v m) : x.1 = k ∨ x ∈ m := by
  induction m with
  | nil => rw [assign, List.mem_singleton] at h; exact Or.inl (by rw [h])
  | cons y m ih =>
    rw [assign] at h
    split_ifs at h
    · rcases List.mem_cons.mp h with h | h
      · exact Or.inl (by rw [h])
      · exact Or.inr h
    · rcases List.mem_cons.mp h with h | h
      · exact Or.inl (by rw [h])
      · exact Or.inr (List.mem_cons_of_mem _ h)
    · rcases List.mem_cons.mp h with h | h
      · exact Or.inr (h ▸ List.mem_cons_self)
      · rcases ih h with h | h
        · exact Or.inl h
        · exact Or.inr (List.mem_cons_of_mem _ h)

/-- **C30** (order) Assigning keeps the keys strictly ascending: no key appears twice in the file. -/
theorem C30_keys_ascending {V : Type} (entries : List (Key × V)) :
    (entries.foldl (fun m kv => assign kv.1 kv.2 m) []).Pairwise fun a b => a.1 < b.1 := by
  have step : ∀ (k : Key) (v : V) (m : List (Key × V)), m.Pairwise (fun a b => a.1 < b.1) →
      (assign k v m).Pairwise fun a b => a.1 < b.1 := by
    intro k v m
    induction m with
    | nil => intro _; simp [assign]
    | cons y m ih =>
      intro h
      rw [List.pairwise_cons] at h
      rw [assign]
      split_ifs with h1 h2
      · refine List.pairwise_cons.mpr ⟨fun a ha => ?_, List.pairwise_cons.mpr h⟩
        rcases List.mem_cons.mp ha with rfl | ha
        · exact h1
        · exact lt_trans h1 (h.1 a ha)
      · exact List.pairwise_cons.mpr ⟨fun a ha => h2 ▸ h.1 a ha, h.2⟩
      · refine List.pairwise_cons.mpr ⟨fun a ha => ?_, ih h.2⟩
        rcases assign_keys k v m a ha with e | ha
        · show y.1 < a.1
          rw [e]
          exact lt_of_le_of_ne (not_lt.mp h1) (fun e => h2 e.symm)
        · exact h.1 a ha
  have : ∀ m : List (Key × V), m.Pairwise (fun a b => a.1 < b.1) →
      (entries.foldl (fun m kv => assign kv.1 kv.2 m) m).Pairwise fun a b => a.1 < b.1 := by
    induction entries with
    | nil => intro m h; exact h
    | cons x l ih => intro m h; exact ih _ (step x.1 x.2 m h)
  exact this [] List.Pairwise.nil

/-- **C30** (distinct files) Two maps with comma- and newline-free keys and values have the same file only if
keys and printed values agree. -/
theorem C30_injective {V : Type} (show' : V → List Char) (hs : ∀ v, ',' ∉ show' v ∧ '\n' ∉ show' v)
    (a b : List (Key × V)) (ha : ∀ p ∈ a, ',' ∉ p.1 ∧ '\n' ∉ p.1) (hb : ∀ p ∈ b, ',' ∉ p.1 ∧ '\n' ∉ p.1)
    (h : csvText show' a = csvText show' b) :
    (a.map fun p => (p.1, show' p.2)) = b.map fun p => (p.1, show' p.2) := by
  have h1 := C30_roundtrip show' a ha (fun p _ => hs p.2)
  rw [h, C30_roundtrip show' b hb (fun p _ => hs p.2)] at h1
  injection h1 with h1
  exact h1.symm

/-- C30: a map with two entries. -/
example : read (csvText (fun n : ℕ => if n = 0 then "0.5".toList else "1e-10".toList)
    [("a_L2".toList, 0), ("b_H1s".toList, 1)]) =
      some [("a_L2".toList, "0.5".toList), ("b_H1s".toList, "1e-10".toList)] := by decide

end csv

end Verif.ErrorReport
