import Verif.Model.IOCache
import Verif.Lemmas.Text
import Verif.Spec.Store
import Mathlib.Tactic.Push

/-!
# C11, C12, C13: the store of local solutions
-/

namespace Verif.IOCache
open Verif.Text Verif.Spec.Store

/-! ## C11 -/

section C11
variable {K F : Type} [DecidableEq K]

/-- The specification run on client operations. -/
def absStep (a : Abs K F) : Op K F → Abs K F × Obs F
  | .get k => (a.get k, .unit)
  | .append h f => a.append h f
  | .read h i => (a, a.read h i)
  | .clear => (a.clear, .unit)

def absRun (a : Abs K F) : List (Op K F) → List (Obs F)
  | [] => []
  | op :: ops => (absStep a op).2 :: absRun (absStep a op).1 ops

/-- Correspondence of observations. -/
def obsOf : Out F → Obs F
  | .unit => .unit
  | .value f => .value f
  | .throwOob => .outOfRange
  | .ub => .dangling

/-- Simulation relation. -/
structure Sim (s : State K F) (a : Abs K F) : Prop where
  len : s.handles.length = a.refs.length
  /-- keys in the map have a live backend with the abstract content -/
  live : ∀ k id, lookup s.map k = some id → s.heap[id]? = some (some (a.content k))
  inj : ∀ k k' id, lookup s.map k = some id → lookup s.map k' = some id → k = k'
  absent : ∀ k, lookup s.map k = none → a.content k = []
  /-- current references point to the backend of their key -/
  cur : ∀ (h : ℕ) (id : ℕ) (k : K), s.handles[h]? = some id → a.refs[h]? = some (a.epoch, k) →
    lookup s.map k = some id
  /-- old references point to destroyed backends -/
  old : ∀ (h : ℕ) (id : ℕ) (e : ℕ) (k : K), s.handles[h]? = some id → a.refs[h]? = some (e, k) →
    e ≠ a.epoch → s.heap[id]? = some none

theorem sim_init : Sim (State.init : State K F) Abs.empty := by
  constructor <;> simp [State.init, Abs.empty, lookup]

theorem sim_get {s : State K F} {a : Abs K F} (h : Sim s a) (key : K) :
    Sim (step s (.get key)).1 (a.get key) := by
  simp only [step, get]
  cases hl : lookup s.map key with
  | some id =>
    simp only [Abs.get]
    refine ⟨by simp [h.len], h.live, h.inj, h.absent, ?_, ?_⟩
    · intro j id' k h1 h2
      dsimp only at h1 h2 ⊢
      rcases Nat.lt_or_ge j s.handles.length with hj | hj
      · rw [List.getElem?_append_left hj] at h1
        rw [List.getElem?_append_left (by rw [← h.len]; exact hj)] at h2
        exact h.cur j id' k h1 h2
      · rw [List.getElem?_append_right hj] at h1
        rw [List.getElem?_append_right (by rw [← h.len]; exact hj)] at h2
        rw [← h.len] at h2
        cases hz : j - s.handles.length with
        | zero =>
          rw [hz] at h1 h2
          simp only [List.getElem?_cons_zero, Option.some.injEq, Prod.mk.injEq, true_and] at h1 h2
          rw [← h2, ← h1]; exact hl
        | succ n => rw [hz] at h1; simp at h1
    · intro j id' e k h1 h2 h3
      dsimp only at h1 h2 h3 ⊢
      rcases Nat.lt_or_ge j s.handles.length with hj | hj
      · rw [List.getElem?_append_left hj] at h1
        rw [List.getElem?_append_left (by rw [← h.len]; exact hj)] at h2
        exact h.old j id' e k h1 h2 h3
      · rw [List.getElem?_append_right (by rw [← h.len]; exact hj)] at h2
        rw [← h.len] at h2
        cases hz : j - s.handles.length with
        | zero =>
          rw [hz] at h2
          simp only [List.getElem?_cons_zero, Option.some.injEq, Prod.mk.injEq] at h2
          exact absurd h2.1.symm h3
        | succ n => rw [hz] at h2; simp at h2
  | none =>
    simp only [Abs.get]
    have hheap : ∀ (id : ℕ) v, s.heap[id]? = some v → (s.heap ++ [some []])[id]? = some v := by
      intro id v hv
      rw [List.getElem?_append_left]
      · exact hv
      · exact (List.getElem?_eq_some_iff.mp hv).1
    have hnew : (s.heap ++ [some ([] : List F)])[s.heap.length]? = some (some []) := by simp
    have hlt : ∀ k id, lookup s.map k = some id → id < s.heap.length := fun k id hk =>
      (List.getElem?_eq_some_iff.mp (h.live k id hk)).1
    refine ⟨by simp [h.len], ?_, ?_, ?_, ?_, ?_⟩
    · intro k id hk
      simp only [lookup] at hk
      dsimp only
      split_ifs at hk with he
      · injection hk with hk
        subst he; subst hk
        rw [h.absent key hl]; exact hnew
      · exact hheap _ _ (h.live k id hk)
    · intro k k' id hk hk'
      simp only [lookup] at hk hk'
      split_ifs at hk hk' with h1 h2 h2
      · rw [← h1, ← h2]
      · injection hk with hk
        have := hlt _ _ hk'
        omega
      · injection hk' with hk'
        have := hlt _ _ hk
        omega
      · exact h.inj k k' id hk hk'
    · intro k hk
      simp only [lookup] at hk
      split_ifs at hk
      exact h.absent k hk
    · intro j id' k h1 h2
      dsimp only at h1 h2 ⊢
      simp only [lookup]
      rcases Nat.lt_or_ge j s.handles.length with hj | hj
      · rw [List.getElem?_append_left hj] at h1
        rw [List.getElem?_append_left (by rw [← h.len]; exact hj)] at h2
        have := h.cur j id' k h1 h2
        rw [if_neg, this]
        rintro rfl
        rw [hl] at this; cases this
      · rw [List.getElem?_append_right hj] at h1
        rw [List.getElem?_append_right (by rw [← h.len]; exact hj)] at h2
        rw [← h.len] at h2
        cases hz : j - s.handles.length with
        | zero =>
          rw [hz] at h1 h2
          simp only [List.getElem?_cons_zero, Option.some.injEq, Prod.mk.injEq, true_and] at h1 h2
          rw [if_pos h2, h1]
        | succ n => rw [hz] at h1; simp at h1
    · intro j id' e k h1 h2 h3
      dsimp only at h1 h2 h3 ⊢
      rcases Nat.lt_or_ge j s.handles.length with hj | hj
      · rw [List.getElem?_append_left hj] at h1
        rw [List.getElem?_append_left (by rw [← h.len]; exact hj)] at h2
        exact hheap _ _ (h.old j id' e k h1 h2 h3)
      · rw [List.getElem?_append_right (by rw [← h.len]; exact hj)] at h2
        rw [← h.len] at h2
        cases hz : j - s.handles.length with
        | zero =>
          rw [hz] at h2
          simp only [List.getElem?_cons_zero, Option.some.injEq, Prod.mk.injEq] at h2
          exact absurd h2.1.symm h3
        | succ n => rw [hz] at h2; simp at h2

theorem handle_ref {s : State K F} {a : Abs K F} (h : Sim s a) (j : ℕ) :
    (s.handles[j]? = none ∧ a.refs[j]? = none) ∨
    ∃ id e k, s.handles[j]? = some id ∧ a.refs[j]? = some (e, k) := by
  rcases Nat.lt_or_ge j s.handles.length with hj | hj
  · right
    exact ⟨s.handles[j], (a.refs[j]'(h.len ▸ hj)).1, (a.refs[j]'(h.len ▸ hj)).2,
      List.getElem?_eq_getElem hj, List.getElem?_eq_getElem (h.len ▸ hj)⟩
  · left
    exact ⟨List.getElem?_eq_none hj, List.getElem?_eq_none (h.len ▸ hj)⟩

theorem sim_append {s : State K F} {a : Abs K F} (h : Sim s a) (j : ℕ) (f : F) :
    Sim (step s (.append j f)).1 (a.append j f).1 ∧
      obsOf (step s (.append j f)).2 = (a.append j f).2 := by
  simp only [step, Abs.append]
  rcases handle_ref h j with ⟨h1, h2⟩ | ⟨id, e, k, h1, h2⟩
  · rw [h1, h2]; exact ⟨h, rfl⟩
  · rw [h1, h2]
    dsimp only
    by_cases he : e = a.epoch
    · subst he
      have hk := h.cur j id k h1 h2
      have hl := h.live k id hk
      rw [if_pos rfl, hl]
      have hidlt := (List.getElem?_eq_some_iff.mp hl).1
      refine ⟨⟨h.len, ?_, h.inj, ?_, h.cur, ?_⟩, rfl⟩
      · intro k' id' hk'
        dsimp only at hk' ⊢
        by_cases hkk : k' = k
        · subst hkk
          rw [hk] at hk'
          injection hk' with hk'
          subst hk'
          rw [if_pos rfl, List.getElem?_set_self hidlt]
        · rw [if_neg hkk]
          have hne : id ≠ id' := fun hid => hkk (h.inj _ _ _ hk' (hid ▸ hk))
          rw [List.getElem?_set_ne hne]
          exact h.live k' id' hk'
      · intro k' hk'
        dsimp only at hk' ⊢
        rw [if_neg]
        · exact h.absent k' hk'
        · rintro rfl
          rw [hk] at hk'; cases hk'
      · intro j' id' e' k' h1' h2' h3'
        dsimp only at h1' h2' h3' ⊢
        have := h.old j' id' e' k' h1' h2' h3'
        have hne : id ≠ id' := by
          rintro rfl
          rw [hl] at this
          injection this with this
          cases this
        rw [List.getElem?_set_ne hne]
        exact this
    · rw [if_neg he, h.old j id e k h1 h2 he]
      exact ⟨h, rfl⟩

theorem sim_read {s : State K F} {a : Abs K F} (h : Sim s a) (j i : ℕ) :
    (step s (.read j i)).1 = s ∧ obsOf (step s (.read j i)).2 = a.read j i := by
  simp only [step, Abs.read]
  rcases handle_ref h j with ⟨h1, h2⟩ | ⟨id, e, k, h1, h2⟩
  · rw [h1, h2]; exact ⟨rfl, rfl⟩
  · rw [h1, h2]
    dsimp only
    by_cases he : e = a.epoch
    · subst he
      rw [if_pos rfl, h.live k id (h.cur j id k h1 h2)]
      dsimp only
      by_cases hi : i < (a.content k).length
      · rw [dif_pos hi, List.getElem?_eq_getElem hi]
        exact ⟨rfl, rfl⟩
      · rw [dif_neg hi, List.getElem?_eq_none (by omega)]
        exact ⟨rfl, rfl⟩
    · rw [if_neg he, h.old j id e k h1 h2 he]
      exact ⟨rfl, rfl⟩

theorem sim_clear {s : State K F} {a : Abs K F} (h : Sim s a)
    (hep : ∀ (j : ℕ) e k, a.refs[j]? = some (e, k) → e ≤ a.epoch) :
    Sim (step s .clear).1 a.clear := by
  simp only [step, Abs.clear]
  refine ⟨h.len, ?_, ?_, ?_, ?_, ?_⟩
  · intro k id hk; simp [lookup] at hk
  · intro k k' id hk; simp [lookup] at hk
  · intro k _; rfl
  · intro j id k _ h2
    dsimp only at h2
    have := hep j _ k h2
    omega
  · intro j id e k h1 h2 h3
    dsimp only at h1 h2 h3 ⊢
    have hin : id < s.heap.length := by
      by_cases he : e = a.epoch
      · subst he
        exact (List.getElem?_eq_some_iff.mp (h.live k id (h.cur j id k h1 h2))).1
      · exact (List.getElem?_eq_some_iff.mp (h.old j id e k h1 h2 he)).1
    rw [List.getElem?_map, List.getElem?_eq_getElem hin]
    rfl

/-- references carry epochs not after the current one -/
def EpochOk (a : Abs K F) : Prop := ∀ (j : ℕ) e k, a.refs[j]? = some (e, k) → e ≤ a.epoch

theorem epochOk_step {a : Abs K F} (h : EpochOk a) (op : Op K F) : EpochOk (absStep a op).1 := by
  cases op with
  | get k =>
    intro j e k' hj
    simp only [absStep, Abs.get] at hj ⊢
    rcases Nat.lt_or_ge j a.refs.length with hl | hl
    · rw [List.getElem?_append_left hl] at hj
      exact h j e k' hj
    · rw [List.getElem?_append_right hl] at hj
      cases hz : j - a.refs.length with
      | zero =>
        rw [hz] at hj
        simp only [List.getElem?_cons_zero, Option.some.injEq, Prod.mk.injEq] at hj
        omega
      | succ n => rw [hz] at hj; simp at hj
  | append j f =>
    simp only [absStep, Abs.append]
    split
    · exact h
    · split_ifs
      · intro j e k hj; exact h j e k hj
      · exact h
  | read j i => exact h
  | clear =>
    intro j e k hj
    have := h j e k hj
    simp only [absStep, Abs.clear]; omega

theorem sim_run {s : State K F} {a : Abs K F} (h : Sim s a) (hep : EpochOk a) (ops : List (Op K F)) :
    (run s ops).map obsOf = absRun a ops := by
  induction ops generalizing s a with
  | nil => rfl
  | cons op ops ih =>
    simp only [run, absRun, List.map_cons, List.cons.injEq]
    have hep' := epochOk_step hep op
    cases op with
    | get k => exact ⟨rfl, ih (sim_get h k) hep'⟩
    | append j f => exact ⟨(sim_append h j f).2, ih (sim_append h j f).1 hep'⟩
    | read j i =>
      refine ⟨(sim_read h j i).2, ?_⟩
      rw [(sim_read h j i).1]
      exact ih h hep'
    | clear => exact ⟨rfl, ih (sim_clear h hep) hep'⟩

/-- **C11** For every sequence of client operations, the store behaves like the
abstract map from keys to lists (`Verif.Spec.Store`): same observations step by step. -/
theorem C11_store_refines_map (ops : List (Op K F)) :
    (run (State.init : State K F) ops).map obsOf = absRun Abs.empty ops :=
  sim_run sim_init (by intro j e k h; simp [Abs.empty] at h) ops

end C11

/-- Instance of C11: two references to key 7 share a list, key 8 is separate, reading beyond the end
throws, and after `clear` old references dangle. -/
example : run (State.init : State ℕ ℕ)
    [.get 7, .get 8, .append 0 10, .get 7, .append 2 11, .read 0 1, .read 1 0, .clear, .read 0 0] =
    [.unit, .unit, .unit, .unit, .unit, .value 11, .throwOob, .unit, .ub] := by
  rfl

/-- **C11** (disk variant) Every operation of the disk back end throws, after
creating a directory in the case of `append`. -/
theorem C11_disk_always_throws (index : ℕ) (dirs : List ℕ) :
    (diskAppend index dirs).2.2 = .notImplemented ∧ (diskAppend index dirs).2.1 = dirs ++ [index] ∧
      ∀ i, diskRead i = .notImplemented := ⟨rfl, rfl, fun _ => rfl⟩

/-- State of a disk back end after an `append` (which throws): the next index and the directories. -/
def diskAppendState (s : ℕ × List ℕ) : ℕ × List ℕ := ((diskAppend s.1 s.2).1, (diskAppend s.1 s.2).2.1)

/-- **C11** (disk variant) `n` calls of `append` create `n` different directories. -/
theorem C11_disk_directories (n : ℕ) : diskAppendState^[n] (0, []) = (n, List.range n) ∧ (List.range n).Nodup := by
  refine ⟨?_, List.nodup_range⟩
  induction n with
  | zero => rfl
  | succ n ih =>
    rw [Function.iterate_succ', Function.comp_apply, ih, List.range_succ]
    rfl

/-! ## C12 -/

/-- **C12** The key of the location of coarse cell `i` is `i`. -/
theorem C12_location_roundtrip (i : ℕ) : memoryKey (location i) = some i := by
  unfold memoryKey location
  have h : ("local_problems/_localProblemSolutions_".toList ++ decimal i) =
      "local_problems/_localProblemSolutions".toList ++ '_' :: decimal i := by
    rw [show "local_problems/_localProblemSolutions_".toList =
      "local_problems/_localProblemSolutions".toList ++ ['_'] from by decide]
    simp
  rw [h, tokenize_getLast _ (decimal_not_mem i (by decide))]
  exact parseNat_decimal i

/-- **C12** Different coarse cells have different keys. -/
theorem C12_distinct_cells (i j : ℕ) (h : memoryKey (location i) = memoryKey (location j)) : i = j := by
  rw [C12_location_roundtrip, C12_location_roundtrip] at h
  exact Option.some.inj h

/-- Remark to C12: only the number after the last underscore counts, so different file names may
share a list. -/
theorem C12_names_alias : memoryKey "fine_3".toList = memoryKey "coarse_3".toList := by
  simp [memoryKey, tokenize]

/-- Instance of C12. -/
example : location 104 = "local_problems/_localProblemSolutions_104".toList := by
  unfold location
  have : decimal 104 = "104".toList := by simp [decimal, digitChar]
  rw [this]; decide

/-! ## C13 -/

section C13
variable {T K : Type} [DecidableEq T] [DecidableEq K]

/-- Invariant of all executions. -/
structure CInv (key : T → K) (s : CState T K) : Prop where
  /-- a returned backend is the one in the map -/
  done : ∀ t id, s.pc t = .done id → lookup s.map (key t) = some id
  /-- at most one thread inserts -/
  mutex : ∀ t u, s.pc t = .inserting → s.pc u = .inserting → t = u
  /-- each key occurs once -/
  nodup : (s.map.map Prod.fst).Nodup
  /-- ids are below the counter and distinct -/
  ids : (s.map.map Prod.snd).Nodup ∧ ∀ p ∈ s.map, p.2 < s.next

theorem lookup_none_iff {m : List (K × ℕ)} {k : K} : lookup m k = none ↔ k ∉ m.map Prod.fst := by
  induction m with
  | nil => simp [lookup]
  | cons p m ih =>
    obtain ⟨a, b⟩ := p
    simp only [lookup, List.map_cons, List.mem_cons, not_or]
    split_ifs with h
    · simp [h]
    · rw [ih]
      constructor
      · intro h2; exact ⟨fun h3 => h h3.symm, h2⟩
      · intro h2; exact h2.2

omit [DecidableEq K] in
theorem setPc_pc (s : CState T K) (t u : T) (p : PC) :
    (s.setPc t p).pc u = if u = t then p else s.pc u := rfl

theorem cinv_step {key : T → K} {ndebug : Bool} {s s' : CState T K} (h : CInv key s)
    (hs : CStep key ndebug s s') : CInv key s' := by
  cases hs with
  | beginFind t hr hpc hno =>
    refine ⟨?_, ?_, h.nodup, h.ids⟩
    · intro u id hu
      rw [setPc_pc] at hu
      split_ifs at hu
      exact h.done u id hu
    · intro u v hu hv
      rw [setPc_pc] at hu hv
      split_ifs at hu hv
      exact h.mutex u v hu hv
  | beginFindRace t u hr hpc hu => exact ⟨h.done, h.mutex, h.nodup, h.ids⟩
  | hit t id hr hpc hl =>
    refine ⟨?_, ?_, h.nodup, h.ids⟩
    · intro u id' hu
      rw [setPc_pc] at hu
      split_ifs at hu with he
      · injection hu with hu
        rw [he, ← hu]; exact hl
      · exact h.done u id' hu
    · intro u v hu hv
      rw [setPc_pc] at hu hv
      split_ifs at hu hv
      exact h.mutex u v hu hv
  | miss t hr hpc hl =>
    refine ⟨?_, ?_, h.nodup, h.ids⟩
    · intro u id hu
      rw [setPc_pc] at hu
      split_ifs at hu
      exact h.done u id hu
    · intro u v hu hv
      rw [setPc_pc] at hu hv
      split_ifs at hu hv
      exact h.mutex u v hu hv
  | lock t hr hpc hfree hno =>
    refine ⟨?_, ?_, h.nodup, h.ids⟩
    · intro u id hu
      rw [setPc_pc] at hu
      split_ifs at hu
      exact h.done u id hu
    · intro u v hu hv
      rw [setPc_pc] at hu hv
      split_ifs at hu hv with h1 h2 h2
      · rw [h1, h2]
      · exact absurd hv (hfree v)
      · exact absurd hu (hfree u)
      · exact h.mutex u v hu hv
  | lockRace t u hr hpc hfree hu => exact ⟨h.done, h.mutex, h.nodup, h.ids⟩
  | insertNew t hr hpc hl =>
    refine ⟨?_, ?_, ?_, ?_, ?_⟩
    · intro u id hu
      dsimp only at hu ⊢
      rw [setPc_pc] at hu
      simp only [lookup]
      split_ifs at hu with he
      · injection hu with hu
        rw [he, if_pos rfl, hu]
      · have := h.done u id hu
        rw [if_neg, this]
        intro hk
        rw [← hk, hl] at this; cases this
    · intro u v hu hv
      dsimp only at hu hv
      rw [setPc_pc] at hu hv
      split_ifs at hu hv
      exact h.mutex u v hu hv
    · simp only [List.map_cons, List.nodup_cons]
      exact ⟨lookup_none_iff.mp hl, h.nodup⟩
    · simp only [List.map_cons, List.nodup_cons]
      refine ⟨?_, h.ids.1⟩
      intro hm
      obtain ⟨p, hp, hpe⟩ := List.mem_map.mp hm
      have := h.ids.2 p hp
      omega
    · intro p hp
      dsimp only at hp ⊢
      rcases List.mem_cons.mp hp with rfl | hp
      · simp
      · have := h.ids.2 p hp; omega
  | insertDupDebug t id hr hpc hl hd => exact ⟨h.done, h.mutex, h.nodup, h.ids⟩
  | insertDup t id hr hpc hl hd =>
    refine ⟨?_, ?_, h.nodup, h.ids.1, ?_⟩
    · intro u id' hu
      dsimp only at hu ⊢
      rw [setPc_pc] at hu
      split_ifs at hu with he
      · injection hu with hu
        rw [he, ← hu]; exact hl
      · exact h.done u id' hu
    · intro u v hu hv
      dsimp only at hu hv
      rw [setPc_pc] at hu hv
      split_ifs at hu hv
      exact h.mutex u v hu hv
    · intro p hp
      have := h.ids.2 p hp
      dsimp only; omega

omit [DecidableEq T] in
theorem cinv_start (key : T → K) (m : List (K × ℕ)) (next : ℕ) (hk : (m.map Prod.fst).Nodup)
    (hi : (m.map Prod.snd).Nodup) (hn : ∀ p ∈ m, p.2 < next) :
    CInv key (CState.start m next : CState T K) := by
  refine ⟨?_, ?_, hk, hi, hn⟩
  · intro t id h; cases h
  · intro t u h; cases h

theorem cinv_reach {key : T → K} {ndebug : Bool} {s₀ s : CState T K} (h₀ : CInv key s₀)
    (hs : CReach key ndebug s₀ s) : CInv key s := by
  induction hs with
  | refl => exact h₀
  | step _ hst ih => exact cinv_step ih hst

/-- **C13** (partial) In every interleaving, as long as the process is running: threads that have
returned for the same key hold the same backend, for different keys different
backends, and every returned backend is the one in the store.  Missing: that the
process keeps running; this is false, see the `violated` theorems. -/
theorem C13_same_key_same_backend_partial (key : T → K) (ndebug : Bool) (s : CState T K)
    (hs : CReach key ndebug (CState.start [] 0) s) :
    ∀ t u i j, s.pc t = .done i → s.pc u = .done j → (i = j ↔ key t = key u) := by
  have hinv := cinv_reach (cinv_start key [] 0 (by simp) (by simp) (by simp)) hs
  intro t u i j ht hu
  have h1 := hinv.done t i ht
  have h2 := hinv.done u j hu
  constructor
  · rintro rfl
    -- the same id under two keys contradicts distinctness of ids
    have key_of : ∀ (m : List (K × ℕ)) (k : K), lookup m k = some i → (k, i) ∈ m := by
      intro m
      induction m with
      | nil => intro k h; simp [lookup] at h
      | cons p m ih =>
        intro k h
        obtain ⟨a, b⟩ := p
        simp only [lookup] at h
        split_ifs at h with he
        · injection h with h
          rw [he, h]; exact List.mem_cons_self
        · exact List.mem_cons_of_mem _ (ih k h)
    have m1 := key_of _ _ h1
    have m2 := key_of _ _ h2
    have uniq : ∀ m : List (K × ℕ), (m.map Prod.snd).Nodup → ∀ a b, (a, i) ∈ m → (b, i) ∈ m →
        a = b := by
      intro m
      induction m with
      | nil => intro _ a b h; simp at h
      | cons p m ih =>
        intro hn a b ha hb
        rw [List.map_cons, List.nodup_cons] at hn
        rcases List.mem_cons.mp ha with ha | ha <;> rcases List.mem_cons.mp hb with hb | hb
        · rw [← ha] at hb; injection hb with hb; exact hb.symm
        · exact absurd (List.mem_map.mpr ⟨_, hb, by rw [← ha]⟩) hn.1
        · exact absurd (List.mem_map.mpr ⟨_, ha, by rw [← hb]⟩) hn.1
        · exact ih hn.2 a b ha hb
    exact uniq _ hinv.ids.1 _ _ m1 m2
  · intro hk
    rw [hk, h2] at h1
    injection h1 with h1
    exact h1.symm

/-- thread states that occur only before a returned backend for distinct keys -/
theorem C13_no_assert_aux {key : T → K} (hinj : Function.Injective key) {ndebug : Bool}
    {s : CState T K} (hs : CReach key ndebug (CState.start [] 0) s) :
    s.status ≠ .assertFailed ∧
    (∀ k id, lookup s.map k = some id → ∃ t, key t = k ∧ ∃ id', s.pc t = .done id') := by
  induction hs with
  | refl => exact ⟨by simp [CState.start], by intro k id h; simp [CState.start, lookup] at h⟩
  | @step s s' _ hst ih =>
    obtain ⟨ih1, ih2⟩ := ih
    have keep : ∀ (t : T) (p : PC), (∀ id, s.pc t ≠ .done id) → ∀ k id, lookup s.map k = some id →
        ∃ u, key u = k ∧ ∃ id', (s.setPc t p).pc u = .done id' := by
      intro t p hnd k id hl
      obtain ⟨u, hu, id', hd⟩ := ih2 k id hl
      refine ⟨u, hu, id', ?_⟩
      rw [setPc_pc, if_neg]
      · exact hd
      · rintro rfl; exact hnd _ hd
    cases hst with
    | beginFind t hr hpc hno => exact ⟨ih1, keep t _ (by simp [hpc])⟩
    | beginFindRace t u hr hpc hu => exact ⟨by simp, ih2⟩
    | hit t id hr hpc hl => exact ⟨ih1, keep t _ (by simp [hpc])⟩
    | miss t hr hpc hl => exact ⟨ih1, keep t _ (by simp [hpc])⟩
    | lock t hr hpc hfree hno => exact ⟨ih1, keep t _ (by simp [hpc])⟩
    | lockRace t u hr hpc hfree hu => exact ⟨by simp, ih2⟩
    | insertNew t hr hpc hl =>
      refine ⟨ih1, ?_⟩
      intro k id hk
      dsimp only at hk ⊢
      simp only [lookup] at hk
      split_ifs at hk with he
      · exact ⟨t, he, s.next, by rw [setPc_pc, if_pos rfl]⟩
      · exact keep t _ (by simp [hpc]) k id hk
    | insertDupDebug t id hr hpc hl hd =>
      obtain ⟨u, hu, id', hud⟩ := ih2 _ _ hl
      rw [hinj hu, hpc] at hud; cases hud
    | insertDup t id hr hpc hl hd =>
      obtain ⟨u, hu, id', hud⟩ := ih2 _ _ hl
      rw [hinj hu, hpc] at hud; cases hud

/-- **C13** (partial) If all threads ask for different keys, as in the parallel solution of
the local problems, the assertion never fails. -/
theorem C13_no_assert_distinct_keys_partial (key : T → K) (hinj : Function.Injective key)
    (ndebug : Bool) (s : CState T K) (hs : CReach key ndebug (CState.start [] 0) s) :
    s.status ≠ .assertFailed := (C13_no_assert_aux hinj hs).1

/-- **C13** (partial) If all keys are already in the store, as in the parallel assembly of
the coarse system, every interleaving keeps running: no race and no failing assertion. -/
theorem C13_read_phase_safe_partial (key : T → K) (ndebug : Bool) (m : List (K × ℕ)) (next : ℕ)
    (hpres : ∀ t, lookup m (key t) ≠ none) (s : CState T K)
    (hs : CReach key ndebug (CState.start m next) s) :
    s.status = .running ∧ s.map = m ∧ ∀ t id, s.pc t = .done id → lookup m (key t) = some id := by
  have : s.status = .running ∧ s.map = m ∧ (∀ t, s.pc t ≠ .inserting ∧ s.pc t ≠ .missed) ∧
      ∀ t id, s.pc t = .done id → lookup m (key t) = some id := by
    induction hs with
    | refl =>
      refine ⟨rfl, rfl, fun t => ⟨by simp [CState.start], by simp [CState.start]⟩, ?_⟩
      intro t id h; cases h
    | @step s s' _ hst ih =>
      obtain ⟨i1, i2, i3, i4⟩ := ih
      cases hst with
      | beginFind t hr hpc hno =>
        refine ⟨i1, i2, ?_, ?_⟩
        · intro u; rw [setPc_pc]; split_ifs
          · simp
          · exact i3 u
        · intro u id hu; rw [setPc_pc] at hu; split_ifs at hu
          exact i4 u id hu
      | beginFindRace t u hr hpc hu => exact absurd hu (i3 u).1
      | hit t id hr hpc hl =>
        refine ⟨i1, i2, ?_, ?_⟩
        · intro u; rw [setPc_pc]; split_ifs
          · simp
          · exact i3 u
        · intro u id' hu; rw [setPc_pc] at hu; split_ifs at hu with he
          · injection hu with hu
            rw [he, ← hu, ← i2]; exact hl
          · exact i4 u id' hu
      | miss t hr hpc hl => rw [i2] at hl; exact absurd hl (hpres t)
      | lock t hr hpc hfree hno => exact absurd hpc (i3 t).2
      | lockRace t u hr hpc hfree hu => exact absurd hpc (i3 t).2
      | insertNew t hr hpc hl => exact absurd hpc (i3 t).1
      | insertDupDebug t id hr hpc hl hd => exact absurd hpc (i3 t).1
      | insertDup t id hr hpc hl hd => exact absurd hpc (i3 t).1
  exact ⟨this.1, this.2.1, this.2.2.2⟩

end C13

/-- **C13 is violated** (data race): two threads asking for two *different* keys can
overlap a lookup with an insertion. -/
theorem C13_violated_race :
    ∃ s : CState Bool Bool, CReach (fun t => t) true (CState.start [] 0) s ∧ s.status = .race := by
  let s0 : CState Bool Bool := CState.start [] 0
  let s1 := s0.setPc true .finding
  let s2 := s1.setPc true .missed
  let s3 := s2.setPc true .inserting
  refine ⟨{ s3 with status := .race }, ?_, rfl⟩
  have r1 : CReach (fun t => t) true s0 s1 :=
    .step .refl (.beginFind s0 true rfl rfl (by intro u; cases u <;> decide))
  have r2 : CReach (fun t => t) true s0 s2 := .step r1 (.miss s1 true rfl rfl rfl)
  have r3 : CReach (fun t => t) true s0 s3 :=
    .step r2 (.lock s2 true rfl rfl (by intro u; cases u <;> decide) (by intro u; cases u <;> decide))
  exact .step r3 (.beginFindRace s3 false true rfl rfl rfl)

/-- **C13 is violated** (failing assertion): two threads asking for the same key can both miss;
in a build with assertions the process then aborts. -/
theorem C13_violated_assert :
    ∃ s : CState Bool Unit, CReach (fun _ => ()) false (CState.start [] 0) s ∧
      s.status = .assertFailed := by
  let s0 : CState Bool Unit := CState.start [] 0
  let s1 := s0.setPc true .finding
  let s2 := s1.setPc true .missed
  let s3 := s2.setPc false .finding
  let s4 := s3.setPc false .missed
  let s5 := s4.setPc true .inserting
  let s6 : CState Bool Unit := { (s5.setPc true (.done 0)) with map := [((), 0)], next := 1 }
  let s7 := s6.setPc false .inserting
  refine ⟨{ s7 with status := .assertFailed }, ?_, rfl⟩
  have r1 : CReach (fun _ => ()) false s0 s1 :=
    .step .refl (.beginFind s0 true rfl rfl (by intro u; cases u <;> decide))
  have r2 : CReach (fun _ => ()) false s0 s2 := .step r1 (.miss s1 true rfl rfl rfl)
  have r3 : CReach (fun _ => ()) false s0 s3 :=
    .step r2 (.beginFind s2 false rfl rfl (by intro u; cases u <;> decide))
  have r4 : CReach (fun _ => ()) false s0 s4 := .step r3 (.miss s3 false rfl rfl rfl)
  have r5 : CReach (fun _ => ()) false s0 s5 :=
    .step r4 (.lock s4 true rfl rfl (by intro u; cases u <;> decide) (by intro u; cases u <;> decide))
  have r6 : CReach (fun _ => ()) false s0 s6 := .step r5 (.insertNew s5 true rfl rfl rfl)
  have r7 : CReach (fun _ => ()) false s0 s7 :=
    .step r6 (.lock s6 false rfl rfl (by intro u; cases u <;> decide) (by intro u; cases u <;> decide))
  exact .step r7 (.insertDupDebug s7 false 0 rfl rfl rfl rfl)

end Verif.IOCache
