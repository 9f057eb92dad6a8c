import Verif.Model.Threads
import Verif.Props.Pipeline
import Mathlib.Logic.Function.Basic

/-!
# C85: local problems in several threads
-/

namespace Verif.Manager

variable {V : Type} [AddCommGroup V]

/-! ## Solving -/

/-- What is known about the thread of a cell whose functions are `b, b + 1, …`. -/
def Fact (w : World V) (c : ℕ × List V) (b : ℕ) : SolveTask → Prop
  | .start => w.store c.1 = []
  | .writing m i => m = ⟨c.1, List.range' b c.2.length⟩ ∧ i ≤ c.2.length ∧ w.store c.1 = [] ∧
      ∀ j v, j < i → c.2[j]? = some v → w.mem (b + j) = v
  | .saving m i => m = ⟨c.1, List.range' b c.2.length⟩ ∧ i ≤ c.2.length ∧ w.store c.1 = List.range' b i ∧
      ∀ j v, c.2[j]? = some v → w.mem (b + j) = v
  | .finished => w.store c.1 = List.range' b c.2.length ∧ ∀ j v, c.2[j]? = some v → w.mem (b + j) = v

omit [AddCommGroup V] in
/-- it concerns only the own functions and the own list in the store -/
theorem fact_congr {w w' : World V} {c : ℕ × List V} {b : ℕ} {x : SolveTask} (h : Fact w c b x) (hs : w'.store c.1 = w.store c.1)
    (hm : x = .start ∨ ∀ j, j < c.2.length → w'.mem (b + j) = w.mem (b + j)) : Fact w' c b x := by
  have key : ∀ j v, x ≠ .start → c.2[j]? = some v → w'.mem (b + j) = w.mem (b + j) := by
    intro j v hx hj
    exact (hm.resolve_left hx) j (List.getElem?_eq_some_iff.mp hj).1
  cases x with
  | start => exact hs.trans h
  | writing m i =>
    obtain ⟨h1, h2, h3, h4⟩ := h
    exact ⟨h1, h2, hs.trans h3, fun j v hj hv => (key j v (by simp) hv).trans (h4 j v hj hv)⟩
  | saving m i =>
    obtain ⟨h1, h2, h3, h4⟩ := h
    exact ⟨h1, h2, hs.trans h3, fun j v hv => (key j v (by simp) hv).trans (h4 j v hv)⟩
  | finished => exact ⟨hs.trans h.1, fun j v hv => (key j v (by simp) hv).trans (h.2 j v hv)⟩

/-- Invariant of the solving phase; `base` are the first functions of the threads. -/
structure Inv (cells : List (ℕ × List V)) (base : ℕ → ℕ) (s : SolveState V) : Prop where
  allocated : ∀ t c, cells[t]? = some c → s.task t ≠ .start → base t + c.2.length ≤ s.world.next
  apart : ∀ t t' c c', t ≠ t' → cells[t]? = some c → cells[t']? = some c' → s.task t ≠ .start → s.task t' ≠ .start →
    base t + c.2.length ≤ base t' ∨ base t' + c'.2.length ≤ base t
  facts : ∀ t c, cells[t]? = some c → Fact s.world c (base t) (s.task t)
  others : ∀ k, k ∉ cells.map Prod.fst → s.world.store k = []

omit [AddCommGroup V] in
theorem key_ne {cells : List (ℕ × List V)} (hn : (cells.map Prod.fst).Nodup) {t t' : ℕ} {c c' : ℕ × List V} (ht : cells[t]? = some c)
    (ht' : cells[t']? = some c') (h : t ≠ t') : c.1 ≠ c'.1 := by
  intro he
  have h1 : (cells.map Prod.fst)[t]? = some c.1 := by rw [List.getElem?_map, ht]; rfl
  have h2 : (cells.map Prod.fst)[t']? = some c.1 := by rw [List.getElem?_map, ht', he]; rfl
  exact h ((List.getElem?_inj (List.getElem?_eq_some_iff.mp h1).1 hn).mp (h1.trans h2.symm))

omit [AddCommGroup V] in
/-- A step of thread `t` that neither allocates nor touches functions and lists of others keeps the invariant. -/
theorem inv_set {cells : List (ℕ × List V)} (hn : (cells.map Prod.fst).Nodup) {base : ℕ → ℕ} {s : SolveState V} (h : Inv cells base s)
    {t : ℕ} {c : ℕ × List V} (ht : cells[t]? = some c) (hns : s.task t ≠ .start) (w : World V) (x : SolveTask)
    (hnext : w.next = s.world.next) (hstore : ∀ k, k ≠ c.1 → w.store k = s.world.store k)
    (hmem : ∀ r, (r < base t ∨ base t + c.2.length ≤ r) → w.mem r = s.world.mem r)
    (hfact : Fact w c (base t) x) : Inv cells base (s.set w t x) := by
  have ntask : ∀ t', (s.set w t x).task t' ≠ .start → s.task t' ≠ .start := by
    intro t' h'
    by_cases e : t' = t
    · rw [e]; exact hns
    · simpa [SolveState.set, e] using h'
  refine ⟨fun t' c' ht' h' => ?_, fun t1 t2 c1 c2 hne h1 h2 h1' h2' => ?_, fun t' c' ht' => ?_, fun k hk => ?_⟩
  · exact (h.allocated t' c' ht' (ntask t' h')).trans_eq hnext.symm
  · exact h.apart t1 t2 c1 c2 hne h1 h2 (ntask t1 h1') (ntask t2 h2')
  · by_cases e : t' = t
    · subst e
      rw [ht] at ht'
      cases ht'
      simpa [SolveState.set] using hfact
    · have hf := h.facts t' c' ht'
      have : (s.set w t x).task t' = s.task t' := by simp [SolveState.set, e]
      rw [this]
      refine fact_congr hf (hstore _ (key_ne hn ht' ht e)) ?_
      by_cases hst : s.task t' = .start
      · exact Or.inl hst
      · refine Or.inr fun j hj => hmem _ ?_
        rcases h.apart t' t c' c e ht' ht hst hns with h1 | h1
        · exact Or.inl (by omega)
        · exact Or.inr (by omega)
  · have : k ≠ c.1 := fun e => hk (e ▸ List.mem_map_of_mem (List.mem_of_getElem? ht))
    exact (hstore k this).trans (h.others k hk)

/-- every step keeps the invariant -/
theorem inv_step {cells : List (ℕ × List V)} (hn : (cells.map Prod.fst).Nodup) {base : ℕ → ℕ} {s : SolveState V} (h : Inv cells base s)
    (t : ℕ) : ∃ base', Inv cells base' (solveStep cells s t) := by
  unfold solveStep
  cases ht : cells[t]? with
  | none => exact ⟨base, h⟩
  | some c =>
    have hf := h.facts t c ht
    cases hs : s.task t with
    | start =>
      rw [hs] at hf
      refine ⟨Function.update base t s.world.next, ?_⟩
      dsimp only
      have hb : ∀ t', t' ≠ t → Function.update base t s.world.next t' = base t' := fun t' e => Function.update_of_ne e _ _
      have hst : ∀ t', t' ≠ t → (s.set (newMgr s.world c.1 c.2.length).1 t (.writing (newMgr s.world c.1 c.2.length).2 0)).task t' = s.task t' :=
        fun t' e => by simp [SolveState.set, e]
      refine ⟨fun t' c' ht' h' => ?_, fun t1 t2 c1 c2 hne h1 h2 h1' h2' => ?_, fun t' c' ht' => ?_, fun k hk => h.others k hk⟩
      · by_cases e : t' = t
        · subst e
          rw [ht] at ht'
          cases ht'
          simp [SolveState.set, newMgr]
        · rw [hst t' e] at h'
          have := h.allocated t' c' ht' h'
          rw [hb t' e]
          show _ ≤ s.world.next + c.2.length
          omega
      · by_cases e1 : t1 = t
        · subst e1
          rw [Function.update_self, hb t2 hne.symm]
          rw [hst t2 hne.symm] at h2'
          exact Or.inr (h.allocated t2 c2 h2 h2')
        · by_cases e2 : t2 = t
          · subst e2
            rw [Function.update_self, hb t1 e1]
            rw [hst t1 e1] at h1'
            exact Or.inl (h.allocated t1 c1 h1 h1')
          · rw [hb t1 e1, hb t2 e2]
            rw [hst t1 e1] at h1'
            rw [hst t2 e2] at h2'
            exact h.apart t1 t2 c1 c2 hne h1 h2 h1' h2'
      · by_cases e : t' = t
        · subst e
          rw [ht] at ht'
          cases ht'
          rw [Function.update_self]
          have : (s.set (newMgr s.world c.1 c.2.length).1 t' (.writing (newMgr s.world c.1 c.2.length).2 0)).task t' =
            .writing (newMgr s.world c.1 c.2.length).2 0 := by simp [SolveState.set]
          rw [this]
          exact ⟨rfl, Nat.zero_le _, hf, fun j v hj => absurd hj (Nat.not_lt_zero j)⟩
        · rw [hb t' e, hst t' e]
          refine fact_congr (h.facts t' c' ht') rfl ?_
          by_cases hst' : s.task t' = .start
          · exact Or.inl hst'
          · refine Or.inr fun j hj => newMgr_mem_of_lt c.1 c.2.length _ ?_
            have := h.allocated t' c' ht' hst'
            omega
    | writing m i =>
      rw [hs] at hf
      obtain ⟨h1, h2, h3, h4⟩ := hf
      have hns : s.task t ≠ .start := by rw [hs]; simp
      refine ⟨base, ?_⟩
      dsimp only
      rcases Nat.lt_or_ge i c.2.length with hi | hi
      · have hr : m.slots[i]? = some (base t + i) := by
          rw [h1]
          simp only [List.getElem?_range' hi, Nat.one_mul]
        rw [hr, List.getElem?_eq_getElem hi]
        dsimp only
        refine inv_set hn h ht hns _ _ rfl (fun _ _ => rfl) (fun r hr => ?_) ⟨h1, hi, h3, fun j v hj hv => ?_⟩
        · simp only [World.write]
          rw [if_neg (by omega)]
        · simp only [World.write]
          rcases Nat.lt_or_ge j i with h' | h'
          · rw [if_neg (by omega)]
            exact h4 j v h' hv
          · have : j = i := by omega
            subst this
            rw [if_pos rfl]
            rw [List.getElem?_eq_getElem hi] at hv
            exact Option.some.inj hv
      · have hr : m.slots[i]? = none := by
          rw [h1]
          exact List.getElem?_eq_none (by simpa using hi)
        rw [hr]
        dsimp only
        refine inv_set hn h ht hns _ _ rfl (fun _ _ => rfl) (fun _ _ => rfl)
          ⟨h1, Nat.zero_le _, h3, fun j v hv => h4 j v ?_ hv⟩
        have := (List.getElem?_eq_some_iff.mp hv).1
        omega
    | saving m i =>
      rw [hs] at hf
      obtain ⟨h1, h2, h3, h4⟩ := hf
      have hns : s.task t ≠ .start := by rw [hs]; simp
      have hk : m.key = c.1 := by rw [h1]
      refine ⟨base, ?_⟩
      dsimp only
      rcases Nat.lt_or_ge i c.2.length with hi | hi
      · have hr : m.slots[i]? = some (base t + i) := by
          rw [h1]
          simp only [List.getElem?_range' hi, Nat.one_mul]
        rw [hr]
        dsimp only
        refine inv_set hn h ht hns _ _ rfl (fun k hk' => ?_) (fun _ _ => rfl) ⟨h1, hi, ?_, h4⟩
        · simp only [pushBack]
          rw [if_neg (by rw [hk]; exact hk')]
        · simp only [pushBack]
          rw [if_pos hk.symm, h3, List.range'_concat, Nat.one_mul]
      · have hr : m.slots[i]? = none := by
          rw [h1]
          exact List.getElem?_eq_none (by simpa using hi)
        rw [hr]
        dsimp only
        have : i = c.2.length := by omega
        refine inv_set hn h ht hns _ _ rfl (fun _ _ => rfl) (fun _ _ => rfl) ⟨by rw [h3, this], h4⟩
    | finished => exact ⟨base, h⟩

/-- the invariant after any schedule -/
theorem inv_threads (cells : List (ℕ × List V)) (hn : (cells.map Prod.fst).Nodup) (w : World V) (hw : ∀ k, w.store k = [])
    (schedule : List ℕ) : ∃ base, Inv cells base (solveThreads cells w schedule) := by
  have h0 : ∃ base, Inv cells base (⟨w, fun _ => .start⟩ : SolveState V) :=
    ⟨fun _ => 0, fun _ _ _ h => absurd rfl h, fun _ _ _ _ _ _ _ h => absurd rfl h, fun _ c _ => hw c.1, fun k _ => hw k⟩
  suffices ∀ s : SolveState V, (∃ base, Inv cells base s) → ∃ base, Inv cells base (schedule.foldl (solveStep cells) s) from this _ h0
  induction schedule with
  | nil => exact fun s h => h
  | cons t ts ih =>
    rintro s ⟨base, h⟩
    exact ih _ (inv_step hn h t)

/-- when all threads have finished, the store is well formed and holds the values -/
theorem threads_stored (cells : List (ℕ × List V)) (hn : (cells.map Prod.fst).Nodup) (w : World V) (hw : ∀ k, w.store k = [])
    (schedule : List ℕ) (hdone : ∀ t, t < cells.length → (solveThreads cells w schedule).task t = .finished) :
    WF (solveThreads cells w schedule).world ∧ ∀ c ∈ cells, (solveThreads cells w schedule).world.stored c.1 = c.2 := by
  obtain ⟨base, h⟩ := inv_threads cells hn w hw schedule
  set s := solveThreads cells w schedule
  have hfin : ∀ t c, cells[t]? = some c → Fact s.world c (base t) .finished := by
    intro t c ht
    rw [← hdone t (List.getElem?_eq_some_iff.mp ht).1]
    exact h.facts t c ht
  have hne : ∀ t c, cells[t]? = some c → s.task t ≠ .start := by
    intro t c ht
    rw [hdone t (List.getElem?_eq_some_iff.mp ht).1]
    simp
  have hcell : ∀ k r, r ∈ s.world.store k → ∃ t c, cells[t]? = some c ∧ k = c.1 ∧ base t ≤ r ∧ r < base t + c.2.length := by
    intro k r hr
    by_cases hk : k ∈ cells.map Prod.fst
    · obtain ⟨c, hc, rfl⟩ := List.mem_map.mp hk
      obtain ⟨t, ht⟩ := List.getElem?_of_mem hc
      rw [(hfin t c ht).1, List.mem_range'_1] at hr
      exact ⟨t, c, ht, rfl, hr⟩
    · rw [h.others k hk] at hr
      cases hr
  refine ⟨⟨fun k r hr => ?_, fun k => ?_, fun k k' hkk r hr hr' => ?_⟩, fun c hc => ?_⟩
  · obtain ⟨t, c, ht, -, -, h2⟩ := hcell k r hr
    exact lt_of_lt_of_le h2 (h.allocated t c ht (hne t c ht))
  · by_cases hk : k ∈ cells.map Prod.fst
    · obtain ⟨c, hc, rfl⟩ := List.mem_map.mp hk
      obtain ⟨t, ht⟩ := List.getElem?_of_mem hc
      rw [(hfin t c ht).1]
      exact List.nodup_range'
    · rw [h.others k hk]
      exact List.nodup_nil
  · obtain ⟨t, c, ht, e, h1, h2⟩ := hcell k r hr
    obtain ⟨t', c', ht', e', h1', h2'⟩ := hcell k' r hr'
    have : t ≠ t' := by
      rintro rfl
      rw [ht] at ht'
      cases ht'
      exact hkk (e.trans e'.symm)
    rcases h.apart t t' c c' this ht ht' (hne t c ht) (hne t' c' ht') with h3 | h3 <;> omega
  · obtain ⟨t, ht⟩ := List.getElem?_of_mem hc
    obtain ⟨h1, h2⟩ := hfin t c ht
    rw [World.stored, h1]
    apply List.ext_getElem?
    intro j
    rw [List.getElem?_map]
    rcases Nat.lt_or_ge j c.2.length with hj | hj
    · rw [List.getElem?_range' hj, List.getElem?_eq_getElem hj, Option.map_some, Nat.one_mul,
        h2 j _ (List.getElem?_eq_getElem hj)]
    · rw [List.getElem?_eq_none (by simpa using hj), List.getElem?_eq_none hj]
      rfl

/-- **C85** Whatever the schedule of the threads, when all have finished, any sequence of loads through fresh managers
sees the values that were computed. -/
theorem C85_any_schedule (cells : List (ℕ × List V)) (hn : (cells.map Prod.fst).Nodup) (w : World V) (hw : ∀ k, w.store k = [])
    (schedule : List ℕ) (hdone : ∀ t, t < cells.length → (solveThreads cells w schedule).task t = .finished)
    (ls : List (ℕ × List V)) (hls : ∀ c ∈ ls, c ∈ cells) :
    observe (solveThreads cells w schedule).world (ls.map fun c => (c.1, c.2.length)) = .ok (ls.map Prod.snd) := by
  obtain ⟨h1, h2⟩ := threads_stored cells hn w hw schedule hdone
  exact observe_stored _ h1 _ fun c hc => h2 c (hls c hc)

/-- Steps a thread still has to make. -/
def remaining (n : ℕ) : SolveTask → ℕ
  | .start => 2 * n + 3
  | .writing _ i => 2 * n + 2 - i
  | .saving _ i => n + 1 - i
  | .finished => 0

theorem remaining_step {cells : List (ℕ × List V)} {base : ℕ → ℕ} {s : SolveState V} (h : Inv cells base s) (t u : ℕ) (c : ℕ × List V)
    (ht : cells[t]? = some c) :
    remaining c.2.length ((solveStep cells s u).task t) ≤ remaining c.2.length (s.task t) - if u = t then 1 else 0 := by
  by_cases e : u = t
  · subst e
    rw [if_pos rfl]
    have hf := h.facts u c ht
    unfold solveStep
    rw [ht]
    dsimp only
    cases hs : s.task u with
    | start => simp [SolveState.set, remaining]
    | writing m i =>
      rw [hs] at hf
      obtain ⟨h1, h2, -, -⟩ := hf
      dsimp only
      rcases Nat.lt_or_ge i c.2.length with hi | hi
      · have hr : m.slots[i]? = some (base u + i) := by
          rw [h1]
          simp only [List.getElem?_range' hi, Nat.one_mul]
        rw [hr, List.getElem?_eq_getElem hi]
        simp only [SolveState.set, if_pos, remaining]
        omega
      · have hr : m.slots[i]? = none := by
          rw [h1]
          exact List.getElem?_eq_none (by simpa using hi)
        rw [hr]
        simp only [SolveState.set, if_pos, remaining]
        omega
    | saving m i =>
      rw [hs] at hf
      obtain ⟨h1, h2, -, -⟩ := hf
      dsimp only
      rcases Nat.lt_or_ge i c.2.length with hi | hi
      · have hr : m.slots[i]? = some (base u + i) := by
          rw [h1]
          simp only [List.getElem?_range' hi, Nat.one_mul]
        rw [hr]
        simp only [SolveState.set, if_pos, remaining]
        omega
      · have hr : m.slots[i]? = none := by
          rw [h1]
          exact List.getElem?_eq_none (by simpa using hi)
        rw [hr]
        simp [SolveState.set, remaining]
    | finished => simp [hs, remaining]
  · rw [if_neg e, Nat.sub_zero]
    have : (solveStep cells s u).task t = s.task t := by
      unfold solveStep
      cases cells[u]? with
      | none => rfl
      | some c' =>
        have hne : ¬ t = u := fun h => e h.symm
        dsimp only
        cases s.task u with
        | start => simp [SolveState.set, hne]
        | writing m i =>
          dsimp only
          split <;> simp [SolveState.set, hne]
        | saving m i =>
          dsimp only
          split <;> simp [SolveState.set, hne]
        | finished => rfl
    rw [this]

/-- **C85** (no thread can be held up by another) A thread has finished as soon as it had two turns per solution and three more,
whatever the others did meanwhile. -/
theorem C85_finishes (cells : List (ℕ × List V)) (hn : (cells.map Prod.fst).Nodup) (w : World V) (hw : ∀ k, w.store k = [])
    (schedule : List ℕ) (t : ℕ) (c : ℕ × List V) (ht : cells[t]? = some c) (hturns : 2 * c.2.length + 3 ≤ schedule.count t) :
    (solveThreads cells w schedule).task t = .finished := by
  have h0 : ∃ base, Inv cells base (⟨w, fun _ => .start⟩ : SolveState V) :=
    ⟨fun _ => 0, fun _ _ _ h => absurd rfl h, fun _ _ _ _ _ _ _ h => absurd rfl h, fun _ c _ => hw c.1, fun k _ => hw k⟩
  have key : ∀ (l : List ℕ) (s : SolveState V), (∃ base, Inv cells base s) →
      remaining c.2.length ((l.foldl (solveStep cells) s).task t) ≤ remaining c.2.length (s.task t) - l.count t := by
    intro l
    induction l with
    | nil => exact fun s _ => le_rfl
    | cons u us ih =>
      rintro s ⟨base, h⟩
      have h1 := ih _ (inv_step hn h u)
      have h2 := remaining_step h t u c ht
      rw [List.foldl_cons, List.count_cons]
      by_cases e : u = t
      · rw [if_pos e] at h2
        simp only [e, beq_self_eq_true, if_true] at h1 h2 ⊢
        omega
      · rw [if_neg e] at h2
        simp only [beq_iff_eq, e, if_false] at h1 h2 ⊢
        omega
  have := key schedule _ h0
  have hz : remaining c.2.length ((solveThreads cells w schedule).task t) = 0 := by
    have h2 : remaining c.2.length ((⟨w, fun _ => .start⟩ : SolveState V).task t) = 2 * c.2.length + 3 := rfl
    have h3 : (solveThreads cells w schedule).task t = ((schedule.foldl (solveStep cells) ⟨w, fun _ => .start⟩).task t) := rfl
    rw [h3]
    omega
  obtain ⟨base, h⟩ := inv_threads cells hn w hw schedule
  have hf := h.facts t c ht
  cases hs : (solveThreads cells w schedule).task t with
  | start => rw [hs] at hz; simp [remaining] at hz
  | writing m i =>
    rw [hs] at hz hf
    have := hf.2.1
    simp only [remaining] at hz
    omega
  | saving m i =>
    rw [hs] at hz hf
    have := hf.2.1
    simp only [remaining] at hz
    omega
  | finished => rfl

/-! ## Loading -/

/-- What is known about a thread that loads from the store of `w₀`. -/
def LoadFact (w₀ : World V) (c : ℕ × ℕ) : LoadTask → Prop
  | .start => True
  | .clearing m i => m.key = c.1 ∧ i ≤ c.2 ∧ ∃ rest, m.slots = (w₀.store c.1).take i ++ rest ∧ i ≤ (w₀.store c.1).length ∧
      rest.length = c.2 - i ∧ ∀ r ∈ rest, w₀.next ≤ r
  | .reading m i => m.key = c.1 ∧ i < c.2 ∧ ∃ rest, m.slots = (w₀.store c.1).take i ++ rest ∧ i ≤ (w₀.store c.1).length ∧
      rest.length = c.2 - i ∧ ∀ r ∈ rest, w₀.next ≤ r
  | .loaded m => m.slots = (w₀.store c.1).take c.2 ∧ c.2 ≤ (w₀.store c.1).length
  | .threw => (w₀.store c.1).length < c.2
  | .undefined => False

/-- Invariant of the loading phase. -/
structure LoadInv (w₀ : World V) (loads : List (ℕ × ℕ)) (s : LoadState V) : Prop where
  store : s.world.store = w₀.store
  mem : ∀ r, r < w₀.next → s.world.mem r = w₀.mem r
  next : w₀.next ≤ s.world.next
  facts : ∀ t c, loads[t]? = some c → LoadFact w₀ c (s.task t)

omit [AddCommGroup V] in
theorem loadInv_set {w₀ : World V} {loads : List (ℕ × ℕ)} {s : LoadState V} (h : LoadInv w₀ loads s) {t : ℕ} {c : ℕ × ℕ}
    (ht : loads[t]? = some c) (w : World V) (x : LoadTask) (hs : w.store = s.world.store)
    (hm : ∀ r, r < w₀.next → w.mem r = s.world.mem r) (hx : s.world.next ≤ w.next) (hf : LoadFact w₀ c x) :
    LoadInv w₀ loads (s.set w t x) := by
  refine ⟨hs.trans h.store, fun r hr => (hm r hr).trans (h.mem r hr), h.next.trans hx, fun t' c' ht' => ?_⟩
  by_cases e : t' = t
  · subst e
    rw [ht] at ht'
    cases ht'
    simpa [LoadState.set] using hf
  · have : (s.set w t x).task t' = s.task t' := by simp [LoadState.set, e]
    rw [this]
    exact h.facts t' c' ht'

theorem loadInv_step {w₀ : World V} {loads : List (ℕ × ℕ)} {s : LoadState V} (h : LoadInv w₀ loads s) (t : ℕ) :
    LoadInv w₀ loads (loadStep loads s t) := by
  unfold loadStep
  cases ht : loads[t]? with
  | none => exact h
  | some c =>
    have hf := h.facts t c ht
    dsimp only
    cases hs : s.task t with
    | start =>
      refine loadInv_set h ht _ _ rfl (fun r hr => newMgr_mem_of_lt c.1 c.2 r (lt_of_lt_of_le hr h.next)) (by simp [newMgr])
        ⟨rfl, Nat.zero_le _, List.range' s.world.next c.2, by simp [newMgr], Nat.zero_le _, by simp, fun r hr => ?_⟩
      rw [List.mem_range'_1] at hr
      exact h.next.trans hr.1
    | clearing m i =>
      rw [hs] at hf
      obtain ⟨h1, h2, rest, h3, h4, h5, h6⟩ := hf
      dsimp only
      by_cases hi : i < c.2
      · rw [if_pos hi]
        have hl : ((w₀.store c.1).take i).length = i := by rw [List.length_take]; omega
        have hr : m.slots[i]? = rest[0]? := by
          rw [h3, List.getElem?_append_right hl.le, hl, Nat.sub_self]
        have h0 : 0 < rest.length := by omega
        rw [hr, List.getElem?_eq_getElem h0]
        refine loadInv_set h ht _ _ rfl (fun r hr => ?_) le_rfl ⟨h1, hi, rest, h3, h4, h5, h6⟩
        have := h6 rest[0] (List.getElem_mem h0)
        simp only [World.write]
        rw [if_neg (by omega)]
      · rw [if_neg hi]
        have e : i = c.2 := by omega
        refine loadInv_set h ht _ _ rfl (fun _ _ => rfl) le_rfl ⟨?_, by omega⟩
        have : rest = [] := List.length_eq_zero_iff.mp (by omega)
        rw [h3, this, List.append_nil, e]
    | reading m i =>
      rw [hs] at hf
      obtain ⟨h1, h2, rest, h3, h4, h5, h6⟩ := hf
      dsimp only
      rw [h.store, h1]
      rcases Nat.lt_or_ge i (w₀.store c.1).length with hi | hi
      · rw [List.getElem?_eq_getElem hi]
        refine loadInv_set h ht _ _ rfl (fun _ _ => rfl) le_rfl ⟨rfl, h2, rest.tail, ?_, hi, by simp; omega, fun r hr =>
          h6 r (List.mem_of_mem_tail hr)⟩
        have hl : ((w₀.store c.1).take i).length = i := by rw [List.length_take]; omega
        cases rest with
        | nil => simp at h5; omega
        | cons a rest =>
          simp only [h3, List.tail_cons]
          rw [List.set_append_right _ _ hl.le, hl, Nat.sub_self, List.set_cons_zero, List.take_succ_eq_append_getElem hi,
            List.append_assoc]
          rfl
      · rw [List.getElem?_eq_none hi]
        exact loadInv_set h ht _ _ rfl (fun _ _ => rfl) le_rfl (show _ < _ by omega)
    | loaded m => exact h
    | threw => exact h
    | undefined => exact h

theorem loadInv_threads (w : World V) (loads : List (ℕ × ℕ)) (schedule : List ℕ) : LoadInv w loads (loadThreads loads w schedule) := by
  have h0 : LoadInv w loads (⟨w, fun _ => .start⟩ : LoadState V) := ⟨rfl, fun _ _ => rfl, le_rfl, fun _ _ _ => trivial⟩
  suffices ∀ s : LoadState V, LoadInv w loads s → LoadInv w loads (schedule.foldl (loadStep loads) s) from this _ h0
  induction schedule with
  | nil => exact fun s h => h
  | cons t ts ih => exact fun s h => ih _ (loadInv_step h t)

/-- **C85** (loads) Threads may load at the same time, also the same cell: after any schedules of the two phases a thread that
has loaded sees the values that were computed, none throws, and what is stored is as before. -/
theorem C85_loads (cells : List (ℕ × List V)) (hn : (cells.map Prod.fst).Nodup) (w : World V) (hw : ∀ k, w.store k = [])
    (schedule : List ℕ) (hdone : ∀ t, t < cells.length → (solveThreads cells w schedule).task t = .finished)
    (loads : List (ℕ × List V)) (hls : ∀ c ∈ loads, c ∈ cells) (schedule' : List ℕ) :
    let s := loadThreads (loads.map fun c => (c.1, c.2.length)) (solveThreads cells w schedule).world schedule'
    (∀ t c, loads[t]? = some c → s.task t ≠ .threw ∧ s.task t ≠ .undefined ∧ ∀ m, s.task t = .loaded m → view s.world m = c.2) ∧
    ∀ ls : List (ℕ × List V), (∀ c ∈ ls, c ∈ cells) → observe s.world (ls.map fun c => (c.1, c.2.length)) = .ok (ls.map Prod.snd) := by
  intro s
  obtain ⟨h1, h2⟩ := threads_stored cells hn w hw schedule hdone
  have h : LoadInv (solveThreads cells w schedule).world (loads.map fun c => (c.1, c.2.length)) s := loadInv_threads _ _ _
  have hst : ∀ k, s.world.stored k = (solveThreads cells w schedule).world.stored k := by
    intro k
    rw [World.stored, World.stored, h.store]
    exact List.map_congr_left fun r hr => h.mem r (h1.lt k r hr)
  constructor
  · intro t c ht
    have hc : (loads.map fun c => (c.1, c.2.length))[t]? = some (c.1, c.2.length) := by rw [List.getElem?_map, ht]; rfl
    have hf := h.facts t _ hc
    have hv := h2 c (hls c (List.mem_of_getElem? ht))
    have hl : ((solveThreads cells w schedule).world.store c.1).length = c.2.length := by rw [← stored_length, hv]
    refine ⟨fun e => ?_, fun e => ?_, fun m e => ?_⟩
    · rw [e] at hf
      simp only [LoadFact] at hf
      omega
    · rw [e] at hf
      exact hf
    · rw [e] at hf
      rw [view, hf.1]
      dsimp only
      rw [List.take_of_length_le hl.le]
      have := hst c.1
      rw [World.stored, h.store, hv] at this
      exact this
  · intro ls hls'
    refine observe_stored _ ⟨fun k r hr => ?_, fun k => ?_, fun k k' hk r hr => ?_⟩ _ fun c hc => (hst c.1).trans (h2 c (hls' c hc))
    · rw [h.store] at hr
      exact lt_of_lt_of_le (h1.lt k r hr) h.next
    · rw [h.store]
      exact h1.nodup k
    · rw [h.store] at hr ⊢
      exact h1.disj k k' hk r hr

/-- Steps a thread that loads still has to make. -/
def loadRemaining (n : ℕ) : LoadTask → ℕ
  | .start => 2 * n + 2
  | .clearing _ i => 2 * (n - i) + 1
  | .reading _ i => 2 * (n - i)
  | _ => 0

theorem loadRemaining_step {w₀ : World V} {loads : List (ℕ × ℕ)} {s : LoadState V} (h : LoadInv w₀ loads s) (t u : ℕ) (c : ℕ × ℕ)
    (ht : loads[t]? = some c) :
    loadRemaining c.2 ((loadStep loads s u).task t) ≤ loadRemaining c.2 (s.task t) - if u = t then 1 else 0 := by
  by_cases e : u = t
  · subst e
    rw [if_pos rfl]
    have hf := h.facts u c ht
    unfold loadStep
    rw [ht]
    dsimp only
    cases hs : s.task u with
    | start => simp [LoadState.set, loadRemaining]
    | clearing m i =>
      dsimp only
      by_cases hi : i < c.2
      · rw [if_pos hi]
        split
        · simp only [LoadState.set, if_pos, loadRemaining]
          omega
        · simp [LoadState.set, loadRemaining]
      · rw [if_neg hi]
        simp [LoadState.set, loadRemaining]
    | reading m i =>
      rw [hs] at hf
      have hi : i < c.2 := hf.2.1
      dsimp only
      split
      · simp only [LoadState.set, if_pos, loadRemaining]
        omega
      · simp [LoadState.set, loadRemaining]
    | loaded m => simp [hs, loadRemaining]
    | threw => simp [hs, loadRemaining]
    | undefined => simp [hs, loadRemaining]
  · rw [if_neg e, Nat.sub_zero]
    have : (loadStep loads s u).task t = s.task t := by
      have hne : ¬ t = u := fun h => e h.symm
      unfold loadStep
      split
      · rfl
      · split
        · simp [LoadState.set, hne]
        · split_ifs
          · split <;> simp [LoadState.set, hne]
          · simp [LoadState.set, hne]
        · split <;> simp [LoadState.set, hne]
        · rfl
    rw [this]

/-- after two turns per solution and two more a thread has loaded or thrown -/
theorem loads_finish (w : World V) (loads : List (ℕ × ℕ)) (schedule : List ℕ) (t : ℕ) (c : ℕ × ℕ) (ht : loads[t]? = some c)
    (hturns : 2 * c.2 + 2 ≤ schedule.count t) :
    (loadThreads loads w schedule).task t = .threw ∨ ∃ m, (loadThreads loads w schedule).task t = .loaded m := by
  have h0 : LoadInv w loads (⟨w, fun _ => .start⟩ : LoadState V) := ⟨rfl, fun _ _ => rfl, le_rfl, fun _ _ _ => trivial⟩
  have key : ∀ (l : List ℕ) (s : LoadState V), LoadInv w loads s →
      loadRemaining c.2 ((l.foldl (loadStep loads) s).task t) ≤ loadRemaining c.2 (s.task t) - l.count t := by
    intro l
    induction l with
    | nil => exact fun s _ => le_rfl
    | cons u us ih =>
      intro s h
      have h1 := ih _ (loadInv_step h u)
      have h2 := loadRemaining_step h t u c ht
      rw [List.foldl_cons, List.count_cons]
      by_cases e : u = t
      · rw [if_pos e] at h2
        simp only [e, beq_self_eq_true, if_true] at h1 h2 ⊢
        omega
      · rw [if_neg e] at h2
        simp only [beq_iff_eq, e, if_false] at h1 h2 ⊢
        omega
  have hz : loadRemaining c.2 ((loadThreads loads w schedule).task t) = 0 := by
    have h1 := key schedule _ h0
    have h2 : loadRemaining c.2 ((⟨w, fun _ => .start⟩ : LoadState V).task t) = 2 * c.2 + 2 := rfl
    have h3 : (loadThreads loads w schedule).task t = ((schedule.foldl (loadStep loads) ⟨w, fun _ => .start⟩).task t) := rfl
    rw [h3]
    omega
  have hf := (loadInv_threads w loads schedule).facts t c ht
  cases hs : (loadThreads loads w schedule).task t with
  | start => rw [hs] at hz; simp [loadRemaining] at hz
  | clearing m i => rw [hs] at hz; simp [loadRemaining] at hz
  | reading m i =>
    rw [hs] at hz hf
    have := hf.2.1
    simp only [loadRemaining] at hz
    omega
  | loaded m => exact Or.inr ⟨m, rfl⟩
  | threw => exact Or.inl rfl
  | undefined => rw [hs] at hf; exact hf.elim

/-- **C85** (missing solutions) If fewer solutions are stored than a thread expects, it throws under every schedule in which it has enough
turns, whatever other threads load meanwhile; if enough are stored, it never throws.  A thread without a turn has no result. -/
theorem C85_missing (w : World V) (loads : List (ℕ × ℕ)) (schedule : List ℕ) (t : ℕ) (c : ℕ × ℕ) (ht : loads[t]? = some c) :
    (2 * c.2 + 2 ≤ schedule.count t → ((loadThreads loads w schedule).result t = .throw ↔ (w.store c.1).length < c.2)) ∧
      (schedule.count t = 0 → (loadThreads loads w schedule).result t = .ub) := by
  have hf := (loadInv_threads w loads schedule).facts t c ht
  refine ⟨fun hturns => ?_, fun h0 => ?_⟩
  · obtain h | ⟨m, h⟩ := loads_finish w loads schedule t c ht hturns
    · rw [h] at hf
      rw [LoadState.result, h]
      exact ⟨fun _ => hf, fun _ => rfl⟩
    · rw [h] at hf
      rw [LoadState.result, h]
      refine ⟨fun e => (by cases e), fun hlt => ?_⟩
      have := hf.2
      omega
  · have key : ∀ (l : List ℕ) (s : LoadState V), l.count t = 0 → (l.foldl (loadStep loads) s).task t = s.task t := by
      intro l
      induction l with
      | nil => exact fun _ _ => rfl
      | cons u us ih =>
        intro s hl
        rw [List.count_cons] at hl
        have hne : ¬ t = u := by
          rintro rfl
          simp at hl
        rw [List.foldl_cons, ih _ (by omega)]
        unfold loadStep
        split
        · rfl
        · split
          · simp [LoadState.set, hne]
          · split_ifs
            · split <;> simp [LoadState.set, hne]
            · simp [LoadState.set, hne]
          · split <;> simp [LoadState.set, hne]
          · rfl
    have : (loadThreads loads w schedule).task t = .start := key schedule _ h0
    rw [LoadState.result, this]

/-- Instance: one solution stored, two threads expect two and one of them. -/
example : let w : World ℤ := (solveThreads [(7, [1])] World.init [0, 0, 0, 0, 0]).world
    (loadThreads [(7, 2), (7, 1)] w [0, 1, 0, 1, 0, 1, 0, 1, 0, 0]).result 0 = .throw ∧
    (loadThreads [(7, 2), (7, 1)] w [0, 1, 0, 1, 0, 1, 0, 1, 0, 0]).result 1 = .ok [1] := ⟨rfl, rfl⟩

/-- Instance: two cells, their threads take turns, then both load cell 7. -/
example : ∃ m m', let s := loadThreads [(7, 2), (7, 2)] (solveThreads [(7, [1, 2]), (3, [5])] (World.init : World ℤ)
      [0, 1, 0, 1, 0, 1, 0, 1, 0, 1, 0, 0]).world [0, 1, 1, 0, 0, 1, 0, 1, 0, 1, 1, 0]
    s.task 0 = .loaded m ∧ s.task 1 = .loaded m' ∧ view s.world m = [1, 2] ∧ view s.world m' = [1, 2] :=
  ⟨_, _, rfl, rfl, by decide, by decide⟩

/-- The numbers of the cells have to be different: if two cells had the same key, loading could see the solutions of both, in
an order that depends on the schedule. -/
theorem C85_needs_distinct_keys :
    observe (solveThreads [(7, [(1 : ℤ)]), (7, [2])] World.init [0, 0, 0, 0, 0, 1, 1, 1, 1, 1]).world [(7, 1)] = .ok [[1]] ∧
    observe (solveThreads [(7, [(1 : ℤ)]), (7, [2])] World.init [1, 1, 1, 1, 1, 0, 0, 0, 0, 0]).world [(7, 1)] = .ok [[2]] :=
  ⟨rfl, rfl⟩

end Verif.Manager

namespace Verif.Pipeline
open Verif.Q1Grid Verif.LocalAssembly

variable {d : ℕ} {R : Type} [Field R] [LinearOrder R] [IsStrictOrderedRing R]

/-- **C85** (whole runs) The result of a run does not depend on the schedules of the threads: it is that of the run in one thread,
whether the run succeeds or not.  A schedule is complete if every thread has enough turns. -/
theorem C85_same_run (S : Setup d R) (hS : S.Admissible) (hnd : S.order.Nodup) (B : Boundary S) (P : Data d R) (m : Machine S)
    (hm : Works S B P m) (schedule loadSchedule : List ℕ)
    (hsolve : ∀ t, t < S.order.length → 2 * (2 ^ d + 2) + 3 ≤ schedule.count t)
    (hload : ∀ t, t < 2 * S.order.length → 2 * (2 ^ d + 2) + 2 ≤ loadSchedule.count t) :
    applyThreads S B P m schedule loadSchedule = apply S B P m := by
  cases hl : localSolutions S B P m with
  | throw => unfold applyThreads apply; rw [hl]; rfl
  | ub => unfold applyThreads apply; rw [hl]; rfl
  | ok cells =>
  have hxs : ∀ J, ∃ xs, (localCell S B P J).solve m.valid (m.solvers J) true m.walks P.flux (localExtension S B P J) = .ok xs := by
    intro J
    obtain ⟨y, hy⟩ := mapM_mem _ _ _ hl J (hS.order_complete J)
    cases hs : (localCell S B P J).solve m.valid (m.solvers J) true m.walks P.flux (localExtension S B P J) with
    | throw => rw [hs] at hy; cases hy
    | ub => rw [hs] at hy; cases hy
    | ok xs => exact ⟨xs, rfl⟩
  choose xs hxs using hxs
  choose Q qN qD hcl hcorr using fun J => correctors_of_solve S hS B P m hm J (xs J) (hxs J)
  rw [apply_eq S hS hnd B P m hm.index_injective Q qN qD fun J => by rw [hxs J, hcl J]]
  have hl' : localSolutions S B P m = .ok (S.order.map fun J => (m.index J, xs J)) :=
    mapM_ok _ _ _ fun J _ => by rw [hxs J]; rfl
  have hlen : ∀ J, (xs J).length = 2 ^ d + 2 := fun J => by simp [hcl J, Manager.corrList]
  unfold applyThreads
  rw [hl', Outcome.ok_bind]
  set cs := S.order.map fun J => (m.index J, xs J) with hcs
  have hkeys : (cs.map Prod.fst).Nodup := by
    rw [hcs, List.map_map]
    exact hnd.map hm.index_injective
  have hdone : ∀ t, t < cs.length → (Manager.solveThreads cs .init schedule).task t = .finished := by
    intro t ht
    have ht' : t < S.order.length := by simpa [hcs] using ht
    refine Manager.C85_finishes cs hkeys _ (fun _ => rfl) schedule t cs[t] (List.getElem?_eq_getElem ht) ?_
    have : cs[t].2.length = 2 ^ d + 2 := by simp [hcs, hlen]
    rw [this]
    exact hsolve t ht'
  set ls : List (ℕ × List (Node S.micro → R)) := S.order.flatMap fun J => [(m.index J, xs J), (m.index J, xs J)] with hls
  have hmem : ∀ c ∈ ls, c ∈ cs := by
    intro c hc
    obtain ⟨J, hJ, h⟩ := List.mem_flatMap.mp hc
    have : c = (m.index J, xs J) := by simpa using h
    exact List.mem_map.mpr ⟨J, hJ, this.symm⟩
  have hloads : (ls.map fun c => (c.1, c.2.length)) = S.order.flatMap fun J => [(m.index J, 2 ^ d + 2), (m.index J, 2 ^ d + 2)] := by
    rw [hls, List.map_flatMap]
    simp [hlen]
  obtain ⟨hwf, hstored⟩ := Manager.threads_stored cs hkeys _ (fun _ => rfl) schedule hdone
  obtain ⟨h1, -⟩ := Manager.C85_loads cs hkeys .init (fun _ => rfl) schedule hdone ls hmem loadSchedule
  have hinv := Manager.loadInv_threads (Manager.solveThreads cs .init schedule).world (ls.map fun c => (c.1, c.2.length)) loadSchedule
  dsimp only
  rw [← hloads]
  set s := Manager.loadThreads (ls.map fun c => (c.1, c.2.length)) (Manager.solveThreads cs .init schedule).world loadSchedule with hs
  have hlslen : ls.length = 2 * S.order.length := by simp [hls, mul_comm]
  have hres : (List.range (ls.map fun c => (c.1, c.2.length)).length).mapM s.result = .ok (ls.map Prod.snd) := by
    have : ls.map Prod.snd = (List.range (ls.map fun c => (c.1, c.2.length)).length).map fun t => (ls.map Prod.snd).getD t [] := by
      apply List.ext_getElem
      · simp
      · intro i hi hi'
        have hi2 : i < ls.length := by simpa using hi
        simp [hi2]
    rw [this]
    refine mapM_ok _ _ _ fun t ht => ?_
    rw [List.mem_range, List.length_map] at ht
    have htc : ls[t]? = some ls[t] := List.getElem?_eq_getElem ht
    obtain ⟨g1, g2, g3⟩ := h1 t _ htc
    have hlc : (ls.map fun c => (c.1, c.2.length))[t]? = some (ls[t].1, ls[t].2.length) := by rw [List.getElem?_map, htc]; rfl
    have hl2 : ls[t].2.length = 2 ^ d + 2 := by
      obtain ⟨J, -, e⟩ := List.mem_map.mp (hmem _ (List.getElem_mem ht))
      rw [← e]
      exact hlen J
    obtain h | ⟨mg, hmg⟩ := Manager.loads_finish (Manager.solveThreads cs .init schedule).world (ls.map fun c => (c.1, c.2.length)) loadSchedule t _ hlc (by
      show 2 * ls[t].2.length + 2 ≤ _
      rw [hl2]
      exact hload t (by omega))
    · exact absurd h g1
    · have hmg' : s.task t = .loaded mg := hmg
      rw [Manager.LoadState.result, hmg']
      dsimp only
      rw [g3 mg hmg']
      simp [ht]
  rw [hres, Outcome.ok_bind]
  have hsnd : ls.map Prod.snd = (S.order.flatMap fun J => [(J, Manager.corrList (Q J) (qN J) (qD J)),
      (J, Manager.corrList (Q J) (qN J) (qD J))]).map Prod.snd := by
    rw [hls, List.map_flatMap, List.map_flatMap]
    simp [hcl]
  rw [hsnd]
  refine rest_eq S hS hnd B P m hm.index_injective Q qN qD s.world ?_ fun J => ?_
  · refine ⟨fun k r hr => ?_, fun k => ?_, fun k k' hk r hr => ?_⟩
    · rw [hinv.store] at hr
      exact lt_of_lt_of_le (hwf.lt k r hr) hinv.next
    · rw [hinv.store]
      exact hwf.nodup k
    · rw [hinv.store] at hr ⊢
      exact hwf.disj k k' hk r hr
  · have h2 : (Manager.solveThreads cs .init schedule).world.stored (m.index J) = xs J :=
      hstored (m.index J, xs J) (List.mem_map.mpr ⟨J, hS.order_complete J, rfl⟩)
    rw [← hcl J, ← h2, Manager.World.stored, Manager.World.stored, hinv.store]
    exact List.map_congr_left fun r hr => hinv.mem r (hwf.lt _ r hr)

omit [LinearOrder R] [IsStrictOrderedRing R] [Field R] in
theorem round_robin_count (n turns t : ℕ) (ht : t < n) : ((List.replicate turns (List.range n)).flatten).count t = turns := by
  induction turns with
  | zero => rfl
  | succ k ih =>
    rw [List.replicate_succ, List.flatten_cons, List.count_append, ih, List.count_eq_one_of_mem List.nodup_range (List.mem_range.mpr ht)]
    omega

/-- Instance: on every structured grid of the unit square there is a run that succeeds, and it gives the same result with threads that take
turns. -/
example (N m : ℕ) (hN : 0 < N) (hm : 0 < m) (f g : (Fin 2 → ℚ) → ℚ) : ∃ (B : Boundary (demoSetup 2 N m)) (mach : Machine (demoSetup 2 N m)),
    let P : Data 2 ℚ := ⟨fun _ => 1, fun _ v => v, f, fun _ => 0, g⟩
    ∃ u res, apply _ B P mach = .ok (u, res) ∧ applyThreads _ B P mach
      (List.replicate 15 (List.range (demoSetup 2 N m).order.length)).flatten
      (List.replicate 14 (List.range (2 * (demoSetup 2 N m).order.length))).flatten = .ok (u, res) := by
  have hu : Unique (demoSetup 2 N m) ⟨fun g => decide ((g 0).1 = 0), fun g => decide (∃ i, (g i).1 = 0 ∨ (g i).1 = m), [], fun _ => []⟩
      ⟨fun _ => 1, fun _ v => v, f, fun _ => 0, g⟩ :=
    ⟨demo_admissible 2 N m hN hm, Finset.nodup_toList _, demo_resolving 2 N m, demo_resolving 2 N m, demo_definite 2,
      fun _ h => decide_eq_true ⟨0, h 0⟩, ⟨fun _ => 0, rfl⟩⟩
  obtain ⟨mach, hw, u, res, h⟩ := C82_run_exists _ _ _ hu fun x v => (Matrix.one_mulVec v).symm
  refine ⟨_, mach, u, res, h, ?_⟩
  rw [C85_same_run _ (demo_admissible 2 N m hN hm) (Finset.nodup_toList _) _ _ mach hw _ _ (fun t ht => ?_) fun t ht => ?_]
  · exact h
  · rw [round_robin_count _ _ _ ht]
    norm_num
  · rw [round_robin_count _ _ _ ht]
    norm_num

end Verif.Pipeline
