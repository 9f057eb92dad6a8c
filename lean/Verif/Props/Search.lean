import Verif.Lemmas.Search
import Mathlib.Data.List.Forall2

/-!
# C08, C09, C10, C57: the point search
-/

namespace Verif.Search
variable {P E : Type}

/-- States reachable by searches that all returned normally. -/
inductive Reachable (env : Env P E) : State → Prop
  | init : Reachable env .init
  | call {s s' : State} {points : List P} {ents : List (Option E)} :
      Reachable env s → call env s points = .ok ents s' → Reachable env s'

/-- The saved iterator is not created yet or points to a cell. -/
def ItValid (env : Env P E) (s : State) : Prop := s.it.getD 0 < env.n

theorem call_nil (env : Env P E) (s : State) :
    call env s [] = .ok [] ⟨some (s.it.getD 0), s.current⟩ := by
  unfold call
  rw [loop_done]
  · rfl
  · rfl

theorem reachable_itValid {env : Env P E} (hn : 0 < env.n) {s : State} (h : Reachable env s) :
    ItValid env s := by
  induction h with
  | init => exact hn
  | @call s s' points ents _ hcall ih =>
    cases points with
    | nil =>
      rw [call_nil] at hcall
      injection hcall with _ h2
      rw [← h2]; exact ih
    | cons p ps =>
      obtain ⟨-, -, -, i, hi, hin⟩ := loop_ok _ hcall (by rw [nullCount_replicate]; simp)
      unfold ItValid
      rw [hi]; exact hin

/-! ## C08 -/

/-- The local element search answers for every point of a covered cell, with an
element of the cell's grid that contains the point (external assumption, cf. C01:
the local grid encloses the coarse cell). -/
def LocalSearchComplete (env : Env P E) (contains : ℕ → E → P → Prop) (points : List P) : Prop :=
  ∀ c < env.n, env.covers c points = true →
    ∃ es : List E, env.search c points = es.map some ∧ List.Forall₂ (contains c) es points

/-- **C08** (no assumption on the local search) A search for at least one point
that returns normally returns as many entities as points, none of them null, and the
reported current coarse cell is a cell of the grid that contains all points. -/
theorem C08_search_result (env : Env P E) (s s' : State) (points : List P) (ents : List (Option E))
    (hne : points ≠ []) (h : call env s points = .ok ents s') :
    ents.length = points.length ∧ (∀ e ∈ ents, e ≠ none) ∧
    ∃ c, s'.current = some c ∧ c < env.n ∧ env.covers c points = true := by
  obtain ⟨h0, hl, hc, -⟩ := loop_ok _ h
    (by rw [nullCount_replicate]; simpa using hne)
  refine ⟨by simpa using hl, ?_, hc⟩
  intro e he hnone
  subst hnone
  unfold nullCount at h0
  rw [List.countP_eq_zero] at h0
  exact h0 none he rfl

/-- Loop invariant with a complete local search: the result vector is untouched
until a covering cell is met, and then holds that cell's answer. -/
theorem loop_ok_complete {env : Env P E} {contains : ℕ → E → P → Prop} {points : List P}
    (hcomp : LocalSearchComplete env contains points) (hne : points ≠ []) (fuel : ℕ)
    {steps it : ℕ} {cur : Option ℕ} {ents : List (Option E)} {s : State}
    (h : loop env points fuel steps it cur (List.replicate points.length none) = .ok ents s) :
    ∃ c es, s.current = some c ∧ c < env.n ∧ env.covers c points = true ∧
      ents = es.map some ∧ List.Forall₂ (contains c) es points := by
  have hnc : nullCount (List.replicate points.length (none : Option E)) ≠ 0 := by
    rw [nullCount_replicate]; simpa using hne
  induction fuel generalizing steps it cur with
  | zero => rw [loop_eq, if_neg hnc] at h; cases h
  | succ fuel ih =>
    by_cases hit : it < env.n
    swap
    · rw [loop_step_ub hnc (Or.inl hit)] at h; cases h
    by_cases hc : env.covers it points = true
    · obtain ⟨es, hs, hf⟩ := hcomp it hit hc
      have hv := visit_complete hc hs hf.length_eq
      rw [loop_step hnc hit hv] at h
      have h0 := nullCount_map_some es
      split_ifs at h
      · rw [loop_done _ _ _ _ _ _ _ h0] at h
        injection h with h1 h2
        exact ⟨it, es, by rw [← h2], hit, hc, h1.symm, hf⟩
      · rw [loop_done _ _ _ _ _ _ _ h0] at h
        injection h with h1 h2
        exact ⟨it, es, by rw [← h2], hit, hc, h1.symm, hf⟩
    · have hv := visit_not_covers (ret := List.replicate points.length (none : Option E))
        (show env.covers it points = false by simpa using hc)
      rw [loop_step hnc hit hv] at h
      split_ifs at h
      · exact ih h
      · exact ih h

/-- **C08** With a complete local search, the `i`-th returned element belongs to
the local grid of the reported coarse cell and contains the `i`-th point. -/
theorem C08_search_elements (env : Env P E) (contains : ℕ → E → P → Prop) (s s' : State)
    (points : List P) (ents : List (Option E)) (hne : points ≠ [])
    (hcomp : LocalSearchComplete env contains points) (h : call env s points = .ok ents s') :
    ∃ c es, s'.current = some c ∧ c < env.n ∧ env.covers c points = true ∧
      ents = es.map some ∧ List.Forall₂ (contains c) es points :=
  loop_ok_complete hcomp hne _ h

/-! ## C09 -/

/-- **C09** (termination) From every state reachable by successful searches the model's fuel,
`viewSize * n + 1` visits, is never exhausted. -/
theorem C09_terminates (env : Env P E) (hn : 0 < env.n) (hv : env.n ≤ env.viewSize) (s : State)
    (hs : Reachable env s) (points : List P) : call env s points ≠ .outOfFuel := by
  apply loop_fuel
  · omega
  · exact reachable_itValid hn hs
  · simp only [Nat.sub_zero]; omega

theorem loop_finds {env : Env P E} {contains : ℕ → E → P → Prop} {points : List P}
    (hcomp : LocalSearchComplete env contains points) (hne : points ≠ []) (fuel : ℕ)
    {steps it c : ℕ} {cur : Option ℕ} (hit : it ≤ c) (hc : c < env.n)
    (hcov : env.covers c points = true) (hroom : c + 1 < env.n ∨ steps + 1 < env.viewSize)
    (hf : env.n ≤ fuel + it) :
    ∃ ents s, loop env points fuel steps it cur (List.replicate points.length none) = .ok ents s := by
  have hnc : nullCount (List.replicate points.length (none : Option E)) ≠ 0 := by
    rw [nullCount_replicate]; simpa using hne
  induction fuel generalizing it cur with
  | zero => omega
  | succ fuel ih =>
    have hitn : it < env.n := by omega
    by_cases hcv : env.covers it points = true
    · obtain ⟨es, hs, hfa⟩ := hcomp it hitn hcv
      have hv := visit_complete hcv hs hfa.length_eq
      rw [loop_step hnc hitn hv]
      have h0 := nullCount_map_some es
      split_ifs with h1 h2
      · rw [loop_done _ _ _ _ _ _ _ h0]; exact ⟨_, _, rfl⟩
      · exfalso; omega
      · rw [loop_done _ _ _ _ _ _ _ h0]; exact ⟨_, _, rfl⟩
    · have hv := visit_not_covers (ret := List.replicate points.length (none : Option E))
        (show env.covers it points = false by simpa using hcv)
      rw [loop_step hnc hitn hv]
      have hne' : it ≠ c := fun h => hcv (h ▸ hcov)
      rw [if_neg (by omega)]
      exact ih (by omega) (by omega)

/-- A pass without covering cell up to the end of the range. -/
theorem loop_pass {env : Env P E} {points : List P} (hne : points ≠ []) (k : ℕ)
    {fuel steps it : ℕ} {cur : Option ℕ} (hk : it + k + 1 = env.n)
    (hno : ∀ c, it ≤ c → c < env.n → env.covers c points = false)
    (hroom : steps + 1 < env.viewSize) :
    loop env points (fuel + (k + 1)) steps it cur (List.replicate points.length (none : Option E)) =
      loop env points fuel (steps + 1) 0 (some (env.n - 1)) (List.replicate points.length none) := by
  have hnc : nullCount (List.replicate points.length (none : Option E)) ≠ 0 := by
    rw [nullCount_replicate]; simpa using hne
  induction k generalizing it cur with
  | zero =>
    have hv := visit_not_covers (ret := List.replicate points.length (none : Option E))
      (hno it le_rfl (by omega))
    rw [show fuel + (0 + 1) = fuel + 1 from rfl, loop_step hnc (by omega) hv, if_pos (by omega),
      if_pos hroom]
    congr 2
    omega
  | succ k ih =>
    have hv := visit_not_covers (ret := List.replicate points.length (none : Option E))
      (hno it le_rfl (by omega))
    rw [show fuel + (k + 1 + 1) = (fuel + (k + 1)) + 1 from rfl, loop_step hnc (by omega) hv,
      if_neg (by omega)]
    exact ih (by omega) (fun c h1 h2 => hno c (by omega) h2)

/-- **C09** (success) On a grid with at least two cells, whatever earlier
successful searches did, a search succeeds if some cell of the range covers the points. -/
theorem C09_succeeds (env : Env P E) (contains : ℕ → E → P → Prop) (h2 : 2 ≤ env.viewSize)
    (hn : 0 < env.n) (s : State) (hs : Reachable env s) (points : List P)
    (hcomp : LocalSearchComplete env contains points)
    (hcov : ∃ c < env.n, env.covers c points = true) :
    ∃ ents s', call env s points = .ok ents s' := by
  by_cases hne : points = []
  · subst hne; exact ⟨_, _, call_nil env s⟩
  have hit : s.it.getD 0 < env.n := reachable_itValid hn hs
  unfold call
  generalize s.it.getD 0 = it0 at hit
  have hfuel : env.n * 2 ≤ env.viewSize * env.n := by
    rw [mul_comm]; exact Nat.mul_le_mul_right _ h2
  by_cases hpass : ∃ c, it0 ≤ c ∧ c < env.n ∧ env.covers c points = true
  · obtain ⟨c, hc1, hc2, hc3⟩ := hpass
    exact loop_finds hcomp hne _ hc1 hc2 hc3 (Or.inr (by omega)) (by omega)
  · push Not at hpass
    obtain ⟨c, hc, hcc⟩ := hcov
    have hclt : c < it0 := by
      by_contra h
      exact hpass c (by omega) hc hcc
    have := loop_pass (env := env) (points := points) hne (env.n - 1 - it0)
      (fuel := env.viewSize * env.n + 1 - (env.n - it0)) (steps := 0) (it := it0) (cur := s.current)
      (by omega) (fun c h1 h2 => by simpa using hpass c h1 h2) (by omega)
    rw [show env.viewSize * env.n + 1 - (env.n - it0) + (env.n - 1 - it0 + 1) = env.viewSize * env.n + 1
      by omega] at this
    rw [this]
    exact loop_finds hcomp hne _ (Nat.zero_le c) hc hcc (Or.inl (by omega)) (by omega)

/-- The loop throws when no cell covers. -/
theorem loop_throws {env : Env P E} {points : List P} (hne : points ≠ []) (fuel : ℕ)
    {steps it : ℕ} {cur : Option ℕ} (hs : steps < env.viewSize) (hit : it < env.n)
    (hno : ∀ c < env.n, env.covers c points = false)
    (hf : (env.viewSize - steps) * env.n ≤ fuel + it) :
    loop env points fuel steps it cur (List.replicate points.length (none : Option E)) =
      .throw ⟨some env.n, some (env.n - 1)⟩ := by
  have hnc : nullCount (List.replicate points.length (none : Option E)) ≠ 0 := by
    rw [nullCount_replicate]; simpa using hne
  induction fuel generalizing steps it cur with
  | zero =>
    exfalso
    have : 1 * env.n ≤ (env.viewSize - steps) * env.n := Nat.mul_le_mul_right _ (by omega)
    omega
  | succ fuel ih =>
    have hv := visit_not_covers (ret := List.replicate points.length (none : Option E)) (hno it hit)
    rw [loop_step hnc hit hv]
    split_ifs with h1 h2
    · apply ih h2 (by omega)
      have : (env.viewSize - steps) * env.n = (env.viewSize - (steps + 1)) * env.n + env.n := by
        have : env.viewSize - steps = (env.viewSize - (steps + 1)) + 1 := by omega
        rw [this]; ring
      omega
    · congr 2 <;> simp only [Option.some.injEq] <;> omega
    · apply ih hs (by omega)
      omega

/-- **C09** (failure) If no cell covers the (nonempty) points, the search throws. -/
theorem C09_throws (env : Env P E) (hn : 0 < env.n) (hv : env.n ≤ env.viewSize)
    (s : State) (hs : Reachable env s) (points : List P) (hne : points ≠ [])
    (hno : ∀ c < env.n, env.covers c points = false) :
    ∃ s', call env s points = .throw s' := by
  refine ⟨_, loop_throws hne _ (by omega) (reachable_itValid hn hs) hno ?_⟩
  simp only [Nat.sub_zero]; omega

/-- A concrete environment: `n` unit intervals `[c, c+1]`, points are rationals given by
numerator over 2, the element of a point is the pair (cell, point). -/
def demoEnv (n : ℕ) : Env ℕ (ℕ × ℕ) where
  n := n
  viewSize := n
  covers c ps := ps.all fun p => decide (2 * c ≤ p ∧ p ≤ 2 * c + 2)
  search c ps := ps.map fun p => some (c, p)

theorem demo_complete (n : ℕ) (points : List ℕ) :
    LocalSearchComplete (demoEnv n) (fun c e p => e = (c, p)) points := by
  intro c _ _
  refine ⟨points.map fun p => (c, p), ?_, ?_⟩
  · simp [demoEnv]
  · rw [List.forall₂_map_left_iff, List.forall₂_same]
    intro x _; rfl

/-- Instance of C08/C09: three cells, first a search in the last cell, then one in the first cell. -/
example : call (demoEnv 3) .init [4, 6] = .ok [some (2, 4), some (2, 6)] ⟨some 0, some 2⟩ ∧
    call (demoEnv 3) ⟨some 0, some 2⟩ [0, 1] = .ok [some (0, 0), some (0, 1)] ⟨some 1, some 0⟩ ∧
    call (demoEnv 3) ⟨some 1, some 0⟩ [0, 1] = .ok [some (0, 0), some (0, 1)] ⟨some 1, some 0⟩ := by
  decide

/-! ## C10 -/

/-- **C10 is violated** (one cell): on a grid with a single cell no search for
at least one point returns normally, whatever the points and the local search. -/
theorem C10_violated_single_cell (env : Env P E) (hn : env.n = 1) (hv : env.viewSize = 1)
    (s : State) (hs : Reachable env s) (points : List P) (hne : points ≠ []) :
    ∀ ents s', call env s points ≠ .ok ents s' := by
  intro ents s' h
  have hnc : nullCount (List.replicate points.length (none : Option E)) ≠ 0 := by
    rw [nullCount_replicate]; simpa using hne
  have hit := reachable_itValid (by omega : 0 < env.n) hs
  unfold ItValid at hit
  unfold call at h
  have hit0 : s.it.getD 0 = 0 := by omega
  rw [hit0] at h
  cases hvis : visit env points 0 (List.replicate points.length (none : Option E)) with
  | none => rw [loop_step_ub hnc (Or.inr hvis)] at h; cases h
  | some ret' =>
    rw [loop_step hnc (by omega) hvis, if_pos (by omega), if_neg (by omega)] at h
    cases h

/-- **C10 is violated** (witness): the single cell covers the point, the local
search would answer, and the search still throws. -/
theorem C10_violated_witness :
    (demoEnv 1).covers 0 [1] = true ∧ call (demoEnv 1) .init [1] = .throw ⟨some 1, some 0⟩ := by
  decide

/-- **C10 is violated** (reuse): after a search has thrown, every further search
for at least one point on the same object runs into the end iterator. -/
theorem C10_violated_reuse (env : Env P E) (s s' : State)
    (points points' : List P) (hne : points' ≠ [])
    (h : call env s points = .throw s') : call env s' points' = .ub := by
  have key : ∀ fuel steps it cur (ret : List (Option E)),
      loop env points fuel steps it cur ret = .throw s' → s'.it = some env.n := by
    intro fuel
    induction fuel with
    | zero =>
      intro steps it cur ret h
      rw [loop_eq] at h
      split_ifs at h
    | succ fuel ih =>
      intro steps it cur ret h
      by_cases h0 : nullCount ret = 0
      · rw [loop_done _ _ _ _ _ _ _ h0] at h; cases h
      by_cases hit : it < env.n
      swap
      · rw [loop_step_ub h0 (Or.inl hit)] at h; cases h
      cases hvis : visit env points it ret with
      | none => rw [loop_step_ub h0 (Or.inr hvis)] at h; cases h
      | some ret' =>
        rw [loop_step h0 hit hvis] at h
        split_ifs at h with h1 h2
        · exact ih _ _ _ _ h
        · injection h with h; rw [← h, h1]
        · exact ih _ _ _ _ h
  have hit := key _ _ _ _ _ h
  unfold call
  rw [hit]
  have hnc : nullCount (List.replicate points'.length (none : Option E)) ≠ 0 := by
    rw [nullCount_replicate]; simpa using hne
  exact loop_step_ub hnc (Or.inl (by simp))

/-- **C10** (partial: what holds) A copy of the search object starts afresh; on a grid with at
least two cells it finds covered points even when the original had thrown.  Missing: the same for the
original object and for one-cell grids, which is false. -/
theorem C10_copy_is_usable_partial (env : Env P E) (contains : ℕ → E → P → Prop) (h2 : 2 ≤ env.viewSize)
    (hn : 0 < env.n) (points : List P) (hcomp : LocalSearchComplete env contains points)
    (hcov : ∃ c < env.n, env.covers c points = true) :
    ∃ ents s', call env State.init points = .ok ents s' :=
  C09_succeeds env contains h2 hn _ Reachable.init points hcomp hcov

/-- Instance of C10: a failed search (point outside all cells), then undefined behaviour on
reuse and success on a copy. -/
example : call (demoEnv 3) .init [100] = .throw ⟨some 3, some 2⟩ ∧
    call (demoEnv 3) ⟨some 3, some 2⟩ [1] = .ub ∧
    call (demoEnv 3) .init [1] = .ok [some (0, 1)] ⟨some 1, some 0⟩ := by decide

/-! ## C57 -/

/-- The elements a visit of cell `c` contributes. -/
def answers (env : Env P E) (points : List P) (c : ℕ) : List E :=
  if env.covers c points then (env.search c points).filterMap id else []

theorem moveIf_collect (pre : List E) (k : ℕ) (es : List (Option E)) (ret' : List (Option E))
    (h : moveIf (pre.map some ++ List.replicate k none) pre.length es = some ret') :
    ∃ k', ret' = (pre ++ es.filterMap id).map some ++ List.replicate k' none := by
  induction es generalizing pre k with
  | nil =>
    simp only [moveIf, Option.some.injEq] at h
    exact ⟨k, by simp [← h]⟩
  | cons e es ih =>
    cases e with
    | none => simpa using ih pre k (by simpa [moveIf] using h)
    | some e =>
      simp only [moveIf] at h
      split_ifs at h with hk
      cases k with
      | zero => simp at hk
      | succ k =>
        have hset : (pre.map some ++ List.replicate (k + 1) (none : Option E)).set pre.length (some e) =
            (pre ++ [e]).map some ++ List.replicate k none := by
          rw [List.set_append_right _ _ (by simp)]
          simp [List.replicate_succ]
        rw [hset] at h
        obtain ⟨k', hk'⟩ := ih (pre ++ [e]) k (by simpa using h)
        exact ⟨k', by simpa using hk'⟩

theorem firstNull_prefix (pre : List E) (k : ℕ) :
    firstNull (pre.map some ++ List.replicate k (none : Option E)) = pre.length := by
  unfold firstNull
  induction pre with
  | nil => cases k <;> simp [List.replicate_succ, List.findIdx_cons]
  | cons e pre ih => simp [List.findIdx_cons, ih]

theorem visit_collect {env : Env P E} {points : List P} {it : ℕ} (pre : List E) (k : ℕ) {ret' : List (Option E)}
    (h : visit env points it (pre.map some ++ List.replicate k none) = some ret') :
    ∃ k', ret' = (pre ++ answers env points it).map some ++ List.replicate k' none := by
  unfold visit at h
  unfold answers
  split_ifs at h ⊢ with hc
  · rw [firstNull_prefix] at h
    exact moveIf_collect pre k _ _ h
  · simp only [Option.some.injEq] at h
    exact ⟨k, by simp [← h]⟩

theorem loop_collect {env : Env P E} {points : List P} (fuel : ℕ) {steps it : ℕ} {cur : Option ℕ}
    (pre : List E) (k : ℕ) {ents : List (Option E)} {s : State}
    (h : loop env points fuel steps it cur (pre.map some ++ List.replicate k none) = .ok ents s) :
    ∃ visited : List ℕ, (∀ c ∈ visited, c < env.n) ∧
      ents = (pre ++ visited.flatMap (answers env points)).map some := by
  induction fuel generalizing steps it cur pre k with
  | zero =>
    rw [loop_eq] at h
    split_ifs at h with h0
    injection h with h1 h2
    refine ⟨[], by simp, ?_⟩
    cases k with
    | zero => simp [← h1]
    | succ k => simp [nullCount] at h0
  | succ fuel ih =>
    by_cases h0 : nullCount (pre.map some ++ List.replicate k (none : Option E)) = 0
    · rw [loop_done _ _ _ _ _ _ _ h0] at h
      injection h with h1 h2
      refine ⟨[], by simp, ?_⟩
      cases k with
      | zero => simp [← h1]
      | succ k => simp [nullCount] at h0
    by_cases hit : it < env.n
    swap
    · rw [loop_step_ub h0 (Or.inl hit)] at h; cases h
    cases hv : visit env points it (pre.map some ++ List.replicate k none) with
    | none => rw [loop_step_ub h0 (Or.inr hv)] at h; cases h
    | some ret' =>
      rw [loop_step h0 hit hv] at h
      obtain ⟨k', rfl⟩ := visit_collect pre k hv
      have key : ∀ steps' it', loop env points fuel steps' it' (some it)
          ((pre ++ answers env points it).map some ++ List.replicate k' none) = .ok ents s →
          ∃ visited : List ℕ, (∀ c ∈ visited, c < env.n) ∧
            ents = (pre ++ visited.flatMap (answers env points)).map some := by
        intro steps' it' h'
        obtain ⟨visited, hv1, hv2⟩ := ih _ _ h'
        refine ⟨it :: visited, ?_, ?_⟩
        · intro c hc
          rcases List.mem_cons.mp hc with rfl | hc
          · exact hit
          · exact hv1 c hc
        · rw [hv2]; simp
      split_ifs at h with h1 h2
      · exact key _ _ h
      · exact key _ _ h

/-- **C57** (what is returned in general) The result of a search that returns normally consists of the elements found in the
visited cells, one visit after the other, without those points which a visit did not find: earlier finds are
kept, and nothing is said about which point an element belongs to. -/
theorem C57_collected_partial (env : Env P E) (s s' : State) (points : List P) (ents : List (Option E))
    (h : call env s points = .ok ents s') :
    ∃ visited : List ℕ, (∀ c ∈ visited, c < env.n) ∧
      ents = (visited.flatMap (answers env points)).map some := by
  have := loop_collect (env := env) (points := points) _ [] points.length h
  simpa using this

/-- **C57** (partial) If the local search of every covering cell finds either all points or none, the elements
returned belong to the points at their positions. -/
theorem C57_all_or_none_partial (env : Env P E) (contains : ℕ → E → P → Prop) (s s' : State)
    (points : List P) (ents : List (Option E)) (hne : points ≠ [])
    (hall : ∀ c < env.n, env.covers c points = true →
      (∃ es : List E, env.search c points = es.map some ∧ List.Forall₂ (contains c) es points) ∨
        ∀ e ∈ env.search c points, e = none)
    (h : call env s points = .ok ents s') :
    ∃ c es, c < env.n ∧ env.covers c points = true ∧ ents = es.map some ∧ List.Forall₂ (contains c) es points := by
  have hlen := (C08_search_result env s s' points ents hne h).1
  obtain ⟨visited, hv, he⟩ := C57_collected_partial env s s' points ents h
  clear h
  induction visited with
  | nil =>
    simp only [List.flatMap_nil, List.map_nil] at he
    rw [he] at hlen
    exact absurd (List.length_eq_zero_iff.mp hlen.symm) hne
  | cons c visited ih =>
    have hc := hv c List.mem_cons_self
    by_cases hcov : env.covers c points = true
    · rcases hall c hc hcov with ⟨es, h1, h2⟩ | h1
      · have ha : answers env points c = es := by
          unfold answers
          rw [if_pos hcov, h1]
          induction es <;> simp
        have hl : es.length = points.length := h2.length_eq
        have hrest : visited.flatMap (answers env points) = [] := by
          rw [List.flatMap_cons, ha] at he
          rw [he, List.length_map, List.length_append] at hlen
          exact List.length_eq_zero_iff.mp (by omega)
        refine ⟨c, es, hc, hcov, ?_, h2⟩
        rw [he, List.flatMap_cons, ha, hrest, List.append_nil]
      · have ha : answers env points c = [] := by
          unfold answers
          rw [if_pos hcov, List.filterMap_eq_nil_iff]
          exact h1
        exact ih (fun c hc => hv c (List.mem_cons_of_mem _ hc)) (by rw [he, List.flatMap_cons, ha, List.nil_append])
    · have ha : answers env points c = [] := by unfold answers; rw [if_neg hcov]
      exact ih (fun c hc => hv c (List.mem_cons_of_mem _ hc)) (by rw [he, List.flatMap_cons, ha, List.nil_append])

/-- A visit that stays inside the result takes as many free places as it found points. -/
theorem visit_room {env : Env P E} {points : List P} {it : ℕ} (pre : List E) (k : ℕ) {ret' : List (Option E)}
    (h : visit env points it (pre.map some ++ List.replicate k none) = some ret') :
    ∃ k', ret' = (pre ++ answers env points it).map some ++ List.replicate k' none ∧
      k = (answers env points it).length + k' := by
  obtain ⟨k', rfl⟩ := visit_collect pre k h
  refine ⟨k', rfl, ?_⟩
  have hl : ((pre ++ answers env points it).map some ++ List.replicate k' none).length =
      (pre.map some ++ List.replicate k (none : Option E)).length := by
    unfold visit at h
    split_ifs at h
    · exact moveIf_length h
    · simp only [Option.some.injEq] at h; rw [← h]
  simp only [List.length_append, List.length_map, List.length_replicate] at hl
  omega

/-- A search that gives up has visited cell `c` in every pass, and the finds had room. -/
theorem loop_throw_room {env : Env P E} {points : List P} {c : ℕ} (hc : c < env.n) (fuel : ℕ) {steps it : ℕ}
    {cur : Option ℕ} (pre : List E) (k : ℕ) {s : State} (hs : steps < env.viewSize)
    (h : loop env points fuel steps it cur (pre.map some ++ List.replicate k none) = .throw s) :
    (answers env points c).length * (env.viewSize - steps - if it ≤ c then 0 else 1) ≤ k := by
  induction fuel generalizing steps it cur pre k with
  | zero =>
    rw [loop_eq] at h
    split_ifs at h
  | succ fuel ih =>
    by_cases h0 : nullCount (pre.map some ++ List.replicate k (none : Option E)) = 0
    · rw [loop_done _ _ _ _ _ _ _ h0] at h; cases h
    by_cases hit : it < env.n
    swap
    · rw [loop_step_ub h0 (Or.inl hit)] at h; cases h
    cases hv : visit env points it (pre.map some ++ List.replicate k none) with
    | none => rw [loop_step_ub h0 (Or.inr hv)] at h; cases h
    | some ret' =>
      rw [loop_step h0 hit hv] at h
      obtain ⟨k', rfl, hk⟩ := visit_room pre k hv
      have hmul : ∀ a b : ℕ, a ≤ b + 1 → (answers env points c).length * b ≤ k' → it = c →
          (answers env points c).length * a ≤ k := by
        intro a b hab hb hic
        subst hic
        calc (answers env points it).length * a ≤ (answers env points it).length * (b + 1) :=
              Nat.mul_le_mul_left _ hab
          _ ≤ k := by rw [mul_add, mul_one]; omega
      have hmono : ∀ a b : ℕ, a ≤ b → (answers env points c).length * b ≤ k' →
          (answers env points c).length * a ≤ k := fun a b hab hb =>
        le_trans (Nat.mul_le_mul_left _ hab) (by omega)
      split_ifs at h with h1 h2
      · have := ih _ _ h2 h
        rw [if_pos (Nat.zero_le c), Nat.sub_zero] at this
        rcases eq_or_ne it c with e | e
        · exact hmul _ _ (by split_ifs <;> omega) this e
        · exact hmono _ _ (by rw [if_neg (by omega)]; omega) this
      · rcases eq_or_ne it c with e | e
        · exact hmul _ 0 (by split_ifs <;> omega) (by simp) e
        · exact hmono _ 0 (by rw [if_neg (by omega)]; omega) (by simp)
      · have := ih _ _ hs h
        rcases eq_or_ne it c with e | e
        · refine hmul _ _ ?_ this e
          split_ifs <;> omega
        · refine hmono _ _ ?_ this
          split_ifs <;> omega

/-- **C57** (one covering cell, partial) If exactly one coarse cell covers the points and its local search finds `f > 0` of
the `N` points, a result consists of `N / f` copies of what was found: it is right for `f = N`, wrong for every proper
divisor, and there is none for other `f`. -/
theorem C57_one_cover_partial (env : Env P E) (s s' : State) (points : List P) (ents : List (Option E)) (c : ℕ)
    (hone : ∀ i < env.n, env.covers i points = true → i = c) (h : call env s points = .ok ents s') :
    ∃ k, points.length = k * (answers env points c).length ∧
      ents = ((List.replicate k (answers env points c)).flatten).map some := by
  have hlen : ents.length = points.length := by
    rcases eq_or_ne points [] with rfl | hne
    · rw [call_nil] at h
      injection h with h _
      rw [← h]
      rfl
    · exact (C08_search_result env s s' points ents hne h).1
  obtain ⟨visited, hv, he⟩ := C57_collected_partial env s s' points ents h
  have key : ∀ l : List ℕ, (∀ i ∈ l, i < env.n) →
      ∃ k, l.flatMap (answers env points) = (List.replicate k (answers env points c)).flatten := by
    intro l hl
    induction l with
    | nil => exact ⟨0, rfl⟩
    | cons i l ih =>
      obtain ⟨k, hk⟩ := ih fun j hj => hl j (List.mem_cons_of_mem _ hj)
      rw [List.flatMap_cons, hk]
      by_cases hcov : env.covers i points = true
      · rw [hone i (hl i List.mem_cons_self) hcov]
        exact ⟨k + 1, by rw [List.replicate_succ, List.flatten_cons]⟩
      · exact ⟨k, by rw [answers, if_neg hcov, List.nil_append]⟩
  obtain ⟨k, hk⟩ := key visited hv
  rw [hk] at he
  refine ⟨k, ?_, he⟩
  rw [← hlen, he]
  simp

/-- **C57 is violated** (memory, in general): if some cell finds a number `f` of the points, and this is the only cell covering them,
and `f` does not divide the number of points, the search writes behind the end of the result vector, provided the grid has enough cells
for so many passes. -/
theorem C57_overrun (env : Env P E) (s : State) (hs : Reachable env s) (points : List P) (c : ℕ) (hc : c < env.n)
    (hv : env.n ≤ env.viewSize) (hone : ∀ i < env.n, env.covers i points = true → i = c)
    (hf : ¬ (answers env points c).length ∣ points.length)
    (hpass : points.length < (answers env points c).length * (env.viewSize - 1)) :
    call env s points = .ub := by
  cases h : call env s points with
  | ok ents s' =>
    obtain ⟨k, hk, -⟩ := C57_one_cover_partial env s s' points ents c hone h
    exact absurd ⟨k, by rw [hk, mul_comm]⟩ hf
  | throw s' =>
    have := loop_throw_room (c := c) hc _ [] points.length (by omega) h
    have h2 : (answers env points c).length * (env.viewSize - 1) ≤
        (answers env points c).length * (env.viewSize - 0 - if s.it.getD 0 ≤ c then 0 else 1) :=
      Nat.mul_le_mul_left _ (by split_ifs <;> omega)
    omega
  | ub => rfl
  | outOfFuel => exact absurd h (C09_terminates env (by omega) hv s hs points)

/-- Two cells; the first one covers everything, and its local search does not find point 0. -/
def leakyEnv : Env ℕ ℕ where
  n := 2
  viewSize := 2
  covers c _ := decide (c = 0)
  search c ps := if c = 0 then ps.map fun p => if p = 0 then none else some p else ps.map fun _ => none

/-- **C57 is violated** (wrong element): point 0 is not found, no exception is thrown, and the element of
point 1 is returned for both points. -/
theorem C57_violated_wrong_element :
    call leakyEnv .init [0, 1] = .ok [some 1, some 1] ⟨some 1, some 0⟩ := by decide

/-- **C57 is violated** (memory): with three points, one of which is not found, the second pass over the
cells writes behind the end of the result vector. -/
theorem C57_violated_ub : call leakyEnv .init [0, 1, 2] = .ub := by decide

/-- Instance of `C57_overrun`: four cells, three points, of which the covering cell finds two. -/
example : call { leakyEnv with n := 4, viewSize := 4 } .init [0, 1, 2] = .ub := by
  refine C57_overrun _ _ Reachable.init _ 0 (by decide) (le_refl _) (fun i _ h => ?_) ?_ ?_
  · simpa [leakyEnv] using h
  · decide
  · decide

/-- Instance of `C57_one_cover_partial`: both points get the element of the second. -/
example : ∃ k, 2 = k * (answers leakyEnv [0, 1] 0).length ∧
    [some 1, some 1] = ((List.replicate k (answers leakyEnv [0, 1] 0)).flatten).map some :=
  C57_one_cover_partial leakyEnv .init _ [0, 1] _ 0 (fun i _ h => by simpa [leakyEnv] using h) C57_violated_wrong_element

/-- Non-vacuity of `C57_all_or_none_partial`: the demo environment, with point 5 in cell 2. -/
example : ∃ c es, c < (demoEnv 3).n ∧ (demoEnv 3).covers c [5] = true ∧
    [some (2, 5)] = es.map some ∧ List.Forall₂ (fun e p => e = (c, p)) es [5] :=
  C57_all_or_none_partial (demoEnv 3) (fun c e p => e = (c, p)) .init ⟨some 0, some 2⟩ [5] [some (2, 5)] (by simp)
    (fun c hc hcov => Or.inl (demo_complete 3 [5] c hc hcov)) (by decide)

end Verif.Search
