import Verif.Props.SolutionManager

/-!
# C65: several calls of the multiscale solver in one program
-/

namespace Verif.Manager

section
variable {V : Type} [AddCommGroup V]

omit [AddCommGroup V] in
theorem wf_clear (w : World V) : WF w.clear := by
  constructor <;> simp [World.clear]

omit [AddCommGroup V] in
theorem clear_stored (w : World V) (k : ℕ) : w.clear.stored k = [] := rfl

theorem loadAll_stored (w : World V) (h : WF w) (ks : List (ℕ × List V)) (hks : ∀ c ∈ ks, w.stored c.1 = c.2) :
    ∃ w', loadAll w (ks.map fun c => (c.1, c.2.length)) = .ok (w', ks.map Prod.snd) ∧ WF w' ∧ w'.stored = w.stored := by
  induction ks generalizing w with
  | nil => exact ⟨w, rfl, h, rfl⟩
  | cons c ks ih =>
    have hc := hks c List.mem_cons_self
    have hlen : c.2.length = (w.store c.1).length := by rw [← hc, stored_length]
    have hst : (newMgr w c.1 (w.store c.1).length).1.stored = w.stored := funext fun k => newMgr_stored h _ _ k
    obtain ⟨w', e1, e2, e3⟩ := ih _ (wf_newMgr h c.1 (w.store c.1).length) (fun d hd => by
      rw [hst]; exact hks d (List.mem_cons_of_mem _ hd))
    refine ⟨w', ?_, e2, e3.trans hst⟩
    simp only [List.map_cons, loadAll]
    rw [hlen, loadFresh_eq _ _ le_rfl]
    simp only [Outcome.ok_bind]
    rw [e1]
    simp only [Outcome.ok_bind, Outcome.pure_eq]
    rw [view_loadFresh h, hc]

end

section
variable {ι R : Type} [CommRing R] [DecidableEq ι] {n : ℕ}

theorem reconstructAll_spec (over : ℕ) (visits : ℕ → List (ι × Bool)) (Q : ℕ → Fin n → ι → R) (N D : ℕ → ι → R)
    (c : ℕ → Fin n → R) (w : World (ι → R)) (hw : WF w) (ks : List ℕ) (hn : ks.Nodup)
    (hst : ∀ k ∈ ks, w.stored k = corrList (Q k) (N k) (D k)) :
    ∃ w', reconstructAll (n + 2) over visits (fun k => List.ofFn (c k)) w ks =
      .ok (w', ks.map fun k => (if over > 0 then cut (visits k) (∑ i, c k i • Q k i) else ∑ i, c k i • Q k i) + D k - N k) := by
  induction ks generalizing w with
  | nil => exact ⟨w, rfl⟩
  | cons k ks ih =>
    obtain ⟨w1, e1, e2, -, e4⟩ := reconstruct_spec w hw k over (visits k) (Q k) (N k) (D k) (c k) (hst k List.mem_cons_self)
    rw [List.nodup_cons] at hn
    obtain ⟨w', e5⟩ := ih w1 e2 hn.2 (fun k' hk' => by
      rw [e4 k' (fun e => hn.1 (e ▸ hk'))]; exact hst k' (List.mem_cons_of_mem _ hk'))
    refine ⟨w', ?_⟩
    simp only [reconstructAll, e1, Outcome.ok_bind, e5, Outcome.pure_eq, List.map_cons]

/-- Data of a run: per coarse cell the correctors, Neumann and Dirichlet corrector.  The cells are solved in the order
`keys`, the coarse assembly loads the cells `loads`. -/
structure RunData (ι R : Type) (n : ℕ) where
  keys : List ℕ
  Q : ℕ → Fin n → ι → R
  N : ℕ → ι → R
  D : ℕ → ι → R
  loads : List ℕ
  coarse : List (List (ι → R)) → Outcome (ℕ → Fin n → R)
  failAfter : Option ℕ
  oversampling : ℕ
  visits : ℕ → List (ι × Bool)

/-- The run which a call with these data performs. -/
def RunData.run (d : RunData ι R n) : Run ι R where
  cells := d.keys.map fun k => (k, corrList (d.Q k) (d.N k) (d.D k))
  failAfter := d.failAfter
  loads := d.loads.map fun k => (k, n + 2)
  coarse l := d.coarse l >>= fun c => .ok fun k => List.ofFn (c k)
  numLocalProblems := n + 2
  oversampling := d.oversampling
  visits := d.visits

/-- Specification: the result of a run is determined by its own data.  The coarse problem sees the own solutions of the cells it
loads, the correction of cell `k` is formed from the own correctors of the cell. -/
def RunData.result (d : RunData ι R n) : Outcome (List (ι → R)) :=
  match d.failAfter with
  | some _ => .throw
  | none =>
    match d.coarse (d.loads.map fun k => corrList (d.Q k) (d.N k) (d.D k)) with
    | .ok c => .ok (d.keys.map fun k =>
        (if d.oversampling > 0 then cut (d.visits k) (∑ i, c k i • d.Q k i) else ∑ i, c k i • d.Q k i) + d.D k - d.N k)
    | .throw => .throw
    | .ub => .ub

/-- Indices are distinct, only solved cells are loaded. -/
structure RunData.Valid (d : RunData ι R n) : Prop where
  nodup : d.keys.Nodup
  loads : ∀ k ∈ d.loads, k ∈ d.keys

theorem apply_result (d : RunData ι R n) (hd : d.Valid) (w : World (ι → R)) (hw : WF w) (he : ∀ k, w.stored k = []) :
    (d.run.apply w).2 = d.result ∧ WF (d.run.apply w).1 ∧ ∀ k, (d.run.apply w).1.stored k = [] := by
  refine ⟨?_, wf_clear _, fun k => clear_stored _ k⟩
  show (d.run.body w).2 = _
  unfold Run.body RunData.result
  have hf : d.run.failAfter = d.failAfter := rfl
  rw [hf]
  cases d.failAfter with
  | some k => rfl
  | none =>
    dsimp only
    have hfst : d.run.cells.map Prod.fst = d.keys := by
      simp [RunData.run, List.map_map, Function.comp_def]
    obtain ⟨h1, h2, -⟩ := solveAll_spec hw d.run.cells (by rw [hfst]; exact hd.nodup)
    have hst : ∀ k ∈ d.keys, (solveAll w d.run.cells).stored k = corrList (d.Q k) (d.N k) (d.D k) := by
      intro k hk
      have := h2 (k, corrList (d.Q k) (d.N k) (d.D k)) (List.mem_map.mpr ⟨k, hk, rfl⟩)
      rw [this, he, List.nil_append]
    obtain ⟨w2, e1, e2, e3⟩ := loadAll_stored (solveAll w d.run.cells) h1
      (d.loads.map fun k => (k, corrList (d.Q k) (d.N k) (d.D k))) (by
        intro c hc
        obtain ⟨k, hk, rfl⟩ := List.mem_map.mp hc
        exact hst k (hd.loads k hk))
    have hl : (d.loads.map fun k => (k, corrList (d.Q k) (d.N k) (d.D k))).map (fun c => (c.1, c.2.length)) = d.run.loads := by
      simp [RunData.run, List.map_map, Function.comp_def, corrList]
    have hl2 : (d.loads.map fun k => (k, corrList (d.Q k) (d.N k) (d.D k))).map Prod.snd =
        d.loads.map fun k => corrList (d.Q k) (d.N k) (d.D k) := by
      simp [List.map_map, Function.comp_def]
    rw [hl, hl2] at e1
    rw [e1]
    dsimp only
    have hco : ∀ l, d.run.coarse l = d.coarse l >>= fun c => .ok fun k => List.ofFn (c k) := fun _ => rfl
    rw [hco]
    cases hc : d.coarse (d.loads.map fun k => corrList (d.Q k) (d.N k) (d.D k)) with
    | throw => rfl
    | ub => rfl
    | ok c =>
      obtain ⟨w3, e4⟩ := reconstructAll_spec d.oversampling d.visits d.Q d.N d.D c w2 e2 d.keys hd.nodup
        (fun k hk => by rw [e3]; exact hst k hk)
      rw [Outcome.ok_bind]
      dsimp only
      rw [hfst]
      have : reconstructAll d.run.numLocalProblems d.run.oversampling d.run.visits (fun k => List.ofFn (c k)) w2 d.keys = _ := e4
      rw [this]

/-- **C65** In any sequence of calls of the solver, some of which may end with an exception during the local or the coarse
solves, every call gives the result determined by its own data. -/
theorem C65_runs_independent (ds : List (RunData ι R n)) (hd : ∀ d ∈ ds, d.Valid) :
    applyAll World.init (ds.map RunData.run) = ds.map RunData.result := by
  suffices h : ∀ w : World (ι → R), WF w → (∀ k, w.stored k = []) →
      applyAll w (ds.map RunData.run) = ds.map RunData.result from h _ wf_init fun _ => rfl
  induction ds with
  | nil => intros; rfl
  | cons d ds ih =>
    intro w hw he
    obtain ⟨h1, h2, h3⟩ := apply_result d (hd d List.mem_cons_self) w hw he
    rw [List.map_cons, applyAll, h1, List.map_cons, ih (fun d' h => hd d' (List.mem_cons_of_mem _ h)) _ h2 h3]

end

/-- **C65** (the guard is needed) Without clearing in between, every load after a second run sees the solutions of the
first run. -/
theorem C65_without_guard {V : Type} [AddCommGroup V] (keys : List ℕ) (hn : keys.Nodup) (size : ℕ)
    (first second : ℕ → List V) (h1 : ∀ k ∈ keys, (first k).length = size) :
    observe (solveAll (solveAll World.init (keys.map fun k => (k, first k))) (keys.map fun k => (k, second k)))
      (keys.map fun k => (k, size)) = .ok (keys.map first) := by
  have hf : ∀ g : ℕ → List V, (keys.map fun k => (k, g k)).map Prod.fst = keys := fun g => by
    simp [List.map_map, Function.comp_def]
  obtain ⟨a1, a2, -⟩ := solveAll_spec (wf_init (V := V)) (keys.map fun k => (k, first k)) (by rw [hf]; exact hn)
  obtain ⟨b1, b2, -⟩ := solveAll_spec a1 (keys.map fun k => (k, second k)) (by rw [hf]; exact hn)
  generalize solveAll (solveAll World.init (keys.map fun k => (k, first k))) (keys.map fun k => (k, second k)) = w at b1 b2
  have hst : ∀ k ∈ keys, w.stored k = first k ++ second k := by
    intro k hk
    have e2 := b2 (k, second k) (List.mem_map.mpr ⟨k, hk, rfl⟩)
    have e1 := a2 (k, first k) (List.mem_map.mpr ⟨k, hk, rfl⟩)
    dsimp only at e1 e2
    rw [e2, e1]
    simp [World.stored, World.init]
  clear a1 a2 b2 hn hf
  induction keys generalizing w with
  | nil => rfl
  | cons k ks ih =>
    have hk := hst k List.mem_cons_self
    have hle : size ≤ (w.store k).length := by
      rw [← stored_length, hk, List.length_append, h1 k List.mem_cons_self]; omega
    simp only [List.map_cons, observe]
    rw [loadFresh_eq _ _ hle]
    simp only [Outcome.ok_bind]
    rw [ih (fun k' h => h1 k' (List.mem_cons_of_mem _ h)) _ (wf_newMgr b1 _ _) (fun k' h => by
      rw [newMgr_stored b1]; exact hst k' (List.mem_cons_of_mem _ h))]
    simp only [Outcome.ok_bind, Outcome.pure_eq]
    congr 2
    show ((w.store k).take size).map (newMgr w k size).1.mem = first k
    have e := newMgr_stored b1 k size k
    rw [hk] at e
    have e' : (((newMgr w k size).1.store k).map (newMgr w k size).1.mem).take size = (first k ++ second k).take size := by
      rw [← e]; rfl
    rw [List.take_append_of_le_length (h1 k List.mem_cons_self).ge, ← h1 k List.mem_cons_self, List.take_length,
      ← List.map_take] at e'
    rw [← h1 k List.mem_cons_self]
    exact e'

/-- Data of the example: one cell, one basis function, corrector `q`; the coarse problem returns the loaded corrector as
coefficient. -/
def exampleRun (q : ℚ) (fail : Option ℕ) : RunData (Fin 1) ℚ 1 where
  keys := [7]
  Q := fun _ _ _ => q
  N := fun _ _ => 0
  D := fun _ _ => 0
  loads := [7]
  coarse := fun l => .ok fun _ _ => (l.headI.headI) 0
  failAfter := fail
  oversampling := 0
  visits := fun _ => []

/-- Instance of C65: a run with corrector 2, a run that fails after its cell was stored, a run with corrector 3. -/
example : applyAll World.init [(exampleRun 2 none).run, (exampleRun 5 (some 1)).run, (exampleRun 3 none).run] =
    [.ok [![4]], .throw, .ok [![9]]] := by
  rw [show [(exampleRun 2 none).run, (exampleRun 5 (some 1)).run, (exampleRun 3 none).run] =
    [exampleRun 2 none, exampleRun 5 (some 1), exampleRun 3 none].map RunData.run from rfl, C65_runs_independent]
  · simp only [List.map_cons, List.map_nil, RunData.result, exampleRun, corrList]
    congr 2
    · norm_num [List.headI]
      funext i; fin_cases i; norm_num
    · congr 2
      norm_num [List.headI]
      funext i; fin_cases i; norm_num
  · intro d hd
    simp only [List.mem_cons, List.not_mem_nil, or_false] at hd
    rcases hd with rfl | rfl | rfl <;> exact ⟨by simp [exampleRun], by simp [exampleRun]⟩

/-- Instance: without the guard the second run's solution 9 is not seen. -/
example : observe (solveAll (solveAll (World.init : World ℤ) [(7, [4])]) [(7, [9])]) [(7, 1)] = .ok [[4]] :=
  C65_without_guard [7] (by simp) 1 (fun _ => [4]) (fun _ => [9]) (by simp)

end Verif.Manager
