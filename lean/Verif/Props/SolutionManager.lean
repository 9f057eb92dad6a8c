import Verif.Lemmas.SolutionManager
import Mathlib.Algebra.BigOperators.Fin
import Mathlib.Algebra.BigOperators.Pi
import Mathlib.Algebra.Order.Ring.Rat
import Mathlib.Tactic.NormNum
import Mathlib.Tactic.Ring
import Mathlib.Tactic.FinCases

/-!
# C14 - C18: storing, loading and recombining local solutions
-/

namespace Verif.Manager

/-! ## C14 -/

section
variable {V : Type} [AddCommGroup V]

/-- A later phase: load the solutions of the given cells (key, number) one after the
other, each through a fresh manager, and note what is seen. -/
def observe (w : World V) : List (ℕ × ℕ) → Outcome (List (List V))
  | [] => .ok []
  | (k, n) :: ks => do
    let (w', m) ← loadFresh n w k
    let rest ← observe w' ks
    return view w' m :: rest

theorem observe_stored (w : World V) (h : WF w) (ks : List (ℕ × List V))
    (hks : ∀ c ∈ ks, w.stored c.1 = c.2) :
    observe w (ks.map fun c => (c.1, c.2.length)) = .ok (ks.map Prod.snd) := by
  induction ks generalizing w with
  | nil => rfl
  | cons c ks ih =>
    have hc := hks c List.mem_cons_self
    have hlen : c.2.length = (w.store c.1).length := by rw [← hc, stored_length]
    simp only [List.map_cons, observe]
    rw [hlen, loadFresh_eq _ _ le_rfl]
    simp only [Outcome.ok_bind]
    rw [ih _ (wf_newMgr h _ _) (fun d hd => by
      rw [newMgr_stored h]; exact hks d (List.mem_cons_of_mem _ hd))]
    simp only [Outcome.ok_bind, Outcome.pure_eq]
    rw [view_loadFresh h, hc]

/-- **C14** After solving and saving any cells (distinct indices) in any order, any sequence
`ls` of loads of such cells through fresh managers sees exactly the values saved. -/
theorem C14_loaded_is_saved (cells : List (ℕ × List V)) (hn : (cells.map Prod.fst).Nodup)
    (ls : List (ℕ × List V)) (hls : ∀ c ∈ ls, c ∈ cells) :
    observe (solveAll World.init cells) (ls.map fun c => (c.1, c.2.length)) =
      .ok (ls.map Prod.snd) := by
  obtain ⟨h1, h2, -⟩ := solveAll_spec (wf_init (V := V)) cells hn
  apply observe_stored _ h1
  intro c hc
  rw [h2 c (hls c hc)]
  simp [World.stored, World.init]

/-- **C14** (order) The order in which the cells are solved does not matter to later phases. -/
theorem C14_order_irrelevant (cells cells' : List (ℕ × List V)) (hp : cells.Perm cells')
    (hn : (cells.map Prod.fst).Nodup) (ls : List (ℕ × List V)) (hls : ∀ c ∈ ls, c ∈ cells) :
    observe (solveAll World.init cells) (ls.map fun c => (c.1, c.2.length)) =
      observe (solveAll World.init cells') (ls.map fun c => (c.1, c.2.length)) := by
  rw [C14_loaded_is_saved cells hn ls hls,
    C14_loaded_is_saved cells' ((hp.map Prod.fst).nodup_iff.mp hn) ls
      (fun c hc => hp.mem_iff.mp (hls c hc))]

/-- Asking for more solutions than were saved throws. -/
theorem C14_too_many_throws (cells : List (ℕ × List V)) (hn : (cells.map Prod.fst).Nodup)
    (c : ℕ × List V) (hc : c ∈ cells) (n : ℕ) (h : c.2.length < n) :
    observe (solveAll World.init cells) [(c.1, n)] = .throw := by
  obtain ⟨h1, h2, -⟩ := solveAll_spec (wf_init (V := V)) cells hn
  have hst : (solveAll World.init cells).stored c.1 = c.2 := by
    rw [h2 c hc]; simp [World.stored, World.init]
  have hl : ((solveAll World.init cells).store c.1).length = c.2.length := by
    rw [← stored_length, hst]
  have : loadFresh n (solveAll World.init cells) c.1 = .throw := by
    unfold loadFresh load
    apply loadFrom_throw
    · simp
    · simp
    · show ((solveAll World.init cells).store c.1).length < 0 + n
      omega
  simp [observe, this]

end

/-- Instance of C14: three cells solved in the order 5, 0, 2, loaded as 2, 5, 2. -/
example : observe (solveAll (World.init : World ℤ) [(5, [1, 2]), (0, [3, 4]), (2, [7, 8])])
    [(2, 2), (5, 2), (2, 2)] = .ok [[7, 8], [1, 2], [7, 8]] :=
  C14_loaded_is_saved [(5, [1, 2]), (0, [3, 4]), (2, [7, 8])] (by decide)
    [(2, [7, 8]), (5, [1, 2]), (2, [7, 8])] (by decide)

/-! ## C15 -/

section
variable {V : Type} [AddCommGroup V]

/-- **C15** (partial) Repeated loads are harmless when each goes through a fresh manager.
Missing: the same manager; that is false, see below. -/
theorem C15_fresh_loads_repeatable_partial (cells : List (ℕ × List V))
    (hn : (cells.map Prod.fst).Nodup) (c : ℕ × List V) (hc : c ∈ cells) (times : ℕ) :
    observe (solveAll World.init cells) (List.replicate times (c.1, c.2.length)) =
      .ok (List.replicate times c.2) := by
  have := C14_loaded_is_saved cells hn (List.replicate times c)
    (fun d hd => (List.eq_of_mem_replicate hd) ▸ hc)
  simpa using this

/-- **C15 is violated** For every cell with stored solutions, calling `load` a second time on the
same manager destroys the stored solutions: that manager, and every manager
constructed afterwards, sees only zeros. -/
theorem C15_violated_second_load (cells : List (ℕ × List V)) (hn : (cells.map Prod.fst).Nodup)
    (c : ℕ × List V) (hc : c ∈ cells) :
    ∃ w1 m1 w2 m2, loadFresh c.2.length (solveAll World.init cells) c.1 = .ok (w1, m1) ∧
      view w1 m1 = c.2 ∧
      load c.2.length w1 m1 = .ok (w2, m2) ∧
      view w2 m2 = List.replicate c.2.length 0 ∧
      observe w2 [(c.1, c.2.length)] = .ok [List.replicate c.2.length 0] := by
  obtain ⟨h1, h2, -⟩ := solveAll_spec (wf_init (V := V)) cells hn
  set w := solveAll World.init cells with hw
  have hst : w.stored c.1 = c.2 := by rw [h2 c hc]; simp [World.stored, World.init]
  have hlen : c.2.length = (w.store c.1).length := by rw [← hst, stored_length]
  rw [hlen]
  obtain ⟨w2, e1, e2, e3, e4⟩ := loadFrom_aliased (w.store c.1).length 0
    (newMgr w c.1 (w.store c.1).length).1 ⟨c.1, w.store c.1⟩ rfl (by simp)
  have hz : ∀ r ∈ w.store c.1, w2.mem r = 0 := by
    intro r hr
    rw [e4, if_pos (by simpa using hr)]
  have hv : (w.store c.1).map w2.mem = List.replicate (w.store c.1).length 0 := by
    rw [List.map_congr_left (g := fun _ => (0 : V)) hz, List.map_const']
  refine ⟨_, _, w2, ⟨c.1, w.store c.1⟩, loadFresh_eq _ _ le_rfl, ?_, ?_, hv, ?_⟩
  · rw [view_loadFresh h1, hst]
  · rw [List.take_length]; exact e1
  · have hs2 : w2.store c.1 = w.store c.1 := by rw [e2]; rfl
    have hwf2 : WF w2 := by
      have hwn := wf_newMgr h1 c.1 (w.store c.1).length
      exact ⟨by rw [e2, e3]; exact hwn.lt, by rw [e2]; exact hwn.nodup, by rw [e2]; exact hwn.disj⟩
    have := observe_stored w2 hwf2 [(c.1, List.replicate (w.store c.1).length 0)]
      (by
        intro d hd
        rw [List.mem_singleton] at hd
        subst hd
        show (w2.store c.1).map w2.mem = _
        rw [hs2]; exact hv)
    simpa using this

/-- **C15 is violated** also for `load` on the manager that saved. -/
theorem C15_violated_load_after_save (key : ℕ) (vals : List V) :
    ∃ w2 m2,
      load vals.length (solveCell World.init key vals) (newMgr (World.init : World V) key vals.length).2 =
        .ok (w2, m2) ∧ view w2 m2 = List.replicate vals.length 0 := by
  have hstore : (solveCell World.init key vals).store key =
      (newMgr (World.init : World V) key vals.length).2.slots := by
    obtain ⟨h1, -⟩ := writeAll_spec (newMgr (World.init : World V) key vals.length).1
      (newMgr (World.init : World V) key vals.length).2.slots vals List.nodup_range'
      (by simp [newMgr])
    have hk : (newMgr (World.init : World V) key vals.length).2.key = key := rfl
    simp only [solveCell, save]
    rw [h1, hk, if_pos rfl]
    rfl
  obtain ⟨w2, e1, -, -, e4⟩ := loadFrom_aliased vals.length 0 (solveCell World.init key vals)
    (newMgr (World.init : World V) key vals.length).2 hstore.symm (by simp [newMgr])
  refine ⟨w2, _, e1, ?_⟩
  simp only [view]
  have hl : (newMgr (World.init : World V) key vals.length).2.slots.length = vals.length := by
    simp [newMgr]
  rw [List.map_congr_left (g := fun _ => (0 : V)), List.map_const', hl]
  intro r hr
  rw [e4, if_pos]
  rw [List.drop_zero, List.take_of_length_le hl.le]
  exact hr

end

/-- Instance of C15: one cell holding 1, 2; after the second load everybody sees 0, 0. -/
example : ∃ w1 m1 w2 m2, loadFresh 2 (solveAll World.init [(4, [(1 : ℤ), 2])]) 4 = .ok (w1, m1) ∧
    view w1 m1 = [1, 2] ∧ load 2 w1 m1 = .ok (w2, m2) ∧ view w2 m2 = [0, 0] ∧
    observe w2 [(4, 2)] = .ok [[0, 0]] :=
  C15_violated_second_load [(4, [(1 : ℤ), 2])] (by decide) (4, [1, 2]) (by decide)

/-! ## C16 - C18 -/

section
variable {ι R : Type} [CommRing R] [DecidableEq ι] {n : ℕ}

/-- The stored list for one coarse cell: correctors of the coarse basis functions,
Neumann corrector, Dirichlet corrector (see C20 for the slots). -/
def corrList (Q : Fin n → ι → R) (N D : ι → R) : List (ι → R) := List.ofFn Q ++ [N, D]

omit [DecidableEq ι] in
theorem zip_ofFn_sum (c : Fin n → R) (refs : List ℕ) (mem : ℕ → ι → R) (Q : Fin n → ι → R)
    (N D : ι → R) (h : refs.map mem = corrList Q N D) :
    List.zipWith (fun c r => c • mem r) (List.ofFn c) refs = List.ofFn (fun i => c i • Q i) := by
  apply List.ext_getElem?
  intro i
  rw [List.getElem?_zipWith]
  have hi := congrArg (fun l => l[i]?) h
  simp only [List.getElem?_map, corrList] at hi
  by_cases hin : i < n
  · rw [List.getElem?_append_left (by simpa using hin)] at hi
    simp only [List.getElem?_ofFn, hin, dite_true] at hi ⊢
    cases hr : refs[i]? with
    | none => rw [hr] at hi; simp at hi
    | some r =>
      rw [hr] at hi
      simp only [Option.map_some, Option.some.injEq] at hi
      simp [hi]
  · simp [hin]

/-- what one reconstruction does to a well-formed world whose cell `k` holds `corrList Q N D` -/
theorem reconstruct_spec (w : World (ι → R)) (hw : WF w) (k over : ℕ) (visits : List (ι × Bool))
    (Q : Fin n → ι → R) (N D : ι → R) (c : Fin n → R) (hst : w.stored k = corrList Q N D) :
    ∃ w', reconstruct (n + 2) over visits w k (List.ofFn c) =
        .ok (w', (if over > 0 then cut visits (∑ i, c i • Q i) else ∑ i, c i • Q i) + D - N) ∧
      WF w' ∧ w'.stored k = corrList (fun i => c i • Q i) N D ∧
      ∀ k', k' ≠ k → w'.stored k' = w.stored k' := by
  have hlen : (w.store k).length = n + 2 := by rw [← stored_length, hst]; simp [corrList]
  unfold reconstruct
  rw [loadFresh_eq _ _ hlen.ge]
  simp only [Outcome.ok_bind]
  rw [List.take_of_length_le hlen.le]
  set w1 := (newMgr w k (n + 2)).1 with hw1
  have hwf1 : WF w1 := wf_newMgr hw _ _
  have hst1 : w1.stored k = corrList Q N D := by rw [hw1, newMgr_stored hw, hst]
  have hs1 : w1.store = w.store := rfl
  obtain ⟨w2, h1, h2, h3, h4, h5⟩ := accumulate_spec w1 ⟨k, w.store k⟩ 0 (List.ofFn c) 0
    (hw.nodup k) (by simp [hlen])
  simp only [List.drop_zero] at h1 h4 h5
  rw [zip_ofFn_sum c (w.store k) w1.mem Q N D hst1] at h1 h4
  rw [List.length_ofFn] at h5
  rw [h1]
  simp only [Outcome.ok_bind, List.length_ofFn, zero_add, List.sum_ofFn]
  have hget : ∀ i (hi : i < n + 2), w1.mem ((w.store k)[i]'(hlen ▸ hi)) =
      (corrList Q N D)[i]'(by simp [corrList]; omega) := by
    intro i hi
    have := congrArg (fun l => l[i]?) hst1
    simp only [World.stored, List.getElem?_map] at this
    rw [hs1, List.getElem?_eq_getElem (hlen ▸ hi), List.getElem?_eq_getElem
      (by simp [corrList]; omega)] at this
    simpa using this
  have hnot : ∀ i (hi : i < n + 2), n ≤ i → (w.store k)[i]'(hlen ▸ hi) ∉ (w.store k).take n := by
    intro i hi hni hmem
    obtain ⟨j, hj, hje⟩ := List.getElem_of_mem hmem
    rw [List.getElem_take] at hje
    rw [List.length_take] at hj
    have := (List.Nodup.getElem_inj_iff (hw.nodup k)).mp hje
    omega
  have hN : w2.mem ((w.store k)[n]'(by omega)) = N := by
    rw [h5 _ (hnot n (by omega) le_rfl), hget n (by omega)]
    simp [corrList]
  have hD : w2.mem ((w.store k)[n + 1]'(by omega)) = D := by
    rw [h5 _ (hnot (n + 1) (by omega) (by omega)), hget (n + 1) (by omega)]
    simp [corrList]
  rw [List.getElem?_eq_getElem (show n + 1 < (w.store k).length by omega),
    List.getElem?_eq_getElem (show n < (w.store k).length by omega)]
  simp only [hN, hD]
  have hwf2 : WF w2 := ⟨by rw [h2, h3]; exact hwf1.lt, by rw [h2]; exact hwf1.nodup,
    by rw [h2]; exact hwf1.disj⟩
  refine ⟨w2, rfl, hwf2, ?_, ?_⟩
  · unfold World.stored
    rw [h2, hs1]
    apply List.ext_getElem?
    intro i
    rw [List.getElem?_map]
    rcases Nat.lt_or_ge i n with hi | hi
    · have := congrArg (fun l => l[i]?) h4
      simp only [List.getElem?_zipWith, List.getElem?_ofFn, hi, dite_true] at this
      rw [List.getElem?_eq_getElem (show i < (w.store k).length by omega)] at this ⊢
      simp only [Option.some.injEq] at this
      rw [corrList, List.getElem?_append_left (by simpa using hi), List.getElem?_ofFn, dif_pos hi]
      simp only [Option.map_some]
      exact congrArg some this
    · rw [corrList, List.getElem?_append_right (by simpa using hi), List.length_ofFn]
      rcases Nat.lt_or_ge i (n + 2) with hi2 | hi2
      · have : i = n ∨ i = n + 1 := by omega
        rcases this with rfl | rfl
        · rw [List.getElem?_eq_getElem (by omega), Option.map_some, hN]; simp
        · rw [List.getElem?_eq_getElem (by omega), Option.map_some, hD]; simp
      · rw [List.getElem?_eq_none (by omega)]
        rw [List.getElem?_eq_none (by simp; omega)]
        rfl
  · intro k' hk'
    have : w2.stored k' = w1.stored k' := by
      unfold World.stored
      rw [h2]
      apply List.map_congr_left
      intro r hr
      apply h5
      intro hmem
      exact hw.disj k' k hk' r hr (List.mem_of_mem_take hmem)
    rw [this, hw1, newMgr_stored hw]

/-- **C16** Reconstruction after the local problems were solved: for every coarse
cell `key`, with correctors `Q i`, Neumann corrector `N`, Dirichlet corrector `D` and coarse
coefficients `c i`, the correction at degree of freedom `j` is `∑ c i * Q i j + D j - N j`;
with oversampling this holds where no visited point of `j` is found outside the coarse cell. -/
theorem C16_reconstruction (cells : List (ℕ × List (ι → R))) (hn : (cells.map Prod.fst).Nodup)
    (key over : ℕ) (visits : List (ι × Bool)) (Q : Fin n → ι → R) (N D : ι → R) (c : Fin n → R)
    (hc : (key, corrList Q N D) ∈ cells) :
    ∃ w' corr, reconstruct (n + 2) over visits (solveAll World.init cells) key (List.ofFn c) =
        .ok (w', corr) ∧
      ∀ j, (over = 0 ∨ ∀ b ∈ visits, b.1 = j → b.2 = true) →
        corr j = (∑ i, c i * Q i j) + D j - N j := by
  obtain ⟨h1, h2, -⟩ := solveAll_spec (wf_init (V := ι → R)) cells hn
  obtain ⟨w', e1, -⟩ := reconstruct_spec (solveAll World.init cells) h1 key over visits Q N D c
    (by rw [h2 _ hc]; simp [World.stored, World.init])
  refine ⟨w', _, e1, ?_⟩
  intro j hj
  simp only [Pi.add_apply, Pi.sub_apply]
  congr 2
  have hsum : (∑ i, c i • Q i) j = ∑ i, c i * Q i j := by
    rw [Finset.sum_apply]; rfl
  split_ifs with ho
  · rw [cut_apply, if_neg, hsum]
    rintro ⟨b, hb, hb1, hb2⟩
    rcases hj with hj | hj
    · omega
    · rw [hj b hb hb1] at hb2; cases hb2
  · exact hsum

/-- **C16** (all cells) Reconstructing the cells one after the other does not
disturb the cells still to come: the stored correctors of other cells are unchanged. -/
theorem C16_other_cells_undisturbed (cells : List (ℕ × List (ι → R)))
    (hn : (cells.map Prod.fst).Nodup)
    (key over : ℕ) (visits : List (ι × Bool)) (Q : Fin n → ι → R) (N D : ι → R) (c : Fin n → R)
    (hc : (key, corrList Q N D) ∈ cells) (w' : World (ι → R)) (corr : ι → R)
    (hr : reconstruct (n + 2) over visits (solveAll World.init cells) key (List.ofFn c) =
        .ok (w', corr)) (ls : List (ℕ × List (ι → R))) (hls : ∀ d ∈ ls, d ∈ cells ∧ d.1 ≠ key) :
    observe w' (ls.map fun d => (d.1, d.2.length)) = .ok (ls.map Prod.snd) := by
  obtain ⟨h1, h2, -⟩ := solveAll_spec (wf_init (V := ι → R)) cells hn
  obtain ⟨w'', e1, e2, -, e4⟩ := reconstruct_spec (solveAll World.init cells) h1 key over visits Q N D c
    (by rw [h2 _ hc]; simp [World.stored, World.init])
  rw [e1] at hr
  injection hr with hr
  injection hr with hr _
  subst hr
  apply observe_stored _ e2
  intro d hd
  rw [e4 _ (hls d hd).2, h2 _ (hls d hd).1]
  simp [World.stored, World.init]

/-- Instance of C16: two basis functions, three degrees of freedom, no oversampling. -/
example : ∃ w' corr, reconstruct 4 0 ([] : List (Fin 3 × Bool))
    (solveAll World.init [(7, corrList ![![1, 2, 3], ![4, 5, 6]] ![1, 1, 1] (![10, 20, 30] : Fin 3 → ℚ))])
      7 [2, 3] = .ok (w', corr) ∧ corr = ![23, 38, 53] := by
  obtain ⟨w', corr, h1, h2⟩ := C16_reconstruction (n := 2)
    [(7, corrList ![![1, 2, 3], ![4, 5, 6]] ![1, 1, 1] (![10, 20, 30] : Fin 3 → ℚ))] (by simp) 7 0 []
    _ _ _ ![2, 3] (List.mem_singleton_self _)
  refine ⟨w', corr, ?_, ?_⟩
  · rw [← h1]; rfl
  · funext j
    rw [h2 j (Or.inl rfl)]
    fin_cases j <;> norm_num [Fin.sum_univ_two]

/-! ### C17 -/

/-- **C17** Let every visited degree of freedom `j` sit at a point `pos j`. Cutting leaves the
values at points inside the coarse cell unchanged, and gives zero at every visited
point outside, whatever the visiting order and repetitions. -/
theorem C17_cut {P : Type} (pos : ι → P) (inside : P → Bool) (visited : List ι) (v : ι → R) (j : ι) :
    (inside (pos j) = true → cut (visited.map fun i => (i, inside (pos i))) v j = v j) ∧
    (inside (pos j) = false → j ∈ visited → cut (visited.map fun i => (i, inside (pos i))) v j = 0) ∧
    (j ∉ visited → cut (visited.map fun i => (i, inside (pos i))) v j = v j) := by
  refine ⟨fun h => ?_, fun h hj => ?_, fun hj => ?_⟩
  · rw [cut_apply, if_neg]
    rintro ⟨b, hb, hb1, hb2⟩
    obtain ⟨i, -, rfl⟩ := List.mem_map.mp hb
    dsimp only at hb1 hb2
    rw [hb1, h] at hb2; cases hb2
  · rw [cut_apply, if_pos]
    exact ⟨(j, inside (pos j)), List.mem_map.mpr ⟨j, hj, rfl⟩, rfl, h⟩
  · rw [cut_apply, if_neg]
    rintro ⟨b, hb, hb1, -⟩
    obtain ⟨i, hi, rfl⟩ := List.mem_map.mp hb
    exact hj (hb1 ▸ hi)

/-- **C17** (order and repetition) Cutting depends only on the set of visits, and cutting
twice is cutting once. -/
theorem C17_order_irrelevant (vis vis' : List (ι × Bool)) (h : ∀ b, b ∈ vis ↔ b ∈ vis') (v : ι → R) :
    cut vis v = cut vis' v ∧ cut vis (cut vis v) = cut vis v := by
  constructor
  · funext j
    simp only [cut_apply, h]
  · funext j
    rw [cut_apply, cut_apply]
    split_ifs <;> rfl

/-- Instance of C17: points 0, 1/2, 1, 3/2 (in half units) and the coarse cell [0, 1]; the third is
shared by two elements and visited twice. -/
example : cut ([0, 1, 2, 2, 3].map fun i : Fin 4 => (i, decide ((![0, 1, 2, 3] : Fin 4 → ℕ) i ≤ 2)))
    (![5, 6, 7, 8] : Fin 4 → ℤ) = ![5, 6, 7, 0] := by
  funext j
  fin_cases j <;> rfl

/-! ### C18 -/

/-- A second reconstruction of the same cell uses the coefficients squared. -/
theorem C18_second_run (cells : List (ℕ × List (ι → R))) (hn : (cells.map Prod.fst).Nodup)
    (key : ℕ) (visits : List (ι × Bool)) (Q : Fin n → ι → R) (N D : ι → R) (c : Fin n → R)
    (hc : (key, corrList Q N D) ∈ cells) :
    ∃ w1 w2 corr1 corr2,
      reconstruct (n + 2) 0 visits (solveAll World.init cells) key (List.ofFn c) = .ok (w1, corr1) ∧
      reconstruct (n + 2) 0 visits w1 key (List.ofFn c) = .ok (w2, corr2) ∧
      (∀ j, corr1 j = (∑ i, c i * Q i j) + D j - N j) ∧
      (∀ j, corr2 j = (∑ i, c i ^ 2 * Q i j) + D j - N j) := by
  obtain ⟨h1, h2, -⟩ := solveAll_spec (wf_init (V := ι → R)) cells hn
  obtain ⟨w1, e1, e2, e3, -⟩ := reconstruct_spec (solveAll World.init cells) h1 key 0 visits Q N D c
    (by rw [h2 _ hc]; simp [World.stored, World.init])
  obtain ⟨w2, f1, -⟩ := reconstruct_spec w1 e2 key 0 visits _ N D c e3
  refine ⟨w1, w2, _, _, e1, f1, fun j => ?_, fun j => ?_⟩
  · simp [Finset.sum_apply]
  · simp only [Pi.add_apply, Pi.sub_apply]
    congr 2
    simp only [gt_iff_lt, lt_self_iff_false, if_false, Finset.sum_apply, Pi.smul_apply, smul_eq_mul]
    exact Finset.sum_congr rfl fun i _ => by ring

/-- **C18** (partial) The repeated reconstruction agrees at `j` exactly if the difference
`∑ (c i ^ 2 - c i) * Q i j` vanishes, in particular if all coefficients are 0 or 1.
Missing: equality for all coefficients, which is false. -/
theorem C18_repeat_agrees_partial (cells : List (ℕ × List (ι → R))) (hn : (cells.map Prod.fst).Nodup)
    (key : ℕ) (visits : List (ι × Bool)) (Q : Fin n → ι → R) (N D : ι → R) (c : Fin n → R)
    (hc : (key, corrList Q N D) ∈ cells) (w1 w2 : World (ι → R)) (corr1 corr2 : ι → R)
    (r1 : reconstruct (n + 2) 0 visits (solveAll World.init cells) key (List.ofFn c) = .ok (w1, corr1))
    (r2 : reconstruct (n + 2) 0 visits w1 key (List.ofFn c) = .ok (w2, corr2)) (j : ι) :
    corr2 j = corr1 j ↔ ∑ i, (c i ^ 2 - c i) * Q i j = 0 := by
  obtain ⟨w1', w2', a, b, h1, h2, h3, h4⟩ := C18_second_run cells hn key visits Q N D c hc
  rw [h1] at r1
  injection r1 with r1
  injection r1 with ra rb
  subst ra; subst rb
  rw [h2] at r2
  injection r2 with r2
  injection r2 with ra rb
  subst ra; subst rb
  rw [h3, h4]
  simp only [sub_mul, Finset.sum_sub_distrib]
  rw [sub_eq_zero]
  constructor
  · intro h
    have : ∀ x y d e : R, x + d - e = y + d - e → x = y := by
      intro x y d e h
      have := congrArg (fun t => t + e - d) h
      simpa using this
    exact this _ _ _ _ h
  · intro h; rw [h]

/-- **C18 is violated**: coefficient 2, corrector 1: first 2, then 4. -/
theorem C18_violated :
    ∃ w1 w2 corr1 corr2,
      reconstruct 3 0 [] (solveAll (World.init : World (Fin 1 → ℚ)) [(0, [![1], ![0], ![0]])]) 0 [2] =
        .ok (w1, corr1) ∧
      reconstruct 3 0 [] w1 0 [2] = .ok (w2, corr2) ∧ corr1 0 = 2 ∧ corr2 0 = 4 := by
  obtain ⟨w1, w2, a, b, h1, h2, h3, h4⟩ := C18_second_run (n := 1)
    [(0, corrList ![![1]] ![0] (![0] : Fin 1 → ℚ))] (by simp) 0 [] _ _ _ ![2] (List.mem_singleton_self _)
  refine ⟨w1, w2, a, b, h1, h2, ?_, ?_⟩
  · rw [h3]; norm_num
  · rw [h4]; norm_num

end

end Verif.Manager
