import Verif.Model.LayeredThreads
import Verif.Props.OversampledRun
import Verif.Props.Threads

/-!
# C85: runs with oversampling in several threads
-/

namespace Verif.Oversampling
open Matrix Verif.Q1Grid Verif.LocalAssembly Verif.Pipeline

variable {d : ℕ}

/-- **C85** (whole runs with oversampling) The result does not depend on the schedules of the threads: it is that of the run in one thread,
whether the run succeeds or not. -/
theorem C85_same_layers (O : Layered d) (hO : O.Admissible) (B : O.Boundary) (P : Data d ℚ) (m : O.Machine) (hm : O.Works B P m)
    (schedule loadSchedule : List ℕ) (hsolve : ∀ t, t < O.base.order.length → 2 * (2 ^ d + 2) + 3 ≤ schedule.count t)
    (hload : ∀ t, t < 2 * O.base.order.length → 2 * (2 ^ d + 2) + 2 ≤ loadSchedule.count t) :
    O.applyThreads B P m schedule loadSchedule = O.apply B P m := by
  cases hl : O.localSolutions B P m with
  | throw => unfold Layered.applyThreads Layered.apply; rw [hl]; rfl
  | ub => unfold Layered.applyThreads Layered.apply; rw [hl]; rfl
  | ok cells =>
  have hxs : ∀ J, ∃ xs, O.patches.solve J (B.constrained J) (O.localNeumann B P.neumann J) (m.valid J) (m.solvers J) true m.walks P.flux
      (O.extension B P) = .ok xs := by
    intro J
    obtain ⟨y, hy⟩ := mapM_mem _ _ _ hl J (hO.base.order_complete J)
    cases hs : O.patches.solve J (B.constrained J) (O.localNeumann B P.neumann J) (m.valid J) (m.solvers J) true m.walks P.flux
        (O.extension B P) with
    | throw => rw [hs] at hy; cases hy
    | ub => rw [hs] at hy; cases hy
    | ok xs => exact ⟨xs, rfl⟩
  choose xs0 hxs using hxs
  choose Q qN qD hcl hcorr using fun J => correctors_of_run O hO B P m hm J (xs0 J) (hxs J)
  have hrun : ∀ J, O.patches.solve J (B.constrained J) (O.localNeumann B P.neumann J) (m.valid J) (m.solvers J) true m.walks P.flux
      (O.extension B P) = .ok (Manager.corrList (Q J) (qN J) (qD J)) := fun J => by rw [hxs J, hcl J]
  rw [run_eq O hO B P m hm.index_injective Q qN qD hrun]
  set xs : O.Coarse → List (O.Point → ℚ) := fun J =>
    Manager.corrList (fun k => O.embed J (Q J k)) (O.embed J (qN J)) (O.embed J (qD J)) with hxsdef
  have hl' : O.localSolutions B P m = .ok (O.base.order.map fun J => (m.index J, xs J)) :=
    mapM_ok _ _ _ fun J _ => by
      rw [hrun J, Outcome.ok_bind, map_corrList]
      rfl
  have hlen : ∀ J, (xs J).length = 2 ^ d + 2 := fun J => by simp [hxsdef, Manager.corrList]
  unfold Layered.applyThreads
  rw [hl', Outcome.ok_bind]
  set cs := O.base.order.map fun J => (m.index J, xs J) with hcs
  have hkeys : (cs.map Prod.fst).Nodup := by
    rw [hcs, List.map_map]
    exact hO.order_nodup.map hm.index_injective
  have hdone : ∀ t, t < cs.length → (Manager.solveThreads cs .init schedule).task t = .finished := by
    intro t ht
    have ht' : t < O.base.order.length := by simpa [hcs] using ht
    refine Manager.C85_finishes cs hkeys _ (fun _ => rfl) schedule t cs[t] (List.getElem?_eq_getElem ht) ?_
    have : cs[t].2.length = 2 ^ d + 2 := by simp [hcs, hlen]
    rw [this]
    exact hsolve t ht'
  set ls : List (ℕ × List (O.Point → ℚ)) := O.base.order.flatMap fun J => [(m.index J, xs J), (m.index J, xs J)] with hls
  have hmem : ∀ c ∈ ls, c ∈ cs := by
    intro c hc
    obtain ⟨J, hJ, h⟩ := List.mem_flatMap.mp hc
    have : c = (m.index J, xs J) := by simpa using h
    exact List.mem_map.mpr ⟨J, hJ, this.symm⟩
  have hloads : (ls.map fun c => (c.1, c.2.length)) = O.base.order.flatMap fun J => [(m.index J, 2 ^ d + 2), (m.index J, 2 ^ d + 2)] := by
    rw [hls, List.map_flatMap]
    simp [hlen]
  obtain ⟨hwf, hstored⟩ := Manager.threads_stored cs hkeys _ (fun _ => rfl) schedule hdone
  obtain ⟨h1, -⟩ := Manager.C85_loads cs hkeys .init (fun _ => rfl) schedule hdone ls hmem loadSchedule
  have hinv := Manager.loadInv_threads (Manager.solveThreads cs .init schedule).world (ls.map fun c => (c.1, c.2.length)) loadSchedule
  dsimp only
  rw [← hloads]
  set s := Manager.loadThreads (ls.map fun c => (c.1, c.2.length)) (Manager.solveThreads cs .init schedule).world loadSchedule with hs
  have hlslen : ls.length = 2 * O.base.order.length := by simp [hls, mul_comm]
  have hres : (List.range (ls.map fun c => (c.1, c.2.length)).length).mapM s.result = .ok (ls.map Prod.snd) := by
    have : ls.map Prod.snd = (List.range (ls.map fun c => (c.1, c.2.length)).length).map fun t => (ls.map Prod.snd).getD t [] := by
      apply List.ext_getElem
      · simp
      · intro i hi hi'
        have hi2 : i < ls.length := by simpa using hi
        simp [hi2]
    rw [this]
    refine mapM_ok _ _ _ fun t ht => ?_
    rw [List.mem_range, List.length_map] at ht
    have htc : ls[t]? = some ls[t] := List.getElem?_eq_getElem ht
    obtain ⟨g1, g2, g3⟩ := h1 t _ htc
    have hlc : (ls.map fun c => (c.1, c.2.length))[t]? = some (ls[t].1, ls[t].2.length) := by rw [List.getElem?_map, htc]; rfl
    have hl2 : ls[t].2.length = 2 ^ d + 2 := by
      obtain ⟨J, -, e⟩ := List.mem_map.mp (hmem _ (List.getElem_mem ht))
      rw [← e]
      exact hlen J
    obtain h | ⟨mg, hmg⟩ := Manager.loads_finish (Manager.solveThreads cs .init schedule).world (ls.map fun c => (c.1, c.2.length)) loadSchedule t _ hlc (by
      show 2 * ls[t].2.length + 2 ≤ _
      rw [hl2]
      exact hload t (by omega))
    · exact absurd h g1
    · have hmg' : s.task t = .loaded mg := hmg
      rw [Manager.LoadState.result, hmg']
      dsimp only
      rw [g3 mg hmg']
      simp [ht]
  rw [hres, Outcome.ok_bind]
  have hsnd : ls.map Prod.snd = (O.base.order.flatMap fun J => [(J, xs J), (J, xs J)]).map Prod.snd := by
    rw [hls, List.map_flatMap, List.map_flatMap]
    simp
  rw [hsnd]
  refine run_rest_eq O hO B P m hm.index_injective Q qN qD xs hxsdef s.world ?_ fun J => ?_
  · refine ⟨fun k r hr => ?_, fun k => ?_, fun k k' hk r hr => ?_⟩
    · rw [hinv.store] at hr
      exact lt_of_lt_of_le (hwf.lt k r hr) hinv.next
    · rw [hinv.store]
      exact hwf.nodup k
    · rw [hinv.store] at hr ⊢
      exact hwf.disj k k' hk r hr
  · have h2 : (Manager.solveThreads cs .init schedule).world.stored (m.index J) = xs J :=
      hstored (m.index J, xs J) (List.mem_map.mpr ⟨J, hO.base.order_complete J, rfl⟩)
    rw [← h2, Manager.World.stored, Manager.World.stored, hinv.store]
    exact List.map_congr_left fun r hr => hinv.mem r (hwf.lt _ r hr)

/-- Instance: the unit square with any number of layers up to the size of a coarse cell; the threads take turns. -/
example (N m o : ℕ) (hN : 0 < N) (hm : 2 ≤ m) (ho : o ≤ m) (f g : (Fin 2 → ℚ) → ℚ) : ∃ (O : Layered 2) (B : O.Boundary) (mach : O.Machine),
    O.base = demoSetup 2 N m ∧ O.layers = o ∧ let P : Data 2 ℚ := ⟨fun _ => 1, fun _ v => v, f, fun _ => 0, g⟩
    ∃ u res, O.apply B P mach = .ok (u, res) ∧ O.applyThreads B P mach (List.replicate 15 (List.range O.base.order.length)).flatten
      (List.replicate 14 (List.range (2 * O.base.order.length))).flatten = .ok (u, res) := by
  let O : Layered 2 := ⟨demoSetup 2 N m, o, fun e => (Finset.univ : Finset (CellIndex e)).toList, 0⟩
  let B : O.Boundary := ⟨fun g => decide ((g 0).1 = 0 ∨ (g 0).1 = N),
    fun J g => decide (∃ i, (g i).1 = 0 ∨ (g i).1 = (O.patches.grid J).elements i), [], fun _ => []⟩
  let P : Data 2 ℚ := ⟨fun _ => 1, fun _ v => v, f, fun _ => 0, g⟩
  have hb := demo_admissible 2 N m hN (by omega)
  have hO : O.Admissible := ⟨hb, Finset.nodup_toList _, Finset.nodup_toList _,
    ⟨hb.width_pos, hb.cells_pos, hb.micro_pos, fun _ => Or.inr ho, by simp [O], by simp [O, Finset.nodup_toList], le_refl _⟩, by simp [O]⟩
  have hu : O.Unique B P := ⟨le_refl _, hO, demo_resolving 2 N m, demo_resolving 2 N m, demo_definite 2, fun J node h => decide_eq_true h,
    ⟨0, hm⟩, ⟨fun _ => 0, ⟨0, Or.inl rfl⟩, decide_eq_true (p := (0 : ℕ) = 0 ∨ (0 : ℕ) = N) (Or.inl rfl)⟩⟩
  obtain ⟨mach, hw, u, res, h⟩ := C86_run_exists O B P hu fun x v => (one_mulVec v).symm
  refine ⟨O, B, mach, rfl, rfl, u, res, h, ?_⟩
  rw [C85_same_layers O hO B P mach hw _ _ (fun t ht => ?_) fun t ht => ?_]
  · exact h
  · rw [round_robin_count _ _ _ ht]
    norm_num
  · rw [round_robin_count _ _ _ ht]
    norm_num

end Verif.Oversampling
