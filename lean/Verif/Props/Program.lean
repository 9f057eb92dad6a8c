import Verif.Model.Program
import Mathlib.Tactic.Common
import Mathlib.Data.Fintype.Basic

/-!
# C51: exit status
-/

namespace Verif.Program

/-- **C51** The process returns zero only if nothing was thrown out of the body, provided aborting does not give
zero; an exception of either kind leads to the abort code. -/
theorem C51_exit_zero_iff (abortCode : ℤ) (h : abortCode ≠ 0) (b : Body) :
    exitOf abortCode b = .code 0 ↔ b = .normal := by
  cases b <;> simp [exitOf, h]

/-- **C51** (one process) Every exception derived from `Dune::Exception` or `std::exception` leads to the abort. -/
theorem C51_exception_aborts (abortCode : ℤ) (b : Body) (h : b = .dune ∨ b = .std) :
    exitOf abortCode b = .code abortCode := by
  rcases h with rfl | rfl <;> rfl

variable {r : ℕ}

/-- Reachable states: everybody has dropped the same number of actions, which were the same collective
operations. -/
theorem reaches_drop {a b : State r} (h : Reaches a b) :
    ∃ k, (∀ i, b i = (a i).drop k) ∧ ∀ j < k, ∃ c, ∀ i, (a i)[j]? = some (.coll c) := by
  induction h with
  | refl => exact ⟨0, fun i => by simp, fun j hj => absurd hj (Nat.not_lt_zero j)⟩
  | @tail b c _ hs ih =>
    obtain ⟨k, h1, h2⟩ := ih
    obtain ⟨op, hop⟩ := hs
    refine ⟨k + 1, fun i => ?_, fun j hj => ?_⟩
    · have := h1 i
      rw [hop i] at this
      rw [← List.drop_drop, ← this]
      rfl
    · rcases Nat.lt_succ_iff_lt_or_eq.mp hj with hj | rfl
      · exact h2 j hj
      · refine ⟨op, fun i => ?_⟩
        have := h1 i
        rw [hop i] at this
        have h3 : ((a i).drop j).head? = some (.coll op) := by rw [← this]; rfl
        rw [List.head?_drop] at h3
        exact h3

/-- Executing common collective operations. -/
theorem reaches_append (s : List Coll) (t : State r) : Reaches (fun i => s.map .coll ++ t i) t := by
  induction s with
  | nil => exact Relation.ReflTransGen.refl
  | cons c s ih => exact Relation.ReflTransGen.head ⟨c, fun i => rfl⟩ ih

/-- **C51** If no process fails, all return zero. -/
theorem C51_success (s : List Coll) :
    ∃ b : State r, Reaches (fun _ => process s none) b ∧ Success b :=
  ⟨fun _ => [.exit], reaches_append s _, fun _ => rfl⟩

/-- **C51** A process which gets to return zero has not failed. -/
theorem C51_zero_means_no_exception (s : List Coll) (fails : Fin r → Option ℕ) (b : State r)
    (h : Reaches (fun i => process s (fails i)) b) (i : Fin r) (hb : Act.exit ∈ b i) : fails i = none := by
  obtain ⟨k, h1, -⟩ := reaches_drop h
  rw [h1 i] at hb
  have := List.mem_of_mem_drop hb
  cases hf : fails i with
  | none => rfl
  | some n =>
    rw [hf] at this
    rcases List.mem_append.mp this with h' | h'
    · obtain ⟨c, -, hc⟩ := List.mem_map.mp h'
      cases hc
    · simp [handler] at h'

/-- **C51** (partial: all processes fail at the same point, in particular with one process) The run is
aborted. -/
theorem C51_all_fail_partial (s : List Coll) (n : ℕ) (hr : 0 < r) :
    ∃ b : State r, Reaches (fun _ => process s (some n)) b ∧ Aborted b := by
  refine ⟨fun _ => [.abort], ?_, ⟨0, hr⟩, rfl⟩
  have h1 := reaches_append (r := r) (s.take n) (fun _ => handler)
  exact h1.trans (reaches_append [.maxLong, .sumLong] (fun _ => [.abort]))

/-- The action of a process after the first `n` collective operations, if it has not failed before. -/
theorem process_get (s : List Coll) (f : Option ℕ) (n : ℕ) (hn : n < s.length)
    (hf : ∀ m, f = some m → n < m) : (process s f)[n]? = some (.coll s[n]) := by
  cases f with
  | none =>
    show (s.map Act.coll ++ [.exit])[n]? = _
    rw [List.getElem?_append_left (by simpa using hn)]
    simp [hn]
  | some m =>
    have := hf m rfl
    show ((s.take m).map Act.coll ++ handler)[n]? = _
    rw [List.getElem?_append_left (by simp; omega)]
    simp [this, hn]

theorem process_get_fail (s : List Coll) (n : ℕ) (hn : n ≤ s.length) (k : ℕ) :
    (process s (some n))[n + k]? = handler[k]? := by
  show ((s.take n).map Act.coll ++ handler)[n + k]? = _
  rw [List.getElem?_append_right (by simp)]
  congr 1
  simp
  omega

/-- **C51** (the negation, in general) If some process fails after `n` collective operations, no process fails
earlier, and another one that does not fail there next calls a collective operation other than the maximum
of `long`s, then the run is never aborted and never succeeds: the failing process waits in `mem_usage` for
the others. -/
theorem C51_violated_general (s : List Coll) (fails : Fin r → Option ℕ) (n : ℕ) (hn : n < s.length)
    (i j : Fin r) (hi : fails i = some n) (hj : ∀ m, fails j = some m → n < m)
    (hmin : ∀ k m, fails k = some m → n ≤ m) (hle : ∀ k m, fails k = some m → m ≤ s.length)
    (hs : s[n] ≠ .maxLong) (b : State r) (h : Reaches (fun k => process s (fails k)) b) :
    ¬ Aborted b ∧ ¬ Success b := by
  obtain ⟨k, h1, h2⟩ := reaches_drop h
  have hk : k ≤ n := by
    by_contra hk
    obtain ⟨c, hc⟩ := h2 n (by omega)
    have e1 := hc i
    rw [hi] at e1
    have e3 := process_get_fail s n hn.le 0
    rw [Nat.add_zero] at e3
    rw [e3] at e1
    have e2 := hc j
    rw [process_get s (fails j) n hn hj] at e2
    simp only [handler, List.getElem?_cons_zero, Option.some.injEq, Act.coll.injEq] at e1 e2
    exact hs (e2.trans e1.symm)
  refine ⟨?_, fun hsu => ?_⟩
  · rintro ⟨l, hl⟩
    rw [h1 l, List.head?_drop] at hl
    cases hf : fails l with
    | none =>
      rw [hf] at hl
      rw [process_get s none k (by omega) (by simp)] at hl
      simp at hl
    | some m =>
      rw [hf] at hl
      have hm := hmin l m hf
      rcases Nat.lt_or_ge k m with hkm | hkm
      · rw [process_get s (some m) k (by omega) (fun m' h' => by cases h'; exact hkm)] at hl
        simp at hl
      · have hme : m = k := by omega
        subst hme
        have e3 := process_get_fail s m (hle l m hf) 0
        rw [Nat.add_zero] at e3
        rw [e3] at hl
        simp [handler] at hl
  · have h3 : Act.exit ∈ b i := by rw [hsu i]; simp
    have := C51_zero_means_no_exception s fails b h i h3
    rw [hi] at this
    cases this

/-- **C51** (the negation, concretely) Two processes, one of which fails before the barrier at
coarse_scale_operator.cc:102 while the other gets there: the run neither aborts nor ends. -/
theorem C51_violated : ∃ fails : Fin 2 → Option ℕ, fails 0 = some 0 ∧
    ∀ b : State 2, Reaches (fun k => process (msfemColls [.barrier]) (fails k)) b →
      ¬ Aborted b ∧ ¬ Success b := by
  refine ⟨fun k => if k = 0 then some 0 else none, rfl, fun b h => ?_⟩
  refine C51_violated_general (msfemColls [.barrier]) _ 0 (by decide) 0 1 rfl (by simp) (by simp) ?_
    (by decide) b h
  intro k m hk
  split_ifs at hk
  cases hk
  exact Nat.zero_le _

/-- **C51** (the negation for `msfem`, after the algorithm) If one process fails after the last collective operation of the
algorithm (for instance when writing its files) and another one does not fail, the run neither aborts nor ends:
the failing process waits in the maximum of `long`s, the other one in the maximum of `double`s. -/
theorem C51_violated_msfem_late (algo : List Coll) (fails : Fin r → Option ℕ) (i j : Fin r)
    (hi : fails i = some algo.length) (hj : fails j = none)
    (hall : ∀ k m, fails k = some m → m = algo.length) (b : State r)
    (h : Reaches (fun k => process (msfemColls algo) (fails k)) b) : ¬ Aborted b ∧ ¬ Success b := by
  have hlen : (msfemColls algo).length = algo.length + 3 := by simp [msfemColls]
  refine C51_violated_general (msfemColls algo) fails algo.length (by omega) i j hi (by simp [hj])
    (fun k m hk => (hall k m hk).ge) (fun k m hk => by rw [hall k m hk]; omega) ?_ b h
  simp [msfemColls]

/-- **C51** (partial: `cgfem`, after the algorithm) There a failing process meets the others in the memory statistics and
then aborts the run. -/
theorem C51_cgfem_late_partial (algo : List Coll) (fails : Fin r → Option ℕ) (i : Fin r)
    (hi : fails i = some algo.length) (hall : ∀ k m, fails k = some m → m = algo.length) :
    ∃ b : State r, Reaches (fun k => process (cgfemColls algo) (fails k)) b ∧ Aborted b := by
  refine ⟨fun k => if fails k = none then [.exit] else [.abort], ?_, i, by simp [hi]⟩
  have e : (fun k => process (cgfemColls algo) (fails k)) =
      fun k => (cgfemColls algo).map .coll ++ if fails k = none then [.exit] else [.abort] := by
    funext k
    cases hk : fails k with
    | none => simp [process]
    | some m =>
      rw [hall k m hk]
      simp [process, cgfemColls, handler]
  rw [e]
  exact reaches_append _ _

/-- Non-vacuity of the two statements on late failures: two processes, the first of which fails. -/
example : ∃ fails : Fin 2 → Option ℕ, fails 0 = some [Coll.barrier].length ∧ fails 1 = none ∧
    ∀ k m, fails k = some m → m = [Coll.barrier].length := by
  refine ⟨fun k => if k = 0 then some 1 else none, rfl, by simp, fun k m h => ?_⟩
  simp only at h
  split_ifs at h
  exact (Option.some.inj h).symm

/-- Non-vacuity of `C51_all_fail_partial`: one process failing in the middle. -/
example : ∃ b : State 1, Reaches (fun _ => process (cgfemColls [.barrier, .other 0]) (some 1)) b ∧ Aborted b :=
  C51_all_fail_partial _ 1 Nat.one_pos

end Verif.Program
