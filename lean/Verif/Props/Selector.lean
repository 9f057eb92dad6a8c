import Verif.Model.Selector
import Mathlib.Data.List.Basic

/-!
# C33: problem selection
-/

namespace Verif.Selector

/-- Specification: the documented names. -/
inductive Named : String → Problem → Prop
  | synthetic : Named "Synthetic" .synthetic
  | random : Named "Random" .random
  | spe10 : Named "SPE10" .spe10
  | tarbert : Named "Tarbert" .tarbert
  | er2007 : Named "ER2007" .er2007

theorem find_iff (p : Part) (name : String) (q : Problem) : find (mkMap p) name = some q ↔ Named name q := by
  constructor
  · intro h
    unfold find mkMap at h
    simp only [List.find?_cons, List.find?_nil] at h
    split at h
    next e => rw [beq_iff_eq] at e; subst e; cases h; exact .synthetic
    next =>
    split at h
    next e => rw [beq_iff_eq] at e; subst e; cases h; exact .random
    next =>
    split at h
    next e => rw [beq_iff_eq] at e; subst e; cases h; exact .spe10
    next =>
    split at h
    next e => rw [beq_iff_eq] at e; subst e; cases h; exact .tarbert
    next =>
    split at h
    next e => rw [beq_iff_eq] at e; subst e; cases h; exact .er2007
    next => cases h
  · intro h
    cases h <;> rfl

theorem find_none_iff (p : Part) (name : String) : find (mkMap p) name = none ↔ ¬ ∃ q, Named name q := by
  rw [← Option.not_isSome_iff_eq_none, Option.isSome_iff_exists]
  simp only [find_iff]

/-- The invariant of the initialiser list for a registered name. -/
theorem makeAll_named (env : Env) (name : String) (q : Problem) (h : Named name q) (ps : List Part)
    (acc : Part → Problem) (trace : List (Part × Problem)) :
    ∃ k, (makeAll env name ps acc trace).2 = trace ++ (ps.take k).map (fun p => (p, q)) ∧
      (makeAll env name ps acc trace).1 ≠ .invalidState ∧
      (∀ parts, (makeAll env name ps acc trace).1 = .built parts →
        k = ps.length ∧ ∀ p, parts p = if p ∈ ps then q else acc p) := by
  induction ps generalizing acc trace with
  | nil =>
    refine ⟨0, by simp [makeAll], ?_, fun parts hp => ⟨rfl, fun p => ?_⟩⟩
    · unfold makeAll; split_ifs <;> simp
    · unfold makeAll at hp
      split_ifs at hp
      · cases hp; simp
  | cons p ps ih =>
    have hf := (find_iff p name q).mpr h
    by_cases hc : env.ctorThrows p q = true
    · have hm : makeF env p name trace = (.error .other, trace ++ [(p, q)]) := by
        simp [makeF, hf, hc]
      refine ⟨1, ?_, ?_, fun parts hp => ?_⟩
      · unfold makeAll; rw [hm]; simp
      · unfold makeAll; rw [hm]; simp
      · unfold makeAll at hp; rw [hm] at hp; cases hp
    · have hm : makeF env p name trace = (.ok q, trace ++ [(p, q)]) := by
        simp [makeF, hf, hc]
      obtain ⟨k, h1, h2, h3⟩ := ih (fun p' => if p' = p then q else acc p') (trace ++ [(p, q)])
      refine ⟨k + 1, ?_, ?_, fun parts hp => ?_⟩
      · unfold makeAll; rw [hm]; simp [h1]
      · unfold makeAll; rw [hm]; exact h2
      · unfold makeAll at hp; rw [hm] at hp
        obtain ⟨h4, h5⟩ := h3 parts hp
        refine ⟨by rw [h4, List.length_cons], fun p' => ?_⟩
        rw [h5]
        by_cases e : p' = p
        · simp [e]
        · simp [e]

/-- **C33** A name that is not registered is rejected with the invalid-state error before any constructor is
called. -/
theorem C33_rejected (env : Env) (name : String) (h : ¬ ∃ q, Named name q) :
    container env (some name) = (.invalidState, []) := by
  have hf := (find_none_iff .data name).mpr h
  show makeAll env name _ _ _ = _
  unfold makeAll makeF
  rw [hf]

/-- **C33** For a registered name the lookup never fails; every constructor called is one of the named problem,
in the order of the members, each at most once; and if the construction succeeds all six parts were constructed
and belong to the named problem. -/
theorem C33_accepted (env : Env) (name : String) (q : Problem) (h : Named name q) :
    (container env (some name)).1 ≠ .invalidState ∧
    (∃ k, (container env (some name)).2 =
      (([.data, .source, .exactSolution, .diffusion, .dirichlet, .neumann] : List Part).take k).map
        fun p => (p, q)) ∧
    (∀ parts, (container env (some name)).1 = .built parts →
      (container env (some name)).2.length = 6 ∧ ∀ p, parts p = q) := by
  obtain ⟨k, h1, h2, h3⟩ := makeAll_named env name q h
    [.data, .source, .exactSolution, .diffusion, .dirichlet, .neumann] (fun _ => .synthetic) []
  refine ⟨h2, ⟨k, h1⟩, fun parts hp => ?_⟩
  obtain ⟨h4, h5⟩ := h3 parts hp
  refine ⟨?_, fun p => ?_⟩
  · have h6 : (container env (some name)).2 = _ := h1
    rw [h6, h4]; rfl
  · rw [h5]; cases p <;> rfl

/-- **C33** The lookup succeeds exactly for the registered names. -/
theorem C33_lookup_iff (env : Env) (name : String) :
    (container env (some name)).1 ≠ .invalidState ↔ ∃ q, Named name q := by
  constructor
  · intro h
    by_contra hn
    exact h (by rw [C33_rejected env name hn])
  · rintro ⟨q, hq⟩
    exact (C33_accepted env name q hq).1

/-- **C33** If no constructor throws, a registered name gives a container. -/
theorem C33_total (env : Env) (h1 : ∀ p q, env.ctorThrows p q = false) (h2 : ∀ q, env.initThrows q = false)
    (name : String) (q : Problem) (h : Named name q) :
    ∃ parts, (container env (some name)).1 = .built parts ∧ ∀ p, parts p = q := by
  have hne : ∃ parts, (container env (some name)).1 = .built parts := by
    simp [container, makeAll, makeF, (find_iff _ name q).mpr h, h1, h2]
  obtain ⟨parts, hp⟩ := hne
  exact ⟨parts, hp, ((C33_accepted env name q h).2.2 parts hp).2⟩

/-- **C33** Without a name the synthetic problem is taken. -/
theorem C33_default (env : Env) : container env none = container env (some "Synthetic") := rfl

/-- Two names of the same problem are equal: the registration is unambiguous. -/
theorem C33_name_unique (m n : String) (q : Problem) (h1 : Named m q) (h2 : Named n q) : m = n := by
  cases h1 <;> cases h2 <;> rfl

/-- Non-vacuity: the problem Thirteen of the repository is not registered, nor is a lower case name. -/
example (env : Env) : container env (some "Thirteen") = (.invalidState, []) :=
  C33_rejected env _ ((find_none_iff .data _).mp rfl)
example (env : Env) : container env (some "spe10") = (.invalidState, []) :=
  C33_rejected env _ ((find_none_iff .data _).mp rfl)

/-- Non-vacuity: a constructor that throws (the permeability file is missing, say) stops the construction. -/
example : container ⟨fun p q => p = .diffusion && q = .tarbert, fun _ => false⟩ (some "Tarbert") =
    (.other, [(.data, .tarbert), (.source, .tarbert), (.exactSolution, .tarbert), (.diffusion, .tarbert)]) :=
  rfl

end Verif.Selector
