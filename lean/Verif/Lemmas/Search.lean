import Verif.Model.Search
import Mathlib.Tactic.Linarith
import Mathlib.Tactic.Ring
import Mathlib.Tactic.Push

namespace Verif.Search
variable {P E : Type}

theorem loop_eq (env : Env P E) (points : List P) (fuel steps it : ℕ) (cur : Option ℕ)
    (ret : List (Option E)) :
    loop env points fuel steps it cur ret =
    if nullCount ret = 0 then .ok ret ⟨some it, cur⟩
    else match fuel with
      | 0 => .outOfFuel
      | fuel + 1 =>
        if it < env.n then
          match visit env points it ret with
          | none => .ub
          | some ret' =>
            if it + 1 = env.n then
              if steps + 1 < env.viewSize then loop env points fuel (steps + 1) 0 (some it) ret'
              else .throw ⟨some (it + 1), some it⟩
            else loop env points fuel steps (it + 1) (some it) ret'
        else .ub := by
  cases fuel <;> rfl

theorem loop_done (env : Env P E) (points : List P) (fuel steps it : ℕ) (cur : Option ℕ)
    (ret : List (Option E)) (h : nullCount ret = 0) :
    loop env points fuel steps it cur ret = .ok ret ⟨some it, cur⟩ := by
  rw [loop_eq, if_pos h]

theorem loop_step {env : Env P E} {points : List P} {fuel steps it : ℕ} {cur : Option ℕ}
    {ret ret' : List (Option E)} (hne : nullCount ret ≠ 0) (hit : it < env.n)
    (hv : visit env points it ret = some ret') :
    loop env points (fuel + 1) steps it cur ret =
      if it + 1 = env.n then
        if steps + 1 < env.viewSize then loop env points fuel (steps + 1) 0 (some it) ret'
        else .throw ⟨some (it + 1), some it⟩
      else loop env points fuel steps (it + 1) (some it) ret' := by
  rw [loop_eq, if_neg hne]
  dsimp only
  rw [if_pos hit, hv]

theorem loop_step_ub {env : Env P E} {points : List P} {fuel steps it : ℕ} {cur : Option ℕ}
    {ret : List (Option E)} (hne : nullCount ret ≠ 0)
    (hv : ¬ it < env.n ∨ visit env points it ret = none) :
    loop env points (fuel + 1) steps it cur ret = .ub := by
  rw [loop_eq, if_neg hne]
  dsimp only
  by_cases hit : it < env.n
  · rcases hv with h | h
    · exact absurd hit h
    · rw [if_pos hit, h]
  · rw [if_neg hit]

theorem moveIf_length {ret ret' : List (Option E)} {k : ℕ} {es : List (Option E)}
    (h : moveIf ret k es = some ret') : ret'.length = ret.length := by
  induction es generalizing ret k with
  | nil => simp only [moveIf, Option.some.injEq] at h; rw [← h]
  | cons e es ih =>
    cases e with
    | none => exact ih (by simpa [moveIf] using h)
    | some e =>
      simp only [moveIf] at h
      split_ifs at h
      have := ih h
      simpa using this

theorem visit_length {env : Env P E} {points : List P} {it : ℕ} {ret ret' : List (Option E)}
    (h : visit env points it ret = some ret') : ret'.length = ret.length := by
  unfold visit at h
  split_ifs at h
  · exact moveIf_length h
  · simp only [Option.some.injEq] at h; rw [← h]

theorem visit_not_covers {env : Env P E} {points : List P} {it : ℕ} {ret : List (Option E)}
    (h : env.covers it points = false) : visit env points it ret = some ret := by
  unfold visit; simp [h]

/-- Main invariant of the loop on successful exit. -/
theorem loop_ok {env : Env P E} {points : List P} (fuel : ℕ) {steps it : ℕ} {cur : Option ℕ}
    {ret ents : List (Option E)} {s : State}
    (h : loop env points fuel steps it cur ret = .ok ents s) (hne : nullCount ret ≠ 0) :
    nullCount ents = 0 ∧ ents.length = ret.length ∧
      (∃ c, s.current = some c ∧ c < env.n ∧ env.covers c points = true) ∧
      (∃ i, s.it = some i ∧ i < env.n) := by
  induction fuel generalizing steps it cur ret with
  | zero => rw [loop_eq, if_neg hne] at h; cases h
  | succ fuel ih =>
    by_cases hit : it < env.n
    swap
    · rw [loop_step_ub hne (Or.inl hit)] at h; cases h
    · cases hv : visit env points it ret with
      | none => rw [loop_step_ub hne (Or.inr hv)] at h; cases h
      | some ret' =>
        rw [loop_step hne hit hv] at h
        have hlen := visit_length hv
        -- common treatment of both continuations
        have key : ∀ steps' it', it' < env.n →
            loop env points fuel steps' it' (some it) ret' = .ok ents s →
            nullCount ents = 0 ∧ ents.length = ret.length ∧
              (∃ c, s.current = some c ∧ c < env.n ∧ env.covers c points = true) ∧
              (∃ i, s.it = some i ∧ i < env.n) := by
          intro steps' it' hit' h'
          by_cases h0 : nullCount ret' = 0
          · rw [loop_done _ _ _ _ _ _ _ h0] at h'
            injection h' with h1 h2
            subst h1; subst h2
            refine ⟨h0, hlen, ⟨it, rfl, hit, ?_⟩, it', rfl, hit'⟩
            by_contra hc
            have hc' : env.covers it points = false := by simpa using hc
            rw [visit_not_covers hc'] at hv
            injection hv with hv
            rw [← hv] at h0; exact hne h0
          · have := ih h' h0
            rw [hlen] at this
            exact this
        split_ifs at h with h1 h2
        · exact key _ _ (by omega) h
        · exact key _ _ (by omega) h

/-- The loop never runs out of fuel. -/
theorem loop_fuel {env : Env P E} {points : List P} (fuel : ℕ) {steps it : ℕ} {cur : Option ℕ}
    {ret : List (Option E)} (hs : steps < env.viewSize) (hit : it < env.n)
    (hf : (env.viewSize - steps) * env.n ≤ fuel + it) :
    loop env points fuel steps it cur ret ≠ .outOfFuel := by
  induction fuel generalizing steps it cur ret with
  | zero =>
    exfalso
    have : 1 * env.n ≤ (env.viewSize - steps) * env.n := Nat.mul_le_mul_right _ (by omega)
    omega
  | succ fuel ih =>
    by_cases hne : nullCount ret = 0
    · rw [loop_done _ _ _ _ _ _ _ hne]; simp
    · cases hv : visit env points it ret with
      | none => rw [loop_step_ub hne (Or.inr hv)]; simp
      | some ret' =>
        rw [loop_step hne hit hv]
        split_ifs with h1 h2
        · apply ih h2 (by omega)
          have : (env.viewSize - steps) * env.n = (env.viewSize - (steps + 1)) * env.n + env.n := by
            have : env.viewSize - steps = (env.viewSize - (steps + 1)) + 1 := by omega
            rw [this]; ring
          omega
        · simp
        · apply ih hs (by omega)
          omega

theorem nullCount_replicate (k : ℕ) : nullCount (List.replicate k (none : Option E)) = k := by
  unfold nullCount
  rw [List.countP_replicate]; simp

theorem nullCount_map_some (es : List E) : nullCount (es.map some) = 0 := by
  unfold nullCount
  rw [List.countP_eq_zero]; simp

theorem moveIf_full (pre es : List E) :
    moveIf (pre.map some ++ List.replicate es.length none) pre.length (es.map some) =
      some ((pre ++ es).map some) := by
  induction es generalizing pre with
  | nil => simp [moveIf]
  | cons e es ih =>
    simp only [List.map_cons, moveIf, List.length_cons]
    rw [if_pos (by simp)]
    have := ih (pre ++ [e])
    simp only [List.length_append, List.length_cons, List.length_nil, Nat.zero_add,
      List.append_assoc, List.cons_append, List.nil_append] at this
    rw [← this]
    congr 1
    rw [List.set_append_right _ _ (by simp)]
    simp [List.replicate_succ]

theorem firstNull_replicate (k : ℕ) : firstNull (List.replicate k (none : Option E)) = 0 := by
  unfold firstNull
  cases k <;> simp [List.replicate_succ, List.findIdx_cons]

/-- A complete local search on a covering cell fills the empty result vector. -/
theorem visit_complete {env : Env P E} {points : List P} {it : ℕ} {es : List E}
    (hc : env.covers it points = true) (hs : env.search it points = es.map some)
    (hl : es.length = points.length) :
    visit env points it (List.replicate points.length none) = some (es.map some) := by
  unfold visit
  rw [if_pos hc, firstNull_replicate, hs, ← hl]
  simpa using moveIf_full [] es

end Verif.Search
