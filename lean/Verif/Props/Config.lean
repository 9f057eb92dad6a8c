import Verif.Model.Config
import Mathlib.Tactic.NormNum
import Mathlib.Tactic.Linarith

/-!
# C52, C53: configuration values
-/

namespace Verif.Config

/-! ## C53 -/

/-- **C53** (partial: inside `msfem_algorithm`) If the fine grid can be built from the problem's configuration,
the local grids use the same number of micro cells, for every global configuration. -/
theorem C53_msfem_algorithm_partial (d : ℕ) (valid : (Fin d → ℚ) → Bool) (globalCfg : Cfg) (m : Fin d → ℚ)
    (h : fineMicro d valid (msfemConfigs d globalCfg).1 = some m) :
    localMicro d (msfemConfigs d globalCfg).2 = some m := by
  have h0 : fineMicro d valid globalCfg = some m := h
  clear h
  rename' h0 => h
  unfold fineMicro at h
  have hk : (msfemConfigs d globalCfg).2 "grids.micro_cells_per_macrocell_dim" =
      globalCfg "grids.micro_cells_per_macrocell_dim" := by
    have hne : ¬ "grids.micro_cells_per_macrocell_dim" = "grids.dim" := by decide
    simp only [msfemConfigs, Cfg.set, hne, if_false]
  unfold localMicro
  rw [hk]
  cases hg : globalCfg "grids.micro_cells_per_macrocell_dim" with
  | none => rw [hg] at h; cases h
  | some l =>
    rw [hg] at h
    simp only at h ⊢
    cases hv : asVector d l with
    | none => rw [hv] at h; cases h
    | some v =>
      rw [hv] at h
      simp only at h
      split_ifs at h
      exact h

/-- **C53** (oversampling) Every place reads the same number of oversampling layers; none if the key is not set. -/
theorem C53_oversampling (d : ℕ) (globalCfg : Cfg) :
    oversampling (msfemConfigs d globalCfg).1 = oversampling (msfemConfigs d globalCfg).2 ∧
    (globalCfg "msfem.oversampling_layers" = none → oversampling (msfemConfigs d globalCfg).1 = [0]) := by
  constructor
  · have hne : ¬ "msfem.oversampling_layers" = "grids.dim" := by decide
    simp only [oversampling, msfemConfigs, Cfg.set, hne, if_false]
  · intro h
    simp [oversampling, msfemConfigs, h]

/-- **C53** (what differs) The global configuration differs from the problem's one in `grids.dim` only, which holds the
dimension. -/
theorem C53_differ_in_dim (d : ℕ) (globalCfg : Cfg) (key : String) :
    (msfemConfigs d globalCfg).2 key =
      if key = "grids.dim" then some [(d : ℚ)] else (msfemConfigs d globalCfg).1 key := rfl

/-- **C53** (partial, in general) The two agree exactly if the global configuration holds the value of the problem's
one, or holds none and the value is 8 in every direction. -/
theorem C53_agree_iff_partial (d : ℕ) (valid : (Fin d → ℚ) → Bool) (problemCfg globalCfg : Cfg) (m : Fin d → ℚ)
    (h : fineMicro d valid problemCfg = some m) :
    localMicro d globalCfg = fineMicro d valid problemCfg ↔
      (globalCfg "grids.micro_cells_per_macrocell_dim" = none ∧ ∀ i, m i = 8) ∨
      ∃ l, globalCfg "grids.micro_cells_per_macrocell_dim" = some l ∧ asVector d l = some m := by
  rw [h]
  unfold localMicro
  cases hg : globalCfg "grids.micro_cells_per_macrocell_dim" with
  | none =>
    simp only [Option.some.injEq, true_and, reduceCtorEq, false_and, exists_false, or_false]
    exact ⟨fun e i => by rw [← e], fun e => funext fun i => (e i).symm⟩
  | some l => simp

/-- **C53** (the negation for separate configurations) A problem container with its own configuration of 4 micro cells
and an unset global one: the fine grid is built with 4, the local grids with 8. -/
theorem C53_violated : ∃ problemCfg globalCfg : Cfg,
    fineMicro 2 (fun _ => true) problemCfg = some (fun _ => 4) ∧ localMicro 2 globalCfg = some (fun _ => 8) := by
  refine ⟨fun k => if k = "grids.micro_cells_per_macrocell_dim" then some [4, 4] else none, fun _ => none, ?_, rfl⟩
  unfold fineMicro
  simp only [if_true, asVector]
  rw [dif_pos (by decide)]
  simp only [Option.some.injEq]
  funext i
  match i with
  | 0 => rfl
  | 1 => rfl

/-- Non-vacuity of `C53_msfem_algorithm_partial`. -/
example : fineMicro 1 (fun _ => true) (msfemConfigs 1 fun k =>
    if k = "grids.micro_cells_per_macrocell_dim" then some [4] else none).1 = some fun _ => 4 := by
  unfold fineMicro msfemConfigs
  simp only [if_true, asVector]
  rw [dif_pos (by decide)]
  simp only [Option.some.injEq]
  funext i
  match i with
  | 0 => rfl

/-! ## C52 -/

/-- **C52** (partial) The reported epsilon is the one used exactly if it is set to a value which single precision
represents exactly, or if reading it throws. -/
theorem C52_epsilon_iff_partial (single : ℚ → ℚ) (c : Cfg) :
    reportedEpsilon single c = usedEpsilon c ↔
      ∃ l, c "problem.epsilon" = some l ∧ ∀ x, l.head? = some x → single x = x := by
  unfold reportedEpsilon usedEpsilon
  cases h : c "problem.epsilon" with
  | none => simp
  | some l =>
    cases l with
    | nil => simp [scalar]
    | cons x xs => simp [scalar]

/-- **C52** (exceptions) Both calls throw exactly if the value is empty. -/
theorem C52_throws (single : ℚ → ℚ) (c : Cfg) :
    (reportedEpsilon single c = .throw ↔ c "problem.epsilon" = some []) ∧
    (usedEpsilon c = .throw ↔ c "problem.epsilon" = some []) := by
  unfold reportedEpsilon usedEpsilon
  cases h : c "problem.epsilon" with
  | none => simp
  | some l =>
    cases l with
    | nil => simp [scalar]
    | cons x xs => simp [scalar]

/-- **C52** (the negation) With epsilon unset, 1 is reported and 0.05 used, whatever the rest of the
configuration. -/
theorem C52_violated_epsilon (single : ℚ → ℚ) (c : Cfg) (h : c "problem.epsilon" = none) :
    reportedEpsilon single c = .ok 1 ∧ usedEpsilon c = .ok (1 / 20) := by
  simp [reportedEpsilon, usedEpsilon, h]

/-- **C52** (the negation) The reported refinement level says nothing about the coarse cells: for any two numbers of
coarse cells there are configurations with these and the same report. -/
theorem C52_violated_level (n m : ℚ) (level : Option (List ℚ)) : ∃ c c' : Cfg,
    c "fem.grid_level" = level ∧ c' "fem.grid_level" = level ∧ reportedLevel c = reportedLevel c' ∧
    usedCoarseCells 1 c = some (fun _ => n) ∧ usedCoarseCells 1 c' = some fun _ => m := by
  have key : ∀ x : ℚ, ∃ c : Cfg, c "fem.grid_level" = level ∧ usedCoarseCells 1 c = some fun _ => x := by
    intro x
    refine ⟨fun k => if k = "fem.grid_level" then level else some [x], by simp, ?_⟩
    unfold usedCoarseCells
    have hne : ¬ "grids.macro_cells_per_dim" = "fem.grid_level" := by decide
    simp only [hne, if_false, Option.bind_some, asVector]
    rw [dif_pos (by simp)]
    simp only [Option.some.injEq]
    funext i
    match i with
    | 0 => rfl
  obtain ⟨c, h1, h2⟩ := key n
  obtain ⟨c', h3, h4⟩ := key m
  refine ⟨c, c', h1, h3, ?_, h2, h4⟩
  unfold reportedLevel
  rw [h1, h3]

/-- **C52** (the negation) With no level set, 4 is reported whatever the coarse cells are. -/
theorem C52_violated_level_default (c : Cfg) (h : c "fem.grid_level" = none) : reportedLevel c = .ok 4 := by
  simp [reportedLevel, h]

/-- Non-vacuity of `C52_epsilon_iff_partial`: one quarter. -/
example : reportedEpsilon (fun x => x) (fun k => if k = "problem.epsilon" then some [1 / 4] else none) = .ok (1 / 4) ∧
    usedEpsilon (fun k => if k = "problem.epsilon" then some [1 / 4] else none) = .ok (1 / 4) := by
  simp [reportedEpsilon, usedEpsilon, scalar]

end Verif.Config
