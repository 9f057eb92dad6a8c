import Verif.Model.DirichletSolve
import Verif.Spec.Dirichlet
import Mathlib.LinearAlgebra.Matrix.ToLinearEquiv
import Mathlib.Algebra.BigOperators.Fin
import Mathlib.Algebra.Field.Rat
import Mathlib.Tactic.NormNum
import Mathlib.Tactic.FinCases
import Mathlib.Tactic.Ring
import Mathlib.Tactic.LinearCombination

/-!
# C25, C26, C27: Dirichlet data in the coarse and in the fine solve
-/

namespace Verif.DirichletSolve
open Matrix Verif.LocalSolve Verif.Spec.Dirichlet

section
variable {ι R : Type} [Fintype ι] [CommRing R]

/-- At most one solution. -/
theorem unique_of_freeInjective {A : Matrix ι ι R} {load data : ι → R} {D : ι → Bool}
    (hinj : FreeInjective A D) {u v : ι → R} (hu : IsSolution A load data D u)
    (hv : IsSolution A load data D v) : u = v := by
  have : u - v = 0 := by
    apply hinj
    · intro i hi
      rw [Pi.sub_apply, hu.boundary i hi, hv.boundary i hi, sub_self]
    · intro i hi
      rw [mulVec_sub, Pi.sub_apply, hu.equation i hi, hv.equation i hi, sub_self]
  exact sub_eq_zero.mp this

variable [DecidableEq ι]

theorem constrainMat_mulVec (D : ι → Bool) (A : Matrix ι ι R) (x : ι → R) (i : ι) :
    (constrainMat D A *ᵥ x) i = if D i then x i else (A *ᵥ x) i := by
  unfold mulVec constrainMat dotProduct
  by_cases h : D i = true
  · simp only [h, if_true, ite_mul, one_mul, zero_mul]
    rw [Finset.sum_ite_eq]; simp
  · simp only [h, if_false, Bool.false_eq_true]

/-- Solutions of the constrained system are exactly the homogeneous parts of solutions. -/
theorem constrained_iff (A : Matrix ι ι R) (load data g : ι → R) (D : ι → Bool)
    (hg : ∀ i, D i = true → g i = data i) (x : ι → R) :
    (constrainedSystem A load g D).matrix *ᵥ x = (constrainedSystem A load g D).rhs ↔
      IsSolution A load data D (x + g) := by
  constructor
  · intro h
    constructor
    · intro i hi
      have := congrFun h i
      simp only [constrainedSystem, constrainMat_mulVec, constrainVec, hi, if_true] at this
      rw [Pi.add_apply, this, hg i hi, zero_add]
    · intro i hi
      have := congrFun h i
      simp only [constrainedSystem, constrainMat_mulVec, constrainVec, hi, if_false,
        Bool.false_eq_true, Pi.sub_apply] at this
      rw [mulVec_add, Pi.add_apply, this, sub_add_cancel]
  · intro h
    funext i
    simp only [constrainedSystem, constrainMat_mulVec, constrainVec]
    by_cases hi : D i = true
    · have := h.boundary i hi
      rw [Pi.add_apply, hg i hi] at this
      simp only [hi, if_true]
      linear_combination this
    · have hi' : D i = false := by simpa using hi
      have := h.equation i hi'
      rw [mulVec_add, Pi.add_apply] at this
      simp only [hi', if_false, Bool.false_eq_true, Pi.sub_apply]
      linear_combination this

omit [Fintype ι] [CommRing R] [DecidableEq ι] in
theorem dirichletProject_boundary (D : ι → Bool) (data old : ι → R) (i : ι) (hi : D i = true) :
    dirichletProject D data old i = data i := by
  simp [dirichletProject, hi]

/-! ## C25 -/

/-- **C25** A coarse solve that returns gives a function with the Dirichlet values at the constrained
degrees of freedom which satisfies the equations at all others, for every correct solver and
whatever the output function held before. -/
theorem C25_coarse_solution (valid : (ι → R) → Bool) (s : Solver ι R) (hs : s.Correct)
    (A : Matrix ι ι R) (load data : ι → R) (D : ι → Bool) (old u : ι → R)
    (h : coarseSolve valid s A load data D old = .ok u) : IsSolution A load data D u := by
  unfold coarseSolve at h
  dsimp only at h
  cases hr : s (coarseSystem A load data D).matrix (coarseSystem A load data D).rhs old with
  | failed => rw [hr] at h; cases h
  | other => rw [hr] at h; cases h
  | ok x =>
    rw [hr] at h
    simp only [finishCoarse] at h
    by_cases hv : valid x = true
    · rw [if_pos hv] at h
      injection h with h
      subst h
      exact (constrained_iff A load data _ D (dirichletProject_boundary D data _) x).mp
        (hs _ _ _ _ hr)
    · rw [if_neg hv] at h; cases h

/-- **C25** (uniqueness) If the free block is injective, the returned function is the only solution. -/
theorem C25_unique (valid : (ι → R) → Bool) (s : Solver ι R) (hs : s.Correct)
    (A : Matrix ι ι R) (load data : ι → R) (D : ι → Bool) (hinj : FreeInjective A D) (old u : ι → R)
    (h : coarseSolve valid s A load data D old = .ok u) (v : ι → R) (hv : IsSolution A load data D v) :
    v = u :=
  unique_of_freeInjective hinj hv (C25_coarse_solution valid s hs A load data D old u h)

end

/-- **C25** (solvability) Over a field an injective free block makes the constrained coarse system
uniquely solvable, so the hypothesis on the solver can be met for every right-hand side. -/
theorem C25_system_solvable {ι K : Type} [Fintype ι] [DecidableEq ι] [Field K] (A : Matrix ι ι K)
    (load data : ι → K) (D : ι → Bool) (hinj : FreeInjective A D) :
    ∃! x, (coarseSystem A load data D).matrix *ᵥ x = (coarseSystem A load data D).rhs := by
  have hker : ∀ v : ι → K, constrainMat D A *ᵥ v = 0 → v = 0 := by
    intro v hv
    have hD : ∀ i, D i = true → v i = 0 := by
      intro i hi
      have := congrFun hv i
      simpa [constrainMat_mulVec, hi] using this
    apply hinj v hD
    intro i hi
    have := congrFun hv i
    simpa [constrainMat_mulVec, hi] using this
  have hdet : IsUnit (constrainMat D A).det := by
    rw [isUnit_iff_ne_zero]
    intro h0
    obtain ⟨v, hv, hv0⟩ := exists_mulVec_eq_zero_iff.mpr h0
    exact hv (hker v hv0)
  refine ⟨(constrainMat D A)⁻¹ *ᵥ (coarseSystem A load data D).rhs, ?_, ?_⟩
  · show constrainMat D A *ᵥ _ = _
    rw [mulVec_mulVec, mul_nonsing_inv _ hdet, one_mulVec]
  · intro y hy
    have hy' : constrainMat D A *ᵥ y = (coarseSystem A load data D).rhs := hy
    rw [← hy', mulVec_mulVec, nonsing_inv_mul _ hdet, one_mulVec]

/-! ## C26 -/

section
variable {ι R : Type} [Fintype ι] [CommRing R] [DecidableEq ι]

/-- **C26** A fine solve that returns gives a solution of the boundary value problem, whatever the output
function held before. -/
theorem C26_fem_solution (s : Solver ι R) (hs : s.Correct) (A : Matrix ι ι R) (load data : ι → R)
    (D : ι → Bool) (old u : ι → R) (h : femApply s A load data D old = .ok u) :
    IsSolution A load data D u := by
  unfold femApply at h
  dsimp only at h
  split at h
  · rename_i x hr
    injection h with h
    subst h
    exact (constrained_iff A load data _ D (dirichletProject_boundary D data _) x).mp
      (hs _ _ _ _ hr)
  · cases h
  · cases h

/-- **C26** (history) Two fine solves into functions with different previous content give the same
result, even with different solvers; in particular solving again into the result. -/
theorem C26_history_irrelevant (s s' : Solver ι R) (hs : s.Correct) (hs' : s'.Correct)
    (A : Matrix ι ι R) (load data : ι → R) (D : ι → Bool) (hinj : FreeInjective A D)
    (old old' u u' : ι → R) (h : femApply s A load data D old = .ok u)
    (h' : femApply s' A load data D old' = .ok u') : u = u' :=
  unique_of_freeInjective hinj (C26_fem_solution s hs A load data D old u h)
    (C26_fem_solution s' hs' A load data D old' u' h')

/-- **C26** (twice) Solving twice into the same function. -/
theorem C26_twice (s : Solver ι R) (hs : s.Correct) (A : Matrix ι ι R) (load data : ι → R)
    (D : ι → Bool) (hinj : FreeInjective A D) (old u u' : ι → R)
    (h : femApply s A load data D old = .ok u) (h' : femApply s A load data D u = .ok u') : u' = u :=
  C26_history_irrelevant s s hs hs A load data D hinj u old u' u h' h

/-- Coarse and fine solve agree when given the same system. -/
theorem C26_agrees_with_coarse (valid : (ι → R) → Bool) (s s' : Solver ι R) (hs : s.Correct)
    (hs' : s'.Correct) (A : Matrix ι ι R) (load data : ι → R) (D : ι → Bool) (hinj : FreeInjective A D)
    (old old' u u' : ι → R) (h : coarseSolve valid s A load data D old = .ok u)
    (h' : femApply s' A load data D old' = .ok u') : u = u' :=
  unique_of_freeInjective hinj (C25_coarse_solution valid s hs A load data D old u h)
    (C26_fem_solution s' hs' A load data D old' u' h')

end

/-! ### Examples -/

/-- A solver for the nonsingular systems over `ℚ`. -/
noncomputable def exactSolver : Solver (Fin 3) ℚ := fun M b _ =>
  if M.det = 0 then .failed else .ok (M⁻¹ *ᵥ b)

theorem exactSolver_correct : exactSolver.Correct := by
  intro M b x0 x h
  unfold exactSolver at h
  split_ifs at h with hd
  injection h with h
  subst h
  rw [mulVec_mulVec, mul_nonsing_inv _ (isUnit_iff_ne_zero.mpr hd), one_mulVec]

/-- One-dimensional Laplace matrix on three nodes; the end nodes are constrained. -/
def demoA : Matrix (Fin 3) (Fin 3) ℚ := !![1, -1, 0; -1, 2, -1; 0, -1, 1]
def demoD : Fin 3 → Bool := ![true, false, true]

theorem demo_injective : FreeInjective demoA demoD := by
  intro v h0 h1
  have a := h0 0 rfl
  have b := h0 2 rfl
  have c := h1 1 rfl
  simp [demoA, mulVec, dotProduct, Fin.sum_univ_three, a, b] at c
  funext i
  fin_cases i
  · exact a
  · exact c
  · exact b

theorem demo_det : (constrainMat demoD demoA).det ≠ 0 := by
  have : constrainMat demoD demoA = !![1, 0, 0; -1, 2, -1; 0, 0, 1] := by
    ext i j
    fin_cases i <;> fin_cases j <;> rfl
  rw [this, det_fin_three]
  simp

/-- C25, C26: on this system both solves return. -/
example (load data old : Fin 3 → ℚ) :
    (∃ u, coarseSolve (fun _ => true) exactSolver demoA load data demoD old = .ok u) ∧
    (∃ u, femApply exactSolver demoA load data demoD old = .ok u) := by
  constructor
  · have h : ∀ b x0, exactSolver (coarseSystem demoA load data demoD).matrix b x0 =
        .ok ((constrainMat demoD demoA)⁻¹ *ᵥ b) := fun b x0 => if_neg demo_det
    unfold coarseSolve
    dsimp only
    rw [h]
    exact ⟨_, rfl⟩
  · have h : ∀ g b x0, exactSolver (constrainedSystem demoA load g demoD).matrix b x0 =
        .ok ((constrainMat demoD demoA)⁻¹ *ᵥ b) := fun g b x0 => if_neg demo_det
    unfold femApply
    dsimp only
    rw [h]
    exact ⟨_, rfl⟩

/-! ## C27 -/

section
variable {V : Type} [Add V]

/-- **C27** (partial) The coarse solve returns only if the solver did, with valid coefficients; then
the result is that solution plus the Dirichlet extension.  Missing: validity of the
result itself (the sum is not checked, see `C27_violated_result`), and that every other exception becomes an
invalid-state error (`C27_violated_exception`). -/
theorem C27_returns_iff_partial (valid : V → Bool) (result : SolverResult V) (g u : V) :
    finishCoarse valid result g = .ok u ↔ ∃ x, result = .ok x ∧ valid x = true ∧ u = x + g := by
  cases result with
  | failed => simp [finishCoarse]
  | other => simp [finishCoarse]
  | ok x =>
    by_cases h : valid x = true
    · simp only [finishCoarse, if_pos h, SolveOutcome.ok.injEq, SolverResult.ok.injEq]
      exact ⟨fun e => ⟨x, rfl, h, e.symm⟩, fun ⟨y, e, _, e'⟩ => by rw [e', e]⟩
    · simp [finishCoarse, h]

/-- **C27** (partial) A reported failure or invalid coefficients give an invalid-state error, and nothing
else does. -/
theorem C27_invalid_state_iff_partial (valid : V → Bool) (result : SolverResult V) (g : V) :
    finishCoarse valid result g = .invalidState ↔
      result = .failed ∨ ∃ x, result = .ok x ∧ valid x = false := by
  cases result with
  | failed => simp [finishCoarse]
  | other => simp [finishCoarse]
  | ok x =>
    by_cases h : valid x = true
    · simp [finishCoarse, h]
    · simp [finishCoarse, h]

/-- **C27** (partial) If adding the extension to valid coefficients keeps them valid, the result is valid. -/
theorem C27_result_valid_partial (valid : V → Bool) (result : SolverResult V) (g u : V)
    (hg : ∀ x, valid x = true → valid (x + g) = true) (h : finishCoarse valid result g = .ok u) :
    valid u = true := by
  obtain ⟨x, -, hx, rfl⟩ := (C27_returns_iff_partial valid result g u).mp h
  exact hg x hx

end

/-- Numbers with an invalid value `none` that is absorbed by addition, as NaN is. -/
abbrev NumOrNaN := Option ℚ
instance : Add NumOrNaN := ⟨fun a b => a.bind fun x => b.map (x + ·)⟩

/-- **C27 is violated** (result): the validity check precedes the addition of the Dirichlet extension, so
invalid Dirichlet values reach the result of a solve that returns normally. (On a grid all of
whose nodes are constrained the linear system does not see the Dirichlet values at all.) -/
theorem C27_violated_result :
    ∃ (valid : (Fin 2 → NumOrNaN) → Bool) (g u : Fin 2 → NumOrNaN),
      (∀ v, valid v = true ↔ ∀ i, (v i).isSome) ∧
      finishCoarse valid (.ok fun _ => some 0) g = .ok u ∧ valid u = false := by
  refine ⟨fun v => (v 0).isSome && (v 1).isSome, ![none, some 1], fun i => some 0 + ![none, some 1] i, ?_, ?_, ?_⟩
  · intro v
    simp [Fin.forall_fin_two]
  · rfl
  · rfl

/-- **C27 is violated** (exception): an exception other than `linear_solver_failed` is not turned into an
invalid-state error. -/
theorem C27_violated_exception (valid : ℚ → Bool) (g : ℚ) :
    finishCoarse valid .other g = .other := rfl

/-- C27: all three kinds of outcome occur. -/
example : finishCoarse (fun x : ℚ => decide (x < 10)) (.ok 3) 4 = .ok 7 ∧
    finishCoarse (fun x : ℚ => decide (x < 10)) (.ok 11) 4 = .invalidState ∧
    finishCoarse (fun x : ℚ => decide (x < 10)) .failed 4 = .invalidState := by
  refine ⟨?_, ?_, rfl⟩
  · norm_num [finishCoarse]
  · norm_num [finishCoarse]

end Verif.DirichletSolve
