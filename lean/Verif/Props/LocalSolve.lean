import Verif.Model.LocalSolve
import Verif.Props.SolutionManager
import Mathlib.Algebra.Field.Rat
import Mathlib.Tactic.NormNum

/-!
# C19, C20, C21: solving the local problems
-/

namespace Verif.LocalSolve
open Matrix

variable {ι R : Type} [CommRing R]

theorem foldl_set_range (f : ℕ → ι → R) (n m : ℕ) (h : n ≤ m) :
    (List.range n).foldl (fun r k => r.set k (f k)) (List.replicate m (0 : ι → R)) =
      (List.range n).map f ++ List.replicate (m - n) 0 := by
  induction n with
  | zero => simp
  | succ n ih =>
    rw [List.range_succ, List.foldl_append, ih (by omega)]
    simp only [List.foldl_cons, List.foldl_nil, List.map_append, List.map_cons, List.map_nil]
    rw [List.set_append_right _ _ (by simp)]
    simp only [List.length_map, List.length_range, Nat.sub_self]
    obtain ⟨q, hq⟩ : ∃ q, m - n = q + 1 := ⟨m - n - 1, by omega⟩
    rw [hq, List.replicate_succ, List.set_cons_zero, show m - (n + 1) = q by omega]
    simp

/-- the list of right-hand sides on cube grids -/
theorem assembleRhs_eq (hasBoundary : Bool) (n : ℕ) (D : ι → Bool) (inner : ℕ → ι → R)
    (neumann dirichlet : ι → R) :
    assembleRhs false hasBoundary (n + 2) D inner neumann dirichlet =
      .ok ((List.range n).map (fun k => constrainVec D (inner k)) ++
        [constrainVec D (if hasBoundary then neumann else 0),
         constrainVec D (if hasBoundary then dirichlet else 0)]) := by
  unfold assembleRhs
  simp only [Bool.false_eq_true, if_false, show ¬ (n + 2 < 2) by omega, Nat.add_sub_cancel]
  rw [foldl_set_range inner n (n + 2) (by omega)]
  congr 1
  have h2 : n + 2 - n = 2 := by omega
  rw [h2]
  cases hasBoundary with
  | false =>
    simp only [Bool.false_eq_true, if_false, List.map_append, List.map_map]
    rfl
  | true =>
    simp only [if_true]
    rw [List.set_append_right _ _ (by simp), List.set_append_right _ _ (by simp)]
    simp only [List.length_map, List.length_range, Nat.sub_self, List.map_append, List.map_map]
    rw [show n + 1 - n = 1 by omega]
    rfl

theorem solveLoop_spec (valid : (ι → R) → Bool) (s : Solvers ι R) (umf hb : Bool) (numInner i : ℕ)
    (rhs xs : List (ι → R)) (h : solveLoop valid s umf hb numInner i rhs = .ok xs) :
    xs.length = rhs.length ∧ ∀ k (hk : k < rhs.length) (hk' : k < xs.length),
      (i + k ≥ numInner ∧ hb = false → xs[k] = 0) ∧
      (¬ (i + k ≥ numInner ∧ hb = false) → applyInverse valid s umf rhs[k] 0 = .ok xs[k]) := by
  induction rhs generalizing i xs with
  | nil =>
    simp only [solveLoop] at h
    injection h with h
    subst h
    simp
  | cons r rest ih =>
    simp only [solveLoop] at h
    by_cases hc : i ≥ numInner ∧ hb = false
    · rw [if_pos hc] at h
      simp only [Outcome.ok_bind] at h
      cases hrec : solveLoop valid s umf hb numInner (i + 1) rest with
      | throw => rw [hrec] at h; simp at h
      | ub => rw [hrec] at h; simp at h
      | ok ys =>
        rw [hrec] at h
        simp only [Outcome.ok_bind, Outcome.pure_eq] at h
        injection h with h
        subst h
        obtain ⟨l, g⟩ := ih _ _ hrec
        refine ⟨by simp [l], ?_⟩
        intro k hk hk'
        cases k with
        | zero => exact ⟨fun _ => rfl, fun hn => absurd hc hn⟩
        | succ k =>
          have := g k (by simpa using hk) (by simpa using hk')
          rw [show i + 1 + k = i + (k + 1) by omega] at this
          exact this
    · rw [if_neg hc] at h
      cases happ : applyInverse valid s umf r 0 with
      | throw => rw [happ] at h; simp at h
      | ub => rw [happ] at h; simp at h
      | ok x =>
        rw [happ] at h
        simp only [Outcome.ok_bind] at h
        cases hrec : solveLoop valid s umf hb numInner (i + 1) rest with
        | throw => rw [hrec] at h; simp at h
        | ub => rw [hrec] at h; simp at h
        | ok ys =>
          rw [hrec] at h
          simp only [Outcome.ok_bind, Outcome.pure_eq] at h
          injection h with h
          subst h
          obtain ⟨l, g⟩ := ih _ _ hrec
          refine ⟨by simp [l], ?_⟩
          intro k hk hk'
          cases k with
          | zero => exact ⟨fun hn => absurd hn hc, fun _ => happ⟩
          | succ k =>
            have := g k (by simpa using hk) (by simpa using hk')
            rw [show i + 1 + k = i + (k + 1) by omega] at this
            exact this

variable [Fintype ι]

theorem applyInverse_umfpack (valid : (ι → R) → Bool) (s : Solvers ι R) (A : Matrix ι ι R)
    (hs : s.Correct A) (rhs sol x : ι → R) (h : applyInverse valid s true rhs sol = .ok x) :
    A *ᵥ x = rhs ∧ valid x = true ∧ valid rhs = true := by
  unfold applyInverse at h
  by_cases hv : valid rhs = true
  swap
  · rw [if_neg hv] at h; cases h
  rw [if_pos hv, if_pos rfl] at h
  cases hd : s.direct sol rhs with
  | throw => rw [hd] at h; simp at h
  | ub => rw [hd] at h; simp at h
  | ok y =>
    rw [hd] at h
    simp only [Outcome.ok_bind] at h
    split_ifs at h with hy
    injection h with h
    subst h
    exact ⟨hs.direct _ _ _ hd, hy, hv⟩

/-! ## C19 -/

/-- **C19** For every cube-grid coarse cell with `n` coarse basis functions: a successful local
solve (direct solver) yields `n + 2` solutions, the number announced by the solution
manager; each inner one solves its local system; without boundary faces the two boundary
correctors are zero, with boundary faces they solve theirs. -/
theorem C19_local_solutions (valid : (ι → R) → Bool) (s : Solvers ι R) (A : Matrix ι ι R)
    (hs : s.Correct A) (hb : Bool) (dim n : ℕ) (D : ι → Bool) (inner : ℕ → ι → R)
    (neumann dirichlet : ι → R) (xs : List (ι → R))
    (h : solveCell valid s true false hb (numLocalProblems false dim n) D inner neumann dirichlet =
      .ok xs) :
    xs.length = n + numBoundaryCorrectors false ∧
    (∀ k < n, ∃ x, xs[k]? = some x ∧ A *ᵥ x = constrainVec D (inner k)) ∧
    (hb = false → xs[n]? = some 0 ∧ xs[n + 1]? = some 0) ∧
    (hb = true → (∃ x, xs[n]? = some x ∧ A *ᵥ x = constrainVec D neumann) ∧
      ∃ x, xs[n + 1]? = some x ∧ A *ᵥ x = constrainVec D dirichlet) := by
  have hnum : numLocalProblems false dim n = n + 2 := rfl
  rw [hnum] at h
  unfold solveCell at h
  rw [assembleRhs_eq] at h
  simp only [Outcome.ok_bind] at h
  have hni : n + 2 - numBoundaryCorrectors false = n := by simp [numBoundaryCorrectors]
  rw [hni] at h
  obtain ⟨hl, hx⟩ := solveLoop_spec _ _ _ _ _ _ _ _ h
  have hlen : xs.length = n + 2 := by rw [hl]; simp
  refine ⟨hlen, ?_, ?_, ?_⟩
  · intro k hk
    refine ⟨xs[k], List.getElem?_eq_getElem (by omega), ?_⟩
    have := (hx k (by simp; omega) (by omega)).2 (by omega)
    have hr := (applyInverse_umfpack valid s A hs _ _ _ this).1
    rw [hr, List.getElem_append_left (by simpa using hk)]
    simp
  · intro hb0
    constructor
    · rw [List.getElem?_eq_getElem (by omega)]
      rw [(hx n (by simp) (by omega)).1 ⟨by omega, hb0⟩]
    · rw [List.getElem?_eq_getElem (by omega)]
      rw [(hx (n + 1) (by simp) (by omega)).1 ⟨by omega, hb0⟩]
  · intro hb1
    subst hb1
    constructor
    · refine ⟨xs[n], List.getElem?_eq_getElem (by omega), ?_⟩
      have := (hx n (by simp) (by omega)).2 (by simp)
      rw [(applyInverse_umfpack valid s A hs _ _ _ this).1, List.getElem_append_right (by simp)]
      simp
    · refine ⟨xs[n + 1], List.getElem?_eq_getElem (by omega), ?_⟩
      have := (hx (n + 1) (by simp) (by omega)).2 (by simp)
      rw [(applyInverse_umfpack valid s A hs _ _ _ this).1, List.getElem_append_right (by simp)]
      simp

omit [Fintype ι] in
/-- **C19** (any solver) The boundary correctors of interior cells are zero whatever solver is
configured, with no assumption on it. -/
theorem C19_interior_cells_zero (valid : (ι → R) → Bool) (s : Solvers ι R) (umf : Bool) (dim n : ℕ)
    (D : ι → Bool) (inner : ℕ → ι → R) (neumann dirichlet : ι → R) (xs : List (ι → R))
    (h : solveCell valid s umf false false (numLocalProblems false dim n) D inner neumann dirichlet =
      .ok xs) : xs[n]? = some 0 ∧ xs[n + 1]? = some 0 := by
  have hnum : numLocalProblems false dim n = n + 2 := rfl
  rw [hnum] at h
  unfold solveCell at h
  rw [assembleRhs_eq] at h
  simp only [Outcome.ok_bind] at h
  have hni : n + 2 - numBoundaryCorrectors false = n := by simp [numBoundaryCorrectors]
  rw [hni] at h
  obtain ⟨hl, hx⟩ := solveLoop_spec _ _ _ _ _ _ _ _ h
  have hlen : xs.length = n + 2 := by rw [hl]; simp
  constructor
  · rw [List.getElem?_eq_getElem (by omega)]
    rw [(hx n (by simp) (by omega)).1 ⟨by omega, rfl⟩]
  · rw [List.getElem?_eq_getElem (by omega)]
    rw [(hx (n + 1) (by simp) (by omega)).1 ⟨by omega, rfl⟩]

/-- A solver for the identity matrix, for the examples. -/
def idSolver : Solvers (Fin 2) ℚ := ⟨fun _ b => .ok b, fun b _ => .ok b⟩

theorem idSolver_correct : idSolver.Correct (1 : Matrix (Fin 2) (Fin 2) ℚ) := by
  constructor
  · intro x b x' h
    simp only [idSolver] at h
    injection h with h
    rw [one_mulVec, h]
  · intro b x x' h
    simp only [idSolver] at h
    injection h with h
    rw [one_mulVec, h]

/-- Instance of C19: four basis functions, the first degree of freedom constrained, a cell with
boundary faces: the hypotheses are satisfiable. -/
example : solveCell (fun _ => true) idSolver true false true (numLocalProblems false 2 4)
    (fun i => i == 0) (fun k _ => (k : ℚ)) (fun _ => 7) (fun _ => 8) =
    .ok [fun i => if i == 0 then 0 else 0, fun i => if i == 0 then 0 else 1,
      fun i => if i == 0 then 0 else 2, fun i => if i == 0 then 0 else 3,
      fun i => if i == 0 then 0 else 7, fun i => if i == 0 then 0 else 8] := by
  have hnum : numLocalProblems false 2 4 = 4 + 2 := rfl
  rw [hnum, solveCell, assembleRhs_eq]
  simp only [Outcome.ok_bind]
  simp [solveLoop, applyInverse, idSolver, List.range_succ]
  refine ⟨?_, ?_, ?_, ?_, ?_, ?_⟩ <;> (funext i; simp [constrainVec])

/-! ## C20 -/

/-- **C20** (end to end) Solve the local problems of a boundary cell, save them, reconstruct: in the
result the Dirichlet corrector (the solution for the Dirichlet right-hand side) enters with plus and
the Neumann corrector with minus, and coefficient `i` multiplies the corrector of basis
function `i`.  The slots written in local assembly are those read in reconstruction. -/
theorem C20_slots_end_to_end [DecidableEq ι] (valid : (ι → R) → Bool) (s : Solvers ι R)
    (A : Matrix ι ι R) (hs : s.Correct A) (dim n key : ℕ) (D : ι → Bool) (inner : ℕ → ι → R)
    (neumann dirichlet : ι → R) (xs : List (ι → R)) (c : Fin n → R)
    (h : solveCell valid s true false true (numLocalProblems false dim n) D inner neumann dirichlet =
      .ok xs) :
    ∃ (Q : Fin n → ι → R) (qN qD : ι → R) (w' : Manager.World (ι → R)) (corr : ι → R),
      (∀ i, A *ᵥ Q i = constrainVec D (inner i)) ∧ A *ᵥ qN = constrainVec D neumann ∧
      A *ᵥ qD = constrainVec D dirichlet ∧
      Manager.reconstruct (numLocalProblems false dim n) 0 [] (Manager.solveAll .init [(key, xs)]) key
        (List.ofFn c) = .ok (w', corr) ∧
      ∀ j, corr j = (∑ i, c i * Q i j) + qD j - qN j := by
  obtain ⟨hl, h1, -, h3⟩ := C19_local_solutions valid s A hs true dim n D inner neumann dirichlet xs h
  obtain ⟨⟨qN, hN, hN'⟩, ⟨qD, hD, hD'⟩⟩ := h3 rfl
  have hl' : xs.length = n + 2 := hl
  let Q : Fin n → ι → R := fun i => xs[i]'(by omega)
  have hxs : xs = Manager.corrList Q qN qD := by
    apply List.ext_getElem?
    intro k
    unfold Manager.corrList
    rcases Nat.lt_or_ge k n with hk | hk
    · rw [List.getElem?_append_left (by simpa using hk), List.getElem?_ofFn, dif_pos hk,
        List.getElem?_eq_getElem (by omega : k < xs.length)]
      rfl
    · rw [List.getElem?_append_right (by simpa using hk), List.length_ofFn]
      rcases Nat.lt_or_ge k (n + 2) with hk2 | hk2
      · have : k = n ∨ k = n + 1 := by omega
        rcases this with rfl | rfl
        · rw [hN]; simp
        · rw [hD]; simp
      · rw [List.getElem?_eq_none (by omega), List.getElem?_eq_none (by simp; omega)]
  obtain ⟨w', corr, r1, r2⟩ := Manager.C16_reconstruction [(key, xs)] (by simp) key 0 [] Q qN qD c
    (by rw [hxs]; exact List.mem_singleton_self _)
  refine ⟨Q, qN, qD, w', corr, ?_, hN', hD', r1, fun j => r2 j (Or.inl rfl)⟩
  intro i
  obtain ⟨x, hx, hAx⟩ := h1 i i.2
  rw [List.getElem?_eq_getElem (by omega)] at hx
  injection hx with hx
  show A *ᵥ xs[(i : ℕ)] = _
  rw [hx, hAx]

/-- **C20** (coarse load vector) The slots read by the coarse right-hand side hold the
solutions for the Dirichlet and the Neumann right-hand side; all slots are in range. -/
theorem C20_slots_coarse_rhs (valid : (ι → R) → Bool) (s : Solvers ι R) (A : Matrix ι ι R)
    (hs : s.Correct A) (dim n : ℕ) (D : ι → Bool) (inner : ℕ → ι → R)
    (neumann dirichlet : ι → R) (xs : List (ι → R))
    (h : solveCell valid s true false true (numLocalProblems false dim n) D inner neumann dirichlet =
      .ok xs) :
    dirichletSlot n < xs.length ∧ neumannSlot n < xs.length ∧ (∀ i, i < n → i ≠ dirichletSlot n ∧
      i ≠ neumannSlot n) ∧
    (∃ x, xs[dirichletSlot n]? = some x ∧ A *ᵥ x = constrainVec D dirichlet) ∧
    ∃ x, xs[neumannSlot n]? = some x ∧ A *ᵥ x = constrainVec D neumann := by
  obtain ⟨hl, h1, -, h3⟩ := C19_local_solutions valid s A hs true dim n D inner neumann dirichlet xs h
  have hl' : xs.length = n + 2 := hl
  refine ⟨by simp only [dirichletSlot]; omega, by simp only [neumannSlot]; omega, ?_, (h3 rfl).2, (h3 rfl).1⟩
  intro i hi
  simp only [dirichletSlot, neumannSlot]
  omega

omit [Fintype ι] in
/-- **C20** (simplex) On simplex grids the computation throws whatever the other inputs. -/
theorem C20_simplex_refused (valid : (ι → R) → Bool) (s : Solvers ι R) (umf hb : Bool) (total : ℕ)
    (D : ι → Bool) (inner : ℕ → ι → R) (neumann dirichlet : ι → R) :
    solveCell valid s umf true hb total D inner neumann dirichlet = .throw := rfl

/-! ## C21 -/

/-- **C21** (partial: direct solver only) With the direct solver, a local solve that returns has
solved the system for the given right-hand side.  Missing: every other solver type; there
the claim is false, see below. -/
theorem C21_direct_solver_partial (valid : (ι → R) → Bool) (s : Solvers ι R) (A : Matrix ι ι R)
    (hs : s.Correct A) (rhs sol x : ι → R) (h : applyInverse valid s true rhs sol = .ok x) :
    A *ᵥ x = rhs := (applyInverse_umfpack valid s A hs rhs sol x h).1

/-- **C21 is violated** for every other solver: called as in the loop over the local
problems (solution zero on entry) the local solve returns zero, so the result is right
only for a zero right-hand side. -/
theorem C21_violated_generic (valid : (ι → R) → Bool) (s : Solvers ι R) (A : Matrix ι ι R)
    (rhs x : ι → R) (h : applyInverse valid s false rhs 0 = .ok x) :
    x = 0 ∧ (A *ᵥ x = rhs ↔ rhs = 0) := by
  have hx : x = 0 := by
    unfold applyInverse at h
    by_cases hv : valid rhs = true
    swap
    · rw [if_neg hv] at h; cases h
    rw [if_pos hv, if_neg (by simp)] at h
    cases hd : s.generic 0 rhs with
    | throw => rw [hd] at h; simp at h
    | ub => rw [hd] at h; simp at h
    | ok y =>
      rw [hd] at h
      simp only [Outcome.ok_bind] at h
      split_ifs at h
      injection h with h
      exact h.symm
  subst hx
  rw [mulVec_zero]
  exact ⟨rfl, eq_comm⟩

/-- **C21 is violated**, witness: identity system, correct solver, right-hand side `(1, 1)`. -/
theorem C21_violated_witness :
    idSolver.Correct (1 : Matrix (Fin 2) (Fin 2) ℚ) ∧
    applyInverse (fun _ => true) idSolver false (fun _ => 1) 0 = .ok 0 ∧
    (1 : Matrix (Fin 2) (Fin 2) ℚ) *ᵥ 0 ≠ fun _ => 1 := by
  refine ⟨idSolver_correct, rfl, ?_⟩
  rw [mulVec_zero]
  intro h
  have := congrFun h 0
  norm_num at this

omit [CommRing R] [Fintype ι] in
/-- **C21** (invalid data are reported) A right-hand side that is not valid, and a solution of the direct solver that is not valid, lead to an
exception; other results of the direct solver are returned unchanged. -/
theorem C21_reported (valid : (ι → R) → Bool) (s : Solvers ι R) (umf : Bool) (rhs sol : ι → R) :
    (valid rhs = false → applyInverse valid s umf rhs sol = .throw) ∧
    (∀ x, valid rhs = true → s.direct sol rhs = .ok x → applyInverse valid s true rhs sol = if valid x = true then .ok x else .throw) ∧
    (∀ y, valid rhs = true → s.generic sol rhs = .ok y → valid sol = false → applyInverse valid s false rhs sol = .throw) := by
  refine ⟨fun h => ?_, fun x h hx => ?_, fun y h hy hs => ?_⟩
  · simp [applyInverse, h]
  · simp [applyInverse, h, hx]
  · simp [applyInverse, h, hy, hs]

example : applyInverse (fun x => decide (x 0 = 1)) idSolver true (fun _ => 2) 0 = .throw ∧
    applyInverse (fun x => decide (x 0 = 1)) idSolver true (fun _ => 1) 0 = .ok fun _ => 1 := by
  refine ⟨(C21_reported _ _ _ _ _).1 (by norm_num), ?_⟩
  rw [(C21_reported _ _ true _ _).2.1 (fun _ => 1) (by norm_num) rfl]
  norm_num

omit [Fintype ι] in
/-- **C20** (size of the list) The right-hand sides can be assembled exactly if the caller provides the two functions for the boundary; every smaller
list makes the number of inner functions wrap around. -/
theorem C20_list_too_short (hb : Bool) (total : ℕ) (D : ι → Bool) (inner : ℕ → ι → R) (neumann dirichlet : ι → R) :
    assembleRhs false hb total D inner neumann dirichlet = .ub ↔ total ≤ 1 := by
  unfold assembleRhs
  by_cases h : total < 2
  · simp [h]; omega
  · simp [h]; omega

/-- **C20** (why simplex grids must be refused) On simplices with `dim + 1` basis functions there would be one solution too few for the
basis functions alone, and the slots of the boundary correctors would lie outside of the list. -/
theorem C20_simplex_counts (dim maxNumDofs : ℕ) :
    numLocalProblems true dim maxNumDofs - numBoundaryCorrectors true + 1 = dim + 1 ∧
      ¬ neumannSlot (dim + 1) < numLocalProblems true dim maxNumDofs ∧ ¬ dirichletSlot (dim + 1) < numLocalProblems true dim maxNumDofs := by
  simp [numLocalProblems, numBoundaryCorrectors, neumannSlot, dirichletSlot]

end Verif.LocalSolve
