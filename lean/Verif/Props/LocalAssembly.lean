import Verif.Model.LocalAssembly
import Verif.Props.CoarseAssembly
import Verif.Props.LocalSolve
import Verif.Spec.Dirichlet
import Mathlib.Algebra.CharZero.Defs
import Mathlib.Algebra.Field.Basic
import Mathlib.Tactic.LinearCombination
import Mathlib.Tactic.FinCases

/-!
# C58, C59: the solution inside one coarse cell
-/

namespace Verif.LocalAssembly
open Matrix Verif.CoarseAssembly Verif.LocalSolve Verif.Spec.Galerkin Verif.Spec.Dirichlet

variable {d m n : ℕ} {ι R : Type} [DecidableEq ι] [CommRing R]

/-- What the quadrature points of the local grid contribute: weight, diffusion tensor, gradients of the local basis. -/
def samples (diffusion : (Fin d → R) → Matrix (Fin d) (Fin d) R) (es : List (Element d m ι R)) :
    List (Sample d m ι R) :=
  es.flatMap fun e => e.quadOp.map fun q =>
    { weight := q.weight, tensor := diffusion (e.toGlobal q.pos), source := 0, dofs := e.dofs, val := 0
      grad := fun i => e.grad i q.pos, lifting := 0 }

/-- The stiffness matrix of the local space. -/
def stiff (diffusion : (Fin d → R) → Matrix (Fin d) (Fin d) R) (es : List (Element d m ι R)) : Matrix ι ι R :=
  Matrix.of (stiffness (samples diffusion es))

section lemmas

theorem sum_map_ite {α : Type} (l : List α) (p : Prop) [Decidable p] (f : α → R) :
    (l.map fun q => if p then f q else 0).sum = if p then (l.map f).sum else 0 := by
  split_ifs <;> simp

theorem sum_map_sum {α β : Type} [Fintype β] (l : List α) (f : α → β → R) :
    (l.map fun q => ∑ i, f q i).sum = ∑ i, (l.map fun q => f q i).sum := by
  induction l with
  | nil => simp
  | cons a l ih => simp [ih, Finset.sum_add_distrib]

theorem sum_map_neg {α : Type} (l : List α) (f : α → R) : -(l.map f).sum = (l.map fun q => -f q).sum := by
  induction l with
  | nil => simp
  | cons a l ih => simp only [List.map_cons, List.sum_cons, neg_add, ih]

theorem addElliptic_apply (diffusion : (Fin d → R) → Matrix (Fin d) (Fin d) R) (es : List (Element d m ι R))
    (A : ι → ι → R) (a b : ι) : addElliptic diffusion es A a b = A a b + stiff diffusion es a b := by
  unfold addElliptic
  rw [foldl_contrib (R := R) es _ (fun A : ι → ι → R => A a b) (fun e => ∑ i, ∑ j, if a = e.dofs i ∧ b = e.dofs j then
      ((e.quadOp.map fun q => q.weight *
        ((diffusion (e.toGlobal q.pos) *ᵥ e.grad j q.pos) ⬝ᵥ e.grad i q.pos)).sum) else 0)]
  · congr 1
    simp only [stiff, Matrix.of_apply, stiffness, samples]
    rw [sum_flatMap_map]
    congr 1
    apply List.map_congr_left
    intro e _
    simp only [List.map_map]
    show _ = (e.quadOp.map fun q => ∑ i, ∑ j, if e.dofs i = a ∧ e.dofs j = b then _ else 0).sum
    rw [sum_map_sum]
    refine Finset.sum_congr rfl fun i _ => ?_
    rw [sum_map_sum]
    refine Finset.sum_congr rfl fun j _ => ?_
    rw [sum_map_ite]
    simp only [eq_comm]
  · intro A e
    exact double_loop A (fun i _ => e.dofs i) (fun _ j => e.dofs j) _ a b

theorem matrix_apply (K : Cell d m n ι R) (walks : ℕ) (diffusion : (Fin d → R) → Matrix (Fin d) (Fin d) R) (a b : ι) :
    K.matrix walks diffusion a b = walks * stiff diffusion K.elements a b := by
  simp only [Cell.matrix, repeatWalk, Matrix.of_apply]
  induction walks with
  | zero => simp
  | succ w ih => rw [Function.iterate_succ_apply', addElliptic_apply, ih]; push_cast; ring

theorem addFunctional_apply (f : Element d m ι R → (Fin d → R) → Fin m → R) (es : List (Element d m ι R)) (v : ι → R)
    (a : ι) : addFunctional f es v a = v a + (es.map fun e => ∑ i, if a = e.dofs i then
      (e.quad.map fun q => q.weight * f e q.pos i).sum else 0).sum := by
  unfold addFunctional
  rw [foldl_contrib (R := R) es _ (fun v : ι → R => v a) (fun e => ∑ i, if a = e.dofs i then
      (e.quad.map fun q => q.weight * f e q.pos i).sum else 0)]
  intro v e
  rw [foldl_contrib (R := R) (List.finRange m) _ (fun v : ι → R => v a) (fun i => if a = e.dofs i then
      (e.quad.map fun q => q.weight * f e q.pos i).sum else 0), sum_finRange]
  intro v i
  exact addToVec_apply _ _ _ _

theorem repeat_functional (walks : ℕ) (f : Element d m ι R → (Fin d → R) → Fin m → R) (es : List (Element d m ι R))
    (a : ι) : repeatWalk walks (addFunctional f es) 0 a = walks * (addFunctional f es 0 a) := by
  unfold repeatWalk
  induction walks with
  | zero => simp
  | succ w ih =>
    rw [Function.iterate_succ_apply', addFunctional_apply, ih, addFunctional_apply]
    simp only [Pi.zero_apply]; push_cast; ring

variable [Fintype ι]

/-- the action of the stiffness matrix on a function, through its gradients -/
theorem stiff_mulVec (diffusion : (Fin d → R) → Matrix (Fin d) (Fin d) R) (es : List (Element d m ι R)) (v : ι → R)
    (a : ι) : (stiff diffusion es *ᵥ v) a = (es.map fun e => ∑ i, if a = e.dofs i then
      (e.quadOp.map fun q => q.weight *
        ((diffusion (e.toGlobal q.pos) *ᵥ e.gradOf v q.pos) ⬝ᵥ e.grad i q.pos)).sum else 0).sum := by
  have hs : ∀ b, stiff diffusion es a b = (es.map fun e => ∑ i, ∑ j, if a = e.dofs i ∧ b = e.dofs j then
      ((e.quadOp.map fun q => q.weight *
        ((diffusion (e.toGlobal q.pos) *ᵥ e.grad j q.pos) ⬝ᵥ e.grad i q.pos)).sum) else 0).sum := by
    intro b
    have := addElliptic_apply diffusion es 0 a b
    unfold addElliptic at this
    rw [foldl_contrib (R := R) es _ (fun A : ι → ι → R => A a b) (fun e => ∑ i, ∑ j, if a = e.dofs i ∧ b = e.dofs j then
      ((e.quadOp.map fun q => q.weight *
        ((diffusion (e.toGlobal q.pos) *ᵥ e.grad j q.pos) ⬝ᵥ e.grad i q.pos)).sum) else 0)
      (fun A e => double_loop A (fun i _ => e.dofs i) (fun _ j => e.dofs j) _ a b)] at this
    simpa using this.symm
  simp only [mulVec, dotProduct, hs]
  simp only [← List.sum_map_mul_right]
  rw [← sum_map_sum]
  congr 1
  apply List.map_congr_left
  intro e _
  simp only [Finset.sum_mul]
  rw [Finset.sum_comm]
  refine Finset.sum_congr rfl fun i _ => ?_
  rw [Finset.sum_comm]
  by_cases hi : a = e.dofs i
  swap
  · simp [hi]
  simp only [hi, true_and, if_true, ite_mul, zero_mul]
  simp only [Finset.sum_ite_eq', Finset.mem_univ, if_true]
  simp only [← List.sum_map_mul_right]
  rw [← sum_map_sum]
  congr 1
  apply List.map_congr_left
  intro q _
  simp only [Element.gradOf, Finset.sum_apply, Pi.smul_apply, smul_eq_mul, Finset.mul_sum, Finset.sum_mul]
  rw [Finset.sum_comm]
  refine Finset.sum_congr rfl fun k _ => ?_
  rw [Finset.sum_comm]
  refine Finset.sum_congr rfl fun l _ => ?_
  refine Finset.sum_congr rfl fun j _ => ?_
  ring

end lemmas

/-- The local space contains the coarse basis functions (nested grids, same polynomial order), and operator and functionals
are integrated with the same rule. -/
structure Cell.Nested (K : Cell d m n ι R) : Prop where
  sameQuad : ∀ e ∈ K.elements, e.quadOp = e.quad
  nested : ∀ e ∈ K.elements, ∀ q ∈ e.quad, ∀ k, K.coarseJac k (K.toCoarse (e.toGlobal q.pos)) = e.gradOf (K.nodal k) q.pos

section
variable [Fintype ι]

theorem functional_eq (diffusion : (Fin d → R) → Matrix (Fin d) (Fin d) R) (es : List (Element d m ι R)) (v : ι → R)
    (f : Element d m ι R → (Fin d → R) → Fin m → R) (hq : ∀ e ∈ es, e.quadOp = e.quad)
    (hf : ∀ e ∈ es, ∀ q ∈ e.quad, ∀ i, f e q.pos i =
      -((diffusion (e.toGlobal q.pos) *ᵥ e.gradOf v q.pos) ⬝ᵥ e.grad i q.pos)) (a : ι) :
    addFunctional f es 0 a = -(stiff diffusion es *ᵥ v) a := by
  rw [addFunctional_apply, stiff_mulVec, sum_map_neg]
  simp only [Pi.zero_apply, zero_add]
  congr 1
  apply List.map_congr_left
  intro e he
  simp only [← Finset.sum_neg_distrib]
  refine Finset.sum_congr rfl fun i _ => ?_
  split_ifs
  swap
  · simp
  rw [hq e he, sum_map_neg]
  congr 1
  apply List.map_congr_left
  intro q hqm
  rw [hf e he q hqm]
  ring

/-- **C58** (assembly) The right-hand side of an inner corrector is minus the action of the local operator on the coarse
basis function, that of the Dirichlet corrector minus its action on the prolonged Dirichlet extension; each as often
as the operator itself was assembled. -/
theorem C58_right_hand_sides (K : Cell d m n ι R) (hK : K.Nested) (walks : ℕ)
    (diffusion : (Fin d → R) → Matrix (Fin d) (Fin d) R) (flux : (Fin d → R) → (Fin d → R) → (Fin d → R))
    (hflux : ∀ x v, flux x v = diffusion x *ᵥ v) (ext : Fin n → R) (a : ι) :
    (∀ k : Fin n, K.inner walks flux k a = -(walks * (stiff diffusion K.elements *ᵥ K.nodal k) a)) ∧
    K.dirichlet walks flux ext a = -(walks * (stiff diffusion K.elements *ᵥ K.extension ext) a) ∧
    (∀ b, K.matrix walks diffusion a b = walks * stiff diffusion K.elements a b) ∧
    K.neumannRhs walks a = walks * K.neumann a := by
  refine ⟨fun k => ?_, ?_, fun b => matrix_apply K walks diffusion a b, ?_⟩
  · simp only [Cell.inner, k.2, dite_true]
    rw [repeat_functional, functional_eq diffusion K.elements (K.nodal k) _ hK.sameQuad]
    · ring
    · intro e he q hq i
      simp only [coarseBasisProduct, hflux, hK.nested e he q hq k]
      ring
  · simp only [Cell.dirichlet]
    rw [repeat_functional, functional_eq diffusion K.elements (K.extension ext) _ hK.sameQuad]
    · ring
    · intro e he q hq i
      simp only [dirichletProduct, hflux]
      ring
  · simp only [Cell.neumannRhs, repeatWalk]
    induction walks with
    | zero => simp
    | succ w ih =>
      rw [Function.iterate_succ_apply', Pi.add_apply, ih]
      push_cast; ring

end

section
variable {R : Type} [Field R] [CharZero R] [Fintype ι]

/-- a solution of the constrained system -/
theorem constrained_iff (A B : Matrix ι ι R) (walks : ℕ) (hw : walks ≠ 0) (hA : ∀ a b, A a b = walks * B a b)
    (D : ι → Bool) (x r f : ι → R) (hr : ∀ a, r a = walks * f a) (h : constrainMat D A *ᵥ x = constrainVec D r) (i : ι) :
    (D i = true → x i = 0) ∧ (D i = false → (B *ᵥ x) i = f i) := by
  have hi := congrFun h i
  have hw' : (walks : R) ≠ 0 := by exact_mod_cast hw
  constructor
  · intro hd
    simpa [constrainMat, constrainVec, mulVec, dotProduct, hd] using hi
  · intro hd
    simp only [constrainMat, constrainVec, mulVec, dotProduct, hd, hA, hr] at hi
    simp only [Bool.false_eq_true, if_false, mul_assoc, ← Finset.mul_sum] at hi
    exact mul_left_cancel₀ hw' hi

/-- what the local solutions of a cell are; `g` is the Dirichlet extension on the local grid -/
theorem correctors_of (K : Cell d m n ι R) (hK : K.Nested) (walks : ℕ) (hw : walks ≠ 0)
    (diffusion : (Fin d → R) → Matrix (Fin d) (Fin d) R) (flux : (Fin d → R) → (Fin d → R) → (Fin d → R))
    (hflux : ∀ x v, flux x v = diffusion x *ᵥ v) (g : ι → R) (valid : (ι → R) → Bool) (s : Solvers ι R)
    (hs : s.Correct (constrainMat K.constrained (K.matrix walks diffusion))) (xs : List (ι → R))
    (h : solveCell valid s true false K.hasBoundary (n + 2) K.constrained (K.inner walks flux) (K.neumannRhs walks)
      (repeatWalk walks (addFunctional (dirichletProduct flux g) K.elements) 0) = .ok xs) :
    ∃ (Q : Fin n → ι → R) (qN qD : ι → R), xs = Manager.corrList Q qN qD ∧
      (∀ k, IsSolution (stiff diffusion K.elements) (-(stiff diffusion K.elements *ᵥ K.nodal k)) 0 K.constrained (Q k)) ∧
      (K.hasBoundary = false → qN = 0 ∧ qD = 0) ∧
      (K.hasBoundary = true →
        IsSolution (stiff diffusion K.elements) K.neumann 0 K.constrained qN ∧
        IsSolution (stiff diffusion K.elements) (-(stiff diffusion K.elements *ᵥ g)) 0 K.constrained qD) := by
  obtain ⟨hl, h1, h2, h3⟩ := C19_local_solutions valid s _ hs K.hasBoundary d n K.constrained (K.inner walks flux)
    (K.neumannRhs walks) _ xs h
  simp only [numBoundaryCorrectors, Bool.false_eq_true, if_false] at hl
  have hrhs := C58_right_hand_sides K hK walks diffusion flux hflux 0
  have hdir : ∀ a, repeatWalk walks (addFunctional (dirichletProduct flux g) K.elements) 0 a =
      walks * (-(stiff diffusion K.elements *ᵥ g)) a := by
    intro a
    rw [repeat_functional, functional_eq diffusion K.elements g _ hK.sameQuad]
    · rfl
    · intro e he q hq i
      simp only [dirichletProduct, hflux]
      ring
  refine ⟨fun k => xs[k.1]'(by omega), xs[n]'(by omega), xs[n + 1]'(by omega), ?_, ?_, ?_, ?_⟩
  · apply List.ext_getElem?
    intro i
    unfold Manager.corrList
    rcases Nat.lt_or_ge i n with hin | hin
    · rw [List.getElem?_append_left (by simpa using hin), List.getElem?_eq_getElem (by omega)]
      simp [hin]
    · rw [List.getElem?_append_right (by simpa using hin), List.length_ofFn]
      rcases Nat.lt_or_ge i (n + 2) with hi2 | hi2
      · have : i = n ∨ i = n + 1 := by omega
        rcases this with rfl | rfl
        · rw [List.getElem?_eq_getElem (by omega)]; simp
        · rw [List.getElem?_eq_getElem (by omega), show n + 1 - n = 1 by omega]; simp
      · rw [List.getElem?_eq_none (by omega), List.getElem?_eq_none (by simp; omega)]
  · intro k
    obtain ⟨x, hx, hx'⟩ := h1 k k.2
    rw [List.getElem?_eq_getElem (by omega)] at hx
    injection hx with hx
    rw [← hx] at hx'
    have := constrained_iff _ _ walks hw (fun a b => (hrhs a).2.2.1 b) K.constrained _ _
      (-(stiff diffusion K.elements *ᵥ K.nodal k)) (fun a => by rw [(hrhs a).1 k]; simp) hx'
    exact ⟨fun i hi => (this i).1 hi, fun i hi => (this i).2 hi⟩
  · intro hb
    obtain ⟨ha, hb'⟩ := h2 hb
    rw [List.getElem?_eq_getElem (by omega)] at ha hb'
    exact ⟨by injection ha, by injection hb'⟩
  · intro hb
    obtain ⟨⟨x, hx, hx'⟩, ⟨y, hy, hy'⟩⟩ := h3 hb
    rw [List.getElem?_eq_getElem (by omega)] at hx hy
    injection hx with hx
    injection hy with hy
    rw [← hx] at hx'
    rw [← hy] at hy'
    have hN := constrained_iff _ _ walks hw (fun a b => (hrhs a).2.2.1 b) K.constrained _ _
      K.neumann (fun a => (hrhs a).2.2.2) hx'
    have hD := constrained_iff _ _ walks hw (fun a b => (hrhs a).2.2.1 b) K.constrained _ _
      (-(stiff diffusion K.elements *ᵥ g)) hdir hy'
    exact ⟨⟨fun i hi => (hN i).1 hi, fun i hi => (hN i).2 hi⟩, ⟨fun i hi => (hD i).1 hi, fun i hi => (hD i).2 hi⟩⟩

theorem correctors (K : Cell d m n ι R) (hK : K.Nested) (walks : ℕ) (hw : walks ≠ 0)
    (diffusion : (Fin d → R) → Matrix (Fin d) (Fin d) R) (flux : (Fin d → R) → (Fin d → R) → (Fin d → R))
    (hflux : ∀ x v, flux x v = diffusion x *ᵥ v) (ext : Fin n → R) (valid : (ι → R) → Bool) (s : Solvers ι R)
    (hs : s.Correct (constrainMat K.constrained (K.matrix walks diffusion))) (xs : List (ι → R))
    (h : K.solve valid s true walks flux ext = .ok xs) :
    ∃ (Q : Fin n → ι → R) (qN qD : ι → R), xs = Manager.corrList Q qN qD ∧
      (∀ k, IsSolution (stiff diffusion K.elements) (-(stiff diffusion K.elements *ᵥ K.nodal k)) 0 K.constrained (Q k)) ∧
      (K.hasBoundary = false → qN = 0 ∧ qD = 0) ∧
      (K.hasBoundary = true →
        IsSolution (stiff diffusion K.elements) K.neumann 0 K.constrained qN ∧
        IsSolution (stiff diffusion K.elements) (-(stiff diffusion K.elements *ᵥ K.extension ext)) 0 K.constrained qD) :=
  correctors_of K hK walks hw diffusion flux hflux (K.extension ext) valid s hs xs h

omit [CharZero R] [Fintype ι] in
/-- the solution on a cell in terms of the local solutions -/
theorem solution_eq (K : Cell d m n ι R) (cells : List (ℕ × List (ι → R))) (hn : (cells.map Prod.fst).Nodup) (key : ℕ)
    (c : Fin n → R) (Q : Fin n → ι → R) (qN qD : ι → R) (hc : (key, Manager.corrList Q qN qD) ∈ cells) :
    K.solution cells key c = .ok (∑ k, c k • (K.nodal k + Q k) + qD - qN) := by
  obtain ⟨w', corr, e, hcorr⟩ := Manager.C16_reconstruction cells hn key 0 [] Q qN qD c hc
  unfold Cell.solution
  rw [e]
  simp only [Outcome.ok_bind, Outcome.pure_eq, Cell.add]
  congr 1
  funext j
  simp only [Pi.add_apply, Pi.sub_apply, Finset.sum_apply, Pi.smul_apply, smul_eq_mul, hcorr j (Or.inl rfl), mul_add,
    Finset.sum_add_distrib]
  ring

/-- **C58, C59** (what the code computes) On every coarse cell, without oversampling, the solution has the values of the
coarse solution at the constrained fine nodes; at the other fine nodes its residual is zero in cells without
boundary faces, and in cells with boundary faces it is minus the action of the operator on the Dirichlet
extension minus the Neumann functional.  `walks` is the number of times the local system was assembled. -/
theorem C58_residual_partial (K : Cell d m n ι R) (hK : K.Nested) (walks : ℕ) (hw : walks ≠ 0)
    (diffusion : (Fin d → R) → Matrix (Fin d) (Fin d) R) (flux : (Fin d → R) → (Fin d → R) → (Fin d → R))
    (hflux : ∀ x v, flux x v = diffusion x *ᵥ v) (ext : Fin n → R) (valid : (ι → R) → Bool) (s : Solvers ι R)
    (hs : s.Correct (constrainMat K.constrained (K.matrix walks diffusion))) (xs : List (ι → R))
    (h : K.solve valid s true walks flux ext = .ok xs) (cells : List (ℕ × List (ι → R)))
    (hn : (cells.map Prod.fst).Nodup) (key : ℕ) (hc : (key, xs) ∈ cells) (c : Fin n → R) :
    ∃ u, K.solution cells key c = .ok u ∧
      IsSolution (stiff diffusion K.elements)
        (if K.hasBoundary then -(stiff diffusion K.elements *ᵥ ∑ k, ext k • K.nodal k) - K.neumann else 0)
        (∑ k, c k • K.nodal k) K.constrained u := by
  obtain ⟨Q, qN, qD, rfl, h1, h2, h3⟩ := correctors K hK walks hw diffusion flux hflux ext valid s hs xs h
  refine ⟨_, solution_eq K cells hn key c Q qN qD hc, ?_⟩
  have hmul : ∀ i, K.constrained i = false →
      (stiff diffusion K.elements *ᵥ ∑ k, c k • (K.nodal k + Q k)) i = 0 := by
    intro i hi
    rw [Matrix.mulVec_sum, Finset.sum_apply]
    refine Finset.sum_eq_zero fun k _ => ?_
    rw [mulVec_smul, mulVec_add, Pi.smul_apply, Pi.add_apply, (h1 k).equation i hi]
    simp
  have hval : ∀ i, K.constrained i = true → (∑ k, c k • (K.nodal k + Q k)) i = (∑ k, c k • K.nodal k) i := by
    intro i hi
    simp only [Finset.sum_apply, Pi.smul_apply, Pi.add_apply, smul_eq_mul]
    refine Finset.sum_congr rfl fun k _ => ?_
    rw [(h1 k).boundary i hi]
    simp
  cases hb : K.hasBoundary with
  | false =>
    obtain ⟨rfl, rfl⟩ := h2 hb
    refine ⟨fun i hi => ?_, fun i hi => ?_⟩
    · simpa using hval i hi
    · simpa using hmul i hi
  | true =>
    obtain ⟨hN, hD⟩ := h3 hb
    refine ⟨fun i hi => ?_, fun i hi => ?_⟩
    · rw [Pi.sub_apply, Pi.add_apply, hval i hi, hN.boundary i hi, hD.boundary i hi]
      simp
    · rw [mulVec_sub, mulVec_add, Pi.sub_apply, Pi.add_apply, hmul i hi, hN.equation i hi, hD.equation i hi]
      simp [Cell.extension]

/-- `u` is the solution on the cell in some successful run: the local system was assembled at least once, the flux is the
diffusion matrix times the direction, the direct solver solved what it was given, the local solutions were stored with those
of other cells and combined with the coefficients `c` of the coarse solution. -/
def Cell.Computes (K : Cell d m n ι R) (diffusion : (Fin d → R) → Matrix (Fin d) (Fin d) R) (ext c : Fin n → R)
    (u : ι → R) : Prop :=
  ∃ (walks : ℕ) (flux : (Fin d → R) → (Fin d → R) → (Fin d → R)) (valid : (ι → R) → Bool) (s : Solvers ι R)
    (xs : List (ι → R)) (cells : List (ℕ × List (ι → R))) (key : ℕ),
    walks ≠ 0 ∧ (∀ x v, flux x v = diffusion x *ᵥ v) ∧
    s.Correct (constrainMat K.constrained (K.matrix walks diffusion)) ∧
    K.solve valid s true walks flux ext = .ok xs ∧ (cells.map Prod.fst).Nodup ∧ (key, xs) ∈ cells ∧
    K.solution cells key c = .ok u

/-- **C58** Every local solution of an inner problem corrects its coarse basis function to the discretely harmonic function
with the same values at the constrained nodes. -/
theorem C58_multiscale_basis (K : Cell d m n ι R) (hK : K.Nested) (walks : ℕ) (hw : walks ≠ 0)
    (diffusion : (Fin d → R) → Matrix (Fin d) (Fin d) R) (flux : (Fin d → R) → (Fin d → R) → (Fin d → R))
    (hflux : ∀ x v, flux x v = diffusion x *ᵥ v) (ext : Fin n → R) (valid : (ι → R) → Bool) (s : Solvers ι R)
    (hs : s.Correct (constrainMat K.constrained (K.matrix walks diffusion))) (xs : List (ι → R))
    (h : K.solve valid s true walks flux ext = .ok xs) (k : Fin n) :
    ∃ Q, xs[k.1]? = some Q ∧
      IsSolution (stiff diffusion K.elements) 0 (K.nodal k) K.constrained (K.nodal k + Q) := by
  obtain ⟨Q, qN, qD, rfl, h1, -, -⟩ := correctors K hK walks hw diffusion flux hflux ext valid s hs xs h
  refine ⟨Q k, ?_, fun i hi => ?_, fun i hi => ?_⟩
  · rw [Manager.corrList, List.getElem?_append_left (by simp)]
    simp
  · rw [Pi.add_apply, (h1 k).boundary i hi]; simp
  · rw [mulVec_add, Pi.add_apply, (h1 k).equation i hi]; simp

theorem computes_residual (K : Cell d m n ι R) (hK : K.Nested) (diffusion : (Fin d → R) → Matrix (Fin d) (Fin d) R)
    (ext c : Fin n → R) (u : ι → R) (h : K.Computes diffusion ext c u) :
    IsSolution (stiff diffusion K.elements)
        (if K.hasBoundary then -(stiff diffusion K.elements *ᵥ ∑ k, ext k • K.nodal k) - K.neumann else 0)
        (∑ k, c k • K.nodal k) K.constrained u := by
  obtain ⟨walks, flux, valid, s, xs, cells, key, hw, hf, hs, hx, hn, hc, hu⟩ := h
  obtain ⟨u', hu', hsol⟩ := C58_residual_partial K hK walks hw diffusion flux hf ext valid s hs xs hx cells hn key hc c
  rw [hu] at hu'
  injection hu' with hu'
  rwa [hu']

/-- **C58** (partial: cells without boundary faces, and cells whose Dirichlet extension and Neumann functional
vanish) The solution on the cell is the fine-scale solution with the values of the coarse solution at the constrained nodes. -/
theorem C58_harmonic_partial (K : Cell d m n ι R) (hK : K.Nested) (diffusion : (Fin d → R) → Matrix (Fin d) (Fin d) R)
    (ext c : Fin n → R) (u : ι → R) (h : K.Computes diffusion ext c u)
    (hb : K.hasBoundary = false ∨ ext = 0 ∧ K.neumann = 0) :
    IsSolution (stiff diffusion K.elements) 0 (∑ k, c k • K.nodal k) K.constrained u := by
  have := computes_residual K hK diffusion ext c u h
  rcases hb with hb | ⟨rfl, hN⟩
  · simpa [hb] using this
  · cases hb : K.hasBoundary <;> simpa [hb, hN] using this

/-- **C58** (the exact condition) In a cell with boundary faces and without Neumann data, the solution is the fine-scale
solution exactly if the Dirichlet extension itself is already discretely harmonic. -/
theorem C58_harmonic_iff (K : Cell d m n ι R) (hK : K.Nested) (diffusion : (Fin d → R) → Matrix (Fin d) (Fin d) R)
    (ext c : Fin n → R) (u : ι → R) (h : K.Computes diffusion ext c u) (hb : K.hasBoundary = true) (hN : K.neumann = 0) :
    IsSolution (stiff diffusion K.elements) 0 (∑ k, c k • K.nodal k) K.constrained u ↔
      ∀ i, K.constrained i = false → (stiff diffusion K.elements *ᵥ ∑ k, ext k • K.nodal k) i = 0 := by
  have hr := computes_residual K hK diffusion ext c u h
  rw [hb, hN] at hr
  simp only [if_true, sub_zero] at hr
  constructor
  · intro hs i hi
    have h1 := hr.equation i hi
    rw [hs.equation i hi] at h1
    simpa using h1.symm
  · intro hz
    refine ⟨hr.boundary, fun i hi => ?_⟩
    rw [hr.equation i hi, Pi.neg_apply, hz i hi]
    simp

/-- **C58** (the negation, cause) In a cell with boundary faces and without Neumann data the correction of the Dirichlet
extension enters twice: once through the coefficients of the coarse solution, which contain the
extension, and once as Dirichlet corrector. -/
theorem C58_violated_doubled (K : Cell d m n ι R) (hK : K.Nested)
    (diffusion : (Fin d → R) → Matrix (Fin d) (Fin d) R) (ext c : Fin n → R) (u : ι → R)
    (h : K.Computes diffusion ext c u) (hb : K.hasBoundary = true) (hN : K.neumann = 0)
    (hinj : FreeInjective (stiff diffusion K.elements) K.constrained) :
    ∃ Q : Fin n → ι → R,
      (∀ k, IsSolution (stiff diffusion K.elements) 0 (K.nodal k) K.constrained (K.nodal k + Q k)) ∧
      u = (∑ k, c k • (K.nodal k + Q k)) + ∑ k, ext k • Q k := by
  have hr := computes_residual K hK diffusion ext c u h
  obtain ⟨walks, flux, valid, s, xs, cells, key, hw, hf, hs, hx, hn, hc, hu⟩ := h
  obtain ⟨Q, qN, qD, rfl, h1, -, -⟩ := correctors K hK walks hw diffusion flux hf ext valid s hs xs hx
  have hQ : ∀ k, IsSolution (stiff diffusion K.elements) 0 (K.nodal k) K.constrained (K.nodal k + Q k) := by
    intro k
    refine ⟨fun i hi => ?_, fun i hi => ?_⟩
    · rw [Pi.add_apply, (h1 k).boundary i hi]; simp
    · rw [mulVec_add, Pi.add_apply, (h1 k).equation i hi]; simp
  refine ⟨Q, hQ, ?_⟩
  rw [hb, hN] at hr
  simp only [if_true, sub_zero] at hr
  rw [← sub_eq_zero]
  apply hinj
  · intro i hi
    have e1 : ∀ k, (K.nodal k + Q k) i = K.nodal k i := fun k => (hQ k).boundary i hi
    have e2 : ∀ k, Q k i = 0 := fun k => by simpa using (h1 k).boundary i hi
    rw [Pi.sub_apply, hr.boundary i hi]
    simp [e2]
  · intro i hi
    rw [mulVec_sub, mulVec_add, Pi.sub_apply, Pi.add_apply, hr.equation i hi, Matrix.mulVec_sum, Matrix.mulVec_sum,
      Matrix.mulVec_sum, Pi.neg_apply, Finset.sum_apply, Finset.sum_apply, Finset.sum_apply]
    have e1 : ∀ k, (stiff diffusion K.elements *ᵥ (c k • (K.nodal k + Q k))) i = 0 := fun k => by
      rw [mulVec_smul, Pi.smul_apply, (hQ k).equation i hi]; simp
    have e2 : ∀ k, (stiff diffusion K.elements *ᵥ (ext k • Q k)) i =
        -(stiff diffusion K.elements *ᵥ (ext k • K.nodal k)) i := fun k => by
      rw [mulVec_smul, mulVec_smul, Pi.smul_apply, Pi.smul_apply, (h1 k).equation i hi]; simp
    simp only [e1, e2]
    simp

/-- **C59** (what holds) In a cell with boundary faces and zero Dirichlet extension the solution solves the local problem
with the Neumann functional taken with a minus sign. -/
theorem C59_negative_sign_partial (K : Cell d m n ι R) (hK : K.Nested)
    (diffusion : (Fin d → R) → Matrix (Fin d) (Fin d) R) (c : Fin n → R) (u : ι → R)
    (h : K.Computes diffusion 0 c u) (hb : K.hasBoundary = true) :
    IsSolution (stiff diffusion K.elements) (-K.neumann) (∑ k, c k • K.nodal k) K.constrained u := by
  have hr := computes_residual K hK diffusion 0 c u h
  simpa [hb] using hr

/-- **C59** (the negation) The global systems add the Neumann functional to the load (coarse_scale_operator.cc:69-76,
fem_solver.cc:73-83).  With this sign the solution on a cell solves its local problem only if the Neumann
functional vanishes at all unconstrained nodes. -/
theorem C59_violated_sign (K : Cell d m n ι R) (hK : K.Nested)
    (diffusion : (Fin d → R) → Matrix (Fin d) (Fin d) R) (c : Fin n → R) (u : ι → R)
    (h : K.Computes diffusion 0 c u) (hb : K.hasBoundary = true) :
    IsSolution (stiff diffusion K.elements) K.neumann (∑ k, c k • K.nodal k) K.constrained u ↔
      ∀ i, K.constrained i = false → K.neumann i = 0 := by
  have hr := C59_negative_sign_partial K hK diffusion c u h hb
  constructor
  · intro hs i hi
    have h1 := hr.equation i hi
    rw [hs.equation i hi, Pi.neg_apply] at h1
    have h2 : (2 : R) * K.neumann i = 0 := by linear_combination h1
    exact (mul_eq_zero.mp h2).resolve_left two_ne_zero
  · intro hz
    refine ⟨hr.boundary, fun i hi => ?_⟩
    rw [hr.equation i hi, Pi.neg_apply, hz i hi]
    simp

end

/-! ### An instance

The interval [0, 1] as one coarse cell with two fine cells, diffusion 1 on the left and 2 on the right. -/

/-- fine cell `l` (0 or 1) -/
def exampleElement (l : Fin 2) : Element 1 2 (Fin 3) ℚ where
  dofs := fun i => if i = 0 then l.castSucc else l.succ
  grad := fun i _ _ => if i = 0 then -2 else 2
  toGlobal := fun x _ => (x 0 + if l = 0 then 0 else 1) / 2
  quad := [⟨fun _ => 1 / 2, 1 / 2⟩]
  quadOp := [⟨fun _ => 1 / 2, 1 / 2⟩]

def exampleDiffusion (x : Fin 1 → ℚ) : Matrix (Fin 1) (Fin 1) ℚ := fun _ _ => if x 0 < 1 / 2 then 1 else 2

/-- constrained at the nodes `D`, with the given Neumann functional -/
def exampleCell (D : Fin 3 → Bool) (neumann : Fin 3 → ℚ) : Cell 1 2 2 (Fin 3) ℚ where
  elements := [exampleElement 0, exampleElement 1]
  constrained := D
  hasBoundary := true
  toCoarse := id
  coarseJac := fun k _ _ => if k = 0 then -1 else 1
  nodal := ![![1, 1 / 2, 0], ![0, 1 / 2, 1]]
  neumann := neumann

theorem exampleCell_nested (D : Fin 3 → Bool) (neumann : Fin 3 → ℚ) : (exampleCell D neumann).Nested := by
  constructor
  · intro e he
    simp only [exampleCell, List.mem_cons, List.not_mem_nil, or_false] at he
    rcases he with rfl | rfl <;> rfl
  · intro e he q hq k
    simp only [exampleCell, List.mem_cons, List.not_mem_nil, or_false] at he
    funext t
    rcases he with rfl | rfl <;> fin_cases k <;>
      simp [exampleCell, exampleElement, Element.gradOf, Fin.sum_univ_succ] <;> norm_num

theorem example_stiff : stiff exampleDiffusion [exampleElement 0, exampleElement 1] =
    !![2, -2, 0; -2, 6, -4; 0, -4, 4] := by
  ext i j
  fin_cases i <;> fin_cases j <;>
    simp [stiff, stiffness, samples, exampleElement, exampleDiffusion, Fin.sum_univ_succ, mulVec, dotProduct] <;>
    norm_num

/-- direct solver for both ends constrained -/
def exampleSolver : Solvers (Fin 3) ℚ where
  direct := fun _ b => .ok ![b 0, (b 1 + 2 * b 0 + 4 * b 2) / 6, b 2]
  generic := fun b _ => .ok ![b 0, (b 1 + 2 * b 0 + 4 * b 2) / 6, b 2]

theorem exampleSolver_correct (neumann : Fin 3 → ℚ) :
    exampleSolver.Correct (constrainMat ![true, false, true]
      ((exampleCell ![true, false, true] neumann).matrix 1 exampleDiffusion)) := by
  have hm : (exampleCell ![true, false, true] neumann).matrix 1 exampleDiffusion = !![2, -2, 0; -2, 6, -4; 0, -4, 4] := by
    rw [← example_stiff]
    ext i j
    rw [matrix_apply]
    simp [exampleCell]
  have key : ∀ b : Fin 3 → ℚ, constrainMat ![true, false, true]
      ((exampleCell ![true, false, true] neumann).matrix 1 exampleDiffusion) *ᵥ
        ![b 0, (b 1 + 2 * b 0 + 4 * b 2) / 6, b 2] = b := by
    intro b
    rw [hm]
    funext i
    fin_cases i <;> simp [constrainMat, mulVec, dotProduct, Fin.sum_univ_succ]
    ring
  constructor
  · intro x b x' h
    injection h with h
    rw [← h]; exact key b
  · intro b x x' h
    injection h with h
    rw [← h]; exact key b

theorem example_computes (neumann : Fin 3 → ℚ) (ext c : Fin 2 → ℚ) :
    ∃ u, (exampleCell ![true, false, true] neumann).Computes exampleDiffusion ext c u := by
  obtain ⟨xs, hxs⟩ : ∃ xs, (exampleCell ![true, false, true] neumann).solve (fun _ => true) exampleSolver true 1
      (fun x v => exampleDiffusion x *ᵥ v) ext = .ok xs := ⟨_, rfl⟩
  obtain ⟨u, hu, -⟩ := C58_residual_partial _ (exampleCell_nested _ neumann) 1 one_ne_zero exampleDiffusion _
    (fun _ _ => rfl) ext _ _ (exampleSolver_correct neumann) xs hxs [(7, xs)] (by simp) 7 (by simp) c
  exact ⟨u, 1, _, _, _, xs, _, 7, one_ne_zero, fun _ _ => rfl, exampleSolver_correct neumann, hxs, by simp, by simp, hu⟩

/-- **C58 is violated**: Dirichlet value 1 at the left end.  The solution is 1/6 at the middle node; the fine-scale solution is
1/3. -/
theorem C58_violated :
    ∃ (K : Cell 1 2 2 (Fin 3) ℚ) (diffusion : (Fin 1 → ℚ) → Matrix (Fin 1) (Fin 1) ℚ) (ext c : Fin 2 → ℚ) (u : Fin 3 → ℚ),
      K.Nested ∧ K.neumann = 0 ∧ K.Computes diffusion ext c u ∧ u 1 = 1 / 6 ∧
      ¬ IsSolution (stiff diffusion K.elements) 0 (∑ k, c k • K.nodal k) K.constrained u ∧
      IsSolution (stiff diffusion K.elements) 0 (∑ k, c k • K.nodal k) K.constrained ![1, 1 / 3, 0] := by
  obtain ⟨u, hu⟩ := example_computes 0 ![1, 0] ![1, 0]
  have hr := computes_residual _ (exampleCell_nested _ 0) _ _ _ _ hu
  have h0 := hr.boundary 0 rfl
  have h2 := hr.boundary 2 rfl
  have h1 := hr.equation 1 rfl
  have hst : stiff exampleDiffusion (exampleCell ![true, false, true] 0).elements = !![2, -2, 0; -2, 6, -4; 0, -4, 4] :=
    example_stiff
  rw [hst] at h1
  simp [exampleCell, mulVec, dotProduct, Fin.sum_univ_succ] at h0 h1 h2
  refine ⟨_, exampleDiffusion, _, _, u, exampleCell_nested _ 0, rfl, hu, by linarith, ?_, ?_⟩
  · intro hs
    have := hs.equation 1 rfl
    rw [hst] at this
    simp [mulVec, dotProduct, Fin.sum_univ_succ] at this
    linarith
  · refine ⟨fun i hi => ?_, fun i hi => ?_⟩
    · fin_cases i
      · simp [exampleCell, Fin.sum_univ_succ]
      · cases hi
      · simp [exampleCell, Fin.sum_univ_succ]
    · rw [hst]
      fin_cases i
      · cases hi
      · simp [mulVec, dotProduct, Fin.sum_univ_succ]; norm_num
      · cases hi

/-- Instance of C59: a Neumann functional at an unconstrained node. -/
example : ∃ u, (exampleCell ![true, false, true] ![0, 1, 0]).Computes exampleDiffusion 0 ![1, 0] u ∧
    ¬ IsSolution (stiff exampleDiffusion (exampleCell ![true, false, true] ![0, 1, 0]).elements) ![0, 1, 0]
      (∑ k, (![1, 0] : Fin 2 → ℚ) k • (exampleCell ![true, false, true] ![0, 1, 0]).nodal k) ![true, false, true] u := by
  obtain ⟨u, hu⟩ := example_computes ![0, 1, 0] 0 ![1, 0]
  refine ⟨u, hu, fun hs => ?_⟩
  have := (C59_violated_sign _ (exampleCell_nested _ _) _ _ _ hu rfl).mp hs 1 rfl
  simp [exampleCell] at this

end Verif.LocalAssembly
