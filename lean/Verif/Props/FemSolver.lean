import Verif.Model.FemSolver
import Verif.Props.Solvability

/-!
# C76: the reference solution
-/

namespace Verif.FemSolver
open Matrix Verif.CoarseAssembly Verif.LocalAssembly Verif.LocalSolve Verif.Q1Grid Verif.DirichletSolve
open Verif.Spec.Galerkin (Sample stiffness)
open Verif.Spec.Dirichlet

variable {d : ℕ} {R : Type} [Field R]

/-! ## Specification -/

/-- Partial derivatives of the multilinear function with nodal values `u` at the point with reference coordinates `x` of cell `j`. -/
def slope (G : Grid d R) (u : Node G.cells → R) (j : CellIndex G.cells) (x : Fin d → R) (i : Fin d) : R :=
  (valueOf u j (Function.update x i 1) - valueOf u j (Function.update x i 0)) / G.width i

/-- Position in the domain. -/
def position (G : Grid d R) (j : CellIndex G.cells) (x : Fin d → R) (i : Fin d) : R :=
  G.lower i + (((j i).1 : R) + x i) * G.width i

/-- `∫ A ∇u · ∇v`, with the rule of the matrix on every cell. -/
def bilinear (G : Grid d R) (diffusion : (Fin d → R) → Matrix (Fin d) (Fin d) R) (u v : Node G.cells → R) : R :=
  ∑ j, (G.matrixRule.map fun q => q.weight * (∏ i, G.width i) *
    ((diffusion (position G j q.pos) *ᵥ slope G u j q.pos) ⬝ᵥ slope G v j q.pos)).sum

/-- `∫ f v`, with the rule of the load. -/
def volume (G : Grid d R) (source : (Fin d → R) → R) (v : Node G.cells → R) : R :=
  ∑ j, (G.loadRule.map fun q => q.weight * (∏ i, G.width i) * (source (position G j q.pos) * valueOf v j q.pos)).sum

/-- The finite element solution: boundary values, and the equation for all test functions that vanish at the Dirichlet nodes.  The
Neumann term is a functional with coefficients `neumann`. -/
structure IsGalerkin (G : Grid d R) (diffusion : (Fin d → R) → Matrix (Fin d) (Fin d) R) (source : (Fin d → R) → R)
    (neumann data : Node G.cells → R) (D : Node G.cells → Bool) (u : Node G.cells → R) : Prop where
  boundary : ∀ g, D g = true → u g = data g
  equation : ∀ v : Node G.cells → R, (∀ g, D g = true → v g = 0) →
    bilinear G diffusion u v = volume G source v + ∑ g, neumann g * v g

/-! ## Assembled system -/

theorem gradOf_slope (G : Grid d R) (rule : List (QPoint d R)) (u : Node G.cells → R) (j : CellIndex G.cells) (x : Fin d → R) :
    (element G.lower G.width rule j).gradOf u x = slope G u j x := by
  funext i
  rw [element_gradOf, slope, valueOf, valueOf, sum_corner fun v => u (cornerNode j v) * shape v (Function.update x i 1),
    sum_corner fun v => u (cornerNode j v) * shape v (Function.update x i 0), ← Finset.sum_sub_distrib]
  congr 1
  refine Finset.sum_congr rfl fun v _ => ?_
  rw [← mul_sub]
  congr 1
  have key : ∀ t : R, shape v (Function.update x i t) = hat (v i) t * ∏ l ∈ Finset.univ.erase i, hat (v l) (x l) := fun t => by
    rw [shape, ← Finset.mul_prod_erase _ _ (Finset.mem_univ i), Function.update_self]
    congr 1
    exact Finset.prod_congr rfl fun l hl => by rw [Function.update_of_ne (Finset.ne_of_mem_erase hl)]
  rw [key, key, shapeGrad, ← Finset.mul_prod_erase _ _ (Finset.mem_univ i), if_pos rfl, ← sub_mul]
  congr 1
  · cases v i <;> simp [hat, hatSlope]
  · exact Finset.prod_congr rfl fun l hl => by rw [if_neg (Finset.ne_of_mem_erase hl)]

/-- All cells are visited exactly once. -/
structure Grid.Complete (G : Grid d R) : Prop where
  nodup : G.order.Nodup
  complete : ∀ j, j ∈ G.order

theorem sum_order (G : Grid d R) (hG : G.Complete) (f : CellIndex G.cells → R) : (G.order.map f).sum = ∑ j, f j := by
  rw [← List.sum_toFinset _ hG.nodup]
  exact Finset.sum_congr (by ext j; simp [hG.complete j]) fun _ _ => rfl

/-- matrix of one walk -/
def matrix (G : Grid d R) (diffusion : (Fin d → R) → Matrix (Fin d) (Fin d) R) : Matrix (Node G.cells) (Node G.cells) R :=
  stiff diffusion (G.elements G.matrixRule)

/-- right-hand side of one walk -/
def load (G : Grid d R) (source : (Fin d → R) → R) (neumann : Node G.cells → R) : Node G.cells → R :=
  addFunctional (sourceProduct source) (G.elements G.loadRule) 0 + neumann

theorem sum_ite_mul {ι : Type} [Fintype ι] [DecidableEq ι] {m : ℕ} (dofs : Fin m → ι) (c : Fin m → R) (v : ι → R) :
    ∑ a, (∑ i, if a = dofs i then c i else 0) * v a = ∑ i, c i * v (dofs i) := by
  simp only [Finset.sum_mul, ite_mul, zero_mul]
  rw [Finset.sum_comm]
  exact Finset.sum_congr rfl fun i _ => by simp

theorem sum_list_mul {α ι : Type} [Fintype ι] (l : List α) (f : α → ι → R) (v : ι → R) :
    ∑ a, (l.map fun e => f e a).sum * v a = (l.map fun e => ∑ a, f e a * v a).sum := by
  induction l with
  | nil => simp
  | cons e l ih => simp [add_mul, Finset.sum_add_distrib, ih]

theorem matrix_dot (G : Grid d R) (hG : G.Complete) (diffusion : (Fin d → R) → Matrix (Fin d) (Fin d) R) (u v : Node G.cells → R) :
    ∑ a, (matrix G diffusion *ᵥ u) a * v a = bilinear G diffusion u v := by
  simp only [matrix, stiff_mulVec]
  rw [sum_list_mul, Grid.elements, List.map_map, bilinear, ← sum_order G hG]
  refine congrArg List.sum (List.map_congr_left fun j _ => ?_)
  dsimp only [Function.comp_apply]
  rw [sum_ite_mul]
  simp only [gradOf_slope]
  rw [show (element G.lower G.width G.matrixRule j).quadOp = scaleRule G.width G.matrixRule from rfl, scaleRule]
  simp only [List.map_map, ← List.sum_map_mul_right]
  rw [← sum_map_sum]
  refine congrArg List.sum (List.map_congr_left fun q _ => ?_)
  dsimp only [Function.comp_apply]
  rw [← gradOf_slope G G.matrixRule v, Element.gradOf, dotProduct_sum, Finset.mul_sum]
  refine Finset.sum_congr rfl fun k _ => ?_
  rw [dotProduct_smul, smul_eq_mul]
  change _ * (diffusion (position G j q.pos) *ᵥ _ ⬝ᵥ _) * _ = _
  ring

theorem fem_load_dot (G : Grid d R) (hG : G.Complete) (source : (Fin d → R) → R) (neumann v : Node G.cells → R) :
    ∑ a, load G source neumann a * v a = volume G source v + ∑ a, neumann a * v a := by
  simp only [load, Pi.add_apply, add_mul, Finset.sum_add_distrib, addFunctional_apply, Pi.zero_apply, zero_add]
  congr 1
  rw [sum_list_mul, Grid.elements, List.map_map, volume, ← sum_order G hG]
  refine congrArg List.sum (List.map_congr_left fun j _ => ?_)
  dsimp only [Function.comp_apply]
  rw [sum_ite_mul]
  rw [show (element G.lower G.width G.loadRule j).quad = scaleRule G.width G.loadRule from rfl, scaleRule]
  simp only [List.map_map, ← List.sum_map_mul_right]
  rw [← sum_map_sum]
  refine congrArg List.sum (List.map_congr_left fun q _ => ?_)
  dsimp only [Function.comp_apply, sourceProduct]
  rw [valueOf, Finset.mul_sum, Finset.mul_sum]
  refine Finset.sum_congr rfl fun k _ => ?_
  change _ * (source (position G j q.pos) * _) * v (cornerNode j (corner k)) = _
  ring

/-- the finite element solution in terms of the assembled system -/
theorem galerkin_iff (G : Grid d R) (hG : G.Complete) (diffusion : (Fin d → R) → Matrix (Fin d) (Fin d) R) (source : (Fin d → R) → R)
    (neumann data : Node G.cells → R) (D : Node G.cells → Bool) (u : Node G.cells → R) :
    IsGalerkin G diffusion source neumann data D u ↔ IsSolution (matrix G diffusion) (load G source neumann) data D u := by
  constructor
  · refine fun h => ⟨h.boundary, fun a ha => ?_⟩
    have := h.equation (fun g => if g = a then 1 else 0) fun g hg => by
      rw [if_neg]
      rintro rfl
      rw [ha] at hg
      cases hg
    rw [← matrix_dot G hG, ← fem_load_dot G hG] at this
    simpa using this
  · refine fun h => ⟨h.boundary, fun v hv => ?_⟩
    rw [← matrix_dot G hG, ← fem_load_dot G hG]
    refine Finset.sum_congr rfl fun a _ => ?_
    cases ha : D a
    · rw [h.equation a ha]
    · rw [hv a ha, mul_zero, mul_zero]

theorem pass_eq (G : Grid d R) (diffusion : (Fin d → R) → Matrix (Fin d) (Fin d) R) (source : (Fin d → R) → R)
    (neumann : Node G.cells → R) (s : (Node G.cells → Node G.cells → R) × (Node G.cells → R)) :
    Matrix.of (G.pass diffusion source neumann s).1 = Matrix.of s.1 + matrix G diffusion ∧
      (G.pass diffusion source neumann s).2 = s.2 + load G source neumann := by
  constructor
  · ext a b
    exact addElliptic_apply _ _ _ _ _
  · funext a
    simp only [Grid.pass, load, Pi.add_apply, addFunctional_apply, Pi.zero_apply, zero_add]
    ring

/-- the system if the functors are forgotten -/
theorem system_forgets (G : Grid d R) (diffusion : (Fin d → R) → Matrix (Fin d) (Fin d) R) (source : (Fin d → R) → R)
    (neumann : Node G.cells → R) (D : Node G.cells → Bool) (g : Node G.cells → R) :
    G.system true diffusion source neumann D g = constrainedSystem (matrix G diffusion) (load G source neumann) g D := by
  obtain ⟨h1, h2⟩ := pass_eq G diffusion source neumann (fun _ _ => 0, 0)
  have h3 : Matrix.of (G.pass diffusion source neumann (fun _ _ => 0, 0)).1 = matrix G diffusion := by
    rw [h1]; ext a b; simp
  simp only [Grid.system, if_true, constrainedSystem, h2, h3, zero_add]

/-- the system if they are not -/
theorem system_keeps (G : Grid d R) (diffusion : (Fin d → R) → Matrix (Fin d) (Fin d) R) (source : (Fin d → R) → R)
    (neumann : Node G.cells → R) (D : Node G.cells → Bool) (g : Node G.cells → R) :
    G.system false diffusion source neumann D g =
      { matrix := constrainMat D (matrix G diffusion + matrix G diffusion)
        rhs := constrainVec D (load G source neumann - matrix G diffusion *ᵥ g + load G source neumann), extension := g } := by
  obtain ⟨h1, h2⟩ := pass_eq G diffusion source neumann (fun _ _ => 0, 0)
  have h3 : Matrix.of (G.pass diffusion source neumann (fun _ _ => 0, 0)).1 = matrix G diffusion := by
    rw [h1]; ext a b; simp
  obtain ⟨h4, h5⟩ := pass_eq G diffusion source neumann ((G.pass diffusion source neumann (fun _ _ => 0, 0)).1,
    (G.pass diffusion source neumann (fun _ _ => 0, 0)).2 - Matrix.of (G.pass diffusion source neumann (fun _ _ => 0, 0)).1 *ᵥ g)
  simp only [Grid.system, Bool.false_eq_true, if_false, h4, h5]
  rw [h3, h2]
  simp

theorem apply_forgets (G : Grid d R) (s : Solver (Node G.cells) R) (diffusion : (Fin d → R) → Matrix (Fin d) (Fin d) R)
    (source : (Fin d → R) → R) (neumann data : Node G.cells → R) (D : Node G.cells → Bool) (old : Node G.cells → R) :
    G.apply true s diffusion source neumann data D old =
      femApply s (matrix G diffusion) (load G source neumann) data D old := by
  unfold Grid.apply femApply
  rw [system_forgets]
  dsimp only
  cases s _ _ old <;> rfl

/-- **C76** (the result) If the solver returns, the result is the finite element solution, for every diffusion, source and boundary data,
whatever the output function held before.  Assumes that the functors of the first walk are forgotten. -/
theorem C76_galerkin (G : Grid d R) (hG : G.Complete) (s : Solver (Node G.cells) R) (hs : s.Correct)
    (diffusion : (Fin d → R) → Matrix (Fin d) (Fin d) R) (source : (Fin d → R) → R) (neumann data : Node G.cells → R)
    (D : Node G.cells → Bool) (old u : Node G.cells → R)
    (h : G.apply true s diffusion source neumann data D old = .ok u) : IsGalerkin G diffusion source neumann data D u := by
  rw [apply_forgets] at h
  exact (galerkin_iff G hG ..).mpr (C26_fem_solution s hs _ _ _ _ _ _ h)

section ordered
variable [LinearOrder R] [IsStrictOrderedRing R]

omit [LinearOrder R] [IsStrictOrderedRing R] in
theorem matrix_samples (G : Grid d R) (diffusion : (Fin d → R) → Matrix (Fin d) (Fin d) R) (s : Sample d (2 ^ d) (Node G.cells) R) :
    s ∈ samples diffusion (G.elements G.matrixRule) ↔ ∃ j ∈ G.order, ∃ q ∈ G.matrixRule,
      s = { weight := q.weight * ∏ i, G.width i, tensor := diffusion (position G j q.pos)
            source := 0, dofs := fun k => cornerNode j (corner k), val := 0
            grad := fun k i => shapeGrad (corner k) q.pos i / G.width i, lifting := 0 } := by
  simp only [samples, Grid.elements, List.mem_flatMap, List.mem_map]
  constructor
  · rintro ⟨_, ⟨j, hj, rfl⟩, q, hq, rfl⟩
    simp only [element, scaleRule, List.mem_map] at hq
    obtain ⟨q, hq, rfl⟩ := hq
    exact ⟨j, hj, q, hq, rfl⟩
  · rintro ⟨j, hj, q, hq, rfl⟩
    refine ⟨_, ⟨j, hj, rfl⟩, ⟨q.pos, q.weight * ∏ i, G.width i⟩, ?_, rfl⟩
    simp only [element, scaleRule, List.mem_map]
    exact ⟨q, hq, rfl⟩

/-- functions with zero energy are constant -/
theorem constant_of_energy (G : Grid d R) (hG : G.Complete) (hw : ∀ i, 0 < G.width i) (hc : ∀ i, 0 < G.cells i)
    (hR : Resolving G.matrixRule) (diffusion : (Fin d → R) → Matrix (Fin d) (Fin d) R) (hpd : Definite diffusion)
    (u : Node G.cells → R) (h : bilinear G diffusion u u = 0) (g g' : Node G.cells) : u g = u g' := by
  have hE : Verif.Spec.Galerkin.energy (samples diffusion (G.elements G.matrixRule)) u = 0 := by
    rw [← energy_eq, ← h, ← matrix_dot G hG]
    refine Finset.sum_congr rfl fun a _ => ?_
    simp only [mulVec, dotProduct, matrix, stiff, Matrix.of_apply, Finset.sum_mul]
    exact Finset.sum_congr rfl fun b _ => by ring
  have hu := gradient_zero _ (fun s hs => by
      obtain ⟨j, -, q, hq, rfl⟩ := (matrix_samples G diffusion s).mp hs
      exact mul_pos (hR.weight_pos q hq) (Finset.prod_pos fun i _ => hw i)) (fun s hs => by
      obtain ⟨j, -, q, hq, rfl⟩ := (matrix_samples G diffusion s).mp hs
      exact hpd _) u hE
  apply constant_of_edges hc
  intro j v i
  apply edges_of_rule G.matrixRule hR (fun v => u (cornerNode j v)) i
  intro q hq
  have h := congrFun (hu _ ((matrix_samples G diffusion _).mpr ⟨j, hG.complete j, q, hq, rfl⟩)) i
  rw [Sample.gradOf, Finset.sum_apply] at h
  simp only [Pi.smul_apply, smul_eq_mul, Pi.zero_apply] at h
  rw [← sum_corner (fun v => u (cornerNode j v) * shapeGrad v q.pos i)]
  simp only [← mul_div_assoc] at h
  rw [← Finset.sum_div, div_eq_zero_iff] at h
  exact h.resolve_right (hw i).ne'

theorem free_injective (G : Grid d R) (hG : G.Complete) (hw : ∀ i, 0 < G.width i) (hc : ∀ i, 0 < G.cells i)
    (hR : Resolving G.matrixRule) (diffusion : (Fin d → R) → Matrix (Fin d) (Fin d) R) (hpd : Definite diffusion)
    (D : Node G.cells → Bool) (hD : ∃ g, D g = true) : FreeInjective (matrix G diffusion) D := by
  intro u hu hfree
  obtain ⟨g0, hg0⟩ := hD
  funext g
  rw [Pi.zero_apply, ← hu g0 hg0]
  refine constant_of_energy G hG hw hc hR diffusion hpd u ?_ g g0
  rw [← matrix_dot G hG]
  refine Finset.sum_eq_zero fun a _ => ?_
  cases ha : D a
  · rw [hfree a ha, zero_mul]
  · rw [hu a ha, mul_zero]

/-- **C76** (existence and uniqueness) With one Dirichlet node and a positive definite diffusion there is exactly one finite element
solution; every correct solver that returns gives it, and there is a correct solver that returns. -/
theorem C76_unique (G : Grid d R) (hG : G.Complete) (hw : ∀ i, 0 < G.width i) (hc : ∀ i, 0 < G.cells i)
    (hR : Resolving G.matrixRule) (diffusion : (Fin d → R) → Matrix (Fin d) (Fin d) R) (hpd : Definite diffusion)
    (source : (Fin d → R) → R) (neumann data : Node G.cells → R) (D : Node G.cells → Bool) (hD : ∃ g, D g = true) :
    ∃ u, (∀ v, IsGalerkin G diffusion source neumann data D v ↔ v = u) ∧
      (∀ s : Solver (Node G.cells) R, s.Correct → ∀ old v, G.apply true s diffusion source neumann data D old = .ok v → v = u) ∧
      ∃ s : Solver (Node G.cells) R, s.Correct ∧ ∀ old, G.apply true s diffusion source neumann data D old = .ok u := by
  have hinj := free_injective G hG hw hc hR diffusion hpd D hD
  obtain ⟨x, hx, -⟩ := C25_system_solvable (matrix G diffusion) (load G source neumann) data D hinj
  have hsol := (constrained_iff (matrix G diffusion) (load G source neumann) data _ D
    (dirichletProject_boundary D data 0) x).mp hx
  refine ⟨x + dirichletProject D data 0, fun v => ⟨fun hv => ?_, ?_⟩, fun s hs old v h => ?_, ?_⟩
  · exact unique_of_freeInjective hinj ((galerkin_iff G hG ..).mp hv) hsol
  · rintro rfl
    exact (galerkin_iff G hG ..).mpr hsol
  · rw [apply_forgets] at h
    exact unique_of_freeInjective hinj (C26_fem_solution s hs _ _ _ _ _ _ h) hsol
  · classical
    have hs : Solver.Correct (fun (M : Matrix (Node G.cells) (Node G.cells) R) b _ =>
        if h : ∃ x, M *ᵥ x = b then SolverResult.ok h.choose else .failed) := by
      intro M b x0 x h
      dsimp only at h
      split_ifs at h with he
      injection h with h
      subst h
      exact he.choose_spec
    refine ⟨_, hs, fun old => ?_⟩
    · rw [apply_forgets]
      generalize hr : femApply _ _ _ data D old = r
      have hex : ∃ y, (constrainedSystem (matrix G diffusion) (load G source neumann) (dirichletProject D data old) D).matrix *ᵥ y =
          (constrainedSystem (matrix G diffusion) (load G source neumann) (dirichletProject D data old) D).rhs :=
        ⟨x + dirichletProject D data 0 - dirichletProject D data old,
          (constrained_iff (matrix G diffusion) (load G source neumann) data _ D (dirichletProject_boundary D data old) _).mpr
            (by rw [sub_add_cancel]; exact hsol)⟩
      have hr' := hr
      unfold femApply at hr'
      dsimp only at hr'
      rw [dif_pos hex] at hr'
      dsimp only at hr'
      rw [← hr'] at hr ⊢
      congr 1
      exact unique_of_freeInjective hinj (C26_fem_solution _ hs _ _ _ _ _ _ hr) hsol

open Verif.Boundary in
/-- **C76** (partial: assumes a rule that resolves the elements, which the random problem does not have, see C78; registered problems) On the
coarse and on the fine grid, the reference solution exists and is unique: each problem has a Dirichlet face.  Compare C71 for the multiscale method, where this fails for SPE10 and Tarbert. -/
theorem C76_problems_partial (hd : d = 2 ∨ d = 3) (close : (Fin d → ℚ) → (Fin d → ℚ) → Bool) (hc : Tolerance close) (p : Problem)
    (normal : Face d → Fin d → ℚ) (hn : ∀ f, Computed (normal f) f) :
    ∃ info, boundaryInfo d p none = .ok info ∧
      ∀ (G : Grid d R), G.Complete → (∀ i, 0 < G.width i) → (∀ i, 0 < G.cells i) → Resolving G.matrixRule →
        ∀ diffusion, Definite diffusion → ∀ source neumann data,
        ∃ u, (∀ v, IsGalerkin G diffusion source neumann data (dirichletNodes close info normal G.cells) v ↔ v = u) ∧
          (∀ s : Solver (Node G.cells) R, s.Correct → ∀ old v,
            G.apply true s diffusion source neumann data (dirichletNodes close info normal G.cells) old = .ok v → v = u) ∧
          ∃ s : Solver (Node G.cells) R, s.Correct ∧ ∀ old,
            G.apply true s diffusion source neumann data (dirichletNodes close info normal G.cells) old = .ok u := by
  obtain ⟨info, hi, hf⟩ := C60_dirichlet_faces hd close hc p
  refine ⟨info, hi, fun G hG hw hcells hR diffusion hpd source neumann data => ?_⟩
  refine C76_unique G hG hw hcells hR diffusion hpd source neumann data _ ?_
  obtain ⟨⟨i, b⟩, hface⟩ := C60_some_dirichlet hd p
  refine ⟨fun l => if b then ⟨G.cells l, by omega⟩ else ⟨0, by omega⟩, ?_⟩
  rw [dirichletNodes, constrainedNode_iff]
  refine ⟨i, ?_⟩
  cases b
  · left
    exact ⟨by simp, (hf _ _ (hn _)).mpr hface⟩
  · right
    exact ⟨by simp, (hf _ _ (hn _)).mpr hface⟩

/-- **C76** (the second walk) If the functors stay registered, the second walk adds matrix and load again after the action on the
extension has been subtracted.  The result is the finite element solution only if the extension is orthogonal to all test functions. -/
theorem C76_second_walk (G : Grid d R) (hG : G.Complete) (s : Solver (Node G.cells) R) (hs : s.Correct)
    (diffusion : (Fin d → R) → Matrix (Fin d) (Fin d) R) (source : (Fin d → R) → R) (neumann data : Node G.cells → R)
    (D : Node G.cells → Bool) (old u : Node G.cells → R)
    (h : G.apply false s diffusion source neumann data D old = .ok u) :
    IsGalerkin G diffusion source neumann data D u ↔
      ∀ v : Node G.cells → R, (∀ g, D g = true → v g = 0) → bilinear G diffusion (dirichletProject D data old) v = 0 := by
  have hx : ∃ x, constrainMat D (matrix G diffusion + matrix G diffusion) *ᵥ x =
      constrainVec D (load G source neumann - matrix G diffusion *ᵥ dirichletProject D data old + load G source neumann) ∧
      u = x + dirichletProject D data old := by
    unfold Grid.apply at h
    rw [system_keeps] at h
    dsimp only at h
    split at h
    · rename_i x hr
      injection h with h
      exact ⟨x, hs _ _ _ _ hr, h.symm⟩
    · cases h
    · cases h
  obtain ⟨x, hx, rfl⟩ := hx
  have hx0 : ∀ a, D a = true → x a = 0 := fun a ha => by
    have := congrFun hx a
    simpa only [constrainMat_mulVec, constrainVec, ha, if_true] using this
  have hx1 : ∀ a, D a = false → 2 * (matrix G diffusion *ᵥ x) a =
      2 * load G source neumann a - (matrix G diffusion *ᵥ dirichletProject D data old) a := fun a ha => by
    have := congrFun hx a
    simp only [constrainMat_mulVec, constrainVec, ha, Bool.false_eq_true, if_false, add_mulVec, Pi.add_apply, Pi.sub_apply] at this
    linarith
  rw [galerkin_iff G hG]
  constructor
  · intro hsol v hv
    rw [← matrix_dot G hG]
    refine Finset.sum_eq_zero fun a _ => ?_
    cases ha : D a
    · have h1 := hsol.equation a ha
      rw [mulVec_add, Pi.add_apply] at h1
      have h2 := hx1 a ha
      rw [show (matrix G diffusion *ᵥ dirichletProject D data old) a = 0 by linarith, zero_mul]
    · rw [hv a ha, mul_zero]
  · intro hz
    refine ⟨fun a ha => ?_, fun a ha => ?_⟩
    · rw [Pi.add_apply, hx0 a ha, zero_add, dirichletProject_boundary D data old a ha]
    · have h1 := hz (fun g => if g = a then 1 else 0) fun g hg => by
        rw [if_neg]
        rintro rfl
        rw [ha] at hg
        cases hg
      rw [← matrix_dot G hG] at h1
      have h1' : (matrix G diffusion *ᵥ dirichletProject D data old) a = 0 := by simpa using h1
      rw [mulVec_add, Pi.add_apply]
      have := hx1 a ha
      linarith

theorem slope_const (G : Grid d R) (c : R) (v : Node G.cells → R) (j : CellIndex G.cells) (x : Fin d → R) :
    slope G (fun g => v g - c) j x = slope G v j x := by
  funext i
  have h1 : ∀ y : Fin d → R, ∑ w : Fin d → Bool, shape w y = 1 := fun y => by
    have := sum_prod_bool (fun l b => hat b (y l))
    simp only [shape, this]
    exact Finset.prod_eq_one fun l _ => by simp [hat]
  have h2 : ∀ y : Fin d → R, valueOf (fun g => v g - c) j y = valueOf v j y - c := fun y => by
    rw [valueOf, valueOf, sum_corner fun w => (v (cornerNode j w) - c) * shape w y, sum_corner fun w => v (cornerNode j w) * shape w y]
    simp only [sub_mul, Finset.sum_sub_distrib]
    rw [← Finset.mul_sum, h1, mul_one]
  rw [slope, slope, h2, h2]
  ring

/-- **C76** (the assumption is needed) With Dirichlet data one, starting from zero, and at least one node of each kind, a program with an assembler
that keeps its functors never returns the finite element solution. -/
theorem C76_second_walk_wrong (G : Grid d R) (hG : G.Complete) (hw : ∀ i, 0 < G.width i) (hc : ∀ i, 0 < G.cells i)
    (hR : Resolving G.matrixRule) (diffusion : (Fin d → R) → Matrix (Fin d) (Fin d) R) (hpd : Definite diffusion)
    (s : Solver (Node G.cells) R) (hs : s.Correct) (source : (Fin d → R) → R) (neumann : Node G.cells → R)
    (D : Node G.cells → Bool) (g g' : Node G.cells) (hg : D g = true) (hg' : D g' = false) (u : Node G.cells → R)
    (h : G.apply false s diffusion source neumann (fun _ => 1) D 0 = .ok u) :
    ¬ IsGalerkin G diffusion source neumann (fun _ => 1) D u := by
  rw [C76_second_walk G hG s hs diffusion source neumann _ D 0 u h]
  intro hz
  have h1 := hz (fun a => dirichletProject D (fun _ => 1) 0 a - 1) fun a ha => by
    rw [dirichletProject, if_pos ha, sub_self]
  have h2 : bilinear G diffusion (dirichletProject D (fun _ => 1) 0) (dirichletProject D (fun _ => 1) 0) = 0 := by
    rw [← h1]
    simp only [bilinear, slope_const]
  have h3 := constant_of_energy G hG hw hc hR diffusion hpd _ h2 g g'
  rw [dirichletProject, dirichletProject, if_pos hg, if_neg (by simp [hg'])] at h3
  simp at h3

end ordered

/-- Instance: two by one cells, the rule with the corners of the square, Dirichlet values at the left side only. -/
example (source : (Fin 2 → ℚ) → ℚ) (order : List (CellIndex (d := 2) ![2, 1])) (ho : order.Nodup) (hall : ∀ j, j ∈ order)
    (loadRule : List (QPoint 2 ℚ)) (neumann data : Node (d := 2) ![2, 1] → ℚ) :
    let rule : List (QPoint 2 ℚ) := [⟨![0, 0], 1 / 4⟩, ⟨![1, 0], 1 / 4⟩, ⟨![0, 1], 1 / 4⟩, ⟨![1, 1], 1 / 4⟩]
    let G : Grid 2 ℚ := ⟨0, fun _ => 1, ![2, 1], order, rule, loadRule⟩
    ∃! u, IsGalerkin G (fun _ => 1) source neumann data (fun g => decide ((g 0).1 = 0)) u := by
  intro rule G
  have hR : Resolving rule := by
    refine ⟨by simp [rule], fun _ => 1, fun _ => 0, fun _ => one_ne_zero, fun s => ?_⟩
    have : (fun l => if s l then (1 : ℚ) else 0) = ![if s 0 then 1 else 0, if s 1 then 1 else 0] := by
      funext l; fin_cases l <;> rfl
    rw [this]
    cases s 0 <;> cases s 1 <;> simp [rule]
  have hpd : Definite (fun _ : Fin 2 → ℚ => (1 : Matrix (Fin 2) (Fin 2) ℚ)) := by
    intro x v hv
    rw [one_mulVec]
    have hne : v 0 ≠ 0 ∨ v 1 ≠ 0 := by
      by_contra h
      push Not at h
      exact hv (funext fun l => by fin_cases l; exacts [h.1, h.2])
    simp only [dotProduct, Fin.sum_univ_two]
    rcases hne with h | h
    · have := mul_self_pos.mpr h; have := mul_self_nonneg (v 1); linarith
    · have := mul_self_pos.mpr h; have := mul_self_nonneg (v 0); linarith
  have hcells : ∀ i, 0 < G.cells i := fun i => by fin_cases i <;> simp [G]
  obtain ⟨u, hu, -⟩ := C76_unique G ⟨ho, hall⟩ (fun _ => one_pos) hcells hR _ hpd source neumann data
    (fun g => decide ((g 0).1 = 0)) ⟨fun _ => 0, by simp⟩
  exact ⟨u, (hu u).mpr rfl, fun v hv => (hu v).mp hv⟩

end Verif.FemSolver
