import Verif.Props.Pipeline

/-!
# C83: exact reproduction of constant and linear solutions by a run of the multiscale solver
-/

namespace Verif.Pipeline
open Matrix Verif.CoarseAssembly Verif.LocalAssembly Verif.LocalSolve Verif.Q1Grid Verif.DirichletSolve Verif.Spec.Dirichlet
open Verif.Spec.Galerkin

variable {d : ℕ} {R : Type} [Field R] [LinearOrder R] [IsStrictOrderedRing R]

/-! ## Constants -/

omit [LinearOrder R] [IsStrictOrderedRing R] in
theorem sum_basis (S : Setup d R) : ∑ k, basis S k = fun _ => 1 := by
  funext node
  rw [Finset.sum_apply]
  simp only [basis]
  rw [sum_corner (fun v => shape v fun i => ((node i).1 : R) / (S.micro i : R))]
  simp only [shape]
  rw [sum_prod_bool (fun l b => hat b (((node l).1 : R) / (S.micro l : R)))]
  exact Finset.prod_eq_one fun l _ => by simp [hat]

/-- the correctors of the basis functions add up to zero -/
theorem sum_correctors (S : Setup d R) (B : Boundary S) (P : Data d R) (h : Unique S B P) (J : CellIndex S.cells)
    (Q : Fin (2 ^ d) → Node S.micro → R) (qN qD : Node S.micro → R) (hQ : IsCorrector S B P J Q qN qD) : ∑ k, Q k = 0 := by
  apply unique_of_freeInjective (local_unique S B P h J) (load := 0) (data := 0)
  · refine ⟨fun i hi => ?_, fun i hi => ?_⟩
    · rw [Finset.sum_apply]
      exact Finset.sum_eq_zero fun k _ => (hQ.inner k).boundary i hi
    · rw [mulVec_sum, Finset.sum_apply, Finset.sum_congr rfl fun k _ => (hQ.inner k).equation i hi]
      simp only [Pi.neg_apply, Finset.sum_neg_distrib]
      rw [← Finset.sum_apply, ← mulVec_sum, sum_basis, localStiff, localCell, stiff_const, Pi.zero_apply, neg_zero]
  · exact ⟨fun _ _ => rfl, fun i _ => by rw [mulVec_zero]⟩

/-- The Dirichlet corrector is the combination of the correctors of the basis functions with the Dirichlet values: what the
combination with the coarse solution contains already. -/
theorem C83_corrected_twice (S : Setup d R) (B : Boundary S) (P : Data d R) (h : Unique S B P) (J : CellIndex S.cells)
    (Q : Fin (2 ^ d) → Node S.micro → R) (qN qD : Node S.micro → R) (hQ : IsCorrector S B P J Q qN qD)
    (hb : ∃ i, (J i).1 = 0 ∨ (J i).1 + 1 = S.cells i) : qD = ∑ k, localExtension S B P J k • Q k := by
  apply unique_of_freeInjective (local_unique S B P h J) (hQ.dirichlet hb)
  refine ⟨fun i hi => ?_, fun i hi => ?_⟩
  · rw [Finset.sum_apply]
    refine Finset.sum_eq_zero fun k _ => ?_
    rw [Pi.smul_apply, (hQ.inner k).boundary i hi]
    exact smul_zero _
  · rw [mulVec_sum, mulVec_sum, Finset.sum_apply, Pi.neg_apply, Finset.sum_apply, ← Finset.sum_neg_distrib]
    refine Finset.sum_congr rfl fun k _ => ?_
    rw [mulVec_smul, mulVec_smul, Pi.smul_apply, Pi.smul_apply, (hQ.inner k).equation i hi, Pi.neg_apply, smul_neg]

omit [LinearOrder R] [IsStrictOrderedRing R] in
theorem grad_zero (S : Setup d R) (J : CellIndex S.cells) (j : CellIndex S.micro) (x : Fin d → R) : grad S 0 J j x = 0 := by
  have := grad_comb S 0 0 0 0 J j x
  simpa using this

omit [LinearOrder R] [IsStrictOrderedRing R] in
theorem grad_sum (S : Setup d R) {n : ℕ} (c : Fin n → R) (v : Fin n → Node S.micro → R) (J : CellIndex S.cells) (j : CellIndex S.micro)
    (x : Fin d → R) : ∑ k, c k • grad S (v k) J j x = grad S (∑ k, c k • v k) J j x := by
  have key : ∀ s : Finset (Fin n), ∑ k ∈ s, c k • grad S (v k) J j x = grad S (∑ k ∈ s, c k • v k) J j x := by
    intro s
    induction s using Finset.induction_on with
    | empty => simp [grad_zero]
    | insert a s ha ih =>
      rw [Finset.sum_insert ha, Finset.sum_insert ha, ih]
      have := grad_comb S (c a) 1 (v a) (∑ k ∈ s, c k • v k) J j x
      rw [one_smul, one_smul] at this
      exact this.symm
  exact key _

omit [LinearOrder R] [IsStrictOrderedRing R] in
/-- no load without data -/
theorem coarseLoad_zero (S : Setup d R) (B : Boundary S) (P : Data d R) (hflux : ∀ x v, P.flux x v = P.diffusion x *ᵥ v)
    (hf : ∀ x, P.source x = 0) (hN : ∀ x, P.neumann x = 0) (Q : CellIndex S.cells → Fin (2 ^ d) → Node S.micro → R)
    (tmp : Fin (2 ^ d) → R) :
    S.coarseLoad P.flux P.source (fun J => Manager.corrList (Q J) 0 0) tmp (neumannPoints S B P.neumann) = 0 := by
  have h1 := load_comb S S.loadRule P.diffusion 0 0 P.source P.source P.source (fun x => by rw [hf]; ring) Q 0 0 0 0
  have h2 := femNeumann_comb S B 0 0 P.neumann P.neumann P.neumann (fun x => by rw [hN]; ring)
  have h3 := coarseLoad_points S P.diffusion P.flux hflux P.source Q 0 0 tmp (neumannPoints S B P.neumann)
  simp only [zero_smul, add_zero, Pi.zero_apply] at h1 h2 h3
  rw [h3, h2, add_zero]
  exact h1

omit [LinearOrder R] [IsStrictOrderedRing R] in
theorem localNeumann_zero (S : Setup d R) (B : Boundary S) (g : (Fin d → R) → R) (hg : ∀ x, g x = 0) (J : CellIndex S.cells) :
    localNeumann S B g J = 0 := by
  have := localNeumann_comb S B 0 0 g g g (fun x => by rw [hg]; ring) J
  simpa using this

/-- no data, no Neumann corrector -/
theorem neumann_zero (S : Setup d R) (B : Boundary S) (P : Data d R) (h : Unique S B P) (hN : ∀ x, P.neumann x = 0)
    (J : CellIndex S.cells) (Q : Fin (2 ^ d) → Node S.micro → R) (qN qD : Node S.micro → R) (hQ : IsCorrector S B P J Q qN qD) :
    qN = 0 := by
  by_cases hb : ∃ i, (J i).1 = 0 ∨ (J i).1 + 1 = S.cells i
  · have := hQ.neumann hb
    rw [localNeumann_zero S B _ hN] at this
    exact unique_of_freeInjective (local_unique S B P h J) this ⟨fun _ _ => rfl, fun i _ => by rw [mulVec_zero]⟩
  · exact (hQ.inside hb).1

/-- the nodal values of the Dirichlet data on a coarse cell, zero at the other corners -/
def dirichletPart (S : Setup d R) (B : Boundary S) (J : CellIndex S.cells) (node : Node S.micro) : R :=
  ∑ v : Fin d → Bool, if B.isDirichlet (cornerNode J v) then shape v fun i => ((node i).1 : R) / (S.micro i : R) else 0

omit [LinearOrder R] [IsStrictOrderedRing R] in
theorem extension_const (S : Setup d R) (B : Boundary S) (P : Data d R) (c : R) (hD : ∀ x, P.dirichlet x = c) (J : CellIndex S.cells) :
    ∑ k, localExtension S B P J k • basis S k = c • dirichletPart S B J := by
  funext node
  rw [Finset.sum_apply, Pi.smul_apply, dirichletPart, smul_eq_mul, Finset.mul_sum,
    ← sum_corner (fun v => c * if B.isDirichlet (cornerNode J v) then shape v (fun i => ((node i).1 : R) / (S.micro i : R)) else 0)]
  refine Finset.sum_congr rfl fun k _ => ?_
  simp only [localExtension, dirichletProject, hD, Pi.smul_apply, smul_eq_mul, basis, Pi.zero_apply]
  split_ifs <;> ring

/-- **C83** (constants, exact condition) With no source, no Neumann data and a constant as Dirichlet data the result is this constant if
and only if in every coarse cell at the boundary the piece of the constant that is attached to the Dirichlet nodes solves the local
equation. -/
theorem C83_constant_iff (S : Setup d R) (B : Boundary S) (P : Data d R) (h : Unique S B P) (hf : ∀ x, P.source x = 0)
    (hN : ∀ x, P.neumann x = 0) (c : R) (hc : c ≠ 0) (hD : ∀ x, P.dirichlet x = c) (m : Machine S) (hm : Works S B P m)
    (u : Node S.cells → R) (res : List (Node S.micro → R)) (hr : apply S B P m = .ok (u, res)) :
    ((u = fun _ => c) ∧ ∀ v ∈ res, v = fun _ => c) ↔
      ∀ J : CellIndex S.cells, (∃ i, (J i).1 = 0 ∨ (J i).1 + 1 = S.cells i) → ∀ node, B.constrained node = false →
        (localStiff S B P J *ᵥ dirichletPart S B J) node = 0 := by
  obtain ⟨Q, qN, qD, fine, hcomp, rfl⟩ := apply_spec S h.admissible h.nodup B P m hm u res hr
  obtain rfl : qN = fun _ => 0 := funext fun J => neumann_zero S B P h hN J _ _ _ (hcomp.corrector J)
  have hsum : ∀ J, ∑ k, c • (basis S k + Q J k) = fun _ => c := by
    intro J
    rw [← Finset.smul_sum, Finset.sum_add_distrib, sum_correctors S B P h J _ _ _ (hcomp.corrector J), sum_basis, add_zero]
    funext node
    simp
  constructor
  · rintro ⟨rfl, hres⟩ J hb node hn
    have h1 := hres _ (List.mem_map.mpr ⟨J, h.admissible.order_complete J, rfl⟩)
    rw [hcomp.fine_eq, sub_zero] at h1
    have h2 : qD J = 0 := by
      have := hsum J
      rw [this] at h1
      simpa using h1
    have h3 := ((hcomp.corrector J).dirichlet hb).equation node hn
    rw [h2, mulVec_zero, extension_const S B P c hD, mulVec_smul, Pi.neg_apply, Pi.smul_apply, smul_eq_mul, Pi.zero_apply] at h3
    have h4 : c * (localStiff S B P J *ᵥ dirichletPart S B J) node = 0 := by rw [← neg_eq_zero]; exact h3.symm
    exact (mul_eq_zero.mp h4).resolve_left hc
  · intro hh
    obtain rfl : qD = fun _ => 0 := by
      funext J
      by_cases hb : ∃ i, (J i).1 = 0 ∨ (J i).1 + 1 = S.cells i
      · refine unique_of_freeInjective (local_unique S B P h J) ((hcomp.corrector J).dirichlet hb) ⟨fun _ _ => rfl, fun i hi => ?_⟩
        rw [mulVec_zero, extension_const S B P c hD, mulVec_smul, Pi.neg_apply, Pi.smul_apply, hh J hb i hi, smul_zero, neg_zero,
          Pi.zero_apply]
      · exact ((hcomp.corrector J).inside hb).2
    have hu : u = fun _ => c := by
      apply unique_of_freeInjective (coarse_unique S B P h Q _ _ hcomp.corrector 0) hcomp.coarse
      refine ⟨fun g _ => (hD _).symm, fun g _ => ?_⟩
      rw [coarseLoad_zero S B P hm.flux hf hN, coarseMatrix_points, kernel_of_gradient]
      intro s hs
      obtain ⟨t, -, rfl⟩ := List.mem_map.mp hs
      simp only [Sample.gradOf, sampleAt, smul_add, Finset.sum_add_distrib]
      rw [grad_sum, ← Finset.smul_sum (s := Finset.univ) (f := Q t.1), sum_correctors S B P h _ _ _ _ (hcomp.corrector t.1), smul_zero, grad_zero, add_zero]
      funext i
      rw [Finset.sum_apply, Pi.zero_apply]
      simp only [Pi.smul_apply, smul_eq_mul, ← mul_div_assoc]
      rw [← Finset.sum_div, sum_corner (fun v => c * shapeGrad v t.2.2.pos i), sum_one_direction (fun _ => c) i]
      simp
    subst hu
    refine ⟨rfl, fun v hv => ?_⟩
    obtain ⟨J, -, rfl⟩ := List.mem_map.mp hv
    rw [hcomp.fine_eq, hsum J, add_zero, sub_zero]

/-- If all corners of the coarse cells at the boundary are Dirichlet nodes, constants are reproduced. -/
theorem C83_constant_corners (S : Setup d R) (B : Boundary S) (P : Data d R) (h : Unique S B P) (hf : ∀ x, P.source x = 0)
    (hN : ∀ x, P.neumann x = 0) (c : R) (hc : c ≠ 0) (hD : ∀ x, P.dirichlet x = c) (m : Machine S) (hm : Works S B P m)
    (hall : ∀ J : CellIndex S.cells, (∃ i, (J i).1 = 0 ∨ (J i).1 + 1 = S.cells i) → ∀ v, B.isDirichlet (cornerNode J v) = true)
    (u : Node S.cells → R) (res : List (Node S.micro → R)) (hr : apply S B P m = .ok (u, res)) :
    (u = fun _ => c) ∧ ∀ v ∈ res, v = fun _ => c := by
  refine (C83_constant_iff S B P h hf hN c hc hD m hm u res hr).mpr fun J hb node hn => ?_
  have : dirichletPart S B J = fun _ => 1 := by
    funext node
    rw [← congrFun (sum_basis S) node, Finset.sum_apply, dirichletPart,
      ← sum_corner (fun v => if B.isDirichlet (cornerNode J v) then shape v (fun i => ((node i).1 : R) / (S.micro i : R)) else 0)]
    exact Finset.sum_congr rfl fun k _ => if_pos (hall J hb _)
  rw [this, localStiff, localCell, stiff_const, Pi.zero_apply]

/-! ## A jump of the diffusion -/

/-- Diffusion one for `x < 1/2` and two elsewhere. -/
def jump (x : Fin 2 → ℚ) : Matrix (Fin 2) (Fin 2) ℚ := diagonal fun _ => if x 0 < 1 / 2 then 1 else 2

/-- Dirichlet on the whole boundary of the square, local problems constrained on the whole boundary of the coarse cells. -/
def closedBoundary : Boundary fourCells where
  isDirichlet g := decide (∃ i, (g i).1 = 0 ∨ (g i).1 = 2)
  constrained g := decide (∃ i, (g i).1 = 0 ∨ (g i).1 = 2)
  faces := []
  localFaces := fun _ => []

/-- No source, boundary value one. -/
def jumpData : Data 2 ℚ := ⟨jump, fun x v => jump x *ᵥ v, fun _ => 0, fun _ => 0, fun _ => 1⟩

theorem jump_residual : (localStiff fourCells closedBoundary jumpData (fun _ => (0 : Fin 2)) *ᵥ
    dirichletPart fourCells closedBoundary fun _ => (0 : Fin 2))
    (fun _ => (1 : Fin 3)) = 1 / 4 := by
  decide +kernel

theorem jump_unique : Unique fourCells closedBoundary jumpData where
  admissible := fourCells_admissible
  nodup := by decide
  localRule := fourCells_resolving
  matrixRule := fourCells_resolving
  definite := fun x v hv => definite_diagonal (fun _ => if x 0 < 1 / 2 then 1 else 2) (fun _ => by split_ifs <;> norm_num) x v hv
  corners := fun node h => decide_eq_true ⟨0, h 0⟩
  dirichlet := ⟨fun _ => 0, by decide⟩

/-- **C83** (the negation) The constant one is not reproduced if the diffusion jumps inside a coarse cell: for every run. -/
theorem C83_violated_constant : (∃ m, Works fourCells closedBoundary jumpData m ∧ ∃ u res, apply fourCells closedBoundary jumpData m = .ok (u, res)) ∧
    ∀ m, Works fourCells closedBoundary jumpData m → ∀ u res, apply fourCells closedBoundary jumpData m = .ok (u, res) →
      ¬ ((u = fun _ => 1) ∧ ∀ v ∈ res, v = fun _ => 1) := by
  refine ⟨C82_run_exists _ _ _ jump_unique fun _ _ => rfl, fun m hm u res hr h => ?_⟩
  have := (C83_constant_iff _ _ _ jump_unique (fun _ => rfl) (fun _ => rfl) 1 one_ne_zero (fun _ => rfl) m hm u res hr).mp h
    (fun _ => (0 : Fin 2)) ⟨0, Or.inl rfl⟩ (fun _ => (1 : Fin 3)) (by decide)
  rw [jump_residual] at this
  norm_num at this

/-! ## Linear functions -/

/-- Value of a linear function. -/
def linear (α : R) (β : Fin d → R) (x : Fin d → R) : R := α + ∑ i, β i * x i

omit [LinearOrder R] [IsStrictOrderedRing R] in
theorem stiffness_mulVec {n : ℕ} {G : Type} [Fintype G] [DecidableEq G] (L : List (Sample d n G R)) (u : G → R) (a : G) :
    (Matrix.of (stiffness L) *ᵥ u) a = (L.map fun s => ∑ i, if s.dofs i = a then
      s.weight * ((s.tensor *ᵥ s.gradOf u) ⬝ᵥ s.grad i) else 0).sum := by
  have hdef : ∀ T : List (Sample d n G R), (Matrix.of (stiffness T) *ᵥ u) a = ∑ b, stiffness T a b * u b := fun _ => rfl
  rw [hdef]
  induction L with
  | nil => simp [stiffness]
  | cons t T ih =>
    have e : ∀ b, stiffness (t :: T) a b * u b = (∑ i, ∑ j, if t.dofs i = a ∧ t.dofs j = b then
        t.weight * ((t.tensor *ᵥ t.grad j) ⬝ᵥ t.grad i) else 0) * u b + stiffness T a b * u b := by
      intro b
      simp only [stiffness, List.map_cons, List.sum_cons]
      ring
    rw [Finset.sum_congr rfl fun b _ => e b, Finset.sum_add_distrib, ih, List.map_cons, List.sum_cons]
    congr 1
    simp only [Finset.sum_mul]
    rw [Finset.sum_comm]
    refine Finset.sum_congr rfl fun i _ => ?_
    rw [Finset.sum_comm]
    by_cases hi : t.dofs i = a
    · simp only [hi, true_and, ite_mul, zero_mul, Finset.sum_ite_eq, Finset.mem_univ, if_true]
      rw [Sample.gradOf, mulVec_sum, sum_dotProduct, Finset.mul_sum]
      refine Finset.sum_congr rfl fun j _ => ?_
      rw [mulVec_smul, smul_dotProduct, smul_eq_mul]
      ring
    · simp [hi]

omit [LinearOrder R] [IsStrictOrderedRing R] in
/-- slopes on both sides of a node cancel -/
theorem sum_slopes {cells : Fin d → ℕ} (g : Node cells) (l : Fin d) (hl : 0 < (g l).1 ∧ (g l).1 < cells l) (x : Fin d → R) :
    ∑ J : CellIndex cells, ∑ v : Fin d → Bool, (if cornerNode J v = g then shapeGrad v x l else 0) = 0 := by
  have h1 : ∀ (J : CellIndex cells) (v : Fin d → Bool), (if cornerNode J v = g then shapeGrad v x l else 0) =
      ∏ i, if (J i).1 + (if v i then 1 else 0) = (g i).1 then (if i = l then hatSlope (v i) else hat (v i) (x i)) else 0 := by
    intro J v
    rw [Finset.prod_ite_zero, shapeGrad]
    congr 1
    have h0 : ∀ i, ((cornerNode J v) i).1 = (J i).1 + (if v i then 1 else 0) := fun i => by
      simp only [cornerNode]
      split_ifs <;> simp
    simp only [funext_iff, Fin.ext_iff, h0, Finset.mem_univ, forall_const]
  simp only [h1]
  rw [Finset.sum_comm]
  have h2 : ∀ v : Fin d → Bool, ∑ J : CellIndex cells, (∏ i, if (J i).1 + (if v i then 1 else 0) = (g i).1 then
      (if i = l then hatSlope (v i) else hat (v i) (x i)) else 0) =
      ∏ i, ∑ a : Fin (cells i), if a.1 + (if v i then 1 else 0) = (g i).1 then (if i = l then hatSlope (v i) else hat (v i) (x i)) else (0 : R) := by
    intro v
    rw [Finset.prod_univ_sum, Fintype.piFinset_univ]
  simp only [h2]
  rw [sum_prod_bool (fun i b => ∑ a : Fin (cells i), if a.1 + (if b then 1 else 0) = (g i).1 then
    (if i = l then hatSlope b else hat b (x i)) else (0 : R))]
  apply Finset.prod_eq_zero (Finset.mem_univ l)
  have h3 : ∀ (a : Fin (cells l)), (a.1 + 1 = (g l).1) ↔ a = ⟨(g l).1 - 1, by omega⟩ := fun a => by
    rw [Fin.ext_iff]
    show a.1 + 1 = (g l).1 ↔ a.1 = (g l).1 - 1
    omega
  have h4 : ∀ (a : Fin (cells l)), (a.1 + 0 = (g l).1) ↔ a = ⟨(g l).1, hl.2⟩ := fun a => by
    rw [Fin.ext_iff, add_zero]
  simp only [if_true, Bool.false_eq_true, if_false, h3, h4, Finset.sum_ite_eq', Finset.mem_univ, hatSlope]
  ring

omit [LinearOrder R] [IsStrictOrderedRing R] in
/-- gradient of the interpolation of a linear function -/
theorem linear_gradient (α : R) (β lower width : Fin d → R) (hw : ∀ i, width i ≠ 0) (x : Fin d → R) (i : Fin d) :
    ∑ v : Fin d → Bool, linear α β (fun l => lower l + (if v l then 1 else 0) * width l) * (shapeGrad v x i / width i) = β i := by
  have h1 : ∀ v : Fin d → Bool, linear α β (fun l => lower l + (if v l then 1 else 0) * width l) * (shapeGrad v x i / width i) =
      (linear α β lower * shapeGrad v x i + ∑ y, (β y * ((if v y then 1 else 0) * width y)) * shapeGrad v x i) / width i := by
    intro v
    rw [← Finset.sum_mul, ← add_mul, mul_div_assoc]
    congr 1
    simp only [linear, mul_add, Finset.sum_add_distrib]
    ring
  simp only [h1]
  rw [← Finset.sum_div, Finset.sum_add_distrib, Finset.sum_comm]
  have h2 : ∀ y, ∑ v : Fin d → Bool, (β y * ((if v y then 1 else 0) * width y)) * shapeGrad v x i = if i = y then β y * width y else 0 := by
    intro y
    rw [sum_one_direction (fun b => β y * ((if b then 1 else 0) * width y)) y x i]
    simp
  rw [Finset.sum_congr rfl fun y _ => h2 y, Finset.sum_ite_eq, if_pos (Finset.mem_univ i),
    sum_one_direction (fun _ => linear α β lower) i x i]
  simp [hw i]

omit [LinearOrder R] [IsStrictOrderedRing R] in
/-- values of the interpolation of a linear function -/
theorem linear_values (α : R) (β lower width : Fin d → R) (x : Fin d → R) :
    ∑ v : Fin d → Bool, linear α β (fun l => lower l + (if v l then 1 else 0) * width l) * shape v x =
      linear α β fun l => lower l + x l * width l := by
  have h0 : ∑ v : Fin d → Bool, shape v x = 1 := by
    simp only [shape]
    rw [sum_prod_bool (fun l b => hat b (x l))]
    exact Finset.prod_eq_one fun l _ => by simp [hat]
  have h1 : ∀ v : Fin d → Bool, linear α β (fun l => lower l + (if v l then 1 else 0) * width l) * shape v x =
      linear α β lower * shape v x + ∑ y, (β y * ((if v y then 1 else 0) * width y)) * shape v x := by
    intro v
    rw [← Finset.sum_mul, ← add_mul]
    congr 1
    simp only [linear, mul_add, Finset.sum_add_distrib]
    ring
  simp only [h1]
  rw [Finset.sum_add_distrib, Finset.sum_comm, ← Finset.mul_sum, h0]
  have h2 : ∀ y, ∑ v : Fin d → Bool, (β y * ((if v y then 1 else 0) * width y)) * shape v x = β y * (x y * width y) := by
    intro y
    rw [sum_one_direction_value (fun b => β y * ((if b then 1 else 0) * width y)) y x]
    simp
    ring
  rw [Finset.sum_congr rfl fun y _ => h2 y]
  simp only [linear, mul_add, Finset.sum_add_distrib]
  ring

/-- **C83** (linear solutions) Constant diagonal diffusion, local problems constrained on the whole boundary of the coarse cells, no source, no
Neumann data, a linear function as Dirichlet data, every node without Dirichlet value lies inside the domain in the directions in which
the function varies: the result is the linear function. -/
theorem C83_linear (S : Setup d R) (B : Boundary S) (P : Data d R) (h : Unique S B P) (hnd : S.localOrder.Nodup)
    (a : Fin d → R) (hA : ∀ x, P.diffusion x = diagonal a) (hcon : ∀ node, B.constrained node = false → Interior S.micro node)
    (hf : ∀ x, P.source x = 0) (hN : ∀ x, P.neumann x = 0) (α : R) (β : Fin d → R) (hD : ∀ x, P.dirichlet x = linear α β x)
    (hfree : ∀ g, B.isDirichlet g = false → ∀ i, β i ≠ 0 → 0 < (g i).1 ∧ (g i).1 < S.cells i)
    (m : Machine S) (hm : Works S B P m) (u : Node S.cells → R) (res : List (Node S.micro → R)) (hr : apply S B P m = .ok (u, res)) :
    (∀ g, u g = linear α β fun i => S.lower i + ((g i).1 : R) * S.width i) ∧
    res = S.order.map fun J node => linear α β fun i =>
      S.lower i + ((J i).1 : R) * S.width i + ((node i).1 : R) * (S.width i / (S.micro i : R)) := by
  have hS := h.admissible
  have hwne : ∀ i, S.width i ≠ 0 := fun i => (hS.width_pos i).ne'
  have hA' : P.diffusion = fun _ => diagonal a := funext hA
  obtain ⟨Q, qN, qD, fine, hcomp, rfl⟩ := apply_spec S hS h.nodup B P m hm u res hr
  obtain rfl : qN = fun _ => 0 := funext fun J => neumann_zero S B P h hN J _ _ _ (hcomp.corrector J)
  have hharm : ∀ J k node, B.constrained node = false → (localStiff S B P J *ᵥ basis S k) node = 0 := by
    intro J k node hn
    rw [localStiff, hA']
    exact harmonic S hS hnd a B.constrained _ J k node (hcon node hn)
  obtain rfl : Q = fun _ _ => 0 := by
    funext J k
    refine unique_of_freeInjective (local_unique S B P h J) ((hcomp.corrector J).inner k) ⟨fun _ _ => rfl, fun i hi => ?_⟩
    rw [mulVec_zero, Pi.neg_apply, hharm J k i hi, neg_zero, Pi.zero_apply]
  obtain rfl : qD = fun _ => 0 := by
    funext J
    by_cases hb : ∃ i, (J i).1 = 0 ∨ (J i).1 + 1 = S.cells i
    · rw [C83_corrected_twice S B P h J _ _ _ (hcomp.corrector J) hb]
      simp
    · exact ((hcomp.corrector J).inside hb).2
  have hcorner : ∀ (J : CellIndex S.cells) (v : Fin d → Bool), (fun i => S.lower i + (((cornerNode J v) i).1 : R) * S.width i) =
      fun i => S.cellLower J i + (if v i then 1 else 0) * S.width i := by
    intro J v
    funext i
    simp only [cornerNode, Setup.cellLower]
    split_ifs
    · rw [Fin.val_succ]
      push_cast
      ring
    · rw [Fin.val_castSucc]
      ring
  have hu : u = fun g => linear α β fun i => S.lower i + ((g i).1 : R) * S.width i := by
    apply unique_of_freeInjective (coarse_unique S B P h _ _ _ hcomp.corrector 0) hcomp.coarse
    refine ⟨fun g _ => (hD _).symm, fun g hg => ?_⟩
    rw [coarseLoad_zero S B P hm.flux hf hN, coarseMatrix_points, stiffness_mulVec, List.map_map, Pi.zero_apply]
    have hgrad : ∀ t : CellIndex S.cells × CellIndex S.micro × QPoint d R,
        (sampleAt S P.diffusion 0 (fun _ _ => 0) 0 0 t).gradOf (fun g => linear α β fun i => S.lower i + ((g i).1 : R) * S.width i) = β := by
      intro t
      funext i
      simp only [Sample.gradOf, sampleAt, grad_zero, add_zero, Finset.sum_apply, Pi.smul_apply, smul_eq_mul]
      rw [sum_corner (fun v => linear α β (fun i => S.lower i + (((cornerNode t.1 v) i).1 : R) * S.width i) *
        (shapeGrad v t.2.2.pos i / S.width i))]
      simp only [hcorner]
      exact linear_gradient α β (S.cellLower t.1) S.width hwne t.2.2.pos i
    have hterm : ∀ t : CellIndex S.cells × CellIndex S.micro × QPoint d R,
        ((fun s : Sample d (2 ^ d) (Node S.cells) R => ∑ i, if s.dofs i = g then s.weight * ((s.tensor *ᵥ s.gradOf (fun g => linear α β fun i =>
          S.lower i + ((g i).1 : R) * S.width i)) ⬝ᵥ s.grad i) else 0) ∘ sampleAt S P.diffusion 0 (fun _ _ => 0) 0 0) t =
        ∑ l, (t.2.2.weight * ∏ i, S.localWidth i) * (a l * β l / S.width l) *
          ∑ v : Fin d → Bool, if cornerNode t.1 v = g then shapeGrad v t.2.2.pos l else 0 := by
      intro t
      simp only [Function.comp_apply, hgrad]
      simp only [sampleAt, grad_zero, add_zero, hA]
      rw [sum_corner (fun v => if cornerNode t.1 v = g then (t.2.2.weight * ∏ i, S.localWidth i) *
        ((diagonal a *ᵥ β) ⬝ᵥ fun i => shapeGrad v t.2.2.pos i / S.width i) else 0)]
      simp only [Finset.mul_sum]
      rw [Finset.sum_comm]
      refine Finset.sum_congr rfl fun v _ => ?_
      split_ifs
      · rw [dotProduct, Finset.mul_sum]
        refine Finset.sum_congr rfl fun l _ => ?_
        rw [mulVec_diagonal]
        ring
      · simp
    rw [List.map_congr_left fun t _ => hterm t, points, sum_flatMap_map, sum_order _ h.nodup hS.order_complete]
    simp only [sum_flatMap_map, List.map_map]
    rw [← sum_map_sum]
    refine List.sum_eq_zero fun y hy => ?_
    obtain ⟨j, -, rfl⟩ := List.mem_map.mp hy
    rw [← sum_map_sum]
    refine List.sum_eq_zero fun y hy => ?_
    obtain ⟨q, -, rfl⟩ := List.mem_map.mp hy
    simp only [Function.comp_apply]
    rw [Finset.sum_comm]
    refine Finset.sum_eq_zero fun l _ => ?_
    rw [← Finset.mul_sum]
    by_cases hl : β l = 0
    · simp [hl]
    · rw [sum_slopes g l (hfree g hg l hl), mul_zero]
  refine ⟨fun g => by rw [hu], List.map_congr_left fun J _ => ?_⟩
  rw [hcomp.fine_eq, hu, add_zero, sub_zero]
  funext node
  simp only [Finset.sum_apply, Pi.smul_apply, add_zero, smul_eq_mul, basis]
  rw [sum_corner (fun v => linear α β (fun i => S.lower i + (((cornerNode J v) i).1 : R) * S.width i) *
    shape v fun i => ((node i).1 : R) / (S.micro i : R))]
  simp only [hcorner]
  rw [linear_values]
  congr 1
  funext i
  simp only [Setup.cellLower]
  ring

/-- Instance of C83_linear: the flow of the problem Random from one side to the other, on every structured grid of the unit square. -/
example (N m : ℕ) (hN : 0 < N) (hm : 0 < m) : ∃ (B : Boundary (demoSetup 2 N m)) (P : Data 2 ℚ),
    Unique (demoSetup 2 N m) B P ∧ (∀ x, P.diffusion x = diagonal ![1, 2]) ∧
    (∀ node, B.constrained node = false → Interior (demoSetup 2 N m).micro node) ∧ (∀ x, P.dirichlet x = linear 1 ![-1, 0] x) ∧
    (∀ g, B.isDirichlet g = false → ∀ i, (![-1, 0] : Fin 2 → ℚ) i ≠ 0 → 0 < (g i).1 ∧ (g i).1 < (demoSetup 2 N m).cells i) ∧
    ∃ mach, Works (demoSetup 2 N m) B P mach ∧ ∃ u res, apply (demoSetup 2 N m) B P mach = .ok (u, res) := by
  have hpos : ∀ i, (0 : ℚ) < ![1, 2] i := by intro i; fin_cases i <;> norm_num
  let B : Boundary (demoSetup 2 N m) := ⟨fun g => decide ((g 0).1 = 0 ∨ (g 0).1 = N),
    fun g => decide (∃ i, (g i).1 = 0 ∨ (g i).1 = m), [], fun _ => []⟩
  let P : Data 2 ℚ := ⟨fun _ => diagonal ![1, 2], fun _ v => diagonal ![1, 2] *ᵥ v, fun _ => 0, fun _ => 0, linear 1 ![-1, 0]⟩
  have hu : Unique (demoSetup 2 N m) B P := ⟨demo_admissible 2 N m hN hm, Finset.nodup_toList _, demo_resolving 2 N m, demo_resolving 2 N m,
    definite_diagonal _ hpos, fun _ h => decide_eq_true ⟨0, h 0⟩, ⟨fun _ => 0, decide_eq_true (p := (0 : ℕ) = 0 ∨ (0 : ℕ) = N) (Or.inl rfl)⟩⟩
  refine ⟨B, P, hu, fun _ => rfl, fun node hn i => ?_, fun _ => rfl, fun g hg i hi => ?_, C82_run_exists _ _ _ hu fun _ _ => rfl⟩
  · have h1 : ¬ ∃ i, (node i).1 = 0 ∨ (node i).1 = m := of_decide_eq_false hn
    push Not at h1
    have h2 := (node i).2
    have h3 : (demoSetup 2 N m).micro i = m := rfl
    have := h1 i
    omega
  · have h1 : ¬ ((g 0).1 = 0 ∨ (g 0).1 = N) := of_decide_eq_false hg
    have h0 : i = 0 := by
      fin_cases i
      · rfl
      · simp at hi
    subst h0
    have h2 := (g 0).2
    have h3 : (demoSetup 2 N m).cells 0 = N := rfl
    omega

end Verif.Pipeline

/-! ## The reference solution -/

namespace Verif.FemSolver
open Matrix Verif.CoarseAssembly Verif.LocalAssembly Verif.LocalSolve Verif.Q1Grid Verif.DirichletSolve Verif.Spec.Dirichlet
open Verif.Spec.Galerkin Verif.Pipeline

variable {d : ℕ} {R : Type} [Field R] [LinearOrder R] [IsStrictOrderedRing R]

omit [LinearOrder R] [IsStrictOrderedRing R] in
theorem load_zero (G : Grid d R) (source : (Fin d → R) → R) (hf : ∀ x, source x = 0) : load G source 0 = 0 := by
  funext a
  simp only [load, Pi.add_apply, Pi.zero_apply, addFunctional_apply, zero_add, add_zero, sourceProduct, hf, zero_mul, mul_zero]
  simp

/-- **C83** (reference, constants) The reference solution reproduces constants, for every diffusion. -/
theorem C83_reference_constant (G : Grid d R) (hG : G.Complete) (hw : ∀ i, 0 < G.width i) (hc : ∀ i, 0 < G.cells i)
    (hR : Resolving G.matrixRule) (diffusion : (Fin d → R) → Matrix (Fin d) (Fin d) R) (hpd : Definite diffusion)
    (source : (Fin d → R) → R) (hf : ∀ x, source x = 0) (D : Node G.cells → Bool) (hD : ∃ g, D g = true) (c : R)
    (s : Solver (Node G.cells) R) (hs : s.Correct) (old u : Node G.cells → R)
    (h : G.apply true s diffusion source 0 (fun _ => c) D old = .ok u) : u = fun _ => c := by
  rw [apply_forgets, load_zero G source hf] at h
  refine unique_of_freeInjective (free_injective G hG hw hc hR diffusion hpd D hD) (C26_fem_solution s hs _ _ _ _ _ _ h)
    ⟨fun _ _ => rfl, fun g _ => ?_⟩
  rw [matrix, stiff, kernel_of_gradient]
  intro t ht
  obtain ⟨j, -, q, -, rfl⟩ := (matrix_samples G diffusion t).mp ht
  funext i
  simp only [Sample.gradOf, Finset.sum_apply, Pi.smul_apply, smul_eq_mul, ← mul_div_assoc, Pi.zero_apply]
  rw [← Finset.sum_div, sum_corner (fun v => c * shapeGrad v q.pos i), sum_one_direction (fun _ => c) i]
  simp

/-- **C83** (reference, linear solutions) -/
theorem C83_reference_linear (G : Grid d R) (hG : G.Complete) (hw : ∀ i, 0 < G.width i) (hc : ∀ i, 0 < G.cells i)
    (hR : Resolving G.matrixRule) (a : Fin d → R) (ha : ∀ i, 0 < a i) (source : (Fin d → R) → R) (hf : ∀ x, source x = 0)
    (D : Node G.cells → Bool) (hD : ∃ g, D g = true) (α : R) (β : Fin d → R)
    (hfree : ∀ g, D g = false → ∀ i, β i ≠ 0 → 0 < (g i).1 ∧ (g i).1 < G.cells i) (s : Solver (Node G.cells) R) (hs : s.Correct)
    (old u : Node G.cells → R)
    (h : G.apply true s (fun _ => diagonal a) source 0 (fun g => linear α β fun i => G.lower i + ((g i).1 : R) * G.width i) D old = .ok u)
    (g : Node G.cells) : u g = linear α β fun i => G.lower i + ((g i).1 : R) * G.width i := by
  rw [apply_forgets, load_zero G source hf] at h
  have hcorner : ∀ (J : CellIndex G.cells) (v : Fin d → Bool), (fun i => G.lower i + (((cornerNode J v) i).1 : R) * G.width i) =
      fun i => (G.lower i + ((J i).1 : R) * G.width i) + (if v i then 1 else 0) * G.width i := by
    intro J v
    funext i
    simp only [cornerNode]
    split_ifs
    · rw [Fin.val_succ]
      push_cast
      ring
    · rw [Fin.val_castSucc]
      ring
  refine congrFun (unique_of_freeInjective (free_injective G hG hw hc hR _ (definite_diagonal a ha) D hD) (C26_fem_solution s hs _ _ _ _ _ _ h)
    ⟨fun _ _ => rfl, fun g hg => ?_⟩) g
  rw [matrix, stiff_mulVec, Pi.zero_apply, Grid.elements, List.map_map, sum_order G hG]
  have hgrad : ∀ (j : CellIndex G.cells) (x : Fin d → R), (element G.lower G.width G.matrixRule j).gradOf
      (fun g => linear α β fun i => G.lower i + ((g i).1 : R) * G.width i) x = β := by
    intro j x
    funext i
    simp only [Element.gradOf, element, Finset.sum_apply, Pi.smul_apply, smul_eq_mul]
    rw [sum_corner (fun v => linear α β (fun i => G.lower i + (((cornerNode j v) i).1 : R) * G.width i) * (shapeGrad v x i / G.width i))]
    simp only [hcorner]
    exact linear_gradient α β (fun i => G.lower i + ((j i).1 : R) * G.width i) G.width (fun i => (hw i).ne') x i
  have hterm : ∀ j : CellIndex G.cells, ((fun e : Element d (2 ^ d) (Node G.cells) R => ∑ i, if g = e.dofs i then
      (e.quadOp.map fun q => q.weight * ((diagonal a *ᵥ e.gradOf (fun g => linear α β fun i => G.lower i + ((g i).1 : R) * G.width i) q.pos) ⬝ᵥ
        e.grad i q.pos)).sum else 0) ∘ element G.lower G.width G.matrixRule) j =
      (G.matrixRule.map fun q => ∑ l, (q.weight * ∏ i, G.width i) * (a l * β l / G.width l) *
        ∑ v : Fin d → Bool, if cornerNode j v = g then shapeGrad v q.pos l else 0).sum := by
    intro j
    simp only [Function.comp_apply, hgrad]
    simp only [element, scaleRule, List.map_map]
    rw [sum_corner (fun v => if g = cornerNode j v then (G.matrixRule.map ((fun q : QPoint d R => q.weight * ((diagonal a *ᵥ β) ⬝ᵥ
      fun i => shapeGrad v q.pos i / G.width i)) ∘ fun q => ⟨q.pos, q.weight * ∏ i, G.width i⟩)).sum else 0)]
    simp only [Finset.mul_sum]
    rw [List.map_congr_left fun q _ => Finset.sum_comm, sum_map_sum]
    refine Finset.sum_congr rfl fun v _ => ?_
    by_cases hv : g = cornerNode j v
    · rw [if_pos hv]
      refine congrArg List.sum (List.map_congr_left fun q _ => ?_)
      simp only [Function.comp_apply, if_pos hv.symm]
      rw [dotProduct, Finset.mul_sum]
      refine Finset.sum_congr rfl fun l _ => ?_
      rw [mulVec_diagonal]
      ring
    · rw [if_neg hv]
      have hv' : ¬ cornerNode j v = g := fun h => hv h.symm
      simp [if_neg hv']
  rw [Finset.sum_congr rfl fun j _ => hterm j, ← sum_map_sum]
  refine List.sum_eq_zero fun y hy => ?_
  obtain ⟨q, -, rfl⟩ := List.mem_map.mp hy
  rw [Finset.sum_comm]
  refine Finset.sum_eq_zero fun l _ => ?_
  rw [← Finset.mul_sum]
  by_cases hl : β l = 0
  · simp [hl]
  · rw [sum_slopes g l (hfree g hg l hl), mul_zero]

omit [LinearOrder R] [IsStrictOrderedRing R] in
theorem fem_load_comb (G : Grid d R) (a b : R) (f f1 f2 : (Fin d → R) → R) (hf : ∀ x, f x = a * f1 x + b * f2 x) (n1 n2 : Node G.cells → R) :
    load G f (a • n1 + b • n2) = a • load G f1 n1 + b • load G f2 n2 := by
  have key : addFunctional (sourceProduct f) (G.elements G.loadRule) 0 = a • addFunctional (sourceProduct f1) (G.elements G.loadRule) 0 +
      b • addFunctional (sourceProduct f2) (G.elements G.loadRule) 0 := by
    funext g
    simp only [Pi.add_apply, Pi.smul_apply, smul_eq_mul, addFunctional_apply, Pi.zero_apply, zero_add]
    rw [← sum_map_comb]
    refine congrArg List.sum (List.map_congr_left fun e _ => ?_)
    rw [Finset.mul_sum, Finset.mul_sum, ← Finset.sum_add_distrib]
    refine Finset.sum_congr rfl fun k _ => ?_
    split_ifs
    · rw [← sum_map_comb]
      refine congrArg List.sum (List.map_congr_left fun q _ => ?_)
      simp only [sourceProduct, hf]
      ring
    · ring
  simp only [load, key, smul_add]
  abel

/-- **C82** (reference) The reference solution depends linearly on source, Neumann functional and Dirichlet data. -/
theorem C82_reference (G : Grid d R) (hG : G.Complete) (hw : ∀ i, 0 < G.width i) (hc : ∀ i, 0 < G.cells i)
    (hR : Resolving G.matrixRule) (diffusion : (Fin d → R) → Matrix (Fin d) (Fin d) R) (hpd : Definite diffusion)
    (D : Node G.cells → Bool) (hD : ∃ g, D g = true) (a b : R) (f f1 f2 : (Fin d → R) → R) (hf : ∀ x, f x = a * f1 x + b * f2 x)
    (n1 n2 g1 g2 : Node G.cells → R) (s s1 s2 : Solver (Node G.cells) R) (hs : s.Correct) (hs1 : s1.Correct) (hs2 : s2.Correct)
    (old old1 old2 u u1 u2 : Node G.cells → R) (h : G.apply true s diffusion f (a • n1 + b • n2) (a • g1 + b • g2) D old = .ok u)
    (h1 : G.apply true s1 diffusion f1 n1 g1 D old1 = .ok u1) (h2 : G.apply true s2 diffusion f2 n2 g2 D old2 = .ok u2) :
    u = a • u1 + b • u2 := by
  rw [apply_forgets, fem_load_comb G a b f f1 f2 hf] at h
  rw [apply_forgets] at h1 h2
  exact unique_of_freeInjective (free_injective G hG hw hc hR diffusion hpd D hD) (C26_fem_solution s hs _ _ _ _ _ _ h)
    (isSolution_comb a b (C26_fem_solution s1 hs1 _ _ _ _ _ _ h1) (C26_fem_solution s2 hs2 _ _ _ _ _ _ h2))

end Verif.FemSolver
