import Verif.Props.OversampledRun
import Verif.Props.Constants

/-!
# C83: exact reproduction of constant solutions by runs with oversampling
-/

namespace Verif.Oversampling
open Matrix Verif.CoarseAssembly Verif.LocalAssembly Verif.LocalSolve Verif.LocalGrid Verif.Q1Grid Verif.DirichletSolve Verif.Pipeline
open Verif.Spec.Galerkin Verif.Spec.Dirichlet

variable {d : ℕ}

theorem sum_shape (x : Fin d → ℚ) : ∑ v : Fin d → Bool, shape v x = 1 := by
  simp only [shape]
  rw [sum_prod_bool (fun l b => hat b (x l))]
  exact Finset.prod_eq_one fun l _ => by simp [hat]

/-- the local grid lies in the domain -/
theorem node_in_cell (P : Patches d) (hP : P.Admissible) (J : CellIndex P.cells) (node : P.LocalNode J) :
    ∃ K : CellIndex P.cells, ∀ i, P.cellLower K i ≤ P.nodePos J node i ∧ P.nodePos J node i ≤ P.cellLower K i + P.width i := by
  have key : ∀ i, ∃ k : Fin (P.cells i), P.lower i + (k.1 : ℚ) * P.width i ≤ P.nodePos J node i ∧
      P.nodePos J node i ≤ P.lower i + (k.1 : ℚ) * P.width i + P.width i := by
    intro i
    have hw := hP.width_pos i
    have hm := hP.micro_pos i
    have hmq : (0 : ℚ) < P.micro i := by exact_mod_cast hm
    have hN : (0 : ℚ) < P.cells i := by exact_mod_cast hP.cells_pos i
    have hab : P.lower i < P.lower i + (P.cells i : ℚ) * P.width i := by
      have := mul_pos hN hw
      linarith
    have hel : (P.grid J).elements i = P.micro i + (leftLayers (J i).1 (P.micro i) P.layers +
        if ((J i).1 + 1) * P.micro i + P.layers ≤ P.cells i * P.micro i then P.layers else 0) :=
      elements_coarseCell hab (hP.cells_pos i) hm
    have hleft : P.left J i ≤ (J i).1 * P.micro i := by
      unfold Patches.left leftLayers
      split_ifs with h
      · exact h
      · exact Nat.zero_le _
    have hJ : ((J i).1 + 1) * P.micro i ≤ P.cells i * P.micro i := Nat.mul_le_mul_right _ (J i).2
    have hJe : ((J i).1 + 1) * P.micro i = (J i).1 * P.micro i + P.micro i := by ring
    have hl : P.left J i = leftLayers (J i).1 (P.micro i) P.layers := rfl
    have hn := (node i).2
    obtain ⟨G, hG⟩ : ∃ G, G + P.left J i = (J i).1 * P.micro i + (node i).1 := ⟨(J i).1 * P.micro i + (node i).1 - P.left J i, by omega⟩
    have hGle : G ≤ P.cells i * P.micro i := by
      split_ifs at hel <;> omega
    have hpos : P.nodePos J node i = P.lower i + (G : ℚ) * (P.width i / P.micro i) := by
      obtain ⟨h1, -, -, h4⟩ := patch_facts P hP J i
      have hGq : (G : ℚ) + P.left J i = (J i).1 * P.micro i + (node i).1 := by exact_mod_cast hG
      rw [Patches.nodePos, h1, h4, Patches.cellLower, eq_sub_of_add_eq hGq]
      field_simp
      ring
    obtain ⟨k, hk, h1, h2⟩ : ∃ k, k < P.cells i ∧ k * P.micro i ≤ G ∧ G ≤ (k + 1) * P.micro i := by
      rcases Nat.lt_or_ge G (P.cells i * P.micro i) with h | h
      · refine ⟨G / P.micro i, (Nat.div_lt_iff_lt_mul hm).mpr h, Nat.div_mul_le_self _ _, ?_⟩
        exact (Nat.lt_mul_of_div_lt (Nat.lt_succ_self _) hm).le
      · have hc := hP.cells_pos i
        obtain ⟨n, hn⟩ : ∃ n, P.cells i = n + 1 := ⟨P.cells i - 1, by omega⟩
        refine ⟨n, by omega, ?_, ?_⟩
        · rw [hn] at h
          exact le_trans (Nat.mul_le_mul_right _ (Nat.le_succ n)) h
        · rw [← hn]
          exact hGle
    refine ⟨⟨k, hk⟩, ?_, ?_⟩
    · rw [hpos]
      have h1q : (k : ℚ) * P.micro i ≤ G := by exact_mod_cast h1
      have : (k : ℚ) * P.width i = (k * P.micro i) * (P.width i / P.micro i) := by field_simp
      rw [this]
      have := mul_le_mul_of_nonneg_right h1q (div_pos hw hmq).le
      linarith
    · rw [hpos]
      have h2q : (G : ℚ) ≤ (k + 1) * P.micro i := by exact_mod_cast h2
      have : (k : ℚ) * P.width i + P.width i = ((k + 1) * P.micro i) * (P.width i / P.micro i) := by field_simp
      rw [add_assoc, this]
      have := mul_le_mul_of_nonneg_right h2q (div_pos hw hmq).le
      linarith
  choose K hK using key
  exact ⟨K, hK⟩

theorem prolong_const (P : Patches d) (hP : P.Admissible) (J : CellIndex P.cells) (c : ℚ) :
    P.prolong J (fun _ => c) = fun _ => c := by
  funext node
  obtain ⟨K, hK⟩ := node_in_cell P hP J node
  rw [Patches.prolong, coarseValue_eq P hP K _ _ hK, ← Finset.mul_sum, sum_shape, mul_one]

theorem sum_continued (P : Patches d) (J : CellIndex P.cells) : ∑ k, P.continued J k = fun _ => 1 := by
  funext node
  rw [Finset.sum_apply]
  simp only [Patches.continued]
  rw [sum_corner (fun v => shape v (P.toCoarse J (P.nodePos J node))), sum_shape]

theorem op_const (P : Patches d) (J : CellIndex P.cells) (diffusion : (Fin d → ℚ) → Matrix (Fin d) (Fin d) ℚ) (c : ℚ) :
    P.op J diffusion *ᵥ (fun _ => c) = 0 := by
  rw [Patches.op, ← single_elements P J (fun _ => false) 0]
  exact stiff_const (P.single J) diffusion _ _ _ c

section run
variable (O : Layered d) (B : O.Boundary) (P : Data d ℚ) (h : O.Unique B P)
include h

theorem run_sum_correctors (J : O.Coarse) (Q : Fin (2 ^ d) → O.Local J → ℚ) (qN qD : O.Local J → ℚ) (hQ : O.IsCorrector B P J Q qN qD) :
    ∑ k, Q k = 0 := by
  apply unique_of_freeInjective (run_local_unique O B P h J) (load := 0) (data := 0)
  · refine ⟨fun i hi => ?_, fun i hi => ?_⟩
    · rw [Finset.sum_apply]
      exact Finset.sum_eq_zero fun k _ => (hQ.inner k).boundary i hi
    · rw [mulVec_sum, Finset.sum_apply, Finset.sum_congr rfl fun k _ => (hQ.inner k).equation i hi]
      simp only [Pi.neg_apply, Finset.sum_neg_distrib]
      rw [← Finset.sum_apply, ← mulVec_sum, sum_continued, op_const, Pi.zero_apply, neg_zero]
  · exact ⟨fun _ _ => rfl, fun i _ => by rw [mulVec_zero]⟩

theorem run_neumann_zero (hN : ∀ x, P.neumann x = 0) (J : O.Coarse) (Q : Fin (2 ^ d) → O.Local J → ℚ) (qN qD : O.Local J → ℚ)
    (hQ : O.IsCorrector B P J Q qN qD) : qN = 0 := by
  by_cases hb : ∃ i, (J i).1 = 0 ∨ (J i).1 + 1 = O.base.cells i
  · have := hQ.neumann hb
    have hz : O.localNeumann B P.neumann J = 0 := by
      unfold Layered.localNeumann
      simp only [hN, mul_zero, zero_mul]
      have hadd : ∀ (b : O.Local J → ℚ) n, addToVec b n 0 = b := fun b n => by
        funext a
        simp [addToVec]
      simp only [hadd]
      have hconst : ∀ {α β : Type} (l : List α) (b : β), l.foldl (fun b _ => b) b = b := fun l b => by
        induction l with
        | nil => rfl
        | cons _ _ ih => exact ih
      simp only [hconst]
    rw [hz] at this
    exact unique_of_freeInjective (run_local_unique O B P h J) this ⟨fun _ _ => rfl, fun i _ => by rw [mulVec_zero]⟩
  · exact (hQ.inside hb).1

end run

/-- the part of the constant one that is attached to the Dirichlet nodes -/
def Layered.dirichletPart (O : Layered d) (B : O.Boundary) : Node O.base.cells → ℚ := fun g => if B.isDirichlet g then 1 else 0

/-- **C83** (constants with oversampling, exact condition) With no source, no Neumann data and a constant as Dirichlet data, the result of a run
with oversampling is this constant if and only if on the local grid of every coarse cell at the boundary the function of the coarse
space that is one at the Dirichlet nodes and zero at the other nodes solves the local equation. -/
theorem C83_layers_iff (O : Layered d) (B : O.Boundary) (P : Data d ℚ) (h : O.Unique B P) (hf : ∀ x, P.source x = 0)
    (hN : ∀ x, P.neumann x = 0) (c : ℚ) (hc : c ≠ 0) (hD : ∀ x, P.dirichlet x = c) (m : O.Machine) (hm : O.Works B P m)
    (u : Node O.base.cells → ℚ) (res : List (O.Point → ℚ)) (hr : O.apply B P m = .ok (u, res)) :
    ((u = fun _ => c) ∧ res = O.base.order.map fun J => O.embed J fun _ => c) ↔
      ∀ J : O.Coarse, (∃ i, (J i).1 = 0 ∨ (J i).1 + 1 = O.base.cells i) → ∀ node, B.constrained J node = false →
        (O.patches.op J P.diffusion *ᵥ O.patches.prolong J (O.dirichletPart B)) node = 0 := by
  have hO := h.admissible
  obtain ⟨Q, qN, qD, fine, hcomp, rfl⟩ := run_spec O hO B P m hm u res hr
  obtain rfl : qN = fun _ => 0 := funext fun J => run_neumann_zero O B P h hN J _ _ _ (hcomp.corrector J)
  have hsum : ∀ J node, ∑ k, Q J k node = 0 := fun J node => by
    rw [← Finset.sum_apply, run_sum_correctors O B P h J _ _ _ (hcomp.corrector J), Pi.zero_apply]
  have hext : ∀ J, O.patches.prolong J (O.extension B P) = c • O.patches.prolong J (O.dirichletPart B) := by
    intro J
    have e : O.extension B P = c • O.dirichletPart B + (0 : ℚ) • 0 := by
      funext g
      simp only [Layered.extension, dirichletProject, hD, Layered.dirichletPart, Pi.add_apply, Pi.smul_apply, smul_eq_mul, Pi.zero_apply]
      split_ifs <;> simp
    rw [e, prolong_comb]
    simp
  have hfine : (u = fun _ => c) → ∀ J node, fine J node = qD J node + c := by
    rintro rfl J node
    by_cases hn : O.layers = 0 ∨ O.patches.Covered J node
    · rw [hcomp.inner_eq J node hn, ← Finset.mul_sum, hsum, prolong_const _ hO.patches]
      simp
    · rw [not_or] at hn
      rw [hcomp.outer_eq J node hn.1 hn.2, prolong_const _ hO.patches]
      simp
  constructor
  · rintro ⟨hu, hres⟩ J hb node hn
    have h1 : fine J = fun _ => c := by
      have := List.map_inj_left.mp hres J (hO.base.order_complete J)
      rw [← part_embed O J (fine J), this, part_embed]
    have h2 : qD J = 0 := by
      funext nd
      have := hfine hu J nd
      rw [h1] at this
      simpa using this
    have h3 := ((hcomp.corrector J).dirichlet hb).equation node hn
    rw [h2, mulVec_zero, hext, mulVec_smul, Pi.neg_apply, Pi.smul_apply, smul_eq_mul, Pi.zero_apply] at h3
    have h4 : c * (O.patches.op J P.diffusion *ᵥ O.patches.prolong J (O.dirichletPart B)) node = 0 := by
      rw [← neg_eq_zero]; exact h3.symm
    exact (mul_eq_zero.mp h4).resolve_left hc
  · intro hh
    obtain rfl : qD = fun _ => 0 := by
      funext J
      by_cases hb : ∃ i, (J i).1 = 0 ∨ (J i).1 + 1 = O.base.cells i
      · refine unique_of_freeInjective (run_local_unique O B P h J) ((hcomp.corrector J).dirichlet hb) ⟨fun _ _ => rfl, fun i hi => ?_⟩
        rw [mulVec_zero, hext, mulVec_smul, Pi.neg_apply, Pi.smul_apply, hh J hb i hi, smul_zero, neg_zero, Pi.zero_apply]
      · exact ((hcomp.corrector J).inside hb).2
    have hu : u = fun _ => c := by
      have hinj := C86_free_injective O B P h Q _ _ hcomp.corrector 0
      rw [coarseMatrix_restrict O hO P.diffusion _ 0 0] at hinj
      simp only [map_corrList] at hinj
      apply unique_of_freeInjective hinj hcomp.coarse
      refine ⟨fun g _ => (hD _).symm, fun g _ => ?_⟩
      have hz : ∀ J, O.restrict hO J (0 : O.Local J → ℚ) = 0 := fun _ => rfl
      have hload := coarseLoad_zero O.base (⟨B.isDirichlet, fun _ => false, B.faces, fun _ => []⟩ : Pipeline.Boundary O.base) P hm.flux hf hN
        (fun J k => O.restrict hO J (Q J k)) 0
      simp only [hz]
      have hpts : O.neumannPoints B P.neumann = neumannPoints O.base ⟨B.isDirichlet, fun _ => false, B.faces, fun _ => []⟩ P.neumann := rfl
      rw [hpts]
      refine Eq.trans ?_ (congrFun hload g).symm
      have hm0 := coarseMatrix_points O.base P.diffusion (fun J k => O.restrict hO J (Q J k)) 0 0 0
      refine Eq.trans (b := ((O.base.coarseMatrix P.diffusion (fun J => Manager.corrList (fun k => O.restrict hO J (Q J k)) 0 0) 0) *ᵥ fun _ => c) g) rfl ?_
      have hm1 : O.base.coarseMatrix P.diffusion (fun J => Manager.corrList (fun k => O.restrict hO J (Q J k)) 0 0) 0 = _ := hm0
      rw [hm1, kernel_of_gradient]
      intro s hs
      obtain ⟨t, -, rfl⟩ := List.mem_map.mp hs
      have hq : ∑ k, O.restrict hO t.1 (Q t.1 k) = 0 := by
        funext node
        rw [Finset.sum_apply]
        exact hsum t.1 _
      simp only [Sample.gradOf, sampleAt, smul_add, Finset.sum_add_distrib]
      rw [grad_sum, ← Finset.smul_sum (s := Finset.univ) (f := fun k => O.restrict hO t.1 (Q t.1 k)), hq, smul_zero, grad_zero, add_zero]
      funext i
      rw [Finset.sum_apply, Pi.zero_apply]
      simp only [Pi.smul_apply, smul_eq_mul, ← mul_div_assoc]
      rw [← Finset.sum_div, sum_corner (fun v => c * shapeGrad v t.2.2.pos i), sum_one_direction (fun _ => c) i]
      simp
    refine ⟨hu, List.map_congr_left fun J _ => congrArg _ (funext fun node => ?_)⟩
    rw [hfine hu J node]
    simp

/-! ## One layer -/

/-- four coarse cells, each refined into four, one layer -/
abbrev oneLayer : Layered 2 := ⟨fourCells, 1, cellsOf, 0⟩

theorem oneLayer_admissible : oneLayer.Admissible where
  base := fourCells_admissible
  order_nodup := by decide
  fine_nodup := by decide
  patches :=
    { width_pos := fourCells_admissible.width_pos
      cells_pos := fourCells_admissible.cells_pos
      micro_pos := fourCells_admissible.micro_pos
      aligned := fun _ => Or.inr (by norm_num [fourCells])
      order_complete := (squares_admissible 1 one_pos).order_complete
      order_nodup := (squares_admissible 1 one_pos).order_nodup
      tol_nonneg := le_refl _ }
  tol_small := fun _ => by norm_num

/-- Dirichlet values on the whole boundary, local problems constrained on the whole boundary of their grids -/
def oneLayerBoundary : oneLayer.Boundary where
  isDirichlet g := decide (∃ i, (g i).1 = 0 ∨ (g i).1 = 2)
  constrained := onPatchBoundary oneLayer.patches
  faces := []
  localFaces := fun _ => []

/-- Laplace equation, boundary value one, no source -/
def unitData : Data 2 ℚ := ⟨fun _ => diagonal fun _ => 1, fun _ v => (diagonal fun _ => 1) *ᵥ v, fun _ => 0, fun _ => 0, fun _ => 1⟩

theorem oneLayer_unique : oneLayer.Unique oneLayerBoundary unitData where
  dim := le_refl _
  admissible := oneLayer_admissible
  localRule := fourCells_resolving
  matrixRule := fourCells_resolving
  definite := definite_diagonal _ fun _ => one_pos
  constrained := fun _ _ hn => decide_eq_true hn
  refined := ⟨0, le_refl _⟩
  dirichlet := ⟨fun _ => (0 : Fin 3), ⟨0, Or.inl rfl⟩, by decide⟩

theorem oneLayer_residual : (oneLayer.patches.op (fun _ => (0 : Fin 2)) unitData.diffusion *ᵥ
    oneLayer.patches.prolong (fun _ => (0 : Fin 2)) (oneLayer.dirichletPart oneLayerBoundary))
    (oneLayer.shift oneLayer_admissible (fun _ => (0 : Fin 2)) fun _ => (2 : Fin 3)) = -13 / 8 := by
  decide +kernel

/-- **C83** (the negation with oversampling) Four coarse cells with one layer, Laplace equation, boundary value one, no source: no run returns
the constant one, while every run without layers does. -/
theorem C83_violated_layers :
    (∃ m, oneLayer.Works oneLayerBoundary unitData m ∧ ∃ u res, oneLayer.apply oneLayerBoundary unitData m = .ok (u, res)) ∧
    (∀ m, oneLayer.Works oneLayerBoundary unitData m → ∀ u res, oneLayer.apply oneLayerBoundary unitData m = .ok (u, res) →
      ¬ ((u = fun _ => 1) ∧ res = oneLayer.base.order.map fun J => oneLayer.embed J fun _ => 1)) ∧
    ∀ m, Works fourCells closedBoundary unitData m → ∀ u res, apply fourCells closedBoundary unitData m = .ok (u, res) →
      (u = fun _ => 1) ∧ ∀ v ∈ res, v = fun _ => 1 := by
  refine ⟨C86_run_exists _ _ _ oneLayer_unique fun _ _ => rfl, fun m hm u res hr hone => ?_, fun m hm u res hr => ?_⟩
  · have := (C83_layers_iff _ _ _ oneLayer_unique (fun _ => rfl) (fun _ => rfl) 1 one_ne_zero (fun _ => rfl) m hm u res hr).mp hone
      (fun _ => (0 : Fin 2)) ⟨0, Or.inl rfl⟩ (oneLayer.shift oneLayer_admissible (fun _ => (0 : Fin 2)) fun _ => (2 : Fin 3)) (by decide +kernel)
    rw [oneLayer_residual] at this
    norm_num at this
  · have hu : Pipeline.Unique fourCells closedBoundary unitData := ⟨fourCells_admissible, by decide, fourCells_resolving, fourCells_resolving,
      definite_diagonal _ fun _ => one_pos, jump_unique.corners, jump_unique.dirichlet⟩
    obtain ⟨h1, h2⟩ := C83_linear fourCells closedBoundary unitData hu (by decide) (fun _ => 1) (fun _ => rfl) (fun node hn i => by
      have h1 : ¬ ∃ i, (node i).1 = 0 ∨ (node i).1 = 2 := of_decide_eq_false hn
      push Not at h1
      have h2 := (node i).2
      have h3 : fourCells.micro i = 2 := rfl
      have := h1 i
      omega) (fun _ => rfl) (fun _ => rfl) 1 0 (fun x => by simp [unitData, linear]) (fun _ _ i hi => absurd rfl hi) m hm u res hr
    have hl : ∀ x : Fin 2 → ℚ, linear (1 : ℚ) 0 x = 1 := fun x => by simp [linear]
    refine ⟨funext fun g => (h1 g).trans (hl _), fun v hv => ?_⟩
    rw [h2] at hv
    obtain ⟨J, -, rfl⟩ := List.mem_map.mp hv
    exact funext fun node => hl _

end Verif.Oversampling
