import Verif.Model.Oversampling
import Verif.Props.Consistency
import Verif.Props.LocalGrid

/-!
# C73: reconstructions of neighbouring coarse cells with oversampling
-/

namespace Verif.Oversampling
open Matrix Verif.CoarseAssembly Verif.LocalAssembly Verif.LocalSolve Verif.LocalGrid Verif.Q1Grid
open Verif.Spec.Galerkin Verif.Spec.Dirichlet

variable {d : ℕ}

/-- Positive sizes and numbers, as many layers that the local grids consist of cells of the fine grid (C02), every cell is
visited exactly once. -/
structure Patches.Admissible (P : Patches d) : Prop where
  width_pos : ∀ i, 0 < P.width i
  cells_pos : ∀ i, 0 < P.cells i
  micro_pos : ∀ i, 0 < P.micro i
  aligned : ∀ i, P.cells i = 1 ∨ P.layers ≤ P.micro i
  order_complete : ∀ e j, j ∈ P.localOrder e
  order_nodup : ∀ e, (P.localOrder e).Nodup
  tol_nonneg : 0 ≤ P.tol

/-- number of layers at the lower side -/
def Patches.left (P : Patches d) (J : CellIndex P.cells) (i : Fin d) : ℕ := leftLayers (J i).1 (P.micro i) P.layers

section
variable (P : Patches d) (hP : P.Admissible) (J : CellIndex P.cells)
include hP

theorem patch_facts (i : Fin d) :
    (P.grid J).lower i = P.cellLower J i - (P.left J i : ℚ) * (P.width i / (P.micro i : ℚ)) ∧
    P.left J i + P.micro i ≤ (P.grid J).elements i ∧ 0 < (P.grid J).elements i ∧
    P.patchWidth J i = P.width i / (P.micro i : ℚ) := by
  have hw := hP.width_pos i
  have hN : (0 : ℚ) < P.cells i := by exact_mod_cast hP.cells_pos i
  have hm : (0 : ℚ) < P.micro i := by exact_mod_cast hP.micro_pos i
  have hab : P.lower i < P.lower i + (P.cells i : ℚ) * P.width i := by
    have := mul_pos hN hw
    linarith
  obtain ⟨h1, h2, h3, h4⟩ := aligned_facts hab (J i).2 (hP.micro_pos i) (hP.aligned i)
  have e : (P.lower i + (P.cells i : ℚ) * P.width i - P.lower i) / ((P.cells i : ℚ) * P.micro i) = P.width i / (P.micro i : ℚ) := by
    field_simp
    ring
  refine ⟨?_, h2, h3, h4.trans e⟩
  show (coarseCell _ _ _ _ _ _).lowerLeft = _
  rw [h1, e, Patches.cellLower, Patches.left]
  field_simp
  ring

theorem patchWidth_pos (i : Fin d) : 0 < P.patchWidth J i := by
  rw [(patch_facts P hP J i).2.2.2]
  exact div_pos (hP.width_pos i) (by exact_mod_cast hP.micro_pos i)

/-- coordinates of a node in the coarse cell -/
theorem toCoarse_node (node : P.LocalNode J) (i : Fin d) :
    P.toCoarse J (P.nodePos J node) i = (((node i).1 : ℚ) - P.left J i) / P.micro i := by
  obtain ⟨h1, -, -, h4⟩ := patch_facts P hP J i
  have hw := (hP.width_pos i).ne'
  have hm : (P.micro i : ℚ) ≠ 0 := by exact_mod_cast (hP.micro_pos i).ne'
  rw [Patches.toCoarse, Patches.nodePos, h4, h1]
  field_simp
  ring

end

/-- The node lies in the closed coarse cell. -/
def Patches.Covered (P : Patches d) (J : CellIndex P.cells) (node : P.LocalNode J) : Prop :=
  ∀ i, P.cellLower J i ≤ P.nodePos J node i ∧ P.nodePos J node i ≤ P.cellLower J i + P.width i

/-- The node lies inside the coarse cell. -/
def Patches.Inner (P : Patches d) (J : CellIndex P.cells) (node : P.LocalNode J) : Prop :=
  ∀ i, P.cellLower J i < P.nodePos J node i ∧ P.nodePos J node i < P.cellLower J i + P.width i

section
variable (P : Patches d) (hP : P.Admissible) (J : CellIndex P.cells) (node : P.LocalNode J)
include hP

theorem toCoarse_le (x : Fin d → ℚ) (i : Fin d) (a : ℚ) :
    (P.toCoarse J x i ≤ a ↔ x i ≤ P.cellLower J i + a * P.width i) ∧ (a ≤ P.toCoarse J x i ↔ P.cellLower J i + a * P.width i ≤ x i) := by
  have hw := hP.width_pos i
  constructor
  · rw [Patches.toCoarse, div_le_iff₀ hw]
    constructor <;> intro h <;> linarith
  · rw [Patches.toCoarse, le_div_iff₀ hw]
    constructor <;> intro h <;> linarith

theorem covered_iff : P.Covered J node ↔ ∀ i, P.left J i ≤ (node i).1 ∧ (node i).1 ≤ P.left J i + P.micro i := by
  refine forall_congr' fun i => ?_
  have hm : (0 : ℚ) < P.micro i := by exact_mod_cast hP.micro_pos i
  have h0 := (toCoarse_le P hP J (P.nodePos J node) i 0).2
  have h1 := (toCoarse_le P hP J (P.nodePos J node) i 1).1
  rw [zero_mul, add_zero] at h0
  rw [one_mul] at h1
  rw [← h0, ← h1, toCoarse_node P hP, le_div_iff₀ hm, div_le_iff₀ hm, zero_mul, one_mul, sub_nonneg]
  refine and_congr ?_ ?_
  · exact Nat.cast_le
  · rw [sub_le_iff_le_add']
    exact_mod_cast Iff.rfl

theorem inner_iff : P.Inner J node ↔ ∀ i, P.left J i < (node i).1 ∧ (node i).1 < P.left J i + P.micro i := by
  refine forall_congr' fun i => ?_
  have hm : (0 : ℚ) < P.micro i := by exact_mod_cast hP.micro_pos i
  have h0 := not_congr (toCoarse_le P hP J (P.nodePos J node) i 0).1
  have h1 := not_congr (toCoarse_le P hP J (P.nodePos J node) i 1).2
  rw [zero_mul, add_zero, not_le, not_le] at h0
  rw [one_mul, not_le, not_le] at h1
  rw [← h0, ← h1, toCoarse_node P hP, lt_div_iff₀ hm, div_lt_iff₀ hm, zero_mul, one_mul, sub_pos]
  refine and_congr ?_ ?_
  · exact Nat.cast_lt
  · rw [sub_lt_iff_lt_add']
    exact_mod_cast Iff.rfl

theorem inside_of_covered (h : P.Covered J node) : P.inside J (P.nodePos J node) = true := by
  rw [Patches.inside, decide_eq_true_eq]
  intro i
  have ht := hP.tol_nonneg
  have h0 := (toCoarse_le P hP J (P.nodePos J node) i 0).2
  have h1 := (toCoarse_le P hP J (P.nodePos J node) i 1).1
  rw [zero_mul, add_zero] at h0
  rw [one_mul] at h1
  have := h0.mpr (h i).1
  have := h1.mpr (h i).2
  constructor <;> linarith

end

/-- the continued basis functions are multilinear on the local cells -/
theorem patch_nested (P : Patches d) (hP : P.Admissible) (J : CellIndex P.cells) (constrained : P.LocalNode J → Bool)
    (neumann : P.LocalNode J → ℚ) : (P.cell J constrained neumann).Nested := by
  have hw : ∀ l, P.width l ≠ 0 := fun l => (hP.width_pos l).ne'
  have hm : ∀ l, (P.micro l : ℚ) ≠ 0 := fun l => by exact_mod_cast (hP.micro_pos l).ne'
  constructor
  · intro e he
    obtain ⟨j, -, rfl⟩ := List.mem_map.mp he
    rfl
  · intro e he q _ k
    obtain ⟨j, -, rfl⟩ := List.mem_map.mp he
    funext i
    rw [element_gradOf]
    have h1 : ∀ w : Fin d → Bool, (P.cell J constrained neumann).nodal k (cornerNode j w) =
        shape (corner k) (fun l => (((j l).1 : ℚ) - P.left J l + if w l then 1 else 0) / (P.micro l : ℚ)) := by
      intro w
      simp only [Patches.cell]
      congr 1
      funext l
      rw [toCoarse_node P hP, cornerNode_cast]
      congr 1
      ring
    simp only [h1]
    rw [interpolate_grad (corner k) (fun l => ((j l).1 : ℚ) - P.left J l)]
    have h2 : (P.cell J constrained neumann).toCoarse ((element (P.grid J).lower (P.patchWidth J) P.localRule j).toGlobal q.pos) =
        fun l => (((j l).1 : ℚ) - P.left J l + q.pos l) / (P.micro l : ℚ) := by
      funext l
      obtain ⟨h3, -, -, h4⟩ := patch_facts P hP J l
      simp only [Patches.cell, Patches.toCoarse, element, h3, h4]
      have := hw l
      have := hm l
      field_simp
      ring
    rw [h2]
    simp only [Patches.cell, (patch_facts P hP J i).2.2.2]
    have := hw i
    have := hm i
    field_simp

/-- On a coarse cell, a coarse function is the multilinear function of its values at the corners. -/
theorem coarseValue_eq (P : Patches d) (hP : P.Admissible) (J : CellIndex P.cells) (u : Node P.cells → ℚ) (x : Fin d → ℚ)
    (hx : ∀ i, P.cellLower J i ≤ x i ∧ x i ≤ P.cellLower J i + P.width i) :
    P.coarseValue u x = ∑ v : Fin d → Bool, u (cornerNode J v) * shape v (P.toCoarse J x) := by
  have ht : ∀ i, 0 ≤ P.toCoarse J x i ∧ P.toCoarse J x i ≤ 1 := by
    intro i
    have h0 := (toCoarse_le P hP J x i 0).2
    have h1 := (toCoarse_le P hP J x i 1).1
    rw [zero_mul, add_zero] at h0
    rw [one_mul] at h1
    exact ⟨h0.mpr (hx i).1, h1.mpr (hx i).2⟩
  have hpos : ∀ i, (x i - P.lower i) / P.width i = ((J i).1 : ℚ) + P.toCoarse J x i := by
    intro i
    have := (hP.width_pos i).ne'
    rw [Patches.toCoarse, Patches.cellLower]
    field_simp
    ring
  have hinj : Function.Injective (cornerNode J) := by
    intro v w h
    funext i
    have := congrFun h i
    simp only [cornerNode] at this
    cases hv : v i <;> cases hw : w i <;> simp_all [Fin.ext_iff]
  have hin : ∀ v : Fin d → Bool, ∏ i, max 0 (1 - |(x i - P.lower i) / P.width i - ((cornerNode J v i).1 : ℚ)|) =
      shape v (P.toCoarse J x) := by
    intro v
    apply Finset.prod_congr rfl
    intro i _
    obtain ⟨h0, h1⟩ := ht i
    rw [hpos, cornerNode_cast, hat]
    cases v i
    · simp only [Bool.false_eq_true, if_false, add_zero, add_sub_cancel_left, abs_of_nonneg h0]
      exact max_eq_right (by linarith)
    · simp only [if_true, add_sub_add_left_eq_sub]
      rw [abs_of_nonpos (by linarith), max_eq_right (by linarith)]
      ring
  have hout : ∀ g : Node P.cells, g ∉ Finset.univ.image (cornerNode J) →
      u g * ∏ i, max 0 (1 - |(x i - P.lower i) / P.width i - ((g i).1 : ℚ)|) = 0 := by
    intro g hg
    have : ∃ i, (g i).1 ≠ (J i).1 ∧ (g i).1 ≠ (J i).1 + 1 := by
      by_contra hcon
      push Not at hcon
      apply hg
      refine Finset.mem_image.mpr ⟨fun i => decide ((g i).1 ≠ (J i).1), Finset.mem_univ _, ?_⟩
      funext i
      apply Fin.ext
      by_cases h : (g i).1 = (J i).1
      · simp [cornerNode, h]
      · simp [cornerNode, hcon i h]
    obtain ⟨i, h1, h2⟩ := this
    rw [Finset.prod_eq_zero (Finset.mem_univ i), mul_zero]
    apply max_eq_left
    obtain ⟨h3, h4⟩ := ht i
    rw [hpos]
    rcases Nat.lt_or_ge (g i).1 (J i).1 with h | h
    · have : ((g i).1 : ℚ) + 1 ≤ (J i).1 := by exact_mod_cast h
      have := le_abs_self (((J i).1 : ℚ) + P.toCoarse J x i - ((g i).1 : ℚ))
      linarith
    · have : ((J i).1 : ℚ) + 2 ≤ (g i).1 := by
        have : (J i).1 + 2 ≤ (g i).1 := by omega
        exact_mod_cast this
      have := neg_le_abs (((J i).1 : ℚ) + P.toCoarse J x i - ((g i).1 : ℚ))
      linarith
  rw [Patches.coarseValue, ← Finset.sum_subset (Finset.subset_univ (Finset.univ.image (cornerNode J))) (fun g _ hg => hout g hg),
    Finset.sum_image (fun _ _ _ _ h => hinj h)]
  apply Finset.sum_congr rfl
  intro v _
  rw [hin]

/-- `v` is the solution on coarse cell `J` in some successful run with coarse solution `u`. -/
def Patches.Computes (P : Patches d) (J : CellIndex P.cells) (constrained : P.LocalNode J → Bool) (neumann : P.LocalNode J → ℚ)
    (diffusion : (Fin d → ℚ) → Matrix (Fin d) (Fin d) ℚ) (ext u : Node P.cells → ℚ) (v : P.LocalNode J → ℚ) : Prop :=
  ∃ (walks : ℕ) (flux : (Fin d → ℚ) → (Fin d → ℚ) → (Fin d → ℚ)) (valid : (P.LocalNode J → ℚ) → Bool)
    (s : Solvers (P.LocalNode J) ℚ) (xs : List (P.LocalNode J → ℚ)) (cells : List (ℕ × List (P.LocalNode J → ℚ))) (key : ℕ),
    walks ≠ 0 ∧ (∀ x w, flux x w = diffusion x *ᵥ w) ∧
    s.Correct (constrainMat constrained ((P.cell J constrained neumann).matrix walks diffusion)) ∧
    P.solve J constrained neumann valid s true walks flux ext = .ok xs ∧ (cells.map Prod.fst).Nodup ∧ (key, xs) ∈ cells ∧
    P.solution J cells key u = .ok v

/-- The operator of the local problem. -/
abbrev Patches.op (P : Patches d) (J : CellIndex P.cells) (diffusion : (Fin d → ℚ) → Matrix (Fin d) (Fin d) ℚ) :
    Matrix (P.LocalNode J) (P.LocalNode J) ℚ :=
  stiff diffusion ((P.localOrder (P.grid J).elements).map (element (P.grid J).lower (P.patchWidth J) P.localRule))

/-- The coarse basis function `k` of the coarse cell, continued as polynomial, at the nodes of the local grid. -/
def Patches.continued (P : Patches d) (J : CellIndex P.cells) (k : Fin (2 ^ d)) (node : P.LocalNode J) : ℚ :=
  shape (corner k) (P.toCoarse J (P.nodePos J node))

/-- what a run computes -/
theorem computes_eq (P : Patches d) (hP : P.Admissible) (J : CellIndex P.cells) (constrained : P.LocalNode J → Bool)
    (neumann : P.LocalNode J → ℚ) (diffusion : (Fin d → ℚ) → Matrix (Fin d) (Fin d) ℚ) (ext u : Node P.cells → ℚ)
    (v : P.LocalNode J → ℚ) (h : P.Computes J constrained neumann diffusion ext u v) :
    ∃ (Q : Fin (2 ^ d) → P.LocalNode J → ℚ) (qN qD : P.LocalNode J → ℚ),
      (∀ k, IsSolution (P.op J diffusion) (-(P.op J diffusion *ᵥ P.continued J k)) 0 constrained (Q k)) ∧
      ((∀ i, 0 < (J i).1 ∧ (J i).1 + 1 < P.cells i) → qN = 0 ∧ qD = 0) ∧
      ((∃ i, (J i).1 = 0 ∨ (J i).1 + 1 = P.cells i) →
        IsSolution (P.op J diffusion) neumann 0 constrained qN ∧
        IsSolution (P.op J diffusion) (-(P.op J diffusion *ᵥ P.prolong J ext)) 0 constrained qD) ∧
      (∀ node, P.layers = 0 ∨ P.Covered J node →
        v node = (∑ k, u (cornerNode J (corner k)) * Q k node) + qD node - qN node + P.prolong J u node) ∧
      (∀ node, 0 < P.layers → P.inside J (P.nodePos J node) = false →
        v node = qD node - qN node + P.prolong J u node) := by
  obtain ⟨walks, flux, valid, s, xs, cells, key, hw, hf, hs, hx, hn, hc, hv⟩ := h
  obtain ⟨Q, qN, qD, rfl, h1, h2, h3⟩ := correctors_of (P.cell J constrained neumann) (patch_nested P hP J constrained neumann) walks
    hw diffusion flux hf (P.prolong J ext) valid s hs xs hx
  refine ⟨Q, qN, qD, h1, fun hb => h2 ?_, fun hb => h3 ?_, ?_⟩
  · simp only [Patches.cell, decide_eq_false_iff_not, not_exists, not_or]
    intro i
    have := hb i
    omega
  · simpa [Patches.cell] using hb
  obtain ⟨g1, g2, -⟩ := Manager.solveAll_spec (Manager.wf_init (V := P.LocalNode J → ℚ)) cells hn
  obtain ⟨w', e1, -⟩ := Manager.reconstruct_spec (Manager.solveAll Manager.World.init cells) g1 key P.layers (P.visits J) Q qN qD
    (fun k => u (cornerNode J (corner k))) (by rw [g2 _ hc]; simp [Manager.World.stored, Manager.World.init])
  rw [Patches.solution, e1] at hv
  simp only [Outcome.ok_bind, Outcome.pure_eq] at hv
  injection hv with hv
  subst hv
  have hsum : ∀ node, (∑ k, u (cornerNode J (corner k)) • Q k) node = ∑ k, u (cornerNode J (corner k)) * Q k node := by
    intro node
    rw [Finset.sum_apply]
    rfl
  have hvis : ∀ node b, (node, b) ∈ P.visits J → b = P.inside J (P.nodePos J node) := by
    intro node b hb
    simp only [Patches.visits, List.mem_flatMap, List.mem_map, Prod.mk.injEq] at hb
    obtain ⟨j, -, k, -, rfl, rfl⟩ := hb
    rfl
  constructor
  · intro node hcov
    simp only [Pi.add_apply, Pi.sub_apply]
    congr 3
    split_ifs with ho
    · have hcov : P.Covered J node := hcov.resolve_left (by omega)
      rw [Manager.cut_apply, if_neg, hsum]
      rintro ⟨b, hb, hb1, hb2⟩
      subst hb1
      have := hvis b.1 b.2 hb
      rw [inside_of_covered P hP J _ hcov, hb2] at this
      cases this
    · exact hsum node
  · intro node ho hin
    simp only [Pi.add_apply, Pi.sub_apply, if_pos ho]
    rw [Manager.cut_apply, if_pos]
    · ring
    · have hel := fun i => (patch_facts P hP J i).2.2.1
      obtain ⟨j, k, hjk⟩ : ∃ (j : CellIndex (P.grid J).elements) (k : Fin (2 ^ d)), cornerNode j (corner k) = node := by
        obtain ⟨k, hk⟩ := corner_bijective.2 (fun i => decide ((node i).1 = (P.grid J).elements i))
        refine ⟨fun i => ⟨min (node i).1 ((P.grid J).elements i - 1), by have := hel i; omega⟩, k, ?_⟩
        rw [hk]
        funext i
        apply Fin.ext
        have := hel i
        have := (node i).2
        by_cases h : (node i).1 = (P.grid J).elements i
        · simp [cornerNode, h]; omega
        · simp [cornerNode, h]; omega
      refine ⟨(node, false), ?_, rfl, rfl⟩
      simp only [Patches.visits, List.mem_flatMap, List.mem_map, Prod.mk.injEq]
      exact ⟨j, hP.order_complete _ j, k, List.mem_finRange k, hjk, by rw [hjk, hin]⟩

/-! ## Inside the coarse cells -/

/-- The equation of a node inside the coarse cell only involves nodes of the closed coarse cell. -/
theorem op_local (P : Patches d) (hP : P.Admissible) (J : CellIndex P.cells) (diffusion : (Fin d → ℚ) → Matrix (Fin d) (Fin d) ℚ)
    (v w : P.LocalNode J → ℚ) (h : ∀ node, P.Covered J node → v node = w node) (node : P.LocalNode J) (hin : P.Inner J node) :
    (P.op J diffusion *ᵥ v) node = (P.op J diffusion *ᵥ w) node := by
  rw [stiff_mulVec, stiff_mulVec]
  congr 1
  apply List.map_congr_left
  intro e he
  obtain ⟨j, -, rfl⟩ := List.mem_map.mp he
  apply Finset.sum_congr rfl
  intro k _
  split_ifs with hk
  · have hgrad : ∀ x, (element (P.grid J).lower (P.patchWidth J) P.localRule j).gradOf v x =
        (element (P.grid J).lower (P.patchWidth J) P.localRule j).gradOf w x := by
      intro x
      rw [Element.gradOf, Element.gradOf]
      apply Finset.sum_congr rfl
      intro k' _
      rw [h]
      rw [covered_iff P hP]
      rw [inner_iff P hP] at hin
      intro i
      have h1 := hin i
      rw [hk] at h1
      simp only [element, cornerNode] at h1 ⊢
      split_ifs at h1 ⊢ <;> simp only [Fin.val_succ, Fin.val_castSucc] at h1 ⊢ <;> omega
    simp only [hgrad]
  · rfl

/-- **C73, C58** (with oversampling, what the code computes) At every free fine node inside a coarse cell the solution satisfies the
equations of the fine problem if the cell has no faces on the boundary; otherwise its residual is minus the action of the
operator on the Dirichlet extension minus the Neumann functional. -/
theorem C73_residual_partial (P : Patches d) (hP : P.Admissible) (J : CellIndex P.cells) (constrained : P.LocalNode J → Bool)
    (neumann : P.LocalNode J → ℚ) (diffusion : (Fin d → ℚ) → Matrix (Fin d) (Fin d) ℚ) (ext u : Node P.cells → ℚ)
    (v : P.LocalNode J → ℚ) (h : P.Computes J constrained neumann diffusion ext u v) (node : P.LocalNode J) (hin : P.Inner J node)
    (hfree : constrained node = false) :
    (P.op J diffusion *ᵥ v) node = if ∃ i, (J i).1 = 0 ∨ (J i).1 + 1 = P.cells i then
      -(P.op J diffusion *ᵥ P.prolong J ext) node - neumann node else 0 := by
  obtain ⟨Q, qN, qD, h1, h2, h3, h4, -⟩ := computes_eq P hP J constrained neumann diffusion ext u v h
  have hv := op_local P hP J diffusion v ((∑ k, u (cornerNode J (corner k)) • (P.continued J k + Q k)) + qD - qN) (by
    intro node' hc
    rw [h4 node' (Or.inr hc), Patches.prolong, coarseValue_eq P hP J u _ hc,
      ← sum_corner (fun v => u (cornerNode J v) * shape v (P.toCoarse J (P.nodePos J node')))]
    simp only [Pi.add_apply, Pi.sub_apply, Finset.sum_apply, Pi.smul_apply, smul_eq_mul, mul_add, Finset.sum_add_distrib,
      Patches.continued]
    ring) node hin
  have hz : (P.op J diffusion *ᵥ ∑ k, u (cornerNode J (corner k)) • (P.continued J k + Q k)) node = 0 := by
    rw [Matrix.mulVec_sum, Finset.sum_apply]
    refine Finset.sum_eq_zero fun k _ => ?_
    rw [mulVec_smul, mulVec_add, Pi.smul_apply, Pi.add_apply, (h1 k).equation node hfree]
    simp
  rw [hv, mulVec_sub, mulVec_add, Pi.sub_apply, Pi.add_apply, hz]
  split_ifs with hb
  · obtain ⟨hN, hD⟩ := h3 hb
    rw [hN.equation node hfree, hD.equation node hfree]
    simp
  · obtain ⟨rfl, rfl⟩ := h2 (by
      push Not at hb
      intro i
      have := hb i
      have := (J i).2
      omega)
    simp

/-! ## Nothing to correct -/

/-- the local grid as a grid with one coarse cell -/
def Patches.single (P : Patches d) (J : CellIndex P.cells) : Setup d ℚ where
  lower := (P.grid J).lower
  width := fun i => (P.grid J).upper i - (P.grid J).lower i
  cells := fun _ => 1
  micro := (P.grid J).elements
  order := [fun _ => 0]
  localOrder := P.localOrder _
  localRule := P.localRule
  matrixRule := []
  loadRule := []

/-- its only cell -/
def Patches.only (P : Patches d) (J : CellIndex P.cells) : CellIndex (P.single J).cells := fun _ => (0 : Fin 1)

theorem single_admissible (P : Patches d) (hP : P.Admissible) (J : CellIndex P.cells) : (P.single J).Admissible where
  width_pos := fun i => by
    have h1 := patchWidth_pos P hP J i
    have h2 : (0 : ℚ) < (P.grid J).elements i := by exact_mod_cast (patch_facts P hP J i).2.2.1
    rw [Patches.patchWidth] at h1
    exact (div_pos_iff_of_pos_right h2).mp h1
  cells_pos := fun _ => Nat.one_pos
  micro_pos := fun i => (patch_facts P hP J i).2.2.1
  order_complete := fun K => by
    have : K = P.only J := funext fun i => Subsingleton.elim (α := Fin 1) _ _
    rw [this]
    exact List.mem_singleton.mpr rfl
  localOrder_complete := fun j => hP.order_complete _ j

theorem single_elements (P : Patches d) (J : CellIndex P.cells) (constrained : P.LocalNode J → Bool) (neumann : P.LocalNode J → ℚ) :
    ((P.single J).cell constrained neumann (P.only J)).elements =
      (P.localOrder (P.grid J).elements).map (element (P.grid J).lower (P.patchWidth J) P.localRule) := by
  have : (P.single J).cellLower (P.only J) = (P.grid J).lower := by
    funext i
    simp [Setup.cellLower, Patches.single, Patches.only]
  simp only [Setup.cell, this]
  rfl

theorem patch_free_injective (P : Patches d) (hP : P.Admissible) (J : CellIndex P.cells) (hR : Resolving P.localRule)
    (diffusion : (Fin d → ℚ) → Matrix (Fin d) (Fin d) ℚ) (hpd : Definite diffusion) (constrained : P.LocalNode J → Bool)
    (hc : ∃ node, constrained node = true) : FreeInjective (P.op J diffusion) constrained := by
  have := local_free_injective (P.single J) (single_admissible P hP J) hR diffusion hpd constrained hc 0 (P.only J)
  have e := single_elements P J constrained 0
  rw [Patches.op, ← e]
  exact this

/-- interpolation of a shape function at the corners of a box -/
theorem interpolate_value (w : Fin d → Bool) (a b t : Fin d → ℚ) :
    ∑ v : Fin d → Bool, shape w (fun l => a l + if v l then b l else 0) * shape v t = shape w (fun l => a l + b l * t l) := by
  have h : ∀ v : Fin d → Bool, shape w (fun l => a l + if v l then b l else 0) * shape v t =
      ∏ l, hat (w l) (a l + if v l then b l else 0) * hat (v l) (t l) := by
    intro v
    rw [shape, shape, ← Finset.prod_mul_distrib]
  simp only [h]
  rw [sum_prod_bool (fun l c => hat (w l) (a l + if c then b l else 0) * hat c (t l))]
  apply Finset.prod_congr rfl
  intro l _
  simp only [hat, if_true, Bool.false_eq_true, if_false]
  cases w l <;> simp <;> ring

/-- The continued coarse functions are discretely harmonic in the patch if the diffusion is constant and diagonal. -/
theorem patch_harmonic (P : Patches d) (hP : P.Admissible) (J : CellIndex P.cells) (a : Fin d → ℚ) (k : Fin (2 ^ d))
    (node : P.LocalNode J) (hn : Interior (P.grid J).elements node) :
    (P.op J (fun _ => diagonal a) *ᵥ P.continued J k) node = 0 := by
  have hS := single_admissible P hP J
  have e : P.continued J k = ∑ v : Fin (2 ^ d),
      shape (corner k) (fun l => P.toCoarse J (P.grid J).lower l + if corner v l then
        ((P.grid J).elements l : ℚ) * P.patchWidth J l / P.width l else 0) •
      (fun node : P.LocalNode J => shape (corner v) (fun i => ((node i).1 : ℚ) / ((P.grid J).elements i : ℚ))) := by
    funext node
    rw [Finset.sum_apply]
    simp only [Pi.smul_apply, smul_eq_mul]
    rw [sum_corner (fun v => shape (corner k) (fun l => P.toCoarse J (P.grid J).lower l + if v l then
        ((P.grid J).elements l : ℚ) * P.patchWidth J l / P.width l else 0) *
        shape v (fun i => ((node i).1 : ℚ) / ((P.grid J).elements i : ℚ))), interpolate_value, Patches.continued]
    congr 1
    funext l
    have hw := (hP.width_pos l).ne'
    have he : ((P.grid J).elements l : ℚ) ≠ 0 := by exact_mod_cast (patch_facts P hP J l).2.2.1.ne'
    simp only [Patches.toCoarse, Patches.nodePos]
    field_simp
    ring
  rw [e, mulVec_sum, Finset.sum_apply]
  apply Finset.sum_eq_zero
  intro v _
  have := harmonic (P.single J) hS (hP.order_nodup _) a (fun _ => true) 0 (P.only J) v node hn
  have e := single_elements P J (fun _ => true) 0
  rw [mulVec_smul, Pi.smul_apply, Patches.op, ← e]
  exact (congrArg (_ • ·) this).trans (smul_zero _)

/-- **C73** (partial: constant diagonal diffusion, local problems constrained on the whole boundary of the patch; no Dirichlet data unless
the coarse cell is away from the boundary) With any number of layers, the solution on the coarse cell is the coarse solution. -/
theorem C73_no_correction_partial (P : Patches d) (hP : P.Admissible) (hR : Resolving P.localRule) (hd : 0 < d)
    (a : Fin d → ℚ) (ha : ∀ i, 0 < a i) (J : CellIndex P.cells) (constrained : P.LocalNode J → Bool)
    (hcon : ∀ node, constrained node = false → Interior (P.grid J).elements node) (neumann : P.LocalNode J → ℚ)
    (hneu : ∀ node, Interior (P.grid J).elements node → neumann node = 0) (ext u : Node P.cells → ℚ)
    (hext : (∀ i, 0 < (J i).1 ∧ (J i).1 + 1 < P.cells i) ∨ ext = 0) (v : P.LocalNode J → ℚ)
    (h : P.Computes J constrained neumann (fun _ => diagonal a) ext u v) (node : P.LocalNode J) (hc : P.Covered J node) :
    v node = P.coarseValue u (P.nodePos J node) := by
  obtain ⟨Q, qN, qD, h1, h2, h3, h4, -⟩ := computes_eq P hP J constrained neumann _ ext u v h
  have hinj := patch_free_injective P hP J hR _ (definite_diagonal a ha) constrained (by
    refine ⟨fun i => ⟨0, Nat.succ_pos _⟩, ?_⟩
    by_contra h
    have := hcon _ (by simpa using h) ⟨0, hd⟩
    simp at this)
  have zero : ∀ load x, (∀ node, constrained node = false → load node = 0) →
      IsSolution (P.op J fun _ => diagonal a) load 0 constrained x → x = 0 := by
    intro load x hl hx
    apply Verif.DirichletSolve.unique_of_freeInjective hinj hx
    exact ⟨fun _ _ => rfl, fun i hi => by rw [mulVec_zero, Pi.zero_apply, hl i hi]⟩
  have hQ : ∀ k, Q k = 0 := fun k => zero _ _ (fun node hn => by
    rw [Pi.neg_apply, patch_harmonic P hP J a k node (hcon node hn), neg_zero]) (h1 k)
  have hND : qN = 0 ∧ qD = 0 := by
    by_cases hb : ∃ i, (J i).1 = 0 ∨ (J i).1 + 1 = P.cells i
    · obtain ⟨hN, hD⟩ := h3 hb
      have he : ext = 0 := by
        rcases hext with he | he
        · obtain ⟨i, hi⟩ := hb
          have := he i
          omega
        · exact he
      refine ⟨zero _ _ (fun node hn => hneu node (hcon node hn)) hN, zero _ _ (fun node hn => ?_) hD⟩
      have : P.prolong J ext = 0 := by
        funext node
        simp [Patches.prolong, Patches.coarseValue, he]
      rw [this]
      simp
    · apply h2
      push Not at hb
      intro i
      have := hb i
      have := (J i).2
      omega
  rw [h4 node (Or.inr hc), hND.1, hND.2]
  simp [hQ, Patches.prolong]

/-- **C73** (partial, same conditions) The solutions on two coarse cells have the same value at common fine nodes. -/
theorem C73_agree_partial (P : Patches d) (hP : P.Admissible) (hR : Resolving P.localRule) (hd : 0 < d)
    (a : Fin d → ℚ) (ha : ∀ i, 0 < a i) (J J' : CellIndex P.cells) (constrained : P.LocalNode J → Bool)
    (constrained' : P.LocalNode J' → Bool)
    (hcon : ∀ node, constrained node = false → Interior (P.grid J).elements node)
    (hcon' : ∀ node, constrained' node = false → Interior (P.grid J').elements node)
    (neumann : P.LocalNode J → ℚ) (neumann' : P.LocalNode J' → ℚ)
    (hneu : ∀ node, Interior (P.grid J).elements node → neumann node = 0)
    (hneu' : ∀ node, Interior (P.grid J').elements node → neumann' node = 0) (ext u : Node P.cells → ℚ)
    (hext : ((∀ i, 0 < (J i).1 ∧ (J i).1 + 1 < P.cells i) ∧ ∀ i, 0 < (J' i).1 ∧ (J' i).1 + 1 < P.cells i) ∨ ext = 0)
    (v : P.LocalNode J → ℚ) (v' : P.LocalNode J' → ℚ)
    (h : P.Computes J constrained neumann (fun _ => diagonal a) ext u v)
    (h' : P.Computes J' constrained' neumann' (fun _ => diagonal a) ext u v') (node : P.LocalNode J) (node' : P.LocalNode J')
    (hc : P.Covered J node) (hc' : P.Covered J' node') (hpos : P.nodePos J node = P.nodePos J' node') : v node = v' node' := by
  rw [C73_no_correction_partial P hP hR hd a ha J constrained hcon neumann hneu ext u (hext.imp And.left id) v h node hc,
    C73_no_correction_partial P hP hR hd a ha J' constrained' hcon' neumann' hneu' ext u (hext.imp And.right id) v' h' node' hc', hpos]

/-- **C73** (partial: constrained nodes of both local problems, in particular without oversampling if the local problems are constrained
on all of their boundary) At common nodes constrained in both local problems the two solutions take the value of the coarse solution. -/
theorem C73_constrained_partial (P : Patches d) (hP : P.Admissible)
    (diffusion : (Fin d → ℚ) → Matrix (Fin d) (Fin d) ℚ) (J J' : CellIndex P.cells) (constrained : P.LocalNode J → Bool)
    (constrained' : P.LocalNode J' → Bool) (neumann : P.LocalNode J → ℚ) (neumann' : P.LocalNode J' → ℚ) (ext u : Node P.cells → ℚ)
    (v : P.LocalNode J → ℚ) (v' : P.LocalNode J' → ℚ)
    (h : P.Computes J constrained neumann diffusion ext u v)
    (h' : P.Computes J' constrained' neumann' diffusion ext u v') (node : P.LocalNode J) (node' : P.LocalNode J')
    (hc : P.Covered J node) (hc' : P.Covered J' node') (hd : constrained node = true) (hd' : constrained' node' = true)
    (hpos : P.nodePos J node = P.nodePos J' node') :
    v node = P.coarseValue u (P.nodePos J node) ∧ v' node' = v node := by
  have key : ∀ (J : CellIndex P.cells) (constrained : P.LocalNode J → Bool) (neumann : P.LocalNode J → ℚ) (v : P.LocalNode J → ℚ)
      (_ : P.Computes J constrained neumann diffusion ext u v) (node : P.LocalNode J), P.Covered J node → constrained node = true →
      v node = P.coarseValue u (P.nodePos J node) := by
    intro J constrained neumann v h node hc hd
    obtain ⟨Q, qN, qD, h1, h2, h3, h4, -⟩ := computes_eq P hP J constrained neumann _ ext u v h
    have hND : qN node = 0 ∧ qD node = 0 := by
      by_cases hb : ∃ i, (J i).1 = 0 ∨ (J i).1 + 1 = P.cells i
      · exact ⟨(h3 hb).1.boundary node hd, (h3 hb).2.boundary node hd⟩
      · obtain ⟨rfl, rfl⟩ := h2 (by
          push Not at hb
          intro i
          have := hb i
          have := (J i).2
          omega)
        exact ⟨rfl, rfl⟩
    rw [h4 node (Or.inr hc), hND.1, hND.2, Finset.sum_eq_zero fun k _ => by rw [(h1 k).boundary node hd, Pi.zero_apply, mul_zero]]
    simp [Patches.prolong]
  have e := key J constrained neumann v h node hc hd
  have e' := key J' constrained' neumann' v' h' node' hc' hd'
  exact ⟨e, by rw [e', e, hpos]⟩

/-! ## Existence of runs -/

/-- With one constrained node the local problems are solved by any correct solver that returns, so runs exist. -/
theorem computes_exists (P : Patches d) (hP : P.Admissible) (hR : Resolving P.localRule) (J : CellIndex P.cells)
    (diffusion : (Fin d → ℚ) → Matrix (Fin d) (Fin d) ℚ) (hpd : Definite diffusion) (constrained : P.LocalNode J → Bool)
    (hc : ∃ node, constrained node = true) (neumann : P.LocalNode J → ℚ) (ext u : Node P.cells → ℚ) :
    ∃ v, P.Computes J constrained neumann diffusion ext u v := by
  set M := constrainMat constrained ((P.cell J constrained neumann).matrix 1 diffusion) with hM
  have hinj := patch_free_injective P hP J hR diffusion hpd constrained hc
  have hmat : (P.cell J constrained neumann).matrix 1 diffusion = P.op J diffusion := by
    ext a b
    rw [matrix_apply]
    simp [Patches.cell]
  have hdet : IsUnit M.det := by
    rw [isUnit_iff_ne_zero]
    intro h0
    obtain ⟨v, hv, hv0⟩ := exists_mulVec_eq_zero_iff.mpr h0
    apply hv
    apply hinj v
    · intro i hi
      have := congrFun hv0 i
      rw [hM, Verif.DirichletSolve.constrainMat_mulVec] at this
      simpa [hi] using this
    · intro i hi
      have := congrFun hv0 i
      rw [hM, Verif.DirichletSolve.constrainMat_mulVec, hmat] at this
      simpa [hi] using this
  let s : Solvers (P.LocalNode J) ℚ := ⟨fun _ b => .ok (M⁻¹ *ᵥ b), fun b _ => .ok (M⁻¹ *ᵥ b)⟩
  have hs : s.Correct M := by
    constructor
    · intro x b x' h
      injection h with h
      rw [← h, mulVec_mulVec, mul_nonsing_inv _ hdet, one_mulVec]
    · intro b x x' h
      injection h with h
      rw [← h, mulVec_mulVec, mul_nonsing_inv _ hdet, one_mulVec]
  have : ∃ xs, P.solve J constrained neumann (fun _ => true) s true 1 (fun x w => diffusion x *ᵥ w) ext = .ok xs := by
    unfold Patches.solve solveCell
    simp only
    rw [assembleRhs_eq]
    exact solveLoop_total s (fun x b => ⟨_, rfl⟩) _ _ _ _
  obtain ⟨xs, hxs⟩ := this
  obtain ⟨Q, qN, qD, rfl, -, -, -⟩ := correctors_of (P.cell J constrained neumann) (patch_nested P hP J constrained neumann) 1
    one_ne_zero diffusion _ (fun _ _ => rfl) (P.prolong J ext) (fun _ => true) s hs xs hxs
  obtain ⟨g1, g2, -⟩ := Manager.solveAll_spec (Manager.wf_init (V := P.LocalNode J → ℚ)) [(0, Manager.corrList Q qN qD)] (by simp)
  obtain ⟨w', e1, -⟩ := Manager.reconstruct_spec (Manager.solveAll Manager.World.init [(0, Manager.corrList Q qN qD)]) g1 0 P.layers
    (P.visits J) Q qN qD (fun k => u (cornerNode J (corner k)))
    (by rw [g2 _ (List.mem_singleton.mpr rfl)]; simp [Manager.World.stored, Manager.World.init])
  exact ⟨_, 1, _, _, s, _, [(0, Manager.corrList Q qN qD)], 0, one_ne_zero, fun _ _ => rfl, hs, hxs, by simp, List.mem_singleton.mpr rfl,
    by rw [Patches.solution, e1]; rfl⟩

/-! ## Neighbouring cells disagree -/

/-- cells of a two-dimensional structured grid -/
def cellsOf (e : Fin 2 → ℕ) : List (CellIndex e) :=
  (List.finRange (e 0)).flatMap fun a => (List.finRange (e 1)).map fun b => Fin.cons a (Fin.cons b finZeroElim)

theorem cellsOf_complete (e : Fin 2 → ℕ) (j : CellIndex e) : j ∈ cellsOf e := by
  simp only [cellsOf, List.mem_flatMap, List.mem_map, List.mem_finRange, true_and]
  refine ⟨j 0, j 1, ?_⟩
  funext i
  match i with
  | 0 => rfl
  | 1 => rfl

theorem cellsOf_nodup (e : Fin 2 → ℕ) : (cellsOf e).Nodup := by
  rw [cellsOf, List.nodup_flatMap]
  constructor
  · intro a _
    apply (List.nodup_finRange _).map
    intro b b' h
    exact congrFun h 1
  · refine (List.nodup_finRange _).imp ?_
    intro a a' ha
    rw [Function.onFun, List.disjoint_left]
    intro j h h'
    simp only [List.mem_map] at h h'
    obtain ⟨b, -, rfl⟩ := h
    obtain ⟨b', -, h⟩ := h'
    exact ha (congrFun h 0).symm

/-- `N` times `N` coarse cells of size one, one local cell per coarse cell, one layer. -/
def squares (N : ℕ) : Patches 2 where
  lower := 0
  width := fun _ => 1
  cells := fun _ => N
  micro := fun _ => 1
  layers := 1
  localOrder := cellsOf
  localRule := (List.finRange 4).map fun k => ⟨fun l => if corner (d := 2) k l then 3 / 4 else 1 / 4, 1 / 4⟩
  tol := 0

theorem squares_admissible (N : ℕ) (hN : 0 < N) : (squares N).Admissible where
  width_pos := fun _ => one_pos
  cells_pos := fun _ => hN
  micro_pos := fun _ => one_pos
  aligned := fun _ => Or.inr le_rfl
  order_complete := cellsOf_complete
  order_nodup := cellsOf_nodup
  tol_nonneg := le_rfl

theorem squares_resolving (N : ℕ) : Resolving (squares N).localRule where
  weight_pos := by
    intro q hq
    simp only [squares, List.mem_map] at hq
    obtain ⟨s, -, rfl⟩ := hq
    norm_num
  points := by
    refine ⟨fun _ => 3 / 4, fun _ => 1 / 4, fun _ => by norm_num, fun s => ?_⟩
    have : ∃ k : Fin 4, corner (d := 2) k = s := by
      revert s
      decide
    obtain ⟨k, rfl⟩ := this
    exact ⟨_, List.mem_map.mpr ⟨k, List.mem_finRange k, rfl⟩, rfl⟩

/-- one unknown -/
theorem one_unknown {ι : Type} [Fintype ι] [DecidableEq ι] {A : Matrix ι ι ℚ} {load x : ι → ℚ} {constrained : ι → Bool} (c : ι)
    (hc : ∀ b, constrained b = !decide (b = c)) (h : IsSolution A load 0 constrained x) : A c c * x c = load c := by
  rw [← h.equation c (by simp [hc]), mulVec, dotProduct, Finset.sum_eq_single c]
  · intro b _ hb
    rw [h.boundary b (by simp [hc, hb]), Pi.zero_apply, mul_zero]
  · simp

/-- the diffusion coefficient `1 + |x|` -/
def slope (x : Fin 2 → ℚ) : Matrix (Fin 2) (Fin 2) ℚ := diagonal fun _ => 1 + |x 0|

theorem slope_definite : Definite slope := fun x v hv =>
  definite_diagonal (fun _ => 1 + |x 0|) (fun _ => by positivity) x v hv

abbrev left2 : CellIndex (squares 2).cells := fun _ => (0 : Fin 2)
abbrev right2 : CellIndex (squares 2).cells := fun i => if i = 0 then (1 : Fin 2) else (0 : Fin 2)

/-- node `(1, 1)` of a local grid -/
def mid (N : ℕ) (hN : 0 < N) (J : CellIndex (squares N).cells) : (squares N).LocalNode J :=
  fun i => ⟨1, Nat.succ_lt_succ (patch_facts (squares N) (squares_admissible N hN) J i).2.2.1⟩

/-- constrained on the boundary of the local grid -/
def onPatchBoundary (P : Patches d) (J : CellIndex P.cells) (node : P.LocalNode J) : Bool :=
  decide (∃ i, (node i).1 = 0 ∨ (node i).1 = (P.grid J).elements i)

theorem interior_of_free (P : Patches d) (J : CellIndex P.cells) (node : P.LocalNode J) (h : onPatchBoundary P J node = false) :
    Interior (P.grid J).elements node := by
  simp only [onPatchBoundary, decide_eq_false_iff_not, not_exists, not_or] at h
  intro i
  have := h i
  have := (node i).2
  omega

/-- the value of a run of a cell with one unknown -/
theorem one_unknown_value (P : Patches d) (hP : P.Admissible) (J : CellIndex P.cells) (c : P.LocalNode J) (hcov : P.Covered J c)
    (hc : ∀ b, onPatchBoundary P J b = !decide (b = c)) (hb : ∃ i, (J i).1 = 0 ∨ (J i).1 + 1 = P.cells i)
    (neumann : P.LocalNode J → ℚ) (hneu : neumann c = 0) (diffusion : (Fin d → ℚ) → Matrix (Fin d) (Fin d) ℚ) (ext u : Node P.cells → ℚ)
    (v : P.LocalNode J → ℚ) (h : P.Computes J (onPatchBoundary P J) neumann diffusion ext u v) (p : ℚ) (hp : P.op J diffusion c c = p)
    (hp0 : p ≠ 0) : v c = P.coarseValue u (P.nodePos J c) -
      ((∑ k, u (cornerNode J (corner k)) * (P.op J diffusion *ᵥ P.continued J k) c) + (P.op J diffusion *ᵥ P.prolong J ext) c) / p := by
  obtain ⟨Q, qN, qD, h1, -, h3, h4, -⟩ := computes_eq P hP J _ neumann diffusion ext u v h
  obtain ⟨hN, hD⟩ := h3 hb
  have eQ : ∀ k, Q k c = -(P.op J diffusion *ᵥ P.continued J k) c / p := fun k => by
    have := one_unknown c hc (h1 k)
    rw [hp, Pi.neg_apply] at this
    rw [eq_div_iff hp0, mul_comm, this]
  have eN : qN c = 0 := by
    have := one_unknown c hc hN
    rw [hp, hneu] at this
    exact (mul_eq_zero.mp this).resolve_left hp0
  have eD : qD c = -(P.op J diffusion *ᵥ P.prolong J ext) c / p := by
    have := one_unknown c hc hD
    rw [hp, Pi.neg_apply] at this
    rw [eq_div_iff hp0, mul_comm, this]
  rw [h4 c (Or.inr hcov), eN, eD]
  simp only [eQ, Patches.prolong]
  have : ∑ k, u (cornerNode J (corner k)) * (-(P.op J diffusion *ᵥ P.continued J k) c / p) =
      -(∑ k, u (cornerNode J (corner k)) * (P.op J diffusion *ᵥ P.continued J k) c) / p := by
    rw [← Finset.sum_neg_distrib, Finset.sum_div]
    apply Finset.sum_congr rfl
    intro k _
    ring
  rw [this]
  ring

/-- the node in the middle of four squares -/
abbrev centre : Node (squares 2).cells := fun _ => (1 : Fin 3)

theorem value_centre (u : Node (squares 2).cells → ℚ) (x : Fin 2 → ℚ) (hx : x = fun _ => 1) :
    (squares 2).coarseValue u x = u centre := by
  subst hx
  rw [Patches.coarseValue, Finset.sum_eq_single centre]
  · rw [show (∏ i : Fin 2, max 0 (1 - |((fun _ => 1 : Fin 2 → ℚ) i - (squares 2).lower i) / (squares 2).width i - ((centre i).1 : ℚ)|))
      = 1 by decide +kernel, mul_one]
  · have : ∀ g : Node (squares 2).cells, g ≠ centre →
      (∏ i : Fin 2, max 0 (1 - |((fun _ => 1 : Fin 2 → ℚ) i - (squares 2).lower i) / (squares 2).width i - ((g i).1 : ℚ)|)) = 0 := by
      decide +kernel
    intro g _ hg
    rw [this g hg, mul_zero]
  · simp

/-- **C73** (violated, homogeneous Dirichlet data) Four coarse cells, diffusion `1 + |x|`: at the node common to all cells the solution
of the lower left cell has 6/5 of the value of the coarse solution, that of the lower right cell 4/5, whatever the
coarse solution is. -/
theorem C73_violated_varying (u : Node (squares 2).cells → ℚ) (hu : ∀ g, (∃ i, (g i).1 = 0 ∨ (g i).1 = 2) → u g = 0)
    (v : (squares 2).LocalNode left2 → ℚ) (v' : (squares 2).LocalNode right2 → ℚ)
    (h : (squares 2).Computes left2 (onPatchBoundary _ _) 0 slope 0 u v)
    (h' : (squares 2).Computes right2 (onPatchBoundary _ _) 0 slope 0 u v') :
    (squares 2).nodePos left2 (mid 2 two_pos _) = (squares 2).nodePos right2 (mid 2 two_pos _) ∧
    v (mid 2 two_pos _) = 6 / 5 * u centre ∧ v' (mid 2 two_pos _) = 4 / 5 * u centre := by
  have hP := squares_admissible 2 two_pos
  have ezero : ∀ J, (squares 2).prolong J 0 = 0 := fun J => by
    funext node
    simp [Patches.prolong, Patches.coarseValue]
  refine ⟨by decide +kernel, ?_, ?_⟩
  · rw [one_unknown_value _ hP left2 _ ((covered_iff _ hP _ _).mpr (by decide +kernel)) (by decide +kernel) (by decide +kernel) 0 rfl
      slope 0 u v h 5 (by decide +kernel) (by norm_num), value_centre u _ (by decide +kernel), ezero,
      Finset.sum_eq_single (3 : Fin (2 ^ 2)), show ((squares 2).op left2 slope *ᵥ (squares 2).continued left2 3) (mid 2 two_pos _) = -1 by
        decide +kernel, show cornerNode left2 (corner 3) = centre by decide +kernel]
    · simp only [mulVec_zero, Pi.zero_apply]
      ring
    · intro k _ hk
      rw [hu _ (by revert hk; revert k; decide +kernel), zero_mul]
    · simp
  · rw [one_unknown_value _ hP right2 _ ((covered_iff _ hP _ _).mpr (by decide +kernel)) (by decide +kernel) (by decide +kernel) 0 rfl
      slope 0 u v' h' 5 (by decide +kernel) (by norm_num), value_centre u _ (by decide +kernel), ezero,
      Finset.sum_eq_single (2 : Fin (2 ^ 2)), show ((squares 2).op right2 slope *ᵥ (squares 2).continued right2 2) (mid 2 two_pos _) = 1 by
        decide +kernel, show cornerNode right2 (corner 2) = centre by decide +kernel]
    · simp only [mulVec_zero, Pi.zero_apply]
      ring
    · intro k _ hk
      rw [hu _ (by revert hk; revert k; decide +kernel), zero_mul]
    · simp

abbrev first3 : CellIndex (squares 3).cells := fun _ => (0 : Fin 3)
abbrev inner3 : CellIndex (squares 3).cells := fun _ => (1 : Fin 3)

/-- Dirichlet extension of the boundary data 1 in the coarse space -/
def boundaryOne (g : Node (squares 3).cells) : ℚ := if ∃ i, (g i).1 = 0 ∨ (g i).1 = 3 then 1 else 0

/-- **C73** (violated, constant coefficient) Nine coarse cells, Laplace equation, Dirichlet data 1: at the lower left inner node the
solution of the coarse cell in the middle takes the value of the coarse solution, that of the lower left cell is larger by 13/20,
whatever the coarse solution is. -/
theorem C73_violated_dirichlet (u : Node (squares 3).cells → ℚ)
    (v : (squares 3).LocalNode first3 → ℚ) (v' : (squares 3).LocalNode inner3 → ℚ)
    (h : (squares 3).Computes first3 (onPatchBoundary _ _) 0 (fun _ => diagonal fun _ => 1) boundaryOne u v)
    (h' : (squares 3).Computes inner3 (onPatchBoundary _ _) 0 (fun _ => diagonal fun _ => 1) boundaryOne u v') :
    (squares 3).nodePos first3 (mid 3 three_pos _) = (squares 3).nodePos inner3 (mid 3 three_pos _) ∧
    v' (mid 3 three_pos _) = (squares 3).coarseValue u ((squares 3).nodePos inner3 (mid 3 three_pos _)) ∧
    v (mid 3 three_pos _) = v' (mid 3 three_pos _) + 13 / 20 := by
  have hP := squares_admissible 3 three_pos
  have hpos : (squares 3).nodePos first3 (mid 3 three_pos _) = (squares 3).nodePos inner3 (mid 3 three_pos _) := by decide +kernel
  have e' := C73_no_correction_partial (squares 3) hP (squares_resolving 3) two_pos (fun _ => 1) (fun _ => one_pos) inner3 _
    (fun node hn => interior_of_free _ _ node hn) 0 (fun _ _ => rfl) boundaryOne u (Or.inl (by decide +kernel)) v' h' (mid 3 three_pos _)
    ((covered_iff _ hP _ _).mpr (by decide +kernel))
  refine ⟨hpos, e', ?_⟩
  rw [e', ← hpos, one_unknown_value _ hP first3 _ ((covered_iff _ hP _ _).mpr (by decide +kernel)) (by decide +kernel) (by decide +kernel) 0 rfl
      _ boundaryOne u v h (5 / 2) (by decide +kernel) (by norm_num), Finset.sum_eq_zero,
      show ((squares 3).op first3 (fun _ => diagonal fun _ => 1) *ᵥ (squares 3).prolong first3 boundaryOne) (mid 3 three_pos _) = -13 / 8 by
        decide +kernel]
  · norm_num
  · intro k _
    rw [patch_harmonic _ hP _ _ _ _ (interior_of_free _ _ _ (by decide +kernel)), mul_zero]

/-- Instances: runs exist on every cell, for every coarse solution. -/
example (N : ℕ) (hN : 0 < N) (J : CellIndex (squares N).cells) (ext u : Node (squares N).cells → ℚ) :
    ∃ v, (squares N).Computes J (onPatchBoundary _ _) 0 (fun _ => diagonal fun _ => 1) ext u v :=
  computes_exists _ (squares_admissible N hN) (squares_resolving N) J _ (definite_diagonal _ fun _ => one_pos) _
    ⟨fun i => ⟨0, Nat.succ_pos _⟩, by simp [onPatchBoundary]⟩ 0 ext u

example (J : CellIndex (squares 2).cells) : ∃ u v, (squares 2).Computes J (onPatchBoundary _ _) 0 slope 0 u v ∧
    (∀ g, (∃ i, (g i).1 = 0 ∨ (g i).1 = 2) → u g = 0) ∧ u centre ≠ 0 := by
  obtain ⟨v, hv⟩ := computes_exists _ (squares_admissible 2 two_pos) (squares_resolving 2) J slope slope_definite (onPatchBoundary _ _)
    ⟨fun i => ⟨0, Nat.succ_pos _⟩, by simp [onPatchBoundary]⟩ 0 0 (fun g => if g = centre then 1 else 0)
  exact ⟨_, v, hv, by decide +kernel, by simp⟩

end Verif.Oversampling
