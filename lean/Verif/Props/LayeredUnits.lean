import Verif.Props.OversampledRun
import Verif.Props.Units

/-!
# C88: origin and unit of length in runs with oversampling
-/

namespace Verif.Oversampling
open Matrix Verif.CoarseAssembly Verif.LocalAssembly Verif.LocalSolve Verif.LocalGrid Verif.Q1Grid Verif.DirichletSolve Verif.Pipeline
open Verif.Spec.Galerkin Verif.Spec.Dirichlet Verif.Spec.Units

variable {d : ℕ}

/-- The grids in the new coordinates. -/
abbrev Layered.moved (O : Layered d) (a c : Fin d → ℚ) : Layered d := { O with base := movedSetup O.base a c }

/-- The same problem in new coordinates; diffusion, source and Neumann data are multiplied by `r`.  Nodes and cells of the local grids
correspond if they have the same numbers. -/
structure Layered.SameProblem (O : Layered d) (a c : Fin d → ℚ) (r : ℚ) (B : O.Boundary) (B' : (O.moved a c).Boundary) (P P' : Data d ℚ) :
    Prop where
  diffusion : ∀ x, P'.diffusion (move a c x) = r • moveTensor c (P.diffusion x)
  source : ∀ x, P'.source (move a c x) = r * P.source x
  dirichlet : ∀ x, P'.dirichlet (move a c x) = P.dirichlet x
  isDirichlet : B'.isDirichlet = B.isDirichlet
  constrained : ∀ J node node', (∀ i, (node' i).1 = (node i).1) → B'.constrained J node' = B.constrained J node
  faces : List.Forall₂ (SamePoint (r * ∏ i, c i) O.base.lower O.base.width (O.moved a c).base.lower (O.moved a c).base.width P.neumann
    P'.neumann) B.faces B'.faces
  localFaces : ∀ J, List.Forall₂ (fun p p' => (∀ i, (p'.cell i).1 = (p.cell i).1) ∧ p'.pos = p.pos ∧
    p'.weight * P'.neumann (globalPos ((O.moved a c).patches.grid J).lower ((O.moved a c).patches.patchWidth J) p'.cell p'.pos) =
      (r * ∏ i, c i) * (p.weight * P.neumann (globalPos (O.patches.grid J).lower (O.patches.patchWidth J) p.cell p.pos)))
    (B.localFaces J) (B'.localFaces J)

section geometry
variable (O : Layered d) (hO : O.Admissible) (a c : Fin d → ℚ) (hc : ∀ i, 0 < c i) (J : O.Coarse)
include hO hc

theorem moved_admissible : (O.moved a c).Admissible where
  base := ⟨fun i => mul_pos (hc i) (hO.base.width_pos i), hO.base.cells_pos, hO.base.micro_pos, hO.base.order_complete,
    hO.base.localOrder_complete⟩
  order_nodup := hO.order_nodup
  fine_nodup := hO.fine_nodup
  patches := ⟨fun i => mul_pos (hc i) (hO.base.width_pos i), hO.base.cells_pos, hO.base.micro_pos, hO.patches.aligned,
    hO.patches.order_complete, hO.patches.order_nodup, hO.patches.tol_nonneg⟩
  tol_small := hO.tol_small

theorem moved_elements (i : Fin d) : ((O.moved a c).patches.grid J).elements i = (O.patches.grid J).elements i := by
  have key : ∀ O : Layered d, O.Admissible → ∀ J : O.Coarse, (O.patches.grid J).elements i =
      O.base.micro i + (leftLayers (J i).1 (O.base.micro i) O.layers +
        if ((J i).1 + 1) * O.base.micro i + O.layers ≤ O.base.cells i * O.base.micro i then O.layers else 0) := by
    intro O hO J
    have hN : (0 : ℚ) < O.base.cells i := by exact_mod_cast hO.base.cells_pos i
    have hab : O.base.lower i < O.base.lower i + (O.base.cells i : ℚ) * O.base.width i := by
      have := mul_pos hN (hO.base.width_pos i)
      linarith
    exact elements_coarseCell hab (hO.base.cells_pos i) (hO.base.micro_pos i)
  rw [key _ (moved_admissible O hO a c hc) J, key O hO J]

/-- the node with the same numbers -/
def Layered.back (node : (O.moved a c).Local J) : O.Local J := fun i => Fin.cast (by rw [moved_elements O hO a c hc J i]) (node i)

/-- the cell with the same numbers -/
def Layered.backCell (j : CellIndex ((O.moved a c).patches.grid J).elements) : CellIndex (O.patches.grid J).elements :=
  fun i => Fin.cast (moved_elements O hO a c hc J i) (j i)

theorem back_injective : Function.Injective (O.back hO a c hc J) := by
  intro x y h
  funext i
  have := congrArg Fin.val (congrFun h i)
  exact Fin.ext (by simpa [Layered.back] using this)

theorem back_corner (j : CellIndex ((O.moved a c).patches.grid J).elements) (w : Fin d → Bool) :
    O.back hO a c hc J (cornerNode j w) = cornerNode (O.backCell hO a c hc J j) w := by
  funext i
  apply Fin.ext
  simp only [Layered.back, Layered.backCell, cornerNode]
  split_ifs <;> simp

theorem moved_cells : ((O.localOrder ((O.moved a c).patches.grid J).elements).map (O.backCell hO a c hc J)).Perm
    (O.localOrder (O.patches.grid J).elements) := by
  have hinj : Function.Injective (O.backCell hO a c hc J) := by
    intro x y h
    funext i
    have := congrArg Fin.val (congrFun h i)
    exact Fin.ext (by simpa [Layered.backCell] using this)
  rw [List.perm_ext_iff_of_nodup ((hO.patches.order_nodup _).map hinj) (hO.patches.order_nodup _)]
  refine fun j => ⟨fun _ => hO.patches.order_complete _ _, fun _ => List.mem_map.mpr ⟨fun i => Fin.cast (moved_elements O hO a c hc J i).symm (j i),
    hO.patches.order_complete _ _, ?_⟩⟩
  funext i
  exact Fin.ext (by simp [Layered.backCell])

theorem moved_width (i : Fin d) : (O.moved a c).patches.patchWidth J i = c i * O.patches.patchWidth J i := by
  rw [(patch_facts _ (moved_admissible O hO a c hc).patches J i).2.2.2, (patch_facts _ hO.patches J i).2.2.2]
  exact mul_div_assoc _ _ _

theorem moved_lower : ((O.moved a c).patches.grid J).lower = move a c (O.patches.grid J).lower := by
  funext i
  have e : (O.moved a c).patches.left J i = O.patches.left J i := rfl
  rw [(patch_facts _ (moved_admissible O hO a c hc).patches J i).1, move, (patch_facts _ hO.patches J i).1, e]
  show (move a c O.base.lower i + ((J i).1 : ℚ) * (c i * O.base.width i)) - _ * (c i * O.base.width i / (O.base.micro i : ℚ)) =
    a i + c i * ((O.base.lower i + ((J i).1 : ℚ) * O.base.width i) - _ * (O.base.width i / (O.base.micro i : ℚ)))
  simp only [move]
  ring

theorem moved_pos (j : CellIndex ((O.moved a c).patches.grid J).elements) (x : Fin d → ℚ) :
    globalPos ((O.moved a c).patches.grid J).lower ((O.moved a c).patches.patchWidth J) j x =
      move a c (globalPos (O.patches.grid J).lower (O.patches.patchWidth J) (O.backCell hO a c hc J j) x) := by
  funext i
  simp only [globalPos, moved_lower O hO a c hc J, moved_width O hO a c hc J, move, Layered.backCell, Fin.val_cast]
  ring

theorem moved_nodePos (node : (O.moved a c).Local J) :
    (O.moved a c).patches.nodePos J node = move a c (O.patches.nodePos J (O.back hO a c hc J node)) := by
  funext i
  simp only [Patches.nodePos, moved_lower O hO a c hc J, moved_width O hO a c hc J, move, Layered.back, Fin.val_cast]
  ring

omit hO in
theorem moved_toCoarse (x : Fin d → ℚ) : (O.moved a c).patches.toCoarse J (move a c x) = O.patches.toCoarse J x := by
  funext i
  have := (hc i).ne'
  show (a i + c i * x i - (move a c O.base.lower i + ((J i).1 : ℚ) * (c i * O.base.width i))) / (c i * O.base.width i) =
    (x i - (O.base.lower i + ((J i).1 : ℚ) * O.base.width i)) / O.base.width i
  rw [← mul_div_mul_left (x i - (O.base.lower i + ((J i).1 : ℚ) * O.base.width i)) (O.base.width i) this]
  congr 1
  simp only [move]
  ring

theorem moved_continued (k : Fin (2 ^ d)) : (O.moved a c).patches.continued J k = O.patches.continued J k ∘ O.back hO a c hc J := by
  funext node
  simp only [Patches.continued, Function.comp_apply, moved_nodePos O hO a c hc J, moved_toCoarse O a c hc J]

theorem moved_prolong (u : Node O.base.cells → ℚ) :
    (O.moved a c).patches.prolong J u = O.patches.prolong J u ∘ O.back hO a c hc J := by
  funext node
  simp only [Patches.prolong, Function.comp_apply, moved_nodePos O hO a c hc J]
  show ∑ g : Node O.base.cells, u g * ∏ i, max 0 (1 - |(move a c _ i - move a c O.base.lower i) / (c i * O.base.width i) - ((g i).1 : ℚ)|) =
    ∑ g : Node O.base.cells, u g * ∏ i, max 0 (1 - |(_ - O.base.lower i) / O.base.width i - ((g i).1 : ℚ)|)
  refine Finset.sum_congr rfl fun g _ => congrArg _ (Finset.prod_congr rfl fun i _ => ?_)
  have := (hc i).ne'
  rw [← mul_div_mul_left _ (O.base.width i) this]
  congr 5
  simp only [move]
  ring

theorem moved_covered (node : (O.moved a c).Local J) :
    (O.moved a c).patches.Covered J node ↔ O.patches.Covered J (O.back hO a c hc J node) := by
  rw [covered_iff _ (moved_admissible O hO a c hc).patches, covered_iff _ hO.patches]
  rfl

theorem moved_restrict (v : O.Local J → ℚ) :
    (O.moved a c).restrict (moved_admissible O hO a c hc) J (v ∘ O.back hO a c hc J) = O.restrict hO J v := by
  funext node
  simp only [Layered.restrict, Function.comp_apply]
  congr 1

end geometry

section problem
variable {O : Layered d} (hO : O.Admissible) {a c : Fin d → ℚ} (hc : ∀ i, 0 < c i) {r : ℚ} {B : O.Boundary} {B' : (O.moved a c).Boundary}
  {P P' : Data d ℚ} (h : O.SameProblem a c r B B' P P')
include h

theorem moved_op (J : O.Coarse) (v : O.Local J → ℚ) :
    (O.moved a c).patches.op J P'.diffusion *ᵥ (v ∘ O.back hO a c hc J) =
      (r * ∏ i, c i) • ((O.patches.op J P.diffusion *ᵥ v) ∘ O.back hO a c hc J) := by
  have hc0 : ∀ i, c i ≠ 0 := fun i => (hc i).ne'
  funext b
  unfold Patches.op
  rw [Pi.smul_apply, Function.comp_apply, smul_eq_mul, stiff_mulVec, stiff_mulVec, List.map_map, List.map_map,
    ← ((moved_cells O hO a c hc J).map _).sum_eq, List.map_map, ← List.sum_map_mul_left]
  refine congrArg List.sum (List.map_congr_left fun j _ => ?_)
  simp only [Function.comp_apply, Finset.mul_sum]
  refine Finset.sum_congr rfl fun k _ => ?_
  rw [mul_ite, mul_zero]
  refine if_congr ?_ ?_ rfl
  · show b = cornerNode j (corner k) ↔ O.back hO a c hc J b = cornerNode (O.backCell hO a c hc J j) (corner k)
    rw [← back_corner, (back_injective O hO a c hc J).eq_iff]
  · simp only [element, scaleRule, List.map_map]
    rw [← List.sum_map_mul_left]
    refine congrArg List.sum (List.map_congr_left fun q _ => ?_)
    simp only [Function.comp_apply]
    have hp := moved_pos O hO a c hc J j q.pos
    unfold globalPos at hp
    rw [hp, h.diffusion]
    have hg : (element ((O.moved a c).patches.grid J).lower ((O.moved a c).patches.patchWidth J) O.base.localRule j).gradOf
        (v ∘ O.back hO a c hc J) q.pos = fun i => (element (O.patches.grid J).lower (O.patches.patchWidth J) O.base.localRule
          (O.backCell hO a c hc J j)).gradOf v q.pos i / c i := by
      funext i
      rw [element_gradOf, element_gradOf, moved_width O hO a c hc J, mul_comm (c i), div_div]
      simp only [Function.comp_apply, back_corner]
    have hw : ∏ i, (O.moved a c).patches.patchWidth J i = (∏ i, c i) * ∏ i, O.patches.patchWidth J i := by
      rw [← Finset.prod_mul_distrib]
      exact Finset.prod_congr rfl fun i _ => moved_width O hO a c hc J i
    have hs : (fun i => shapeGrad (corner k) q.pos i / (O.moved a c).patches.patchWidth J i) =
        fun i => (fun i => shapeGrad (corner k) q.pos i / O.patches.patchWidth J i) i / c i := by
      funext i
      rw [moved_width O hO a c hc J, mul_comm (c i), div_div]
    have hg' := hg
    simp only [element, scaleRule] at hg'
    rw [hg', hs, hw, smul_mulVec, smul_dotProduct, move_form c hc0, smul_eq_mul]
    ring

omit hO hc in
theorem moved_aux : Pipeline.SameProblem O.base a c r ⟨B.isDirichlet, fun _ => false, B.faces, fun _ => []⟩
    ⟨B'.isDirichlet, fun _ => false, B'.faces, fun _ => []⟩ P P' :=
  ⟨h.diffusion, h.source, h.dirichlet, h.isDirichlet, rfl, h.faces, fun _ => .nil⟩

theorem moved_extension : (O.moved a c).extension B' P' = O.extension B P := by
  funext g
  have := nodePos_move O.base a c g
  simp only [Layered.extension, dirichletProject, h.isDirichlet, this, h.dirichlet]

theorem moved_localNeumann (J : O.Coarse) :
    (O.moved a c).localNeumann B' P'.neumann J = (r * ∏ i, c i) • (O.localNeumann B P.neumann J ∘ O.back hO a c hc J) := by
  funext node
  rw [Pi.smul_apply, smul_eq_mul, Function.comp_apply, overlapNeumann_apply, overlapNeumann_apply, ← List.sum_map_mul_left]
  have := h.localFaces J
  generalize B.localFaces J = l, B'.localFaces J = l' at this ⊢
  induction this with
  | nil => rfl
  | @cons p p' _ _ hp _ ih =>
    simp only [List.map_cons, List.sum_cons, ih]
    congr 1
    rw [Finset.mul_sum]
    refine Finset.sum_congr rfl fun k _ => ?_
    have hcell : p.cell = O.backCell hO a c hc J p'.cell := funext fun i => Fin.ext (hp.1 i).symm
    rw [hp.2.2, hp.2.1, mul_ite, mul_zero]
    refine if_congr ?_ (by ring) rfl
    rw [hcell, ← back_corner, (back_injective O hO a c hc J).eq_iff]

theorem moved_computed (hx : ∀ x v, P.flux x v = P.diffusion x *ᵥ v) (hx' : ∀ x v, P'.flux x v = P'.diffusion x *ᵥ v)
    {Q : (J : O.Coarse) → Fin (2 ^ d) → O.Local J → ℚ} {qN qD : (J : O.Coarse) → O.Local J → ℚ} {u : Node O.base.cells → ℚ}
    {fine : (J : O.Coarse) → O.Local J → ℚ} (hcomp : O.Computed hO B P Q qN qD u fine) :
    (O.moved a c).Computed (moved_admissible O hO a c hc) B' P' (fun J k => Q J k ∘ O.back hO a c hc J)
      (fun J => qN J ∘ O.back hO a c hc J) (fun J => qD J ∘ O.back hO a c hc J) u (fun J => fine J ∘ O.back hO a c hc J) := by
  have hc0 : ∀ i, c i ≠ 0 := fun i => (hc i).ne'
  have hcon : ∀ J node, B'.constrained J node = B.constrained J (O.back hO a c hc J node) :=
    fun J node => h.constrained J _ node fun i => rfl
  have hsol : ∀ (J : O.Coarse) (b v : O.Local J → ℚ), IsSolution (O.patches.op J P.diffusion) b 0 (B.constrained J) v →
      IsSolution ((O.moved a c).patches.op J P'.diffusion) ((r * ∏ i, c i) • (b ∘ O.back hO a c hc J)) 0 (B'.constrained J)
        (v ∘ O.back hO a c hc J) := by
    intro J b v hs
    refine ⟨fun node hn => hs.boundary _ (by rw [← hcon]; exact hn), fun node hn => ?_⟩
    rw [moved_op hO hc h, Pi.smul_apply, Pi.smul_apply, Function.comp_apply, Function.comp_apply,
      hs.equation _ (by rw [← hcon]; exact hn)]
  have hop : ∀ (J : O.Coarse) (v : O.Local J → ℚ), -((O.moved a c).patches.op J P'.diffusion *ᵥ (v ∘ O.back hO a c hc J)) =
      (r * ∏ i, c i) • ((-(O.patches.op J P.diffusion *ᵥ v)) ∘ O.back hO a c hc J) := by
    intro J v
    rw [moved_op hO hc h, ← smul_neg]
    rfl
  refine ⟨fun J => ⟨fun k => ?_, fun hb => ?_, fun hb => ?_, fun hb => ?_⟩, ?_, fun J node hn => ?_, fun J node hl hn => ?_⟩
  · rw [moved_continued O hO a c hc, hop]
    exact hsol J _ _ ((hcomp.corrector J).inner k)
  · simp only [((hcomp.corrector J).inside hb).1, ((hcomp.corrector J).inside hb).2]
    exact ⟨rfl, rfl⟩
  · rw [moved_localNeumann hO hc h]
    exact hsol J _ _ ((hcomp.corrector J).neumann hb)
  · rw [moved_extension h, moved_prolong O hO a c hc, hop]
    exact hsol J _ _ ((hcomp.corrector J).dirichlet hb)
  · simp only [moved_restrict O hO a c hc]
    have := isSolution_scale (r * ∏ i, c i) hcomp.coarse
    rw [coarseMatrix_points O.base P.diffusion (fun J k => O.restrict hO J (Q J k)) (fun J => O.restrict hO J (qN J))
      (fun J => O.restrict hO J (qD J)), coarseLoad_points O.base _ _ hx _ (fun J k => O.restrict hO J (Q J k))
      (fun J => O.restrict hO J (qN J)) (fun J => O.restrict hO J (qD J))] at this
    rw [coarseMatrix_points (movedSetup O.base a c) P'.diffusion (fun J k => O.restrict hO J (Q J k)) (fun J => O.restrict hO J (qN J))
      (fun J => O.restrict hO J (qD J)), coarseLoad_points (movedSetup O.base a c) _ _ hx' _ (fun J k => O.restrict hO J (Q J k))
      (fun J => O.restrict hO J (qN J)) (fun J => O.restrict hO J (qD J)), samples_move (moved_aux h) _ P.source P'.source h.source,
      samples_move (moved_aux h) _ 0 0 (fun _ => (mul_zero r).symm), h.isDirichlet]
    convert this using 1
    · rfl
    · ext i j
      rw [Matrix.of_apply, stiffness_move _ _ c hc0]
      rfl
    · have hN := femNeumann_move (moved_aux h)
      have e : (O.moved a c).neumannPoints B' P'.neumann = neumannPoints (movedSetup O.base a c)
        ⟨B'.isDirichlet, fun _ => false, B'.faces, fun _ => []⟩ P'.neumann := rfl
      have e' : O.neumannPoints B P.neumann = neumannPoints O.base ⟨B.isDirichlet, fun _ => false, B.faces, fun _ => []⟩ P.neumann := rfl
      rw [e, e', hN, smul_add]
      congr 1
      funext i
      rw [load_move _ _ c hc0]
      rfl
    · funext g
      have := nodePos_move O.base a c g
      rw [this, h.dirichlet]
  · rw [moved_covered O hO a c hc] at hn
    rw [moved_prolong O hO a c hc]
    exact hcomp.inner_eq J _ hn
  · rw [moved_covered O hO a c hc] at hn
    rw [moved_prolong O hO a c hc]
    exact hcomp.outer_eq J _ hl hn

include hO hc in
theorem moved_unique (hr0 : 0 < r) (hu : O.Unique B P) : (O.moved a c).Unique B' P' := by
  refine ⟨hu.dim, moved_admissible O hO a c hc, hu.localRule, hu.matrixRule, fun y v hv => ?_, fun J node hn => ?_, hu.refined, ?_⟩
  · obtain ⟨x, rfl⟩ : ∃ x, y = move a c x := ⟨fun i => (y i - a i) / c i, funext fun i => by
      have := (hc i).ne'
      simp only [move]
      field_simp
      ring⟩
    have hv' : (fun i => c i * v i) ≠ 0 := fun h0 => hv (funext fun i => by
      have := congrFun h0 i
      simpa [(hc i).ne'] using this)
    have := hu.definite x _ hv'
    rw [h.diffusion, smul_mulVec, smul_dotProduct, smul_eq_mul]
    rw [← move_form c (fun i => (hc i).ne')] at this
    have e : (fun i => c i * v i / c i) = v := funext fun i => by
      have := (hc i).ne'
      field_simp
    rw [e] at this
    exact mul_pos hr0 this
  · rw [h.constrained J (O.back hO a c hc J node) node fun i => rfl]
    refine hu.constrained J _ ?_
    obtain ⟨i, hi⟩ := hn
    exact ⟨i, hi.imp id fun hi => hi.trans (moved_elements O hO a c hc J i)⟩
  · obtain ⟨g, hg, hd⟩ := hu.dirichlet
    exact ⟨g, hg, by rw [h.isDirichlet]; exact hd⟩

end problem

/-- **C88** (oversampling) Origin, units of length and of the flux do not influence the result of a run with oversampling: same coefficients
of the coarse solution; the local grids have the same numbers of cells, and the solution on them has the same values at corresponding nodes. -/
theorem C88_same_layers (O : Layered d) (a c : Fin d → ℚ) (hc : ∀ i, 0 < c i) (r : ℚ) (hr0 : 0 < r) (B : O.Boundary)
    (B' : (O.moved a c).Boundary) (P P' : Data d ℚ) (h : O.SameProblem a c r B B' P P') (hu : O.Unique B P) (m : O.Machine)
    (m' : (O.moved a c).Machine) (hm : O.Works B P m) (hm' : (O.moved a c).Works B' P' m') (u u' : Node O.base.cells → ℚ)
    (res : List (O.Point → ℚ)) (res' : List ((O.moved a c).Point → ℚ)) (hr : O.apply B P m = .ok (u, res))
    (hr' : (O.moved a c).apply B' P' m' = .ok (u', res')) :
    u' = u ∧ (∀ J i, ((O.moved a c).patches.grid J).elements i = (O.patches.grid J).elements i) ∧
      ∃ (fine : (J : O.Coarse) → O.Local J → ℚ) (fine' : (J : O.Coarse) → (O.moved a c).Local J → ℚ),
        res = O.base.order.map (fun J => O.embed J (fine J)) ∧ res' = O.base.order.map (fun J => (O.moved a c).embed J (fine' J)) ∧
        ∀ J node node', (∀ i, (node' i).1 = (node i).1) → fine' J node' = fine J node := by
  have hO := hu.admissible
  have hu' := moved_unique hO hc h hr0 hu
  obtain ⟨Q, qN, qD, fine, hcomp, rfl⟩ := run_spec O hO B P m hm u res hr
  obtain ⟨Q', qN', qD', fine', hcomp', rfl⟩ := run_spec _ hu'.admissible B' P' m' hm' u' res' hr'
  obtain ⟨rfl, rfl⟩ := run_computed_unique _ B' P' hu' _ _ _ _ _ _ _ _ _ _ hcomp' (moved_computed hO hc h hm.flux hm'.flux hcomp)
  refine ⟨rfl, fun J i => moved_elements O hO a c hc J i, fine, _, rfl, rfl, fun J node node' hn => ?_⟩
  show fine J (O.back hO a c hc J node') = fine J node
  congr 1
  funext i
  exact Fin.ext (hn i)

/-- Instance: the unit square with any number of layers, in metres and in millimetres with another origin. -/
example (N m o : ℕ) (hN : 0 < N) (hm : 2 ≤ m) (ho : o ≤ m) (f g : (Fin 2 → ℚ) → ℚ) : ∃ (O : Layered 2) (B : O.Boundary)
    (B' : (O.moved (fun _ => 5) fun _ => 1000).Boundary) (P P' : Data 2 ℚ), O.base = demoSetup 2 N m ∧ O.layers = o ∧ P.source = f ∧
      P.dirichlet = g ∧ O.SameProblem _ _ (1 / 1000 ^ 2) B B' P P' ∧ O.Unique B P ∧ (∀ x, P'.diffusion x = 1) ∧
      (∃ mach, O.Works B P mach ∧ ∃ u res, O.apply B P mach = .ok (u, res)) ∧
      ∃ mach, (O.moved (fun _ => 5) fun _ => 1000).Works B' P' mach ∧
        ∃ u res, (O.moved (fun _ => 5) fun _ => 1000).apply B' P' mach = .ok (u, res) := by
  let back : (Fin 2 → ℚ) → Fin 2 → ℚ := fun y i => (y i - 5) / 1000
  have hback : ∀ x : Fin 2 → ℚ, back (move (fun _ => 5) (fun _ => 1000) x) = x := fun x => by
    funext i
    simp [back, move]
  let O : Layered 2 := ⟨demoSetup 2 N m, o, fun e => (Finset.univ : Finset (CellIndex e)).toList, 0⟩
  let P : Data 2 ℚ := ⟨fun _ => 1, fun _ v => v, f, fun _ => 0, g⟩
  let P' : Data 2 ℚ := ⟨fun _ => 1, fun _ v => v, fun y => f (back y) / 1000 ^ 2, fun _ => 0, fun y => g (back y)⟩
  let B : O.Boundary := ⟨fun g => decide ((g 0).1 = 0 ∨ (g 0).1 = N),
    fun J g => decide (∃ i, (g i).1 = 0 ∨ (g i).1 = (O.patches.grid J).elements i), [], fun _ => []⟩
  let O' : Layered 2 := O.moved (fun _ => 5) fun _ => 1000
  let B' : O'.Boundary := ⟨fun g => decide ((g 0).1 = 0 ∨ (g 0).1 = N),
    fun J g => decide (∃ i, (g i).1 = 0 ∨ (g i).1 = (O'.patches.grid J).elements i), [], fun _ => []⟩
  have hb := demo_admissible 2 N m hN (by omega)
  have hO : O.Admissible := ⟨hb, Finset.nodup_toList _, Finset.nodup_toList _,
    ⟨hb.width_pos, hb.cells_pos, hb.micro_pos, fun _ => Or.inr ho, by simp [O], by simp [O, Finset.nodup_toList], le_refl _⟩, by simp [O]⟩
  have hu : O.Unique B P := ⟨le_refl _, hO, demo_resolving 2 N m, demo_resolving 2 N m, demo_definite 2, fun J node h => decide_eq_true h,
    ⟨0, hm⟩, ⟨fun _ => 0, ⟨0, Or.inl rfl⟩, decide_eq_true (p := (0 : ℕ) = 0 ∨ (0 : ℕ) = N) (Or.inl rfl)⟩⟩
  have hs : O.SameProblem (fun _ => 5) (fun _ => 1000) (1 / 1000 ^ 2) B B' P P' := by
    refine ⟨fun x => ?_, fun x => ?_, fun x => ?_, rfl, fun J node node' hn => ?_, .nil, fun _ => .nil⟩
    · ext i j
      simp only [P, P', moveTensor, Matrix.smul_apply, Matrix.of_apply, smul_eq_mul]
      ring
    · simp only [P, P', hback]
      ring
    · simp only [P, P', hback]
    · refine decide_eq_decide.mpr (exists_congr fun i => ?_)
      rw [hn i, moved_elements O hO (fun _ => 5) (fun _ => 1000) (fun _ => by norm_num) J i]
  have hu' := moved_unique hO (fun _ => by norm_num) hs (by norm_num) hu
  exact ⟨O, B, B', P, P', rfl, rfl, rfl, rfl, hs, hu, fun _ => rfl, C86_run_exists O B P hu fun _ v => (one_mulVec v).symm,
    C86_run_exists _ _ _ hu' fun _ v => (one_mulVec v).symm⟩

end Verif.Oversampling
