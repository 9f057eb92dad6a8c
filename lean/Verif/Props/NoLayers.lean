import Verif.Props.OversampledRun

/-!
# C86: local grids that consist of the coarse cell only
-/

namespace Verif.Oversampling
open Matrix Verif.CoarseAssembly Verif.LocalAssembly Verif.LocalSolve Verif.LocalGrid Verif.Q1Grid Verif.DirichletSolve Verif.Pipeline
open Verif.Spec.Galerkin Verif.Spec.Dirichlet

variable {d : ℕ}

/-- No layers are asked for, or the coarse grid has one cell only. -/
def Layered.NoLayers (O : Layered d) : Prop := O.layers = 0 ∨ ∀ i, O.base.cells i = 1

section geometry
variable (O : Layered d) (hO : O.Admissible) (hflat : O.NoLayers) (J : O.Coarse)
include hO hflat

theorem flat_facts (i : Fin d) : O.patches.left J i = 0 ∧ (O.patches.grid J).elements i = O.base.micro i := by
  have hN : (0 : ℚ) < O.base.cells i := by exact_mod_cast hO.base.cells_pos i
  have hm := hO.base.micro_pos i
  have hab : O.base.lower i < O.base.lower i + (O.base.cells i : ℚ) * O.base.width i := by
    have := mul_pos hN (hO.base.width_pos i)
    linarith
  have hel : (O.patches.grid J).elements i = O.base.micro i + (leftLayers (J i).1 (O.base.micro i) O.layers +
      if ((J i).1 + 1) * O.base.micro i + O.layers ≤ O.base.cells i * O.base.micro i then O.layers else 0) :=
    elements_coarseCell hab (hO.base.cells_pos i) (hO.base.micro_pos i)
  have hl : O.patches.left J i = leftLayers (J i).1 (O.base.micro i) O.layers := rfl
  rw [hl, hel]
  rcases hflat with h | h
  · simp [leftLayers, h]
  · have hj : (J i).1 = 0 := by have := (J i).2; have := h i; omega
    rw [hj, h i]
    have hL : leftLayers 0 (O.base.micro i) O.layers = 0 := by
      unfold leftLayers
      split_ifs <;> omega
    rw [hL]
    refine ⟨rfl, ?_⟩
    split_ifs <;> omega

theorem shift_surjective : Function.Surjective (O.shift hO J) := by
  intro node
  have h := flat_facts O hO hflat J
  refine ⟨fun i => ⟨(node i).1, by have := (node i).2; have := (h i).2; omega⟩, ?_⟩
  funext i
  exact Fin.ext (by have := (h i).1; simp only [Layered.shift]; omega)

omit hflat in
theorem shift_injective : Function.Injective (O.shift hO J) := by
  intro a b h
  funext i
  have := congrArg Fin.val (congrFun h i)
  simp only [Layered.shift] at this
  exact Fin.ext (by omega)

theorem flat_cells : (O.localOrder (O.patches.grid J).elements).Perm (O.base.localOrder.map (O.shiftCell hO J)) := by
  have := covered_cells O hO J
  rwa [List.filter_eq_self.mpr] at this
  intro j _
  rw [covers_iff O hO]
  intro i
  have := flat_facts O hO hflat J i
  have := (j i).2
  omega

/-- the local operators are the same -/
theorem op_shift (B' : Pipeline.Boundary O.base) (P : Data d ℚ) (v : O.Local J → ℚ) (a : Node O.base.micro) :
    (O.patches.op J P.diffusion *ᵥ v) (O.shift hO J a) = (localStiff O.base B' P J *ᵥ O.restrict hO J v) a := by
  unfold localStiff Patches.op
  rw [stiff_mulVec, stiff_mulVec, List.map_map]
  refine (((flat_cells O hO hflat J).map _).sum_eq).trans ?_
  rw [List.map_map]
  unfold localCell Setup.cell
  rw [List.map_map]
  congr 1
  refine List.map_congr_left fun j _ => ?_
  simp only [Function.comp_apply]
  obtain ⟨e1, e2, e3, -⟩ := element_shift O hO J O.base.localRule j
  have hw : O.patches.patchWidth J = O.base.localWidth := funext fun i => (patch_facts O.patches hO.patches J i).2.2.2
  refine Finset.sum_congr rfl fun k _ => ?_
  refine if_congr ?_ ?_ rfl
  · show O.shift hO J a = cornerNode (O.shiftCell hO J j) (corner k) ↔ a = cornerNode j (corner k)
    rw [← shift_corner O hO J, (shift_injective O hO J).eq_iff]
  · show (List.map _ (element (O.patches.grid J).lower (O.patches.patchWidth J) O.base.localRule (O.shiftCell hO J j)).quad).sum =
      (List.map _ (element (O.base.cellLower J) O.base.localWidth O.base.localRule j).quad).sum
    rw [e1]
    congr 1
    refine List.map_congr_left fun q _ => ?_
    rw [e2, e3]
    congr 2
    funext i
    show shapeGrad _ _ i / O.patches.patchWidth J i = shapeGrad _ _ i / O.base.localWidth i
    rw [hw]

omit hflat in
theorem continued_shift (k : Fin (2 ^ d)) : O.restrict hO J (O.patches.continued J k) = basis O.base k := by
  funext node
  unfold Layered.restrict Patches.continued basis
  congr 1
  funext i
  rw [toCoarse_node O.patches hO.patches]
  simp [Layered.shift]

omit hflat in
theorem prolong_shift (u : Node O.base.cells → ℚ) :
    O.restrict hO J (O.patches.prolong J u) = ∑ k, u (cornerNode J (corner k)) • basis O.base k := by
  funext node
  have hc : O.patches.Covered J (O.shift hO J node) := by
    rw [covered_iff O.patches hO.patches]
    intro i
    have := (node i).2
    simp only [Layered.shift]
    omega
  unfold Layered.restrict Patches.prolong
  rw [coarseValue_eq O.patches hO.patches J u _ hc, Finset.sum_apply,
    ← (Equiv.ofBijective _ corner_bijective).sum_comp (fun v => u (cornerNode J v) * shape v _)]
  refine Finset.sum_congr rfl fun k _ => ?_
  show u (cornerNode J (corner k)) * O.restrict hO J (O.patches.continued J k) node = _
  rw [continued_shift]
  rfl

end geometry

/-- Boundary info and grid determine the same for both descriptions. -/
structure Layered.SameBoundary (O : Layered d) (hO : O.Admissible) (B : O.Boundary) (B' : Pipeline.Boundary O.base) : Prop where
  isDirichlet : B.isDirichlet = B'.isDirichlet
  constrained : ∀ J node, B.constrained J (O.shift hO J node) = B'.constrained node
  faces : B.faces = B'.faces
  localFaces : ∀ J, B.localFaces J = (B'.localFaces J).map fun p => ⟨O.shiftCell hO J p.cell, p.pos, p.weight⟩

theorem localNeumann_shift (O : Layered d) (hO : O.Admissible) (B : O.Boundary) (B' : Pipeline.Boundary O.base)
    (hB : O.SameBoundary hO B B') (g : (Fin d → ℚ) → ℚ) (J : O.Coarse) :
    O.restrict hO J (O.localNeumann B g J) = localNeumann O.base B' g J := by
  have hadd : ∀ (b : O.Local J → ℚ) n x, O.restrict hO J (addToVec b (O.shift hO J n) x) = addToVec (O.restrict hO J b) n x := by
    intro b n x
    funext a
    simp only [Layered.restrict, addToVec]
    refine if_congr ?_ rfl rfl
    exact (shift_injective O hO J).eq_iff
  unfold Layered.localNeumann localNeumann
  rw [hB.localFaces, List.foldl_map]
  refine (List.foldl_hom (O.restrict hO J) (fun b p => ?_)).symm
  refine List.foldl_hom (O.restrict hO J) (fun b k => ?_)
  rw [← shift_corner O hO J, hadd]
  have e2 := (element_shift O hO J O.base.localRule p.cell).2.1
  have e2' : globalPos (O.patches.grid J).lower (O.patches.patchWidth J) (O.shiftCell hO J p.cell) p.pos =
      globalPos (O.base.cellLower J) O.base.localWidth p.cell p.pos := congrFun e2 p.pos
  rw [e2']

/-- what a run with local grids that consist of the coarse cell computes is what a run without oversampling computes -/
theorem computed_flat (O : Layered d) (hO : O.Admissible) (hflat : O.NoLayers) (B : O.Boundary) (B' : Pipeline.Boundary O.base)
    (hB : O.SameBoundary hO B B') (P : Data d ℚ) (Q : (J : O.Coarse) → Fin (2 ^ d) → O.Local J → ℚ)
    (qN qD : (J : O.Coarse) → O.Local J → ℚ) (u : Node O.base.cells → ℚ) (fine : (J : O.Coarse) → O.Local J → ℚ)
    (hc : O.Computed hO B P Q qN qD u fine) :
    Pipeline.Computed O.base B' P (fun J k => O.restrict hO J (Q J k)) (fun J => O.restrict hO J (qN J))
      (fun J => O.restrict hO J (qD J)) u (fun J => O.restrict hO J (fine J)) := by
  have hsol : ∀ (J : O.Coarse) (b : O.Local J → ℚ) (v : O.Local J → ℚ), IsSolution (O.patches.op J P.diffusion) b 0 (B.constrained J) v →
      IsSolution (localStiff O.base B' P J) (O.restrict hO J b) 0 B'.constrained (O.restrict hO J v) := by
    intro J b v h
    refine ⟨fun node hn => h.boundary _ ((hB.constrained J node).trans hn), fun node hn => ?_⟩
    rw [← op_shift O hO hflat J]
    exact h.equation _ ((hB.constrained J node).trans hn)
  have hop : ∀ (J : O.Coarse) (v : O.Local J → ℚ), O.restrict hO J (-(O.patches.op J P.diffusion *ᵥ v)) =
      -(localStiff O.base B' P J *ᵥ O.restrict hO J v) := by
    intro J v
    funext node
    show -((O.patches.op J P.diffusion *ᵥ v) (O.shift hO J node)) = _
    rw [op_shift O hO hflat J B']
    rfl
  refine ⟨fun J => ⟨fun k => ?_, fun h => ?_, fun h => ?_, fun h => ?_⟩, ?_, fun J => ?_⟩
  · have := hsol J _ _ ((hc.corrector J).inner k)
    rwa [hop, continued_shift] at this
  · rw [((hc.corrector J).inside h).1, ((hc.corrector J).inside h).2]
    exact ⟨rfl, rfl⟩
  · have := hsol J _ _ ((hc.corrector J).neumann h)
    rwa [localNeumann_shift O hO B B' hB] at this
  · have := hsol J _ _ ((hc.corrector J).dirichlet h)
    rw [hop, prolong_shift] at this
    have e : ∀ k, O.extension B P (cornerNode J (corner k)) = localExtension O.base B' P J k := fun k => by
      simp only [Layered.extension, localExtension, hB.isDirichlet]
    simpa only [e] using this
  · have := hc.coarse
    have hp : O.neumannPoints B P.neumann = neumannPoints O.base B' P.neumann := by
      simp only [Layered.neumannPoints, neumannPoints, hB.faces]
    rw [hp, hB.isDirichlet] at this
    exact this
  · funext node
    have hcov : O.layers = 0 ∨ O.patches.Covered J (O.shift hO J node) := Or.inr (by
      rw [covered_iff O.patches hO.patches]
      intro i
      have := (node i).2
      simp only [Layered.shift]
      omega)
    show fine J (O.shift hO J node) = _
    rw [hc.inner_eq J _ hcov]
    have hp := congrFun (prolong_shift O hO J u) node
    have hp' : O.patches.prolong J u (O.shift hO J node) = ∑ k, u (cornerNode J (corner k)) * basis O.base k node := by
      refine hp.trans ?_
      rw [Finset.sum_apply]
      rfl
    rw [hp']
    simp only [Pi.add_apply, Pi.sub_apply, Finset.sum_apply, Pi.smul_apply, smul_eq_mul, mul_add, Finset.sum_add_distrib,
      Layered.restrict]
    ring

/-- **C86** (no layers) If no layers are asked for, or if the coarse grid has only one cell and any number of layers is asked for, the run
with oversampling computes what the run without oversampling computes: the same coarse solution, and on every cell the same solution at
the same points. -/
theorem C86_no_layers (O : Layered d) (hO : O.Admissible) (hflat : O.NoLayers) (B : O.Boundary) (B' : Pipeline.Boundary O.base)
    (hB : O.SameBoundary hO B B') (P : Data d ℚ) (h : Pipeline.Unique O.base B' P) (m : O.Machine) (m' : Pipeline.Machine O.base)
    (hm : O.Works B P m) (hm' : Pipeline.Works O.base B' P m') (u u' : Node O.base.cells → ℚ) (res : List (O.Point → ℚ))
    (res' : List (Node O.base.micro → ℚ)) (hr : O.apply B P m = .ok (u, res)) (hr' : Pipeline.apply O.base B' P m' = .ok (u', res')) :
    u = u' ∧ (∀ J, Function.Bijective (O.shift hO J)) ∧
      (∀ J node i, O.patches.nodePos J (O.shift hO J node) i = O.base.cellLower J i + ((node i).1 : ℚ) * O.base.localWidth i) ∧
      ∃ fine : (J : O.Coarse) → O.Local J → ℚ, res = O.base.order.map (fun J => O.embed J (fine J)) ∧
        res' = O.base.order.map fun J node => fine J (O.shift hO J node) := by
  obtain ⟨Q, qN, qD, fine, hc, rfl⟩ := run_spec O hO B P m hm u res hr
  obtain ⟨Q', qN', qD', fine', hc', rfl⟩ := Pipeline.apply_spec O.base hO.base hO.order_nodup B' P m' hm' u' res' hr'
  obtain ⟨rfl, rfl⟩ := Pipeline.computed_unique O.base B' P h _ _ _ _ _ _ _ _ _ _ (computed_flat O hO hflat B B' hB P Q qN qD u fine hc) hc'
  refine ⟨rfl, fun J => ⟨shift_injective O hO J, shift_surjective O hO hflat J⟩, fun J node i => ?_, fine, rfl, rfl⟩
  obtain ⟨h1, -, -, h4⟩ := patch_facts O.patches hO.patches J i
  rw [Patches.nodePos, h1, h4]
  have e : O.patches.cellLower J i = O.base.cellLower J i := rfl
  have e' : O.patches.width i / (O.patches.micro i : ℚ) = O.base.localWidth i := rfl
  rw [e, e']
  simp only [Layered.shift]
  push_cast
  ring

/-- Instance of C86: any number of cells without layers, or one coarse cell with any number of layers; arbitrary points on local faces. -/
example (N m o : ℕ) (hN : 0 < N) (hm : 2 ≤ m) (ho : o = 0 ∨ N = 1) (faces : List (FacePoint 2 (demoSetup 2 N m).cells ℚ))
    (localFaces : CellIndex (demoSetup 2 N m).cells → List (FacePoint 2 (demoSetup 2 N m).micro ℚ)) :
    ∃ (O : Layered 2) (hO : O.Admissible) (B : O.Boundary) (B' : Pipeline.Boundary O.base) (P : Data 2 ℚ),
      O.base = demoSetup 2 N m ∧ O.layers = o ∧ O.NoLayers ∧ O.SameBoundary hO B B' ∧ Pipeline.Unique O.base B' P ∧
      (∃ mach, O.Works B P mach ∧ ∃ u res, O.apply B P mach = .ok (u, res)) ∧
      ∃ mach, Pipeline.Works O.base B' P mach ∧ ∃ u res, Pipeline.apply O.base B' P mach = .ok (u, res) := by
  let O : Layered 2 := ⟨demoSetup 2 N m, o, fun e => (Finset.univ : Finset (CellIndex e)).toList, 0⟩
  let P : Data 2 ℚ := ⟨fun x => diagonal ![1 + x 0 ^ 2, 2], fun x v => diagonal ![1 + x 0 ^ 2, 2] *ᵥ v, fun _ => 1, fun x => x 1, fun x => 1 - x 0⟩
  have hb := demo_admissible 2 N m hN (by omega)
  have hO : O.Admissible := ⟨hb, Finset.nodup_toList _, Finset.nodup_toList _,
    ⟨hb.width_pos, hb.cells_pos, hb.micro_pos, fun _ => ho.elim (fun h => Or.inr (by show o ≤ _; omega)) Or.inl, by simp [O],
      by simp [O, Finset.nodup_toList], le_refl _⟩, by simp [O]⟩
  have hflat : O.NoLayers := ho.imp id fun h _ => h
  let B : O.Boundary := ⟨fun g => decide ((g 0).1 = 0 ∨ (g 0).1 = N),
    fun J g => decide (∃ i, (g i).1 = 0 ∨ (g i).1 = (O.patches.grid J).elements i), faces,
    fun J => (localFaces J).map fun p => ⟨O.shiftCell hO J p.cell, p.pos, p.weight⟩⟩
  let B' : Pipeline.Boundary O.base := ⟨fun g => decide ((g 0).1 = 0 ∨ (g 0).1 = N), fun g => decide (∃ i, (g i).1 = 0 ∨ (g i).1 = m),
    faces, localFaces⟩
  have hd : Definite P.diffusion := fun x => definite_diagonal _ (fun i => by fin_cases i <;> simp; positivity) x
  have hu : O.Unique B P := ⟨le_refl _, hO, demo_resolving 2 N m, demo_resolving 2 N m, hd, fun J node h => decide_eq_true h, ⟨0, hm⟩,
    ⟨fun _ => 0, ⟨0, Or.inl rfl⟩, decide_eq_true (p := (0 : ℕ) = 0 ∨ (0 : ℕ) = N) (Or.inl rfl)⟩⟩
  have hu' : Pipeline.Unique O.base B' P := ⟨hb, Finset.nodup_toList _, demo_resolving 2 N m, demo_resolving 2 N m, hd,
    fun _ h => decide_eq_true ⟨0, h 0⟩, ⟨fun _ => 0, decide_eq_true (p := (0 : ℕ) = 0 ∨ (0 : ℕ) = N) (Or.inl rfl)⟩⟩
  refine ⟨O, hO, B, B', P, rfl, rfl, hflat, ⟨rfl, fun J node => ?_, rfl, fun _ => rfl⟩, hu', C86_run_exists O B P hu fun _ _ => rfl,
    Pipeline.C82_run_exists _ _ _ hu' fun _ _ => rfl⟩
  refine decide_eq_decide.mpr (exists_congr fun i => ?_)
  have := flat_facts O hO hflat J i
  have h1 : (O.shift hO J node i).1 = (node i).1 := by simp only [Layered.shift]; omega
  have h2 : (O.patches.grid J).elements i = m := this.2
  rw [h1, h2]

end Verif.Oversampling
