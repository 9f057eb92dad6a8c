import Verif.Model.OversampledRun
import Verif.Props.TwoDirections
import Verif.Props.Oversampling
import Verif.Props.Pipeline

/-!
# C86: one run of the multiscale solver with oversampling
-/

namespace Verif.Oversampling
open Matrix Verif.CoarseAssembly Verif.LocalAssembly Verif.LocalSolve Verif.LocalGrid Verif.Q1Grid Verif.DirichletSolve Verif.Pipeline
open Verif.Spec.Galerkin Verif.Spec.Dirichlet

variable {d : ℕ}

/-- Positive sizes and numbers, every cell visited once, local grids of cells of the fine grid (C02), tolerance below half of a local
cell. -/
structure Layered.Admissible (O : Layered d) : Prop where
  base : O.base.Admissible
  order_nodup : O.base.order.Nodup
  fine_nodup : O.base.localOrder.Nodup
  patches : O.patches.Admissible
  tol_small : ∀ i, O.tol * (O.base.micro i : ℚ) * 2 < 1

section geometry
variable (O : Layered d) (hO : O.Admissible) (J : O.Coarse)
include hO

omit hO in
theorem part_embed (v : O.Local J → ℚ) : O.part J (O.embed J v) = v := by
  funext node
  simp [Layered.part, Layered.embed]

/-- cell of the local grid inside the coarse cell -/
def Layered.shiftCell (j : CellIndex O.base.micro) : CellIndex (O.patches.grid J).elements := fun i =>
  ⟨O.patches.left J i + (j i).1, by
    have := (patch_facts O.patches hO.patches J i).2.1
    have := (j i).2
    simp only [Layered.patches] at *
    omega⟩

/-- node of the local grid inside the coarse cell -/
def Layered.shift (node : Node O.base.micro) : O.Local J := fun i =>
  ⟨O.patches.left J i + (node i).1, by
    have := (patch_facts O.patches hO.patches J i).2.1
    have := (node i).2
    simp only [Layered.patches] at *
    omega⟩

/-- values on the coarse cell -/
def Layered.restrict (v : O.Local J → ℚ) : Node O.base.micro → ℚ := fun node => v (O.shift hO J node)

theorem shift_corner (j : CellIndex O.base.micro) (w : Fin d → Bool) :
    O.shift hO J (cornerNode j w) = cornerNode (O.shiftCell hO J j) w := by
  funext i
  apply Fin.ext
  simp only [Layered.shift, Layered.shiftCell, cornerNode]
  split_ifs
  · simp; omega
  · simp

/-- the cells that the assemblers of the coarse system use are those inside the coarse cell -/
theorem covers_iff (j : CellIndex (O.patches.grid J).elements) :
    O.covers J j = true ↔ ∀ i, O.patches.left J i ≤ (j i).1 ∧ (j i).1 < O.patches.left J i + O.base.micro i := by
  rw [Layered.covers, Patches.inside, decide_eq_true_eq]
  refine forall_congr' fun i => ?_
  obtain ⟨h1, -, h3, h4⟩ := patch_facts O.patches hO.patches J i
  have hw : O.patches.width i ≠ 0 := (hO.patches.width_pos i).ne'
  have hm : (0 : ℚ) < O.base.micro i := by exact_mod_cast hO.patches.micro_pos i
  have hm' : ((O.patches).micro i : ℚ) = O.base.micro i := rfl
  have e : O.patches.toCoarse J (fun i => (O.patches.grid J).cellCenter i (j i).1) i =
      (((j i).1 : ℚ) + 1 / 2 - O.patches.left J i) / O.base.micro i := by
    have hc : (O.patches.grid J).cellCenter i (j i).1 = (O.patches.grid J).lower i + (((j i).1 : ℚ) + 1 / 2) * O.patches.patchWidth J i := by
      simp only [CubeGrid.cellCenter, CubeGrid.cellLo, CubeGrid.cellHi, Patches.patchWidth]
      ring
    rw [Patches.toCoarse, hc, h1, h4, hm']
    field_simp
    ring
  rw [e, le_div_iff₀ hm, div_le_iff₀ hm]
  have ht := hO.tol_small i
  have ht0 : 0 ≤ O.tol * O.base.micro i := mul_nonneg hO.patches.tol_nonneg hm.le
  show (-O.tol * _ ≤ _ ∧ _ ≤ (1 + O.tol) * _) ↔ _
  constructor
  · rintro ⟨a, b⟩
    constructor
    · by_contra hlt
      have : ((j i).1 : ℚ) + 1 ≤ O.patches.left J i := by exact_mod_cast (by omega : (j i).1 + 1 ≤ O.patches.left J i)
      linarith
    · by_contra hlt
      have : ((O.patches.left J i : ℚ) + O.base.micro i) ≤ (j i).1 := by exact_mod_cast (by omega : O.patches.left J i + O.base.micro i ≤ (j i).1)
      linarith
  · rintro ⟨a, b⟩
    have a' : (O.patches.left J i : ℚ) ≤ (j i).1 := by exact_mod_cast a
    have b' : ((j i).1 : ℚ) + 1 ≤ O.patches.left J i + O.base.micro i := by exact_mod_cast b
    constructor <;> linarith

theorem covered_cells :
    ((O.localOrder (O.patches.grid J).elements).filter fun j => O.covers J j).Perm (O.base.localOrder.map (O.shiftCell hO J)) := by
  have hinj : Function.Injective (O.shiftCell hO J) := by
    intro j j' h
    funext i
    have := congrArg Fin.val (congrFun h i)
    simp only [Layered.shiftCell] at this
    exact Fin.ext (by omega)
  rw [List.perm_ext_iff_of_nodup ((hO.patches.order_nodup _).filter _) (hO.fine_nodup.map hinj)]
  intro j
  rw [List.mem_filter, covers_iff O hO, List.mem_map]
  constructor
  · rintro ⟨-, h⟩
    refine ⟨fun i => ⟨(j i).1 - O.patches.left J i, by have := h i; omega⟩, hO.base.localOrder_complete _, ?_⟩
    funext i
    have := h i
    exact Fin.ext (by simp only [Layered.shiftCell]; omega)
  · rintro ⟨j', -, rfl⟩
    refine ⟨hO.patches.order_complete _ _, fun i => ?_⟩
    have := (j' i).2
    simp only [Layered.shiftCell]
    omega

/-- the element of the local grid is the element of the fine grid -/
theorem element_shift (rule : List (QPoint d ℚ)) (j : CellIndex O.base.micro) :
    (element (O.patches.grid J).lower (O.patches.patchWidth J) rule (O.shiftCell hO J j)).quad =
        (element (O.base.cellLower J) O.base.localWidth rule j).quad ∧
    (element (O.patches.grid J).lower (O.patches.patchWidth J) rule (O.shiftCell hO J j)).toGlobal =
        (element (O.base.cellLower J) O.base.localWidth rule j).toGlobal ∧
    (∀ v, (element (O.patches.grid J).lower (O.patches.patchWidth J) rule (O.shiftCell hO J j)).gradOf v =
        (element (O.base.cellLower J) O.base.localWidth rule j).gradOf (O.restrict hO J v)) ∧
    ∀ v, valueOf v (O.shiftCell hO J j) = valueOf (O.restrict hO J v) j := by
  have hw : O.patches.patchWidth J = O.base.localWidth := funext fun i => (patch_facts O.patches hO.patches J i).2.2.2
  refine ⟨by simp only [element, hw], ?_, ?_, ?_⟩
  · funext x i
    have h1 := (patch_facts O.patches hO.patches J i).1
    have h4 := (patch_facts O.patches hO.patches J i).2.2.2
    simp only [element, hw, h1, Layered.shiftCell]
    have e : O.patches.cellLower J i = O.base.cellLower J i := rfl
    have e' : O.patches.width i / (O.patches.micro i : ℚ) = O.base.localWidth i := rfl
    rw [e, e']
    push_cast
    ring
  · intro v
    funext x i
    rw [element_gradOf, element_gradOf, hw]
    simp only [Layered.restrict, shift_corner O hO J]
  · intro v
    funext x
    simp only [valueOf, Layered.restrict, shift_corner O hO J]

/-- the samples of a coarse cell are, up to order, those of the restricted local solutions on the fine grid -/
theorem samples_perm (rule : List (QPoint d ℚ)) (diffusion : (Fin d → ℚ) → Matrix (Fin d) (Fin d) ℚ) (source : (Fin d → ℚ) → ℚ)
    (xs : (J : O.Coarse) → List (O.Local J → ℚ)) :
    (usedSamples diffusion source (O.base.order.map fun J => O.coarseCell rule J (xs J))).Perm
      (usedSamples diffusion source (O.base.order.map fun J => O.base.coarseCell rule J ((xs J).map (O.restrict hO J)))) := by
  unfold usedSamples
  rw [List.flatMap_map, List.flatMap_map]
  refine List.Perm.flatMap_left _ fun J _ => ?_
  have h1 : (O.coarseCell rule J (xs J)).cells.filter (·.covered) =
      ((O.localOrder (O.patches.grid J).elements).filter fun j => O.covers J j).map fun j =>
        let e := element (O.patches.grid J).lower (O.patches.patchWidth J) rule j
        { covered := O.covers J j
          quad := e.quad
          toGlobal := e.toGlobal
          valQ := fun k => valueOf ((xs J).getD k.1 0) j
          gradQ := fun k => e.gradOf ((xs J).getD k.1 0)
          gradDirichlet := e.gradOf ((xs J).getD (dirichletSlot (2 ^ d)) 0)
          gradNeumann := e.gradOf ((xs J).getD (neumannSlot (2 ^ d)) 0) } := by
    simp only [Layered.coarseCell, List.filter_map]
    rfl
  have h2 : (O.base.coarseCell rule J ((xs J).map (O.restrict hO J))).cells.filter (·.covered) =
      (O.base.coarseCell rule J ((xs J).map (O.restrict hO J))).cells := by
    rw [List.filter_eq_self]
    intro e he
    obtain ⟨j, -, rfl⟩ := List.mem_map.mp he
    rfl
  rw [h1, h2, List.flatMap_map]
  refine ((covered_cells O hO J).flatMap_right _).trans ?_
  rw [List.flatMap_map]
  simp only [Setup.coarseCell, List.flatMap_map]
  refine List.Perm.of_eq (List.flatMap_congr fun j _ => ?_)
  obtain ⟨e1, e2, e3, e4⟩ := element_shift O hO J rule j
  have hget : ∀ n, O.restrict hO J ((xs J).getD n 0) = ((xs J).map (O.restrict hO J)).getD n 0 := by
    intro n
    rw [List.getD_eq_getElem?_getD, List.getD_eq_getElem?_getD, List.getElem?_map]
    cases (xs J)[n]? <;> rfl
  simp only [e1, e2, e3, e4, hget]
  rfl

theorem coarseMatrix_restrict (diffusion : (Fin d → ℚ) → Matrix (Fin d) (Fin d) ℚ) (xs : (J : O.Coarse) → List (O.Local J → ℚ))
    (tmp tmp' : Fin (2 ^ d) → Fin (2 ^ d) → ℚ) :
    O.coarseMatrix diffusion xs tmp = O.base.coarseMatrix diffusion (fun J => (xs J).map (O.restrict hO J)) tmp' := by
  ext a b
  rw [coarseMatrix_eq, Layered.coarseMatrix, Matrix.of_apply, C22_matrix_entries diffusion (fun _ => 0), zero_add, Matrix.of_apply]
  exact ((samples_perm O hO O.base.matrixRule diffusion (fun _ => 0) xs).map _).sum_eq

theorem coarseLoad_restrict (diffusion : (Fin d → ℚ) → Matrix (Fin d) (Fin d) ℚ) (flux : (Fin d → ℚ) → (Fin d → ℚ) → (Fin d → ℚ))
    (hflux : ∀ x v, flux x v = diffusion x *ᵥ v) (source : (Fin d → ℚ) → ℚ) (xs : (J : O.Coarse) → List (O.Local J → ℚ))
    (tmp tmp' : Fin (2 ^ d) → ℚ) (pts : List (NeumannPoint O.base)) :
    O.coarseLoad flux source xs tmp pts = O.base.coarseLoad flux source (fun J => (xs J).map (O.restrict hO J)) tmp' pts := by
  rw [coarseLoad_eq O.base diffusion flux hflux, Layered.coarseLoad, addNeumann_eq]
  congr 1
  funext a
  rw [C24_load_entries diffusion flux hflux, Pi.zero_apply, zero_add]
  exact ((samples_perm O hO O.base.loadRule diffusion source xs).map _).sum_eq

end geometry

/-! ## What a run computes -/

/-- External contracts and bookkeeping, as in Props/Pipeline. -/
structure Layered.Works (O : Layered d) (B : O.Boundary) (P : Data d ℚ) (m : O.Machine) : Prop where
  walks : m.walks ≠ 0
  flux : ∀ x v, P.flux x v = P.diffusion x *ᵥ v
  local_correct : ∀ J, (m.solvers J).Correct (constrainMat (B.constrained J)
    ((O.patches.cell J (B.constrained J) (O.localNeumann B P.neumann J)).matrix m.walks P.diffusion))
  coarse_correct : m.coarseSolver.Correct
  index_injective : Function.Injective m.index

/-- what the local solutions of a cell are -/
structure Layered.IsCorrector (O : Layered d) (B : O.Boundary) (P : Data d ℚ) (J : O.Coarse) (Q : Fin (2 ^ d) → O.Local J → ℚ)
    (qN qD : O.Local J → ℚ) : Prop where
  inner : ∀ k, IsSolution (O.patches.op J P.diffusion) (-(O.patches.op J P.diffusion *ᵥ O.patches.continued J k)) 0 (B.constrained J) (Q k)
  inside : (¬ ∃ i, (J i).1 = 0 ∨ (J i).1 + 1 = O.base.cells i) → qN = 0 ∧ qD = 0
  neumann : (∃ i, (J i).1 = 0 ∨ (J i).1 + 1 = O.base.cells i) →
    IsSolution (O.patches.op J P.diffusion) (O.localNeumann B P.neumann J) 0 (B.constrained J) qN
  dirichlet : (∃ i, (J i).1 = 0 ∨ (J i).1 + 1 = O.base.cells i) →
    IsSolution (O.patches.op J P.diffusion) (-(O.patches.op J P.diffusion *ᵥ O.patches.prolong J (O.extension B P))) 0 (B.constrained J) qD

/-- what a run computes: correctors, coarse solution with the correctors restricted to the coarse cells, solution on the local grids; the
inner correctors are cut off outside the coarse cell -/
structure Layered.Computed (O : Layered d) (hO : O.Admissible) (B : O.Boundary) (P : Data d ℚ)
    (Q : (J : O.Coarse) → Fin (2 ^ d) → O.Local J → ℚ) (qN qD : (J : O.Coarse) → O.Local J → ℚ) (u : Node O.base.cells → ℚ)
    (fine : (J : O.Coarse) → O.Local J → ℚ) : Prop where
  corrector : ∀ J, O.IsCorrector B P J (Q J) (qN J) (qD J)
  coarse : IsSolution (O.base.coarseMatrix P.diffusion (fun J => Manager.corrList (fun k => O.restrict hO J (Q J k)) (O.restrict hO J (qN J))
      (O.restrict hO J (qD J))) 0)
    (O.base.coarseLoad P.flux P.source (fun J => Manager.corrList (fun k => O.restrict hO J (Q J k)) (O.restrict hO J (qN J))
      (O.restrict hO J (qD J))) 0 (O.neumannPoints B P.neumann))
    (fun g => P.dirichlet (Pipeline.nodePos O.base g)) B.isDirichlet u
  inner_eq : ∀ J node, O.layers = 0 ∨ O.patches.Covered J node →
    fine J node = (∑ k, u (cornerNode J (corner k)) * Q J k node) + qD J node - qN J node + O.patches.prolong J u node
  outer_eq : ∀ J node, O.layers ≠ 0 → ¬ O.patches.Covered J node → fine J node = qD J node - qN J node + O.patches.prolong J u node

theorem inside_iff (O : Layered d) (hO : O.Admissible) (J : O.Coarse) (node : O.Local J) :
    O.patches.inside J (O.patches.nodePos J node) = true ↔ O.patches.Covered J node := by
  refine ⟨fun h => ?_, inside_of_covered O.patches hO.patches J node⟩
  rw [Patches.inside, decide_eq_true_eq] at h
  rw [covered_iff O.patches hO.patches]
  intro i
  have hi := h i
  have hm : (0 : ℚ) < O.base.micro i := by exact_mod_cast hO.patches.micro_pos i
  rw [toCoarse_node O.patches hO.patches, le_div_iff₀ (by exact hm), div_le_iff₀ (by exact hm)] at hi
  have ht := hO.tol_small i
  have ht0 : 0 ≤ O.tol * O.base.micro i := mul_nonneg hO.patches.tol_nonneg hm.le
  obtain ⟨a, b⟩ := hi
  change -O.tol * (O.base.micro i : ℚ) ≤ _ at a
  change _ ≤ (1 + O.tol) * (O.base.micro i : ℚ) at b
  constructor
  · by_contra hlt
    have : ((node i).1 : ℚ) + 1 ≤ O.patches.left J i := by exact_mod_cast (by omega : (node i).1 + 1 ≤ O.patches.left J i)
    linarith
  · by_contra hlt
    have : ((O.patches.left J i : ℚ) + O.base.micro i) + 1 ≤ (node i).1 := by
      exact_mod_cast (by simp only [Layered.patches] at hlt ⊢; omega : O.patches.left J i + O.base.micro i + 1 ≤ (node i).1)
    linarith

/-- every node is visited -/
theorem visits_all (O : Layered d) (hO : O.Admissible) (J : O.Coarse) (node : O.Local J) (b : Bool) :
    (node, b) ∈ O.patches.visits J ↔ b = O.patches.inside J (O.patches.nodePos J node) := by
  have hel := fun i => (patch_facts O.patches hO.patches J i).2.2.1
  simp only [Patches.visits, List.mem_flatMap, List.mem_map, Prod.mk.injEq]
  constructor
  · rintro ⟨j, -, k, -, rfl, rfl⟩
    rfl
  · rintro rfl
    obtain ⟨k, hk⟩ := corner_bijective.2 (fun i => decide ((node i).1 = (O.patches.grid J).elements i))
    have hjk : cornerNode (fun i => ⟨min (node i).1 ((O.patches.grid J).elements i - 1), by have := hel i; omega⟩) (corner k) = node := by
      rw [hk]
      funext i
      apply Fin.ext
      have := hel i
      have := (node i).2
      by_cases h : (node i).1 = (O.patches.grid J).elements i
      · simp [cornerNode, h]; omega
      · simp [cornerNode, h]; omega
    exact ⟨_, hO.patches.order_complete _ _, k, List.mem_finRange k, hjk, by rw [hjk]⟩

theorem map_corrList {ι κ : Type} {n : ℕ} (f : (ι → ℚ) → κ → ℚ) (Q : Fin n → ι → ℚ) (N D : ι → ℚ) :
    (Manager.corrList Q N D).map f = Manager.corrList (fun k => f (Q k)) (f N) (f D) := by
  simp [Manager.corrList, List.map_ofFn, Function.comp_def]

/-- solution on the local grid of a cell -/
def Layered.result (O : Layered d) (Q : (J : O.Coarse) → Fin (2 ^ d) → O.Local J → ℚ) (qN qD : (J : O.Coarse) → O.Local J → ℚ)
    (u : Node O.base.cells → ℚ) (J : O.Coarse) (node : O.Local J) : ℚ :=
  (if O.layers > 0 ∧ O.patches.inside J (O.patches.nodePos J node) = false then 0 else ∑ k, u (cornerNode J (corner k)) * Q J k node) +
    qD J node - qN J node + O.patches.prolong J u node

/-- the run after the local solutions were loaded -/
theorem run_rest_eq (O : Layered d) (hO : O.Admissible) (B : O.Boundary) (P : Data d ℚ) (m : O.Machine)
    (hidx : Function.Injective m.index) (Q : (J : O.Coarse) → Fin (2 ^ d) → O.Local J → ℚ) (qN qD : (J : O.Coarse) → O.Local J → ℚ)
    (ys : O.Coarse → List (O.Point → ℚ))
    (hys : ys = fun J => Manager.corrList (fun k => O.embed J (Q J k)) (O.embed J (qN J)) (O.embed J (qD J)))
    (w2 : Manager.World (O.Point → ℚ)) (e2 : Manager.WF w2) (hst : ∀ J, w2.stored (m.index J) = ys J) :
    (O.coarseSolution B P m ((O.base.order.flatMap fun J => [(J, ys J), (J, ys J)]).map Prod.snd) >>= fun u =>
      Manager.reconstructAll (2 ^ d + 2) O.layers (O.visits m) (O.coefficients m u) w2 (O.base.order.map m.index) >>= fun r =>
        (pure (u, List.zipWith (fun J c => O.embed J (O.part J c + O.patches.prolong J u)) O.base.order r.2) :
          Outcome ((Node O.base.cells → ℚ) × List (O.Point → ℚ)))) =
      match coarseSolve m.coarseValid m.coarseSolver
          (O.coarseMatrix P.diffusion (fun J => Manager.corrList (Q J) (qN J) (qD J)) m.tmpMatrix)
          (O.coarseLoad P.flux P.source (fun J => Manager.corrList (Q J) (qN J) (qD J)) m.tmpLoad (O.neumannPoints B P.neumann))
          (fun g => P.dirichlet (Pipeline.nodePos O.base g)) B.isDirichlet 0 with
      | .ok u => .ok (u, O.base.order.map fun J => O.embed J (O.result Q qN qD u J))
      | .invalidState => .throw
      | .other => .throw := by
  have hkeys : (O.base.order.map m.index).Nodup := hO.order_nodup.map hidx
  -- coarse solution
  have hget : ∀ b, b < 2 → (fun J => (((O.base.order.flatMap fun J => [(J, ys J), (J, ys J)]).map Prod.snd).getD
      (2 * O.base.order.idxOf J + b) []).map (O.part J)) = fun J => Manager.corrList (Q J) (qN J) (qD J) := by
    intro b hb
    funext J
    rw [getD_double O.base.order ys J (hO.base.order_complete J) [] b hb, hys]
    simp only [map_corrList, part_embed]
  have h0 := hget 0 (by omega)
  simp only [Nat.add_zero] at h0
  unfold Layered.coarseSolution
  dsimp only
  rw [h0, hget 1 (by omega)]
  cases hc : coarseSolve m.coarseValid m.coarseSolver (O.coarseMatrix P.diffusion (fun J => Manager.corrList (Q J) (qN J) (qD J)) m.tmpMatrix)
      (O.coarseLoad P.flux P.source (fun J => Manager.corrList (Q J) (qN J) (qD J)) m.tmpLoad (O.neumannPoints B P.neumann))
      (fun g => P.dirichlet (Pipeline.nodePos O.base g)) B.isDirichlet 0 with
  | invalidState => rfl
  | other => rfl
  | ok u =>
  dsimp only
  rw [Outcome.ok_bind]
  -- reconstruction
  have hlook : ∀ J, O.cellOf m (m.index J) = some J := by
    intro J
    have : (O.cellOf m (m.index J)).isSome := List.find?_isSome.mpr ⟨J, hO.base.order_complete J, by simp⟩
    obtain ⟨J', hJ'⟩ := Option.isSome_iff_exists.mp this
    have h1 := List.find?_some hJ'
    have h2 : m.index J' = m.index J := by simpa using h1
    rw [hJ', hidx h2]
  obtain ⟨w3, e4⟩ := Manager.reconstructAll_spec (n := 2 ^ d) O.layers (O.visits m)
    (fun key => match O.cellOf m key with | some J => fun k => O.embed J (Q J k) | none => 0)
    (fun key => match O.cellOf m key with | some J => O.embed J (qN J) | none => 0)
    (fun key => match O.cellOf m key with | some J => O.embed J (qD J) | none => 0)
    (fun key k => match O.cellOf m key with | some J => u (cornerNode J (corner k)) | none => 0) w2 e2 (O.base.order.map m.index) hkeys (by
      intro key hk
      obtain ⟨J, -, rfl⟩ := List.mem_map.mp hk
      rw [hst J, hlook J, hys])
  have hcoef : O.coefficients m u = fun key => List.ofFn fun k => match O.cellOf m key with | some J => u (cornerNode J (corner k)) | none => 0 := rfl
  rw [hcoef, e4, Outcome.ok_bind]
  show Outcome.ok _ = Outcome.ok _
  congr 2
  rw [List.map_map, List.zipWith_map_right, List.zipWith_self]
  refine List.map_congr_left fun J _ => ?_
  simp only [Function.comp_apply, hlook]
  congr 1
  funext node
  simp only [Layered.part, Layered.result, Pi.add_apply, Pi.sub_apply]
  have hpe : ∀ v : O.Local J → ℚ, O.embed J v ⟨J, node⟩ = v node := fun v => congrFun (part_embed O J v) node
  rw [hpe, hpe]
  congr 3
  have hsum : (∑ k, u (cornerNode J (corner k)) • O.embed J (Q J k)) ⟨J, node⟩ = ∑ k, u (cornerNode J (corner k)) * Q J k node := by
    rw [Finset.sum_apply]
    refine Finset.sum_congr rfl fun k _ => ?_
    rw [Pi.smul_apply, hpe, smul_eq_mul]
  by_cases ho : O.layers > 0
  · rw [if_pos ho, Manager.cut_apply, hsum]
    refine if_congr ?_ rfl rfl
    simp only [ho, true_and, Layered.visits, hlook]
    constructor
    · rintro ⟨b, hb, hb1, hb2⟩
      obtain ⟨⟨n, t⟩, hn, rfl⟩ := List.mem_map.mp hb
      obtain rfl : n = node := by simpa using hb1
      have := (visits_all O hO J n t).mp hn
      rw [← this]
      exact hb2
    · intro h
      exact ⟨(⟨J, node⟩, false), List.mem_map.mpr ⟨(node, false), (visits_all O hO J node false).mpr h.symm, rfl⟩, rfl, rfl⟩
  · rw [if_neg ho, if_neg (fun h => ho h.1), hsum]

/-- the run in terms of its local solutions -/
theorem run_eq (O : Layered d) (hO : O.Admissible) (B : O.Boundary) (P : Data d ℚ) (m : O.Machine)
    (hidx : Function.Injective m.index) (Q : (J : O.Coarse) → Fin (2 ^ d) → O.Local J → ℚ) (qN qD : (J : O.Coarse) → O.Local J → ℚ)
    (hxs : ∀ J, O.patches.solve J (B.constrained J) (O.localNeumann B P.neumann J) (m.valid J) (m.solvers J) true m.walks P.flux
      (O.extension B P) = .ok (Manager.corrList (Q J) (qN J) (qD J))) :
    O.apply B P m =
      match coarseSolve m.coarseValid m.coarseSolver
          (O.coarseMatrix P.diffusion (fun J => Manager.corrList (Q J) (qN J) (qD J)) m.tmpMatrix)
          (O.coarseLoad P.flux P.source (fun J => Manager.corrList (Q J) (qN J) (qD J)) m.tmpLoad (O.neumannPoints B P.neumann))
          (fun g => P.dirichlet (Pipeline.nodePos O.base g)) B.isDirichlet 0 with
      | .ok u => .ok (u, O.base.order.map fun J => O.embed J (O.result Q qN qD u J))
      | .invalidState => .throw
      | .other => .throw := by
  set ys : O.Coarse → List (O.Point → ℚ) := fun J =>
    Manager.corrList (fun k => O.embed J (Q J k)) (O.embed J (qN J)) (O.embed J (qD J)) with hys
  unfold Layered.apply
  have hl : O.localSolutions B P m = .ok (O.base.order.map fun J => (m.index J, ys J)) :=
    mapM_ok _ _ _ fun J _ => by
      rw [hxs J, Outcome.ok_bind, map_corrList]
      rfl
  rw [hl, Outcome.ok_bind]
  set cells := O.base.order.map fun J => (m.index J, ys J) with hcells
  have hkeys : (O.base.order.map m.index).Nodup := hO.order_nodup.map hidx
  have hfst : cells.map Prod.fst = O.base.order.map m.index := by
    rw [hcells, List.map_map]
    rfl
  obtain ⟨hwf, hst0, -⟩ := Manager.solveAll_spec (Manager.wf_init (V := O.Point → ℚ)) cells (by rw [hfst]; exact hkeys)
  have hst : ∀ J, (Manager.solveAll .init cells).stored (m.index J) = ys J := by
    intro J
    have := hst0 (m.index J, ys J) (List.mem_map.mpr ⟨J, hO.base.order_complete J, rfl⟩)
    rw [this]
    exact List.nil_append _
  obtain ⟨w2, e1, e2, e3⟩ := Manager.loadAll_stored (Manager.solveAll .init cells) hwf
    ((O.base.order.flatMap fun J => [(J, ys J), (J, ys J)]).map fun c => (m.index c.1, c.2)) (by
      intro c hc
      obtain ⟨⟨J, y⟩, hJ, rfl⟩ := List.mem_map.mp hc
      obtain ⟨J', -, hJ'⟩ := List.mem_flatMap.mp hJ
      have : J = J' ∧ y = ys J' := by simpa using hJ'
      obtain ⟨rfl, rfl⟩ := this
      exact hst J)
  have hlen : ∀ J, (ys J).length = 2 ^ d + 2 := fun J => by simp [hys, Manager.corrList]
  have hloads : ((O.base.order.flatMap fun J => [(J, ys J), (J, ys J)]).map fun c => (m.index c.1, c.2)).map (fun c => (c.1, c.2.length)) =
      O.base.order.flatMap fun J => [(m.index J, 2 ^ d + 2), (m.index J, 2 ^ d + 2)] := by
    rw [List.map_map, List.map_flatMap]
    simp [hlen]
  have hsnd : ((O.base.order.flatMap fun J => [(J, ys J), (J, ys J)]).map fun c => (m.index c.1, c.2)).map Prod.snd =
      (O.base.order.flatMap fun J => [(J, ys J), (J, ys J)]).map Prod.snd := by
    rw [List.map_map]
    rfl
  rw [hloads, hsnd] at e1
  dsimp only
  rw [e1, Outcome.ok_bind]
  dsimp only
  exact run_rest_eq O hO B P m hidx Q qN qD ys hys w2 e2 fun J => by rw [e3, hst J]

theorem correctors_of_run (O : Layered d) (hO : O.Admissible) (B : O.Boundary) (P : Data d ℚ) (m : O.Machine) (hm : O.Works B P m)
    (J : O.Coarse) (xs : List (O.Local J → ℚ))
    (h : O.patches.solve J (B.constrained J) (O.localNeumann B P.neumann J) (m.valid J) (m.solvers J) true m.walks P.flux
      (O.extension B P) = .ok xs) :
    ∃ Q qN qD, xs = Manager.corrList Q qN qD ∧ O.IsCorrector B P J Q qN qD := by
  obtain ⟨Q, qN, qD, e, h1, h2, h3⟩ := correctors_of (O.patches.cell J (B.constrained J) (O.localNeumann B P.neumann J))
    (patch_nested O.patches hO.patches J _ _) m.walks hm.walks P.diffusion P.flux hm.flux (O.patches.prolong J (O.extension B P)) (m.valid J)
    (m.solvers J) (hm.local_correct J) xs h
  refine ⟨Q, qN, qD, e, h1, fun hb => h2 ?_, fun hb => (h3 ?_).1, fun hb => (h3 ?_).2⟩
  · simpa [Patches.cell] using hb
  · simpa [Patches.cell] using hb
  · simpa [Patches.cell] using hb

theorem solves_of_run (O : Layered d) (hO : O.Admissible) (B : O.Boundary) (P : Data d ℚ) (m : O.Machine)
    (u : Node O.base.cells → ℚ) (res : List (O.Point → ℚ)) (h : O.apply B P m = .ok (u, res)) (J : O.Coarse) :
    ∃ xs, O.patches.solve J (B.constrained J) (O.localNeumann B P.neumann J) (m.valid J) (m.solvers J) true m.walks P.flux
      (O.extension B P) = .ok xs := by
  cases hl : O.localSolutions B P m with
  | throw => unfold Layered.apply at h; rw [hl] at h; cases h
  | ub => unfold Layered.apply at h; rw [hl] at h; cases h
  | ok cells =>
  obtain ⟨y, hy⟩ := mapM_mem _ _ _ hl J (hO.base.order_complete J)
  cases hs : O.patches.solve J (B.constrained J) (O.localNeumann B P.neumann J) (m.valid J) (m.solvers J) true m.walks P.flux
      (O.extension B P) with
  | throw => rw [hs] at hy; cases hy
  | ub => rw [hs] at hy; cases hy
  | ok xs => exact ⟨xs, rfl⟩

theorem run_spec (O : Layered d) (hO : O.Admissible) (B : O.Boundary) (P : Data d ℚ) (m : O.Machine) (hm : O.Works B P m)
    (u : Node O.base.cells → ℚ) (res : List (O.Point → ℚ)) (h : O.apply B P m = .ok (u, res)) :
    ∃ Q qN qD fine, O.Computed hO B P Q qN qD u fine ∧ res = O.base.order.map fun J => O.embed J (fine J) := by
  choose xs hxs using solves_of_run O hO B P m u res h
  choose Q qN qD hcl hcorr using fun J => correctors_of_run O hO B P m hm J (xs J) (hxs J)
  rw [run_eq O hO B P m hm.index_injective Q qN qD fun J => by rw [hxs J, hcl J]] at h
  split at h
  · rename_i v hv
    injection h with h
    injection h with hu hr
    subst hu
    refine ⟨Q, qN, qD, O.result Q qN qD v, ⟨hcorr, ?_, fun J node hn => ?_, fun J node hl hn => ?_⟩, hr.symm⟩
    · have := C25_coarse_solution _ _ hm.coarse_correct _ _ _ _ _ _ hv
      rw [coarseMatrix_restrict O hO P.diffusion _ _ 0, coarseLoad_restrict O hO P.diffusion P.flux hm.flux P.source _ _ 0] at this
      simpa only [map_corrList] using this
    · rw [Layered.result, if_neg]
      rintro ⟨ho, hi⟩
      rw [(inside_iff O hO J node).mpr (hn.resolve_left (by omega))] at hi
      cases hi
    · rw [Layered.result, if_pos ⟨by omega, by rw [← Bool.not_eq_true, inside_iff O hO]; exact hn⟩, zero_add]
  · cases h
  · cases h

/-! ## Uniqueness -/

/-- Conditions under which local and coarse problems have exactly one solution: two or more dimensions, positive definite diffusion,
sufficient quadrature, local problems constrained on the boundary of the local grids, a Dirichlet node on the boundary of the domain, and at
least two local cells per coarse cell in some direction. -/
structure Layered.Unique (O : Layered d) (B : O.Boundary) (P : Data d ℚ) : Prop where
  dim : 2 ≤ d
  admissible : O.Admissible
  localRule : Resolving O.base.localRule
  matrixRule : Resolving O.base.matrixRule
  definite : Definite P.diffusion
  constrained : ∀ J node, (∃ i, (node i).1 = 0 ∨ (node i).1 = (O.patches.grid J).elements i) → B.constrained J node = true
  refined : ∃ l, 2 ≤ O.base.micro l
  dirichlet : ∃ g, OnDomainBoundary g ∧ B.isDirichlet g = true

theorem run_local_unique (O : Layered d) (B : O.Boundary) (P : Data d ℚ) (h : O.Unique B P) (J : O.Coarse) :
    FreeInjective (O.patches.op J P.diffusion) (B.constrained J) :=
  patch_free_injective O.patches h.admissible.patches J h.localRule P.diffusion h.definite _
    ⟨fun _ => 0, h.constrained J _ ⟨⟨0, by have := h.dim; omega⟩, Or.inl rfl⟩⟩

theorem run_corrector_unique (O : Layered d) (B : O.Boundary) (P : Data d ℚ) (h : O.Unique B P) (J : O.Coarse)
    (Q Q' : Fin (2 ^ d) → O.Local J → ℚ) (N N' D D' : O.Local J → ℚ) (hQ : O.IsCorrector B P J Q N D)
    (hQ' : O.IsCorrector B P J Q' N' D') : Q = Q' ∧ N = N' ∧ D = D' := by
  have hinj := run_local_unique O B P h J
  refine ⟨funext fun k => unique_of_freeInjective hinj (hQ.inner k) (hQ'.inner k), ?_⟩
  by_cases hb : ∃ i, (J i).1 = 0 ∨ (J i).1 + 1 = O.base.cells i
  · exact ⟨unique_of_freeInjective hinj (hQ.neumann hb) (hQ'.neumann hb), unique_of_freeInjective hinj (hQ.dirichlet hb) (hQ'.dirichlet hb)⟩
  · rw [(hQ.inside hb).1, (hQ.inside hb).2, (hQ'.inside hb).1, (hQ'.inside hb).2]
    exact ⟨rfl, rfl⟩

/-- where coarse cell and domain boundary meet, the local grid ends -/
theorem shift_boundary (O : Layered d) (hO : O.Admissible) (J : O.Coarse) (node : Node O.base.micro) (h : LocalOnBoundary J node) :
    ∃ i, (O.shift hO J node i).1 = 0 ∨ (O.shift hO J node i).1 = (O.patches.grid J).elements i := by
  obtain ⟨l, h | h⟩ := h
  · refine ⟨l, Or.inl ?_⟩
    have : O.patches.left J l = 0 := by
      simp only [Patches.left, leftLayers, h.1]
      split_ifs with ho
      · simpa using ho
      · rfl
    show O.patches.left J l + (node l).1 = 0
    omega
  · refine ⟨l, Or.inr ?_⟩
    have hN : (0 : ℚ) < O.base.cells l := by exact_mod_cast hO.base.cells_pos l
    have hab : O.base.lower l < O.base.lower l + (O.base.cells l : ℚ) * O.base.width l := by
      have := mul_pos hN (hO.base.width_pos l)
      linarith
    have hel : (O.patches.grid J).elements l = O.base.micro l + (leftLayers (J l).1 (O.base.micro l) O.layers +
        if ((J l).1 + 1) * O.base.micro l + O.layers ≤ O.base.cells l * O.base.micro l then O.layers else 0) :=
      elements_coarseCell hab (hO.base.cells_pos l) (hO.base.micro_pos l)
    have hr : (if ((J l).1 + 1) * O.base.micro l + O.layers ≤ O.base.cells l * O.base.micro l then O.layers else 0) = 0 := by
      rw [h.1]
      split_ifs with ho
      · omega
      · rfl
    show O.patches.left J l + (node l).1 = _
    rw [hel, hr, h.2]
    show leftLayers (J l).1 (O.base.micro l) O.layers + O.base.micro l = _
    omega

/-- **C86** (coarse system) With oversampling the coarse system has exactly one solution if the local problems are constrained on the
boundaries of their grids: for every dimension, numbers of coarse and local cells and layers, every positive definite diffusion. -/
theorem C86_free_injective (O : Layered d) (B : O.Boundary) (P : Data d ℚ) (h : O.Unique B P)
    (Q : (J : O.Coarse) → Fin (2 ^ d) → O.Local J → ℚ) (qN qD : (J : O.Coarse) → O.Local J → ℚ)
    (hQ : ∀ J, O.IsCorrector B P J (Q J) (qN J) (qD J)) (tmp : Fin (2 ^ d) → Fin (2 ^ d) → ℚ) :
    FreeInjective (O.coarseMatrix P.diffusion (fun J => Manager.corrList (Q J) (qN J) (qD J)) tmp) B.isDirichlet := by
  rw [coarseMatrix_restrict O h.admissible P.diffusion _ tmp 0]
  refine free_injective_of_boundary h.dim O.base h.admissible.base h.matrixRule P.diffusion h.definite _ (fun J k node hn => ?_) 0 _
    h.refined h.dirichlet
  rw [map_corrList, corrList_inner]
  exact ((hQ J).inner k).boundary _ (h.constrained J _ (shift_boundary O h.admissible J node hn))

/-- **C86** (coarse system, arbitrary local solutions) If two directions have Dirichlet faces, the coarse system has exactly one solution
whatever functions the local problems returned, in particular if they were not solved accurately. -/
theorem C86_any_local_solutions (O : Layered d) (hO : O.Admissible) (hR : Resolving O.base.matrixRule) (B : O.Boundary) (P : Data d ℚ)
    (hpd : Definite P.diffusion) (i l : Fin d) (hil : i ≠ l) (hl : 2 ≤ O.base.micro l) (x : Fin (O.base.cells i + 1))
    (y : Fin (O.base.cells l + 1)) (hx : ∀ g : Node O.base.cells, g i = x → B.isDirichlet g = true)
    (hy : ∀ g : Node O.base.cells, g l = y → B.isDirichlet g = true) (xs : (J : O.Coarse) → List (O.Local J → ℚ))
    (tmp : Fin (2 ^ d) → Fin (2 ^ d) → ℚ) : FreeInjective (O.coarseMatrix P.diffusion xs tmp) B.isDirichlet := by
  rw [coarseMatrix_restrict O hO P.diffusion xs tmp 0]
  exact free_injective_two_directions O.base hO.base hR P.diffusion hpd _ 0 _ i l hil hl x y hx hy

theorem run_computed_unique (O : Layered d) (B : O.Boundary) (P : Data d ℚ) (h : O.Unique B P)
    (Q Q' : (J : O.Coarse) → Fin (2 ^ d) → O.Local J → ℚ) (qN qD qN' qD' : (J : O.Coarse) → O.Local J → ℚ)
    (u u' : Node O.base.cells → ℚ) (fine fine' : (J : O.Coarse) → O.Local J → ℚ) (hc : O.Computed h.admissible B P Q qN qD u fine)
    (hc' : O.Computed h.admissible B P Q' qN' qD' u' fine') : u = u' ∧ fine = fine' := by
  obtain rfl : Q = Q' := funext fun J => (run_corrector_unique O B P h J _ _ _ _ _ _ (hc.corrector J) (hc'.corrector J)).1
  obtain rfl : qN = qN' := funext fun J => (run_corrector_unique O B P h J _ _ _ _ _ _ (hc.corrector J) (hc'.corrector J)).2.1
  obtain rfl : qD = qD' := funext fun J => (run_corrector_unique O B P h J _ _ _ _ _ _ (hc.corrector J) (hc'.corrector J)).2.2
  have hinj := C86_free_injective O B P h Q qN qD hc.corrector 0
  rw [coarseMatrix_restrict O h.admissible P.diffusion _ 0 0] at hinj
  simp only [map_corrList] at hinj
  obtain rfl : u = u' := unique_of_freeInjective hinj hc.coarse hc'.coarse
  refine ⟨rfl, funext fun J => funext fun node => ?_⟩
  by_cases hn : O.layers = 0 ∨ O.patches.Covered J node
  · rw [hc.inner_eq J node hn, hc'.inner_eq J node hn]
  · rw [not_or] at hn
    rw [hc.outer_eq J node hn.1 hn.2, hc'.outer_eq J node hn.1 hn.2]

/-! ## Runs that succeed -/

/-- **C86** (success) A run with oversampling returns if no value is found invalid and the solvers return whenever their systems can be
solved. -/
theorem C86_succeeds (O : Layered d) (B : O.Boundary) (P : Data d ℚ) (h : O.Unique B P) (m : O.Machine)
    (hm : O.Works B P m) (hv : ∀ J, m.valid J = fun _ => true) (hcv : m.coarseValid = fun _ => true)
    (hl : ∀ J x b, (∃ y, constrainMat (B.constrained J)
        ((O.patches.cell J (B.constrained J) (O.localNeumann B P.neumann J)).matrix m.walks P.diffusion) *ᵥ y = b) →
      ∃ y, (m.solvers J).direct x b = .ok y)
    (hc : ∀ M b x, (∃ y, M *ᵥ y = b) → ∃ y, m.coarseSolver M b x = .ok y) :
    ∃ u res, O.apply B P m = .ok (u, res) := by
  have hO := h.admissible
  have hl' : ∀ J x b, ∃ y, (m.solvers J).direct x b = .ok y := by
    intro J x b
    apply hl
    set M := (O.patches.cell J (B.constrained J) (O.localNeumann B P.neumann J)).matrix m.walks P.diffusion with hM
    have hdet : IsUnit (constrainMat (B.constrained J) M).det := by
      rw [isUnit_iff_ne_zero]
      intro h0
      obtain ⟨v, hv, hv0⟩ := exists_mulVec_eq_zero_iff.mpr h0
      apply hv
      have hw : (m.walks : ℚ) ≠ 0 := by exact_mod_cast hm.walks
      have hmat : M = (m.walks : ℚ) • O.patches.op J P.diffusion := by
        ext a b
        rw [hM, matrix_apply]
        rfl
      apply run_local_unique O B P h J v
      · intro i hi
        have := congrFun hv0 i
        rw [constrainMat_mulVec] at this
        simpa [hi] using this
      · intro i hi
        have := congrFun hv0 i
        rw [constrainMat_mulVec, hmat, smul_mulVec] at this
        simpa [hi, hw] using this
    exact ⟨(constrainMat (B.constrained J) M)⁻¹ *ᵥ b, by rw [mulVec_mulVec, mul_nonsing_inv _ hdet, one_mulVec]⟩
  have hxs : ∀ J, ∃ xs, O.patches.solve J (B.constrained J) (O.localNeumann B P.neumann J) (m.valid J) (m.solvers J) true m.walks P.flux
      (O.extension B P) = .ok xs := by
    intro J
    unfold Patches.solve solveCell
    simp only
    rw [assembleRhs_eq, hv J]
    exact solveLoop_total _ (hl' J) _ _ _ _
  choose xs hxs using hxs
  choose Q qN qD hcl hcorr using fun J => correctors_of_run O hO B P m hm J (xs J) (hxs J)
  rw [run_eq O hO B P m hm.index_injective Q qN qD fun J => by rw [hxs J, hcl J]]
  obtain ⟨x, hx, -⟩ := C25_system_solvable _ (O.coarseLoad P.flux P.source (fun J => Manager.corrList (Q J) (qN J) (qD J)) m.tmpLoad
    (O.neumannPoints B P.neumann)) (fun g => P.dirichlet (Pipeline.nodePos O.base g)) _
    (C86_free_injective O B P h Q qN qD hcorr m.tmpMatrix)
  obtain ⟨y, hy⟩ := hc _ _ 0 ⟨x, hx⟩
  unfold coarseSolve
  dsimp only
  rw [hy, finishCoarse, hcv, if_pos rfl]
  exact ⟨_, _, rfl⟩

/-- Solvers that meet the contracts exist, so there is a successful run for every problem. -/
theorem C86_run_exists (O : Layered d) (B : O.Boundary) (P : Data d ℚ) (h : O.Unique B P)
    (hflux : ∀ x v, P.flux x v = P.diffusion x *ᵥ v) :
    ∃ m, O.Works B P m ∧ ∃ u res, O.apply B P m = .ok (u, res) := by
  classical
  let M : (J : O.Coarse) → Matrix (O.Local J) (O.Local J) ℚ := fun J =>
    constrainMat (B.constrained J) ((O.patches.cell J (B.constrained J) (O.localNeumann B P.neumann J)).matrix 1 P.diffusion)
  let pick : (J : O.Coarse) → (O.Local J → ℚ) → Outcome (O.Local J → ℚ) := fun J b =>
    if hb : ∃ y, M J *ᵥ y = b then .ok hb.choose else .throw
  have hpick : ∀ J b x, pick J b = .ok x → M J *ᵥ x = b := by
    intro J b x hx
    simp only [pick] at hx
    split_ifs at hx with hb
    injection hx with hx
    rw [← hx]
    exact hb.choose_spec
  let m : O.Machine :=
    { walks := 1, valid := fun _ _ => true, solvers := fun J => ⟨fun _ b => pick J b, fun b _ => pick J b⟩, coarseValid := fun _ => true
      coarseSolver := fun M b _ => if hb : ∃ y, M *ᵥ y = b then .ok hb.choose else .failed
      tmpMatrix := 0, tmpLoad := 0, index := O.base.order.idxOf }
  have hm : O.Works B P m :=
    { walks := one_ne_zero
      flux := hflux
      local_correct := fun J => ⟨fun _ b x hx => hpick J b x hx, fun b _ x hx => hpick J b x hx⟩
      coarse_correct := by
        intro A b x0 x hx
        simp only [m] at hx
        split_ifs at hx with hb
        injection hx with hx
        rw [← hx]
        exact hb.choose_spec
      index_injective := fun J J' e => (List.idxOf_inj (h.admissible.base.order_complete J)).mp e }
  refine ⟨m, hm, C86_succeeds O B P h m hm (fun _ => rfl) rfl ?_ ?_⟩
  · intro J x b hb
    exact ⟨hb.choose, dif_pos hb⟩
  · intro A b x hb
    exact ⟨hb.choose, dif_pos hb⟩

/-- **C86** (reproducible) The result does not depend on solvers, indices, contents of temporaries and the number of walks. -/
theorem C86_unique (O : Layered d) (B : O.Boundary) (P : Data d ℚ) (h : O.Unique B P) (m m' : O.Machine) (hm : O.Works B P m)
    (hm' : O.Works B P m') (u u' : Node O.base.cells → ℚ) (res res' : List (O.Point → ℚ)) (hr : O.apply B P m = .ok (u, res))
    (hr' : O.apply B P m' = .ok (u', res')) : u = u' ∧ res = res' := by
  obtain ⟨Q, qN, qD, fine, hc, rfl⟩ := run_spec O h.admissible B P m hm u res hr
  obtain ⟨Q', qN', qD', fine', hc', rfl⟩ := run_spec O h.admissible B P m' hm' u' res' hr'
  obtain ⟨rfl, rfl⟩ := run_computed_unique O B P h _ _ _ _ _ _ _ _ _ _ hc hc'
  exact ⟨rfl, rfl⟩

/-! ## Superposition -/

theorem overlapNeumann_apply (O : Layered d) (B : O.Boundary) (g : (Fin d → ℚ) → ℚ) (J : O.Coarse) (node : O.Local J) :
    O.localNeumann B g J node = ((B.localFaces J).map fun p => ∑ k : Fin (2 ^ d), if node = cornerNode p.cell (corner k) then
      p.weight * g (globalPos (O.patches.grid J).lower (O.patches.patchWidth J) p.cell p.pos) * shape (corner k) p.pos else 0).sum := by
  unfold Layered.localNeumann
  rw [foldl_contrib (R := ℚ) (B.localFaces J) _ (fun b : O.Local J → ℚ => b node) (fun p => ∑ k : Fin (2 ^ d),
    if node = cornerNode p.cell (corner k) then
      p.weight * g (globalPos (O.patches.grid J).lower (O.patches.patchWidth J) p.cell p.pos) * shape (corner k) p.pos else 0),
    Pi.zero_apply, zero_add]
  intro b p
  rw [foldl_contrib (R := ℚ) (List.finRange (2 ^ d)) _ (fun b : O.Local J → ℚ => b node) (fun k =>
    if node = cornerNode p.cell (corner k) then
      p.weight * g (globalPos (O.patches.grid J).lower (O.patches.patchWidth J) p.cell p.pos) * shape (corner k) p.pos else 0)]
  · rw [sum_finRange]
  · intro b k
    exact addToVec_apply _ _ _ _

theorem overlapNeumann_comb (O : Layered d) (B : O.Boundary) (a b : ℚ) (g g1 g2 : (Fin d → ℚ) → ℚ) (h : ∀ x, g x = a * g1 x + b * g2 x)
    (J : O.Coarse) : O.localNeumann B g J = a • O.localNeumann B g1 J + b • O.localNeumann B g2 J := by
  funext node
  simp only [Pi.add_apply, Pi.smul_apply, smul_eq_mul, overlapNeumann_apply]
  rw [← FemSolver.sum_map_comb]
  refine congrArg List.sum (List.map_congr_left fun p _ => ?_)
  rw [Finset.mul_sum, Finset.mul_sum, ← Finset.sum_add_distrib]
  refine Finset.sum_congr rfl fun k _ => ?_
  rw [h]
  split_ifs <;> ring

theorem coarsePoints_comb (O : Layered d) (B : O.Boundary) (a b : ℚ) (g g1 g2 : (Fin d → ℚ) → ℚ) (h : ∀ x, g x = a * g1 x + b * g2 x) :
    femNeumann O.base (O.neumannPoints B g) = a • femNeumann O.base (O.neumannPoints B g1) + b • femNeumann O.base (O.neumannPoints B g2) := by
  funext node
  simp only [Pi.add_apply, Pi.smul_apply, smul_eq_mul, femNeumann, Layered.neumannPoints, List.map_map]
  rw [← FemSolver.sum_map_comb]
  refine congrArg List.sum (List.map_congr_left fun p _ => ?_)
  simp only [Function.comp_apply]
  rw [Finset.mul_sum, Finset.mul_sum, ← Finset.sum_add_distrib]
  refine Finset.sum_congr rfl fun k _ => ?_
  rw [h]
  split_ifs <;> ring

theorem prolong_comb (P : Patches d) (J : CellIndex P.cells) (a b : ℚ) (v w : Node P.cells → ℚ) :
    P.prolong J (a • v + b • w) = a • P.prolong J v + b • P.prolong J w := by
  funext node
  simp only [Patches.prolong, Patches.coarseValue, Pi.add_apply, Pi.smul_apply, smul_eq_mul, Finset.mul_sum, ← Finset.sum_add_distrib]
  refine Finset.sum_congr rfl fun g _ => ?_
  ring

theorem extension_comb (O : Layered d) (B : O.Boundary) (P P1 P2 : Data d ℚ) (a b : ℚ)
    (h : ∀ x, P.dirichlet x = a * P1.dirichlet x + b * P2.dirichlet x) :
    O.extension B P = a • O.extension B P1 + b • O.extension B P2 := by
  funext g
  simp only [Layered.extension, dirichletProject, h, Pi.zero_apply, Pi.add_apply, Pi.smul_apply, smul_eq_mul]
  split_ifs <;> ring

theorem run_corrector_comb (O : Layered d) (B : O.Boundary) (P P1 P2 : Data d ℚ) (a b : ℚ) (h1 : P1.diffusion = P.diffusion)
    (h2 : P2.diffusion = P.diffusion) (hN : ∀ x, P.neumann x = a * P1.neumann x + b * P2.neumann x)
    (hD : ∀ x, P.dirichlet x = a * P1.dirichlet x + b * P2.dirichlet x) (J : O.Coarse)
    (Q : Fin (2 ^ d) → O.Local J → ℚ) (N1 D1 N2 D2 : O.Local J → ℚ) (hc1 : O.IsCorrector B P1 J Q N1 D1)
    (hc2 : O.IsCorrector B P2 J Q N2 D2) : O.IsCorrector B P J Q (a • N1 + b • N2) (a • D1 + b • D2) := by
  have hz : a • (0 : O.Local J → ℚ) + b • (0 : O.Local J → ℚ) = 0 := by simp
  obtain ⟨i1, n1, m1, d1⟩ := hc1
  obtain ⟨i2, n2, m2, d2⟩ := hc2
  rw [h1] at i1 m1 d1
  rw [h2] at i2 m2 d2
  refine ⟨i1, fun hb => ?_, fun hb => ?_, fun hb => ?_⟩
  · rw [(n1 hb).1, (n1 hb).2, (n2 hb).1, (n2 hb).2, hz]
    exact ⟨rfl, rfl⟩
  · have := isSolution_comb a b (m1 hb) (m2 hb)
    rwa [hz, ← overlapNeumann_comb O B a b P.neumann _ _ hN J] at this
  · have := isSolution_comb a b (d1 hb) (d2 hb)
    rw [hz] at this
    convert this using 1
    · rfl
    rw [smul_neg, smul_neg, ← mulVec_smul, ← mulVec_smul, ← neg_add, ← mulVec_add, extension_comb O B P P1 P2 a b hD, prolong_comb]

theorem run_computed_comb (O : Layered d) (B : O.Boundary) (P P1 P2 : Data d ℚ) (a b : ℚ) (h1 : P1.diffusion = P.diffusion)
    (h2 : P2.diffusion = P.diffusion) (hx : ∀ x v, P.flux x v = P.diffusion x *ᵥ v) (hx1 : ∀ x v, P1.flux x v = P1.diffusion x *ᵥ v)
    (hx2 : ∀ x v, P2.flux x v = P2.diffusion x *ᵥ v)
    (hf : ∀ x, P.source x = a * P1.source x + b * P2.source x) (hN : ∀ x, P.neumann x = a * P1.neumann x + b * P2.neumann x)
    (hD : ∀ x, P.dirichlet x = a * P1.dirichlet x + b * P2.dirichlet x) (h : O.Unique B P)
    (Q1 Q2 : (J : O.Coarse) → Fin (2 ^ d) → O.Local J → ℚ) (N1 D1 N2 D2 : (J : O.Coarse) → O.Local J → ℚ)
    (u1 u2 : Node O.base.cells → ℚ) (f1 f2 : (J : O.Coarse) → O.Local J → ℚ)
    (hc1 : O.Computed h.admissible B P1 Q1 N1 D1 u1 f1) (hc2 : O.Computed h.admissible B P2 Q2 N2 D2 u2 f2) :
    O.Computed h.admissible B P Q1 (fun J => a • N1 J + b • N2 J) (fun J => a • D1 J + b • D2 J) (a • u1 + b • u2)
      (fun J => a • f1 J + b • f2 J) := by
  obtain rfl : Q1 = Q2 := by
    funext J k
    have i1 := (hc1.corrector J).inner k
    have i2 := (hc2.corrector J).inner k
    rw [h1] at i1
    rw [h2] at i2
    exact unique_of_freeInjective (run_local_unique O B P h J) i1 i2
  refine ⟨fun J => run_corrector_comb O B P P1 P2 a b h1 h2 hN hD J _ _ _ _ _ (hc1.corrector J) (hc2.corrector J), ?_,
    fun J node hn => ?_, fun J node hl hn => ?_⟩
  · have c1 := hc1.coarse
    have c2 := hc2.coarse
    rw [coarseMatrix_points O.base P1.diffusion (fun J k => O.restrict h.admissible J (Q1 J k)) (fun J => O.restrict h.admissible J (N1 J))
      (fun J => O.restrict h.admissible J (D1 J)), coarseLoad_points O.base _ _ hx1 _ (fun J k => O.restrict h.admissible J (Q1 J k))
      (fun J => O.restrict h.admissible J (N1 J)) (fun J => O.restrict h.admissible J (D1 J)), h1] at c1
    rw [coarseMatrix_points O.base P2.diffusion (fun J k => O.restrict h.admissible J (Q1 J k)) (fun J => O.restrict h.admissible J (N2 J))
      (fun J => O.restrict h.admissible J (D2 J)), coarseLoad_points O.base _ _ hx2 _ (fun J k => O.restrict h.admissible J (Q1 J k))
      (fun J => O.restrict h.admissible J (N2 J)) (fun J => O.restrict h.admissible J (D2 J)), h2] at c2
    have hr : ∀ J (v w : O.Local J → ℚ), O.restrict h.admissible J (a • v + b • w) =
        a • O.restrict h.admissible J v + b • O.restrict h.admissible J w := fun J v w => rfl
    simp only [hr]
    rw [coarseMatrix_points O.base P.diffusion (fun J k => O.restrict h.admissible J (Q1 J k))
        (fun J => a • O.restrict h.admissible J (N1 J) + b • O.restrict h.admissible J (N2 J))
        (fun J => a • O.restrict h.admissible J (D1 J) + b • O.restrict h.admissible J (D2 J)),
      coarseLoad_points O.base _ _ hx _ (fun J k => O.restrict h.admissible J (Q1 J k))
        (fun J => a • O.restrict h.admissible J (N1 J) + b • O.restrict h.admissible J (N2 J))
        (fun J => a • O.restrict h.admissible J (D1 J) + b • O.restrict h.admissible J (D2 J)),
      load_comb O.base O.base.loadRule P.diffusion a b P.source _ _ hf, coarsePoints_comb O B a b P.neumann _ _ hN]
    have := isSolution_comb a b c1 c2
    convert this using 1
    · rfl
    · rw [smul_add, smul_add]
      abel
    · funext g
      simp only [hD, Pi.add_apply, Pi.smul_apply, smul_eq_mul]
  · simp only [Pi.add_apply, Pi.smul_apply, smul_eq_mul, hc1.inner_eq J node hn, hc2.inner_eq J node hn,
      congrFun (prolong_comb O.patches J a b u1 u2) node, add_mul, Finset.sum_add_distrib, mul_assoc, ← Finset.mul_sum]
    ring
  · simp only [Pi.add_apply, Pi.smul_apply, smul_eq_mul, hc1.outer_eq J node hl hn, hc2.outer_eq J node hl hn,
      congrFun (prolong_comb O.patches J a b u1 u2) node]
    ring

theorem embed_comb (O : Layered d) (J : O.Coarse) (a b : ℚ) (v w : O.Local J → ℚ) :
    O.embed J (a • v + b • w) = a • O.embed J v + b • O.embed J w := by
  funext p
  simp only [Layered.embed, Pi.add_apply, Pi.smul_apply, smul_eq_mul]
  split_ifs
  · rfl
  · ring

/-- **C86** (superposition) If source, Neumann data and Dirichlet data of a problem are a combination of those of two problems with the same
diffusion, then with any number of layers the coarse solution and the solution on every local grid are the same combination. -/
theorem C86_superposition (O : Layered d) (B : O.Boundary) (P P1 P2 : Data d ℚ) (h : O.Unique B P) (a b : ℚ)
    (h1 : P1.diffusion = P.diffusion) (h2 : P2.diffusion = P.diffusion)
    (hf : ∀ x, P.source x = a * P1.source x + b * P2.source x) (hN : ∀ x, P.neumann x = a * P1.neumann x + b * P2.neumann x)
    (hD : ∀ x, P.dirichlet x = a * P1.dirichlet x + b * P2.dirichlet x) (m m1 m2 : O.Machine) (hm : O.Works B P m)
    (hm1 : O.Works B P1 m1) (hm2 : O.Works B P2 m2) (u u1 u2 : Node O.base.cells → ℚ) (res res1 res2 : List (O.Point → ℚ))
    (hr : O.apply B P m = .ok (u, res)) (hr1 : O.apply B P1 m1 = .ok (u1, res1)) (hr2 : O.apply B P2 m2 = .ok (u2, res2)) :
    u = a • u1 + b • u2 ∧ res = List.zipWith (fun v w => a • v + b • w) res1 res2 := by
  obtain ⟨Q, qN, qD, fine, hc, rfl⟩ := run_spec O h.admissible B P m hm u res hr
  obtain ⟨Q1, qN1, qD1, fine1, hc1, rfl⟩ := run_spec O h.admissible B P1 m1 hm1 u1 res1 hr1
  obtain ⟨Q2, qN2, qD2, fine2, hc2, rfl⟩ := run_spec O h.admissible B P2 m2 hm2 u2 res2 hr2
  have := run_computed_comb O B P P1 P2 a b h1 h2 hm.flux hm1.flux hm2.flux hf hN hD h _ _ _ _ _ _ _ _ _ _ hc1 hc2
  obtain ⟨rfl, rfl⟩ := run_computed_unique O B P h _ _ _ _ _ _ _ _ _ _ hc this
  refine ⟨rfl, ?_⟩
  rw [List.zipWith_map, List.zipWith_self]
  exact List.map_congr_left fun J _ => embed_comb O J a b _ _

/-! ## Every cell of a run -/

/-- **C86** (cells) On every coarse cell the run computes what Props/Oversampling analyses (C73), with the Dirichlet extension of the problem. -/
theorem C86_cell (O : Layered d) (hO : O.Admissible) (B : O.Boundary) (P : Data d ℚ) (m : O.Machine) (hm : O.Works B P m)
    (u : Node O.base.cells → ℚ) (res : List (O.Point → ℚ)) (h : O.apply B P m = .ok (u, res)) :
    ∃ fine : (J : O.Coarse) → O.Local J → ℚ, res = O.base.order.map (fun J => O.embed J (fine J)) ∧
      ∀ J, O.patches.Computes J (B.constrained J) (O.localNeumann B P.neumann J) P.diffusion (O.extension B P) u (fine J) := by
  choose xs hxs using solves_of_run O hO B P m u res h
  choose Q qN qD hcl hcorr using fun J => correctors_of_run O hO B P m hm J (xs J) (hxs J)
  rw [run_eq O hO B P m hm.index_injective Q qN qD fun J => by rw [hxs J, hcl J]] at h
  split at h
  · rename_i v hv
    injection h with h
    injection h with hu hr
    subst hu
    refine ⟨O.result Q qN qD v, hr.symm, fun J => ⟨m.walks, P.flux, m.valid J, m.solvers J, xs J, [(0, xs J)], 0, hm.walks, hm.flux,
      hm.local_correct J, hxs J, by simp, List.mem_singleton.mpr rfl, ?_⟩⟩
    obtain ⟨g1, g2, -⟩ := Manager.solveAll_spec (Manager.wf_init (V := O.Local J → ℚ)) [(0, xs J)] (by simp)
    obtain ⟨w', e1, -⟩ := Manager.reconstruct_spec (Manager.solveAll Manager.World.init [(0, xs J)]) g1 0 O.patches.layers
      (O.patches.visits J) (Q J) (qN J) (qD J) (fun k => v (cornerNode J (corner k)))
      (by rw [g2 _ (List.mem_singleton.mpr rfl), hcl J]; simp [Manager.World.stored, Manager.World.init])
    rw [Patches.solution, e1]
    show Outcome.ok _ = Outcome.ok _
    congr 1
    funext node
    simp only [Layered.result, Pi.add_apply, Pi.sub_apply]
    congr 3
    have hsum : (∑ k, v (cornerNode J (corner k)) • Q J k) node = ∑ k, v (cornerNode J (corner k)) * Q J k node := by
      rw [Finset.sum_apply]
      rfl
    by_cases ho : O.layers > 0
    · rw [if_pos ho, Manager.cut_apply, hsum]
      refine if_congr ?_ rfl rfl
      simp only [ho, true_and]
      constructor
      · rintro ⟨⟨n, t⟩, hb, rfl, hb2⟩
        have := (visits_all O hO J n t).mp hb
        rw [← this]
        exact hb2
      · intro h
        exact ⟨(node, false), (visits_all O hO J node false).mpr h.symm, rfl, rfl⟩
    · rw [if_neg ho, if_neg (fun h => ho h.1), hsum]
  · cases h
  · cases h

/-! ## Scaling -/

/-- **C86** (units) If diffusion, source and Neumann data are multiplied by the same positive number, the result of a run with oversampling
stays the same. -/
theorem C86_scaling (O : Layered d) (B : O.Boundary) (P P' : Data d ℚ) (h : O.Unique B P) (c : ℚ) (hc0 : 0 < c)
    (hA : ∀ x, P'.diffusion x = c • P.diffusion x) (hf : ∀ x, P'.source x = c * P.source x)
    (hN : ∀ x, P'.neumann x = c * P.neumann x) (hD : P'.dirichlet = P.dirichlet) (m m' : O.Machine) (hm : O.Works B P m)
    (hm' : O.Works B P' m') (u u' : Node O.base.cells → ℚ) (res res' : List (O.Point → ℚ))
    (hr : O.apply B P m = .ok (u, res)) (hr' : O.apply B P' m' = .ok (u', res')) : u' = u ∧ res' = res := by
  obtain ⟨Q, qN, qD, fine, hc, rfl⟩ := run_spec O h.admissible B P m hm u res hr
  obtain ⟨Q', qN', qD', fine', hc', rfl⟩ := run_spec O h.admissible B P' m' hm' u' res' hr'
  have e : ∀ J, O.patches.op J P'.diffusion = c • O.patches.op J P.diffusion := by
    intro J
    ext i j
    have hs : samples P'.diffusion ((O.patches.localOrder (O.patches.grid J).elements).map
          (element (O.patches.grid J).lower (O.patches.patchWidth J) O.patches.localRule)) =
        (samples P.diffusion ((O.patches.localOrder (O.patches.grid J).elements).map
          (element (O.patches.grid J).lower (O.patches.patchWidth J) O.patches.localRule))).map (scaleSample c) := by
      simp only [samples, List.map_flatMap, List.map_map]
      refine List.flatMap_congr fun e _ => List.map_congr_left fun q _ => ?_
      simp only [Function.comp_apply, scaleSample, hA, mul_zero]
    rw [Matrix.smul_apply, smul_eq_mul, Patches.op, Patches.op, stiff, stiff, Matrix.of_apply, Matrix.of_apply, hs, stiffness_scale]
  have hext : O.extension B P' = O.extension B P := by
    funext g
    simp only [Layered.extension, hD]
  have hneu : ∀ J, O.localNeumann B P'.neumann J = c • O.localNeumann B P.neumann J := fun J => by
    have := overlapNeumann_comb O B c 0 P'.neumann P.neumann P.neumann (fun x => by rw [hN]; ring) J
    rwa [zero_smul, add_zero] at this
  have hsamples : ∀ rule f f' (_ : ∀ x, f' x = c * f x) Q (N D : O.Coarse → Node O.base.micro → ℚ),
      (points O.base rule).map (sampleAt O.base P'.diffusion f' Q N D) =
      ((points O.base rule).map (sampleAt O.base P.diffusion f Q N D)).map (scaleSample c) := by
    intro rule f f' hff Q N D
    rw [List.map_map]
    refine List.map_congr_left fun t _ => ?_
    simp only [Function.comp_apply, scaleSample, sampleAt, hA, hff]
  have hu' : O.Unique B P' := ⟨h.dim, h.admissible, h.localRule, h.matrixRule, fun x v hv => by
    rw [hA, smul_mulVec, smul_dotProduct, smul_eq_mul]
    exact mul_pos hc0 (h.definite x v hv), h.constrained, h.refined, h.dirichlet⟩
  have key : O.Computed h.admissible B P' Q qN qD u fine := by
    refine ⟨fun J => ⟨fun k => ?_, (hc.corrector J).inside, fun hb => ?_, fun hb => ?_⟩, ?_, hc.inner_eq, hc.outer_eq⟩
    · rw [e, smul_mulVec, ← smul_neg]
      exact isSolution_scale c ((hc.corrector J).inner k)
    · rw [e, hneu]
      exact isSolution_scale c ((hc.corrector J).neumann hb)
    · rw [e, smul_mulVec, ← smul_neg, hext]
      exact isSolution_scale c ((hc.corrector J).dirichlet hb)
    · have := isSolution_scale c hc.coarse
      rw [coarseMatrix_points O.base P.diffusion (fun J k => O.restrict h.admissible J (Q J k)) (fun J => O.restrict h.admissible J (qN J))
        (fun J => O.restrict h.admissible J (qD J)), coarseLoad_points O.base _ _ hm.flux _ (fun J k => O.restrict h.admissible J (Q J k))
        (fun J => O.restrict h.admissible J (qN J)) (fun J => O.restrict h.admissible J (qD J))] at this
      rw [coarseMatrix_points O.base P'.diffusion (fun J k => O.restrict h.admissible J (Q J k)) (fun J => O.restrict h.admissible J (qN J))
        (fun J => O.restrict h.admissible J (qD J)), coarseLoad_points O.base _ _ hm'.flux _ (fun J k => O.restrict h.admissible J (Q J k))
        (fun J => O.restrict h.admissible J (qN J)) (fun J => O.restrict h.admissible J (qD J)),
        hsamples _ P.source P'.source hf, hsamples _ 0 0 (by simp), hD]
      convert this using 1
      · rfl
      · ext a b
        rw [Matrix.of_apply, stiffness_scale]
        rfl
      · have hp := coarsePoints_comb O B c 0 P'.neumann P.neumann P.neumann (fun x => by rw [hN]; ring)
        rw [zero_smul, add_zero] at hp
        rw [hp, smul_add]
        congr 1
        funext a
        rw [load_scale]
        rfl
  obtain ⟨rfl, rfl⟩ := run_computed_unique O B P' hu' _ _ _ _ _ _ _ _ _ _ hc' key
  exact ⟨rfl, rfl⟩

/-! ## The registered problems -/

open Verif.Boundary in
/-- **C86** (conditions) Synthetic, ER2007 and Random meet the conditions of the theorems above on every grid with at least two local cells
per coarse cell in some direction, for every number of layers and every positive definite diffusion. -/
theorem C86_problems (hd : d = 2 ∨ d = 3) (close : (Fin d → ℚ) → (Fin d → ℚ) → Bool) (hc : Tolerance close) (p : Problem)
    (hp : p = .synthetic ∨ p = .er2007 ∨ p = .random) (normal : Face d → Fin d → ℚ) (hn : ∀ f, Boundary.Computed (normal f) f) :
    ∃ info subInfo, boundaryInfo d p none = .ok info ∧ subBoundaryInfo d p none = .ok subInfo ∧
      ∀ (O : Layered d), O.Admissible → Resolving O.base.localRule → Resolving O.base.matrixRule → (∃ l, 2 ≤ O.base.micro l) →
        ∀ (P : Data d ℚ), Definite P.diffusion → ∀ faces localFaces,
        O.Unique ⟨dirichletNodes close info normal O.base.cells, fun J => dirichletNodes close subInfo normal (O.patches.grid J).elements, faces,
          localFaces⟩ P := by
  obtain ⟨info, hi, hf⟩ := C60_dirichlet_faces hd close hc p
  obtain ⟨subInfo, hsub, -⟩ := C61_all_constrained_partial close p hp none normal (fun _ => 1) (fun _ => 0)
  refine ⟨info, subInfo, hi, hsub, fun O hO hR hR' hm P hpd faces localFaces => ⟨by omega, hO, hR, hR', hpd, fun J node hnode => ?_, hm, ?_⟩⟩
  · obtain ⟨subInfo', hsub', hiff⟩ := C61_all_constrained_partial close p hp none normal (O.patches.grid J).elements (fun i => (node i).1)
    rw [hsub] at hsub'
    injection hsub' with hsub'
    subst hsub'
    exact hiff.mpr hnode
  · obtain ⟨⟨i, b⟩, hface⟩ := C60_some_dirichlet hd p
    refine ⟨fun l => if b then ⟨O.base.cells l, by omega⟩ else ⟨0, by omega⟩, ⟨i, by cases b <;> simp⟩, ?_⟩
    show dirichletNodes close info normal O.base.cells _ = true
    rw [dirichletNodes, constrainedNode_iff]
    refine ⟨i, ?_⟩
    cases b
    · left
      exact ⟨by simp, (hf _ _ (hn _)).mpr hface⟩
    · right
      exact ⟨by simp, (hf _ _ (hn _)).mpr hface⟩

/-- Instance: flow from one side of the unit square to the other with every number of layers up to the size of a coarse cell. -/
example (N m o : ℕ) (hN : 0 < N) (hm : 2 ≤ m) (ho : o ≤ m) : ∃ (O : Layered 2) (B : O.Boundary) (P : Data 2 ℚ),
    O.base = demoSetup 2 N m ∧ O.layers = o ∧ O.Unique B P ∧ (∀ x, P.diffusion x = diagonal ![1 + x 0 ^ 2, 2]) ∧
    ∃ mach, O.Works B P mach ∧ ∃ u res, O.apply B P mach = .ok (u, res) := by
  let O : Layered 2 := ⟨demoSetup 2 N m, o, fun e => (Finset.univ : Finset (CellIndex e)).toList, 0⟩
  let B : O.Boundary := ⟨fun g => decide ((g 0).1 = 0 ∨ (g 0).1 = N),
    fun J g => decide (∃ i, (g i).1 = 0 ∨ (g i).1 = (O.patches.grid J).elements i), [], fun _ => []⟩
  let P : Data 2 ℚ := ⟨fun x => diagonal ![1 + x 0 ^ 2, 2], fun x v => diagonal ![1 + x 0 ^ 2, 2] *ᵥ v, fun _ => 1, fun _ => 0, fun x => 1 - x 0⟩
  have hb := demo_admissible 2 N m hN (by omega)
  have hO : O.Admissible := ⟨hb, Finset.nodup_toList _, Finset.nodup_toList _,
    ⟨hb.width_pos, hb.cells_pos, hb.micro_pos, fun _ => Or.inr ho, by simp [O], by simp [O, Finset.nodup_toList], le_refl _⟩, by simp [O]⟩
  have hu : O.Unique B P := ⟨le_refl _, hO, demo_resolving 2 N m, demo_resolving 2 N m,
    fun x => definite_diagonal _ (fun i => by fin_cases i <;> simp; positivity) x, fun J node h => decide_eq_true h, ⟨0, hm⟩,
    ⟨fun _ => 0, ⟨0, Or.inl rfl⟩, decide_eq_true (p := (0 : ℕ) = 0 ∨ (0 : ℕ) = N) (Or.inl rfl)⟩⟩
  exact ⟨O, B, P, rfl, rfl, hu, fun _ => rfl, C86_run_exists O B P hu fun _ _ => rfl⟩

end Verif.Oversampling
