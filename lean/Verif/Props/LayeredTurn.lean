import Verif.Props.OversampledRun
import Verif.Props.Turn

/-!
# C90: mirrored domains and renamed directions in runs with oversampling
-/

namespace Verif.Spec.Turning

/-- Positions `a` and `b` in rows of `n` and `n'` cells or nodes are the same in both coordinates. -/
def Turn.Same {d : ℕ} (T : Turn d) {n n' : Fin d → ℕ} (a : ∀ i, Fin (n i)) (b : ∀ i, Fin (n' i)) : Prop :=
  ∀ i, (b i).1 = if T.mirror i then n (T.axis i) - 1 - (a (T.axis i)).1 else (a (T.axis i)).1

end Verif.Spec.Turning

namespace Verif.Oversampling
open Matrix Verif.CoarseAssembly Verif.LocalAssembly Verif.LocalSolve Verif.LocalGrid Verif.Q1Grid Verif.DirichletSolve Verif.Pipeline
open Verif.Spec.Galerkin Verif.Spec.Dirichlet Verif.Spec.Turning

variable {d : ℕ}

/-- The grids in the new coordinates; `ord` are the orders in which the cells of local grids are visited. -/
abbrev Layered.turned (O : Layered d) (T : Turn d) (W : Walk O.base T) (ord : (e : Fin d → ℕ) → List (CellIndex e)) : Layered d :=
  ⟨turnedSetup O.base T W, O.layers, ord, O.tol⟩

/-- The same problem in new coordinates. -/
structure Layered.TurnedProblem (O : Layered d) (T : Turn d) (W : Walk O.base T) (ord : (e : Fin d → ℕ) → List (CellIndex e))
    (B : O.Boundary) (B' : (O.turned T W ord).Boundary) (P P' : Data d ℚ) : Prop where
  order : W.order.Perm (O.base.order.map T.count)
  localOrder : W.localOrder.Perm (O.base.localOrder.map T.count)
  patchOrder : ∀ e j, j ∈ ord e
  patchOrder_nodup : ∀ e, (ord e).Nodup
  localRule : W.localRule.Perm (O.base.localRule.map (turnQ T))
  matrixRule : W.matrixRule.Perm (O.base.matrixRule.map (turnQ T))
  loadRule : W.loadRule.Perm (O.base.loadRule.map (turnQ T))
  diffusion : ∀ x, P'.diffusion (T.point O.base.lower (upper O.base) x) = T.tensor (P.diffusion x)
  source : ∀ x, P'.source (T.point O.base.lower (upper O.base) x) = P.source x
  neumann : ∀ x, P'.neumann (T.point O.base.lower (upper O.base) x) = P.neumann x
  dirichlet : ∀ x, P'.dirichlet (T.point O.base.lower (upper O.base) x) = P.dirichlet x
  isDirichlet : ∀ g, B'.isDirichlet (T.count g) = B.isDirichlet g
  constrained : ∀ J node node', T.Same node node' → B'.constrained (T.count J) node' = B.constrained J node
  faces : B'.faces.Perm (B.faces.map (turnFace T))
  localFaces : ∀ J, ∃ l, l.Perm (B.localFaces J) ∧ List.Forall₂ (fun p p' => T.Same p.cell p'.cell ∧ p'.pos = T.point 0 1 p.pos ∧
    p'.weight = p.weight) l (B'.localFaces (T.count J))

/-! ## Grids with the numbers of cells of a turned grid -/

/-- nodes or cells -/
noncomputable def turnEquiv (T : Turn d) {n n' : Fin d → ℕ} (h : n' = fun i => n (T.axis i)) : (∀ i, Fin (n i)) ≃ ∀ i, Fin (n' i) :=
  (countEquiv T).trans (Equiv.piCongrRight fun i => finCongr (by rw [h]))

theorem turnEquiv_rfl (T : Turn d) {n : Fin d → ℕ} (m : ∀ i, Fin (n i)) : turnEquiv T (n' := fun i => n (T.axis i)) rfl m = T.count m := rfl

theorem turnEquiv_val (T : Turn d) {n n' : Fin d → ℕ} (h : n' = fun i => n (T.axis i)) (m : ∀ i, Fin (n i)) (i : Fin d) :
    (turnEquiv T h m i).1 = if T.mirror i then n (T.axis i) - 1 - (m (T.axis i)).1 else (m (T.axis i)).1 := by
  subst h
  rw [turnEquiv_rfl, Turn.count]
  split_ifs
  · rw [Fin.val_rev]
    dsimp only
    omega
  · rfl

theorem same_turnEquiv (T : Turn d) {n n' : Fin d → ℕ} (h : n' = fun i => n (T.axis i)) (m : ∀ i, Fin (n i)) : T.Same m (turnEquiv T h m) :=
  turnEquiv_val T h m

theorem same_iff (T : Turn d) {n n' : Fin d → ℕ} (h : n' = fun i => n (T.axis i)) (m : ∀ i, Fin (n i)) (m' : ∀ i, Fin (n' i)) :
    T.Same m m' ↔ m' = turnEquiv T h m := by
  refine ⟨fun hs => funext fun i => Fin.ext ((hs i).trans (turnEquiv_val T h m i).symm), fun e => ?_⟩
  rw [e]
  exact same_turnEquiv T h m

/-- nodes -/
noncomputable abbrev turnNode (T : Turn d) {E E' : Fin d → ℕ} (h : E' = fun i => E (T.axis i)) : Node E ≃ Node E' :=
  turnEquiv T (n := fun i => E i + 1) (n' := fun i => E' i + 1) (by rw [h])

theorem turnNode_corner (T : Turn d) {E E' : Fin d → ℕ} (h : E' = fun i => E (T.axis i)) (j : CellIndex E) (w : Fin d → Bool) :
    cornerNode (turnEquiv T h j) (T.bits w) = turnNode T h (cornerNode j w) := by
  subst h
  exact cornerNode_turn T j w

theorem stiff_turn (T : Turn d) {E E' : Fin d → ℕ} (h : E' = fun i => E (T.axis i)) (lower lower' width width' : Fin d → ℚ)
    (hw : width' = fun i => width (T.axis i)) (rule rule' : List (QPoint d ℚ)) (hr : rule'.Perm (rule.map (turnQ T)))
    (l : List (CellIndex E)) (l' : List (CellIndex E')) (hl : l'.Perm (l.map (turnEquiv T h)))
    (D D' : (Fin d → ℚ) → Matrix (Fin d) (Fin d) ℚ)
    (hD : ∀ j x, D' (globalPos lower' width' (turnEquiv T h j) (T.point 0 1 x)) = T.tensor (D (globalPos lower width j x)))
    (a b : Node E) :
    stiff D' (l'.map (element lower' width' rule')) (turnNode T h a) (turnNode T h b) = stiff D (l.map (element lower width rule)) a b := by
  subst h hw
  have hs : (samples D' (l'.map (element lower' (fun i => width (T.axis i)) rule'))).Perm
      ((samples D (l.map (element lower width rule))).map (turnSample T)) := by
    simp only [samples, List.map_flatMap, List.flatMap_map, List.map_map]
    refine (hl.flatMap_right _).trans ?_
    rw [List.flatMap_map]
    refine List.Perm.flatMap_left _ fun j _ => ?_
    simp only [element, scaleRule, List.map_map]
    refine (hr.map _).trans ?_
    rw [List.map_map]
    refine List.Perm.of_eq (List.map_congr_left fun q _ => ?_)
    have hp := hD j q.pos
    unfold globalPos at hp
    simp only [Function.comp_apply, turnQ, turnSample, hp]
    congr 1
    · congr 1
      exact Equiv.prod_comp T.axis width
    · funext k
      obtain ⟨k, rfl⟩ := (turnIndex T).surjective k
      rw [corner_turnIndex, turnEquiv_rfl, cornerNode_turn, Equiv.symm_apply_apply]
    · funext k
      obtain ⟨k, rfl⟩ := (turnIndex T).surjective k
      rw [corner_turnIndex, Equiv.symm_apply_apply, shapeGrad_turn]
      funext i
      simp only [Turn.vector]
      split_ifs
      · rw [neg_div]
      · rfl
    · funext i
      simp [Turn.vector]
  rw [stiff, stiff, Matrix.of_apply, Matrix.of_apply, stiffness_perm hs]
  exact stiffness_turn T _ a b

section geometry
variable {O : Layered d} (hO : O.Admissible) {T : Turn d} {W : Walk O.base T} {ord : (e : Fin d → ℕ) → List (CellIndex e)}
  (hO' : (O.turned T W ord).Admissible) (J : O.Coarse)

/-- layers at the upper side -/
def rightLayers (O : Layered d) (J : O.Coarse) (i : Fin d) : ℕ :=
  if ((J i).1 + 1) * O.base.micro i + O.layers ≤ O.base.cells i * O.base.micro i then O.layers else 0

include hO in
theorem elements_eq (i : Fin d) : (O.patches.grid J).elements i = O.base.micro i + (O.patches.left J i + rightLayers O J i) := by
  have hN : (0 : ℚ) < O.base.cells i := by exact_mod_cast hO.base.cells_pos i
  have hab : O.base.lower i < O.base.lower i + (O.base.cells i : ℚ) * O.base.width i := by
    have := mul_pos hN (hO.base.width_pos i)
    linarith
  exact elements_coarseCell hab (hO.base.cells_pos i) (hO.base.micro_pos i)

theorem left_turn (i : Fin d) : (O.turned T W ord).patches.left (T.count J) i =
    if T.mirror i then rightLayers O J (T.axis i) else O.patches.left J (T.axis i) := by
  show leftLayers (T.count J i).1 (O.base.micro (T.axis i)) O.layers = _
  simp only [Turn.count]
  split_ifs with hm
  · rw [Fin.val_rev, leftLayers, rightLayers]
    refine if_congr ?_ rfl rfl
    have := (J (T.axis i)).2
    rw [Nat.sub_mul]
    have h2 : ((J (T.axis i)).1 + 1) * O.base.micro (T.axis i) ≤ O.base.cells (T.axis i) * O.base.micro (T.axis i) :=
      Nat.mul_le_mul_right _ this
    omega
  · rfl

theorem right_turn (i : Fin d) : rightLayers (O.turned T W ord) (T.count J) i =
    if T.mirror i then O.patches.left J (T.axis i) else rightLayers O J (T.axis i) := by
  simp only [Turn.count, rightLayers]
  split_ifs with hm
  all_goals first | rfl | skip
  all_goals
    rw [Fin.val_rev] at *
    have := (J (T.axis i)).2
    have e : O.base.cells (T.axis i) - ((J (T.axis i)).1 + 1) + 1 = O.base.cells (T.axis i) - (J (T.axis i)).1 := by omega
    have h2 : (J (T.axis i)).1 * O.base.micro (T.axis i) ≤ O.base.cells (T.axis i) * O.base.micro (T.axis i) :=
      Nat.mul_le_mul_right _ this.le
    simp only [Patches.left, leftLayers]
    rename_i h
    simp only [e, Nat.sub_mul] at h
  · rw [if_pos (by omega)]
  · rw [if_neg (by omega)]

include hO hO' in
theorem elements_turn : ((O.turned T W ord).patches.grid (T.count J)).elements = fun i => (O.patches.grid J).elements (T.axis i) := by
  funext i
  rw [elements_eq hO', elements_eq hO, left_turn, right_turn]
  show O.base.micro (T.axis i) + _ = _
  split_ifs <;> omega

/-- nodes of corresponding local grids -/
noncomputable def pair (J : O.Coarse) (J' : (O.turned T W ord).Coarse) (hJ : J' = T.count J) : O.Local J ≃ (O.turned T W ord).Local J' :=
  turnNode T (hJ ▸ elements_turn hO hO' J)

/-- cells of corresponding local grids -/
noncomputable def pairCell : CellIndex (O.patches.grid J).elements ≃ CellIndex ((O.turned T W ord).patches.grid (T.count J)).elements :=
  turnEquiv T (elements_turn hO hO' J)

theorem pair_same (node : O.Local J) (node' : (O.turned T W ord).Local (T.count J)) :
    T.Same node node' ↔ node' = pair hO hO' J _ rfl node := same_iff T (by rw [elements_turn hO hO' J]) _ _

theorem pairCell_same (j : CellIndex (O.patches.grid J).elements) (j' : CellIndex ((O.turned T W ord).patches.grid (T.count J)).elements) :
    T.Same j j' ↔ j' = pairCell hO hO' J j := same_iff T _ _ _

theorem pair_corner (j : CellIndex (O.patches.grid J).elements) (w : Fin d → Bool) :
    cornerNode (pairCell hO hO' J j) (T.bits w) = pair hO hO' J _ rfl (cornerNode j w) := turnNode_corner T _ j w

theorem pair_val (node : O.Local J) (i : Fin d) : (pair hO hO' J (T.count J) rfl node i).1 =
    if T.mirror i then (O.patches.grid J).elements (T.axis i) - (node (T.axis i)).1 else (node (T.axis i)).1 :=
  turnEquiv_val T (n := fun i => (O.patches.grid J).elements i + 1) (by rw [elements_turn hO hO' J]) node i

theorem pairCell_val (j : CellIndex (O.patches.grid J).elements) (i : Fin d) : (pairCell hO hO' J j i).1 =
    if T.mirror i then (O.patches.grid J).elements (T.axis i) - 1 - (j (T.axis i)).1 else (j (T.axis i)).1 :=
  turnEquiv_val T _ j i

include hO hO' in
theorem width_turn : (O.turned T W ord).patches.patchWidth (T.count J) = fun i => O.patches.patchWidth J (T.axis i) := by
  funext i
  rw [(patch_facts _ hO'.patches (T.count J) i).2.2.2, (patch_facts _ hO.patches J (T.axis i)).2.2.2]

include hO hO' in
/-- A point of the local grid, counted from its lower corner in units of its cells. -/
theorem offset_turn (i : Fin d) (t t' : ℚ) (ht : t' = if T.mirror i then ((O.patches.grid J).elements (T.axis i) : ℚ) - t else t) :
    ((O.turned T W ord).patches.grid (T.count J)).lower i + t' * (O.turned T W ord).patches.patchWidth (T.count J) i =
      if T.mirror i then O.base.lower (T.axis i) + upper O.base (T.axis i) -
        ((O.patches.grid J).lower (T.axis i) + t * O.patches.patchWidth J (T.axis i))
      else (O.patches.grid J).lower (T.axis i) + t * O.patches.patchWidth J (T.axis i) := by
  have hm : (O.base.micro (T.axis i) : ℚ) ≠ 0 := by exact_mod_cast (hO.base.micro_pos _).ne'
  have hJ := (J (T.axis i)).2
  rw [width_turn hO hO', (patch_facts _ hO'.patches (T.count J) i).1, (patch_facts _ hO.patches J (T.axis i)).1,
    left_turn, ht, elements_eq hO J]
  simp only [(patch_facts _ hO.patches J (T.axis i)).2.2.2]
  show O.base.lower (T.axis i) + ((T.count J i).1 : ℚ) * O.base.width (T.axis i) - _ * (O.base.width (T.axis i) / (O.base.micro (T.axis i) : ℚ)) + _ =
    if T.mirror i = true then O.base.lower (T.axis i) + upper O.base (T.axis i) - (O.base.lower (T.axis i) + ((J (T.axis i)).1 : ℚ) *
      O.base.width (T.axis i) - _ + _) else O.base.lower (T.axis i) + ((J (T.axis i)).1 : ℚ) * O.base.width (T.axis i) - _ + _
  simp only [Turn.count, upper]
  split_ifs
  · rw [Fin.val_rev, Nat.cast_sub (by omega)]
    push_cast
    field_simp
    ring
  · rfl

theorem patchPos_turn (j : CellIndex (O.patches.grid J).elements) (x : Fin d → ℚ) :
    globalPos ((O.turned T W ord).patches.grid (T.count J)).lower ((O.turned T W ord).patches.patchWidth (T.count J)) (pairCell hO hO' J j)
      (T.point 0 1 x) = T.point O.base.lower (upper O.base) (globalPos (O.patches.grid J).lower (O.patches.patchWidth J) j x) := by
  funext i
  simp only [globalPos, Turn.point]
  refine offset_turn hO hO' J i (((j (T.axis i)).1 : ℚ) + x (T.axis i)) _ ?_
  rw [pairCell_val]
  have := (j (T.axis i)).2
  split_ifs
  · rw [Nat.sub_sub, Nat.cast_sub (by omega)]
    push_cast
    simp only [Pi.zero_apply, Pi.one_apply]
    ring
  · rfl

theorem patchNodePos_turn (node : O.Local J) : (O.turned T W ord).patches.nodePos (T.count J) (pair hO hO' J _ rfl node) =
    T.point O.base.lower (upper O.base) (O.patches.nodePos J node) := by
  funext i
  simp only [Patches.nodePos, Turn.point]
  refine offset_turn hO hO' J i ((node (T.axis i)).1 : ℚ) _ ?_
  rw [pair_val]
  have := (node (T.axis i)).2
  split_ifs
  · rw [Nat.cast_sub (by omega)]
  · rfl

include hO in
theorem toCoarse_turn (x : Fin d → ℚ) : (O.turned T W ord).patches.toCoarse (T.count J) (T.point O.base.lower (upper O.base) x) =
    T.point 0 1 (O.patches.toCoarse J x) := by
  funext i
  have hw := (hO.base.width_pos (T.axis i)).ne'
  have hJ := (J (T.axis i)).2
  simp only [Patches.toCoarse, Patches.cellLower, Turn.point, Turn.count, upper, Pi.zero_apply, Pi.one_apply]
  split_ifs
  · rw [Fin.val_rev, Nat.cast_sub (by omega)]
    push_cast
    field_simp
    ring
  · rfl

theorem continued_turn (k : Fin (2 ^ d)) (node : O.Local J) :
    (O.turned T W ord).patches.continued (T.count J) (turnIndex T k) (pair hO hO' J _ rfl node) = O.patches.continued J k node := by
  simp only [Patches.continued]
  rw [patchNodePos_turn, toCoarse_turn hO, corner_turnIndex, shape_turn]

theorem prolong_turn (u : Node O.base.cells → ℚ) (u' : Node (O.turned T W ord).base.cells → ℚ)
    (hu : ∀ g, u' (T.count (n := fun i => O.base.cells i + 1) g) = u g) (node : O.Local J) :
    (O.turned T W ord).patches.prolong (T.count J) u' (pair hO hO' J _ rfl node) = O.patches.prolong J u node := by
  unfold Patches.prolong
  rw [patchNodePos_turn]
  unfold Patches.coarseValue
  rw [← (countEquiv T (n := fun i => O.base.cells i + 1)).sum_comp]
  refine Finset.sum_congr rfl fun g _ => ?_
  rw [countEquiv_apply, hu, ← Equiv.prod_comp T.axis fun i => max 0 (1 - |(O.patches.nodePos J node i - O.base.lower i) / O.base.width i -
    ((g i).1 : ℚ)|)]
  refine congrArg _ (Finset.prod_congr rfl fun i _ => ?_)
  have hw := (hO.base.width_pos (T.axis i)).ne'
  have hg := (g (T.axis i)).2
  simp only [Turn.point, Turn.count, upper]
  split_ifs
  · rw [Fin.val_rev, Nat.cast_sub (by omega), ← abs_neg]
    congr 3
    push_cast
    field_simp
    ring
  · rfl

theorem covered_turn (node : O.Local J) :
    (O.turned T W ord).patches.Covered (T.count J) (pair hO hO' J _ rfl node) ↔ O.patches.Covered J node := by
  rw [covered_iff _ hO'.patches, covered_iff _ hO.patches]
  refine Iff.trans (forall_congr' fun i => ?_) T.axis.surjective.forall.symm
  rw [left_turn, pair_val]
  have : (node (T.axis i)).1 < (O.patches.grid J).elements (T.axis i) + 1 := (node (T.axis i)).2
  have he := elements_eq hO J (T.axis i)
  show _ ∧ _ ≤ _ + O.base.micro (T.axis i) ↔ _ ∧ _ ≤ _ + O.base.micro (T.axis i)
  split_ifs
  · omega
  · rfl

theorem shift_turn (v : Node O.base.micro) :
    (O.turned T W ord).shift hO' (T.count J) (T.count (n := fun i => O.base.micro i + 1) v) = pair hO hO' J _ rfl (O.shift hO J v) := by
  funext i
  apply Fin.ext
  rw [pair_val]
  have hv : (v (T.axis i)).1 < O.base.micro (T.axis i) + 1 := (v (T.axis i)).2
  have he := elements_eq hO J (T.axis i)
  show (O.turned T W ord).patches.left (T.count J) i + _ = if _ then _ - (O.patches.left J (T.axis i) + (v (T.axis i)).1) else _
  rw [left_turn]
  simp only [Turn.count]
  split_ifs
  · rw [Fin.val_rev]
    show _ + (O.base.micro (T.axis i) + 1 - ((v (T.axis i)).1 + 1)) = _
    rw [he]
    have key : ∀ r m n l : ℕ, n < m + 1 → r + (m + 1 - (n + 1)) = m + (l + r) - (l + n) := by omega
    exact key _ _ _ _ hv
  · rfl

end geometry

section problem
variable {O : Layered d} (hO : O.Admissible) {T : Turn d} {W : Walk O.base T} {ord : (e : Fin d → ℕ) → List (CellIndex e)}
  (hO' : (O.turned T W ord).Admissible) {B : O.Boundary} {B' : (O.turned T W ord).Boundary} {P P' : Data d ℚ}
  (h : O.TurnedProblem T W ord B B' P P')
include h

include hO in
theorem turned_admissible : (O.turned T W ord).Admissible where
  base := by
    refine ⟨fun i => hO.base.width_pos _, fun i => hO.base.cells_pos _, fun i => hO.base.micro_pos _, fun J => ?_, fun j => ?_⟩
    · obtain ⟨J, rfl⟩ := (countEquiv T).surjective J
      exact h.order.mem_iff.mpr (List.mem_map_of_mem (hO.base.order_complete J))
    · obtain ⟨j, rfl⟩ := (countEquiv T).surjective j
      exact h.localOrder.mem_iff.mpr (List.mem_map_of_mem (hO.base.localOrder_complete j))
  order_nodup := h.order.nodup_iff.mpr (hO.order_nodup.map (count_injective T))
  fine_nodup := h.localOrder.nodup_iff.mpr (hO.fine_nodup.map (count_injective T))
  patches := ⟨fun i => hO.base.width_pos _, fun i => hO.base.cells_pos _, fun i => hO.base.micro_pos _, fun i => hO.patches.aligned _,
    h.patchOrder, h.patchOrder_nodup, hO.patches.tol_nonneg⟩
  tol_small := fun i => hO.tol_small _

theorem turned_aux : Pipeline.TurnedProblem O.base T W ⟨B.isDirichlet, fun _ => false, B.faces, fun _ => []⟩
    ⟨B'.isDirichlet, fun _ => false, B'.faces, fun _ => []⟩ P P' :=
  ⟨h.order, h.localOrder, h.localRule, h.matrixRule, h.loadRule, h.diffusion, h.source, h.neumann, h.dirichlet, h.isDirichlet, fun _ => rfl,
    h.faces, fun _ => .refl _⟩

theorem op_turn (J : O.Coarse) (a b : O.Local J) :
    (O.turned T W ord).patches.op (T.count J) P'.diffusion (pair hO hO' J _ rfl a) (pair hO hO' J _ rfl b) = O.patches.op J P.diffusion a b := by
  refine stiff_turn T (elements_turn hO hO' J) _ _ _ _ (width_turn hO hO' J) _ _ h.localRule _ _ ?_ _ _ (fun j x => ?_) a b
  · rw [List.perm_ext_iff_of_nodup (h.patchOrder_nodup _) ((hO.patches.order_nodup _).map (Equiv.injective _))]
    intro j'
    obtain ⟨j, rfl⟩ := (turnEquiv T (elements_turn hO hO' J)).surjective j'
    exact ⟨fun _ => List.mem_map_of_mem (hO.patches.order_complete _ _), fun _ => h.patchOrder _ _⟩
  · rw [← h.diffusion, ← patchPos_turn hO hO']
    rfl

theorem extension_turn (g : Node O.base.cells) :
    (O.turned T W ord).extension B' P' (T.count (n := fun i => O.base.cells i + 1) g) = O.extension B P g := by
  simp only [Layered.extension, dirichletProject]
  rw [h.isDirichlet, nodePos_turn T O.base W, h.dirichlet]
  rfl

theorem patchNeumann_turn (J : O.Coarse) (node : O.Local J) :
    (O.turned T W ord).localNeumann B' P'.neumann (T.count J) (pair hO hO' J _ rfl node) = O.localNeumann B P.neumann J node := by
  rw [overlapNeumann_apply, overlapNeumann_apply]
  obtain ⟨l, hl, hf⟩ := h.localFaces J
  rw [← (hl.map _).sum_eq]
  generalize B'.localFaces (T.count J) = l' at hf ⊢
  clear hl
  induction hf with
  | nil => rfl
  | @cons p p' _ _ hp _ ih =>
    simp only [List.map_cons, List.sum_cons, ih]
    congr 1
    rw [← (turnIndex T).sum_comp]
    refine Finset.sum_congr rfl fun k _ => ?_
    rw [(pairCell_same hO hO' J _ _).mp hp.1, hp.2.1, hp.2.2, corner_turnIndex, pair_corner, patchPos_turn, h.neumann, shape_turn]
    exact if_congr (Equiv.injective _).eq_iff rfl rfl

theorem turned_computed (hx : ∀ x v, P.flux x v = P.diffusion x *ᵥ v) (hx' : ∀ x v, P'.flux x v = P'.diffusion x *ᵥ v)
    {Q : (J : O.Coarse) → Fin (2 ^ d) → O.Local J → ℚ} {qN qD : (J : O.Coarse) → O.Local J → ℚ} {u : Node O.base.cells → ℚ}
    {fine : (J : O.Coarse) → O.Local J → ℚ} (hcomp : O.Computed hO B P Q qN qD u fine) :
    (O.turned T W ord).Computed hO' B' P'
      (fun J k v => Q ((countEquiv T).symm J) ((turnIndex T).symm k) ((pair hO hO' _ J ((countEquiv T).apply_symm_apply J).symm).symm v))
      (fun J v => qN ((countEquiv T).symm J) ((pair hO hO' _ J ((countEquiv T).apply_symm_apply J).symm).symm v))
      (fun J v => qD ((countEquiv T).symm J) ((pair hO hO' _ J ((countEquiv T).apply_symm_apply J).symm).symm v))
      (fun g => u ((countEquiv T (n := fun i => O.base.cells i + 1)).symm g))
      (fun J v => fine ((countEquiv T).symm J) ((pair hO hO' _ J ((countEquiv T).apply_symm_apply J).symm).symm v)) := by
  have hb : ∀ J : O.Coarse, (∃ i, ((T.count J) i).1 = 0 ∨ ((T.count J) i).1 + 1 = O.base.cells (T.axis i)) ↔
      ∃ i, (J i).1 = 0 ∨ (J i).1 + 1 = O.base.cells i := by
    intro J
    refine Iff.trans (exists_congr fun i => ?_) T.axis.surjective.exists.symm
    simp only [Turn.count]
    split_ifs
    · rw [Fin.val_rev]
      omega
    · rfl
  have hneg : ∀ (J : O.Coarse) (w : O.Local J → ℚ) (w' : (O.turned T W ord).Local (T.count J) → ℚ),
      (∀ v, w' (pair hO hO' J _ rfl v) = w v) → ∀ v,
      (-((O.turned T W ord).patches.op (T.count J) P'.diffusion *ᵥ w')) (pair hO hO' J _ rfl v) = (-(O.patches.op J P.diffusion *ᵥ w)) v := by
    intro J w w' hw v
    simp only [Pi.neg_apply, mulVec, dotProduct]
    rw [← (pair hO hO' J (T.count J) rfl).sum_comp]
    exact congrArg Neg.neg (Finset.sum_congr rfl fun b _ => by rw [op_turn hO hO' h, hw])
  have hcon : ∀ (J : O.Coarse) (v : O.Local J), B'.constrained (T.count J) (pair hO hO' J _ rfl v) = B.constrained J v :=
    fun J v => h.constrained J v _ ((pair_same hO hO' J v _).mpr rfl)
  have hu : ∀ g, (fun g => u ((countEquiv T (n := fun i => O.base.cells i + 1)).symm g)) (T.count (n := fun i => O.base.cells i + 1) g) = u g :=
    fun g => congrArg u ((countEquiv T (n := fun i => O.base.cells i + 1)).symm_apply_apply g)
  -- the restrictions correspond
  have hres : ∀ (q : (J : O.Coarse) → O.Local J → ℚ) (J : O.Coarse) (v : Node O.base.micro),
      (O.turned T W ord).restrict hO' (T.count J)
        (fun v => q ((countEquiv T).symm (T.count J)) ((pair hO hO' _ _ ((countEquiv T).apply_symm_apply (T.count J)).symm).symm v))
        (T.count (n := fun i => O.base.micro i + 1) v) = O.restrict hO J (q J) v := by
    intro q J v
    have key : ∀ (J0 : O.Coarse) (J' : (O.turned T W ord).Coarse) (e : J' = T.count J0),
        q J0 ((pair hO hO' J0 J' e).symm ((O.turned T W ord).shift hO' J' (T.count (n := fun i => O.base.micro i + 1) v))) =
          q J0 (O.shift hO J0 v) := by
      intro J0 J' e
      subst e
      rw [shift_turn hO hO', Equiv.symm_apply_apply]
    refine (key _ _ _).trans ?_
    exact congrArg (fun J => q J (O.shift hO J v)) ((countEquiv T).symm_apply_apply J)
  refine ⟨fun J' => ?_, ?_, fun J' v' hv => ?_, fun J' v' hl hv => ?_⟩
  · suffices key : ∀ (J : O.Coarse) (J' : (O.turned T W ord).Coarse) (e : J' = T.count J), (O.turned T W ord).IsCorrector B' P' J'
        (fun k v => Q J ((turnIndex T).symm k) ((pair hO hO' J J' e).symm v)) (fun v => qN J ((pair hO hO' J J' e).symm v))
        (fun v => qD J ((pair hO hO' J J' e).symm v)) from key _ _ _
    intro J J' e
    subst e
    refine ⟨fun k => ?_, fun hb' => ?_, fun hb' => ?_, fun hb' => ?_⟩
    · obtain ⟨k, rfl⟩ := (turnIndex T).surjective k
      exact isSolution_rename (pair hO hO' J _ rfl) (op_turn hO hO' h J) (hneg J _ _ (continued_turn hO hO' J k)) (fun _ => rfl) (hcon J)
        (fun v => by rw [Equiv.symm_apply_apply, Equiv.symm_apply_apply]) ((hcomp.corrector J).inner k)
    · obtain ⟨h1, h2⟩ := (hcomp.corrector J).inside fun hi => hb' ((hb J).mpr hi)
      rw [h1, h2]
      exact ⟨rfl, rfl⟩
    · exact isSolution_rename (pair hO hO' J _ rfl) (op_turn hO hO' h J) (patchNeumann_turn hO hO' h J) (fun _ => rfl) (hcon J)
        (fun v => by rw [Equiv.symm_apply_apply]) ((hcomp.corrector J).neumann ((hb J).mp hb'))
    · exact isSolution_rename (pair hO hO' J _ rfl) (op_turn hO hO' h J)
        (hneg J _ _ (prolong_turn hO hO' J _ _ (extension_turn h))) (fun _ => rfl) (hcon J)
        (fun v => by rw [Equiv.symm_apply_apply]) ((hcomp.corrector J).dirichlet ((hb J).mp hb'))
  · have hm : ∀ i, (O.base.micro i : ℚ) ≠ 0 := fun i => by exact_mod_cast (hO.base.micro_pos i).ne'
    have hco := hcomp.coarse
    rw [coarseMatrix_points, coarseLoad_points O.base _ _ hx] at hco
    rw [coarseMatrix_points, coarseLoad_points (turnedSetup O.base T W) _ _ hx']
    refine isSolution_rename (countEquiv T (n := fun i => O.base.cells i + 1)) (fun a b => ?_) (fun a => ?_) (fun a => ?_) h.isDirichlet
      (fun v => by rw [Equiv.symm_apply_apply]) hco
    · rw [Matrix.of_apply, Matrix.of_apply, stiffness_perm (samples_turn (turned_aux h) hm O.base.matrixRule W.matrixRule h.matrixRule 0 0
        (fun _ => rfl) (fun J k => O.restrict hO J (Q J k)) 0 0 _ 0 0 (fun J k v => ?_) (fun _ _ => rfl) (fun _ _ => rfl))]
      · exact stiffness_turn T _ a b
      · rw [Equiv.symm_apply_apply]
        exact hres (fun J => Q J k) J v
    · rw [Pi.add_apply, Pi.add_apply, load_perm (samples_turn (turned_aux h) hm O.base.loadRule W.loadRule h.loadRule P.source P'.source h.source
        (fun J k => O.restrict hO J (Q J k)) (fun J => O.restrict hO J (qN J)) (fun J => O.restrict hO J (qD J)) _ _ _
        (fun J k v => ?_) (hres qN) (hres qD))]
      · exact congrArg₂ (· + ·) (load_turn T _ a) (femNeumann_turn (turned_aux h) a)
      · rw [Equiv.symm_apply_apply]
        exact hres (fun J => Q J k) J v
    · rw [countEquiv_apply, nodePos_turn T O.base W, h.dirichlet]
  · suffices key : ∀ (J : O.Coarse) (J' : (O.turned T W ord).Coarse) (e : J' = T.count J) (v' : (O.turned T W ord).Local J'),
        (O.layers = 0 ∨ (O.turned T W ord).patches.Covered J' v') → fine J ((pair hO hO' J J' e).symm v') =
        (∑ k, u ((countEquiv T (n := fun i => O.base.cells i + 1)).symm (cornerNode J' (corner k))) *
          Q J ((turnIndex T).symm k) ((pair hO hO' J J' e).symm v')) + qD J ((pair hO hO' J J' e).symm v') - qN J ((pair hO hO' J J' e).symm v') +
          (O.turned T W ord).patches.prolong J' (fun g => u ((countEquiv T (n := fun i => O.base.cells i + 1)).symm g)) v' from
      key _ _ _ v' hv
    intro J J' e v' hv
    subst e
    obtain ⟨v, rfl⟩ := (pair hO hO' J _ rfl).surjective v'
    rw [covered_turn] at hv
    rw [Equiv.symm_apply_apply, hcomp.inner_eq J v hv, prolong_turn hO hO' J _ _ hu]
    congr 3
    refine Eq.symm ?_
    rw [← (turnIndex T).sum_comp]
    refine Finset.sum_congr rfl fun k _ => ?_
    rw [Equiv.symm_apply_apply, corner_turnIndex, cornerNode_turn]
    exact congrArg (· * _) (hu _)
  · suffices key : ∀ (J : O.Coarse) (J' : (O.turned T W ord).Coarse) (e : J' = T.count J) (v' : (O.turned T W ord).Local J'),
        ¬ (O.turned T W ord).patches.Covered J' v' → fine J ((pair hO hO' J J' e).symm v') =
          qD J ((pair hO hO' J J' e).symm v') - qN J ((pair hO hO' J J' e).symm v') +
          (O.turned T W ord).patches.prolong J' (fun g => u ((countEquiv T (n := fun i => O.base.cells i + 1)).symm g)) v' from
      key _ _ _ v' hv
    intro J J' e v' hv
    subst e
    obtain ⟨v, rfl⟩ := (pair hO hO' J _ rfl).surjective v'
    rw [covered_turn] at hv
    rw [Equiv.symm_apply_apply, hcomp.outer_eq J v hl hv, prolong_turn hO hO' J _ _ hu]

theorem turned_unique (hu : O.Unique B P) : (O.turned T W ord).Unique B' P' := by
  have hO := hu.admissible
  have hO' := turned_admissible hO h
  have hr : ∀ rule rule' : List (QPoint d ℚ), rule'.Perm (rule.map (turnQ T)) → Resolving rule → Resolving rule' := by
    intro rule rule' hp hres
    refine ⟨fun q hq => ?_, ?_⟩
    · obtain ⟨q, hq', rfl⟩ := List.mem_map.mp (hp.mem_iff.mp hq)
      exact hres.weight_pos q hq'
    · obtain ⟨p, r, hne, hall⟩ := hres.points
      refine ⟨T.point 0 1 p, T.point 0 1 r, fun l => ?_, fun s => ?_⟩
      · simp only [Turn.point]
        split_ifs
        · exact fun e => hne _ (by linear_combination -e)
        · exact hne _
      · obtain ⟨q, hq, hpos⟩ := hall fun l => s (T.axis.symm l)
        refine ⟨turnQ T q, hp.mem_iff.mpr (List.mem_map_of_mem hq), ?_⟩
        funext l
        simp only [turnQ, Turn.point, hpos, Equiv.symm_apply_apply]
        split_ifs <;> rfl
  refine ⟨hu.dim, hO', hr _ _ h.localRule hu.localRule, hr _ _ h.matrixRule hu.matrixRule, fun y v hv => ?_, fun J' v' hv => ?_, ?_, ?_⟩
  · obtain ⟨x, rfl⟩ := point_surjective T O.base.lower (upper O.base) y
    obtain ⟨w, rfl⟩ := vector_surjective T v
    rw [h.diffusion, form_turn]
    exact hu.definite x w fun h0 => hv (by rw [h0]; funext i; simp [Turn.vector])
  · obtain ⟨J, rfl⟩ := (countEquiv T).surjective J'
    obtain ⟨v, rfl⟩ := (pair hO hO' J _ rfl).surjective v'
    refine (h.constrained J v _ ((pair_same hO hO' J v _).mpr rfl)).trans (hu.constrained J v ?_)
    obtain ⟨i, hi⟩ := hv
    rw [pair_val, countEquiv_apply, elements_turn hO hO'] at hi
    dsimp only at hi
    refine ⟨T.axis i, ?_⟩
    have : (v (T.axis i)).1 < (O.patches.grid J).elements (T.axis i) + 1 := (v (T.axis i)).2
    split_ifs at hi
    · omega
    · exact hi
  · obtain ⟨l, hl⟩ := hu.refined
    obtain ⟨i, rfl⟩ := T.axis.surjective l
    exact ⟨i, hl⟩
  · obtain ⟨g, ⟨i, hi⟩, hd⟩ := hu.dirichlet
    refine ⟨T.count (n := fun i => O.base.cells i + 1) g, ⟨T.axis.symm i, ?_⟩, by rw [h.isDirichlet]; exact hd⟩
    obtain ⟨i, rfl⟩ := T.axis.surjective i
    rw [Equiv.symm_apply_apply]
    have := (g (T.axis i)).2
    simp only [Turn.count]
    split_ifs
    · rw [Fin.val_rev]
      omega
    · exact hi

end problem

/-- **C90** (oversampling) Names and orientation of the directions do not influence the result of a run with oversampling: the coarse solution
has the same value at every node, the local grids have the same numbers of cells, and the solution on them has the same values at corresponding
nodes. -/
theorem C90_turned_layers (O : Layered d) (T : Turn d) (W : Walk O.base T) (ord : (e : Fin d → ℕ) → List (CellIndex e)) (B : O.Boundary)
    (B' : (O.turned T W ord).Boundary) (P P' : Data d ℚ) (h : O.TurnedProblem T W ord B B' P P') (hu : O.Unique B P) (m : O.Machine)
    (m' : (O.turned T W ord).Machine) (hm : O.Works B P m) (hm' : (O.turned T W ord).Works B' P' m') (u : Node O.base.cells → ℚ)
    (u' : Node (O.turned T W ord).base.cells → ℚ) (res : List (O.Point → ℚ)) (res' : List ((O.turned T W ord).Point → ℚ))
    (hr : O.apply B P m = .ok (u, res)) (hr' : (O.turned T W ord).apply B' P' m' = .ok (u', res')) :
    (∀ g : Node O.base.cells, u' (T.count (n := fun i => O.base.cells i + 1) g) = u g) ∧
      (∀ J i, ((O.turned T W ord).patches.grid (T.count J)).elements i = (O.patches.grid J).elements (T.axis i)) ∧
      ∃ (fine : (J : O.Coarse) → O.Local J → ℚ) (fine' : (J : (O.turned T W ord).Coarse) → (O.turned T W ord).Local J → ℚ),
        res = O.base.order.map (fun J => O.embed J (fine J)) ∧ res' = W.order.map (fun J => (O.turned T W ord).embed J (fine' J)) ∧
        ∀ J node node', T.Same node node' → fine' (T.count J) node' = fine J node := by
  have hO := hu.admissible
  have hu' := turned_unique h hu
  have hO' := hu'.admissible
  obtain ⟨Q, qN, qD, fine, hcomp, rfl⟩ := run_spec O hO B P m hm u res hr
  obtain ⟨Q', qN', qD', fine', hcomp', rfl⟩ := run_spec _ hO' B' P' m' hm' u' res' hr'
  obtain ⟨rfl, rfl⟩ := run_computed_unique _ B' P' hu' _ _ _ _ _ _ _ _ _ _ hcomp' (turned_computed hO hO' h hm.flux hm'.flux hcomp)
  refine ⟨fun g => congrArg u ((countEquiv T (n := fun i => O.base.cells i + 1)).symm_apply_apply g),
    fun J i => congrFun (elements_turn hO hO' J) i, fine, _, rfl, rfl, fun J node node' hn => ?_⟩
  rw [(pair_same hO hO' J node node').mp hn]
  have key : ∀ (J0 : O.Coarse) (e : T.count J = T.count J0),
      fine J0 ((pair hO hO' J0 (T.count J) e).symm (pair hO hO' J _ rfl node)) = fine J node := by
    intro J0 e
    obtain rfl := count_injective T e
    rw [Equiv.symm_apply_apply]
  exact key _ _

/-- Every problem can be described in the new coordinates, with any order of the cells of local grids. -/
theorem C90_turned_layers_exists (O : Layered d) (hO : O.Admissible) (T : Turn d) (ord : (e : Fin d → ℕ) → List (CellIndex e))
    (ho : ∀ e j, j ∈ ord e) (ho' : ∀ e, (ord e).Nodup) (B : O.Boundary) (P : Data d ℚ) : ∃ (W : Walk O.base T)
    (B' : (O.turned T W ord).Boundary) (P' : Data d ℚ), O.TurnedProblem T W ord B B' P P' ∧ ∀ x v, P'.flux x v = P'.diffusion x *ᵥ v := by
  obtain ⟨W, B1, P', h1, hx⟩ := C90_turned_exists O.base T ⟨B.isDirichlet, fun _ => false, B.faces, fun _ => []⟩ P
  have hO' : (O.turned T W ord).Admissible := by
    refine turned_admissible (P := P) (P' := P') (B := ⟨B.isDirichlet, fun _ _ => true, B.faces, fun _ => []⟩)
      (B' := ⟨B1.isDirichlet, fun _ _ => true, B1.faces, fun _ => []⟩) hO ?_
    exact ⟨h1.order, h1.localOrder, ho, ho', h1.localRule, h1.matrixRule, h1.loadRule, h1.diffusion, h1.source, h1.neumann, h1.dirichlet,
      h1.isDirichlet, fun _ _ _ _ => rfl, h1.faces, fun _ => ⟨[], .refl _, .nil⟩⟩
  have hsymm : ∀ J' : (O.turned T W ord).Coarse, J' = T.count ((countEquiv T (n := O.base.cells)).symm J') :=
    fun J' => ((countEquiv T).apply_symm_apply J').symm
  have hel : ∀ (J : O.Coarse) (J' : (O.turned T W ord).Coarse), J' = T.count J →
      ((O.turned T W ord).patches.grid J').elements = fun i => (O.patches.grid J).elements (T.axis i) := by
    intro J J' e
    rw [e]
    exact elements_turn hO hO' J
  refine ⟨W, ⟨B1.isDirichlet, fun J' v => B.constrained ((countEquiv T).symm J') ((pair hO hO' _ J' (hsymm J')).symm v), B1.faces,
    fun J' => (B.localFaces ((countEquiv T).symm J')).map fun p => ⟨turnEquiv T (hel _ _ (hsymm J')) p.cell, T.point 0 1 p.pos, p.weight⟩⟩, P',
    ⟨h1.order, h1.localOrder, ho, ho', h1.localRule, h1.matrixRule, h1.loadRule, h1.diffusion, h1.source, h1.neumann, h1.dirichlet,
      h1.isDirichlet, fun J node node' hn => ?_, h1.faces, fun J => ⟨_, .refl _, ?_⟩⟩, hx⟩
  · rw [(pair_same hO hO' J node node').mp hn]
    have key : ∀ (J0 : O.Coarse) (e : T.count J = T.count J0),
        B.constrained J0 ((pair hO hO' J0 (T.count J) e).symm (pair hO hO' J _ rfl node)) = B.constrained J node := by
      intro J0 e
      obtain rfl := count_injective T e
      rw [Equiv.symm_apply_apply]
    exact key _ _
  · have key : ∀ (J0 : O.Coarse) (e : T.count J = T.count J0),
        List.Forall₂ (fun (p : FacePoint d (O.patches.grid J).elements ℚ) (p' : FacePoint d ((O.turned T W ord).patches.grid
          (T.count J)).elements ℚ) => T.Same p.cell p'.cell ∧ p'.pos = T.point 0 1 p.pos ∧ p'.weight = p.weight) (B.localFaces J)
          ((B.localFaces J0).map fun p => ⟨turnEquiv T (hel _ _ e) p.cell, T.point 0 1 p.pos, p.weight⟩) := by
      intro J0 e
      obtain rfl := count_injective T e
      rw [List.forall₂_map_right_iff, List.forall₂_same]
      exact fun p _ => ⟨same_turnEquiv T _ _, rfl, rfl⟩
    exact key _ (hsymm _)

/-- Instance: every problem with unique solution, in two dimensions with exchanged axes and the second one mirrored; both runs succeed. -/
example (O : Layered 2) (B : O.Boundary) (P : Data 2 ℚ) (hu : O.Unique B P) (hx : ∀ x v, P.flux x v = P.diffusion x *ᵥ v) :
    let T : Turn 2 := ⟨Equiv.swap 0 1, ![false, true]⟩
    ∃ (W : Walk O.base T) (B' : (O.turned T W O.localOrder).Boundary) (P' : Data 2 ℚ) (m : O.Machine) (m' : (O.turned T W O.localOrder).Machine)
      (u : _) (u' : _) (res : _) (res' : _), O.TurnedProblem T W O.localOrder B B' P P' ∧ O.apply B P m = .ok (u, res) ∧
        (O.turned T W O.localOrder).apply B' P' m' = .ok (u', res') ∧
        ∀ g : Node O.base.cells, u' (T.count (n := fun i => O.base.cells i + 1) g) = u g := by
  intro T
  obtain ⟨W, B', P', h, hx'⟩ := C90_turned_layers_exists O hu.admissible T O.localOrder hu.admissible.patches.order_complete
    hu.admissible.patches.order_nodup B P
  obtain ⟨m, hw, u, res, hr⟩ := C86_run_exists _ _ P hu hx
  obtain ⟨m', hw', u', res', hr'⟩ := C86_run_exists _ _ P' (turned_unique h hu) hx'
  exact ⟨W, B', P', m, m', u, u', res, res', h, hr, hr', (C90_turned_layers O T W _ B B' P P' h hu m m' hw hw' u u' res res' hr hr').1⟩

/-- Instance: problems with unique solution exist for any number of layers up to the number of local cells. -/
example (N m o : ℕ) (hN : 0 < N) (hm : 2 ≤ m) (ho : o ≤ m) (f g : (Fin 2 → ℚ) → ℚ) : ∃ (O : Layered 2) (B : O.Boundary) (P : Data 2 ℚ),
    O.base = demoSetup 2 N m ∧ O.layers = o ∧ P.source = f ∧ P.dirichlet = g ∧ O.Unique B P ∧ ∀ x v, P.flux x v = P.diffusion x *ᵥ v := by
  let O : Layered 2 := ⟨demoSetup 2 N m, o, fun e => (Finset.univ : Finset (CellIndex e)).toList, 0⟩
  let B : O.Boundary := ⟨fun g => decide ((g 0).1 = 0 ∨ (g 0).1 = N),
    fun J g => decide (∃ i, (g i).1 = 0 ∨ (g i).1 = (O.patches.grid J).elements i), [], fun _ => []⟩
  have hb := demo_admissible 2 N m hN (by omega)
  have hO : O.Admissible := ⟨hb, Finset.nodup_toList _, Finset.nodup_toList _,
    ⟨hb.width_pos, hb.cells_pos, hb.micro_pos, fun _ => Or.inr ho, by simp [O], by simp [O, Finset.nodup_toList], le_refl _⟩, by simp [O]⟩
  exact ⟨O, B, ⟨fun _ => 1, fun _ v => v, f, fun _ => 0, g⟩, rfl, rfl, rfl, rfl, ⟨le_refl _, hO, demo_resolving 2 N m, demo_resolving 2 N m,
    demo_definite 2, fun J node h => decide_eq_true h, ⟨0, hm⟩,
    ⟨fun _ => 0, ⟨0, Or.inl rfl⟩, decide_eq_true (p := (0 : ℕ) = 0 ∨ (0 : ℕ) = N) (Or.inl rfl)⟩⟩, fun _ v => (one_mulVec v).symm⟩

end Verif.Oversampling
