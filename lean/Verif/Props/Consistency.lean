import Verif.Props.Solvability

/-!
# C72: without anything to correct, the multiscale method is the finite element method on the coarse grid
-/

namespace Verif.Q1Grid
open Matrix Verif.CoarseAssembly Verif.LocalAssembly Verif.LocalSolve Verif.Spec.Galerkin Verif.Spec.Dirichlet
open Verif.DirichletSolve (coarseSystem coarseSolve Solver)

variable {d : ℕ}

section
variable {R : Type} [Field R]

/-! ## Specification -/

/-- Position of a reference point of coarse cell `J`. -/
def Setup.position (S : Setup d R) (J : CellIndex S.cells) (x : Fin d → R) : Fin d → R :=
  fun i => S.lower i + (((J i).1 : R) + x i) * S.width i

/-- Position of a reference point of local cell `j` of coarse cell `J`. -/
def Setup.finePosition (S : Setup d R) (J : CellIndex S.cells) (j : CellIndex S.micro) (x : Fin d → R) : Fin d → R :=
  fun i => S.lower i + ((J i).1 : R) * S.width i + (((j i).1 : R) + x i) * (S.width i / (S.micro i : R))

/-- The finite element method with multilinear elements on the coarse grid: what the quadrature points contribute to stiffness matrix
and load. -/
def femSamples (S : Setup d R) (rule : List (QPoint d R)) (diffusion : CellIndex S.cells → (Fin d → R) → Matrix (Fin d) (Fin d) R)
    (source : CellIndex S.cells → (Fin d → R) → R) : List (Sample d (2 ^ d) (Node S.cells) R) :=
  S.order.flatMap fun J => rule.map fun q =>
    { weight := q.weight * ∏ i, S.width i
      tensor := diffusion J q.pos
      source := source J q.pos
      dofs := fun k => cornerNode J (corner k)
      val := fun k => shape (corner k) q.pos
      grad := fun k i => shapeGrad (corner k) q.pos i / S.width i
      lifting := 0 }

/-- Its Neumann term. -/
def femNeumann (S : Setup d R) (pts : List (NeumannPoint S)) (a : Node S.cells) : R :=
  (pts.map fun p => ∑ v : Fin d → Bool, if cornerNode p.cell v = a then p.value * shape v p.pos else 0).sum

/-- The mean of a function over the points of the coarse cell that have the same position in their local cells. -/
def Setup.mean {M : Type} [AddCommMonoid M] [Module R M] (S : Setup d R) (F : (Fin d → R) → M) (J : CellIndex S.cells)
    (x : Fin d → R) : M := (∏ i, (S.micro i : R))⁻¹ • ∑ j, F (S.finePosition J j x)

theorem addNeumann_eq (S : Setup d R) (pts : List (NeumannPoint S)) (b : Node S.cells → R) :
    S.addNeumann pts b = b + femNeumann S pts := by
  funext a
  rw [addNeumann_apply, Pi.add_apply, femNeumann]
  congr 2
  apply List.map_congr_left
  intro p _
  rw [← sum_corner (fun v => if cornerNode p.cell v = a then p.value * shape v p.pos else 0)]
  simp only [eq_comm]

/-! ## Sums over the cells of a grid -/

theorem sum_order {α M : Type} [Fintype α] [AddCommMonoid M] (l : List α) (hn : l.Nodup) (hc : ∀ x, x ∈ l)
    (f : α → M) : (l.map f).sum = ∑ x, f x := by
  classical
  rw [← List.sum_toFinset f hn]
  congr 1
  ext x
  simp [hc x]

/-- the cell that has an interior node as corner `v` -/
def cellAt {cells : Fin d → ℕ} (node : Node cells) (hn : Interior cells node) (v : Fin d → Bool) : CellIndex cells :=
  fun l => ⟨(node l).1 - if v l then 1 else 0, by have := hn l; split_ifs <;> omega⟩

theorem cellAt_iff {cells : Fin d → ℕ} (node : Node cells) (hn : Interior cells node) (v : Fin d → Bool)
    (j : CellIndex cells) : node = cornerNode j v ↔ j = cellAt node hn v := by
  constructor
  · intro h
    funext l
    have := congrArg Fin.val (congrFun h l)
    apply Fin.ext
    simp only [cellAt, this, cornerNode]
    split_ifs <;> simp
  · intro h
    subst h
    funext l
    apply Fin.ext
    have := hn l
    simp only [cellAt, cornerNode]
    split_ifs
    · simp; omega
    · simp

/-- sum over the cells around an interior node -/
theorem sum_around {M : Type} [AddCommMonoid M] {cells : Fin d → ℕ} (node : Node cells) (hn : Interior cells node)
    (T : CellIndex cells → (Fin d → Bool) → M) :
    (∑ j, ∑ v, if node = cornerNode j v then T j v else 0) = ∑ v, T (cellAt node hn v) v := by
  rw [Finset.sum_comm]
  apply Finset.sum_congr rfl
  intro v _
  simp only [cellAt_iff node hn v]
  rw [Finset.sum_ite_eq']
  simp

/-- the contributions of the cells around a node to the residual of a multilinear function cancel in each direction -/
theorem cancel_direction (w : Fin d → Bool) (node : Fin d → R) (m x : Fin d → R) (i : Fin d) :
    ∑ v : Fin d → Bool, shapeGrad w (fun l => (node l - (if v l then 1 else 0) + x l) / m l) i * shapeGrad v x i = 0 := by
  have h : ∀ v : Fin d → Bool, shapeGrad w (fun l => (node l - (if v l then 1 else 0) + x l) / m l) i * shapeGrad v x i =
      ∏ l, (if l = i then hatSlope (w l) else hat (w l) ((node l - (if v l then 1 else 0) + x l) / m l)) *
        (if l = i then hatSlope (v l) else hat (v l) (x l)) := by
    intro v
    rw [shapeGrad, shapeGrad, ← Finset.prod_mul_distrib]
  simp only [h]
  rw [sum_prod_bool (fun l b => (if l = i then hatSlope (w l) else hat (w l) ((node l - (if b then 1 else 0) + x l) / m l)) *
        (if l = i then hatSlope b else hat b (x l)))]
  apply Finset.prod_eq_zero (Finset.mem_univ i)
  simp [hatSlope]

end

variable {R : Type} [Field R] [LinearOrder R] [IsStrictOrderedRing R]

/-- Coarse functions are discretely harmonic in the coarse cells if the diffusion is constant and diagonal. -/
theorem harmonic (S : Setup d R) (hS : S.Admissible) (hnd : S.localOrder.Nodup) (a : Fin d → R) (constrained : Node S.micro → Bool)
    (neumann : Node S.micro → R) (J : CellIndex S.cells) (k : Fin (2 ^ d)) (node : Node S.micro) (hn : Interior S.micro node) :
    (stiff (fun _ => diagonal a) (S.cell constrained neumann J).elements *ᵥ (S.cell constrained neumann J).nodal k) node = 0 := by
  have hN := (cell_nested S hS constrained neumann J).nested
  rw [stiff_mulVec]
  have hm : ∀ l, (S.micro l : R) ≠ 0 := fun l => by exact_mod_cast (hS.micro_pos l).ne'
  have hw : ∀ l, S.width l ≠ 0 := fun l => (hS.width_pos l).ne'
  have e1 : ∀ j ∈ S.localOrder, ∀ i : Fin (2 ^ d),
      (((element (S.cellLower J) S.localWidth S.localRule j).quadOp.map fun q => q.weight *
        ((diagonal a *ᵥ (element (S.cellLower J) S.localWidth S.localRule j).gradOf
          ((S.cell constrained neumann J).nodal k) q.pos) ⬝ᵥ
          (element (S.cellLower J) S.localWidth S.localRule j).grad i q.pos)).sum) =
      (S.localRule.map fun q => (q.weight * ∏ i, S.localWidth i) * ∑ l, a l / (S.width l * S.localWidth l) *
        (shapeGrad (corner k) (fun l => (((j l).1 : R) + q.pos l) / (S.micro l : R)) l * shapeGrad (corner i) q.pos l)).sum := by
    intro j hj i
    rw [show (element (S.cellLower J) S.localWidth S.localRule j).quadOp = scaleRule S.localWidth S.localRule from rfl,
      scaleRule, List.map_map]
    congr 1
    apply List.map_congr_left
    intro q hq
    have h1 := hN _ (List.mem_map.mpr ⟨j, hj, rfl⟩) ⟨q.pos, q.weight * ∏ i, S.localWidth i⟩
      (List.mem_map.mpr ⟨q, hq, rfl⟩) k
    simp only [Function.comp_apply]
    rw [← h1]
    congr 1
    have h2 : (S.cell constrained neumann J).toCoarse ((element (S.cellLower J) S.localWidth S.localRule j).toGlobal q.pos) =
        fun l => (((j l).1 : R) + q.pos l) / (S.micro l : R) := by
      funext l
      simp only [Setup.cell, element, Setup.localWidth]
      have := hw l
      have := hm l
      field_simp
      ring
    rw [h2, dotProduct]
    apply Finset.sum_congr rfl
    intro l _
    rw [mulVec_diagonal]
    simp only [Setup.cell, element]
    have h3 := hw l
    have h4 := (localWidth_pos S hS l).ne'
    field_simp
  rw [show (S.cell constrained neumann J).elements = S.localOrder.map (element (S.cellLower J) S.localWidth S.localRule) from rfl,
    List.map_map]
  have e2 : (S.localOrder.map ((fun e : Element d (2 ^ d) (Node S.micro) R => ∑ i, if node = e.dofs i then
        (e.quadOp.map fun q => q.weight * ((diagonal a *ᵥ e.gradOf ((S.cell constrained neumann J).nodal k) q.pos) ⬝ᵥ
          e.grad i q.pos)).sum else 0) ∘ element (S.cellLower J) S.localWidth S.localRule)) =
      S.localOrder.map fun j => ∑ v : Fin d → Bool, if node = cornerNode j v then
        (S.localRule.map fun q => (q.weight * ∏ i, S.localWidth i) * ∑ l, a l / (S.width l * S.localWidth l) *
        (shapeGrad (corner k) (fun l => (((j l).1 : R) + q.pos l) / (S.micro l : R)) l * shapeGrad v q.pos l)).sum else 0 := by
    apply List.map_congr_left
    intro j hj
    rw [← sum_corner (fun v => if node = cornerNode j v then
        (S.localRule.map fun q => (q.weight * ∏ i, S.localWidth i) * ∑ l, a l / (S.width l * S.localWidth l) *
        (shapeGrad (corner k) (fun l => (((j l).1 : R) + q.pos l) / (S.micro l : R)) l * shapeGrad v q.pos l)).sum else 0)]
    apply Finset.sum_congr rfl
    intro i _
    simp only [← e1 j hj i]
    rfl
  rw [e2, sum_order _ hnd hS.localOrder_complete, sum_around node hn, ← sum_map_sum]
  apply List.sum_eq_zero
  intro y hy
  obtain ⟨q, -, rfl⟩ := List.mem_map.mp hy
  rw [← Finset.mul_sum, Finset.sum_comm]
  apply mul_eq_zero_of_right
  apply Finset.sum_eq_zero
  intro l _
  rw [← Finset.mul_sum]
  apply mul_eq_zero_of_right
  rw [← cancel_direction (corner k) (fun l => ((node l).1 : R)) (fun l => (S.micro l : R)) q.pos l]
  apply Finset.sum_congr rfl
  intro v _
  congr 2
  funext l'
  have := hn l'
  simp only [cellAt]
  split_ifs
  · rw [Nat.cast_sub (by omega)]; simp
  · simp

/-! ## No correctors -/

/-- All local solutions are zero. -/
def Setup.NoCorrection (S : Setup d R) (xs : CellIndex S.cells → List (Node S.micro → R)) : Prop :=
  ∀ J, xs J = List.replicate (2 ^ d + 2) 0

theorem no_correction (S : Setup d R) (hS : S.Admissible) (diffusion : (Fin d → R) → Matrix (Fin d) (Fin d) R)
    (flux : (Fin d → R) → (Fin d → R) → (Fin d → R)) (hflux : ∀ x v, flux x v = diffusion x *ᵥ v)
    (constrained : Node S.micro → Bool) (hcon : ∀ node, constrained node = false → Interior S.micro node)
    (hinj : ∀ neumann J, FreeInjective (stiff diffusion (S.cell constrained neumann J).elements) constrained)
    (hharm : ∀ neumann J k node, constrained node = false →
      (stiff diffusion (S.cell constrained neumann J).elements *ᵥ (S.cell constrained neumann J).nodal k) node = 0)
    (xs : CellIndex S.cells → List (Node S.micro → R)) (hx : S.Solves constrained diffusion flux xs) : S.NoCorrection xs := by
  intro J
  obtain ⟨walks, valid, s, ext, neumann, hw, hneu, hs, hsol⟩ := hx J
  obtain ⟨Q, qN, qD, hxs, h1, h2, h3⟩ := correctors _ (cell_nested S hS constrained neumann J) walks hw diffusion flux hflux ext
    valid s hs (xs J) hsol
  have hinj' := hinj neumann J
  have zero : ∀ load x, (∀ node, constrained node = false → load node = 0) →
      IsSolution (stiff diffusion (S.cell constrained neumann J).elements) load 0 constrained x → x = 0 := by
    intro load x hl hx
    apply Verif.DirichletSolve.unique_of_freeInjective hinj' hx
    exact ⟨fun _ _ => rfl, fun i hi => by rw [mulVec_zero, Pi.zero_apply, hl i hi]⟩
  have hQ : ∀ k, Q k = 0 := fun k => zero _ _ (fun node hn => by rw [Pi.neg_apply, hharm neumann J k node hn, neg_zero]) (h1 k)
  have hND : qN = 0 ∧ qD = 0 := by
    cases hb : (S.cell constrained neumann J).hasBoundary
    · exact h2 hb
    · obtain ⟨hN, hD⟩ := h3 hb
      refine ⟨zero _ _ (fun node hn => hneu node (hcon node hn)) hN, zero _ _ (fun node hn => ?_) hD⟩
      rw [Pi.neg_apply, Cell.extension, mulVec_sum, Finset.sum_apply, Finset.sum_eq_zero, neg_zero]
      intro k _
      rw [mulVec_smul, Pi.smul_apply, hharm neumann J k node hn, smul_zero]
  rw [hxs, hND.1, hND.2, show Q = fun _ => 0 from funext hQ, Manager.corrList, List.ofFn_const, List.replicate_add]
  rfl

/-! ## The coarse system without correctors -/

omit [LinearOrder R] [IsStrictOrderedRing R] in
theorem prod_localWidth (S : Setup d R) : ∏ i, S.localWidth i = (∏ i, S.width i) * (∏ i, (S.micro i : R))⁻¹ := by
  rw [← Finset.prod_inv_distrib, ← Finset.prod_mul_distrib]
  simp only [Setup.localWidth, div_eq_mul_inv]

/-- **C72** (what the code computes without correctors) The coarse matrix is the finite element matrix of the coarse grid, and the
coarse load is its load, with diffusion and source replaced by their means over the points with the same
position in the local cells (this is what C54 amounts to). -/
theorem C72_means (S : Setup d R) (hS : S.Admissible) (hnd : S.localOrder.Nodup)
    (diffusion : (Fin d → R) → Matrix (Fin d) (Fin d) R) (flux : (Fin d → R) → (Fin d → R) → (Fin d → R))
    (hflux : ∀ x v, flux x v = diffusion x *ᵥ v) (source : (Fin d → R) → R)
    (xs : CellIndex S.cells → List (Node S.micro → R)) (hx : S.NoCorrection xs) (tmp : Fin (2 ^ d) → Fin (2 ^ d) → R)
    (tmp' : Fin (2 ^ d) → R) (pts : List (NeumannPoint S)) :
    S.coarseMatrix diffusion xs tmp = Matrix.of (stiffness (femSamples S S.matrixRule (S.mean diffusion) (S.mean source))) ∧
    S.coarseLoad flux source xs tmp' pts =
      load (femSamples S S.loadRule (S.mean diffusion) (S.mean source)) + femNeumann S pts := by
  have hget : ∀ J i, (xs J).getD i 0 = 0 := by
    intro J i
    rw [hx J, List.getD_eq_getElem?_getD, List.getElem?_replicate]
    split_ifs <;> rfl
  have hg : ∀ (rule : List (QPoint d R)) J (j : CellIndex S.micro) i x,
      (element (S.cellLower J) S.localWidth rule j).gradOf ((xs J).getD i 0) x = 0 := by
    intro rule J j i x
    rw [hget J i]
    simp [Element.gradOf]
  have hv : ∀ J (j : CellIndex S.micro) i x, valueOf ((xs J).getD i 0) j x = 0 := by
    intro J j i x
    rw [hget J i]
    simp [valueOf]
  have hpos : ∀ J (j : CellIndex S.micro) (x : Fin d → R),
      (fun i => S.cellLower J i + (((j i).1 : R) + x i) * S.localWidth i) = S.finePosition J j x := fun _ _ _ => rfl
  constructor
  · rw [coarseMatrix_eq]
    congr 1
    funext a b
    unfold stiffness usedSamples femSamples
    rw [sum_flatMap_map, sum_flatMap_map, List.map_map]
    congr 1
    apply List.map_congr_left
    intro J _
    simp only [Function.comp_apply]
    rw [sum_flatMap_map]
    have hfil : ((S.coarseCell S.matrixRule J (xs J)).cells.filter (·.covered)) = (S.coarseCell S.matrixRule J (xs J)).cells := by
      apply List.filter_eq_self.mpr
      intro e he
      obtain ⟨j, -, rfl⟩ := List.mem_map.mp he
      rfl
    rw [hfil]
    simp only [Setup.coarseCell, List.map_map, Function.comp_def, element, scaleRule] at *
    rw [sum_order _ hnd hS.localOrder_complete, ← sum_map_sum]
    congr 1
    apply List.map_congr_left
    intro q _
    rw [Finset.sum_comm]
    apply Finset.sum_congr rfl
    intro i _
    rw [Finset.sum_comm]
    apply Finset.sum_congr rfl
    intro k _
    split_ifs
    swap
    · simp
    simp only [hg, add_zero]
    rw [← Finset.mul_sum, prod_localWidth S, Setup.mean, smul_mulVec, Matrix.sum_mulVec, smul_dotProduct, sum_dotProduct, smul_eq_mul]
    simp only [hpos]
    ring
  · unfold Setup.coarseLoad
    rw [addNeumann_eq]
    congr 1
    funext a
    rw [C24_load_entries diffusion flux hflux, Pi.zero_apply, zero_add]
    unfold load usedSamples femSamples
    rw [sum_flatMap_map, sum_flatMap_map, List.map_map]
    congr 1
    apply List.map_congr_left
    intro J _
    simp only [Function.comp_apply]
    rw [sum_flatMap_map]
    have hfil : ((S.coarseCell S.loadRule J (xs J)).cells.filter (·.covered)) = (S.coarseCell S.loadRule J (xs J)).cells := by
      apply List.filter_eq_self.mpr
      intro e he
      obtain ⟨j, -, rfl⟩ := List.mem_map.mp he
      rfl
    rw [hfil]
    simp only [Setup.coarseCell, List.map_map, Function.comp_def, element, scaleRule] at *
    rw [sum_order _ hnd hS.localOrder_complete, ← sum_map_sum]
    congr 1
    apply List.map_congr_left
    intro q _
    rw [Finset.sum_comm]
    apply Finset.sum_congr rfl
    intro i _
    split_ifs
    swap
    · simp
    simp only [hg, hv, add_zero, sub_zero, mulVec_zero, zero_dotProduct]
    rw [← Finset.mul_sum, prod_localWidth S, Setup.mean, ← Finset.sum_mul, smul_eq_mul]
    simp only [hpos]
    ring

theorem mean_const {M : Type} [AddCommGroup M] [Module R M] (S : Setup d R) (hS : S.Admissible) (F : (Fin d → R) → M)
    (J : CellIndex S.cells) (x : Fin d → R) (c : M) (h : ∀ j, F (S.finePosition J j x) = c) : S.mean F J x = c := by
  rw [Setup.mean, Finset.sum_congr rfl (fun j _ => h j), Finset.sum_const, Finset.card_univ, Fintype.card_pi]
  simp only [Fintype.card_fin]
  rw [← Nat.cast_smul_eq_nsmul R, smul_smul, Nat.cast_prod, inv_mul_cancel₀, one_smul]
  exact Finset.prod_ne_zero_iff.mpr fun i _ => by exact_mod_cast (hS.micro_pos i).ne'

/-- The two situations in which there is nothing to correct: coarse cells that are not refined, or constant diagonal diffusion and
constant source. -/
def Setup.Plain (S : Setup d R) (diffusion : (Fin d → R) → Matrix (Fin d) (Fin d) R) (source : (Fin d → R) → R) : Prop :=
  (∀ i, S.micro i = 1) ∨
  ∃ (a : Fin d → R) (f : R), (∀ i, 0 < a i) ∧ (∀ x, diffusion x = diagonal a) ∧ ∀ x, source x = f

theorem definite_diagonal (a : Fin d → R) (ha : ∀ i, 0 < a i) :
    Definite (fun _ : Fin d → R => diagonal a) := by
  intro x v hv
  have : ∃ i, v i ≠ 0 := by
    by_contra h
    push Not at h
    exact hv (funext h)
  obtain ⟨i, hi⟩ := this
  rw [dotProduct]
  apply Finset.sum_pos'
  · intro l _
    rw [mulVec_diagonal, mul_assoc]
    exact mul_nonneg (ha l).le (mul_self_nonneg _)
  · refine ⟨i, Finset.mem_univ i, ?_⟩
    rw [mulVec_diagonal, mul_assoc]
    exact mul_pos (ha i) (mul_self_pos.mpr hi)

/-- Then all local solutions are zero, if the local problems are constrained on the whole boundary. -/
theorem C72_no_correction (S : Setup d R) (hS : S.Admissible) (hnd : S.localOrder.Nodup) (hR : Resolving S.localRule)
    (hd : 0 < d) (diffusion : (Fin d → R) → Matrix (Fin d) (Fin d) R) (source : (Fin d → R) → R) (hp : S.Plain diffusion source)
    (flux : (Fin d → R) → (Fin d → R) → (Fin d → R)) (hflux : ∀ x v, flux x v = diffusion x *ᵥ v)
    (constrained : Node S.micro → Bool) (hcon : ∀ node, constrained node = false → Interior S.micro node)
    (xs : CellIndex S.cells → List (Node S.micro → R)) (hx : S.Solves constrained diffusion flux xs) : S.NoCorrection xs := by
  rcases hp with hm | ⟨a, f, ha, hD, -⟩
  · have hall : ∀ node, constrained node = true := by
      intro node
      by_contra h
      have := hcon node (by simpa using h) ⟨0, hd⟩
      have := hm ⟨0, hd⟩
      omega
    apply no_correction S hS diffusion flux hflux constrained hcon _ _ xs hx
    · intro neumann J v hv _
      funext node
      exact hv node (hall node)
    · intro neumann J k node hn
      rw [hall node] at hn
      cases hn
  · obtain rfl : diffusion = fun _ => diagonal a := funext hD
    apply no_correction S hS _ flux hflux constrained hcon _ _ xs hx
    · intro neumann J
      apply local_free_injective S hS hR _ (definite_diagonal a ha)
      refine ⟨fun i => ⟨0, Nat.succ_pos _⟩, ?_⟩
      by_contra h
      have := hcon _ (by simpa using h) ⟨0, hd⟩
      simp at this
    · intro neumann J k node hn
      exact harmonic S hS hnd a constrained neumann J k node (hcon node hn)

/-- The stiffness matrix and the load of the finite element method on the coarse grid. -/
def femMatrix (S : Setup d R) (diffusion : (Fin d → R) → Matrix (Fin d) (Fin d) R) : Matrix (Node S.cells) (Node S.cells) R :=
  Matrix.of (stiffness (femSamples S S.matrixRule (fun J x => diffusion (S.position J x)) (fun _ _ => 0)))

def femLoad (S : Setup d R) (source : (Fin d → R) → R) : Node S.cells → R :=
  load (femSamples S S.loadRule (fun _ _ => 0) (fun J x => source (S.position J x)))

omit [LinearOrder R] [IsStrictOrderedRing R] in
theorem stiffness_source (S : Setup d R) (rule : List (QPoint d R)) (D : CellIndex S.cells → (Fin d → R) → Matrix (Fin d) (Fin d) R)
    (f g : CellIndex S.cells → (Fin d → R) → R) : stiffness (femSamples S rule D f) = stiffness (femSamples S rule D g) := by
  funext a b
  unfold stiffness femSamples
  rw [sum_flatMap_map, sum_flatMap_map]
  simp only [List.map_map]
  rfl

omit [LinearOrder R] [IsStrictOrderedRing R] in
theorem load_diffusion (S : Setup d R) (rule : List (QPoint d R)) (D E : CellIndex S.cells → (Fin d → R) → Matrix (Fin d) (Fin d) R)
    (f : CellIndex S.cells → (Fin d → R) → R) : load (femSamples S rule D f) = load (femSamples S rule E f) := by
  funext a
  unfold load femSamples
  rw [sum_flatMap_map, sum_flatMap_map]
  simp only [List.map_map, Function.comp_def, mulVec_zero]

/-- **C72** (matrix and load) If the coarse cells are not refined, or if diffusion and source are constant and the diffusion is diagonal, the
coarse system of the multiscale method is that of the finite element method on the coarse grid. -/
theorem C72_system (S : Setup d R) (hS : S.Admissible) (hnd : S.localOrder.Nodup) (hR : Resolving S.localRule)
    (hd : 0 < d) (diffusion : (Fin d → R) → Matrix (Fin d) (Fin d) R) (source : (Fin d → R) → R) (hp : S.Plain diffusion source)
    (flux : (Fin d → R) → (Fin d → R) → (Fin d → R)) (hflux : ∀ x v, flux x v = diffusion x *ᵥ v)
    (constrained : Node S.micro → Bool) (hcon : ∀ node, constrained node = false → Interior S.micro node)
    (xs : CellIndex S.cells → List (Node S.micro → R)) (hx : S.Solves constrained diffusion flux xs)
    (tmp : Fin (2 ^ d) → Fin (2 ^ d) → R) (tmp' : Fin (2 ^ d) → R) (pts : List (NeumannPoint S)) :
    S.coarseMatrix diffusion xs tmp = femMatrix S diffusion ∧
    S.coarseLoad flux source xs tmp' pts = femLoad S source + femNeumann S pts := by
  have hno := C72_no_correction S hS hnd hR hd diffusion source hp flux hflux constrained hcon xs hx
  obtain ⟨h1, h2⟩ := C72_means S hS hnd diffusion flux hflux source xs hno tmp tmp' pts
  have hmean : S.mean diffusion = (fun J x => diffusion (S.position J x)) ∧ S.mean source = fun J x => source (S.position J x) := by
    rcases hp with hm | ⟨a, f, -, hD, hf⟩
    · have hpos : ∀ J j x, S.finePosition J j x = S.position J x := by
        intro J j x
        funext i
        have h0 : (j i).1 = 0 := by
          have := (j i).2
          have := hm i
          omega
        simp only [Setup.finePosition, Setup.position, h0, hm i]
        simp
        ring
      exact ⟨funext fun J => funext fun x => mean_const S hS _ J x _ fun j => by rw [hpos],
        funext fun J => funext fun x => mean_const S hS _ J x _ fun j => by rw [hpos]⟩
    · exact ⟨funext fun J => funext fun x => mean_const S hS _ J x _ fun j => by rw [hD, hD],
        funext fun J => funext fun x => mean_const S hS _ J x _ fun j => by rw [hf, hf]⟩
  constructor
  · rw [h1, hmean.1, femMatrix, stiffness_source]
  · rw [h2, hmean.2, femLoad, load_diffusion]

/-- **C72** Under the same conditions the coarse solution is the finite element solution on the coarse grid, and the solution on every coarse
cell is its multilinear interpolation. -/
theorem C72_is_fem (S : Setup d R) (hS : S.Admissible) (hnd : S.localOrder.Nodup) (hR : Resolving S.localRule)
    (hd : 0 < d) (diffusion : (Fin d → R) → Matrix (Fin d) (Fin d) R) (source : (Fin d → R) → R) (hp : S.Plain diffusion source)
    (flux : (Fin d → R) → (Fin d → R) → (Fin d → R)) (hflux : ∀ x v, flux x v = diffusion x *ᵥ v)
    (constrained : Node S.micro → Bool) (hcon : ∀ node, constrained node = false → Interior S.micro node)
    (xs : CellIndex S.cells → List (Node S.micro → R)) (hx : S.Solves constrained diffusion flux xs)
    (tmp : Fin (2 ^ d) → Fin (2 ^ d) → R) (tmp' : Fin (2 ^ d) → R) (pts : List (NeumannPoint S))
    (data : Node S.cells → R) (D : Node S.cells → Bool) (valid : (Node S.cells → R) → Bool) (s : Solver (Node S.cells) R)
    (hs : s.Correct) (old u : Node S.cells → R)
    (h : coarseSolve valid s (S.coarseMatrix diffusion xs tmp) (S.coarseLoad flux source xs tmp' pts) data D old = .ok u) :
    IsSolution (femMatrix S diffusion) (femLoad S source + femNeumann S pts) data D u ∧
    ∀ (J : CellIndex S.cells) (neumann : Node S.micro → R) (cells : List (ℕ × List (Node S.micro → R))),
      (cells.map Prod.fst).Nodup → ∀ key, (key, xs J) ∈ cells →
      (S.cell constrained neumann J).solution cells key (fun k => u (cornerNode J (corner k))) =
        .ok fun node => ∑ v : Fin d → Bool, u (cornerNode J v) * shape v fun i => ((node i).1 : R) / (S.micro i : R) := by
  obtain ⟨h1, h2⟩ := C72_system S hS hnd hR hd diffusion source hp flux hflux constrained hcon xs hx tmp tmp' pts
  constructor
  · rw [h1, h2] at h
    exact Verif.DirichletSolve.C25_coarse_solution valid s hs _ _ data D old u h
  · intro J neumann cells hn key hc
    have hno := C72_no_correction S hS hnd hR hd diffusion source hp flux hflux constrained hcon xs hx J
    have hlist : xs J = Manager.corrList (fun _ : Fin (2 ^ d) => 0) 0 0 := by
      rw [hno, Manager.corrList, List.ofFn_const, List.replicate_add]
      rfl
    rw [hlist] at hc
    rw [solution_eq _ cells hn key _ _ _ _ hc]
    congr 1
    funext node
    rw [← sum_corner (fun v => u (cornerNode J v) * shape v fun i => ((node i).1 : R) / (S.micro i : R))]
    simp [Setup.cell]

/-- The finite element system of a structured grid is uniquely solvable if there is a Dirichlet node. -/
theorem C72_fem_free_injective (S : Setup d R) (hS : S.Admissible) (hR : Resolving S.matrixRule)
    (diffusion : (Fin d → R) → Matrix (Fin d) (Fin d) R) (hpd : Definite diffusion) (D : Node S.cells → Bool)
    (hD : ∃ g, D g = true) : FreeInjective (femMatrix S diffusion) D := by
  have hmem : ∀ s, s ∈ femSamples S S.matrixRule (fun J x => diffusion (S.position J x)) (fun _ _ => 0) ↔
      ∃ J ∈ S.order, ∃ q ∈ S.matrixRule, s =
        { weight := q.weight * ∏ i, S.width i, tensor := diffusion (S.position J q.pos), source := 0
          dofs := fun k => cornerNode J (corner k), val := fun k => shape (corner k) q.pos
          grad := fun k i => shapeGrad (corner k) q.pos i / S.width i, lifting := 0 } := by
    intro s
    simp only [femSamples, List.mem_flatMap, List.mem_map]
    constructor
    · rintro ⟨J, hJ, q, hq, rfl⟩
      exact ⟨J, hJ, q, hq, rfl⟩
    · rintro ⟨J, hJ, q, hq, rfl⟩
      exact ⟨J, hJ, q, hq, rfl⟩
  apply freeInjective_of_samples
  · intro s hs
    obtain ⟨J, -, q, hq, rfl⟩ := (hmem s).mp hs
    exact mul_pos (hR.weight_pos q hq) (Finset.prod_pos fun i _ => hS.width_pos i)
  · intro s hs
    obtain ⟨J, -, q, hq, rfl⟩ := (hmem s).mp hs
    exact hpd _
  · intro u hu hDu
    obtain ⟨g, hg⟩ := hD
    funext g'
    rw [Pi.zero_apply, ← hDu g hg]
    apply constant_of_edges hS.cells_pos
    intro J v i
    apply edges_of_rule S.matrixRule hR (fun v => u (cornerNode J v)) i
    intro q hq
    have h := congrFun (hu _ ((hmem _).mpr ⟨J, hS.order_complete J, q, hq, rfl⟩)) i
    rw [Sample.gradOf, Finset.sum_apply] at h
    simp only [Pi.smul_apply, smul_eq_mul, Pi.zero_apply] at h
    rw [← sum_corner (fun v => u (cornerNode J v) * shapeGrad v q.pos i)]
    have hw := (hS.width_pos i).ne'
    simp only [← mul_div_assoc] at h
    rw [← Finset.sum_div, div_eq_zero_iff] at h
    exact h.resolve_right hw

/-! ## The registered problems -/

open Verif.Boundary in
/-- **C72** (partial: Synthetic, ER2007, Random) For these problems, with the boundary types they configure, the local problems are
constrained on the whole boundary, so C72_is_fem applies. -/
theorem C72_problems_partial (hd : d = 2 ∨ d = 3) (close : (Fin d → ℚ) → (Fin d → ℚ) → Bool) (p : Problem)
    (hp : p = .synthetic ∨ p = .er2007 ∨ p = .random) (normal : Face d → Fin d → ℚ) :
    ∃ subInfo, subBoundaryInfo d p none = .ok subInfo ∧
      ∀ (S : Setup d R), S.Admissible → S.localOrder.Nodup → Resolving S.localRule → ∀ diffusion source, S.Plain diffusion source →
        ∀ flux : (Fin d → R) → (Fin d → R) → (Fin d → R), (∀ x v, flux x v = diffusion x *ᵥ v) → ∀ xs,
        S.Solves (dirichletNodes close subInfo normal S.micro) diffusion flux xs → ∀ tmp tmp' pts data D valid
        (s : Solver (Node S.cells) R), s.Correct → ∀ old u,
        coarseSolve valid s (S.coarseMatrix diffusion xs tmp) (S.coarseLoad flux source xs tmp' pts) data D old = .ok u →
        IsSolution (femMatrix S diffusion) (femLoad S source + femNeumann S pts) data D u ∧
        ∀ J neumann cells, (cells.map Prod.fst).Nodup → ∀ key, (key, xs J) ∈ cells →
          (S.cell (dirichletNodes close subInfo normal S.micro) neumann J).solution cells key (fun k => u (cornerNode J (corner k))) =
            .ok fun node => ∑ v : Fin d → Bool, u (cornerNode J v) * shape v fun i => ((node i).1 : R) / (S.micro i : R) := by
  obtain ⟨subInfo, hsub, -⟩ := C61_all_constrained_partial close p hp none normal (fun _ => 1) (fun _ => 0)
  refine ⟨subInfo, hsub, fun S hS hnd hR diffusion source hpl flux hflux xs hx tmp tmp' pts data D valid s hs old u h => ?_⟩
  apply C72_is_fem S hS hnd hR (by omega) diffusion source hpl flux hflux _ _ xs hx tmp tmp' pts data D valid s hs old u h
  intro node hnode i
  obtain ⟨subInfo', hsub', hiff⟩ := C61_all_constrained_partial close p hp none normal S.micro (fun i => (node i).1)
  rw [hsub] at hsub'
  injection hsub' with hsub'
  subst hsub'
  have h1 : ¬ ∃ i, (node i).1 = 0 ∨ (node i).1 = S.micro i := by
    intro h
    have h2 := hiff.mpr h
    rw [dirichletNodes] at hnode
    rw [hnode] at h2
    cases h2
  push Not at h1
  have := h1 i
  have := (node i).2
  omega

open Verif.Boundary in
/-- **C72** (the negation: SPE10 and Tarbert) For these problems the coarse matrix is never that of the finite element method, not even
without refinement or with constant data. -/
theorem C72_violated_problems (hd : d = 2 ∨ d = 3) (close : (Fin d → ℚ) → (Fin d → ℚ) → Bool) (hc : Tolerance close) (p : Problem)
    (hp : p = .spe10 ∨ p = .tarbert) (normal : Face d → Fin d → ℚ) (hn : ∀ f, Computed (normal f) f) :
    ∃ info, subBoundaryInfo d p none = .ok info ∧
      ∀ (S : Setup d R), S.Admissible → Resolving S.localRule → Resolving S.matrixRule → ∀ diffusion, Definite diffusion →
        ∀ flux : (Fin d → R) → (Fin d → R) → (Fin d → R), (∀ x v, flux x v = diffusion x *ᵥ v) → ∀ xs,
        S.Solves (dirichletNodes close info normal S.micro) diffusion flux xs → ∀ tmp,
        S.coarseMatrix diffusion xs tmp ≠ femMatrix S diffusion := by
  obtain ⟨info, hi, hsub, h⟩ := C71_violated_singular (R := R) hd close hc p hp normal hn
  refine ⟨info, hsub, fun S hS hR hR' diffusion hpd flux hflux xs hx tmp heq => ?_⟩
  have hdet := h S hS hR diffusion hpd flux hflux xs hx tmp 0 0
  have hinj : FreeInjective (S.coarseMatrix diffusion xs tmp) (dirichletNodes close info normal S.cells) := by
    rw [heq]
    apply C72_fem_free_injective S hS hR' diffusion hpd
    obtain ⟨info', hi', y, upper, -, -, h3⟩ := C61_violated hd close hc p hp normal hn S.cells
    rw [hsub] at hi'
    injection hi' with hi'
    subst hi'
    refine ⟨fun l => if upper then ⟨S.cells l, by omega⟩ else ⟨0, by omega⟩, ?_⟩
    rw [dirichletNodes, h3]
    cases upper <;> simp
  obtain ⟨x, hx1, hx2⟩ := exists_mulVec_eq_zero_iff.mpr hdet
  apply hx1
  obtain ⟨y, hy, huniq⟩ := Verif.DirichletSolve.C25_system_solvable _ 0 0 _ hinj
  have hb : (coarseSystem (S.coarseMatrix diffusion xs tmp) 0 0 (dirichletNodes close info normal S.cells)).rhs = 0 := by
    have h0 : Verif.DirichletSolve.dirichletProject (dirichletNodes close info normal S.cells) (0 : Node S.cells → R) 0 = 0 := by
      funext i
      simp [Verif.DirichletSolve.dirichletProject]
    funext i
    simp [coarseSystem, Verif.DirichletSolve.constrainedSystem, constrainVec, h0]
  have h1 := huniq x (by simp only [hb]; exact hx2)
  have h2 := huniq 0 (by simp only [hb, mulVec_zero])
  rw [h1, h2]

/-! ## C58 on structured grids -/

/-- **C58** (structured grids, what the code computes) The residual is that of C58_residual_partial; the cells with boundary terms are
those that touch the boundary of the domain. -/
theorem C58_structured_residual_partial (S : Setup d R) (hS : S.Admissible) (diffusion : (Fin d → R) → Matrix (Fin d) (Fin d) R)
    (constrained : Node S.micro → Bool) (neumann : Node S.micro → R) (J : CellIndex S.cells) (ext c : Fin (2 ^ d) → R)
    (u : Node S.micro → R) (h : (S.cell constrained neumann J).Computes diffusion ext c u) :
    IsSolution (stiff diffusion (S.cell constrained neumann J).elements)
      (fun node => if ∃ i, (J i).1 = 0 ∨ (J i).1 + 1 = S.cells i then
        -(stiff diffusion (S.cell constrained neumann J).elements *ᵥ
          fun node => ∑ k, ext k * shape (corner k) fun i => ((node i).1 : R) / (S.micro i : R)) node - neumann node else 0)
      (fun node => ∑ k, c k * shape (corner k) fun i => ((node i).1 : R) / (S.micro i : R)) constrained u := by
  have hsol := computes_residual _ (cell_nested S hS constrained neumann J) diffusion ext c u h
  have e : ∀ c : Fin (2 ^ d) → R, (fun node => ∑ k, c k * shape (corner k) fun i => ((node i).1 : R) / (S.micro i : R)) =
      ∑ k, c k • (S.cell constrained neumann J).nodal k := by
    intro c
    funext node
    simp [Setup.cell]
  rw [e, e]
  refine ⟨hsol.boundary, fun i hi => ?_⟩
  rw [hsol.equation i hi]
  by_cases hb : ∃ i, (J i).1 = 0 ∨ (J i).1 + 1 = S.cells i
  · have : (S.cell constrained neumann J).hasBoundary = true := by simpa [Setup.cell] using hb
    rw [this, if_pos rfl, if_pos hb]
    rfl
  · have : (S.cell constrained neumann J).hasBoundary = false := by simpa [Setup.cell] using hb
    rw [this, if_neg (by simp), if_neg hb]
    rfl

/-- **C58** (structured grids) The hypotheses of the theorems about one coarse cell hold: in every cell without boundary faces, and in every
cell whose Dirichlet extension and Neumann functional vanish, the solution is the one and only fine-scale solution with the values of
the coarse solution at the constrained nodes. -/
theorem C58_structured_partial (S : Setup d R) (hS : S.Admissible) (hR : Resolving S.localRule)
    (diffusion : (Fin d → R) → Matrix (Fin d) (Fin d) R) (hpd : Definite diffusion) (constrained : Node S.micro → Bool)
    (hc : ∃ node, constrained node = true) (neumann : Node S.micro → R) (J : CellIndex S.cells) (ext c : Fin (2 ^ d) → R)
    (u : Node S.micro → R) (h : (S.cell constrained neumann J).Computes diffusion ext c u)
    (hb : (∀ i, 0 < (J i).1 ∧ (J i).1 + 1 < S.cells i) ∨ ext = 0 ∧ neumann = 0) (v : Node S.micro → R) :
    IsSolution (stiff diffusion (S.cell constrained neumann J).elements) 0
      (fun node => ∑ k, c k * shape (corner k) fun i => ((node i).1 : R) / (S.micro i : R)) constrained v ↔ v = u := by
  have hsol := C58_harmonic_partial _ (cell_nested S hS constrained neumann J) diffusion ext c u h (by
    rcases hb with hb | hb
    · left
      simp only [Setup.cell, decide_eq_false_iff_not, not_exists, not_or]
      intro i
      have := hb i
      omega
    · exact Or.inr hb)
  have e : (fun node => ∑ k, c k * shape (corner k) fun i => ((node i).1 : R) / (S.micro i : R)) =
      ∑ k, c k • (S.cell constrained neumann J).nodal k := by
    funext node
    simp [Setup.cell]
  rw [e]
  constructor
  · intro hv
    exact Verif.DirichletSolve.unique_of_freeInjective (local_free_injective S hS hR diffusion hpd constrained hc neumann J) hv hsol
  · rintro rfl
    exact hsol

/-! ## Refined cells and a source that is not constant -/

/-- Four coarse cells of size one, each refined into four. -/
def fourCells : Setup 2 ℚ where
  lower := 0
  width := fun _ => 1
  cells := fun _ => 2
  micro := fun _ => 2
  order := [![0, 0], ![1, 0], ![0, 1], ![1, 1]]
  localOrder := [![0, 0], ![1, 0], ![0, 1], ![1, 1]]
  localRule := [⟨![1 / 4, 1 / 4], 1 / 4⟩, ⟨![3 / 4, 1 / 4], 1 / 4⟩, ⟨![1 / 4, 3 / 4], 1 / 4⟩, ⟨![3 / 4, 3 / 4], 1 / 4⟩]
  matrixRule := [⟨![1 / 4, 1 / 4], 1 / 4⟩, ⟨![3 / 4, 1 / 4], 1 / 4⟩, ⟨![1 / 4, 3 / 4], 1 / 4⟩, ⟨![3 / 4, 3 / 4], 1 / 4⟩]
  loadRule := [⟨![1 / 4, 1 / 4], 1 / 4⟩, ⟨![3 / 4, 1 / 4], 1 / 4⟩, ⟨![1 / 4, 3 / 4], 1 / 4⟩, ⟨![3 / 4, 3 / 4], 1 / 4⟩]

theorem fourCells_mean : load (femSamples fourCells fourCells.loadRule (fun _ _ => 0) (fourCells.mean fun x => x 0 ^ 2)) (fun _ => (1 : Fin 3)) = 81 / 64 := by
  decide +kernel

theorem fourCells_fem : femLoad fourCells (fun x => x 0 ^ 2) (fun _ => (1 : Fin 3)) = 19 / 16 := by
  decide +kernel

theorem fourCells_admissible : fourCells.Admissible where
  width_pos := fun _ => by norm_num [fourCells]
  cells_pos := fun _ => by norm_num [fourCells]
  micro_pos := fun _ => by norm_num [fourCells]
  order_complete := by decide
  localOrder_complete := by decide

theorem fourCells_resolving : Resolving fourCells.localRule where
  weight_pos := by
    intro q hq
    simp only [fourCells, List.mem_cons, List.not_mem_nil, or_false] at hq
    rcases hq with rfl | rfl | rfl | rfl <;> norm_num
  points := by
    refine ⟨fun _ => 3 / 4, fun _ => 1 / 4, fun _ => by norm_num, fun s => ?_⟩
    refine ⟨⟨fun l => if s l then 3 / 4 else 1 / 4, 1 / 4⟩, ?_, rfl⟩
    have e : (fun l => if s l then 3 / 4 else 1 / 4 : Fin 2 → ℚ) = ![if s 0 then 3 / 4 else 1 / 4, if s 1 then 3 / 4 else 1 / 4] := by
      funext l
      fin_cases l <;> rfl
    rw [e]
    cases h0 : s 0 <;> cases h1 : s 1 <;> simp [fourCells]

/-- **C72** (the negation: refined cells and a source that is not constant) Diffusion one, source `x²`: the coarse solution is not the
finite element solution on the coarse grid, because of the misplaced sampling (C54), although there is nothing to correct. -/
theorem C72_violated_source (constrained : Node fourCells.micro → Bool)
    (hcon : ∀ node, constrained node = false → Interior fourCells.micro node)
    (xs : CellIndex fourCells.cells → List (Node fourCells.micro → ℚ))
    (hx : fourCells.Solves constrained (fun _ => 1) (fun _ v => v) xs) (tmp : Fin (2 ^ 2) → Fin (2 ^ 2) → ℚ) (tmp' : Fin (2 ^ 2) → ℚ)
    (data : Node fourCells.cells → ℚ) (D : Node fourCells.cells → Bool) (hD : D (fun _ => (1 : Fin 3)) = false)
    (valid : (Node fourCells.cells → ℚ) → Bool) (s : Solver (Node fourCells.cells) ℚ)
    (hs : s.Correct) (old u : Node fourCells.cells → ℚ)
    (h : coarseSolve valid s (fourCells.coarseMatrix (fun _ => 1) xs tmp)
      (fourCells.coarseLoad (fun _ v => v) (fun x => x 0 ^ 2) xs tmp' []) data D old = .ok u) :
    ¬ IsSolution (femMatrix fourCells (fun _ => 1)) (femLoad fourCells (fun x => x 0 ^ 2)) data D u := by
  intro hu
  have hnd : fourCells.localOrder.Nodup := by decide
  have hpl : ∀ f : ℚ, fourCells.Plain (fun _ => 1) (fun _ => f) := fun f =>
    Or.inr ⟨fun _ => 1, f, fun _ => one_pos, fun _ => (diagonal_one).symm, fun _ => rfl⟩
  have hfl : ∀ x v : Fin 2 → ℚ, (fun _ v => v) x v = (fun _ => (1 : Matrix (Fin 2) (Fin 2) ℚ)) x *ᵥ v := fun _ v => (one_mulVec v).symm
  have h1 := (C72_system fourCells fourCells_admissible hnd fourCells_resolving (by norm_num) _ _ (hpl 0) _ hfl constrained hcon xs hx tmp
    tmp' []).1
  have hno := C72_no_correction fourCells fourCells_admissible hnd fourCells_resolving (by norm_num) _ _ (hpl 0) _ hfl constrained
    hcon xs hx
  have h2 := (C72_means fourCells fourCells_admissible hnd _ _ hfl (fun x => x 0 ^ 2) xs hno tmp tmp' []).2
  have h3 := (Verif.DirichletSolve.C25_coarse_solution valid s hs _ _ data D old u h).equation _ hD
  rw [h1, hu.equation _ hD, fourCells_fem, h2] at h3
  have h4 := fourCells_mean
  rw [load_diffusion fourCells _ _ (fourCells.mean fun _ => 1)] at h4
  have h5 : femNeumann fourCells [] = 0 := rfl
  rw [h5, add_zero, h4] at h3
  norm_num at h3

/-- The hypotheses of C72_is_fem can be met: constant diffusion with different entries, every refinement, local problems
constrained on the whole boundary. -/
example (N m : ℕ) (hN : 0 < N) (hm : 0 < m) : ∃ (constrained : Node (demoSetup 2 N m).micro → Bool)
    (xs : CellIndex (demoSetup 2 N m).cells → List (Node (demoSetup 2 N m).micro → ℚ)),
    (demoSetup 2 N m).Admissible ∧ (demoSetup 2 N m).localOrder.Nodup ∧ Resolving (demoSetup 2 N m).localRule ∧
    (demoSetup 2 N m).Plain (fun _ => diagonal ![1, 2]) (fun _ => 3) ∧
    (∀ node, constrained node = false → Interior (demoSetup 2 N m).micro node) ∧
    (demoSetup 2 N m).Solves constrained (fun _ => diagonal ![1, 2]) (fun _ v => diagonal ![1, 2] *ᵥ v) xs := by
  classical
  have hpos : ∀ i, (0 : ℚ) < ![1, 2] i := by intro i; fin_cases i <;> norm_num
  obtain ⟨xs, hxs⟩ := C71_local_solutions_exist (demoSetup 2 N m) (demo_admissible 2 N m hN hm) (demo_resolving 2 N m) _
    (definite_diagonal ![1, 2] hpos) (fun node => !decide (Interior (demoSetup 2 N m).micro node))
    ⟨fun _ => ⟨0, Nat.succ_pos _⟩, by simp [Interior]⟩ (fun _ v => diagonal ![1, 2] *ᵥ v)
  exact ⟨_, xs, demo_admissible 2 N m hN hm, Finset.nodup_toList _, demo_resolving 2 N m,
    Or.inr ⟨![1, 2], 3, hpos, fun _ => rfl, fun _ => rfl⟩, fun node h => by simpa using h, hxs⟩

end Verif.Q1Grid
