import Verif.Props.Q1Grid
import Verif.Props.DirichletSolve
import Verif.Props.Boundary
import Mathlib.Algebra.BigOperators.Field

/-!
# C71: the coarse system has exactly one solution
-/

namespace Verif.Q1Grid
open Matrix Verif.CoarseAssembly Verif.LocalAssembly Verif.LocalSolve Verif.Spec.Galerkin Verif.Spec.Dirichlet
open Verif.DirichletSolve (coarseSystem coarseSolve Solver)

variable {d : ℕ}

section
variable {R : Type} [Field R]

/-- Nodes inside the domain of the grid. -/
def Interior (cells : Fin d → ℕ) (node : Node cells) : Prop := ∀ i, 0 < (node i).1 ∧ (node i).1 < cells i

/-- The local solutions `xs J` of all coarse cells are results of the local solves with the direct solver.  The Neumann functional
is an integral over faces, so it is zero at interior nodes. -/
def Setup.Solves (S : Setup d R) (constrained : Node S.micro → Bool) (diffusion : (Fin d → R) → Matrix (Fin d) (Fin d) R)
    (flux : (Fin d → R) → (Fin d → R) → (Fin d → R)) (xs : CellIndex S.cells → List (Node S.micro → R)) : Prop :=
  ∀ J, ∃ (walks : ℕ) (valid : (Node S.micro → R) → Bool) (s : Solvers (Node S.micro) R) (ext : Fin (2 ^ d) → R)
    (neumann : Node S.micro → R), walks ≠ 0 ∧ (∀ node, Interior S.micro node → neumann node = 0) ∧
    s.Correct (constrainMat constrained ((S.cell constrained neumann J).matrix walks diffusion)) ∧
    (S.cell constrained neumann J).solve valid s true walks flux ext = .ok (xs J)

/-- Combination of the local solutions of a cell with the coefficients of a coarse function. -/
def combine (S : Setup d R) (xs : List (Node S.micro → R)) (c : (Fin d → Bool) → R) (node : Node S.micro) : R :=
  ∑ k : Fin (2 ^ d), c (corner k) * xs.getD k.1 0 node

theorem element_gradOf (lower width : Fin d → R) {cells : Fin d → ℕ} (rule : List (QPoint d R)) (j : CellIndex cells)
    (v : Node cells → R) (x : Fin d → R) (i : Fin d) :
    (element lower width rule j).gradOf v x i = (∑ w : Fin d → Bool, v (cornerNode j w) * shapeGrad w x i) / width i := by
  rw [← sum_corner, Element.gradOf, Finset.sum_apply, Finset.sum_div]
  apply Finset.sum_congr rfl
  intro k _
  simp [element, mul_div_assoc]

/-- gradient of a coarse function with its correctors as sampled by the assembler -/
theorem sample_gradient (S : Setup d R) (rule : List (QPoint d R)) (J : CellIndex S.cells) (xs : List (Node S.micro → R))
    (j : CellIndex S.micro) (u : Node S.cells → R) (x : Fin d → R) (i : Fin d) :
    (∑ k : Fin (2 ^ d), u (cornerNode J (corner k)) •
      ((fun i => shapeGrad (corner k) x i / S.width i) +
        (element (S.cellLower J) S.localWidth rule j).gradOf (xs.getD k.1 0) x)) i =
    ∑ v : Fin d → Bool, (u (cornerNode J v) / S.width i +
      combine S xs (fun v => u (cornerNode J v)) (cornerNode j v) / S.localWidth i) * shapeGrad v x i := by
  rw [Finset.sum_apply]
  simp only [Pi.smul_apply, Pi.add_apply, smul_eq_mul, mul_add, add_mul, Finset.sum_add_distrib, element_gradOf]
  congr 1
  · rw [← sum_corner (fun v => u (cornerNode J v) / S.width i * shapeGrad v x i)]
    apply Finset.sum_congr rfl
    intro k _
    ring
  · simp only [combine, Finset.sum_div, Finset.mul_sum, Finset.sum_mul]
    rw [Finset.sum_comm]
    apply Finset.sum_congr rfl
    intro v _
    apply Finset.sum_congr rfl
    intro k _
    ring

/-- the samples of the coarse assemblers -/
theorem mem_samples (S : Setup d R) (rule : List (QPoint d R)) (diffusion : (Fin d → R) → Matrix (Fin d) (Fin d) R)
    (source : (Fin d → R) → R) (xs : CellIndex S.cells → List (Node S.micro → R)) (s : Sample d (2 ^ d) (Node S.cells) R) :
    s ∈ usedSamples diffusion source (S.order.map fun J => S.coarseCell rule J (xs J)) ↔
      ∃ J ∈ S.order, ∃ j ∈ S.localOrder, ∃ q ∈ rule,
        s = { weight := q.weight * ∏ i, S.localWidth i
              tensor := diffusion ((element (S.cellLower J) S.localWidth rule j).toGlobal q.pos)
              source := source ((element (S.cellLower J) S.localWidth rule j).toGlobal q.pos)
              dofs := fun k => cornerNode J (corner k)
              val := fun k => shape (corner k) q.pos + valueOf ((xs J).getD k.1 0) j q.pos
              grad := fun k => (fun i => shapeGrad (corner k) q.pos i / S.width i) +
                (element (S.cellLower J) S.localWidth rule j).gradOf ((xs J).getD k.1 0) q.pos
              lifting := (element (S.cellLower J) S.localWidth rule j).gradOf ((xs J).getD (dirichletSlot (2 ^ d)) 0) q.pos -
                (element (S.cellLower J) S.localWidth rule j).gradOf ((xs J).getD (neumannSlot (2 ^ d)) 0) q.pos } := by
  unfold usedSamples
  simp only [List.mem_flatMap, List.mem_map, List.mem_filter]
  constructor
  · rintro ⟨_, ⟨J, hJ, rfl⟩, e, ⟨he, -⟩, q, hq, rfl⟩
    simp only [Setup.coarseCell, List.mem_map] at he
    obtain ⟨j, hj, rfl⟩ := he
    simp only [element, scaleRule, List.mem_map] at hq
    obtain ⟨q, hq, rfl⟩ := hq
    exact ⟨J, hJ, j, hj, q, hq, rfl⟩
  · rintro ⟨J, hJ, j, hj, q, hq, rfl⟩
    refine ⟨_, ⟨J, hJ, rfl⟩, _, ⟨List.mem_map.mpr ⟨j, hj, rfl⟩, rfl⟩, ⟨q.pos, q.weight * ∏ i, S.localWidth i⟩, ?_, rfl⟩
    simp only [element, scaleRule, List.mem_map]
    exact ⟨q, hq, rfl⟩

theorem coarseMatrix_eq (S : Setup d R) (diffusion : (Fin d → R) → Matrix (Fin d) (Fin d) R)
    (xs : CellIndex S.cells → List (Node S.micro → R)) (tmp : Fin (2 ^ d) → Fin (2 ^ d) → R) :
    S.coarseMatrix diffusion xs tmp =
      Matrix.of (stiffness (usedSamples diffusion (fun _ => 0) (S.order.map fun J => S.coarseCell S.matrixRule J (xs J)))) := by
  ext a b
  rw [Setup.coarseMatrix, Matrix.of_apply, C22_matrix_entries diffusion (fun _ => 0), zero_add, Matrix.of_apply]

end

variable {R : Type} [Field R] [LinearOrder R] [IsStrictOrderedRing R]

/-- Positive cell sizes and numbers; all cells are visited. -/
structure Setup.Admissible (S : Setup d R) : Prop where
  width_pos : ∀ i, 0 < S.width i
  cells_pos : ∀ i, 0 < S.cells i
  micro_pos : ∀ i, 0 < S.micro i
  order_complete : ∀ J, J ∈ S.order
  localOrder_complete : ∀ j, j ∈ S.localOrder

/-- Positive weights, and the points contain a tensor product of two points per direction (Gauss rules of order two and
more). -/
structure Resolving (rule : List (QPoint d R)) : Prop where
  weight_pos : ∀ q ∈ rule, 0 < q.weight
  points : ∃ p r : Fin d → R, (∀ l, p l ≠ r l) ∧ ∀ s : Fin d → Bool, ∃ q ∈ rule, q.pos = fun l => if s l then p l else r l

/-- Pointwise positive definite. -/
def Definite (diffusion : (Fin d → R) → Matrix (Fin d) (Fin d) R) : Prop :=
  ∀ x v, v ≠ 0 → 0 < (diffusion x *ᵥ v) ⬝ᵥ v

theorem localWidth_pos (S : Setup d R) (hS : S.Admissible) (i : Fin d) : 0 < S.localWidth i :=
  div_pos (hS.width_pos i) (by exact_mod_cast hS.micro_pos i)

omit [LinearOrder R] [IsStrictOrderedRing R] in
/-- The local solutions vanish at the constrained nodes. -/
theorem solves_boundary (S : Setup d R) (constrained : Node S.micro → Bool)
    (diffusion : (Fin d → R) → Matrix (Fin d) (Fin d) R) (flux : (Fin d → R) → (Fin d → R) → (Fin d → R))
    (xs : CellIndex S.cells → List (Node S.micro → R)) (h : S.Solves constrained diffusion flux xs) (J : CellIndex S.cells)
    (k : Fin (2 ^ d)) (node : Node S.micro) (hn : constrained node = true) : (xs J).getD k.1 0 node = 0 := by
  obtain ⟨walks, valid, s, ext, neumann, -, -, hs, hx⟩ := h J
  obtain ⟨-, h1, -, -⟩ := C19_local_solutions valid s _ hs _ d (2 ^ d) constrained _ _ _ (xs J) hx
  obtain ⟨x, hx1, hx2⟩ := h1 k.1 k.2
  rw [List.getD_eq_getElem?_getD, hx1, Option.getD_some]
  have := congrFun hx2 node
  simpa [constrainMat, constrainVec, mulVec, dotProduct, hn] using this

omit [IsStrictOrderedRing R] in
/-- zero gradient of a multilinear function at the points of a resolving rule -/
theorem edges_of_rule (rule : List (QPoint d R)) (hr : Resolving rule) (a : (Fin d → Bool) → R) (i : Fin d)
    (h : ∀ q ∈ rule, ∑ v, a v * shapeGrad v q.pos i = 0) (v : Fin d → Bool) :
    a (Function.update v i true) = a (Function.update v i false) := by
  obtain ⟨p, r, hpr, hs⟩ := hr.points
  apply unisolvent a p r hpr i
  intro s
  obtain ⟨q, hq, hp⟩ := hs s
  rw [← hp]
  exact h q hq

/-- The coarse system is uniquely solvable if the inner local solutions vanish at the corners of the coarse cells. -/
theorem free_injective_of_corners (S : Setup d R) (hS : S.Admissible) (hR : Resolving S.matrixRule)
    (diffusion : (Fin d → R) → Matrix (Fin d) (Fin d) R) (hpd : Definite diffusion)
    (xs : CellIndex S.cells → List (Node S.micro → R))
    (hx : ∀ J (k : Fin (2 ^ d)) (node : Node S.micro), (∀ i, (node i).1 = 0 ∨ (node i).1 = S.micro i) → (xs J).getD k.1 0 node = 0)
    (tmp : Fin (2 ^ d) → Fin (2 ^ d) → R) (D : Node S.cells → Bool) (hD : ∃ g, D g = true) :
    FreeInjective (S.coarseMatrix diffusion xs tmp) D := by
  rw [coarseMatrix_eq]
  apply freeInjective_of_samples
  · intro s hs
    obtain ⟨J, -, j, -, q, hq, rfl⟩ := (mem_samples S _ _ _ _ _).mp hs
    exact mul_pos (hR.weight_pos q hq) (Finset.prod_pos fun i _ => localWidth_pos S hS i)
  · intro s hs
    obtain ⟨J, -, j, -, q, hq, rfl⟩ := (mem_samples S _ _ _ _ _).mp hs
    exact hpd _
  · intro u hu hDu
    obtain ⟨g, hg⟩ := hD
    have hconst : ∀ g', u g' = u g := by
      intro g'
      apply constant_of_edges hS.cells_pos
      intro J v i
      set c : (Fin d → Bool) → R := fun v => u (cornerNode J v) with hc
      -- the increments of the local part along the edge are all equal
      have hinc : ∀ j : CellIndex S.micro, ∀ w,
          c (Function.update w i true) / S.width i + combine S (xs J) c (cornerNode j (Function.update w i true)) / S.localWidth i =
          c (Function.update w i false) / S.width i + combine S (xs J) c (cornerNode j (Function.update w i false)) / S.localWidth i := by
        intro j w
        apply edges_of_rule S.matrixRule hR
          (fun v => c v / S.width i + combine S (xs J) c (cornerNode j v) / S.localWidth i)
        intro q hq
        have := hu _ ((mem_samples S _ _ _ _ _).mpr ⟨J, hS.order_complete J, j, hS.localOrder_complete j, q, hq, rfl⟩)
        have := congrFun this i
        rw [Sample.gradOf] at this
        rw [← sample_gradient S S.matrixRule J (xs J) j u q.pos i]
        exact this
      -- nodes on the edge of the coarse cell
      have hm := hS.micro_pos
      set line : ℕ → Node S.micro := fun a l => if l = i then ⟨min a (S.micro l), by omega⟩ else
        if v l then ⟨S.micro l, by omega⟩ else ⟨0, by omega⟩ with hline
      have hstep : ∀ a, a < S.micro i → combine S (xs J) c (line (a + 1)) - combine S (xs J) c (line a) =
          -(c (Function.update v i true) - c (Function.update v i false)) / (S.micro i : R) := by
        intro a ha
        set j : CellIndex S.micro := fun l => if hl : l = i then ⟨a, hl ▸ ha⟩ else
          if v l then ⟨S.micro l - 1, by have := hm l; omega⟩ else ⟨0, hm l⟩ with hj
        have e : ∀ b : Bool, cornerNode j (Function.update v i b) = line (if b then a + 1 else a) := by
          intro b
          funext l
          have := hm l
          by_cases hl : l = i
          · subst hl
            rw [cornerNode, Function.update_self]
            apply Fin.ext
            cases b
            · simp [hj, hline]; omega
            · simp [hj, hline]; omega
          · rw [cornerNode, Function.update_of_ne hl]
            apply Fin.ext
            cases hv : v l
            · simp [hj, hline, hl, hv]
            · simp [hj, hline, hl, hv]; omega
        have h1 := hinc j v
        rw [e, e] at h1
        simp only [if_true, Bool.false_eq_true, if_false] at h1
        have hw : S.width i ≠ 0 := (hS.width_pos i).ne'
        have hmi : (S.micro i : R) ≠ 0 := by exact_mod_cast (hm i).ne'
        simp only [Setup.localWidth] at h1
        field_simp at h1 ⊢
        linear_combination h1
      have hsum : ∀ a, a ≤ S.micro i → combine S (xs J) c (line a) - combine S (xs J) c (line 0) =
          a * (-(c (Function.update v i true) - c (Function.update v i false)) / (S.micro i : R)) := by
        intro a
        induction a with
        | zero => intro _; simp
        | succ a ih =>
          intro ha
          have h1 := hstep a (by omega)
          have h2 := ih (by omega)
          push_cast
          linear_combination h1 + h2
      have hzero : ∀ a, a = 0 ∨ a = S.micro i → combine S (xs J) c (line a) = 0 := by
        intro a ha
        unfold combine
        apply Finset.sum_eq_zero
        intro k _
        rw [hx J k (line a), mul_zero]
        intro l
        by_cases hl : l = i
        · subst hl
          rcases ha with rfl | rfl
          · left; simp [hline]
          · right; simp [hline]
        · cases hv : v l
          · left; simp [hline, hl, hv]
          · right; simp [hline, hl, hv]
      have hfin := hsum (S.micro i) le_rfl
      rw [hzero _ (Or.inl rfl), hzero _ (Or.inr rfl)] at hfin
      have hmi : (S.micro i : R) ≠ 0 := by exact_mod_cast (hm i).ne'
      field_simp at hfin
      show c (Function.update v i true) = c (Function.update v i false)
      linear_combination hfin
    funext g'
    rw [hconst g', hDu g hg]
    rfl

/-- **C71** (sufficient condition) The coarse system is uniquely solvable if the local problems are constrained at the corners of
the coarse cells: for every dimension, every number of coarse and local cells, every positive definite
diffusion, whatever the local right-hand sides, at least one Dirichlet node. -/
theorem C71_free_injective (S : Setup d R) (hS : S.Admissible) (hR : Resolving S.matrixRule)
    (diffusion : (Fin d → R) → Matrix (Fin d) (Fin d) R) (hpd : Definite diffusion)
    (flux : (Fin d → R) → (Fin d → R) → (Fin d → R)) (constrained : Node S.micro → Bool)
    (hcorner : ∀ node : Node S.micro, (∀ i, (node i).1 = 0 ∨ (node i).1 = S.micro i) → constrained node = true)
    (xs : CellIndex S.cells → List (Node S.micro → R)) (hx : S.Solves constrained diffusion flux xs)
    (tmp : Fin (2 ^ d) → Fin (2 ^ d) → R) (D : Node S.cells → Bool) (hD : ∃ g, D g = true) :
    FreeInjective (S.coarseMatrix diffusion xs tmp) D :=
  free_injective_of_corners S hS hR diffusion hpd xs
    (fun J k node hn => solves_boundary S constrained diffusion flux xs hx J k node (hcorner node hn)) tmp D hD

/-! ## Local problems with one constrained face -/

omit [LinearOrder R] [IsStrictOrderedRing R] in
theorem cornerNode_cast {cells : Fin d → ℕ} (j : CellIndex cells) (v : Fin d → Bool) (l : Fin d) :
    ((cornerNode j v l).1 : R) = ((j l).1 : R) + if v l then 1 else 0 := by
  unfold cornerNode
  split_ifs <;> simp

/-- On structured grids coarse functions are multilinear on the local cells. -/
theorem cell_nested (S : Setup d R) (hS : S.Admissible) (constrained : Node S.micro → Bool) (neumann : Node S.micro → R)
    (J : CellIndex S.cells) : (S.cell constrained neumann J).Nested := by
  constructor
  · intro e he
    obtain ⟨j, -, rfl⟩ := List.mem_map.mp he
    rfl
  · intro e he q _ k
    obtain ⟨j, -, rfl⟩ := List.mem_map.mp he
    funext i
    rw [element_gradOf]
    have h1 : ∀ w : Fin d → Bool, (S.cell constrained neumann J).nodal k (cornerNode j w) =
        shape (corner k) (fun l => (((j l).1 : R) + if w l then 1 else 0) / (S.micro l : R)) := by
      intro w
      simp only [Setup.cell, cornerNode_cast]
    simp only [h1]
    rw [interpolate_grad]
    have hw : ∀ l, S.width l ≠ 0 := fun l => (hS.width_pos l).ne'
    have hm : ∀ l, (S.micro l : R) ≠ 0 := fun l => by exact_mod_cast (hS.micro_pos l).ne'
    have h2 : (S.cell constrained neumann J).toCoarse ((element (S.cellLower J) S.localWidth S.localRule j).toGlobal q.pos) =
        fun l => (((j l).1 : R) + q.pos l) / (S.micro l : R) := by
      funext l
      simp only [Setup.cell, element, Setup.localWidth]
      have := hw l
      have := hm l
      field_simp
      ring
    rw [h2]
    simp only [Setup.cell, Setup.localWidth]
    have := hw i
    have := hm i
    field_simp

/-- The local problems are uniquely solvable as soon as one node is constrained. -/
theorem local_free_injective (S : Setup d R) (hS : S.Admissible) (hR : Resolving S.localRule)
    (diffusion : (Fin d → R) → Matrix (Fin d) (Fin d) R) (hpd : Definite diffusion) (constrained : Node S.micro → Bool)
    (hc : ∃ node, constrained node = true) (neumann : Node S.micro → R) (J : CellIndex S.cells) :
    FreeInjective (stiff diffusion (S.cell constrained neumann J).elements) constrained := by
  have hmem : ∀ s, s ∈ samples diffusion (S.cell constrained neumann J).elements ↔ ∃ j ∈ S.localOrder, ∃ q ∈ S.localRule,
      s = { weight := q.weight * ∏ i, S.localWidth i
            tensor := diffusion ((element (S.cellLower J) S.localWidth S.localRule j).toGlobal q.pos)
            source := 0, dofs := fun k => cornerNode j (corner k), val := 0
            grad := fun k i => shapeGrad (corner k) q.pos i / S.localWidth i, lifting := 0 } := by
    intro s
    simp only [samples, Setup.cell, List.mem_flatMap, List.mem_map]
    constructor
    · rintro ⟨_, ⟨j, hj, rfl⟩, q, hq, rfl⟩
      simp only [element, scaleRule, List.mem_map] at hq
      obtain ⟨q, hq, rfl⟩ := hq
      exact ⟨j, hj, q, hq, rfl⟩
    · rintro ⟨j, hj, q, hq, rfl⟩
      refine ⟨_, ⟨j, hj, rfl⟩, ⟨q.pos, q.weight * ∏ i, S.localWidth i⟩, ?_, rfl⟩
      simp only [element, scaleRule, List.mem_map]
      exact ⟨q, hq, rfl⟩
  apply freeInjective_of_samples
  · intro s hs
    obtain ⟨j, -, q, hq, rfl⟩ := (hmem s).mp hs
    exact mul_pos (hR.weight_pos q hq) (Finset.prod_pos fun i _ => localWidth_pos S hS i)
  · intro s hs
    obtain ⟨j, -, q, hq, rfl⟩ := (hmem s).mp hs
    exact hpd _
  · intro u hu hDu
    obtain ⟨g, hg⟩ := hc
    funext g'
    rw [Pi.zero_apply, ← hDu g hg]
    apply constant_of_edges hS.micro_pos
    intro j v i
    apply edges_of_rule S.localRule hR (fun v => u (cornerNode j v)) i
    intro q hq
    have h := congrFun (hu _ ((hmem _).mpr ⟨j, hS.localOrder_complete j, q, hq, rfl⟩)) i
    rw [Sample.gradOf, Finset.sum_apply] at h
    simp only [Pi.smul_apply, smul_eq_mul, Pi.zero_apply] at h
    rw [← sum_corner (fun v => u (cornerNode j v) * shapeGrad v q.pos i)]
    have hw := (localWidth_pos S hS i).ne'
    simp only [← mul_div_assoc] at h
    rw [← Finset.sum_div, div_eq_zero_iff] at h
    exact h.resolve_right hw

omit [LinearOrder R] [IsStrictOrderedRing R] in
theorem stiff_const (S : Setup d R) (diffusion : (Fin d → R) → Matrix (Fin d) (Fin d) R) (constrained : Node S.micro → Bool)
    (neumann : Node S.micro → R) (J : CellIndex S.cells) (c : R) :
    stiff diffusion (S.cell constrained neumann J).elements *ᵥ (fun _ => c) = 0 := by
  apply kernel_of_gradient
  intro s hs
  simp only [samples, Setup.cell, List.mem_flatMap, List.mem_map] at hs
  obtain ⟨_, ⟨j, hj, rfl⟩, q, hq, rfl⟩ := hs
  funext i
  rw [Sample.gradOf, Finset.sum_apply]
  have h := sum_one_direction (fun _ : Bool => c) i q.pos i
  rw [← sum_corner (fun v => c * shapeGrad v q.pos i)] at h
  simp only [element, Pi.smul_apply, smul_eq_mul, Pi.zero_apply, ← mul_div_assoc, ← Finset.sum_div]
  rw [h]
  simp

/-- The multiscale basis with one constrained face: a function of the one coordinate becomes constant. -/
theorem combine_one_face (S : Setup d R) (hS : S.Admissible) (hR : Resolving S.localRule)
    (diffusion : (Fin d → R) → Matrix (Fin d) (Fin d) R) (hpd : Definite diffusion)
    (flux : (Fin d → R) → (Fin d → R) → (Fin d → R)) (hflux : ∀ x v, flux x v = diffusion x *ᵥ v)
    (y : Fin d) (upper : Bool) (constrained : Node S.micro → Bool)
    (hcon : ∀ node, constrained node = true ↔ (node y).1 = if upper then S.micro y else 0)
    (xs : CellIndex S.cells → List (Node S.micro → R)) (hx : S.Solves constrained diffusion flux xs)
    (J : CellIndex S.cells) (f : Bool → R) (node : Node S.micro) :
    combine S (xs J) (fun v => f (v y)) node =
      f upper - (f true * (((node y).1 : R) / (S.micro y : R)) + f false * (1 - ((node y).1 : R) / (S.micro y : R))) := by
  obtain ⟨walks, valid, s, ext, neumann, hw, -, hs, hx⟩ := hx J
  set K := S.cell constrained neumann J with hK
  have hbasis : ∀ k : Fin (2 ^ d), IsSolution (stiff diffusion K.elements) 0 (K.nodal k) constrained
      (K.nodal k + (xs J).getD k.1 0) := by
    intro k
    obtain ⟨Q, hQ, hsol⟩ := C58_multiscale_basis K (cell_nested S hS constrained neumann J) walks hw diffusion flux hflux ext valid
      s hs (xs J) hx k
    rw [List.getD_eq_getElem?_getD, hQ]
    exact hsol
  have hnodal : ∀ node : Node S.micro, ∑ k : Fin (2 ^ d), f (corner k y) * K.nodal k node =
      f true * (((node y).1 : R) / (S.micro y : R)) + f false * (1 - ((node y).1 : R) / (S.micro y : R)) := by
    intro node
    rw [← sum_one_direction_value f y (fun i => ((node i).1 : R) / (S.micro i : R)),
      ← sum_corner (fun v => f (v y) * shape v fun i => ((node i).1 : R) / (S.micro i : R))]
    rfl
  have h1 : IsSolution (stiff diffusion K.elements) 0 (fun _ => f upper) constrained
      (∑ k : Fin (2 ^ d), f (corner k y) • (K.nodal k + (xs J).getD k.1 0)) := by
    constructor
    · intro i hi
      have e : ∀ k : Fin (2 ^ d), (f (corner k y) • (K.nodal k + (xs J).getD k.1 0)) i = f (corner k y) * K.nodal k i := by
        intro k
        rw [Pi.smul_apply, (hbasis k).boundary i hi, smul_eq_mul]
      rw [Finset.sum_apply]
      simp only [e]
      rw [hnodal]
      have hm : (S.micro y : R) ≠ 0 := by exact_mod_cast (hS.micro_pos y).ne'
      rw [(hcon i).mp hi]
      cases upper
      · simp
      · simp [hm]
    · intro i hi
      rw [mulVec_sum, Finset.sum_apply]
      apply Finset.sum_eq_zero
      intro k _
      rw [mulVec_smul, Pi.smul_apply, (hbasis k).equation i hi]
      simp
  have h2 : IsSolution (stiff diffusion K.elements) 0 (fun _ => f upper) constrained (fun _ => f upper) :=
    ⟨fun _ _ => rfl, fun i _ => by rw [stiff_const]⟩
  have hc : ∃ node, constrained node = true := by
    refine ⟨fun i => if upper then ⟨S.micro i, by omega⟩ else ⟨0, by omega⟩, ?_⟩
    rw [hcon]
    cases upper <;> simp
  have heq := Verif.DirichletSolve.unique_of_freeInjective
    (local_free_injective S hS hR diffusion hpd constrained hc neumann J) h1 h2
  have h3 := congrFun heq node
  rw [Finset.sum_apply] at h3
  simp only [Pi.smul_apply, Pi.add_apply, smul_eq_mul, mul_add, Finset.sum_add_distrib] at h3
  rw [hnodal] at h3
  unfold combine
  linear_combination h3

/-- sampled gradient of a coarse function of one coordinate when the local problems are constrained on one face across it -/
theorem sampled_gradient_zero (S : Setup d R) (hS : S.Admissible) (hR : Resolving S.localRule)
    (diffusion : (Fin d → R) → Matrix (Fin d) (Fin d) R) (hpd : Definite diffusion)
    (flux : (Fin d → R) → (Fin d → R) → (Fin d → R)) (hflux : ∀ x v, flux x v = diffusion x *ᵥ v)
    (y : Fin d) (upper : Bool) (constrained : Node S.micro → Bool)
    (hcon : ∀ node, constrained node = true ↔ (node y).1 = if upper then S.micro y else 0)
    (xs : CellIndex S.cells → List (Node S.micro → R)) (hx : S.Solves constrained diffusion flux xs) (f : ℕ → R)
    (rule : List (QPoint d R)) (source : (Fin d → R) → R) :
    ∀ s ∈ usedSamples diffusion source (S.order.map fun J => S.coarseCell rule J (xs J)),
      s.gradOf (fun g => f (g y).1) = 0 := by
  intro s hs
  obtain ⟨J, -, j, -, q, hq, rfl⟩ := (mem_samples S _ _ _ _ _).mp hs
  funext i
  rw [Sample.gradOf]
  rw [sample_gradient S rule J (xs J) j (fun g => f (g y).1) q.pos i]
  have hc : (fun v : Fin d → Bool => (fun g : Node S.cells => f (g y).1) (cornerNode J v)) =
      fun v => (fun b : Bool => f ((J y).1 + if b then 1 else 0)) (v y) := by
    funext v
    simp only [cornerNode]
    cases v y <;> simp
  rw [hc]
  simp only [combine_one_face S hS hR diffusion hpd flux hflux y upper constrained hcon xs hx J
    (fun b : Bool => f ((J y).1 + if b then 1 else 0))]
  have hv : ∀ v : Fin d → Bool, f (cornerNode J v y).1 = f ((J y).1 + if v y then 1 else 0) := fun v => congrFun hc v
  simp only [hv, cornerNode_cast, if_true, Bool.false_eq_true, if_false]
  rw [sum_one_direction (fun b : Bool => f ((J y).1 + if b then 1 else 0) / S.width i +
    (f ((J y).1 + if upper then 1 else 0) - (f ((J y).1 + 1) *
      ((((j y).1 : R) + if b then 1 else 0) / (S.micro y : R)) + f ((J y).1 + 0) *
      (1 - (((j y).1 : R) + if b then 1 else 0) / (S.micro y : R)))) / S.localWidth i)]
  generalize f ((J y).1 + if upper then 1 else 0) = F
  by_cases hi : i = y
  · subst hi
    have hw : S.width i ≠ 0 := (hS.width_pos i).ne'
    have hm : (S.micro i : R) ≠ 0 := by exact_mod_cast (hS.micro_pos i).ne'
    simp only [if_true, Bool.false_eq_true, if_false, Setup.localWidth, Pi.zero_apply]
    field_simp
    ring
  · rw [if_neg hi]
    rfl

/-- **C71** (the negation) If the local problems are constrained on one face only, every function of the coordinate across this
face is in the kernel of the coarse matrix, whatever the diffusion and the number of cells. -/
theorem C71_violated_kernel (S : Setup d R) (hS : S.Admissible) (hR : Resolving S.localRule)
    (diffusion : (Fin d → R) → Matrix (Fin d) (Fin d) R) (hpd : Definite diffusion)
    (flux : (Fin d → R) → (Fin d → R) → (Fin d → R)) (hflux : ∀ x v, flux x v = diffusion x *ᵥ v)
    (y : Fin d) (upper : Bool) (constrained : Node S.micro → Bool)
    (hcon : ∀ node, constrained node = true ↔ (node y).1 = if upper then S.micro y else 0)
    (xs : CellIndex S.cells → List (Node S.micro → R)) (hx : S.Solves constrained diffusion flux xs)
    (tmp : Fin (2 ^ d) → Fin (2 ^ d) → R) (f : ℕ → R) :
    S.coarseMatrix diffusion xs tmp *ᵥ (fun g => f (g y).1) = 0 := by
  rw [coarseMatrix_eq]
  exact kernel_of_gradient _ _
    (sampled_gradient_zero S hS hR diffusion hpd flux hflux y upper constrained hcon xs hx f S.matrixRule _)

omit [LinearOrder R] [IsStrictOrderedRing R] in
theorem load_dot {n : ℕ} {G : Type} [Fintype G] [DecidableEq G] (T : List (Sample d n G R)) (u : G → R) :
    ∑ a, u a * load T a = (T.map fun s => s.weight * (s.source * (∑ i, u (s.dofs i) * s.val i) -
      (s.tensor *ᵥ s.lifting) ⬝ᵥ s.gradOf u)).sum := by
  induction T with
  | nil => simp [load]
  | cons t T ih =>
    have e : ∀ a, u a * load (t :: T) a = (∑ i, if t.dofs i = a then u (t.dofs i) *
        (t.weight * (t.source * t.val i - (t.tensor *ᵥ t.lifting) ⬝ᵥ t.grad i)) else 0) + u a * load T a := by
      intro a
      simp only [load, List.map_cons, List.sum_cons, mul_add, Finset.mul_sum]
      congr 1
      apply Finset.sum_congr rfl
      intro i _
      split_ifs with h
      · rw [h]
      · rw [mul_zero]
    simp only [e, Finset.sum_add_distrib]
    rw [ih, List.map_cons, List.sum_cons]
    congr 1
    rw [Finset.sum_comm]
    simp only [Finset.sum_ite_eq, Finset.mem_univ, if_true]
    rw [Sample.gradOf, dotProduct_sum, mul_sub, Finset.mul_sum, Finset.mul_sum, Finset.mul_sum, ← Finset.sum_sub_distrib]
    apply Finset.sum_congr rfl
    intro i _
    rw [dotProduct_smul, smul_eq_mul]
    ring

omit [LinearOrder R] [IsStrictOrderedRing R] in
theorem addNeumann_apply (S : Setup d R) (pts : List (NeumannPoint S)) (b : Node S.cells → R) (a : Node S.cells) :
    S.addNeumann pts b a = b a + (pts.map fun p => ∑ k : Fin (2 ^ d), if a = cornerNode p.cell (corner k) then
      p.value * shape (corner k) p.pos else 0).sum := by
  unfold Setup.addNeumann
  rw [foldl_contrib (R := R) pts _ (fun b : Node S.cells → R => b a) (fun p => ∑ k : Fin (2 ^ d),
    if a = cornerNode p.cell (corner k) then p.value * shape (corner k) p.pos else 0)]
  intro b p
  rw [foldl_contrib (R := R) (List.finRange (2 ^ d)) _ (fun b : Node S.cells → R => b a)
    (fun k => if a = cornerNode p.cell (corner k) then p.value * shape (corner k) p.pos else 0)
    (fun b k => addToVec_apply _ _ _ _), sum_finRange]

omit [LinearOrder R] [IsStrictOrderedRing R] in
/-- work of the Neumann data on a function of one coordinate -/
theorem neumann_dot (S : Setup d R) (pts : List (NeumannPoint S)) (b : Node S.cells → R) (f : ℕ → R) (y : Fin d) :
    ∑ g : Node S.cells, f (g y).1 * S.addNeumann pts b g = (∑ g : Node S.cells, f (g y).1 * b g) +
      (pts.map fun p => p.value * (f ((p.cell y).1 + 1) * p.pos y + f (p.cell y).1 * (1 - p.pos y))).sum := by
  simp only [addNeumann_apply, mul_add, Finset.sum_add_distrib]
  congr 1
  induction pts with
  | nil => simp
  | cons p pts ih =>
    simp only [List.map_cons, List.sum_cons, mul_add, Finset.sum_add_distrib]
    rw [ih]
    congr 1
    simp only [Finset.mul_sum]
    rw [Finset.sum_comm]
    have e : ∀ k : Fin (2 ^ d), ∑ g : Node S.cells, f (g y).1 * (if g = cornerNode p.cell (corner k) then
        p.value * shape (corner k) p.pos else 0) =
        p.value * ((fun b : Bool => f ((p.cell y).1 + if b then 1 else 0)) (corner k y) * shape (corner k) p.pos) := by
      intro k
      simp only [mul_ite, mul_zero, Finset.sum_ite_eq', Finset.mem_univ, if_true]
      have : (cornerNode p.cell (corner k) y).1 = (p.cell y).1 + if corner k y then 1 else 0 := by
        unfold cornerNode
        split_ifs <;> simp
      rw [this]
      ring
    simp only [e, ← Finset.mul_sum]
    rw [sum_corner (fun v => (fun b : Bool => f ((p.cell y).1 + if b then 1 else 0)) (v y) * shape v p.pos),
      sum_one_direction_value (fun b : Bool => f ((p.cell y).1 + if b then 1 else 0))]
    simp [mul_add]

omit [Field R] [IsStrictOrderedRing R] [LinearOrder R] in
theorem sum_pos_of {α R : Type} [Field R] [LinearOrder R] [IsStrictOrderedRing R] (l : List α) (g : α → R)
    (h : ∀ p ∈ l, 0 ≤ g p) (p0 : α) (hp0 : p0 ∈ l) (hpos : 0 < g p0) : 0 < (l.map g).sum := by
  induction l with
  | nil => cases hp0
  | cons q qs ih =>
    rw [List.map_cons, List.sum_cons]
    have hrest : 0 ≤ (qs.map g).sum := by
      apply List.sum_nonneg
      intro x hx
      obtain ⟨p, hp, rfl⟩ := List.mem_map.mp hx
      exact h p (List.mem_cons_of_mem _ hp)
    have hq := h q List.mem_cons_self
    rcases List.mem_cons.mp hp0 with rfl | hp0
    · linarith
    · have := ih (fun p hp => h p (List.mem_cons_of_mem _ hp)) hp0
      linarith

/-- **C71** (the negation) If the local problems are constrained on one face, the coarse Dirichlet nodes lie on the face of the domain
on the same side, there is no source, and the Neumann data (of one sign) act on the opposite face, then the coarse system has no
solution: no correct linear solver returns. -/
theorem C71_violated_unsolvable (S : Setup d R) (hS : S.Admissible) (hR : Resolving S.localRule)
    (diffusion : (Fin d → R) → Matrix (Fin d) (Fin d) R) (hpd : Definite diffusion) (hsym : ∀ x, (diffusion x).IsSymm)
    (flux : (Fin d → R) → (Fin d → R) → (Fin d → R)) (hflux : ∀ x v, flux x v = diffusion x *ᵥ v)
    (y : Fin d) (upper : Bool) (constrained : Node S.micro → Bool)
    (hcon : ∀ node, constrained node = true ↔ (node y).1 = if upper then S.micro y else 0)
    (xs : CellIndex S.cells → List (Node S.micro → R)) (hx : S.Solves constrained diffusion flux xs)
    (tmp : Fin (2 ^ d) → Fin (2 ^ d) → R) (tmp' : Fin (2 ^ d) → R) (D : Node S.cells → Bool)
    (hD : ∀ g, D g = true → (g y).1 = if upper then S.cells y else 0)
    (pts : List (NeumannPoint S)) (σ : R) (hsign : ∀ p ∈ pts, 0 ≤ σ * p.value) (hpos : ∀ p ∈ pts, 0 ≤ p.pos y ∧ p.pos y ≤ 1)
    (hact : ∃ p ∈ pts, 0 < σ * p.value ∧
      if upper then (p.cell y).1 = 0 ∧ p.pos y = 0 else (p.cell y).1 + 1 = S.cells y ∧ p.pos y = 1)
    (data : Node S.cells → R) (valid : (Node S.cells → R) → Bool) (s : Solver (Node S.cells) R) (hs : s.Correct)
    (old u : Node S.cells → R) :
    coarseSolve valid s (S.coarseMatrix diffusion xs tmp) (S.coarseLoad flux (fun _ => 0) xs tmp' pts) data D old ≠ .ok u := by
  intro h
  have hsol := Verif.DirichletSolve.C25_coarse_solution valid s hs _ _ data D old u h
  set A := S.coarseMatrix diffusion xs tmp with hA
  set f : ℕ → R := fun a => if a = (if upper then 0 else S.cells y) then 1 else 0 with hf
  have hker : A *ᵥ (fun g => f (g y).1) = 0 :=
    C71_violated_kernel S hS hR diffusion hpd flux hflux y upper constrained hcon xs hx tmp f
  have hsymA : ∀ a b, A a b = A b a := C23_symmetric diffusion hsym _ tmp
  have hc := hS.cells_pos y
  have hfD : ∀ g : Node S.cells, D g = true → f (g y).1 = 0 := by
    intro g hg
    have := hD g hg
    simp only [hf]
    rw [if_neg]
    rw [this]
    cases upper
    · simp; omega
    · simp; omega
  -- the load acts on the kernel function with zero work
  have hzero : ∑ g : Node S.cells, f (g y).1 * S.coarseLoad flux (fun _ => 0) xs tmp' pts g = 0 := by
    have e : ∀ g : Node S.cells, f (g y).1 * S.coarseLoad flux (fun _ => 0) xs tmp' pts g = f (g y).1 * (A *ᵥ u) g := by
      intro g
      cases hg : D g
      · rw [hsol.equation g hg]
      · rw [hfD g hg, zero_mul, zero_mul]
    simp only [e]
    simp only [mulVec, dotProduct, Finset.mul_sum]
    rw [Finset.sum_comm]
    apply Finset.sum_eq_zero
    intro b _
    have := congrFun hker b
    simp only [mulVec, dotProduct, Pi.zero_apply] at this
    have e2 : ∀ a : Node S.cells, f (a y).1 * (A a b * u b) = A b a * f (a y).1 * u b := by
      intro a
      rw [hsymA a b]; ring
    simp only [e2]
    rw [← Finset.sum_mul, this, zero_mul]
  rw [Setup.coarseLoad, neumann_dot] at hzero
  have hvol : ∑ g : Node S.cells, f (g y).1 *
      (assembleLoad flux (fun _ => 0) (S.order.map fun J => S.coarseCell S.loadRule J (xs J)) (0, tmp')).1 g = 0 := by
    simp only [C24_load_entries diffusion flux hflux, Pi.zero_apply, zero_add]
    rw [load_dot]
    have : ∀ t ∈ usedSamples diffusion (fun _ => 0) (S.order.map fun J => S.coarseCell S.loadRule J (xs J)),
        t.weight * (t.source * (∑ i, (fun g : Node S.cells => f (g y).1) (t.dofs i) * t.val i) -
          (t.tensor *ᵥ t.lifting) ⬝ᵥ t.gradOf (fun g => f (g y).1)) = 0 := by
      intro t ht
      rw [sampled_gradient_zero S hS hR diffusion hpd flux hflux y upper constrained hcon xs hx f S.loadRule (fun _ => 0) t ht]
      obtain ⟨J, -, j, -, q, hq, rfl⟩ := (mem_samples S _ _ _ _ _).mp ht
      simp
    rw [List.map_congr_left this]
    simp
  rw [hvol, zero_add] at hzero
  obtain ⟨p0, hp0, hv0, hpos0⟩ := hact
  have hnn : ∀ a, 0 ≤ f a := by
    intro a
    by_cases ha : a = (if upper then 0 else S.cells y)
    · simp only [hf]; rw [if_pos ha]; exact zero_le_one
    · simp only [hf]; rw [if_neg ha]
  have hterm : ∀ p ∈ pts, 0 ≤ σ * (p.value * (f ((p.cell y).1 + 1) * p.pos y + f (p.cell y).1 * (1 - p.pos y))) := by
    intro p hp
    rw [← mul_assoc]
    apply mul_nonneg (hsign p hp)
    have := hpos p hp
    exact add_nonneg (mul_nonneg (hnn _) this.1) (mul_nonneg (hnn _) (by linarith))
  have hp0' : 0 < σ * (p0.value * (f ((p0.cell y).1 + 1) * p0.pos y + f (p0.cell y).1 * (1 - p0.pos y))) := by
    rw [← mul_assoc]
    apply mul_pos hv0
    cases upper
    · simp only [Bool.false_eq_true, if_false] at hpos0
      simp [hf, hpos0.1, hpos0.2]
    · simp only [if_true] at hpos0
      simp [hf, hpos0.1, hpos0.2]
  have hsum : 0 < σ * (pts.map fun p => p.value * (f ((p.cell y).1 + 1) * p.pos y + f (p.cell y).1 * (1 - p.pos y))).sum := by
    rw [← List.sum_map_mul_left]
    exact sum_pos_of _ _ hterm p0 hp0 hp0'
  rw [hzero, mul_zero] at hsum
  exact lt_irrefl _ hsum

/-! ## Existence of the local solutions -/

omit [LinearOrder R] [IsStrictOrderedRing R] in
theorem solveLoop_total {ι : Type} [DecidableEq ι] (s : Solvers ι R) (hs : ∀ x b, ∃ y, s.direct x b = .ok y)
    (hb : Bool) (numInner i : ℕ) (rhs : List (ι → R)) :
    ∃ xs, solveLoop (fun _ => true) s true hb numInner i rhs = .ok xs := by
  induction rhs generalizing i with
  | nil => exact ⟨[], rfl⟩
  | cons b rest ih =>
    obtain ⟨xs, hxs⟩ := ih (i + 1)
    obtain ⟨y, hy⟩ := hs 0 b
    unfold solveLoop
    by_cases h : i ≥ numInner ∧ hb = false
    · exact ⟨0 :: xs, by rw [if_pos h]; simp [hxs]⟩
    · exact ⟨y :: xs, by rw [if_neg h]; simp [applyInverse, hy, hxs]⟩

/-- The hypotheses of the theorems below can be met: with one constrained node per local problem all local solves
succeed, whatever the flux. -/
theorem C71_local_solutions_exist (S : Setup d R) (hS : S.Admissible) (hR : Resolving S.localRule)
    (diffusion : (Fin d → R) → Matrix (Fin d) (Fin d) R) (hpd : Definite diffusion) (constrained : Node S.micro → Bool)
    (hc : ∃ node, constrained node = true) (flux : (Fin d → R) → (Fin d → R) → (Fin d → R)) :
    ∃ xs, S.Solves constrained diffusion flux xs := by
  have key : ∀ J, ∃ xs, ∃ (walks : ℕ) (valid : (Node S.micro → R) → Bool) (s : Solvers (Node S.micro) R) (ext : Fin (2 ^ d) → R)
      (neumann : Node S.micro → R), walks ≠ 0 ∧ (∀ node, Interior S.micro node → neumann node = 0) ∧
      s.Correct (constrainMat constrained ((S.cell constrained neumann J).matrix walks diffusion)) ∧
      (S.cell constrained neumann J).solve valid s true walks flux ext = .ok xs := by
    intro J
    set M := constrainMat constrained ((S.cell constrained 0 J).matrix 1 diffusion) with hM
    have hinj := local_free_injective S hS hR diffusion hpd constrained hc 0 J
    have hmat : (S.cell constrained 0 J).matrix 1 diffusion = stiff diffusion (S.cell constrained 0 J).elements := by
      ext a b
      rw [matrix_apply]
      simp
    have hdet : IsUnit M.det := by
      rw [isUnit_iff_ne_zero]
      intro h0
      obtain ⟨v, hv, hv0⟩ := exists_mulVec_eq_zero_iff.mpr h0
      apply hv
      apply hinj v
      · intro i hi
        have := congrFun hv0 i
        rw [hM, Verif.DirichletSolve.constrainMat_mulVec] at this
        simpa [hi] using this
      · intro i hi
        have := congrFun hv0 i
        rw [hM, Verif.DirichletSolve.constrainMat_mulVec, hmat] at this
        simpa [hi] using this
    let s : Solvers (Node S.micro) R := ⟨fun _ b => .ok (M⁻¹ *ᵥ b), fun b _ => .ok (M⁻¹ *ᵥ b)⟩
    have hs : s.Correct M := by
      constructor
      · intro x b x' h
        injection h with h
        rw [← h, mulVec_mulVec, mul_nonsing_inv _ hdet, one_mulVec]
      · intro b x x' h
        injection h with h
        rw [← h, mulVec_mulVec, mul_nonsing_inv _ hdet, one_mulVec]
    have : ∃ xs, (S.cell constrained 0 J).solve (fun _ => true) s true 1 flux 0 = .ok xs := by
      unfold Cell.solve solveCell
      rw [assembleRhs_eq]
      exact solveLoop_total s (fun x b => ⟨_, rfl⟩) _ _ _ _
    obtain ⟨xs, hxs⟩ := this
    exact ⟨xs, 1, _, s, 0, 0, one_ne_zero, fun _ _ => rfl, hs, hxs⟩
  choose xs hxs using key
  exact ⟨xs, hxs⟩

/-! ## The registered problems -/

open Verif.Boundary in
/-- Dirichlet nodes of a structured grid for a boundary info, as marked by `DirichletConstraints`. -/
def dirichletNodes (close : (Fin d → ℚ) → (Fin d → ℚ) → Bool) (info : Info d) (normal : Face d → Fin d → ℚ)
    (cells : Fin d → ℕ) (node : Node cells) : Bool := constrainedNode close info normal cells fun i => (node i).1

open Verif.Boundary in
/-- **C71** (partial: Synthetic, ER2007, Random) The coarse system of the multiscale method has exactly one solution, for every load
and boundary data, every number of coarse and local cells, every positive definite diffusion. -/
theorem C71_unique_partial (hd : d = 2 ∨ d = 3) (close : (Fin d → ℚ) → (Fin d → ℚ) → Bool) (hc : Tolerance close) (p : Problem)
    (hp : p = .synthetic ∨ p = .er2007 ∨ p = .random) (normal : Face d → Fin d → ℚ) (hn : ∀ f, Computed (normal f) f) :
    ∃ info subInfo, boundaryInfo d p none = .ok info ∧ subBoundaryInfo d p none = .ok subInfo ∧
      ∀ (S : Setup d R), S.Admissible → Resolving S.matrixRule → ∀ diffusion, Definite diffusion → ∀ flux xs,
        S.Solves (dirichletNodes close subInfo normal S.micro) diffusion flux xs → ∀ tmp load data,
        ∃! x, (coarseSystem (S.coarseMatrix diffusion xs tmp) load data (dirichletNodes close info normal S.cells)).matrix *ᵥ x =
          (coarseSystem (S.coarseMatrix diffusion xs tmp) load data (dirichletNodes close info normal S.cells)).rhs := by
  obtain ⟨info, hi, hf⟩ := C60_dirichlet_faces hd close hc p
  obtain ⟨subInfo, hsub, -⟩ := C61_all_constrained_partial close p hp none normal (fun _ => 1) (fun _ => 0)
  refine ⟨info, subInfo, hi, hsub, fun S hS hR diffusion hpd flux xs hx tmp load data => ?_⟩
  apply Verif.DirichletSolve.C25_system_solvable
  apply C71_free_injective S hS hR diffusion hpd flux _ _ xs hx
  · -- a face of Dirichlet type contains a node
    obtain ⟨⟨i, b⟩, hface⟩ := C60_some_dirichlet hd p
    refine ⟨fun l => if b then ⟨S.cells l, by omega⟩ else ⟨0, by omega⟩, ?_⟩
    rw [dirichletNodes, constrainedNode_iff]
    refine ⟨i, ?_⟩
    cases b
    · left
      exact ⟨by simp, (hf _ _ (hn _)).mpr hface⟩
    · right
      exact ⟨by simp, (hf _ _ (hn _)).mpr hface⟩
  · intro node hnode
    obtain ⟨subInfo', hsub', hiff⟩ := C61_all_constrained_partial close p hp none normal S.micro (fun i => (node i).1)
    rw [hsub] at hsub'
    injection hsub' with hsub'
    subst hsub'
    exact hiff.mpr ⟨⟨0, by omega⟩, hnode _⟩

open Verif.Boundary in
/-- **C71** (the negation: SPE10 and Tarbert) The constrained coarse matrix is singular. -/
theorem C71_violated_singular (hd : d = 2 ∨ d = 3) (close : (Fin d → ℚ) → (Fin d → ℚ) → Bool) (hc : Tolerance close) (p : Problem)
    (hp : p = .spe10 ∨ p = .tarbert) (normal : Face d → Fin d → ℚ) (hn : ∀ f, Computed (normal f) f) :
    ∃ info, boundaryInfo d p none = .ok info ∧ subBoundaryInfo d p none = .ok info ∧
      ∀ (S : Setup d R), S.Admissible → Resolving S.localRule → ∀ diffusion, Definite diffusion →
        ∀ flux : (Fin d → R) → (Fin d → R) → (Fin d → R), (∀ x v, flux x v = diffusion x *ᵥ v) → ∀ xs,
        S.Solves (dirichletNodes close info normal S.micro) diffusion flux xs → ∀ tmp load data,
        (coarseSystem (S.coarseMatrix diffusion xs tmp) load data (dirichletNodes close info normal S.cells)).matrix.det = 0 := by
  obtain ⟨info, hi, -⟩ := C60_dirichlet_faces hd close hc p
  have hsub : subBoundaryInfo d p none = .ok info := by
    rw [← hi]
    rcases hp with rfl | rfl <;> rfl
  refine ⟨info, hi, hsub, fun S hS hR diffusion hpd flux hflux xs hx tmp load data => ?_⟩
  have hface : ∀ cells : Fin d → ℕ, ∃ (y : Fin d) (upper : Bool), y.1 = 1 ∧ (upper = true ↔ p = .spe10 ∨ d = 3) ∧
      ∀ node, constrainedNode close info normal cells node = true ↔ node y = if upper then cells y else 0 := by
    intro cells
    obtain ⟨info', hi', y, upper, h1, h2, h3⟩ := C61_violated hd close hc p hp normal hn cells
    rw [hsub] at hi'
    injection hi' with hi'
    subst hi'
    exact ⟨y, upper, h1, h2, h3⟩
  obtain ⟨y, upper, hy, hu, hloc⟩ := hface S.micro
  obtain ⟨y', upper', hy', hu', hglob⟩ := hface S.cells
  have ey : y' = y := Fin.ext (by omega)
  subst ey
  have eu : upper' = upper := by
    cases upper' <;> cases upper <;> simp_all
  subst eu
  set f : ℕ → R := fun a => if a = (if upper' then 0 else S.cells y') then 1 else 0 with hf
  have hpos := hS.cells_pos y'
  rw [← exists_mulVec_eq_zero_iff]
  refine ⟨fun g => f (g y').1, ?_, ?_⟩
  · intro h
    have := congrFun h (fun l => if upper' then ⟨0, by omega⟩ else ⟨S.cells l, by omega⟩)
    cases upper' <;> simp [hf] at this
  · funext g
    show (constrainMat _ _ *ᵥ _) g = 0
    rw [Verif.DirichletSolve.constrainMat_mulVec]
    split_ifs with hg
    · have := (hglob _).mp hg
      show f (g y').1 = 0
      simp only [hf]
      rw [this, if_neg]
      cases upper'
      · simp; omega
      · simp; omega
    · rw [C71_violated_kernel S hS hR diffusion hpd flux hflux y' upper' _ (fun node => hloc _) xs hx tmp f]
      rfl

open Verif.Boundary in
/-- A quadrature point on the boundary of the domain: face, computed normal, coarse cell, reference position, weight times
integration element. -/
structure BoundaryPoint (S : Setup 3 ℚ) where
  face : Face 3
  normal : Fin 3 → ℚ
  cell : CellIndex S.cells
  pos : Fin 3 → ℚ
  weight : ℚ

open Verif.Boundary in
/-- What the grid guarantees about such a point. -/
structure BoundaryPoint.Valid {S : Setup 3 ℚ} (b : BoundaryPoint S) : Prop where
  computed : Computed b.normal b.face
  inside : ∀ i, 0 ≤ b.pos i ∧ b.pos i ≤ 1
  onFace : if b.face.2 then (b.cell b.face.1).1 + 1 = S.cells b.face.1 ∧ b.pos b.face.1 = 1 else
    (b.cell b.face.1).1 = 0 ∧ b.pos b.face.1 = 0
  weight_pos : 0 < b.weight

open Verif.Boundary in
/-- Its contribution to the Neumann functional. -/
def BoundaryPoint.neumann {S : Setup 3 ℚ} (close : (Fin 3 → ℚ) → (Fin 3 → ℚ) → Bool) (p : Problem) (info : Info 3)
    (b : BoundaryPoint S) : NeumannPoint S :=
  ⟨b.cell, b.pos, b.weight * effectiveNeumann (d := 1) close p info b.normal
    (fun i => S.lower i + (((b.cell i).1 : ℚ) + b.pos i) * S.width i)⟩

open Verif.Boundary in
/-- **C71** (the negation: SPE10 and Tarbert in three dimensions) With the source, boundary data and corners of the problem the coarse
system has no solution: whatever linear solver is used, a correct one does not return, so the multiscale method cannot
produce a result. -/
theorem C71_violated_problems (close : (Fin 3 → ℚ) → (Fin 3 → ℚ) → Bool) (hc : Tolerance close) (p : Problem)
    (hp : p = .spe10 ∨ p = .tarbert) (normal : Face 3 → Fin 3 → ℚ) (hn : ∀ f, Computed (normal f) f) :
    ∃ info, boundaryInfo 3 p none = .ok info ∧ subBoundaryInfo 3 p none = .ok info ∧
      ∀ (S : Setup 3 ℚ), S.Admissible → Resolving S.localRule → S.lower 1 = 0 → ∀ diffusion, Definite diffusion →
        (∀ x, (diffusion x).IsSymm) →
        ∀ flux : (Fin 3 → ℚ) → (Fin 3 → ℚ) → (Fin 3 → ℚ), (∀ x v, flux x v = diffusion x *ᵥ v) → ∀ xs,
        S.Solves (dirichletNodes close info normal S.micro) diffusion flux xs → ∀ tmp tmp',
        ∀ pts : List (BoundaryPoint S), (∀ b ∈ pts, b.Valid) → (∃ b ∈ pts, b.face = (1, false)) →
        ∀ (data : Node S.cells → ℚ) valid (s : Solver (Node S.cells) ℚ), s.Correct → ∀ old u,
        coarseSolve valid s (S.coarseMatrix diffusion xs tmp)
          (S.coarseLoad flux (fun _ => 0) xs tmp' (pts.map (BoundaryPoint.neumann close p info))) data
          (dirichletNodes close info normal S.cells) old ≠ .ok u := by
  obtain ⟨info, hi, hact⟩ := C60_neumann_acts_partial close hc p hp
  have hsub : subBoundaryInfo 3 p none = .ok info := by
    rw [← hi]
    rcases hp with rfl | rfl <;> rfl
  refine ⟨info, hi, hsub, fun S hS hR hlow diffusion hpd hsym flux hflux xs hx tmp tmp' pts hpts hface data valid s hs old u => ?_⟩
  have hfc : ∀ cells : Fin 3 → ℕ, ∀ node, constrainedNode close info normal cells node = true ↔ node 1 = cells 1 := by
    intro cells node
    obtain ⟨info', hi', y, upper, h1, h2, h3⟩ := C61_violated (Or.inr rfl) close hc p hp normal hn cells
    rw [hsub] at hi'
    injection hi' with hi'
    subst hi'
    have ey : y = 1 := Fin.ext h1
    have eu : upper = true := h2.mpr (Or.inr rfl)
    subst ey eu
    simpa using h3 node
  have hsgn : ∀ (n x : Fin 3 → ℚ), 0 ≤ (if p = .spe10 then (1 : ℚ) else -1) * effectiveNeumann (d := 1) close p info n x := by
    intro n x
    unfold effectiveNeumann neumannData
    rcases hp with rfl | rfl
    · split_ifs <;> simp_all
    · split_ifs <;> simp_all
  apply C71_violated_unsolvable S hS hR diffusion hpd hsym flux hflux 1 true _ (fun node => by
    simpa [dirichletNodes] using hfc S.micro _) xs hx tmp tmp' _ (fun g hg => by
    simpa [dirichletNodes] using (hfc S.cells _).mp hg) _ (if p = .spe10 then 1 else -1) _ _ _ data valid s hs old u
  · intro q hq
    obtain ⟨b, hb, rfl⟩ := List.mem_map.mp hq
    have := mul_nonneg (hpts b hb).weight_pos.le (hsgn b.normal (fun i => S.lower i + (((b.cell i).1 : ℚ) + b.pos i) * S.width i))
    simp only [BoundaryPoint.neumann]
    linarith
  · intro q hq
    obtain ⟨b, hb, rfl⟩ := List.mem_map.mp hq
    exact (hpts b hb).inside 1
  · obtain ⟨b, hb, hbf⟩ := hface
    refine ⟨_, List.mem_map.mpr ⟨b, hb, rfl⟩, ?_, ?_⟩
    · have hv := hpts b hb
      have h1 := hv.onFace
      have h2 := hv.computed
      rw [hbf] at h1 h2
      simp only [Bool.false_eq_true, if_false] at h1
      have he := hact b.normal (fun i => S.lower i + (((b.cell i).1 : ℚ) + b.pos i) * S.width i) h2 (by
        rw [hlow, h1.1, h1.2]; simp)
      simp only [BoundaryPoint.neumann]
      rw [he]
      have := hv.weight_pos
      split_ifs <;> linarith
    · have h1 := (hpts b hb).onFace
      rw [hbf] at h1
      simpa [BoundaryPoint.neumann] using h1

/-! ## Instances -/

/-- the unit cube with `N` coarse cells per direction, `m` local cells per direction in each, rules with the points 1/4 and 3/4
in each direction -/
noncomputable def demoSetup (d N m : ℕ) : Setup d ℚ where
  lower := 0
  width := fun _ => 1 / (N : ℚ)
  cells := fun _ => N
  micro := fun _ => m
  order := Finset.univ.toList
  localOrder := Finset.univ.toList
  localRule := (Finset.univ : Finset (Fin d → Bool)).toList.map fun s => ⟨fun l => if s l then 3 / 4 else 1 / 4, 1 / 2 ^ d⟩
  matrixRule := (Finset.univ : Finset (Fin d → Bool)).toList.map fun s => ⟨fun l => if s l then 3 / 4 else 1 / 4, 1 / 2 ^ d⟩
  loadRule := []

theorem demo_admissible (d N m : ℕ) (hN : 0 < N) (hm : 0 < m) : (demoSetup d N m).Admissible where
  width_pos := fun _ => by
    have : (0 : ℚ) < N := by exact_mod_cast hN
    simpa [demoSetup] using this
  cells_pos := fun _ => hN
  micro_pos := fun _ => hm
  order_complete := fun J => Finset.mem_toList.mpr (Finset.mem_univ J)
  localOrder_complete := fun j => Finset.mem_toList.mpr (Finset.mem_univ j)

theorem demo_resolving (d N m : ℕ) : Resolving (demoSetup d N m).localRule where
  weight_pos := by
    intro q hq
    simp only [demoSetup, List.mem_map] at hq
    obtain ⟨s, -, rfl⟩ := hq
    positivity
  points := by
    refine ⟨fun _ => 3 / 4, fun _ => 1 / 4, fun _ => by norm_num, fun s => ?_⟩
    exact ⟨⟨fun l => if s l then 3 / 4 else 1 / 4, 1 / 2 ^ d⟩,
      List.mem_map.mpr ⟨s, by simp, rfl⟩, rfl⟩

theorem demo_definite (d : ℕ) : Definite (fun _ : Fin d → ℚ => (1 : Matrix (Fin d) (Fin d) ℚ)) := by
  intro x v hv
  rw [one_mulVec]
  have : ∃ i, v i ≠ 0 := by
    by_contra h
    push Not at h
    exact hv (funext h)
  obtain ⟨i, hi⟩ := this
  apply Finset.sum_pos' (fun j _ => mul_self_nonneg (v j)) ⟨i, Finset.mem_univ i, mul_self_pos.mpr hi⟩

/-- Instance of C71_unique_partial: all hypotheses are met for the Laplace operator on every structured grid of the unit square. -/
example (N m : ℕ) (hN : 0 < N) (hm : 0 < m) (constrained : Node (demoSetup 2 N m).micro → Bool)
    (h : ∃ node, constrained node = true) :
    (demoSetup 2 N m).Admissible ∧ Resolving (demoSetup 2 N m).matrixRule ∧
      ∃ xs, (demoSetup 2 N m).Solves constrained (fun _ => 1) (fun _ v => v) xs :=
  ⟨demo_admissible 2 N m hN hm, demo_resolving 2 N m,
    C71_local_solutions_exist _ (demo_admissible 2 N m hN hm) (demo_resolving 2 N m) _ (demo_definite 2) _ h _⟩

open Verif.Boundary in
/-- Instance of C71_violated_problems: one coarse cell, eight local cells, a quadrature point on the face `y = 0`. -/
example : ∃ b : BoundaryPoint (demoSetup 3 1 2), b.Valid ∧ b.face = (1, false) ∧ (demoSetup 3 1 2).lower 1 = 0 ∧
    (∀ x, ((fun _ => 1 : (Fin 3 → ℚ) → Matrix (Fin 3) (Fin 3) ℚ) x).IsSymm) := by
  refine ⟨⟨(1, false), outerNormal (1, false), fun _ => ⟨0, Nat.one_pos⟩, ![1 / 2, 0, 1 / 2], 1⟩, ⟨?_, ?_, ?_, ?_⟩, rfl, rfl, ?_⟩
  · intro i; simp
  · intro i; fin_cases i <;> norm_num
  · simp
  · norm_num
  · intro x; exact Matrix.isSymm_one

end Verif.Q1Grid
