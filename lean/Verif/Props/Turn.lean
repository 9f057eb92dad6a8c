import Verif.Props.Units

/-!
# C90: mirrored domains and renamed directions
-/

namespace Verif.Spec.Turning
open Matrix

/-- New coordinates: direction `i` is the old direction `axis i`, run through backwards if `mirror i`. -/
structure Turn (d : ℕ) where
  axis : Equiv.Perm (Fin d)
  mirror : Fin d → Bool

variable {d : ℕ} {R : Type} [Field R] (T : Turn d)

/-- A point of the box with corners `lower` and `upper` in the new coordinates. -/
def Turn.point (lower upper x : Fin d → R) : Fin d → R := fun i =>
  if T.mirror i then lower (T.axis i) + upper (T.axis i) - x (T.axis i) else x (T.axis i)

/-- A direction in the new coordinates. -/
def Turn.vector (v : Fin d → R) : Fin d → R := fun i => if T.mirror i then -v (T.axis i) else v (T.axis i)

/-- A tensor in the new coordinates: it maps turned directions to turned directions. -/
def Turn.tensor (A : Matrix (Fin d) (Fin d) R) : Matrix (Fin d) (Fin d) R := Matrix.of fun i j =>
  if T.mirror i = T.mirror j then A (T.axis i) (T.axis j) else -A (T.axis i) (T.axis j)

/-- Position `m` of `n` in a row, counted from the other end. -/
def Turn.count {n : Fin d → ℕ} (m : ∀ i, Fin (n i)) : ∀ i, Fin (n (T.axis i)) := fun i =>
  if T.mirror i then (m (T.axis i)).rev else m (T.axis i)

/-- Corners of a cube. -/
def Turn.bits (v : Fin d → Bool) : Fin d → Bool := fun i => (T.mirror i) ^^ (v (T.axis i))

end Verif.Spec.Turning

namespace Verif.Spec.Turning
open Matrix

variable {d : ℕ} {R : Type} [Field R] (T : Turn d)

theorem tensor_vector (A : Matrix (Fin d) (Fin d) R) (v : Fin d → R) : T.tensor A *ᵥ T.vector v = T.vector (A *ᵥ v) := by
  funext i
  simp only [mulVec, dotProduct, Turn.tensor, Turn.vector, Matrix.of_apply]
  rw [← Equiv.sum_comp T.axis fun j => A (T.axis i) j * v j, ← Finset.sum_neg_distrib]
  cases hi : T.mirror i <;>
  · simp only [if_true, if_false, Bool.false_eq_true]
    refine Finset.sum_congr rfl fun j _ => ?_
    cases T.mirror j <;> simp

theorem vector_dot (v w : Fin d → R) : T.vector v ⬝ᵥ T.vector w = v ⬝ᵥ w := by
  simp only [dotProduct, Turn.vector]
  rw [← Equiv.sum_comp T.axis fun j => v j * w j]
  refine Finset.sum_congr rfl fun i _ => ?_
  cases T.mirror i <;> simp

theorem form_turn (A : Matrix (Fin d) (Fin d) R) (v w : Fin d → R) :
    (T.tensor A *ᵥ T.vector v) ⬝ᵥ T.vector w = (A *ᵥ v) ⬝ᵥ w := by
  rw [tensor_vector, vector_dot]

theorem count_injective {n : Fin d → ℕ} : Function.Injective (T.count (n := n)) := by
  intro a b h
  funext i
  obtain ⟨j, rfl⟩ := T.axis.surjective i
  have := congrFun h j
  simp only [Turn.count] at this
  split_ifs at this
  · exact Fin.rev_injective this
  · exact this

theorem count_bijective {n : Fin d → ℕ} : Function.Bijective (T.count (n := n)) :=
  (Fintype.bijective_iff_injective_and_card _).mpr ⟨count_injective T, by
    rw [Fintype.card_pi, Fintype.card_pi]
    simp only [Fintype.card_fin]
    exact (Equiv.prod_comp T.axis n).symm⟩

theorem bits_injective : Function.Injective T.bits := by
  intro a b h
  funext i
  obtain ⟨j, rfl⟩ := T.axis.surjective i
  have := congrFun h j
  simpa [Turn.bits] using this

theorem bits_bijective : Function.Bijective T.bits := Finite.injective_iff_bijective.mp (bits_injective T)

theorem vector_surjective (v : Fin d → R) : ∃ w, T.vector w = v := by
  refine ⟨fun l => if T.mirror (T.axis.symm l) then -v (T.axis.symm l) else v (T.axis.symm l), funext fun i => ?_⟩
  simp only [Turn.vector, Equiv.symm_apply_apply]
  cases T.mirror i <;> simp

theorem point_surjective (lower upper y : Fin d → R) : ∃ x, T.point lower upper x = y := by
  refine ⟨fun l => if T.mirror (T.axis.symm l) then lower l + upper l - y (T.axis.symm l) else y (T.axis.symm l), funext fun i => ?_⟩
  simp only [Turn.point, Equiv.symm_apply_apply]
  cases T.mirror i <;> simp

theorem vector_add (v w : Fin d → R) : T.vector (v + w) = T.vector v + T.vector w := by
  funext i
  simp only [Turn.vector, Pi.add_apply]
  split_ifs
  · ring
  · rfl

theorem vector_sub (v w : Fin d → R) : T.vector (v - w) = T.vector v - T.vector w := by
  funext i
  simp only [Turn.vector, Pi.sub_apply]
  split_ifs
  · ring
  · rfl

end Verif.Spec.Turning

namespace Verif.Pipeline
open Matrix Verif.CoarseAssembly Verif.LocalAssembly Verif.LocalSolve Verif.Q1Grid Verif.DirichletSolve Verif.Spec.Dirichlet
open Verif.Spec.Galerkin Verif.Spec.Turning

variable {d : ℕ} {R : Type} [Field R]

/-! ## Grids -/

/-- Orders in which the cells are visited and quadrature rules of the unit cube in the new coordinates. -/
structure Walk (S : Setup d R) (T : Turn d) where
  order : List (CellIndex fun i => S.cells (T.axis i))
  localOrder : List (CellIndex fun i => S.micro (T.axis i))
  localRule : List (QPoint d R)
  matrixRule : List (QPoint d R)
  loadRule : List (QPoint d R)

/-- The grids in the new coordinates. -/
abbrev turnedSetup (S : Setup d R) (T : Turn d) (W : Walk S T) : Setup d R where
  lower i := S.lower (T.axis i)
  width i := S.width (T.axis i)
  cells i := S.cells (T.axis i)
  micro i := S.micro (T.axis i)
  order := W.order
  localOrder := W.localOrder
  localRule := W.localRule
  matrixRule := W.matrixRule
  loadRule := W.loadRule

/-- Upper corner of the domain. -/
def upper (S : Setup d R) : Fin d → R := fun i => S.lower i + (S.cells i : R) * S.width i

/-- A point of a quadrature rule of the unit cube in the new coordinates. -/
def turnQ (T : Turn d) (q : QPoint d R) : QPoint d R := ⟨T.point 0 1 q.pos, q.weight⟩

/-- A point of a face functional in the new coordinates. -/
def turnFace (T : Turn d) {cells : Fin d → ℕ} (p : FacePoint d cells R) : FacePoint d (fun i => cells (T.axis i)) R :=
  ⟨T.count p.cell, T.point 0 1 p.pos, p.weight⟩

/-- The same problem in new coordinates: cells, points of the rules and points of the face functionals may be listed in another order. -/
structure TurnedProblem (S : Setup d R) (T : Turn d) (W : Walk S T) (B : Boundary S) (B' : Boundary (turnedSetup S T W)) (P P' : Data d R) :
    Prop where
  order : W.order.Perm (S.order.map T.count)
  localOrder : W.localOrder.Perm (S.localOrder.map T.count)
  localRule : W.localRule.Perm (S.localRule.map (turnQ T))
  matrixRule : W.matrixRule.Perm (S.matrixRule.map (turnQ T))
  loadRule : W.loadRule.Perm (S.loadRule.map (turnQ T))
  diffusion : ∀ x, P'.diffusion (T.point S.lower (upper S) x) = T.tensor (P.diffusion x)
  source : ∀ x, P'.source (T.point S.lower (upper S) x) = P.source x
  neumann : ∀ x, P'.neumann (T.point S.lower (upper S) x) = P.neumann x
  dirichlet : ∀ x, P'.dirichlet (T.point S.lower (upper S) x) = P.dirichlet x
  isDirichlet : ∀ g, B'.isDirichlet (T.count g) = B.isDirichlet g
  constrained : ∀ v, B'.constrained (T.count v) = B.constrained v
  faces : B'.faces.Perm (B.faces.map (turnFace T))
  localFaces : ∀ J, (B'.localFaces (T.count J)).Perm ((B.localFaces J).map (turnFace T))

/-! ## Shape functions and positions -/

section
variable (T : Turn d)

theorem cornerNode_turn {cells : Fin d → ℕ} (j : CellIndex cells) (v : Fin d → Bool) :
    cornerNode (T.count j) (T.bits v) = T.count (n := fun i => cells i + 1) (cornerNode j v) := by
  funext i
  simp only [cornerNode, Turn.count, Turn.bits]
  apply Fin.ext
  by_cases hm : T.mirror i = true <;> by_cases hv : v (T.axis i) = true <;> simp [hm, hv, Fin.rev_succ, Fin.rev_castSucc]

theorem shape_turn (v : Fin d → Bool) (x : Fin d → R) : shape (T.bits v) (T.point 0 1 x) = shape v x := by
  unfold shape
  rw [← Equiv.prod_comp T.axis fun l => hat (v l) (x l)]
  refine Finset.prod_congr rfl fun l _ => ?_
  simp only [hat, Turn.bits, Turn.point]
  by_cases hm : T.mirror l = true <;> by_cases hv : v (T.axis l) = true <;> simp [hm, hv]

theorem shapeGrad_turn (v : Fin d → Bool) (x : Fin d → R) : shapeGrad (T.bits v) (T.point 0 1 x) = T.vector (shapeGrad v x) := by
  funext i
  simp only [Turn.vector, shapeGrad]
  have key : ∀ l, (if l = i then hatSlope (T.bits v l) else hat (T.bits v l) (T.point 0 1 x l)) =
      (if l = i ∧ T.mirror i then -1 else 1) * if T.axis l = T.axis i then hatSlope (v (T.axis l)) else hat (v (T.axis l)) (x (T.axis l)) := by
    intro l
    by_cases hl : l = i
    · subst hl
      simp only [Turn.bits, hatSlope]
      by_cases hm : T.mirror l = true <;> by_cases hv : v (T.axis l) = true <;> simp [hm, hv]
    · have hl' : T.axis l ≠ T.axis i := fun h => hl (T.axis.injective h)
      simp only [hl, hl', false_and, if_false, one_mul, hat, Turn.bits, Turn.point]
      by_cases hm : T.mirror l = true <;> by_cases hv : v (T.axis l) = true <;> simp [hm, hv]
  rw [Finset.prod_congr rfl fun l _ => key l, Finset.prod_mul_distrib,
    Equiv.prod_comp T.axis fun l => if l = T.axis i then hatSlope (v l) else hat (v l) (x l)]
  cases hm : T.mirror i
  · simp
  · rw [Finset.prod_eq_single i (fun l _ hl => by simp [hl]) (by simp)]
    simp

theorem valueOf_turn {cells : Fin d → ℕ} (v : Node cells → R) (v' : Node (fun i => cells (T.axis i)) → R)
    (hv : ∀ g, v' (T.count g) = v g) (j : CellIndex cells) (x : Fin d → R) :
    valueOf v' (T.count j) (T.point 0 1 x) = valueOf v j x := by
  unfold valueOf
  rw [sum_corner fun w => v' (cornerNode (T.count j) w) * shape w (T.point 0 1 x), sum_corner fun w => v (cornerNode j w) * shape w x,
    ← (bits_bijective T).sum_comp]
  refine Finset.sum_congr rfl fun w _ => ?_
  rw [cornerNode_turn, shape_turn, hv]

theorem gradOf_turn (lower lower' width : Fin d → R) (rule rule' : List (QPoint d R)) {cells : Fin d → ℕ} (v : Node cells → R)
    (v' : Node (fun i => cells (T.axis i)) → R) (hv : ∀ g, v' (T.count g) = v g) (j : CellIndex cells) (x : Fin d → R) :
    (element lower' (fun i => width (T.axis i)) rule' (T.count j)).gradOf v' (T.point 0 1 x) =
      T.vector ((element lower width rule j).gradOf v x) := by
  funext i
  simp only [element_gradOf, Turn.vector]
  rw [← (bits_bijective T).sum_comp]
  have : ∀ w, v' (cornerNode (T.count j) (T.bits w)) * shapeGrad (T.bits w) (T.point 0 1 x) i =
      (if T.mirror i then -1 else 1) * (v (cornerNode j w) * shapeGrad w x (T.axis i)) := fun w => by
    rw [cornerNode_turn, shapeGrad_turn, hv, Turn.vector]
    split_ifs <;> ring
  rw [Finset.sum_congr rfl fun w _ => this w, ← Finset.mul_sum]
  split_ifs <;> ring

variable (S : Setup d R) (W : Walk S T)

theorem nodePos_turn (g : Node S.cells) :
    nodePos (turnedSetup S T W) (T.count g) = T.point S.lower (upper S) (nodePos S g) := by
  funext i
  simp only [nodePos, Turn.point, Turn.count, upper]
  split_ifs
  · rw [Fin.val_rev, Nat.cast_sub (by omega)]
    push_cast
    ring
  · rfl

theorem cellPos_turn (J : CellIndex S.cells) (x : Fin d → R) :
    globalPos (turnedSetup S T W).lower (turnedSetup S T W).width (T.count J) (T.point 0 1 x) =
      T.point S.lower (upper S) (globalPos S.lower S.width J x) := by
  funext i
  simp only [globalPos, Turn.point, Turn.count, upper, Pi.zero_apply, Pi.one_apply]
  split_ifs
  · rw [Fin.val_rev, Nat.cast_sub (by omega)]
    push_cast
    ring
  · rfl

theorem finePos_turn (hm : ∀ i, (S.micro i : R) ≠ 0) (J : CellIndex S.cells) (j : CellIndex S.micro) (x : Fin d → R) :
    globalPos ((turnedSetup S T W).cellLower (T.count J)) (turnedSetup S T W).localWidth (T.count j) (T.point 0 1 x) =
      T.point S.lower (upper S) (globalPos (S.cellLower J) S.localWidth j x) := by
  funext i
  simp only [globalPos, Turn.point, Turn.count, upper, Pi.zero_apply, Pi.one_apply, Setup.cellLower, Setup.localWidth]
  have := hm (T.axis i)
  split_ifs
  · rw [Fin.val_rev, Fin.val_rev, Nat.cast_sub (by omega), Nat.cast_sub (by omega)]
    push_cast
    field_simp
    ring
  · rfl

theorem basis_turn (hm : ∀ i, (S.micro i : R) ≠ 0) (k k' : Fin (2 ^ d)) (hk : corner k' = T.bits (corner k)) (v : Node S.micro) :
    basis (turnedSetup S T W) k' (T.count v) = basis S k v := by
  unfold basis
  rw [hk, ← shape_turn T (corner k) fun i => ((v i).1 : R) / (S.micro i : R)]
  congr 1
  funext i
  simp only [Turn.point, Turn.count, Pi.zero_apply, Pi.one_apply]
  have := hm (T.axis i)
  split_ifs
  · rw [Fin.val_rev, Nat.cast_sub (by omega)]
    push_cast
    field_simp
    ring
  · rfl

end


/-! ## Equations in the new coordinates -/

theorem isSolution_rename {ι ι' : Type} [Fintype ι] [Fintype ι'] (e : ι ≃ ι') {A : Matrix ι ι R} {A' : Matrix ι' ι' R} {l g u : ι → R}
    {l' g' u' : ι' → R} {D : ι → Bool} {D' : ι' → Bool} (hA : ∀ a b, A' (e a) (e b) = A a b) (hl : ∀ a, l' (e a) = l a)
    (hg : ∀ a, g' (e a) = g a) (hD : ∀ a, D' (e a) = D a) (hu : ∀ a, u' (e a) = u a) (h : IsSolution A l g D u) :
    IsSolution A' l' g' D' u' := by
  refine ⟨fun i hi => ?_, fun i hi => ?_⟩
  · obtain ⟨a, rfl⟩ := e.surjective i
    rw [hu, hg, h.boundary a (by rw [← hD]; exact hi)]
  · obtain ⟨a, rfl⟩ := e.surjective i
    rw [hl, ← h.equation a (by rw [← hD]; exact hi)]
    simp only [mulVec, dotProduct]
    rw [← e.sum_comp]
    exact Finset.sum_congr rfl fun b _ => by rw [hA, hu]

/-- numbers of the corners -/
noncomputable def turnIndex (T : Turn d) : Fin (2 ^ d) ≃ Fin (2 ^ d) :=
  (Equiv.ofBijective _ corner_bijective).trans ((Equiv.ofBijective _ (bits_bijective T)).trans (Equiv.ofBijective _ corner_bijective).symm)

theorem corner_turnIndex (T : Turn d) (k : Fin (2 ^ d)) : corner (turnIndex T k) = T.bits (corner k) :=
  (Equiv.ofBijective _ corner_bijective).apply_symm_apply (T.bits (corner k))

/-- nodes and cells -/
noncomputable def countEquiv (T : Turn d) {n : Fin d → ℕ} : (∀ i, Fin (n i)) ≃ ∀ i, Fin (n (T.axis i)) :=
  Equiv.ofBijective _ (count_bijective T (n := n))

theorem countEquiv_apply (T : Turn d) {n : Fin d → ℕ} (m : ∀ i, Fin (n i)) : countEquiv T m = T.count m := rfl

/-- the sample in the new coordinates -/
noncomputable def turnSample (T : Turn d) {cells : Fin d → ℕ} (s : Sample d (2 ^ d) (Node cells) R) :
    Sample d (2 ^ d) (Node fun i => cells (T.axis i)) R where
  weight := s.weight
  tensor := T.tensor s.tensor
  source := s.source
  dofs k := T.count (n := fun i => cells i + 1) (s.dofs ((turnIndex T).symm k))
  val k := s.val ((turnIndex T).symm k)
  grad k := T.vector (s.grad ((turnIndex T).symm k))
  lifting := T.vector s.lifting

theorem stiffness_turn (T : Turn d) {cells : Fin d → ℕ} (l : List (Sample d (2 ^ d) (Node cells) R)) (a b : Node cells) :
    stiffness (l.map (turnSample T)) (T.count (n := fun i => cells i + 1) a) (T.count (n := fun i => cells i + 1) b) = stiffness l a b := by
  unfold stiffness
  rw [List.map_map]
  refine congrArg List.sum (List.map_congr_left fun s _ => ?_)
  simp only [Function.comp_apply]
  rw [← (turnIndex T).sum_comp]
  refine Finset.sum_congr rfl fun i _ => ?_
  rw [← (turnIndex T).sum_comp]
  refine Finset.sum_congr rfl fun j _ => ?_
  simp only [turnSample, Equiv.symm_apply_apply, form_turn, (count_injective T).eq_iff]

theorem load_turn (T : Turn d) {cells : Fin d → ℕ} (l : List (Sample d (2 ^ d) (Node cells) R)) (a : Node cells) :
    load (l.map (turnSample T)) (T.count (n := fun i => cells i + 1) a) = load l a := by
  unfold load
  rw [List.map_map]
  refine congrArg List.sum (List.map_congr_left fun s _ => ?_)
  simp only [Function.comp_apply]
  rw [← (turnIndex T).sum_comp]
  refine Finset.sum_congr rfl fun i _ => ?_
  simp only [turnSample, Equiv.symm_apply_apply, form_turn, (count_injective T).eq_iff]

theorem stiffness_perm {n : ℕ} {G : Type} [DecidableEq G] {l l' : List (Sample d n G R)} (h : l.Perm l') : stiffness l = stiffness l' := by
  funext a b
  exact (h.map _).sum_eq

theorem load_perm {n : ℕ} {G : Type} [DecidableEq G] {l l' : List (Sample d n G R)} (h : l.Perm l') : load l = load l' := by
  funext a
  exact (h.map _).sum_eq

theorem flatMap_perm {α β : Type} {l l' : List α} {f g : α → List β} (h : l.Perm l') (hf : ∀ a ∈ l', (f a).Perm (g a)) :
    (l.flatMap f).Perm (l'.flatMap g) :=
  (h.flatMap_right f).trans (List.Perm.flatMap_left l' hf)

section problem
variable {S : Setup d R} {T : Turn d} {W : Walk S T} {B : Boundary S} {B' : Boundary (turnedSetup S T W)} {P P' : Data d R}
  (h : TurnedProblem S T W B B' P P') (hm : ∀ i, (S.micro i : R) ≠ 0)

omit h hm in
theorem prod_localWidth_turn : ∏ i, (turnedSetup S T W).localWidth i = ∏ i, S.localWidth i :=
  Equiv.prod_comp T.axis S.localWidth

include h hm in
theorem localStiff_turn (J : CellIndex S.cells) (a b : Node S.micro) :
    localStiff (turnedSetup S T W) B' P' (T.count J) (T.count (n := fun i => S.micro i + 1) a) (T.count (n := fun i => S.micro i + 1) b) =
      localStiff S B P J a b := by
  have hs : (samples P'.diffusion (localCell (turnedSetup S T W) B' P' (T.count J)).elements).Perm
      ((samples P.diffusion (localCell S B P J).elements).map (turnSample T)) := by
    simp only [samples, localCell, Setup.cell, List.map_flatMap, List.flatMap_map, List.map_map]
    refine (h.localOrder.flatMap_right _).trans ?_
    rw [List.flatMap_map]
    refine List.Perm.flatMap_left _ fun j _ => ?_
    simp only [element, scaleRule, List.map_map]
    refine (h.localRule.map _).trans ?_
    rw [List.map_map]
    refine List.Perm.of_eq (List.map_congr_left fun q _ => ?_)
    have hp := finePos_turn T S W hm J j q.pos
    unfold globalPos at hp
    simp only [Function.comp_apply, turnQ, turnSample, hp, h.diffusion]
    congr 1
    · rw [prod_localWidth_turn]
    · funext k
      obtain ⟨k, rfl⟩ := (turnIndex T).surjective k
      rw [corner_turnIndex, cornerNode_turn, Equiv.symm_apply_apply]
    · funext k
      obtain ⟨k, rfl⟩ := (turnIndex T).surjective k
      rw [corner_turnIndex, Equiv.symm_apply_apply, shapeGrad_turn]
      funext i
      simp only [Turn.vector, Setup.localWidth]
      split_ifs
      · rw [neg_div]
      · rfl
    · funext i
      simp [Turn.vector]
  rw [localStiff, localStiff, stiff, stiff, Matrix.of_apply, Matrix.of_apply, stiffness_perm hs]
  exact stiffness_turn T _ a b

include h in
theorem localExtension_turn (J : CellIndex S.cells) (k : Fin (2 ^ d)) :
    localExtension (turnedSetup S T W) B' P' (T.count J) (turnIndex T k) = localExtension S B P J k := by
  simp only [localExtension, dirichletProject]
  rw [corner_turnIndex, cornerNode_turn, nodePos_turn T S W, h.isDirichlet, h.dirichlet]
  rfl

include h hm in
theorem localNeumann_turn (J : CellIndex S.cells) (v : Node S.micro) :
    localNeumann (turnedSetup S T W) B' P'.neumann (T.count J) (T.count (n := fun i => S.micro i + 1) v) = localNeumann S B P.neumann J v := by
  rw [localNeumann_apply, localNeumann_apply, ((h.localFaces J).map _).sum_eq, List.map_map]
  refine congrArg List.sum (List.map_congr_left fun p _ => ?_)
  simp only [Function.comp_apply]
  rw [← (turnIndex T).sum_comp]
  refine Finset.sum_congr rfl fun k _ => ?_
  refine if_congr ?_ ?_ rfl
  · rw [corner_turnIndex]
    show _ = cornerNode (T.count p.cell) _ ↔ _
    rw [cornerNode_turn, (count_injective T).eq_iff]
  · simp only [turnFace]
    rw [corner_turnIndex, finePos_turn T S W hm, h.neumann, shape_turn]

include h in
theorem femNeumann_turn (g : Node S.cells) :
    femNeumann (turnedSetup S T W) (neumannPoints (turnedSetup S T W) B' P'.neumann) (T.count (n := fun i => S.cells i + 1) g) =
      femNeumann S (neumannPoints S B P.neumann) g := by
  unfold femNeumann neumannPoints
  rw [List.map_map, List.map_map, (h.faces.map _).sum_eq, List.map_map]
  refine congrArg List.sum (List.map_congr_left fun p _ => ?_)
  simp only [Function.comp_apply]
  rw [← (bits_bijective T).sum_comp]
  refine Finset.sum_congr rfl fun w _ => ?_
  refine if_congr ?_ ?_ rfl
  · show cornerNode (T.count p.cell) _ = _ ↔ _
    rw [cornerNode_turn, (count_injective T).eq_iff]
  · simp only [turnFace]
    rw [cellPos_turn T S W, h.neumann, shape_turn]

include h hm in
theorem samples_turn (rule rule' : List (QPoint d R)) (hr : rule'.Perm (rule.map (turnQ T))) (f f' : (Fin d → R) → R)
    (hf : ∀ x, f' (T.point S.lower (upper S) x) = f x)
    (Q : CellIndex S.cells → Fin (2 ^ d) → Node S.micro → R) (qN qD : CellIndex S.cells → Node S.micro → R)
    (Q' : CellIndex (turnedSetup S T W).cells → Fin (2 ^ d) → Node (turnedSetup S T W).micro → R)
    (qN' qD' : CellIndex (turnedSetup S T W).cells → Node (turnedSetup S T W).micro → R)
    (hQ : ∀ J k v, Q' (T.count J) (turnIndex T k) (T.count (n := fun i => S.micro i + 1) v) = Q J k v)
    (hN : ∀ J v, qN' (T.count J) (T.count (n := fun i => S.micro i + 1) v) = qN J v)
    (hD : ∀ J v, qD' (T.count J) (T.count (n := fun i => S.micro i + 1) v) = qD J v) :
    ((points (turnedSetup S T W) rule').map (sampleAt (turnedSetup S T W) P'.diffusion f' Q' qN' qD')).Perm
      (((points S rule).map (sampleAt S P.diffusion f Q qN qD)).map (turnSample T)) := by
  rw [List.map_map]
  simp only [points, List.map_flatMap, List.map_map]
  refine (h.order.flatMap_right _).trans ?_
  rw [List.flatMap_map]
  refine List.Perm.flatMap_left _ fun J _ => ?_
  refine (h.localOrder.flatMap_right _).trans ?_
  rw [List.flatMap_map]
  refine List.Perm.flatMap_left _ fun j _ => ?_
  refine (hr.map _).trans ?_
  rw [List.map_map]
  refine List.Perm.of_eq (List.map_congr_left fun q _ => ?_)
  simp only [Function.comp_apply, turnQ, turnSample, sampleAt, finePos_turn T S W hm, h.diffusion, hf]
  have hgrad : ∀ (v : Node S.micro → R) (v' : Node (turnedSetup S T W).micro → R),
      (∀ g, v' (T.count (n := fun i => S.micro i + 1) g) = v g) →
      grad (turnedSetup S T W) v' (T.count J) (T.count j) (T.point 0 1 q.pos) = T.vector (grad S v J j q.pos) := fun v v' hv =>
    gradOf_turn T _ _ S.localWidth _ _ v v' hv j q.pos
  congr 1
  · rw [prod_localWidth_turn]
  · funext k
    obtain ⟨k, rfl⟩ := (turnIndex T).surjective k
    rw [corner_turnIndex, cornerNode_turn, Equiv.symm_apply_apply]
  · funext k
    obtain ⟨k, rfl⟩ := (turnIndex T).surjective k
    rw [corner_turnIndex, Equiv.symm_apply_apply, shape_turn, valueOf_turn T (Q J k) _ (hQ J k)]
  · funext k
    obtain ⟨k, rfl⟩ := (turnIndex T).surjective k
    rw [corner_turnIndex, Equiv.symm_apply_apply, shapeGrad_turn, hgrad (Q J k) _ (hQ J k), vector_add]
    congr 1
    funext i
    simp only [Turn.vector]
    split_ifs
    · rw [neg_div]
    · rfl
  · rw [hgrad _ _ (hN J), hgrad _ _ (hD J), vector_sub]

include h hm in
theorem computed_turn (hx : ∀ x v, P.flux x v = P.diffusion x *ᵥ v) (hx' : ∀ x v, P'.flux x v = P'.diffusion x *ᵥ v)
    {Q : CellIndex S.cells → Fin (2 ^ d) → Node S.micro → R} {qN qD : CellIndex S.cells → Node S.micro → R} {u : Node S.cells → R}
    {fine : CellIndex S.cells → Node S.micro → R} (hcomp : Computed S B P Q qN qD u fine) :
    Computed (turnedSetup S T W) B' P'
      (fun J k v => Q ((countEquiv T).symm J) ((turnIndex T).symm k) ((countEquiv T (n := fun i => S.micro i + 1)).symm v))
      (fun J v => qN ((countEquiv T).symm J) ((countEquiv T (n := fun i => S.micro i + 1)).symm v))
      (fun J v => qD ((countEquiv T).symm J) ((countEquiv T (n := fun i => S.micro i + 1)).symm v))
      (fun g => u ((countEquiv T (n := fun i => S.cells i + 1)).symm g))
      (fun J v => fine ((countEquiv T).symm J) ((countEquiv T (n := fun i => S.micro i + 1)).symm v)) := by
  have hb : ∀ J : CellIndex S.cells, (∃ i, ((T.count J) i).1 = 0 ∨ ((T.count J) i).1 + 1 = S.cells (T.axis i)) ↔
      ∃ i, (J i).1 = 0 ∨ (J i).1 + 1 = S.cells i := by
    intro J
    refine Iff.trans (exists_congr fun i => ?_) T.axis.surjective.exists.symm
    simp only [Turn.count]
    split_ifs
    · rw [Fin.val_rev]
      omega
    · rfl
  have hneg : ∀ (J : CellIndex S.cells) (w : Node S.micro → R) (w' : Node (turnedSetup S T W).micro → R),
      (∀ v, w' (T.count (n := fun i => S.micro i + 1) v) = w v) → ∀ v,
      (-(localStiff (turnedSetup S T W) B' P' (T.count J) *ᵥ w')) (T.count (n := fun i => S.micro i + 1) v) = (-(localStiff S B P J *ᵥ w)) v := by
    intro J w w' hw v
    simp only [Pi.neg_apply, mulVec, dotProduct]
    rw [← (countEquiv T (n := fun i => S.micro i + 1)).sum_comp]
    exact congrArg Neg.neg (Finset.sum_congr rfl fun b _ => by rw [countEquiv_apply, localStiff_turn h hm, hw])
  have hc : ∀ v : Node S.micro, (countEquiv T (n := fun i => S.micro i + 1)).symm (T.count v) = v := fun v => Equiv.symm_apply_apply _ _
  have hbasis : ∀ k v, basis (turnedSetup S T W) (turnIndex T k) (T.count (n := fun i => S.micro i + 1) v) = basis S k v :=
    fun k v => basis_turn T S W hm k _ (corner_turnIndex T k) v
  refine ⟨fun J => ?_, ?_, fun J => ?_⟩
  · obtain ⟨J, rfl⟩ := (countEquiv T).surjective J
    simp only [Equiv.symm_apply_apply]
    refine ⟨fun k => ?_, fun hb' => ?_, fun hb' => ?_, fun hb' => ?_⟩
    · obtain ⟨k, rfl⟩ := (turnIndex T).surjective k
      rw [Equiv.symm_apply_apply]
      exact isSolution_rename (countEquiv T (n := fun i => S.micro i + 1)) (localStiff_turn h hm J) (hneg J _ _ (hbasis k)) (fun _ => rfl)
        h.constrained (fun v => by rw [Equiv.symm_apply_apply]) ((hcomp.corrector J).inner k)
    · obtain ⟨h1, h2⟩ := (hcomp.corrector J).inside fun hi => hb' ((hb J).mpr hi)
      rw [h1, h2]
      exact ⟨rfl, rfl⟩
    · exact isSolution_rename (countEquiv T (n := fun i => S.micro i + 1)) (localStiff_turn h hm J) (localNeumann_turn h hm J) (fun _ => rfl)
        h.constrained (fun v => by rw [Equiv.symm_apply_apply]) ((hcomp.corrector J).neumann ((hb J).mp hb'))
    · refine isSolution_rename (countEquiv T (n := fun i => S.micro i + 1)) (localStiff_turn h hm J) (hneg J _ _ fun v => ?_) (fun _ => rfl)
        h.constrained (fun v => by rw [Equiv.symm_apply_apply]) ((hcomp.corrector J).dirichlet ((hb J).mp hb'))
      rw [Finset.sum_apply, Finset.sum_apply, ← (turnIndex T).sum_comp]
      refine Finset.sum_congr rfl fun k _ => ?_
      simp only [Pi.smul_apply, countEquiv_apply]
      rw [localExtension_turn h, hbasis]
  · have hco := hcomp.coarse
    rw [coarseMatrix_points, coarseLoad_points S _ _ hx] at hco
    rw [coarseMatrix_points, coarseLoad_points (turnedSetup S T W) _ _ hx']
    refine isSolution_rename (countEquiv T (n := fun i => S.cells i + 1)) (fun a b => ?_) (fun a => ?_) (fun a => ?_) h.isDirichlet
      (fun v => by rw [Equiv.symm_apply_apply]) hco
    · rw [Matrix.of_apply, Matrix.of_apply, stiffness_perm (samples_turn h hm S.matrixRule W.matrixRule h.matrixRule 0 0 (fun _ => rfl) Q 0 0 _ 0 0
        (fun J k v => by
          rw [← countEquiv_apply, ← countEquiv_apply, Equiv.symm_apply_apply, Equiv.symm_apply_apply, Equiv.symm_apply_apply])
        (fun _ _ => rfl) (fun _ _ => rfl))]
      exact stiffness_turn T _ a b
    · rw [Pi.add_apply, Pi.add_apply, load_perm (samples_turn h hm S.loadRule W.loadRule h.loadRule P.source P'.source h.source Q qN qD _ _ _
        (fun J k v => by
          rw [← countEquiv_apply, ← countEquiv_apply, Equiv.symm_apply_apply, Equiv.symm_apply_apply, Equiv.symm_apply_apply])
        (fun J v => by rw [← countEquiv_apply, ← countEquiv_apply, Equiv.symm_apply_apply, Equiv.symm_apply_apply])
        (fun J v => by rw [← countEquiv_apply, ← countEquiv_apply, Equiv.symm_apply_apply, Equiv.symm_apply_apply]))]
      exact congrArg₂ (· + ·) (load_turn T _ a) (femNeumann_turn h a)
    · rw [countEquiv_apply, nodePos_turn T S W, h.dirichlet]
  · obtain ⟨J, rfl⟩ := (countEquiv T).surjective J
    funext v
    obtain ⟨v, rfl⟩ := (countEquiv T (n := fun i => S.micro i + 1)).surjective v
    simp only [Equiv.symm_apply_apply]
    rw [hcomp.fine_eq J]
    simp only [Pi.add_apply, Pi.sub_apply, Finset.sum_apply, Pi.smul_apply, Equiv.symm_apply_apply]
    congr 2
    refine Eq.symm ?_
    rw [← (turnIndex T).sum_comp]
    refine Finset.sum_congr rfl fun k _ => ?_
    rw [Equiv.symm_apply_apply, corner_turnIndex, countEquiv_apply, countEquiv_apply, cornerNode_turn, hbasis, ← countEquiv_apply,
      Equiv.symm_apply_apply]

variable [LinearOrder R] [IsStrictOrderedRing R]

include h in
theorem unique_turn (hu : Unique S B P) : Unique (turnedSetup S T W) B' P' := by
  have hr : ∀ rule rule' : List (QPoint d R), rule'.Perm (rule.map (turnQ T)) → Resolving rule → Resolving rule' := by
    intro rule rule' hp hres
    refine ⟨fun q hq => ?_, ?_⟩
    · obtain ⟨q, hq', rfl⟩ := List.mem_map.mp (hp.mem_iff.mp hq)
      exact hres.weight_pos q hq'
    · obtain ⟨p, r, hne, hall⟩ := hres.points
      refine ⟨T.point 0 1 p, T.point 0 1 r, fun l => ?_, fun s => ?_⟩
      · simp only [Turn.point]
        split_ifs
        · exact fun e => hne _ (by linear_combination -e)
        · exact hne _
      · obtain ⟨q, hq, hpos⟩ := hall fun l => s (T.axis.symm l)
        refine ⟨turnQ T q, hp.mem_iff.mpr (List.mem_map_of_mem hq), ?_⟩
        funext l
        simp only [turnQ, Turn.point, hpos, Equiv.symm_apply_apply]
        split_ifs <;> rfl
  refine ⟨⟨fun i => hu.admissible.width_pos _, fun i => hu.admissible.cells_pos _, fun i => hu.admissible.micro_pos _, fun J => ?_, fun j => ?_⟩,
    ?_, hr _ _ h.localRule hu.localRule, hr _ _ h.matrixRule hu.matrixRule, fun y v hv => ?_, fun v hv => ?_, ?_⟩
  · obtain ⟨J, rfl⟩ := (countEquiv T).surjective J
    exact h.order.mem_iff.mpr (List.mem_map_of_mem (hu.admissible.order_complete J))
  · obtain ⟨j, rfl⟩ := (countEquiv T).surjective j
    exact h.localOrder.mem_iff.mpr (List.mem_map_of_mem (hu.admissible.localOrder_complete j))
  · exact h.order.nodup_iff.mpr (hu.nodup.map (count_injective T))
  · obtain ⟨x, rfl⟩ := point_surjective T S.lower (upper S) y
    obtain ⟨w, rfl⟩ := vector_surjective T v
    rw [h.diffusion, form_turn]
    exact hu.definite x w fun h0 => hv (by rw [h0]; funext i; simp [Turn.vector])
  · obtain ⟨v, rfl⟩ := (countEquiv T (n := fun i => S.micro i + 1)).surjective v
    rw [countEquiv_apply, h.constrained]
    refine hu.corners v fun i => ?_
    obtain ⟨i, rfl⟩ := T.axis.surjective i
    have := hv i
    rw [countEquiv_apply] at this
    simp only [Turn.count] at this
    split_ifs at this
    · rw [Fin.val_rev] at this
      omega
    · exact this
  · obtain ⟨g, hg⟩ := hu.dirichlet
    exact ⟨T.count (n := fun i => S.cells i + 1) g, by rw [h.isDirichlet]; exact hg⟩

end problem

variable [LinearOrder R] [IsStrictOrderedRing R]

/-- **C90** Which direction is called the first one, and from which end positions are counted, does not influence the result of a run: if grids,
data and boundary are described in coordinates with renamed and mirrored directions, and cells and quadrature points are possibly visited
in another order, then the coarse solution has the same value at every node, and the result the same value at every node of the local grid
of every cell. -/
theorem C90_turned (S : Setup d R) (T : Turn d) (W : Walk S T) (B : Boundary S) (B' : Boundary (turnedSetup S T W)) (P P' : Data d R)
    (h : TurnedProblem S T W B B' P P') (hu : Unique S B P) (m : Machine S) (m' : Machine (turnedSetup S T W))
    (hm : Works S B P m) (hm' : Works (turnedSetup S T W) B' P' m') (u : Node S.cells → R) (u' : Node (turnedSetup S T W).cells → R)
    (res : List (Node S.micro → R)) (res' : List (Node (turnedSetup S T W).micro → R))
    (hr : apply S B P m = .ok (u, res)) (hr' : apply (turnedSetup S T W) B' P' m' = .ok (u', res')) :
    (∀ g : Node S.cells, u' (T.count (n := fun i => S.cells i + 1) g) = u g) ∧
      ∀ (J : CellIndex S.cells) (n n' : ℕ), S.order[n]? = some J → W.order[n']? = some (T.count J) →
        ∃ v v', res[n]? = some v ∧ res'[n']? = some v' ∧ ∀ x : Node S.micro, v' (T.count (n := fun i => S.micro i + 1) x) = v x := by
  have hu' := unique_turn h hu
  have h0 : ∀ i, (S.micro i : R) ≠ 0 := fun i => by exact_mod_cast (hu.admissible.micro_pos i).ne'
  obtain ⟨Q, qN, qD, fine, hcomp, rfl⟩ := apply_spec S hu.admissible hu.nodup B P m hm u res hr
  obtain ⟨Q', qN', qD', fine', hcomp', rfl⟩ := apply_spec _ hu'.admissible hu'.nodup B' P' m' hm' u' res' hr'
  obtain ⟨rfl, rfl⟩ := computed_unique _ B' P' hu' _ _ _ _ _ _ _ _ _ _ hcomp' (computed_turn h h0 hm.flux hm'.flux hcomp)
  refine ⟨fun g => ?_, fun J n n' hn hn' => ⟨fine J,
    fun v => fine ((countEquiv T).symm (T.count J)) ((countEquiv T (n := fun i => S.micro i + 1)).symm v), ?_, ?_, fun x => ?_⟩⟩
  · exact congrArg u ((countEquiv T (n := fun i => S.cells i + 1)).symm_apply_apply g)
  · rw [List.getElem?_map, hn]
    rfl
  · rw [List.getElem?_map]
    exact congrArg (Option.map _) hn'
  · exact congrArg₂ fine ((countEquiv T).symm_apply_apply J) ((countEquiv T (n := fun i => S.micro i + 1)).symm_apply_apply x)

/-- mirrored directions, none renamed -/
def mirrored (ε : Fin d → Bool) : Turn d := ⟨Equiv.refl _, ε⟩

/-- **C90** (symmetric problems) If grids, data and boundary do not change when some directions are mirrored, then the result is symmetric. -/
theorem C90_symmetric (S : Setup d R) (ε : Fin d → Bool) (B : Boundary S) (P : Data d R)
    (h : TurnedProblem S (mirrored ε) ⟨S.order, S.localOrder, S.localRule, S.matrixRule, S.loadRule⟩ B B P P) (hu : Unique S B P)
    (m : Machine S) (hm : Works S B P m) (u : Node S.cells → R) (res : List (Node S.micro → R)) (hr : apply S B P m = .ok (u, res)) :
    (∀ g g' : Node S.cells, (∀ i, (g' i).1 = if ε i then S.cells i - (g i).1 else (g i).1) → u g' = u g) ∧
      ∀ (J J' : CellIndex S.cells) (n n' : ℕ) (v v' : Node S.micro → R) (x x' : Node S.micro),
        (∀ i, (J' i).1 = if ε i then S.cells i - 1 - (J i).1 else (J i).1) → S.order[n]? = some J → S.order[n']? = some J' →
        res[n]? = some v → res[n']? = some v' → (∀ i, (x' i).1 = if ε i then S.micro i - (x i).1 else (x i).1) → v' x' = v x := by
  obtain ⟨h1, h2⟩ := C90_turned S (mirrored ε) ⟨S.order, S.localOrder, S.localRule, S.matrixRule, S.loadRule⟩ B B P P h hu m m hm hm u u res res hr hr
  have hcount : ∀ (n : Fin d → ℕ) (a b : ∀ i, Fin (n i)), (∀ i, (b i).1 = if ε i then n i - 1 - (a i).1 else (a i).1) →
      (mirrored ε).count a = b := by
    intro n a b hab
    funext i
    apply Fin.ext
    rw [hab i]
    by_cases he : ε i = true
    · rw [show (mirrored ε).count a i = (a i).rev from if_pos he, if_pos he, Fin.val_rev]
      omega
    · rw [show (mirrored ε).count a i = a i from if_neg he, if_neg he]
  refine ⟨fun g g' hg => ?_, fun J J' n n' v v' x x' hJ hn hn' hv hv' hx => ?_⟩
  · rw [← h1 g]
    congr 1
    exact (hcount _ g g' fun i => by rw [hg i]; rfl).symm
  · obtain ⟨w, w', e1, e2, e3⟩ := h2 J n n' hn (by rw [hcount _ J J' hJ]; exact hn')
    obtain rfl : v = w := Option.some.inj (hv.symm.trans e1)
    obtain rfl : v' = w' := Option.some.inj (hv'.symm.trans e2)
    rw [← e3 x]
    congr 1
    exact (hcount _ x x' fun i => by rw [hx i]; rfl).symm

omit [LinearOrder R] [IsStrictOrderedRing R] in
/-- Every problem can be described in the new coordinates. -/
theorem C90_turned_exists (S : Setup d R) (T : Turn d) (B : Boundary S) (P : Data d R) : ∃ (W : Walk S T) (B' : Boundary (turnedSetup S T W))
    (P' : Data d R), TurnedProblem S T W B B' P P' ∧ ∀ x v, P'.flux x v = P'.diffusion x *ᵥ v := by
  obtain ⟨inv, hinv⟩ : ∃ inv : (Fin d → R) → Fin d → R, ∀ x, inv (T.point S.lower (upper S) x) = x := by
    refine ⟨fun y l => if T.mirror (T.axis.symm l) then S.lower l + upper S l - y (T.axis.symm l) else y (T.axis.symm l), fun x => funext fun l => ?_⟩
    simp only [Turn.point, Equiv.apply_symm_apply]
    split_ifs
    · ring
    · rfl
  refine ⟨⟨S.order.map T.count, S.localOrder.map T.count, S.localRule.map (turnQ T), S.matrixRule.map (turnQ T), S.loadRule.map (turnQ T)⟩,
    ⟨fun g => B.isDirichlet ((countEquiv T (n := fun i => S.cells i + 1)).symm g),
      fun v => B.constrained ((countEquiv T (n := fun i => S.micro i + 1)).symm v), B.faces.map (turnFace T),
      fun J => (B.localFaces ((countEquiv T).symm J)).map (turnFace T)⟩,
    ⟨fun y => T.tensor (P.diffusion (inv y)),
      fun y v => T.tensor (P.diffusion (inv y)) *ᵥ v,
      fun y => P.source (inv y),
      fun y => P.neumann (inv y),
      fun y => P.dirichlet (inv y)⟩,
    ⟨.refl _, .refl _, .refl _, .refl _, .refl _, ?_, ?_, ?_, ?_, ?_, ?_, .refl _, ?_⟩, fun _ _ => rfl⟩
  · exact fun x => congrArg (fun x => T.tensor (P.diffusion x)) (hinv x)
  · exact fun x => congrArg P.source (hinv x)
  · exact fun x => congrArg P.neumann (hinv x)
  · exact fun x => congrArg P.dirichlet (hinv x)
  · exact fun g => congrArg B.isDirichlet ((countEquiv T (n := fun i => S.cells i + 1)).symm_apply_apply g)
  · exact fun g => congrArg B.constrained ((countEquiv T (n := fun i => S.micro i + 1)).symm_apply_apply g)
  · exact fun J => List.Perm.of_eq (congrArg (fun J => (B.localFaces J).map (turnFace T)) ((countEquiv T).symm_apply_apply J))

/-- Instance: every problem with unique solution, in two dimensions with exchanged axes and the second one mirrored; both runs succeed. -/
example (S : Setup 2 R) (B : Boundary S) (P : Data 2 R) (hu : Unique S B P) (hx : ∀ x v, P.flux x v = P.diffusion x *ᵥ v) :
    let T : Turn 2 := ⟨Equiv.swap 0 1, ![false, true]⟩
    ∃ (W : Walk S T) (B' : Boundary (turnedSetup S T W)) (P' : Data 2 R) (m : Machine S) (m' : Machine (turnedSetup S T W)) (u : _) (u' : _)
      (res : _) (res' : _), TurnedProblem S T W B B' P P' ∧ apply S B P m = .ok (u, res) ∧ apply (turnedSetup S T W) B' P' m' = .ok (u', res') ∧
        ∀ g : Node S.cells, u' (T.count (n := fun i => S.cells i + 1) g) = u g := by
  intro T
  obtain ⟨W, B', P', h, hx'⟩ := C90_turned_exists S T B P
  obtain ⟨m, hw, u, res, hr⟩ := C82_run_exists _ _ P hu hx
  obtain ⟨m', hw', u', res', hr'⟩ := C82_run_exists _ _ P' (unique_turn h hu) hx'
  exact ⟨W, B', P', m, m', u, u', res, res', h, hr, hr', (C90_turned S T W B B' P P' h hu m m' hw hw' u u' res res' hr hr').1⟩

/-- Instance: unit source on the unit square with `N` by `N` coarse and `m` by `m` local cells, zero on the boundary: the coarse solution does
not change if the first direction is mirrored. -/
example (N m : ℕ) (hN : 0 < N) (hm : 0 < m) :
    ∃ (B : Boundary (demoSetup 2 N m)) (mach : Machine (demoSetup 2 N m)) (u : _) (res : _),
      apply (demoSetup 2 N m) B ⟨fun _ => 1, fun _ v => v, fun _ => 1, 0, 0⟩ mach = .ok (u, res) ∧
        ∀ g g' : Node (demoSetup 2 N m).cells, (g' 0).1 = N - (g 0).1 → (g' 1).1 = (g 1).1 → u g' = u g := by
  let border : (n : Fin 2 → ℕ) → Node n → Bool := fun n g => decide (∃ i, (g i).1 = 0 ∨ (g i).1 = n i)
  have hborder : ∀ (n : Fin 2 → ℕ) (g : Node n), border n ((mirrored ![true, false]).count (n := fun i => n i + 1) g) = border n g := by
    intro n g
    refine decide_eq_decide.mpr (exists_congr fun i => ?_)
    by_cases he : (![true, false] : Fin 2 → Bool) i = true
    · rw [show (mirrored ![true, false]).count (n := fun i => n i + 1) g i = (g i).rev from if_pos he, Fin.val_rev]
      omega
    · rw [show (mirrored ![true, false]).count (n := fun i => n i + 1) g i = g i from if_neg he]
  let S := demoSetup 2 N m
  let B : Boundary S := ⟨border S.cells, border S.micro, [], fun _ => []⟩
  let P : Data 2 ℚ := ⟨fun _ => 1, fun _ v => v, fun _ => 1, 0, 0⟩
  have hu : Unique S B P := by
    refine ⟨demo_admissible 2 N m hN hm, Finset.nodup_toList _, demo_resolving 2 N m, demo_resolving 2 N m, demo_definite 2, fun v hv => ?_,
      ⟨(fun _ => 0 : Node S.cells), ?_⟩⟩
    · exact decide_eq_true (p := ∃ i, (v i).1 = 0 ∨ (v i).1 = S.micro i) ⟨0, hv 0⟩
    · exact decide_eq_true (p := ∃ i, ((0 : Fin (S.cells i + 1))).1 = 0 ∨ (0 : Fin (S.cells i + 1)).1 = S.cells i) ⟨0, Or.inl rfl⟩
  have hperm : ∀ (α : Type) [Fintype α] (f : α → α), Function.Injective f →
      (Finset.univ.toList : List α).Perm ((Finset.univ.toList : List α).map f) := by
    classical
    intro α _ f hf
    rw [List.perm_ext_iff_of_nodup (Finset.nodup_toList _) ((Finset.nodup_toList _).map hf)]
    intro a
    obtain ⟨b, rfl⟩ := (Finite.injective_iff_surjective.mp hf) a
    simp
  have hrule : S.localRule.Perm (S.localRule.map (turnQ (mirrored ![true, false]))) := by
    show (List.map _ _).Perm (List.map _ (List.map _ _))
    rw [List.map_map]
    refine ((hperm _ (mirrored ![true, false]).bits (bits_injective _)).map _).trans ?_
    rw [List.map_map]
    refine List.Perm.of_eq (List.map_congr_left fun s _ => ?_)
    simp only [Function.comp_apply, turnQ]
    congr 1
    funext i
    fin_cases i
    · by_cases h0 : s 0 = true <;> simp [Turn.bits, Turn.point, mirrored, h0] <;> norm_num
    · by_cases h0 : s 1 = true <;> simp [Turn.bits, Turn.point, mirrored, h0]
  have ht : TurnedProblem S (mirrored ![true, false]) ⟨S.order, S.localOrder, S.localRule, S.matrixRule, S.loadRule⟩ B B P P := by
    refine ⟨hperm _ _ (count_injective _), hperm _ _ (count_injective _), hrule, hrule, .refl _, fun x => ?_, fun _ => rfl, fun _ => rfl,
      fun _ => rfl, hborder _, hborder _, .refl _, fun _ => .refl _⟩
    ext i j
    fin_cases i <;> fin_cases j
    · rfl
    · rfl
    · rfl
    · rfl
  obtain ⟨mach, hw, u, res, hr⟩ := C82_run_exists S B P hu fun x v => (one_mulVec v).symm
  refine ⟨B, mach, u, res, hr, fun g g' h0 h1 => (C90_symmetric S ![true, false] B P ht hu mach hw u res hr).1 g g' fun i => ?_⟩
  fin_cases i
  · exact h0
  · exact h1

/-! ## Boundaries of the program -/

/-- A face of a cell in the new coordinates. -/
def turnedFace {n : ℕ} (T : Turn (n + 1)) (f : Boundary.Face (n + 1)) : Boundary.Face (n + 1) :=
  (T.axis.symm f.1, (T.mirror (T.axis.symm f.1)) ^^ f.2)

/-- A point of a quadrature rule of the reference face, on face `f`, in the new coordinates. -/
def turnFaceRule {n : ℕ} (T : Turn (n + 1)) (f : Boundary.Face (n + 1)) (q : FaceRulePoint n R) : FaceRulePoint n R :=
  ⟨fun m => T.point 0 1 (f.1.insertNth 0 q.pos) ((turnedFace T f).1.succAbove m), q.weight⟩

omit [LinearOrder R] [IsStrictOrderedRing R] in
theorem facePoints_turn {n : ℕ} (T : Turn (n + 1)) (width : Fin (n + 1) → R) (hw : ∀ i, width i ≠ 0) (rule rule' : List (FaceRulePoint n R))
    (f : Boundary.Face (n + 1)) (hr : rule'.Perm (rule.map (turnFaceRule T f))) {cells : Fin (n + 1) → ℕ} (j : CellIndex cells) :
    (facePoints (fun i => width (T.axis i)) rule' (T.count j) (turnedFace T f)).Perm ((facePoints width rule j f).map (turnFace T)) := by
  unfold facePoints
  refine (hr.map _).trans ?_
  rw [List.map_map, List.map_map]
  refine List.Perm.of_eq (List.map_congr_left fun q _ => ?_)
  simp only [Function.comp_apply, turnFace, turnFaceRule]
  congr 1
  · funext l
    rcases eq_or_ne l (turnedFace T f).1 with rfl | hl
    · rw [Fin.insertNth_apply_same]
      have e : T.axis (turnedFace T f).1 = f.1 := T.axis.apply_symm_apply f.1
      simp only [Turn.point, e, Fin.insertNth_apply_same, Pi.zero_apply, Pi.one_apply]
      simp only [turnedFace]
      by_cases hm : T.mirror (T.axis.symm f.1) = true <;> by_cases hb : f.2 = true <;> simp [hm, hb]
    · obtain ⟨m, rfl⟩ := Fin.exists_succAbove_eq hl
      rw [Fin.insertNth_apply_succAbove]
      have hne : T.axis ((turnedFace T f).1.succAbove m) ≠ f.1 := fun h => hl (T.axis.injective (h.trans (T.axis.apply_symm_apply _).symm))
      obtain ⟨m', hm'⟩ := Fin.exists_succAbove_eq hne
      simp only [Turn.point, ← hm', Fin.insertNth_apply_succAbove]
  · congr 1
    have h1 := Fin.prod_univ_succAbove (fun i => width (T.axis i)) (turnedFace T f).1
    have h2 := Fin.prod_univ_succAbove width f.1
    rw [Equiv.prod_comp T.axis width, h2, show T.axis (turnedFace T f).1 = f.1 from T.axis.apply_symm_apply f.1] at h1
    exact (mul_left_cancel₀ (hw f.1) h1).symm

theorem turnedFace_injective {n : ℕ} (T : Turn (n + 1)) : Function.Injective (turnedFace T) := by
  rintro ⟨i, b⟩ ⟨i', b'⟩ h
  have h1 : i = i' := T.axis.symm.injective (congrArg Prod.fst h)
  subst h1
  have h2 := congrArg Prod.snd h
  simp only [turnedFace, Bool.xor_right_inj] at h2
  rw [h2]

theorem intersections_perm {n : ℕ} (T : Turn (n + 1)) : (intersections n).Perm ((intersections n).map (turnedFace T)) := by
  have hn : (intersections n).Nodup := by
    unfold intersections
    rw [List.nodup_flatMap]
    refine ⟨fun i _ => by simp, ?_⟩
    refine List.Pairwise.imp ?_ (List.nodup_finRange (n + 1))
    intro i j hij
    simp [Function.onFun, List.disjoint_left, hij]
  have hc : ∀ f, f ∈ intersections n := by
    rintro ⟨i, b⟩
    unfold intersections
    rw [List.mem_flatMap]
    exact ⟨i, List.mem_finRange i, by cases b <;> simp⟩
  rw [List.perm_ext_iff_of_nodup hn (hn.map (turnedFace_injective T))]
  intro f
  refine ⟨fun _ => ?_, fun _ => hc f⟩
  obtain ⟨f', rfl⟩ := (Finite.injective_iff_surjective.mp (turnedFace_injective T)) f
  exact List.mem_map_of_mem (hc f')

omit [LinearOrder R] [IsStrictOrderedRing R] in
theorem walkFaces_turn {n : ℕ} (T : Turn (n + 1)) (width : Fin (n + 1) → R) (hw : ∀ i, width i ≠ 0) (rule rule' : List (FaceRulePoint n R))
    (hr : ∀ f, rule'.Perm (rule.map (turnFaceRule T f))) {cells : Fin (n + 1) → ℕ} (order : List (CellIndex cells))
    (order' : List (CellIndex fun i => cells (T.axis i))) (ho : order'.Perm (order.map T.count))
    (which : CellIndex cells → Boundary.Face (n + 1) → Bool) (which' : CellIndex (fun i => cells (T.axis i)) → Boundary.Face (n + 1) → Bool)
    (hwhich : ∀ j f, which' (T.count j) (turnedFace T f) = which j f) :
    (walkFaces (fun i => width (T.axis i)) rule' order' which').Perm ((walkFaces width rule order which).map (turnFace T)) := by
  unfold walkFaces
  rw [List.map_flatMap]
  refine (ho.flatMap_right _).trans ?_
  rw [List.flatMap_map]
  refine List.Perm.flatMap_left _ fun j _ => ?_
  rw [List.map_flatMap]
  refine (((intersections_perm T).filter (which' (T.count j))).flatMap_right _).trans ?_
  rw [List.filter_map, List.flatMap_map, show which' (T.count j) ∘ turnedFace T = which j from funext fun f => hwhich j f]
  exact List.Perm.flatMap_left _ fun f _ => facePoints_turn T width hw rule rule' f (hr f) j

theorem constrainedNode_turn {n : ℕ} (T : Turn (n + 1)) (close : (Fin (n + 1) → ℚ) → (Fin (n + 1) → ℚ) → Bool)
    (info info' : Boundary.Info (n + 1)) (normal : Boundary.Face (n + 1) → Fin (n + 1) → ℚ)
    (hi : ∀ f, info'.dirichlet close (normal (turnedFace T f)) = info.dirichlet close (normal f)) (cells : Fin (n + 1) → ℕ) (g : Node cells) :
    Boundary.constrainedNode close info' normal (fun i => cells (T.axis i)) (fun i => ((T.count (n := fun i => cells i + 1) g) i).1) =
      Boundary.constrainedNode close info normal cells fun i => (g i).1 := by
  unfold Boundary.constrainedNode
  rw [Bool.eq_iff_iff, List.any_eq_true, List.any_eq_true]
  simp only [List.mem_finRange, true_and]
  refine Iff.trans (exists_congr fun i => ?_) T.axis.surjective.exists.symm
  have h0 := hi (T.axis i, false)
  have h1 := hi (T.axis i, true)
  simp only [turnedFace, Equiv.symm_apply_apply] at h0 h1
  simp only [Turn.count]
  by_cases hm : T.mirror i = true
  · simp only [hm, if_true, Bool.xor_false, Bool.xor_true, Bool.not_true] at h0 h1 ⊢
    simp only [h0, h1, Fin.val_rev, Bool.or_eq_true, Bool.and_eq_true, beq_iff_eq]
    have := (g (T.axis i)).2
    constructor
    · rintro (⟨a, b⟩ | ⟨a, b⟩)
      · exact Or.inr ⟨by omega, b⟩
      · exact Or.inl ⟨by omega, b⟩
    · rintro (⟨a, b⟩ | ⟨a, b⟩)
      · exact Or.inr ⟨by omega, b⟩
      · exact Or.inl ⟨by omega, b⟩
  · simp only [hm] at h0 h1 ⊢
    simp only [Bool.false_xor] at h0 h1
    rw [h0, h1]
    rfl

/-- **C90** (boundaries of the program) The boundary of the turned problem is described by turned boundary infos and rules on the faces that
are symmetric: constraints and points of the face functionals are then those of the first problem in new coordinates. -/
theorem C90_boundary {n : ℕ} (S : Setup (n + 1) R) (hS : S.Admissible) (T : Turn (n + 1)) (W : Walk S T)
    (close : (Fin (n + 1) → ℚ) → (Fin (n + 1) → ℚ) → Bool) (info info' subInfo subInfo' : Boundary.Info (n + 1))
    (normal : Boundary.Face (n + 1) → Fin (n + 1) → ℚ) (rule rule' localRule localRule' : List (FaceRulePoint n R)) (P P' : Data (n + 1) R)
    (hi : ∀ f, info'.dirichlet close (normal (turnedFace T f)) = info.dirichlet close (normal f))
    (hin : ∀ f, info'.neumann close (normal (turnedFace T f)) = info.neumann close (normal f))
    (hsi : ∀ f, subInfo'.dirichlet close (normal (turnedFace T f)) = subInfo.dirichlet close (normal f))
    (hr : ∀ f, rule'.Perm (rule.map (turnFaceRule T f))) (hlr : ∀ f, localRule'.Perm (localRule.map (turnFaceRule T f)))
    (order : W.order.Perm (S.order.map T.count)) (localOrder : W.localOrder.Perm (S.localOrder.map T.count))
    (h1 : W.localRule.Perm (S.localRule.map (turnQ T))) (h2 : W.matrixRule.Perm (S.matrixRule.map (turnQ T)))
    (h3 : W.loadRule.Perm (S.loadRule.map (turnQ T)))
    (diffusion : ∀ x, P'.diffusion (T.point S.lower (upper S) x) = T.tensor (P.diffusion x))
    (source : ∀ x, P'.source (T.point S.lower (upper S) x) = P.source x)
    (neumann : ∀ x, P'.neumann (T.point S.lower (upper S) x) = P.neumann x)
    (dirichlet : ∀ x, P'.dirichlet (T.point S.lower (upper S) x) = P.dirichlet x) :
    TurnedProblem S T W (boundaryOf S close info subInfo normal rule localRule)
      (boundaryOf (turnedSetup S T W) close info' subInfo' normal rule' localRule') P P' where
  order := order
  localOrder := localOrder
  localRule := h1
  matrixRule := h2
  loadRule := h3
  diffusion := diffusion
  source := source
  neumann := neumann
  dirichlet := dirichlet
  isDirichlet g := constrainedNode_turn T close info info' normal hi S.cells g
  constrained v := constrainedNode_turn T close subInfo subInfo' normal hsi S.micro v
  faces := by
    refine walkFaces_turn T S.width (fun i => (hS.width_pos i).ne') rule rule' hr S.order W.order order _ _ fun j f => ?_
    simp only [neumannIntersections, hin]
    congr 1
    obtain ⟨i, b⟩ := f
    obtain ⟨i, rfl⟩ := T.axis.surjective i
    rw [show turnedFace T (T.axis i, b) = (i, (T.mirror i) ^^ b) by simp only [turnedFace, Equiv.symm_apply_apply]]
    simp only [isBoundary, Turn.count]
    have := (j (T.axis i)).2
    by_cases hm : T.mirror i = true <;> cases b <;> simp only [hm] <;> rw [Bool.eq_iff_iff] <;> simp [Fin.val_rev] <;> omega
  localFaces J := walkFaces_turn T S.localWidth (fun i => (localWidth_pos S hS i).ne') localRule localRule' hlr S.localOrder W.localOrder
    localOrder _ _ fun _ _ => rfl

end Verif.Pipeline

namespace Verif.FemSolver
open Matrix Verif.CoarseAssembly Verif.LocalAssembly Verif.LocalSolve Verif.Q1Grid Verif.DirichletSolve Verif.Spec.Dirichlet
open Verif.Spec.Turning Verif.Pipeline

variable {d : ℕ} {R : Type} [Field R]

/-- The grid in the new coordinates. -/
abbrev turnedGrid (G : Grid d R) (T : Turn d) (order : List (CellIndex fun i => G.cells (T.axis i))) (matrixRule loadRule : List (QPoint d R)) :
    Grid d R where
  lower i := G.lower (T.axis i)
  width i := G.width (T.axis i)
  cells i := G.cells (T.axis i)
  order := order
  matrixRule := matrixRule
  loadRule := loadRule

/-- Upper corner of the domain. -/
def Grid.top (G : Grid d R) : Fin d → R := fun i => G.lower i + (G.cells i : R) * G.width i

section
variable (G : Grid d R) (T : Turn d) (order : List (CellIndex fun i => G.cells (T.axis i))) (matrixRule loadRule : List (QPoint d R))

theorem position_turn (j : CellIndex G.cells) (x : Fin d → R) :
    position (turnedGrid G T order matrixRule loadRule) (T.count j) (T.point 0 1 x) = T.point G.lower G.top (position G j x) := by
  funext i
  simp only [position, Turn.point, Turn.count, Grid.top, Pi.zero_apply, Pi.one_apply]
  split_ifs
  · rw [Fin.val_rev, Nat.cast_sub (by omega)]
    push_cast
    ring
  · rfl

theorem slope_turn (u : Node G.cells → R) (u' : Node (turnedGrid G T order matrixRule loadRule).cells → R)
    (hu : ∀ g, u' (T.count (n := fun i => G.cells i + 1) g) = u g) (j : CellIndex G.cells) (x : Fin d → R) :
    slope (turnedGrid G T order matrixRule loadRule) u' (T.count j) (T.point 0 1 x) = T.vector (slope G u j x) := by
  rw [← gradOf_slope G [], ← gradOf_slope (turnedGrid G T order matrixRule loadRule) []]
  exact gradOf_turn T _ _ G.width _ _ u u' hu j x

theorem bilinear_turn (hr : matrixRule.Perm (G.matrixRule.map (turnQ T))) (diffusion diffusion' : (Fin d → R) → Matrix (Fin d) (Fin d) R)
    (hA : ∀ x, diffusion' (T.point G.lower G.top x) = T.tensor (diffusion x)) (u v : Node G.cells → R)
    (u' v' : Node (turnedGrid G T order matrixRule loadRule).cells → R) (hu : ∀ g, u' (T.count (n := fun i => G.cells i + 1) g) = u g)
    (hv : ∀ g, v' (T.count (n := fun i => G.cells i + 1) g) = v g) :
    bilinear (turnedGrid G T order matrixRule loadRule) diffusion' u' v' = bilinear G diffusion u v := by
  unfold bilinear
  rw [← (count_bijective T).sum_comp]
  refine Finset.sum_congr rfl fun j _ => ?_
  rw [(hr.map _).sum_eq, List.map_map]
  refine congrArg List.sum (List.map_congr_left fun q _ => ?_)
  simp only [Function.comp_apply, turnQ]
  rw [position_turn, hA, slope_turn G T order matrixRule loadRule u u' hu, slope_turn G T order matrixRule loadRule v v' hv, form_turn,
    Equiv.prod_comp T.axis G.width]

theorem volume_turn (hr : loadRule.Perm (G.loadRule.map (turnQ T))) (f f' : (Fin d → R) → R)
    (hf : ∀ x, f' (T.point G.lower G.top x) = f x) (v : Node G.cells → R)
    (v' : Node (turnedGrid G T order matrixRule loadRule).cells → R) (hv : ∀ g, v' (T.count (n := fun i => G.cells i + 1) g) = v g) :
    volume (turnedGrid G T order matrixRule loadRule) f' v' = volume G f v := by
  unfold volume
  rw [← (count_bijective T).sum_comp]
  refine Finset.sum_congr rfl fun j _ => ?_
  rw [(hr.map _).sum_eq, List.map_map]
  refine congrArg List.sum (List.map_congr_left fun q _ => ?_)
  simp only [Function.comp_apply, turnQ]
  rw [position_turn, hf, valueOf_turn T v v' hv, Equiv.prod_comp T.axis G.width]

end

variable [LinearOrder R] [IsStrictOrderedRing R]

/-- **C90** (reference solution) The same for the reference solution. -/
theorem C90_reference (G : Grid d R) (hG : G.Complete) (hw : ∀ i, 0 < G.width i) (hcells : ∀ i, 0 < G.cells i)
    (hR : Resolving G.matrixRule) (T : Turn d) (order : List (CellIndex fun i => G.cells (T.axis i))) (matrixRule loadRule : List (QPoint d R))
    (hG' : (turnedGrid G T order matrixRule loadRule).Complete) (hm : matrixRule.Perm (G.matrixRule.map (turnQ T)))
    (hl : loadRule.Perm (G.loadRule.map (turnQ T))) (diffusion diffusion' : (Fin d → R) → Matrix (Fin d) (Fin d) R)
    (hpd : Definite diffusion) (hA : ∀ x, diffusion' (T.point G.lower G.top x) = T.tensor (diffusion x)) (f f' : (Fin d → R) → R)
    (hf : ∀ x, f' (T.point G.lower G.top x) = f x) (neumann data : Node G.cells → R)
    (neumann' data' : Node (turnedGrid G T order matrixRule loadRule).cells → R)
    (hN : ∀ g, neumann' (T.count (n := fun i => G.cells i + 1) g) = neumann g)
    (hd : ∀ g, data' (T.count (n := fun i => G.cells i + 1) g) = data g) (D : Node G.cells → Bool)
    (D' : Node (turnedGrid G T order matrixRule loadRule).cells → Bool) (hDD : ∀ g, D' (T.count (n := fun i => G.cells i + 1) g) = D g)
    (hD : ∃ g, D g = true) (s : Solver (Node G.cells) R) (s' : Solver (Node (turnedGrid G T order matrixRule loadRule).cells) R)
    (hs : s.Correct) (hs' : s'.Correct) (old u : Node G.cells → R) (old' u' : Node (turnedGrid G T order matrixRule loadRule).cells → R)
    (hr : G.apply true s diffusion f neumann data D old = .ok u)
    (hr' : (turnedGrid G T order matrixRule loadRule).apply true s' diffusion' f' neumann' data' D' old' = .ok u') :
    ∀ g : Node G.cells, u' (T.count (n := fun i => G.cells i + 1) g) = u g := by
  have h1 := C76_galerkin G hG s hs diffusion f neumann data D old u hr
  have h2 := C76_galerkin _ hG' s' hs' diffusion' f' neumann' data' D' old' u' hr'
  have h3 : IsGalerkin G diffusion f neumann data D (fun g => u' (T.count (n := fun i => G.cells i + 1) g)) := by
    refine ⟨fun g hg => ?_, fun v hv => ?_⟩
    · rw [h2.boundary _ (by rw [hDD]; exact hg), hd]
    · have e := fun g => congrArg v ((countEquiv T (n := fun i => G.cells i + 1)).symm_apply_apply g)
      have h4 := h2.equation (fun g => v ((countEquiv T (n := fun i => G.cells i + 1)).symm g)) fun g hg => by
        obtain ⟨g, rfl⟩ := (countEquiv T (n := fun i => G.cells i + 1)).surjective g
        rw [e]
        exact hv g (by rw [← hDD]; exact hg)
      rw [bilinear_turn G T order matrixRule loadRule hm diffusion diffusion' hA _ v u' _ (fun _ => rfl) e,
        volume_turn G T order matrixRule loadRule hl f f' hf v _ e, ← (countEquiv T (n := fun i => G.cells i + 1)).sum_comp] at h4
      rw [h4]
      refine congrArg _ (Finset.sum_congr rfl fun g _ => ?_)
      rw [e, countEquiv_apply, hN]
  obtain ⟨w, hw', -⟩ := C76_unique G hG hw hcells hR diffusion hpd f neumann data D hD
  have := (hw' _).mp h3
  rw [← (hw' u).mp h1] at this
  exact fun g => congrFun this g

end Verif.FemSolver
