import Verif.Props.Pipeline
import Verif.Props.NeumannFaces

/-!
# C88: origin and unit of length
-/

namespace Verif.Spec.Units
open Matrix

variable {d : ℕ} {R : Type} [Field R]

/-- Coordinates with another origin and another unit in every direction. -/
def move (a c x : Fin d → R) : Fin d → R := fun i => a i + c i * x i

/-- Diffusion tensor in the new coordinates. -/
def moveTensor (c : Fin d → R) (A : Matrix (Fin d) (Fin d) R) : Matrix (Fin d) (Fin d) R := Matrix.of fun i j => c i * c j * A i j

end Verif.Spec.Units

namespace Verif.Pipeline
open Matrix Verif.CoarseAssembly Verif.LocalAssembly Verif.LocalSolve Verif.Q1Grid Verif.DirichletSolve Verif.Spec.Dirichlet
open Verif.Spec.Galerkin Verif.Spec.Units

variable {d : ℕ} {R : Type} [Field R]

/-- The grids in the new coordinates. -/
abbrev movedSetup (S : Setup d R) (a c : Fin d → R) : Setup d R :=
  { S with lower := move a c S.lower, width := fun i => c i * S.width i }

/-- The same point of a face functional in both coordinates: same cell and reference position; weight times integration element times
Neumann data is multiplied by the ratio of the volumes, as the source term. -/
structure SamePoint {cells : Fin d → ℕ} (κ : R) (lower width lower' width' : Fin d → R) (g g' : (Fin d → R) → R)
    (p p' : FacePoint d cells R) : Prop where
  cell : p'.cell = p.cell
  pos : p'.pos = p.pos
  value : p'.weight * g' (globalPos lower' width' p'.cell p'.pos) = κ * (p.weight * g (globalPos lower width p.cell p.pos))

/-- The same problem in new coordinates; diffusion, source and Neumann data are multiplied by `r`. -/
structure SameProblem (S : Setup d R) (a c : Fin d → R) (r : R) (B : Boundary S) (B' : Boundary (movedSetup S a c)) (P P' : Data d R) : Prop where
  diffusion : ∀ x, P'.diffusion (move a c x) = r • moveTensor c (P.diffusion x)
  source : ∀ x, P'.source (move a c x) = r * P.source x
  dirichlet : ∀ x, P'.dirichlet (move a c x) = P.dirichlet x
  isDirichlet : B'.isDirichlet = B.isDirichlet
  constrained : B'.constrained = B.constrained
  faces : List.Forall₂ (SamePoint (r * ∏ i, c i) S.lower S.width (movedSetup S a c).lower (movedSetup S a c).width P.neumann P'.neumann)
    B.faces B'.faces
  localFaces : ∀ J, List.Forall₂ (SamePoint (r * ∏ i, c i) (S.cellLower J) S.localWidth ((movedSetup S a c).cellLower J)
    (movedSetup S a c).localWidth P.neumann P'.neumann) (B.localFaces J) (B'.localFaces J)

/-! ## Terms at one point -/

/-- the sample in new coordinates -/
def moveSample {n : ℕ} {G : Type} (r κ : R) (c : Fin d → R) (s : Sample d n G R) : Sample d n G R :=
  { s with weight := κ * s.weight, tensor := r • moveTensor c s.tensor, source := r * s.source, grad := fun k i => s.grad k i / c i, lifting := fun i => s.lifting i / c i }

theorem move_form (c : Fin d → R) (hc : ∀ i, c i ≠ 0) (A : Matrix (Fin d) (Fin d) R) (v w : Fin d → R) :
    (moveTensor c A *ᵥ fun i => v i / c i) ⬝ᵥ (fun i => w i / c i) = (A *ᵥ v) ⬝ᵥ w := by
  simp only [dotProduct, mulVec, moveTensor, Matrix.of_apply]
  refine Finset.sum_congr rfl fun i _ => ?_
  rw [Finset.sum_mul, Finset.sum_mul]
  refine Finset.sum_congr rfl fun j _ => ?_
  have := hc i
  have := hc j
  field_simp

theorem stiffness_move {n : ℕ} {G : Type} [DecidableEq G] (r κ : R) (c : Fin d → R) (hc : ∀ i, c i ≠ 0) (l : List (Sample d n G R)) (a b : G) :
    stiffness (l.map (moveSample r κ c)) a b = r * κ * stiffness l a b := by
  unfold stiffness
  rw [List.map_map, ← List.sum_map_mul_left]
  refine congrArg List.sum (List.map_congr_left fun s _ => ?_)
  simp only [Function.comp_apply, Finset.mul_sum]
  refine Finset.sum_congr rfl fun i _ => Finset.sum_congr rfl fun j _ => ?_
  rw [mul_ite, mul_zero]
  refine if_congr Iff.rfl ?_ rfl
  show κ * s.weight * (((r • moveTensor c s.tensor) *ᵥ fun i => s.grad j i / c i) ⬝ᵥ fun l => s.grad i l / c l) = _
  rw [smul_mulVec, smul_dotProduct, move_form c hc, smul_eq_mul]
  ring

theorem load_move {n : ℕ} {G : Type} [DecidableEq G] (r κ : R) (c : Fin d → R) (hc : ∀ i, c i ≠ 0) (l : List (Sample d n G R)) (a : G) :
    load (l.map (moveSample r κ c)) a = r * κ * load l a := by
  unfold load
  rw [List.map_map, ← List.sum_map_mul_left]
  refine congrArg List.sum (List.map_congr_left fun s _ => ?_)
  simp only [Function.comp_apply, Finset.mul_sum]
  refine Finset.sum_congr rfl fun i _ => ?_
  rw [mul_ite, mul_zero]
  refine if_congr Iff.rfl ?_ rfl
  show κ * s.weight * (r * s.source * s.val i - ((r • moveTensor c s.tensor) *ᵥ fun l => s.lifting l / c l) ⬝ᵥ fun l => s.grad i l / c l) = _
  rw [smul_mulVec, smul_dotProduct, move_form c hc, smul_eq_mul]
  ring

/-! ## Positions -/

theorem cellLower_move (S : Setup d R) (a c : Fin d → R) (J : CellIndex S.cells) :
    (movedSetup S a c).cellLower J = move a c (S.cellLower J) := by
  funext i
  simp only [Setup.cellLower, move]
  ring

theorem localWidth_move (S : Setup d R) (a c : Fin d → R) (i : Fin d) : (movedSetup S a c).localWidth i = c i * S.localWidth i := by
  simp only [Setup.localWidth]
  ring

theorem globalPos_move (S : Setup d R) (a c : Fin d → R) (J : CellIndex S.cells) (j : CellIndex S.micro) (x : Fin d → R) :
    globalPos ((movedSetup S a c).cellLower J) (movedSetup S a c).localWidth j x = move a c (globalPos (S.cellLower J) S.localWidth j x) := by
  funext i
  simp only [globalPos, cellLower_move, localWidth_move, move]
  ring

theorem nodePos_move (S : Setup d R) (a c : Fin d → R) (g : Node S.cells) :
    nodePos (movedSetup S a c) g = move a c (nodePos S g) := by
  funext i
  simp only [nodePos, move]
  ring

theorem prod_localWidth_move (S : Setup d R) (a c : Fin d → R) :
    ∏ i, (movedSetup S a c).localWidth i = (∏ i, c i) * ∏ i, S.localWidth i := by
  rw [← Finset.prod_mul_distrib]
  exact Finset.prod_congr rfl fun i _ => localWidth_move S a c i

section problem
variable {S : Setup d R} {a c : Fin d → R} {r : R} {B : Boundary S} {B' : Boundary (movedSetup S a c)} {P P' : Data d R}
  (h : SameProblem S a c r B B' P P')
include h

theorem localStiff_move (hc : ∀ i, c i ≠ 0) (J : CellIndex S.cells) :
    localStiff (movedSetup S a c) B' P' J = (r * ∏ i, c i) • localStiff S B P J := by
  ext i j
  have hs : samples P'.diffusion (localCell (movedSetup S a c) B' P' J).elements =
      (samples P.diffusion (localCell S B P J).elements).map (moveSample r (∏ i, c i) c) := by
    simp only [samples, localCell, Setup.cell, List.map_flatMap, List.flatMap_map, List.map_map]
    refine List.flatMap_congr fun e _ => ?_
    simp only [element, scaleRule, List.map_map]
    refine List.map_congr_left fun q _ => ?_
    have hp := globalPos_move S a c J e q.pos
    unfold globalPos at hp
    simp only [Function.comp_apply, moveSample, hp, h.diffusion, zero_div, mul_zero, Pi.zero_apply]
    congr 1
    · rw [prod_localWidth_move]
      ring
    · funext k l
      rw [localWidth_move, mul_comm (c l), div_div]
  rw [Matrix.smul_apply, smul_eq_mul, localStiff, localStiff, stiff, stiff, Matrix.of_apply, Matrix.of_apply, hs, stiffness_move _ _ c hc]

theorem localExtension_move (J : CellIndex S.cells) : localExtension (movedSetup S a c) B' P' J = localExtension S B P J := by
  funext k
  simp only [localExtension, dirichletProject, h.isDirichlet, nodePos_move, h.dirichlet]

theorem localNeumann_move (J : CellIndex S.cells) :
    localNeumann (movedSetup S a c) B' P'.neumann J = (r * ∏ i, c i) • localNeumann S B P.neumann J := by
  funext node
  rw [Pi.smul_apply, smul_eq_mul, localNeumann_apply, localNeumann_apply, ← List.sum_map_mul_left]
  have := h.localFaces J
  generalize B.localFaces J = l, B'.localFaces J = l' at this ⊢
  induction this with
  | nil => rfl
  | cons hp _ ih =>
    simp only [List.map_cons, List.sum_cons, ih]
    congr 1
    rw [Finset.mul_sum]
    refine Finset.sum_congr rfl fun k _ => ?_
    rw [hp.value, hp.cell, hp.pos, mul_ite, mul_zero]
    refine if_congr Iff.rfl ?_ rfl
    ring

theorem femNeumann_move : femNeumann (movedSetup S a c) (neumannPoints (movedSetup S a c) B' P'.neumann) =
    (r * ∏ i, c i) • femNeumann S (neumannPoints S B P.neumann) := by
  funext node
  simp only [Pi.smul_apply, smul_eq_mul, femNeumann, neumannPoints, List.map_map]
  rw [← List.sum_map_mul_left]
  have := h.faces
  generalize B.faces = l, B'.faces = l' at this ⊢
  induction this with
  | nil => rfl
  | cons hp _ ih =>
    simp only [List.map_cons, List.sum_cons, ih]
    congr 1
    simp only [Function.comp_apply, Finset.mul_sum]
    refine Finset.sum_congr rfl fun k _ => ?_
    rw [hp.value, hp.cell, hp.pos, mul_ite, mul_zero]
    refine if_congr Iff.rfl ?_ rfl
    ring

omit h in
theorem grad_move (v : Node S.micro → R) (J : CellIndex S.cells) (j : CellIndex S.micro) (x : Fin d → R) :
    grad (movedSetup S a c) v J j x = fun i => grad S v J j x i / c i := by
  funext i
  simp only [grad, element_gradOf, localWidth_move]
  rw [mul_comm (c i), div_div]

theorem samples_move (rule : List (QPoint d R)) (f f' : (Fin d → R) → R) (hf : ∀ x, f' (move a c x) = r * f x)
    (Q : CellIndex S.cells → Fin (2 ^ d) → Node S.micro → R) (qN qD : CellIndex S.cells → Node S.micro → R) :
    (points (movedSetup S a c) rule).map (sampleAt (movedSetup S a c) P'.diffusion f' Q qN qD) =
      ((points S rule).map (sampleAt S P.diffusion f Q qN qD)).map (moveSample r (∏ i, c i) c) := by
  rw [List.map_map]
  refine List.map_congr_left fun t _ => ?_
  simp only [Function.comp_apply, moveSample, sampleAt, globalPos_move, h.diffusion, hf, prod_localWidth_move, grad_move]
  congr 1
  · ring
  · funext k i
    simp only [Pi.add_apply]
    rw [mul_comm (c i), ← div_div, add_div]
  · funext i
    simp only [Pi.sub_apply, sub_div]

variable [LinearOrder R] [IsStrictOrderedRing R]

omit [IsStrictOrderedRing R] in
theorem computed_move (hc : ∀ i, 0 < c i) (hx : ∀ x v, P.flux x v = P.diffusion x *ᵥ v) (hx' : ∀ x v, P'.flux x v = P'.diffusion x *ᵥ v)
    {Q : CellIndex S.cells → Fin (2 ^ d) → Node S.micro → R} {qN qD : CellIndex S.cells → Node S.micro → R} {u : Node S.cells → R}
    {fine : CellIndex S.cells → Node S.micro → R} (hcomp : Computed S B P Q qN qD u fine) :
    Computed (movedSetup S a c) B' P' Q qN qD u fine := by
  have hc0 : ∀ i, c i ≠ 0 := fun i => (hc i).ne'
  refine ⟨fun J => ⟨fun k => ?_, (hcomp.corrector J).inside, fun hb => ?_, fun hb => ?_⟩, ?_, hcomp.fine_eq⟩
  · rw [localStiff_move h hc0, smul_mulVec, ← smul_neg, h.constrained]
    exact isSolution_scale _ ((hcomp.corrector J).inner k)
  · rw [localStiff_move h hc0, localNeumann_move h, h.constrained]
    exact isSolution_scale _ ((hcomp.corrector J).neumann hb)
  · rw [localStiff_move h hc0, smul_mulVec, ← smul_neg, h.constrained, localExtension_move h]
    exact isSolution_scale _ ((hcomp.corrector J).dirichlet hb)
  · have := isSolution_scale (r * ∏ i, c i) hcomp.coarse
    rw [coarseMatrix_points, coarseLoad_points S _ _ hx] at this
    rw [coarseMatrix_points, coarseLoad_points (movedSetup S a c) _ _ hx', samples_move h _ P.source P'.source h.source,
      samples_move h _ 0 0 (fun _ => (mul_zero r).symm), h.isDirichlet]
    convert this using 1
    · ext i j
      rw [Matrix.of_apply, stiffness_move _ _ c hc0]
      rfl
    · rw [femNeumann_move h, smul_add]
      congr 1
      funext i
      rw [load_move _ _ c hc0]
      rfl
    · funext g
      rw [nodePos_move, h.dirichlet]

end problem

variable [LinearOrder R] [IsStrictOrderedRing R]

theorem unique_move {S : Setup d R} {a c : Fin d → R} (hc : ∀ i, 0 < c i) {r : R} (hr0 : 0 < r) {B : Boundary S}
    {B' : Boundary (movedSetup S a c)} {P P' : Data d R} (h : SameProblem S a c r B B' P P') (hu : Unique S B P) :
    Unique (movedSetup S a c) B' P' := by
  refine ⟨⟨fun i => mul_pos (hc i) (hu.admissible.width_pos i), hu.admissible.cells_pos, hu.admissible.micro_pos,
    hu.admissible.order_complete, hu.admissible.localOrder_complete⟩, hu.nodup, hu.localRule, hu.matrixRule, fun y v hv => ?_,
    fun node hn => ?_, ?_⟩
  · obtain ⟨x, rfl⟩ : ∃ x, y = move a c x := ⟨fun i => (y i - a i) / c i, funext fun i => by
      have := (hc i).ne'
      simp only [move]
      field_simp
      ring⟩
    have hv' : (fun i => c i * v i) ≠ 0 := fun h0 => hv (funext fun i => by
      have := congrFun h0 i
      simpa [(hc i).ne'] using this)
    have := hu.definite x _ hv'
    rw [h.diffusion, smul_mulVec, smul_dotProduct, smul_eq_mul]
    rw [← move_form c (fun i => (hc i).ne')] at this
    have e : (fun i => c i * v i / c i) = v := funext fun i => by
      have := (hc i).ne'
      field_simp
    rw [e] at this
    exact mul_pos hr0 this
  · rw [h.constrained]
    exact hu.corners node hn
  · obtain ⟨g, hg⟩ := hu.dirichlet
    exact ⟨g, by rw [h.isDirichlet]; exact hg⟩

/-- **C88** Origin of the coordinates, units of length (also different ones in different directions), and the unit of the flux do not influence
the result of a run: same coefficients of the coarse solution, same values on the local grids. -/
theorem C88_same_run (S : Setup d R) (a c : Fin d → R) (hc : ∀ i, 0 < c i) (r : R) (hr0 : 0 < r) (B : Boundary S) (B' : Boundary (movedSetup S a c))
    (P P' : Data d R) (h : SameProblem S a c r B B' P P') (hu : Unique S B P) (m : Machine S) (m' : Machine (movedSetup S a c))
    (hm : Works S B P m) (hm' : Works (movedSetup S a c) B' P' m') (u u' : Node S.cells → R) (res res' : List (Node S.micro → R))
    (hr : apply S B P m = .ok (u, res)) (hr' : apply (movedSetup S a c) B' P' m' = .ok (u', res')) : u' = u ∧ res' = res := by
  have hu' := unique_move hc hr0 h hu
  obtain ⟨Q, qN, qD, fine, hcomp, rfl⟩ := apply_spec S hu.admissible hu.nodup B P m hm u res hr
  obtain ⟨Q', qN', qD', fine', hcomp', rfl⟩ := apply_spec _ hu'.admissible hu'.nodup B' P' m' hm' u' res' hr'
  obtain ⟨rfl, rfl⟩ := computed_unique _ B' P' hu' _ _ _ _ _ _ _ _ _ _ hcomp' (computed_move h hc hm.flux hm'.flux hcomp)
  exact ⟨rfl, rfl⟩

omit [LinearOrder R] [IsStrictOrderedRing R] in
theorem walkFaces_move {n : ℕ} (lower lower' width width' : Fin (n + 1) → R) (γ r : R) (hw : ∀ i, width' i = γ * width i)
    (rule : List (FaceRulePoint n R)) {cells : Fin (n + 1) → ℕ} (order : List (CellIndex cells))
    (which : CellIndex cells → Boundary.Face (n + 1) → Bool) (g g' : (Fin (n + 1) → R) → R)
    (hg : ∀ j x, g' (globalPos lower' width' j x) = r * γ * g (globalPos (cells := cells) lower width j x)) :
    List.Forall₂ (SamePoint (r * ∏ _i : Fin (n + 1), γ) lower width lower' width' g g') (walkFaces width rule order which)
      (walkFaces width' rule order which) := by
  unfold walkFaces
  refine List.rel_flatMap (R := Eq) (List.forall₂_eq_eq_eq ▸ rfl) fun j j' hj => ?_
  subst hj
  refine List.rel_flatMap (R := Eq) (List.forall₂_eq_eq_eq ▸ rfl) fun f f' hf => ?_
  subst hf
  unfold facePoints
  rw [List.forall₂_map_left_iff, List.forall₂_map_right_iff, List.forall₂_same]
  refine fun q _ => ⟨rfl, rfl, ?_⟩
  simp only [hg, hw, Finset.prod_mul_distrib, Finset.prod_const, Finset.card_univ, Fintype.card_fin]
  ring

omit [IsStrictOrderedRing R] [LinearOrder R] in
theorem sameProblem_unit {n : ℕ} (S : Setup (n + 1) R) (a : Fin (n + 1) → R) (γ : R) (hγ0 : γ ≠ 0)
    (close : (Fin (n + 1) → ℚ) → (Fin (n + 1) → ℚ) → Bool) (info subInfo : Boundary.Info (n + 1))
    (normal : Boundary.Face (n + 1) → Fin (n + 1) → ℚ) (rule localRule : List (FaceRulePoint n R)) (P P' : Data (n + 1) R)
    (hA : ∀ x, P'.diffusion (fun i => a i + γ * x i) = P.diffusion x) (hf : ∀ x, P'.source (fun i => a i + γ * x i) = P.source x / γ ^ 2)
    (hN : ∀ x, P'.neumann (fun i => a i + γ * x i) = P.neumann x / γ) (hD : ∀ x, P'.dirichlet (fun i => a i + γ * x i) = P.dirichlet x) :
    SameProblem S a (fun _ => γ) (1 / γ ^ 2) (boundaryOf S close info subInfo normal rule localRule)
      (boundaryOf (movedSetup S a fun _ => γ) close info subInfo normal rule localRule) P P' := by
  refine ⟨fun x => ?_, fun x => ?_, hD, rfl, rfl, ?_, fun J => ?_⟩
  · rw [show move a (fun _ => γ) x = fun i => a i + γ * x i from rfl, hA]
    ext i j
    rw [Matrix.smul_apply, moveTensor, Matrix.of_apply, smul_eq_mul]
    field_simp
  · rw [show move a (fun _ => γ) x = fun i => a i + γ * x i from rfl, hf]
    ring
  · refine walkFaces_move _ _ _ _ γ _ (fun i => rfl) rule _ _ _ _ fun j x => ?_
    have : globalPos (movedSetup S a fun _ => γ).lower (movedSetup S a fun _ => γ).width j x =
        fun i => a i + γ * globalPos S.lower S.width j x i := by
      funext i
      simp only [globalPos, move]
      ring
    rw [this, hN]
    field_simp
  · refine walkFaces_move _ _ _ _ γ _ (localWidth_move S a fun _ => γ) localRule _ _ _ _ fun j x => ?_
    rw [globalPos_move S a (fun _ => γ) J j x, show move a (fun _ => γ) = fun x i => a i + γ * x i from rfl, hN]
    field_simp

/-- **C88** (unit of length) If all lengths are given in another unit, `γ` times smaller than the old one, and another origin is used, and the
data are converted, i.e. the source is divided by `γ²`, the Neumann data by `γ`, then a run with the faces of the program has the same result. -/
theorem C88_unit {n : ℕ} (S : Setup (n + 1) R) (a : Fin (n + 1) → R) (γ : R) (hγ : 0 < γ)
    (close : (Fin (n + 1) → ℚ) → (Fin (n + 1) → ℚ) → Bool) (info subInfo : Boundary.Info (n + 1))
    (normal : Boundary.Face (n + 1) → Fin (n + 1) → ℚ) (rule localRule : List (FaceRulePoint n R)) (P P' : Data (n + 1) R)
    (hA : ∀ x, P'.diffusion (fun i => a i + γ * x i) = P.diffusion x) (hf : ∀ x, P'.source (fun i => a i + γ * x i) = P.source x / γ ^ 2)
    (hN : ∀ x, P'.neumann (fun i => a i + γ * x i) = P.neumann x / γ) (hD : ∀ x, P'.dirichlet (fun i => a i + γ * x i) = P.dirichlet x)
    (hu : Unique S (boundaryOf S close info subInfo normal rule localRule) P) (m : Machine S) (m' : Machine (movedSetup S a fun _ => γ))
    (hm : Works S (boundaryOf S close info subInfo normal rule localRule) P m)
    (hm' : Works _ (boundaryOf (movedSetup S a fun _ => γ) close info subInfo normal rule localRule) P' m')
    (u u' : Node S.cells → R) (res res' : List (Node S.micro → R))
    (hr : apply S (boundaryOf S close info subInfo normal rule localRule) P m = .ok (u, res))
    (hr' : apply _ (boundaryOf (movedSetup S a fun _ => γ) close info subInfo normal rule localRule) P' m' = .ok (u', res')) :
    u' = u ∧ res' = res := by
  have hγ0 := hγ.ne'
  exact C88_same_run S a (fun _ => γ) (fun _ => hγ) (1 / γ ^ 2) (by positivity) _ _ P P'
    (sameProblem_unit S a γ hγ0 close info subInfo normal rule localRule P P' hA hf hN hD) hu m m' hm hm' u u' res res' hr hr'

/-- Instance: a unit square with `N` by `N` coarse and `m` by `m` local cells in metres, and in millimetres with another origin, with any
source, Neumann and Dirichlet data; both runs succeed with the same result. -/
example (N m : ℕ) (hN : 0 < N) (hm : 0 < m) (close : (Fin 2 → ℚ) → (Fin 2 → ℚ) → Bool) (hc : Boundary.Tolerance close)
    (normal : Boundary.Face 2 → Fin 2 → ℚ) (hn : ∀ f, Boundary.Computed (normal f) f) (rule localRule : List (FaceRulePoint 1 ℚ))
    (f n g : (Fin 2 → ℚ) → ℚ) :
    let back : (Fin 2 → ℚ) → Fin 2 → ℚ := fun y i => (y i - 5) / 1000
    let P : Data 2 ℚ := ⟨fun _ => 1, fun _ v => v, f, n, g⟩
    let P' : Data 2 ℚ := ⟨fun _ => 1, fun _ v => v, fun y => f (back y) / 1000 ^ 2, fun y => n (back y) / 1000, fun y => g (back y)⟩
    let S' : Setup 2 ℚ := movedSetup (demoSetup 2 N m) (fun _ => 5) fun _ => 1000
    ∃ info subInfo, ∃ mach mach', ∃ u res, apply _ (boundaryOf (demoSetup 2 N m) close info subInfo normal rule localRule) P mach = .ok (u, res) ∧
      apply S' (boundaryOf S' close info subInfo normal rule localRule) P' mach' = .ok (u, res) := by
  intro back P P' S'
  obtain ⟨info, subInfo, -, -, hprob⟩ := C82_problems (R := ℚ) (Or.inl rfl) close hc .er2007 (by simp) normal hn
  have hu : Unique (demoSetup 2 N m) (boundaryOf (demoSetup 2 N m) close info subInfo normal rule localRule) P :=
    hprob _ (demo_admissible 2 N m hN hm) (Finset.nodup_toList _) (demo_resolving 2 N m) (demo_resolving 2 N m) P (demo_definite 2) _ _
  have hback : ∀ x : Fin 2 → ℚ, back (fun i => 5 + 1000 * x i) = x := fun x => by
    funext i
    simp [back]
  have hA : ∀ x : Fin 2 → ℚ, P'.diffusion (fun i => 5 + 1000 * x i) = P.diffusion x := fun _ => rfl
  have hf : ∀ x : Fin 2 → ℚ, P'.source (fun i => 5 + 1000 * x i) = P.source x / 1000 ^ 2 := fun x => by
    simp only [P', P, hback]
  have hn' : ∀ x : Fin 2 → ℚ, P'.neumann (fun i => 5 + 1000 * x i) = P.neumann x / 1000 := fun x => by
    simp only [P', P, hback]
  have hg : ∀ x : Fin 2 → ℚ, P'.dirichlet (fun i => 5 + 1000 * x i) = P.dirichlet x := fun x => by
    simp only [P', P, hback]
  have hs := sameProblem_unit (demoSetup 2 N m) (fun _ => 5) 1000 (by norm_num) close info subInfo normal rule localRule P P' hA hf hn' hg
  have hu' := unique_move (fun _ => by norm_num) (by norm_num) hs hu
  obtain ⟨mach, hw, u, res, hr⟩ := C82_run_exists _ _ P hu fun x v => (one_mulVec v).symm
  obtain ⟨mach', hw', u', res', hr'⟩ := C82_run_exists _ _ P' hu' fun x v => (one_mulVec v).symm
  obtain ⟨rfl, rfl⟩ := C88_unit (demoSetup 2 N m) (fun _ => 5) 1000 (by norm_num) close info subInfo normal rule localRule P P' hA hf hn' hg hu
    mach mach' hw hw' u u' res res' hr hr'
  exact ⟨info, subInfo, mach, mach', _, _, hr, hr'⟩

end Verif.Pipeline

namespace Verif.FemSolver
open Matrix Verif.CoarseAssembly Verif.LocalAssembly Verif.LocalSolve Verif.Q1Grid Verif.DirichletSolve Verif.Spec.Dirichlet
open Verif.Spec.Units Verif.Pipeline

variable {d : ℕ} {R : Type} [Field R]

/-- The grid in the new coordinates. -/
abbrev movedGrid (G : Grid d R) (a c : Fin d → R) : Grid d R :=
  { G with lower := move a c G.lower, width := fun i => c i * G.width i }

theorem position_move (G : Grid d R) (a c : Fin d → R) (j : CellIndex G.cells) (x : Fin d → R) :
    position (movedGrid G a c) j x = move a c (position G j x) := by
  funext i
  simp only [position, move]
  ring

theorem slope_move (G : Grid d R) (a c : Fin d → R) (u : Node G.cells → R) (j : CellIndex G.cells) (x : Fin d → R) :
    slope (movedGrid G a c) u j x = fun i => slope G u j x i / c i := by
  funext i
  simp only [slope]
  rw [mul_comm (c i), div_div]

theorem bilinear_move (G : Grid d R) (a c : Fin d → R) (hc : ∀ i, c i ≠ 0) (r : R)
    (diffusion diffusion' : (Fin d → R) → Matrix (Fin d) (Fin d) R) (hA : ∀ x, diffusion' (move a c x) = r • moveTensor c (diffusion x))
    (u v : Node G.cells → R) : bilinear (movedGrid G a c) diffusion' u v = (r * ∏ i, c i) * bilinear G diffusion u v := by
  simp only [bilinear, Finset.mul_sum]
  refine Finset.sum_congr rfl fun j _ => ?_
  rw [← List.sum_map_mul_left]
  refine congrArg List.sum (List.map_congr_left fun q _ => ?_)
  rw [position_move, hA, slope_move, slope_move, smul_mulVec, smul_dotProduct, move_form c hc, smul_eq_mul, Finset.prod_mul_distrib]
  ring

theorem volume_move (G : Grid d R) (a c : Fin d → R) (r : R) (f f' : (Fin d → R) → R) (hf : ∀ x, f' (move a c x) = r * f x)
    (v : Node G.cells → R) : volume (movedGrid G a c) f' v = (r * ∏ i, c i) * volume G f v := by
  simp only [volume, Finset.mul_sum]
  refine Finset.sum_congr rfl fun j _ => ?_
  rw [← List.sum_map_mul_left]
  refine congrArg List.sum (List.map_congr_left fun q _ => ?_)
  rw [position_move, hf, Finset.prod_mul_distrib]
  ring

variable [LinearOrder R] [IsStrictOrderedRing R]

/-- **C88** (reference solution) The same for the reference solution. -/
theorem C88_same_reference (G : Grid d R) (hG : G.Complete) (hw : ∀ i, 0 < G.width i) (hcells : ∀ i, 0 < G.cells i)
    (hR : Resolving G.matrixRule) (a c : Fin d → R) (hc : ∀ i, 0 < c i) (r : R) (hr0 : 0 < r)
    (diffusion diffusion' : (Fin d → R) → Matrix (Fin d) (Fin d) R)
    (hpd : Definite diffusion) (hA : ∀ x, diffusion' (move a c x) = r • moveTensor c (diffusion x)) (f f' : (Fin d → R) → R)
    (hf : ∀ x, f' (move a c x) = r * f x) (neumann neumann' data : Node G.cells → R) (hN : ∀ g, neumann' g = (r * ∏ i, c i) * neumann g)
    (D : Node G.cells → Bool) (hD : ∃ g, D g = true) (s s' : Solver (Node G.cells) R) (hs : s.Correct) (hs' : s'.Correct)
    (old old' u u' : Node G.cells → R) (hr : G.apply true s diffusion f neumann data D old = .ok u)
    (hr' : (movedGrid G a c).apply true s' diffusion' f' neumann' data D old' = .ok u') : u' = u := by
  have h1 := C76_galerkin G hG s hs diffusion f neumann data D old u hr
  have h2 := C76_galerkin (movedGrid G a c) ⟨hG.nodup, hG.complete⟩ s' hs' diffusion' f' neumann' data D old' u' hr'
  have hκ : r * (∏ i, c i) ≠ 0 := (mul_pos hr0 (Finset.prod_pos fun i _ => hc i)).ne'
  have h3 : IsGalerkin G diffusion f neumann data D u' := by
    refine ⟨h2.boundary, fun v hv => ?_⟩
    have h4 := h2.equation v hv
    rw [bilinear_move G a c (fun i => (hc i).ne') r diffusion diffusion' hA, volume_move G a c r f f' hf] at h4
    simp only [hN, mul_assoc (r * ∏ i, c i)] at h4
    rw [← Finset.mul_sum, ← mul_add] at h4
    exact mul_left_cancel₀ hκ h4
  obtain ⟨w, hw', -⟩ := C76_unique G hG hw hcells hR diffusion hpd f neumann data D hD
  rw [(hw' u').mp h3, (hw' u).mp h1]

end Verif.FemSolver
