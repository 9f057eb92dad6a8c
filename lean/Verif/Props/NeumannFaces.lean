import Verif.Model.NeumannFaces
import Verif.Props.Constants
import Verif.Props.Report

/-!
# C84: faces on which the Neumann data act
-/

namespace Verif.Pipeline
open Matrix Verif.CoarseAssembly Verif.LocalAssembly Verif.LocalSolve Verif.Q1Grid Verif.DirichletSolve Verif.Spec.Dirichlet
open Verif.Boundary (Face Info)

variable {n : ℕ} {R : Type} [Field R] [LinearOrder R] [IsStrictOrderedRing R]

/-! ## Specification -/

/-- Hat function of a node at a point, in units of cells. -/
def hatAt {d : ℕ} {cells : Fin d → ℕ} (node : Node cells) (y : Fin d → R) : R := ∏ l, max 0 (1 - |y l - ((node l).1 : R)|)

/-- Point `s` of face `f` of cell `j`, in units of cells. -/
def onFace {cells : Fin (n + 1) → ℕ} (j : CellIndex cells) (f : Face (n + 1)) (s : Fin n → R) : Fin (n + 1) → R :=
  f.1.insertNth (((j f.1).1 : R) + if f.2 then 1 else 0) fun m => ((j (f.1.succAbove m)).1 : R) + s m

/-- Integral of `g` times the hat function of a node over face `f` of cell `j` of a grid. -/
def faceIntegral (lower width : Fin (n + 1) → R) {cells : Fin (n + 1) → ℕ} (rule : List (FaceRulePoint n R))
    (g : (Fin (n + 1) → R) → R) (node : Node cells) (j : CellIndex cells) (f : Face (n + 1)) : R :=
  (rule.map fun q => q.weight * (∏ m : Fin n, width (f.1.succAbove m)) *
    g (fun l => lower l + onFace j f q.pos l * width l) * hatAt node (onFace j f q.pos)).sum

/-- Face `f` of local cell `j` in coarse cell `J` lies on the boundary of the domain. -/
def OnDomainBoundary (S : Setup (n + 1) R) (J : CellIndex S.cells) (j : CellIndex S.micro) (f : Face (n + 1)) : Prop :=
  if f.2 then (J f.1).1 + 1 = S.cells f.1 ∧ (j f.1).1 + 1 = S.micro f.1 else (J f.1).1 = 0 ∧ (j f.1).1 = 0

instance (S : Setup (n + 1) R) (J : CellIndex S.cells) (j : CellIndex S.micro) (f : Face (n + 1)) : Decidable (OnDomainBoundary S J j f) := by
  unfold OnDomainBoundary; infer_instance

/-- The Neumann term of the fine problem on coarse cell `J`, tested with the hat function of a local node: integral over the
faces of the domain boundary that are of Neumann type. -/
def neumannTerm (S : Setup (n + 1) R) (isNeumann : Face (n + 1) → Prop) [DecidablePred isNeumann] (rule : List (FaceRulePoint n R))
    (g : (Fin (n + 1) → R) → R) (J : CellIndex S.cells) (node : Node S.micro) : R :=
  ∑ j : CellIndex S.micro, ∑ f : Face (n + 1), if OnDomainBoundary S J j f ∧ isNeumann f then
    faceIntegral (S.cellLower J) S.localWidth rule g node j f else 0

/-! ## The functional of the local problems -/

theorem corner_sum {d : ℕ} {cells : Fin d → ℕ} (node : Node cells) (j : CellIndex cells) (x : Fin d → R)
    (hx : ∀ l, 0 ≤ x l ∧ x l ≤ 1) (c : R) :
    (∑ k : Fin (2 ^ d), if node = cornerNode j (corner k) then c * shape (corner k) x else 0) = c * hatAt node (fun l => ((j l).1 : R) + x l) := by
  have h := Report.cell_value (fun m => if node = m then c else 0) j (fun l => ((j l).1 : R) + x l)
    (fun l => ⟨by linarith [(hx l).1], by linarith [(hx l).2]⟩)
  simp only [valueOf, add_sub_cancel_left, ite_mul, zero_mul, Finset.sum_ite_eq, Finset.mem_univ, if_true] at h
  exact h

/-- Points of the rule lie in the closed reference face. -/
def InFace (rule : List (FaceRulePoint n R)) : Prop := ∀ q ∈ rule, ∀ m, 0 ≤ q.pos m ∧ q.pos m ≤ 1

omit [LinearOrder R] [IsStrictOrderedRing R] in
theorem onFace_eq {cells : Fin (n + 1) → ℕ} (j : CellIndex cells) (f : Face (n + 1)) (s : Fin n → R) (l : Fin (n + 1)) :
    ((j l).1 : R) + (f.1.insertNth (α := fun _ => R) (if f.2 then 1 else 0) s) l = onFace j f s l := by
  unfold onFace
  refine Fin.succAboveCases f.1 ?_ (fun m => ?_) l
  · rw [Fin.insertNth_apply_same, Fin.insertNth_apply_same]
  · rw [Fin.insertNth_apply_succAbove, Fin.insertNth_apply_succAbove]

theorem sum_flatMap {α β M : Type} [AddCommMonoid M] (l : List α) (f : α → List β) (h : β → M) :
    ((l.flatMap f).map h).sum = (l.map fun a => ((f a).map h).sum).sum := by
  induction l with
  | nil => rfl
  | cons a l ih => rw [List.flatMap_cons, List.map_append, List.sum_append, ih, List.map_cons, List.sum_cons]

theorem sum_filter {α M : Type} [AddCommMonoid M] (l : List α) (p : α → Bool) (h : α → M) :
    ((l.filter p).map h).sum = (l.map fun a => if p a then h a else 0).sum := by
  induction l with
  | nil => rfl
  | cons a l ih =>
    rw [List.filter_cons, List.map_cons, List.sum_cons, ← ih]
    split_ifs
    · rw [List.map_cons, List.sum_cons]
    · rw [zero_add]

theorem sum_intersections {M : Type} [AddCommMonoid M] (h : Face (n + 1) → M) : ((intersections n).map h).sum = ∑ f, h f := by
  rw [intersections, sum_flatMap, Fintype.sum_prod_type, ← List.ofFn_eq_map, List.sum_ofFn]
  refine Finset.sum_congr rfl fun i _ => ?_
  rw [Fintype.sum_bool, add_comm (h (i, true))]
  simp

omit [LinearOrder R] [IsStrictOrderedRing R] in
/-- sums over the points of a walk -/
theorem sum_walkFaces (width : Fin (n + 1) → R) (rule : List (FaceRulePoint n R)) {cells : Fin (n + 1) → ℕ} (order : List (CellIndex cells))
    (which : CellIndex cells → Face (n + 1) → Bool) (hn : order.Nodup) (hc : ∀ j, j ∈ order) (h : FacePoint (n + 1) cells R → R) :
    ((walkFaces width rule order which).map h).sum =
      ∑ j, ∑ f, if which j f then ((facePoints width rule j f).map h).sum else 0 := by
  rw [walkFaces, sum_flatMap, sum_order _ hn hc]
  refine Finset.sum_congr rfl fun j _ => ?_
  rw [sum_flatMap, sum_filter, sum_intersections]

/-- the points of one face -/
theorem sum_facePoints (lower width : Fin (n + 1) → R) (rule : List (FaceRulePoint n R)) (hr : InFace rule) {cells : Fin (n + 1) → ℕ}
    (g : (Fin (n + 1) → R) → R) (node : Node cells) (j : CellIndex cells) (f : Face (n + 1)) :
    ((facePoints width rule j f).map fun p => ∑ k : Fin (2 ^ (n + 1)), if node = cornerNode p.cell (corner k) then
      p.weight * g (globalPos lower width p.cell p.pos) * shape (corner k) p.pos else 0).sum = faceIntegral lower width rule g node j f := by
  rw [facePoints, List.map_map, faceIntegral]
  refine congrArg List.sum (List.map_congr_left fun q hq => ?_)
  simp only [Function.comp_apply]
  rw [corner_sum]
  · have h1 : globalPos lower width j (f.1.insertNth (α := fun _ => R) (if f.2 then 1 else 0) q.pos) =
        fun l => lower l + onFace j f q.pos l * width l := funext fun l => by rw [← onFace_eq]; rfl
    have h2 : (fun l => ((j l).1 : R) + (f.1.insertNth (α := fun _ => R) (if f.2 then 1 else 0) q.pos) l) = onFace j f q.pos :=
      funext fun l => onFace_eq j f q.pos l
    rw [h1, h2]
  · intro l
    refine Fin.succAboveCases f.1 ?_ (fun m => ?_) l
    · rw [Fin.insertNth_apply_same]
      split_ifs <;> norm_num
    · rw [Fin.insertNth_apply_succAbove]
      exact hr q hq m

/-- **C84** (what the local problems integrate) The functional of the Neumann data in the local problems is the sum over all faces of all
local cells. -/
theorem C84_all_faces (S : Setup (n + 1) R) (hS : S.Admissible) (hnd : S.localOrder.Nodup)
    (close : (Fin (n + 1) → ℚ) → (Fin (n + 1) → ℚ) → Bool) (info subInfo : Info (n + 1)) (normal : Face (n + 1) → Fin (n + 1) → ℚ)
    (rule localRule : List (FaceRulePoint n R)) (hr : InFace localRule) (g : (Fin (n + 1) → R) → R) (J : CellIndex S.cells)
    (node : Node S.micro) :
    localNeumann S (boundaryOf S close info subInfo normal rule localRule) g J node =
      ∑ j : CellIndex S.micro, ∑ f : Face (n + 1), faceIntegral (S.cellLower J) S.localWidth localRule g node j f := by
  rw [localNeumann_apply]
  simp only [boundaryOf]
  rw [sum_walkFaces _ _ _ _ hnd hS.localOrder_complete]
  refine Finset.sum_congr rfl fun j _ => Finset.sum_congr rfl fun f _ => ?_
  rw [allIntersections, if_pos rfl]
  exact sum_facePoints _ _ _ hr _ _ _ _

omit [IsStrictOrderedRing R] in
/-- a face between two cells -/
theorem faceIntegral_shared (lower width : Fin (n + 1) → R) {cells : Fin (n + 1) → ℕ} (rule : List (FaceRulePoint n R))
    (g : (Fin (n + 1) → R) → R) (node : Node cells) (j j' : CellIndex cells) (i : Fin (n + 1)) (hi : (j' i).1 = (j i).1 + 1)
    (ho : ∀ l, l ≠ i → j' l = j l) :
    faceIntegral lower width rule g node j' (i, false) = faceIntegral lower width rule g node j (i, true) := by
  have : ∀ s : Fin n → R, onFace j' (i, false) s = onFace j (i, true) s := by
    intro s
    simp only [onFace, hi, Bool.false_eq_true, if_false, if_true, add_zero, Nat.cast_add, Nat.cast_one]
    congr 1
    funext m
    rw [ho _ (Fin.succAbove_ne i m)]
  simp only [faceIntegral, this]

omit [IsStrictOrderedRing R] in
/-- **C84** (inner faces count twice) In the sum over all faces of all cells a face between two cells enters twice. -/
theorem C84_inner_twice (lower width : Fin (n + 1) → R) {cells : Fin (n + 1) → ℕ} (rule : List (FaceRulePoint n R))
    (g : (Fin (n + 1) → R) → R) (node : Node cells) :
    ∑ j : CellIndex cells, ∑ f : Face (n + 1), faceIntegral lower width rule g node j f =
      ∑ j : CellIndex cells, ∑ i : Fin (n + 1), ((if (j i).1 = 0 then faceIntegral lower width rule g node j (i, false) else 0) +
        (if (j i).1 + 1 = cells i then 1 else 2) * faceIntegral lower width rule g node j (i, true)) := by
  simp only [Fintype.sum_prod_type]
  rw [Finset.sum_comm, Finset.sum_comm (s := Finset.univ (α := CellIndex cells))]
  refine Finset.sum_congr rfl fun i _ => ?_
  simp only [Fintype.sum_bool]
  rw [Finset.sum_add_distrib, Finset.sum_add_distrib, add_comm]
  have key : ∑ j : CellIndex cells, faceIntegral lower width rule g node j (i, false) =
      ∑ j : CellIndex cells, (if (j i).1 = 0 then faceIntegral lower width rule g node j (i, false) else 0) +
        ∑ j : CellIndex cells, if (j i).1 + 1 = cells i then 0 else faceIntegral lower width rule g node j (i, true) := by
    rw [← Finset.sum_filter_add_sum_filter_not Finset.univ (fun j : CellIndex cells => (j i).1 = 0), Finset.sum_filter]
    congr 1
    have hsw : ∀ j : CellIndex cells, (if (j i).1 + 1 = cells i then 0 else faceIntegral lower width rule g node j (i, true)) =
        if ¬ (j i).1 + 1 = cells i then faceIntegral lower width rule g node j (i, true) else 0 := fun j => by split_ifs <;> rfl
    simp only [hsw]
    rw [← Finset.sum_filter]
    refine Finset.sum_bij' (fun j _ => Function.update j i ⟨(j i).1 - 1, by have := (j i).2; omega⟩)
      (fun j hj => Function.update j i ⟨(j i).1 + 1, by have := (j i).2; have := (Finset.mem_filter.mp hj).2; omega⟩) ?_ ?_ ?_ ?_ ?_
    · intro j hj
      have h0 := (Finset.mem_filter.mp hj).2
      refine Finset.mem_filter.mpr ⟨Finset.mem_univ _, ?_⟩
      have := (j i).2
      simp only [Function.update_self]
      omega
    · intro j hj
      exact Finset.mem_filter.mpr ⟨Finset.mem_univ _, by simp⟩
    · intro j hj
      have h0 := (Finset.mem_filter.mp hj).2
      funext l
      by_cases hl : l = i
      · subst hl
        apply Fin.ext
        simp only [Function.update_self]
        omega
      · simp [Function.update_of_ne hl]
    · intro j hj
      funext l
      by_cases hl : l = i
      · subst hl
        apply Fin.ext
        simp only [Function.update_self]
        omega
      · simp [Function.update_of_ne hl]
    · intro j hj
      have h0 := (Finset.mem_filter.mp hj).2
      refine faceIntegral_shared lower width rule g node _ j i ?_ fun l hl => ?_
      · simp only [Function.update_self]
        omega
      · rw [Function.update_of_ne hl]
  rw [key, add_assoc, ← Finset.sum_add_distrib]
  congr 1
  refine Finset.sum_congr rfl fun j _ => ?_
  split_ifs <;> ring

/-- **C84** (coarse problem) What is added to the coarse load is the integral over the Neumann faces of the domain. -/
theorem C84_coarse (S : Setup (n + 1) R) (hS : S.Admissible) (hnd : S.order.Nodup)
    (close : (Fin (n + 1) → ℚ) → (Fin (n + 1) → ℚ) → Bool) (info subInfo : Info (n + 1)) (normal : Face (n + 1) → Fin (n + 1) → ℚ)
    (rule localRule : List (FaceRulePoint n R)) (hr : InFace rule) (g : (Fin (n + 1) → R) → R) (b : Node S.cells → R) (node : Node S.cells) :
    S.addNeumann (neumannPoints S (boundaryOf S close info subInfo normal rule localRule) g) b node =
      b node + ∑ J : CellIndex S.cells, ∑ f : Face (n + 1),
        if (if f.2 then (J f.1).1 + 1 = S.cells f.1 else (J f.1).1 = 0) ∧ info.neumann close (normal f) = true then
          faceIntegral S.lower S.width rule g node J f else 0 := by
  rw [addNeumann_eq, Pi.add_apply]
  congr 1
  rw [femNeumann, neumannPoints, List.map_map]
  simp only [boundaryOf]
  have hsw : ∀ p : FacePoint (n + 1) S.cells R, (∑ k : Fin (2 ^ (n + 1)), if node = cornerNode p.cell (corner k) then
      p.weight * g (globalPos S.lower S.width p.cell p.pos) * shape (corner k) p.pos else 0) =
      ∑ v : Fin (n + 1) → Bool, if cornerNode p.cell v = node then
        p.weight * g (globalPos S.lower S.width p.cell p.pos) * shape v p.pos else 0 := by
    intro p
    rw [← sum_corner (fun v => if cornerNode p.cell v = node then p.weight * g (globalPos S.lower S.width p.cell p.pos) * shape v p.pos else 0)]
    simp only [eq_comm]
  refine Eq.trans (congrArg List.sum (List.map_congr_left (g := fun p : FacePoint (n + 1) S.cells R => ∑ k : Fin (2 ^ (n + 1)), if node = cornerNode p.cell (corner k) then
      p.weight * g (globalPos S.lower S.width p.cell p.pos) * shape (corner k) p.pos else 0) fun p _ => (hsw p).symm)) ?_
  rw [sum_walkFaces _ _ _ _ hnd hS.order_complete]
  refine Finset.sum_congr rfl fun J _ => Finset.sum_congr rfl fun f _ => ?_
  rw [sum_facePoints _ _ _ hr]
  congr 1
  simp only [neumannIntersections, isBoundary, Bool.and_eq_true]
  cases f.2 <;> simp

/-- **C84** (sufficient) The local problems have the Neumann term of the fine problem if the data vanish on all faces that are not Neumann
faces of the domain. -/
theorem C84_equal_partial (S : Setup (n + 1) R) (hS : S.Admissible) (hnd : S.localOrder.Nodup)
    (close : (Fin (n + 1) → ℚ) → (Fin (n + 1) → ℚ) → Bool) (info subInfo : Info (n + 1)) (normal : Face (n + 1) → Fin (n + 1) → ℚ)
    (rule localRule : List (FaceRulePoint n R)) (hr : InFace localRule) (g : (Fin (n + 1) → R) → R) (J : CellIndex S.cells)
    (node : Node S.micro)
    (hg : ∀ j f, ¬ (OnDomainBoundary S J j f ∧ info.neumann close (normal f) = true) → ∀ q ∈ localRule,
      g (fun l => S.cellLower J l + onFace j f q.pos l * S.localWidth l) = 0 ∨ hatAt node (onFace j f q.pos : Fin (n + 1) → R) = 0) :
    localNeumann S (boundaryOf S close info subInfo normal rule localRule) g J node =
      neumannTerm S (fun f => info.neumann close (normal f) = true) localRule g J node := by
  rw [C84_all_faces S hS hnd close info subInfo normal rule localRule hr, neumannTerm]
  refine Finset.sum_congr rfl fun j _ => Finset.sum_congr rfl fun f _ => ?_
  split_ifs with h
  · rfl
  · rw [faceIntegral]
    refine List.sum_eq_zero fun x hx => ?_
    obtain ⟨q, hq, rfl⟩ := List.mem_map.mp hx
    rcases hg j f h q hq with h0 | h0 <;> rw [h0] <;> ring

omit [LinearOrder R] [IsStrictOrderedRing R] in
theorem onFace_same {cells : Fin (n + 1) → ℕ} (j : CellIndex cells) (f : Face (n + 1)) (s : Fin n → R) :
    onFace j f s f.1 = ((j f.1).1 : R) + if f.2 then 1 else 0 := by
  rw [onFace, Fin.insertNth_apply_same]

omit [LinearOrder R] [IsStrictOrderedRing R] in
theorem onFace_other {cells : Fin (n + 1) → ℕ} (j : CellIndex cells) (f : Face (n + 1)) (s : Fin n → R) (l : Fin (n + 1)) (h : l ≠ f.1) :
    ∃ m, onFace j f s l = ((j l).1 : R) + s m := by
  obtain ⟨m, rfl⟩ := Fin.exists_succAbove_eq h
  exact ⟨m, by rw [onFace, Fin.insertNth_apply_succAbove]⟩

open Verif.Boundary in
/-- **C84** (the registered problems) In two and three dimensions the local problems of every registered problem have, at the nodes that are not
constrained, the Neumann term of the fine problem: the data are zero away from `x₁ = 0`.  The domain starts at `x₁ = 0`, and the
points of the rule keep the distance 1e-6 (tarbert.cc:91) from this side on the other faces. -/
theorem C84_problems {d : ℕ} (hd : d = 0 ∨ d = 1) (close : (Fin (d + 2) → ℚ) → (Fin (d + 2) → ℚ) → Bool) (hc : Tolerance close)
    (p : Problem) (normal : Face (d + 2) → Fin (d + 2) → ℚ) (hn : ∀ f, Boundary.Computed (normal f) f) :
    ∃ info subInfo, boundaryInfo (d + 2) p none = .ok info ∧ subBoundaryInfo (d + 2) p none = .ok subInfo ∧
      ∀ (S : Setup (d + 2) ℚ), S.Admissible → S.localOrder.Nodup → S.lower 1 = 0 → ∀ rule localRule : List (FaceRulePoint (d + 1) ℚ),
        InFace localRule → (∀ q ∈ localRule, ∀ m, 1 / 1000000 ≤ q.pos m * S.localWidth 1) → ∀ J node,
        (boundaryOf S close info subInfo normal rule localRule).constrained node = false →
        localNeumann S (boundaryOf S close info subInfo normal rule localRule) (neumannData p) J node =
          neumannTerm S (fun f => info.neumann close (normal f) = true) localRule (neumannData p) J node := by
  have hd' : d + 2 = 2 ∨ d + 2 = 3 := by omega
  obtain ⟨info, hi, hf⟩ := C60_dirichlet_faces hd' close hc p
  have hsub : ∃ subInfo, subBoundaryInfo (d + 2) p none = .ok subInfo ∧
      (p = .tarbert → d = 0 → ∀ f nrm, Boundary.Computed nrm f → (subInfo.dirichlet close nrm = true ↔ dirichletFace p f)) := by
    cases p
    · exact ⟨_, rfl, fun h => by cases h⟩
    · exact ⟨_, rfl, fun h => by cases h⟩
    · exact ⟨_, rfl, fun h => by cases h⟩
    · exact ⟨info, hi, fun h => by cases h⟩
    · exact ⟨info, hi, fun _ _ => hf⟩
  obtain ⟨subInfo, hs, hfs⟩ := hsub
  refine ⟨info, subInfo, hi, hs, fun S hS hnd hl rule localRule hr hw J node hfree => ?_⟩
  apply C84_equal_partial S hS hnd close info subInfo normal rule localRule hr
  intro j f hno q hq
  have hsize : (0 : ℚ) < S.localWidth 1 := div_pos (hS.width_pos 1) (Nat.cast_pos.mpr (hS.micro_pos 1))
  have hone : 1 / 1000000 ≤ S.localWidth 1 := le_trans (hw q hq 0) (mul_le_of_le_one_left hsize.le (hr q hq 0).2)
  have hwide : S.localWidth 1 ≤ S.width 1 := div_le_self (hS.width_pos 1).le (by exact_mod_cast hS.micro_pos 1)
  have hlow : 0 ≤ S.cellLower J 1 := by
    simp only [Setup.cellLower, hl, zero_add]
    exact mul_nonneg (Nat.cast_nonneg _) (hS.width_pos 1).le
  have hzero : 1 / 1000000 ≤ S.cellLower J 1 + onFace j f q.pos 1 * S.localWidth 1 →
      neumannData p (fun l => S.cellLower J l + onFace j f q.pos l * S.localWidth l) = 0 := by
    intro h
    have h1 : ¬ S.cellLower J 1 + onFace j f q.pos 1 * S.localWidth 1 = 0 := by
      intro h0
      rw [h0] at h
      norm_num at h
    have h2 : ¬ |S.cellLower J 1 + onFace j f q.pos 1 * S.localWidth 1| < 1 / 1000000 := by
      rw [not_lt]
      exact le_trans h (le_abs_self _)
    cases p <;> simp only [neumannData]
    · rw [if_neg h1]
    · rw [if_neg h2]
  have hup : ∀ y : ℚ, S.localWidth 1 ≤ y * S.localWidth 1 → 1 / 1000000 ≤ S.cellLower J 1 + y * S.localWidth 1 := fun y hy => by linarith
  by_cases h1 : f.1 = 1
  · have hv := onFace_same j f q.pos
    rw [h1] at hv
    by_cases hlowFace : f.2 = false ∧ (j 1).1 = 0 ∧ (J 1).1 = 0
    · obtain ⟨h2, h3, h4⟩ := hlowFace
      have hff : f = (1, false) := Prod.ext h1 h2
      have hdom : OnDomainBoundary S J j f := by
        unfold OnDomainBoundary
        rw [h2, h1]
        exact ⟨h4, h3⟩
      have hdir : info.dirichlet close (normal f) = true := by
        by_contra hcon
        apply hno
        refine ⟨hdom, ?_⟩
        rw [C60_exclusive]
        simpa using hcon
      rw [hf _ _ (hn f), hff] at hdir
      cases p
      · left; rfl
      · left; rfl
      · left; rfl
      · exfalso
        rcases hd with rfl | rfl <;> simp [dirichletFace] at hdir
      · rcases hd with rfl | rfl
        · right
          have hnode : (node 1).1 ≠ 0 := by
            intro h0
            have : (boundaryOf S close info subInfo normal rule localRule).constrained node = true := by
              show constrainedNode close subInfo normal S.micro (fun i => (node i).1) = true
              rw [constrainedNode_iff]
              exact ⟨1, Or.inl ⟨h0, (hfs rfl rfl _ _ (hn _)).mpr hdir⟩⟩
            rw [this] at hfree
            cases hfree
          apply Finset.prod_eq_zero (Finset.mem_univ 1)
          apply max_eq_left
          rw [hv, h3, h2]
          have : (1 : ℚ) ≤ (node 1).1 := by exact_mod_cast Nat.one_le_iff_ne_zero.mpr hnode
          simp only [Bool.false_eq_true, if_false, Nat.cast_zero, add_zero, zero_sub, abs_neg]
          rw [abs_of_nonneg (by linarith)]
          linarith
        · exfalso
          simp [dirichletFace] at hdir
    · left
      apply hzero
      rw [hv]
      by_cases h4 : (J 1).1 = 0
      · apply hup
        have : (1 : ℚ) ≤ ((j 1).1 : ℚ) + if f.2 then 1 else 0 := by
          cases h2 : f.2
          · have : (j 1).1 ≠ 0 := fun h3 => hlowFace ⟨h2, h3, h4⟩
            simp only [Bool.false_eq_true, if_false, add_zero]
            exact_mod_cast Nat.one_le_iff_ne_zero.mpr this
          · simp
        nlinarith
      · have h5 : S.width 1 ≤ S.cellLower J 1 := by
          simp only [Setup.cellLower, hl, zero_add]
          have : (1 : ℚ) ≤ (J 1).1 := by exact_mod_cast Nat.one_le_iff_ne_zero.mpr h4
          nlinarith [hS.width_pos 1]
        have h6 : 0 ≤ (((j 1).1 : ℚ) + if f.2 then 1 else 0) * S.localWidth 1 := by
          apply mul_nonneg _ hsize.le
          split_ifs <;> positivity
        linarith
  · left
    apply hzero
    obtain ⟨m, hm⟩ := onFace_other j f q.pos 1 (fun h => h1 h.symm)
    rw [hm]
    have h7 := hw q hq m
    have h8 : 0 ≤ ((j 1).1 : ℚ) * S.localWidth 1 := mul_nonneg (Nat.cast_nonneg _) hsize.le
    rw [add_mul]
    linarith

/-! ## Data that do not vanish elsewhere -/

theorem hatAt_nonneg {d : ℕ} {cells : Fin d → ℕ} (node : Node cells) (y : Fin d → R) : 0 ≤ hatAt node y :=
  Finset.prod_nonneg fun _ _ => le_max_left _ _

/-- positive data give every local node a positive value -/
theorem localNeumann_pos (S : Setup (n + 1) R) (hS : S.Admissible) (hnd : S.localOrder.Nodup)
    (close : (Fin (n + 1) → ℚ) → (Fin (n + 1) → ℚ) → Bool) (info subInfo : Info (n + 1)) (normal : Face (n + 1) → Fin (n + 1) → ℚ)
    (rule localRule : List (FaceRulePoint n R)) (hne : localRule ≠ [])
    (hr : ∀ q ∈ localRule, 0 < q.weight ∧ ∀ m, 0 < q.pos m ∧ q.pos m < 1) (g : (Fin (n + 1) → R) → R) (hg : ∀ x, 0 < g x)
    (J : CellIndex S.cells) (node : Node S.micro) :
    0 < localNeumann S (boundaryOf S close info subInfo normal rule localRule) g J node := by
  have hw : ∀ i, 0 < S.localWidth i := fun i => div_pos (hS.width_pos i) (Nat.cast_pos.mpr (hS.micro_pos i))
  rw [C84_all_faces S hS hnd close info subInfo normal rule localRule fun q hq m => ⟨((hr q hq).2 m).1.le, ((hr q hq).2 m).2.le⟩]
  have hterm : ∀ (j : CellIndex S.micro) f q, q ∈ localRule → 0 ≤ q.weight * (∏ m : Fin n, S.localWidth (f.1.succAbove m)) *
      g (fun l => S.cellLower J l + onFace j f q.pos l * S.localWidth l) * hatAt node (onFace j f q.pos) := fun j f q hq =>
    mul_nonneg (mul_nonneg (mul_nonneg (hr q hq).1.le (Finset.prod_nonneg fun m _ => (hw _).le)) (hg _).le) (hatAt_nonneg _ _)
  have hnn : ∀ (j : CellIndex S.micro) f, 0 ≤ faceIntegral (S.cellLower J) S.localWidth localRule g node j f := fun j f =>
    List.sum_nonneg fun x hx => by
      obtain ⟨q, hq, rfl⟩ := List.mem_map.mp hx
      exact hterm j f q hq
  obtain ⟨j, v, hjv⟩ := ErrorNorms.cornerNode_surjective hS.micro_pos node
  refine lt_of_lt_of_le ?_ (Finset.single_le_sum (fun j _ => Finset.sum_nonneg fun f _ => hnn j f) (Finset.mem_univ j))
  refine lt_of_lt_of_le ?_ (Finset.single_le_sum (fun f _ => hnn j f) (Finset.mem_univ ((0 : Fin (n + 1)), v 0)))
  obtain ⟨q, rest, hq⟩ := List.exists_cons_of_ne_nil hne
  have hmem : q ∈ localRule := by rw [hq]; exact List.mem_cons_self
  rw [faceIntegral]
  refine lt_of_lt_of_le ?_ (List.single_le_sum (fun x hx => by
    obtain ⟨q, hq, rfl⟩ := List.mem_map.mp hx
    exact hterm j _ q hq) _ (List.mem_map.mpr ⟨q, hmem, rfl⟩))
  refine mul_pos (mul_pos (mul_pos (hr q hmem).1 (Finset.prod_pos fun m _ => hw _)) (hg _)) (Finset.prod_pos fun l _ => ?_)
  apply lt_max_of_lt_right
  rw [← hjv, cornerNode_cast]
  by_cases hl : l = 0
  · subst hl
    rw [onFace_same j (0, v 0) q.pos]
    simp
  · obtain ⟨m, hm⟩ := onFace_other j ((0 : Fin (n + 1)), v 0) q.pos l hl
    rw [hm, add_sub_add_left_eq_sub]
    have := (hr q hmem).2 m
    rw [sub_pos, abs_lt]
    split_ifs <;> constructor <;> linarith

/-- corner of a coarse cell as node of its local grid -/
def cornerOf {d : ℕ} (S : Setup d R) (v : Fin d → Bool) : Node S.micro := fun i => if v i then Fin.last _ else 0

omit [LinearOrder R] [IsStrictOrderedRing R] in
theorem shape_vertex {d : ℕ} (v w : Fin d → Bool) : shape w (fun i => if v i then (1 : R) else 0) = if w = v then 1 else 0 := by
  split_ifs with h
  · subst h
    exact Finset.prod_eq_one fun l _ => by cases hw : w l <;> simp [hat, hw]
  · obtain ⟨l, hl⟩ := Function.ne_iff.mp h
    exact Finset.prod_eq_zero (Finset.mem_univ l) (by cases hw : w l <;> cases hv : v l <;> simp_all [hat])

/-- at the corners of the coarse cells the multiscale solution has the values of the coarse solution -/
theorem corner_value {d : ℕ} (S : Setup d R) (B : Boundary S) (P : Data d R) (h : Unique S B P)
    {Q : CellIndex S.cells → Fin (2 ^ d) → Node S.micro → R} {qN qD : CellIndex S.cells → Node S.micro → R} {u : Node S.cells → R}
    {fine : CellIndex S.cells → Node S.micro → R} (hcomp : Computed S B P Q qN qD u fine) (J : CellIndex S.cells) (v : Fin d → Bool) :
    fine J (cornerOf S v) = u (cornerNode J v) := by
  have hc : B.constrained (cornerOf S v) = true := h.corners _ fun i => by
    unfold cornerOf
    split_ifs
    · right; rfl
    · left; rfl
  have hD : qD J (cornerOf S v) = 0 ∧ qN J (cornerOf S v) = 0 := by
    by_cases hb : ∃ i, (J i).1 = 0 ∨ (J i).1 + 1 = S.cells i
    · exact ⟨((hcomp.corrector J).dirichlet hb).boundary _ hc, ((hcomp.corrector J).neumann hb).boundary _ hc⟩
    · rw [((hcomp.corrector J).inside hb).1, ((hcomp.corrector J).inside hb).2]
      exact ⟨rfl, rfl⟩
  have hb : ∀ k, basis S k (cornerOf S v) = if corner k = v then 1 else 0 := by
    intro k
    rw [← shape_vertex v (corner k), basis]
    congr 1
    funext i
    have : (S.micro i : R) ≠ 0 := Nat.cast_ne_zero.mpr (h.admissible.micro_pos i).ne'
    unfold cornerOf
    split_ifs
    · rw [Fin.val_last, div_self this]
    · simp
  rw [hcomp.fine_eq, Pi.sub_apply, Pi.add_apply, hD.1, hD.2, Finset.sum_apply, add_zero, sub_zero]
  simp only [Pi.smul_apply, Pi.add_apply, hb, smul_eq_mul]
  rw [Finset.sum_congr rfl fun k _ => by rw [((hcomp.corrector J).inner k).boundary _ hc, Pi.zero_apply, add_zero],
    sum_corner (fun w => u (cornerNode J w) * if w = v then 1 else 0)]
  simp

/-- **C84** (the negation) A problem without Neumann faces, without source and with Dirichlet data zero, but with positive Neumann data, which
therefore belong to no face: the Neumann term is zero everywhere and so is the solution, but the multiscale solution is not zero on any
coarse cell at the boundary, for all grids, rules and runs. -/
theorem C84_violated (S : Setup (n + 1) R) (hnd : S.localOrder.Nodup)
    (close : (Fin (n + 1) → ℚ) → (Fin (n + 1) → ℚ) → Bool) (info subInfo : Info (n + 1)) (normal : Face (n + 1) → Fin (n + 1) → ℚ)
    (hno : ∀ f, info.neumann close (normal f) = false) (rule localRule : List (FaceRulePoint n R)) (hne : localRule ≠ [])
    (hr : ∀ q ∈ localRule, 0 < q.weight ∧ ∀ m, 0 < q.pos m ∧ q.pos m < 1) (P : Data (n + 1) R)
    (h : Unique S (boundaryOf S close info subInfo normal rule localRule) P) (hf : ∀ x, P.source x = 0) (hD : ∀ x, P.dirichlet x = 0)
    (hg : ∀ x, 0 < P.neumann x) (hfree : ∃ node, (boundaryOf S close info subInfo normal rule localRule).constrained node = false) :
    (∀ J node, neumannTerm S (fun f => info.neumann close (normal f) = true) localRule P.neumann J node = 0) ∧
    (boundaryOf S close info subInfo normal rule localRule).faces = [] ∧
    (∀ G : FemSolver.Grid (n + 1) R, G.Complete → (∀ i, 0 < G.width i) → (∀ i, 0 < G.cells i) → Resolving G.matrixRule →
      ∀ D : Node G.cells → Bool, (∃ g, D g = true) → ∀ s : Solver (Node G.cells) R, s.Correct → ∀ old u,
        G.apply true s P.diffusion P.source 0 (fun _ => 0) D old = .ok u → u = 0) ∧
    ∀ m, Works S (boundaryOf S close info subInfo normal rule localRule) P m → ∀ u res,
      apply S (boundaryOf S close info subInfo normal rule localRule) P m = .ok (u, res) →
      ∃ fine, res = S.order.map fine ∧ ∀ J : CellIndex S.cells, (∃ i, (J i).1 = 0 ∨ (J i).1 + 1 = S.cells i) → fine J ≠ 0 := by
  refine ⟨fun J node => ?_, ?_, fun G hG hw hcells hR D hD s hs old u hu =>
    FemSolver.C83_reference_constant G hG hw hcells hR P.diffusion h.definite P.source hf D hD 0 s hs old u hu, fun m hm u res hr' => ?_⟩
  · rw [neumannTerm]
    refine Finset.sum_eq_zero fun j _ => Finset.sum_eq_zero fun f _ => if_neg ?_
    rw [hno f]
    exact fun h => by cases h.2
  · show walkFaces S.width rule S.order (neumannIntersections close info normal) = []
    rw [walkFaces, List.flatMap_eq_nil_iff]
    intro j _
    have : neumannIntersections close info normal j = fun _ => false := funext fun f => by
      rw [neumannIntersections, hno, Bool.and_false]
    rw [this, List.filter_false, List.flatMap_nil]
  · obtain ⟨Q, qN, qD, fine, hcomp, rfl⟩ := apply_spec S h.admissible h.nodup _ P m hm u res hr'
    refine ⟨fine, rfl, fun J hb h0 => ?_⟩
    set B := boundaryOf S close info subInfo normal rule localRule with hB
    have hqD : qD J = 0 := by
      refine unique_of_freeInjective (local_unique S B P h J) ((hcomp.corrector J).dirichlet hb) ⟨fun _ _ => rfl, fun i _ => ?_⟩
      have := extension_const S B P 0 hD J
      rw [this, zero_smul, mulVec_zero, neg_zero]
    have hu : ∀ v, u (cornerNode J v) = 0 := by
      intro v
      rw [← corner_value S B P h hcomp J v, h0, Pi.zero_apply]
    have hqN : qN J = 0 := by
      have h1 := h0
      rw [hcomp.fine_eq, hqD, add_zero] at h1
      have : (∑ k, u (cornerNode J (corner k)) • (basis S k + Q J k)) = 0 := Finset.sum_eq_zero fun k _ => by rw [hu, zero_smul]
      rw [this, zero_sub] at h1
      exact neg_eq_zero.mp h1
    obtain ⟨node, hnode⟩ := hfree
    have h2 := ((hcomp.corrector J).neumann hb).equation node hnode
    rw [hqN, mulVec_zero, Pi.zero_apply] at h2
    have h3 := localNeumann_pos S h.admissible hnd close info subInfo normal rule localRule hne hr P.neumann hg J node
    rw [← hB, ← h2] at h3
    exact lt_irrefl _ h3

/-- Instance: the boundary of ER2007, Neumann data one, every grid of the unit square with refined coarse cells. -/
example (N m : ℕ) (hN : 0 < N) (hm : 1 < m) (close : (Fin 2 → ℚ) → (Fin 2 → ℚ) → Bool) (normal : Face 2 → Fin 2 → ℚ) :
    let B := boundaryOf (demoSetup 2 N m) close .allDirichlet .allDirichlet normal [⟨fun _ => 1 / 2, 1⟩] [⟨fun _ => 1 / 2, 1⟩]
    let P : Data 2 ℚ := ⟨fun _ => 1, fun _ v => v, fun _ => 0, fun _ => 1, fun _ => 0⟩
    Unique (demoSetup 2 N m) B P ∧ (∀ f, Info.neumann close .allDirichlet (normal f) = false) ∧ (demoSetup 2 N m).localOrder.Nodup ∧
      (∃ node, B.constrained node = false) ∧ ∃ mach, Works (demoSetup 2 N m) B P mach ∧ ∃ u res, apply (demoSetup 2 N m) B P mach = .ok (u, res) := by
  intro B P
  have hall : ∀ (cells : Fin 2 → ℕ) (node : Fin 2 → ℕ), Boundary.constrainedNode close .allDirichlet normal cells node = true ↔
      ∃ i, node i = 0 ∨ node i = cells i := by
    intro cells node
    rw [Boundary.constrainedNode_iff]
    simp [Info.dirichlet]
  have hu : Unique (demoSetup 2 N m) B P := ⟨demo_admissible 2 N m hN (by omega), Finset.nodup_toList _, demo_resolving 2 N m,
    demo_resolving 2 N m, demo_definite 2, fun node h => (hall (fun _ => m) fun i => (node i).1).mpr ⟨0, h 0⟩,
    ⟨fun _ => 0, (hall (fun _ => N) fun _ => 0).mpr ⟨0, Or.inl rfl⟩⟩⟩
  refine ⟨hu, fun _ => rfl, Finset.nodup_toList _, ⟨fun _ => ⟨1, by show 1 < m + 1; omega⟩, ?_⟩,
    C82_run_exists _ _ _ hu fun x v => (one_mulVec v).symm⟩
  rw [← Bool.not_eq_true]
  show ¬ (Boundary.constrainedNode close .allDirichlet normal (fun _ => m) fun _ => 1) = true
  rw [hall]
  rintro ⟨i, h | h⟩ <;> omega

end Verif.Pipeline
