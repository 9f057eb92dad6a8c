import Verif.Model.Quadrature
import Verif.Props.FemSolver
import Verif.Props.Boundary
import Mathlib.Analysis.Real.Sqrt
import Mathlib.Tactic.LinearCombination

/-!
# C78: the quadrature rules of the assembled systems
-/

namespace Verif.Quadrature
open Matrix Verif.CoarseAssembly Verif.LocalAssembly Verif.LocalSolve Verif.Q1Grid Verif.Boundary Verif.FemSolver Verif.DirichletSolve
open Verif.Spec.Galerkin (Sample stiffness)
open Verif.Spec.Dirichlet

variable {d : ℕ} {R : Type} [Field R] [LinearOrder R] [IsStrictOrderedRing R]

/-! ## Gauss rules -/

/-- Gauss rule with `n` points on the unit interval: positive weights, exact for polynomials of degree less than `2 n`. -/
structure IsGauss (n : ℕ) (l : List (R × R)) : Prop where
  length : l.length = n
  weight_pos : ∀ pw ∈ l, 0 < pw.2
  moments : ∀ k < 2 * n, (l.map fun pw => pw.2 * pw.1 ^ k).sum = 1 / ((k : R) + 1)

theorem gauss_one (l : List (R × R)) (h : IsGauss 1 l) : l = [(1 / 2, 1)] := by
  obtain ⟨⟨p, w⟩, rfl⟩ := List.length_eq_one_iff.mp h.length
  have h0 := h.moments 0 (by norm_num)
  have h1 := h.moments 1 (by norm_num)
  simp at h0 h1
  subst h0
  rw [one_mul] at h1
  rw [h1]
  norm_num

omit [LinearOrder R] [IsStrictOrderedRing R] in
theorem sum_same (l : List (R × R)) (p : R) (h : ∀ pw ∈ l, pw.1 = p) (k : ℕ) :
    (l.map fun pw => pw.2 * pw.1 ^ k).sum = (l.map fun pw => pw.2 * pw.1 ^ 0).sum * p ^ k := by
  rw [← List.sum_map_mul_right]
  refine congrArg List.sum (List.map_congr_left fun pw hpw => ?_)
  rw [h pw hpw]
  ring

theorem gauss_two_points (n : ℕ) (hn : 2 ≤ n) (l : List (R × R)) (h : IsGauss n l) : ∃ a ∈ l, ∃ b ∈ l, a.1 ≠ b.1 := by
  by_contra hc
  push Not at hc
  obtain ⟨a, l', rfl⟩ : ∃ a l', l = a :: l' := by
    cases l with
    | nil => have := h.length; simp at this; omega
    | cons a l' => exact ⟨a, l', rfl⟩
  have hs := sum_same (a :: l') a.1 fun pw hpw => (hc a List.mem_cons_self pw hpw).symm
  have h0 := h.moments 0 (by omega)
  have h1 := h.moments 1 (by omega)
  have h2 := h.moments 2 (by omega)
  rw [hs 1, h0] at h1
  rw [hs 2, h0] at h2
  norm_num at h1 h2
  rw [h1] at h2
  norm_num at h2

/-! ## Tensor products -/

omit [LinearOrder R] [IsStrictOrderedRing R] in
theorem mem_tensor_succ (l : List (R × R)) (d : ℕ) (q : QPoint (d + 1) R) :
    q ∈ tensor l (d + 1) ↔ ∃ pw ∈ l, ∃ q' ∈ tensor l d, q = ⟨Fin.cons pw.1 q'.pos, pw.2 * q'.weight⟩ := by
  simp only [tensor, List.mem_flatMap, List.mem_map, eq_comm]

theorem tensor_weight_pos (l : List (R × R)) (h : ∀ pw ∈ l, 0 < pw.2) (d : ℕ) : ∀ q ∈ tensor l d, 0 < q.weight := by
  induction d with
  | zero => intro q hq; simp [tensor] at hq; subst hq; exact one_pos
  | succ d ih =>
    intro q hq
    obtain ⟨pw, hpw, q', hq', rfl⟩ := (mem_tensor_succ l d q).mp hq
    exact mul_pos (h pw hpw) (ih q' hq')

omit [LinearOrder R] [IsStrictOrderedRing R] in
theorem tensor_points (l : List (R × R)) (d : ℕ) (x : Fin d → R) (h : ∀ i, ∃ pw ∈ l, pw.1 = x i) :
    ∃ q ∈ tensor l d, q.pos = x := by
  induction d with
  | zero => exact ⟨⟨Fin.elim0, 1⟩, by simp [tensor], funext fun i => i.elim0⟩
  | succ d ih =>
    obtain ⟨pw, hpw, h0⟩ := h 0
    obtain ⟨q, hq, hx⟩ := ih (Fin.tail x) fun i => h i.succ
    refine ⟨⟨Fin.cons pw.1 q.pos, pw.2 * q.weight⟩, (mem_tensor_succ l d _).mpr ⟨pw, hpw, q, hq, rfl⟩, ?_⟩
    dsimp only
    rw [h0, hx, Fin.cons_self_tail]

/-- With two different points on the interval the tensor rule resolves the multilinear functions. -/
theorem tensor_resolving (l : List (R × R)) (hw : ∀ pw ∈ l, 0 < pw.2) (h : ∃ a ∈ l, ∃ b ∈ l, a.1 ≠ b.1) (d : ℕ) :
    Resolving (tensor l d) := by
  obtain ⟨a, ha, b, hb, hab⟩ := h
  refine ⟨tensor_weight_pos l hw d, fun _ => a.1, fun _ => b.1, fun _ => hab, fun s => tensor_points l d _ fun i => ?_⟩
  cases s i
  · exact ⟨b, hb, by simp⟩
  · exact ⟨a, ha, by simp⟩

omit [LinearOrder R] [IsStrictOrderedRing R] in
theorem tensor_one (d : ℕ) : tensor [((1 / 2 : R), 1)] d = [⟨fun _ => 1 / 2, 1⟩] := by
  induction d with
  | zero => simp [tensor]; exact funext fun i => i.elim0
  | succ d ih =>
    simp only [tensor, ih, List.flatMap_cons, List.flatMap_nil, List.map_cons, List.map_nil, List.append_nil, mul_one]
    congr 2
    funext i
    refine Fin.cases ?_ (fun i => ?_) i <;> simp

omit [IsStrictOrderedRing R] in
/-- The tensor rule is exact: monomials of degree less than `2 n` in each direction. -/
theorem C78_exact (n : ℕ) (l : List (R × R)) (h : IsGauss n l) (d : ℕ) (k : Fin d → ℕ) (hk : ∀ i, k i < 2 * n) :
    ((tensor l d).map fun q => q.weight * ∏ i, q.pos i ^ k i).sum = ∏ i, 1 / ((k i : R) + 1) := by
  induction d with
  | zero => simp [tensor]
  | succ d ih =>
    rw [Fin.prod_univ_succ, ← h.moments _ (hk 0), ← ih (fun i => k i.succ) fun i => hk i.succ]
    simp only [tensor]
    generalize tensor l d = t
    clear h ih
    induction l with
    | nil => simp
    | cons a l ihl =>
      simp only [List.flatMap_cons, List.map_append, List.sum_append, ihl, List.map_cons, List.sum_cons, add_mul]
      congr 1
      rw [List.map_map, ← List.sum_map_mul_left]
      refine congrArg List.sum (List.map_congr_left fun q _ => ?_)
      simp only [Function.comp_apply, Fin.prod_univ_succ, Fin.cons_zero, Fin.cons_succ]
      ring

/-! ## Rules of the problems -/

/-- The rules of dune-geometry are Gauss rules up to three points. -/
def GaussRules (gauss : ℕ → List (R × R)) : Prop := ∀ n, 1 ≤ n → n ≤ 3 → IsGauss n (gauss n)

omit [IsStrictOrderedRing R] in
theorem not_resolving_one (hd : 0 < d) : ¬ Resolving (tensor [((1 / 2 : R), 1)] d) := by
  rw [tensor_one]
  rintro ⟨-, p, r, hpr, hs⟩
  obtain ⟨q, hq, h1⟩ := hs fun _ => true
  obtain ⟨q', hq', h2⟩ := hs fun _ => false
  rw [List.mem_singleton] at hq hq'
  subst hq hq'
  have := h1.symm.trans h2
  exact hpr ⟨0, hd⟩ (by simpa using congrFun this ⟨0, hd⟩)

/-- **C78** (rules) The rule of the elliptic operators resolves the elements for all problems but the random one, where it is the
midpoint rule; those of the local right-hand sides, of the coarse matrix and of the coarse load do for all problems. -/
theorem C78_rules (gauss : ℕ → List (R × R)) (hg : GaussRules gauss) (hd : 0 < d) (p : Problem) :
    (Resolving (ellipticRule gauss p d) ↔ p ≠ .random) ∧ Resolving (functionalRule gauss p d) ∧
      Resolving (coarseMatrixRule gauss p d) ∧ Resolving (coarseLoadRule gauss p d) ∧ ellipticRule gauss .random d = [⟨fun _ => 1 / 2, 1⟩] := by
  have h2 := hg 2 (by norm_num) (by norm_num)
  have h3 := hg 3 (by norm_num) (by norm_num)
  have r2 := tensor_resolving _ h2.weight_pos (gauss_two_points 2 le_rfl _ h2) d
  have r3 := tensor_resolving _ h3.weight_pos (gauss_two_points 3 (by norm_num) _ h3) d
  have h1 : ellipticRule gauss .random d = tensor [(1 / 2, 1)] d := by
    rw [← gauss_one _ (hg 1 le_rfl (by norm_num))]; rfl
  refine ⟨?_, by cases p <;> exact r2, by cases p <;> first | exact r3 | exact r2, by cases p <;> exact r2,
    by rw [h1, tensor_one]⟩
  constructor
  · rintro h rfl
    rw [h1] at h
    exact not_resolving_one hd h
  · intro hp
    cases p <;> first | exact r2 | exact absurd rfl hp

/-- **C78** (operator and right-hand side) The operator of the local problems and their right-hand sides are integrated with the same rule
exactly for the problems other than the random one. -/
theorem C78_same_rule (gauss : ℕ → List (R × R)) (hg : GaussRules gauss) (hd : 0 < d) (p : Problem) :
    functionalRule gauss p d = ellipticRule gauss p d ↔ p ≠ .random := by
  constructor
  · rintro h rfl
    have := (C78_rules gauss hg hd .random).2.1
    rw [h] at this
    exact ((C78_rules gauss hg hd .random).1.mp this) rfl
  · intro hp
    cases p <;> first | rfl | exact absurd rfl hp

/-! ## The midpoint rule -/

omit [LinearOrder R] [IsStrictOrderedRing R] in
theorem shapeGrad_mid (v : Fin d → Bool) (i : Fin d) [CharZero R] :
    shapeGrad v (fun _ => (1 / 2 : R)) i = hatSlope (v i) * (1 / 2) ^ (d - 1) := by
  rw [shapeGrad, ← Finset.mul_prod_erase _ _ (Finset.mem_univ i), if_pos rfl]
  congr 1
  have : ∀ l ∈ Finset.univ.erase i, (if l = i then hatSlope (v l) else hat (v l) (1 / 2 : R)) = 1 / 2 := by
    intro l hl
    rw [if_neg (Finset.ne_of_mem_erase hl)]
    cases v l <;> norm_num [hat]
  rw [Finset.prod_congr rfl this, Finset.prod_const, Finset.card_erase_of_mem (Finset.mem_univ i), Finset.card_univ, Fintype.card_fin]

/-- Zero gradient at all cell centres. -/
def Flat {cells : Fin d → ℕ} (u : Node cells → R) : Prop :=
  ∀ (j : CellIndex cells) (i : Fin d), ∑ v : Fin d → Bool, u (cornerNode j v) * hatSlope (v i) = 0

/-- zero gradients of samples at the centre -/
theorem flat_of_sample {cells : Fin d → ℕ} (width : Fin d → R) (hw : ∀ i, 0 < width i) (u : Node cells → R) (j : CellIndex cells)
    (i : Fin d) :
    ∑ k : Fin (2 ^ d), u (cornerNode j (corner k)) * (shapeGrad (corner k) (fun _ => (1 / 2 : R)) i / width i) = 0 ↔
      ∑ v : Fin d → Bool, u (cornerNode j v) * hatSlope (v i) = 0 := by
  rw [sum_corner fun v => u (cornerNode j v) * (shapeGrad v (fun _ => (1 / 2 : R)) i / width i)]
  simp only [shapeGrad_mid]
  have : ∀ v : Fin d → Bool, u (cornerNode j v) * (hatSlope (v i) * (1 / 2) ^ (d - 1) / width i) =
      u (cornerNode j v) * hatSlope (v i) * ((1 / 2) ^ (d - 1) / width i) := fun v => by ring
  simp only [this]
  rw [← Finset.sum_mul, mul_eq_zero, or_iff_left]
  exact div_ne_zero (by positivity) (hw i).ne'

/-- The free block for the midpoint rule: injective if and only if a function that is flat and zero at the constrained nodes
is zero. -/
theorem mid_free_injective_iff (G : Grid d R) (hG : ∀ j, j ∈ G.order) (hw : ∀ i, 0 < G.width i) (hR : G.matrixRule = [⟨fun _ => 1 / 2, 1⟩])
    (diffusion : (Fin d → R) → Matrix (Fin d) (Fin d) R) (hpd : Definite diffusion) (D : Node G.cells → Bool) :
    FreeInjective (matrix G diffusion) D ↔ ∀ u : Node G.cells → R, Flat u → (∀ g, D g = true → u g = 0) → u = 0 := by
  have hmem : ∀ s, s ∈ samples diffusion (G.elements G.matrixRule) ↔ ∃ j, s =
      { weight := 1 * ∏ i, G.width i, tensor := diffusion (position G j fun _ => 1 / 2)
        source := 0, dofs := fun k => cornerNode j (corner k), val := 0
        grad := fun k i => shapeGrad (corner k) (fun _ => 1 / 2) i / G.width i, lifting := 0 } := by
    intro s
    rw [matrix_samples, hR]
    constructor
    · rintro ⟨j, -, q, hq, rfl⟩
      rw [List.mem_singleton] at hq
      subst hq
      exact ⟨j, rfl⟩
    · rintro ⟨j, rfl⟩
      exact ⟨j, hG j, _, List.mem_singleton_self _, rfl⟩
  have hflat : ∀ u : Node G.cells → R, (∀ s ∈ samples diffusion (G.elements G.matrixRule), s.gradOf u = 0) ↔ Flat u := by
    intro u
    constructor
    · intro h j i
      have := congrFun (h _ ((hmem _).mpr ⟨j, rfl⟩)) i
      rw [Sample.gradOf, Finset.sum_apply] at this
      exact (flat_of_sample G.width hw u j i).mp this
    · intro h s hs
      obtain ⟨j, rfl⟩ := (hmem s).mp hs
      funext i
      rw [Sample.gradOf, Finset.sum_apply]
      exact (flat_of_sample G.width hw u j i).mpr (h j i)
  constructor
  · intro h u hu hD
    refine h u hD fun g _ => ?_
    have := kernel_of_gradient _ u ((hflat u).mpr hu)
    exact congrFun this g
  · intro h
    refine freeInjective_of_samples _ D ?_ ?_ fun u hu hD => h u ((hflat u).mp hu) hD
    · intro s hs
      obtain ⟨j, rfl⟩ := (hmem s).mp hs
      exact mul_pos one_pos (Finset.prod_pos fun i _ => hw i)
    · intro s hs
      obtain ⟨j, rfl⟩ := (hmem s).mp hs
      exact hpd _

/-- A flat function that vanishes on the lower faces is zero. -/
theorem flat_lower {cells : Fin d → ℕ} (hd : 0 < d) (u : Node cells → R) (hu : Flat u) (h0 : ∀ g : Node cells, (∃ i, (g i).1 = 0) → u g = 0) :
    u = 0 := by
  have key : ∀ n (g : Node cells), ∑ i, (g i).1 = n → u g = 0 := by
    intro n
    induction n using Nat.strong_induction_on with
    | _ n ih =>
      intro g hg
      by_cases h : ∃ i, (g i).1 = 0
      · exact h0 g h
      · push Not at h
        set j : CellIndex cells := fun i => ⟨(g i).1 - 1, by have := h i; have := (g i).2; omega⟩ with hj
        have hv : ∀ v : Fin d → Bool, v ≠ (fun _ => true) → u (cornerNode j v) = 0 := by
          intro v hv
          obtain ⟨i, hi⟩ := Function.ne_iff.mp hv
          refine ih (∑ l, (cornerNode j v l).1) ?_ _ rfl
          rw [← hg]
          refine Finset.sum_lt_sum (fun l _ => ?_) ⟨i, Finset.mem_univ i, ?_⟩
          · have := h l
            simp only [cornerNode, hj]
            split_ifs <;> simp only [Fin.val_succ, Fin.val_castSucc] <;> omega
          · have := h i
            simp only [cornerNode, hj]
            rw [if_neg hi, Fin.val_castSucc]
            dsimp only
            omega
        have hs := hu j ⟨0, hd⟩
        rw [Finset.sum_eq_single (fun _ => true) (fun v _ hne => by rw [hv v hne, zero_mul]) (by simp)] at hs
        have hg' : cornerNode j (fun _ => true) = g := by
          funext i
          apply Fin.ext
          have := h i
          simp [cornerNode, hj]
          omega
        rw [hg'] at hs
        simpa [hatSlope] using hs
  funext g
  exact key _ g rfl

/-- In two dimensions a flat function that vanishes at the lower face in one direction is zero. -/
theorem flat_plane {cells : Fin 2 → ℕ} (hc : 0 < cells 1) (u : Node cells → R) (hu : Flat u)
    (h0 : ∀ g : Node cells, (g 0).1 = 0 → u g = 0) : u = 0 := by
  have key : ∀ n (g : Node cells), (g 0).1 = n → u g = 0 := by
    intro n
    induction n with
    | zero => exact fun g hg => h0 g hg
    | succ n ih =>
      intro g hg
      have hlt := (g 0).2
      -- a cell next to the node, on the lower or upper side
      have hcell : ∀ (m : Fin (cells 1)), u (Fin.cons (g 0) (Fin.cons m.castSucc finZeroElim)) = 0 ∧
          u (Fin.cons (g 0) (Fin.cons m.succ finZeroElim)) = 0 := by
        intro m
        set j : CellIndex cells := Fin.cons ⟨n, by omega⟩ (Fin.cons m finZeroElim) with hj
        have e : ∀ v : Fin 2 → Bool, cornerNode j v =
            Fin.cons (if v 0 then g 0 else ⟨n, by omega⟩) (Fin.cons (if v 1 then m.succ else m.castSucc) finZeroElim) := by
          intro v
          funext i
          fin_cases i
          · apply Fin.ext
            simp [cornerNode, hj]
            split_ifs <;> simp [hg]
          · simp [cornerNode, hj]
        have z : ∀ b : Fin (cells 1 + 1), u (Fin.cons (⟨n, by omega⟩ : Fin (cells 0 + 1)) (Fin.cons b finZeroElim)) = 0 :=
          fun b => ih _ rfl
        have s0 := hu j 0
        have s1 := hu j 1
        rw [← (finTwoArrowEquiv Bool).symm.sum_comp, Fintype.sum_prod_type] at s0 s1
        simp [e, hatSlope, z] at s0 s1
        constructor <;> linarith
      have hg2 := (g 1).2
      by_cases h : (g 1).1 = 0
      · have := (hcell ⟨0, hc⟩).1
        convert this using 2
        funext i
        fin_cases i
        · rfl
        · exact Fin.ext (by simpa using h)
      · have := (hcell ⟨(g 1).1 - 1, by omega⟩).2
        convert this using 2
        funext i
        fin_cases i
        · rfl
        · exact Fin.ext (by show (g 1).1 = _; simp; omega)
  funext g
  exact key _ g rfl

/-- A flat function on a grid in three dimensions: alternating in two directions, any values in direction `c`. -/
def mode {cells : Fin 3 → ℕ} (c : Fin 3) (f : ℕ → R) (g : Node cells) : R := ∏ l, if l = c then f (g l).1 else (-1) ^ (g l).1

omit [LinearOrder R] [IsStrictOrderedRing R] in
theorem mode_flat {cells : Fin 3 → ℕ} (c : Fin 3) (f : ℕ → R) : Flat (mode c f : Node cells → R) := by
  intro j i
  have e : ∀ v : Fin 3 → Bool, mode c f (cornerNode j v) * hatSlope (v i) =
      ∏ l, (if l = c then f ((j l).1 + (v l).toNat) else (-1) ^ ((j l).1 + (v l).toNat)) * (if l = i then hatSlope (v l) else 1) := by
    intro v
    have h : ∀ l, (cornerNode j v l).1 = (j l).1 + (v l).toNat := by
      intro l
      unfold cornerNode
      cases v l <;> simp
    rw [Finset.prod_mul_distrib, Finset.prod_ite_eq' Finset.univ i (fun l => hatSlope (v l)), if_pos (Finset.mem_univ i)]
    congr 1
    simp only [mode, h]
  rw [Finset.sum_congr rfl fun v _ => e v,
    sum_prod_bool fun l b => (if l = c then f ((j l).1 + b.toNat) else (-1) ^ ((j l).1 + b.toNat)) * (if l = i then hatSlope b else 1)]
  -- the factor of a direction other than `c` and `i`
  obtain ⟨k, hkc, hki⟩ : ∃ k : Fin 3, k ≠ c ∧ k ≠ i := by
    have : ∀ c i : Fin 3, ∃ k, k ≠ c ∧ k ≠ i := by decide
    exact this c i
  refine Finset.prod_eq_zero (Finset.mem_univ k) ?_
  simp [hkc, hki, pow_succ]

/-- A mode with a node where `f` is not zero. -/
theorem mode_ne_zero {cells : Fin 3 → ℕ} (c : Fin 3) (f : ℕ → R) (n : ℕ) (hn : n ≤ cells c) (hf : f n ≠ 0) :
    (mode c f : Node cells → R) ≠ 0 := by
  intro h
  have := congrFun h (fun i => if e : i = c then ⟨n, by rw [e]; omega⟩ else ⟨0, Nat.succ_pos _⟩)
  rw [mode, Pi.zero_apply, Finset.prod_eq_zero_iff] at this
  obtain ⟨l, -, hl⟩ := this
  by_cases e : l = c
  · simp [e] at hl
    exact hf hl
  · simp [e] at hl

/-! ## Local problems -/

/-- With the midpoint rule, the local problems are uniquely solvable if the lower faces are constrained. -/
theorem local_mid_free_injective (S : Setup d R) (hS : S.Admissible) (hd : 0 < d) (hR : S.localRule = [⟨fun _ => 1 / 2, 1⟩])
    (diffusion : (Fin d → R) → Matrix (Fin d) (Fin d) R) (hpd : Definite diffusion) (constrained : Node S.micro → Bool)
    (hc : ∀ node : Node S.micro, (∃ i, (node i).1 = 0) → constrained node = true) (neumann : Node S.micro → R) (J : CellIndex S.cells) :
    FreeInjective (stiff diffusion (S.cell constrained neumann J).elements) constrained :=
  (mid_free_injective_iff ⟨S.cellLower J, S.localWidth, S.micro, S.localOrder, S.localRule, []⟩ hS.localOrder_complete
    (localWidth_pos S hS) hR diffusion hpd constrained).mpr fun u hu hD => flat_lower hd u hu fun g hg => hD g (hc g hg)

/-- **C78** (local problems) With the rule that dune-gdt chooses, the local problems of all problems are uniquely solvable: for every
number of coarse and local cells and every positive definite diffusion.  For the random problem the constraints on the whole boundary
make up for the midpoint rule. -/
theorem C78_local (hd : d = 2 ∨ d = 3) (close : (Fin d → ℚ) → (Fin d → ℚ) → Bool) (hc : Tolerance close) (p : Problem)
    (normal : Face d → Fin d → ℚ) (hn : ∀ f, Computed (normal f) f) (gauss : ℕ → List (R × R)) (hg : GaussRules gauss) :
    ∃ subInfo, subBoundaryInfo d p none = .ok subInfo ∧
      ∀ (S : Setup d R), S.Admissible → S.localRule = ellipticRule gauss p d → ∀ diffusion, Definite diffusion → ∀ neumann J,
        FreeInjective (stiff diffusion (S.cell (dirichletNodes close subInfo normal S.micro) neumann J).elements)
          (dirichletNodes close subInfo normal S.micro) := by
  have hd0 : 0 < d := by omega
  by_cases hp : p = .spe10 ∨ p = .tarbert
  · obtain ⟨info, hi, -⟩ := C61_violated hd close hc p hp normal hn fun _ => 1
    refine ⟨info, hi, fun S hS hR diffusion hpd neumann J => ?_⟩
    refine local_free_injective S hS ?_ diffusion hpd _ ?_ neumann J
    · rw [hR]
      exact (C78_rules gauss hg hd0 p).1.mpr (by rintro rfl; simp at hp)
    · obtain ⟨info', hi', y, upper, -, -, h⟩ := C61_violated hd close hc p hp normal hn S.micro
      rw [hi] at hi'
      injection hi' with hi'
      subst hi'
      refine ⟨fun l => if upper then ⟨S.micro l, by omega⟩ else ⟨0, by omega⟩, (h _).mpr ?_⟩
      dsimp only
      cases upper <;> simp
  · have hp' : p = .synthetic ∨ p = .er2007 ∨ p = .random := by
      cases p <;> simp_all
    obtain ⟨info, hi, -⟩ := C61_all_constrained_partial close p hp' none normal (fun _ => 1) (fun _ => 0)
    refine ⟨info, hi, fun S hS hR diffusion hpd neumann J => ?_⟩
    have hall : ∀ node : Node S.micro, (∃ i, (node i).1 = 0) → dirichletNodes close info normal S.micro node = true := by
      rintro node ⟨i, h⟩
      obtain ⟨info', hi', hiff⟩ := C61_all_constrained_partial close p hp' none normal S.micro (fun i => (node i).1)
      rw [hi] at hi'
      injection hi' with hi'
      subst hi'
      exact hiff.mpr ⟨i, Or.inl h⟩
    by_cases hr : p = .random
    · subst hr
      exact local_mid_free_injective S hS hd0 (hR.trans (C78_rules gauss hg hd0 .random).2.2.2.2) diffusion hpd _ hall neumann J
    · refine local_free_injective S hS ?_ diffusion hpd _ ⟨fun _ => ⟨0, by omega⟩, hall _ ⟨⟨0, hd0⟩, rfl⟩⟩ neumann J
      rw [hR]
      exact (C78_rules gauss hg hd0 p).1.mpr hr

/-! ## The reference solution -/

omit [LinearOrder R] [IsStrictOrderedRing R] in
/-- The free block is injective if and only if the discrete problem has exactly one solution for all data. -/
theorem injective_iff_unique (G : Grid d R) (hG : G.Complete) (diffusion : (Fin d → R) → Matrix (Fin d) (Fin d) R)
    (D : Node G.cells → Bool) :
    FreeInjective (matrix G diffusion) D ↔ ∀ source neumann data, ∃! u, IsGalerkin G diffusion source neumann data D u := by
  simp only [galerkin_iff G hG]
  constructor
  · intro hinj source neumann data
    obtain ⟨x, hx, -⟩ := C25_system_solvable (matrix G diffusion) (load G source neumann) data D hinj
    have hsol := (constrained_iff (matrix G diffusion) (load G source neumann) data _ D
      (dirichletProject_boundary D data 0) x).mp hx
    exact ⟨_, hsol, fun v hv => unique_of_freeInjective hinj hv hsol⟩
  · intro h u hu hfree
    obtain ⟨w, -, hw⟩ := h (fun _ => 0) (-(load G (fun _ => 0) 0)) 0
    have hl : load G (fun _ => 0) (-(load G (fun _ => 0) 0)) = (0 : Node G.cells → R) := by
      simp [load]
    rw [hl] at hw
    have h1 := hw u ⟨hu, fun g hg => hfree g hg⟩
    have h2 := hw 0 ⟨fun _ _ => rfl, fun g _ => by simp⟩
    rw [h1, h2]

/-- Dirichlet nodes of the random problem: the two faces in the first direction. -/
theorem random_nodes (hd : d = 2 ∨ d = 3) (close : (Fin d → ℚ) → (Fin d → ℚ) → Bool) (hc : Tolerance close)
    (normal : Face d → Fin d → ℚ) (hn : ∀ f, Computed (normal f) f) :
    ∃ info, boundaryInfo d .random none = .ok info ∧ ∀ (cells : Fin d → ℕ) (node : Node cells) (x : Fin d), x.1 = 0 →
      (dirichletNodes close info normal cells node = true ↔ (node x).1 = 0 ∨ (node x).1 = cells x) := by
  obtain ⟨info, hi, hf⟩ := C60_dirichlet_faces hd close hc .random
  refine ⟨info, hi, fun cells node x hx => ?_⟩
  rw [dirichletNodes, constrainedNode_iff]
  simp only [hf _ _ (hn _), dirichletFace]
  constructor
  · rintro ⟨i, h | h⟩
    all_goals
      have : i = x := Fin.ext (by rw [h.2, hx])
      subst this
    · exact Or.inl h.1
    · exact Or.inr h.1
  · rintro (h | h)
    · exact ⟨x, Or.inl ⟨h, hx⟩⟩
    · exact ⟨x, Or.inr ⟨h, hx⟩⟩

/-- **C78** (the negation: the random problem in three dimensions) With two cells in the first direction the constrained matrix of the
reference problem is singular, on every grid and for every diffusion: a function that alternates in the other two directions has
gradient zero at all quadrature points.  Whenever there is a discrete solution, there are infinitely many, arbitrarily far apart. -/
theorem C78_violated_random (close : (Fin 3 → ℚ) → (Fin 3 → ℚ) → Bool) (hc : Tolerance close)
    (normal : Face 3 → Fin 3 → ℚ) (hn : ∀ f, Computed (normal f) f) (gauss : ℕ → List (R × R)) (hg : GaussRules gauss) :
    ∃ info, boundaryInfo 3 .random none = .ok info ∧
      ∀ (G : Grid 3 R), G.Complete → (∀ i, 0 < G.width i) → 2 ≤ G.cells 0 → G.matrixRule = ellipticRule gauss .random 3 →
        ∀ diffusion, ∃ w : Node G.cells → R, w ≠ 0 ∧ ∀ source neumann,
          (∀ forgets g, (G.system forgets diffusion source neumann (dirichletNodes close info normal G.cells) g).matrix.det = 0) ∧
          ∀ data u, IsGalerkin G diffusion source neumann data (dirichletNodes close info normal G.cells) u →
            ∀ t : R, IsGalerkin G diffusion source neumann data (dirichletNodes close info normal G.cells) (u + t • w) := by
  obtain ⟨info, hi, hf⟩ := random_nodes (Or.inr rfl) close hc normal hn
  refine ⟨info, hi, fun G hG hw hN hR diffusion => ?_⟩
  set f : ℕ → R := fun k => if k = 1 then 1 else 0 with hfdef
  have hD : ∀ g, dirichletNodes close info normal G.cells g = true → mode 0 f g = 0 := by
    intro g h
    rw [hf G.cells g 0 rfl] at h
    have : f (g 0).1 = 0 := by
      rw [hfdef]
      dsimp only
      rw [if_neg]
      omega
    exact Finset.prod_eq_zero (Finset.mem_univ 0) (by rw [if_pos rfl, this])
  have hne : (mode 0 f : Node G.cells → R) ≠ 0 := mode_ne_zero 0 f 1 (by omega) (by simp [hfdef])
  have hker : matrix G diffusion *ᵥ (mode 0 f) = 0 := by
    refine kernel_of_gradient _ _ fun s hs => ?_
    obtain ⟨j, -, q, hq, rfl⟩ := (matrix_samples G diffusion s).mp hs
    rw [hR, (C78_rules gauss hg (by norm_num) .random).2.2.2.2, List.mem_singleton] at hq
    subst hq
    funext i
    rw [Sample.gradOf, Finset.sum_apply]
    exact (flat_of_sample G.width hw (mode 0 f) j i).mpr (mode_flat 0 f j i)
  refine ⟨mode 0 f, hne, fun source neumann => ⟨fun forgets g => ?_, fun data u hu t => ?_⟩⟩
  · rw [← exists_mulVec_eq_zero_iff]
    refine ⟨mode 0 f, hne, ?_⟩
    have hz : ∀ A : Matrix (Node G.cells) (Node G.cells) R, A *ᵥ (mode 0 f) = 0 →
        constrainMat (dirichletNodes close info normal G.cells) A *ᵥ (mode 0 f) = 0 := by
      intro A hA
      funext a
      rw [constrainMat_mulVec, hA]
      split_ifs with h
      · exact hD a h
      · rfl
    cases forgets
    · rw [system_keeps]
      exact hz _ (by rw [add_mulVec, hker, add_zero])
    · rw [system_forgets]
      exact hz _ hker
  · rw [galerkin_iff G hG] at hu ⊢
    refine ⟨fun a ha => ?_, fun a ha => ?_⟩
    · rw [Pi.add_apply, Pi.smul_apply, hD a ha, smul_zero, add_zero]
      exact hu.boundary a ha
    · rw [mulVec_add, mulVec_smul, hker, smul_zero, add_zero]
      exact hu.equation a ha

/-- **C78** (partial: all cases but the random problem in three dimensions; the reference solution) With the rule that dune-gdt chooses, the
discrete reference problem has exactly one solution for all data if and only if the problem is not the random one, or the dimension is
two, or the grid has one layer of cells between the Dirichlet faces. -/
theorem C78_reference_iff_partial (hd : d = 2 ∨ d = 3) (close : (Fin d → ℚ) → (Fin d → ℚ) → Bool) (hc : Tolerance close) (p : Problem)
    (normal : Face d → Fin d → ℚ) (hn : ∀ f, Computed (normal f) f) (gauss : ℕ → List (R × R)) (hg : GaussRules gauss) :
    ∃ info, boundaryInfo d p none = .ok info ∧
      ∀ (G : Grid d R), G.Complete → (∀ i, 0 < G.width i) → (∀ i, 0 < G.cells i) → G.matrixRule = ellipticRule gauss p d →
        ∀ diffusion, Definite diffusion →
        ((∀ source neumann data, ∃! u, IsGalerkin G diffusion source neumann data (dirichletNodes close info normal G.cells) u) ↔
          (p = .random → d = 2 ∨ ∀ x : Fin d, x.1 = 0 → G.cells x = 1)) := by
  by_cases hp : p = .random
  · subst hp
    obtain ⟨info, hi, hf⟩ := random_nodes hd close hc normal hn
    refine ⟨info, hi, fun G hG hw hcells hR diffusion hpd => ?_⟩
    rw [← injective_iff_unique G hG]
    have hR' := hR.trans (C78_rules gauss hg (by omega) .random).2.2.2.2
    simp only [forall_const]
    constructor
    · intro hinj
      by_contra hcon
      push Not at hcon
      obtain ⟨hd2, x, hx, hx1⟩ := hcon
      have hd3 : d = 3 := by omega
      subst hd3
      have hx0 : x = 0 := Fin.ext hx
      subst hx0
      have := hcells 0
      obtain ⟨info', hi', hv⟩ := C78_violated_random (R := R) close hc normal hn gauss hg
      rw [hi] at hi'
      injection hi' with hi'
      subst hi'
      obtain ⟨w, hw0, hvw⟩ := hv G hG hw (by omega) hR diffusion
      obtain ⟨u, hu, huniq⟩ := (injective_iff_unique G hG diffusion _).mp hinj (fun _ => 0) 0 0
      have h1 := huniq _ ((hvw (fun _ => 0) 0).2 0 u hu 1)
      exact hw0 (by simpa using h1)
    · intro h
      rw [mid_free_injective_iff G hG.complete hw hR' diffusion hpd]
      intro u hu hD
      rcases h with rfl | h
      · exact flat_plane (hcells 1) u hu fun g hg0 => hD g ((hf G.cells g 0 rfl).mpr (Or.inl hg0))
      · have hx : (0 : ℕ) < d := by omega
        funext g
        refine hD g ((hf G.cells g ⟨0, hx⟩ rfl).mpr ?_)
        have h1 := h ⟨0, hx⟩ rfl
        have := (g ⟨0, hx⟩).2
        omega
  · obtain ⟨info, hi, hf⟩ := C76_problems_partial (R := R) hd close hc p normal hn
    refine ⟨info, hi, fun G hG hw hcells hR diffusion hpd => ?_⟩
    refine ⟨fun _ h => absurd h hp, fun _ source neumann data => ?_⟩
    obtain ⟨u, hu, -⟩ := hf G hG hw hcells (by rw [hR]; exact (C78_rules gauss hg (by omega) p).1.mpr hp) diffusion hpd source neumann data
    exact ⟨u, (hu u).mpr rfl, fun v hv => (hu v).mp hv⟩

/-! ## Instances -/

/-- The Gauss rules with up to three points. -/
noncomputable def legendre : ℕ → List (ℝ × ℝ)
  | 1 => [(1 / 2, 1)]
  | 2 => [(1 / 2 - Real.sqrt 3 / 6, 1 / 2), (1 / 2 + Real.sqrt 3 / 6, 1 / 2)]
  | 3 => [(1 / 2 - Real.sqrt 15 / 10, 5 / 18), (1 / 2, 4 / 9), (1 / 2 + Real.sqrt 15 / 10, 5 / 18)]
  | _ => []

theorem legendre_gauss : GaussRules legendre := by
  have e3 : Real.sqrt 3 ^ 2 = 3 := Real.sq_sqrt (by norm_num)
  have e15 : Real.sqrt 15 ^ 2 = 15 := Real.sq_sqrt (by norm_num)
  intro n h1 h3
  interval_cases n
  · refine ⟨rfl, by simp [legendre], fun k hk => ?_⟩
    interval_cases k <;> norm_num [legendre]
  · refine ⟨rfl, by simp [legendre], fun k hk => ?_⟩
    generalize hs : Real.sqrt 3 = s at e3
    have e : legendre 2 = [(1 / 2 - s / 6, 1 / 2), (1 / 2 + s / 6, 1 / 2)] := by rw [← hs]; rfl
    rw [e]
    interval_cases k <;> simp
    · norm_num
    · ring
    · linear_combination (1 / 36) * e3
    · linear_combination (1 / 24) * e3
  · refine ⟨rfl, by simp [legendre], fun k hk => ?_⟩
    generalize hs : Real.sqrt 15 = s at e15
    have e : legendre 3 = [(1 / 2 - s / 10, 5 / 18), (1 / 2, 4 / 9), (1 / 2 + s / 10, 5 / 18)] := by rw [← hs]; rfl
    rw [e]
    interval_cases k <;> simp
    · norm_num
    · ring
    · linear_combination (1 / 180) * e15
    · linear_combination (1 / 120) * e15
    · linear_combination (1 / 120 + (s ^ 2 + 15) / 18000) * e15
    · linear_combination (1 / 144 + (s ^ 2 + 15) / 7200) * e15

theorem unit_definite (d : ℕ) : Definite (fun _ : Fin d → R => (1 : Matrix (Fin d) (Fin d) R)) := by
  intro x v hv
  rw [one_mulVec]
  obtain ⟨i, hi⟩ := Function.ne_iff.mp hv
  exact Finset.sum_pos' (fun j _ => mul_self_nonneg (v j)) ⟨i, Finset.mem_univ i, mul_self_pos.mpr hi⟩

/-- The unit cube with `N` cells per direction. -/
noncomputable def cubes (p : Problem) (d N : ℕ) : Grid d ℝ where
  lower := 0
  width := fun _ => 1 / (N : ℝ)
  cells := fun _ => N
  order := Finset.univ.toList
  matrixRule := ellipticRule legendre p d
  loadRule := tensor (legendre 2) d

/-- Instance of C78_reference_iff_partial: the Laplace operator on the unit cube.  The random problem in three dimensions is the only one
without unique reference solution. -/
example (d N : ℕ) (hd : d = 2 ∨ d = 3) (hN : 2 ≤ N) (close : (Fin d → ℚ) → (Fin d → ℚ) → Bool) (hc : Tolerance close) (p : Problem) :
    ∃ info, boundaryInfo d p none = .ok info ∧
      ((∀ source neumann data, ∃! u, IsGalerkin (cubes p d N) (fun _ => 1) source neumann data
        (dirichletNodes close info outerNormal (cubes p d N).cells) u) ↔ ¬ (p = .random ∧ d = 3)) := by
  have hn : ∀ f : Face d, Computed (outerNormal f) f := fun f => by intro i; simp
  obtain ⟨info, hi, h⟩ := C78_reference_iff_partial hd close hc p outerNormal hn legendre legendre_gauss
  refine ⟨info, hi, Iff.trans (h (cubes p d N) ⟨Finset.nodup_toList _, fun j => Finset.mem_toList.mpr (Finset.mem_univ j)⟩
    (fun _ => ?_) (fun _ => ?_) rfl _ (unit_definite d)) ?_⟩
  · have : (0 : ℝ) < N := by exact_mod_cast (by omega : 0 < N)
    simpa [cubes] using this
  · show 0 < N
    omega
  · constructor
    · rintro h ⟨hp, rfl⟩
      rcases h hp with h | h
      · omega
      · have : N = 1 := h 0 rfl
        omega
    · intro h hp
      left
      by_contra h2
      exact h ⟨hp, by omega⟩

end Verif.Quadrature
