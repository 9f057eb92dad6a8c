import Verif.Model.ErrorNorms
import Verif.Props.Quadrature
import Mathlib.MeasureTheory.Integral.Pi
import Mathlib.MeasureTheory.Integral.IntervalIntegral.Basic
import Mathlib.Analysis.SpecialFunctions.Integrals.Basic
import Mathlib.Algebra.QuadraticDiscriminant
import Mathlib.Tactic.LinearCombination

/-!
# C79: the reported error norms
-/

namespace Verif.ErrorNorms
open Matrix Verif.CoarseAssembly Verif.LocalAssembly Verif.Q1Grid Verif.Boundary Verif.FemSolver Verif.Quadrature

variable {d : ℕ}

/-! ## Specification -/

/-- The unit cube. -/
def cube (d : ℕ) : Set (Fin d → ℝ) := Set.univ.pi fun _ => Set.Icc 0 1

/-- `∫ (u - v)²` over the domain, cell by cell in coordinates of the reference cell. -/
noncomputable def exactL2 (G : Grid d ℝ) (u v : Node G.cells → ℝ) : ℝ :=
  ∑ j, (∏ i, G.width i) * ∫ x in cube d, (valueOf u j x - valueOf v j x) ^ 2

/-- `∫ |∇u - ∇v|²`. -/
noncomputable def exactSemi (G : Grid d ℝ) (u v : Node G.cells → ℝ) : ℝ :=
  ∑ j, (∏ i, G.width i) * ∑ i, ∫ x in cube d, (slope G u j x i - slope G v j x i) ^ 2

/-! ## Products of affine functions -/

section
variable {R : Type} [Field R]

/-- `α + β x` -/
def IsAffine (φ : R → R) : Prop := ∃ α β : R, ∀ x, φ x = α + β * x

theorem tensor_prod (l : List (R × R)) (d : ℕ) (f : Fin d → R → R) :
    ((tensor l d).map fun q => q.weight * ∏ i, f i (q.pos i)).sum = ∏ i, (l.map fun pw => pw.2 * f i pw.1).sum := by
  induction d with
  | zero => simp [tensor]
  | succ d ih =>
    rw [Fin.prod_univ_succ, ← ih fun i => f i.succ]
    simp only [tensor]
    generalize tensor l d = t
    clear ih
    induction l with
    | nil => simp
    | cons a l ihl =>
      simp only [List.flatMap_cons, List.map_append, List.sum_append, ihl, List.map_cons, List.sum_cons, add_mul]
      congr 1
      rw [List.map_map, ← List.sum_map_mul_left]
      refine congrArg List.sum (List.map_congr_left fun q _ => ?_)
      simp only [Function.comp_apply, Fin.prod_univ_succ, Fin.cons_zero, Fin.cons_succ]
      ring

/-- A combination of products of functions of one variable. -/
def combination (φ : Fin d → Bool → R → R) (a : (Fin d → Bool) → R) (x : Fin d → R) : R := ∑ v, a v * ∏ l, φ l (v l) (x l)

theorem combination_square (φ : Fin d → Bool → R → R) (a : (Fin d → Bool) → R) (x : Fin d → R) :
    combination φ a x ^ 2 = ∑ v, ∑ w, a v * a w * ∏ l, φ l (v l) (x l) * φ l (w l) (x l) := by
  rw [sq, combination, Finset.sum_mul_sum]
  refine Finset.sum_congr rfl fun v _ => Finset.sum_congr rfl fun w _ => ?_
  rw [Finset.prod_mul_distrib]
  ring

theorem rule_square (l : List (R × R)) (φ : Fin d → Bool → R → R) (a : (Fin d → Bool) → R) :
    ((tensor l d).map fun q => q.weight * combination φ a q.pos ^ 2).sum =
      ∑ v, ∑ w, a v * a w * ∏ i, (l.map fun pw => pw.2 * (φ i (v i) pw.1 * φ i (w i) pw.1)).sum := by
  simp only [combination_square, Finset.mul_sum]
  rw [sum_map_sum]
  refine Finset.sum_congr rfl fun v _ => ?_
  rw [sum_map_sum]
  refine Finset.sum_congr rfl fun w _ => ?_
  rw [← tensor_prod l d fun i x => φ i (v i) x * φ i (w i) x, ← List.sum_map_mul_left]
  refine congrArg List.sum (List.map_congr_left fun q _ => ?_)
  ring

/-- Gauss rules with two points are exact for products of affine functions. -/
theorem gauss_affine [LinearOrder R] [IsStrictOrderedRing R] (n : ℕ) (hn : 2 ≤ n) (l : List (R × R)) (h : IsGauss n l)
    (α β γ δ : R) :
    (l.map fun pw => pw.2 * ((α + β * pw.1) * (γ + δ * pw.1))).sum = α * γ + (α * δ + β * γ) / 2 + β * δ / 3 := by
  have h0 := h.moments 0 (by omega)
  have h1 := h.moments 1 (by omega)
  have h2 := h.moments 2 (by omega)
  have key : (l.map fun pw => pw.2 * ((α + β * pw.1) * (γ + δ * pw.1))).sum =
      α * γ * (l.map fun pw => pw.2 * pw.1 ^ 0).sum + (α * δ + β * γ) * (l.map fun pw => pw.2 * pw.1 ^ 1).sum +
        β * δ * (l.map fun pw => pw.2 * pw.1 ^ 2).sum := by
    simp only [← List.sum_map_mul_left, ← List.sum_map_add]
    refine congrArg List.sum (List.map_congr_left fun pw _ => ?_)
    ring
  rw [key, h0, h1, h2]
  norm_num
  ring

/-- Gauss rules give the value at the centre for affine functions. -/
theorem gauss_mean [LinearOrder R] [IsStrictOrderedRing R] (n : ℕ) (hn : 1 ≤ n) (l : List (R × R)) (h : IsGauss n l)
    (φ : R → R) (hφ : IsAffine φ) : (l.map fun pw => pw.2 * φ pw.1).sum = φ (1 / 2) := by
  obtain ⟨α, β, hφ⟩ := hφ
  simp only [hφ]
  have h0 := h.moments 0 (by omega)
  have h1 := h.moments 1 (by omega)
  have key : (l.map fun pw => pw.2 * (α + β * pw.1)).sum =
      α * (l.map fun pw => pw.2 * pw.1 ^ 0).sum + β * (l.map fun pw => pw.2 * pw.1 ^ 1).sum := by
    simp only [← List.sum_map_mul_left, ← List.sum_map_add]
    refine congrArg List.sum (List.map_congr_left fun pw _ => ?_)
    ring
  rw [key, h0, h1]
  norm_num

/-- mean of a combination -/
theorem rule_mean [LinearOrder R] [IsStrictOrderedRing R] (n : ℕ) (hn : 1 ≤ n) (l : List (R × R)) (h : IsGauss n l)
    (φ : Fin d → Bool → R → R) (hφ : ∀ i b, IsAffine (φ i b)) (a : (Fin d → Bool) → R) :
    ((tensor l d).map fun q => q.weight * combination φ a q.pos).sum = combination φ a fun _ => 1 / 2 := by
  simp only [combination, Finset.mul_sum]
  rw [sum_map_sum]
  refine Finset.sum_congr rfl fun v _ => ?_
  have : ∀ q : QPoint d R, q.weight * (a v * ∏ i, φ i (v i) (q.pos i)) = a v * (q.weight * ∏ i, φ i (v i) (q.pos i)) :=
    fun q => by ring
  simp only [this]
  rw [List.sum_map_mul_left, tensor_prod l d fun i => φ i (v i)]
  congr 1
  exact Finset.prod_congr rfl fun i _ => gauss_mean n hn l h _ (hφ i (v i))

/-- the weights of a tensor rule have sum one -/
theorem rule_weights [LinearOrder R] [IsStrictOrderedRing R] (n : ℕ) (hn : 1 ≤ n) (l : List (R × R)) (h : IsGauss n l) :
    ((tensor l d).map fun q => q.weight).sum = 1 := by
  have := tensor_prod l d fun _ _ => (1 : R)
  simp only [Finset.prod_const_one, mul_one] at this
  rw [this]
  have h0 := h.moments 0 (by omega)
  simp only [pow_zero, mul_one, Nat.cast_zero, zero_add, div_one] at h0
  simp [h0]

/-- A combination that vanishes at the points of a tensor product of two points is zero. -/
theorem values_unisolvent (p r : R) (hpr : p ≠ r) : ∀ (d : ℕ) (a : (Fin d → Bool) → R),
    (∀ x : Fin d → R, (∀ i, x i = p ∨ x i = r) → ∑ v, a v * shape v x = 0) → a = 0 := by
  intro d
  induction d with
  | zero =>
    intro a h
    have := h Fin.elim0 fun i => i.elim0
    funext v
    have hv : v = default := Subsingleton.elim _ _
    rw [hv]
    rw [Pi.zero_apply, ← this, Fintype.sum_unique, shape, Finset.univ_eq_empty, Finset.prod_empty, mul_one]
    exact congrArg a (Subsingleton.elim _ _)
  | succ d ih =>
    intro a h
    have key : ∀ b, (fun v : Fin d → Bool => a (Fin.cons b v)) = 0 := by
      have hx : ∀ (x0 : R), x0 = p ∨ x0 = r → ∀ x : Fin d → R, (∀ i, x i = p ∨ x i = r) →
          x0 * ∑ v, a (Fin.cons true v) * shape v x + (1 - x0) * ∑ v, a (Fin.cons false v) * shape v x = 0 := by
        intro x0 hx0 x hx
        have := h (Fin.cons x0 x) fun i => by refine Fin.cases ?_ (fun i => ?_) i <;> simp [hx0, hx]
        rw [← (Fin.consEquiv fun _ => Bool).sum_comp, Fintype.sum_prod_type, Fintype.sum_bool] at this
        rw [← this, Finset.mul_sum, Finset.mul_sum]
        congr 1
        all_goals
          refine Finset.sum_congr rfl fun v _ => ?_
          simp only [shape, Fin.consEquiv, Equiv.coe_fn_mk, Fin.prod_univ_succ, Fin.cons_zero, Fin.cons_succ, hat, if_true,
            Bool.false_eq_true, if_false]
          ring
      have hsol : ∀ x : Fin d → R, (∀ i, x i = p ∨ x i = r) → ∀ b, ∑ v, a (Fin.cons b v) * shape v x = 0 := by
        intro x hx'
        have e1 := hx p (Or.inl rfl) x hx'
        have e2 := hx r (Or.inr rfl) x hx'
        have two : ∀ T F : R, p * T + (1 - p) * F = 0 → r * T + (1 - r) * F = 0 → T = 0 ∧ F = 0 := by
          intro T F e1 e2
          have e3 : (p - r) * (T - F) = 0 := by linear_combination e1 - e2
          have e4 : T = F := by
            rcases mul_eq_zero.mp e3 with h | h
            · exact absurd (sub_eq_zero.mp h) hpr
            · exact sub_eq_zero.mp h
          subst e4
          have : T = 0 := by linear_combination e1
          exact ⟨this, this⟩
        obtain ⟨hT, hF⟩ := two _ _ e1 e2
        intro b
        cases b
        · exact hF
        · exact hT
      intro b
      exact ih _ fun x hx' => hsol x hx' b
    funext v
    have := congrFun (key (v 0)) (Fin.tail v)
    simpa using this

end

/-! ## Integrals -/

theorem integral_affine (α β γ δ : ℝ) :
    ∫ x in Set.Icc (0 : ℝ) 1, (α + β * x) * (γ + δ * x) = α * γ + (α * δ + β * γ) / 2 + β * δ / 3 := by
  rw [MeasureTheory.integral_Icc_eq_integral_Ioc, ← intervalIntegral.integral_of_le zero_le_one]
  have : ∀ x : ℝ, (α + β * x) * (γ + δ * x) = α * γ + (α * δ + β * γ) * x + β * δ * x ^ 2 := fun x => by ring
  simp only [this]
  rw [intervalIntegral.integral_add, intervalIntegral.integral_add, intervalIntegral.integral_const,
    intervalIntegral.integral_const_mul, intervalIntegral.integral_const_mul, integral_id, integral_pow]
  · norm_num
    ring
  all_goals exact Continuous.intervalIntegrable (by fun_prop) _ _

theorem integral_prod_cube (f : Fin d → ℝ → ℝ) : ∫ x in cube d, ∏ i, f i (x i) = ∏ i, ∫ x in Set.Icc (0 : ℝ) 1, f i x := by
  rw [cube, MeasureTheory.volume_pi, MeasureTheory.Measure.restrict_pi_pi]
  exact MeasureTheory.integral_fintype_prod_eq_prod f

theorem integral_square (φ : Fin d → Bool → ℝ → ℝ) (hφ : ∀ i b, Continuous (φ i b)) (a : (Fin d → Bool) → ℝ) :
    ∫ x in cube d, combination φ a x ^ 2 =
      ∑ v, ∑ w, a v * a w * ∏ i, ∫ x in Set.Icc (0 : ℝ) 1, φ i (v i) x * φ i (w i) x := by
  have hc : IsCompact (cube d) := isCompact_univ_pi fun _ => isCompact_Icc
  have hint : ∀ v w : Fin d → Bool, MeasureTheory.IntegrableOn
      (fun x : Fin d → ℝ => a v * a w * ∏ l, φ l (v l) (x l) * φ l (w l) (x l)) (cube d) := by
    intro v w
    apply ContinuousOn.integrableOn_compact hc
    apply Continuous.continuousOn
    refine continuous_const.mul (continuous_finsetProd _ fun i _ => ?_)
    exact ((hφ i (v i)).comp (continuous_apply i)).mul ((hφ i (w i)).comp (continuous_apply i))
  simp only [combination_square]
  rw [MeasureTheory.integral_finsetSum]
  · refine Finset.sum_congr rfl fun v _ => ?_
    rw [MeasureTheory.integral_finsetSum]
    · refine Finset.sum_congr rfl fun w _ => ?_
      rw [MeasureTheory.integral_const_mul, integral_prod_cube fun i x => φ i (v i) x * φ i (w i) x]
    · exact fun w _ => hint v w
  · exact fun v _ => MeasureTheory.integrable_finsetSum _ fun w _ => hint v w

/-- Tensor Gauss rules with two or more points integrate squares of multilinear functions exactly. -/
theorem rule_exact (n : ℕ) (hn : 2 ≤ n) (l : List (ℝ × ℝ)) (h : IsGauss n l) (φ : Fin d → Bool → ℝ → ℝ)
    (hφ : ∀ i b, IsAffine (φ i b)) (a : (Fin d → Bool) → ℝ) :
    ((tensor l d).map fun q => q.weight * combination φ a q.pos ^ 2).sum = ∫ x in cube d, combination φ a x ^ 2 := by
  rw [rule_square, integral_square]
  · refine Finset.sum_congr rfl fun v _ => Finset.sum_congr rfl fun w _ => ?_
    congr 1
    refine Finset.prod_congr rfl fun i _ => ?_
    obtain ⟨α, β, h1⟩ := hφ i (v i)
    obtain ⟨γ, δ, h2⟩ := hφ i (w i)
    simp only [h1, h2]
    rw [gauss_affine n hn l h, integral_affine]
  · intro i b
    obtain ⟨α, β, h1⟩ := hφ i b
    rw [show φ i b = fun x => α + β * x from funext h1]
    fun_prop

/-! ## Values and gradients as combinations -/

section
variable {R : Type} [Field R]

/-- factors of the derivative in direction `i` -/
def slopeBasis (i l : Fin d) (b : Bool) (x : R) : R := if l = i then hatSlope b else hat b x

theorem hat_affine (b : Bool) : IsAffine (hat b : R → R) := by
  cases b
  · exact ⟨1, -1, fun x => by simp [hat]; ring⟩
  · exact ⟨0, 1, fun x => by simp [hat]⟩

theorem slopeBasis_affine (i l : Fin d) (b : Bool) : IsAffine (slopeBasis i l b : R → R) := by
  by_cases h : l = i
  · exact ⟨hatSlope b, 0, fun x => by simp [slopeBasis, h]⟩
  · obtain ⟨α, β, hb⟩ := hat_affine (R := R) b
    exact ⟨α, β, fun x => by simp [slopeBasis, h, hb]⟩

theorem combination_sub (φ : Fin d → Bool → R → R) (a b : (Fin d → Bool) → R) (x : Fin d → R) :
    combination φ (fun v => a v - b v) x = combination φ a x - combination φ b x := by
  simp only [combination, sub_mul, Finset.sum_sub_distrib]

theorem value_combination {cells : Fin d → ℕ} (u : Node cells → R) (j : CellIndex cells) (x : Fin d → R) :
    valueOf u j x = combination (fun _ => hat) (fun v => u (cornerNode j v)) x := by
  rw [valueOf, sum_corner fun v => u (cornerNode j v) * shape v x]
  rfl

theorem grad_combination (G : Grid d R) (rule : List (QPoint d R)) (u : Node G.cells → R) (j : CellIndex G.cells) (x : Fin d → R)
    (i : Fin d) : (element G.lower G.width rule j).gradOf u x i =
      combination (slopeBasis i) (fun v => u (cornerNode j v)) x / G.width i := by
  rw [element_gradOf]
  rfl

theorem integrate_eq (gauss : ℕ → List (R × R)) (G : Grid d R) (hG : G.Complete) (o : ℕ) (F : CellIndex G.cells → (Fin d → R) → R) :
    integrate gauss G o F =
      ∑ j, (∏ i, G.width i) * ((tensor (gauss (gaussPoints o)) d).map fun q => q.weight * F j q.pos).sum := by
  rw [integrate, sum_order G hG]
  refine Finset.sum_congr rfl fun j _ => ?_
  rw [scaleRule, List.map_map, ← List.sum_map_mul_left]
  refine congrArg List.sum (List.map_congr_left fun q _ => ?_)
  simp only [Function.comp_apply]
  ring

/-- difference of two discrete functions -/
theorem discrete_difference (G : Grid d R) (u v : Node G.cells → R) :
    (difference (discrete G u) (discrete G v)).order = 1 ∧
    (∀ j x, (difference (discrete G u) (discrete G v)).value j x =
      combination (fun _ => hat) (fun c => u (cornerNode j c) - v (cornerNode j c)) x) ∧
    ∀ j x i, (difference (discrete G u) (discrete G v)).grad j x i =
      combination (slopeBasis i) (fun c => u (cornerNode j c) - v (cornerNode j c)) x / G.width i := by
  refine ⟨rfl, fun j x => ?_, fun j x i => ?_⟩
  · simp only [difference, discrete, value_combination]
    rw [combination_sub]
  · simp only [difference, discrete, Pi.sub_apply, grad_combination]
    rw [combination_sub, sub_div]

end

/-- Gauss rules with up to `N` points. -/
def GaussUpTo (N : ℕ) (gauss : ℕ → List (ℝ × ℝ)) : Prop := ∀ n, 1 ≤ n → n ≤ N → IsGauss n (gauss n)

theorem list_sum_zero {α : Type} (l : List α) (f : α → ℝ) (h : ∀ a ∈ l, 0 ≤ f a) : (l.map f).sum = 0 ↔ ∀ a ∈ l, f a = 0 := by
  induction l with
  | nil => simp
  | cons a l ih =>
    have h1 := h a List.mem_cons_self
    have h2 : 0 ≤ (l.map f).sum := by
      apply List.sum_nonneg
      intro x hx
      obtain ⟨b, hb, rfl⟩ := List.mem_map.mp hx
      exact h b (List.mem_cons_of_mem _ hb)
    rw [List.map_cons, List.sum_cons, List.forall_mem_cons, ← ih fun b hb => h b (List.mem_cons_of_mem _ hb)]
    constructor
    · intro e; exact ⟨by linarith, by linarith⟩
    · rintro ⟨e1, e2⟩; rw [e1, e2, add_zero]

/-- Integrals of functions without negative values. -/
theorem integrate_nonneg (gauss : ℕ → List (ℝ × ℝ)) (G : Grid d ℝ) (hG : G.Complete) (hw : ∀ i, 0 < G.width i) (o n : ℕ)
    (hg : IsGauss n (gauss (gaussPoints o))) (F : CellIndex G.cells → (Fin d → ℝ) → ℝ) (hF : ∀ j x, 0 ≤ F j x) :
    0 ≤ integrate gauss G o F ∧
      (integrate gauss G o F = 0 ↔ ∀ j, ∀ q ∈ tensor (gauss (gaussPoints o)) d, F j q.pos = 0) := by
  rw [integrate_eq gauss G hG]
  have hV : 0 < ∏ i, G.width i := Finset.prod_pos fun i _ => hw i
  have hq : ∀ j, ∀ q ∈ tensor (gauss (gaussPoints o)) d, 0 ≤ q.weight * F j q.pos := fun j q hq =>
    mul_nonneg (tensor_weight_pos _ hg.weight_pos d q hq).le (hF j _)
  have hj : ∀ j ∈ Finset.univ, 0 ≤ (∏ i, G.width i) * ((tensor (gauss (gaussPoints o)) d).map fun q => q.weight * F j q.pos).sum := by
    intro j _
    refine mul_nonneg hV.le (List.sum_nonneg fun x hx => ?_)
    obtain ⟨q, hq', rfl⟩ := List.mem_map.mp hx
    exact hq j q hq'
  refine ⟨Finset.sum_nonneg hj, ?_⟩
  rw [Finset.sum_eq_zero_iff_of_nonneg hj]
  constructor
  · intro h j q hq'
    have := (mul_eq_zero.mp (h j (Finset.mem_univ j))).resolve_left hV.ne'
    have := (list_sum_zero _ _ (hq j)).mp this q hq'
    exact (mul_eq_zero.mp this).resolve_left (tensor_weight_pos _ hg.weight_pos d q hq').ne'
  · intro h j _
    rw [(list_sum_zero _ _ (hq j)).mpr fun q hq' => by rw [h j q hq', mul_zero], mul_zero]

theorem cornerNode_surjective {cells : Fin d → ℕ} (hc : ∀ i, 0 < cells i) (g : Node cells) : ∃ j v, cornerNode (cells := cells) j v = g := by
  refine ⟨fun i => if h : (g i).1 < cells i then ⟨(g i).1, h⟩ else ⟨(g i).1 - 1, by have := hc i; have := (g i).2; omega⟩,
    fun i => decide (¬ (g i).1 < cells i), ?_⟩
  funext i
  apply Fin.ext
  have := hc i
  have := (g i).2
  by_cases h : (g i).1 < cells i
  · simp [cornerNode, h]
  · simp [cornerNode, h]
    omega

/-! ## The L2 norm -/

/-- **C79** (L2, discrete functions) The square of the reported number is the integral of the square of the difference, for every grid
and every `over_integrate`. -/
theorem C79_l2_exact (N : ℕ) (gauss : ℕ → List (ℝ × ℝ)) (hg : GaussUpTo N gauss) (G : Grid d ℝ) (hG : G.Complete) (over : ℕ)
    (hN : gaussPoints (productOrder elementOrder over) ≤ N) (u v : Node G.cells → ℝ) :
    l2Square gauss G over (difference (discrete G u) (discrete G v)) = exactL2 G u v := by
  obtain ⟨ho, hv, -⟩ := discrete_difference G u v
  have hn : 2 ≤ gaussPoints (productOrder elementOrder over) := by simp only [gaussPoints, productOrder, elementOrder]; omega
  rw [l2Square, integrate_eq gauss G hG, exactL2, ho]
  refine Finset.sum_congr rfl fun j _ => ?_
  congr 1
  simp only [hv, ← sq, value_combination, ← combination_sub]
  exact rule_exact _ hn _ (hg _ (by omega) hN) _ (fun _ b => hat_affine b) _

/-- **C79** (L2, definite) The reported L2 difference of two discrete functions is zero only if they are equal. -/
theorem C79_l2_zero (N : ℕ) (gauss : ℕ → List (ℝ × ℝ)) (hg : GaussUpTo N gauss) (G : Grid d ℝ) (hG : G.Complete)
    (hw : ∀ i, 0 < G.width i) (hc : ∀ i, 0 < G.cells i) (over : ℕ)
    (hN : gaussPoints (productOrder elementOrder over) ≤ N) (u v : Node G.cells → ℝ) :
    l2 gauss G over (difference (discrete G u) (discrete G v)) = 0 ↔ u = v := by
  obtain ⟨ho, hv, -⟩ := discrete_difference G u v
  have hn : 2 ≤ gaussPoints (productOrder elementOrder over) := by simp only [gaussPoints, productOrder, elementOrder]; omega
  have hgn := hg _ (by omega) hN
  obtain ⟨h0, hz⟩ := integrate_nonneg gauss G hG hw (productOrder elementOrder over) _ hgn
    (fun j x => (difference (discrete G u) (discrete G v)).value j x * (difference (discrete G u) (discrete G v)).value j x)
    fun j x => mul_self_nonneg _
  have hl : l2Square gauss G over (difference (discrete G u) (discrete G v)) = integrate gauss G (productOrder elementOrder over)
    fun j x => (difference (discrete G u) (discrete G v)).value j x * (difference (discrete G u) (discrete G v)).value j x := rfl
  rw [l2, Real.sqrt_eq_zero', hl]
  constructor
  · intro h
    have hz := hz.mp (le_antisymm h h0)
    obtain ⟨a, ha, b, hb, hab⟩ := gauss_two_points _ hn _ hgn
    funext g
    obtain ⟨j, c, rfl⟩ := cornerNode_surjective hc g
    have := values_unisolvent a.1 b.1 hab d (fun c => u (cornerNode j c) - v (cornerNode j c)) fun x hx => by
      obtain ⟨q, hq, hqx⟩ := tensor_points (gauss (gaussPoints (productOrder elementOrder over))) d x fun i => by
        rcases hx i with h | h
        · exact ⟨a, ha, h.symm⟩
        · exact ⟨b, hb, h.symm⟩
      have := mul_self_eq_zero.mp (hz j q hq)
      rw [hv, hqx] at this
      exact this
    exact sub_eq_zero.mp (congrFun this c)
  · rintro rfl
    refine (hz.mpr fun j q _ => ?_).le
    rw [hv]
    simp [combination]

/-! ## The H1 semi norm -/

theorem semi_integrand (G : Grid d ℝ) (u v : Node G.cells → ℝ) (j : CellIndex G.cells) (x : Fin d → ℝ) :
    (difference (discrete G u) (discrete G v)).grad j x ⬝ᵥ (difference (discrete G u) (discrete G v)).grad j x =
      ∑ i, combination (slopeBasis i) (fun c => u (cornerNode j c) - v (cornerNode j c)) x ^ 2 / G.width i ^ 2 := by
  obtain ⟨-, -, hd⟩ := discrete_difference G u v
  simp only [dotProduct, hd]
  refine Finset.sum_congr rfl fun i _ => ?_
  rw [← div_pow, sq]

/-- the exact semi norm as combinations -/
theorem exactSemi_eq (G : Grid d ℝ) (u v : Node G.cells → ℝ) : exactSemi G u v = ∑ j, (∏ i, G.width i) * ∑ i,
    (∫ x in cube d, combination (slopeBasis i) (fun c => u (cornerNode j c) - v (cornerNode j c)) x ^ 2) / G.width i ^ 2 := by
  refine Finset.sum_congr rfl fun j _ => ?_
  congr 1
  refine Finset.sum_congr rfl fun i _ => ?_
  rw [← MeasureTheory.integral_div]
  refine MeasureTheory.integral_congr_ae (Filter.Eventually.of_forall fun x => ?_)
  dsimp only
  rw [← congrFun (gradOf_slope G [] u j x) i, ← congrFun (gradOf_slope G [] v j x) i, grad_combination, grad_combination, combination_sub]
  ring

/-- the sum over the points as sums over the directions -/
theorem semi_sum (G : Grid d ℝ) (u v : Node G.cells → ℝ) (j : CellIndex G.cells) (rule : List (QPoint d ℝ)) :
    (rule.map fun q => q.weight * ((difference (discrete G u) (discrete G v)).grad j q.pos ⬝ᵥ
        (difference (discrete G u) (discrete G v)).grad j q.pos)).sum =
      ∑ i, (rule.map fun q => q.weight * combination (slopeBasis i) (fun c => u (cornerNode j c) - v (cornerNode j c)) q.pos ^ 2).sum /
        G.width i ^ 2 := by
  simp only [semi_integrand, Finset.mul_sum, ← mul_div_assoc]
  rw [sum_map_sum]
  refine Finset.sum_congr rfl fun i _ => ?_
  rw [div_eq_mul_inv, ← List.sum_map_mul_right]
  rfl

/-- **C79** (H1 semi norm with `over_integrate` of two or more) The square of the reported number is the integral of the squared gradient
of the difference. -/
theorem C79_h1_exact_partial (N : ℕ) (gauss : ℕ → List (ℝ × ℝ)) (hg : GaussUpTo N gauss) (G : Grid d ℝ) (hG : G.Complete) (over : ℕ)
    (h2 : 2 ≤ over) (hN : gaussPoints (semiOrder elementOrder over) ≤ N) (u v : Node G.cells → ℝ) :
    semiSquare gauss G over (difference (discrete G u) (discrete G v)) = exactSemi G u v := by
  have hn : 2 ≤ gaussPoints (semiOrder elementOrder over) := by simp only [gaussPoints, semiOrder, ellipticOrder, elementOrder]; omega
  rw [semiSquare, integrate_eq gauss G hG, exactSemi_eq]
  refine Finset.sum_congr rfl fun j _ => ?_
  rw [semi_sum]
  congr 1
  refine Finset.sum_congr rfl fun i _ => ?_
  congr 1
  exact rule_exact _ hn _ (hg _ (by omega) hN) _ (slopeBasis_affine i) _

/-- the default: the midpoint rule -/
theorem semi_default (gauss : ℕ → List (ℝ × ℝ)) (hg : IsGauss 1 (gauss 1)) (G : Grid d ℝ) (hG : G.Complete) (over : ℕ) (h1 : over ≤ 1)
    (u v : Node G.cells → ℝ) : semiSquare gauss G over (difference (discrete G u) (discrete G v)) = ∑ j, (∏ i, G.width i) * ∑ i,
      combination (slopeBasis i) (fun c => u (cornerNode j c) - v (cornerNode j c)) (fun _ => 1 / 2) ^ 2 / G.width i ^ 2 := by
  have hn : gaussPoints (semiOrder (difference (discrete G u) (discrete G v)).order over) = 1 := by
    rw [(discrete_difference G u v).1]
    simp only [gaussPoints, semiOrder, ellipticOrder]; omega
  rw [semiSquare, integrate_eq gauss G hG, hn, gauss_one _ hg, tensor_one]
  refine Finset.sum_congr rfl fun j _ => ?_
  rw [semi_sum]
  simp

/-- **C79** (H1 semi norm, default) With the default of `over_integrate` the reported number is zero if and only if the gradients of the two
functions agree at the centres of all cells. -/
theorem C79_h1_zero_iff (gauss : ℕ → List (ℝ × ℝ)) (hg : IsGauss 1 (gauss 1)) (G : Grid d ℝ) (hG : G.Complete)
    (hw : ∀ i, 0 < G.width i) (over : ℕ) (h1 : over ≤ 1) (u v : Node G.cells → ℝ) :
    semi gauss G over (difference (discrete G u) (discrete G v)) = 0 ↔
      ∀ j i, slope G u j (fun _ => 1 / 2) i = slope G v j (fun _ => 1 / 2) i := by
  have hV : 0 < ∏ i, G.width i := Finset.prod_pos fun i _ => hw i
  have hi : ∀ j, ∀ i ∈ Finset.univ, 0 ≤ combination (slopeBasis i) (fun c => u (cornerNode j c) - v (cornerNode j c))
      (fun _ => (1 / 2 : ℝ)) ^ 2 / G.width i ^ 2 := fun j i _ => by positivity
  have hj : ∀ j ∈ Finset.univ, 0 ≤ (∏ i, G.width i) * ∑ i, combination (slopeBasis i)
      (fun c => u (cornerNode j c) - v (cornerNode j c)) (fun _ => (1 / 2 : ℝ)) ^ 2 / G.width i ^ 2 :=
    fun j _ => mul_nonneg hV.le (Finset.sum_nonneg (hi j))
  have hs : ∀ j i, slope G u j (fun _ => 1 / 2) i = slope G v j (fun _ => 1 / 2) i ↔
      combination (slopeBasis i) (fun c => u (cornerNode j c) - v (cornerNode j c)) (fun _ => (1 / 2 : ℝ)) = 0 := by
    intro j i
    rw [← congrFun (gradOf_slope G [] u j _) i, ← congrFun (gradOf_slope G [] v j _) i, grad_combination, grad_combination,
      combination_sub, div_left_inj' (hw i).ne', sub_eq_zero]
  rw [semi, semi_default gauss hg G hG over h1, Real.sqrt_eq_zero (Finset.sum_nonneg hj), Finset.sum_eq_zero_iff_of_nonneg hj]
  simp only [hs, Finset.mem_univ, forall_const]
  refine forall_congr' fun j => ?_
  rw [mul_eq_zero, or_iff_right hV.ne', Finset.sum_eq_zero_iff_of_nonneg (hi j)]
  simp only [Finset.mem_univ, forall_const]
  refine forall_congr' fun i => ?_
  rw [div_eq_zero_iff, or_iff_left (pow_ne_zero 2 (hw i).ne'), sq_eq_zero_iff]

/-- variance of a combination under a tensor rule -/
theorem rule_variance (n : ℕ) (hn : 1 ≤ n) (l : List (ℝ × ℝ)) (h : IsGauss n l) (φ : Fin d → Bool → ℝ → ℝ)
    (hφ : ∀ i b, IsAffine (φ i b)) (a : (Fin d → Bool) → ℝ) :
    ((tensor l d).map fun q => q.weight * (combination φ a q.pos - combination φ a fun _ => 1 / 2) ^ 2).sum =
      ((tensor l d).map fun q => q.weight * combination φ a q.pos ^ 2).sum - (combination φ a fun _ => 1 / 2) ^ 2 := by
  have h1 := rule_mean n hn l h φ hφ a
  have h2 := rule_weights (d := d) n hn l h
  generalize combination φ a (fun _ => 1 / 2) = m at *
  have key : ((tensor l d).map fun q => q.weight * (combination φ a q.pos - m) ^ 2).sum =
      ((tensor l d).map fun q => q.weight * combination φ a q.pos ^ 2).sum +
        (-2 * m) * ((tensor l d).map fun q => q.weight * combination φ a q.pos).sum + m ^ 2 * ((tensor l d).map fun q => q.weight).sum := by
    simp only [← List.sum_map_mul_left, ← List.sum_map_add]
    refine congrArg List.sum (List.map_congr_left fun q _ => ?_)
    ring
  rw [key, h1, h2]
  ring

/-- the value at the centre against the integral -/
theorem mid_le (l : List (ℝ × ℝ)) (h : IsGauss 2 l) (φ : Fin d → Bool → ℝ → ℝ) (hφ : ∀ i b, IsAffine (φ i b)) (a : (Fin d → Bool) → ℝ) :
    combination φ a (fun _ => 1 / 2) ^ 2 ≤ ∫ x in cube d, combination φ a x ^ 2 := by
  rw [← rule_exact 2 le_rfl l h φ hφ a, ← sub_nonneg, ← rule_variance 2 (by norm_num) l h φ hφ a]
  refine List.sum_nonneg fun x hx => ?_
  obtain ⟨q, hq, rfl⟩ := List.mem_map.mp hx
  exact mul_nonneg (tensor_weight_pos l h.weight_pos d q hq).le (sq_nonneg _)

/-- **C79** (H1 semi norm, default) The reported number never exceeds the semi norm of the difference. -/
theorem C79_h1_le_partial (N : ℕ) (hN : 2 ≤ N) (gauss : ℕ → List (ℝ × ℝ)) (hg : GaussUpTo N gauss) (G : Grid d ℝ) (hG : G.Complete)
    (hw : ∀ i, 0 < G.width i) (over : ℕ) (h1 : over ≤ 1) (u v : Node G.cells → ℝ) :
    semiSquare gauss G over (difference (discrete G u) (discrete G v)) ≤ exactSemi G u v := by
  rw [semi_default gauss (hg 1 le_rfl (by omega)) G hG over h1, exactSemi_eq]
  have hV : 0 < ∏ i, G.width i := Finset.prod_pos fun i _ => hw i
  refine Finset.sum_le_sum fun j _ => mul_le_mul_of_nonneg_left (Finset.sum_le_sum fun i _ => ?_) hV.le
  exact div_le_div_of_nonneg_right (mid_le _ (hg 2 (by norm_num) hN) _ (slopeBasis_affine i) _) (by positivity)

/-- zero exact semi norm -/
theorem exactSemi_zero (l : List (ℝ × ℝ)) (h : IsGauss 2 l) (G : Grid d ℝ) (hw : ∀ i, 0 < G.width i) (hc : ∀ i, 0 < G.cells i)
    (u v : Node G.cells → ℝ) : exactSemi G u v = 0 ↔ ∀ g g', u g - v g = u g' - v g' := by
  have hV : 0 < ∏ i, G.width i := Finset.prod_pos fun i _ => hw i
  rw [exactSemi_eq]
  simp only [← rule_exact 2 le_rfl l h _ (slopeBasis_affine _)]
  have hq : ∀ j i, ∀ q ∈ tensor l d, 0 ≤ q.weight *
      combination (slopeBasis i) (fun c => u (cornerNode j c) - v (cornerNode j c)) q.pos ^ 2 :=
    fun j i q hq => mul_nonneg (tensor_weight_pos l h.weight_pos d q hq).le (sq_nonneg _)
  have hi : ∀ j, ∀ i ∈ Finset.univ, 0 ≤ ((tensor l d).map fun q => q.weight *
      combination (slopeBasis i) (fun c => u (cornerNode j c) - v (cornerNode j c)) q.pos ^ 2).sum / G.width i ^ 2 := by
    intro j i _
    refine div_nonneg (List.sum_nonneg fun x hx => ?_) (by positivity)
    obtain ⟨q, hq', rfl⟩ := List.mem_map.mp hx
    exact hq j i q hq'
  rw [Finset.sum_eq_zero_iff_of_nonneg fun j _ => mul_nonneg hV.le (Finset.sum_nonneg (hi j))]
  constructor
  · intro h0
    refine constant_of_edges hc (fun g => u g - v g) fun j c i => ?_
    refine edges_of_rule (tensor l d) (tensor_resolving l h.weight_pos (gauss_two_points 2 le_rfl l h) d)
      (fun c => u (cornerNode j c) - v (cornerNode j c)) i (fun q hq' => ?_) c
    have := (mul_eq_zero.mp (h0 j (Finset.mem_univ j))).resolve_left hV.ne'
    have := (Finset.sum_eq_zero_iff_of_nonneg (hi j)).mp this i (Finset.mem_univ i)
    have := (div_eq_zero_iff.mp this).resolve_right (pow_ne_zero 2 (hw i).ne')
    have := (list_sum_zero _ _ (hq j i)).mp this q hq'
    have := (mul_eq_zero.mp this).resolve_left (tensor_weight_pos l h.weight_pos d q hq').ne'
    exact sq_eq_zero_iff.mp this
  · intro hconst j _
    refine mul_eq_zero_of_right _ (Finset.sum_eq_zero fun i _ => ?_)
    have : ∀ x : Fin d → ℝ, combination (slopeBasis i) (fun c => u (cornerNode j c) - v (cornerNode j c)) x = 0 := by
      intro x
      set k := u (cornerNode j fun _ => false) - v (cornerNode j fun _ => false)
      have hk : (fun c => u (cornerNode j c) - v (cornerNode j c)) = fun _ => k := funext fun c => hconst _ _
      rw [hk, combination, ← Finset.mul_sum, sum_prod_bool fun l b => slopeBasis i l b (x l)]
      rw [Finset.prod_eq_zero (Finset.mem_univ i), mul_zero]
      simp [slopeBasis, hatSlope]
    simp [this]

/-- **C79** (H1 semi norm, `over_integrate` of two or more) The reported number is zero only if the functions differ by a constant. -/
theorem C79_h1_definite_partial (N : ℕ) (gauss : ℕ → List (ℝ × ℝ)) (hg : GaussUpTo N gauss) (G : Grid d ℝ) (hG : G.Complete)
    (hw : ∀ i, 0 < G.width i) (hc : ∀ i, 0 < G.cells i) (over : ℕ) (h2 : 2 ≤ over)
    (hN : gaussPoints (semiOrder elementOrder over) ≤ N) (u v : Node G.cells → ℝ) :
    semi gauss G over (difference (discrete G u) (discrete G v)) = 0 ↔ ∀ g g', u g - v g = u g' - v g' := by
  have hn : 2 ≤ gaussPoints (semiOrder elementOrder over) := by simp only [gaussPoints, semiOrder, ellipticOrder, elementOrder]; omega
  have hg2 := hg 2 (by norm_num) (by omega)
  rw [← exactSemi_zero _ hg2 G hw hc u v, ← C79_h1_exact_partial N gauss hg G hG over h2 hN, semi, Real.sqrt_eq_zero]
  rw [semiSquare]
  exact (integrate_nonneg gauss G hG hw _ _ (hg _ (by omega) hN) _
    fun j x => Finset.sum_nonneg fun i _ => mul_self_nonneg _).1

/-- Alternating values. -/
def checkerboard {cells : Fin d → ℕ} (g : Node cells) : ℝ := ∏ l, (-1) ^ (g l).1

theorem checkerboard_flat {cells : Fin d → ℕ} (hd : 2 ≤ d) (t : ℝ) (j : CellIndex cells) (i : Fin d) :
    combination (slopeBasis i) (fun c => t * checkerboard (cornerNode j c)) (fun _ => 1 / 2) = 0 := by
  have e : ∀ c : Fin d → Bool, t * checkerboard (cornerNode j c) * ∏ l, slopeBasis i l (c l) (1 / 2 : ℝ) =
      t * ∏ l, (-1) ^ ((j l).1 + (c l).toNat) * slopeBasis i l (c l) (1 / 2 : ℝ) := by
    intro c
    have h : ∀ l, (cornerNode j c l).1 = (j l).1 + (c l).toNat := by
      intro l
      unfold cornerNode
      cases c l <;> simp
    rw [Finset.prod_mul_distrib, ← mul_assoc]
    simp only [checkerboard, h]
  rw [combination, Finset.sum_congr rfl fun c _ => e c, ← Finset.mul_sum,
    sum_prod_bool fun l b => (-1) ^ ((j l).1 + b.toNat) * slopeBasis i l b (1 / 2 : ℝ)]
  obtain ⟨k, hk⟩ : ∃ k : Fin d, k ≠ i := by
    by_cases h : i.1 = 0
    · exact ⟨⟨1, by omega⟩, fun e => by rw [← e] at h; simp at h⟩
    · exact ⟨⟨0, by omega⟩, fun e => by rw [← e] at h; simp at h⟩
  refine mul_eq_zero_of_right _ (Finset.prod_eq_zero (Finset.mem_univ k) ?_)
  simp [slopeBasis, hk, hat, pow_succ]
  ring

/-- **C79** (the negation: H1 semi norm, default) In two and more dimensions, on every grid, there are functions at reported distance zero
whose semi norm distance is as large as one likes. -/
theorem C79_violated_h1 (N : ℕ) (hN : 2 ≤ N) (gauss : ℕ → List (ℝ × ℝ)) (hg : GaussUpTo N gauss) (hd : 2 ≤ d) (G : Grid d ℝ)
    (hG : G.Complete) (hw : ∀ i, 0 < G.width i) (hc : ∀ i, 0 < G.cells i) (over : ℕ) (h1 : over ≤ 1) (v : Node G.cells → ℝ) (M : ℝ) :
    ∃ u, semi gauss G over (difference (discrete G u) (discrete G v)) = 0 ∧ M < exactSemi G u v := by
  have hg2 := hg 2 (by norm_num) hN
  have hpos : 0 < exactSemi G (fun g => v g + 1 * checkerboard g) v := by
    have hne : exactSemi G (fun g => v g + 1 * checkerboard g) v ≠ 0 := by
      rw [Ne, exactSemi_zero _ hg2 G hw hc]
      intro h
      have hd0 : 0 < d := by omega
      have := h (fun _ => ⟨0, Nat.succ_pos _⟩) (fun i => if i = ⟨0, hd0⟩ then ⟨1, by have := hc i; omega⟩ else ⟨0, Nat.succ_pos _⟩)
      simp only [add_sub_cancel_left, one_mul, checkerboard] at this
      rw [Finset.prod_eq_single ⟨0, hd0⟩ (fun l _ _ => by simp) (by simp)] at this
      have h' : ∏ l : Fin d, (-1 : ℝ) ^ ((if l = ⟨0, hd0⟩ then (⟨1, by have := hc l; omega⟩ : Fin (G.cells l + 1)) else ⟨0, Nat.succ_pos _⟩).1) = -1 := by
        rw [Finset.prod_eq_single ⟨0, hd0⟩ (fun l _ hl => by simp [hl]) (by simp)]
        simp
      rw [h'] at this
      norm_num at this
    refine lt_of_le_of_ne ?_ hne.symm
    rw [exactSemi_eq]
    refine Finset.sum_nonneg fun j _ => mul_nonneg (Finset.prod_nonneg fun i _ => (hw i).le) (Finset.sum_nonneg fun i _ => ?_)
    exact div_nonneg (MeasureTheory.integral_nonneg fun x => sq_nonneg _) (by positivity)
  have hscale : ∀ t : ℝ, exactSemi G (fun g => v g + t * checkerboard g) v = t ^ 2 * exactSemi G (fun g => v g + 1 * checkerboard g) v := by
    intro t
    rw [exactSemi_eq, exactSemi_eq, Finset.mul_sum]
    refine Finset.sum_congr rfl fun j _ => ?_
    rw [mul_left_comm, Finset.mul_sum _ _ (t ^ 2)]
    congr 1
    refine Finset.sum_congr rfl fun i _ => ?_
    rw [← mul_div_assoc, ← MeasureTheory.integral_const_mul]
    congr 2
    funext x
    simp only [add_sub_cancel_left, combination, one_mul, ← mul_pow, Finset.mul_sum, mul_assoc]
  refine ⟨fun g => v g + (|M| / exactSemi G (fun g => v g + 1 * checkerboard g) v + 1) * checkerboard g, ?_, ?_⟩
  · rw [C79_h1_zero_iff gauss (hg 1 le_rfl (by omega)) G hG hw over h1]
    intro j i
    rw [← congrFun (gradOf_slope G [] _ j _) i, ← congrFun (gradOf_slope G [] v j _) i, grad_combination, grad_combination]
    congr 1
    rw [← sub_eq_zero, ← combination_sub]
    simp only [add_sub_cancel_left]
    exact checkerboard_flat hd _ j i
  · rw [hscale]
    generalize exactSemi G (fun g => v g + 1 * checkerboard g) v = E at hpos
    have h0 : 0 ≤ |M| / E := div_nonneg (abs_nonneg M) hpos.le
    have e : |M| / E * E = |M| := div_mul_cancel₀ _ hpos.ne'
    nlinarith [le_abs_self M, mul_nonneg (mul_nonneg h0 h0) hpos.le]

/-! ## Functions with the same Dirichlet values -/

section
variable {R : Type} [Field R] [LinearOrder R] [IsStrictOrderedRing R]

theorem flat_combination {cells : Fin d → ℕ} (w : Node cells → R) (j : CellIndex cells) (i : Fin d) :
    combination (slopeBasis i) (fun c => w (cornerNode j c)) (fun _ => (1 / 2 : R)) = 0 ↔
      ∑ v : Fin d → Bool, w (cornerNode j v) * hatSlope (v i) = 0 := by
  have : combination (slopeBasis i) (fun c => w (cornerNode j c)) (fun _ => (1 / 2 : R)) =
      (∑ v : Fin d → Bool, w (cornerNode j v) * hatSlope (v i)) * (1 / 2) ^ (d - 1) := by
    rw [Finset.sum_mul]
    refine Finset.sum_congr rfl fun v _ => ?_
    rw [mul_assoc, ← shapeGrad_mid]
    rfl
  rw [this, mul_eq_zero, or_iff_left (by positivity)]

/-- In two dimensions a flat function has the same values at opposite corners. -/
theorem flat_opposite {cells : Fin 2 → ℕ} (u : Node cells → R) (hu : Flat u) (j : CellIndex cells) (v : Fin 2 → Bool) :
    u (cornerNode j v) = u (cornerNode j fun l => !v l) := by
  have s0 := hu j 0
  have s1 := hu j 1
  rw [← (finTwoArrowEquiv Bool).symm.sum_comp, Fintype.sum_prod_type] at s0 s1
  simp [hatSlope] at s0 s1
  have hv : ∀ w : Fin 2 → Bool, w = ![w 0, w 1] := fun w => by funext l; fin_cases l <;> rfl
  rw [hv v, hv fun l => ! (![v 0, v 1] l)]
  cases v 0 <;> cases v 1 <;> simp <;> linarith

/-- In two dimensions a flat function that vanishes at one side is zero. -/
theorem flat_side {cells : Fin 2 → ℕ} (hc : ∀ i, 0 < cells i) (u : Node cells → R) (hu : Flat u) (c : Fin 2) (upper : Bool)
    (h0 : ∀ g : Node cells, (g c).1 = (if upper then cells c else 0) → u g = 0) : u = 0 := by
  -- a neighbour in direction `c` with the same value
  have step : ∀ (g : Node cells) (a : ℕ), a ≤ cells c → (a + 1 = (g c).1 ∨ a = (g c).1 + 1) → ∃ g' : Node cells, (g' c).1 = a ∧ u g = u g' := by
    intro g a ha hadj
    have hg := fun i => (g i).2
    set j : CellIndex cells := fun i => if hi : i = c then ⟨min a (g c).1, by rw [hi]; omega⟩ else
      if h : (g i).1 < cells i then ⟨(g i).1, h⟩ else ⟨(g i).1 - 1, by have := hc i; have := hg i; omega⟩ with hj
    set v : Fin 2 → Bool := fun i => if i = c then decide (a < (g c).1) else decide (¬ (g i).1 < cells i) with hv
    have val : ∀ (w : Fin 2 → Bool) i, (cornerNode j w i).1 = (j i).1 + if w i then 1 else 0 := by
      intro w i
      unfold cornerNode
      cases w i <;> simp
    have jc : (j c).1 = min a (g c).1 := by simp [hj]
    have vc : v c = decide (a < (g c).1) := by simp [hv]
    have e : cornerNode j v = g := by
      funext i
      apply Fin.ext
      rw [val]
      by_cases hi : i = c
      · subst hi
        rw [jc, vc]
        by_cases h : a < (g i).1 <;> simp [h] <;> omega
      · have ji : (j i).1 = if (g i).1 < cells i then (g i).1 else (g i).1 - 1 := by
          simp only [hj, dif_neg hi]
          split_ifs <;> rfl
        have vi : v i = decide (¬ (g i).1 < cells i) := by simp only [hv, if_neg hi]
        rw [ji, vi]
        have := hg i
        have := hc i
        by_cases h : (g i).1 < cells i <;> simp [h]; omega
    refine ⟨cornerNode j fun l => !v l, ?_, ?_⟩
    · rw [val, jc, vc]
      by_cases h : a < (g c).1 <;> simp [h] <;> omega
    · rw [← flat_opposite u hu, e]
  have key : ∀ n (g : Node cells), (if upper then cells c - (g c).1 else (g c).1) = n → u g = 0 := by
    intro n
    induction n with
    | zero =>
      intro g hg
      apply h0
      have := (g c).2
      cases upper <;> simp at hg ⊢ <;> omega
    | succ n ih =>
      intro g hg
      have := (g c).2
      cases upper
      · simp at hg
        obtain ⟨g', h1, h2⟩ := step g n (by omega) (Or.inl hg.symm)
        rw [h2]
        exact ih g' (by simp [h1])
      · simp at hg
        obtain ⟨g', h1, h2⟩ := step g ((g c).1 + 1) (by omega) (Or.inr rfl)
        rw [h2]
        exact ih g' (by simp [h1]; omega)
  funext g
  exact key _ g rfl

/-- In three dimensions a flat function that vanishes at the lower faces in two directions is zero. -/
theorem flat_columns {cells : Fin 3 → ℕ} (hc : 0 < cells 2) (u : Node cells → R) (hu : Flat u)
    (h0 : ∀ g : Node cells, (g 0).1 = 0 ∨ (g 1).1 = 0 → u g = 0) : u = 0 := by
  have key : ∀ n (g : Node cells), (g 0).1 + (g 1).1 = n → u g = 0 := by
    intro n
    induction n using Nat.strong_induction_on with
    | _ n ih =>
      intro g hg
      by_cases hz : (g 0).1 = 0 ∨ (g 1).1 = 0
      · exact h0 g hz
      push Not at hz
      have b0 := (g 0).2
      have b1 := (g 1).2
      have hcell : ∀ m : Fin (cells 2), u (Function.update g 2 m.castSucc) = 0 ∧ u (Function.update g 2 m.succ) = 0 := by
        intro m
        set j : CellIndex cells := Fin.cons ⟨(g 0).1 - 1, by omega⟩ (Fin.cons ⟨(g 1).1 - 1, by
          show (g 1).1 - 1 < cells 1; omega⟩ (Fin.cons m finZeroElim)) with hj
        have z : ∀ v : Fin 3 → Bool, v 0 = false ∨ v 1 = false → u (cornerNode j v) = 0 := by
          intro v hv
          refine ih ((cornerNode j v 0).1 + (cornerNode j v 1).1) ?_ _ rfl
          have e0 : (cornerNode j v 0).1 = (g 0).1 - 1 + if v 0 then 1 else 0 := by
            unfold cornerNode
            cases v 0 <;> rfl
          have e1 : (cornerNode j v 1).1 = (g 1).1 - 1 + if v 1 then 1 else 0 := by
            unfold cornerNode
            cases v 1 <;> rfl
          rw [e0, e1]
          rcases hv with hv | hv <;> rw [hv] <;> simp <;> split_ifs <;> omega
        have two : ∀ i : Fin 3, ∑ v : Fin 3 → Bool, u (cornerNode j v) * hatSlope (v i) =
            u (cornerNode j ![true, true, true]) * hatSlope (![true, true, true] i) +
              u (cornerNode j ![true, true, false]) * hatSlope (![true, true, false] i) := by
          intro i
          rw [← Finset.sum_pair (f := fun v : Fin 3 → Bool => u (cornerNode j v) * hatSlope (v i))
            (fun h => by simpa using congrFun h 2)]
          refine (Finset.sum_subset (Finset.subset_univ _) fun v _ hv => ?_).symm
          rw [z v, zero_mul]
          by_contra hcon
          push Not at hcon
          refine hv ?_
          have : v = ![true, true, v 2] := by
            funext l
            fin_cases l
            · simpa using hcon.1
            · simpa using hcon.2
            · rfl
          rw [this]
          cases v 2 <;> simp
        have s0 := hu j 0
        have s2 := hu j 2
        rw [two] at s0 s2
        have eT : cornerNode j ![true, true, true] = Function.update g 2 m.succ := by
          funext l
          apply Fin.ext
          fin_cases l
          · show (g 0).1 - 1 + 1 = (g 0).1
            omega
          · show (g 1).1 - 1 + 1 = (g 1).1
            omega
          · rfl
        have eF : cornerNode j ![true, true, false] = Function.update g 2 m.castSucc := by
          funext l
          apply Fin.ext
          fin_cases l
          · show (g 0).1 - 1 + 1 = (g 0).1
            omega
          · show (g 1).1 - 1 + 1 = (g 1).1
            omega
          · rfl
        rw [eT, eF] at s0 s2
        simp [hatSlope] at s0 s2
        constructor <;> linarith
      have b2 := (g 2).2
      by_cases h : (g 2).1 = 0
      · have := (hcell ⟨0, hc⟩).1
        rwa [show (⟨0, hc⟩ : Fin (cells 2)).castSucc = g 2 from Fin.ext h.symm, Function.update_eq_self] at this
      · have := (hcell ⟨(g 2).1 - 1, by omega⟩).2
        rwa [show (⟨(g 2).1 - 1, by omega⟩ : Fin (cells 2)).succ = g 2 from Fin.ext (by show (g 2).1 - 1 + 1 = _; omega),
          Function.update_eq_self] at this
  funext g
  exact key _ g rfl

end

/-- which functions the default semi norm tells apart -/
theorem zero_iff_flat (gauss : ℕ → List (ℝ × ℝ)) (hg : IsGauss 1 (gauss 1)) (G : Grid d ℝ) (hG : G.Complete)
    (hw : ∀ i, 0 < G.width i) (over : ℕ) (h1 : over ≤ 1) (u v : Node G.cells → ℝ) :
    semi gauss G over (difference (discrete G u) (discrete G v)) = 0 ↔ Flat (u - v) := by
  rw [C79_h1_zero_iff gauss hg G hG hw over h1]
  refine forall_congr' fun j => forall_congr' fun i => ?_
  rw [← congrFun (gradOf_slope G [] u j _) i, ← congrFun (gradOf_slope G [] v j _) i, grad_combination, grad_combination,
    div_left_inj' (hw i).ne', ← sub_eq_zero, ← combination_sub]
  exact flat_combination (u - v) j i

/-- **C79** (H1 semi norm, default, equal boundary values) The numbers compare solutions of the same problem, which have the same values
at the Dirichlet nodes.  Whether a reported zero then means that they are equal depends on the problem: yes in two dimensions, and in
three for the synthetic and the ER2007 problem; not in three dimensions for the random problem (unless the grid has a single layer of
cells), SPE10 and Tarbert. -/
theorem C79_h1_dirichlet_iff_partial (hd : d = 2 ∨ d = 3) (close : (Fin d → ℚ) → (Fin d → ℚ) → Bool) (hc : Tolerance close) (p : Problem)
    (normal : Face d → Fin d → ℚ) (hn : ∀ f, Computed (normal f) f) (gauss : ℕ → List (ℝ × ℝ)) (hg : IsGauss 1 (gauss 1)) :
    ∃ info, boundaryInfo d p none = .ok info ∧
      ∀ (G : Grid d ℝ), G.Complete → (∀ i, 0 < G.width i) → (∀ i, 0 < G.cells i) → ∀ over, over ≤ 1 →
        ((∀ u v, (∀ g, dirichletNodes close info normal G.cells g = true → u g = v g) →
            semi gauss G over (difference (discrete G u) (discrete G v)) = 0 → u = v) ↔
          d = 2 ∨ p = .synthetic ∨ p = .er2007 ∨ p = .random ∧ ∀ x : Fin d, x.1 = 0 → G.cells x = 1) := by
  obtain ⟨info, hi, hf⟩ := C60_dirichlet_faces hd close hc p
  refine ⟨info, hi, fun G hG hw hcells over h1 => ?_⟩
  have hnode : ∀ node : Node G.cells, dirichletNodes close info normal G.cells node = true ↔
      ∃ i, ((node i).1 = 0 ∧ dirichletFace p (i, false)) ∨ ((node i).1 = G.cells i ∧ dirichletFace p (i, true)) := by
    intro node
    rw [dirichletNodes, constrainedNode_iff]
    simp only [hf _ _ (hn _)]
  have key : (∀ u v, (∀ g, dirichletNodes close info normal G.cells g = true → u g = v g) →
      semi gauss G over (difference (discrete G u) (discrete G v)) = 0 → u = v) ↔
      ∀ w : Node G.cells → ℝ, Flat w → (∀ g, dirichletNodes close info normal G.cells g = true → w g = 0) → w = 0 := by
    constructor
    · intro h w hw' h0
      refine h w 0 h0 ((zero_iff_flat gauss hg G hG hw over h1 w 0).mpr ?_)
      rwa [sub_zero]
    · intro h u v huv hs
      refine sub_eq_zero.mp (h (u - v) ((zero_iff_flat gauss hg G hG hw over h1 u v).mp hs) fun g hg' => ?_)
      rw [Pi.sub_apply, huv g hg', sub_self]
  rw [key]
  constructor
  · intro h
    by_contra hcon
    push Not at hcon
    obtain ⟨h2, hs, he, hr⟩ := hcon
    have h3 : d = 3 := by omega
    subst h3
    have : ∃ (c : Fin 3) (f : ℕ → ℝ) (n : ℕ), n ≤ G.cells c ∧ f n ≠ 0 ∧
        ∀ g, dirichletNodes close info normal G.cells g = true → f (g c).1 = 0 := by
      have hpos := hcells
      cases p with
      | synthetic => exact absurd rfl hs
      | er2007 => exact absurd rfl he
      | random =>
        obtain ⟨x, hx, hx1⟩ := hr rfl
        have hx0 : x = 0 := Fin.ext hx
        subst hx0
        refine ⟨0, fun k => if k = 1 then 1 else 0, 1, hcells 0, by simp, fun g hg' => ?_⟩
        obtain ⟨i, h | h⟩ := (hnode g).mp hg'
        all_goals
          have : i = 0 := Fin.ext h.2
          subst this
          dsimp only
          rw [if_neg]
        · omega
        · omega
      | spe10 =>
        refine ⟨1, fun k => if k = 0 then 1 else 0, 0, by omega, by simp, fun g hg' => ?_⟩
        obtain ⟨i, h | h⟩ := (hnode g).mp hg'
        all_goals simp [dirichletFace] at h
        have : i = 1 := Fin.ext (by omega)
        subst this
        have := hcells 1
        dsimp only
        rw [if_neg]
        omega
      | tarbert =>
        refine ⟨1, fun k => if k = 0 then 1 else 0, 0, by omega, by simp, fun g hg' => ?_⟩
        obtain ⟨i, h | h⟩ := (hnode g).mp hg'
        all_goals simp [dirichletFace] at h
        have : i = 1 := Fin.ext (by omega)
        subst this
        have := hcells 1
        dsimp only
        rw [if_neg]
        omega
    obtain ⟨c, f, n, hnc, hfn, hD⟩ := this
    refine mode_ne_zero c f n (by omega) hfn (h (mode c f) (mode_flat c f) fun g hg' => ?_)
    exact Finset.prod_eq_zero (Finset.mem_univ c) (by rw [if_pos rfl, hD g hg'])
  · intro h w hflat hD
    rcases h with rfl | h
    · have : ∃ (c : Fin 2) (upper : Bool), dirichletFace p (c, upper) := by
        cases p with
        | synthetic => exact ⟨0, false, by simp [dirichletFace]⟩
        | er2007 => exact ⟨0, false, by simp [dirichletFace]⟩
        | random => exact ⟨0, false, by simp [dirichletFace]⟩
        | spe10 => exact ⟨1, true, by simp [dirichletFace]⟩
        | tarbert => exact ⟨1, false, by simp [dirichletFace]⟩
      obtain ⟨c, upper, hface⟩ := this
      refine flat_side hcells w hflat c upper fun g hg' => hD g ((hnode g).mpr ⟨c, ?_⟩)
      cases upper
      · exact Or.inl ⟨by simpa using hg', hface⟩
      · exact Or.inr ⟨by simpa using hg', hface⟩
    · rcases hd with rfl | rfl
      · have : ∃ (c : Fin 2), dirichletFace p (c, false) := by
          rcases h with rfl | rfl | ⟨rfl, -⟩
          all_goals exact ⟨0, by simp [dirichletFace]⟩
        obtain ⟨c, hface⟩ := this
        exact flat_side hcells w hflat c false fun g hg' => hD g ((hnode g).mpr ⟨c, Or.inl ⟨by simpa using hg', hface⟩⟩)
      · rcases h with rfl | rfl | ⟨rfl, hx⟩
        · refine flat_columns (hcells 2) w hflat fun g hg' => hD g ((hnode g).mpr ?_)
          rcases hg' with h | h
          · exact ⟨0, Or.inl ⟨h, by simp [dirichletFace]⟩⟩
          · exact ⟨1, Or.inl ⟨h, by simp [dirichletFace]⟩⟩
        · refine flat_columns (hcells 2) w hflat fun g hg' => hD g ((hnode g).mpr ?_)
          rcases hg' with h | h
          · exact ⟨0, Or.inl ⟨h, by simp [dirichletFace]⟩⟩
          · exact ⟨1, Or.inl ⟨h, by simp [dirichletFace]⟩⟩
        · funext g
          refine hD g ((hnode g).mpr ⟨0, ?_⟩)
          have := hx 0 rfl
          have := (g 0).2
          by_cases h0 : (g 0).1 = 0
          · exact Or.inl ⟨h0, by simp [dirichletFace]⟩
          · exact Or.inr ⟨by omega, by simp [dirichletFace]⟩

/-! ## The triangle inequality -/

theorem sqrt_triangle (a b c : ℝ) (hc : 0 ≤ c) (h : ∀ t : ℝ, 0 ≤ a + 2 * t * b + t ^ 2 * c) :
    Real.sqrt (a + 2 * b + c) ≤ Real.sqrt a + Real.sqrt c := by
  have ha : 0 ≤ a := by simpa using h 0
  have hb : b ^ 2 ≤ a * c := by
    have := discrim_le_zero (a := c) (b := 2 * b) (c := a) fun t => by have := h t; nlinarith
    rw [discrim] at this
    nlinarith
  have hb' : b ≤ Real.sqrt a * Real.sqrt c := by
    rw [← Real.sqrt_mul ha]
    exact Real.le_sqrt_of_sq_le hb
  rw [Real.sqrt_le_left (by positivity)]
  nlinarith [Real.sq_sqrt ha, Real.sq_sqrt hc]

/-- The rule of one order, applied to the squares of vector fields. -/
theorem integrate_triangle (gauss : ℕ → List (ℝ × ℝ)) (G : Grid d ℝ) (hG : G.Complete) (hw : ∀ i, 0 < G.width i) (o n : ℕ)
    (hg : IsGauss n (gauss (gaussPoints o))) {ι : Type} [Fintype ι] (F H : CellIndex G.cells → (Fin d → ℝ) → ι → ℝ) :
    Real.sqrt (integrate gauss G o fun j x => (F j x + H j x) ⬝ᵥ (F j x + H j x)) ≤
      Real.sqrt (integrate gauss G o fun j x => F j x ⬝ᵥ F j x) + Real.sqrt (integrate gauss G o fun j x => H j x ⬝ᵥ H j x) := by
  have nonneg : ∀ K : CellIndex G.cells → (Fin d → ℝ) → ι → ℝ, 0 ≤ integrate gauss G o fun j x => K j x ⬝ᵥ K j x := fun K =>
    (integrate_nonneg gauss G hG hw o n hg _ fun j x => Finset.sum_nonneg fun i _ => mul_self_nonneg _).1
  have expand : ∀ t : ℝ, (integrate gauss G o fun j x => (F j x + t • H j x) ⬝ᵥ (F j x + t • H j x)) =
      (integrate gauss G o fun j x => F j x ⬝ᵥ F j x) + 2 * t * (integrate gauss G o fun j x => F j x ⬝ᵥ H j x) +
        t ^ 2 * (integrate gauss G o fun j x => H j x ⬝ᵥ H j x) := by
    intro t
    simp only [integrate, ← List.sum_map_mul_left, ← List.sum_map_add]
    refine congrArg List.sum (List.map_congr_left fun j _ => congrArg List.sum (List.map_congr_left fun q _ => ?_))
    rw [add_dotProduct, dotProduct_add, dotProduct_add, smul_dotProduct, smul_dotProduct, dotProduct_smul, dotProduct_smul,
      dotProduct_comm (H j q.pos) (F j q.pos)]
    simp only [smul_eq_mul]
    ring
  have := expand 1
  simp only [one_smul, mul_one, one_pow, one_mul] at this
  rw [this]
  refine sqrt_triangle _ _ _ (nonneg H) fun t => ?_
  rw [← expand t]
  exact nonneg fun j x => F j x + t • H j x

/-- every rule with at least two points gives the same square of a discrete difference -/
theorem l2_any_rule (gauss : ℕ → List (ℝ × ℝ)) (G : Grid d ℝ) (hG : G.Complete) (o : ℕ) (hn : 2 ≤ gaussPoints o)
    (hg : IsGauss (gaussPoints o) (gauss (gaussPoints o))) (u v : Node G.cells → ℝ) :
    (integrate gauss G o fun j x => (difference (discrete G u) (discrete G v)).value j x *
      (difference (discrete G u) (discrete G v)).value j x) = exactL2 G u v := by
  obtain ⟨-, hv, -⟩ := discrete_difference G u v
  rw [integrate_eq gauss G hG, exactL2]
  refine Finset.sum_congr rfl fun j _ => ?_
  congr 1
  simp only [hv, ← sq, value_combination, ← combination_sub]
  exact rule_exact _ hn _ hg _ (fun _ => hat_affine) _

theorem semi_any_rule (gauss : ℕ → List (ℝ × ℝ)) (G : Grid d ℝ) (hG : G.Complete) (o : ℕ) (hn : 2 ≤ gaussPoints o)
    (hg : IsGauss (gaussPoints o) (gauss (gaussPoints o))) (u v : Node G.cells → ℝ) :
    (integrate gauss G o fun j x => (difference (discrete G u) (discrete G v)).grad j x ⬝ᵥ
      (difference (discrete G u) (discrete G v)).grad j x) = exactSemi G u v := by
  rw [integrate_eq gauss G hG, exactSemi_eq]
  refine Finset.sum_congr rfl fun j _ => ?_
  rw [semi_sum]
  congr 1
  refine Finset.sum_congr rfl fun i _ => ?_
  rw [rule_exact _ hn _ hg _ (slopeBasis_affine i)]

/-- **C79** (L2 norm, triangle) The reported numbers for an exact solution of any order are distances to the same function: the distance of
the two discrete solutions is at most the sum, and each is at most the sum of the others. -/
theorem C79_l2_triangle (N : ℕ) (gauss : ℕ → List (ℝ × ℝ)) (hg : GaussUpTo N gauss) (G : Grid d ℝ) (hG : G.Complete)
    (hw : ∀ i, 0 < G.width i) (over : ℕ) (exact : LocalFn G.cells ℝ)
    (hN : gaussPoints (productOrder (max exact.order elementOrder) over) ≤ N) (u v : Node G.cells → ℝ) :
    l2 gauss G over (difference exact (discrete G u)) ≤
        l2 gauss G over (difference exact (discrete G v)) + l2 gauss G over (difference (discrete G u) (discrete G v)) ∧
      l2 gauss G over (difference (discrete G u) (discrete G v)) ≤
        l2 gauss G over (difference exact (discrete G u)) + l2 gauss G over (difference exact (discrete G v)) := by
  set o := productOrder (max exact.order elementOrder) over with ho
  have hn : 2 ≤ gaussPoints o := by simp only [ho, gaussPoints, productOrder, elementOrder]; omega
  have hgn := hg _ (by omega) hN
  have hsame : l2Square gauss G over (difference (discrete G u) (discrete G v)) =
      integrate gauss G o fun j x => (difference (discrete G u) (discrete G v)).value j x *
        (difference (discrete G u) (discrete G v)).value j x := by
    rw [l2_any_rule gauss G hG o hn hgn, C79_l2_exact N gauss hg G hG over]
    refine le_trans ?_ hN
    simp only [ho, gaussPoints, productOrder, elementOrder]
    omega
  have tri := fun F H : CellIndex G.cells → (Fin d → ℝ) → ℝ =>
    integrate_triangle gauss G hG hw o _ hgn (fun j x (_ : Fin 1) => F j x) (fun j x (_ : Fin 1) => H j x)
  simp only [dotProduct, Pi.add_apply, Finset.univ_unique, Finset.sum_const, Finset.card_singleton, one_smul] at tri
  constructor
  · have := tri (difference exact (discrete G v)).value fun j x => -(difference (discrete G u) (discrete G v)).value j x
    have e : ∀ j x, (difference exact (discrete G v)).value j x + -(difference (discrete G u) (discrete G v)).value j x =
        (difference exact (discrete G u)).value j x := by
      intro j x
      simp only [difference]
      ring
    simp only [neg_mul_neg, e] at this
    rw [← hsame] at this
    exact this
  · have := tri (difference exact (discrete G v)).value fun j x => -(difference exact (discrete G u)).value j x
    have e : ∀ j x, (difference exact (discrete G v)).value j x + -(difference exact (discrete G u)).value j x =
        (difference (discrete G u) (discrete G v)).value j x := by
      intro j x
      simp only [difference]
      ring
    simp only [neg_mul_neg, e] at this
    rw [← hsame] at this
    rw [add_comm]
    exact this

/-- **C79** (H1 semi norm, triangle) The same holds for the semi norms if the exact solution has order one (synthetic problem) or
`over_integrate` is two or more. -/
theorem C79_h1_triangle_partial (N : ℕ) (gauss : ℕ → List (ℝ × ℝ)) (hg : GaussUpTo N gauss) (G : Grid d ℝ) (hG : G.Complete)
    (hw : ∀ i, 0 < G.width i) (over : ℕ) (exact : LocalFn G.cells ℝ)
    (hN : gaussPoints (semiOrder (max exact.order elementOrder) over) ≤ N) (horder : exact.order ≤ 1 ∨ 2 ≤ over) (u v : Node G.cells → ℝ) :
    semi gauss G over (difference exact (discrete G u)) ≤
        semi gauss G over (difference exact (discrete G v)) + semi gauss G over (difference (discrete G u) (discrete G v)) ∧
      semi gauss G over (difference (discrete G u) (discrete G v)) ≤
        semi gauss G over (difference exact (discrete G u)) + semi gauss G over (difference exact (discrete G v)) := by
  set o := semiOrder (max exact.order elementOrder) over with ho
  have hgn := hg (gaussPoints o) (by simp only [gaussPoints]; omega) hN
  have hsame : semiSquare gauss G over (difference (discrete G u) (discrete G v)) =
      integrate gauss G o fun j x => (difference (discrete G u) (discrete G v)).grad j x ⬝ᵥ
        (difference (discrete G u) (discrete G v)).grad j x := by
    rcases horder with h | h
    · rw [semiSquare, (discrete_difference G u v).1]
      have : o = semiOrder 1 over := by rw [ho]; simp only [elementOrder]; rw [max_eq_right h]
      rw [this]
    · have hn : 2 ≤ gaussPoints o := by simp only [ho, gaussPoints, semiOrder, ellipticOrder, elementOrder]; omega
      rw [semi_any_rule gauss G hG o hn hgn, C79_h1_exact_partial N gauss hg G hG over h]
      refine le_trans ?_ hN
      simp only [ho, gaussPoints, semiOrder, ellipticOrder, elementOrder]
      omega
  have tri := fun F H : CellIndex G.cells → (Fin d → ℝ) → Fin d → ℝ => integrate_triangle gauss G hG hw o _ hgn F H
  constructor
  · have := tri (difference exact (discrete G v)).grad fun j x => -(difference (discrete G u) (discrete G v)).grad j x
    have e : ∀ j x, (difference exact (discrete G v)).grad j x + -(difference (discrete G u) (discrete G v)).grad j x =
        (difference exact (discrete G u)).grad j x := by
      intro j x
      simp only [difference]
      abel
    simp only [neg_dotProduct_neg, e] at this
    rw [← hsame] at this
    exact this
  · have := tri (difference exact (discrete G v)).grad fun j x => -(difference exact (discrete G u)).grad j x
    have e : ∀ j x, (difference exact (discrete G v)).grad j x + -(difference exact (discrete G u)).grad j x =
        (difference (discrete G u) (discrete G v)).grad j x := by
      intro j x
      simp only [difference]
      abel
    simp only [neg_dotProduct_neg, e] at this
    rw [← hsame] at this
    rw [add_comm]
    exact this

theorem cornerNode_inj {cells : Fin d → ℕ} (j : CellIndex cells) {v w : Fin d → Bool} (h : cornerNode j v = cornerNode j w) : v = w := by
  funext i
  have := congrArg Fin.val (congrFun h i)
  unfold cornerNode at this
  cases hv : v i <;> cases hw : w i <;> simp [hv, hw] at this ⊢

/-- one hat function: the midpoint rule loses a part -/
theorem mid_lt (hd : 2 ≤ d) (i : Fin d) (v : Fin d → Bool) (s : ℝ) (hs : s ≠ 0) :
    combination (slopeBasis i) (Pi.single v s) (fun _ => (1 / 2 : ℝ)) ^ 2 < ∫ x in cube d, combination (slopeBasis i) (Pi.single v s) x ^ 2 := by
  have hcomb : ∀ x : Fin d → ℝ, combination (slopeBasis i) (Pi.single v s) x ^ 2 =
      s ^ 2 * ∏ l, slopeBasis i l (v l) (x l) ^ 2 := by
    intro x
    rw [combination, Finset.sum_eq_single v (fun w _ hw => by rw [Pi.single_eq_of_ne hw, zero_mul]) (by simp), Pi.single_eq_same,
      mul_pow, Finset.prod_pow]
  simp only [hcomb]
  rw [MeasureTheory.integral_const_mul, integral_prod_cube fun l x => slopeBasis i l (v l) x ^ 2]
  have hint : ∀ l, ∫ x in Set.Icc (0 : ℝ) 1, slopeBasis i l (v l) x ^ 2 = if l = i then 1 else 1 / 3 := by
    intro l
    by_cases h : l = i
    · simp only [slopeBasis, h, if_true]
      cases v i <;> simp [hatSlope]
    · simp only [slopeBasis, h, if_false]
      cases v l
      · have := integral_affine 1 (-1) 1 (-1)
        norm_num at this
        rw [← this]
        refine MeasureTheory.integral_congr_ae (Filter.Eventually.of_forall fun x => ?_)
        simp [hat]
        ring
      · have := integral_affine 0 1 0 1
        norm_num at this
        rw [← this]
        refine MeasureTheory.integral_congr_ae (Filter.Eventually.of_forall fun x => ?_)
        simp [hat]
        ring
  have hmid : ∀ l, slopeBasis i l (v l) (1 / 2 : ℝ) ^ 2 = if l = i then 1 else 1 / 4 := by
    intro l
    by_cases h : l = i
    · simp only [slopeBasis, h, if_true]
      cases v i <;> simp [hatSlope]
    · simp only [slopeBasis, h, if_false]
      cases v l <;> norm_num [hat]
  simp only [hint, hmid]
  refine mul_lt_mul_of_pos_left ?_ (by positivity)
  obtain ⟨k, hk⟩ : ∃ k : Fin d, k ≠ i := by
    by_cases h : i.1 = 0
    · exact ⟨⟨1, by omega⟩, fun e => by rw [← e] at h; simp at h⟩
    · exact ⟨⟨0, by omega⟩, fun e => by rw [← e] at h; simp at h⟩
  refine Finset.prod_lt_prod (fun l _ => ?_) (fun l _ => ?_) ⟨k, Finset.mem_univ k, ?_⟩
  · split_ifs <;> norm_num
  · split_ifs <;> norm_num
  · rw [if_neg hk, if_neg hk]
    norm_num

/-- **C79** (the negation: triangle inequality of the semi norms) With an exact solution of order two or more (ER2007) and the default
`over_integrate` the three numbers are not distances: next to every discrete function there is one that differs from it at a single
node — an interior one, if the grid has any — such that the distance to the exact solution grows by more than the reported distance of
the two. -/
theorem C79_violated_triangle (N : ℕ) (gauss : ℕ → List (ℝ × ℝ)) (hg : GaussUpTo N gauss) (hd : 2 ≤ d) (G : Grid d ℝ) (hG : G.Complete)
    (hw : ∀ i, 0 < G.width i) (hc : ∀ i, 0 < G.cells i) (over : ℕ) (h1 : over ≤ 1) (exact : LocalFn G.cells ℝ) (h2 : 2 ≤ exact.order)
    (hN : gaussPoints (semiOrder (max exact.order elementOrder) over) ≤ N) (u : Node G.cells → ℝ) (g : Node G.cells) :
    ∃ v : Node G.cells → ℝ, (∀ g', g' ≠ g → v g' = u g') ∧
      semi gauss G over (difference exact (discrete G u)) + semi gauss G over (difference (discrete G v) (discrete G u)) <
        semi gauss G over (difference exact (discrete G v)) := by
  set o := semiOrder (max exact.order elementOrder) over with ho
  have hn : 2 ≤ gaussPoints o := by simp only [ho, gaussPoints, semiOrder, ellipticOrder, elementOrder]; omega
  have hgn := hg (gaussPoints o) (by omega) hN
  have hg1 := hg 1 le_rfl (by omega)
  have hg2 := hg 2 (by norm_num) (by omega)
  set w : Node G.cells → ℝ := Pi.single g 1 with hwdef
  set M := semiSquare gauss G over (difference (discrete G w) (discrete G 0)) with hM
  set E := exactSemi G w 0 with hE
  have hV : 0 < ∏ i, G.width i := Finset.prod_pos fun i _ => hw i
  have hlt : M < E := by
    rw [hM, hE, semi_default gauss hg1 G hG over h1, exactSemi_eq]
    have hcell : ∀ j, ∑ i, combination (slopeBasis i) (fun c => w (cornerNode j c) - (0 : Node G.cells → ℝ) (cornerNode j c))
          (fun _ => 1 / 2) ^ 2 / G.width i ^ 2 ≤
        ∑ i, (∫ x in cube d, combination (slopeBasis i) (fun c => w (cornerNode j c) - (0 : Node G.cells → ℝ) (cornerNode j c)) x ^ 2) /
          G.width i ^ 2 := fun j => Finset.sum_le_sum fun i _ =>
      div_le_div_of_nonneg_right (mid_le _ hg2 _ (slopeBasis_affine i) _) (by positivity)
    obtain ⟨j, c, hjc⟩ := cornerNode_surjective hc g
    refine Finset.sum_lt_sum (fun j _ => mul_le_mul_of_nonneg_left (hcell j) hV.le) ⟨j, Finset.mem_univ j, ?_⟩
    refine mul_lt_mul_of_pos_left ?_ hV
    refine Finset.sum_lt_sum (fun i _ => div_le_div_of_nonneg_right (mid_le _ hg2 _ (slopeBasis_affine i) _) (by positivity))
      ⟨⟨0, by omega⟩, Finset.mem_univ _, ?_⟩
    refine div_lt_div_of_pos_right ?_ (pow_pos (hw _) 2)
    have : (fun c' => w (cornerNode j c') - (0 : Node G.cells → ℝ) (cornerNode j c')) = Pi.single c 1 := by
      funext c'
      rw [Pi.zero_apply, sub_zero, hwdef]
      by_cases h : c' = c
      · rw [h, hjc, Pi.single_eq_same, Pi.single_eq_same]
      · rw [Pi.single_eq_of_ne h, Pi.single_eq_of_ne]
        intro h'
        exact h (cornerNode_inj j (h'.trans hjc.symm))
    rw [this]
    exact mid_lt hd _ c 1 one_ne_zero
  have hM0 : 0 ≤ M := by
    rw [hM, semi_default gauss hg1 G hG over h1]
    exact Finset.sum_nonneg fun j _ => mul_nonneg hV.le (Finset.sum_nonneg fun i _ => by positivity)
  have scale : ∀ (t : ℝ) (j : CellIndex G.cells) (i : Fin d) (x : Fin d → ℝ),
      combination (slopeBasis i) (fun c => (u + t • w) (cornerNode j c) - u (cornerNode j c)) x ^ 2 =
        t ^ 2 * combination (slopeBasis i) (fun c => w (cornerNode j c) - (0 : Node G.cells → ℝ) (cornerNode j c)) x ^ 2 := by
    intro t j i x
    rw [← mul_pow]
    congr 1
    simp only [combination, Pi.add_apply, Pi.smul_apply, smul_eq_mul, add_sub_cancel_left, Pi.zero_apply, sub_zero, Finset.mul_sum, mul_assoc]
  have hMt : ∀ t : ℝ, semiSquare gauss G over (difference (discrete G (u + t • w)) (discrete G u)) = t ^ 2 * M := by
    intro t
    rw [hM, semi_default gauss hg1 G hG over h1, semi_default gauss hg1 G hG over h1]
    simp only [scale, mul_div_assoc, ← Finset.mul_sum, mul_left_comm _ (t ^ 2)]
  have hEt : ∀ t : ℝ, exactSemi G (u + t • w) u = t ^ 2 * E := by
    intro t
    rw [hE, exactSemi_eq, exactSemi_eq]
    simp only [scale, MeasureTheory.integral_const_mul, mul_div_assoc, ← Finset.mul_sum, mul_left_comm _ (t ^ 2)]
  set A := semi gauss G over (difference exact (discrete G u)) with hA
  have hA0 : 0 ≤ A := Real.sqrt_nonneg _
  have hgap : 0 < Real.sqrt E - Real.sqrt M := sub_pos.mpr (Real.sqrt_lt_sqrt hM0 hlt)
  set t := 2 * A / (Real.sqrt E - Real.sqrt M) + 1 with ht
  have ht0 : 0 ≤ t := by positivity
  refine ⟨u + t • w, fun g' hg' => ?_, ?_⟩
  · rw [Pi.add_apply, Pi.smul_apply, hwdef, Pi.single_eq_of_ne hg', smul_zero, add_zero]
  have tri := integrate_triangle gauss G hG hw o _ hgn (difference exact (discrete G u)).grad
    fun j x => -(difference exact (discrete G (u + t • w))).grad j x
  have e : ∀ j x, (difference exact (discrete G u)).grad j x + -(difference exact (discrete G (u + t • w))).grad j x =
      (difference (discrete G (u + t • w)) (discrete G u)).grad j x := by
    intro j x
    simp only [difference]
    abel
  simp only [neg_dotProduct_neg, e] at tri
  rw [semi_any_rule gauss G hG o hn hgn, hEt, Real.sqrt_mul (sq_nonneg t), Real.sqrt_sq ht0] at tri
  have tri' : t * Real.sqrt E ≤ A + semi gauss G over (difference exact (discrete G (u + t • w))) := tri
  have hrep : semi gauss G over (difference (discrete G (u + t • w)) (discrete G u)) = t * Real.sqrt M := by
    rw [semi, hMt, Real.sqrt_mul (sq_nonneg t), Real.sqrt_sq ht0]
  rw [hrep]
  have : t * (Real.sqrt E - Real.sqrt M) = 2 * A + (Real.sqrt E - Real.sqrt M) := by
    rw [ht, add_mul, div_mul_cancel₀ _ hgap.ne', one_mul]
  nlinarith

/-- **C79** (triangle inequality of the semi norms, registered problems) The three numbers are distances for the synthetic problem, and
for ER2007 exactly with `over_integrate` two or more. -/
theorem C79_triangle_iff_partial (N : ℕ) (gauss : ℕ → List (ℝ × ℝ)) (hg : GaussUpTo N gauss) (hd : 2 ≤ d) (G : Grid d ℝ) (hG : G.Complete)
    (hw : ∀ i, 0 < G.width i) (hc : ∀ i, 0 < G.cells i) (over : ℕ) (p : Problem) (exact : LocalFn G.cells ℝ)
    (ho : exactOrder p = some exact.order) (hN : gaussPoints (semiOrder (max exact.order elementOrder) over) ≤ N) :
    (∀ u v : Node G.cells → ℝ, semi gauss G over (difference exact (discrete G v)) ≤
        semi gauss G over (difference exact (discrete G u)) + semi gauss G over (difference (discrete G v) (discrete G u))) ↔
      p = .synthetic ∨ 2 ≤ over := by
  have hp : exact.order = if p = .synthetic then 1 else 3 := by
    cases p <;> simp_all [exactOrder]
  constructor
  · intro h
    by_contra hcon
    push Not at hcon
    obtain ⟨v, -, hv⟩ := C79_violated_triangle N gauss hg hd G hG hw hc over (by omega) exact (by rw [hp, if_neg hcon.1]; norm_num) hN 0
      fun i => ⟨0, by omega⟩
    exact absurd (h 0 v) (not_le.mpr hv)
  · intro h u v
    refine (C79_h1_triangle_partial N gauss hg G hG hw over exact hN ?_ v u).1
    rcases h with rfl | h
    · exact Or.inl (by rw [hp, if_pos rfl])
    · exact Or.inr h

/-- **C79** (distance to the exact solution) The reported numbers are zero exactly if value, or gradient, of the exact solution agree with
the discrete function at the points of Gauss rules in all cells, with at least as many points per direction as the order of the exact
solution requires. -/
theorem C79_exact_zero_iff (N : ℕ) (gauss : ℕ → List (ℝ × ℝ)) (hg : GaussUpTo N gauss) (G : Grid d ℝ) (hG : G.Complete)
    (hw : ∀ i, 0 < G.width i) (over o : ℕ) (exact : (Fin d → ℝ) → ℝ) (gradient : (Fin d → ℝ) → Fin d → ℝ) (w : Node G.cells → ℝ)
    (hN : (2 * max o 1 + over) / 2 + 1 ≤ N) :
    (l2 gauss G over (difference (analytic G o exact gradient) (discrete G w)) = 0 ↔
        ∀ j, ∀ q ∈ tensor (gauss ((2 * max o 1 + over) / 2 + 1)) d, exact (position G j q.pos) = valueOf w j q.pos) ∧
      (semi gauss G over (difference (analytic G o exact gradient) (discrete G w)) = 0 ↔
        ∀ j, ∀ q ∈ tensor (gauss ((2 * (max o 1 - 1) + over) / 2 + 1)) d, gradient (position G j q.pos) = slope G w j q.pos) := by
  set f := difference (analytic G o exact gradient) (discrete G w) with hf
  have e1 : gaussPoints (productOrder f.order over) = (2 * max o 1 + over) / 2 + 1 := by
    show (max o 1 + max o 1 + over) / 2 + 1 = _
    omega
  have e2 : gaussPoints (semiOrder f.order over) = (2 * (max o 1 - 1) + over) / 2 + 1 := by
    show (0 + (max o 1 - 1) + (max o 1 - 1) + over) / 2 + 1 = _
    omega
  constructor
  · have hgn := hg _ (by omega) hN
    rw [← e1] at hgn
    obtain ⟨h0, hz⟩ := integrate_nonneg gauss G hG hw (productOrder f.order over) _ hgn (fun j x => f.value j x * f.value j x)
      fun j x => mul_self_nonneg _
    rw [l2, l2Square, Real.sqrt_eq_zero h0, hz, e1]
    refine forall_congr' fun j => forall₂_congr fun q _ => ?_
    rw [mul_self_eq_zero]
    exact sub_eq_zero
  · have hgn := hg ((2 * (max o 1 - 1) + over) / 2 + 1) (by omega) (by omega)
    rw [← e2] at hgn
    obtain ⟨h0, hz⟩ := integrate_nonneg gauss G hG hw (semiOrder f.order over) _ hgn (fun j x => f.grad j x ⬝ᵥ f.grad j x)
      fun j x => Finset.sum_nonneg fun i _ => mul_self_nonneg _
    rw [semi, semiSquare, Real.sqrt_eq_zero h0, hz, e2]
    refine forall_congr' fun j => forall₂_congr fun q _ => ?_
    rw [← gradOf_slope G [] w j q.pos, dotProduct, Finset.sum_eq_zero_iff_of_nonneg fun i _ => mul_self_nonneg _, funext_iff]
    simp only [Finset.mem_univ, forall_const, mul_self_eq_zero]
    exact forall_congr' fun i => sub_eq_zero

/-! ## The ratios -/

theorem norm_discrete (gauss : ℕ → List (ℝ × ℝ)) (G : Grid d ℝ) (over : ℕ) (u : Node G.cells → ℝ) :
    l2 gauss G over (discrete G u) = l2 gauss G over (difference (discrete G u) (discrete G 0)) := by
  have : ∀ j x, (difference (discrete G u) (discrete G 0)).value j x = (discrete G u).value j x := by
    intro j x
    simp [difference, discrete, valueOf]
  simp only [l2, l2Square, this]
  rfl

/-- **C79** (norm) The reported norm of the multiscale solution is its L2 norm. -/
theorem C79_norm (N : ℕ) (gauss : ℕ → List (ℝ × ℝ)) (hg : GaussUpTo N gauss) (G : Grid d ℝ) (hG : G.Complete) (over : ℕ)
    (hN : gaussPoints (productOrder elementOrder over) ≤ N) (u : Node G.cells → ℝ) :
    l2 gauss G over (discrete G u) = Real.sqrt (exactL2 G u 0) := by
  rw [norm_discrete, l2, C79_l2_exact N gauss hg G hG over hN]

/-- **C79** (relative difference to the coarse solution) The printed quotient is a number if the multiscale solution is not zero. -/
theorem C79_ratio_iff_partial (N : ℕ) (gauss : ℕ → List (ℝ × ℝ)) (hg : GaussUpTo N gauss) (G : Grid d ℝ) (hG : G.Complete)
    (hw : ∀ i, 0 < G.width i) (hc : ∀ i, 0 < G.cells i) (over : ℕ)
    (hN : gaussPoints (productOrder elementOrder over) ≤ N) (msfem coarse : Node G.cells → ℝ) :
    (∃ x, relativeCoarse (l2 gauss G over (difference (discrete G msfem) (discrete G coarse))) (l2 gauss G over (discrete G msfem)) =
      .number x) ↔ msfem ≠ 0 := by
  have hz := C79_l2_zero N gauss hg G hG hw hc over hN msfem 0
  rw [← norm_discrete] at hz
  rw [Ne, ← hz, relativeCoarse, divide]
  split_ifs with h <;> simp [h]

/-- **C79** (the negation: relative difference to the coarse solution) For a multiscale solution that is zero the program prints `nan`, or
`inf`, although the relative difference to the fine solution, a few lines on, is guarded. -/
theorem C79_violated_ratio (N : ℕ) (gauss : ℕ → List (ℝ × ℝ)) (hg : GaussUpTo N gauss) (G : Grid d ℝ) (hG : G.Complete)
    (hw : ∀ i, 0 < G.width i) (hc : ∀ i, 0 < G.cells i) (over : ℕ)
    (hN : gaussPoints (productOrder elementOrder over) ≤ N) (coarse : Node G.cells → ℝ) :
    relativeCoarse (l2 gauss G over (difference (discrete G 0) (discrete G coarse))) (l2 gauss G over (discrete G 0)) =
      if coarse = 0 then .nan else .infinite := by
  have h0 : l2 gauss G over (discrete G 0) = 0 := by
    rw [norm_discrete, C79_l2_zero N gauss hg G hG hw hc over hN]
  rw [relativeCoarse, divide, if_pos h0]
  simp only [C79_l2_zero N gauss hg G hG hw hc over hN, eq_comm (a := (0 : Node G.cells → ℝ))]

/-- **C79** (relative difference to the fine solution) It is a number for every solution: the relative difference up to a norm of `1e-12`. -/
theorem C79_ratio_fine (error norm : ℝ) :
    (1 / 1000000000000 < |norm| → relativeFine error norm = .number (error / norm)) ∧
      (|norm| ≤ 1 / 1000000000000 → relativeFine error norm = .number error) := by
  constructor
  · intro h
    have : norm ≠ 0 := by
      rintro rfl
      norm_num at h
    rw [relativeFine, if_pos h, divide, if_neg this]
  · intro h
    rw [relativeFine, if_neg (not_lt.mpr h)]

/-! ## Instances -/

/-- The Gauss rules with up to four points, the number that the L2 norm of an error of order three takes. -/
noncomputable def legendreFour (n : ℕ) : List (ℝ × ℝ) :=
  if n = 4 then
    let r := Real.sqrt (6 / 5)
    let a := Real.sqrt (3 / 7 - 2 / 7 * r)
    let b := Real.sqrt (3 / 7 + 2 / 7 * r)
    [(1 / 2 - a / 2, (18 + 5 * r) / 72), (1 / 2 + a / 2, (18 + 5 * r) / 72), (1 / 2 - b / 2, (18 - 5 * r) / 72),
      (1 / 2 + b / 2, (18 - 5 * r) / 72)]
  else legendre n

theorem legendreFour_gauss : GaussUpTo 4 legendreFour := by
  intro n h1 h4
  by_cases hn : n = 4
  · subst hn
    have hr0 : 0 ≤ Real.sqrt (6 / 5) := Real.sqrt_nonneg _
    have hr : Real.sqrt (6 / 5) ^ 2 = 6 / 5 := Real.sq_sqrt (by norm_num)
    have e : legendreFour 4 = [(1 / 2 - Real.sqrt (3 / 7 - 2 / 7 * Real.sqrt (6 / 5)) / 2, (18 + 5 * Real.sqrt (6 / 5)) / 72),
        (1 / 2 + Real.sqrt (3 / 7 - 2 / 7 * Real.sqrt (6 / 5)) / 2, (18 + 5 * Real.sqrt (6 / 5)) / 72),
        (1 / 2 - Real.sqrt (3 / 7 + 2 / 7 * Real.sqrt (6 / 5)) / 2, (18 - 5 * Real.sqrt (6 / 5)) / 72),
        (1 / 2 + Real.sqrt (3 / 7 + 2 / 7 * Real.sqrt (6 / 5)) / 2, (18 - 5 * Real.sqrt (6 / 5)) / 72)] := rfl
    rw [e]
    clear e
    generalize Real.sqrt (6 / 5) = r at *
    have hr1 : r < 3 / 2 := by nlinarith
    have ha2 : Real.sqrt (3 / 7 - 2 / 7 * r) ^ 2 = ((3 / 7) + (-2 / 7) * r) := by
      rw [Real.sq_sqrt (by linarith)]
      ring
    have hb2 : Real.sqrt (3 / 7 + 2 / 7 * r) ^ 2 = ((3 / 7) + (2 / 7) * r) := by
      rw [Real.sq_sqrt (by linarith)]
    generalize Real.sqrt (3 / 7 - 2 / 7 * r) = a at *
    generalize Real.sqrt (3 / 7 + 2 / 7 * r) = b at *
    have ha4 : a ^ 4 = ((69 / 245) + (-12 / 49) * r) := by linear_combination (a ^ 2 + ((3 / 7) + (-2 / 7) * r)) * ha2 + (4 / 49) * hr
    have hb4 : b ^ 4 = ((69 / 245) + (12 / 49) * r) := by linear_combination (b ^ 2 + ((3 / 7) + (2 / 7) * r)) * hb2 + (4 / 49) * hr
    have ha6 : a ^ 6 = ((351 / 1715) + (-318 / 1715) * r) := by linear_combination a ^ 2 * ha4 + ((69 / 245) + (-12 / 49) * r) * ha2 + (24 / 343) * hr
    have hb6 : b ^ 6 = ((351 / 1715) + (318 / 1715) * r) := by linear_combination b ^ 2 * hb4 + ((69 / 245) + (12 / 49) * r) * hb2 + (24 / 343) * hr
    refine ⟨rfl, ?_, fun k hk => ?_⟩
    · intro pw hpw
      simp only [List.mem_cons, List.not_mem_nil, or_false] at hpw
      rcases hpw with rfl | rfl | rfl | rfl <;> simp only <;> linarith
    interval_cases k <;> simp only [List.map_cons, List.map_nil, List.sum_cons, List.sum_nil, Nat.cast_ofNat, Nat.cast_zero, Nat.cast_one]
    · linear_combination (0 : ℝ) * hr
    · linear_combination (0 : ℝ) * hr
    · linear_combination (1 / 2) * ((18 + 5 * r) / 72) * ha2 + (1 / 2) * ((18 - 5 * r) / 72) * hb2 + (-5 / 252) * hr
    · linear_combination (3 / 4) * ((18 + 5 * r) / 72) * ha2 + (3 / 4) * ((18 - 5 * r) / 72) * hb2 + (-5 / 168) * hr
    · linear_combination (3 / 4) * ((18 + 5 * r) / 72) * ha2 + (3 / 4) * ((18 - 5 * r) / 72) * hb2 + (1 / 8) * ((18 + 5 * r) / 72) * ha4 + (1 / 8) * ((18 - 5 * r) / 72) * hb4 + (-5 / 147) * hr
    · linear_combination (5 / 8) * ((18 + 5 * r) / 72) * ha2 + (5 / 8) * ((18 - 5 * r) / 72) * hb2 + (5 / 16) * ((18 + 5 * r) / 72) * ha4 + (5 / 16) * ((18 - 5 * r) / 72) * hb4 + (-125 / 3528) * hr
    · linear_combination (15 / 32) * ((18 + 5 * r) / 72) * ha2 + (15 / 32) * ((18 - 5 * r) / 72) * hb2 + (15 / 32) * ((18 + 5 * r) / 72) * ha4 + (15 / 32) * ((18 - 5 * r) / 72) * hb4 + (1 / 32) * ((18 + 5 * r) / 72) * ha6 + (1 / 32) * ((18 - 5 * r) / 72) * hb6 + (-97 / 2744) * hr
    · linear_combination (21 / 64) * ((18 + 5 * r) / 72) * ha2 + (21 / 64) * ((18 - 5 * r) / 72) * hb2 + (35 / 64) * ((18 + 5 * r) / 72) * ha4 + (35 / 64) * ((18 - 5 * r) / 72) * hb4 + (7 / 64) * ((18 + 5 * r) / 72) * ha6 + (7 / 64) * ((18 - 5 * r) / 72) * hb6 + (-27 / 784) * hr
  · rw [legendreFour, if_neg hn]
    exact legendre_gauss n h1 (by omega)

theorem cubes_complete (p : Problem) (d N : ℕ) : (cubes p d N).Complete :=
  ⟨Finset.nodup_toList _, fun j => Finset.mem_toList.mpr (Finset.mem_univ j)⟩

theorem cubes_width (p : Problem) (d N : ℕ) (hN : 0 < N) (i : Fin d) : 0 < (cubes p d N).width i := by
  have : (0 : ℝ) < N := by exact_mod_cast hN
  simpa [cubes] using this

/-- Instance of C79_l2_triangle: ER2007 with the default `over_integrate`, rule with four points. -/
example (N : ℕ) (hN : 0 < N) (exact : (Fin 2 → ℝ) → ℝ) (gradient : (Fin 2 → ℝ) → Fin 2 → ℝ) (u v : Node (cubes .er2007 2 N).cells → ℝ) :
    let G := cubes .er2007 2 N
    let reported := fun w => l2 legendreFour G 0 (difference (analytic G 3 exact gradient) (discrete G w))
    reported u ≤ reported v + Real.sqrt (exactL2 G u v) := by
  have h := (C79_l2_triangle 4 legendreFour legendreFour_gauss (cubes .er2007 2 N) (cubes_complete _ _ _) (cubes_width _ _ _ hN) 0
    (analytic (cubes .er2007 2 N) 3 exact gradient) (by simp [analytic, productOrder, elementOrder, gaussPoints]) u v).1
  unfold l2 at h ⊢
  rwa [C79_l2_exact 4 legendreFour legendreFour_gauss _ (cubes_complete _ _ _) 0
    (by simp [productOrder, elementOrder, gaussPoints])] at h

/-- Instance of C79_violated_h1: for the unit square with any number of cells there are functions a million apart with reported distance
zero. -/
example (N : ℕ) (hN : 0 < N) : ∃ u : Node (cubes .er2007 2 N).cells → ℝ,
    semi legendreFour (cubes .er2007 2 N) 0 (difference (discrete _ u) (discrete _ 0)) = 0 ∧ 1000000 < exactSemi (cubes .er2007 2 N) u 0 :=
  C79_violated_h1 4 (by norm_num) legendreFour legendreFour_gauss le_rfl _ (cubes_complete _ _ _) (cubes_width _ _ _ hN) (fun _ => hN) 0
    (by norm_num) 0 _

/-- Instance of C79_violated_triangle: ER2007 on the unit square with two cells per direction, difference at the middle node only. -/
example (exact : (Fin 2 → ℝ) → ℝ) (gradient : (Fin 2 → ℝ) → Fin 2 → ℝ) (u : Node (cubes .er2007 2 2).cells → ℝ) :
    let G := cubes .er2007 2 2
    let reported := fun w => semi legendreFour G 0 (difference (analytic G 3 exact gradient) (discrete G w))
    ∃ v : Node G.cells → ℝ, (∀ g, g ≠ (fun _ => 1) → v g = u g) ∧
      reported u + semi legendreFour G 0 (difference (discrete G v) (discrete G u)) < reported v :=
  C79_violated_triangle 4 legendreFour legendreFour_gauss le_rfl _ (cubes_complete _ _ _) (cubes_width _ _ _ (by norm_num))
    (fun _ => by simp [cubes]) 0 (by norm_num) (analytic (cubes .er2007 2 2) 3 exact gradient) (by simp [analytic])
    (by simp [analytic, semiOrder, ellipticOrder, elementOrder, gaussPoints]) u fun _ => 1

/-- Instance of C79_h1_dirichlet_iff_partial: the unit cube with two cells per direction.  SPE10 and Tarbert in three dimensions have
solutions with the same Dirichlet values at reported distance zero, ER2007 has none. -/
example (close : (Fin 3 → ℚ) → (Fin 3 → ℚ) → Bool) (hc : Tolerance close) (p : Problem) :
    ∃ info, boundaryInfo 3 p none = .ok info ∧
      ((∀ u v : Node (cubes p 3 2).cells → ℝ, (∀ g, dirichletNodes close info outerNormal (cubes p 3 2).cells g = true → u g = v g) →
        semi legendreFour (cubes p 3 2) 0 (difference (discrete _ u) (discrete _ v)) = 0 → u = v) ↔ p = .synthetic ∨ p = .er2007) := by
  have hn : ∀ f : Face 3, Computed (outerNormal f) f := fun f => by intro i; simp
  obtain ⟨info, hi, h⟩ := C79_h1_dirichlet_iff_partial (Or.inr rfl) close hc p outerNormal hn legendreFour
    (legendreFour_gauss 1 le_rfl (by norm_num))
  refine ⟨info, hi, (h (cubes p 3 2) (cubes_complete _ _ _) (cubes_width _ _ _ (by norm_num)) (fun _ => by simp [cubes]) 0
    (by norm_num)).trans ?_⟩
  simp [cubes]

end Verif.ErrorNorms
