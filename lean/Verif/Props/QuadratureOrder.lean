import Verif.Props.ErrorNorms
import Mathlib.Algebra.MvPolynomial.Degrees
import Mathlib.Topology.Algebra.MvPolynomial

/-!
# C89: accuracy of the integrals
-/

namespace Verif.QuadratureOrder
open Matrix Verif.CoarseAssembly Verif.Q1Grid Verif.Boundary Verif.Quadrature Verif.ErrorNorms MvPolynomial

variable {d : ℕ}

/-! ## Specification -/

/-- The rule gives the integrals of source times shape function for all polynomial sources up to total degree `s`.  Polynomials in
coordinates of the reference cell are the same as polynomials in global coordinates. -/
def LoadExact (rule : List (QPoint d ℝ)) (s : ℕ) : Prop :=
  ∀ f : MvPolynomial (Fin d) ℝ, f.totalDegree ≤ s → ∀ v : Fin d → Bool,
    (rule.map fun q => q.weight * (eval q.pos f * shape v q.pos)).sum = ∫ x in cube d, eval x f * shape v x

/-- The rule gives the integrals of an entry of the diffusion tensor times derivatives of two shape functions for all polynomial entries up to
total degree `a`. -/
def MatrixExact (rule : List (QPoint d ℝ)) (a : ℕ) : Prop :=
  ∀ f : MvPolynomial (Fin d) ℝ, f.totalDegree ≤ a → ∀ (v w : Fin d → Bool) (i j : Fin d),
    (rule.map fun q => q.weight * (eval q.pos f * (shapeGrad v q.pos i * shapeGrad w q.pos j))).sum =
      ∫ x in cube d, eval x f * (shapeGrad v x i * shapeGrad w x j)

/-! ## Polynomials -/

theorem integral_power (k : ℕ) : ∫ x in Set.Icc (0 : ℝ) 1, x ^ k = 1 / ((k : ℝ) + 1) := by
  rw [MeasureTheory.integral_Icc_eq_integral_Ioc, ← intervalIntegral.integral_of_le zero_le_one, integral_pow]
  simp

theorem list_sum_comm {α β : Type} (l : List α) (s : Finset β) (g : α → β → ℝ) :
    (l.map fun a => ∑ b ∈ s, g a b).sum = ∑ b ∈ s, (l.map fun a => g a b).sum := by
  induction l with
  | nil => simp
  | cons a l ih => simp only [List.map_cons, List.sum_cons, ih, Finset.sum_add_distrib]

/-- The tensor rule is exact for polynomials of degree less than `2 n` in each direction. -/
theorem rule_polynomial (n : ℕ) (l : List (ℝ × ℝ)) (h : IsGauss n l) (f : MvPolynomial (Fin d) ℝ) (hf : ∀ i, f.degreeOf i < 2 * n) :
    ((tensor l d).map fun q => q.weight * eval q.pos f).sum = ∫ x in cube d, eval x f := by
  have hc : IsCompact (cube d) := isCompact_univ_pi fun _ => isCompact_Icc
  simp only [eval_eq', Finset.mul_sum]
  rw [list_sum_comm, MeasureTheory.integral_finsetSum]
  · refine Finset.sum_congr rfl fun m hm => ?_
    rw [MeasureTheory.integral_const_mul, integral_prod_cube fun i x => x ^ m i]
    simp only [integral_power]
    rw [← C78_exact n l h d m fun i => (monomial_le_degreeOf i hm).trans_lt (hf i), ← List.sum_map_mul_left]
    refine congrArg List.sum (List.map_congr_left fun q _ => ?_)
    ring
  · intro m _
    apply ContinuousOn.integrableOn_compact hc
    apply Continuous.continuousOn
    fun_prop

/-- shape function as a polynomial -/
noncomputable def shapePoly (v : Fin d → Bool) : MvPolynomial (Fin d) ℝ := ∏ l, if v l then X l else 1 - X l

/-- derivative of a shape function as a polynomial -/
noncomputable def gradPoly (v : Fin d → Bool) (i : Fin d) : MvPolynomial (Fin d) ℝ :=
  ∏ l, if l = i then C (hatSlope (v l)) else if v l then X l else 1 - X l

theorem eval_shapePoly (v : Fin d → Bool) (x : Fin d → ℝ) : eval x (shapePoly v) = shape v x := by
  simp only [shapePoly, shape, map_prod, hat]
  refine Finset.prod_congr rfl fun l _ => ?_
  split_ifs <;> simp

theorem eval_gradPoly (v : Fin d → Bool) (i : Fin d) (x : Fin d → ℝ) : eval x (gradPoly v i) = shapeGrad v x i := by
  simp only [gradPoly, shapeGrad, map_prod, hat]
  refine Finset.prod_congr rfl fun l _ => ?_
  split_ifs <;> simp

theorem degreeOf_factor (b : Bool) (l i : Fin d) : degreeOf i (if b then X l else 1 - X l : MvPolynomial (Fin d) ℝ) ≤ if l = i then 1 else 0 := by
  have hX : degreeOf i (X l : MvPolynomial (Fin d) ℝ) = if l = i then 1 else 0 := by
    rw [degreeOf_X]
    simp [eq_comm]
  cases b
  · refine (degreeOf_sub_le i 1 (X l)).trans ?_
    rw [hX, show (1 : MvPolynomial (Fin d) ℝ) = C 1 from C_1.symm, degreeOf_C]
    simp
  · simp [hX]

theorem degreeOf_shapePoly (v : Fin d → Bool) (i : Fin d) : degreeOf i (shapePoly v) ≤ 1 := by
  refine (degreeOf_prod_le _ _ _).trans ((Finset.sum_le_sum fun l _ => degreeOf_factor (v l) l i).trans ?_)
  simp

theorem degreeOf_gradPoly (v : Fin d → Bool) (j i : Fin d) : degreeOf i (gradPoly v j) ≤ 1 := by
  refine (degreeOf_prod_le _ _ _).trans ((Finset.sum_le_sum (g := fun l => if l = i then 1 else 0) fun l _ => ?_).trans ?_)
  · by_cases h : l = j
    · rw [if_pos h, degreeOf_C]
      exact Nat.zero_le _
    · rw [if_neg h]
      exact degreeOf_factor (v l) l i
  · simp

theorem loadExact_gauss (n : ℕ) (l : List (ℝ × ℝ)) (h : IsGauss n l) (s : ℕ) (hs : s + 1 < 2 * n) : LoadExact (tensor l d) s := by
  intro f hf v
  simp only [← eval_shapePoly, ← map_mul]
  refine rule_polynomial n l h _ fun i => ?_
  have h1 := degreeOf_mul_le i f (shapePoly v)
  have h2 := degreeOf_le_totalDegree f i
  have h3 := degreeOf_shapePoly v i
  omega

theorem matrixExact_gauss (n : ℕ) (l : List (ℝ × ℝ)) (h : IsGauss n l) (a : ℕ) (ha : a + 2 < 2 * n) : MatrixExact (tensor l d) a := by
  intro f hf v w i j
  simp only [← eval_gradPoly, ← map_mul]
  refine rule_polynomial n l h _ fun k => ?_
  have h1 := degreeOf_mul_le k f (gradPoly v i * gradPoly w j)
  have h2 := degreeOf_le_totalDegree f k
  have h3 := degreeOf_mul_le k (gradPoly v i) (gradPoly w j)
  have h4 := degreeOf_gradPoly v i k
  have h5 := degreeOf_gradPoly w j k
  omega

/-! ## Rules with too few points -/

/-- Two points do not integrate the fourth power. -/
theorem gauss_two_fourth (l : List (ℝ × ℝ)) (h : IsGauss 2 l) : (l.map fun pw => pw.2 * pw.1 ^ 4).sum = 7 / 36 := by
  obtain ⟨⟨p, w⟩, ⟨r, u⟩, rfl⟩ := List.length_eq_two.mp h.length
  have h0 := h.moments 0 (by norm_num)
  have h1 := h.moments 1 (by norm_num)
  have h2 := h.moments 2 (by norm_num)
  have h3 := h.moments 3 (by norm_num)
  simp only [List.map_cons, List.map_nil, List.sum_cons, List.sum_nil, add_zero] at *
  norm_num at h0 h1 h2 h3
  -- sum and product of the points
  have e1 : 1 / 3 - (p + r) * (1 / 2) + p * r = 0 := by linear_combination -h2 + (p + r) * h1 - p * r * h0
  have e2 : 1 / 4 - (p + r) * (1 / 3) + p * r * (1 / 2) = 0 := by linear_combination -h3 + (p + r) * h2 - p * r * h1
  have e3 : p + r = 1 := by linear_combination -12 * e2 + 6 * e1
  have e4 : p * r = 1 / 6 := by linear_combination e1 + (1 / 2) * e3
  have : w * p ^ 4 + u * r ^ 4 = (p + r) * (w * p ^ 3 + u * r ^ 3) - p * r * (w * p ^ 2 + u * r ^ 2) := by ring
  rw [this, e3, e4, h2, h3]
  norm_num

theorem hat_true (t : ℝ) : hat true t = t := rfl

/-- Power of one coordinate times a shape function. -/
theorem power_shape (z : Fin d) (k : ℕ) (x : Fin d → ℝ) :
    eval x (X z ^ k : MvPolynomial (Fin d) ℝ) * shape (fun _ => true) x = ∏ l, (if l = z then x l ^ (k + 1) else x l) := by
  rw [map_pow, eval_X, shape, ← Finset.mul_prod_erase _ _ (Finset.mem_univ z), ← Finset.mul_prod_erase _ _ (Finset.mem_univ z), if_pos rfl,
    hat_true, ← mul_assoc, ← pow_succ]
  congr 1
  refine Finset.prod_congr rfl fun l hl => ?_
  rw [if_neg (Finset.ne_of_mem_erase hl), hat_true]

theorem not_loadExact (l : List (ℝ × ℝ)) (h : IsGauss 2 l) (z : Fin d) : ¬ LoadExact (tensor l d) 3 := by
  intro hx
  have h1 := hx (X z ^ 3) (by rw [totalDegree_X_pow]) fun _ => true
  simp only [power_shape, Nat.reduceAdd] at h1
  rw [tensor_prod l d fun i x => if i = z then x ^ 4 else x, integral_prod_cube fun i x => if i = z then x ^ 4 else x,
    ← Finset.mul_prod_erase _ _ (Finset.mem_univ z), ← Finset.mul_prod_erase _ _ (Finset.mem_univ z)] at h1
  have h2 : ∀ i ∈ Finset.univ.erase z, (l.map fun pw => pw.2 * if i = z then pw.1 ^ 4 else pw.1).sum =
      ∫ x in Set.Icc (0 : ℝ) 1, if i = z then x ^ 4 else x := by
    intro i hi
    simp only [if_neg (Finset.ne_of_mem_erase hi)]
    have h3 := h.moments 1 (by norm_num)
    have h4 := integral_power 1
    simp only [pow_one] at h3 h4
    rw [h3, h4]
  rw [Finset.prod_congr rfl h2] at h1
  have h5 : ∏ i ∈ Finset.univ.erase z, ∫ x in Set.Icc (0 : ℝ) 1, (if i = z then x ^ 4 else x) ≠ 0 := by
    refine Finset.prod_ne_zero_iff.mpr fun i hi => ?_
    simp only [if_neg (Finset.ne_of_mem_erase hi)]
    have h4 := integral_power 1
    simp only [pow_one] at h4
    rw [h4]
    norm_num
  have h6 := mul_right_cancel₀ h5 h1
  simp only [if_true] at h6
  rw [gauss_two_fourth l h, integral_power] at h6
  norm_num at h6

/-- Power of one coordinate times the derivatives of a shape function in another direction. -/
theorem power_grad (z y : Fin d) (hzy : z ≠ y) (k : ℕ) (x : Fin d → ℝ) :
    eval x (X z ^ k : MvPolynomial (Fin d) ℝ) * (shapeGrad (fun _ => true) x y * shapeGrad (fun _ => true) x y) =
      ∏ l, (if l = z then x l ^ (k + 2) else if l = y then 1 else x l ^ 2) := by
  rw [map_pow, eval_X, shapeGrad, ← Finset.prod_mul_distrib, ← Finset.mul_prod_erase _ _ (Finset.mem_univ z),
    ← Finset.mul_prod_erase _ _ (Finset.mem_univ z), if_pos rfl, if_neg hzy, hat_true, ← mul_assoc]
  congr 1
  · ring
  · refine Finset.prod_congr rfl fun l hl => ?_
    rw [if_neg (Finset.ne_of_mem_erase hl), hat_true]
    split_ifs
    · simp [hatSlope]
    · ring

theorem not_matrixExact (n : ℕ) (l : List (ℝ × ℝ)) (h : IsGauss n l) (a : ℕ) (z y : Fin d) (hzy : z ≠ y)
    (h2 : (l.map fun pw => pw.2 * pw.1 ^ 2).sum ≤ 1 / 3) (h2' : 0 < (l.map fun pw => pw.2 * pw.1 ^ 2).sum) (hn : 1 ≤ n)
    (hk : (l.map fun pw => pw.2 * pw.1 ^ (a + 2)).sum < 1 / ((a : ℝ) + 3)) : ¬ MatrixExact (tensor l d) a := by
  intro hx
  have h1 := hx (X z ^ a) (by rw [totalDegree_X_pow]) (fun _ => true) (fun _ => true) y y
  simp only [power_grad z y hzy] at h1
  rw [tensor_prod l d fun i x => if i = z then x ^ (a + 2) else if i = y then 1 else x ^ 2,
    integral_prod_cube fun i x => if i = z then x ^ (a + 2) else if i = y then 1 else x ^ 2,
    ← Finset.mul_prod_erase _ _ (Finset.mem_univ z), ← Finset.mul_prod_erase _ _ (Finset.mem_univ z)] at h1
  have hle : ∏ i ∈ Finset.univ.erase z, (l.map fun pw => pw.2 * if i = z then pw.1 ^ (a + 2) else if i = y then 1 else pw.1 ^ 2).sum ≤
      ∏ i ∈ Finset.univ.erase z, ∫ x in Set.Icc (0 : ℝ) 1, (if i = z then x ^ (a + 2) else if i = y then 1 else x ^ 2) := by
    refine Finset.prod_le_prod (fun i hi => ?_) fun i hi => ?_ <;> simp only [if_neg (Finset.ne_of_mem_erase hi)] <;> by_cases hy : i = y
    · simp only [if_pos hy, mul_one]
      have := h.moments 0 (by omega)
      simp only [pow_zero, mul_one] at this
      rw [this]
      norm_num
    · simp only [if_neg hy]
      exact h2'.le
    · simp only [if_pos hy, mul_one]
      have := h.moments 0 (by omega)
      simp only [pow_zero, mul_one] at this
      have h0 := integral_power 0
      simp only [pow_zero] at h0
      rw [this, h0]
    · simp only [if_neg hy]
      rw [integral_power]
      exact h2.trans (by norm_num)
  have hpos : 0 < ∏ i ∈ Finset.univ.erase z, (l.map fun pw => pw.2 * if i = z then pw.1 ^ (a + 2) else if i = y then 1 else pw.1 ^ 2).sum := by
    refine Finset.prod_pos fun i hi => ?_
    simp only [if_neg (Finset.ne_of_mem_erase hi)]
    by_cases hy : i = y
    · simp only [if_pos hy, mul_one]
      have := h.moments 0 (by omega)
      simp only [pow_zero, mul_one] at this
      rw [this]
      norm_num
    · simp only [if_neg hy]
      exact h2'
  simp only [if_true] at h1
  rw [integral_power] at h1
  push_cast at h1
  have e : (1 : ℝ) / ((a : ℝ) + 2 + 1) = 1 / ((a : ℝ) + 3) := by ring_nf
  rw [e] at h1
  have h3 : (0 : ℝ) < 1 / ((a : ℝ) + 3) := by positivity
  have h4 := mul_lt_mul_of_pos_right hk hpos
  have h5 := mul_le_mul_of_nonneg_left hle h3.le
  linarith

/-! ## The rules of the program -/

/-- **C89** (coarse matrix) The rule of the coarse matrix is exact for diffusions of the declared order. -/
theorem C89_coarse_matrix (gauss : ℕ → List (ℝ × ℝ)) (hg : GaussRules gauss) (p : Problem) :
    MatrixExact (coarseMatrixRule gauss p d) (diffusionOrder p) := by
  cases p
  case random => exact matrixExact_gauss 2 _ (hg 2 (by norm_num) (by norm_num)) 1 (by norm_num)
  all_goals exact matrixExact_gauss 3 _ (hg 3 (by norm_num) (by norm_num)) 2 (by norm_num)

/-- **C89** (reference load) The rule of the load of the reference problem is exact for sources of the declared order. -/
theorem C89_reference_load (gauss : ℕ → List (ℝ × ℝ)) (hg : GaussRules gauss) (p : Problem) :
    LoadExact (referenceLoadRule gauss p d) (sourceOrder p) := by
  cases p
  case random => exact loadExact_gauss 1 _ (hg 1 (by norm_num) (by norm_num)) 0 (by norm_num)
  case synthetic => exact loadExact_gauss 2 _ (hg 2 (by norm_num) (by norm_num)) 1 (by norm_num)
  all_goals exact loadExact_gauss 3 _ (hg 3 (by norm_num) (by norm_num)) 3 (by norm_num)

/-- **C89** (coarse load; partial) The rule of the coarse load is chosen by the order of the diffusion.  It is exact for sources of the
declared order exactly for the synthetic and the random problem, not for ER2007, SPE10 and Tarbert. -/
theorem C89_coarse_load_partial (gauss : ℕ → List (ℝ × ℝ)) (hg : GaussRules gauss) (hd : 0 < d) (p : Problem) :
    LoadExact (coarseLoadRule gauss p d) (sourceOrder p) ↔ p = .synthetic ∨ p = .random := by
  have h2 := hg 2 (by norm_num) (by norm_num)
  cases p
  case synthetic => exact ⟨fun _ => Or.inl rfl, fun _ => loadExact_gauss 2 _ h2 1 (by norm_num)⟩
  case random => exact ⟨fun _ => Or.inr rfl, fun _ => loadExact_gauss 2 _ h2 0 (by norm_num)⟩
  all_goals exact ⟨fun h => absurd h (not_loadExact _ h2 ⟨0, hd⟩), fun h => by rcases h with h | h <;> cases h⟩

/-- **C89 is violated** for the systems of the local problems and of the reference problem: no problem has an exact rule for diffusions of
its declared order; the right-hand sides of the local problems have one exactly for the random problem. -/
theorem C89_violated_operator (gauss : ℕ → List (ℝ × ℝ)) (hg : GaussRules gauss) (hd : 2 ≤ d) (p : Problem) :
    ¬ MatrixExact (ellipticRule gauss p d) (diffusionOrder p) ∧
      (MatrixExact (functionalRule gauss p d) (diffusionOrder p) ↔ p = .random) := by
  have h1 := hg 1 (by norm_num) (by norm_num)
  have h2 := hg 2 (by norm_num) (by norm_num)
  have hz : (⟨0, by omega⟩ : Fin d) ≠ ⟨1, by omega⟩ := by simp
  have n2 : ¬ MatrixExact (tensor (gauss 2) d) 2 := by
    refine not_matrixExact 2 _ h2 2 _ _ hz ?_ ?_ (by norm_num) ?_
    · rw [h2.moments 2 (by norm_num)]; norm_num
    · rw [h2.moments 2 (by norm_num)]; norm_num
    · rw [gauss_two_fourth _ h2]; norm_num
  have n1 : ¬ MatrixExact (tensor (gauss 1) d) 1 := by
    refine not_matrixExact 1 _ h1 1 _ _ hz ?_ ?_ (by norm_num) ?_ <;> rw [gauss_one _ h1] <;> norm_num
  cases p
  case random => exact ⟨n1, fun _ => rfl, fun _ => matrixExact_gauss 2 _ h2 1 (by norm_num)⟩
  all_goals exact ⟨n2, fun h => absurd h n2, fun h => by cases h⟩

/-- **C89** (`over_integrate`) Whatever the order of the diffusion: with the constructor argument `over_integrate` both coarse rules are exact for
data whose order exceeds that of the diffusion by as much; in particular `over_integrate = 1` suffices for the sources of all problems. -/
theorem C89_over (gauss : ℕ → List (ℝ × ℝ)) (a over n n' : ℕ) (hn : gaussPoints (coarseMatrixOrder a elementOrder elementOrder over) = n)
    (hn' : gaussPoints (coarseLoadOrder a elementOrder over) = n') (hg : IsGauss n (gauss n)) (hg' : IsGauss n' (gauss n')) :
    MatrixExact (tensor (gauss n) d) (a + over) ∧ LoadExact (tensor (gauss n') d) (a + over) ∧
      ∀ p, a = diffusionOrder p → over = 1 → LoadExact (tensor (gauss n') d) (sourceOrder p) := by
  simp only [gaussPoints, coarseMatrixOrder, coarseLoadOrder, elementOrder] at hn hn'
  refine ⟨matrixExact_gauss n _ hg _ (by omega), loadExact_gauss n' _ hg' _ (by omega), fun p ha ho => loadExact_gauss n' _ hg' _ ?_⟩
  cases p <;> simp only [diffusionOrder, sourceOrder] at ha ⊢ <;> omega

/-- Instance: ER2007 with `over_integrate = 1`, three points per direction. -/
example : LoadExact (tensor (legendre 3) 2) 3 :=
  (C89_over legendre 2 1 3 3 rfl rfl (legendre_gauss 3 (by norm_num) le_rfl) (legendre_gauss 3 (by norm_num) le_rfl)).2.2 .er2007 rfl rfl

/-- Instance: the rules of Gauss in the plane. -/
example : LoadExact (referenceLoadRule legendre .er2007 2) 3 ∧ ¬ LoadExact (coarseLoadRule legendre .er2007 2) 3 ∧
    MatrixExact (coarseMatrixRule legendre .synthetic 2) 2 ∧ ¬ MatrixExact (ellipticRule legendre .synthetic 2) 2 :=
  ⟨C89_reference_load legendre legendre_gauss .er2007, fun h => by
    have := (C89_coarse_load_partial legendre legendre_gauss two_pos .er2007).mp h
    simp at this, C89_coarse_matrix legendre legendre_gauss .synthetic, (C89_violated_operator legendre legendre_gauss le_rfl .synthetic).1⟩

end Verif.QuadratureOrder
