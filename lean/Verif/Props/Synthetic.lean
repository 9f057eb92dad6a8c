import Verif.Model.Synthetic
import Mathlib.Analysis.SpecialFunctions.Trigonometric.Deriv
import Mathlib.Analysis.Calculus.Deriv.Inv
import Mathlib.Analysis.Calculus.Deriv.Pi
import Mathlib.Analysis.Calculus.FDeriv.Add
import Mathlib.Analysis.Calculus.FDeriv.Mul
import Mathlib.Analysis.Calculus.FDeriv.Pi
import Mathlib.Tactic.Linarith
import Mathlib.Tactic.Ring
import Mathlib.Tactic.FieldSimp

/-!
# C34, C35, C36, C37, C38: the analytic problem data
-/

namespace Verif.Synthetic
open Real Verif.Spec.Calculus

/-! ## C34 -/

theorem diag0 {n : ℕ} (eps : ℝ) (x : Point n) (ret : Mat n) :
    diffusion eps x ret 0 0 = 2 * (1 / (8 * π * π)) * (1 / (2 + cos (twoPi * (x 0 / eps)))) := by
  simp [diffusion, assign]

theorem diag1 {n : ℕ} (eps : ℝ) (x : Point n) (ret : Mat n) :
    diffusion eps x ret 1 1 = 1 / (8 * π * π) * (1 + 0.5 * cos (twoPi * (x 0 / eps))) := by
  simp [diffusion, assign]

theorem coeff0_bounds (c : ℝ) (h1 : -1 ≤ c) (h2 : c ≤ 1) :
    1 / (16 * π ^ 2) ≤ 2 * (1 / (8 * π * π)) * (1 / (2 + c)) ∧
      2 * (1 / (8 * π * π)) * (1 / (2 + c)) ≤ 1 / (4 * π ^ 2) := by
  have hp := pi_pos
  have e : 2 * (1 / (8 * π * π)) * (1 / (2 + c)) = 1 / (4 * π ^ 2 * (2 + c)) := by
    have : (2 + c) ≠ 0 := by linarith
    field_simp
    ring
  have hp2 : 0 < π ^ 2 := by positivity
  rw [e]
  constructor
  · apply one_div_le_one_div_of_le
    · have : 0 < 2 + c := by linarith
      positivity
    · nlinarith
  · apply one_div_le_one_div_of_le
    · positivity
    · nlinarith

theorem coeff1_bounds (c : ℝ) (h1 : -1 ≤ c) (h2 : c ≤ 1) :
    1 / (16 * π ^ 2) ≤ 1 / (8 * π * π) * (1 + 0.5 * c) ∧
      1 / (8 * π * π) * (1 + 0.5 * c) ≤ 1 / (4 * π ^ 2) := by
  have hp2 : 0 < π ^ 2 := by positivity
  have e : 1 / (8 * π * π) * (1 + 0.5 * c) = (2 + c) / (16 * π ^ 2) := by
    have := pi_ne_zero
    field_simp
    ring
  have e2 : 1 / (4 * π ^ 2) = 4 / (16 * π ^ 2) := by
    have := pi_ne_zero
    field_simp
    ring
  rw [e, e2]
  constructor
  · apply div_le_div_of_nonneg_right _ (by positivity); linarith
  · apply div_le_div_of_nonneg_right _ (by positivity); linarith

/-- **C34** The diagonal entries `[0][0]` and `[1][1]` lie between `1/(16 π²)` and `1/(4 π²)`, for every point, every
epsilon and every previous content of the result. -/
theorem C34_diagonal_bounds {n : ℕ} (eps : ℝ) (x : Point n) (ret : Mat n) (i : Fin (n + 2))
    (hi : i = 0 ∨ i = 1) :
    1 / (16 * π ^ 2) ≤ diffusion eps x ret i i ∧ diffusion eps x ret i i ≤ 1 / (4 * π ^ 2) := by
  rcases hi with rfl | rfl
  · rw [diag0]; exact coeff0_bounds _ (neg_one_le_cos _) (cos_le_one _)
  · rw [diag1]; exact coeff1_bounds _ (neg_one_le_cos _) (cos_le_one _)

/-- Matrix times vector in two dimensions. -/
theorem mulVec_two (A : Mat 0) (v : Vec2) (i : Fin 2) : A.mulVec v i = A i 0 * v 0 + A i 1 * v 1 :=
  Fin.sum_univ_two (fun j : Fin 2 => A i j * v j)

theorem form_bounds (a b : ℝ) (v : Vec2) (l u : ℝ) (ha : l ≤ a ∧ a ≤ u) (hb : l ≤ b ∧ b ≤ u) :
    l * dot v v ≤ a * v 0 * v 0 + b * v 1 * v 1 ∧ a * v 0 * v 0 + b * v 1 * v 1 ≤ u * dot v v := by
  unfold dot
  constructor <;> nlinarith [mul_self_nonneg (v 0), mul_self_nonneg (v 1)]

/-- **C34** Two dimensions, result object initially zero: the matrix is symmetric and its quadratic form is bounded
from below and above, so it is uniformly elliptic and bounded. -/
theorem C34_uniformly_elliptic (eps : ℝ) (x : Point 0) (v : Vec2) :
    let A := diffusion eps x 0
    A.transpose = A ∧
    1 / (16 * π ^ 2) * dot v v ≤ dot v (A.mulVec v) ∧ dot v (A.mulVec v) ≤ 1 / (4 * π ^ 2) * dot v v := by
  intro A
  have h01 : A 0 1 = 0 := by simp [A, diffusion, assign]
  have h10 : A 1 0 = 0 := by simp [A, diffusion, assign]
  have e : dot v (A.mulVec v) = A 0 0 * v 0 * v 0 + A 1 1 * v 1 * v 1 := by
    unfold dot
    rw [mulVec_two, mulVec_two, h01, h10]
    ring
  refine ⟨?_, ?_⟩
  · ext i j
    match i, j with
    | 0, 0 => rfl
    | 1, 1 => rfl
    | 0, 1 => exact h10.trans h01.symm
    | 1, 0 => exact h01.trans h10.symm
  · rw [e]
    exact form_bounds _ _ v _ _ (C34_diagonal_bounds eps x 0 0 (.inl rfl))
      (C34_diagonal_bounds eps x 0 1 (.inr rfl))

/-- **C34** The flux function has the same bounds, whatever the local variable and the result held before. -/
theorem C34_flux_elliptic (eps : ℝ) (junk : Mat 0) (x : Point 0) (v flux : Vec2) :
    let f := diffusiveFlux eps junk x v flux
    1 / (16 * π ^ 2) * dot v v ≤ dot v f ∧ dot v f ≤ 1 / (4 * π ^ 2) * dot v v ∧
    f = (diffusion eps x 0).mulVec v := by
  intro f
  have f0 : f 0 = diffusion eps x junk 0 0 * v 0 := by simp [f, diffusiveFlux]
  have f1 : f 1 = diffusion eps x junk 1 1 * v 1 := by simp [f, diffusiveFlux]
  have e : dot v f = diffusion eps x junk 0 0 * v 0 * v 0 + diffusion eps x junk 1 1 * v 1 * v 1 := by
    unfold dot; rw [f0, f1]; ring
  have hb := form_bounds _ _ v _ _ (C34_diagonal_bounds eps x junk 0 (.inl rfl))
    (C34_diagonal_bounds eps x junk 1 (.inr rfl))
  refine ⟨by rw [e]; exact hb.1, by rw [e]; exact hb.2, ?_⟩
  have h01 : diffusion eps x (0 : Mat 0) 0 1 = 0 := by simp [diffusion, assign]
  have h10 : diffusion eps x (0 : Mat 0) 1 0 = 0 := by simp [diffusion, assign]
  ext i
  match i with
  | 0 =>
    show f 0 = _
    rw [f0, mulVec_two, h01, diag0, diag0]
    ring
  | 1 =>
    show f 1 = _
    rw [f1, mulVec_two, h10, diag1, diag1]
    ring

/-- Non-vacuity: the lower bound is attained by the entry `[1][1]` and the upper one by `[0][0]`, at the point
`x0 = eps/2`. -/
example (eps : ℝ) (h : eps ≠ 0) : diffusion (n := 0) eps (fun _ => eps / 2) 0 1 1 = 1 / (16 * π ^ 2) ∧
    diffusion (n := 0) eps (fun _ => eps / 2) 0 0 0 = 1 / (4 * π ^ 2) := by
  have e : twoPi * (eps / 2 / eps) = π := by unfold twoPi; field_simp
  have := pi_ne_zero
  constructor
  · rw [diag1, e, cos_pi]; field_simp; norm_num
  · rw [diag0, e, cos_pi]; field_simp; norm_num

/-! ## C35 -/

/-- Derivative of one coordinate. -/
theorem coord (i : Fin 2) (x : Vec2) :
    HasFDerivAt (fun y : Vec2 => y i) (ContinuousLinearMap.proj (R := ℝ) (φ := fun _ : Fin 2 => ℝ) i) x :=
  hasFDerivAt_apply i x

/-- **C35** The reported jacobian of the synthetic exact solution is the gradient of the reported value, for every
point and every nonzero epsilon and whatever the result object held before (two dimensions). -/
theorem C35_gradient (eps : ℝ) (h : eps ≠ 0) (x old : Vec2) :
    IsGradient (exact (n := 0) eps) x (exactJacobian (n := 0) eps x old) := by
  have d0 : HasFDerivAt (fun y : Vec2 => twoPi * y 0) _ x := (coord 0 x).const_mul twoPi
  have d1 : HasFDerivAt (fun y : Vec2 => twoPi * y 1) _ x := (coord 1 x).const_mul twoPi
  have de : HasFDerivAt (fun y : Vec2 => twoPi * (y 0 / eps)) _ x :=
    ((coord 0 x).mul_const eps⁻¹).const_mul twoPi
  have hu := (d0.sin.mul d1.sin).add (((d0.cos.const_mul (0.5 * eps)).mul d1.sin).mul de.sin)
  unfold IsGradient
  refine HasFDerivAt.congr_fderiv hu ?_
  ext v
  simp [exactJacobian, twoPi]
  field_simp
  ring

/-- The gradient determines the partial derivatives. -/
theorem gradient_partial {f : Vec2 → ℝ} {x g : Vec2} (h : IsGradient f x g) (i : Fin 2) :
    IsPartial f i x (g i) := by
  unfold IsPartial
  unfold IsGradient at h
  have hx : Function.update x i (x i) = x := Function.update_eq_self i x
  rw [← hx] at h
  have := h.comp_hasDerivAt (x i) (hasDerivAt_update x i (x i))
  refine this.congr_deriv ?_
  match i with
  | 0 => simp
  | 1 => simp

/-- A partial derivative from the derivative of the function along the coordinate. -/
theorem partial_of {f : Vec2 → ℝ} {g : ℝ → ℝ} {i : Fin 2} {x : Vec2} {a : ℝ} (h : HasDerivAt g a (x i))
    (e : ∀ t, f (Function.update x i t) = g t) : IsPartial f i x a := by
  unfold IsPartial
  rwa [funext e]

/-! ## C36 -/

/-- The diffusive flux of the exact solution, as the code computes it from zero-initialised objects. -/
noncomputable def exactFlux (eps : ℝ) (x : Vec2) : Vec2 :=
  diffusiveFlux (n := 0) eps 0 x (exactJacobian (n := 0) eps x 0) 0

/-- **C36** The synthetic source is minus the divergence of the diffusive flux of the exact solution, for every point
and every nonzero epsilon. -/
theorem C36_source (eps : ℝ) (h : eps ≠ 0) (x : Vec2) :
    IsDivergence (exactFlux eps) x (-source (n := 0) eps x) := by
  have hp := pi_ne_zero
  -- elementary functions of the first coordinate
  have s0 : HasDerivAt (fun t : ℝ => sin (twoPi * t)) (cos (twoPi * x 0) * twoPi) (x 0) := by
    have := ((hasDerivAt_id (x 0)).const_mul twoPi).sin
    simpa using this
  have c0 : HasDerivAt (fun t : ℝ => cos (twoPi * t)) (-sin (twoPi * x 0) * twoPi) (x 0) := by
    have := ((hasDerivAt_id (x 0)).const_mul twoPi).cos
    simpa using this
  have se : HasDerivAt (fun t : ℝ => sin (twoPi * (t / eps))) (cos (twoPi * (x 0 / eps)) * (twoPi / eps)) (x 0) := by
    have := (((hasDerivAt_id (x 0)).div_const eps).const_mul twoPi).sin
    simpa [div_eq_mul_inv] using this
  have ce : HasDerivAt (fun t : ℝ => cos (twoPi * (t / eps))) (-sin (twoPi * (x 0 / eps)) * (twoPi / eps)) (x 0) := by
    have := (((hasDerivAt_id (x 0)).div_const eps).const_mul twoPi).cos
    simpa [div_eq_mul_inv] using this
  have s1 : HasDerivAt (fun t : ℝ => sin (twoPi * t)) (cos (twoPi * x 1) * twoPi) (x 1) := by
    have := ((hasDerivAt_id (x 1)).const_mul twoPi).sin
    simpa using this
  have c1 : HasDerivAt (fun t : ℝ => cos (twoPi * t)) (-sin (twoPi * x 1) * twoPi) (x 1) := by
    have := ((hasDerivAt_id (x 1)).const_mul twoPi).cos
    simpa using this
  have hpos : 2 + cos (twoPi * (x 0 / eps)) ≠ 0 := by
    have := neg_one_le_cos (twoPi * (x 0 / eps)); linarith
  have k0 := ((ce.const_add 2).inv hpos).const_mul (2 * (1 / (8 * π * π)))
  have g0 := ((c0.const_mul twoPi).mul_const (sin (twoPi * x 1))).sub
    (((se.const_mul (eps * π)).mul s0).mul_const (sin (twoPi * x 1))) |>.add
    (((c0.const_mul π).mul_const (sin (twoPi * x 1))).mul ce)
  have f0 := k0.mul g0
  have g1 := (c1.const_mul (twoPi * sin (twoPi * x 0))).add
    (c1.const_mul (eps * π * sin (twoPi * (x 0 / eps)) * cos (twoPi * x 0)))
  have f1 := g1.const_mul (1 / (8 * π * π) * (1 + 0.5 * cos (twoPi * (x 0 / eps))))
  refine ⟨_, _, partial_of f0 (fun t => ?_), partial_of f1 (fun t => ?_), ?_⟩
  · simp [exactFlux, diffusiveFlux, exactJacobian, diffusion, assign]
  · simp [exactFlux, diffusiveFlux, exactJacobian, diffusion, assign]
  · clear f0 f1 g0 g1 k0 s0 c0 se ce s1 c1
    simp only [source, Pi.mul_apply, Pi.sub_apply, Pi.add_apply, Pi.inv_apply]
    generalize cos (twoPi * (x 0 / eps)) = ce at hpos ⊢
    generalize sin (twoPi * (x 0 / eps)) = se
    generalize cos (twoPi * x 0) = c0
    generalize sin (twoPi * x 0) = s0
    generalize sin (twoPi * x 1) = s1
    unfold twoPi
    field_simp
    ring

/-- Non-vacuity of `C35_gradient` and `C36_source`: the default epsilon. -/
example (x old : Vec2) : IsGradient (exact (n := 0) 0.05) x (exactJacobian (n := 0) 0.05 x old) ∧
    IsDivergence (exactFlux 0.05) x (-source (n := 0) 0.05 x) :=
  ⟨C35_gradient 0.05 (by norm_num) x old, C36_source 0.05 (by norm_num) x⟩

/-- **C36** (boundary values) The Dirichlet data are the values of the exact solution, so the exact solution solves the
boundary value problem which the code sets up: it satisfies the equation in every point and the boundary condition. -/
theorem C36_boundary_value_problem (eps : ℝ) (h : eps ≠ 0) (x : Vec2) :
    (∃ g : Vec2 → Vec2, (∀ y, IsGradient (exact (n := 0) eps) y (g y)) ∧
      IsDivergence (fun y => (diffusion (n := 0) eps y 0).mulVec (g y)) x (-source (n := 0) eps x)) ∧
    dirichlet (n := 0) eps x = exact (n := 0) eps x := by
  refine ⟨⟨fun y => exactJacobian (n := 0) eps y 0, fun y => C35_gradient eps h y 0, ?_⟩, rfl⟩
  have e : (fun y : Vec2 => (diffusion (n := 0) eps y 0).mulVec (exactJacobian (n := 0) eps y 0)) = exactFlux eps :=
    funext fun y => ((C34_flux_elliptic eps 0 y (exactJacobian (n := 0) eps y 0) 0).2.2).symm
  rw [e]
  exact C36_source eps h x

/-- **C36** (homogeneous case) On the boundary of the unit square the Dirichlet data vanish if the unit interval contains a
whole number of periods. -/
theorem C36_homogeneous (eps : ℝ) (k : ℕ) (hk : eps * k = 1) (x : Vec2)
    (hx : x 0 = 0 ∨ x 0 = 1 ∨ x 1 = 0 ∨ x 1 = 1) : dirichlet (n := 0) eps x = 0 := by
  have he : eps ≠ 0 := by rintro rfl; simp at hk
  have s1 : sin (2 * π) = 0 := sin_two_pi
  have sk : sin (2 * π * (1 / eps)) = 0 := by
    have : (1 : ℝ) / eps = k := by field_simp; linarith
    rw [this, show 2 * π * (k : ℝ) = ((2 * k : ℕ) : ℝ) * π by push_cast; ring]
    exact sin_nat_mul_pi _
  unfold dirichlet exact twoPi
  rcases hx with h | h | h | h <;> simp [h, s1]
  right
  simpa using sk

/-- Hypothesis met: twenty periods. -/
example : dirichlet (n := 0) (1 / 20) (fun i => if i = 0 then 1 else 1 / 3) = 0 :=
  C36_homogeneous (1 / 20) 20 (by norm_num) _ (.inr (.inl rfl))

/-- In three dimensions the third component of the jacobian is not set. -/
theorem jacobian_third_component (eps : ℝ) (x : Point 1) (old : Row 1) : exactJacobian eps x old 2 = old 2 := by
  have h0 : ¬ (2 : Fin (1 + 2)) = 0 := by decide
  have h1 : ¬ (2 : Fin (1 + 2)) = 1 := by decide
  unfold exactJacobian
  simp only [h0, h1, if_false]

/-! ## C37, random -/

/-- **C37** (random, value) The permeability is the scalar field times the identity: the flux is the field times the direction. -/
theorem C37_random_isotropic {n : ℕ} (field : Point n → ℝ) (x : Point n) (ret : Mat n) (v : Row n) :
    (randomDiffusion field x ret).mulVec v = field x • v := by
  have : randomDiffusion field x ret = field x • (1 : Mat n) := by
    ext i j
    simp [randomDiffusion, Matrix.one_apply]
  rw [this, Matrix.smul_mulVec, Matrix.one_mulVec]

/-! ## C38 -/

theorem er_cos (x : Vec2) (i : Fin 2) :
    HasFDerivAt (fun y : Vec2 => cos (8 * π * y i))
      (-sin (8 * π * x i) • (8 * π) • ContinuousLinearMap.proj (R := ℝ) (φ := fun _ : Fin 2 => ℝ) i) x :=
  ((coord i x).const_mul (8 * π)).cos

/-- **C38** (partial: exact solution) The jacobian of the exact solution is the gradient of its value. -/
theorem C38_exact_gradient_partial (x : Vec2) : IsGradient erExact x (erExactJacobian x) := by
  unfold IsGradient
  refine HasFDerivAt.congr_fderiv ((er_cos x 0).add (er_cos x 1)) ?_
  ext v
  simp [erExactJacobian, exactDeriv]
  ring

/-- **C38** (partial: values) The source is minus the divergence of the diffusive flux of the exact solution, that is minus
its Laplacian. -/
theorem C38_source_partial (x : Vec2) :
    IsDivergence (fun y => erDiffusiveFlux (n := 0) y (erExactJacobian y) 0) x (-erSource x) := by
  have d : ∀ i : Fin 2, HasDerivAt (fun t : ℝ => -8 * π * sin (8 * π * t))
      (-8 * π * (cos (8 * π * x i) * (8 * π))) (x i) := by
    intro i
    have := (((hasDerivAt_id (x i)).const_mul (8 * π)).sin).const_mul (-8 * π)
    simpa using this
  refine ⟨_, _, partial_of (d 0) (fun t => ?_), partial_of (d 1) (fun t => ?_), ?_⟩
  · simp [erDiffusiveFlux, erExactJacobian, exactDeriv]
  · simp [erDiffusiveFlux, erExactJacobian, exactDeriv]
  · unfold erSource; ring

/-- The gradient of the source. -/
theorem er_source_gradient (x : Vec2) :
    IsGradient erSource x fun i => -(512 * π ^ 3) * sin (8 * π * x i) := by
  unfold IsGradient
  refine HasFDerivAt.congr_fderiv (((er_cos x 0).add (er_cos x 1)).const_mul (64 * π * π)) ?_
  ext v
  simp
  ring

/-- **C38** (the negation) The jacobian reported for the source is not its gradient: at the point `(1/16, 0)` the first
component is `-8 π` instead of `-512 π³`. -/
theorem C38_violated : ∃ x : Vec2, ¬ IsGradient erSource x (erSourceJacobian x) := by
  refine ⟨fun i => if i = 0 then 1 / 16 else 0, fun h => ?_⟩
  have h1 := (gradient_partial h 0)
  have h2 := gradient_partial (er_source_gradient (fun i => if i = 0 then 1 / 16 else 0)) 0
  have h3 := h1.unique h2
  have e : 8 * π * (1 / 16) = π / 2 := by ring
  simp only [erSourceJacobian, exactDeriv, if_true, e, sin_pi_div_two] at h3
  have hp := two_le_pi
  nlinarith [mul_pos pi_pos pi_pos]

/-- **C38** (the negation, everywhere) The reported jacobian of the source is right only where the gradient vanishes. -/
theorem C38_violated_iff (x : Vec2) :
    IsGradient erSource x (erSourceJacobian x) ↔ sin (8 * π * x 0) = 0 ∧ sin (8 * π * x 1) = 0 := by
  have hp := two_le_pi
  have key : ∀ s : ℝ, -8 * π * s = -(512 * π ^ 3) * s ↔ s = 0 := by
    intro s
    constructor
    · intro h
      have : s * (8 * π * (64 * π ^ 2 - 1)) = 0 := by linear_combination h
      rcases mul_eq_zero.mp this with h | h
      · exact h
      · have : 0 < 8 * π * (64 * π ^ 2 - 1) := by
          apply mul_pos (by linarith); nlinarith
        linarith
    · rintro rfl; ring
  constructor
  · intro h
    have h0 := (gradient_partial h 0).unique (gradient_partial (er_source_gradient x) 0)
    have h1 := (gradient_partial h 1).unique (gradient_partial (er_source_gradient x) 1)
    exact ⟨(key _).mp (by simpa [erSourceJacobian, exactDeriv] using h0),
      (key _).mp (by simpa [erSourceJacobian, exactDeriv] using h1)⟩
  · rintro ⟨h0, h1⟩
    have h := er_source_gradient x
    unfold IsGradient at h ⊢
    simpa [erSourceJacobian, exactDeriv, h0, h1] using h

end Verif.Synthetic
