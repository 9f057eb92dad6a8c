import Verif.Model.Covariance
import Mathlib.Analysis.InnerProductSpace.Orthonormal
import Mathlib.Analysis.Complex.ExponentialBounds
import Mathlib.Analysis.InnerProductSpace.PiL2
import Mathlib.Tactic.Linarith
import Mathlib.Tactic.Ring
import Mathlib.Tactic.FieldSimp
import Mathlib.Tactic.NormNum

/-!
# C50, C56: covariance of the Gaussian field
-/

noncomputable section

namespace Verif.Covariance

/-! ## C50 -/

/-- **C50** (the correlation function) Its value at the origin is the variance, it depends on the length of the vector only,
is positive and at most the variance, and has dropped by the factor `e` at the correlation length. -/
theorem C50_correlation {dim : ℕ} (corrLen sigma : ℝ) (hl : 0 < corrLen) (hs : sigma ≠ 0) :
    correlation corrLen sigma (0 : Fin dim → ℝ) = sigma ^ 2 ∧
    (∀ d d' : Fin dim → ℝ, ∑ i, d i ^ 2 = ∑ i, d' i ^ 2 → correlation corrLen sigma d = correlation corrLen sigma d') ∧
    (∀ d : Fin dim → ℝ, 0 < correlation corrLen sigma d ∧ correlation corrLen sigma d ≤ sigma ^ 2) ∧
    (∀ d : Fin dim → ℝ, ∑ i, d i ^ 2 = corrLen ^ 2 → correlation corrLen sigma d = sigma ^ 2 / Real.exp 1) := by
  have hs2 : 0 < sigma * sigma := mul_self_pos.mpr hs
  unfold correlation
  refine ⟨by simp [pow_two], fun d d' h => ?_, fun d => ⟨by positivity, ?_⟩, fun d h => ?_⟩
  · simp only [← pow_two, h]
  · have h1 : Real.exp (-Real.sqrt (∑ i, d i * d i) / corrLen) ≤ 1 := by
      rw [Real.exp_le_one_iff]
      exact div_nonpos_of_nonpos_of_nonneg (by linarith [Real.sqrt_nonneg (∑ i, d i * d i)]) hl.le
    nlinarith
  · simp only [← pow_two, h]
    rw [Real.sqrt_sq hl.le, neg_div, div_self hl.ne', Real.exp_neg, div_eq_mul_inv]

/-- Hypotheses met: the defaults of random.cc. -/
example : correlation (dim := 2) (1 / 5) 1 ![3 / 25, 4 / 25] = 1 ^ 2 / Real.exp 1 :=
  (C50_correlation (1 / 5) 1 (by norm_num) one_ne_zero).2.2.2 _ (by norm_num [Fin.sum_univ_two])

theorem val_neg_mirrored (N : ℕ) (hN : 0 < N) (z : ZMod (2 * N)) : mirrored N (-z).val = mirrored N z.val := by
  have : NeZero (2 * N) := ⟨by omega⟩
  have hlt := ZMod.val_lt z
  have h := ZMod.neg_val z
  rw [h]
  unfold mirrored
  split_ifs with h0 <;> first | omega | simp_all

/-- **C50** The extension is even. -/
theorem C50_even {dim : ℕ} (corr : (Fin dim → ℝ) → ℝ) (N : ℕ) (hN : 0 < N) (j : Idx dim (2 * N)) :
    extension corr N (-j) = extension corr N j := by
  unfold extension
  congr 1
  funext i
  rw [Pi.neg_apply, val_neg_mirrored N hN]

theorem mirrored_sub (N : ℕ) (hN : 0 < N) (a b : ℕ) (ha : a ≤ N) (hb : b ≤ N) :
    (mirrored N ((a : ZMod (2 * N)) - b).val : ℝ) = |(a : ℝ) - b| := by
  have : NeZero (2 * N) := ⟨by omega⟩
  rcases Nat.le_total b a with h | h
  · have e : ((a : ZMod (2 * N)) - b) = ((a - b : ℕ) : ZMod (2 * N)) := by
      rw [Nat.cast_sub h]
    rw [e, ZMod.val_natCast, Nat.mod_eq_of_lt (by omega)]
    have hm : mirrored N (a - b) = a - b := by unfold mirrored; rw [if_neg (by omega)]
    rw [hm, Nat.cast_sub h, abs_of_nonneg]
    have : (b : ℝ) ≤ a := by exact_mod_cast h
    linarith
  · have e : ((a : ZMod (2 * N)) - b) = -((b - a : ℕ) : ZMod (2 * N)) := by
      rw [Nat.cast_sub h]; ring
    rw [e, val_neg_mirrored N hN, ZMod.val_natCast, Nat.mod_eq_of_lt (by omega)]
    have hm : mirrored N (b - a) = b - a := by unfold mirrored; rw [if_neg (by omega)]
    rw [hm, Nat.cast_sub h, abs_of_nonpos]
    · ring
    · have : (a : ℝ) ≤ b := by exact_mod_cast h
      linarith

/-- **C50** For any two nodes `a / N` and `b / N` of the unit cube the extension is the correlation of their true difference. -/
theorem C50_exact {dim : ℕ} (corrLen sigma : ℝ) (N : ℕ) (hN : 0 < N) (a b : Fin dim → ℕ) (ha : ∀ i, a i ≤ N)
    (hb : ∀ i, b i ≤ N) :
    extension (correlation corrLen sigma) N (fun i => (a i : ZMod (2 * N)) - b i) =
      correlation corrLen sigma fun i => (a i : ℝ) / N - (b i : ℝ) / N := by
  unfold extension correlation
  congr 4
  refine congrArg Real.sqrt (Finset.sum_congr rfl fun i _ => ?_)
  simp only
  rw [mirrored_sub N hN _ _ (ha i) (hb i)]
  have := abs_mul_abs_self ((a i : ℝ) - b i)
  calc |(a i : ℝ) - b i| * (1 / N) * (|(a i : ℝ) - b i| * (1 / N))
      = |(a i : ℝ) - b i| * |(a i : ℝ) - b i| * (1 / N) * (1 / N) := by ring
    _ = _ := by rw [this]; ring

/-! ## C56 -/

section
variable {dim M : ℕ} [NeZero M]

theorem kernel_add (j j' k : Idx dim M) : kernel (j + j') k = kernel j k * kernel j' k := by
  unfold kernel
  rw [← AddChar.map_add_eq_mul, ← Finset.sum_add_distrib]
  congr 1
  exact Finset.sum_congr rfl fun i _ => by rw [Pi.add_apply]; ring

theorem kernel_comm (j k : Idx dim M) : kernel j k = kernel k j := by
  unfold kernel
  congr 1
  exact Finset.sum_congr rfl fun i _ => mul_comm _ _

theorem kernel_zero (k : Idx dim M) : kernel 0 k = 1 := by
  unfold kernel
  simp

theorem kernel_neg (j k : Idx dim M) : kernel (-j) k = (starRingEnd ℂ) (kernel j k) := by
  unfold kernel
  have e : ∑ i, (-j) i * k i = -∑ i, j i * k i := by
    rw [← Finset.sum_neg_distrib]
    exact Finset.sum_congr rfl fun i _ => by rw [Pi.neg_apply]; ring
  rw [e, ZMod.stdAddChar_apply, ZMod.stdAddChar_apply, AddChar.map_neg_eq_inv, Circle.coe_inv_eq_conj]

theorem kernel_neg_neg (j k : Idx dim M) : kernel (-j) (-k) = kernel j k := by
  unfold kernel
  congr 1
  exact Finset.sum_congr rfl fun i _ => by simp

/-- The kernel as a character. -/
def kernelChar (j : Idx dim M) : AddChar (Idx dim M) ℂ where
  toFun k := kernel j k
  map_zero_eq_one' := by rw [kernel_comm, kernel_zero]
  map_add_eq_mul' k k' := by rw [kernel_comm, kernel_add, kernel_comm k, kernel_comm k']

/-- Orthogonality. -/
theorem kernel_sum (j : Idx dim M) : ∑ k, kernel j k = if j = 0 then (M : ℂ) ^ dim else 0 := by
  classical
  have h := AddChar.sum_eq_ite (kernelChar j)
  have e : kernelChar j = 0 ↔ j = 0 := by
    constructor
    · intro h
      funext i
      have h1 : kernelChar j (Pi.single i 1) = 1 := by rw [h]; rfl
      have h2 : kernelChar j (Pi.single i 1) = ZMod.stdAddChar (j i) := by
        show ZMod.stdAddChar (∑ l, j l * (Pi.single i 1 : Idx dim M) l) = _
        congr 1
        rw [Finset.sum_eq_single i]
        · simp
        · intro l _ hl
          rw [Pi.single_eq_of_ne hl, mul_zero]
        · intro hi
          exact absurd (Finset.mem_univ i) hi
      rw [h2, ← AddChar.map_zero_eq_one (ZMod.stdAddChar (N := M))] at h1
      exact ZMod.injective_stdAddChar h1
    · rintro rfl
      ext k
      show kernel 0 k = 1
      exact kernel_zero k
  have hc : (Fintype.card (Idx dim M) : ℂ) = (M : ℂ) ^ dim := by
    rw [Fintype.card_pi]
    simp [ZMod.card]
  rw [hc] at h
  simp only [e] at h
  exact h

/-- Fourier inversion. -/
theorem forward_inversion (c : Idx dim M → ℝ) (m : Idx dim M) :
    ∑ k, forward c k * kernel m k = (M : ℂ) ^ dim * c m := by
  have e : ∀ k, forward c k * kernel m k = ∑ j, (c j : ℂ) * kernel (m - j) k := by
    intro k
    unfold forward
    rw [Finset.sum_mul]
    refine Finset.sum_congr rfl fun j _ => ?_
    rw [show m - j = -j + m by ring, kernel_add]
    ring
  simp only [e]
  rw [Finset.sum_comm]
  have e2 : ∀ j, ∑ k, (c j : ℂ) * kernel (m - j) k = if m = j then (c j : ℂ) * (M : ℂ) ^ dim else 0 := by
    intro j
    rw [← Finset.mul_sum, kernel_sum]
    simp only [sub_eq_zero]
    split_ifs <;> simp
  simp only [e2]
  rw [Finset.sum_ite_eq]
  simp [mul_comm]

/-- The transform of an even array is real ... -/
theorem forward_im (c : Idx dim M → ℝ) (hc : ∀ j, c (-j) = c j) (k : Idx dim M) : (forward c k).im = 0 := by
  have h : (starRingEnd ℂ) (forward c k) = forward c k := by
    unfold forward
    rw [map_sum, ← Equiv.sum_comp (Equiv.neg _)]
    refine Finset.sum_congr rfl fun j _ => ?_
    rw [Equiv.neg_apply, hc, map_mul, Complex.conj_ofReal, ← kernel_neg, neg_neg]
  exact Complex.conj_eq_iff_im.mp h

/-- ... and even. -/
theorem forward_neg (c : Idx dim M → ℝ) (hc : ∀ j, c (-j) = c j) (k : Idx dim M) : forward c (-k) = forward c k := by
  unfold forward
  rw [← Equiv.sum_comp (Equiv.neg _)]
  refine Finset.sum_congr rfl fun j _ => ?_
  rw [Equiv.neg_apply, hc, kernel_neg_neg]

/-- The eigenvalues of the circulant covariance matrix. -/
def eigenvalue (c : Idx dim M → ℝ) (k : Idx dim M) : ℝ := (forward c k).re

theorem coeff_sq (c : Idx dim M → ℝ) (k : Idx dim M) : coeff c k * coeff c k = 1 / M ^ dim * |eigenvalue c k| := by
  unfold coeff eigenvalue
  exact Real.mul_self_sqrt (by positivity)

theorem eigenvalue_inversion (c : Idx dim M → ℝ) (hc : ∀ j, c (-j) = c j) (m : Idx dim M) :
    1 / (M : ℝ) ^ dim * ∑ k, eigenvalue c k * (kernel m k).re = c m := by
  have h := congrArg Complex.re (forward_inversion c m)
  rw [Complex.re_sum] at h
  have e : ∀ k, (forward c k * kernel m k).re = eigenvalue c k * (kernel m k).re := by
    intro k
    rw [Complex.mul_re, forward_im c hc k]
    unfold eigenvalue
    ring
  simp only [e] at h
  rw [h]
  have e2 : ((M : ℂ) ^ dim * (c m : ℂ)).re = (M : ℝ) ^ dim * c m := by
    have : ((M : ℂ) ^ dim * (c m : ℂ)) = (((M : ℝ) ^ dim * c m : ℝ) : ℂ) := by push_cast; rfl
    rw [this, Complex.ofReal_re]
  rw [e2]
  have hM : (M : ℝ) ≠ 0 := Nat.cast_ne_zero.mpr (NeZero.ne M)
  field_simp

variable {H : Type} [NormedAddCommGroup H] [InnerProductSpace ℝ H]

theorem inner_field (eta xi : Idx dim M → H) (ho : Orthonormal ℝ (Sum.elim eta xi)) (u v u' v' : Idx dim M → ℝ) :
    inner ℝ (∑ k, (u k • eta k + v k • xi k)) (∑ k, (u' k • eta k + v' k • xi k)) = ∑ k, (u k * u' k + v k * v' k) := by
  have h := ho.inner_sum (Sum.elim u v) (Sum.elim u' v') Finset.univ
  simp only [Fintype.sum_sum_type, Sum.elim_inl, Sum.elim_inr] at h
  rw [Finset.sum_add_distrib, Finset.sum_add_distrib, h, Finset.sum_add_distrib]
  simp

theorem kernel_diff_re (a b k : Idx dim M) :
    (kernel (a - b) k).re = (kernel a k).re * (kernel b k).re + (kernel a k).im * (kernel b k).im := by
  rw [sub_eq_add_neg, kernel_add, kernel_neg, Complex.mul_re, Complex.conj_re, Complex.conj_im]
  ring

theorem kernel_diff_im (a b k : Idx dim M) :
    (kernel (a - b) k).im = (kernel a k).im * (kernel b k).re - (kernel a k).re * (kernel b k).im := by
  rw [sub_eq_add_neg, kernel_add, kernel_neg, Complex.mul_im, Complex.conj_re, Complex.conj_im]
  ring

theorem fieldRe_eq (a : Idx dim M → ℝ) (eta xi : Idx dim M → H) (j : Idx dim M) :
    fieldRe a eta xi j = ∑ k, ((a k * (kernel j k).re) • eta k + (-(a k * (kernel j k).im)) • xi k) := by
  unfold fieldRe
  refine Finset.sum_congr rfl fun k _ => ?_
  rw [neg_smul, ← sub_eq_add_neg]

/-- **C56** The covariance of the generated field: for uncorrelated random numbers of variance one, real part and imaginary part
have the covariance given by the absolute values of the eigenvalues. -/
theorem C56_covariance (c : Idx dim M → ℝ) (eta xi : Idx dim M → H) (ho : Orthonormal ℝ (Sum.elim eta xi))
    (a b : Idx dim M) :
    inner ℝ (fieldRe (coeff c) eta xi a) (fieldRe (coeff c) eta xi b) =
      1 / (M : ℝ) ^ dim * ∑ k, |eigenvalue c k| * (kernel (a - b) k).re ∧
    inner ℝ (fieldIm (coeff c) eta xi a) (fieldIm (coeff c) eta xi b) =
      1 / (M : ℝ) ^ dim * ∑ k, |eigenvalue c k| * (kernel (a - b) k).re := by
  constructor
  · rw [fieldRe_eq, fieldRe_eq, inner_field eta xi ho, Finset.mul_sum]
    refine Finset.sum_congr rfl fun k _ => ?_
    have := coeff_sq c k
    rw [kernel_diff_re]
    linear_combination ((kernel a k).re * (kernel b k).re + (kernel a k).im * (kernel b k).im) * this
  · unfold fieldIm
    rw [inner_field eta xi ho, Finset.mul_sum]
    refine Finset.sum_congr rfl fun k _ => ?_
    have := coeff_sq c k
    rw [kernel_diff_re]
    linear_combination ((kernel a k).re * (kernel b k).re + (kernel a k).im * (kernel b k).im) * this

/-- **C56** Real and imaginary part are uncorrelated, at any two nodes. -/
theorem C56_uncorrelated (c : Idx dim M → ℝ) (hc : ∀ j, c (-j) = c j) (eta xi : Idx dim M → H)
    (ho : Orthonormal ℝ (Sum.elim eta xi)) (a b : Idx dim M) :
    inner ℝ (fieldRe (coeff c) eta xi a) (fieldIm (coeff c) eta xi b) = 0 := by
  rw [fieldRe_eq]
  unfold fieldIm
  rw [inner_field eta xi ho]
  have e : ∀ k, coeff c k * (kernel a k).re * (coeff c k * (kernel b k).im) +
      -(coeff c k * (kernel a k).im) * (coeff c k * (kernel b k).re) =
      -(coeff c k * coeff c k * (kernel (a - b) k).im) := by
    intro k
    rw [kernel_diff_im]
    ring
  simp only [e]
  have odd : ∀ k, -(coeff c (-k) * coeff c (-k) * (kernel (a - b) (-k)).im) =
      -(-(coeff c k * coeff c k * (kernel (a - b) k).im)) := by
    intro k
    have h1 : coeff c (-k) = coeff c k := by unfold coeff; rw [forward_neg c hc]
    have h2 : (kernel (a - b) (-k)).im = -(kernel (a - b) k).im := by
      rw [kernel_comm, kernel_neg, Complex.conj_im, kernel_comm]
    rw [h1, h2]
    ring
  have h := Equiv.sum_comp (Equiv.neg (Idx dim M)) fun k => -(coeff c k * coeff c k * (kernel (a - b) k).im)
  simp only [Equiv.neg_apply, odd] at h
  rw [Finset.sum_neg_distrib] at h
  linarith

/-- **C56** (partial: no negative eigenvalue) Then the covariance of the generated field is the given one. -/
theorem C56_exact_partial (c : Idx dim M → ℝ) (hc : ∀ j, c (-j) = c j) (hpos : ∀ k, 0 ≤ eigenvalue c k)
    (eta xi : Idx dim M → H) (ho : Orthonormal ℝ (Sum.elim eta xi)) (a b : Idx dim M) :
    inner ℝ (fieldRe (coeff c) eta xi a) (fieldRe (coeff c) eta xi b) = c (a - b) ∧
    inner ℝ (fieldIm (coeff c) eta xi a) (fieldIm (coeff c) eta xi b) = c (a - b) := by
  obtain ⟨h1, h2⟩ := C56_covariance c eta xi ho a b
  have e : ∀ k, |eigenvalue c k| = eigenvalue c k := fun k => abs_of_nonneg (hpos k)
  simp only [e] at h1 h2
  rw [eigenvalue_inversion c hc] at h1 h2
  exact ⟨h1, h2⟩

/-- **C56** The variance of the generated field is right exactly if there is no negative eigenvalue; otherwise it is too
large. -/
theorem C56_variance_iff (c : Idx dim M → ℝ) (hc : ∀ j, c (-j) = c j) (eta xi : Idx dim M → H)
    (ho : Orthonormal ℝ (Sum.elim eta xi)) (a : Idx dim M) :
    c 0 ≤ inner ℝ (fieldRe (coeff c) eta xi a) (fieldRe (coeff c) eta xi a) ∧
    (inner ℝ (fieldRe (coeff c) eta xi a) (fieldRe (coeff c) eta xi a) = c 0 ↔ ∀ k, 0 ≤ eigenvalue c k) := by
  have h1 := (C56_covariance c eta xi ho a a).1
  have h2 := eigenvalue_inversion c hc 0
  rw [sub_self] at h1
  simp only [kernel_zero, Complex.one_re, mul_one] at h1 h2
  have hM : (0 : ℝ) < 1 / (M : ℝ) ^ dim := by
    have : (0 : ℝ) < M := Nat.cast_pos.mpr (Nat.pos_of_ne_zero (NeZero.ne M))
    positivity
  have hle : ∀ k ∈ Finset.univ, eigenvalue c k ≤ |eigenvalue c k| := fun k _ => le_abs_self _
  constructor
  · rw [h1, ← h2]
    exact mul_le_mul_of_nonneg_left (Finset.sum_le_sum hle) hM.le
  · rw [h1]
    constructor
    · intro h k
      have hs : ∑ k, eigenvalue c k = ∑ k, |eigenvalue c k| := by
        have := h2.trans h.symm
        exact mul_left_cancel₀ hM.ne' this
      have := (Finset.sum_eq_sum_iff_of_le hle).mp hs k (Finset.mem_univ k)
      rw [this]
      exact abs_nonneg _
    · intro hpos
      have e : ∀ k, |eigenvalue c k| = eigenvalue c k := fun k => abs_of_nonneg (hpos k)
      simp only [e]
      exact h2

/-- **C56** (partial: no negative eigenvalue) The field generated by the program has between any two nodes of the unit cube
the covariance requested for their difference. -/
theorem C56_nodes_partial {dim N : ℕ} [NeZero (2 * N)] (hN : 0 < N) (corrLen sigma : ℝ)
    (hpos : ∀ k, 0 ≤ eigenvalue (extension (dim := dim) (correlation corrLen sigma) N) k)
    (eta xi : Idx dim (2 * N) → H) (ho : Orthonormal ℝ (Sum.elim eta xi)) (a b : Fin dim → ℕ) (ha : ∀ i, a i ≤ N)
    (hb : ∀ i, b i ≤ N) :
    let Y := fieldRe (coeff (extension (correlation corrLen sigma) N)) eta xi
    inner ℝ (Y fun i => (a i : ZMod (2 * N))) (Y fun i => (b i : ZMod (2 * N))) =
      correlation corrLen sigma fun i => (a i : ℝ) / N - (b i : ℝ) / N := by
  intro Y
  have h := (C56_exact_partial _ (C50_even (correlation corrLen sigma) N hN) hpos eta xi ho
    (fun i => (a i : ZMod (2 * N))) (fun i => (b i : ZMod (2 * N)))).1
  rw [← C50_exact corrLen sigma N hN a b ha hb]
  exact h

/-- Non-vacuity: random numbers as assumed exist. -/
example : Orthonormal ℝ (Sum.elim
    (fun k => EuclideanSpace.single (Sum.inl k) (1 : ℝ) : Idx dim M → EuclideanSpace ℝ (Idx dim M ⊕ Idx dim M))
    (fun k => EuclideanSpace.single (Sum.inr k) (1 : ℝ))) := by
  have h := EuclideanSpace.orthonormal_single (𝕜 := ℝ) (ι := Idx dim M ⊕ Idx dim M)
  have e : (Sum.elim
    (fun k => EuclideanSpace.single (Sum.inl k) (1 : ℝ) : Idx dim M → EuclideanSpace ℝ (Idx dim M ⊕ Idx dim M))
    (fun k => EuclideanSpace.single (Sum.inr k) (1 : ℝ))) = fun i => EuclideanSpace.single i (1 : ℝ) := by
    funext i
    cases i <;> rfl
  rw [e]
  exact h

end

/-! ### A negative eigenvalue: two segments per direction, correlation length 2 -/

/-- The eigenvalue of the index (2, 0) for an array on 4 x 4 nodes. -/
theorem eigenvalue_four (c : Idx 2 4 → ℝ) :
    eigenvalue c ![2, 0] = ∑ i : ZMod 4, ∑ j : ZMod 4, (if i.val % 2 = 0 then 1 else -1) * c ![i, j] := by
  have hk : ∀ i j : ZMod 4, kernel (-![i, j]) (![2, 0] : Idx 2 4) = if i.val % 2 = 0 then 1 else -1 := by
    intro i j
    have e : ∑ l, (-![i, j] : Idx 2 4) l * (![2, 0] : Idx 2 4) l = if i.val % 2 = 0 then 0 else 2 := by
      rw [Fin.sum_univ_two]
      revert i j
      decide
    unfold kernel
    rw [e]
    split_ifs
    · simp
    · have h2 := ZMod.stdAddChar_coe (N := 4) 2
      have : ((2 : ℤ) : ZMod 4) = 2 := by decide
      rw [this] at h2
      rw [h2]
      have e3 : 2 * (Real.pi : ℂ) * Complex.I * ((2 : ℤ) : ℂ) / ((4 : ℕ) : ℂ) = Real.pi * Complex.I := by
        push_cast; ring
      rw [e3, Complex.exp_pi_mul_I]
  unfold eigenvalue forward
  rw [← Equiv.sum_comp (finTwoArrowEquiv (ZMod 4)).symm, Fintype.sum_prod_type, Complex.re_sum]
  refine Finset.sum_congr rfl fun i _ => ?_
  rw [Complex.re_sum]
  refine Finset.sum_congr rfl fun j _ => ?_
  have e : (finTwoArrowEquiv (ZMod 4)).symm (i, j) = ![i, j] := rfl
  rw [e, hk]
  split_ifs <;> simp

theorem eigenvalue_negative : eigenvalue (M := 4) (extension (dim := 2) (correlation 2 1) 2) ![2, 0] < 0 := by
  rw [eigenvalue_four]
  have val : ∀ i j : ZMod 4, extension (dim := 2) (correlation 2 1) 2 ![i, j] =
      Real.exp (-Real.sqrt ((mirrored 2 i.val * (1 / 2)) ^ 2 + (mirrored 2 j.val * (1 / 2)) ^ 2) / 2) := by
    intro i j
    unfold extension correlation
    rw [Fin.sum_univ_two]
    simp [sq]
  simp only [val]
  have s4 : ∀ f : ZMod 4 → ℝ, ∑ i, f i = f 0 + f 1 + f 2 + f 3 := fun f => Fin.sum_univ_four f
  simp only [s4]
  have v0 : (0 : ZMod 4).val = 0 := rfl
  have v1 : (1 : ZMod 4).val = 1 := rfl
  have v2 : (2 : ZMod 4).val = 2 := rfl
  have v3 : (3 : ZMod 4).val = 3 := rfl
  have m0 : mirrored 2 0 = 0 := rfl
  have m1 : mirrored 2 1 = 1 := rfl
  have m2 : mirrored 2 2 = 2 := rfl
  have m3 : mirrored 2 3 = 1 := rfl
  simp only [v0, v1, v2, v3, m0, m1, m2, m3]
  have e00 : ((((0 : ℕ) : ℝ) * (1 / 2)) ^ 2 + (((0 : ℕ) : ℝ) * (1 / 2)) ^ 2) = 0 := by norm_num
  have e01 : ((((0 : ℕ) : ℝ) * (1 / 2)) ^ 2 + (((1 : ℕ) : ℝ) * (1 / 2)) ^ 2) = 1 / 4 := by norm_num
  have e02 : ((((0 : ℕ) : ℝ) * (1 / 2)) ^ 2 + (((2 : ℕ) : ℝ) * (1 / 2)) ^ 2) = 1 := by norm_num
  have e10 : ((((1 : ℕ) : ℝ) * (1 / 2)) ^ 2 + (((0 : ℕ) : ℝ) * (1 / 2)) ^ 2) = 1 / 4 := by norm_num
  have e11 : ((((1 : ℕ) : ℝ) * (1 / 2)) ^ 2 + (((1 : ℕ) : ℝ) * (1 / 2)) ^ 2) = 1 / 2 := by norm_num
  have e12 : ((((1 : ℕ) : ℝ) * (1 / 2)) ^ 2 + (((2 : ℕ) : ℝ) * (1 / 2)) ^ 2) = 5 / 4 := by norm_num
  have e20 : ((((2 : ℕ) : ℝ) * (1 / 2)) ^ 2 + (((0 : ℕ) : ℝ) * (1 / 2)) ^ 2) = 1 := by norm_num
  have e21 : ((((2 : ℕ) : ℝ) * (1 / 2)) ^ 2 + (((1 : ℕ) : ℝ) * (1 / 2)) ^ 2) = 5 / 4 := by norm_num
  have e22 : ((((2 : ℕ) : ℝ) * (1 / 2)) ^ 2 + (((2 : ℕ) : ℝ) * (1 / 2)) ^ 2) = 2 := by norm_num
  simp only [e00, e01, e02, e10, e11, e12, e20, e21, e22]
  have w0 : Real.exp (-Real.sqrt 0 / 2) = 1 := by simp
  have w1 : Real.exp (-Real.sqrt 1 / 2) ≤ 0.61 := by
    rw [Real.sqrt_one]
    have h1 : Real.exp (-1 / 2) * Real.exp (-1 / 2) = Real.exp (-1) := by rw [← Real.exp_add]; norm_num
    have h2 : Real.exp (-1) * Real.exp 1 = 1 := by rw [← Real.exp_add]; norm_num
    have h3 := Real.exp_one_gt_d9
    have h4 := Real.exp_pos (-1 / 2)
    by_contra hcon
    push Not at hcon
    nlinarith
  have w2 : 0.69 ≤ Real.exp (-Real.sqrt (1 / 2) / 2) := by
    have hs : Real.sqrt (1 / 2) ≤ 8 / 11 := by
      rw [Real.sqrt_le_left (by norm_num)]
      norm_num
    have h1 : Real.exp (-(4 / 11)) ≤ Real.exp (-Real.sqrt (1 / 2) / 2) := Real.exp_le_exp.mpr (by linarith)
    refine le_trans ?_ h1
    have h2 : Real.exp (-(4 / 11)) ^ 11 = Real.exp (-4) := by rw [← Real.exp_nat_mul]; norm_num
    have h3 : Real.exp (-4) * Real.exp 1 ^ 4 = 1 := by
      rw [← Real.exp_nat_mul, ← Real.exp_add]; norm_num
    have h4 : Real.exp 1 ^ 4 ≤ 2.719 ^ 4 := pow_le_pow_left₀ (Real.exp_pos 1).le
      (by have := Real.exp_one_lt_d9; linarith) 4
    by_contra hcon
    push Not at hcon
    have h5 : Real.exp (-(4 / 11)) ^ 11 < 0.69 ^ 11 := pow_lt_pow_left₀ hcon (Real.exp_pos _).le (by norm_num)
    rw [h2] at h5
    have h6 := Real.exp_pos (-4)
    have h7 : (0.69 : ℝ) ^ 11 * 2.719 ^ 4 < 1 := by norm_num
    have h8 : Real.exp (-4) * Real.exp 1 ^ 4 ≤ 0.69 ^ 11 * 2.719 ^ 4 :=
      mul_le_mul h5.le h4 (by positivity) (by norm_num)
    linarith
  have w2' : Real.exp (-Real.sqrt (1 / 2) / 2) ≤ 1 := Real.exp_le_one_iff.mpr (by
    have := Real.sqrt_nonneg (1 / 2 : ℝ)
    linarith)
  have w3 : Real.exp (-Real.sqrt 2 / 2) = Real.exp (-Real.sqrt (1 / 2) / 2) * Real.exp (-Real.sqrt (1 / 2) / 2) := by
    rw [← Real.exp_add]
    congr 1
    have h1 : Real.sqrt 2 = 2 * Real.sqrt (1 / 2) := by
      rw [show (2 : ℝ) = 4 * (1 / 2) by norm_num, Real.sqrt_mul (by norm_num),
        show Real.sqrt 4 = 2 by rw [show (4 : ℝ) = 2 ^ 2 by norm_num, Real.sqrt_sq (by norm_num)]]
      norm_num
    rw [h1]
    ring
  rw [w0, w3]
  generalize Real.exp (-Real.sqrt (1 / 2) / 2) = t at *
  generalize Real.exp (-Real.sqrt 1 / 2) = u at *
  generalize Real.exp (-Real.sqrt (1 / 4) / 2) = v at *
  generalize Real.exp (-Real.sqrt (5 / 4) / 2) = w at *
  norm_num
  nlinarith

/-- **C56** (the negation) For two segments per direction and correlation length 2 the generated field has a variance greater than
the requested one, at every node. -/
theorem C56_violated {H : Type} [NormedAddCommGroup H] [InnerProductSpace ℝ H] (eta xi : Idx 2 4 → H)
    (ho : Orthonormal ℝ (Sum.elim eta xi)) (a : Idx 2 4) :
    let Y := fieldRe (coeff (M := 4) (extension (dim := 2) (correlation 2 1) 2)) eta xi
    correlation 2 1 (fun _ : Fin 2 => 0) < inner ℝ (Y a) (Y a) := by
  intro Y
  obtain ⟨h1, h2⟩ := C56_variance_iff (M := 4) _ (C50_even (correlation 2 1) 2 (by norm_num)) eta xi ho a
  have e : extension (dim := 2) (correlation 2 1) 2 0 = correlation 2 1 (fun _ : Fin 2 => 0) := by
    unfold extension
    congr 1
    funext i
    simp [mirrored]
  rw [← e]
  refine lt_of_le_of_ne h1 fun h => ?_
  have := h2.mp h.symm ![2, 0]
  exact absurd this (not_le.mpr eigenvalue_negative)

end Verif.Covariance
