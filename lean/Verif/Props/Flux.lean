import Verif.Props.Synthetic
import Verif.Props.Permeability

/-!
# C66: the flux belongs to the diffusion matrix

The system matrices are assembled with `evaluate`, the right-hand sides of the local problems with `diffusiveFlux`.
-/

namespace Verif.Flux
open Real Verif.Synthetic Verif.Permeability

/-- Specification: `f` is the linear map with the matrix `A`. -/
def Belongs {d : Type} [Fintype d] {R : Type} [CommRing R] (f : (d → R) → (d → R)) (A : Matrix d d R) : Prop :=
  ∀ v, f v = A.mulVec v

theorem mulVec_diag {n : ℕ} (A : Mat n) (h : ∀ i j, i ≠ j → A i j = 0) (v : Row n) (i : Fin (n + 2)) :
    A.mulVec v i = A i i * v i := by
  show ∑ j, A i j * v j = _
  rw [Finset.sum_eq_single i]
  · intro j _ hj
    rw [h i j hj.symm, zero_mul]
  · intro h; exact absurd (Finset.mem_univ i) h

theorem assign_off {n : ℕ} (a b : ℝ) (i j : Fin (n + 2)) (h : i ≠ j) : assign (assign (0 : Mat n) 0 0 a) 1 1 b i j = 0 := by
  unfold assign
  rw [if_neg (by rintro ⟨rfl, rfl⟩; exact h rfl), if_neg (by rintro ⟨rfl, rfl⟩; exact h rfl)]
  rfl

theorem assign_high {n : ℕ} (a b : ℝ) (i : Fin (n + 2)) (h0 : i ≠ 0) (h1 : i ≠ 1) :
    assign (assign (0 : Mat n) 0 0 a) 1 1 b i i = 0 := by
  unfold assign
  rw [if_neg (by rintro ⟨rfl, -⟩; exact h1 rfl), if_neg (by rintro ⟨rfl, -⟩; exact h0 rfl)]
  rfl

/-- **C66** (Synthetic and ER2007, exact condition) In dimension `n + 2`, with a result matrix that is zero before the call, the flux
belongs to the matrix exactly if the components of the flux object from the third on were zero before the call. -/
theorem C66_synthetic_er_iff {n : ℕ} (eps : ℝ) (junk : Mat n) (x : Point n) (flux : Row n) :
    (Belongs (fun v => Synthetic.diffusiveFlux eps junk x v flux) (diffusion eps x 0) ↔
      ∀ i : Fin (n + 2), i ≠ 0 → i ≠ 1 → flux i = 0) ∧
    (Belongs (fun v => erDiffusiveFlux x v flux) (erDiffusion x 0) ↔
      ∀ i : Fin (n + 2), i ≠ 0 → i ≠ 1 → flux i = 0) := by
  have h10 : (1 : Fin (n + 2)) ≠ 0 := by simp
  have key : ∀ (a b : ℝ) (f : Row n → Row n), (∀ v, f v 0 = a * v 0) → (∀ v, f v 1 = b * v 1) →
      (∀ v i, i ≠ 0 → i ≠ 1 → f v i = flux i) →
      (Belongs f (assign (assign 0 0 0 a) 1 1 b) ↔ ∀ i : Fin (n + 2), i ≠ 0 → i ≠ 1 → flux i = 0) := by
    intro a b f f0 f1 f2
    constructor
    · intro h i h0 h1
      have := congrFun (h 0) i
      rw [f2 _ i h0 h1, mulVec_diag _ (assign_off a b), assign_high a b i h0 h1, zero_mul] at this
      exact this
    · intro h v
      funext i
      rw [mulVec_diag _ (assign_off a b)]
      by_cases h0 : i = 0
      · subst h0
        rw [f0]; simp [assign]
      · by_cases h1 : i = 1
        · subst h1
          rw [f1]; simp [assign]
        · rw [f2 v i h0 h1, h i h0 h1, assign_high a b i h0 h1, zero_mul]
  constructor
  · have := key (2 * (1 / (8 * π * π)) * (1 / (2 + cos (twoPi * (x 0 / eps)))))
      (1 / (8 * π * π) * (1 + 0.5 * cos (twoPi * (x 0 / eps)))) (fun v => Synthetic.diffusiveFlux eps junk x v flux)
      (fun v => by simp only [Synthetic.diffusiveFlux, if_true, diag0])
      (fun v => by simp only [Synthetic.diffusiveFlux, h10, if_false, if_true, diag1])
      (fun v i h0 h1 => by simp only [Synthetic.diffusiveFlux, h0, h1, if_false])
    exact this
  · have := key 1 1 (fun v => erDiffusiveFlux x v flux)
      (fun v => by simp only [erDiffusiveFlux, if_true, one_mul])
      (fun v => by simp only [erDiffusiveFlux, h10, if_false, if_true, one_mul])
      (fun v i h0 h1 => by simp only [erDiffusiveFlux, h0, h1, if_false])
    exact this

/-- **C66** (partial: two dimensions) For Synthetic and ER2007 the flux belongs to the matrix whatever the flux object and the local
matrix variable held before. -/
theorem C66_two_dimensions_partial (eps : ℝ) (junk : Mat 0) (x : Point 0) (flux : Row 0) :
    Belongs (fun v => Synthetic.diffusiveFlux eps junk x v flux) (diffusion eps x 0) ∧
    Belongs (fun v => erDiffusiveFlux x v flux) (erDiffusion x 0) := by
  have : ∀ i : Fin (0 + 2), i ≠ 0 → i ≠ 1 → flux i = 0 := by
    intro i h0 h1
    exact absurd (show i = 0 ∨ i = 1 by revert i; decide) (by rintro (h | h); exacts [h0 h, h1 h])
  exact ⟨(C66_synthetic_er_iff eps junk x flux).1.mpr this, (C66_synthetic_er_iff eps junk x flux).2.mpr this⟩

/-- **C66** (the negation) In three dimensions the third component of the flux is what the flux object held before, which is
not the third component given by the matrix. -/
theorem C66_violated_three_dimensions (eps : ℝ) (junk : Mat 1) (x : Point 1) (flux : Row 1) (h : flux 2 ≠ 0) :
    ¬ Belongs (fun v => Synthetic.diffusiveFlux eps junk x v flux) (diffusion eps x 0) ∧
    ¬ Belongs (fun v => erDiffusiveFlux x v flux) (erDiffusion x 0) := by
  have h20 : (2 : Fin (1 + 2)) ≠ 0 := by decide
  have h21 : (2 : Fin (1 + 2)) ≠ 1 := by decide
  rw [(C66_synthetic_er_iff eps junk x flux).1, (C66_synthetic_er_iff eps junk x flux).2]
  exact ⟨fun hf => h (hf 2 h20 h21), fun hf => h (hf 2 h20 h21)⟩

/-- Hypothesis met. -/
example : (fun _ => 1 : Row 1) 2 ≠ 0 := one_ne_zero

/-- **C66** (Random) In every dimension and whatever the objects held before, the flux belongs to the matrix. -/
theorem C66_random {n : ℕ} (field : Point n → ℝ) (junk ret : Mat n) (x : Point n) (flux : Row n) :
    Belongs (fun v => randomFlux field junk x v flux) (randomDiffusion field x ret) := by
  intro v
  rw [C37_random_isotropic]
  funext i
  simp [randomFlux, randomDiffusion]

/-- **C66** (Tarbert) The flux is the matrix times the direction, and is an error exactly when the evaluation is. -/
theorem C66_tarbert (rd : ℚ → ℚ) (perm : Option Buffer) (junk y : Matrix (Fin 3) (Fin 3) ℚ) (x : Fin 3 → ℚ) :
    (∀ A, tarbertEvaluate rd perm x y = .ok A → ∃ f, (∀ v, tarbertFlux rd perm junk x v = .ok (f v)) ∧ Belongs f A) ∧
    (tarbertEvaluate rd perm x y = .throw → ∀ v, tarbertFlux rd perm junk x v = .throw) ∧
    (tarbertEvaluate rd perm x y = .ub → ∀ v, tarbertFlux rd perm junk x v = .ub) := by
  have e : tarbertEvaluate rd perm x junk = tarbertEvaluate rd perm x y := rfl
  unfold tarbertFlux
  rw [e]
  refine ⟨fun A h => ⟨A.mulVec, fun v => by rw [h]; rfl, fun _ => rfl⟩, fun h v => by rw [h]; rfl, fun h v => by rw [h]; rfl⟩

/-- **C66** (SPE10, exact condition) The flux belongs to the matrix exactly if the local variable of the flux function and the result
object of the evaluation agree off the diagonal before the calls. -/
theorem C66_spe10_iff (rd : ℚ → ℚ) (perm : ℕ → ℚ) (junk y : Matrix (Fin 3) (Fin 3) ℚ) (x : Fin 3 → ℚ) :
    Belongs (spe10Flux rd perm junk x) (spe10Evaluate rd perm x y) ↔ ∀ i j, i ≠ j → junk i j = y i j := by
  constructor
  · intro h i j hij
    have hm : spe10Evaluate rd perm x junk = spe10Evaluate rd perm x y := by
      ext a b
      have := congrFun (h (Pi.single b 1)) a
      simp only [spe10Flux, Matrix.mulVec_single_one] at this
      exact this
    have := congrFun (congrFun hm i) j
    simpa [spe10Evaluate, hij] using this
  · intro h v
    show (spe10Evaluate rd perm x junk).mulVec v = _
    congr 1
    ext i j
    by_cases hij : i = j
    · simp [spe10Evaluate, hij]
    · simp [spe10Evaluate, hij, h i j hij]

/-- Instances: new objects that are zero; objects with different content. -/
example (perm : ℕ → ℚ) (x : Fin 3 → ℚ) : Belongs (spe10Flux id perm 0 x) (spe10Evaluate id perm x 0) ∧
    ¬ Belongs (spe10Flux id perm (fun _ _ => 1) x) (spe10Evaluate id perm x 0) := by
  refine ⟨(C66_spe10_iff id perm 0 0 x).mpr fun _ _ _ => rfl, fun h => ?_⟩
  exact one_ne_zero ((C66_spe10_iff id perm (fun _ _ => 1) 0 x).mp h 0 1 (by decide))

end Verif.Flux
