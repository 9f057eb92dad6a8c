import Verif.Spec.Ellipticity
import Verif.Props.Synthetic
import Verif.Props.Permeability
import Verif.Props.RandomField

/-!
# C67: ellipticity of the problems in the dimension of the build
-/

namespace Verif.Flux
open Real Verif.Synthetic Verif.Permeability Verif.Spec.Ellipticity

section
variable {d : Type} [Fintype d] [DecidableEq d] {R : Type} [CommRing R] [LinearOrder R] [IsStrictOrderedRing R]

/-- A diagonal matrix is elliptic with bounds of its entries. -/
theorem elliptic_diagonal (A : Matrix d d R) (l u : R) (off : ∀ i j, i ≠ j → A i j = 0) (b : ∀ i, l ≤ A i i ∧ A i i ≤ u) :
    Elliptic l u A := by
  have e : ∀ v : d → R, v ⬝ᵥ A.mulVec v = ∑ i, A i i * (v i * v i) := by
    intro v
    refine Finset.sum_congr rfl fun i _ => ?_
    have : A.mulVec v i = A i i * v i := by
      show ∑ j, A i j * v j = _
      rw [Finset.sum_eq_single i]
      · intro j _ hj
        rw [off i j hj.symm, zero_mul]
      · intro h; exact absurd (Finset.mem_univ i) h
    rw [this]; ring
  constructor
  · ext i j
    by_cases h : i = j
    · subst h; rfl
    · rw [Matrix.transpose_apply, off i j h, off j i (Ne.symm h)]
  · intro v
    rw [e]
    show l * ∑ i, v i * v i ≤ _ ∧ _ ≤ u * ∑ i, v i * v i
    rw [Finset.mul_sum, Finset.mul_sum]
    exact ⟨Finset.sum_le_sum fun i _ => mul_le_mul_of_nonneg_right (b i).1 (mul_self_nonneg _),
      Finset.sum_le_sum fun i _ => mul_le_mul_of_nonneg_right (b i).2 (mul_self_nonneg _)⟩

/-- A matrix with a zero on the diagonal is not elliptic. -/
theorem not_elliptic (A : Matrix d d R) (i : d) (h : A i i = 0) : ¬ ∃ l u, 0 < l ∧ Elliptic l u A := by
  rintro ⟨l, u, hl, -, hv⟩
  have := (hv (Pi.single i 1)).1
  rw [Matrix.mulVec_single_one, single_dotProduct, single_dotProduct, Pi.single_eq_same] at this
  have h' : A.col i i = 0 := h
  rw [h'] at this
  linarith
end

/-- **C67** (partial: two dimensions) Synthetic and ER2007, result object initially zero. -/
theorem C67_synthetic_er_partial (eps : ℝ) (x : Point 0) :
    Elliptic (1 / (16 * π ^ 2)) (1 / (4 * π ^ 2)) (diffusion eps x 0) ∧ Elliptic 1 1 (erDiffusion x 0) := by
  have two : ∀ i : Fin (0 + 2), i = 0 ∨ i = 1 := by decide
  constructor
  · refine elliptic_diagonal _ _ _ (fun i j h => ?_) fun i => C34_diagonal_bounds eps x 0 i (two i)
    unfold diffusion assign
    rcases two i with rfl | rfl <;> rcases two j with rfl | rfl <;> first | exact absurd rfl h | simp
  · refine elliptic_diagonal _ _ _ (fun i j h => ?_) fun i => ?_
    · unfold erDiffusion assign
      rcases two i with rfl | rfl <;> rcases two j with rfl | rfl <;> first | exact absurd rfl h | simp
    · unfold erDiffusion assign
      rcases two i with rfl | rfl <;> simp

/-- **C67** (the negation) From three dimensions on, Synthetic and ER2007 are not elliptic at any point: with a result object that is
zero before the call, the third entry of the diagonal stays zero. -/
theorem C67_violated_three_dimensions {n : ℕ} (eps : ℝ) (x : Point (n + 1)) :
    (¬ ∃ l u, 0 < l ∧ Elliptic l u (diffusion eps x 0)) ∧ (¬ ∃ l u, 0 < l ∧ Elliptic l u (erDiffusion x 0)) := by
  have h0 : (⟨2, by omega⟩ : Fin (n + 1 + 2)) ≠ 0 := by
    intro h; exact absurd (congrArg Fin.val h) (by simp)
  have h1 : (⟨2, by omega⟩ : Fin (n + 1 + 2)) ≠ 1 := by
    intro h; exact absurd (congrArg Fin.val h) (by simp)
  exact ⟨not_elliptic _ ⟨2, by omega⟩ (by simp [diffusion, assign, h0, h1]),
    not_elliptic _ ⟨2, by omega⟩ (by simp [erDiffusion, assign, h0, h1])⟩

/-- **C67** (exact) With a result object which holds the diagonal matrix with entry `t` from the third row on, Synthetic and
ER2007 are elliptic exactly if `t` is positive: the remaining part of the matrix is the caller's. -/
theorem C67_callers_entry (eps t : ℝ) (x : Point 1) :
    ((∃ l u, 0 < l ∧ Elliptic l u (diffusion eps x (Matrix.diagonal fun _ => t))) ↔ 0 < t) ∧
    ((∃ l u, 0 < l ∧ Elliptic l u (erDiffusion x (Matrix.diagonal fun _ => t))) ↔ 0 < t) := by
  have three : ∀ i : Fin (1 + 2), i = 0 ∨ i = 1 ∨ i = 2 := by decide
  have key : ∀ A : Mat 1, A 2 2 = t → 0 < A 0 0 → 0 < A 1 1 → (∀ i j, i ≠ j → A i j = 0) →
      ((∃ l u, 0 < l ∧ Elliptic l u A) ↔ 0 < t) := by
    intro A h2 p0 p1 off
    constructor
    · rintro ⟨l, u, hl, -, hv⟩
      have := (hv (Pi.single 2 1)).1
      rw [Matrix.mulVec_single_one, single_dotProduct, single_dotProduct, Pi.single_eq_same] at this
      have h' : A.col 2 2 = t := h2
      rw [h'] at this
      linarith
    · intro ht
      refine ⟨min t (min (A 0 0) (A 1 1)), max t (max (A 0 0) (A 1 1)), by simp [ht, p0, p1], elliptic_diagonal _ _ _ off fun i => ?_⟩
      rcases three i with rfl | rfl | rfl
      · exact ⟨(min_le_right _ _).trans (min_le_left _ _), (le_max_left _ _).trans (le_max_right _ _)⟩
      · exact ⟨(min_le_right _ _).trans (min_le_right _ _), (le_max_right _ _).trans (le_max_right _ _)⟩
      · rw [h2]; exact ⟨min_le_left _ _, le_max_left _ _⟩
  have pos : 0 < 1 / (16 * π ^ 2) := by positivity
  constructor
  · refine key _ (by simp [diffusion, assign]) ?_ ?_ fun i j h => ?_
    · exact lt_of_lt_of_le pos (C34_diagonal_bounds eps x _ 0 (.inl rfl)).1
    · exact lt_of_lt_of_le pos (C34_diagonal_bounds eps x _ 1 (.inr rfl)).1
    · unfold diffusion assign
      rcases three i with rfl | rfl | rfl <;> rcases three j with rfl | rfl | rfl <;> first | exact absurd rfl h | simp
  · refine key _ (by simp [erDiffusion, assign]) (by simp [erDiffusion, assign]) (by simp [erDiffusion, assign]) fun i j h => ?_
    unfold erDiffusion assign
    rcases three i with rfl | rfl | rfl <;> rcases three j with rfl | rfl | rfl <;> first | exact absurd rfl h | simp

/-- **C67** (Random) In every dimension and for every previous content: the matrix of a positive field is elliptic. -/
theorem C67_random {n : ℕ} (field : Point n → ℝ) (x : Point n) (ret : Mat n) :
    Elliptic (field x) (field x) (randomDiffusion field x ret) :=
  elliptic_diagonal _ _ _ (fun i j h => by simp [randomDiffusion, h]) fun i => by simp [randomDiffusion]

/-- **C67** (Random) Values which the evaluation of the field returns are positive, in two and three dimensions, for a positive
cut-off: together with `C67_random` the matrix is uniformly elliptic with the cut-off as constant. -/
theorem C67_random_positive (N : ℕ) (b0 b1 b2 : RandomField.Range) (perm : ℕ → ℝ × ℝ) (part : ℕ) (minimal v : ℝ) (ret2 : Mat 0)
    (ret3 : Mat 1) (x : Point 0) (y : Point 1) :
    (RandomField.evaluate2 N b0 b1 perm part minimal (x 0) (x 1) = .ok v →
      Elliptic minimal v (randomDiffusion (fun _ => v) x ret2)) ∧
    (RandomField.evaluate3 N b0 b1 b2 perm part minimal (y 0) (y 1) (y 2) = .ok v →
      Elliptic minimal v (randomDiffusion (fun _ => v) y ret3)) := by
  constructor
  · intro h
    have := (RandomField.C47_at_least_minimal N b0 b1 b2 perm part minimal (x 0) (x 1) 0 v).1 h
    exact elliptic_diagonal _ _ _ (fun i j h => by simp [randomDiffusion, h]) fun i => by simp [randomDiffusion, this]
  · intro h
    have := (RandomField.C47_at_least_minimal N b0 b1 b2 perm part minimal (y 0) (y 1) (y 2) v).2 h
    exact elliptic_diagonal _ _ _ (fun i j h => by simp [randomDiffusion, h]) fun i => by simp [randomDiffusion, this]

/-- **C67** (SPE10) If the file has the right number of entries, all in the range of the data set, then the matrix is elliptic with
the configured bounds, at every point and with every rounding of the cell search; result object initially zero. -/
theorem C67_spe10 (lo hi min max : ℚ) (hlh : lo < hi) (h : min < max) (numbers : List ℚ)
    (hn : numbers.length = 3 * entriesPerDim) (hr : ∀ v ∈ numbers, lo ≤ v ∧ v ≤ hi) :
    ∃ a, spe10Read lo hi min max (some numbers) = .ok a ∧
      ∀ (rd : ℚ → ℚ) (x : Fin 3 → ℚ), Elliptic min max (spe10Evaluate rd a x 0) := by
  rcases C40_read_partial lo hi min max h numbers hn.le with ⟨-, a, ha, hv⟩ | ⟨h', -⟩
  · refine ⟨a, ha, fun rd x => elliptic_diagonal _ _ _ (fun i j hij => by simp [spe10Evaluate, hij]) fun i => ?_⟩
    have hb : spe10Entry rd x i < numbers.length := by rw [hn]; exact (C39_in_block rd x i).2.2
    have e : spe10Evaluate rd a x 0 i i = a (spe10Entry rd x i) := by simp [spe10Evaluate]
    rw [e, hv _ hb]
    obtain ⟨h1, h2⟩ := hr _ (List.getElem_mem hb)
    generalize numbers[spe10Entry rd x i] = w at h1 h2
    have hd : 0 < hi - lo := by linarith
    have hm : 0 < max - min := by linarith
    have p1 : 0 ≤ (max - min) / (hi - lo) * (w - lo) := mul_nonneg (div_pos hm hd).le (by linarith)
    have p2 : (max - min) / (hi - lo) * (w - lo) ≤ max - min := by
      calc (max - min) / (hi - lo) * (w - lo) ≤ (max - min) / (hi - lo) * (hi - lo) :=
            mul_le_mul_of_nonneg_left (by linarith) (div_pos hm hd).le
        _ = max - min := div_mul_cancel₀ _ hd.ne'
    exact ⟨by linarith, by linarith⟩
  · omega

/-- The hypotheses of `C67_spe10` are met by a file with the value 1 everywhere. -/
example : (List.replicate (3 * entriesPerDim) (1 : ℚ)).length = 3 * entriesPerDim ∧
    ∀ v ∈ List.replicate (3 * entriesPerDim) (1 : ℚ), (665 / 10000000000 : ℚ) ≤ v ∧ v ≤ 20000 := by
  refine ⟨List.length_replicate, fun v hv => ?_⟩
  rw [List.eq_of_mem_replicate hv]
  norm_num

/-- **C67** (Tarbert) Every matrix which the evaluation returns is elliptic with the bounds of the stored values. -/
theorem C67_tarbert (rd : ℚ → ℚ) (buf : Buffer) (l u : ℚ) (hb : ∀ k v, buf k = some v → l ≤ v ∧ v ≤ u)
    (x : Fin 3 → ℚ) (y A : Matrix (Fin 3) (Fin 3) ℚ) (h : tarbertEvaluate rd (some buf) x y = .ok A) : Elliptic l u A := by
  unfold tarbertEvaluate at h
  simp only at h
  have get : ∀ (k : ℤ) (v : ℚ), (if 0 ≤ k then buf k.toNat else none) = some v → l ≤ v ∧ v ≤ u := by
    intro k v hk
    split at hk
    · exact hb _ _ hk
    · cases hk
  split at h
  · next a b c h0 h1 h2 =>
    rw [← Outcome.ok.inj h]
    have b0 := get _ _ h0
    have b1 := get _ _ h1
    have b2 := get _ _ h2
    refine elliptic_diagonal _ _ _ (fun i j hij => Matrix.diagonal_apply_ne _ hij) fun i => ?_
    rw [Matrix.diagonal_apply_eq]
    match i with
    | 0 => exact b0
    | 1 => exact b1
    | 2 => exact b2
  · cases h

/-- The hypotheses of `C67_tarbert` can be met: constant data, any point of the domain. -/
example (x : Fin 3 → ℚ) (h0 : ∀ d, 0 ≤ x d) (h1 : ∀ d, x d < tarbertUpper d) (c : Fin 3 → ℕ)
    (hc : ∀ d, Verif.Spec.InCell 0 (tarbertUpper d) (![60, 220, 35] d) (c d) (x d)) :
    ∃ A, tarbertEvaluate id (some fun _ => some 2) x 0 = .ok A ∧ Elliptic 2 2 A := by
  obtain ⟨A, hA, -⟩ := C41_value_partial x h0 h1 c hc (fun _ => 2) 0
  exact ⟨A, hA, C67_tarbert id _ 2 2 (fun k v h => by cases h; exact ⟨le_refl _, le_refl _⟩) x 0 A hA⟩

end Verif.Flux
