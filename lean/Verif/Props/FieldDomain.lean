import Verif.Props.LoadBalance
import Verif.Props.RandomField

/-!
# C68: every process can evaluate the random field where it has to

A process evaluates the field in the local grids of its own coarse cells, at quadrature points, which lie inside the elements.
-/

namespace Verif.LoadBalance
open Verif.RandomField Verif.LocalGrid Verif.Spec

/-! ### One direction -/

/-- A point inside the local grid of coarse cell `c` of `M` cells on the unit interval. -/
def InLocalGrid (M m o c : ℕ) (x : ℚ) : Prop := (coarseCell 0 1 M c m o).lowerLeft < x ∧ x < (coarseCell 0 1 M c m o).upperRight

/-- Cell `c` belongs to the process at `pos` in a direction with `ppd` processes. -/
def Own (M ppd pos c : ℕ) : Prop := partOrigin M ppd pos ≤ c ∧ c < partOrigin M ppd pos + partSize M ppd pos

theorem own_iff {M' ppd pos c : ℕ} (hp : pos < ppd) : Own (ppd * M') ppd pos c ↔ M' * pos ≤ c ∧ c < M' * (pos + 1) := by
  have h0 : 0 < ppd := by omega
  have h1 : ppd * M' / ppd = M' := Nat.mul_div_cancel_left M' h0
  have h2 : ppd * M' % ppd = 0 := Nat.mul_mod_right ppd M'
  unfold Own partOrigin partSize
  simp only [h1, h2, Nat.sub_zero, if_pos hp]
  rw [mul_comm pos, mul_add, mul_one]

/-- What is needed of overlap and oversampling: the oversampling layers, in segments, are not more than the overlap, or the
block reaches the boundary of the domain. -/
def Fits (N M m o w ppd pos : ℕ) : Prop :=
  (N * o ≤ w * m * M ∨ N / ppd * pos ≤ w) ∧ (N * o ≤ w * m * M ∨ N / ppd * (ppd - 1 - pos) ≤ w)

theorem lower_formula (M m o c : ℕ) :
    (coarseCell 0 1 M c m o).lowerLeft = max ((c : ℚ) / M - (o : ℚ) / (m * M)) 0 := by
  unfold DirInput.lowerLeft DirInput.delta coarseCell
  simp only
  congr 1
  rw [show (0 : ℚ) + ((c : ℚ) + 1) * ((1 - 0) / M) - (0 + c * ((1 - 0) / M)) = 1 / M by ring, div_div, mul_comm (M : ℚ) (m : ℚ)]
  ring

theorem upper_formula (M m o c : ℕ) :
    (coarseCell 0 1 M c m o).upperRight = min (((c : ℚ) + 1) / M + (o : ℚ) / (m * M)) 1 := by
  unfold DirInput.upperRight DirInput.delta coarseCell
  simp only
  congr 1
  rw [show (0 : ℚ) + ((c : ℚ) + 1) * ((1 - 0) / M) - (0 + c * ((1 - 0) / M)) = 1 / M by ring, div_div, mul_comm (M : ℚ) (m : ℚ)]
  ring

theorem natSub_le (a w : ℕ) (y : ℚ) (h0 : 0 ≤ y) (h : (a : ℚ) - w ≤ y) : ((a - w : ℕ) : ℚ) ≤ y := by
  rcases Nat.le_total a w with h' | h'
  · rw [Nat.sub_eq_zero_of_le h']; exact_mod_cast h0
  · rw [Nat.cast_sub h']; exact h

section direction
variable {M' len ppd m o w pos : ℕ} (hM : 0 < M') (hl : 0 < len) (hm : 0 < m) (hpos : pos < ppd)
include hM hl hm hpos

/-- Inside the block if the overlap suffices. -/
theorem inside_of_fits (hf : Fits (ppd * len) (ppd * M') m o w ppd pos) (c : ℕ) (hc : Own (ppd * M') ppd pos c) (x : ℚ)
    (hx : InLocalGrid (ppd * M') m o c x) : Inside (ppd * len) (rangeOf (ppd * len) w ppd pos) x := by
  have h0 : 0 < ppd := by omega
  have hdiv : ppd * len / ppd = len := Nat.mul_div_cancel_left len h0
  rw [own_iff hpos] at hc
  unfold InLocalGrid at hx
  rw [lower_formula, upper_formula, max_lt_iff, lt_min_iff] at hx
  obtain ⟨⟨hx1, hx2⟩, hx3, hx4⟩ := hx
  obtain ⟨hf1, hf2⟩ := hf
  rw [hdiv] at hf1 hf2
  have hMq : (0 : ℚ) < M' := by exact_mod_cast hM
  have hlq : (0 : ℚ) < len := by exact_mod_cast hl
  have hmq : (0 : ℚ) < m := by exact_mod_cast hm
  have hpq : (0 : ℚ) < ppd := by exact_mod_cast h0
  have hN : (0 : ℚ) < ((ppd * len : ℕ) : ℚ) := by push_cast; positivity
  have hxN : 0 < x * ((ppd * len : ℕ) : ℚ) := mul_pos hx2 hN
  have c1 : ((M' * pos : ℕ) : ℚ) ≤ c := by exact_mod_cast hc.1
  have c2 : (c : ℚ) + 1 ≤ ((M' * (pos + 1) : ℕ) : ℚ) := by exact_mod_cast hc.2
  push_cast at c1 c2 hx1 hx3
  -- the oversampling in segments
  have hover : (ppd * len) * o ≤ w * m * (ppd * M') → (o : ℚ) / (m * (ppd * M')) * (ppd * len) ≤ w := by
    intro h
    have h' : ((ppd : ℚ) * len) * o ≤ w * m * (ppd * M') := by exact_mod_cast h
    rw [div_mul_eq_mul_div, div_le_iff₀ (by positivity)]
    linarith
  have hlow : (pos : ℚ) * len ≤ (c : ℚ) / (ppd * M') * (ppd * len) := by
    rw [div_mul_eq_mul_div, le_div_iff₀ (by positivity)]
    have : (M' : ℚ) * pos * (ppd * len) ≤ c * (ppd * len) := mul_le_mul_of_nonneg_right c1 (by positivity)
    linarith
  have hup : ((c : ℚ) + 1) / (ppd * M') * (ppd * len) ≤ ((pos : ℚ) + 1) * len := by
    rw [div_mul_eq_mul_div, div_le_iff₀ (by positivity)]
    have : ((c : ℚ) + 1) * (ppd * len) ≤ M' * (pos + 1) * (ppd * len) := mul_le_mul_of_nonneg_right c2 (by positivity)
    linarith
  constructor
  · show (((ppd * len / ppd) * pos - w : ℕ) : ℚ) ≤ _
    rw [hdiv]
    rcases hf1 with h | h
    · apply natSub_le _ _ _ hxN.le
      have h1 := hover h
      have h2 := mul_lt_mul_of_pos_right hx1 (show (0 : ℚ) < ppd * len by positivity)
      push_cast
      rw [sub_mul] at h2
      linarith
    · rw [Nat.sub_eq_zero_of_le h]
      exact_mod_cast hxN.le
  · show _ < ((min (ppd * len) ((ppd * len / ppd) * (pos + 1) + w) : ℕ) : ℚ)
    rw [hdiv, Nat.cast_min, lt_min_iff]
    have hx1' : x * ((ppd * len : ℕ) : ℚ) < ((ppd * len : ℕ) : ℚ) := by
      have := mul_lt_mul_of_pos_right hx4 hN
      rwa [one_mul] at this
    refine ⟨hx1', ?_⟩
    rcases hf2 with h | h
    · have h1 := hover h
      have h2 := mul_lt_mul_of_pos_right hx3 (show (0 : ℚ) < ppd * len by positivity)
      push_cast
      rw [add_mul] at h2
      linarith
    · refine lt_of_lt_of_le hx1' ?_
      have : ppd * len ≤ len * (pos + 1) + w := by
        have e : ppd * len = len * (ppd - 1 - pos) + len * (pos + 1) := by
          rw [← mul_add, mul_comm]; congr 1; omega
        omega
      exact_mod_cast this

/-- Otherwise some point of an own local grid is rejected. -/
theorem outside_of_not_fits (hf : ¬ Fits (ppd * len) (ppd * M') m o w ppd pos) :
    ∃ c, Own (ppd * M') ppd pos c ∧ ∃ x, InLocalGrid (ppd * M') m o c x ∧
      (x * ((ppd * len : ℕ) : ℚ) < (rangeOf (ppd * len) w ppd pos).iMin ∨
        ((rangeOf (ppd * len) w ppd pos).iMax : ℚ) < x * ((ppd * len : ℕ) : ℚ)) := by
  have h0 : 0 < ppd := by omega
  have hdiv : ppd * len / ppd = len := Nat.mul_div_cancel_left len h0
  have hMq : (0 : ℚ) < M' := by exact_mod_cast hM
  have hlq : (0 : ℚ) < len := by exact_mod_cast hl
  have hmq : (0 : ℚ) < m := by exact_mod_cast hm
  have hpq : (0 : ℚ) < ppd := by exact_mod_cast h0
  have hN : (0 : ℚ) < ((ppd * len : ℕ) : ℚ) := by push_cast; positivity
  have hover : ¬ (ppd * len) * o ≤ w * m * (ppd * M') → (w : ℚ) < (o : ℚ) / (m * (ppd * M')) * (ppd * len) := by
    intro h
    have h' : (w : ℚ) * m * (ppd * M') < ((ppd : ℚ) * len) * o := by exact_mod_cast not_le.mp h
    rw [div_mul_eq_mul_div, lt_div_iff₀ (by positivity)]
    linarith
  have hne : ∀ c, c < ppd * M' → (coarseCell 0 1 (ppd * M') c m o).lowerLeft < (coarseCell 0 1 (ppd * M') c m o).upperRight := by
    intro c hc
    rw [lower_formula, upper_formula, max_lt_iff, lt_min_iff, lt_min_iff]
    have hMM : (0 : ℚ) < ((ppd * M' : ℕ) : ℚ) := by push_cast; positivity
    have h1 : (0 : ℚ) ≤ (o : ℚ) / (m * ((ppd * M' : ℕ) : ℚ)) := by positivity
    have h2 : (c : ℚ) / ((ppd * M' : ℕ) : ℚ) < ((c : ℚ) + 1) / ((ppd * M' : ℕ) : ℚ) := by
      apply div_lt_div_of_pos_right _ hMM; linarith
    have h3 : (c : ℚ) / ((ppd * M' : ℕ) : ℚ) < 1 := by
      rw [div_lt_one hMM]; exact_mod_cast hc
    have h4 : (0 : ℚ) < ((c : ℚ) + 1) / ((ppd * M' : ℕ) : ℚ) := by positivity
    exact ⟨⟨by linarith, by linarith⟩, by linarith, zero_lt_one⟩
  have hown : ∀ c, Own (ppd * M') ppd pos c → c < ppd * M' := by
    intro c hc
    rw [own_iff hpos] at hc
    calc c < M' * (pos + 1) := hc.2
      _ ≤ M' * ppd := Nat.mul_le_mul_left _ hpos
      _ = ppd * M' := mul_comm _ _
  unfold Fits at hf
  rw [hdiv, not_and_or, not_or, not_or] at hf
  rcases hf with ⟨ho, hw⟩ | ⟨ho, hw⟩
  · refine ⟨M' * pos, ?_, ?_⟩
    · rw [own_iff hpos]; exact ⟨le_refl _, Nat.mul_lt_mul_of_pos_left (by omega) hM⟩
    · have hc := hown (M' * pos) (by rw [own_iff hpos]; exact ⟨le_refl _, Nat.mul_lt_mul_of_pos_left (by omega) hM⟩)
      have hmin : (((rangeOf (ppd * len) w ppd pos).iMin : ℕ) : ℚ) = (len : ℚ) * pos - w := by
        show ((ppd * len / ppd * pos - w : ℕ) : ℚ) = _
        rw [hdiv, Nat.cast_sub (by omega)]
        push_cast; ring
      have hgoal : (coarseCell 0 1 (ppd * M') (M' * pos) m o).lowerLeft <
          min ((rangeOf (ppd * len) w ppd pos).iMin / ((ppd * len : ℕ) : ℚ))
            (coarseCell 0 1 (ppd * M') (M' * pos) m o).upperRight := by
        refine lt_min ?_ (hne _ hc)
        rw [lower_formula, max_lt_iff, lt_div_iff₀ hN, lt_div_iff₀ hN, hmin]
        have h1 := hover ho
        have h2 : (w : ℚ) < len * pos := by exact_mod_cast not_le.mp hw
        constructor
        · push_cast
          rw [sub_mul, show (M' : ℚ) * pos / (ppd * M') * (ppd * len) = len * pos by field_simp]
          linarith
        · linarith
      obtain ⟨x, hx1, hx2⟩ := exists_between hgoal
      rw [lt_min_iff] at hx2
      refine ⟨x, ⟨hx1, hx2.2⟩, .inl ?_⟩
      rw [lt_div_iff₀ hN] at hx2
      exact hx2.1
  · have hpl : M' * (pos + 1) - 1 + 1 = M' * (pos + 1) := Nat.sub_add_cancel (Nat.mul_pos hM (by omega))
    have hown' : Own (ppd * M') ppd pos (M' * (pos + 1) - 1) := by
      rw [own_iff hpos]
      have : M' * (pos + 1) = M' * pos + M' := by ring
      omega
    refine ⟨M' * (pos + 1) - 1, hown', ?_⟩
    have hc := hown _ hown'
    have hcq : ((M' * (pos + 1) - 1 : ℕ) : ℚ) + 1 = M' * (pos + 1) := by exact_mod_cast hpl
    have hw' : len * (ppd - 1 - pos) > w := not_le.mp hw
    have hNlen : ppd * len = len * (ppd - 1 - pos) + len * (pos + 1) := by
      rw [← mul_add, mul_comm]; congr 1; omega
    have hmax : (((rangeOf (ppd * len) w ppd pos).iMax : ℕ) : ℚ) = (len : ℚ) * (pos + 1) + w := by
      show ((min (ppd * len) (ppd * len / ppd * (pos + 1) + w) : ℕ) : ℚ) = _
      rw [hdiv, min_eq_right (by omega)]
      push_cast; ring
    have hgoal : max ((rangeOf (ppd * len) w ppd pos).iMax / ((ppd * len : ℕ) : ℚ))
        (coarseCell 0 1 (ppd * M') (M' * (pos + 1) - 1) m o).lowerLeft <
        (coarseCell 0 1 (ppd * M') (M' * (pos + 1) - 1) m o).upperRight := by
      refine max_lt ?_ (hne _ hc)
      rw [upper_formula, lt_min_iff, div_lt_iff₀ hN, div_lt_iff₀ hN, hmax, hcq]
      have h1 := hover ho
      constructor
      · push_cast
        rw [add_mul, show (M' : ℚ) * (pos + 1) / (ppd * M') * (ppd * len) = len * (pos + 1) by field_simp]
        linarith
      · rw [one_mul]
        have : len * (pos + 1) + w < ppd * len := by omega
        exact_mod_cast this
    obtain ⟨x, hx1, hx2⟩ := exists_between hgoal
    rw [max_lt_iff] at hx1
    refine ⟨x, ⟨hx1.2, hx2⟩, .inr ?_⟩
    rw [div_lt_iff₀ hN] at hx1
    exact hx1.1

omit hl in
/-- Some own cell and some point in its local grid. -/
theorem exists_own_point : ∃ c, Own (ppd * M') ppd pos c ∧ ∃ x, InLocalGrid (ppd * M') m o c x := by
  have h0 : 0 < ppd := by omega
  have hMq : (0 : ℚ) < M' := by exact_mod_cast hM
  have hpq : (0 : ℚ) < ppd := by exact_mod_cast h0
  have hown : Own (ppd * M') ppd pos (M' * pos) := by
    rw [own_iff hpos]; exact ⟨le_refl _, Nat.mul_lt_mul_of_pos_left (by omega) hM⟩
  refine ⟨M' * pos, hown, ?_⟩
  have hc : M' * pos < ppd * M' := by rw [mul_comm ppd]; exact Nat.mul_lt_mul_of_pos_left hpos hM
  have hMM : (0 : ℚ) < ((ppd * M' : ℕ) : ℚ) := by push_cast; positivity
  refine exists_between ?_
  rw [lower_formula, upper_formula, max_lt_iff, lt_min_iff, lt_min_iff]
  have h1 : (0 : ℚ) ≤ (o : ℚ) / (m * ((ppd * M' : ℕ) : ℚ)) := by positivity
  have h2 : ((M' * pos : ℕ) : ℚ) / ((ppd * M' : ℕ) : ℚ) < (((M' * pos : ℕ) : ℚ) + 1) / ((ppd * M' : ℕ) : ℚ) := by
    apply div_lt_div_of_pos_right _ hMM; linarith
  have h3 : ((M' * pos : ℕ) : ℚ) / ((ppd * M' : ℕ) : ℚ) < 1 := by
    rw [div_lt_one hMM]; exact_mod_cast hc
  have h4 : (0 : ℚ) < (((M' * pos : ℕ) : ℚ) + 1) / ((ppd * M' : ℕ) : ℚ) := by positivity
  exact ⟨⟨by linarith, by linarith⟩, by linarith, zero_lt_one⟩
end direction

/-! ### Blocks of one process -/

/-- The rejected point of `outside_of_not_fits` and the accepted ones of `inside_of_fits`, for arbitrary numbers with the required
divisibility. -/
theorem direction_iff {M N m o w p q : ℕ} (hM : 0 < M) (hN : 0 < N) (hm : 0 < m) (hpM : p ∣ M) (hpN : p ∣ N) (hq : q < p) :
    (Fits N M m o w p q → ∀ c, Own M p q c → ∀ x, InLocalGrid M m o c x → Inside N (rangeOf N w p q) x) ∧
    (¬ Fits N M m o w p q → ∃ c, Own M p q c ∧ ∃ x, InLocalGrid M m o c x ∧
      (x * (N : ℚ) < (rangeOf N w p q).iMin ∨ ((rangeOf N w p q).iMax : ℚ) < x * (N : ℚ))) ∧
    ∃ c, Own M p q c ∧ ∃ x, InLocalGrid M m o c x := by
  obtain ⟨M', rfl⟩ := hpM
  obtain ⟨len, rfl⟩ := hpN
  have hM' : 0 < M' := Nat.pos_of_mul_pos_left hM
  have hl : 0 < len := Nat.pos_of_mul_pos_left hN
  exact ⟨fun hf c hc x hx => inside_of_fits hM' hl hm hq hf c hc x hx, outside_of_not_fits hM' hl hm hq,
    exists_own_point hM' hm hq⟩

/-- **C68** (exact, two dimensions, one process whose own cells are aligned with its block) The field can be evaluated at all
points inside the local grids of the own cells exactly if overlap and oversampling fit in both directions. -/
theorem C68_evaluable2 {M N o w : ℕ} (hM : 0 < M) (hN : 0 < N) (m p q : Fin 2 → ℕ) (hm : ∀ i, 0 < m i) (hpM : ∀ i, p i ∣ M)
    (hpN : ∀ i, p i ∣ N) (hq : ∀ i, q i < p i) (perm : ℕ → ℚ × ℚ) (part : ℕ) (minimal : ℚ) :
    (∀ (c : Fin 2 → ℕ) (x : Fin 2 → ℚ), (∀ i, Own M (p i) (q i) (c i) ∧ InLocalGrid M (m i) o (c i) (x i)) →
      ∃ v, evaluate2 N (rangeOf N w (p 0) (q 0)) (rangeOf N w (p 1) (q 1)) perm part minimal (x 0) (x 1) = .ok v) ↔
    ∀ i, Fits N M (m i) o w (p i) (q i) := by
  constructor
  · intro h i
    by_contra hf
    obtain ⟨-, h2, -⟩ := direction_iff (o := o) (w := w) hM hN (hm i) (hpM i) (hpN i) (hq i)
    obtain ⟨c, hc, x, hx, hout⟩ := h2 hf
    choose c' hc' x' hx' using fun j => (direction_iff (o := o) (w := w) hM hN (hm j) (hpM j) (hpN j) (hq j)).2.2
    obtain ⟨v, hv⟩ := h (fun j => if j = i then c else c' j) (fun j => if j = i then x else x' j) (by
      intro j
      by_cases hj : j = i
      · subst hj; simp only [if_true]; exact ⟨hc, hx⟩
      · simp only [hj, if_false]; exact ⟨hc' j, hx' j⟩)
    have hthrow := (C47_range_error N (rangeOf N w (p 0) (q 0)) (rangeOf N w (p 1) (q 1)) (rangeOf N w (p 1) (q 1)) perm part minimal
      (if (0 : Fin 2) = i then x else x' 0) (if (1 : Fin 2) = i then x else x' 1) 0).1.mpr (by
        rintro ⟨a0, a1⟩
        match i with
        | 0 => simp only [if_true] at a0; rcases hout with h | h <;> linarith [a0.1, a0.2]
        | 1 => simp only [if_true] at a1; rcases hout with h | h <;> linarith [a1.1, a1.2])
    rw [hthrow] at hv
    cases hv
  · intro hf c x hcx
    have hin := fun i => (direction_iff (o := o) (w := w) hM hN (hm i) (hpM i) (hpN i) (hq i)).1 (hf i) (c i) (hcx i).1 (x i) (hcx i).2
    exact ⟨_, evaluate2_ok N _ _ perm part minimal _ _ (hin 0) (hin 1)⟩

/-- **C68** (exact, three dimensions, one process whose own cells are aligned with its block). -/
theorem C68_evaluable3 {M N o w : ℕ} (hM : 0 < M) (hN : 0 < N) (m p q : Fin 3 → ℕ) (hm : ∀ i, 0 < m i) (hpM : ∀ i, p i ∣ M)
    (hpN : ∀ i, p i ∣ N) (hq : ∀ i, q i < p i) (perm : ℕ → ℚ × ℚ) (part : ℕ) (minimal : ℚ) :
    (∀ (c : Fin 3 → ℕ) (x : Fin 3 → ℚ), (∀ i, Own M (p i) (q i) (c i) ∧ InLocalGrid M (m i) o (c i) (x i)) →
      ∃ v, evaluate3 N (rangeOf N w (p 0) (q 0)) (rangeOf N w (p 1) (q 1)) (rangeOf N w (p 2) (q 2)) perm part minimal
        (x 0) (x 1) (x 2) = .ok v) ↔
    ∀ i, Fits N M (m i) o w (p i) (q i) := by
  constructor
  · intro h i
    by_contra hf
    obtain ⟨-, h2, -⟩ := direction_iff (o := o) (w := w) hM hN (hm i) (hpM i) (hpN i) (hq i)
    obtain ⟨c, hc, x, hx, hout⟩ := h2 hf
    choose c' hc' x' hx' using fun j => (direction_iff (o := o) (w := w) hM hN (hm j) (hpM j) (hpN j) (hq j)).2.2
    obtain ⟨v, hv⟩ := h (fun j => if j = i then c else c' j) (fun j => if j = i then x else x' j) (by
      intro j
      by_cases hj : j = i
      · subst hj; simp only [if_true]; exact ⟨hc, hx⟩
      · simp only [hj, if_false]; exact ⟨hc' j, hx' j⟩)
    have hthrow := (C47_range_error N (rangeOf N w (p 0) (q 0)) (rangeOf N w (p 1) (q 1)) (rangeOf N w (p 2) (q 2)) perm part minimal
      (if (0 : Fin 3) = i then x else x' 0) (if (1 : Fin 3) = i then x else x' 1) (if (2 : Fin 3) = i then x else x' 2)).2.mpr (by
        rintro ⟨a0, a1, a2⟩
        match i with
        | 0 => simp only [if_true] at a0; rcases hout with h | h <;> linarith [a0.1, a0.2]
        | 1 => simp only [if_true] at a1; rcases hout with h | h <;> linarith [a1.1, a1.2]
        | 2 => simp only [if_true] at a2; rcases hout with h | h <;> linarith [a2.1, a2.2])
    rw [hthrow] at hv
    cases hv
  · intro hf c x hcx
    have hin := fun i => (direction_iff (o := o) (w := w) hM hN (hm i) (hpM i) (hpN i) (hq i)).1 (hf i) (c i) (hcx i).1 (x i) (hcx i).2
    exact ⟨_, evaluate3_ok N _ _ _ perm part minimal _ _ _ (hin 0) (hin 1) (hin 2)⟩

/-! ### All processes -/

/-- Positions of a process in the two process grids are computed in the same way. -/
theorem gridPosition_eq (ppd : ℕ → ℕ) (hp : ∀ i, 0 < ppd i) (d rank i : ℕ) (hr : rank < off ppd d) (hi : i < d) :
    gridPosition ppd d rank i = torusCoord ppd rank i := by
  unfold gridPosition torusCoord
  rw [← off_eq_prod]
  generalize (fun _ => 0 : ℕ → ℕ) = pos0
  induction d generalizing rank pos0 with
  | zero => omega
  | succ d ih =>
    have ho : ∀ j, 0 < off ppd j := fun j => by rw [off_eq_prod]; exact Finset.prod_pos fun i _ => hp i
    have hq : rank / off ppd d < ppd d := by
      rw [Nat.div_lt_iff_lt_mul (ho d), mul_comm]; exact hr
    unfold posLoop
    dsimp only
    rcases Nat.lt_succ_iff_lt_or_eq.mp hi with h | rfl
    · have hrem : rank - rank / off ppd d * off ppd d = rank % off ppd d := by rw [Nat.mod_eq_sub_div_mul]
      rw [hrem, ih _ (Nat.mod_lt _ (ho d)) h]
      obtain ⟨X, hX⟩ : off ppd (i + 1) ∣ off ppd d := by
        rw [off_eq_prod, off_eq_prod]
        exact Finset.prod_dvd_prod_of_subset _ _ _ (Finset.range_mono h)
      have e : off ppd d = off ppd i * (ppd i * X) := by rw [hX, ← mul_assoc]; rfl
      rw [e, Nat.mod_mul_right_div_self, Nat.mod_mod_of_dvd _ (Dvd.intro X rfl)]
    · rw [posLoop_ge _ _ _ _ _ (le_refl _), if_pos rfl, Nat.mod_eq_of_lt hq]

/-- The number of segments is the largest power of two not above the number of coarse cells. -/
theorem floor_log (lg : ℕ → ℚ) (hlg : AccurateLog2 lg) (M : ℕ) (h0 : 0 < M) (h1 : M < 2 ^ 31) :
    ⌊lg M⌋.toNat = Nat.log 2 M := by
  have hle : 2 ^ Nat.log 2 M ≤ M := Nat.pow_log_le_self 2 h0.ne'
  have hlt : M < 2 ^ (Nat.log 2 M + 1) := Nat.lt_pow_succ_log_self (by norm_num) _
  have hk : Nat.log 2 M < 31 := by
    by_contra hk
    have : 2 ^ 31 ≤ 2 ^ Nat.log 2 M := Nat.pow_le_pow_right (by norm_num) (by omega)
    omega
  rcases lt_or_eq_of_le hle with h2 | h2
  · have c := hlg.close M h0 h1
    have hMr : (0 : ℝ) < M := by exact_mod_cast h0
    have l1 : ((Nat.log 2 M : ℕ) : ℝ) < Real.logb 2 M := by
      rw [Real.lt_logb_iff_rpow_lt (by norm_num) hMr, Real.rpow_natCast]
      exact_mod_cast h2
    have l2 : Real.logb 2 M < ((Nat.log 2 M + 1 : ℕ) : ℝ) := by
      rw [Real.logb_lt_iff_lt_rpow (by norm_num) hMr, Real.rpow_natCast]
      exact_mod_cast hlt
    have a1 := logb_away M (Nat.log 2 M) (Nat.log 2 M) hk h2 hlt
    have a2 := logb_away M (Nat.log 2 M) (Nat.log 2 M + 1) hk h2 hlt
    rw [abs_of_neg (by linarith)] at a1
    rw [abs_of_pos (by linarith)] at a2
    rw [abs_lt] at c
    have b1 : ((Nat.log 2 M : ℕ) : ℝ) < (lg M : ℝ) := by linarith [c.1]
    have b2 : (lg M : ℝ) < ((Nat.log 2 M + 1 : ℕ) : ℝ) := by linarith [c.2]
    have b1' : ((Nat.log 2 M : ℕ) : ℚ) ≤ lg M := by exact_mod_cast b1.le
    have b2' : lg M < ((Nat.log 2 M : ℕ) : ℚ) + 1 := by exact_mod_cast b2
    have : ⌊lg M⌋ = (Nat.log 2 M : ℤ) := by
      rw [Int.floor_eq_iff]
      exact ⟨by exact_mod_cast b1', by exact_mod_cast b2'⟩
    rw [this]; rfl
  · have : lg M = Nat.log 2 M := by
      conv_lhs => rw [← h2]
      exact hlg.exact _ hk
    rw [this]
    simp

/-- **C68** The number of segments per direction of the random field: the largest power of two not above the number of coarse cells;
with one coarse cell, or different numbers of cells in the directions, an assertion fails. -/
theorem C68_segments (lg : ℕ → ℚ) (hlg : AccurateLog2 lg) (c : ℕ) (cs : List ℕ) (h1 : c < 2 ^ 31) :
    (2 ≤ c → (∀ c' ∈ cs, c' = c) → ∃ N, segments lg (c :: cs) = .ok N ∧ (∃ l, N = 2 ^ l) ∧ N ≤ c ∧ c < 2 * N) ∧
    ((c < 2 ∨ ∃ c' ∈ cs, c' ≠ c) → segments lg (c :: cs) = .ub) := by
  constructor
  · intro h2 hall
    have hlog : ⌊lg c⌋.toNat = Nat.log 2 c := floor_log lg hlg c (by omega) h1
    have hpos : Nat.log 2 c ≠ 0 := (Nat.log_pos (by norm_num) h2).ne'
    refine ⟨2 ^ Nat.log 2 c, ?_, ⟨_, rfl⟩, Nat.pow_log_le_self 2 (by omega), ?_⟩
    · unfold segments
      dsimp only
      rw [if_pos (by simpa using hall), if_neg (by omega), hlog, if_neg hpos]
    · have := Nat.lt_pow_succ_log_self (by norm_num : 1 < 2) c
      rw [pow_succ] at this
      omega
  · intro h
    unfold segments
    dsimp only
    by_cases hall : ∀ c' ∈ cs, c' = c
    · have hc : c < 2 := by
        rcases h with h | ⟨c', hc', hne⟩
        · exact h
        · exact absurd (hall c' hc') hne
      rw [if_pos (by simpa using hall)]
      by_cases h0 : c = 0
      · rw [if_pos h0]
      · rw [if_neg h0, if_pos]
        rw [floor_log lg hlg c (by omega) h1]
        exact Nat.log_of_lt hc
    · rw [if_neg (by simpa using hall)]

/-- **C68** A list of cells that does not fit is never reported by an exception. -/
theorem C68_no_exception (lg : ℕ → ℚ) (cells : List ℕ) : segments lg cells ≠ .throw := by
  unfold segments
  split
  · simp
  · split_ifs <;> simp

/-! ### The whole program -/

theorem torusCoord_congr (f g : ℕ → ℕ) (rank i : ℕ) (h : ∀ j, j ≤ i → f j = g j) : torusCoord f rank i = torusCoord g rank i := by
  unfold torusCoord
  rw [h i (le_refl i), Finset.prod_congr rfl fun j hj => h j (Finset.mem_range.mp hj).le]

/-- All processes along a direction: whatever the position, or the blocks of all processes reach both boundaries. -/
theorem fits_all (N M m o w p : ℕ) (hp : 0 < p) :
    (Fits N M m o w p 0 ↔ (N * o ≤ w * m * M ∨ N / p * (p - 1) ≤ w)) ∧
    ((N * o ≤ w * m * M ∨ N / p * (p - 1) ≤ w) → ∀ q, q < p → Fits N M m o w p q) := by
  constructor
  · unfold Fits
    simp
  · rintro (h | h) q hq
    · exact ⟨.inl h, .inl h⟩
    · exact ⟨.inr (le_trans (Nat.mul_le_mul_left _ (by omega)) h), .inr (le_trans (Nat.mul_le_mul_left _ (by omega)) h)⟩

/-- What is used of a program run: process grid, number of segments, blocks. -/
theorem setup (lg : ℕ → ℚ) (hlg : AccurateLog2 lg) (d k M w : ℕ) (hd : 0 < d) (hk : k < 31) (hM : 0 < M) (hM' : M < 2 ^ 31)
    (hdvd : 2 ^ (k / d + 1) ∣ M) (hmod : k % d ≤ 1) :
    ∃ N, segments lg (List.replicate d M) = .ok N ∧ 0 < N ∧ N ≤ M ∧
      (∀ i, i < d → (yaspGrid d k).getD i 0 ∣ M ∧ (yaspGrid d k).getD i 0 ∣ N ∧ 0 < (yaspGrid d k).getD i 0) ∧
      ∀ rank, rank < 2 ^ k → ∃ r, setRange lg d (2 ^ k) rank N w = .ok r ∧ ∀ i, i < d →
        r i = rangeOf N w ((yaspGrid d k).getD i 0) (torusCoord (fun j => (yaspGrid d k).getD j 0) rank i) := by
  have h2 : 2 ≤ 2 ^ (k / d + 1) := by
    have := Nat.one_le_two_pow (n := k / d)
    rw [pow_succ]; omega
  have h2M : 2 ≤ M := le_trans h2 (Nat.le_of_dvd hM hdvd)
  have hg : ∀ i, i < d → (yaspGrid d k).getD i 0 = fieldGrid d k i := by
    intro i hi
    rw [List.getD_eq_getElem?_getD, yaspGrid_get d k i hi]
    show (if i = 0 then 2 ^ (k / d + k % d) else 2 ^ (k / d)) = _
    unfold fieldGrid
    generalize k % d = s at *
    split_ifs <;> first | rfl | (congr 1; omega)
  have hdiv : ∀ i, fieldGrid d k i ∣ 2 ^ (k / d + 1) := by
    intro i
    apply pow_dvd_pow
    split_ifs <;> simp
  obtain ⟨e, rfl⟩ : ∃ e, d = e + 1 := ⟨d - 1, by omega⟩
  obtain ⟨N, hN, ⟨l, rfl⟩, hle, hlt⟩ := (C68_segments lg hlg M (List.replicate e M) hM').1 h2M
    (fun c' hc' => List.eq_of_mem_replicate hc')
  have hNd : 2 ^ (k / (e + 1) + 1) ∣ 2 ^ l := by
    apply pow_dvd_pow
    have h3 : 2 ^ (k / (e + 1) + 1) < 2 ^ (l + 1) := by
      rw [pow_succ 2 l]
      have := Nat.le_of_dvd hM hdvd
      omega
    have := (Nat.pow_lt_pow_iff_right (by norm_num : 1 < 2)).mp h3
    omega
  refine ⟨2 ^ l, by rw [List.replicate_succ]; exact hN, by positivity, hle, ?_, ?_⟩
  · intro i hi
    rw [hg i hi]
    exact ⟨(hdiv i).trans hdvd, (hdiv i).trans hNd, by unfold fieldGrid; positivity⟩
  · intro rank hrank
    refine ⟨_, by unfold setRange; rw [partition_eq lg hlg _ k hk], ?_⟩
    intro i hi
    have hoff : off (fieldGrid (e + 1) k) (e + 1) = 2 ^ k := by
      rw [← yaspGrid_prod (e + 1) k, off_eq_prod]
      have hlen : (yaspGrid (e + 1) k).length = e + 1 := by simp [yaspGrid]
      rw [← Fin.prod_univ_eq_prod_range, ← List.prod_ofFn]
      congr 1
      apply List.ext_getElem
      · simp [hlen]
      · intro j h1 h2
        rw [List.getElem_ofFn]
        have hj : j < e + 1 := by simpa using h1
        rw [← hg j hj, List.getD_eq_getElem?_getD, List.getElem?_eq_getElem h2]; rfl
    rw [gridPosition_eq (fieldGrid (e + 1) k) (fun i => by unfold fieldGrid; positivity) (e + 1) rank i (by rw [hoff]; exact hrank) hi,
      hg i hi]
    congr 1
    exact torusCoord_congr _ _ _ _ fun j hj => (hg j (by omega)).symm

/-- **C68** (exact, two dimensions, `2^k` processes) All processes can evaluate the field everywhere inside the local grids of
their own coarse cells exactly if in each direction the oversampling layers, in segments, do not exceed the overlap — or every
block covers the whole direction. -/
theorem C68_all_processes2 (lg : ℕ → ℚ) (hlg : AccurateLog2 lg) (k M o w : ℕ) (hk : k < 31) (hM : 0 < M) (hM' : M < 2 ^ 31)
    (hdvd : 2 ^ (k / 2 + 1) ∣ M) (m : Fin 2 → ℕ) (hm : ∀ i, 0 < m i) (perm : ℕ → ℚ × ℚ) (part : ℕ) (minimal : ℚ) :
    ∃ t N, balance [M, M] (2 ^ k) = some t ∧ segments lg [M, M] = .ok N ∧ N ≤ M ∧
      ((∀ rank, rank < 2 ^ k → ∃ r, setRange lg 2 (2 ^ k) rank N w = .ok r ∧ ∀ (c : Fin 2 → ℕ) (x : Fin 2 → ℚ),
          (∀ i : Fin 2, Own M (t.getD i 0) (torusCoord (fun j => t.getD j 0) rank i) (c i) ∧ InLocalGrid M (m i) o (c i) (x i)) →
          ∃ v, evaluate2 N (r 0) (r 1) perm part minimal (x 0) (x 1) = .ok v) ↔
        ∀ i : Fin 2, N * o ≤ w * m i * M ∨ N / t.getD i 0 * (t.getD i 0 - 1) ≤ w) := by
  obtain ⟨N, hN, hN0, hNM, hdv, hr⟩ := setup lg hlg 2 k M w (by omega) hk hM hM' hdvd (by omega)
  refine ⟨yaspGrid 2 k, N, C68_yasp_process_grid 2 k M (by omega) hM hdvd, hN, hNM, ?_⟩
  generalize yaspGrid 2 k = t at *
  have hq : ∀ rank (i : Fin 2), torusCoord (fun j => t.getD j 0) rank i < t.getD i 0 := fun rank i => Nat.mod_lt _ (hdv i i.2).2.2
  have key := fun rank => C68_evaluable2 (o := o) (w := w) hM hN0 m (fun i => t.getD i 0)
    (fun i => torusCoord (fun j => t.getD j 0) rank i) hm (fun i => (hdv i i.2).1) (fun i => (hdv i i.2).2.1) (hq rank) perm part minimal
  constructor
  · intro h i
    obtain ⟨r, hr1, hr2⟩ := h 0 (by positivity)
    obtain ⟨r', hr1', hr2'⟩ := hr 0 (by positivity)
    rw [hr1] at hr1'
    injection hr1' with hrr
    subst hrr
    rw [hr2' 0 (by omega), hr2' 1 (by omega)] at hr2
    have := (key 0).mp hr2 i
    rw [show torusCoord (fun j => t.getD j 0) 0 i = 0 by unfold torusCoord; simp] at this
    exact (fits_all N M (m i) o w _ (hdv i i.2).2.2).1.mp this
  · intro h rank hrank
    obtain ⟨r, hr1, hr2⟩ := hr rank hrank
    refine ⟨r, hr1, ?_⟩
    rw [hr2 0 (by omega), hr2 1 (by omega)]
    exact (key rank).mpr fun i => (fits_all N M (m i) o w _ (hdv i i.2).2.2).2 (h i) _ (hq rank i)

/-- **C68** (exact, three dimensions, `2^k` processes with `k % 3 ≤ 1`). -/
theorem C68_all_processes3_partial (lg : ℕ → ℚ) (hlg : AccurateLog2 lg) (k M o w : ℕ) (hk : k < 31) (hmod : k % 3 ≤ 1) (hM : 0 < M)
    (hM' : M < 2 ^ 31) (hdvd : 2 ^ (k / 3 + 1) ∣ M) (m : Fin 3 → ℕ) (hm : ∀ i, 0 < m i) (perm : ℕ → ℚ × ℚ) (part : ℕ)
    (minimal : ℚ) :
    ∃ t N, balance [M, M, M] (2 ^ k) = some t ∧ segments lg [M, M, M] = .ok N ∧ N ≤ M ∧
      ((∀ rank, rank < 2 ^ k → ∃ r, setRange lg 3 (2 ^ k) rank N w = .ok r ∧ ∀ (c : Fin 3 → ℕ) (x : Fin 3 → ℚ),
          (∀ i : Fin 3, Own M (t.getD i 0) (torusCoord (fun j => t.getD j 0) rank i) (c i) ∧ InLocalGrid M (m i) o (c i) (x i)) →
          ∃ v, evaluate3 N (r 0) (r 1) (r 2) perm part minimal (x 0) (x 1) (x 2) = .ok v) ↔
        ∀ i : Fin 3, N * o ≤ w * m i * M ∨ N / t.getD i 0 * (t.getD i 0 - 1) ≤ w) := by
  obtain ⟨N, hN, hN0, hNM, hdv, hr⟩ := setup lg hlg 3 k M w (by omega) hk hM hM' hdvd hmod
  refine ⟨yaspGrid 3 k, N, C68_yasp_process_grid 3 k M (by omega) hM hdvd, hN, hNM, ?_⟩
  generalize yaspGrid 3 k = t at *
  have hq : ∀ rank (i : Fin 3), torusCoord (fun j => t.getD j 0) rank i < t.getD i 0 := fun rank i => Nat.mod_lt _ (hdv i i.2).2.2
  have key := fun rank => C68_evaluable3 (o := o) (w := w) hM hN0 m (fun i => t.getD i 0)
    (fun i => torusCoord (fun j => t.getD j 0) rank i) hm (fun i => (hdv i i.2).1) (fun i => (hdv i i.2).2.1) (hq rank) perm part minimal
  constructor
  · intro h i
    obtain ⟨r, hr1, hr2⟩ := h 0 (by positivity)
    obtain ⟨r', hr1', hr2'⟩ := hr 0 (by positivity)
    rw [hr1] at hr1'
    injection hr1' with hrr
    subst hrr
    rw [hr2' 0 (by omega), hr2' 1 (by omega), hr2' 2 (by omega)] at hr2
    have := (key 0).mp hr2 i
    rw [show torusCoord (fun j => t.getD j 0) 0 i = 0 by unfold torusCoord; simp] at this
    exact (fits_all N M (m i) o w _ (hdv i i.2).2.2).1.mp this
  · intro h rank hrank
    obtain ⟨r, hr1, hr2⟩ := hr rank hrank
    refine ⟨r, hr1, ?_⟩
    rw [hr2 0 (by omega), hr2 1 (by omega), hr2 2 (by omega)]
    exact (key rank).mpr fun i => (fits_all N M (m i) o w _ (hdv i i.2).2.2).2 (h i) _ (hq rank i)

/-- **C68** A sufficient condition without the number of segments: at most `overlap` coarse cells of oversampling. -/
theorem C68_sufficient {N M m o w : ℕ} (hNM : N ≤ M) (h : o ≤ w * m) : N * o ≤ w * m * M := by
  rw [mul_comm]; exact Nat.mul_le_mul h hNM

/-- Instance: 4 processes, a 4x4 coarse grid, overlap 1, local grids with 2 cells and 1 layer. -/
example : ∃ t N, balance [4, 4] 4 = some t ∧ t = [2, 2] ∧ N = 4 ∧ (∀ i : Fin 2, N * 1 ≤ 1 * 2 * 4 ∨ N / t.getD i 0 * (t.getD i 0 - 1) ≤ 1) :=
  ⟨[2, 2], 4, C68_yasp_process_grid 2 2 4 (by omega) (by omega) (by norm_num), rfl, rfl, fun _ => .inl (by omega)⟩

/-- **C68** (violated with too many oversampling layers) Four processes, 4x4 coarse cells, overlap 1, 2 cells per coarse cell
with 3 layers: some process cannot evaluate the field in one of its local grids. -/
theorem C68_violated_oversampling (lg : ℕ → ℚ) (hlg : AccurateLog2 lg) (perm : ℕ → ℚ × ℚ) (part : ℕ) (minimal : ℚ) :
    balance [4, 4] (2 ^ 2) = some [2, 2] ∧ segments lg [4, 4] = .ok 4 ∧
    ∃ rank, rank < 2 ^ 2 ∧ ∀ r, setRange lg 2 (2 ^ 2) rank 4 1 = .ok r → ∃ (c : Fin 2 → ℕ) (x : Fin 2 → ℚ),
      (∀ i : Fin 2, Own 4 2 (torusCoord (fun _ => 2) rank i) (c i) ∧ InLocalGrid 4 2 3 (c i) (x i)) ∧
      evaluate2 4 (r 0) (r 1) perm part minimal (x 0) (x 1) = .throw := by
  refine ⟨C68_yasp_process_grid 2 2 4 (by omega) (by omega) (by norm_num), ?_, 0, by norm_num, ?_⟩
  · obtain ⟨N, h, ⟨l, rfl⟩, h1, h2⟩ := (C68_segments lg hlg 4 [4] (by norm_num)).1 (by omega) (by simp)
    rw [h]
    have : l = 2 := by
      have a : 2 ^ l < 2 ^ 3 := by omega
      have b : 2 ^ 2 < 2 ^ (l + 1) := by rw [pow_succ]; omega
      have a' := (Nat.pow_lt_pow_iff_right (by norm_num : 1 < 2)).mp a
      have b' := (Nat.pow_lt_pow_iff_right (by norm_num : 1 < 2)).mp b
      omega
    rw [this]; rfl
  · intro r hr
    unfold setRange at hr
    rw [partition_eq lg hlg 2 2 (by omega)] at hr
    injection hr with hr
    refine ⟨fun _ => 1, fun _ => 13 / 16, fun i => ⟨?_, ?_⟩, ?_⟩
    · rw [show torusCoord (fun _ => 2) 0 (i : ℕ) = 0 by unfold torusCoord; simp]
      unfold Own partOrigin partSize
      norm_num
    · unfold InLocalGrid
      rw [lower_formula, upper_formula]
      norm_num
    · rw [(C47_range_error 4 (r 0) (r 1) (r 1) perm part minimal (13 / 16) (13 / 16) 0).1]
      rintro ⟨⟨-, h⟩, -⟩
      have e : (r 0).iMax = 3 := by rw [← hr]; rfl
      rw [e] at h
      norm_num at h

/-- **C68** (violated in three dimensions when `k % 3 = 2`) The blocks of the field and the parts of the grid are cut in different
directions, so for 4, 32, … processes the first process cannot evaluate the field in all of its own coarse cells, unless the overlap is
at least a whole block; local grids and oversampling play no role. -/
theorem C68_violated_process_grids (lg : ℕ → ℚ) (hlg : AccurateLog2 lg) (k M m o w : ℕ) (hk : k < 31) (hmod : k % 3 = 2) (hM : 0 < M)
    (hM' : M < 2 ^ 31) (hdvd : 2 ^ (k / 3 + 2) ∣ M) (hm : 0 < m) (perm : ℕ → ℚ × ℚ) (part : ℕ) (minimal : ℚ) :
    ∃ t N, balance [M, M, M] (2 ^ k) = some t ∧ segments lg [M, M, M] = .ok N ∧
      (w < N / 2 ^ (k / 3 + 1) → ∀ r, setRange lg 3 (2 ^ k) 0 N w = .ok r → ∃ (c : Fin 3 → ℕ) (x : Fin 3 → ℚ),
        (∀ i : Fin 3, Own M (t.getD i 0) (torusCoord (fun j => t.getD j 0) 0 i) (c i) ∧ InLocalGrid M m o (c i) (x i)) ∧
        evaluate3 N (r 0) (r 1) (r 2) perm part minimal (x 0) (x 1) (x 2) = .throw) := by
  have hdvd1 : 2 ^ (k / 3 + 1) ∣ M := (pow_dvd_pow 2 (by omega)).trans hdvd
  have h2M : 2 ≤ M := by
    have h1 := Nat.le_of_dvd hM hdvd1
    have := Nat.one_le_two_pow (n := k / 3)
    rw [pow_succ] at h1; omega
  obtain ⟨N, hN, ⟨l, rfl⟩, hle, hlt⟩ := (C68_segments lg hlg M [M, M] hM').1 h2M (by simp)
  refine ⟨yaspGrid 3 k, 2 ^ l, C68_yasp_process_grid 3 k M (by omega) hM hdvd1, hN, ?_⟩
  intro hw r hr
  unfold setRange at hr
  rw [partition_eq lg hlg 3 k hk] at hr
  injection hr with hr
  have hget : ∀ i : Fin 3, (yaspGrid 3 k).getD i 0 = if (i : ℕ) = 0 then 2 ^ (k / 3 + 2) else 2 ^ (k / 3) := by
    intro i
    rw [List.getD_eq_getElem?_getD, yaspGrid_get 3 k i i.2, hmod]; rfl
  have ht0 : ∀ i : Fin 3, torusCoord (fun j => (yaspGrid 3 k).getD j 0) 0 i = 0 := by
    intro i; unfold torusCoord; simp
  -- the last own coarse cell in direction 1 and a point near its upper end
  obtain ⟨M', rfl⟩ : 2 ^ (k / 3) ∣ M := (pow_dvd_pow 2 (by omega)).trans hdvd
  have hM'0 : 0 < M' := Nat.pos_of_mul_pos_left hM
  have hl1 : k / 3 + 1 ≤ l := by
    have h1 := Nat.le_of_dvd hM hdvd1
    have h3 : 2 ^ (k / 3 + 1) < 2 ^ (l + 1) := by rw [pow_succ 2 l]; omega
    have := (Nat.pow_lt_pow_iff_right (by norm_num : 1 < 2)).mp h3
    omega
  obtain ⟨b, rfl⟩ : ∃ b, l = k / 3 + 1 + b := ⟨l - (k / 3 + 1), by omega⟩
  rw [pow_add, Nat.mul_div_cancel_left _ (by positivity)] at hw
  set a := k / 3 with ha
  have hdir := fun i : Fin 3 => (direction_iff (N := 2 ^ a * M') (m := m) (o := o) (w := 0) (p := (yaspGrid 3 k).getD i 0) (q := 0) hM hM hm
    (by rw [hget]; split_ifs
        · exact hdvd
        · exact Dvd.intro _ rfl)
    (by rw [hget]; split_ifs
        · exact hdvd
        · exact Dvd.intro _ rfl)
    (by rw [hget]; split_ifs <;> positivity)).2.2
  choose c' hc' x' hx' using hdir
  have hown : Own (2 ^ a * M') (2 ^ a) 0 (M' - 1) := by
    rw [own_iff (by positivity)]; omega
  have hMq : (0 : ℚ) < M' := by exact_mod_cast hM'0
  have hmq : (0 : ℚ) < m := by exact_mod_cast hm
  have haq : (0 : ℚ) < 2 ^ a := by positivity
  have hgrid : InLocalGrid (2 ^ a * M') m o (M' - 1) (((M' : ℚ) - 1 / 2) / (2 ^ a * M')) := by
    have hover : (0 : ℚ) ≤ (o : ℚ) / (m * ((2 ^ a * M' : ℕ) : ℚ)) := by positivity
    have hc1 : ((M' - 1 : ℕ) : ℚ) = M' - 1 := by rw [Nat.cast_sub hM'0]; simp
    have hM1 : (1 : ℚ) ≤ M' := by exact_mod_cast hM'0
    have ha1 : (1 : ℚ) ≤ 2 ^ a := one_le_pow₀ (by norm_num)
    unfold InLocalGrid
    rw [lower_formula, upper_formula, hc1, max_lt_iff, lt_min_iff]
    push_cast at hover ⊢
    have hpos : (0 : ℚ) < 2 ^ a * M' := by positivity
    have h1 : ((M' : ℚ) - 1) / (2 ^ a * M') < (M' - 1 / 2) / (2 ^ a * M') := by
      rw [div_lt_div_iff_of_pos_right hpos]; linarith
    have h2 : ((M' : ℚ) - 1 / 2) / (2 ^ a * M') < (M' - 1 + 1) / (2 ^ a * M') := by
      rw [div_lt_div_iff_of_pos_right hpos]; linarith
    refine ⟨⟨by linarith, div_pos (by linarith) hpos⟩, by linarith, ?_⟩
    rw [div_lt_one hpos]
    nlinarith
  refine ⟨fun i => if i = 1 then M' - 1 else c' i, fun i => if i = 1 then ((M' : ℚ) - 1 / 2) / (2 ^ a * M') else x' i, ?_, ?_⟩
  · intro i
    by_cases hi : i = 1
    · subst hi
      rw [ht0, hget]
      exact ⟨hown, hgrid⟩
    · simp only [hi, if_false, ht0]
      exact ⟨hc' i, hx' i⟩
  · rw [(C47_range_error _ (r 0) (r 1) (r 2) perm part minimal _ _ _).2]
    rintro ⟨-, ⟨-, h⟩, -⟩
    have e : (r 1).iMax ≤ 2 ^ b + w := by
      rw [← hr]
      have hp0 : gridPosition (fieldGrid 3 k) 3 0 1 = 0 := by
        rw [gridPosition_eq _ (fun i => by unfold fieldGrid; positivity) 3 0 1
          (by rw [off_eq_prod]; exact Finset.prod_pos fun i _ => by unfold fieldGrid; positivity) (by omega)]
        unfold torusCoord; simp
      have hp1 : fieldGrid 3 k 1 = 2 ^ (a + 1) := by
        unfold fieldGrid; rw [hmod]; rfl
      dsimp only
      rw [hp0, hp1]
      unfold rangeOf
      simp only [pow_add, Nat.mul_div_cancel_left _ (show 0 < 2 ^ a * 2 ^ 1 by positivity)]
      simp
    have e' : ((r 1).iMax : ℚ) ≤ 2 ^ b + w := by exact_mod_cast e
    have hw' : (w : ℚ) + 1 ≤ 2 ^ b := by exact_mod_cast hw
    have hNM : 2 ^ (b + 1) ≤ M' := by
      have : 2 ^ a * 2 ^ (b + 1) ≤ 2 ^ a * M' := by
        rw [← pow_add]; rw [show a + (b + 1) = a + 1 + b by ring]; exact hle
      exact Nat.le_of_mul_le_mul_left this (by positivity)
    have hNM' : (2 : ℚ) ^ (b + 1) ≤ M' := by exact_mod_cast hNM
    simp only [if_true] at h
    push_cast at h
    rw [div_mul_eq_mul_div, div_le_iff₀ (by positivity)] at h
    rw [show (2 : ℚ) ^ (a + 1 + b) = 2 ^ a * 2 ^ (b + 1) by rw [← pow_add]; congr 1; ring] at h
    have h' : ((M' : ℚ) - 1 / 2) * 2 ^ (b + 1) ≤ (r 1).iMax * M' := by
      have : 2 ^ a * (((M' : ℚ) - 1 / 2) * 2 ^ (b + 1)) ≤ 2 ^ a * ((r 1).iMax * M') := by linarith
      exact le_of_mul_le_mul_left this haq
    have h'' : ((r 1).iMax : ℚ) ≤ 2 ^ (b + 1) - 1 := by rw [pow_succ]; linarith
    have h3 : ((r 1).iMax : ℚ) * M' ≤ (2 ^ (b + 1) - 1) * M' := mul_le_mul_of_nonneg_right h'' hMq.le
    nlinarith

/-- Instance of the last theorem: 4 processes, 8x8x8 coarse cells, overlap 1, no oversampling. -/
example : 2 % 3 = 2 ∧ 2 ^ (2 / 3 + 2) ∣ 8 ∧ 1 < 8 / 2 ^ (2 / 3 + 1) := ⟨rfl, by norm_num, by norm_num⟩

end Verif.LoadBalance
