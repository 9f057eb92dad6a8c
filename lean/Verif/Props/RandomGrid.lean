import Verif.Model.RandomField
import Verif.Spec.Log2
import Mathlib.Analysis.SpecialFunctions.Log.Basic
import Mathlib.Analysis.Complex.ExponentialBounds
import Mathlib.Tactic.Linarith
import Mathlib.Tactic.Ring
import Mathlib.Tactic.FieldSimp
import Mathlib.Tactic.NormNum
import Mathlib.Algebra.BigOperators.Intervals
import Mathlib.Data.Set.Function

/-!
# C44, C45: process grid and blocks of the random field
-/

namespace Verif.RandomField
open Verif.Spec

/-! ## C44 -/

/-- The logarithm of a number between two powers of two is away from every integer. -/
theorem logb_away (n k m : ℕ) (hk : k < 31) (h1 : 2 ^ k < n) (h2 : n < 2 ^ (k + 1)) :
    1 / 2 ^ 31 ≤ |(m : ℝ) - Real.logb 2 n| := by
  have hlog2 : 0 < Real.log 2 := Real.log_pos (by norm_num)
  have hlog2' : Real.log 2 < 1 := by have := Real.log_two_lt_d9; linarith
  have hn : (0 : ℝ) < n := by
    have : 0 < n := by omega
    exact_mod_cast this
  have hpk : ∀ j : ℕ, (0 : ℝ) < 2 ^ j := fun j => by positivity
  have hsmall : (1 : ℝ) / 2 ^ 31 ≤ 1 / 2 ^ (k + 1) := by
    apply one_div_le_one_div_of_le (hpk _)
    exact pow_le_pow_right₀ (by norm_num) (by omega)
  have hlb : Real.logb 2 n = Real.log n / Real.log 2 := rfl
  -- distance from below
  have low : (k : ℝ) + 1 / 2 ^ (k + 1) ≤ Real.logb 2 n := by
    have hn1 : (2 : ℝ) ^ k + 1 ≤ n := by exact_mod_cast h1
    have e1 : Real.log ((2 : ℝ) ^ k / n) ≤ 2 ^ k / n - 1 := Real.log_le_sub_one_of_pos (by positivity)
    rw [Real.log_div (by positivity) (by positivity), Real.log_pow] at e1
    have e2 : (2 : ℝ) ^ k / n - 1 ≤ -(1 / 2 ^ (k + 1)) := by
      have hn2 : (n : ℝ) ≤ 2 ^ (k + 1) := by exact_mod_cast h2.le
      have : (2 : ℝ) ^ k / n ≤ (n - 1) / n := div_le_div_of_nonneg_right (by linarith) hn.le
      have e3 : ((n : ℝ) - 1) / n = 1 - 1 / n := by field_simp
      have e4 : (1 : ℝ) / 2 ^ (k + 1) ≤ 1 / n := one_div_le_one_div_of_le hn hn2
      linarith
    rw [hlb, le_div_iff₀ hlog2]
    have h5 : 1 / 2 ^ (k + 1) * Real.log 2 ≤ 1 / (2 : ℝ) ^ (k + 1) := by
      have : (0 : ℝ) ≤ 1 / 2 ^ (k + 1) := by positivity
      nlinarith
    nlinarith
  have high : Real.logb 2 n ≤ (k + 1 : ℝ) - 1 / 2 ^ (k + 1) := by
    have hn1 : (n : ℝ) + 1 ≤ 2 ^ (k + 1) := by exact_mod_cast h2
    have e1 : Real.log ((n : ℝ) / 2 ^ (k + 1)) ≤ n / 2 ^ (k + 1) - 1 := Real.log_le_sub_one_of_pos (by positivity)
    rw [Real.log_div (by positivity) (by positivity), Real.log_pow] at e1
    have e2 : (n : ℝ) / 2 ^ (k + 1) - 1 ≤ -(1 / 2 ^ (k + 1)) := by
      have : (n : ℝ) / 2 ^ (k + 1) ≤ (2 ^ (k + 1) - 1) / 2 ^ (k + 1) :=
        div_le_div_of_nonneg_right (by linarith) (hpk _).le
      have e3 : ((2 : ℝ) ^ (k + 1) - 1) / 2 ^ (k + 1) = 1 - 1 / 2 ^ (k + 1) := by
        have := (hpk (k + 1)).ne'
        field_simp
      linarith
    rw [hlb, div_le_iff₀ hlog2]
    have h5 : 1 / 2 ^ (k + 1) * Real.log 2 ≤ 1 / (2 : ℝ) ^ (k + 1) := by
      have : (0 : ℝ) ≤ 1 / 2 ^ (k + 1) := by positivity
      nlinarith
    push_cast at e1
    nlinarith
  rcases Nat.lt_or_ge k m with hm | hm
  · have : (k : ℝ) + 1 ≤ m := by exact_mod_cast hm
    rw [abs_of_nonneg (by linarith [(by positivity : (0 : ℝ) ≤ 1 / 2 ^ (k + 1))])]
    linarith
  · have : (m : ℝ) ≤ k := by exact_mod_cast hm
    rw [abs_of_nonpos (by linarith [(by positivity : (0 : ℝ) ≤ 1 / 2 ^ (k + 1))])]
    linarith

theorem off_eq_prod (ppd : ℕ → ℕ) (k : ℕ) : off ppd k = ∏ i ∈ Finset.range k, ppd i := by
  induction k with
  | zero => rfl
  | succ k ih => rw [Finset.prod_range_succ, ← ih]; rfl

theorem posLoop_ge (ppd : ℕ → ℕ) (k r : ℕ) (pos : ℕ → ℕ) (i : ℕ) (h : k ≤ i) : posLoop ppd k r pos i = pos i := by
  induction k generalizing r pos with
  | zero => rfl
  | succ k ih =>
    unfold posLoop
    rw [ih _ _ (by omega), if_neg (by omega)]

theorem posLoop_spec (ppd : ℕ → ℕ) (hp : ∀ i, 0 < ppd i) (k r : ℕ) (pos : ℕ → ℕ) (hr : r < off ppd k) :
    (∀ i, i < k → posLoop ppd k r pos i < ppd i) ∧
    ∑ i ∈ Finset.range k, posLoop ppd k r pos i * off ppd i = r := by
  induction k generalizing r pos with
  | zero =>
    refine ⟨fun i hi => absurd hi (Nat.not_lt_zero i), ?_⟩
    simp only [off] at hr
    simp; omega
  | succ k ih =>
    have ho : 0 < off ppd k := by
      rw [off_eq_prod]; exact Finset.prod_pos fun i _ => hp i
    have hq : r / off ppd k < ppd k := by
      rw [Nat.div_lt_iff_lt_mul ho, mul_comm]; exact hr
    have hrem : r - r / off ppd k * off ppd k < off ppd k := by
      have h1 := Nat.mod_lt r ho
      have h2 := Nat.div_add_mod r (off ppd k)
      rw [mul_comm] at h2
      omega
    have hmul : r / off ppd k * off ppd k ≤ r := Nat.div_mul_le_self r _
    obtain ⟨h1, h2⟩ := ih (r - r / off ppd k * off ppd k) (fun i => if i = k then r / off ppd k else pos i) hrem
    have hk : posLoop ppd (k + 1) r pos k = r / off ppd k := by
      unfold posLoop
      rw [posLoop_ge _ _ _ _ _ (le_refl k), if_pos rfl]
    constructor
    · intro i hi
      rcases Nat.lt_succ_iff_lt_or_eq.mp hi with h | rfl
      · exact h1 i h
      · rw [hk]; exact hq
    · rw [Finset.sum_range_succ, hk]
      show (∑ i ∈ Finset.range k, posLoop ppd k (r - r / off ppd k * off ppd k)
        (fun i => if i = k then r / off ppd k else pos i) i * off ppd i) + _ = r
      rw [h2]
      omega

theorem posLoop_inv (ppd : ℕ → ℕ) (k : ℕ) (want pos : ℕ → ℕ) (hw : ∀ i, i < k → want i < ppd i) :
    (∑ i ∈ Finset.range k, want i * off ppd i < off ppd k) ∧
    ∀ i, i < k → posLoop ppd k (∑ i ∈ Finset.range k, want i * off ppd i) pos i = want i := by
  induction k generalizing pos with
  | zero => exact ⟨by simp [off], fun i hi => absurd hi (Nat.not_lt_zero i)⟩
  | succ k ih =>
    obtain ⟨hlt, -⟩ := ih pos fun i hi => hw i (by omega)
    have hwk := hw k (by omega)
    constructor
    · rw [Finset.sum_range_succ]
      show _ < off ppd k * ppd k
      have : (want k + 1) * off ppd k ≤ ppd k * off ppd k := Nat.mul_le_mul_right _ hwk
      rw [add_mul, one_mul] at this
      rw [mul_comm (off ppd k)]
      omega
    · have ho : 0 < off ppd k := by omega
      have hdiv : (∑ i ∈ Finset.range (k + 1), want i * off ppd i) / off ppd k = want k := by
        rw [Finset.sum_range_succ, Nat.add_mul_div_right _ _ ho, Nat.div_eq_of_lt hlt, Nat.zero_add]
      intro i hi
      unfold posLoop
      simp only [hdiv]
      have hsub : (∑ i ∈ Finset.range (k + 1), want i * off ppd i) - want k * off ppd k =
          ∑ i ∈ Finset.range k, want i * off ppd i := by
        rw [Finset.sum_range_succ]; omega
      rw [hsub]
      rcases Nat.lt_succ_iff_lt_or_eq.mp hi with h | rfl
      · exact (ih _ fun i hi => hw i (by omega)).2 i h
      · rw [posLoop_ge _ _ _ _ _ (le_refl _), if_pos rfl]

/-- **C44** Every process has its own position on the process grid and every position its process, for any process grid. -/
theorem C44_bijection (ppd : ℕ → ℕ) (hp : ∀ i, 0 < ppd i) (dim : ℕ) :
    Set.BijOn (fun r (i : Fin dim) => gridPosition ppd dim r i) {r | r < ∏ i ∈ Finset.range dim, ppd i}
      {pos | ∀ i : Fin dim, pos i < ppd i} := by
  rw [← off_eq_prod]
  refine ⟨fun r hr i => ?_, fun r hr r' hr' h => ?_, fun pos hpos => ?_⟩
  · exact (posLoop_spec ppd hp dim r _ hr).1 i i.2
  · have e1 := (posLoop_spec ppd hp dim r (fun _ => 0) hr).2
    have e2 := (posLoop_spec ppd hp dim r' (fun _ => 0) hr').2
    rw [← e1, ← e2]
    refine Finset.sum_congr rfl fun i hi => ?_
    have := congrFun h ⟨i, Finset.mem_range.mp hi⟩
    have h' : posLoop ppd dim r (fun _ => 0) i = posLoop ppd dim r' (fun _ => 0) i := this
    rw [h']
  · let want : ℕ → ℕ := fun i => if h : i < dim then pos ⟨i, h⟩ else 0
    have hw : ∀ i, i < dim → want i < ppd i := by
      intro i hi
      simp only [want, hi, dif_pos]
      exact hpos ⟨i, hi⟩
    obtain ⟨h1, h2⟩ := posLoop_inv ppd dim want (fun _ => 0) hw
    refine ⟨_, h1, ?_⟩
    funext i
    show posLoop ppd dim _ (fun _ => 0) i = pos i
    rw [h2 i i.2]
    simp only [want, i.2, dif_pos]

theorem sum_extra (dim m : ℕ) (h : m ≤ dim) : ∑ i ∈ Finset.range dim, (if i < m then 1 else 0) = m := by
  rw [← Finset.sum_filter]
  have : Finset.filter (fun i => i < m) (Finset.range dim) = Finset.range m := by
    ext i; simp; omega
  rw [this]
  simp

/-- **C44** For a power of two the process grid has as many positions as there are processes, and its side lengths differ at
most by a factor of two. -/
theorem C44_power_of_two (lg : ℕ → ℚ) (hlg : AccurateLog2 lg) (dim : ℕ) (hd : 0 < dim) (k : ℕ) (hk : k < 31) :
    ∃ ppd, partition lg dim (2 ^ k) = some ppd ∧ (∀ i, 0 < ppd i) ∧
      ∏ i ∈ Finset.range dim, ppd i = 2 ^ k ∧ ∀ i j, ppd i ≤ 2 * ppd j := by
  have hfl : ⌊lg (2 ^ k)⌋.toNat = k := by
    rw [hlg.exact k hk]
    simp
  have hmore : k - k / dim * dim ≤ dim := by
    have h1 := Nat.mod_lt k hd
    have h2 := Nat.div_add_mod k dim
    rw [mul_comm] at h2
    omega
  refine ⟨fun i => 2 ^ (k / dim + if i < k - k / dim * dim then 1 else 0), ?_, fun i => by positivity, ?_, fun i j => ?_⟩
  · unfold partition
    simp only [hlg.exact k hk]
    simp
  · rw [Finset.prod_pow_eq_pow_sum, Finset.sum_add_distrib, sum_extra _ _ hmore]
    congr 1
    simp only [Finset.sum_const, Finset.card_range, smul_eq_mul]
    have := Nat.div_mul_le_self k dim
    rw [mul_comm dim]
    omega
  · have : 2 * 2 ^ (k / dim + if j < k - k / dim * dim then 1 else 0) =
        2 ^ ((k / dim + if j < k - k / dim * dim then 1 else 0) + 1) := by rw [pow_succ]; ring
    rw [this]
    apply Nat.pow_le_pow_right (by norm_num)
    split_ifs <;> omega

/-- **C44** `partition` detects every other number of processes. -/
theorem C44_others_detected (lg : ℕ → ℚ) (hlg : AccurateLog2 lg) (dim nProc : ℕ) (h0 : 0 < nProc) (h1 : nProc < 2 ^ 31)
    (hn : ∀ k, nProc ≠ 2 ^ k) : partition lg dim nProc = none := by
  unfold partition
  rw [if_pos]
  intro h
  have hle : 2 ^ Nat.log 2 nProc ≤ nProc := Nat.pow_log_le_self 2 h0.ne'
  have hlt : nProc < 2 ^ (Nat.log 2 nProc + 1) := Nat.lt_pow_succ_log_self (by norm_num) _
  have hk : Nat.log 2 nProc < 31 := by
    by_contra hk
    have : 2 ^ 31 ≤ 2 ^ Nat.log 2 nProc := Nat.pow_le_pow_right (by norm_num) (by omega)
    omega
  have h2 : 2 ^ Nat.log 2 nProc < nProc := lt_of_le_of_ne hle (hn _).symm
  have away := logb_away nProc (Nat.log 2 nProc) ⌊lg nProc⌋.toNat hk h2 hlt
  have close := hlg.close nProc h0 h1
  rw [← h] at close
  push_cast at close
  linarith

/-- **C44** (the negation) The caller ignores what `partition` reports: for every other number of processes the block is
computed from uninitialised numbers. -/
theorem C44_violated (lg : ℕ → ℚ) (hlg : AccurateLog2 lg) (dim nProc iProc N overlap : ℕ) (h0 : 0 < nProc)
    (h1 : nProc < 2 ^ 31) (hn : ∀ k, nProc ≠ 2 ^ k) : setRange lg dim nProc iProc N overlap = .ub := by
  unfold setRange
  rw [C44_others_detected lg hlg dim nProc h0 h1 hn]

/-- Non-vacuity: three is such a number. -/
example : ∀ k, 3 ≠ 2 ^ k := by
  intro k h
  cases k with
  | zero => simp at h
  | succ k => rw [pow_succ] at h; omega

/-- Non-vacuity: there is an accurate logarithm. -/
theorem exists_accurateLog2 : ∃ lg, AccurateLog2 lg := by
  classical
  have : ∀ n : ℕ, ∃ q : ℚ, (∀ k : ℕ, n = 2 ^ k → q = k) ∧ (0 < n → |(q : ℝ) - Real.logb 2 n| < 1 / 2 ^ 31) := by
    intro n
    by_cases h : ∃ k, n = 2 ^ k
    · obtain ⟨k, rfl⟩ := h
      refine ⟨k, fun j hj => ?_, fun _ => ?_⟩
      · have := Nat.pow_right_injective (le_refl 2) hj
        rw [this]
      · push_cast
        rw [Real.logb_pow, Real.logb_self_eq_one (by norm_num)]
        simp
    · obtain ⟨q, h1, h2⟩ := exists_rat_btwn (show Real.logb 2 n < Real.logb 2 n + 1 / 2 ^ 31 by
        have : (0 : ℝ) < 1 / 2 ^ 31 := by positivity
        linarith)
      refine ⟨q, fun k hk => absurd ⟨k, hk⟩ h, fun _ => ?_⟩
      rw [abs_lt]
      constructor
      · have : (0 : ℝ) < 1 / 2 ^ 31 := by positivity
        linarith
      · linarith
  choose lg h1 h2 using this
  exact ⟨lg, fun k _ => h1 _ k rfl, fun n h _ => h2 n h⟩

/-! ## C45 -/

/-- **C45** Each block is non-empty and consists exactly of the nodes of the process's own part and the requested
overlap, clipped to the field. -/
theorem C45_block (N overlap ppd pos : ℕ) (hpos : pos < ppd) :
    let r := rangeOf N overlap ppd pos
    let len := N / ppd
    r.iMin ≤ r.iMax ∧ r.iMax ≤ N ∧ (∀ n, len * pos ≤ n → n ≤ len * (pos + 1) → r.iMin ≤ n ∧ n ≤ r.iMax) ∧
    ∀ n, (r.iMin ≤ n ∧ n ≤ r.iMax) ↔ (len * pos ≤ n + overlap ∧ n ≤ len * (pos + 1) + overlap ∧ n ≤ N) := by
  intro r len
  have hN : len * (pos + 1) ≤ N := by
    calc len * (pos + 1) ≤ len * ppd := Nat.mul_le_mul_left _ hpos
      _ ≤ N := Nat.div_mul_le_self N ppd
  have hm : len * pos ≤ len * (pos + 1) := Nat.mul_le_mul_left _ (by omega)
  have e1 : r.iMin = len * pos - overlap := rfl
  have e2 : r.iMax = min N (len * (pos + 1) + overlap) := rfl
  rw [e1, e2]
  refine ⟨by omega, by omega, fun n h1 h2 => by omega, fun n => by omega⟩

/-- **C45** (partial: the number of processes per direction divides the number of segments) Every node belongs to the own
part of a process. -/
theorem C45_cover_partial (N overlap ppd : ℕ) (hN : 0 < N) (hd : ppd ∣ N) (n : ℕ) (hn : n ≤ N) :
    ∃ pos, pos < ppd ∧ N / ppd * pos ≤ n ∧ n ≤ N / ppd * (pos + 1) ∧
      (rangeOf N overlap ppd pos).iMin ≤ n ∧ n ≤ (rangeOf N overlap ppd pos).iMax := by
  obtain ⟨len, rfl⟩ := hd
  have hp : 0 < ppd := Nat.pos_of_ne_zero fun h => by simp [h] at hN
  have hl : 0 < len := Nat.pos_of_ne_zero fun h => by simp [h] at hN
  have hdiv : ppd * len / ppd = len := Nat.mul_div_cancel_left len hp
  have key : ∃ pos, pos < ppd ∧ len * pos ≤ n ∧ n ≤ len * (pos + 1) := by
    rcases Nat.lt_or_ge (n / len) ppd with h | h
    · refine ⟨n / len, h, by rw [mul_comm]; exact Nat.div_mul_le_self n len, ?_⟩
      exact (Nat.lt_mul_div_succ n hl).le
    · have hge : ppd * len ≤ n := (Nat.le_div_iff_mul_le hl).mp h
      refine ⟨ppd - 1, by omega, ?_, ?_⟩
      · rw [mul_comm]
        exact le_trans (Nat.mul_le_mul_right _ (by omega)) hge
      · rw [Nat.sub_add_cancel hp, mul_comm]; exact hn
  obtain ⟨pos, h1, h2, h3⟩ := key
  have hb := (C45_block (ppd * len) overlap ppd pos h1).2.2.1 n
  rw [hdiv] at hb ⊢
  exact ⟨pos, h1, h2, h3, hb h2 h3⟩

/-- **C45** (partial: power of two processes, not more than there are cells) Every node of the field is in the block of
some process. -/
theorem C45_all_nodes_partial (lg : ℕ → ℚ) (hlg : AccurateLog2 lg) (dim k l overlap : ℕ) (hd : 0 < dim) (hk : k < 31)
    (hkl : k ≤ dim * l) (n : ℕ → ℕ) (hn : ∀ i, n i ≤ 2 ^ l) :
    ∃ rank, rank < 2 ^ k ∧ ∃ r, setRange lg dim (2 ^ k) rank (2 ^ l) overlap = .ok r ∧
      ∀ i, i < dim → (r i).iMin ≤ n i ∧ n i ≤ (r i).iMax := by
  have hfl : ⌊lg (2 ^ k)⌋.toNat = k := by
    rw [hlg.exact k hk]
    simp
  have hpart : partition lg dim (2 ^ k) = some fun i => 2 ^ (k / dim + if i < k - k / dim * dim then 1 else 0) := by
    unfold partition
    simp only [hlg.exact k hk]
    simp
  obtain ⟨ppd, h1, hpos, hprod, -⟩ := C44_power_of_two lg hlg dim hd k hk
  have hppd : ppd = fun i => 2 ^ (k / dim + if i < k - k / dim * dim then 1 else 0) := by
    rw [hpart] at h1
    exact (Option.some.inj h1).symm
  have hdvd : ∀ i, ppd i ∣ 2 ^ l := by
    intro i
    rw [hppd]
    apply pow_dvd_pow
    have hle : k / dim ≤ l := by
      have := Nat.div_le_div_right (c := dim) hkl
      rwa [Nat.mul_div_cancel_left l hd] at this
    split_ifs with hi
    · rcases Nat.lt_or_eq_of_le hle with h | h
      · omega
      · exfalso
        rw [h, mul_comm] at hi
        omega
    · omega
  choose pos hp1 _ _ hp4 hp5 using fun i => C45_cover_partial (2 ^ l) overlap (ppd i) (by positivity) (hdvd i) (n i) (hn i)
  obtain ⟨rank, hr, he⟩ := (C44_bijection ppd hpos dim).surjOn (show (fun i : Fin dim => pos i) ∈ _ from fun i => hp1 i)
  rw [hprod] at hr
  refine ⟨rank, hr, _, by unfold setRange; rw [h1], fun i hi => ?_⟩
  have hgi : gridPosition ppd dim rank i = pos i := congrFun he ⟨i, hi⟩
  show (rangeOf _ _ _ (gridPosition ppd dim rank i)).iMin ≤ _ ∧ _
  rw [hgi]
  exact ⟨hp4 i, hp5 i⟩

/-- **C45** (the negation) With more processes in a direction than segments, and an overlap smaller than the field, no block
reaches the last node. -/
theorem C45_violated (N overlap ppd : ℕ) (h : N < ppd) (ho : overlap < N) (pos : ℕ) :
    (rangeOf N overlap ppd pos).iMax < N := by
  simp only [rangeOf, Nat.div_eq_of_lt h]
  omega

/-- Non-vacuity: two segments, four processes in a direction (16 in two dimensions), overlap 1. -/
example : ∃ N overlap ppd : ℕ, N < ppd ∧ overlap < N ∧ 0 < N := ⟨2, 1, 4, by decide, by decide, by decide⟩

end Verif.RandomField
