import Verif.Model.RandomStream
import Mathlib.GroupTheory.OrderOfElement
import Mathlib.Data.ZMod.Basic
import Mathlib.NumberTheory.LucasPrimality
import Mathlib.Algebra.BigOperators.Group.Finset.Basic
import Mathlib.Algebra.BigOperators.Intervals
import Mathlib.Tactic.NormNum.Prime
import Mathlib.Tactic.NormNum.GCD
import Mathlib.Tactic.ReduceModChar
import Mathlib.Tactic.Ring
import Mathlib.Tactic.Linarith
import Mathlib.Tactic.FieldSimp

/-!
# C70: random numbers of different processes
-/

namespace Verif.RandomStream

theorem next_pos {x : ℕ} (h0 : 0 < x) (h1 : x < modulus) : 0 < engineNext x ∧ engineNext x < modulus := by
  have hm : 0 < modulus := by norm_num [modulus]
  refine ⟨?_, Nat.mod_lt _ hm⟩
  unfold engineNext
  rw [Nat.pos_iff_ne_zero]
  intro h
  have hd : modulus ∣ multiplier * x := Nat.dvd_of_mod_eq_zero h
  have hc : Nat.Coprime modulus multiplier := by unfold modulus multiplier; norm_num
  have := Nat.le_of_dvd h0 (hc.dvd_of_dvd_mul_left hd)
  omega

theorem iterate_eq (x n : ℕ) (hx : x < modulus) : engineNext^[n] x = multiplier ^ n * x % modulus := by
  induction n with
  | zero => rw [Function.iterate_zero, id, pow_zero, one_mul, Nat.mod_eq_of_lt hx]
  | succ n ih =>
    rw [Function.iterate_succ_apply', ih]
    unfold engineNext
    rw [Nat.mul_mod_mod, ← mul_assoc, ← pow_succ']

theorem seed_lt (s : ℕ) : 0 < engineSeed s ∧ engineSeed s < modulus := by
  unfold engineSeed
  have hm : 1 < modulus := by norm_num [modulus]
  have := Nat.mod_lt s (by omega : 0 < modulus)
  split_ifs <;> omega

/-- **C70** (numbers) All numbers drawn lie between 1 and the modulus minus 1. -/
theorem C70_range (seed n : ℕ) : 0 < number seed n ∧ number seed n < modulus := by
  unfold number
  induction n with
  | zero => exact next_pos (seed_lt seed).1 (seed_lt seed).2
  | succ n ih =>
    rw [Function.iterate_succ_apply']
    exact next_pos ih.1 ih.2

theorem processNumber_eq (r n : ℕ) (hr : r + 1 < modulus) : processNumber r n = multiplier ^ (n + 1) * (r + 1) % modulus := by
  unfold processNumber number
  rw [iterate_eq _ _ (seed_lt _).2]
  unfold engineSeed processSeed
  rw [Nat.mod_eq_of_lt hr, if_neg (by omega)]

/-- **C70** (partial: no two processes draw the same numbers at the same time) The `n`-th numbers of two processes differ, for all `n`. -/
theorem C70_distinct_partial (r r' n : ℕ) (hr : r + 1 < modulus) (hr' : r' + 1 < modulus) (hne : r ≠ r') :
    processNumber r n ≠ processNumber r' n := by
  rw [processNumber_eq r n hr, processNumber_eq r' n hr']
  intro h
  have hc : Nat.Coprime modulus (multiplier ^ (n + 1)) := Nat.Coprime.pow_right _ (by unfold modulus multiplier; norm_num)
  have h1 : r + 1 ≡ r' + 1 [MOD modulus] := Nat.ModEq.cancel_left_of_coprime hc h
  have h2 := Nat.ModEq.eq_of_lt_of_lt h1 hr hr'
  omega

example : processNumber 0 0 = 16807 ∧ processNumber 1 0 = 33614 ∧ processNumber 0 1 = 282475249 := by
  decide

/-- **C70 is violated** (dependence) The numbers of every process are multiples, modulo `2^31 - 1`, of those of the first process. -/
theorem C70_violated_linear (r n : ℕ) (hr : r + 1 < modulus) : processNumber r n = (r + 1) * processNumber 0 n % modulus := by
  rw [processNumber_eq r n hr, processNumber_eq 0 n (by norm_num [modulus]), Nat.mul_mod_mod]
  congr 1
  ring

/-- **C70 is violated** (overlap) The process with rank `16807 (r + 1) - 1` draws the numbers of process `r`, one step later. -/
theorem C70_violated_overlap (r n : ℕ) (hr : multiplier * (r + 1) < modulus) :
    processNumber (multiplier * (r + 1) - 1) n = processNumber r (n + 1) := by
  have hm : 0 < multiplier := by norm_num [multiplier]
  have h1 : 0 < multiplier * (r + 1) := by positivity
  have h2 : r + 1 ≤ multiplier * (r + 1) := Nat.le_mul_of_pos_left _ hm
  rw [processNumber_eq _ n (by omega), processNumber_eq r (n + 1) (by omega), Nat.sub_add_cancel h1, pow_succ multiplier (n + 1), mul_assoc]

example : processNumber 16806 0 = processNumber 0 1 := C70_violated_overlap 0 0 (by norm_num [multiplier, modulus])

/-! ### The period -/

theorem prime_factor {q : ℕ} (hq : q.Prime) (hd : q ∣ modulus - 1) : q = 2 ∨ q = 3 ∨ q = 7 ∨ q = 11 ∨ q = 31 ∨ q = 151 ∨ q = 331 := by
  have e : modulus - 1 = 2 * (3 * (3 * (7 * (11 * (31 * (151 * 331)))))) := by norm_num [modulus]
  rw [e] at hd
  have pr : ∀ p : ℕ, p.Prime → q ∣ p → q = p := fun p hp h => (Nat.prime_dvd_prime_iff_eq hq hp).mp h
  simp only [hq.dvd_mul] at hd
  rcases hd with h | h | h | h | h | h | h | h
  · exact .inl (pr 2 (by norm_num) h)
  · exact .inr (.inl (pr 3 (by norm_num) h))
  · exact .inr (.inl (pr 3 (by norm_num) h))
  · exact .inr (.inr (.inl (pr 7 (by norm_num) h)))
  · exact .inr (.inr (.inr (.inl (pr 11 (by norm_num) h))))
  · exact .inr (.inr (.inr (.inr (.inl (pr 31 (by norm_num) h)))))
  · exact .inr (.inr (.inr (.inr (.inr (.inl (pr 151 (by norm_num) h))))))
  · exact .inr (.inr (.inr (.inr (.inr (.inr (pr 331 (by norm_num) h))))))

theorem multiplier_powers : (16807 : ZMod 2147483647) ^ 2147483646 = 1 ∧
    ∀ q : ℕ, q.Prime → q ∣ 2147483646 → (16807 : ZMod 2147483647) ^ (2147483646 / q) ≠ 1 := by
  constructor
  · reduce_mod_char
  · intro q hq hd
    rcases prime_factor hq hd with rfl | rfl | rfl | rfl | rfl | rfl | rfl
    all_goals
      norm_num only
      reduce_mod_char
      decide

theorem orderOf_multiplier : orderOf (16807 : ZMod 2147483647) = 2147483646 :=
  orderOf_eq_of_pow_and_pow_div_prime (by norm_num) multiplier_powers.1 multiplier_powers.2

theorem prime_modulus : modulus.Prime := by
  unfold modulus
  refine lucas_primality _ 16807 ?_ ?_
  · rw [show 2147483647 - 1 = 2147483646 by norm_num]; exact multiplier_powers.1
  · rw [show 2147483647 - 1 = 2147483646 by norm_num]; exact multiplier_powers.2

/-- Multiplicative generators in general: period and numbers. -/
theorem generator_period (m a T r : ℕ) (hm : m.Prime) (ha : orderOf (a : ZMod m) = T) (hT : T = m - 1) (hr0 : 0 < r) (hr : r < m) :
    (∀ n, a ^ (n + T + 1) * r % m = a ^ (n + 1) * r % m) ∧
    ∀ x, 0 < x → x < m → ∃! n, n < T ∧ a ^ (n + 1) * r % m = x := by
  have : Fact m.Prime := ⟨hm⟩
  have hm2 := hm.two_le
  have hr' : (r : ZMod m) ≠ 0 := by
    rw [Ne, ZMod.natCast_eq_zero_iff]
    exact fun h => absurd (Nat.le_of_dvd hr0 h) (by omega)
  have ha' : (a : ZMod m) ≠ 0 := by
    intro h
    have h1 := pow_orderOf_eq_one (a : ZMod m)
    rw [ha, hT, h, zero_pow (by omega)] at h1
    exact zero_ne_one h1
  have hinj : Set.InjOn (fun n => a ^ (n + 1) * r % m) (Finset.range T) := by
    intro k hk l hl h
    have h1 : ((a ^ (k + 1) * r : ℕ) : ZMod m) = ((a ^ (l + 1) * r : ℕ) : ZMod m) := (ZMod.natCast_eq_natCast_iff' _ _ _).mpr h
    push_cast at h1
    have h2 := mul_right_cancel₀ hr' h1
    rw [pow_succ, pow_succ] at h2
    have h3 := mul_right_cancel₀ ha' h2
    refine pow_injOn_Iio_orderOf ?_ ?_ h3
    · rw [ha]; simpa using hk
    · rw [ha]; simpa using hl
  constructor
  · intro n
    rw [← ZMod.natCast_eq_natCast_iff']
    push_cast
    rw [show n + T + 1 = n + 1 + T by ring, pow_add _ (n + 1) T, ← ha, pow_orderOf_eq_one, mul_one]
  · intro x hx0 hx1
    have himg : (Finset.range T).image (fun n => a ^ (n + 1) * r % m) = Finset.Ico 1 m := by
      apply Finset.eq_of_subset_of_card_le
      · intro y hy
        obtain ⟨n, -, rfl⟩ := Finset.mem_image.mp hy
        refine Finset.mem_Ico.mpr ⟨?_, Nat.mod_lt _ (by omega)⟩
        rw [Nat.one_le_iff_ne_zero]
        intro h0
        have : ((a ^ (n + 1) * r : ℕ) : ZMod m) = 0 := (ZMod.natCast_eq_zero_iff _ _).mpr (Nat.dvd_of_mod_eq_zero h0)
        push_cast at this
        exact mul_ne_zero (pow_ne_zero _ ha') hr' this
      · rw [Finset.card_image_of_injOn hinj, Nat.card_Ico, Finset.card_range, hT]
    have hx : x ∈ (Finset.range T).image (fun n => a ^ (n + 1) * r % m) := by
      rw [himg]; exact Finset.mem_Ico.mpr ⟨hx0, hx1⟩
    obtain ⟨n, hn, rfl⟩ := Finset.mem_image.mp hx
    exact ⟨n, ⟨by simpa using hn, rfl⟩, fun n' h => hinj (by simpa using h.1) hn h.2⟩

/-- **C70** (period) Every process runs through all numbers between 1 and `2^31 - 2`, in a cycle of this length. -/
theorem C70_period (r : ℕ) (hr : r + 1 < modulus) :
    (∀ n, processNumber r (n + (modulus - 1)) = processNumber r n) ∧
    ∀ x, 0 < x → x < modulus → ∃! n, n < modulus - 1 ∧ processNumber r n = x := by
  have hord : orderOf (multiplier : ZMod modulus) = modulus - 1 := by
    have h := orderOf_multiplier
    unfold multiplier modulus
    rw [Nat.cast_ofNat, h]
  have hp : modulus.Prime := prime_modulus
  obtain ⟨h1, h2⟩ := generator_period modulus multiplier (modulus - 1) (r + 1) hp hord rfl (by omega) hr
  have e : ∀ n, processNumber r n = multiplier ^ (n + 1) * (r + 1) % modulus := fun n => processNumber_eq r n hr
  constructor
  · intro n
    rw [e, e]; exact h1 n
  · intro x hx0 hx1
    simp only [e]
    exact h2 x hx0 hx1

/-! ### Correlation -/

theorem sum_one (n : ℕ) : ∑ x ∈ Finset.range n, (x : ℚ) = n * (n - 1) / 2 := by
  induction n with
  | zero => simp
  | succ n ih => rw [Finset.sum_range_succ, ih]; push_cast; ring

theorem sum_two (n : ℕ) : ∑ x ∈ Finset.range n, (x : ℚ) ^ 2 = n * (n - 1) * (2 * n - 1) / 6 := by
  induction n with
  | zero => simp
  | succ n ih => rw [Finset.sum_range_succ, ih]; push_cast; ring

theorem sum_poly (a b c : ℚ) (n : ℕ) : ∑ x ∈ Finset.range n, (a * (x : ℚ) ^ 2 + b * x + c) =
    a * (n * (n - 1) * (2 * n - 1) / 6) + b * (n * (n - 1) / 2) + c * n := by
  rw [Finset.sum_add_distrib, Finset.sum_add_distrib, ← Finset.mul_sum, ← Finset.mul_sum, sum_two, sum_one]
  simp [mul_comm]

/-- Sum of products of deviations from the mean, and of squares, over all numbers modulo `2h + 1`. -/
theorem doubling_covariance (h : ℕ) :
    (∑ x ∈ Finset.Ico 1 (2 * h + 1), ((x : ℚ) - (2 * h + 1) / 2) * (((2 * x % (2 * h + 1) : ℕ) : ℚ) - (2 * h + 1) / 2)) =
      (h : ℚ) * (2 * h + 1) * (h - 2) / 6 ∧
    (∑ x ∈ Finset.Ico 1 (2 * h + 1), ((x : ℚ) - (2 * h + 1) / 2) ^ 2) = (h : ℚ) * (2 * h + 1) * (2 * h - 1) / 6 := by
  constructor
  · rw [← Finset.sum_Ico_consecutive _ (show 1 ≤ h + 1 by omega) (show h + 1 ≤ 2 * h + 1 by omega)]
    have e1 : ∀ x ∈ Finset.Ico 1 (h + 1), ((x : ℚ) - (2 * h + 1) / 2) * (((2 * x % (2 * h + 1) : ℕ) : ℚ) - (2 * h + 1) / 2) =
        2 * (x : ℚ) ^ 2 + (-(3 * (2 * h + 1) / 2)) * x + ((2 * h + 1) / 2) ^ 2 := by
      intro x hx
      have := Finset.mem_Ico.mp hx
      rw [Nat.mod_eq_of_lt (by omega)]
      push_cast; ring
    have e2 : ∀ x ∈ Finset.Ico (h + 1) (2 * h + 1), ((x : ℚ) - (2 * h + 1) / 2) * (((2 * x % (2 * h + 1) : ℕ) : ℚ) - (2 * h + 1) / 2) =
        2 * (x : ℚ) ^ 2 + (-(5 * (2 * h + 1) / 2)) * x + 3 * ((2 * h + 1) / 2) ^ 2 := by
      intro x hx
      have hx' := Finset.mem_Ico.mp hx
      have : 2 * x % (2 * h + 1) = 2 * x - (2 * h + 1) := by
        rw [Nat.mod_eq_sub_mod (by omega), Nat.mod_eq_of_lt (by omega)]
      rw [this, Nat.cast_sub (by omega)]
      push_cast; ring
    rw [Finset.sum_congr rfl e1, Finset.sum_congr rfl e2, Finset.sum_Ico_eq_sub _ (by omega), Finset.sum_Ico_eq_sub _ (by omega),
      sum_poly, sum_poly, sum_poly, sum_poly]
    push_cast; ring
  · have e : ∀ x ∈ Finset.Ico 1 (2 * h + 1), ((x : ℚ) - (2 * h + 1) / 2) ^ 2 = 1 * (x : ℚ) ^ 2 + (-(2 * h + 1)) * x + ((2 * h + 1) / 2) ^ 2 := by
      intro x _; ring
    rw [Finset.sum_congr rfl e, Finset.sum_Ico_eq_sub _ (by omega), sum_poly, sum_poly]
    push_cast; ring

/-- **C70 is violated** (correlation) Over the period, the numbers drawn at the same time by the first two processes have the correlation
`(2^30 - 3) / (2^31 - 3)`, nearly one half; for independent numbers it would be zero. -/
theorem C70_violated_correlation :
    (∑ n ∈ Finset.range (modulus - 1), ((processNumber 0 n : ℚ) - modulus / 2) * ((processNumber 1 n : ℚ) - modulus / 2)) =
      ((2 ^ 30 - 3) / (2 ^ 31 - 3)) * ∑ n ∈ Finset.range (modulus - 1), ((processNumber 0 n : ℚ) - modulus / 2) ^ 2 := by
  have h1 : ∀ n, processNumber 1 n = 2 * processNumber 0 n % modulus := fun n => C70_violated_linear 1 n (by norm_num [modulus])
  have hper := (C70_period 0 (by norm_num [modulus])).2
  have hran : ∀ n, 0 < processNumber 0 n ∧ processNumber 0 n < modulus := fun n => C70_range _ _
  obtain ⟨h, hm, hh⟩ : ∃ h : ℕ, modulus = 2 * h + 1 ∧ h = 1073741823 := ⟨1073741823, by norm_num [modulus], rfl⟩
  have hhq : (h : ℚ) = 1073741823 := by rw [hh]; norm_num
  clear hh
  generalize modulus = m at *
  subst hm
  have hbij : ∀ f : ℕ → ℚ, ∑ n ∈ Finset.range (2 * h + 1 - 1), f (processNumber 0 n) = ∑ x ∈ Finset.Ico 1 (2 * h + 1), f x := by
    intro f
    apply Finset.sum_bij (fun n _ => processNumber 0 n)
    · intro n _; exact Finset.mem_Ico.mpr (hran n)
    · intro a ha b hb hab
      obtain ⟨n, -, hu⟩ := hper _ (hran a).1 (hran a).2
      rw [hu a ⟨Finset.mem_range.mp ha, rfl⟩, hu b ⟨Finset.mem_range.mp hb, hab.symm⟩]
    · intro x hx
      obtain ⟨n, hn, -⟩ := hper x (Finset.mem_Ico.mp hx).1 (Finset.mem_Ico.mp hx).2
      exact ⟨n, Finset.mem_range.mpr hn.1, hn.2⟩
    · intro _ _; rfl
  simp only [h1]
  rw [hbij fun x => ((x : ℚ) - (2 * h + 1 : ℕ) / 2) * (((2 * x % (2 * h + 1) : ℕ) : ℚ) - (2 * h + 1 : ℕ) / 2),
    hbij fun x => ((x : ℚ) - (2 * h + 1 : ℕ) / 2) ^ 2]
  obtain ⟨c1, c2⟩ := doubling_covariance h
  push_cast at c1 c2 ⊢
  rw [c1, c2, hhq]
  norm_num

end Verif.RandomStream
