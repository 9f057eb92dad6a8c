import Verif.Model.Printing
import Verif.Spec.Decimal
import Verif.Lemmas.Text
import Verif.Props.ErrorReport
import Verif.Props.OutputFiles
import Mathlib.Tactic.Linarith
import Mathlib.Tactic.NormNum
import Mathlib.Tactic.Ring
import Mathlib.Tactic.FieldSimp
import Mathlib.Tactic.Push
import Mathlib.Algebra.Order.Field.Power
import Mathlib.Tactic.Positivity

/-!
# C95: numbers in errors.csv
-/

namespace Verif.Printing
open Spec.Decimal
open Spec.Csv (split)

/-! ## Rounding -/

theorem roundEven_near (q : ℚ) : |q - roundEven q| ≤ 1 / 2 := by
  have h1 := Int.floor_le q
  have h2 := Int.lt_floor_add_one q
  unfold roundEven
  split_ifs <;> rw [abs_le] <;> push_cast <;> constructor <;> linarith

/-- No integer is nearer than the one chosen. -/
theorem roundEven_best (q : ℚ) (k : ℤ) : |q - roundEven q| ≤ |q - k| := by
  by_cases h : k = roundEven q
  · rw [h]
  · have h1 := roundEven_near q
    have h2 : (1 : ℚ) ≤ |(roundEven q : ℚ) - k| := by
      have : (1 : ℤ) ≤ |roundEven q - k| := Int.one_le_abs (by omega)
      exact_mod_cast this
    have h3 := abs_sub_le (roundEven q : ℚ) q k
    rw [abs_sub_comm (roundEven q : ℚ) q] at h3
    linarith

theorem ten_zpow_pos (j : ℤ) : (0 : ℚ) < 10 ^ j := zpow_pos (by norm_num) j

theorem scaled_bounds {x : ℚ} (hx : 0 < x) :
    (10 ^ 5 : ℚ) ≤ x / 10 ^ (Int.log 10 x - 5) ∧ x / 10 ^ (Int.log 10 x - 5) < 10 ^ 6 := by
  have h1 := Int.zpow_log_le_self (R := ℚ) (b := 10) (by norm_num) hx
  have h2 := Int.lt_zpow_succ_log_self (R := ℚ) (b := 10) (by norm_num) x
  push_cast at h1 h2
  set e := Int.log 10 x
  have hp := ten_zpow_pos (e - 5)
  rw [le_div_iff₀ hp, div_lt_iff₀ hp]
  have e1 : (10 : ℚ) ^ 5 * 10 ^ (e - 5) = 10 ^ e := by
    rw [← zpow_natCast, ← zpow_add₀ (by norm_num)]; congr 1; push_cast; ring
  have e2 : (10 : ℚ) ^ 6 * 10 ^ (e - 5) = 10 ^ (e + 1) := by
    rw [← zpow_natCast, ← zpow_add₀ (by norm_num)]; congr 1; push_cast; ring
  rw [e1, e2]
  exact ⟨h1, h2⟩

theorem roundEven_bounds {q : ℚ} {a b : ℤ} (ha : (a : ℚ) ≤ q) (hb : q < b) :
    a ≤ roundEven q ∧ roundEven q ≤ b := by
  have h1 : a ≤ ⌊q⌋ := Int.le_floor.mpr ha
  have h2 : ⌊q⌋ < b := Int.floor_lt.mpr hb
  unfold roundEven
  split_ifs <;> constructor <;> omega

/-- Value of the significand with its exponent. -/
theorem significand_value {x : ℚ} (hx : 0 < x) :
    ((significand x).1 : ℚ) * 10 ^ ((significand x).2 - 5) =
      roundEven (x / 10 ^ (Int.log 10 x - 5)) * 10 ^ (Int.log 10 x - 5) := by
  obtain ⟨h1, h2⟩ := scaled_bounds hx
  obtain ⟨h3, -⟩ := roundEven_bounds (a := 10 ^ 5) (b := 10 ^ 6) (by exact_mod_cast h1) (by exact_mod_cast h2)
  unfold significand
  dsimp only
  split_ifs with h
  · rw [h]
    push_cast
    rw [show Int.log 10 x + 1 - 5 = (Int.log 10 x - 5) + 1 by ring, zpow_add_one₀ (by norm_num)]
    ring
  · congr 1
    have : ((roundEven (x / 10 ^ (Int.log 10 x - 5))).toNat : ℤ) = roundEven (x / 10 ^ (Int.log 10 x - 5)) :=
      Int.toNat_of_nonneg (by omega)
    exact_mod_cast this

theorem significand_bounds {x : ℚ} (hx : 0 < x) :
    10 ^ 5 ≤ (significand x).1 ∧ (significand x).1 < 10 ^ 6 := by
  obtain ⟨h1, h2⟩ := scaled_bounds hx
  obtain ⟨h3, h4⟩ := roundEven_bounds (a := 10 ^ 5) (b := 10 ^ 6) (by exact_mod_cast h1) (by exact_mod_cast h2)
  unfold significand
  dsimp only
  split_ifs with h
  · norm_num
  · dsimp only
    omega

/-- The number that is printed for a positive number. -/
def rounded (x : ℚ) : ℚ := (significand x).1 * 10 ^ ((significand x).2 - 5)

theorem rounded_pos {x : ℚ} (hx : 0 < x) : 0 < rounded x := by
  have h := (significand_bounds hx).1
  have : (0 : ℚ) < (significand x).1 := by
    have : 0 < (significand x).1 := by omega
    exact_mod_cast this
  exact mul_pos this (ten_zpow_pos _)

theorem rounded_six {x : ℚ} (hx : 0 < x) : Six (rounded x) :=
  ⟨(significand x).1, (significand x).2 - 5, by
    have := (significand_bounds hx).2
    rw [abs_of_nonneg (by positivity)]
    exact_mod_cast this, by rw [rounded]; push_cast; rfl⟩

theorem abs_scaled {u : ℚ} (hu : 0 < u) (x a : ℚ) : |x - a * u| = |x / u - a| * u := by
  rw [show x - a * u = (x / u - a) * u by rw [sub_mul, div_mul_cancel₀ _ hu.ne'], abs_mul, abs_of_pos hu]

theorem rounded_grid {x : ℚ} (hx : 0 < x) (k : ℤ) :
    |x - rounded x| ≤ |x - k * 10 ^ (Int.log 10 x - 5)| := by
  have hp := ten_zpow_pos (Int.log 10 x - 5)
  rw [rounded, significand_value hx]
  have h := roundEven_best (x / 10 ^ (Int.log 10 x - 5)) k
  rw [abs_scaled hp, abs_scaled hp]
  exact mul_le_mul_of_nonneg_right h hp.le

/-- No number with six digits is nearer to a positive number than the printed one. -/
theorem rounded_best {x : ℚ} (hx : 0 < x) {r : ℚ} (hr : Six r) : |x - rounded x| ≤ |x - r| := by
  obtain ⟨k, j, hk, rfl⟩ := hr
  have hlog := Int.zpow_log_le_self (R := ℚ) (b := 10) (by norm_num) hx
  push_cast at hlog
  by_cases hsmall : (k : ℚ) * 10 ^ j < 10 ^ Int.log 10 x
  · -- the power of ten below `x` is nearer
    have h := rounded_grid hx (10 ^ 5)
    have he : ((10 ^ 5 : ℤ) : ℚ) * 10 ^ (Int.log 10 x - 5) = 10 ^ Int.log 10 x := by
      rw [show ((10 ^ 5 : ℤ) : ℚ) = 10 ^ (5 : ℤ) by norm_num, ← zpow_add₀ (by norm_num)]; congr 1; ring
    rw [he, abs_of_nonneg (by linarith : 0 ≤ x - 10 ^ Int.log 10 x)] at h
    refine h.trans (le_trans ?_ (le_abs_self _))
    linarith
  · rw [not_lt] at hsmall
    -- a multiple of the unit
    have hk' : (k : ℚ) < 10 ^ 6 := by
      have : k < 10 ^ 6 := lt_of_le_of_lt (le_abs_self k) hk
      exact_mod_cast this
    have hj : Int.log 10 x - 5 ≤ j := by
      by_contra hcon
      have h1 : j + 6 ≤ Int.log 10 x := by omega
      have h2 : (10 : ℚ) ^ (j + 6) ≤ 10 ^ Int.log 10 x := zpow_le_zpow_right₀ (by norm_num) h1
      have h3 : (10 : ℚ) ^ (j + 6) = 10 ^ 6 * 10 ^ j := by
        rw [zpow_add₀ (by norm_num), mul_comm]; norm_cast
      have h4 : (k : ℚ) * 10 ^ j < 10 ^ 6 * 10 ^ j := mul_lt_mul_of_pos_right hk' (ten_zpow_pos j)
      linarith
    obtain ⟨n, hn⟩ := Int.eq_ofNat_of_zero_le (by omega : 0 ≤ j - (Int.log 10 x - 5))
    have h := rounded_grid hx (k * 10 ^ n)
    have he : ((k * 10 ^ n : ℤ) : ℚ) * 10 ^ (Int.log 10 x - 5) = k * 10 ^ j := by
      have hj' : j = n + (Int.log 10 x - 5) := by omega
      rw [hj', zpow_add₀ (by norm_num)]
      push_cast
      rw [zpow_natCast]
      ring
    rwa [he] at h

theorem rounded_relative {x : ℚ} (hx : 0 < x) : |rounded x - x| ≤ 5 / 10 ^ 6 * x := by
  have hp := ten_zpow_pos (Int.log 10 x - 5)
  have h := roundEven_near (x / 10 ^ (Int.log 10 x - 5))
  obtain ⟨h1, -⟩ := scaled_bounds hx
  rw [rounded, significand_value hx]
  set u := (10 : ℚ) ^ (Int.log 10 x - 5)
  set m : ℚ := (roundEven (x / u) : ℚ)
  have hxu : x = x / u * u := by rw [div_mul_cancel₀ _ hp.ne']
  have h2 : |m * u - x| = |x / u - m| * u := by
    rw [abs_sub_comm, abs_scaled hp]
  rw [h2]
  have h3 : |x / u - m| * u ≤ 1 / 2 * u := mul_le_mul_of_nonneg_right h hp.le
  have h4 : 10 ^ 5 * u ≤ x := by
    conv_rhs => rw [hxu]
    exact mul_le_mul_of_nonneg_right h1 hp.le
  linarith

/-! ## Reading -/

/-- All characters are digits. -/
def Digits (s : List Char) : Prop := ∀ c ∈ s, 48 ≤ c.toNat ∧ c.toNat ≤ 57

/-- Horner's rule. -/
def num (s : List Char) : ℕ := s.foldl (fun a c => 10 * a + (c.toNat - 48)) 0

theorem natVal_digits {s : List Char} (h : Digits s) : natVal s = some (num s) := if_pos h

theorem Digits.append {s t : List Char} (hs : Digits s) (ht : Digits t) : Digits (s ++ t) := by
  intro c hc
  rcases List.mem_append.mp hc with h | h
  · exact hs c h
  · exact ht c h

theorem Digits.sublist {s t : List Char} (ht : Digits t) (h : ∀ c ∈ s, c ∈ t) : Digits s :=
  fun c hc => ht c (h c hc)

theorem digits_zeros (k : ℕ) : Digits (List.replicate k '0') := by
  intro c hc
  rw [(List.mem_replicate.mp hc).2]
  decide

theorem digits_decimal (n : ℕ) : Digits (Text.decimal n) := by
  intro c hc
  obtain ⟨d, hd, rfl⟩ := Text.decimal_digits n c hc
  rw [Text.digitChar_toNat hd]
  omega

theorem Digits.not_mem {s : List Char} (h : Digits s) {c : Char} (hc : c.toNat < 48 ∨ 57 < c.toNat) : c ∉ s := by
  intro hm
  have := h c hm
  omega

theorem num_append (s t : List Char) : num (s ++ t) = num s * 10 ^ t.length + num t := by
  have key : ∀ (t : List Char) (a : ℕ),
      t.foldl (fun a c => 10 * a + (c.toNat - 48)) a = a * 10 ^ t.length + num t := by
    intro t
    induction t with
    | nil => intro a; simp [num]
    | cons c t ih =>
      intro a
      have h2 : num (c :: t) = (10 * 0 + (c.toNat - 48)) * 10 ^ t.length + num t := by
        rw [num, List.foldl_cons, ih]
      rw [List.foldl_cons, ih, h2, List.length_cons, pow_succ]
      ring
  conv_lhs => rw [num, List.foldl_append]
  rw [key]
  rfl

theorem num_zeros (k : ℕ) : num (List.replicate k '0') = 0 := by
  induction k with
  | zero => rfl
  | succ k ih =>
    rw [List.replicate_succ, ← List.singleton_append, num_append, ih]
    simp [num]

theorem num_decimal (n : ℕ) : num (Text.decimal n) = n := by
  induction n using Nat.strong_induction_on with
  | _ n ih =>
    unfold Text.decimal
    split_ifs with h
    · rw [num, List.foldl_cons, List.foldl_nil, Text.digitChar_toNat h]
      omega
    · rw [num_append, ih (n / 10) (by omega), num, List.foldl_cons, List.foldl_nil,
        Text.digitChar_toNat (Nat.mod_lt _ (by norm_num))]
      simp only [List.length_singleton, pow_one]
      omega

theorem split_single (sep : Char) (s : List Char) (h : sep ∉ s) : split sep s = [s] := by
  induction s with
  | nil => rfl
  | cons c s ih =>
    rw [List.mem_cons, not_or] at h
    rw [split, if_neg (fun e => h.1 e.symm), ih h.2]

/-- Removed zeros. -/
theorem rdrop_zeros (fp : List Char) :
    ∃ k, fp = fp.rdropWhile (· = '0') ++ List.replicate k '0' := by
  refine ⟨(fp.rtakeWhile (· = '0')).length, ?_⟩
  have h : fp.rtakeWhile (fun c => decide (c = '0')) =
      List.replicate (fp.rtakeWhile (fun c => decide (c = '0'))).length '0' := by
    rw [List.eq_replicate_iff]
    exact ⟨rfl, fun b hb => by simpa using List.mem_rtakeWhile_imp hb⟩
  conv_lhs => rw [← List.rdropWhile_append_rtakeWhile (p := fun c => decide (c = '0')) (l := fp)]
  rw [← h]

/-- The decimal point and the removal of zeros do not change the value. -/
theorem mantissa_point {ip fp : List Char} (hi : ip ≠ []) (h1 : Digits ip) (h2 : Digits fp) :
    mantissa (point ip fp) = some ((num (ip ++ fp) : ℚ) / 10 ^ fp.length) := by
  obtain ⟨k, hk⟩ := rdrop_zeros fp
  unfold point
  dsimp only
  generalize fp.rdropWhile (fun c => decide (c = '0')) = f at hk
  subst hk
  have hf : Digits f := h2.sublist fun c hc => List.mem_append_left _ hc
  have hdot : '.' ∉ ip := h1.not_mem (Or.inl (by decide))
  have hz : num (ip ++ (f ++ List.replicate k '0')) = num (ip ++ f) * 10 ^ k := by
    rw [← List.append_assoc, num_append, num_zeros, List.length_replicate, add_zero]
  have hlen : (f ++ List.replicate k '0').length = f.length + k := by simp
  rw [hz, hlen]
  have h10 : (10 : ℚ) ^ k ≠ 0 := by positivity
  split_ifs with hfn
  · subst hfn
    rw [mantissa, split_single _ _ hdot]
    dsimp only
    rw [if_neg hi, natVal_digits h1]
    simp [h10]
  · rw [mantissa, ErrorReport.split_append _ _ _ hdot, split_single _ _ (hf.not_mem (Or.inl (by decide)))]
    dsimp only
    rw [if_neg (by simp [hi, hfn]), natVal_digits (h1.append hf)]
    push_cast
    rw [pow_add, mul_div_mul_right _ _ h10]
    rfl

theorem mem_point {ip fp : List Char} {c : Char} (h : c ∈ point ip fp) : c ∈ ip ∨ c = '.' ∨ c ∈ fp := by
  unfold point at h
  dsimp only at h
  split_ifs at h
  · exact Or.inl h
  · rcases List.mem_append.mp h with h | h
    · exact Or.inl h
    · rcases List.mem_cons.mp h with h | h
      · exact Or.inr (Or.inl h)
      · obtain ⟨k, hk⟩ := rdrop_zeros fp
        right; right
        rw [hk]
        exact List.mem_append_left _ h

theorem point_no_e {ip fp : List Char} (h1 : Digits ip) (h2 : Digits fp) : 'e' ∉ point ip fp := by
  intro h
  rcases mem_point h with h | h | h
  · exact h1.not_mem (Or.inr (by decide)) h
  · exact absurd h (by decide)
  · exact h2.not_mem (Or.inr (by decide)) h

theorem decimal_length_six {m : ℕ} (h1 : 10 ^ 5 ≤ m) (h2 : m < 10 ^ 6) : (Text.decimal m).length = 6 := by
  have a := (OutputFiles.decimal_length_le 6 m (by norm_num)).mpr h2
  have b : ¬ (Text.decimal m).length ≤ 5 := fun h =>
    absurd ((OutputFiles.decimal_length_le 5 m (by norm_num)).mp h) (by omega)
  omega

/-- Reading what is printed for a positive number. -/
theorem readPos_general {x : ℚ} (hx : 0 < x) : readPos (general x) = some (rounded x) := by
  obtain ⟨h1, h2⟩ := significand_bounds hx
  unfold general rounded
  dsimp only
  generalize (significand x).1 = m at h1 h2
  generalize (significand x).2 = X
  have hl := decimal_length_six h1 h2
  have hd := digits_decimal m
  have hn := num_decimal m
  have htake : ∀ k, Digits ((Text.decimal m).take k) := fun k => hd.sublist fun c hc => List.mem_of_mem_take hc
  have hdrop : ∀ k, Digits ((Text.decimal m).drop k) := fun k => hd.sublist fun c hc => List.mem_of_mem_drop hc
  have hne : ∀ k, (Text.decimal m).take (k + 1) ≠ [] := by
    intro k h
    have := congrArg List.length h
    rw [List.length_take, hl] at this
    simp at this
  split_ifs with hX h0
  · -- digits before the point
    obtain ⟨n, rfl⟩ := Int.eq_ofNat_of_zero_le h0
    have hn5 : n ≤ 5 := by omega
    rw [readPos, split_single _ _ (point_no_e (htake _) (hdrop _))]
    dsimp only
    rw [mantissa_point (hne _) (htake _) (hdrop _), List.take_append_drop, hn, List.length_drop, hl]
    congr 1
    rw [show ((n : ℕ) : ℤ) - 5 = -((6 - (n + 1) : ℕ) : ℤ) by omega, zpow_neg, zpow_natCast, div_eq_mul_inv]
    rfl
  · -- zeros after the point
    obtain ⟨n, hX'⟩ := Int.eq_ofNat_of_zero_le (by omega : 0 ≤ -X - 1)
    have hz : Digits ['0'] := digits_zeros 1
    have hfp : Digits (List.replicate n '0' ++ Text.decimal m) := (digits_zeros n).append hd
    rw [hX', Int.toNat_natCast, readPos, split_single _ _ (point_no_e hz hfp)]
    dsimp only
    rw [mantissa_point (by simp) hz hfp]
    congr 1
    have e1 : num (['0'] ++ (List.replicate n '0' ++ Text.decimal m)) = m := by
      rw [num_append, num_append, num_zeros, hn]
      simp [num]
    rw [e1, List.length_append, List.length_replicate, hl,
      show X - 5 = -((n + 6 : ℕ) : ℤ) by push_cast; omega, zpow_neg, zpow_natCast, div_eq_mul_inv]
  · -- with exponent
    have hpe := point_no_e (htake 1) (hdrop 1)
    have hm := mantissa_point (hne 0) (htake 1) (hdrop 1)
    rw [List.take_append_drop, hn, List.length_drop, hl] at hm
    have hpad : Digits (Text.padded 2 X.natAbs) := (digits_zeros _).append (digits_decimal _)
    have hpn : num (Text.padded 2 X.natAbs) = X.natAbs := by
      rw [Text.padded, num_append, num_zeros, num_decimal]; simp
    have hpne : Text.padded 2 X.natAbs ≠ [] := by
      unfold Text.padded
      simp [Text.decimal_ne_nil]
    unfold exponent
    rw [readPos, ErrorReport.split_append _ _ _ hpe]
    have hen : 'e' ∉ Text.padded 2 X.natAbs := hpad.not_mem (Or.inr (by decide))
    split_ifs with hneg
    · rw [split_single _ _ (by simp [hen])]
      change (if Text.padded 2 X.natAbs = [] then none else (mantissa _).bind _) = _
      rw [if_neg hpne, hm, natVal_digits hpad, hpn]
      simp only [Option.bind_some, Option.map_some, Option.some.injEq]
      rw [show X - 5 = -((X.natAbs + 5 : ℕ) : ℤ) by omega, zpow_neg, zpow_natCast, pow_add]
      field_simp
    · rw [split_single _ _ (by simp [hen])]
      change (if Text.padded 2 X.natAbs = [] then none else (mantissa _).bind _) = _
      rw [if_neg hpne, hm, natVal_digits hpad, hpn]
      simp only [Option.bind_some, Option.map_some, Option.some.injEq]
      rw [show X - 5 = ((X.natAbs : ℕ) : ℤ) + -((5 : ℕ) : ℤ) by omega, zpow_add₀ (by norm_num), zpow_neg,
        zpow_natCast, zpow_natCast]
      field_simp

theorem point_append (ip fp : List Char) : ∃ r, point ip fp = ip ++ r := by
  unfold point
  dsimp only
  split_ifs
  · exact ⟨[], by simp⟩
  · exact ⟨_, rfl⟩

/-- The first character of a printed positive number is a digit. -/
theorem general_head {x : ℚ} (hx : 0 < x) : ∃ d t, general x = d :: t ∧ 48 ≤ d.toNat ∧ d.toNat ≤ 57 := by
  obtain ⟨h1, h2⟩ := significand_bounds hx
  have hd := digits_decimal (significand x).1
  have hl := decimal_length_six h1 h2
  have key : ∀ ip : List Char, ip ≠ [] → Digits ip → ∀ r, ∃ d t, ip ++ r = d :: t ∧ 48 ≤ d.toNat ∧ d.toNat ≤ 57 := by
    intro ip hne hdig r
    cases ip with
    | nil => exact absurd rfl hne
    | cons d ip => exact ⟨d, ip ++ r, rfl, hdig d List.mem_cons_self⟩
  have htake : ∀ k, Digits ((Text.decimal (significand x).1).take k) :=
    fun k => hd.sublist fun c hc => List.mem_of_mem_take hc
  have hne : ∀ k, (Text.decimal (significand x).1).take (k + 1) ≠ [] := by
    intro k h
    have := congrArg List.length h
    rw [List.length_take, hl] at this
    simp at this
  unfold general
  dsimp only
  split_ifs
  · obtain ⟨r, hr⟩ := point_append ((Text.decimal (significand x).1).take ((significand x).2.toNat + 1))
      ((Text.decimal (significand x).1).drop ((significand x).2.toNat + 1))
    rw [hr]
    exact key _ (hne _) (htake _) r
  · obtain ⟨r, hr⟩ := point_append ['0']
      (List.replicate (-(significand x).2 - 1).toNat '0' ++ Text.decimal (significand x).1)
    rw [hr]
    exact key _ (by simp) (digits_zeros 1) r
  · obtain ⟨r, hr⟩ := point_append ((Text.decimal (significand x).1).take 1) ((Text.decimal (significand x).1).drop 1)
    rw [hr, List.append_assoc]
    exact key _ (hne _) (htake _) _

theorem read_pos {s t : List Char} {d : Char} (h : s = d :: t) (hd : 48 ≤ d.toNat) : read s = readPos s := by
  subst h
  unfold Spec.Decimal.read
  split
  · rename_i h'
    injection h' with h' _
    subst h'
    exact absurd hd (by decide)
  · rfl

/-- The number in the file for a finite number. -/
def shown (x : ℚ) : ℚ := if x = 0 then 0 else if x < 0 then -rounded (-x) else rounded x

theorem read_print (x : ℚ) (z : Bool) : read (print (.fin x z)) = some (shown x) := by
  unfold print shown
  dsimp only
  split_ifs with h0 hz hneg
  · decide +kernel
  · decide +kernel
  · change (readPos (general (-x))).map _ = _
    rw [readPos_general (by linarith)]
    rfl
  · have hx : 0 < x := lt_of_le_of_ne (not_lt.mp hneg) (Ne.symm h0)
    obtain ⟨d, t, h, hd, -⟩ := general_head hx
    rw [read_pos h hd, readPos_general hx]

theorem shown_six (x : ℚ) : Six (shown x) := by
  unfold shown
  split_ifs with h0 hneg
  · exact ⟨0, 0, by norm_num, by norm_num⟩
  · obtain ⟨k, j, hk, he⟩ := rounded_six (by linarith : 0 < -x)
    exact ⟨-k, j, by rwa [abs_neg], by rw [he]; push_cast; ring⟩
  · exact rounded_six (lt_of_le_of_ne (not_lt.mp hneg) (Ne.symm h0))

theorem shown_best (x : ℚ) {r : ℚ} (hr : Six r) : |x - shown x| ≤ |x - r| := by
  unfold shown
  split_ifs with h0 hneg
  · rw [h0, sub_zero, abs_zero]; exact abs_nonneg _
  · obtain ⟨k, j, hk, rfl⟩ := hr
    have h := rounded_best (by linarith : 0 < -x) (r := -(k * 10 ^ j))
      ⟨-k, j, by rwa [abs_neg], by push_cast; ring⟩
    rw [← abs_neg, ← abs_neg (x - _)]
    convert h using 2 <;> ring
  · exact rounded_best (lt_of_le_of_ne (not_lt.mp hneg) (Ne.symm h0)) hr

/-! ## C95 -/

/-- **C95** Every finite number is printed as a decimal number with at most six digits, and no other such number is
nearer to it. -/
theorem C95_nearest (x : ℚ) (z : Bool) :
    ∃ r, read (print (.fin x z)) = some r ∧ Six r ∧ ∀ r', Six r' → |x - r| ≤ |x - r'| :=
  ⟨shown x, read_print x z, shown_six x, fun _ h => shown_best x h⟩

/-- **C95** (relative error) -/
theorem C95_relative (x : ℚ) (z : Bool) :
    ∃ r, read (print (.fin x z)) = some r ∧ |r - x| ≤ 5 / 10 ^ 6 * |x| := by
  refine ⟨shown x, read_print x z, ?_⟩
  unfold shown
  split_ifs with h0 hneg
  · rw [h0]; simp
  · have h := rounded_relative (by linarith : 0 < -x)
    rw [abs_of_neg hneg]
    refine le_trans (le_of_eq ?_) h
    rw [← abs_neg]
    congr 1
    ring
  · have hx : 0 < x := lt_of_le_of_ne (not_lt.mp hneg) (Ne.symm h0)
    rw [abs_of_pos hx]
    exact rounded_relative hx

/-- **C95** (exact numbers) Numbers with at most six digits are printed exactly, and only those. -/
theorem C95_exact_iff (x : ℚ) (z : Bool) : read (print (.fin x z)) = some x ↔ Six x := by
  rw [read_print, Option.some.injEq]
  constructor
  · intro h
    rw [← h]
    exact shown_six x
  · intro h
    have := shown_best x h
    rw [sub_self, abs_zero] at this
    linarith [abs_eq_zero.mp (le_antisymm this (abs_nonneg _))]

/-- **C95** (sign) The sign is kept; in particular an error is printed as zero only if it is zero. -/
theorem C95_sign (x : ℚ) (z : Bool) :
    ∃ r, read (print (.fin x z)) = some r ∧ (r = 0 ↔ x = 0) ∧ (0 < r ↔ 0 < x) ∧ (r < 0 ↔ x < 0) := by
  refine ⟨shown x, read_print x z, ?_⟩
  unfold shown
  split_ifs with h0 hneg
  · rw [h0]; simp
  · have h := rounded_pos (by linarith : 0 < -x)
    refine ⟨⟨fun a => by linarith, fun a => absurd a h0⟩, ⟨fun a => by linarith, fun a => by linarith⟩,
      ⟨fun _ => hneg, fun _ => by linarith⟩⟩
  · have hx : 0 < x := lt_of_le_of_ne (not_lt.mp hneg) (Ne.symm h0)
    have h := rounded_pos hx
    refine ⟨⟨fun a => by linarith, fun a => absurd a h0⟩, ⟨fun _ => hx, fun _ => h⟩,
      ⟨fun a => by linarith, fun a => absurd a hneg⟩⟩

/-- **C95** (order) A larger error is not printed as a smaller number. -/
theorem C95_monotone (x y : ℚ) (hxy : x ≤ y) (z w : Bool) :
    ∃ r s, read (print (.fin x z)) = some r ∧ read (print (.fin y w)) = some s ∧ r ≤ s := by
  refine ⟨shown x, shown y, read_print x z, read_print y w, ?_⟩
  rcases eq_or_lt_of_le hxy with rfl | hlt
  · exact le_rfl
  by_contra hcon
  rw [not_le] at hcon
  have h1 := shown_best x (shown_six y)
  have h2 := shown_best y (shown_six x)
  have e1 : (x - shown x) ^ 2 ≤ (x - shown y) ^ 2 := sq_le_sq.mpr h1
  have e2 : (y - shown y) ^ 2 ≤ (y - shown x) ^ 2 := sq_le_sq.mpr h2
  nlinarith [mul_pos (sub_pos.mpr hlt) (sub_pos.mpr hcon)]

theorem mem_general {x : ℚ} {c : Char} (h : c ∈ general x) :
    (48 ≤ c.toNat ∧ c.toNat ≤ 57) ∨ c = '.' ∨ c = 'e' ∨ c = '+' ∨ c = '-' := by
  have hd := digits_decimal (significand x).1
  have hp : ∀ ip fp : List Char, Digits ip → Digits fp → c ∈ point ip fp →
      (48 ≤ c.toNat ∧ c.toNat ≤ 57) ∨ c = '.' ∨ c = 'e' ∨ c = '+' ∨ c = '-' := by
    intro ip fp h1 h2 hc
    rcases mem_point hc with h | h | h
    · exact Or.inl (h1 c h)
    · exact Or.inr (Or.inl h)
    · exact Or.inl (h2 c h)
  have htake : ∀ k, Digits ((Text.decimal (significand x).1).take k) :=
    fun k => hd.sublist fun c hc => List.mem_of_mem_take hc
  have hdrop : ∀ k, Digits ((Text.decimal (significand x).1).drop k) :=
    fun k => hd.sublist fun c hc => List.mem_of_mem_drop hc
  unfold general at h
  dsimp only at h
  split_ifs at h
  · exact hp _ _ (htake _) (hdrop _) h
  · exact hp _ _ (digits_zeros 1) ((digits_zeros _).append hd) h
  · rcases List.mem_append.mp h with h | h
    · exact hp _ _ (htake _) (hdrop _) h
    · unfold exponent at h
      rcases List.mem_cons.mp h with h | h
      · tauto
      · rcases List.mem_cons.mp h with h | h
        · split_ifs at h <;> tauto
        · exact Or.inl ((digits_zeros _).append (digits_decimal _) c h)

/-- Printed numbers contain neither comma nor newline. -/
theorem print_plain (v : Value) : ',' ∉ print v ∧ '\n' ∉ print v := by
  cases v with
  | fin x z =>
    have key : ∀ (y : ℚ) (c : Char), c.toNat < 48 → c ≠ '.' → c ≠ '+' → c ≠ '-' → c ∉ general y := by
      intro y c h1 h2 h3 h4 h
      rcases mem_general h with h | h | h | h | h
      · omega
      · exact h2 h
      · rw [h] at h1; exact absurd h1 (by decide)
      · exact h3 h
      · exact h4 h
    have hc := fun y => key y ',' (by decide) (by decide) (by decide) (by decide)
    have hn := fun y => key y '\n' (by decide) (by decide) (by decide) (by decide)
    unfold print
    dsimp only
    split_ifs
    · decide
    · decide
    · simp [hc, hn]
    · exact ⟨hc x, hn x⟩
  | inf neg => cases neg <;> decide
  | nan neg => cases neg <;> decide

/-- **C95** (errors.csv) What a reader of errors.csv finds: the keys of the returned map in order, and for every
finite error the nearest number with six digits. -/
theorem C95_file (N : ErrorReport.Norms Value) (e m f c matchOk projectOk : Bool)
    (csv : List (ErrorReport.Key × Value)) (h : ErrorReport.print N e m f c matchOk projectOk = .ok csv) :
    ∃ rows, Spec.Csv.read (ErrorReport.csvText print csv) = some rows ∧
      List.Forall₂ (fun (row : List Char × List Char) (kv : ErrorReport.Key × Value) => row.1 = kv.1 ∧
        ∀ x z, kv.2 = .fin x z →
          ∃ r, Spec.Decimal.read row.2 = some r ∧ Six r ∧ (∀ r', Six r' → |x - r| ≤ |x - r'|) ∧
            |r - x| ≤ 5 / 10 ^ 6 * |x|) rows csv := by
  refine ⟨_, ErrorReport.C30_report_roundtrip N print print_plain e m f c matchOk projectOk csv h, ?_⟩
  rw [List.forall₂_map_left_iff]
  refine List.forall₂_same.mpr fun kv _ => ⟨rfl, fun x z hv => ?_⟩
  obtain ⟨r, hr, h6, hb⟩ := C95_nearest x z
  obtain ⟨r', hr', hrel⟩ := C95_relative x z
  rw [hv]
  rw [hr] at hr'
  injection hr' with hr'
  exact ⟨r, hr, h6, hb, hr' ▸ hrel⟩

/-- `C95_file` for a run with an exact solution and nothing but the coarse reference solution: contents of the file. -/
example : (ErrorReport.print ⟨fun _ => .fin (1 / 3) false, fun _ => .nan true, fun _ => .inf false⟩
      true false false true true true).bind (fun csv => .ok (ErrorReport.csvText print csv)) =
    .ok "coarse_fem_exact_H1s,coarse_fem_exact_L2,\n-nan,0.333333,\n".toList := by decide +kernel

/-- **C95** (failed computations) Infinite and undefined values are not printed as numbers. -/
theorem C95_not_a_number (neg : Bool) :
    Spec.Decimal.read (print (.inf neg)) = none ∧ Spec.Decimal.read (print (.nan neg)) = none := by
  cases neg <;> decide +kernel

/-- **C95** (limits) The file does not determine the errors: `1 + 2^-30` and `1` are both doubles and are both
printed as `1`. -/
theorem C95_not_injective :
    print (.fin (1 + 1 / 2 ^ 30) false) = ['1'] ∧ print (.fin 1 false) = ['1'] := by
  constructor <;> decide +kernel

/-- The three styles, rounding up to a further digit, half to even. -/
example : print (.fin (1 / 3) false) = "0.333333".toList ∧
    print (.fin (123456789 / 1000) false) = "123457".toList ∧
    print (.fin (1 / 4) true) = "0.25".toList ∧
    print (.fin (-1 / 30000000) false) = "-3.33333e-08".toList ∧
    print (.fin (9999995 / 10) false) = "1e+06".toList ∧
    print (.fin (1000005 / 10) false) = "100000".toList ∧
    print (.fin (9999999 / 10 ^ 11) false) = "0.0001".toList := by
  refine ⟨?_, ?_, ?_, ?_, ?_, ?_, ?_⟩ <;> decide +kernel

end Verif.Printing
