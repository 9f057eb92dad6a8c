import Verif.Model.Text
import Mathlib.Tactic.Linarith
import Mathlib.Tactic.IntervalCases

namespace Verif.Text

theorem digitChar_toNat {d : ℕ} (h : d < 10) : (digitChar d).toNat = 48 + d := by
  interval_cases d <;> rfl

theorem charDigit_digitChar {d : ℕ} (h : d < 10) : charDigit (digitChar d) = some d := by
  unfold charDigit
  rw [digitChar_toNat h, if_pos (by omega)]
  congr 1; omega

theorem digitChar_inj {d e : ℕ} (hd : d < 10) (he : e < 10) (h : digitChar d = digitChar e) : d = e := by
  have := congrArg charDigit h
  rw [charDigit_digitChar hd, charDigit_digitChar he] at this
  exact Option.some.inj this

theorem decimal_ne_nil (n : ℕ) : decimal n ≠ [] := by
  unfold decimal
  split_ifs <;> simp

/-- All characters of a decimal number are digits. -/
theorem decimal_digits (n : ℕ) : ∀ c ∈ decimal n, ∃ d < 10, c = digitChar d := by
  induction n using Nat.strong_induction_on with
  | _ n ih =>
    intro c hc
    unfold decimal at hc
    split_ifs at hc with h
    · simp only [List.mem_singleton] at hc
      exact ⟨n, h, hc⟩
    · simp only [List.mem_append, List.mem_singleton] at hc
      rcases hc with hc | hc
      · exact ih (n / 10) (by omega) c hc
      · exact ⟨n % 10, Nat.mod_lt _ (by norm_num), hc⟩

theorem digit_ne {d : ℕ} (h : d < 10) {c : Char} (hc : c.toNat < 48 ∨ 57 < c.toNat) : digitChar d ≠ c := by
  intro he
  have := digitChar_toNat h
  rw [he] at this
  omega

theorem decimal_not_mem (n : ℕ) {c : Char} (hc : c.toNat < 48 ∨ 57 < c.toNat) : c ∉ decimal n := by
  intro h
  obtain ⟨d, hd, rfl⟩ := decimal_digits n c h
  exact digit_ne hd hc rfl

/-- The fold of `parseNat`. -/
def parseFold (s : List Char) (acc : Option ℕ) : Option ℕ :=
  s.foldl (fun acc c => acc.bind fun a => (charDigit c).map fun d => 10 * a + d) acc

theorem parseFold_append (s t : List Char) (acc : Option ℕ) :
    parseFold (s ++ t) acc = parseFold t (parseFold s acc) := by
  unfold parseFold; rw [List.foldl_append]

theorem parseFold_decimal (n : ℕ) : parseFold (decimal n) (some 0) = some n := by
  induction n using Nat.strong_induction_on with
  | _ n ih =>
    unfold decimal
    split_ifs with h
    · simp [parseFold, charDigit_digitChar h]
    · rw [parseFold_append, ih (n / 10) (by omega)]
      have hm : n % 10 < 10 := Nat.mod_lt _ (by norm_num)
      simp only [parseFold, List.foldl_cons, List.foldl_nil, Option.bind_some,
        charDigit_digitChar hm, Option.map_some, Option.some.injEq]
      omega

theorem parseNat_eq_fold {s : List Char} (h : s ≠ []) : parseNat s = parseFold s (some 0) := by
  cases s with
  | nil => exact absurd rfl h
  | cons c cs => rfl

/-- Round trip of number formatting. -/
theorem parseNat_decimal (n : ℕ) : parseNat (decimal n) = some n := by
  rw [parseNat_eq_fold (decimal_ne_nil n), parseFold_decimal]

theorem decimal_inj {m n : ℕ} (h : decimal m = decimal n) : m = n := by
  have := congrArg parseNat h
  rw [parseNat_decimal, parseNat_decimal] at this
  exact Option.some.inj this

theorem parseFold_zeros (k : ℕ) : parseFold (List.replicate k '0') (some 0) = some 0 := by
  induction k with
  | zero => rfl
  | succ k ih =>
    rw [List.replicate_succ]
    show parseFold (List.replicate k '0') _ = _
    have : charDigit '0' = some 0 := by decide
    simp only [Option.bind_some, this, Option.map_some]
    exact ih

/-- Round trip of padded number formatting. -/
theorem parseNat_padded (w n : ℕ) : parseNat (padded w n) = some n := by
  have hne : padded w n ≠ [] := by
    unfold padded
    intro h
    exact decimal_ne_nil n (List.append_eq_nil_iff.mp h).2
  rw [parseNat_eq_fold hne]
  unfold padded
  rw [parseFold_append, parseFold_zeros, parseFold_decimal]

theorem padded_inj {w m n : ℕ} (h : padded w m = padded w n) : m = n := by
  have := congrArg parseNat h
  rw [parseNat_padded, parseNat_padded] at this
  exact Option.some.inj this

theorem padded_not_mem (w n : ℕ) {c : Char} (hc : c.toNat < 48 ∨ 57 < c.toNat) : c ∉ padded w n := by
  unfold padded
  rw [List.mem_append]
  rintro (h | h)
  · have := List.eq_of_mem_replicate h
    subst this
    have : ('0' : Char).toNat = 48 := rfl
    omega
  · exact decimal_not_mem n hc h

/-! ### tokenize -/

theorem tokenize_ne_nil (sep : Char) (s : List Char) : tokenize sep s ≠ [] := by
  cases s with
  | nil => simp [tokenize]
  | cons c cs =>
    unfold tokenize
    split_ifs
    · simp
    · split <;> simp

theorem tokenize_no_sep {sep : Char} {s : List Char} (h : sep ∉ s) : tokenize sep s = [s] := by
  induction s with
  | nil => rfl
  | cons c cs ih =>
    simp only [List.mem_cons, not_or] at h
    unfold tokenize
    rw [if_neg (fun he => h.1 he.symm), ih h.2]

theorem tokenize_cons_sep (sep : Char) (s : List Char) :
    tokenize sep (sep :: s) = [] :: tokenize sep s := by
  simp [tokenize]

/-- The last token of `pre ++ sep :: s` is `s` if `s` has no separator. -/
theorem tokenize_getLast {sep : Char} (pre : List Char) {s : List Char} (h : sep ∉ s) :
    (tokenize sep (pre ++ sep :: s)).getLast? = some s := by
  induction pre with
  | nil =>
    rw [List.nil_append, tokenize_cons_sep, tokenize_no_sep h]; rfl
  | cons c cs ih =>
    rw [List.cons_append]
    have hne := tokenize_ne_nil sep (cs ++ sep :: s)
    unfold tokenize
    split_ifs
    · rw [List.getLast?_cons_of_ne_nil hne]; exact ih
    · cases ht : tokenize sep (cs ++ sep :: s) with
      | nil => exact absurd ht hne
      | cons t ts =>
        rw [ht] at ih
        cases ts with
        | nil =>
          -- impossible: there is a separator, hence at least two tokens
          exfalso
          have : ∀ l : List Char, (tokenize sep (l ++ sep :: s)).length ≥ 2 := by
            intro l
            induction l with
            | nil => rw [List.nil_append, tokenize_cons_sep, tokenize_no_sep h]; simp
            | cons x xs ihx =>
              rw [List.cons_append]
              unfold tokenize
              split_ifs
              · simp only [List.length_cons]; omega
              · cases hx : tokenize sep (xs ++ sep :: s) with
                | nil => rw [hx] at ihx; simp at ihx
                | cons a b => rw [hx] at ihx; simpa using ihx
          have h2 := this cs
          rw [ht] at h2
          simp at h2
        | cons t' ts' =>
          simpa [List.getLast?_cons_cons] using ih

end Verif.Text
