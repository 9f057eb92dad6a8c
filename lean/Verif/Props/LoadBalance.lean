import Verif.Model.LoadBalance
import Verif.Props.RandomGrid
import Mathlib.Data.List.Lex
import Mathlib.Data.Nat.Prime.Basic
import Mathlib.Algebra.Order.BigOperators.Group.List
import Mathlib.Tactic.Ring

/-!
# C68: process grids of the random field and of the grids
-/

namespace Verif.LoadBalance
open Verif.RandomField Verif.Spec

/-! ### The first cheapest candidate -/

theorem mem_divisors {P k : ℕ} : k ∈ divisors P ↔ 0 < k ∧ k ≤ P ∧ k ∣ P := by
  unfold divisors
  rw [List.mem_filter, List.mem_range'_1, beq_iff_eq, Nat.dvd_iff_mod_eq_zero]
  omega

/-- Candidates: positive numbers of processes per direction with product `P`. -/
theorem mem_candidates (d P : ℕ) (hP : 0 < P) (t : List ℕ) :
    t ∈ candidates (d + 1) P ↔ t.length = d + 1 ∧ t.prod = P := by
  induction d generalizing P t with
  | zero =>
    show t ∈ [[P]] ↔ _
    rw [List.mem_singleton]
    constructor
    · rintro rfl; simp
    · rintro ⟨h1, h2⟩
      match t, h1 with
      | [a], _ => simpa using h2
  | succ d ih =>
    show t ∈ (divisors P).flatMap _ ↔ _
    rw [List.mem_flatMap]
    constructor
    · rintro ⟨k, hk, ht⟩
      rw [mem_divisors] at hk
      rw [List.mem_map] at ht
      obtain ⟨s, hs, rfl⟩ := ht
      have hPk : 0 < P / k := Nat.div_pos hk.2.1 hk.1
      rw [ih _ hPk] at hs
      refine ⟨by simp [hs.1], ?_⟩
      rw [List.prod_append, hs.2, List.prod_singleton]
      exact Nat.div_mul_cancel hk.2.2
    · rintro ⟨h1, h2⟩
      have hne : t ≠ [] := by rintro rfl; simp at h1
      have e := List.dropLast_append_getLast hne
      refine ⟨t.getLast hne, ?_, ?_⟩
      · have hd : t.getLast hne ∣ P := by rw [← h2]; exact List.dvd_prod (List.getLast_mem hne)
        rw [mem_divisors]
        exact ⟨Nat.pos_of_dvd_of_pos hd hP, Nat.le_of_dvd hP hd, hd⟩
      · rw [List.mem_map]
        have hd : t.getLast hne ∣ P := by rw [← h2]; exact List.dvd_prod (List.getLast_mem hne)
        have hpos := Nat.pos_of_dvd_of_pos hd hP
        refine ⟨t.dropLast, ?_, e⟩
        rw [ih _ (Nat.div_pos (Nat.le_of_dvd hP hd) hpos)]
        refine ⟨by rw [List.length_dropLast, h1]; rfl, ?_⟩
        have : t.dropLast.prod * t.getLast hne = P := by
          rw [← h2]; conv_rhs => rw [← e, List.prod_append, List.prod_singleton]
        rw [← this, Nat.mul_div_cancel _ hpos]

/-- Order in which candidates are tried: lexicographic from the last direction. -/
def Before (s t : List ℕ) : Prop := List.Lex (· < ·) s.reverse t.reverse

theorem candidates_sorted (d P : ℕ) : (candidates d P).Pairwise Before := by
  match d with
  | 0 => exact List.Pairwise.nil
  | d + 1 =>
    induction d generalizing P with
    | zero => exact List.pairwise_singleton _ _
    | succ d ih =>
      show ((divisors P).flatMap _).Pairwise Before
      rw [List.pairwise_flatMap]
      constructor
      · intro k _
        rw [List.pairwise_map]
        refine (ih (P / k)).imp ?_
        intro a b h
        unfold Before
        rw [List.reverse_append, List.reverse_append]
        exact List.Lex.cons h
      · have : (divisors P).Pairwise (· < ·) := List.Pairwise.filter _ List.pairwise_lt_range'
        refine this.imp ?_
        intro k k' hk x hx y hy
        rw [List.mem_map] at hx hy
        obtain ⟨a, -, rfl⟩ := hx
        obtain ⟨b, -, rfl⟩ := hy
        unfold Before
        rw [List.reverse_append, List.reverse_append]
        exact List.Lex.rel hk

theorem before_asymm {s t : List ℕ} (h : Before s t) : ¬ Before t s := by
  unfold Before at *
  intro h'
  exact List.lt_asymm (show s.reverse < t.reverse from h) h'

/-- The fold returns the first cheapest candidate. -/
theorem foldl_step (size : List ℕ) (l : List (List ℕ)) (b : List ℕ) (hs : (b :: l).Pairwise Before) :
    ∃ r, l.foldl (step size) (some b) = some r ∧ r ∈ b :: l ∧
      ∀ c ∈ b :: l, cost size r < cost size c ∨ (cost size r = cost size c ∧ (c = r ∨ Before r c)) := by
  induction l generalizing b with
  | nil =>
    refine ⟨b, rfl, by simp, fun c hc => ?_⟩
    rw [List.mem_singleton] at hc
    exact .inr ⟨by rw [hc], .inl hc⟩
  | cons t l ih =>
    rw [List.foldl_cons]
    obtain ⟨hb, hrest⟩ := List.pairwise_cons.mp hs
    by_cases h : cost size t < cost size b
    · have e : step size (some b) t = some t := by simp [step, h]
      rw [e]
      obtain ⟨r, h1, h2, h3⟩ := ih t hrest
      refine ⟨r, h1, List.mem_cons_of_mem _ h2, fun c hc => ?_⟩
      rcases List.mem_cons.mp hc with rfl | hc
      · left
        rcases h3 t (by simp) with h4 | ⟨h4, -⟩
        · exact h4.trans h
        · rw [h4]; exact h
      · exact h3 c hc
    · have e : step size (some b) t = some b := by simp [step, h]
      rw [e]
      obtain ⟨r, h1, h2, h3⟩ := ih b (List.pairwise_cons.mpr
        ⟨fun c hc => hb c (List.mem_cons_of_mem _ hc), (List.pairwise_cons.mp hrest).2⟩)
      refine ⟨r, h1, ?_, fun c hc => ?_⟩
      · rcases List.mem_cons.mp h2 with rfl | h2
        · simp
        · exact List.mem_cons_of_mem _ (List.mem_cons_of_mem _ h2)
      · rcases List.mem_cons.mp hc with rfl | hc
        · exact h3 c (by simp)
        · rcases List.mem_cons.mp hc with rfl | hc
          · rcases h3 b (by simp) with h4 | ⟨h4, h5⟩
            · exact .inl (lt_of_lt_of_le h4 (not_lt.mp h))
            · rcases lt_or_eq_of_le (not_lt.mp h) with h6 | h6
              · exact .inl (h4 ▸ h6)
              · refine .inr ⟨h4.trans h6, .inr ?_⟩
                rcases h5 with rfl | h5
                · exact hb c (by simp)
                · exact List.lt_trans (show r.reverse < b.reverse from h5) (hb c (by simp))
          · exact h3 c (List.mem_cons_of_mem _ hc)

/-- A candidate which is cheapest, and before all others of the same cost, is chosen. -/
theorem balance_eq (size : List ℕ) (P : ℕ) (t : List ℕ) (ht : t ∈ candidates size.length P)
    (h : ∀ c ∈ candidates size.length P, cost size t < cost size c ∨ (cost size t = cost size c ∧ (c = t ∨ Before t c))) :
    balance size P = some t := by
  unfold balance
  have hs := candidates_sorted size.length P
  cases hc : candidates size.length P with
  | nil => rw [hc] at ht; simp at ht
  | cons b l =>
    rw [hc] at ht h hs
    rw [List.foldl_cons]
    show l.foldl (step size) (some b) = _
    obtain ⟨r, h1, h2, h3⟩ := foldl_step size l b hs
    rw [h1]
    rcases h r h2 with h4 | ⟨h4, h5⟩
    · rcases h3 t ht with h6 | ⟨h6, -⟩
      · exact absurd h6 (not_lt.mpr h4.le)
      · rw [h6] at h4; exact absurd h4 (lt_irrefl _)
    · rcases h5 with rfl | h5
      · rfl
      · rcases h3 t ht with h6 | ⟨-, h6⟩
        · rw [h4] at h6; exact absurd h6 (lt_irrefl _)
        · rcases h6 with rfl | h6
          · rfl
          · exact absurd h6 (before_asymm h5)

/-! ### Costs -/

theorem foldl_max_le (l : List ℚ) (a b : ℚ) : l.foldl max a ≤ b ↔ a ≤ b ∧ ∀ x ∈ l, x ≤ b := by
  induction l generalizing a with
  | nil => simp
  | cons x l ih =>
    rw [List.foldl_cons, ih, max_le_iff]
    simp only [List.mem_cons, forall_eq_or_imp]
    tauto

/-- Cost of a process grid on a cube with `M` cells per direction. -/
theorem cost_cube_le (M d : ℕ) (t : List ℕ) (ht : t.length = d) (b : ℚ) :
    cost (List.replicate d M) t ≤ b ↔ -1 ≤ b ∧ ∀ k ∈ t, dirCost M k ≤ b := by
  unfold cost
  rw [foldl_max_le]
  have : List.zipWith dirCost (List.replicate d M) t = t.map (dirCost M) := by
    subst ht
    induction t with
    | nil => rfl
    | cons k t ih => rw [List.length_cons, List.replicate_succ, List.zipWith_cons_cons, ih, List.map_cons]
  rw [this]
  simp

theorem dirCost_ge (M k : ℕ) : (M : ℚ) / k ≤ dirCost M k := by
  unfold dirCost
  have : (0 : ℚ) ≤ (M : ℚ) / k := by positivity
  simp only
  split
  · exact le_refl _
  · linarith

theorem dirCost_dvd {M k : ℕ} (h : k ∣ M) : dirCost M k = (M : ℚ) / k := by
  unfold dirCost
  rw [if_pos (Nat.mod_eq_zero_of_dvd h)]

/-! ### Powers of two on a cube -/

theorem pow_factors (k : ℕ) (t : List ℕ) (h : t.prod = 2 ^ k) : ∀ x ∈ t, ∃ j, x = 2 ^ j := by
  intro x hx
  have : x ∣ 2 ^ k := by rw [← h]; exact List.dvd_prod hx
  obtain ⟨j, -, hj⟩ := (Nat.dvd_prime_pow Nat.prime_two).mp this
  exact ⟨j, hj⟩

/-- Some direction gets at most `2^(k/d)` processes. -/
theorem exists_small (k d : ℕ) (hd : 0 < d) (t : List ℕ) (hl : t.length = d) (h : t.prod = 2 ^ k) : ∃ x ∈ t, x ≤ 2 ^ (k / d) := by
  by_contra hcon
  push Not at hcon
  have hge : ∀ x ∈ t, 2 ^ (k / d + 1) ≤ x := by
    intro x hx
    obtain ⟨j, rfl⟩ := pow_factors k t h x hx
    have := (Nat.pow_lt_pow_iff_right (by norm_num : 1 < 2)).mp (hcon _ hx)
    exact Nat.pow_le_pow_right (by norm_num) this
  have h1 : (2 ^ (k / d + 1)) ^ d ≤ t.prod := by
    have := List.pow_card_le_prod t _ hge
    rwa [hl] at this
  rw [h, ← pow_mul] at h1
  have h2 := (Nat.pow_le_pow_iff_right (by norm_num : 1 < 2)).mp h1
  have h3 := Nat.lt_mul_div_succ k hd
  rw [mul_comm] at h3
  omega

/-- The process grid chosen for `2^k` processes: `2^(k/d)` in every direction except the first, which gets the rest. -/
def yaspGrid (d k : ℕ) : List ℕ := 2 ^ (k - (d - 1) * (k / d)) :: List.replicate (d - 1) (2 ^ (k / d))

theorem mul_div_le' (d k : ℕ) : (d - 1) * (k / d) ≤ k :=
  le_trans (Nat.mul_le_mul_right _ (Nat.sub_le d 1)) (Nat.mul_div_le k d)

theorem yaspGrid_prod (d k : ℕ) : (yaspGrid d k).prod = 2 ^ k := by
  unfold yaspGrid
  rw [List.prod_cons, List.prod_replicate, ← pow_mul, mul_comm (k / d), ← pow_add]
  congr 1
  have := mul_div_le' d k
  omega

/-- Lists with entries at least `a`: `replicate n a` is first in lexicographic order. -/
theorem lex_min (a : ℕ) (x : ℕ) (s : List ℕ) (y : ℕ) (hs : ∀ z ∈ s, a ≤ z) (hprod : s.prod * y = a ^ s.length * x) (ha : 0 < a) :
    (s ++ [y] = List.replicate s.length a ++ [x]) ∨ List.Lex (· < ·) (List.replicate s.length a ++ [x]) (s ++ [y]) := by
  induction s with
  | nil =>
    left
    simp at hprod
    simp [hprod]
  | cons z s ih =>
    rw [List.length_cons, List.replicate_succ]
    rcases lt_or_eq_of_le (hs z (by simp)) with h | h
    · right; exact List.Lex.rel h
    · subst h
      rw [List.prod_cons, List.length_cons, pow_succ] at hprod
      have hp : s.prod * y = a ^ s.length * x := by
        apply Nat.eq_of_mul_eq_mul_left ha
        rw [← mul_assoc, hprod]; ring
      rcases ih (fun z hz => hs z (List.mem_cons_of_mem _ hz)) hp with h | h
      · left
        show a :: (s ++ [y]) = a :: (_ ++ [x])
        rw [h]
      · right; exact List.Lex.cons h

/-- **C68** (the grid's process grid) For `2^k` processes on a cube with a divisible number of cells, YaspGrid uses `2^(k/d)`
processes in every direction except the first, which gets all remaining factors. -/
theorem C68_yasp_process_grid (d k M : ℕ) (hd : 0 < d) (hM : 0 < M) (hdvd : 2 ^ (k / d + 1) ∣ M) :
    balance (List.replicate d M) (2 ^ k) = some (yaspGrid d k) := by
  obtain ⟨e, rfl⟩ : ∃ e, d = e + 1 := ⟨d - 1, by omega⟩
  have hpos : 0 < 2 ^ k := by positivity
  have hlen : (yaspGrid (e + 1) k).length = e + 1 := by simp [yaspGrid]
  have hmem : ∀ t, t ∈ candidates (List.replicate (e + 1) M).length (2 ^ k) ↔ t.length = e + 1 ∧ t.prod = 2 ^ k := by
    intro t; rw [List.length_replicate]; exact mem_candidates e _ hpos t
  set a := k / (e + 1) with ha
  have hM' : (0 : ℚ) < M := by exact_mod_cast hM
  have hda : 2 ^ a ∣ M := dvd_trans (pow_dvd_pow 2 (Nat.le_succ a)) hdvd
  -- the exponent of the first direction
  have hk : (e + 1) * a ≤ k := Nat.mul_div_le k (e + 1)
  have hsplit : (e + 1) * a = e * a + a := by ring
  have hea : e * a ≤ k := le_trans (by rw [hsplit]; exact Nat.le_add_right _ _) hk
  set f := k - e * a with hf
  have hfa : a ≤ f := by omega
  -- cost of the chosen grid
  have hcost : cost (List.replicate (e + 1) M) (yaspGrid (e + 1) k) ≤ (M : ℚ) / (2 ^ a : ℕ) := by
    rw [cost_cube_le M (e + 1) _ hlen]
    have h0 : (0 : ℚ) ≤ (M : ℚ) / (2 ^ a : ℕ) := by positivity
    refine ⟨by linarith, fun x hx => ?_⟩
    rcases List.mem_cons.mp hx with rfl | hx
    · show dirCost M (2 ^ f) ≤ _
      rcases Nat.lt_or_ge f (a + 2) with h | h
      · have : 2 ^ f ∣ M := dvd_trans (pow_dvd_pow 2 (by omega)) hdvd
        rw [dirCost_dvd this]
        apply div_le_div_of_nonneg_left hM'.le (by positivity)
        exact_mod_cast Nat.pow_le_pow_right (by norm_num) hfa
      · have h4 : ((2 ^ f : ℕ) : ℚ) ≥ 4 * (2 ^ a : ℕ) := by
          have : 2 ^ (a + 2) ≤ 2 ^ f := Nat.pow_le_pow_right (by norm_num) h
          rw [pow_add] at this
          have h' : 4 * 2 ^ a ≤ 2 ^ f := by omega
          exact_mod_cast h'
        have hp : (0 : ℚ) < (2 ^ a : ℕ) := by positivity
        have h5 : (M : ℚ) / (2 ^ f : ℕ) ≤ (M : ℚ) / (4 * (2 ^ a : ℕ)) :=
          div_le_div_of_nonneg_left hM'.le (by positivity) h4
        have h6 : (M : ℚ) / (4 * (2 ^ a : ℕ)) * 3 ≤ (M : ℚ) / (2 ^ a : ℕ) := by
          rw [div_mul_eq_mul_div, div_le_div_iff₀ (by positivity) hp]
          nlinarith [mul_pos hM' hp]
        have h7 : (M : ℚ) / (4 * (2 ^ a : ℕ)) ≤ (M : ℚ) / (4 * (2 ^ a : ℕ)) * 3 := by
          have : (0 : ℚ) ≤ (M : ℚ) / (4 * (2 ^ a : ℕ)) := by positivity
          linarith
        unfold dirCost
        simp only
        split
        · linarith
        · linarith
    · rw [List.eq_of_mem_replicate hx, ← ha, dirCost_dvd hda]
  apply balance_eq
  · rw [hmem]; exact ⟨hlen, yaspGrid_prod _ _⟩
  · intro c hc
    rw [hmem] at hc
    obtain ⟨hcl, hcp⟩ := hc
    obtain ⟨x, hx, hxa⟩ := exists_small k (e + 1) (by omega) c hcl hcp
    have hxpos : 0 < x := by
      obtain ⟨j, rfl⟩ := pow_factors k c hcp x hx
      positivity
    have hge : (M : ℚ) / (2 ^ a : ℕ) ≤ cost (List.replicate (e + 1) M) c := by
      have h1 := ((cost_cube_le M (e + 1) c hcl (cost (List.replicate (e + 1) M) c)).mp (le_refl _)).2 x hx
      refine le_trans ?_ h1
      refine le_trans ?_ (dirCost_ge M x)
      apply div_le_div_of_nonneg_left hM'.le (by exact_mod_cast hxpos)
      exact_mod_cast hxa
    rcases lt_or_eq_of_le (hcost.trans hge) with h | h
    · exact .inl h
    · right
      refine ⟨h, ?_⟩
      have hcM : cost (List.replicate (e + 1) M) c ≤ (M : ℚ) / (2 ^ a : ℕ) := by rw [← h]; exact hcost
      have hall : ∀ z ∈ c, 2 ^ a ≤ z := by
        intro z hz
        have h1 := ((cost_cube_le M (e + 1) c hcl _).mp hcM).2 z hz
        have h2 := (dirCost_ge M z).trans h1
        have hzpos : 0 < z := by
          obtain ⟨j, rfl⟩ := pow_factors k c hcp z hz
          positivity
        have hzq : (0 : ℚ) < z := by exact_mod_cast hzpos
        rw [div_le_div_iff₀ hzq (by positivity)] at h2
        have h3 := le_of_mul_le_mul_left h2 hM'
        exact_mod_cast h3
      match c, hcl with
      | y :: s, hcl =>
        have hsl : s.length = e := by simpa using hcl
        have hrev : (s.reverse).length = e := by rw [List.length_reverse, hsl]
        have hp : s.reverse.prod * y = (2 ^ a) ^ s.reverse.length * 2 ^ f := by
          rw [List.prod_reverse, hrev, mul_comm, ← List.prod_cons, hcp, ← pow_mul, ← pow_add]
          congr 1
          rw [mul_comm a e]
          omega
        have key := lex_min (2 ^ a) (2 ^ f) s.reverse y
          (fun z hz => hall z (List.mem_cons_of_mem _ (List.mem_reverse.mp hz))) hp (by positivity)
        have hyr : (yaspGrid (e + 1) k).reverse = List.replicate s.reverse.length (2 ^ a) ++ [2 ^ f] := by
          unfold yaspGrid
          rw [List.reverse_cons, List.reverse_replicate, hrev]
          rfl
        rcases key with h | h
        · left
          apply List.reverse_injective
          rw [List.reverse_cons, h, hyr]
        · right
          unfold Before
          rw [List.reverse_cons, hyr]
          exact h

theorem yaspGrid_get (d k i : ℕ) (hi : i < d) :
    (yaspGrid d k)[i]? = some (if i = 0 then 2 ^ (k / d + k % d) else 2 ^ (k / d)) := by
  unfold yaspGrid
  cases i with
  | zero =>
    rw [List.getElem?_cons_zero, if_pos rfl]
    congr 2
    obtain ⟨e, rfl⟩ : ∃ e, d = e + 1 := ⟨d - 1, by omega⟩
    have h1 := Nat.div_add_mod k (e + 1)
    have h2 : (e + 1) * (k / (e + 1)) = e * (k / (e + 1)) + k / (e + 1) := by ring
    rw [Nat.add_sub_cancel]
    generalize k / (e + 1) = q at *
    generalize k % (e + 1) = r at *
    rw [h2] at h1
    omega
  | succ i =>
    rw [List.getElem?_cons_succ, List.getElem?_replicate, if_pos (by omega), if_neg (by omega)]

/-- The field's process grid. -/
def fieldGrid (d k i : ℕ) : ℕ := 2 ^ (k / d + if i < k % d then 1 else 0)

theorem partition_eq (lg : ℕ → ℚ) (hlg : AccurateLog2 lg) (d k : ℕ) (hk : k < 31) :
    partition lg d (2 ^ k) = some (fieldGrid d k) := by
  unfold partition
  simp only [hlg.exact k hk]
  simp only [Int.floor_natCast, Int.toNat_natCast, ne_eq, not_true_eq_false, if_false]
  congr 1
  funext i
  unfold fieldGrid
  rw [show k - k / d * d = k % d by rw [Nat.mod_eq_sub_div_mul]]

/-- **C68** (exact) The process grid of the random field is that of the grids exactly if the exponent of the number of
processes leaves remainder 0 or 1 on division by the dimension. -/
theorem C68_same_process_grid_iff (lg : ℕ → ℚ) (hlg : AccurateLog2 lg) (d k M : ℕ) (hd : 0 < d) (hk : k < 31) (hM : 0 < M)
    (hdvd : 2 ^ (k / d + 1) ∣ M) :
    ∃ t ppd, balance (List.replicate d M) (2 ^ k) = some t ∧ partition lg d (2 ^ k) = some ppd ∧
      ((∀ i, i < d → t[i]? = some (ppd i)) ↔ k % d ≤ 1) := by
  refine ⟨_, _, C68_yasp_process_grid d k M hd hM hdvd, partition_eq lg hlg d k hk, ?_⟩
  constructor
  · intro h
    have h0 := h 0 hd
    rw [yaspGrid_get d k 0 hd, if_pos rfl] at h0
    have := Nat.pow_right_injective (le_refl 2) (Option.some.inj h0)
    split_ifs at this <;> omega
  · intro h i hi
    rw [yaspGrid_get d k i hi]
    unfold fieldGrid
    congr 1
    split_ifs <;> first | rfl | (congr 1; omega)

/-- Instances: two dimensions always agree; in three dimensions 2, 8 and 16 processes agree, 4 and 32 do not. -/
example : (∀ k, k % 2 ≤ 1) ∧ 1 % 3 ≤ 1 ∧ 3 % 3 ≤ 1 ∧ 4 % 3 ≤ 1 ∧ ¬ 2 % 3 ≤ 1 ∧ ¬ 5 % 3 ≤ 1 :=
  ⟨fun k => by omega, by decide, by decide, by decide, by decide, by decide⟩

end Verif.LoadBalance
