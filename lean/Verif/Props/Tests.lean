import Verif.Model.Tests
import Mathlib.Tactic.Linarith
import Mathlib.Tactic.NormNum
import Mathlib.Tactic.FieldSimp
import Mathlib.Algebra.Order.BigOperators.Ring.Finset
import Mathlib.Algebra.BigOperators.Field

/-!
# C92: the tests accept correct results and reject wrong ones

The comparison test of the multiscale method cannot pass: the bounds are stored under other names than the test asks for.
The comparison test of the finite element method accepts a run which reports no errors.  One of the two tests of the
position of the fine grid accepts any pair of grids.
-/

namespace Verif.Tests

/-! ### Comparison of errors -/

/-- A reported error is a number below `b`. -/
def Below (e : Errors) (key : String) (b : ℚ) : Prop := ∃ x : ℚ, (key, some x) ∈ e ∧ x < b

/-- Both runs report the same quantities, with values equal up to rounding. -/
def Repeatable (close : Value → Value → Bool) (e e' : Errors) : Prop :=
  ∀ k v, (k, v) ∈ e → ∃ w, (k, w) ∈ e' ∧ close v w = true

/-- The entries of a `std::map` have different keys. -/
def Distinct (e : Errors) : Prop := ∀ k v w, (k, v) ∈ e → (k, w) ∈ e → v = w

/-- The entries have finite values which are not negative (norms). -/
def Norms (e : Errors) : Prop := ∀ k x, (k, some x) ∈ e → 0 ≤ x

theorem touch_mem {e : Errors} (he : Distinct e) {k : String} {v : Value} (h : (k, v) ∈ e) :
    Errors.touch e k = (v, e) := by
  unfold Errors.touch
  cases hf : e.find? fun p => p.1 == k with
  | none =>
    have := List.find?_eq_none.mp hf _ h
    simp at this
  | some p =>
    have hp := List.mem_of_find?_eq_some hf
    have hk : p.1 = k := by simpa using List.find?_some hf
    have : p = (k, p.2) := by rw [← hk]
    rw [this] at hp
    simp only [he _ _ _ hp h]

theorem touch_value (e : Errors) (k : String) :
    (k, (Errors.touch e k).1) ∈ e ∨ (Errors.touch e k).1 = some 0 := by
  unfold Errors.touch
  cases hf : e.find? fun p => p.1 == k with
  | none => exact .inr rfl
  | some p =>
    have hp := List.mem_of_find?_eq_some hf
    have hk : p.1 = k := by simpa using List.find?_some hf
    left
    rw [← hk]
    exact hp

theorem mem_touch {e : Errors} {k k' : String} {v : Value} (h : (k', v) ∈ (Errors.touch e k).2) :
    (k', v) ∈ e ∨ k' = k := by
  unfold Errors.touch at h
  cases hf : e.find? fun p => p.1 == k with
  | none =>
    rw [hf] at h
    rcases List.mem_append.mp h with h | h
    · exact .inl h
    · simp only [List.mem_singleton, Prod.mk.injEq] at h
      exact .inr h.1
  | some p =>
    rw [hf] at h
    exact .inl h

theorem sameErrors_iff (close : Value → Value → Bool) (e : Errors) (e' : Errors) (he' : Distinct e')
    (hk : ∀ k v, (k, v) ∈ e → ∃ w, (k, w) ∈ e') : sameErrors close e e' = true ↔ Repeatable close e e' := by
  induction e with
  | nil => exact ⟨fun _ k v h => absurd h List.not_mem_nil, fun _ => rfl⟩
  | cons p rest ih =>
    obtain ⟨k, v⟩ := p
    obtain ⟨w, hw⟩ := hk k v List.mem_cons_self
    have ih := ih fun k v h => hk k v (List.mem_cons_of_mem _ h)
    rw [sameErrors, touch_mem he' hw]
    simp only [Bool.and_eq_true, ih]
    constructor
    · rintro ⟨hc, hr⟩ k' v' h
      rcases List.mem_cons.mp h with h | h
      · simp only [Prod.mk.injEq] at h
        obtain ⟨rfl, rfl⟩ := h
        exact ⟨w, hw, hc⟩
      · exact hr k' v' h
    · intro h
      refine ⟨?_, fun k' v' h' => h k' v' (List.mem_cons_of_mem _ h')⟩
      obtain ⟨w', hw', hc⟩ := h k v List.mem_cons_self
      rwa [he' _ _ _ hw hw']

theorem expectGt_iff (b : ℚ) (v : Value) : expectGt b v = true ↔ ∃ x, v = some x ∧ x < b := by
  cases v with
  | none => simp [expectGt]
  | some x => simp [expectGt]

/-- **C92** (partial: for runs which report both errors, and configurations which contain the bounds).  A comparison test
passes exactly if both errors are below the bounds and all errors are the same in the second run. -/
theorem C92_compare_partial (keyL2 keyH1 : String) (close : Value → Value → Bool) (c : Cfg) (first second : Errors)
    (bL2 bH1 : ℚ) (hb2 : c ("expected_errors", keyL2) = some [bL2]) (hb1 : c ("expected_errors", keyH1) = some [bH1])
    (hd : Distinct first) (hd' : Distinct second) (h2 : ∃ v, (keyL2, v) ∈ first) (h1 : ∃ v, (keyH1, v) ∈ first)
    (hk : ∀ k v, (k, v) ∈ first → ∃ w, (k, w) ∈ second) :
    compareTest keyL2 keyH1 close c first second = true ↔
      Below first keyL2 bL2 ∧ Below first keyH1 bH1 ∧ Repeatable close first second := by
  obtain ⟨v2, h2⟩ := h2
  obtain ⟨v1, h1⟩ := h1
  have hbel : ∀ {key : String} {v : Value} {b : ℚ}, (key, v) ∈ first → ((∃ x, v = some x ∧ x < b) ↔ Below first key b) := by
    intro key v b h
    constructor
    · rintro ⟨x, rfl, hx⟩
      exact ⟨x, h, hx⟩
    · rintro ⟨x, hm, hx⟩
      exact ⟨x, hd _ _ _ h hm, hx⟩
  unfold compareTest
  rw [touch_mem hd h2]
  simp only [touch_mem hd h1, Bool.and_eq_true, expectGt_iff, sameErrors_iff close first second hd' hk, and_assoc]
  have e2 : bound c keyL2 = bL2 := by simp [bound, hb2]
  have e1 : bound c keyH1 = bH1 := by simp [bound, hb1]
  rw [e2, e1, hbel h2, hbel h1]

/-- The bounds of the comparison test of the finite element method, by setup. -/
def Bounds : String → ℚ × ℚ → Prop
  | "p_small", b => b = (251 / 1000, 267 / 100)
  | "p_minimal", b => b = (57 / 100, 23 / 10)
  | _, _ => False

/-- **C92**, finite elements (partial: for runs which report both errors).  In each of the configurations the test is run
with, it passes exactly if the errors are below the bounds written in the file for this setup and repeatable. -/
theorem C92_cgfem_partial (setup : String) (hs : setup ∈ cgfemMini.setups) :
    ∃ b, Bounds setup b ∧ ∀ (close : Value → Value → Bool) (first second : Errors), Distinct first → Distinct second →
      (∃ v, ("fem_exact_L2", v) ∈ first) → (∃ v, ("fem_exact_H1s", v) ∈ first) →
      (∀ k v, (k, v) ∈ first → ∃ w, (k, w) ∈ second) →
      (cgfemTest close (cgfemMini.config setup) first second = true ↔
        Below first "fem_exact_L2" b.1 ∧ Below first "fem_exact_H1s" b.2 ∧ Repeatable close first second) := by
  have hs : setup = "p_small" ∨ setup = "p_minimal" := by simpa [cgfemMini] using hs
  rcases hs with rfl | rfl
  · refine ⟨(251 / 1000, 267 / 100), rfl, fun close first second hd hd' h2 h1 hk => ?_⟩
    exact C92_compare_partial _ _ close _ first second _ _ (by decide +kernel) (by decide +kernel) hd hd' h2 h1 hk
  · refine ⟨(57 / 100, 23 / 10), rfl, fun close first second hd hd' h2 h1 hk => ?_⟩
    exact C92_compare_partial _ _ close _ first second _ _ (by decide +kernel) (by decide +kernel) hd hd' h2 h1 hk

/-- **C92 violated**: the comparison test of the multiscale method fails in each of its configurations, whatever the
multiscale method computes. -/
theorem C92_msfem_violated (setup : String) (hs : setup ∈ msfemMini.setups) (close : Value → Value → Bool)
    (first second : Errors) (hn : Norms first) : msfemTest close (msfemMini.config setup) first second = false := by
  have hb : bound (msfemMini.config setup) "msfem_exact_L2" = -1 := by
    have hs : setup = "p_small" ∨ setup = "p_minimal" := by simpa [msfemMini] using hs
    rcases hs with rfl | rfl <;> decide +kernel
  have hv : expectGt (-1) (Errors.touch first "msfem_exact_L2").1 = false := by
    rcases touch_value first "msfem_exact_L2" with h | h
    · cases hx : (Errors.touch first "msfem_exact_L2").1 with
      | none => rfl
      | some x =>
        rw [hx] at h
        have := hn _ _ h
        simp only [expectGt, gt_iff_lt, decide_eq_false_iff_not, not_lt]
        linarith
    · rw [h]
      simp [expectGt]
  show compareTest _ _ _ _ _ _ = false
  unfold compareTest
  simp only [hb, hv, Bool.false_and]

/-- The bounds of the multiscale method are in the configuration, under the names of the finite element method. -/
theorem C92_msfem_names :
    msfemMini.config "p_small" ("expected_errors", "fem_exact_L2") = some [251 / 1000] ∧
    msfemMini.config "p_small" ("expected_errors", "fem_exact_H1s") = some [267 / 100] ∧
    msfemMini.config "p_minimal" ("expected_errors", "fem_exact_L2") = some [57 / 100] ∧
    msfemMini.config "p_minimal" ("expected_errors", "fem_exact_H1s") = some [23 / 10] ∧
    ∀ setup, msfemMini.config setup ("expected_errors", "msfem_exact_L2") = none ∧
      msfemMini.config setup ("expected_errors", "msfem_exact_H1s") = none := by
  refine ⟨by decide +kernel, by decide +kernel, by decide +kernel, by decide +kernel, fun setup => ⟨?_, ?_⟩⟩
  · have : (msfemMini.entries.find? fun e => e.1 == ("expected_errors", "msfem_exact_L2")).isNone = true := by
      decide +kernel
    unfold Mini.config
    rw [Option.isNone_iff_eq_none.mp this]
  · have : (msfemMini.entries.find? fun e => e.1 == ("expected_errors", "msfem_exact_H1s")).isNone = true := by
      decide +kernel
    unfold Mini.config
    rw [Option.isNone_iff_eq_none.mp this]

/-- **C92 violated**: a run which reports no errors at all passes the comparison test of the finite element method, in each
of its configurations. -/
theorem C92_missing_violated (setup : String) (hs : setup ∈ cgfemMini.setups) (close : Value → Value → Bool)
    (hc : ∀ v, close v v = true) : cgfemTest close (cgfemMini.config setup) [] [] = true := by
  have hs : setup = "p_small" ∨ setup = "p_minimal" := by simpa [cgfemMini] using hs
  have e : ∀ c : Cfg, cgfemTest close c [] [] =
      (expectGt (bound c "fem_exact_L2") (some 0) && expectGt (bound c "fem_exact_H1s") (some 0)) := by
    intro c
    simp [cgfemTest, compareTest, Errors.touch, sameErrors, hc]
  rw [e]
  rcases hs with rfl | rfl <;> decide +kernel

/-- Nonvacuity: a run with small errors passes, one with a large error does not, nor one whose errors change. -/
example (close : Value → Value → Bool) (hc : ∀ v w, close v w = true ↔ v = w) :
    cgfemTest close (cgfemMini.config "p_small") [("fem_exact_L2", some (1 / 5)), ("fem_exact_H1s", some 2)]
      [("fem_exact_L2", some (1 / 5)), ("fem_exact_H1s", some 2)] = true ∧
    cgfemTest close (cgfemMini.config "p_small") [("fem_exact_L2", some (1 / 5)), ("fem_exact_H1s", some 3)]
      [("fem_exact_L2", some (1 / 5)), ("fem_exact_H1s", some 3)] = false ∧
    cgfemTest close (cgfemMini.config "p_small") [("fem_exact_L2", some (1 / 5)), ("fem_exact_H1s", some 2)]
      [("fem_exact_L2", some (1 / 4)), ("fem_exact_H1s", some 2)] = false := by
  have hh : bound (cgfemMini.config "p_small") "fem_exact_L2" = 251 / 1000 ∧
      bound (cgfemMini.config "p_small") "fem_exact_H1s" = 267 / 100 := by
    constructor <;> decide +kernel
  have h0 : close (some (1 / 5)) (some (1 / 4)) = false := by
    rw [Bool.eq_false_iff, ne_eq, hc]
    norm_num
  have h1 : ∀ v, close v v = true := fun v => (hc v v).2 rfl
  refine ⟨?_, ?_, ?_⟩ <;>
    simp [cgfemTest, compareTest, Errors.touch, List.find?, sameErrors, hh, expectGt, h1] <;> norm_num [h0]

/-! ### Position of the grids -/

variable {d : ℕ}

/-- A point of the closed box. -/
def Box.Covers (b : Box d) (x : Fin d → ℚ) : Prop := ∀ i, b.lo i ≤ x i ∧ x i ≤ b.lo i + b.size i

theorem checkInside_local (b : Box d) (hb : ∀ i, 0 < b.size i) (x : Fin d → ℚ) :
    checkInside (b.toLocal x) = true ↔ b.Covers x := by
  unfold checkInside
  rw [decide_eq_true_eq]
  refine forall_congr' fun i => ?_
  simp only [Box.toLocal]
  rw [le_div_iff₀ (hb i), div_le_one (hb i)]
  constructor <;> rintro ⟨h, h'⟩ <;> constructor <;> linarith

/-- **C92**, grids: `check_inside` accepts exactly the pairs of grids in which every corner of a fine element lies in a
coarse element. -/
theorem C92_check_inside (coarse fine : List (Box d)) (hc : ∀ b ∈ coarse, ∀ i, 0 < b.size i) :
    checkInsideTest coarse fine = true ↔ ∀ ent ∈ fine, ∀ c, ∃ b ∈ coarse, b.Covers (ent.corner c) := by
  simp only [checkInsideTest, List.all_eq_true, decide_eq_true_eq, List.any_eq_true]
  refine forall₂_congr fun ent _ => forall_congr' fun c => ?_
  constructor
  · rintro ⟨b, hb, h⟩
    exact ⟨b, hb, (checkInside_local b (hc b hb) _).1 h⟩
  · rintro ⟨b, hb, h⟩
    exact ⟨b, hb, (checkInside_local b (hc b hb) _).2 h⟩

/-- **C92 violated**: `check_fine_lp_in_coarse` accepts any fine grid, wherever it lies: it fails only if there is no coarse
element. -/
theorem C92_lp_violated (coarse fine : List (Box d)) (hne : coarse ≠ []) (hf : ∀ b ∈ fine, ∀ i, 0 < b.size i) :
    checkFineLpInCoarse coarse fine = true := by
  simp only [checkFineLpInCoarse, List.all_eq_true, decide_eq_true_eq, List.any_eq_true]
  intro ent he c
  obtain ⟨b, hb⟩ := List.exists_mem_of_ne_nil _ hne
  refine ⟨b, hb, (checkInside_local ent (hf ent he) _).2 fun i => ?_⟩
  have := hf ent he i
  unfold Box.corner
  split <;> constructor <;> linarith

/-- A fine grid away from the coarse grid: accepted by one test, rejected by the other. -/
theorem C92_lp_witness :
    checkFineLpInCoarse [(⟨fun _ => 0, fun _ => 1⟩ : Box 2)] [⟨fun _ => 5, fun _ => 1⟩] = true ∧
    checkInsideTest [(⟨fun _ => 0, fun _ => 1⟩ : Box 2)] [⟨fun _ => 5, fun _ => 1⟩] = false := by
  constructor <;> decide +kernel

/-- Number of fine cells per coarse cell. -/
theorem one_lt_prod_iff (m : Fin d → ℕ) (hm : ∀ i, 0 < m i) : 1 < ∏ i, m i ↔ ∃ i, m i ≠ 1 := by
  have hpos : 0 < ∏ i, m i := Finset.prod_pos fun i _ => hm i
  constructor
  · intro h
    by_contra hn
    push Not at hn
    rw [Finset.prod_congr rfl fun i _ => hn i] at h
    simp at h
  · rintro ⟨i, hi⟩
    have : m i ∣ ∏ j, m j := Finset.dvd_prod_of_mem _ (Finset.mem_univ i)
    have := Nat.le_of_dvd hpos this
    have := hm i
    omega

/-- **C92**, dimensions: two uniform grids with any numbers of cells on any two domains pass `check_dimensions` exactly if
they lie on the same domain, have the total numbers of cells asked for in the configuration, and there is more than one
micro cell per coarse cell. -/
theorem C92_dimensions (lo hi lo' hi' : Fin d → ℚ) (h : ∀ i, lo i < hi i) (macroCells micro n n' : Fin d → ℕ)
    (hn : ∀ i, 0 < n i) (hn' : ∀ i, 0 < n' i) :
    checkDimensions macroCells micro (uniform lo hi n) (uniform lo' hi' n') = true ↔
      lo = lo' ∧ hi = hi' ∧ (∀ i, 0 < macroCells i) ∧ (∀ i, 0 < micro i) ∧ ∏ i, n i = ∏ i, macroCells i ∧
        ∏ i, n' i = ∏ i, macroCells i * micro i ∧ ∃ i, micro i ≠ 1 := by
  unfold checkDimensions
  simp only [Bool.and_eq_true, decide_eq_true_eq, gt_iff_lt, and_assoc, ← funext_iff]
  simp only [uniform, Finset.prod_mul_distrib]
  constructor
  · rintro ⟨rfl, rfl, hv, -, hM, hm, hc, hf⟩
    refine ⟨rfl, rfl, hM, hm, hc, hf, ?_⟩
    rw [← one_lt_prod_iff micro hm]
    have hV : (0 : ℚ) < ∏ i, (hi i - lo i) := Finset.prod_pos fun i _ => sub_pos.2 (h i)
    have hN : (0 : ℚ) < ∏ i, (n i : ℚ) := Finset.prod_pos fun i _ => Nat.cast_pos.2 (hn i)
    have hN' : (0 : ℚ) < ∏ i, (n' i : ℚ) := Finset.prod_pos fun i _ => Nat.cast_pos.2 (hn' i)
    rw [Finset.prod_div_distrib, Finset.prod_div_distrib, div_lt_div_iff_of_pos_left hV hN' hN] at hv
    have : (∏ i, n i) < ∏ i, n' i := by exact_mod_cast hv
    rw [hf, ← hc] at this
    by_contra hle
    have : (∏ i, n i) * ∏ i, micro i ≤ (∏ i, n i) * 1 := Nat.mul_le_mul_left _ (not_lt.mp hle)
    omega
  · rintro ⟨rfl, rfl, hM, hm, hc, hf, hx⟩
    have hx := (one_lt_prod_iff micro hm).2 hx
    have hV : (0 : ℚ) < ∏ i, (hi i - lo i) := Finset.prod_pos fun i _ => sub_pos.2 (h i)
    have hN : (0 : ℚ) < ∏ i, (n i : ℚ) := Finset.prod_pos fun i _ => Nat.cast_pos.2 (hn i)
    have hN' : (0 : ℚ) < ∏ i, (n' i : ℚ) := Finset.prod_pos fun i _ => Nat.cast_pos.2 (hn' i)
    have hv : (∏ i, (hi i - lo i) / (n' i : ℚ)) < ∏ i, (hi i - lo i) / (n i : ℚ) := by
      rw [Finset.prod_div_distrib, Finset.prod_div_distrib, div_lt_div_iff_of_pos_left hV hN' hN]
      have : (∏ i, n i) < ∏ i, n' i := by
        rw [hf, ← hc]
        have hp : 0 < ∏ i, n i := Finset.prod_pos fun i _ => hn i
        nlinarith
      exact_mod_cast this
    exact ⟨rfl, rfl, hv, hv, hM, hm, hc, hf⟩

/-- A grid with one direction refined twice and the other not at all has the total number of cells asked for, but other
numbers in the directions: accepted. -/
theorem C92_dimensions_violated :
    checkDimensions (d := 2) (fun _ => 4) (fun i => if i = 0 then 3 else 5) (uniform (fun _ => 0) (fun _ => 1) fun _ => 4)
      (uniform (fun _ => 0) (fun _ => 1) fun i => if i = 0 then 20 else 12) = true := by
  decide +kernel

/-! ### Projection -/

/-- **C92**, projection: the test accepts exactly the functions of norm one. -/
theorem C92_projection (normSq : ℝ) : ProjectionTest 1 normSq ↔ normSq = 1 := by
  unfold ProjectionTest
  rw [Real.sqrt_eq_one, Real.sqrt_eq_one]

/-- With another constant in the test the correct projection would be rejected, because the square root is taken twice:
`vol` is the volume of the domain. -/
theorem C92_projection_constant (c vol : ℝ) (hc : 0 < c) (hv : vol = 1) : ProjectionTest c (c ^ 2 * vol) ↔ c = 1 := by
  unfold ProjectionTest
  rw [hv, mul_one, Real.sqrt_sq hc.le]
  constructor
  · intro h
    have h2 := Real.sq_sqrt hc.le
    rw [h] at h2
    nlinarith
  · rintro rfl
    exact Real.sqrt_one

end Verif.Tests
