import Verif.Model.RandomField
import Verif.Spec.Interpolation
import Mathlib.Tactic.Linarith
import Mathlib.Tactic.Ring
import Mathlib.Tactic.NormNum

/-!
# C46, C47, C48, C49: redistribution and evaluation of the random field
-/

namespace Verif.RandomField
open Verif.Spec

/-! ## C46 -/

/-- The slab decomposition of a global array with `2N` planes: process `r` holds the planes `r * n0, ..., r * n0 + n0 - 1`, each
in row-major order with `plane` entries. -/
def HoldsSlab {α : Type} (n0 plane : ℕ) (G : ℕ → ℕ → α) (layer : ℕ → ℕ → α) : Prop :=
  ∀ r i q, i < n0 → q < plane → layer r (i * plane + q) = G (r * n0 + i) q

theorem slab_row {α : Type} {n0 plane : ℕ} {G : ℕ → ℕ → α} {layer : ℕ → ℕ → α} (hl : HoldsSlab n0 plane G layer)
    (hn : 0 < n0) (i q : ℕ) (hq : q < plane) : layer (i / n0) ((i % n0) * plane + q) = G i q := by
  rw [hl _ _ _ (Nat.mod_lt i hn) hq]
  congr 1
  rw [mul_comm, Nat.div_add_mod]

theorem slab_in_window {n0 plane : ℕ} (hn : 0 < n0) (i q : ℕ) (hq : q ≤ plane) :
    (i % n0) * plane + q ≤ n0 * plane := by
  have : (i % n0 + 1) * plane ≤ n0 * plane := Nat.mul_le_mul_right _ (Nat.mod_lt i hn)
  rw [add_mul, one_mul] at this
  omega

theorem rank_valid {n0 nProc N i : ℕ} (hn : 0 < n0) (h : n0 * nProc = 2 * N) (hN : 0 < N) (hi : i ≤ N) :
    i / n0 < nProc := by
  rw [Nat.div_lt_iff_lt_mul hn, mul_comm]
  omega

theorem redistLoop2_spec {α : Type} (N n0 nProc win : ℕ) (layer : ℕ → ℕ → α) (G : ℕ → ℕ → α) (b1 : Range)
    (hN : 0 < N) (hn : 0 < n0) (hp : n0 * nProc = 2 * N) (hw : n0 * (2 * N) ≤ win)
    (hl : HoldsSlab n0 (2 * N) G layer) (h1 : b1.iMin ≤ b1.iMax) (h1' : b1.iMax ≤ N) (k i d : ℕ) (dest : ℕ → α)
    (hi : i + k ≤ N + 1) :
    ∃ res, redistLoop2 N n0 nProc win layer b1 k i d dest = .ok res ∧
      (∀ q, q < d → res q = dest q) ∧
      ∀ a b, a < k → b < b1.size → res (d + a * b1.size + b) = G (i + a) (b1.iMin + b) := by
  induction k generalizing i d dest with
  | zero => exact ⟨dest, rfl, fun _ _ => rfl, fun a b ha => absurd ha (Nat.not_lt_zero a)⟩
  | succ k ih =>
    have hs : b1.iMin + b1.size ≤ 2 * N := by unfold Range.size; omega
    have hget : mpiGet nProc win layer dest d (i / n0) ((i % n0) * (2 * N) + b1.iMin) b1.size =
        .ok fun q => if d ≤ q ∧ q < d + b1.size then
          layer (i / n0) ((i % n0) * (2 * N) + b1.iMin + (q - d)) else dest q := by
      unfold mpiGet
      rw [if_pos]
      refine ⟨rank_valid hn hp hN (by omega), ?_⟩
      have := slab_in_window (plane := 2 * N) hn i (b1.iMin + b1.size) hs
      omega
    obtain ⟨res, e1, e2, e3⟩ := ih (i + 1) (d + b1.size) (fun q => if d ≤ q ∧ q < d + b1.size then
          layer (i / n0) ((i % n0) * (2 * N) + b1.iMin + (q - d)) else dest q) (by omega)
    refine ⟨res, ?_, fun q hq => ?_, fun a b ha hb => ?_⟩
    · unfold redistLoop2
      simp only
      rw [hget]
      exact e1
    · rw [e2 q (by omega), if_neg (by omega)]
    · cases a with
      | zero =>
        rw [Nat.zero_mul, Nat.add_zero, Nat.add_zero, e2 _ (by omega), if_pos (by omega)]
        rw [show d + b - d = b by omega, Nat.add_assoc]
        exact slab_row hl hn i _ (by omega)
      | succ a =>
        have := e3 a b (by omega) hb
        rw [show d + (a + 1) * b1.size + b = d + b1.size + a * b1.size + b by ring,
          show i + (a + 1) = i + 1 + a by omega]
        exact this

/-- **C46** Two dimensions: if the slabs together hold the field `G`, every remote access is within the window of its
owner and afterwards the local block holds at every one of its nodes the value of the field there. -/
theorem C46_redistribute2 {α : Type} (N n0 nProc win : ℕ) (layer : ℕ → ℕ → α) (G : ℕ → ℕ → α) (b0 b1 : Range)
    (perm : ℕ → α) (hN : 0 < N) (hn : 0 < n0) (hp : n0 * nProc = 2 * N) (hw : n0 * (2 * N) ≤ win)
    (hl : HoldsSlab n0 (2 * N) G layer) (h0 : b0.iMin ≤ b0.iMax) (h0' : b0.iMax ≤ N)
    (h1 : b1.iMin ≤ b1.iMax) (h1' : b1.iMax ≤ N) :
    ∃ res, redistribute2 N n0 nProc win layer b0 b1 perm = .ok res ∧
      ∀ i j, b0.iMin ≤ i → i ≤ b0.iMax → b1.iMin ≤ j → j ≤ b1.iMax →
        res (b1.size * (i - b0.iMin) + (j - b1.iMin)) = G i j := by
  obtain ⟨res, e1, -, e3⟩ := redistLoop2_spec N n0 nProc win layer G b1 hN hn hp hw hl h1 h1' b0.size b0.iMin 0 perm
    (by unfold Range.size; omega)
  refine ⟨res, by unfold redistribute2; rw [if_neg (by omega)]; exact e1, fun i j hi hi' hj hj' => ?_⟩
  have := e3 (i - b0.iMin) (j - b1.iMin) (by unfold Range.size; omega) (by unfold Range.size; omega)
  rw [Nat.zero_add, mul_comm] at this
  rw [this]
  congr 1 <;> omega

theorem mpiGet_ok {α : Type} {nProc win : ℕ} {layer : ℕ → ℕ → α} {dest res : ℕ → α} {d rank source len : ℕ}
    (h : mpiGet nProc win layer dest d rank source len = .ok res) : rank < nProc ∧ source + len ≤ win := by
  unfold mpiGet at h
  split_ifs at h with hc
  exact hc

theorem redistLoop2_window {α : Type} (N n0 nProc win : ℕ) (layer : ℕ → ℕ → α) (b1 : Range) (k i d : ℕ)
    (dest res : ℕ → α) (h : redistLoop2 N n0 nProc win layer b1 k i d dest = .ok res) (a : ℕ) (ha : a < k) :
    (i + a) / n0 < nProc ∧ ((i + a) % n0) * (2 * N) + b1.iMin + b1.size ≤ win := by
  induction k generalizing i d dest a with
  | zero => omega
  | succ k ih =>
    rw [redistLoop2] at h
    cases hg : mpiGet nProc win layer dest d (i / n0) ((i % n0) * (2 * N) + b1.iMin) b1.size with
    | ok dest' =>
      simp only [hg, Outcome.ok_bind] at h
      cases a with
      | zero => exact mpiGet_ok hg
      | succ a =>
        have := ih (i + 1) _ _ h a (by omega)
        rwa [show i + 1 + a = i + (a + 1) by omega] at this
    | throw => simp [hg] at h
    | ub => simp [hg] at h

/-- **C46** (windows, two dimensions) The redistribution completes only if every plane of the block belongs to an existing
process and the addressed entries are in its window. -/
theorem C46_window2 {α : Type} (N n0 nProc win : ℕ) (layer : ℕ → ℕ → α) (b0 b1 : Range) (perm res : ℕ → α)
    (h : redistribute2 N n0 nProc win layer b0 b1 perm = .ok res) (i : ℕ) (hi : b0.iMin ≤ i) (hi' : i < b0.iMin + b0.size) :
    0 < n0 ∧ i / n0 < nProc ∧ (i % n0) * (2 * N) + b1.iMin + b1.size ≤ win := by
  unfold redistribute2 at h
  split_ifs at h with hn
  have := redistLoop2_window N n0 nProc win layer b1 _ _ _ _ _ h (i - b0.iMin) (by omega)
  rw [show b0.iMin + (i - b0.iMin) = i by omega] at this
  exact ⟨by omega, this⟩

theorem redistInner3_spec {α : Type} (N nProc win : ℕ) (layer : ℕ → ℕ → α) (b2 : Range) (rank : ℕ) (F : ℕ → α)
    (hr : rank < nProc) (k source d : ℕ) (dest : ℕ → α) (hF : ∀ q, layer rank (source + q) = F q)
    (hw : 0 < k → source + (k - 1) * (2 * N) + b2.size ≤ win) :
    ∃ res, redistInner3 N nProc win layer b2 rank k source d dest = .ok res ∧
      (∀ q, q < d → res q = dest q) ∧ (∀ q, d + k * b2.size ≤ q → res q = dest q) ∧
      ∀ a b, a < k → b < b2.size → res (d + a * b2.size + b) = F (a * (2 * N) + b) := by
  induction k generalizing source d dest F with
  | zero => exact ⟨dest, rfl, fun _ _ => rfl, fun _ _ => rfl, fun a b ha => absurd ha (Nat.not_lt_zero a)⟩
  | succ k ih =>
    have hw' := hw (by omega)
    rw [Nat.add_sub_cancel] at hw'
    have hget : mpiGet nProc win layer dest d rank source b2.size =
        .ok fun q => if d ≤ q ∧ q < d + b2.size then layer rank (source + (q - d)) else dest q := by
      unfold mpiGet
      rw [if_pos]
      exact ⟨hr, by omega⟩
    obtain ⟨res, e1, e2, e2', e3⟩ := ih (fun q => F (2 * N + q)) (source + 2 * N) (d + b2.size)
      (fun q => if d ≤ q ∧ q < d + b2.size then layer rank (source + (q - d)) else dest q)
      (fun q => by rw [Nat.add_assoc, hF])
      (fun hk => by
        obtain ⟨m, rfl⟩ : ∃ m, k = m + 1 := ⟨k - 1, by omega⟩
        rw [Nat.add_sub_cancel]
        rw [add_mul, one_mul] at hw'
        omega)
    refine ⟨res, ?_, fun q hq => ?_, fun q hq => ?_, fun a b ha hb => ?_⟩
    · unfold redistInner3
      rw [hget]
      exact e1
    · rw [e2 q (by omega), if_neg (by omega)]
    · rw [add_mul, one_mul] at hq
      rw [e2' q (by omega), if_neg (by omega)]
    · cases a with
      | zero =>
        rw [Nat.zero_mul, Nat.add_zero, Nat.zero_mul, Nat.zero_add, e2 _ (by omega), if_pos (by omega),
          show d + b - d = b by omega, hF]
      | succ a =>
        have := e3 a b (by omega) hb
        rw [show d + (a + 1) * b2.size + b = d + b2.size + a * b2.size + b by ring, this]
        congr 1
        ring

theorem redistLoop3_spec {α : Type} (N n0 nProc win : ℕ) (layer : ℕ → ℕ → α) (G : ℕ → ℕ → α) (b1 b2 : Range)
    (hN : 0 < N) (hn : 0 < n0) (hp : n0 * nProc = 2 * N) (hw : n0 * (4 * N * N) ≤ win)
    (hl : HoldsSlab n0 (4 * N * N) G layer) (h1 : b1.iMin ≤ b1.iMax) (h1' : b1.iMax ≤ N)
    (h2 : b2.iMin ≤ b2.iMax) (h2' : b2.iMax ≤ N) (k i d : ℕ) (dest : ℕ → α) (hi : i + k ≤ N + 1) :
    ∃ res, redistLoop3 N n0 nProc win layer b1 b2 k i d dest = .ok res ∧
      (∀ q, q < d → res q = dest q) ∧
      ∀ a b c, a < k → b < b1.size → c < b2.size →
        res (d + a * (b1.size * b2.size) + b * b2.size + c) = G (i + a) (2 * N * (b1.iMin + b) + (b2.iMin + c)) := by
  induction k generalizing i d dest with
  | zero => exact ⟨dest, rfl, fun _ _ => rfl, fun a b c ha => absurd ha (Nat.not_lt_zero a)⟩
  | succ k ih =>
    have hs1 : b1.iMin + b1.size ≤ N + 1 := by unfold Range.size; omega
    have hs2 : b2.iMin + b2.size ≤ N + 1 := by unfold Range.size; omega
    have hpos1 : 0 < b1.size := by unfold Range.size; omega
    -- rows of the plane lie inside the plane
    have hrow : ∀ b c, b ≤ N → c ≤ N + 1 → 2 * N * b + c ≤ 4 * N * N := by
      intro b c hb hc
      have e1 : 2 * N * b ≤ 2 * N * N := Nat.mul_le_mul_left _ hb
      have e2 : N * 1 ≤ N * N := Nat.mul_le_mul_left _ hN
      have e3 : 4 * N * N = 2 * N * N + 2 * (N * N) := by ring
      omega
    have hrow' : ∀ b c, b ≤ N → c ≤ N → 2 * N * b + c < 4 * N * N := by
      intro b c hb hc
      have := hrow b (c + 1) hb (by omega)
      omega
    have hinner : ∃ res, redistInner3 N nProc win layer b2 (i / n0) b1.size
        ((i % n0) * (4 * N * N) + 2 * N * b1.iMin + b2.iMin) d dest = .ok res ∧
        (∀ q, q < d → res q = dest q) ∧ (∀ q, d + b1.size * b2.size ≤ q → res q = dest q) ∧
        ∀ a b, a < b1.size → b < b2.size → res (d + a * b2.size + b) =
          layer (i / n0) ((i % n0) * (4 * N * N) + 2 * N * b1.iMin + b2.iMin + (a * (2 * N) + b)) := by
      refine redistInner3_spec N nProc win layer b2 (i / n0)
        (fun q => layer (i / n0) ((i % n0) * (4 * N * N) + 2 * N * b1.iMin + b2.iMin + q))
        (rank_valid hn hp hN (by omega)) b1.size _ d dest (fun _ => rfl) (fun _ => ?_)
      have hh := slab_in_window (plane := 4 * N * N) hn i (2 * N * (b1.iMin + (b1.size - 1)) + (b2.iMin + b2.size))
        (hrow _ _ (by omega) hs2)
      have e : 2 * N * (b1.iMin + (b1.size - 1)) = 2 * N * b1.iMin + (b1.size - 1) * (2 * N) := by ring
      omega
    obtain ⟨dest', f1, f2, f2', f3⟩ := hinner
    obtain ⟨res, e1, e2, e3⟩ := ih (i + 1) (d + b1.size * b2.size) dest' (by omega)
    refine ⟨res, ?_, fun q hq => ?_, fun a b c ha hb hc => ?_⟩
    · unfold redistLoop3
      simp only
      rw [f1]
      exact e1
    · rw [e2 q (by omega), f2 q hq]
    · cases a with
      | zero =>
        have hlt : b * b2.size + c < b1.size * b2.size := by
          have : (b + 1) * b2.size ≤ b1.size * b2.size := Nat.mul_le_mul_right _ hb
          rw [add_mul, one_mul] at this
          omega
        rw [Nat.zero_mul, Nat.add_zero, Nat.add_zero, e2 _ (by omega), f3 b c hb hc]
        rw [show (i % n0) * (4 * N * N) + 2 * N * b1.iMin + b2.iMin + (b * (2 * N) + c) =
          (i % n0) * (4 * N * N) + (2 * N * (b1.iMin + b) + (b2.iMin + c)) by ring]
        exact slab_row hl hn i _ (hrow' _ _ (by omega) (by omega))
      | succ a =>
        have := e3 a b c (by omega) hb hc
        rw [show d + (a + 1) * (b1.size * b2.size) + b * b2.size + c =
          d + b1.size * b2.size + a * (b1.size * b2.size) + b * b2.size + c by ring,
          show i + (a + 1) = i + 1 + a by omega]
        exact this

theorem redistInner3_window {α : Type} (N nProc win : ℕ) (layer : ℕ → ℕ → α) (b2 : Range) (rank k source d : ℕ)
    (dest res : ℕ → α) (h : redistInner3 N nProc win layer b2 rank k source d dest = .ok res) (a : ℕ) (ha : a < k) :
    rank < nProc ∧ source + a * (2 * N) + b2.size ≤ win := by
  induction k generalizing source d dest a with
  | zero => omega
  | succ k ih =>
    rw [redistInner3] at h
    cases hg : mpiGet nProc win layer dest d rank source b2.size with
    | ok dest' =>
      simp only [hg, Outcome.ok_bind] at h
      cases a with
      | zero => simpa using mpiGet_ok hg
      | succ a =>
        have := ih (source + 2 * N) _ _ h a (by omega)
        rwa [show source + 2 * N + a * (2 * N) = source + (a + 1) * (2 * N) by ring] at this
    | throw => simp [hg] at h
    | ub => simp [hg] at h

theorem redistLoop3_window {α : Type} (N n0 nProc win : ℕ) (layer : ℕ → ℕ → α) (b1 b2 : Range) (k i d : ℕ)
    (dest res : ℕ → α) (h : redistLoop3 N n0 nProc win layer b1 b2 k i d dest = .ok res) (a b : ℕ) (ha : a < k)
    (hb : b < b1.size) :
    (i + a) / n0 < nProc ∧
      ((i + a) % n0) * (4 * N * N) + 2 * N * b1.iMin + b2.iMin + b * (2 * N) + b2.size ≤ win := by
  induction k generalizing i d dest a with
  | zero => omega
  | succ k ih =>
    rw [redistLoop3] at h
    cases hg : redistInner3 N nProc win layer b2 (i / n0) b1.size
      ((i % n0) * (4 * N * N) + 2 * N * b1.iMin + b2.iMin) d dest with
    | ok dest' =>
      simp only [hg, Outcome.ok_bind] at h
      cases a with
      | zero => exact redistInner3_window _ _ _ _ _ _ _ _ _ _ _ hg b hb
      | succ a =>
        have := ih (i + 1) _ _ h a (by omega)
        rwa [show i + 1 + a = i + (a + 1) by omega] at this
    | throw => simp [hg] at h
    | ub => simp [hg] at h

/-- **C46** (windows, three dimensions) The redistribution completes only if every row of the block belongs to an existing
process and the addressed entries are in its window. -/
theorem C46_window3 {α : Type} (N n0 nProc win : ℕ) (layer : ℕ → ℕ → α) (b0 b1 b2 : Range) (perm res : ℕ → α)
    (h : redistribute3 N n0 nProc win layer b0 b1 b2 perm = .ok res) (i j : ℕ) (hi : b0.iMin ≤ i)
    (hi' : i < b0.iMin + b0.size) (hj : b1.iMin ≤ j) (hj' : j < b1.iMin + b1.size) :
    0 < n0 ∧ i / n0 < nProc ∧ (i % n0) * (4 * N * N) + 2 * N * j + b2.iMin + b2.size ≤ win := by
  unfold redistribute3 at h
  split_ifs at h with hn
  have := redistLoop3_window N n0 nProc win layer b1 b2 _ _ _ _ _ h (i - b0.iMin) (j - b1.iMin) (by omega) (by omega)
  rw [show b0.iMin + (i - b0.iMin) = i by omega] at this
  refine ⟨by omega, this.1, ?_⟩
  have e : 2 * N * j = 2 * N * b1.iMin + (j - b1.iMin) * (2 * N) := by
    obtain ⟨t, rfl⟩ := Nat.exists_eq_add_of_le hj
    rw [Nat.add_sub_cancel_left]; ring
  rw [e]
  linarith [this.2]

theorem mpiGet_no_throw {α : Type} (nProc win : ℕ) (layer : ℕ → ℕ → α) (dest : ℕ → α) (d rank source len : ℕ) :
    mpiGet nProc win layer dest d rank source len ≠ .throw := by
  unfold mpiGet
  split_ifs <;> simp

theorem redistLoop2_no_throw {α : Type} (N n0 nProc win : ℕ) (layer : ℕ → ℕ → α) (b1 : Range) (k i d : ℕ) (dest : ℕ → α) :
    redistLoop2 N n0 nProc win layer b1 k i d dest ≠ .throw := by
  induction k generalizing i d dest with
  | zero => simp [redistLoop2]
  | succ k ih =>
    rw [redistLoop2]
    cases hg : mpiGet nProc win layer dest d (i / n0) ((i % n0) * (2 * N) + b1.iMin) b1.size with
    | ok dest' => simpa [hg] using ih _ _ _
    | throw => exact absurd hg (mpiGet_no_throw _ _ _ _ _ _ _ _)
    | ub => simp

theorem redistInner3_no_throw {α : Type} (N nProc win : ℕ) (layer : ℕ → ℕ → α) (b2 : Range) (rank k source d : ℕ) (dest : ℕ → α) :
    redistInner3 N nProc win layer b2 rank k source d dest ≠ .throw := by
  induction k generalizing source d dest with
  | zero => simp [redistInner3]
  | succ k ih =>
    rw [redistInner3]
    cases hg : mpiGet nProc win layer dest d rank source b2.size with
    | ok dest' => simpa [hg] using ih _ _ _
    | throw => exact absurd hg (mpiGet_no_throw _ _ _ _ _ _ _ _)
    | ub => simp

theorem redistLoop3_no_throw {α : Type} (N n0 nProc win : ℕ) (layer : ℕ → ℕ → α) (b1 b2 : Range) (k i d : ℕ) (dest : ℕ → α) :
    redistLoop3 N n0 nProc win layer b1 b2 k i d dest ≠ .throw := by
  induction k generalizing i d dest with
  | zero => simp [redistLoop3]
  | succ k ih =>
    rw [redistLoop3]
    cases hg : redistInner3 N nProc win layer b2 (i / n0) b1.size ((i % n0) * (4 * N * N) + 2 * N * b1.iMin + b2.iMin) d dest with
    | ok dest' => simpa [hg] using ih _ _ _
    | throw => exact absurd hg (redistInner3_no_throw _ _ _ _ _ _ _ _ _ _)
    | ub => simp

/-- **C46** (outside, two dimensions) A plane of the block which no process holds, or entries outside the window of the process, make the
redistribution undefined; there is no check that fails instead. -/
theorem C46_outside2 {α : Type} (N n0 nProc win : ℕ) (layer : ℕ → ℕ → α) (b0 b1 : Range) (perm : ℕ → α) (i : ℕ) (hi : b0.iMin ≤ i)
    (hi' : i < b0.iMin + b0.size) (hout : nProc ≤ i / n0 ∨ win < (i % n0) * (2 * N) + b1.iMin + b1.size) :
    redistribute2 N n0 nProc win layer b0 b1 perm = .ub := by
  cases hr : redistribute2 N n0 nProc win layer b0 b1 perm with
  | ok res =>
    have := C46_window2 _ _ _ _ _ _ _ _ _ hr i hi hi'
    omega
  | throw =>
    unfold redistribute2 at hr
    split_ifs at hr
    exact absurd hr (redistLoop2_no_throw _ _ _ _ _ _ _ _ _ _)
  | ub => rfl

/-- **C46** (outside, three dimensions) -/
theorem C46_outside3 {α : Type} (N n0 nProc win : ℕ) (layer : ℕ → ℕ → α) (b0 b1 b2 : Range) (perm : ℕ → α) (i j : ℕ) (hi : b0.iMin ≤ i)
    (hi' : i < b0.iMin + b0.size) (hj : b1.iMin ≤ j) (hj' : j < b1.iMin + b1.size)
    (hout : nProc ≤ i / n0 ∨ win < (i % n0) * (4 * N * N) + 2 * N * j + b2.iMin + b2.size) :
    redistribute3 N n0 nProc win layer b0 b1 b2 perm = .ub := by
  cases hr : redistribute3 N n0 nProc win layer b0 b1 b2 perm with
  | ok res =>
    have := C46_window3 _ _ _ _ _ _ _ _ _ _ hr i j hi hi' hj hj'
    omega
  | throw =>
    unfold redistribute3 at hr
    split_ifs at hr
    exact absurd hr (redistLoop3_no_throw _ _ _ _ _ _ _ _ _ _ _)
  | ub => rfl

/-- Two planes on one process of which the window holds one. -/
example : redistribute2 1 1 1 2 (fun r q => 10 * r + q) ⟨0, 1⟩ ⟨0, 1⟩ (fun _ => 0) = .ub :=
  C46_outside2 _ _ _ _ _ _ _ _ 1 (by decide) (by decide) (.inl (by decide))

/-- **C46** Three dimensions. -/
theorem C46_redistribute3 {α : Type} (N n0 nProc win : ℕ) (layer : ℕ → ℕ → α) (G : ℕ → ℕ → ℕ → α) (b0 b1 b2 : Range)
    (perm : ℕ → α) (hN : 0 < N) (hn : 0 < n0) (hp : n0 * nProc = 2 * N) (hw : n0 * (4 * N * N) ≤ win)
    (hl : HoldsSlab n0 (4 * N * N) (fun i q => G i (q / (2 * N)) (q % (2 * N))) layer)
    (h0 : b0.iMin ≤ b0.iMax) (h0' : b0.iMax ≤ N) (h1 : b1.iMin ≤ b1.iMax) (h1' : b1.iMax ≤ N)
    (h2 : b2.iMin ≤ b2.iMax) (h2' : b2.iMax ≤ N) :
    ∃ res, redistribute3 N n0 nProc win layer b0 b1 b2 perm = .ok res ∧
      ∀ i j k, b0.iMin ≤ i → i ≤ b0.iMax → b1.iMin ≤ j → j ≤ b1.iMax → b2.iMin ≤ k → k ≤ b2.iMax →
        res (b2.size * (b1.size * (i - b0.iMin) + (j - b1.iMin)) + (k - b2.iMin)) = G i j k := by
  obtain ⟨res, e1, -, e3⟩ := redistLoop3_spec N n0 nProc win layer _ b1 b2 hN hn hp hw hl h1 h1' h2 h2' b0.size b0.iMin 0
    perm (by unfold Range.size; omega)
  refine ⟨res, by unfold redistribute3; rw [if_neg (by omega)]; exact e1, fun i j k hi hi' hj hj' hk hk' => ?_⟩
  have := e3 (i - b0.iMin) (j - b1.iMin) (k - b2.iMin) (by unfold Range.size; omega) (by unfold Range.size; omega)
    (by unfold Range.size; omega)
  rw [show b0.iMin + (i - b0.iMin) = i by omega, show b1.iMin + (j - b1.iMin) = j by omega,
    show b2.iMin + (k - b2.iMin) = k by omega] at this
  rw [show b2.size * (b1.size * (i - b0.iMin) + (j - b1.iMin)) + (k - b2.iMin) =
    0 + (i - b0.iMin) * (b1.size * b2.size) + (j - b1.iMin) * b2.size + (k - b2.iMin) by ring, this]
  have hlt : k < 2 * N := by omega
  congr 1
  · rw [Nat.mul_add_div (by omega), Nat.div_eq_of_lt hlt, Nat.add_zero]
  · rw [Nat.mul_add_mod, Nat.mod_eq_of_lt hlt]

/-- Non-vacuity: one segment per direction, two processes with one plane each. -/
example : ∃ layer : ℕ → ℕ → ℕ, HoldsSlab 1 (2 * 1) (fun i j => 10 * i + j) layer ∧ 1 * 2 = 2 * 1 :=
  ⟨fun r q => 10 * r + q, fun r i q hi hq => by simp; omega, rfl⟩

/-! ## C47, C48 -/

section
variable {K : Type} [Field K] [LinearOrder K] [IsStrictOrderedRing K] [FloorRing K]

omit [FloorRing K] in
theorem lerp_between {t a b lo hi : K} (h0 : 0 ≤ t) (h1 : t ≤ 1) (ha : lo ≤ a ∧ a ≤ hi) (hb : lo ≤ b ∧ b ≤ hi) :
    lo ≤ lerp t a b ∧ lerp t a b ≤ hi := by
  unfold lerp
  constructor <;> nlinarith [ha.1, ha.2, hb.1, hb.2]

theorem cellPos_bounds (N : ℕ) (b : Range) (x : K) (h : (b.iMin : K) ≤ x * N) :
    0 ≤ cellPos N b x ∧ cellPos N b x < 1 := by
  have h0 : 0 ≤ ⌊x * N - b.iMin⌋ := Int.floor_nonneg.mpr (by linarith)
  have hc : ((cellIndex N b x : ℕ) : K) = (⌊x * N - b.iMin⌋ : K) := by
    have : ((cellIndex N b x : ℕ) : ℤ) = ⌊x * N - b.iMin⌋ := Int.toNat_of_nonneg h0
    exact_mod_cast congrArg (Int.cast : ℤ → K) this
  unfold cellPos
  rw [hc]
  exact ⟨by linarith [Int.floor_le (x * N - (b.iMin : K))], by linarith [Int.lt_floor_add_one (x * N - (b.iMin : K))]⟩

/-- Position in the block: the cell and the position in it are those of the global coordinate. -/
theorem cell_global (N : ℕ) (b : Range) (x : K) (h : (b.iMin : K) ≤ x * N) :
    b.iMin + cellIndex N b x = ⌊x * N⌋.toNat ∧ cellPos N b x = Int.fract (x * N) := by
  have e : x * N - (b.iMin : K) = x * N - ((b.iMin : ℤ) : K) := by push_cast; rfl
  have hf : ⌊x * N - (b.iMin : K)⌋ = ⌊x * N⌋ - b.iMin := by rw [e, Int.floor_sub_intCast]
  have h0 : 0 ≤ ⌊x * N - (b.iMin : K)⌋ := Int.floor_nonneg.mpr (by linarith)
  have hc : ((cellIndex N b x : ℕ) : ℤ) = ⌊x * N - b.iMin⌋ := Int.toNat_of_nonneg h0
  constructor
  · omega
  · have hcK : ((cellIndex N b x : ℕ) : K) = (⌊x * N⌋ : K) - b.iMin := by
      have := congrArg (Int.cast : ℤ → K) (hc.trans hf)
      push_cast at this
      exact this
    unfold cellPos Int.fract
    rw [hcK]
    ring

/-- Below the upper end the cell is inside the block. -/
theorem cellIndex_lt (N : ℕ) (b : Range) (x : K) (h : (b.iMin : K) ≤ x * N) (h' : x * N < b.iMax) :
    cellIndex N b x + 1 < b.size := by
  have h0 : 0 ≤ ⌊x * N - (b.iMin : K)⌋ := Int.floor_nonneg.mpr (by linarith)
  have hc : ((cellIndex N b x : ℕ) : ℤ) = ⌊x * N - b.iMin⌋ := Int.toNat_of_nonneg h0
  have hlt : ⌊x * N - (b.iMin : K)⌋ < (b.iMax : ℤ) - b.iMin := by
    rw [Int.floor_lt]
    push_cast
    linarith
  unfold Range.size
  omega

omit [IsStrictOrderedRing K] [FloorRing K] in
theorem outside_iff (N : ℕ) (b : Range) (x : K) :
    outside N b x = true ↔ ¬ ((b.iMin : K) ≤ x * N ∧ x * N ≤ b.iMax) := by
  unfold outside
  simp only [Bool.or_eq_true, decide_eq_true_eq, not_and_or, not_le, gt_iff_lt]

/-- The selected part of an entry. -/
def component {K : Type} (part : ℕ) (v : K × K) : K := if part = 0 then v.1 else v.2

theorem read_ok {K : Type} {len c : ℕ} (perm : ℕ → K × K) (part : ℕ) (h : c < len) :
    read len perm part c = .ok (component part (perm c)) := by
  unfold read component
  rw [if_pos h]

/-- The point is in the block, below its upper faces, in one direction. -/
def Inside (N : ℕ) (b : Range) (x : K) : Prop := (b.iMin : K) ≤ x * N ∧ x * N < b.iMax

/-- Evaluation below the upper faces, two dimensions. -/
theorem evaluate2_ok (N : ℕ) (b0 b1 : Range) (perm : ℕ → K × K) (part : ℕ) (minimal x0 x1 : K)
    (h0 : Inside N b0 x0) (h1 : Inside N b1 x1) :
    evaluate2 N b0 b1 perm part minimal x0 x1 =
      .ok (max (bilinear (fun a b => component part (perm (b1.size * a + b))) (cellIndex N b0 x0) (cellIndex N b1 x1)
        (cellPos N b0 x0) (cellPos N b1 x1)) minimal) := by
  have i0 := cellIndex_lt N b0 x0 h0.1 h0.2
  have i1 := cellIndex_lt N b1 x1 h1.1 h1.2
  have o0 : ¬ outside N b0 x0 = true := by rw [outside_iff, not_not]; exact ⟨h0.1, h0.2.le⟩
  have o1 : ¬ outside N b1 x1 = true := by rw [outside_iff, not_not]; exact ⟨h1.1, h1.2.le⟩
  have hidx : ∀ a b, a < b0.size → b < b1.size → b1.size * a + b < b0.size * b1.size := by
    intro a b ha hb
    have : b1.size * (a + 1) ≤ b1.size * b0.size := Nat.mul_le_mul_left _ ha
    rw [mul_add, mul_one, mul_comm b1.size b0.size] at this
    omega
  unfold evaluate2
  rw [if_neg o0, if_neg o1]
  simp only [Nat.mul_zero, Nat.zero_add]
  rw [show b1.size * cellIndex N b0 x0 + cellIndex N b1 x1 + 1 =
      b1.size * cellIndex N b0 x0 + (cellIndex N b1 x1 + 1) by ring,
    show b1.size * cellIndex N b0 x0 + cellIndex N b1 x1 + b1.size + 1 =
      b1.size * (cellIndex N b0 x0 + 1) + (cellIndex N b1 x1 + 1) by ring,
    show b1.size * cellIndex N b0 x0 + cellIndex N b1 x1 + b1.size =
      b1.size * (cellIndex N b0 x0 + 1) + cellIndex N b1 x1 by ring]
  rw [read_ok _ _ (hidx _ _ (by omega) (by omega)), read_ok _ _ (hidx _ _ (by omega) (by omega)),
    read_ok _ _ (hidx _ _ (by omega) (by omega)), read_ok _ _ (hidx _ _ (by omega) (by omega))]
  simp only [Outcome.ok_bind]
  congr 2
  unfold bilinear lerp
  ring

/-- Evaluation below the upper faces, three dimensions. -/
theorem evaluate3_ok (N : ℕ) (b0 b1 b2 : Range) (perm : ℕ → K × K) (part : ℕ) (minimal x0 x1 x2 : K)
    (h0 : Inside N b0 x0) (h1 : Inside N b1 x1) (h2 : Inside N b2 x2) :
    evaluate3 N b0 b1 b2 perm part minimal x0 x1 x2 =
      .ok (max (trilinear (fun a b c => component part (perm (b2.size * (b1.size * a + b) + c)))
        (cellIndex N b0 x0) (cellIndex N b1 x1) (cellIndex N b2 x2)
        (cellPos N b0 x0) (cellPos N b1 x1) (cellPos N b2 x2)) minimal) := by
  have i0 := cellIndex_lt N b0 x0 h0.1 h0.2
  have i1 := cellIndex_lt N b1 x1 h1.1 h1.2
  have i2 := cellIndex_lt N b2 x2 h2.1 h2.2
  have o0 : ¬ outside N b0 x0 = true := by rw [outside_iff, not_not]; exact ⟨h0.1, h0.2.le⟩
  have o1 : ¬ outside N b1 x1 = true := by rw [outside_iff, not_not]; exact ⟨h1.1, h1.2.le⟩
  have o2 : ¬ outside N b2 x2 = true := by rw [outside_iff, not_not]; exact ⟨h2.1, h2.2.le⟩
  have hidx2 : ∀ a b, a < b0.size → b < b1.size → b1.size * a + b < b0.size * b1.size := by
    intro a b ha hb
    have : b1.size * (a + 1) ≤ b1.size * b0.size := Nat.mul_le_mul_left _ ha
    rw [mul_add, mul_one, mul_comm b1.size b0.size] at this
    omega
  have hidx : ∀ a b c, a < b0.size → b < b1.size → c < b2.size →
      b2.size * (b1.size * a + b) + c < b0.size * b1.size * b2.size := by
    intro a b c ha hb hc
    have : b2.size * (b1.size * a + b + 1) ≤ b2.size * (b0.size * b1.size) := Nat.mul_le_mul_left _ (hidx2 a b ha hb)
    rw [mul_add, mul_one, mul_comm b2.size (b0.size * b1.size)] at this
    omega
  unfold evaluate3
  rw [if_neg o0, if_neg o1, if_neg o2]
  simp only [Nat.mul_zero, Nat.zero_add]
  generalize hj0 : cellIndex N b0 x0 = j0 at *
  generalize hj1 : cellIndex N b1 x1 = j1 at *
  generalize hj2 : cellIndex N b2 x2 = j2 at *
  rw [show b2.size * (b1.size * j0 + j1) + j2 + b1.size * b2.size + b2.size + 1 =
      b2.size * (b1.size * (j0 + 1) + (j1 + 1)) + (j2 + 1) by ring,
    show b2.size * (b1.size * j0 + j1) + j2 + b1.size * b2.size + b2.size =
      b2.size * (b1.size * (j0 + 1) + (j1 + 1)) + j2 by ring,
    show b2.size * (b1.size * j0 + j1) + j2 + b1.size * b2.size + 1 =
      b2.size * (b1.size * (j0 + 1) + j1) + (j2 + 1) by ring,
    show b2.size * (b1.size * j0 + j1) + j2 + b1.size * b2.size =
      b2.size * (b1.size * (j0 + 1) + j1) + j2 by ring,
    show b2.size * (b1.size * j0 + j1) + j2 + b2.size + 1 =
      b2.size * (b1.size * j0 + (j1 + 1)) + (j2 + 1) by ring,
    show b2.size * (b1.size * j0 + j1) + j2 + b2.size =
      b2.size * (b1.size * j0 + (j1 + 1)) + j2 by ring,
    show b2.size * (b1.size * j0 + j1) + j2 + 1 =
      b2.size * (b1.size * j0 + j1) + (j2 + 1) by ring]
  rw [read_ok _ _ (hidx _ _ _ (by omega) (by omega) (by omega)),
    read_ok _ _ (hidx _ _ _ (by omega) (by omega) (by omega)),
    read_ok _ _ (hidx _ _ _ (by omega) (by omega) (by omega)),
    read_ok _ _ (hidx _ _ _ (by omega) (by omega) (by omega)),
    read_ok _ _ (hidx _ _ _ (by omega) (by omega) (by omega)),
    read_ok _ _ (hidx _ _ _ (by omega) (by omega) (by omega)),
    read_ok _ _ (hidx _ _ _ (by omega) (by omega) (by omega)),
    read_ok _ _ (hidx _ _ _ (by omega) (by omega) (by omega))]
  simp only [Outcome.ok_bind]
  congr 2
  unfold trilinear bilinear lerp
  ring

/-- The local array holds the field `G` on the block, two dimensions. -/
def HoldsBlock2 {α : Type} (G : ℕ → ℕ → α) (b0 b1 : Range) (perm : ℕ → α) : Prop :=
  ∀ i j, b0.iMin ≤ i → i ≤ b0.iMax → b1.iMin ≤ j → j ≤ b1.iMax → perm (b1.size * (i - b0.iMin) + (j - b1.iMin)) = G i j

/-- The local array holds the field `G` on the block, three dimensions. -/
def HoldsBlock3 {α : Type} (G : ℕ → ℕ → ℕ → α) (b0 b1 b2 : Range) (perm : ℕ → α) : Prop :=
  ∀ i j k, b0.iMin ≤ i → i ≤ b0.iMax → b1.iMin ≤ j → j ≤ b1.iMax → b2.iMin ≤ k → k ≤ b2.iMax →
    perm (b2.size * (b1.size * (i - b0.iMin) + (j - b1.iMin)) + (k - b2.iMin)) = G i j k

/-- **C46** Two dimensions: the value at a point depends only on the common field and the point, not on the block of the
process which evaluates it (below the upper faces of the block). -/
theorem C46_common_value2_partial (N : ℕ) (G : ℕ → ℕ → K × K) (b0 b1 : Range) (perm : ℕ → K × K) (part : ℕ) (minimal x0 x1 : K)
    (hG : HoldsBlock2 G b0 b1 perm) (h0 : Inside N b0 x0) (h1 : Inside N b1 x1) :
    evaluate2 N b0 b1 perm part minimal x0 x1 =
      .ok (max (bilinear (fun i j => component part (G i j)) ⌊x0 * N⌋.toNat ⌊x1 * N⌋.toNat
        (Int.fract (x0 * N)) (Int.fract (x1 * N))) minimal) := by
  rw [evaluate2_ok N b0 b1 perm part minimal x0 x1 h0 h1]
  obtain ⟨c0, t0⟩ := cell_global N b0 x0 h0.1
  obtain ⟨c1, t1⟩ := cell_global N b1 x1 h1.1
  have i0 := cellIndex_lt N b0 x0 h0.1 h0.2
  have i1 := cellIndex_lt N b1 x1 h1.1 h1.2
  unfold Range.size at i0 i1
  rw [← t0, ← t1, ← c0, ← c1]
  have e : ∀ a b, a ≤ 1 → b ≤ 1 → perm (b1.size * (cellIndex N b0 x0 + a) + (cellIndex N b1 x1 + b)) =
      G (b0.iMin + cellIndex N b0 x0 + a) (b1.iMin + cellIndex N b1 x1 + b) := by
    intro a b ha hb
    have := hG (b0.iMin + cellIndex N b0 x0 + a) (b1.iMin + cellIndex N b1 x1 + b) (by omega) (by omega) (by omega)
      (by omega)
    rw [← this]
    congr 2
    · congr 1; omega
    · omega
  have e00 := e 0 0 (by omega) (by omega)
  have e01 := e 0 1 (by omega) (by omega)
  have e10 := e 1 0 (by omega) (by omega)
  have e11 := e 1 1 (by omega) (by omega)
  simp only [Nat.add_zero] at e00 e01 e10 e11
  unfold bilinear
  simp only [e00, e01, e10, e11]

/-- **C46** Three dimensions. -/
theorem C46_common_value3_partial (N : ℕ) (G : ℕ → ℕ → ℕ → K × K) (b0 b1 b2 : Range) (perm : ℕ → K × K) (part : ℕ)
    (minimal x0 x1 x2 : K) (hG : HoldsBlock3 G b0 b1 b2 perm) (h0 : Inside N b0 x0) (h1 : Inside N b1 x1)
    (h2 : Inside N b2 x2) :
    evaluate3 N b0 b1 b2 perm part minimal x0 x1 x2 =
      .ok (max (trilinear (fun i j k => component part (G i j k)) ⌊x0 * N⌋.toNat ⌊x1 * N⌋.toNat ⌊x2 * N⌋.toNat
        (Int.fract (x0 * N)) (Int.fract (x1 * N)) (Int.fract (x2 * N))) minimal) := by
  rw [evaluate3_ok N b0 b1 b2 perm part minimal x0 x1 x2 h0 h1 h2]
  obtain ⟨c0, t0⟩ := cell_global N b0 x0 h0.1
  obtain ⟨c1, t1⟩ := cell_global N b1 x1 h1.1
  obtain ⟨c2, t2⟩ := cell_global N b2 x2 h2.1
  have i0 := cellIndex_lt N b0 x0 h0.1 h0.2
  have i1 := cellIndex_lt N b1 x1 h1.1 h1.2
  have i2 := cellIndex_lt N b2 x2 h2.1 h2.2
  unfold Range.size at i0 i1 i2
  rw [← t0, ← t1, ← t2, ← c0, ← c1, ← c2]
  have e : ∀ a b c, a ≤ 1 → b ≤ 1 → c ≤ 1 →
      perm (b2.size * (b1.size * (cellIndex N b0 x0 + a) + (cellIndex N b1 x1 + b)) + (cellIndex N b2 x2 + c)) =
      G (b0.iMin + cellIndex N b0 x0 + a) (b1.iMin + cellIndex N b1 x1 + b) (b2.iMin + cellIndex N b2 x2 + c) := by
    intro a b c ha hb hc
    have := hG (b0.iMin + cellIndex N b0 x0 + a) (b1.iMin + cellIndex N b1 x1 + b) (b2.iMin + cellIndex N b2 x2 + c)
      (by omega) (by omega) (by omega) (by omega) (by omega) (by omega)
    rw [← this]
    rw [show b0.iMin + cellIndex N b0 x0 + a - b0.iMin = cellIndex N b0 x0 + a by omega,
      show b1.iMin + cellIndex N b1 x1 + b - b1.iMin = cellIndex N b1 x1 + b by omega,
      show b2.iMin + cellIndex N b2 x2 + c - b2.iMin = cellIndex N b2 x2 + c by omega]
  have e000 := e 0 0 0 (by omega) (by omega) (by omega)
  have e001 := e 0 0 1 (by omega) (by omega) (by omega)
  have e010 := e 0 1 0 (by omega) (by omega) (by omega)
  have e011 := e 0 1 1 (by omega) (by omega) (by omega)
  have e100 := e 1 0 0 (by omega) (by omega) (by omega)
  have e101 := e 1 0 1 (by omega) (by omega) (by omega)
  have e110 := e 1 1 0 (by omega) (by omega) (by omega)
  have e111 := e 1 1 1 (by omega) (by omega) (by omega)
  simp only [Nat.add_zero] at e000 e001 e010 e011 e100 e101 e110 e111
  unfold trilinear bilinear
  simp only [e000, e001, e010, e011, e100, e101, e110, e111]

omit [FloorRing K] in
theorem bilinear_between (v : ℕ → ℕ → K) (j0 j1 : ℕ) (t0 t1 lo hi : K) (h0 : 0 ≤ t0 ∧ t0 ≤ 1) (h1 : 0 ≤ t1 ∧ t1 ≤ 1)
    (hv : ∀ a b, a ≤ 1 → b ≤ 1 → lo ≤ v (j0 + a) (j1 + b) ∧ v (j0 + a) (j1 + b) ≤ hi) :
    lo ≤ bilinear v j0 j1 t0 t1 ∧ bilinear v j0 j1 t0 t1 ≤ hi := by
  unfold bilinear
  exact lerp_between h0.1 h0.2
    (lerp_between h1.1 h1.2 (hv 0 0 (by omega) (by omega)) (hv 0 1 (by omega) (by omega)))
    (lerp_between h1.1 h1.2 (hv 1 0 (by omega) (by omega)) (hv 1 1 (by omega) (by omega)))

/-- **C47** Two dimensions, below the upper faces of the block: the value is the larger one of the cut-off and a number between the
smallest and the largest value at the corners of the cell; at a node it is the value there; it is at least the cut-off. -/
theorem C47_value2_partial (N : ℕ) (G : ℕ → ℕ → K × K) (b0 b1 : Range) (perm : ℕ → K × K) (part : ℕ) (minimal x0 x1 : K)
    (hG : HoldsBlock2 G b0 b1 perm) (h0 : Inside N b0 x0) (h1 : Inside N b1 x1) :
    ∃ k, evaluate2 N b0 b1 perm part minimal x0 x1 = .ok (max k minimal) ∧
      (∀ lo hi, (∀ a b, a ≤ 1 → b ≤ 1 →
          lo ≤ component part (G (⌊x0 * N⌋.toNat + a) (⌊x1 * N⌋.toNat + b)) ∧
          component part (G (⌊x0 * N⌋.toNat + a) (⌊x1 * N⌋.toNat + b)) ≤ hi) → lo ≤ k ∧ k ≤ hi) ∧
      (∀ n0 n1 : ℕ, x0 * N = n0 → x1 * N = n1 → k = component part (G n0 n1)) := by
  refine ⟨_, C46_common_value2_partial N G b0 b1 perm part minimal x0 x1 hG h0 h1, fun lo hi hv => ?_, fun n0 n1 e0 e1 => ?_⟩
  · exact bilinear_between _ _ _ _ _ lo hi ⟨Int.fract_nonneg _, (Int.fract_lt_one _).le⟩
      ⟨Int.fract_nonneg _, (Int.fract_lt_one _).le⟩ hv
  · rw [e0, e1]
    simp [bilinear, lerp]

/-- **C47** Three dimensions. -/
theorem C47_value3_partial (N : ℕ) (G : ℕ → ℕ → ℕ → K × K) (b0 b1 b2 : Range) (perm : ℕ → K × K) (part : ℕ)
    (minimal x0 x1 x2 : K) (hG : HoldsBlock3 G b0 b1 b2 perm) (h0 : Inside N b0 x0) (h1 : Inside N b1 x1)
    (h2 : Inside N b2 x2) :
    ∃ k, evaluate3 N b0 b1 b2 perm part minimal x0 x1 x2 = .ok (max k minimal) ∧
      (∀ lo hi, (∀ a b c, a ≤ 1 → b ≤ 1 → c ≤ 1 →
          lo ≤ component part (G (⌊x0 * N⌋.toNat + a) (⌊x1 * N⌋.toNat + b) (⌊x2 * N⌋.toNat + c)) ∧
          component part (G (⌊x0 * N⌋.toNat + a) (⌊x1 * N⌋.toNat + b) (⌊x2 * N⌋.toNat + c)) ≤ hi) → lo ≤ k ∧ k ≤ hi) ∧
      (∀ n0 n1 n2 : ℕ, x0 * N = n0 → x1 * N = n1 → x2 * N = n2 → k = component part (G n0 n1 n2)) := by
  refine ⟨_, C46_common_value3_partial N G b0 b1 b2 perm part minimal x0 x1 x2 hG h0 h1 h2, fun lo hi hv => ?_,
    fun n0 n1 n2 e0 e1 e2 => ?_⟩
  · unfold trilinear
    exact lerp_between (Int.fract_nonneg _) (Int.fract_lt_one _).le
      (bilinear_between _ _ _ _ _ lo hi ⟨Int.fract_nonneg _, (Int.fract_lt_one _).le⟩
        ⟨Int.fract_nonneg _, (Int.fract_lt_one _).le⟩ fun b c hb hc => hv 0 b c (by omega) hb hc)
      (bilinear_between _ _ _ _ _ lo hi ⟨Int.fract_nonneg _, (Int.fract_lt_one _).le⟩
        ⟨Int.fract_nonneg _, (Int.fract_lt_one _).le⟩ fun b c hb hc => hv 1 b c (by omega) hb hc)
  · rw [e0, e1, e2]
    simp [trilinear, bilinear, lerp]

theorem read_ne_throw {K : Type} (len : ℕ) (perm : ℕ → K × K) (part c : ℕ) : read len perm part c ≠ .throw := by
  unfold read
  split_ifs <;> simp

theorem read_cases {K : Type} (len : ℕ) (perm : ℕ → K × K) (part c : ℕ) :
    (c < len ∧ ∃ v, read len perm part c = .ok v) ∨ (len ≤ c ∧ read len perm part c = .ub) := by
  by_cases h : c < len
  · exact Or.inl ⟨h, _, read_ok perm part h⟩
  · exact Or.inr ⟨by omega, by unfold read; rw [if_neg h]⟩

omit [IsStrictOrderedRing K] in
/-- **C47** Points outside the local block, and only those, are rejected with a range error. -/
theorem C47_range_error (N : ℕ) (b0 b1 b2 : Range) (perm : ℕ → K × K) (part : ℕ) (minimal x0 x1 x2 : K) :
    (evaluate2 N b0 b1 perm part minimal x0 x1 = .throw ↔
      ¬ (((b0.iMin : K) ≤ x0 * N ∧ x0 * N ≤ b0.iMax) ∧ ((b1.iMin : K) ≤ x1 * N ∧ x1 * N ≤ b1.iMax))) ∧
    (evaluate3 N b0 b1 b2 perm part minimal x0 x1 x2 = .throw ↔
      ¬ (((b0.iMin : K) ≤ x0 * N ∧ x0 * N ≤ b0.iMax) ∧ ((b1.iMin : K) ≤ x1 * N ∧ x1 * N ≤ b1.iMax) ∧
        ((b2.iMin : K) ≤ x2 * N ∧ x2 * N ≤ b2.iMax))) := by
  have key : ∀ {β : Type} (len c : ℕ) (f : K → Outcome β), (∀ v, f v ≠ .throw) → (read len perm part c >>= f) ≠ .throw := by
    intro β len c f hf
    rcases read_cases len perm part c with ⟨-, v, h⟩ | ⟨-, h⟩ <;> rw [h]
    · exact hf v
    · simp
  constructor
  · unfold evaluate2
    by_cases o0 : outside N b0 x0 = true
    · rw [if_pos o0]
      have := (outside_iff N b0 x0).mp o0
      simp only [true_iff]
      tauto
    · rw [if_neg o0]
      by_cases o1 : outside N b1 x1 = true
      · rw [if_pos o1]
        have := (outside_iff N b1 x1).mp o1
        simp only [true_iff]
        tauto
      · rw [if_neg o1]
        rw [outside_iff, not_not] at o0 o1
        refine iff_of_false ?_ (by tauto)
        refine key _ _ _ fun _ => key _ _ _ fun _ => key _ _ _ fun _ => key _ _ _ fun _ => by simp
  · unfold evaluate3
    by_cases o0 : outside N b0 x0 = true
    · rw [if_pos o0]
      have := (outside_iff N b0 x0).mp o0
      simp only [true_iff]
      tauto
    · rw [if_neg o0]
      by_cases o1 : outside N b1 x1 = true
      · rw [if_pos o1]
        have := (outside_iff N b1 x1).mp o1
        simp only [true_iff]
        tauto
      · rw [if_neg o1]
        by_cases o2 : outside N b2 x2 = true
        · rw [if_pos o2]
          have := (outside_iff N b2 x2).mp o2
          simp only [true_iff]
          tauto
        · rw [if_neg o2]
          rw [outside_iff, not_not] at o0 o1 o2
          refine iff_of_false ?_ (by tauto)
          exact key _ _ _ fun _ => key _ _ _ fun _ => key _ _ _ fun _ => key _ _ _ fun _ =>
            key _ _ _ fun _ => key _ _ _ fun _ => key _ _ _ fun _ => key _ _ _ fun _ => by simp

omit [IsStrictOrderedRing K] in
/-- **C47** Every value returned is at least the cut-off. -/
theorem C47_at_least_minimal (N : ℕ) (b0 b1 b2 : Range) (perm : ℕ → K × K) (part : ℕ) (minimal x0 x1 x2 v : K) :
    (evaluate2 N b0 b1 perm part minimal x0 x1 = .ok v → minimal ≤ v) ∧
    (evaluate3 N b0 b1 b2 perm part minimal x0 x1 x2 = .ok v → minimal ≤ v) := by
  have key : ∀ (len c : ℕ) (f : K → Outcome K), (∀ u, f u = .ok v → minimal ≤ v) →
      (read len perm part c >>= f) = .ok v → minimal ≤ v := by
    intro len c f hf h
    rcases read_cases len perm part c with ⟨-, u, e⟩ | ⟨-, e⟩ <;> rw [e] at h
    · exact hf u h
    · simp at h
  have last : ∀ k : K, Outcome.ok (max k minimal) = .ok v → minimal ≤ v := by
    intro k h
    rw [← Outcome.ok.inj h]
    exact le_max_right _ _
  constructor
  · unfold evaluate2
    split_ifs
    · intro h; simp at h
    · intro h; simp at h
    · refine key _ _ _ fun _ => key _ _ _ fun _ => key _ _ _ fun _ => key _ _ _ fun _ => last _
  · unfold evaluate3
    split_ifs
    · intro h; simp at h
    · intro h; simp at h
    · intro h; simp at h
    · exact key _ _ _ fun _ => key _ _ _ fun _ => key _ _ _ fun _ => key _ _ _ fun _ =>
        key _ _ _ fun _ => key _ _ _ fun _ => key _ _ _ fun _ => key _ _ _ fun _ => last _

/-- **C48** (partial: below the upper faces) No value outside the block is read. -/
theorem C48_no_ub_partial (N : ℕ) (b0 b1 b2 : Range) (perm : ℕ → K × K) (part : ℕ) (minimal x0 x1 x2 : K)
    (h0 : Inside N b0 x0) (h1 : Inside N b1 x1) (h2 : Inside N b2 x2) :
    evaluate2 N b0 b1 perm part minimal x0 x1 ≠ .ub ∧ evaluate3 N b0 b1 b2 perm part minimal x0 x1 x2 ≠ .ub := by
  rw [evaluate2_ok N b0 b1 perm part minimal x0 x1 h0 h1, evaluate3_ok N b0 b1 b2 perm part minimal x0 x1 x2 h0 h1 h2]
  simp

theorem cellIndex_upper (N : ℕ) (b : Range) (x : K) (hb : b.iMin ≤ b.iMax) (h : x * N = b.iMax) :
    cellIndex N b x + 1 = b.size := by
  have hf : ⌊x * N - (b.iMin : K)⌋ = (b.iMax : ℤ) - b.iMin := by
    rw [h]
    have e : (b.iMax : K) - (b.iMin : K) = (((b.iMax : ℤ) - b.iMin : ℤ) : K) := by push_cast; rfl
    rw [e, Int.floor_intCast]
  unfold cellIndex Range.size
  rw [hf]
  omega

/-- **C48** (the negation) Every accepted point on the upper face in the first direction makes the evaluation read outside
the array, in two and three dimensions. -/
theorem C48_violated (N : ℕ) (b0 b1 b2 : Range) (perm : ℕ → K × K) (part : ℕ) (minimal x0 x1 x2 : K)
    (hb : b0.iMin ≤ b0.iMax) (h0 : x0 * N = b0.iMax) (h1 : (b1.iMin : K) ≤ x1 * N ∧ x1 * N ≤ b1.iMax)
    (h2 : (b2.iMin : K) ≤ x2 * N ∧ x2 * N ≤ b2.iMax) :
    evaluate2 N b0 b1 perm part minimal x0 x1 = .ub ∧ evaluate3 N b0 b1 b2 perm part minimal x0 x1 x2 = .ub := by
  have hb' : (b0.iMin : K) ≤ x0 * N := by rw [h0]; exact_mod_cast hb
  have o0 : ¬ outside N b0 x0 = true := by rw [outside_iff, not_not]; exact ⟨hb', h0.le⟩
  have o1 : ¬ outside N b1 x1 = true := by rw [outside_iff, not_not]; exact h1
  have o2 : ¬ outside N b2 x2 = true := by rw [outside_iff, not_not]; exact h2
  have hj := cellIndex_upper N b0 x0 hb h0
  have ub_of : ∀ {β : Type} (len c : ℕ) (f : K → Outcome β), len ≤ c → (read len perm part c >>= f) = .ub := by
    intro β len c f h
    rcases read_cases len perm part c with ⟨h', -⟩ | ⟨-, e⟩
    · omega
    · rw [e]; rfl
  have skip : ∀ {β : Type} (len c : ℕ) (f : K → Outcome β), (∀ u, f u = .ub) → (read len perm part c >>= f) = .ub := by
    intro β len c f hf
    rcases read_cases len perm part c with ⟨-, u, e⟩ | ⟨-, e⟩ <;> rw [e]
    · exact hf u
    · rfl
  constructor
  · unfold evaluate2
    rw [if_neg o0, if_neg o1]
    refine skip _ _ _ fun _ => skip _ _ _ fun _ => ub_of _ _ _ ?_
    have e : b0.size * b1.size = b1.size * cellIndex N b0 x0 + b1.size := by rw [← hj]; ring
    simp only [Nat.mul_zero, Nat.zero_add]
    omega
  · unfold evaluate3
    rw [if_neg o0, if_neg o1, if_neg o2]
    refine skip _ _ _ fun _ => skip _ _ _ fun _ => skip _ _ _ fun _ => skip _ _ _ fun _ => ub_of _ _ _ ?_
    have e : b0.size * b1.size * b2.size = b2.size * (b1.size * cellIndex N b0 x0) + b1.size * b2.size := by
      rw [← hj]; ring
    simp only [Nat.mul_zero, Nat.zero_add]
    rw [e, mul_add]
    omega

/-- In an accepted direction: the upper neighbour of the cell is outside the block iff the point is on the upper face, and
the one after it iff the point is in the last cell or on the upper face. -/
theorem cellIndex_iff (N : ℕ) (b : Range) (x : K) (h : (b.iMin : K) ≤ x * N) (h' : x * N ≤ b.iMax) :
    cellIndex N b x + 1 ≤ b.size ∧ (b.size ≤ cellIndex N b x + 1 ↔ x * N = b.iMax) ∧
    (b.size ≤ cellIndex N b x + 2 ↔ (b.iMax : K) ≤ x * N + 1) := by
  have h0 : 0 ≤ ⌊x * N - (b.iMin : K)⌋ := Int.floor_nonneg.mpr (by linarith)
  have hc : ((cellIndex N b x : ℕ) : ℤ) = ⌊x * N - b.iMin⌋ := Int.toNat_of_nonneg h0
  have hbb : b.iMin ≤ b.iMax := by
    have : (b.iMin : K) ≤ b.iMax := le_trans h h'
    exact_mod_cast this
  have hle : ⌊x * N - (b.iMin : K)⌋ ≤ (b.iMax : ℤ) - b.iMin := by
    have : ⌊x * N - (b.iMin : K)⌋ ≤ ⌊(((b.iMax : ℤ) - b.iMin : ℤ) : K)⌋ := by
      apply Int.floor_mono
      push_cast
      linarith
    rwa [Int.floor_intCast] at this
  have key : ∀ z : ℤ, z ≤ ⌊x * N - (b.iMin : K)⌋ ↔ (z : K) + b.iMin ≤ x * N := by
    intro z
    rw [Int.le_floor]
    constructor <;> intro h <;> linarith
  refine ⟨by unfold Range.size; omega, ?_, ?_⟩
  · have e : b.size ≤ cellIndex N b x + 1 ↔ (b.iMax : ℤ) - b.iMin ≤ ⌊x * N - (b.iMin : K)⌋ := by
      unfold Range.size; omega
    rw [e, key]
    push_cast
    constructor
    · intro h; linarith
    · intro h; linarith
  · have e : b.size ≤ cellIndex N b x + 2 ↔ (b.iMax : ℤ) - b.iMin - 1 ≤ ⌊x * N - (b.iMin : K)⌋ := by
      unfold Range.size; omega
    rw [e, key]
    push_cast
    constructor <;> intro h <;> linarith

/-- **C48** The exact condition in two dimensions: evaluation reads outside the array iff the point is accepted and is on the
upper face in the first direction, or in the last layer of cells and on the upper face in the second direction. -/
theorem C48_ub_iff2 (N : ℕ) (b0 b1 : Range) (perm : ℕ → K × K) (part : ℕ) (minimal x0 x1 : K) :
    evaluate2 N b0 b1 perm part minimal x0 x1 = .ub ↔
      (((b0.iMin : K) ≤ x0 * N ∧ x0 * N ≤ b0.iMax) ∧ ((b1.iMin : K) ≤ x1 * N ∧ x1 * N ≤ b1.iMax)) ∧
      (x0 * N = b0.iMax ∨ ((b0.iMax : K) ≤ x0 * N + 1 ∧ x1 * N = b1.iMax)) := by
  by_cases hacc : ((b0.iMin : K) ≤ x0 * N ∧ x0 * N ≤ b0.iMax) ∧ ((b1.iMin : K) ≤ x1 * N ∧ x1 * N ≤ b1.iMax)
  · have o0 : ¬ outside N b0 x0 = true := by rw [outside_iff, not_not]; exact hacc.1
    have o1 : ¬ outside N b1 x1 = true := by rw [outside_iff, not_not]; exact hacc.2
    obtain ⟨a0, a1, a2⟩ := cellIndex_iff N b0 x0 hacc.1.1 hacc.1.2
    obtain ⟨c0, c1, -⟩ := cellIndex_iff N b1 x1 hacc.2.1 hacc.2.2
    have step1 : evaluate2 N b0 b1 perm part minimal x0 x1 = .ub ↔
        b0.size * b1.size ≤ b1.size * cellIndex N b0 x0 + cellIndex N b1 x1 + b1.size + 1 := by
      have hs : 0 < b1.size := by unfold Range.size; omega
      unfold evaluate2
      rw [if_neg o0, if_neg o1]
      simp only [Nat.mul_zero, Nat.zero_add]
      constructor
      · intro h
        by_contra hlt
        rw [read_ok _ _ (by omega), read_ok _ _ (by omega), read_ok _ _ (by omega), read_ok _ _ (by omega)] at h
        simp at h
      · intro h
        have skip : ∀ {β : Type} (len c : ℕ) (f : K → Outcome β), (∀ u, f u = .ub) →
            (read len perm part c >>= f) = .ub := by
          intro β len c f hf
          rcases read_cases len perm part c with ⟨-, u, e⟩ | ⟨-, e⟩ <;> rw [e]
          · exact hf u
          · rfl
        refine skip _ _ _ fun _ => skip _ _ _ fun _ => skip _ _ _ fun _ => ?_
        unfold read
        rw [if_neg (by omega)]
        rfl
    rw [step1, ← a1, ← a2, ← c1]
    simp only [hacc, true_and, and_self]
    generalize cellIndex N b0 x0 = j0 at *
    generalize cellIndex N b1 x1 = j1 at *
    rcases Nat.lt_trichotomy b0.size (j0 + 2) with h | h | h
    · have e : b0.size = j0 + 1 := by omega
      rw [e]
      refine iff_of_true ?_ (Or.inl (le_refl _))
      rw [add_mul, one_mul, mul_comm]
      omega
    · rw [h]
      have e : (j0 + 2) * b1.size = b1.size * j0 + 2 * b1.size := by ring
      rw [e]
      omega
    · have e : (j0 + 3) * b1.size ≤ b0.size * b1.size := Nat.mul_le_mul_right _ h
      have e' : (j0 + 3) * b1.size = b1.size * j0 + 3 * b1.size := by ring
      rw [e'] at e
      refine iff_of_false (by omega) (by omega)
  · have ht := (C47_range_error N b0 b1 b1 perm part minimal x0 x1 x1).1.mpr hacc
    rw [ht]
    simp [hacc]

/-- **C48** The exact condition in three dimensions, for blocks with more than one node in the second direction: evaluation reads outside the array
iff the point is accepted and is on the upper face in the first direction, or in the last layer of cells and on the upper face in the second direction,
or in the last row of cells and on the upper face in the third direction. -/
theorem C48_ub_iff3 (N : ℕ) (b0 b1 b2 : Range) (hb1 : b1.iMin < b1.iMax) (perm : ℕ → K × K) (part : ℕ) (minimal x0 x1 x2 : K) :
    evaluate3 N b0 b1 b2 perm part minimal x0 x1 x2 = .ub ↔
      (((b0.iMin : K) ≤ x0 * N ∧ x0 * N ≤ b0.iMax) ∧ ((b1.iMin : K) ≤ x1 * N ∧ x1 * N ≤ b1.iMax) ∧
        ((b2.iMin : K) ≤ x2 * N ∧ x2 * N ≤ b2.iMax)) ∧
      (x0 * N = b0.iMax ∨ ((b0.iMax : K) ≤ x0 * N + 1 ∧ (x1 * N = b1.iMax ∨ ((b1.iMax : K) ≤ x1 * N + 1 ∧ x2 * N = b2.iMax)))) := by
  by_cases hacc : ((b0.iMin : K) ≤ x0 * N ∧ x0 * N ≤ b0.iMax) ∧ ((b1.iMin : K) ≤ x1 * N ∧ x1 * N ≤ b1.iMax) ∧
      ((b2.iMin : K) ≤ x2 * N ∧ x2 * N ≤ b2.iMax)
  · have o0 : ¬ outside N b0 x0 = true := by rw [outside_iff, not_not]; exact hacc.1
    have o1 : ¬ outside N b1 x1 = true := by rw [outside_iff, not_not]; exact hacc.2.1
    have o2 : ¬ outside N b2 x2 = true := by rw [outside_iff, not_not]; exact hacc.2.2
    obtain ⟨a0, a1, a2⟩ := cellIndex_iff N b0 x0 hacc.1.1 hacc.1.2
    obtain ⟨c0, c1, c2⟩ := cellIndex_iff N b1 x1 hacc.2.1.1 hacc.2.1.2
    obtain ⟨e0, e1, -⟩ := cellIndex_iff N b2 x2 hacc.2.2.1 hacc.2.2.2
    have hs1 : 2 ≤ b1.size := by unfold Range.size; omega
    have hs2 : 0 < b2.size := by unfold Range.size; omega
    have step1 : evaluate3 N b0 b1 b2 perm part minimal x0 x1 x2 = .ub ↔
        b0.size * b1.size * b2.size ≤
          b2.size * (b1.size * cellIndex N b0 x0 + cellIndex N b1 x1) + cellIndex N b2 x2 + b1.size * b2.size + b2.size + 1 := by
      unfold evaluate3
      rw [if_neg o0, if_neg o1, if_neg o2]
      simp only [Nat.mul_zero, Nat.zero_add]
      generalize b2.size * (b1.size * cellIndex N b0 x0 + cellIndex N b1 x1) = P
      have hQ : 2 * b2.size ≤ b1.size * b2.size := Nat.mul_le_mul_right _ hs1
      generalize b1.size * b2.size = Q at *
      constructor
      · intro h
        by_contra hlt
        rw [read_ok _ _ (by omega), read_ok _ _ (by omega), read_ok _ _ (by omega), read_ok _ _ (by omega), read_ok _ _ (by omega),
          read_ok _ _ (by omega), read_ok _ _ (by omega), read_ok _ _ (by omega)] at h
        simp at h
      · intro h
        have skip : ∀ {β : Type} (len c : ℕ) (f : K → Outcome β), (∀ u, f u = .ub) →
            (read len perm part c >>= f) = .ub := by
          intro β len c f hf
          rcases read_cases len perm part c with ⟨-, u, e⟩ | ⟨-, e⟩ <;> rw [e]
          · exact hf u
          · rfl
        refine skip _ _ _ fun _ => skip _ _ _ fun _ => skip _ _ _ fun _ => skip _ _ _ fun _ => skip _ _ _ fun _ => skip _ _ _ fun _ =>
          skip _ _ _ fun _ => ?_
        unfold read
        rw [if_neg (by omega)]
        rfl
    rw [step1, ← a1, ← a2, ← c1, ← c2, ← e1]
    simp only [hacc, true_and, and_self]
    generalize cellIndex N b0 x0 = j0 at *
    generalize cellIndex N b1 x1 = j1 at *
    generalize cellIndex N b2 x2 = j2 at *
    have hP : b2.size * (b1.size * j0 + j1) = j0 * (b1.size * b2.size) + j1 * b2.size := by ring
    rw [hP, mul_assoc]
    have hQ : 2 * b2.size ≤ b1.size * b2.size := Nat.mul_le_mul_right _ hs1
    have hR : (j1 + 1) * b2.size ≤ b1.size * b2.size := Nat.mul_le_mul_right _ c0
    rw [add_mul, one_mul] at hR
    rcases Nat.lt_trichotomy b0.size (j0 + 2) with h | h | h
    · have e : b0.size = j0 + 1 := by omega
      rw [e]
      refine iff_of_true ?_ (Or.inl (le_refl _))
      rw [add_mul, one_mul]
      omega
    · rw [h, add_mul j0 2]
      have e : ¬ j0 + 2 ≤ j0 + 1 := by omega
      simp only [le_refl, true_and, e, false_or]
      rcases Nat.lt_trichotomy b1.size (j1 + 2) with h' | h' | h'
      · have e' : b1.size = j1 + 1 := by omega
        refine iff_of_true ?_ (Or.inl (by omega))
        rw [e', add_mul, one_mul]
        omega
      · rw [h', add_mul j1 2]
        have e' : ¬ j1 + 2 ≤ j1 + 1 := by omega
        simp only [le_refl, true_and, e', false_or]
        omega
      · have e' : (j1 + 3) * b2.size ≤ b1.size * b2.size := Nat.mul_le_mul_right _ h'
        rw [add_mul] at e'
        refine iff_of_false (by omega) (by omega)
    · have e : (j0 + 3) * (b1.size * b2.size) ≤ b0.size * (b1.size * b2.size) := Nat.mul_le_mul_right _ h
      rw [add_mul] at e
      refine iff_of_false ?_ (by omega)
      omega
  · have ht := (C47_range_error N b0 b1 b2 perm part minimal x0 x1 x2).2.mpr hacc
    rw [ht]
    simp [hacc]

omit [Field K] [IsStrictOrderedRing K] [FloorRing K] [LinearOrder K] in
theorem read_of_ok {len c : ℕ} {perm : ℕ → K × K} {part : ℕ} {f : K → Outcome K} {v : K} (h : (read len perm part c >>= f) = .ok v) :
    c < len ∧ f (component part (perm c)) = .ok v := by
  by_cases hc : c < len
  · rw [read_ok perm part hc] at h
    exact ⟨hc, h⟩
  · rw [read, if_neg hc] at h
    simp at h

omit [IsStrictOrderedRing K] [FloorRing K] [LinearOrder K] in
theorem lerp_congr {t p p' q q' : K} (hp : p = p') (hq : t ≠ 0 → q = q') : lerp t p q = lerp t p' q' := by
  subst hp
  by_cases ht : t = 0
  · simp [lerp, ht]
  · rw [hq ht]

/-- A position in the cell that is not zero means that the upper neighbour is in the block. -/
theorem cell_upper (N : ℕ) (b : Range) (x : K) (h : (b.iMin : K) ≤ x * N) (h' : x * N ≤ b.iMax) (ht : Int.fract (x * N) ≠ 0) :
    b.iMin + cellIndex N b x + 1 ≤ b.iMax := by
  have := cellIndex_iff N b x h h'
  have hne : x * N ≠ b.iMax := by
    intro e
    rw [e] at ht
    exact ht (Int.fract_natCast _)
  have h3 : ¬ b.size ≤ cellIndex N b x + 1 := fun e => hne (this.2.1.mp e)
  unfold Range.size at h3
  omega

theorem cell_in (N : ℕ) (b : Range) (x : K) (h : (b.iMin : K) ≤ x * N) (h' : x * N ≤ b.iMax) :
    b.iMin + cellIndex N b x ≤ b.iMax := by
  have := (cellIndex_iff N b x h h').1
  have hbb : b.iMin ≤ b.iMax := by
    have : (b.iMin : K) ≤ b.iMax := le_trans h h'
    exact_mod_cast this
  unfold Range.size at this
  omega

/-- **C46** Two dimensions: every value that is returned depends only on the common field and the point, not on the block of the process which
evaluates it. -/
theorem C46_common_value2 (N : ℕ) (G : ℕ → ℕ → K × K) (b0 b1 : Range) (perm : ℕ → K × K) (part : ℕ) (minimal x0 x1 v : K)
    (hG : HoldsBlock2 G b0 b1 perm) (h : evaluate2 N b0 b1 perm part minimal x0 x1 = .ok v) :
    v = max (bilinear (fun i j => component part (G i j)) ⌊x0 * N⌋.toNat ⌊x1 * N⌋.toNat
        (Int.fract (x0 * N)) (Int.fract (x1 * N))) minimal := by
  unfold evaluate2 at h
  by_cases o0 : outside N b0 x0 = true
  · rw [if_pos o0] at h; simp at h
  by_cases o1 : outside N b1 x1 = true
  · rw [if_neg o0, if_pos o1] at h; simp at h
  rw [if_neg o0, if_neg o1] at h
  rw [outside_iff, not_not] at o0 o1
  simp only [Nat.mul_zero, Nat.zero_add] at h
  obtain ⟨-, h⟩ := read_of_ok h
  obtain ⟨-, h⟩ := read_of_ok h
  obtain ⟨l10, h⟩ := read_of_ok h
  obtain ⟨-, h⟩ := read_of_ok h
  obtain ⟨c0, t0⟩ := cell_global N b0 x0 o0.1
  obtain ⟨c1, t1⟩ := cell_global N b1 x1 o1.1
  have i0 := cell_in N b0 x0 o0.1 o0.2
  have i1 := cell_in N b1 x1 o1.1 o1.2
  have u1 := cell_upper N b1 x1 o1.1 o1.2
  have u0 : b0.iMin + cellIndex N b0 x0 + 1 ≤ b0.iMax := by
    by_contra hc
    have e : b0.size = cellIndex N b0 x0 + 1 := by unfold Range.size; omega
    rw [e, add_mul, one_mul, mul_comm] at l10
    omega
  rw [← Outcome.ok.inj h, t0, t1]
  congr 1
  have e : ∀ a b, a ≤ 1 → b1.iMin + cellIndex N b1 x1 + b ≤ b1.iMax →
      perm (b1.size * (cellIndex N b0 x0 + a) + (cellIndex N b1 x1 + b)) =
        G (b0.iMin + cellIndex N b0 x0 + a) (b1.iMin + cellIndex N b1 x1 + b) := by
    intro a b ha hb
    rw [← hG (b0.iMin + cellIndex N b0 x0 + a) (b1.iMin + cellIndex N b1 x1 + b) (by omega) (by omega) (by omega) hb]
    rw [show b0.iMin + cellIndex N b0 x0 + a - b0.iMin = cellIndex N b0 x0 + a by omega,
      show b1.iMin + cellIndex N b1 x1 + b - b1.iMin = cellIndex N b1 x1 + b by omega]
  refine Eq.trans (b := bilinear (fun a b => component part (perm (b1.size * a + b))) (cellIndex N b0 x0) (cellIndex N b1 x1)
        (Int.fract (x0 * N)) (Int.fract (x1 * N))) ?_ ?_
  · rw [show b1.size * cellIndex N b0 x0 + cellIndex N b1 x1 + 1 =
        b1.size * cellIndex N b0 x0 + (cellIndex N b1 x1 + 1) by ring,
      show b1.size * cellIndex N b0 x0 + cellIndex N b1 x1 + b1.size + 1 =
        b1.size * (cellIndex N b0 x0 + 1) + (cellIndex N b1 x1 + 1) by ring,
      show b1.size * cellIndex N b0 x0 + cellIndex N b1 x1 + b1.size =
        b1.size * (cellIndex N b0 x0 + 1) + cellIndex N b1 x1 by ring]
    unfold bilinear lerp
    ring
  · rw [← c0, ← c1]
    unfold bilinear
    exact lerp_congr (lerp_congr (congrArg _ (e 0 0 (by omega) i1)) fun ht => congrArg _ (e 0 1 (by omega) (u1 ht)))
      fun _ => lerp_congr (congrArg _ (e 1 0 (by omega) i1)) fun ht => congrArg _ (e 1 1 (by omega) (u1 ht))

/-- **C46** Three dimensions. -/
theorem C46_common_value3 (N : ℕ) (G : ℕ → ℕ → ℕ → K × K) (b0 b1 b2 : Range) (perm : ℕ → K × K) (part : ℕ)
    (minimal x0 x1 x2 v : K) (hG : HoldsBlock3 G b0 b1 b2 perm) (h : evaluate3 N b0 b1 b2 perm part minimal x0 x1 x2 = .ok v) :
    v = max (trilinear (fun i j k => component part (G i j k)) ⌊x0 * N⌋.toNat ⌊x1 * N⌋.toNat ⌊x2 * N⌋.toNat
        (Int.fract (x0 * N)) (Int.fract (x1 * N)) (Int.fract (x2 * N))) minimal := by
  unfold evaluate3 at h
  by_cases o0 : outside N b0 x0 = true
  · rw [if_pos o0] at h; simp at h
  by_cases o1 : outside N b1 x1 = true
  · rw [if_neg o0, if_pos o1] at h; simp at h
  by_cases o2 : outside N b2 x2 = true
  · rw [if_neg o0, if_neg o1, if_pos o2] at h; simp at h
  rw [if_neg o0, if_neg o1, if_neg o2] at h
  rw [outside_iff, not_not] at o0 o1 o2
  simp only [Nat.mul_zero, Nat.zero_add] at h
  obtain ⟨-, h⟩ := read_of_ok h
  obtain ⟨-, h⟩ := read_of_ok h
  obtain ⟨-, h⟩ := read_of_ok h
  obtain ⟨-, h⟩ := read_of_ok h
  obtain ⟨l100, h⟩ := read_of_ok h
  obtain ⟨-, h⟩ := read_of_ok h
  obtain ⟨-, h⟩ := read_of_ok h
  obtain ⟨-, h⟩ := read_of_ok h
  obtain ⟨c0, t0⟩ := cell_global N b0 x0 o0.1
  obtain ⟨c1, t1⟩ := cell_global N b1 x1 o1.1
  obtain ⟨c2, t2⟩ := cell_global N b2 x2 o2.1
  have i0 := cell_in N b0 x0 o0.1 o0.2
  have i1 := cell_in N b1 x1 o1.1 o1.2
  have i2 := cell_in N b2 x2 o2.1 o2.2
  have u1 := cell_upper N b1 x1 o1.1 o1.2
  have u2 := cell_upper N b2 x2 o2.1 o2.2
  have u0 : b0.iMin + cellIndex N b0 x0 + 1 ≤ b0.iMax := by
    by_contra hc
    have e : b0.size = cellIndex N b0 x0 + 1 := by unfold Range.size; omega
    rw [e, show (cellIndex N b0 x0 + 1) * b1.size * b2.size = b2.size * (b1.size * cellIndex N b0 x0) + b1.size * b2.size by ring,
      mul_add] at l100
    omega
  rw [← Outcome.ok.inj h, t0, t1, t2]
  congr 1
  have e : ∀ a b c, a ≤ 1 → b1.iMin + cellIndex N b1 x1 + b ≤ b1.iMax → b2.iMin + cellIndex N b2 x2 + c ≤ b2.iMax →
      perm (b2.size * (b1.size * (cellIndex N b0 x0 + a) + (cellIndex N b1 x1 + b)) + (cellIndex N b2 x2 + c)) =
        G (b0.iMin + cellIndex N b0 x0 + a) (b1.iMin + cellIndex N b1 x1 + b) (b2.iMin + cellIndex N b2 x2 + c) := by
    intro a b c ha hb hc
    rw [← hG (b0.iMin + cellIndex N b0 x0 + a) (b1.iMin + cellIndex N b1 x1 + b) (b2.iMin + cellIndex N b2 x2 + c)
      (by omega) (by omega) (by omega) hb (by omega) hc]
    rw [show b0.iMin + cellIndex N b0 x0 + a - b0.iMin = cellIndex N b0 x0 + a by omega,
      show b1.iMin + cellIndex N b1 x1 + b - b1.iMin = cellIndex N b1 x1 + b by omega,
      show b2.iMin + cellIndex N b2 x2 + c - b2.iMin = cellIndex N b2 x2 + c by omega]
  refine Eq.trans (b := trilinear (fun a b c => component part (perm (b2.size * (b1.size * a + b) + c))) (cellIndex N b0 x0)
    (cellIndex N b1 x1) (cellIndex N b2 x2) (Int.fract (x0 * N)) (Int.fract (x1 * N)) (Int.fract (x2 * N))) ?_ ?_
  · generalize cellIndex N b0 x0 = j0
    generalize cellIndex N b1 x1 = j1
    generalize cellIndex N b2 x2 = j2
    rw [show b2.size * (b1.size * j0 + j1) + j2 + b1.size * b2.size + b2.size + 1 =
        b2.size * (b1.size * (j0 + 1) + (j1 + 1)) + (j2 + 1) by ring,
      show b2.size * (b1.size * j0 + j1) + j2 + b1.size * b2.size + b2.size =
        b2.size * (b1.size * (j0 + 1) + (j1 + 1)) + j2 by ring,
      show b2.size * (b1.size * j0 + j1) + j2 + b1.size * b2.size + 1 =
        b2.size * (b1.size * (j0 + 1) + j1) + (j2 + 1) by ring,
      show b2.size * (b1.size * j0 + j1) + j2 + b1.size * b2.size =
        b2.size * (b1.size * (j0 + 1) + j1) + j2 by ring,
      show b2.size * (b1.size * j0 + j1) + j2 + b2.size + 1 =
        b2.size * (b1.size * j0 + (j1 + 1)) + (j2 + 1) by ring,
      show b2.size * (b1.size * j0 + j1) + j2 + b2.size =
        b2.size * (b1.size * j0 + (j1 + 1)) + j2 by ring,
      show b2.size * (b1.size * j0 + j1) + j2 + 1 =
        b2.size * (b1.size * j0 + j1) + (j2 + 1) by ring]
    unfold trilinear bilinear lerp
    ring
  · rw [← c0, ← c1, ← c2]
    unfold trilinear bilinear
    have half : ∀ a, a ≤ 1 → lerp (Int.fract (x1 * (N : K)))
          (lerp (Int.fract (x2 * (N : K)))
            (component part (perm (b2.size * (b1.size * (cellIndex N b0 x0 + a) + cellIndex N b1 x1) + cellIndex N b2 x2)))
            (component part (perm (b2.size * (b1.size * (cellIndex N b0 x0 + a) + cellIndex N b1 x1) + (cellIndex N b2 x2 + 1)))))
          (lerp (Int.fract (x2 * (N : K)))
            (component part (perm (b2.size * (b1.size * (cellIndex N b0 x0 + a) + (cellIndex N b1 x1 + 1)) + cellIndex N b2 x2)))
            (component part (perm (b2.size * (b1.size * (cellIndex N b0 x0 + a) + (cellIndex N b1 x1 + 1)) + (cellIndex N b2 x2 + 1))))) =
        lerp (Int.fract (x1 * (N : K)))
          (lerp (Int.fract (x2 * (N : K)))
            (component part (G (b0.iMin + cellIndex N b0 x0 + a) (b1.iMin + cellIndex N b1 x1) (b2.iMin + cellIndex N b2 x2)))
            (component part (G (b0.iMin + cellIndex N b0 x0 + a) (b1.iMin + cellIndex N b1 x1) (b2.iMin + cellIndex N b2 x2 + 1))))
          (lerp (Int.fract (x2 * (N : K)))
            (component part (G (b0.iMin + cellIndex N b0 x0 + a) (b1.iMin + cellIndex N b1 x1 + 1) (b2.iMin + cellIndex N b2 x2)))
            (component part (G (b0.iMin + cellIndex N b0 x0 + a) (b1.iMin + cellIndex N b1 x1 + 1) (b2.iMin + cellIndex N b2 x2 + 1)))) :=
      fun a ha => lerp_congr
        (lerp_congr (congrArg _ (e a 0 0 ha i1 i2)) fun h2 => congrArg _ (e a 0 1 ha i1 (u2 h2)))
        fun h1 => lerp_congr (congrArg _ (e a 1 0 ha (u1 h1) i2)) fun h2 => congrArg _ (e a 1 1 ha (u1 h1) (u2 h2))
    exact lerp_congr (half 0 (by omega)) fun _ => half 1 (by omega)

omit [FloorRing K] in
theorem lerp_between_weighted {t a b lo hi : K} (h0 : 0 ≤ t) (h1 : t ≤ 1) (ha : lo ≤ a ∧ a ≤ hi) (hb : t ≠ 0 → lo ≤ b ∧ b ≤ hi) :
    lo ≤ lerp t a b ∧ lerp t a b ≤ hi := by
  by_cases ht : t = 0
  · simpa [lerp, ht] using ha
  · exact lerp_between h0 h1 ha (hb ht)

omit [FloorRing K] in
theorem bilinear_between_weighted (v : ℕ → ℕ → K) (j0 j1 : ℕ) (t0 t1 lo hi : K) (h0 : 0 ≤ t0 ∧ t0 ≤ 1) (h1 : 0 ≤ t1 ∧ t1 ≤ 1)
    (hv : ∀ a b, a ≤ 1 → b ≤ 1 → (a = 1 → t0 ≠ 0) → (b = 1 → t1 ≠ 0) → lo ≤ v (j0 + a) (j1 + b) ∧ v (j0 + a) (j1 + b) ≤ hi) :
    lo ≤ bilinear v j0 j1 t0 t1 ∧ bilinear v j0 j1 t0 t1 ≤ hi := by
  unfold bilinear
  exact lerp_between_weighted h0.1 h0.2
    (lerp_between_weighted h1.1 h1.2 (hv 0 0 (by omega) (by omega) (by omega) (by omega))
      fun t1 => hv 0 1 (by omega) (by omega) (by omega) fun _ => t1)
    fun t0 => lerp_between_weighted h1.1 h1.2 (hv 1 0 (by omega) (by omega) (fun _ => t0) (by omega))
      fun t1 => hv 1 1 (by omega) (by omega) (fun _ => t0) fun _ => t1

/-- **C47** Two dimensions: every value that is returned is the larger one of the cut-off and a number between the smallest and the largest value at the
corners of the cell, of which only those below the point count where the point is on a face of the cell; at a node it is the value there. -/
theorem C47_value2 (N : ℕ) (G : ℕ → ℕ → K × K) (b0 b1 : Range) (perm : ℕ → K × K) (part : ℕ) (minimal x0 x1 v : K)
    (hG : HoldsBlock2 G b0 b1 perm) (h : evaluate2 N b0 b1 perm part minimal x0 x1 = .ok v) :
    ∃ k, v = max k minimal ∧
      (∀ lo hi, (∀ a b, a ≤ 1 → b ≤ 1 → (a = 1 → Int.fract (x0 * N) ≠ 0) → (b = 1 → Int.fract (x1 * N) ≠ 0) →
          lo ≤ component part (G (⌊x0 * N⌋.toNat + a) (⌊x1 * N⌋.toNat + b)) ∧
          component part (G (⌊x0 * N⌋.toNat + a) (⌊x1 * N⌋.toNat + b)) ≤ hi) → lo ≤ k ∧ k ≤ hi) ∧
      (∀ n0 n1 : ℕ, x0 * N = n0 → x1 * N = n1 → k = component part (G n0 n1)) := by
  refine ⟨_, C46_common_value2 N G b0 b1 perm part minimal x0 x1 v hG h, fun lo hi hv => ?_, fun n0 n1 e0 e1 => ?_⟩
  · exact bilinear_between_weighted _ _ _ _ _ lo hi ⟨Int.fract_nonneg _, (Int.fract_lt_one _).le⟩
      ⟨Int.fract_nonneg _, (Int.fract_lt_one _).le⟩ hv
  · rw [e0, e1]
    simp [bilinear, lerp]

/-- **C47** Three dimensions. -/
theorem C47_value3 (N : ℕ) (G : ℕ → ℕ → ℕ → K × K) (b0 b1 b2 : Range) (perm : ℕ → K × K) (part : ℕ)
    (minimal x0 x1 x2 v : K) (hG : HoldsBlock3 G b0 b1 b2 perm) (h : evaluate3 N b0 b1 b2 perm part minimal x0 x1 x2 = .ok v) :
    ∃ k, v = max k minimal ∧
      (∀ lo hi, (∀ a b c, a ≤ 1 → b ≤ 1 → c ≤ 1 → (a = 1 → Int.fract (x0 * N) ≠ 0) → (b = 1 → Int.fract (x1 * N) ≠ 0) →
          (c = 1 → Int.fract (x2 * N) ≠ 0) →
          lo ≤ component part (G (⌊x0 * N⌋.toNat + a) (⌊x1 * N⌋.toNat + b) (⌊x2 * N⌋.toNat + c)) ∧
          component part (G (⌊x0 * N⌋.toNat + a) (⌊x1 * N⌋.toNat + b) (⌊x2 * N⌋.toNat + c)) ≤ hi) → lo ≤ k ∧ k ≤ hi) ∧
      (∀ n0 n1 n2 : ℕ, x0 * N = n0 → x1 * N = n1 → x2 * N = n2 → k = component part (G n0 n1 n2)) := by
  refine ⟨_, C46_common_value3 N G b0 b1 b2 perm part minimal x0 x1 x2 v hG h, fun lo hi hv => ?_,
    fun n0 n1 n2 e0 e1 e2 => ?_⟩
  · unfold trilinear
    exact lerp_between_weighted (Int.fract_nonneg _) (Int.fract_lt_one _).le
      (bilinear_between_weighted _ _ _ _ _ lo hi ⟨Int.fract_nonneg _, (Int.fract_lt_one _).le⟩
        ⟨Int.fract_nonneg _, (Int.fract_lt_one _).le⟩ fun b c hb hc => hv 0 b c (by omega) hb hc (by omega))
      fun t0 => bilinear_between_weighted _ _ _ _ _ lo hi ⟨Int.fract_nonneg _, (Int.fract_lt_one _).le⟩
        ⟨Int.fract_nonneg _, (Int.fract_lt_one _).le⟩ fun b c hb hc => hv 1 b c (by omega) hb hc fun _ => t0
  · rw [e0, e1, e2]
    simp [trilinear, bilinear, lerp]

/-- Non-vacuity: a returned value on the upper face in the second direction. -/
example : ∃ v, evaluate2 4 ⟨0, 4⟩ ⟨0, 4⟩ (fun _ => ((1 : ℚ), 2)) 0 0 (1 / 2) 1 = .ok v := by
  have h1 := (C47_range_error 4 ⟨0, 4⟩ ⟨0, 4⟩ ⟨0, 4⟩ (fun _ => ((1 : ℚ), 2)) 0 0 (1 / 2) 1 1).1
  have h2 := C48_ub_iff2 4 ⟨0, 4⟩ ⟨0, 4⟩ (fun _ => ((1 : ℚ), 2)) 0 0 (1 / 2) 1
  generalize evaluate2 4 ⟨0, 4⟩ ⟨0, 4⟩ (fun _ => ((1 : ℚ), 2)) 0 0 (1 / 2) 1 = r at h1 h2 ⊢
  norm_num at h1 h2
  cases r with
  | ok v => exact ⟨v, rfl⟩
  | throw => exact absurd rfl h1
  | ub => exact absurd rfl h2

/-- Non-vacuity of `C48_violated`: the corner (1, 1) of the unit square, on a process which owns the whole field. -/
example : evaluate2 4 ⟨0, 4⟩ ⟨0, 4⟩ (fun _ => ((1 : ℚ), 2)) 0 0 1 1 = .ub :=
  (C48_violated 4 ⟨0, 4⟩ ⟨0, 4⟩ ⟨0, 4⟩ _ 0 0 1 1 1 (by norm_num) (by norm_num) (by norm_num) (by norm_num)).1

/-- Non-vacuity of the hypotheses `Inside`: the centre. -/
example : Inside 4 ⟨0, 4⟩ (1 / 2 : ℚ) := by unfold Inside; norm_num

end

/-! ## C49 -/

theorem requests_state {α : Type} (draws : ℕ → α × α) (zero : α) (n : ℕ) :
    (requests draws zero (2 * n)).part = 1 ∧ (requests draws zero (2 * n)).transforms = n ∧
    (0 < n → (requests draws zero (2 * n)).perm = draws (n - 1)) := by
  induction n with
  | zero => exact ⟨rfl, rfl, fun h => absurd h (Nat.lt_irrefl 0)⟩
  | succ n ih =>
    obtain ⟨h1, h2, -⟩ := ih
    have e : requests draws zero (2 * (n + 1)) = create draws (create draws (requests draws zero (2 * n))) := rfl
    rw [e]
    simp only [create, h1, h2]
    simp

/-- **C49** The field presented after request `n + 1` is the real part (`n` even) or the imaginary part (`n` odd) of the
result of transform `n / 2`, and so many transforms were computed: one on every second request, beginning with the first. -/
theorem C49_visible {α : Type} (draws : ℕ → α × α) (zero : α) (n : ℕ) :
    (requests draws zero (n + 1)).visible = (if n % 2 = 0 then (draws (n / 2)).1 else (draws (n / 2)).2) ∧
    (requests draws zero (n + 1)).transforms = n / 2 + 1 := by
  rcases Nat.even_or_odd' n with ⟨m, rfl | rfl⟩
  · obtain ⟨h1, h2, -⟩ := requests_state draws zero m
    have e : requests draws zero (2 * m + 1) = create draws (requests draws zero (2 * m)) := rfl
    rw [e]
    have hm : 2 * m / 2 = m := by omega
    simp only [create, h1, h2, FieldState.visible, hm]
    simp
  · obtain ⟨h1, h2, h3⟩ := requests_state draws zero (m + 1)
    have e : requests draws zero (2 * m + 1 + 1) = requests draws zero (2 * (m + 1)) := rfl
    have hm : (2 * m + 1) / 2 = m := by omega
    rw [e, h2, hm]
    refine ⟨?_, rfl⟩
    have := h3 (by omega)
    simp only [FieldState.visible, h1, this]
    have h5 : (2 * m + 1) % 2 = 1 := by omega
    simp [h5]

/-- **C49** No field is ever presented twice, provided that the transforms yield pairwise different fields. -/
theorem C49_all_new {α : Type} (draws : ℕ → α × α) (zero : α)
    (hd : Function.Injective fun n => if n % 2 = 0 then (draws (n / 2)).1 else (draws (n / 2)).2) (n m : ℕ)
    (h : (requests draws zero (n + 1)).visible = (requests draws zero (m + 1)).visible) : n = m := by
  rw [(C49_visible draws zero n).1, (C49_visible draws zero m).1] at h
  exact hd h

/-- Non-vacuity: such transforms exist. -/
example : Function.Injective fun n => if n % 2 = 0 then ((fun k : ℕ => (2 * k, 2 * k + 1)) (n / 2)).1
    else ((fun k : ℕ => (2 * k, 2 * k + 1)) (n / 2)).2 := by
  intro n m h
  simp only at h
  split_ifs at h <;> omega

end Verif.RandomField
