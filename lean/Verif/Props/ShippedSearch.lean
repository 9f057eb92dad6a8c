import Verif.Props.OversampledSearch
import Verif.Props.WrongSearch

/-!
# C97: the search succeeds exactly if it does so in every direction; the configurations of the repository
-/

namespace Verif.RoundedSearch
open Verif.Spec.Binary Verif.RoundedGrid Verif.Double

/-- In one direction: the coarse cell of element `j` contains the corner `t`, and so does an element of its local grid. -/
def Reached (rd : ℚ → ℚ) (tol : ℚ) (D : Dir) (j : ℕ) (t : Bool) : Prop :=
  coarseContains rd tol D (j / D.m) (point rd D j t) = true ∧
    ∃ e < localCells rd D (j / D.m), localContains rd tol D (j / D.m) e (point rd D j t) = true

theorem forall₂_exists {α β : Type*} {r : α → β → Prop} {l₁ : List α} {l₂ : List β} (h : List.Forall₂ r l₁ l₂) {y : β} (hy : y ∈ l₂) :
    ∃ x, r x y := by
  induction h with
  | nil => exact absurd hy (by simp)
  | cons hr _ ih =>
    rcases List.mem_cons.mp hy with rfl | hy
    · exact ⟨_, hr⟩
    · exact ih hy

/-- **C97** (directions) On the unit cube, in every rounding to nearest, in every number of dimensions, for every order of the coarse cells and every
element search: the search finds the corners of every fine element from every state it can be in, if and only if in every single direction the coarse
cell of each element and some element of the local grid of that coarse cell contain the corners of the element. Whether a configuration loses points
can therefore be seen from each direction alone. -/
theorem C97_directions {d : ℕ} {rd : ℚ → ℚ} (h : Nearest rd) {tol : ℚ} (htol : 1 / 2 ^ 49 ≤ tol) (htol' : tol ≤ 1 / 2 ^ 44)
    (N m o : Fin d → ℕ) (hsize : ∀ i, N i * m i ≤ 2 ^ 40) (hn8 : ∀ i, 8 ≤ N i * m i) {n viewSize : ℕ} {index : ℕ → Fin d → ℕ}
    (hrange : ∀ c < n, ∀ i, index c i < N i) (hall : ∀ K : Fin d → ℕ, (∀ i, K i < N i) → ∃ c < n, index c = K)
    {pick : ℕ → (Fin d → ℚ) → Option (Fin d → ℕ)} (hp : Picks rd tol (fun i => ⟨0, 1, N i, m i, o i⟩) index pick) (hv : 2 ≤ viewSize) :
    (∀ J : Fin d → ℕ, (∀ i, J i < N i * m i) → ∀ s : Search.State,
      Search.Reachable (env rd tol (fun i => ⟨0, 1, N i, m i, o i⟩) n viewSize index pick) s →
      ∃ (es : List (Fin d → ℕ)) (s' : Search.State) (c : ℕ),
        Search.call (env rd tol (fun i => ⟨0, 1, N i, m i, o i⟩) n viewSize index pick) s
          (points rd (fun i => ⟨0, 1, N i, m i, o i⟩) J) = .ok (es.map some) s' ∧ s'.current = some c ∧ (∀ i, index c i = J i / m i) ∧
        List.Forall₂ (fun e x => Holds rd tol (fun i => ⟨0, 1, N i, m i, o i⟩) (index c) e x) es
          (points rd (fun i => ⟨0, 1, N i, m i, o i⟩) J)) ↔
      ∀ i, ∀ j < N i * m i, ∀ t, Reached rd tol ⟨0, 1, N i, m i, o i⟩ j t := by
  have hm0 : ∀ i, 0 < m i := fun i => Nat.pos_of_ne_zero fun hm => by have := hn8 i; rw [hm] at this; omega
  have hmem : ∀ J : Fin d → ℕ, ∀ x, x ∈ points rd (fun i => ⟨0, 1, N i, m i, o i⟩) J ↔
      ∃ t < 2 ^ d, x = fun i : Fin d => point rd ⟨0, 1, N i, m i, o i⟩ (J i) (t.testBit i) := by
    intro J x
    unfold points
    rw [List.mem_map]
    constructor
    · rintro ⟨t, ht, rfl⟩; exact ⟨t, List.mem_range.mp ht, rfl⟩
    · rintro ⟨t, ht, rfl⟩; exact ⟨t, List.mem_range.mpr ht, rfl⟩
  constructor
  · intro hcalls i j hj t
    obtain ⟨es, s', c, hcall, hcur, hidx, hes⟩ := hcalls (fun i' => if i' = i then j else 0) (fun i' => by
      split_ifs with hi
      · rw [hi]; exact hj
      · have := hn8 i'; omega) Search.State.init .init
    have hne : points rd (fun i => ⟨0, 1, N i, m i, o i⟩) (fun i' => if i' = i then j else 0) ≠ [] :=
      List.ne_nil_of_mem ((hmem _ _).mpr ⟨0, by positivity, rfl⟩)
    obtain ⟨-, -, c', g3, -, g5⟩ := Search.C08_search_result _ _ _ _ _ hne hcall
    obtain rfl : c = c' := Option.some.inj (hcur.symm.trans g3)
    have hb : ∃ b < 2 ^ d, b.testBit (i : ℕ) = t := by
      cases t
      · exact ⟨0, by positivity, Nat.zero_testBit _⟩
      · exact ⟨2 ^ d - 1, Nat.sub_lt (by positivity) one_pos, by rw [Nat.testBit_two_pow_sub_one, decide_eq_true i.isLt]⟩
    obtain ⟨b, hb, hbt⟩ := hb
    have hx := (hmem (fun i' => if i' = i then j else 0) _).mpr ⟨b, hb, rfl⟩
    have h1 := env_covers_iff.mp g5 _ hx i
    obtain ⟨e, he⟩ := forall₂_exists hes hx
    obtain ⟨h2, h3⟩ := he i
    have hi := hidx i
    dsimp only at h1 h2 h3 hi
    rw [if_pos rfl] at h1 h3 hi
    rw [hi] at h1 h2 h3
    rw [hbt] at h1 h3
    exact ⟨h1, e i, h2, h3⟩
  · intro hr J hJ s hs
    have hcov : ∀ c < n, ((env rd tol (fun i => ⟨0, 1, N i, m i, o i⟩) n viewSize index pick).covers c
        (points rd (fun i => ⟨0, 1, N i, m i, o i⟩) J) = true ↔ ∀ i, index c i = J i / m i) := by
      intro c hc
      rw [env_covers_iff]
      constructor
      · intro hcc i
        have h0 := hcc _ ((hmem _ _).mpr ⟨0, by positivity, rfl⟩) i
        have h1 := hcc _ ((hmem _ _).mpr ⟨2 ^ d - 1, Nat.sub_lt (by positivity) one_pos, rfl⟩) i
        rw [Nat.zero_testBit] at h0
        rw [Nat.testBit_two_pow_sub_one, decide_eq_true i.isLt] at h1
        exact unit_cell h htol htol' (hsize i) (hn8 i) (hJ i) (hrange c hc i) h0 h1
      · intro hi x hx i
        obtain ⟨t, -, rfl⟩ := (hmem _ x).mp hx
        rw [hi i]
        exact (hr i _ (hJ i) _).1
    have hcomp : Search.LocalSearchComplete (env rd tol (fun i => ⟨0, 1, N i, m i, o i⟩) n viewSize index pick)
        (fun c e x => Holds rd tol (fun i => ⟨0, 1, N i, m i, o i⟩) (index c) e x)
        (points rd (fun i => ⟨0, 1, N i, m i, o i⟩) J) := by
      refine complete_of hp fun c hc hcc x hx => ?_
      have hidx := (hcov c hc).mp hcc
      obtain ⟨t, -, rfl⟩ := (hmem _ x).mp hx
      have : ∀ i, ∃ e < localCells rd ⟨0, 1, N i, m i, o i⟩ (index c i),
          localContains rd tol ⟨0, 1, N i, m i, o i⟩ (index c i) e (point rd ⟨0, 1, N i, m i, o i⟩ (J i) (t.testBit i)) = true := by
        intro i
        rw [hidx i]
        exact (hr i _ (hJ i) _).2
      choose e he using this
      exact ⟨e, he⟩
    obtain ⟨c, hc, hcK⟩ := hall (fun i => J i / m i) fun i => by
      rw [Nat.div_lt_iff_lt_mul (hm0 i)]; exact hJ i
    obtain ⟨ents, s', hcall⟩ := Search.C09_succeeds _ _ hv (lt_of_le_of_lt (Nat.zero_le c) hc) s hs _ hcomp
      ⟨c, hc, (hcov c hc).mpr fun i => by rw [hcK]⟩
    have hne : points rd (fun i => ⟨0, 1, N i, m i, o i⟩) J ≠ [] := List.ne_nil_of_mem ((hmem _ _).mpr ⟨0, by positivity, rfl⟩)
    obtain ⟨c', es, g1, g2, g3, g4, g5⟩ := Search.C08_search_elements _ _ s s' _ ents hne hcomp hcall
    exact ⟨es, s', c', by rw [hcall, g4], g1, (hcov c' g2).mp g3, g5⟩

/-- The corner is found in the element of the local grid at the same place, without layers. -/
def foundInPlace (N m j : ℕ) (t : Bool) : Bool :=
  coarseContains double doubleTol ⟨0, 1, N, m, 0⟩ (j / m) (point double ⟨0, 1, N, m, 0⟩ j t) &&
    (decide (j % m < localCells double ⟨0, 1, N, m, 0⟩ (j / m)) &&
      localContains double doubleTol ⟨0, 1, N, m, 0⟩ (j / m) (j % m) (point double ⟨0, 1, N, m, 0⟩ j t))

theorem reached_of_place {N m j : ℕ} {t : Bool} (h : foundInPlace N m j t = true) : Reached double doubleTol ⟨0, 1, N, m, 0⟩ j t := by
  unfold foundInPlace at h
  rw [Bool.and_eq_true, Bool.and_eq_true, decide_eq_true_iff] at h
  exact ⟨h.1, _, h.2.1, h.2.2⟩

/-- Numbers of coarse cells and of micro cells in one direction in the setups `p_small`, `p_aniso` and `p_fail` (common_grids.mini:1-29), none of which
has layers. -/
def setups : List (ℕ × ℕ) := [(4, 8), (14, 3), (4, 32), (6, 8), (12, 6), (15, 7), (10, 10)]

set_option maxRecDepth 100000 in
theorem setups_place : ∀ S ∈ setups, ∀ j < S.1 * S.2, ∀ t, foundInPlace S.1 S.2 j t = true := by decide +kernel

theorem setups_size {S : ℕ × ℕ} (hS : S ∈ setups) : 8 ≤ S.1 * S.2 ∧ S.1 * S.2 ≤ 2 ^ 40 := by
  revert S
  decide

/-- **C97** (setups, partial) In double precision the search finds the corners of every fine element in the setups `p_small`, `p_aniso` and `p_fail` of
the repository, from every state, in every number of dimensions and with directions of different setups mixed. -/
theorem C97_setups_partial {d : ℕ} (N m : Fin d → ℕ) (hS : ∀ i, (N i, m i) ∈ setups) {n viewSize : ℕ} {index : ℕ → Fin d → ℕ}
    (hrange : ∀ c < n, ∀ i, index c i < N i) (hall : ∀ K : Fin d → ℕ, (∀ i, K i < N i) → ∃ c < n, index c = K)
    {pick : ℕ → (Fin d → ℚ) → Option (Fin d → ℕ)} (hp : Picks double doubleTol (fun i => ⟨0, 1, N i, m i, 0⟩) index pick) (hv : 2 ≤ viewSize)
    (J : Fin d → ℕ) (hJ : ∀ i, J i < N i * m i) (s : Search.State)
    (hs : Search.Reachable (env double doubleTol (fun i => ⟨0, 1, N i, m i, 0⟩) n viewSize index pick) s) :
    ∃ (es : List (Fin d → ℕ)) (s' : Search.State) (c : ℕ),
      Search.call (env double doubleTol (fun i => ⟨0, 1, N i, m i, 0⟩) n viewSize index pick) s
        (points double (fun i => ⟨0, 1, N i, m i, 0⟩) J) = .ok (es.map some) s' ∧ s'.current = some c ∧ (∀ i, index c i = J i / m i) ∧
      List.Forall₂ (fun e x => Holds double doubleTol (fun i => ⟨0, 1, N i, m i, 0⟩) (index c) e x) es
        (points double (fun i => ⟨0, 1, N i, m i, 0⟩) J) :=
  (C97_directions double_nearest doubleTol_bounds.1 doubleTol_bounds.2 N m (fun _ => 0) (fun i => (setups_size (hS i)).2)
    (fun i => (setups_size (hS i)).1) hrange hall hp hv).mpr (fun i j hj t => reached_of_place (setups_place _ (hS i) j hj t)) J hJ s hs

/-- The setup `p_aniso` in three dimensions: 14 x 4 x 6 coarse cells with 3 x 32 x 8 micro cells, coarse cells numbered with the first direction
fastest. -/
example (s : Search.State)
    (hs : Search.Reachable (env double doubleTol (fun i => ⟨0, 1, ![14, 4, 6] i, ![3, 32, 8] i, 0⟩) 336 336 (fun c => ![c % 14, c / 14 % 4, c / 56])
      (firstPick double doubleTol (fun i => ⟨0, 1, ![14, 4, 6] i, ![3, 32, 8] i, 0⟩) fun c => ![c % 14, c / 14 % 4, c / 56])) s) :
    ∃ (es : List (Fin 3 → ℕ)) (s' : Search.State) (c : ℕ),
      Search.call (env double doubleTol (fun i => ⟨0, 1, ![14, 4, 6] i, ![3, 32, 8] i, 0⟩) 336 336 (fun c => ![c % 14, c / 14 % 4, c / 56])
        (firstPick double doubleTol (fun i => ⟨0, 1, ![14, 4, 6] i, ![3, 32, 8] i, 0⟩) fun c => ![c % 14, c / 14 % 4, c / 56])) s
        (points double (fun i => ⟨0, 1, ![14, 4, 6] i, ![3, 32, 8] i, 0⟩) ![41, 127, 47]) = .ok (es.map some) s' ∧ s'.current = some c ∧
      c % 14 = 13 ∧ c / 14 % 4 = 3 ∧ c / 56 = 5 := by
  obtain ⟨es, s', c, h1, h2, h3, -⟩ := C97_setups_partial ![14, 4, 6] ![3, 32, 8] (by decide) (n := 336) (viewSize := 336)
    (index := fun c => ![c % 14, c / 14 % 4, c / 56]) (by
      intro c hc i
      fin_cases i <;> simp <;> omega) (by
      intro K hK
      have h0 : K 0 < 14 := hK 0
      have h1 : K 1 < 4 := hK 1
      have h2 : K 2 < 6 := hK 2
      refine ⟨K 0 + 14 * K 1 + 56 * K 2, by omega, ?_⟩
      funext i
      fin_cases i <;> simp <;> omega) firstPick_picks (by norm_num) ![41, 127, 47] (by decide) s hs
  exact ⟨es, s', c, h1, h2, h3 0, h3 1, h3 2⟩

/-- The setup `p_huge` (common_grids.mini:21-24): 40 coarse cells with 120 micro cells each. -/
def pHuge : Dir := ⟨0, 1, 40, 120, 0⟩

set_option maxRecDepth 100000 in
theorem pHuge_missed : ∀ e < localCells double pHuge 34, localContains double doubleTol pHuge 34 e (point double pHuge 4199 true) = false := by
  decide +kernel

/-- **C97** (violated) In the setup `p_huge` in double precision the search does not find the corners of all fine elements, in one or more dimensions,
whatever the order of the coarse cells and the element search. -/
theorem C97_violated_p_huge {d : ℕ} (i₀ : Fin d) {n viewSize : ℕ} {index : ℕ → Fin d → ℕ} (hrange : ∀ c < n, ∀ i, index c i < 40)
    (hall : ∀ K : Fin d → ℕ, (∀ i, K i < 40) → ∃ c < n, index c = K)
    {pick : ℕ → (Fin d → ℚ) → Option (Fin d → ℕ)} (hp : Picks double doubleTol (fun _ => pHuge) index pick) (hv : 2 ≤ viewSize) :
    ¬ ∀ J : Fin d → ℕ, (∀ i, J i < 40 * 120) → ∀ s : Search.State,
      Search.Reachable (env double doubleTol (fun _ => pHuge) n viewSize index pick) s →
      ∃ (es : List (Fin d → ℕ)) (s' : Search.State) (c : ℕ),
        Search.call (env double doubleTol (fun _ => pHuge) n viewSize index pick) s
          (points double (fun _ => pHuge) J) = .ok (es.map some) s' ∧ s'.current = some c ∧ (∀ i, index c i = J i / 120) ∧
        List.Forall₂ (fun e x => Holds double doubleTol (fun _ => pHuge) (index c) e x) es (points double (fun _ => pHuge) J) := by
  intro hcalls
  obtain ⟨-, e, he, hc⟩ := (C97_directions double_nearest doubleTol_bounds.1 doubleTol_bounds.2 (fun _ => 40) (fun _ => 120) (fun _ => 0)
    (by norm_num) (by norm_num) hrange hall hp hv).mp hcalls i₀ 4199 (by norm_num) true
  have := pHuge_missed e he
  exact absurd (hc.symm.trans this) (by simp)

/-- The hypotheses can be met: one dimension. -/
example : ¬ ∀ J : Fin 1 → ℕ, (∀ i, J i < 40 * 120) → ∀ s : Search.State,
    Search.Reachable (env double doubleTol (fun _ : Fin 1 => pHuge) 40 40 (fun c _ => c) (firstPick double doubleTol (fun _ : Fin 1 => pHuge) fun c _ => c)) s →
    ∃ (es : List (Fin 1 → ℕ)) (s' : Search.State) (c : ℕ),
      Search.call (env double doubleTol (fun _ : Fin 1 => pHuge) 40 40 (fun c _ => c) (firstPick double doubleTol (fun _ : Fin 1 => pHuge) fun c _ => c)) s
        (points double (fun _ => pHuge) J) = .ok (es.map some) s' ∧ s'.current = some c ∧ (∀ _ : Fin 1, c = J 0 / 120) ∧
      List.Forall₂ (fun e x => Holds double doubleTol (fun _ => pHuge) (fun _ => c) e x) es (points double (fun _ => pHuge) J) := by
  intro hcalls
  refine C97_violated_p_huge (0 : Fin 1) (n := 40) (viewSize := 40) (index := fun c _ => c) (by intro c hc _; exact hc)
    (fun K hK => ⟨K 0, hK 0, by funext i; rw [Subsingleton.elim i 0]⟩) firstPick_picks (by norm_num) fun J hJ s hs => ?_
  obtain ⟨es, s', c, h1, h2, h3, h4⟩ := hcalls J hJ s hs
  exact ⟨es, s', c, h1, h2, fun i => by rw [Subsingleton.elim i 0]; exact h3 0, h4⟩

end Verif.RoundedSearch
