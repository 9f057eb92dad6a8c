import Verif.Props.RoundedSearch

/-!
# C97: double precision makes the search miss points
-/

namespace Verif.RoundedSearch
open Verif.RoundedGrid

/-- The configuration `p_large` of `common_grids.mini`: 20 coarse cells with 40 micro cells each on the unit cube, no layers. -/
def pLarge : Dir := ⟨0, 1, 20, 40, 0⟩

set_option maxRecDepth 100000 in
theorem pLarge_only : ∀ k < 20, k ≠ 3 → coarseContains double doubleTol pLarge k (point double pLarge 120 true) = false := by decide +kernel

set_option maxRecDepth 100000 in
theorem pLarge_missed : ∀ i < localCells double pLarge 3, localContains double doubleTol pLarge 3 i (point double pLarge 120 false) = false := by
  decide +kernel

set_option maxRecDepth 100000 in
theorem pLarge_covered : coarseContains double doubleTol pLarge 3 (point double pLarge 120 false) = true ∧
    coarseContains double doubleTol pLarge 3 (point double pLarge 120 true) = true := by decide +kernel

/-- The points of fine element `J`, by number. -/
theorem mem_points {d : ℕ} {rd : ℚ → ℚ} {D : Fin d → Dir} {J : Fin d → ℕ} {t : ℕ} (ht : t < 2 ^ d) :
    (fun i => point rd (D i) (J i) (t.testBit i)) ∈ points rd D J := List.mem_map.mpr ⟨t, List.mem_range.mpr ht, rfl⟩

/-- **C97** (violated) In the configuration `p_large` in double precision, in every number of dimensions and for every element search: whenever
the search for the points of an element with the index 120 in some direction returns, it returns elements of the local grid of a coarse cell in which
no element contains any of the points on the left side of the fine element. -/
theorem C97_violated_p_large {d : ℕ} (D : Fin d → Dir) (i₀ : Fin d) (hD : D i₀ = pLarge) {n viewSize : ℕ} {index : ℕ → Fin d → ℕ}
    (hrange : ∀ c < n, index c i₀ < 20) (pick : ℕ → (Fin d → ℚ) → Option (Fin d → ℕ)) (J : Fin d → ℕ) (hJ : J i₀ = 120)
    (s s' : Search.State) (ents : List (Option (Fin d → ℕ)))
    (h : Search.call (env double doubleTol D n viewSize index pick) s (points double D J) = .ok ents s') :
    ents.length = 2 ^ d ∧ (∀ e ∈ ents, e ≠ none) ∧ ∃ c, s'.current = some c ∧ c < n ∧ index c i₀ = 3 ∧
      ∀ t < 2 ^ d, t.testBit i₀ = false →
        ∀ e, ¬ Holds double doubleTol D (index c) e (fun i => point double (D i) (J i) (t.testBit i)) := by
  have hne : points double D J ≠ [] := List.ne_nil_of_mem (mem_points (show 0 < 2 ^ d by positivity))
  obtain ⟨g1, g2, c, g3, g4, g5⟩ := Search.C08_search_result _ s s' _ ents hne h
  have h3 : index c i₀ = 3 := by
    by_contra hcon
    have := env_covers_iff.mp g5 _ (mem_points (t := 2 ^ d - 1) (Nat.sub_lt (by positivity) one_pos)) i₀
    rw [hD, hJ, Nat.testBit_two_pow_sub_one, decide_eq_true i₀.isLt, pLarge_only _ (hrange c g4) hcon] at this
    exact absurd this (by simp)
  refine ⟨by rw [g1]; simp [points], g2, c, g3, g4, h3, fun t _ ht e he => ?_⟩
  obtain ⟨f1, f2⟩ := he i₀
  dsimp only at f2
  rw [hD, h3] at f1
  rw [hD, h3, hJ, ht, pLarge_missed _ f1] at f2
  exact absurd f2 (by simp)

/-- Two coarse cells with 126 micro cells each and six layers. -/
def twoCells : Dir := ⟨0, 1, 2, 126, 6⟩

set_option maxRecDepth 100000 in
theorem twoCells_only : coarseContains double doubleTol twoCells 0 (point double twoCells 251 false) = false := by decide +kernel

set_option maxRecDepth 100000 in
theorem twoCells_missed : ∀ i < localCells double twoCells 1,
    localContains double doubleTol twoCells 1 i (point double twoCells 251 true) = false := by
  decide +kernel

set_option maxRecDepth 100000 in
theorem twoCells_covered : coarseContains double doubleTol twoCells 1 (point double twoCells 251 false) = true ∧
    coarseContains double doubleTol twoCells 1 (point double twoCells 251 true) = true := by decide +kernel

/-- **C97** (violated) Layers do not always help: with two coarse cells, 126 micro cells and six layers in some direction, in every number of
dimensions and for every element search, a search for the corners of an element at the right end of the domain that returns has ended in a coarse cell
in which no element contains any of the corners on the right side. -/
theorem C97_violated_layers {d : ℕ} (D : Fin d → Dir) (i₀ : Fin d) (hD : D i₀ = twoCells) {n viewSize : ℕ} {index : ℕ → Fin d → ℕ}
    (hrange : ∀ c < n, index c i₀ < 2) (pick : ℕ → (Fin d → ℚ) → Option (Fin d → ℕ)) (J : Fin d → ℕ) (hJ : J i₀ = 251)
    (s s' : Search.State) (ents : List (Option (Fin d → ℕ)))
    (h : Search.call (env double doubleTol D n viewSize index pick) s (points double D J) = .ok ents s') :
    ents.length = 2 ^ d ∧ (∀ e ∈ ents, e ≠ none) ∧ ∃ c, s'.current = some c ∧ c < n ∧ index c i₀ = 1 ∧
      ∀ t < 2 ^ d, t.testBit i₀ = true →
        ∀ e, ¬ Holds double doubleTol D (index c) e (fun i => point double (D i) (J i) (t.testBit i)) := by
  have hne : points double D J ≠ [] := List.ne_nil_of_mem (mem_points (show 0 < 2 ^ d by positivity))
  obtain ⟨g1, g2, c, g3, g4, g5⟩ := Search.C08_search_result _ s s' _ ents hne h
  have h1 : index c i₀ = 1 := by
    by_contra hcon
    have h0 : index c i₀ = 0 := by have := hrange c g4; omega
    have := env_covers_iff.mp g5 _ (mem_points (t := 0) (by positivity)) i₀
    rw [hD, hJ, Nat.zero_testBit, h0, twoCells_only] at this
    exact absurd this (by simp)
  refine ⟨by rw [g1]; simp [points], g2, c, g3, g4, h1, fun t _ ht e he => ?_⟩
  obtain ⟨f1, f2⟩ := he i₀
  dsimp only at f2
  rw [hD, h1] at f1
  rw [hD, h1, hJ, ht, twoCells_missed _ f1] at f2
  exact absurd f2 (by simp)

set_option maxRecDepth 100000 in
theorem seventyEight_uncovered : ∀ k < 78, (coarseContains double doubleTol ⟨0, 1, 78, 3, 0⟩ k (point double ⟨0, 1, 78, 3, 0⟩ 209 false) &&
    coarseContains double doubleTol ⟨0, 1, 78, 3, 0⟩ k (point double ⟨0, 1, 78, 3, 0⟩ 209 true)) = false := by decide +kernel

/-- **C97** (violated) With 78 coarse and 3 micro cells in some direction, in every number of dimensions, for every element search and every number of
layers: the search for the points of an element with the index 209 in that direction throws, since no coarse cell covers them. -/
theorem C97_violated_throws {d : ℕ} (D : Fin d → Dir) (i₀ : Fin d) (o : ℕ) (hD : D i₀ = ⟨0, 1, 78, 3, o⟩) {n viewSize : ℕ} (hn : 0 < n)
    (hv : n ≤ viewSize) {index : ℕ → Fin d → ℕ} (hrange : ∀ c < n, index c i₀ < 78) (pick : ℕ → (Fin d → ℚ) → Option (Fin d → ℕ))
    (J : Fin d → ℕ) (hJ : J i₀ = 209) (s : Search.State) (hs : Search.Reachable (env double doubleTol D n viewSize index pick) s) :
    ∃ s', Search.call (env double doubleTol D n viewSize index pick) s (points double D J) = .throw s' := by
  have hne : points double D J ≠ [] := List.ne_nil_of_mem (mem_points (show 0 < 2 ^ d by positivity))
  refine Search.C09_throws _ hn hv s hs _ hne fun c hc => ?_
  by_contra hcov
  rw [Bool.not_eq_false] at hcov
  have h0 := env_covers_iff.mp hcov _ (mem_points (t := 0) (by positivity)) i₀
  have h1 := env_covers_iff.mp hcov _ (mem_points (t := 2 ^ d - 1) (Nat.sub_lt (by positivity) one_pos)) i₀
  rw [hD, hJ, Nat.zero_testBit] at h0
  rw [hD, hJ, Nat.testBit_two_pow_sub_one, decide_eq_true i₀.isLt] at h1
  have := seventyEight_uncovered _ (hrange c hc)
  rw [Bool.and_eq_false_iff] at this
  rcases this with h | h
  · exact absurd (h0.symm.trans h) (by simp)
  · exact absurd (h1.symm.trans h) (by simp)

/-- Three coarse cells with 44 micro cells each in both directions. -/
def wrongDir : Fin 2 → Dir := fun _ => ⟨0, 1, 3, 44, 0⟩

def wrongIndex (c : ℕ) : Fin 2 → ℕ := ![c % 3, c / 3]

def wrongEnv : Search.Env (Fin 2 → ℚ) (Fin 2 → ℕ) :=
  env double doubleTol wrongDir 9 9 wrongIndex (firstPick double doubleTol wrongDir wrongIndex)

/-- The loop uses only the answers for cells of the grid. -/
theorem loop_congr {P E : Type} {A B : Search.Env P E} (hn : A.n = B.n) (hv : A.viewSize = B.viewSize) {ps : List P}
    (hc : ∀ c < A.n, A.covers c ps = B.covers c ps) (hs : ∀ c < A.n, A.covers c ps = true → A.search c ps = B.search c ps) (fuel : ℕ) :
    ∀ steps it cur ret, Search.loop A ps fuel steps it cur ret = Search.loop B ps fuel steps it cur ret := by
  induction fuel with
  | zero => intros; unfold Search.loop; rfl
  | succ f ih =>
    intro steps it cur ret
    have hvis : it < A.n → Search.visit A ps it ret = Search.visit B ps it ret := by
      intro hit
      unfold Search.visit
      cases hcov : A.covers it ps
      · rw [← hc it hit, hcov]; rfl
      · rw [← hc it hit, hcov, hs it hit hcov]
    unfold Search.loop
    by_cases hit : it < A.n
    · simp only [ih, hn, hv, hvis hit]
    · simp only [ih, hn, hv, if_neg (show ¬ it < B.n from hn ▸ hit)]

set_option maxRecDepth 100000 in
theorem wrong_covers : ∀ c < 9, wrongEnv.covers c (points double wrongDir ![87, 1]) = decide (c = 1) := by decide +kernel

set_option maxRecDepth 100000 in
theorem wrong_search : wrongEnv.search 1 (points double wrongDir ![87, 1]) = [some ![42, 0], none, some ![42, 1], none] := by decide +kernel

/-- The search as computed in double precision. -/
theorem wrong_call : Search.call wrongEnv Search.State.init (points double wrongDir ![87, 1]) =
    .ok [some ![42, 0], some ![42, 1], some ![42, 0], some ![42, 1]] ⟨some 2, some 1⟩ := by
  have hlen : (points double wrongDir ![87, 1]).length = 4 := by simp [points]
  unfold Search.call
  rw [loop_congr (A := wrongEnv) (B := ⟨9, 9, fun c _ => decide (c = 1), fun _ _ => [some ![42, 0], none, some ![42, 1], none]⟩) rfl rfl
    wrong_covers (fun c hc h => by rw [wrong_covers c hc, decide_eq_true_iff] at h; rw [h]; exact wrong_search), hlen]
  generalize points double wrongDir ![87, 1] = ps
  rfl

/-- **C97** (violated) With three coarse cells and 44 micro cells in both directions of the unit square and an element search that meets the contract,
the search for the corners of fine element `(87, 1)` returns for the second corner an element that ends almost a whole fine cell left of it, and for
the third corner an element that ends almost a whole fine cell below it. -/
theorem C97_violated_elements :
    Picks double doubleTol wrongDir wrongIndex (firstPick double doubleTol wrongDir wrongIndex) ∧
    Search.call wrongEnv Search.State.init (points double wrongDir ![87, 1]) =
      .ok [some ![42, 0], some ![42, 1], some ![42, 0], some ![42, 1]] ⟨some 2, some 1⟩ ∧
    wrongIndex 1 = ![1, 0] ∧
    localNode double ⟨0, 1, 3, 44, 0⟩ 1 (42 + 1) + 99 / 100 * (1 / 132) < point double ⟨0, 1, 3, 44, 0⟩ 87 true ∧
    localNode double ⟨0, 1, 3, 44, 0⟩ 0 (0 + 1) + 99 / 100 * (1 / 132) < point double ⟨0, 1, 3, 44, 0⟩ 1 true :=
  ⟨firstPick_picks, wrong_call, by decide, by decide +kernel, by decide +kernel⟩

def largeEnv : Search.Env (Fin 1 → ℚ) (Fin 1 → ℕ) :=
  env double doubleTol (fun _ => pLarge) 20 20 (fun c _ => c) (firstPick double doubleTol (fun _ => pLarge) fun c _ => c)

set_option maxRecDepth 100000 in
/-- In one dimension of `p_large` the search returns. -/
example : ∃ ents s', Search.call largeEnv Search.State.init (points double (fun _ => pLarge) fun _ => 120) = .ok ents s' := by
  have hlen : (points double (fun _ : Fin 1 => pLarge) fun _ => 120).length = 2 := by simp [points]
  have hc : ∀ c < 20, largeEnv.covers c (points double (fun _ => pLarge) fun _ => 120) = decide (c = 3) := by decide +kernel
  have hs : largeEnv.search 3 (points double (fun _ => pLarge) fun _ => 120) = [none, some ![0]] := by decide +kernel
  refine ⟨[some ![0], some ![0]], ⟨some 4, some 3⟩, ?_⟩
  unfold Search.call
  rw [loop_congr (A := largeEnv) (B := ⟨20, 20, fun c _ => decide (c = 3), fun _ _ => [none, some ![0]]⟩) rfl rfl
    hc (fun c h h' => by rw [hc c h, decide_eq_true_iff] at h'; rw [h']; exact hs), hlen]
  generalize points double (fun _ : Fin 1 => pLarge) (fun _ => 120) = ps
  rfl

/-- The grid of `C97_violated_layers` with two coarse cells of two micro cells in a second direction. -/
def twoDir : Fin 2 → Dir := ![twoCells, ⟨0, 1, 2, 2, 0⟩]

def twoEnv : Search.Env (Fin 2 → ℚ) (Fin 2 → ℕ) :=
  env double doubleTol twoDir 4 4 (fun c => ![c % 2, c / 2]) (firstPick double doubleTol twoDir fun c => ![c % 2, c / 2])

set_option maxRecDepth 100000 in
/-- With two coarse cells and six layers the search returns, too. -/
example : ∃ ents s', Search.call twoEnv Search.State.init (points double twoDir ![251, 0]) = .ok ents s' := by
  have hlen : (points double twoDir ![251, 0]).length = 4 := by simp [points]
  have hc : ∀ c < 4, twoEnv.covers c (points double twoDir ![251, 0]) = decide (c = 1) := by decide +kernel
  have hs : twoEnv.search 1 (points double twoDir ![251, 0]) = [some ![130, 0], none, some ![130, 0], none] := by decide +kernel
  refine ⟨[some ![130, 0], some ![130, 0], some ![130, 0], some ![130, 0]], ⟨some 2, some 1⟩, ?_⟩
  unfold Search.call
  rw [loop_congr (A := twoEnv) (B := ⟨4, 4, fun c _ => decide (c = 1), fun _ _ => [some ![130, 0], none, some ![130, 0], none]⟩) rfl rfl
    hc (fun c h h' => by rw [hc c h, decide_eq_true_iff] at h'; rw [h']; exact hs), hlen]
  generalize points double twoDir ![251, 0] = ps
  rfl

end Verif.RoundedSearch
