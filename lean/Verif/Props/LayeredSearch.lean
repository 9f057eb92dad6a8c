import Verif.Props.OversampledSearch
import Verif.Props.WrongSearch

/-!
# C97: the setup of the repository with layers; more than 60 coarse cells
-/

namespace Verif.RoundedSearch
open Verif.Spec.Binary Verif.RoundedGrid Verif.Double

/-- The setup `p_wover` (common_grids.mini:16-19): 14 coarse cells with 18 micro cells each and six layers. -/
def pWover : Dir := ⟨0, 1, 14, 18, 6⟩

/-- **C97** (setup with layers, partial) In double precision the search finds the corners of every fine element in the setup `p_wover` of the
repository, from every state and in every number of dimensions. -/
theorem C97_wover_partial {d : ℕ} {n viewSize : ℕ} {index : ℕ → Fin d → ℕ} (hrange : ∀ c < n, ∀ i, index c i < 14)
    (hall : ∀ K : Fin d → ℕ, (∀ i, K i < 14) → ∃ c < n, index c = K)
    {pick : ℕ → (Fin d → ℚ) → Option (Fin d → ℕ)} (hp : Picks double doubleTol (fun _ => pWover) index pick) (hv : 2 ≤ viewSize)
    (J : Fin d → ℕ) (hJ : ∀ i, J i < 252) (s : Search.State)
    (hs : Search.Reachable (env double doubleTol (fun _ => pWover) n viewSize index pick) s) :
    ∃ (es : List (Fin d → ℕ)) (s' : Search.State) (c : ℕ),
      Search.call (env double doubleTol (fun _ => pWover) n viewSize index pick) s (points double (fun _ => pWover) J) = .ok (es.map some) s' ∧
      s'.current = some c ∧ (∀ i, index c i = J i / 18) ∧
      List.Forall₂ (fun e x => Holds double doubleTol (fun _ => pWover) (index c) e x) es (points double (fun _ => pWover) J) :=
  C97_oversampled_partial double_nearest (show 1 / 2 ^ 46 ≤ doubleTol by norm_num [doubleTol]) doubleTol_bounds.2 (fun _ => 14) (fun _ => 18)
    (fun _ => 6) (by simp) (by simp) (by simp) (by simp) (by simp) hrange hall hp hv J (by simpa using hJ) s hs

/-- The hypotheses can be met: two dimensions, the last element. -/
example (s : Search.State) (hs : Search.Reachable (env double doubleTol (fun _ : Fin 2 => pWover) 196 196 (fun c => ![c % 14, c / 14])
      (firstPick double doubleTol (fun _ => pWover) fun c => ![c % 14, c / 14])) s) :
    ∃ (es : List (Fin 2 → ℕ)) (s' : Search.State) (c : ℕ),
      Search.call (env double doubleTol (fun _ : Fin 2 => pWover) 196 196 (fun c => ![c % 14, c / 14])
        (firstPick double doubleTol (fun _ => pWover) fun c => ![c % 14, c / 14])) s (points double (fun _ => pWover) ![251, 17]) = .ok (es.map some) s' ∧
      s'.current = some c ∧ c % 14 = 13 ∧ c / 14 = 0 := by
  obtain ⟨es, s', c, h1, h2, h3, -⟩ := C97_wover_partial (d := 2) (n := 196) (viewSize := 196) (index := fun c => ![c % 14, c / 14]) (by
      intro c hc i
      fin_cases i <;> simp <;> omega) (by
      intro K hK
      have h0 : K 0 < 14 := hK 0
      have h1 : K 1 < 14 := hK 1
      refine ⟨K 0 + 14 * K 1, by omega, ?_⟩
      funext i
      fin_cases i <;> simp <;> omega) firstPick_picks (by norm_num) ![251, 17] (by intro i; fin_cases i <;> simp) s hs
  exact ⟨es, s', c, h1, h2, h3 0, h3 1⟩

set_option maxRecDepth 100000 in
theorem sixtyFive_uncovered : ∀ k < 65, (coarseContains double doubleTol ⟨0, 1, 65, 27, 0⟩ k (point double ⟨0, 1, 65, 27, 0⟩ 1701 false) &&
    coarseContains double doubleTol ⟨0, 1, 65, 27, 0⟩ k (point double ⟨0, 1, 65, 27, 0⟩ 1701 true)) = false := by decide +kernel

/-- **C97** (violated) The bound of 60 coarse cells in `C97_oversampled_partial` cannot be raised beyond 64: with 65 coarse and 27 micro cells in some
direction, whatever the number of layers, the search for the points of an element with the index 1701 in that direction throws. -/
theorem C97_violated_cells {d : ℕ} (D : Fin d → Dir) (i₀ : Fin d) (o : ℕ) (hD : D i₀ = ⟨0, 1, 65, 27, o⟩) {n viewSize : ℕ} (hn : 0 < n)
    (hv : n ≤ viewSize) {index : ℕ → Fin d → ℕ} (hrange : ∀ c < n, index c i₀ < 65) (pick : ℕ → (Fin d → ℚ) → Option (Fin d → ℕ))
    (J : Fin d → ℕ) (hJ : J i₀ = 1701) (s : Search.State) (hs : Search.Reachable (env double doubleTol D n viewSize index pick) s) :
    ∃ s', Search.call (env double doubleTol D n viewSize index pick) s (points double D J) = .throw s' := by
  have hne : points double D J ≠ [] := List.ne_nil_of_mem (mem_points (show 0 < 2 ^ d by positivity))
  refine Search.C09_throws _ hn hv s hs _ hne fun c hc => ?_
  by_contra hcov
  rw [Bool.not_eq_false] at hcov
  have h0 := env_covers_iff.mp hcov _ (mem_points (t := 0) (by positivity)) i₀
  have h1 := env_covers_iff.mp hcov _ (mem_points (t := 2 ^ d - 1) (Nat.sub_lt (by positivity) one_pos)) i₀
  rw [hD, hJ, Nat.zero_testBit] at h0
  rw [hD, hJ, Nat.testBit_two_pow_sub_one, decide_eq_true i₀.isLt] at h1
  have := sixtyFive_uncovered _ (hrange c hc)
  rw [Bool.and_eq_false_iff] at this
  rcases this with h | h
  · exact absurd (h0.symm.trans h) (by simp)
  · exact absurd (h1.symm.trans h) (by simp)

/-- The hypotheses can be met: one dimension, one layer, the first call. -/
example : ∃ s', Search.call (env double doubleTol (fun _ : Fin 1 => ⟨0, 1, 65, 27, 1⟩) 65 65 (fun c _ => c)
      (firstPick double doubleTol (fun _ => ⟨0, 1, 65, 27, 1⟩) fun c _ => c)) .init
      (points double (fun _ : Fin 1 => ⟨0, 1, 65, 27, 1⟩) fun _ => 1701) = .throw s' :=
  C97_violated_cells _ 0 1 rfl (by norm_num) le_rfl (fun _ hc => hc) _ _ rfl _ .init

end Verif.RoundedSearch
