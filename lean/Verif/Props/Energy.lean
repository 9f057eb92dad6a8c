import Verif.Props.FemSolver
import Mathlib.Tactic.LinearCombination

/-!
# C81: the reference solution has the least energy
-/

namespace Verif.FemSolver
open Matrix Verif.CoarseAssembly Verif.LocalAssembly Verif.LocalSolve Verif.Q1Grid Verif.DirichletSolve

variable {d : ℕ} {R : Type} [Field R]

/-! ## Specification -/

/-- The energy `∫ A ∇v · ∇v / 2 - ∫ f v - ∫ g v` of a discrete function. -/
def energyOf (G : Grid d R) (diffusion : (Fin d → R) → Matrix (Fin d) (Fin d) R) (source : (Fin d → R) → R)
    (neumann v : Node G.cells → R) : R :=
  bilinear G diffusion v v / 2 - volume G source v - ∑ g, neumann g * v g

/-! ## Linearity of the forms -/

theorem valueOf_comb {cells : Fin d → ℕ} (a b : R) (u v : Node cells → R) (j : CellIndex cells) (x : Fin d → R) :
    valueOf (fun g => a * u g + b * v g) j x = a * valueOf u j x + b * valueOf v j x := by
  simp only [valueOf, Finset.mul_sum, ← Finset.sum_add_distrib]
  exact Finset.sum_congr rfl fun _ _ => by ring

theorem slope_comb (G : Grid d R) (a b : R) (u v : Node G.cells → R) (j : CellIndex G.cells) (x : Fin d → R) :
    slope G (fun g => a * u g + b * v g) j x = a • slope G u j x + b • slope G v j x := by
  funext i
  simp only [slope, valueOf_comb, Pi.add_apply, Pi.smul_apply, smul_eq_mul]
  ring

theorem sum_map_comb {α : Type} (a b : R) (f g : α → R) (l : List α) :
    (l.map fun q => a * f q + b * g q).sum = a * (l.map f).sum + b * (l.map g).sum := by
  induction l with
  | nil => simp
  | cons q l ih => simp only [List.map_cons, List.sum_cons, ih]; ring

theorem bilinear_comb_left (G : Grid d R) (diffusion : (Fin d → R) → Matrix (Fin d) (Fin d) R) (a b : R)
    (u v w : Node G.cells → R) :
    bilinear G diffusion (fun g => a * u g + b * v g) w = a * bilinear G diffusion u w + b * bilinear G diffusion v w := by
  simp only [bilinear]
  rw [Finset.mul_sum, Finset.mul_sum, ← Finset.sum_add_distrib]
  refine Finset.sum_congr rfl fun j _ => ?_
  rw [← sum_map_comb]
  congr 1
  refine List.map_congr_left fun q _ => ?_
  rw [slope_comb, mulVec_add, add_dotProduct, mulVec_smul, mulVec_smul, smul_dotProduct, smul_dotProduct, smul_eq_mul, smul_eq_mul]
  ring

theorem bilinear_comb_right (G : Grid d R) (diffusion : (Fin d → R) → Matrix (Fin d) (Fin d) R) (a b : R)
    (u v w : Node G.cells → R) :
    bilinear G diffusion w (fun g => a * u g + b * v g) = a * bilinear G diffusion w u + b * bilinear G diffusion w v := by
  simp only [bilinear]
  rw [Finset.mul_sum, Finset.mul_sum, ← Finset.sum_add_distrib]
  refine Finset.sum_congr rfl fun j _ => ?_
  rw [← sum_map_comb]
  congr 1
  refine List.map_congr_left fun q _ => ?_
  rw [slope_comb, dotProduct_add, dotProduct_smul, dotProduct_smul, smul_eq_mul, smul_eq_mul]
  ring

theorem volume_comb (G : Grid d R) (source : (Fin d → R) → R) (a b : R) (u v : Node G.cells → R) :
    volume G source (fun g => a * u g + b * v g) = a * volume G source u + b * volume G source v := by
  simp only [volume]
  rw [Finset.mul_sum, Finset.mul_sum, ← Finset.sum_add_distrib]
  refine Finset.sum_congr rfl fun j _ => ?_
  rw [← sum_map_comb]
  congr 1
  refine List.map_congr_left fun q _ => ?_
  rw [valueOf_comb]
  ring

theorem bilinear_symm (G : Grid d R) (diffusion : (Fin d → R) → Matrix (Fin d) (Fin d) R) (hsym : ∀ x, (diffusion x).IsSymm)
    (u v : Node G.cells → R) : bilinear G diffusion u v = bilinear G diffusion v u := by
  simp only [bilinear]
  refine Finset.sum_congr rfl fun j _ => congrArg List.sum (List.map_congr_left fun q _ => ?_)
  congr 1
  rw [dotProduct_comm, dotProduct_mulVec, ← mulVec_transpose, hsym]

section ordered
variable [LinearOrder R] [IsStrictOrderedRing R]

/-- Pointwise positive semidefinite. -/
def Semidefinite (diffusion : (Fin d → R) → Matrix (Fin d) (Fin d) R) : Prop := ∀ x v, 0 ≤ (diffusion x *ᵥ v) ⬝ᵥ v

theorem bilinear_nonneg (G : Grid d R) (hw : ∀ i, 0 ≤ G.width i) (hq : ∀ q ∈ G.matrixRule, 0 ≤ q.weight)
    (diffusion : (Fin d → R) → Matrix (Fin d) (Fin d) R) (hpd : Semidefinite diffusion) (v : Node G.cells → R) :
    0 ≤ bilinear G diffusion v v := by
  refine Finset.sum_nonneg fun j _ => List.sum_nonneg fun y hy => ?_
  obtain ⟨q, hqm, rfl⟩ := List.mem_map.mp hy
  exact mul_nonneg (mul_nonneg (hq q hqm) (Finset.prod_nonneg fun i _ => hw i)) (hpd _ _)

/-- energy at `u + t w` -/
theorem energy_along (G : Grid d R) (diffusion : (Fin d → R) → Matrix (Fin d) (Fin d) R) (hsym : ∀ x, (diffusion x).IsSymm)
    (source : (Fin d → R) → R) (neumann u w : Node G.cells → R) (t : R) :
    energyOf G diffusion source neumann (fun g => 1 * u g + t * w g) = energyOf G diffusion source neumann u +
      t * (bilinear G diffusion u w - volume G source w - ∑ g, neumann g * w g) + t ^ 2 / 2 * bilinear G diffusion w w := by
  have hs : ∑ g, neumann g * (1 * u g + t * w g) = ∑ g, neumann g * u g + t * ∑ g, neumann g * w g := by
    rw [Finset.mul_sum, ← Finset.sum_add_distrib]
    exact Finset.sum_congr rfl fun _ _ => by ring
  simp only [energyOf, bilinear_comb_left, bilinear_comb_right, volume_comb, hs]
  rw [bilinear_symm G diffusion hsym w u]
  ring

/-- **C81** (distance to the minimum) For the finite element solution `u` and any function `v` with the same Dirichlet values the energies differ by half
the energy of the difference. -/
theorem C81_energy_difference (G : Grid d R) (diffusion : (Fin d → R) → Matrix (Fin d) (Fin d) R) (hsym : ∀ x, (diffusion x).IsSymm)
    (source : (Fin d → R) → R) (neumann data : Node G.cells → R) (D : Node G.cells → Bool) (u v : Node G.cells → R)
    (hu : IsGalerkin G diffusion source neumann data D u) (hv : ∀ g, D g = true → v g = data g) :
    energyOf G diffusion source neumann v - energyOf G diffusion source neumann u =
      bilinear G diffusion (fun g => v g - u g) (fun g => v g - u g) / 2 := by
  have h := energy_along G diffusion hsym source neumann u (fun g => v g - u g) 1
  rw [show (fun g => 1 * u g + 1 * (v g - u g)) = v from funext fun g => by ring,
    hu.equation _ fun g hg => by rw [hv g hg, hu.boundary g hg, sub_self]] at h
  rw [h]
  ring

/-- **C81** (least energy) For a symmetric semidefinite diffusion the finite element solutions are exactly the functions with the given Dirichlet values
whose energy is least among all such functions. -/
theorem C81_least_energy (G : Grid d R) (hw : ∀ i, 0 ≤ G.width i) (hq : ∀ q ∈ G.matrixRule, 0 ≤ q.weight)
    (diffusion : (Fin d → R) → Matrix (Fin d) (Fin d) R) (hsym : ∀ x, (diffusion x).IsSymm) (hpd : Semidefinite diffusion)
    (source : (Fin d → R) → R) (neumann data : Node G.cells → R) (D : Node G.cells → Bool) (u : Node G.cells → R) :
    IsGalerkin G diffusion source neumann data D u ↔
      (∀ g, D g = true → u g = data g) ∧ ∀ v : Node G.cells → R, (∀ g, D g = true → v g = data g) →
        energyOf G diffusion source neumann u ≤ energyOf G diffusion source neumann v := by
  constructor
  · refine fun hu => ⟨hu.boundary, fun v hv => ?_⟩
    have h1 := C81_energy_difference G diffusion hsym source neumann data D u v hu hv
    have h2 := bilinear_nonneg G hw hq diffusion hpd fun g => v g - u g
    linarith
  · rintro ⟨hb, hmin⟩
    refine ⟨hb, fun w hwz => ?_⟩
    set r := bilinear G diffusion u w - volume G source w - ∑ g, neumann g * w g with hr
    set q := bilinear G diffusion w w with hqd
    have hq0 : 0 ≤ q := bilinear_nonneg G hw hq diffusion hpd w
    -- moving along `w` by `t = -r / (q + 1)`
    have h1 : ∀ t : R, 0 ≤ t * r + t ^ 2 / 2 * q := fun t => by
      have := hmin (fun g => 1 * u g + t * w g) fun g hg => by rw [hwz g hg, hb g hg]; ring
      rw [energy_along G diffusion hsym] at this
      linarith
    have h2 := h1 (-r / (q + 1))
    have hq1 : (0 : R) < q + 1 := by linarith
    have h3 : -r / (q + 1) * r + (-r / (q + 1)) ^ 2 / 2 * q = -(r ^ 2 * (q + 2)) / (2 * (q + 1) ^ 2) := by
      field_simp
      ring
    rw [h3] at h2
    have h4 : 0 ≤ -(r ^ 2 * (q + 2)) := by
      by_contra hneg
      push Not at hneg
      exact absurd h2 (not_le.mpr (div_neg_of_neg_of_pos hneg (by positivity)))
    have h5 : r ^ 2 = 0 := by
      have h6 : 0 ≤ r ^ 2 := sq_nonneg r
      nlinarith
    have h7 : r = 0 := by simpa using h5
    rw [hr] at h7
    linear_combination h7

/-- **C81** What the solver returns has the least energy; with a definite diffusion, a resolving rule and one Dirichlet node every other function with the
same Dirichlet values has more. -/
theorem C81_result (G : Grid d R) (hG : G.Complete) (hw : ∀ i, 0 < G.width i) (hc : ∀ i, 0 < G.cells i)
    (hR : Resolving G.matrixRule) (diffusion : (Fin d → R) → Matrix (Fin d) (Fin d) R) (hsym : ∀ x, (diffusion x).IsSymm)
    (hpd : Definite diffusion) (source : (Fin d → R) → R) (neumann data : Node G.cells → R) (D : Node G.cells → Bool)
    (hD : ∃ g, D g = true) (s : Solver (Node G.cells) R) (hs : s.Correct) (old u : Node G.cells → R)
    (h : G.apply true s diffusion source neumann data D old = .ok u) (v : Node G.cells → R) (hv : ∀ g, D g = true → v g = data g)
    (hne : v ≠ u) : energyOf G diffusion source neumann u < energyOf G diffusion source neumann v := by
  have hu := C76_galerkin G hG s hs diffusion source neumann data D old u h
  have h1 := C81_energy_difference G diffusion hsym source neumann data D u v hu hv
  have hsd : Semidefinite diffusion := fun x z => by
    by_cases hz : z = 0
    · subst hz; simp
    · exact (hpd x z hz).le
  have h2 := bilinear_nonneg G (fun i => (hw i).le) (fun q hq => (hR.weight_pos q hq).le) diffusion hsd fun g => v g - u g
  rcases h2.lt_or_eq with h3 | h3
  · linarith
  · exfalso
    apply hne
    obtain ⟨g0, hg0⟩ := hD
    have h4 := constant_of_energy G hG hw hc hR diffusion hpd _ h3.symm
    funext g
    have h5 := h4 g g0
    rw [hv g0 hg0, hu.boundary g0 hg0, sub_self] at h5
    exact sub_eq_zero.mp h5

open Verif.Boundary in
/-- **C81** (registered problems) Whatever the solver returns for a registered problem has the least energy among the functions with the same values at the
Dirichlet nodes of the problem, for every symmetric semidefinite diffusion and every rule with non-negative weights. -/
theorem C81_problems (hd : d = 2 ∨ d = 3) (close : (Fin d → ℚ) → (Fin d → ℚ) → Bool) (hc : Tolerance close) (p : Problem)
    (normal : Face d → Fin d → ℚ) :
    ∃ info, boundaryInfo d p none = .ok info ∧
      ∀ (G : Grid d R), G.Complete → (∀ i, 0 ≤ G.width i) → (∀ q ∈ G.matrixRule, 0 ≤ q.weight) →
        ∀ diffusion, (∀ x, (diffusion x).IsSymm) → Semidefinite diffusion → ∀ source neumann data (s : Solver (Node G.cells) R), s.Correct →
        ∀ old u, G.apply true s diffusion source neumann data (dirichletNodes close info normal G.cells) old = .ok u →
          (∀ g, dirichletNodes close info normal G.cells g = true → u g = data g) ∧
          ∀ v : Node G.cells → R, (∀ g, dirichletNodes close info normal G.cells g = true → v g = data g) →
            energyOf G diffusion source neumann u ≤ energyOf G diffusion source neumann v := by
  obtain ⟨info, hi, -⟩ := C60_dirichlet_faces hd close hc p
  refine ⟨info, hi, fun G hG hw hq diffusion hsym hsd source neumann data s hs old u h => ?_⟩
  exact (C81_least_energy G hw hq diffusion hsym hsd source neumann data _ u).mp
    (C76_galerkin G hG s hs diffusion source neumann data _ old u h)

/-- **C81** (balance) The reactions at the Dirichlet nodes balance source and Neumann data: what the equation lacks there, summed, is what comes in. -/
theorem C81_balance (G : Grid d R) (hG : G.Complete) (diffusion : (Fin d → R) → Matrix (Fin d) (Fin d) R) (source : (Fin d → R) → R)
    (neumann data : Node G.cells → R) (D : Node G.cells → Bool) (u : Node G.cells → R)
    (hu : IsGalerkin G diffusion source neumann data D u) :
    ∑ g ∈ Finset.univ.filter (fun g => D g = true), (bilinear G diffusion u (Pi.single g 1) - volume G source (Pi.single g 1) - neumann g) =
      -(volume G source (fun _ => 1) + ∑ g, neumann g) := by
  have hres : ∀ g, bilinear G diffusion u (Pi.single g 1) - volume G source (Pi.single g 1) - neumann g =
      (matrix G diffusion *ᵥ u) g - load G source neumann g := fun g => by
    have h1 := matrix_dot G hG diffusion u (Pi.single g 1)
    have h2 := fem_load_dot G hG source neumann (Pi.single g 1)
    simp only [Pi.single_apply, mul_ite, mul_one, mul_zero, Finset.sum_ite_eq', Finset.mem_univ, if_true] at h1 h2
    rw [← h1, h2]
    ring
  have hz : ∀ g, D g = false → (matrix G diffusion *ᵥ u) g - load G source neumann g = 0 := fun g hg =>
    sub_eq_zero.mpr (((galerkin_iff G hG ..).mp hu).equation g hg)
  have hsum : ∑ g ∈ Finset.univ.filter (fun g => D g = true), ((matrix G diffusion *ᵥ u) g - load G source neumann g) =
      ∑ g, ((matrix G diffusion *ᵥ u) g - load G source neumann g) := by
    rw [Finset.sum_filter]
    refine Finset.sum_congr rfl fun g _ => ?_
    cases hg : D g
    · simp [hz g hg]
    · simp
  simp only [hres]
  rw [hsum, Finset.sum_sub_distrib]
  have h1 := matrix_dot G hG diffusion u fun _ => 1
  have h2 := fem_load_dot G hG source neumann fun _ => 1
  simp only [mul_one] at h1 h2
  rw [h1, h2]
  have h3 : bilinear G diffusion u (fun _ => 1) = 0 := by
    have hs : ∀ j x, slope G (fun _ => (1 : R)) j x = 0 := fun j x => by
      have h4 := slope_const G (-1) (fun _ => (0 : R)) j x
      rw [show (fun g : Node G.cells => (fun _ => (0 : R)) g - -1) = fun _ => (1 : R) from funext fun _ => by ring] at h4
      rw [h4]
      funext i
      simp [slope, valueOf]
    simp [bilinear, hs]
  rw [h3]
  ring

end ordered

/-- Instance: two by one cells, unit diffusion, Dirichlet values at the left side; the hypotheses are met and there is a solution. -/
example (source : (Fin 2 → ℚ) → ℚ) (order : List (CellIndex (d := 2) ![2, 1])) (ho : order.Nodup) (hall : ∀ j, j ∈ order)
    (loadRule : List (QPoint 2 ℚ)) (neumann data : Node (d := 2) ![2, 1] → ℚ) :
    let rule : List (QPoint 2 ℚ) := [⟨![0, 0], 1 / 4⟩, ⟨![1, 0], 1 / 4⟩, ⟨![0, 1], 1 / 4⟩, ⟨![1, 1], 1 / 4⟩]
    let G : Grid 2 ℚ := ⟨0, fun _ => 1, ![2, 1], order, rule, loadRule⟩
    ∃ u : Node G.cells → ℚ, (∀ g, (g 0).1 = 0 → u g = data g) ∧ ∀ v : Node G.cells → ℚ, (∀ g, (g 0).1 = 0 → v g = data g) → v ≠ u →
      energyOf G (fun _ => 1) source neumann u < energyOf G (fun _ => 1) source neumann v := by
  intro rule G
  have hR : Resolving rule := by
    refine ⟨by simp [rule], fun _ => 1, fun _ => 0, fun _ => one_ne_zero, fun s => ?_⟩
    have : (fun l => if s l then (1 : ℚ) else 0) = ![if s 0 then 1 else 0, if s 1 then 1 else 0] := by
      funext l; fin_cases l <;> rfl
    rw [this]
    cases s 0 <;> cases s 1 <;> simp [rule]
  have hpd : Definite (fun _ : Fin 2 → ℚ => (1 : Matrix (Fin 2) (Fin 2) ℚ)) := by
    intro x v hv
    rw [one_mulVec]
    have hne : v 0 ≠ 0 ∨ v 1 ≠ 0 := by
      by_contra h
      push Not at h
      exact hv (funext fun l => by fin_cases l; exacts [h.1, h.2])
    simp only [dotProduct, Fin.sum_univ_two]
    rcases hne with h | h
    · have := mul_self_pos.mpr h; have := mul_self_nonneg (v 1); linarith
    · have := mul_self_pos.mpr h; have := mul_self_nonneg (v 0); linarith
  have hcells : ∀ i, 0 < G.cells i := fun i => by fin_cases i <;> simp [G]
  obtain ⟨u, hu, -, s, hs, hret⟩ := C76_unique G ⟨ho, hall⟩ (fun _ => one_pos) hcells hR _ hpd source neumann data
    (fun g => decide ((g 0).1 = 0)) ⟨fun _ => 0, by simp⟩
  refine ⟨u, fun g hg => ((hu u).mpr rfl).boundary g (by simpa using hg), fun v hv hne => ?_⟩
  exact C81_result G ⟨ho, hall⟩ (fun _ => one_pos) hcells hR _ (fun _ => Matrix.isSymm_one) hpd source neumann data _
    ⟨fun _ => 0, by simp⟩ s hs 0 u (hret 0) v (fun g hg => hv g (by simpa using hg)) hne

end Verif.FemSolver
