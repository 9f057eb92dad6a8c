import Verif.Model.Q1Grid
import Verif.Props.LocalAssembly
import Verif.Props.CoarseAssembly
import Mathlib.Algebra.BigOperators.Ring.Finset
import Mathlib.Algebra.Order.Field.Basic
import Mathlib.Tactic.FieldSimp
import Mathlib.Tactic.LinearCombination

/-!
# Multilinear elements on structured grids
-/

namespace Verif.Q1Grid
open Matrix Verif.CoarseAssembly Verif.LocalAssembly Verif.LocalSolve Verif.Spec.Galerkin Verif.Spec.Dirichlet

variable {d : ℕ}

theorem corner_injective : Function.Injective (corner : Fin (2 ^ d) → Fin d → Bool) := by
  intro a b h
  apply Fin.ext
  apply Nat.eq_of_testBit_eq
  intro i
  by_cases hi : i < d
  · exact congrFun h ⟨i, hi⟩
  · have hp : 2 ^ d ≤ 2 ^ i := Nat.pow_le_pow_right (by omega) (by omega)
    rw [Nat.testBit_lt_two_pow (lt_of_lt_of_le a.2 hp), Nat.testBit_lt_two_pow (lt_of_lt_of_le b.2 hp)]

theorem corner_bijective : Function.Bijective (corner : Fin (2 ^ d) → Fin d → Bool) :=
  (Fintype.bijective_iff_injective_and_card _).mpr ⟨corner_injective, by simp⟩

theorem sum_corner {M : Type} [AddCommMonoid M] (f : (Fin d → Bool) → M) : ∑ k : Fin (2 ^ d), f (corner k) = ∑ v, f v :=
  corner_bijective.sum_comp f

section
variable {R : Type} [Field R]

theorem sum_prod_bool (g : Fin d → Bool → R) : ∑ v : Fin d → Bool, ∏ l, g l (v l) = ∏ l, (g l true + g l false) := by
  have := (Finset.prod_univ_sum (fun _ : Fin d => (Finset.univ : Finset Bool)) g).symm
  rw [Fintype.piFinset_univ] at this
  rw [this]
  simp

/-- interpolation of a shape function at the corners of a cell: derivative -/
theorem interpolate_grad (w : Fin d → Bool) (a x : Fin d → R) (m : Fin d → R) (i : Fin d) :
    ∑ v : Fin d → Bool, shape w (fun l => (a l + if v l then 1 else 0) / m l) * shapeGrad v x i =
      shapeGrad w (fun l => (a l + x l) / m l) i / m i := by
  have h : ∀ v : Fin d → Bool, shape w (fun l => (a l + if v l then 1 else 0) / m l) * shapeGrad v x i =
      ∏ l, hat (w l) ((a l + if v l then 1 else 0) / m l) * (if l = i then hatSlope (v l) else hat (v l) (x l)) := by
    intro v
    rw [shape, shapeGrad, ← Finset.prod_mul_distrib]
  simp only [h]
  rw [sum_prod_bool (fun l b => hat (w l) ((a l + if b then 1 else 0) / m l) * (if l = i then hatSlope b else hat b (x l)))]
  rw [shapeGrad, ← Finset.mul_prod_erase Finset.univ _ (Finset.mem_univ i),
    ← Finset.mul_prod_erase Finset.univ (fun l => if l = i then hatSlope (w l) else hat (w l) ((a l + x l) / m l))
      (Finset.mem_univ i), mul_div_right_comm]
  congr 1
  · simp only [if_true, hatSlope, hat, Bool.false_eq_true, if_false]
    cases w i <;> simp <;> ring
  · apply Finset.prod_congr rfl
    intro l hl
    have : l ≠ i := Finset.ne_of_mem_erase hl
    simp only [this, if_false, hat, if_true, Bool.false_eq_true]
    cases w l <;> simp <;> ring

/-- derivative of a function that depends on one coordinate only -/
theorem sum_one_direction (f : Bool → R) (y : Fin d) (x : Fin d → R) (i : Fin d) :
    ∑ v : Fin d → Bool, f (v y) * shapeGrad v x i = if i = y then f true - f false else 0 := by
  have h : ∀ v : Fin d → Bool, f (v y) * shapeGrad v x i =
      ∏ l, (if l = y then f (v l) else 1) * (if l = i then hatSlope (v l) else hat (v l) (x l)) := by
    intro v
    rw [Finset.prod_mul_distrib, Finset.prod_ite_eq' Finset.univ y, if_pos (Finset.mem_univ y), shapeGrad]
  simp only [h]
  rw [sum_prod_bool (fun l b => (if l = y then f b else 1) * (if l = i then hatSlope b else hat b (x l)))]
  split_ifs with hiy
  · subst hiy
    rw [← Finset.mul_prod_erase Finset.univ _ (Finset.mem_univ i), Finset.prod_eq_one, mul_one]
    · simp only [if_true, hatSlope, Bool.false_eq_true, if_false]; ring
    · intro l hl
      have : l ≠ i := Finset.ne_of_mem_erase hl
      simp [this, hat]
  · apply Finset.prod_eq_zero (Finset.mem_univ i)
    simp [hiy, hatSlope]

/-- value of a function that depends on one coordinate only -/
theorem sum_one_direction_value (f : Bool → R) (y : Fin d) (x : Fin d → R) :
    ∑ v : Fin d → Bool, f (v y) * shape v x = f true * x y + f false * (1 - x y) := by
  have h : ∀ v : Fin d → Bool, f (v y) * shape v x = ∏ l, (if l = y then f (v l) else 1) * hat (v l) (x l) := by
    intro v
    rw [Finset.prod_mul_distrib, Finset.prod_ite_eq' Finset.univ y, if_pos (Finset.mem_univ y), shape]
  simp only [h]
  rw [sum_prod_bool (fun l b => (if l = y then f b else 1) * hat b (x l)),
    ← Finset.mul_prod_erase Finset.univ _ (Finset.mem_univ y), Finset.prod_eq_one, mul_one]
  · simp [hat]
  · intro l hl
    have : l ≠ y := Finset.ne_of_mem_erase hl
    simp [this, hat]

theorem shapeGrad_affine (v : Fin d → Bool) (x : Fin d → R) (i l : Fin d) (t : R) :
    shapeGrad v (Function.update x l t) i =
      shapeGrad v (Function.update x l 0) i * (1 - t) + shapeGrad v (Function.update x l 1) i * t := by
  have h : ∀ t, shapeGrad v (Function.update x l t) i =
      (if l = i then hatSlope (v l) else hat (v l) t) *
        ∏ l' ∈ Finset.univ.erase l, if l' = i then hatSlope (v l') else hat (v l') (x l') := by
    intro t
    rw [shapeGrad, ← Finset.mul_prod_erase Finset.univ _ (Finset.mem_univ l), Function.update_self]
    congr 1
    apply Finset.prod_congr rfl
    intro l' hl'
    rw [Function.update_of_ne (Finset.ne_of_mem_erase hl')]
  rw [h, h 0, h 1]
  split_ifs
  · ring
  · unfold hat
    split_ifs <;> ring

/-- A derivative of a multilinear function that vanishes on a tensor product of two points per direction is zero: the
function does not change along the edges in this direction. -/
theorem unisolvent (a : (Fin d → Bool) → R) (p r : Fin d → R) (hpr : ∀ l, p l ≠ r l) (i : Fin d)
    (h : ∀ s : Fin d → Bool, ∑ v, a v * shapeGrad v (fun l => if s l then p l else r l) i = 0) (v : Fin d → Bool) :
    a (Function.update v i true) = a (Function.update v i false) := by
  classical
  set F : (Fin d → R) → R := fun x => ∑ v, a v * shapeGrad v x i with hF
  have haff : ∀ x l t, F (Function.update x l t) = F (Function.update x l 0) * (1 - t) + F (Function.update x l 1) * t := by
    intro x l t
    simp only [hF, Finset.sum_mul]
    rw [← Finset.sum_add_distrib]
    apply Finset.sum_congr rfl
    intro v _
    rw [shapeGrad_affine]
    ring
  have hall : ∀ S : Finset (Fin d), ∀ x, (∀ l, l ∉ S → x l = p l ∨ x l = r l) → F x = 0 := by
    intro S
    induction S using Finset.induction_on with
    | empty =>
      intro x hx
      have := h (fun l => decide (x l = p l))
      have hx' : (fun l => if decide (x l = p l) = true then p l else r l) = x := by
        funext l
        rcases hx l (Finset.notMem_empty l) with h1 | h1
        · simp [h1]
        · by_cases h2 : x l = p l
          · simp [h2]
          · rw [if_neg (by simpa using h2), h1]
      rw [hx'] at this
      exact this
    | insert l S hl ih =>
      intro x hx
      have hp : F (Function.update x l (p l)) = 0 := by
        apply ih
        intro l' hl'
        by_cases e : l' = l
        · subst e; left; rw [Function.update_self]
        · rw [Function.update_of_ne e]
          exact hx l' (by simp [e, hl'])
      have hr : F (Function.update x l (r l)) = 0 := by
        apply ih
        intro l' hl'
        by_cases e : l' = l
        · subst e; right; rw [Function.update_self]
        · rw [Function.update_of_ne e]
          exact hx l' (by simp [e, hl'])
      rw [haff] at hp hr
      have hne : p l - r l ≠ 0 := sub_ne_zero.mpr (hpr l)
      have hd : (F (Function.update x l 1) - F (Function.update x l 0)) * (p l - r l) = 0 := by
        linear_combination hp - hr
      have hd' : F (Function.update x l 1) - F (Function.update x l 0) = 0 := by
        rcases mul_eq_zero.mp hd with h | h
        · exact h
        · exact absurd h hne
      have h0 : F (Function.update x l 0) = 0 := by
        linear_combination hp - p l * hd'
      have := haff x l (x l)
      rw [Function.update_eq_self] at this
      rw [this]
      linear_combination h0 + x l * hd'
  have hv := hall Finset.univ (fun l => if v l then 1 else 0) (fun l hl => absurd (Finset.mem_univ l) hl)
  simp only [hF] at hv
  have hfac : ∀ w : Fin d → Bool, shapeGrad w (fun l => if v l then (1 : R) else 0) i =
      if ∀ l, l ≠ i → w l = v l then hatSlope (w i) else 0 := by
    intro w
    split_ifs with hw
    · rw [shapeGrad, ← Finset.mul_prod_erase Finset.univ _ (Finset.mem_univ i), if_pos rfl, Finset.prod_eq_one, mul_one]
      intro l hl
      have hl' := Finset.ne_of_mem_erase hl
      rw [if_neg hl', hw l hl']
      cases v l <;> simp [hat]
    · push Not at hw
      obtain ⟨l, hl, hne⟩ := hw
      apply Finset.prod_eq_zero (Finset.mem_univ l)
      rw [if_neg hl]
      cases hwl : w l <;> cases hvl : v l <;> simp_all [hat]
  simp only [hfac] at hv
  have hsplit : ∀ w : Fin d → Bool, (∀ l, l ≠ i → w l = v l) ↔ w = Function.update v i true ∨ w = Function.update v i false := by
    intro w
    constructor
    · intro hw
      cases hwi : w i
      · right
        funext l
        by_cases e : l = i
        · subst e; rw [Function.update_self, hwi]
        · rw [Function.update_of_ne e, hw l e]
      · left
        funext l
        by_cases e : l = i
        · subst e; rw [Function.update_self, hwi]
        · rw [Function.update_of_ne e, hw l e]
    · rintro (rfl | rfl) l e <;> rw [Function.update_of_ne e]
  have hne : Function.update v i true ≠ Function.update v i false := by
    intro e
    have := congrFun e i
    simp at this
  rw [← Finset.sum_subset (Finset.subset_univ {Function.update v i true, Function.update v i false}),
    Finset.sum_pair hne] at hv
  · rw [if_pos ((hsplit _).mpr (Or.inl rfl)), if_pos ((hsplit _).mpr (Or.inr rfl))] at hv
    simp only [Function.update_self, hatSlope, if_true, Bool.false_eq_true, if_false] at hv
    linear_combination hv
  · intro w _ hw
    rw [if_neg, mul_zero]
    rw [hsplit]
    simpa using hw

omit [Field R] in
/-- Values that agree along all edges of all cells agree everywhere. -/
theorem constant_of_edges {cells : Fin d → ℕ} (hc : ∀ i, 0 < cells i) (u : Node cells → R)
    (h : ∀ (j : CellIndex cells) (v : Fin d → Bool) (i : Fin d),
      u (cornerNode j (Function.update v i true)) = u (cornerNode j (Function.update v i false))) (g g' : Node cells) :
    u g = u g' := by
  -- one step in one direction
  have step : ∀ (g : Node cells) (i : Fin d) (a : ℕ) (ha : a < cells i),
      u (Function.update g i ⟨a + 1, by omega⟩) = u (Function.update g i ⟨a, by omega⟩) := by
    intro g i a ha
    set j : CellIndex cells := fun l => if hl : l = i then ⟨a, hl ▸ ha⟩ else
      if hg : (g l).1 = cells l then ⟨cells l - 1, by have := hc l; omega⟩ else ⟨(g l).1, by have := (g l).2; omega⟩ with hj
    set v : Fin d → Bool := fun l => decide ((g l).1 = cells l) with hv
    have e : ∀ b : Bool, cornerNode j (Function.update v i b) =
        Function.update g i (if b then ⟨a + 1, by omega⟩ else ⟨a, by omega⟩) := by
      intro b
      funext l
      by_cases hl : l = i
      · subst hl
        cases b <;> simp [cornerNode, hj, Fin.ext_iff]
      · rw [cornerNode, Function.update_of_ne hl, Function.update_of_ne hl]
        have := hc l
        by_cases hg : (g l).1 = cells l
        · simp only [hv, hj, hl, hg, dif_neg, not_false_eq_true, dif_pos, decide_true, if_true]
          apply Fin.ext
          simp only [Fin.val_succ]
          omega
        · simp only [hv, hj, hl, hg, dif_neg, not_false_eq_true, decide_false, Bool.false_eq_true, if_false]
          apply Fin.ext
          simp
    have := h j v i
    rw [e, e] at this
    simpa using this
  have line : ∀ (g : Node cells) (i : Fin d) (a : ℕ) (ha : a < cells i + 1),
      u (Function.update g i ⟨a, ha⟩) = u (Function.update g i ⟨0, by omega⟩) := by
    intro g i a
    induction a with
    | zero => intro _; rfl
    | succ a ih =>
      intro ha
      rw [step g i a (by omega)]
      exact ih (by omega)
  have change : ∀ (g : Node cells) (i : Fin d) (a b : Fin (cells i + 1)),
      u (Function.update g i a) = u (Function.update g i b) := by
    intro g i a b
    rw [line g i a.1 a.2, line g i b.1 b.2]
  have all : ∀ S : Finset (Fin d), u (fun l => if l ∈ S then g' l else g l) = u g := by
    intro S
    induction S using Finset.induction_on with
    | empty => simp
    | insert i S hi ih =>
      rw [← ih]
      have e1 : (fun l => if l ∈ insert i S then g' l else g l) =
          Function.update (fun l => if l ∈ S then g' l else g l) i (g' i) := by
        funext l
        by_cases hl : l = i
        · subst hl; simp
        · rw [Function.update_of_ne hl]; simp [hl]
      rw [e1, change _ i (g' i) (g i)]
      congr 1
      funext l
      by_cases hl : l = i
      · subst hl; simp [hi]
      · rw [Function.update_of_ne hl]
  have := all Finset.univ
  simpa using this.symm

end

section
variable {n : ℕ} {G R : Type} [Fintype G] [DecidableEq G] [Field R] [LinearOrder R] [IsStrictOrderedRing R]

omit [Fintype G] [DecidableEq G] in
/-- zero energy: zero gradient at every sample -/
theorem gradient_zero (S : List (Sample d n G R)) (hw : ∀ s ∈ S, 0 < s.weight)
    (hpd : ∀ s ∈ S, ∀ v, v ≠ 0 → 0 < (s.tensor *ᵥ v) ⬝ᵥ v) (u : G → R) (h : energy S u = 0) :
    ∀ s ∈ S, s.gradOf u = 0 := by
  have hnn : ∀ s ∈ S, 0 ≤ s.weight * ((s.tensor *ᵥ s.gradOf u) ⬝ᵥ s.gradOf u) := by
    intro s hs
    by_cases h0 : s.gradOf u = 0
    · simp [h0]
    · exact (mul_pos (hw s hs) (hpd s hs _ h0)).le
  have key : ∀ T : List (Sample d n G R), (∀ s ∈ T, s ∈ S) → energy T u = 0 → ∀ s ∈ T, s.gradOf u = 0 := by
    intro T
    induction T with
    | nil => intro _ _ s hs; cases hs
    | cons t T ih =>
      intro hT hE s hs
      have ht := hT t List.mem_cons_self
      have hT' : ∀ s ∈ T, s ∈ S := fun s hs => hT s (List.mem_cons_of_mem _ hs)
      have h1 := hnn t ht
      have h2 : 0 ≤ energy T u := by
        apply List.sum_nonneg
        intro x hx
        obtain ⟨s, hs, rfl⟩ := List.mem_map.mp hx
        exact hnn s (hT' s hs)
      have hE' : t.weight * ((t.tensor *ᵥ t.gradOf u) ⬝ᵥ t.gradOf u) + energy T u = 0 := by
        simpa [energy] using hE
      have e1 : t.weight * ((t.tensor *ᵥ t.gradOf u) ⬝ᵥ t.gradOf u) = 0 := by linarith
      have e2 : energy T u = 0 := by linarith
      rcases List.mem_cons.mp hs with rfl | hs
      · by_contra h0
        have := mul_pos (hw s ht) (hpd s ht _ h0)
        linarith
      · exact ih hT' e2 s hs
  exact key S (fun s hs => hs) h

/-- If only zero has zero gradient at all samples and zero values at the constrained nodes, the free block is injective. -/
theorem freeInjective_of_samples (S : List (Sample d n G R)) (D : G → Bool) (hw : ∀ s ∈ S, 0 < s.weight)
    (hpd : ∀ s ∈ S, ∀ v, v ≠ 0 → 0 < (s.tensor *ᵥ v) ⬝ᵥ v)
    (hker : ∀ u : G → R, (∀ s ∈ S, s.gradOf u = 0) → (∀ i, D i = true → u i = 0) → u = 0) :
    FreeInjective (Matrix.of (stiffness S)) D := by
  intro u hD hF
  apply hker u _ hD
  apply gradient_zero S hw hpd
  rw [← energy_eq]
  apply Finset.sum_eq_zero
  intro a _
  have : ∑ b, u a * stiffness S a b * u b = u a * (Matrix.of (stiffness S) *ᵥ u) a := by
    simp only [mulVec, dotProduct, Matrix.of_apply, Finset.mul_sum]
    apply Finset.sum_congr rfl
    intro b _
    ring
  rw [this]
  cases ha : D a
  · rw [hF a ha, mul_zero]
  · rw [hD a ha, zero_mul]

omit [LinearOrder R] [IsStrictOrderedRing R] in
/-- A function with zero gradient at all samples lies in the kernel. -/
theorem kernel_of_gradient (S : List (Sample d n G R)) (u : G → R) (h : ∀ s ∈ S, s.gradOf u = 0) :
    Matrix.of (stiffness S) *ᵥ u = 0 := by
  funext a
  simp only [mulVec, dotProduct, Matrix.of_apply, Pi.zero_apply]
  have key : ∀ T : List (Sample d n G R), (∀ s ∈ T, s.gradOf u = 0) → ∑ b, stiffness T a b * u b = 0 := by
    intro T
    induction T with
    | nil => intro _; simp [stiffness]
    | cons t T ih =>
      intro hT
      have e : ∀ b, stiffness (t :: T) a b * u b = (∑ i, ∑ j, if t.dofs i = a ∧ t.dofs j = b then
          t.weight * ((t.tensor *ᵥ t.grad j) ⬝ᵥ t.grad i) else 0) * u b + stiffness T a b * u b := by
        intro b
        simp [stiffness, add_mul]
      simp only [e, Finset.sum_add_distrib]
      rw [ih (fun s hs => hT s (List.mem_cons_of_mem _ hs)), add_zero]
      simp only [Finset.sum_mul]
      rw [Finset.sum_comm]
      apply Finset.sum_eq_zero
      intro i _
      have e2 : ∑ b, ∑ j, (if t.dofs i = a ∧ t.dofs j = b then
          t.weight * ((t.tensor *ᵥ t.grad j) ⬝ᵥ t.grad i) else 0) * u b =
          if t.dofs i = a then t.weight * ((t.tensor *ᵥ t.gradOf u) ⬝ᵥ t.grad i) else 0 := by
        rw [Finset.sum_comm]
        split_ifs with hi
        · rw [Sample.gradOf, mulVec_sum, sum_dotProduct, Finset.mul_sum]
          apply Finset.sum_congr rfl
          intro j _
          rw [Finset.sum_eq_single (t.dofs j)]
          · rw [if_pos ⟨hi, rfl⟩, mulVec_smul, smul_dotProduct, smul_eq_mul]; ring
          · intro b _ hb
            rw [if_neg (fun h => hb h.2.symm), zero_mul]
          · intro hb; exact absurd (Finset.mem_univ _) hb
        · apply Finset.sum_eq_zero
          intro j _
          apply Finset.sum_eq_zero
          intro b _
          rw [if_neg (fun h => hi h.1), zero_mul]
      rw [e2, hT t List.mem_cons_self]
      simp
  exact key S h

end

end Verif.Q1Grid
