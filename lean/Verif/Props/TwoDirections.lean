import Verif.Props.Solvability

/-!
# Unique solvability of the coarse system whatever the local solutions are

The assembler evaluates the coarse basis functions at the local reference position (C54).  On coarse cells with at least two local
cells in some direction this alone makes the coarse matrix injective on functions that vanish on Dirichlet faces of two directions.
-/

namespace Verif.Q1Grid
open Matrix Verif.CoarseAssembly Verif.Spec.Galerkin Verif.Spec.Dirichlet

variable {d : ℕ} {R : Type} [Field R] [LinearOrder R] [IsStrictOrderedRing R]

/-- zero sampled gradients: second differences of the coarse function vanish -/
theorem mixed_of_gradients (S : Setup d R) (hS : S.Admissible) (hR : Resolving S.matrixRule)
    (diffusion : (Fin d → R) → Matrix (Fin d) (Fin d) R) (xs : CellIndex S.cells → List (Node S.micro → R)) (u : Node S.cells → R)
    (hu : ∀ s ∈ usedSamples diffusion (fun _ => 0) (S.order.map fun J => S.coarseCell S.matrixRule J (xs J)), s.gradOf u = 0)
    (i l : Fin d) (hil : i ≠ l) (hl : 2 ≤ S.micro l) (J : CellIndex S.cells) (w : Fin d → Bool) :
    u (cornerNode J (Function.update (Function.update w l true) i true)) -
        u (cornerNode J (Function.update (Function.update w l true) i false)) =
      u (cornerNode J (Function.update (Function.update w l false) i true)) -
        u (cornerNode J (Function.update (Function.update w l false) i false)) := by
  set c : (Fin d → Bool) → R := fun v => u (cornerNode J v) with hc
  have hinc : ∀ j : CellIndex S.micro, ∀ w,
      c (Function.update w i true) / S.width i + combine S (xs J) c (cornerNode j (Function.update w i true)) / S.localWidth i =
      c (Function.update w i false) / S.width i + combine S (xs J) c (cornerNode j (Function.update w i false)) / S.localWidth i := by
    intro j w
    apply edges_of_rule S.matrixRule hR (fun v => c v / S.width i + combine S (xs J) c (cornerNode j v) / S.localWidth i)
    intro q hq
    have := hu _ ((mem_samples S _ _ _ _ _).mpr ⟨J, hS.order_complete J, j, hS.localOrder_complete j, q, hq, rfl⟩)
    have := congrFun this i
    rw [Sample.gradOf] at this
    rw [← sample_gradient S S.matrixRule J (xs J) j u q.pos i]
    exact this
  have hm := hS.micro_pos
  set j0 : CellIndex S.micro := fun k => ⟨0, hm k⟩ with hj0
  set j1 : CellIndex S.micro := fun k => if h : k = l then ⟨1, by subst h; omega⟩ else ⟨0, hm k⟩ with hj1
  have e : ∀ b, cornerNode j0 (Function.update (Function.update w l true) i b) =
      cornerNode j1 (Function.update (Function.update w l false) i b) := by
    intro b
    funext k
    apply Fin.ext
    by_cases hk : k = i
    · subst hk
      simp [cornerNode, hj0, hj1, hil]
    · by_cases hkl : k = l
      · subst hkl
        simp [cornerNode, hj0, hj1, hk]
      · simp [cornerNode, hj0, hj1, hk, hkl]
  have h0 := hinc j0 (Function.update w l true)
  have h1 := hinc j1 (Function.update w l false)
  rw [e, e] at h0
  have hw : S.width i ≠ 0 := (hS.width_pos i).ne'
  have h2 : c (Function.update (Function.update w l true) i true) / S.width i - c (Function.update (Function.update w l true) i false) / S.width i =
      c (Function.update (Function.update w l false) i true) / S.width i - c (Function.update (Function.update w l false) i false) / S.width i := by
    linear_combination h0 - h1
  rw [← sub_div, ← sub_div, div_left_inj' hw] at h2
  exact h2

/-- node with two changed coordinates -/
def put {cells : Fin d → ℕ} (g : Node cells) (i l : Fin d) (x : Fin (cells i + 1)) (y : Fin (cells l + 1)) : Node cells :=
  Function.update (Function.update g l y) i x

omit [LinearOrder R] [IsStrictOrderedRing R] in
/-- vanishing second differences on the cells give vanishing second differences of the grid function -/
theorem mixed_global {cells : Fin d → ℕ} (hcells : ∀ k, 0 < cells k) (u : Node cells → R) (i l : Fin d) (hil : i ≠ l)
    (h : ∀ (J : CellIndex cells) (w : Fin d → Bool),
      u (cornerNode J (Function.update (Function.update w l true) i true)) -
        u (cornerNode J (Function.update (Function.update w l true) i false)) =
      u (cornerNode J (Function.update (Function.update w l false) i true)) -
        u (cornerNode J (Function.update (Function.update w l false) i false)))
    (g : Node cells) (x x' : Fin (cells i + 1)) (y y' : Fin (cells l + 1)) :
    u (put g i l x y) - u (put g i l x' y) = u (put g i l x y') - u (put g i l x' y') := by
  -- one cell
  have hstep : ∀ a b (ha : a < cells i) (hb : b < cells l),
      u (put g i l ⟨a + 1, by omega⟩ ⟨b + 1, by omega⟩) - u (put g i l ⟨a, by omega⟩ ⟨b + 1, by omega⟩) =
      u (put g i l ⟨a + 1, by omega⟩ ⟨b, by omega⟩) - u (put g i l ⟨a, by omega⟩ ⟨b, by omega⟩) := by
    intro a b ha hb
    let J : CellIndex cells := fun k => if hk : k = i then ⟨a, hk ▸ ha⟩ else if hk' : k = l then ⟨b, hk' ▸ hb⟩ else
      ⟨min (g k).1 (cells k - 1), by have := hcells k; omega⟩
    let w : Fin d → Bool := fun k => decide ((g k).1 = cells k)
    have e : ∀ s t : Bool, cornerNode J (Function.update (Function.update w l t) i s) =
        put g i l ⟨if s then a + 1 else a, by split_ifs <;> omega⟩ ⟨if t then b + 1 else b, by split_ifs <;> omega⟩ := by
      intro s t
      funext k
      apply Fin.ext
      by_cases hk : k = i
      · subst hk
        cases s <;> simp [cornerNode, J, put]
      · by_cases hkl : k = l
        · subst hkl
          cases t <;> simp [cornerNode, J, put, hk]
        · have := (g k).2
          have := hcells k
          by_cases hg : (g k).1 = cells k
          · simp [cornerNode, J, put, hk, hkl, w, hg]; omega
          · simp [cornerNode, J, put, hk, hkl, w, hg]; omega
    have := h J w
    rw [e, e, e, e] at this
    exact this
  -- all steps in the direction of `i`
  have hcol : ∀ a (ha : a ≤ cells i) b (hb : b < cells l),
      u (put g i l ⟨a, by omega⟩ ⟨b + 1, by omega⟩) - u (put g i l ⟨0, by omega⟩ ⟨b + 1, by omega⟩) =
      u (put g i l ⟨a, by omega⟩ ⟨b, by omega⟩) - u (put g i l ⟨0, by omega⟩ ⟨b, by omega⟩) := by
    intro a
    induction a with
    | zero => intro _ b hb; ring
    | succ a ih =>
      intro ha b hb
      have h1 := hstep a b (by omega) hb
      have h2 := ih (by omega) b hb
      linear_combination h1 + h2
  have hall : ∀ b (hb : b ≤ cells l) a (ha : a ≤ cells i),
      u (put g i l ⟨a, by omega⟩ ⟨b, by omega⟩) - u (put g i l ⟨0, by omega⟩ ⟨b, by omega⟩) =
      u (put g i l ⟨a, by omega⟩ ⟨0, by omega⟩) - u (put g i l ⟨0, by omega⟩ ⟨0, by omega⟩) := by
    intro b
    induction b with
    | zero => intro _ a ha; ring
    | succ b ih =>
      intro hb a ha
      have h1 := hcol a ha b (by omega)
      have h2 := ih (by omega) a ha
      linear_combination h1 + h2
  have h1 := hall y.1 (by omega) x.1 (by omega)
  have h2 := hall y.1 (by omega) x'.1 (by omega)
  have h3 := hall y'.1 (by omega) x.1 (by omega)
  have h4 := hall y'.1 (by omega) x'.1 (by omega)
  simp only [Fin.eta] at h1 h2 h3 h4
  linear_combination h1 - h2 - h3 + h4

/-- The coarse system is uniquely solvable for arbitrary functions in place of the local solutions if two directions have a Dirichlet
face and coarse cells have at least two local cells in one of them. -/
theorem free_injective_two_directions (S : Setup d R) (hS : S.Admissible) (hR : Resolving S.matrixRule)
    (diffusion : (Fin d → R) → Matrix (Fin d) (Fin d) R) (hpd : Definite diffusion)
    (xs : CellIndex S.cells → List (Node S.micro → R)) (tmp : Fin (2 ^ d) → Fin (2 ^ d) → R) (D : Node S.cells → Bool)
    (i l : Fin d) (hil : i ≠ l) (hl : 2 ≤ S.micro l) (x : Fin (S.cells i + 1)) (y : Fin (S.cells l + 1))
    (hx : ∀ g : Node S.cells, g i = x → D g = true) (hy : ∀ g : Node S.cells, g l = y → D g = true) :
    FreeInjective (S.coarseMatrix diffusion xs tmp) D := by
  rw [coarseMatrix_eq]
  apply freeInjective_of_samples
  · intro s hs
    obtain ⟨J, -, j, -, q, hq, rfl⟩ := (mem_samples S _ _ _ _ _).mp hs
    exact mul_pos (hR.weight_pos q hq) (Finset.prod_pos fun i _ => localWidth_pos S hS i)
  · intro s hs
    obtain ⟨J, -, j, -, q, hq, rfl⟩ := (mem_samples S _ _ _ _ _).mp hs
    exact hpd _
  · intro u hu hDu
    funext g
    have := mixed_global hS.cells_pos u i l hil
      (fun J w => mixed_of_gradients S hS hR diffusion xs u hu i l hil hl J w) g (g i) x (g l) y
    have e1 : put g i l (g i) (g l) = g := by simp [put]
    rw [e1, hDu (put g i l x (g l)) (hx _ (by simp [put])), hDu (put g i l (g i) y) (hy _ (by simp [put, hil.symm])),
      hDu (put g i l x y) (hx _ (by simp [put]))] at this
    simpa using this

/-! ## Local solutions that vanish on the boundary of the domain -/

/-- node of the local grid on the edge of the coarse cell that starts at corner `v` and runs in direction `i` -/
def edgeNode {micro : Fin d → ℕ} (v : Fin d → Bool) (i : Fin d) (a : ℕ) : Node micro := fun l =>
  if l = i then ⟨min a (micro l), by omega⟩ else if v l then ⟨micro l, by omega⟩ else ⟨0, by omega⟩

/-- zero sampled gradients: the coarse function is constant along edges at whose ends the local solutions vanish -/
theorem edge_of_ends (S : Setup d R) (hS : S.Admissible) (hR : Resolving S.matrixRule)
    (diffusion : (Fin d → R) → Matrix (Fin d) (Fin d) R) (xs : CellIndex S.cells → List (Node S.micro → R)) (u : Node S.cells → R)
    (hu : ∀ s ∈ usedSamples diffusion (fun _ => 0) (S.order.map fun J => S.coarseCell S.matrixRule J (xs J)), s.gradOf u = 0)
    (J : CellIndex S.cells) (v : Fin d → Bool) (i : Fin d)
    (hend : ∀ a, a = 0 ∨ a = S.micro i → ∀ k : Fin (2 ^ d), (xs J).getD k.1 0 (edgeNode v i a) = 0) :
    u (cornerNode J (Function.update v i true)) = u (cornerNode J (Function.update v i false)) := by
  set c : (Fin d → Bool) → R := fun v => u (cornerNode J v) with hc
  have hinc : ∀ j : CellIndex S.micro, ∀ w,
      c (Function.update w i true) / S.width i + combine S (xs J) c (cornerNode j (Function.update w i true)) / S.localWidth i =
      c (Function.update w i false) / S.width i + combine S (xs J) c (cornerNode j (Function.update w i false)) / S.localWidth i := by
    intro j w
    apply edges_of_rule S.matrixRule hR (fun v => c v / S.width i + combine S (xs J) c (cornerNode j v) / S.localWidth i)
    intro q hq
    have := hu _ ((mem_samples S _ _ _ _ _).mpr ⟨J, hS.order_complete J, j, hS.localOrder_complete j, q, hq, rfl⟩)
    have := congrFun this i
    rw [Sample.gradOf] at this
    rw [← sample_gradient S S.matrixRule J (xs J) j u q.pos i]
    exact this
  have hm := hS.micro_pos
  have hstep : ∀ a, a < S.micro i → combine S (xs J) c (edgeNode v i (a + 1)) - combine S (xs J) c (edgeNode v i a) =
      -(c (Function.update v i true) - c (Function.update v i false)) / (S.micro i : R) := by
    intro a ha
    set j : CellIndex S.micro := fun l => if hl : l = i then ⟨a, hl ▸ ha⟩ else
      if v l then ⟨S.micro l - 1, by have := hm l; omega⟩ else ⟨0, hm l⟩ with hj
    have e : ∀ b : Bool, cornerNode j (Function.update v i b) = edgeNode v i (if b then a + 1 else a) := by
      intro b
      funext l
      have := hm l
      by_cases hl : l = i
      · subst hl
        rw [cornerNode, Function.update_self]
        apply Fin.ext
        cases b
        · simp [hj, edgeNode]; omega
        · simp [hj, edgeNode]; omega
      · rw [cornerNode, Function.update_of_ne hl]
        apply Fin.ext
        cases hv : v l
        · simp [hj, edgeNode, hl, hv]
        · simp [hj, edgeNode, hl, hv]; omega
    have h1 := hinc j v
    rw [e, e] at h1
    simp only [if_true, Bool.false_eq_true, if_false] at h1
    have hw : S.width i ≠ 0 := (hS.width_pos i).ne'
    have hmi : (S.micro i : R) ≠ 0 := by exact_mod_cast (hm i).ne'
    simp only [Setup.localWidth] at h1
    field_simp at h1 ⊢
    linear_combination h1
  have hsum : ∀ a, a ≤ S.micro i → combine S (xs J) c (edgeNode v i a) - combine S (xs J) c (edgeNode v i 0) =
      a * (-(c (Function.update v i true) - c (Function.update v i false)) / (S.micro i : R)) := by
    intro a
    induction a with
    | zero => intro _; simp
    | succ a ih =>
      intro ha
      have h1 := hstep a (by omega)
      have h2 := ih (by omega)
      push_cast
      linear_combination h1 + h2
  have hzero : ∀ a, a = 0 ∨ a = S.micro i → combine S (xs J) c (edgeNode v i a) = 0 := by
    intro a ha
    unfold combine
    apply Finset.sum_eq_zero
    intro k _
    rw [hend a ha k, mul_zero]
  have hfin := hsum (S.micro i) le_rfl
  rw [hzero _ (Or.inl rfl), hzero _ (Or.inr rfl)] at hfin
  have hmi : (S.micro i : R) ≠ 0 := by exact_mod_cast (hm i).ne'
  field_simp at hfin
  show c (Function.update v i true) = c (Function.update v i false)
  linear_combination hfin

/-- The node of the coarse grid lies on the boundary of the domain. -/
def OnDomainBoundary {cells : Fin d → ℕ} (g : Node cells) : Prop := ∃ l, (g l).1 = 0 ∨ (g l).1 = cells l

/-- The node of the local grid of coarse cell `J` lies on the boundary of the domain. -/
def LocalOnBoundary {cells micro : Fin d → ℕ} (J : CellIndex cells) (node : Node micro) : Prop :=
  ∃ l, ((J l).1 = 0 ∧ (node l).1 = 0) ∨ ((J l).1 + 1 = cells l ∧ (node l).1 = micro l)

omit [Field R] [LinearOrder R] [IsStrictOrderedRing R] in
/-- a function that is constant along edges on the boundary is constant on the boundary -/
theorem constant_on_boundary (hd : 2 ≤ d) {cells : Fin d → ℕ} (hcells : ∀ k, 0 < cells k) (u : Node cells → R)
    (h : ∀ (J : CellIndex cells) (v : Fin d → Bool) (i : Fin d), (∃ l, l ≠ i ∧ (((J l).1 = 0 ∧ v l = false) ∨ ((J l).1 + 1 = cells l ∧ v l = true))) →
      u (cornerNode J (Function.update v i true)) = u (cornerNode J (Function.update v i false)))
    (g : Node cells) (hg : OnDomainBoundary g) : u g = u fun _ => 0 := by
  induction hn : ∑ k, (g k).1 using Nat.strong_induction_on generalizing g with
  | _ n ih =>
  by_cases h0 : g = fun _ => 0
  · rw [h0]
  -- direction in which the node is moved
  obtain ⟨k, l, hkl, hk, hl⟩ : ∃ k l, l ≠ k ∧ 0 < (g k).1 ∧ ((g l).1 = 0 ∨ (g l).1 = cells l) := by
    obtain ⟨l, hl⟩ := hg
    by_cases hex : ∃ k, l ≠ k ∧ 0 < (g k).1
    · obtain ⟨k, hk, hk'⟩ := hex
      exact ⟨k, l, hk, hk', hl⟩
    · have hz : ∀ k, k ≠ l → (g k).1 = 0 := by
        intro k hk
        by_contra hne
        exact hex ⟨k, hk.symm, by omega⟩
      have hpos : 0 < (g l).1 := by
        by_contra hne
        apply h0
        funext k
        apply Fin.ext
        by_cases hk : k = l
        · subst hk
          simpa using hne
        · exact hz k hk
      obtain ⟨l', hl'⟩ : ∃ l' : Fin d, l' ≠ l := by
        have : Nontrivial (Fin d) := Fin.nontrivial_iff_two_le.mpr hd
        exact exists_ne l
      exact ⟨l, l', hl', hpos, Or.inl (hz l' hl')⟩
  let g' : Node cells := Function.update g k ⟨(g k).1 - 1, by omega⟩
  let J : CellIndex cells := fun j => if hj : j = k then ⟨(g k).1 - 1, by subst hj; have := (g j).2; omega⟩ else
    ⟨min (g j).1 (cells j - 1), by have := hcells j; omega⟩
  let w : Fin d → Bool := fun j => decide ((g j).1 = cells j)
  have e1 : cornerNode J (Function.update w k true) = g := by
    funext j
    apply Fin.ext
    have := (g j).2
    have := hcells j
    by_cases hj : j = k
    · subst hj
      simp [cornerNode, J]; omega
    · by_cases hgj : (g j).1 = cells j
      · simp [cornerNode, J, hj, w, hgj]; omega
      · simp [cornerNode, J, hj, w, hgj]; omega
  have e2 : cornerNode J (Function.update w k false) = g' := by
    funext j
    apply Fin.ext
    have := (g j).2
    have := hcells j
    by_cases hj : j = k
    · subst hj
      simp [cornerNode, J, g']
    · by_cases hgj : (g j).1 = cells j
      · simp [cornerNode, J, hj, w, hgj, g']; omega
      · simp [cornerNode, J, hj, w, hgj, g']; omega
  have hstep := h J w k ⟨l, hkl, by
    have := hcells l
    rcases hl with hl | hl
    · left
      simp [J, w, hkl, hl]
      omega
    · right
      simp [J, w, hkl, hl]
      omega⟩
  rw [e1, e2] at hstep
  rw [hstep]
  refine ih (∑ j, (g' j).1) ?_ g' ⟨l, by simpa [g', hkl] using hl⟩ rfl
  rw [← hn]
  apply Finset.sum_lt_sum
  · intro j _
    by_cases hj : j = k
    · subst hj
      simp [g']
    · simp [g', hj]
  · exact ⟨k, Finset.mem_univ k, by simp only [g', Function.update_self]; omega⟩

/-- The coarse system is uniquely solvable if the local solutions vanish on the boundary of the domain, at least one node there is a
Dirichlet node, and the coarse cells have at least two local cells in some direction. -/
theorem free_injective_of_boundary (hd : 2 ≤ d) (S : Setup d R) (hS : S.Admissible) (hR : Resolving S.matrixRule)
    (diffusion : (Fin d → R) → Matrix (Fin d) (Fin d) R) (hpd : Definite diffusion)
    (xs : CellIndex S.cells → List (Node S.micro → R))
    (hx : ∀ J (k : Fin (2 ^ d)) (node : Node S.micro), LocalOnBoundary J node → (xs J).getD k.1 0 node = 0)
    (tmp : Fin (2 ^ d) → Fin (2 ^ d) → R) (D : Node S.cells → Bool) (hm : ∃ l, 2 ≤ S.micro l)
    (hD : ∃ g, OnDomainBoundary g ∧ D g = true) : FreeInjective (S.coarseMatrix diffusion xs tmp) D := by
  obtain ⟨l, hl⟩ := hm
  obtain ⟨i, hil⟩ : ∃ i : Fin d, i ≠ l := by
    have : Nontrivial (Fin d) := Fin.nontrivial_iff_two_le.mpr hd
    exact exists_ne l
  rw [coarseMatrix_eq]
  apply freeInjective_of_samples
  · intro s hs
    obtain ⟨J, -, j, -, q, hq, rfl⟩ := (mem_samples S _ _ _ _ _).mp hs
    exact mul_pos (hR.weight_pos q hq) (Finset.prod_pos fun i _ => localWidth_pos S hS i)
  · intro s hs
    obtain ⟨J, -, j, -, q, hq, rfl⟩ := (mem_samples S _ _ _ _ _).mp hs
    exact hpd _
  · intro u hu hDu
    have hconst : ∀ g, OnDomainBoundary g → u g = u fun _ => 0 := by
      refine constant_on_boundary hd hS.cells_pos u fun J v i hv => edge_of_ends S hS hR diffusion xs u hu J v i fun a _ k => hx J k _ ?_
      obtain ⟨l, hl, h | h⟩ := hv
      · exact ⟨l, Or.inl ⟨h.1, by simp [edgeNode, hl, h.2]⟩⟩
      · exact ⟨l, Or.inr ⟨h.1, by simp [edgeNode, hl, h.2]⟩⟩
    have hzero : ∀ g, OnDomainBoundary g → u g = 0 := by
      obtain ⟨g0, hb, hg0⟩ := hD
      intro g hg
      rw [hconst g hg, ← hconst g0 hb, hDu g0 hg0]
    funext g
    have := mixed_global hS.cells_pos u i l hil
      (fun J w => mixed_of_gradients S hS hR diffusion xs u hu i l hil hl J w) g (g i) 0 (g l) 0
    have e1 : put g i l (g i) (g l) = g := by simp [put]
    rw [e1, hzero (put g i l 0 (g l)) ⟨i, Or.inl (by simp [put])⟩, hzero (put g i l (g i) 0) ⟨l, Or.inl (by simp [put, hil.symm])⟩,
      hzero (put g i l 0 0) ⟨i, Or.inl (by simp [put])⟩] at this
    simpa using this

end Verif.Q1Grid
