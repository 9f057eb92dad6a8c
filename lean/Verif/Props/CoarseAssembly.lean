import Verif.Model.CoarseAssembly
import Verif.Spec.Galerkin
import Mathlib.Algebra.BigOperators.Fin
import Mathlib.Algebra.BigOperators.Ring.Finset
import Mathlib.Algebra.Order.BigOperators.Group.List
import Mathlib.LinearAlgebra.Matrix.Symmetric
import Mathlib.Algebra.Order.Ring.Rat
import Mathlib.Tactic.NormNum
import Mathlib.Tactic.Ring
import Mathlib.Tactic.FinCases
import Mathlib.Tactic.Linarith

/-!
# C22, C23, C24, C54: the coarse system
-/

namespace Verif.CoarseAssembly
open Matrix Verif.Spec.Galerkin

variable {d n : ℕ} {G R : Type} [CommRing R]

/-- The samples the code takes: basis functions of the coarse cell evaluated at the position in
the reference element of the local cell. -/
def usedSamples (diffusion : (Fin d → R) → Matrix (Fin d) (Fin d) R) (source : (Fin d → R) → R)
    (Ks : List (CoarseCell d n G R)) : List (Sample d n G R) :=
  Ks.flatMap fun K => (K.cells.filter (·.covered)).flatMap fun e => e.quad.map fun q =>
    { weight := q.weight
      tensor := diffusion (e.toGlobal q.pos)
      source := source (e.toGlobal q.pos)
      dofs := K.dofs
      val := fun i => K.phi i q.pos + e.valQ i q.pos
      grad := fun i => K.gradPhi i q.pos + e.gradQ i q.pos
      lifting := e.gradDirichlet q.pos - e.gradNeumann q.pos }

/-- The samples of the multiscale basis `φ_i + Q_i`: basis functions of the coarse cell evaluated
where the quadrature point lies. -/
def trueSamples (diffusion : (Fin d → R) → Matrix (Fin d) (Fin d) R) (source : (Fin d → R) → R)
    (Ks : List (CoarseCell d n G R)) : List (Sample d n G R) :=
  Ks.flatMap fun K => (K.cells.filter (·.covered)).flatMap fun e => e.quad.map fun q =>
    let y := K.toLocal (e.toGlobal q.pos)
    { weight := q.weight
      tensor := diffusion (e.toGlobal q.pos)
      source := source (e.toGlobal q.pos)
      dofs := K.dofs
      val := fun i => K.phi i y + e.valQ i q.pos
      grad := fun i => K.gradPhi i y + e.gradQ i q.pos
      lifting := e.gradDirichlet q.pos - e.gradNeumann q.pos }

section lemmas

/-- summation of a fold that adds a contribution per element -/
theorem foldl_contrib {S α : Type} (l : List α) (f : S → α → S) (read : S → R) (g : α → R)
    (h : ∀ s a, read (f s a) = read s + g a) (s : S) : read (l.foldl f s) = read s + (l.map g).sum := by
  induction l generalizing s with
  | nil => simp
  | cons a l ih => rw [List.foldl_cons, ih, h, List.map_cons, List.sum_cons, add_assoc]

theorem addTo_apply {I J : Type} [DecidableEq I] [DecidableEq J] (M : I → J → R) (r : I) (c : J) (v : R)
    (a : I) (b : J) : addTo M r c v a b = M a b + if a = r ∧ b = c then v else 0 := by
  unfold addTo
  split_ifs <;> simp

theorem addToVec_apply {I : Type} [DecidableEq I] (M : I → R) (r : I) (v : R) (a : I) :
    addToVec M r v a = M a + if a = r then v else 0 := by
  unfold addToVec
  split_ifs <;> simp

theorem sum_finRange (f : Fin n → R) : ((List.finRange n).map f).sum = ∑ i, f i := by
  rw [← List.ofFn_eq_map, List.sum_ofFn]

/-- nested loop with `addTo` -/
theorem double_loop {I J : Type} [DecidableEq I] [DecidableEq J] (A : I → J → R) (r : Fin n → Fin n → I)
    (c : Fin n → Fin n → J) (v : Fin n → Fin n → R) (a : I) (b : J) :
    (List.finRange n).foldl (fun A ii =>
      (List.finRange n).foldl (fun A jj => addTo A (r ii jj) (c ii jj) (v ii jj)) A) A a b =
    A a b + ∑ i, ∑ j, if a = r i j ∧ b = c i j then v i j else 0 := by
  rw [foldl_contrib (R := R) (List.finRange n) _ (fun A : I → J → R => A a b)
    (fun i => ∑ j, if a = r i j ∧ b = c i j then v i j else 0), sum_finRange]
  intro A i
  rw [foldl_contrib (R := R) (List.finRange n) _ (fun A : I → J → R => A a b)
    (fun j => if a = r i j ∧ b = c i j then v i j else 0), sum_finRange]
  intro A j
  exact addTo_apply _ _ _ _ _ _

/-- value of the local integral, whatever the previous content of `ret` -/
theorem matrixIntegral_apply (diffusion : (Fin d → R) → Matrix (Fin d) (Fin d) R)
    (K : CoarseCell d n G R) (e : LocalCell d n R) (ret : Fin n → Fin n → R) (r c : Fin n) :
    matrixIntegral diffusion K e ret r c =
      (e.quad.map fun q => ((diffusion (e.toGlobal q.pos) *ᵥ (K.gradPhi c q.pos + e.gradQ c q.pos)) ⬝ᵥ
        (K.gradPhi r q.pos + e.gradQ r q.pos)) * q.weight).sum := by
  unfold matrixIntegral
  dsimp only
  rw [foldl_contrib (R := R) e.quad _ (fun A : Fin n → Fin n → R => A r c)]
  · rw [mul_zero, zero_add]
  · intro A q
    rw [double_loop]
    congr 1
    rw [Finset.sum_eq_single c, Finset.sum_eq_single r]
    · simp
    · intro j _ hj
      rw [if_neg]
      rintro ⟨h, -⟩; exact hj h.symm
    · simp
    · intro i _ hi
      apply Finset.sum_eq_zero
      intro j _
      rw [if_neg]
      rintro ⟨-, h⟩; exact hi h.symm
    · simp

theorem loadIntegral_apply (diffusion : (Fin d → R) → Matrix (Fin d) (Fin d) R)
    (flux : (Fin d → R) → (Fin d → R) → (Fin d → R)) (hflux : ∀ x v, flux x v = diffusion x *ᵥ v)
    (source : (Fin d → R) → R) (K : CoarseCell d n G R) (e : LocalCell d n R) (ret : Fin n → R)
    (r : Fin n) :
    loadIntegral flux source K e ret r =
      (e.quad.map fun q => q.weight * (source (e.toGlobal q.pos) * (K.phi r q.pos + e.valQ r q.pos) -
        (diffusion (e.toGlobal q.pos) *ᵥ (e.gradDirichlet q.pos - e.gradNeumann q.pos)) ⬝ᵥ
          (K.gradPhi r q.pos + e.gradQ r q.pos))).sum := by
  unfold loadIntegral
  simp only [hflux]
  rw [foldl_contrib (R := R) e.quad _ (fun A : Fin n → R => A r)]
  · rw [mul_zero, zero_add]
  · intro A q
    rw [foldl_contrib (R := R) (List.finRange n) _ (fun A : Fin n → R => A r)
      (fun i => if r = i then q.weight * (source (e.toGlobal q.pos) * (K.phi i q.pos + e.valQ i q.pos) -
        (diffusion (e.toGlobal q.pos) *ᵥ (e.gradDirichlet q.pos - e.gradNeumann q.pos)) ⬝ᵥ
          (K.gradPhi i q.pos + e.gradQ i q.pos)) else 0)]
    · rw [sum_finRange, Finset.sum_ite_eq]
      simp
    · intro A i
      rw [addToVec_apply, addToVec_apply, zero_add]
      split_ifs
      · ring
      · ring

variable [DecidableEq G]

theorem matrixLocalCell_apply (diffusion : (Fin d → R) → Matrix (Fin d) (Fin d) R)
    (K : CoarseCell d n G R) (st : (G → G → R) × (Fin n → Fin n → R)) (e : LocalCell d n R) (a b : G) :
    (matrixLocalCell diffusion K st e).1 a b = st.1 a b + if e.covered then
      (e.quad.map fun q => ∑ i, ∑ j, if K.dofs i = a ∧ K.dofs j = b then
        q.weight * ((diffusion (e.toGlobal q.pos) *ᵥ (K.gradPhi j q.pos + e.gradQ j q.pos)) ⬝ᵥ
          (K.gradPhi i q.pos + e.gradQ i q.pos)) else 0).sum else 0 := by
  unfold matrixLocalCell
  split_ifs with h
  · dsimp only
    rw [double_loop]
    congr 1
    simp only [matrixIntegral_apply]
    generalize e.quad = quad
    induction quad with
    | nil => simp
    | cons q quad ih =>
      simp only [List.map_cons, List.sum_cons]
      rw [← ih, ← Finset.sum_add_distrib]
      apply Finset.sum_congr rfl
      intro i _
      rw [← Finset.sum_add_distrib]
      apply Finset.sum_congr rfl
      intro j _
      by_cases hc : K.dofs i = a ∧ K.dofs j = b
      · rw [if_pos hc, if_pos ⟨hc.1.symm, hc.2.symm⟩, if_pos ⟨hc.1.symm, hc.2.symm⟩]
        ring
      · have hc' : ¬ (a = K.dofs i ∧ b = K.dofs j) := fun h => hc ⟨h.1.symm, h.2.symm⟩
        rw [if_neg hc, if_neg hc', if_neg hc']
        ring
  · simp

theorem loadLocalCell_apply (diffusion : (Fin d → R) → Matrix (Fin d) (Fin d) R)
    (flux : (Fin d → R) → (Fin d → R) → (Fin d → R)) (hflux : ∀ x v, flux x v = diffusion x *ᵥ v)
    (source : (Fin d → R) → R)
    (K : CoarseCell d n G R) (st : (G → R) × (Fin n → R)) (e : LocalCell d n R) (a : G) :
    (loadLocalCell flux source K st e).1 a = st.1 a + if e.covered then
      (e.quad.map fun q => ∑ i, if K.dofs i = a then
        q.weight * (source (e.toGlobal q.pos) * (K.phi i q.pos + e.valQ i q.pos) -
        (diffusion (e.toGlobal q.pos) *ᵥ (e.gradDirichlet q.pos - e.gradNeumann q.pos)) ⬝ᵥ
          (K.gradPhi i q.pos + e.gradQ i q.pos)) else 0).sum else 0 := by
  unfold loadLocalCell
  split_ifs with h
  · dsimp only
    rw [foldl_contrib (R := R) (List.finRange n) _ (fun b : G → R => b a)
      (fun i => if a = K.dofs i then loadIntegral flux source K e (fun i => st.2 i * 0) i else 0)
      (fun b i => addToVec_apply _ _ _ _), sum_finRange]
    congr 1
    simp only [loadIntegral_apply diffusion flux hflux]
    generalize e.quad = quad
    induction quad with
    | nil => simp
    | cons q quad ih =>
      simp only [List.map_cons, List.sum_cons]
      rw [← ih, ← Finset.sum_add_distrib]
      apply Finset.sum_congr rfl
      intro i _
      by_cases hc : K.dofs i = a
      · rw [if_pos hc, if_pos hc.symm, if_pos hc.symm]
      · have hc' : ¬ (a = K.dofs i) := fun h => hc h.symm
        rw [if_neg hc, if_neg hc', if_neg hc']
        ring
  · simp

theorem sum_flatMap_map {α β : Type} (l : List α) (f : α → List β) (g : β → R) :
    ((l.flatMap f).map g).sum = (l.map fun a => ((f a).map g).sum).sum := by
  induction l with
  | nil => simp
  | cons a l ih => simp [ih]

theorem sum_filter_map {α : Type} (l : List α) (p : α → Bool) (g : α → R) :
    ((l.filter p).map g).sum = (l.map fun a => if p a then g a else 0).sum := by
  induction l with
  | nil => simp
  | cons a l ih =>
    by_cases h : p a
    · simp [h, ih]
    · simp [h, ih]

end lemmas

variable [DecidableEq G]

/-! ## C22 -/

/-- **C22** Every entry of the assembled coarse matrix is the initial entry plus the stiffness
entry of the samples taken, whatever the initial content `tmp` of the temporary. -/
theorem C22_matrix_entries (diffusion : (Fin d → R) → Matrix (Fin d) (Fin d) R) (source : (Fin d → R) → R)
    (Ks : List (CoarseCell d n G R)) (A : G → G → R) (tmp : Fin n → Fin n → R) (a b : G) :
    (assembleMatrix diffusion Ks (A, tmp)).1 a b =
      A a b + stiffness (usedSamples diffusion source Ks) a b := by
  unfold assembleMatrix
  rw [foldl_contrib (R := R) Ks _ (fun st : (G → G → R) × (Fin n → Fin n → R) => st.1 a b)
    (fun K => stiffness (usedSamples diffusion source [K]) a b)]
  · congr 1
    unfold stiffness usedSamples
    rw [sum_flatMap_map]
    simp only [List.flatMap_cons, List.flatMap_nil, List.append_nil]
  · intro st K
    rw [foldl_contrib (R := R) K.cells _ (fun st : (G → G → R) × (Fin n → Fin n → R) => st.1 a b) _
      (fun st e => matrixLocalCell_apply diffusion K st e a b)]
    congr 1
    unfold stiffness usedSamples
    simp only [List.flatMap_cons, List.flatMap_nil, List.append_nil]
    rw [sum_flatMap_map, sum_filter_map]
    simp only [List.map_map]
    rfl

/-- **C22** (order) Two assemblies that visit the same cells in any order, starting with any
contents of the temporary, give the same matrix. -/
theorem C22_order_irrelevant (diffusion : (Fin d → R) → Matrix (Fin d) (Fin d) R)
    (Ks Ks' : List (CoarseCell d n G R)) (hp : Ks.Perm Ks') (A : G → G → R) (tmp tmp' : Fin n → Fin n → R) :
    (assembleMatrix diffusion Ks (A, tmp)).1 = (assembleMatrix diffusion Ks' (A, tmp')).1 := by
  funext a b
  rw [C22_matrix_entries diffusion (fun _ => 0), C22_matrix_entries diffusion (fun _ => 0)]
  congr 1
  unfold stiffness
  apply List.Perm.sum_eq
  apply List.Perm.map
  exact hp.flatMap_right _

/-- Reordering the local cells inside a coarse cell does not matter either. -/
theorem C22_local_order_irrelevant (diffusion : (Fin d → R) → Matrix (Fin d) (Fin d) R)
    (K : CoarseCell d n G R) (cells' : List (LocalCell d n R)) (hp : K.cells.Perm cells')
    (A : G → G → R) (tmp tmp' : Fin n → Fin n → R) :
    (assembleMatrix diffusion [K] (A, tmp)).1 =
      (assembleMatrix diffusion [{ K with cells := cells' }] (A, tmp')).1 := by
  funext a b
  rw [C22_matrix_entries diffusion (fun _ => 0), C22_matrix_entries diffusion (fun _ => 0)]
  congr 1
  unfold stiffness
  apply List.Perm.sum_eq
  apply List.Perm.map
  unfold usedSamples
  simp only [List.flatMap_cons, List.flatMap_nil, List.append_nil]
  exact (hp.filter _).flatMap_right _

/-! ## C23 -/

/-- **C23** (symmetry) For a pointwise symmetric diffusion tensor the assembled matrix is symmetric. -/
theorem C23_symmetric (diffusion : (Fin d → R) → Matrix (Fin d) (Fin d) R)
    (hsym : ∀ x, (diffusion x).IsSymm) (Ks : List (CoarseCell d n G R)) (tmp : Fin n → Fin n → R)
    (a b : G) :
    (assembleMatrix diffusion Ks (fun _ _ => 0, tmp)).1 a b =
      (assembleMatrix diffusion Ks (fun _ _ => 0, tmp)).1 b a := by
  rw [C22_matrix_entries diffusion (fun _ => 0), C22_matrix_entries diffusion (fun _ => 0)]
  congr 1
  unfold stiffness usedSamples
  rw [sum_flatMap_map, sum_flatMap_map]
  congr 1
  apply List.map_congr_left
  intro K _
  rw [sum_flatMap_map, sum_flatMap_map]
  congr 1
  apply List.map_congr_left
  intro e _
  rw [List.map_map, List.map_map]
  congr 1
  apply List.map_congr_left
  intro q _
  simp only [Function.comp]
  rw [Finset.sum_comm]
  apply Finset.sum_congr rfl
  intro i _
  apply Finset.sum_congr rfl
  intro j _
  have hswap : ∀ u v : Fin d → R, (diffusion (e.toGlobal q.pos) *ᵥ u) ⬝ᵥ v =
      (diffusion (e.toGlobal q.pos) *ᵥ v) ⬝ᵥ u := by
    intro u v
    rw [dotProduct_comm, dotProduct_mulVec, ← mulVec_transpose, (hsym _)]
  by_cases h : K.dofs j = a ∧ K.dofs i = b
  · rw [if_pos h, if_pos ⟨h.2, h.1⟩, hswap]
  · rw [if_neg h, if_neg (fun h' => h ⟨h'.2, h'.1⟩)]

section energy
variable [Fintype G]

omit [DecidableEq G] in
theorem energy_sample [DecidableEq G] (s : Sample d n G R) (u : G → R) :
    ∑ a, ∑ b, u a * (∑ i, ∑ j, if s.dofs i = a ∧ s.dofs j = b then
      s.weight * ((s.tensor *ᵥ s.grad j) ⬝ᵥ s.grad i) else 0) * u b =
    s.weight * ((s.tensor *ᵥ s.gradOf u) ⬝ᵥ s.gradOf u) := by
  have h1 : ∀ a b, u a * (∑ i, ∑ j, if s.dofs i = a ∧ s.dofs j = b then
      s.weight * ((s.tensor *ᵥ s.grad j) ⬝ᵥ s.grad i) else 0) * u b =
      ∑ i, ∑ j, if s.dofs i = a ∧ s.dofs j = b then
        u (s.dofs i) * (s.weight * ((s.tensor *ᵥ s.grad j) ⬝ᵥ s.grad i)) * u (s.dofs j) else 0 := by
    intro a b
    rw [Finset.mul_sum, Finset.sum_mul]
    apply Finset.sum_congr rfl
    intro i _
    rw [Finset.mul_sum, Finset.sum_mul]
    apply Finset.sum_congr rfl
    intro j _
    split_ifs with h
    · rw [h.1, h.2]
    · ring
  simp only [h1]
  have h2 : ∀ (f : Fin n → Fin n → R), ∑ a : G, ∑ b : G, ∑ i, ∑ j,
      (if s.dofs i = a ∧ s.dofs j = b then f i j else 0) = ∑ i, ∑ j, f i j := by
    intro f
    have : ∀ a : G, ∑ b : G, ∑ i, ∑ j, (if s.dofs i = a ∧ s.dofs j = b then f i j else 0) =
        ∑ i, ∑ j, if s.dofs i = a then f i j else 0 := by
      intro a
      rw [Finset.sum_comm]
      apply Finset.sum_congr rfl
      intro i _
      rw [Finset.sum_comm]
      apply Finset.sum_congr rfl
      intro j _
      by_cases h : s.dofs i = a
      · simp [h]
      · simp [h]
    simp only [this]
    rw [Finset.sum_comm]
    apply Finset.sum_congr rfl
    intro i _
    rw [Finset.sum_comm]
    apply Finset.sum_congr rfl
    intro j _
    simp
  rw [h2]
  unfold Sample.gradOf
  rw [dotProduct_sum, Finset.mul_sum]
  apply Finset.sum_congr rfl
  intro i _
  rw [mulVec_sum, sum_dotProduct, Finset.mul_sum]
  apply Finset.sum_congr rfl
  intro j _
  rw [mulVec_smul, smul_dotProduct, dotProduct_smul, smul_eq_mul, smul_eq_mul]
  ring

theorem energy_eq (S : List (Sample d n G R)) (u : G → R) :
    ∑ a, ∑ b, u a * stiffness S a b * u b = energy S u := by
  unfold stiffness energy
  induction S with
  | nil => simp
  | cons s S ih =>
    simp only [List.map_cons, List.sum_cons]
    rw [← ih, ← energy_sample]
    rw [← Finset.sum_add_distrib]
    apply Finset.sum_congr rfl
    intro a _
    rw [← Finset.sum_add_distrib]
    apply Finset.sum_congr rfl
    intro b _
    ring

/-- The quadratic form of the assembled matrix is the diffusion energy of the samples taken. -/
theorem C23_energy_as_sampled (diffusion : (Fin d → R) → Matrix (Fin d) (Fin d) R)
    (source : (Fin d → R) → R)
    (Ks : List (CoarseCell d n G R)) (tmp : Fin n → Fin n → R) (u : G → R) :
    ∑ a, ∑ b, u a * (assembleMatrix diffusion Ks (fun _ _ => 0, tmp)).1 a b * u b =
      energy (usedSamples diffusion source Ks) u := by
  simp only [C22_matrix_entries diffusion source, zero_add]
  exact energy_eq _ u

/-- **C23** (non-negativity) For non-negative weights and pointwise positive semidefinite tensors
the quadratic form of the assembled matrix is non-negative. -/
theorem C23_nonneg {R : Type} [CommRing R] [LinearOrder R] [IsStrictOrderedRing R]
    (diffusion : (Fin d → R) → Matrix (Fin d) (Fin d) R)
    (hpsd : ∀ x v, 0 ≤ (diffusion x *ᵥ v) ⬝ᵥ v) (Ks : List (CoarseCell d n G R))
    (hw : ∀ K ∈ Ks, ∀ e ∈ K.cells, ∀ q ∈ e.quad, 0 ≤ q.weight) (tmp : Fin n → Fin n → R) (u : G → R) :
    0 ≤ ∑ a, ∑ b, u a * (assembleMatrix diffusion Ks (fun _ _ => 0, tmp)).1 a b * u b := by
  rw [C23_energy_as_sampled diffusion (fun _ => 0)]
  unfold energy
  apply List.sum_nonneg
  intro x hx
  obtain ⟨s, hs, rfl⟩ := List.mem_map.mp hx
  unfold usedSamples at hs
  rw [List.mem_flatMap] at hs
  obtain ⟨K, hK, hs⟩ := hs
  rw [List.mem_flatMap] at hs
  obtain ⟨e, he, hs⟩ := hs
  obtain ⟨q, hq, rfl⟩ := List.mem_map.mp hs
  exact mul_nonneg (hw K hK e (List.mem_of_mem_filter he) q hq) (hpsd _ _)

end energy

/-! ## C24 -/

/-- **C24** (entries as sampled) Every entry of the assembled load vector is the initial entry plus the
load functional of the samples taken. -/
theorem C24_load_entries (diffusion : (Fin d → R) → Matrix (Fin d) (Fin d) R)
    (flux : (Fin d → R) → (Fin d → R) → (Fin d → R)) (hflux : ∀ x v, flux x v = diffusion x *ᵥ v)
    (source : (Fin d → R) → R)
    (Ks : List (CoarseCell d n G R)) (v : G → R) (tmp : Fin n → R) (a : G) :
    (assembleLoad flux source Ks (v, tmp)).1 a =
      v a + load (usedSamples diffusion source Ks) a := by
  unfold assembleLoad
  rw [foldl_contrib (R := R) Ks _ (fun st : (G → R) × (Fin n → R) => st.1 a)
    (fun K => load (usedSamples diffusion source [K]) a)]
  · congr 1
    unfold load usedSamples
    rw [sum_flatMap_map]
    simp only [List.flatMap_cons, List.flatMap_nil, List.append_nil]
  · intro st K
    rw [foldl_contrib (R := R) K.cells _ (fun st : (G → R) × (Fin n → R) => st.1 a) _
      (fun st e => loadLocalCell_apply diffusion flux hflux source K st e a)]
    congr 1
    unfold load usedSamples
    simp only [List.flatMap_cons, List.flatMap_nil, List.append_nil]
    rw [sum_flatMap_map, sum_filter_map]
    simp only [List.map_map]
    rfl

/-- **C24** (order) The load vector does not depend on the order of cells nor on the temporary. -/
theorem C24_order_irrelevant (diffusion : (Fin d → R) → Matrix (Fin d) (Fin d) R)
    (flux : (Fin d → R) → (Fin d → R) → (Fin d → R)) (hflux : ∀ x v, flux x v = diffusion x *ᵥ v)
    (source : (Fin d → R) → R)
    (Ks Ks' : List (CoarseCell d n G R)) (hp : Ks.Perm Ks') (v : G → R) (tmp tmp' : Fin n → R) :
    (assembleLoad flux source Ks (v, tmp)).1 = (assembleLoad flux source Ks' (v, tmp')).1 := by
  funext a
  rw [C24_load_entries diffusion flux hflux, C24_load_entries diffusion flux hflux]
  congr 1
  unfold load
  apply List.Perm.sum_eq
  apply List.Perm.map
  exact hp.flatMap_right _

/-! ## C54 -/

omit [DecidableEq G] in
/-- If the reference coordinates of local and coarse cell agree at all quadrature points used
(the local grid of the coarse cell is the cell itself), the samples taken are right. -/
theorem usedSamples_eq (diffusion : (Fin d → R) → Matrix (Fin d) (Fin d) R) (source : (Fin d → R) → R)
    (Ks : List (CoarseCell d n G R))
    (h : ∀ K ∈ Ks, ∀ e ∈ K.cells, e.covered = true → ∀ q ∈ e.quad, ∀ i,
      K.phi i (K.toLocal (e.toGlobal q.pos)) = K.phi i q.pos ∧
      K.gradPhi i (K.toLocal (e.toGlobal q.pos)) = K.gradPhi i q.pos) :
    usedSamples diffusion source Ks = trueSamples diffusion source Ks := by
  unfold usedSamples trueSamples
  apply List.flatMap_congr
  intro K hK
  apply List.flatMap_congr
  intro e he
  rw [List.mem_filter] at he
  apply List.map_congr_left
  intro q hq
  have := h K hK e he.1 he.2 q hq
  simp only [(this _).1, (this _).2]

/-- **C54** (partial) If every basis function has the same value and gradient at the two reference
positions, matrix and load are those of the multiscale basis.  Missing: coarse
cells with more than one local cell, where this fails; see below. -/
theorem C54_sampled_in_place_partial (diffusion : (Fin d → R) → Matrix (Fin d) (Fin d) R)
    (flux : (Fin d → R) → (Fin d → R) → (Fin d → R)) (hflux : ∀ x v, flux x v = diffusion x *ᵥ v)
    (source : (Fin d → R) → R) (Ks : List (CoarseCell d n G R))
    (h : ∀ K ∈ Ks, ∀ e ∈ K.cells, e.covered = true → ∀ q ∈ e.quad,
      K.toLocal (e.toGlobal q.pos) = q.pos) (tmp : Fin n → Fin n → R) (tmp' : Fin n → R) (a b : G) :
    (assembleMatrix diffusion Ks (fun _ _ => 0, tmp)).1 a b =
        stiffness (trueSamples diffusion source Ks) a b ∧
      (assembleLoad flux source Ks (fun _ => 0, tmp')).1 a =
        load (trueSamples diffusion source Ks) a := by
  rw [C22_matrix_entries diffusion source, C24_load_entries diffusion flux hflux, zero_add, zero_add,
    usedSamples_eq diffusion source Ks]
  · exact ⟨rfl, rfl⟩
  · intro K hK e he hc q hq i
    rw [h K hK e he hc q hq]
    exact ⟨rfl, rfl⟩

/-- **C54** (partial, matrix) If the gradients of the coarse basis functions are constant on each
coarse cell (one dimension, or affine elements), the matrix is that of the multiscale
basis for any local grid. -/
theorem C54_matrix_constant_gradients_partial (diffusion : (Fin d → R) → Matrix (Fin d) (Fin d) R)
    (source : (Fin d → R) → R) (Ks : List (CoarseCell d n G R))
    (h : ∀ K ∈ Ks, ∀ i x y, K.gradPhi i x = K.gradPhi i y) (tmp : Fin n → Fin n → R) (a b : G) :
    (assembleMatrix diffusion Ks (fun _ _ => 0, tmp)).1 a b =
        stiffness (trueSamples diffusion source Ks) a b := by
  rw [C22_matrix_entries diffusion source, zero_add]
  unfold stiffness usedSamples trueSamples
  rw [sum_flatMap_map, sum_flatMap_map]
  congr 1
  apply List.map_congr_left
  intro K hK
  rw [sum_flatMap_map, sum_flatMap_map]
  congr 1
  apply List.map_congr_left
  intro e _
  rw [List.map_map, List.map_map]
  congr 1
  apply List.map_congr_left
  intro q _
  simp only [Function.comp]
  have := fun i => h K hK i (K.toLocal (e.toGlobal q.pos)) q.pos
  simp only [this]

/-- **C23** (energy, partial) If the coarse basis is sampled in place, the quadratic form is the
diffusion energy of the multiscale gradient.  Missing: the general case, false by `C54_violated_matrix`. -/
theorem C23_energy_partial [Fintype G] (diffusion : (Fin d → R) → Matrix (Fin d) (Fin d) R)
    (source : (Fin d → R) → R) (Ks : List (CoarseCell d n G R))
    (h : ∀ K ∈ Ks, ∀ e ∈ K.cells, e.covered = true → ∀ q ∈ e.quad,
      K.toLocal (e.toGlobal q.pos) = q.pos) (tmp : Fin n → Fin n → R) (u : G → R) :
    ∑ a, ∑ b, u a * (assembleMatrix diffusion Ks (fun _ _ => 0, tmp)).1 a b * u b =
      energy (trueSamples diffusion source Ks) u := by
  rw [C23_energy_as_sampled diffusion source, usedSamples_eq]
  intro K hK e he hc q hq i
  rw [h K hK e he hc q hq]
  exact ⟨rfl, rfl⟩

/-- One coarse cell `[0,1]` with two linear basis functions and two local cells `[0,1/2]`, `[1/2,1]`,
midpoint rule, correctors zero. -/
def demo1 : CoarseCell 1 2 (Fin 2) ℚ where
  dofs := id
  phi := ![fun x => 1 - x 0, fun x => x 0]
  gradPhi := ![fun _ => ![-1], fun _ => ![1]]
  toLocal := id
  cells :=
    [{ covered := true, quad := [⟨![1 / 2], 1 / 2⟩], toGlobal := fun x => ![x 0 / 2],
       valQ := fun _ _ => 0, gradQ := fun _ _ => 0, gradDirichlet := fun _ => 0, gradNeumann := fun _ => 0 },
     { covered := true, quad := [⟨![1 / 2], 1 / 2⟩], toGlobal := fun x => ![1 / 2 + x 0 / 2],
       valQ := fun _ _ => 0, gradQ := fun _ _ => 0, gradDirichlet := fun _ => 0, gradNeumann := fun _ => 0 }]

/-- **C54 is violated** (load): source `f(x) = x`. The load entry of the second basis
function is `1/4`, that of the sampled basis function `5/16`. -/
theorem C54_violated_load :
    (assembleLoad (fun _ v => v) (fun x => x 0) [demo1] (fun _ => 0, fun _ => 0)).1 1 = 1 / 4 ∧
    load (trueSamples (fun _ => 1) (fun x => x 0) [demo1]) 1 = 5 / 16 := by
  constructor
  · rw [C24_load_entries (fun _ => 1) (fun _ v => v) (fun _ v => (one_mulVec v).symm)]
    simp [load, usedSamples, demo1, Fin.sum_univ_two]
    norm_num
  · simp [load, trueSamples, demo1, Fin.sum_univ_two]
    norm_num

/-- One coarse cell `[0,1]²` with the four bilinear basis functions and four local cells,
midpoint rule, correctors zero. -/
def demo2 : CoarseCell 2 4 (Fin 4) ℚ where
  dofs := id
  phi := ![fun x => (1 - x 0) * (1 - x 1), fun x => x 0 * (1 - x 1), fun x => (1 - x 0) * x 1, fun x => x 0 * x 1]
  gradPhi := fun i x => match i with
    | 0 => ![-(1 - x 1), -(1 - x 0)]
    | 1 => ![1 - x 1, -x 0]
    | 2 => ![-x 1, 1 - x 0]
    | 3 => ![x 1, x 0]
  toLocal := id
  cells := [(0, 0), (1, 0), (0, 1), (1, 1)].map fun p : ℚ × ℚ =>
    { covered := true, quad := [⟨![1 / 2, 1 / 2], 1 / 4⟩],
      toGlobal := fun x => ![p.1 / 2 + x 0 / 2, p.2 / 2 + x 1 / 2],
      valQ := fun _ _ => 0, gradQ := fun _ _ => 0, gradDirichlet := fun _ => 0, gradNeumann := fun _ => 0 }

/-- **C54 is violated** (matrix): diffusion `k(x) = x_0` times identity. The diagonal
entry of the last basis function is `1/4`, that of the sampled basis function `3/8`. -/
theorem C54_violated_matrix :
    (assembleMatrix (fun x => x 0 • (1 : Matrix (Fin 2) (Fin 2) ℚ)) [demo2] (fun _ _ => 0, fun _ _ => 0)).1 3 3
      = 1 / 4 ∧
    stiffness (trueSamples (fun x => x 0 • (1 : Matrix (Fin 2) (Fin 2) ℚ)) (fun _ => 0) [demo2]) 3 3 = 3 / 8 := by
  constructor
  · rw [C22_matrix_entries _ (fun _ => 0)]
    simp only [stiffness, usedSamples, demo2, List.map_cons, List.map_nil, List.flatMap_cons,
      List.flatMap_nil, List.filter_cons, List.filter_nil, List.append_nil, List.cons_append,
      List.nil_append, if_true, List.sum_cons, List.sum_nil, Fin.sum_univ_four, smul_mulVec,
      one_mulVec, dotProduct, Fin.sum_univ_two, Pi.add_apply, Pi.smul_apply, Pi.zero_apply, smul_eq_mul]
    norm_num [Fin.ext_iff]
  · simp only [stiffness, trueSamples, demo2, List.map_cons, List.map_nil, List.flatMap_cons,
      List.flatMap_nil, List.filter_cons, List.filter_nil, List.append_nil, List.cons_append,
      List.nil_append, if_true, List.sum_cons, List.sum_nil, Fin.sum_univ_four, smul_mulVec,
      one_mulVec, dotProduct, Fin.sum_univ_two, Pi.add_apply, Pi.smul_apply, Pi.zero_apply, smul_eq_mul]
    norm_num [Fin.ext_iff]

/-! ## Examples: the hypotheses are met by the cells above -/

/-- C22, C24: two visiting orders of two different cells. -/
example : ([demo1, { demo1 with dofs := ![1, 0] }] : List (CoarseCell 1 2 (Fin 2) ℚ)).Perm
    [{ demo1 with dofs := ![1, 0] }, demo1] := List.Perm.swap _ _ _

/-- C22: two visiting orders of the local cells. -/
example : demo1.cells.Perm demo1.cells.reverse := (List.reverse_perm _).symm

/-- C23: a symmetric, positive semidefinite, non-constant tensor and non-negative weights. -/
example : (∀ x : Fin 2 → ℚ, ((x 0) ^ 2 • (1 : Matrix (Fin 2) (Fin 2) ℚ)).IsSymm) ∧
    (∀ x v : Fin 2 → ℚ, 0 ≤ (((x 0) ^ 2 • (1 : Matrix (Fin 2) (Fin 2) ℚ)) *ᵥ v) ⬝ᵥ v) ∧
    (∀ e ∈ demo2.cells, ∀ q ∈ e.quad, 0 ≤ q.weight) := by
  refine ⟨fun x => ?_, fun x v => ?_, ?_⟩
  · rw [Matrix.IsSymm, Matrix.transpose_smul, Matrix.transpose_one]
  · rw [smul_mulVec, one_mulVec, smul_dotProduct, smul_eq_mul]
    apply mul_nonneg (sq_nonneg _)
    simp only [dotProduct, Fin.sum_univ_two]
    nlinarith [mul_self_nonneg (v 0), mul_self_nonneg (v 1)]
  · intro e he q hq
    simp only [demo2, List.map_cons, List.map_nil, List.mem_cons, List.not_mem_nil, or_false] at he
    rcases he with rfl | rfl | rfl | rfl <;>
    · simp only [List.mem_cons, List.not_mem_nil, or_false] at hq
      subst hq
      norm_num

/-- C54, C23 (energy): a coarse cell whose local grid is the cell itself. -/
example : ∀ K ∈ [({ demo1 with cells := ([⟨true, [⟨![1 / 2], 1⟩], id, fun _ _ => 0, fun _ _ => 0,
      fun _ => 0, fun _ => 0⟩] : List (LocalCell 1 2 ℚ)) } : CoarseCell 1 2 (Fin 2) ℚ)], ∀ e ∈ K.cells, e.covered = true → ∀ q ∈ e.quad,
      K.toLocal (e.toGlobal q.pos) = q.pos := by
  intro K hK e he _ q _
  simp only [List.mem_cons, List.not_mem_nil, or_false] at hK
  subst hK
  simp only [List.mem_cons, List.not_mem_nil, or_false] at he
  subst he
  rfl

/-- C54 (constant gradients): the one-dimensional cell with two local cells. -/
example : ∀ K ∈ [demo1], ∀ i x y, K.gradPhi i x = K.gradPhi i y := by
  intro K hK i x y
  simp only [List.mem_cons, List.not_mem_nil, or_false] at hK
  subst hK
  fin_cases i <;> rfl

end Verif.CoarseAssembly
