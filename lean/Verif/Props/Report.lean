import Verif.Model.Report
import Verif.Props.ErrorNorms
import Verif.Props.Projection
import Verif.Props.Consistency
import Verif.Props.FemSolver

/-!
# C80: the reported difference of the multiscale solution to the coarse solution
-/

namespace Verif.Report
open Matrix Verif.Q1Grid Verif.FemSolver Verif.ErrorNorms Verif.Projection Verif.Quadrature

variable {d : ℕ}

/-! ## Specification -/

section
variable {R : Type} [Field R]

/-- The multiscale solution has one value at every fine node: `f J node` is `u n` if `node` of the local grid of `J` is the fine node `n`. -/
def Fits (S : Setup d R) (f : CellIndex S.cells → Node S.micro → R) (u : Node (fineCells S) → R) : Prop :=
  ∀ n J node, (∀ i, (n i).1 = (J i).1 * S.micro i + (node i).1) → f J node = u n

/-- Number of cells that have a node as corner: two in each direction in which the node is inside the domain. -/
def sharing {cells : Fin d → ℕ} (n : Node cells) : ℕ := ∏ i, if 0 < (n i).1 ∧ (n i).1 < cells i then 2 else 1

/-- The coarse cell contains the fine node. -/
def Hosts (S : Setup d R) (host : Node (fineCells S) → CellIndex S.cells) : Prop :=
  ∀ n i, (host n i).1 * S.micro i ≤ (n i).1 ∧ (n i).1 ≤ ((host n i).1 + 1) * S.micro i

/-- Multilinear interpolation of a coarse function, as combination of the hat functions of the coarse nodes. -/
def interpolate [LinearOrder R] (S : Setup d R) (u : Node S.cells → R) (n : Node (fineCells S)) : R :=
  ∑ m : Node S.cells, u m * ∏ i, max 0 (1 - |((n i).1 : R) / (S.micro i : R) - ((m i).1 : R)|)

/-! ## The projection -/

omit [Field R] in
theorem fine_node (S : Setup d R) (j : CellIndex (fineCells S)) (v : Fin d → Bool) (i : Fin d) :
    (cornerNode j v i).1 = (coarseOf S j i).1 * S.micro i + (cornerNode (localOf S j) v i).1 := by
  have := Nat.div_add_mod' (j i).1 (S.micro i)
  simp only [cornerNode, coarseOf, localOf]
  split_ifs <;> simp <;> omega

theorem corner_eq_iff {cells : Fin d → ℕ} (j : CellIndex cells) (n : Node cells) :
    (∃ v, cornerNode j v = n) ↔ ∀ i, (n i).1 = (j i).1 ∨ (n i).1 = (j i).1 + 1 := by
  constructor
  · rintro ⟨v, rfl⟩ i
    simp only [cornerNode]
    split_ifs <;> simp
  · intro h
    refine ⟨fun i => decide ((n i).1 = (j i).1 + 1), funext fun i => Fin.ext ?_⟩
    simp only [cornerNode, decide_eq_true_eq]
    rcases h i with h | h
    · rw [if_neg (by omega)]
      simp [h]
    · rw [if_pos h]
      simp [h]

theorem card_cells {cells : Fin d → ℕ} (hc : ∀ i, 0 < cells i) (n : Node cells) :
    (Finset.univ.filter fun j : CellIndex cells => ∀ i, (n i).1 = (j i).1 ∨ (n i).1 = (j i).1 + 1).card = sharing n := by
  have : (Finset.univ.filter fun j : CellIndex cells => ∀ i, (n i).1 = (j i).1 ∨ (n i).1 = (j i).1 + 1) =
      Fintype.piFinset fun i => Finset.univ.filter fun k : Fin (cells i) => (n i).1 = k.1 ∨ (n i).1 = k.1 + 1 := by
    ext j
    simp [Fintype.mem_piFinset]
  rw [this, Fintype.card_piFinset, sharing]
  refine Finset.prod_congr rfl fun i _ => ?_
  have hn := (n i).2
  have h0 := hc i
  split_ifs with h
  · have : (Finset.univ.filter fun k : Fin (cells i) => (n i).1 = k.1 ∨ (n i).1 = k.1 + 1) =
        {⟨(n i).1, h.2⟩, ⟨(n i).1 - 1, by omega⟩} := by
      ext k
      simp only [Finset.mem_filter, Finset.mem_univ, true_and, Finset.mem_insert, Finset.mem_singleton, Fin.ext_iff]
      omega
    rw [this, Finset.card_pair]
    simp only [Ne, Fin.ext_iff]
    omega
  · have : (Finset.univ.filter fun k : Fin (cells i) => (n i).1 = k.1 ∨ (n i).1 = k.1 + 1) =
        {⟨if (n i).1 = 0 then 0 else (n i).1 - 1, by split_ifs <;> omega⟩} := by
      ext k
      simp only [Finset.mem_filter, Finset.mem_univ, true_and, Finset.mem_singleton, Fin.ext_iff]
      have := k.2
      split_ifs <;> omega
    rw [this, Finset.card_singleton]

omit [Field R] in
theorem mem_nodes (S : Setup d R) (f : CellIndex S.cells → Node S.micro → R) (j : CellIndex (fineCells S)) (n : Node (fineCells S)) :
    n ∈ (fineElement S f j).nodes ↔ ∀ i, (n i).1 = (j i).1 ∨ (n i).1 = (j i).1 + 1 := by
  rw [← corner_eq_iff]
  simp only [fineElement, List.mem_map, List.mem_finRange, true_and]
  constructor
  · rintro ⟨k, h⟩
    exact ⟨_, h⟩
  · rintro ⟨v, h⟩
    obtain ⟨k, rfl⟩ := corner_bijective.2 v
    exact ⟨k, h⟩

omit [Field R] in
theorem fine_multiplicity (S : Setup d R) (hc : ∀ i, 0 < fineCells S i) (f : CellIndex S.cells → Node S.micro → R)
    (leaf : List (CellIndex (fineCells S))) (hnd : leaf.Nodup) (hall : ∀ j, j ∈ leaf) (n : Node (fineCells S)) :
    Projection.multiplicity (leaf.map (fineElement S f)) n = sharing n := by
  rw [← card_cells hc n, Projection.multiplicity, List.countP_map, List.countP_eq_length_filter,
    ← List.toFinset_card_of_nodup (hnd.filter _)]
  congr 1
  ext j
  simp [hall j, mem_nodes]

omit [Field R] in
theorem fine_single (S : Setup d R) (f : CellIndex S.cells → Node S.micro → R) (u : Node (fineCells S) → R) (hf : Fits S f u)
    (leaf : List (CellIndex (fineCells S))) : SingleValued u (leaf.map (fineElement S f)) := by
  constructor
  · intro e he _
    obtain ⟨j, -, rfl⟩ := List.mem_map.mp he
    simp only [fineElement, List.map_map]
    refine List.map_congr_left fun k _ => ?_
    simp only [Function.comp_apply]
    rw [hf _ _ _ (fine_node S j (corner k))]
  · intro e he
    obtain ⟨j, -, rfl⟩ := List.mem_map.mp he
    refine (List.nodup_finRange _).map fun k l h => ?_
    exact corner_injective (cornerNode_inj j h)

theorem sharing_pos {cells : Fin d → ℕ} (n : Node cells) : 0 < sharing n :=
  Finset.prod_pos fun i _ => by split_ifs <;> omega

/-- **C80** (partial: says what the projection does, not that it is right) The function of which all numbers of the multiscale solution are computed:
at every node the value of the multiscale solution divided by the number of cells that share the node. -/
theorem C80_projected_partial (S : Setup d R) (hc : ∀ i, 0 < fineCells S i) (f : CellIndex S.cells → Node S.micro → R)
    (u : Node (fineCells S) → R) (hf : Fits S f u) (order leaf : List (CellIndex (fineCells S))) (hp : order.Perm leaf)
    (hnd : leaf.Nodup) (hall : ∀ j, j ∈ leaf) (old : Node (fineCells S) → R) :
    msfemOnFine S .overwrite f order leaf old = .ok fun n => u n / (sharing n : R) := by
  rw [msfemOnFine, C28_projection_result_partial u _ _ (hp.map _) (fine_single S f u hf leaf)]
  congr 1
  funext n
  rw [fine_multiplicity S hc f leaf hnd hall, if_pos]
  have : 0 < Projection.multiplicity (leaf.map (fineElement S f)) n := by
    rw [fine_multiplicity S hc f leaf hnd hall]
    exact sharing_pos n
  obtain ⟨e, he, hn⟩ := List.countP_pos_iff.mp this
  refine ⟨e, he, ?_, by simpa using hn⟩
  obtain ⟨j, -, rfl⟩ := List.mem_map.mp he
  rfl

/-- **C80** (conditional) If writing a coefficient accumulated, the projection would give the multiscale solution. -/
theorem C80_projected_accumulating [CharZero R] (S : Setup d R) (hc : ∀ i, 0 < fineCells S i) (f : CellIndex S.cells → Node S.micro → R)
    (u : Node (fineCells S) → R) (hf : Fits S f u) (order leaf : List (CellIndex (fineCells S))) (hp : order.Perm leaf)
    (hnd : leaf.Nodup) (hall : ∀ j, j ∈ leaf) (old : Node (fineCells S) → R) :
    msfemOnFine S .accumulate f order leaf old = .ok u := by
  obtain ⟨w, hw, h⟩ := C28_projection_accumulating u _ _ (hp.map _) (fine_single S f u hf leaf) old
  rw [msfemOnFine, hw]
  congr 1
  funext n
  have : 0 < Projection.multiplicity (leaf.map (fineElement S f)) n := by
    rw [fine_multiplicity S hc f leaf hnd hall]
    exact sharing_pos n
  obtain ⟨e, he, hn⟩ := List.countP_pos_iff.mp this
  refine h n ⟨e, he, by simpa using hn⟩ fun e he _ => ?_
  obtain ⟨j, -, rfl⟩ := List.mem_map.mp he
  rfl

end

/-! ## The prolongation -/

section
variable {R : Type} [Field R] [LinearOrder R] [IsStrictOrderedRing R]

theorem hat_weight (J m : ℕ) (b : Bool) (t : R) (h0 : (J : R) ≤ t) (h1 : t ≤ J + 1) (hm : m = if b then J + 1 else J) :
    hat b (t - J) = max 0 (1 - |t - m|) := by
  subst hm
  cases b
  · simp only [hat, Bool.false_eq_true, if_false]
    rw [abs_of_nonneg (by linarith), max_eq_right (by linarith)]
  · simp only [hat, if_true, Nat.cast_add, Nat.cast_one]
    rw [abs_of_nonpos (by linarith), max_eq_right (by linarith)]
    ring

theorem weight_zero (J m : ℕ) (t : R) (h0 : (J : R) ≤ t) (h1 : t ≤ J + 1) (h : m ≠ J) (h' : m ≠ J + 1) :
    max 0 (1 - |t - m|) = 0 := by
  apply max_eq_left
  rcases Nat.lt_or_ge m J with hm | hm
  · have : (m : R) + 1 ≤ J := by exact_mod_cast hm
    have := le_abs_self (t - m)
    linarith
  · have : (J : R) + 1 + 1 ≤ m := by exact_mod_cast (show J + 1 + 1 ≤ m by omega)
    have := neg_abs_le (t - m)
    linarith

/-- The multilinear function of a coarse cell that contains a point is the combination of hat functions. -/
theorem cell_value {cells : Fin d → ℕ} (u : Node cells → R) (J : CellIndex cells) (t : Fin d → R)
    (h : ∀ i, ((J i).1 : R) ≤ t i ∧ t i ≤ (J i).1 + 1) :
    valueOf u J (fun i => t i - (J i).1) = ∑ m : Node cells, u m * ∏ i, max 0 (1 - |t i - ((m i).1 : R)|) := by
  rw [valueOf, sum_corner fun v => u (cornerNode J v) * shape v fun i => t i - ((J i).1 : R)]
  refine Fintype.sum_of_injective (cornerNode J) (fun v w => cornerNode_inj J) _ _ ?_ ?_
  · intro m hm
    have : ¬ ∃ v, cornerNode J v = m := fun ⟨v, hv⟩ => hm ⟨v, hv⟩
    rw [corner_eq_iff] at this
    push Not at this
    obtain ⟨i, h1, h2⟩ := this
    rw [Finset.prod_eq_zero (Finset.mem_univ i) (weight_zero (J i).1 (m i).1 (t i) (h i).1 (h i).2 h1 h2), mul_zero]
  · intro v
    congr 1
    refine Finset.prod_congr rfl fun i _ => hat_weight _ _ _ _ (h i).1 (h i).2 ?_
    simp only [cornerNode]
    split_ifs <;> simp

theorem host_bounds (S : Setup d R) (hm : ∀ i, 0 < S.micro i) (n : Node (fineCells S)) (J : CellIndex S.cells)
    (h : ∀ i, (J i).1 * S.micro i ≤ (n i).1 ∧ (n i).1 ≤ ((J i).1 + 1) * S.micro i) (i : Fin d) :
    ((J i).1 : R) ≤ ((n i).1 : R) / (S.micro i : R) ∧ ((n i).1 : R) / (S.micro i : R) ≤ (J i).1 + 1 := by
  have hp : (0 : R) < S.micro i := Nat.cast_pos.mpr (hm i)
  rw [le_div_iff₀ hp, div_le_iff₀ hp]
  exact ⟨by exact_mod_cast (h i).1, by exact_mod_cast (h i).2⟩

/-- **C80** (prolongation) The prolonged coarse solution is the multilinear interpolation, whichever coarse cells the nodes were found in. -/
theorem C80_prolongation (S : Setup d R) (hm : ∀ i, 0 < S.micro i) (host : Node (fineCells S) → CellIndex S.cells)
    (hh : Hosts S host) (u : Node S.cells → R) : prolong S host u = interpolate S u := by
  funext n
  exact cell_value u (host n) (fun i => ((n i).1 : R) / (S.micro i : R)) (host_bounds S hm n (host n) (hh n))

/-- The functions of C72 fit together to the interpolation. -/
theorem fits_interpolate (S : Setup d R) (hm : ∀ i, 0 < S.micro i) (u : Node S.cells → R) :
    Fits S (fun J node => ∑ v : Fin d → Bool, u (cornerNode J v) * shape v fun i => ((node i).1 : R) / (S.micro i : R))
      (interpolate S u) := by
  intro n J node h
  have hb : ∀ i, (J i).1 * S.micro i ≤ (n i).1 ∧ (n i).1 ≤ ((J i).1 + 1) * S.micro i := fun i => by
    have := (node i).2
    have := h i
    constructor
    · omega
    · rw [add_mul, one_mul]; omega
  have := cell_value u J (fun i => ((n i).1 : R) / (S.micro i : R)) (host_bounds S hm n J hb)
  rw [interpolate, ← this, valueOf,
    sum_corner fun v => u (cornerNode J v) * shape v fun i => ((n i).1 : R) / (S.micro i : R) - ((J i).1 : R)]
  refine Finset.sum_congr rfl fun v _ => ?_
  congr 2
  funext i
  have hp : (S.micro i : R) ≠ 0 := Nat.cast_ne_zero.mpr (hm i).ne'
  rw [h i]
  push_cast
  field_simp
  ring

/-- Boundary nodes of a grid. -/
def OnBoundary {cells : Fin d → ℕ} (n : Node cells) : Prop := ∃ i, (n i).1 = 0 ∨ (n i).1 = cells i

/-- Corners of the domain. -/
def AtCorner {cells : Fin d → ℕ} (n : Node cells) : Prop := ∀ i, (n i).1 = 0 ∨ (n i).1 = cells i

theorem interpolate_boundary (S : Setup d R) (hm : ∀ i, 0 < S.micro i) (u : Node S.cells → R) (hu : ∀ m, OnBoundary m → u m = 0)
    (n : Node (fineCells S)) (hn : OnBoundary n) : interpolate S u n = 0 := by
  refine Finset.sum_eq_zero fun m _ => ?_
  obtain ⟨i, hi⟩ := hn
  have hp : (S.micro i : R) ≠ 0 := Nat.cast_ne_zero.mpr (hm i).ne'
  have hmi := (m i).2
  rcases hi with hi | hi
  · by_cases h0 : (m i).1 = 0
    · rw [hu m ⟨i, Or.inl h0⟩, zero_mul]
    · rw [Finset.prod_eq_zero (Finset.mem_univ i), mul_zero]
      have : (1 : R) ≤ (m i).1 := by exact_mod_cast Nat.pos_of_ne_zero h0
      rw [hi, Nat.cast_zero, zero_div, zero_sub, abs_neg, abs_of_nonneg (by linarith)]
      exact max_eq_left (by linarith)
  · by_cases h0 : (m i).1 = S.cells i
    · rw [hu m ⟨i, Or.inr h0⟩, zero_mul]
    · rw [Finset.prod_eq_zero (Finset.mem_univ i), mul_zero]
      have : ((m i).1 : R) + 1 ≤ S.cells i := by exact_mod_cast (show (m i).1 + 1 ≤ S.cells i by omega)
      rw [hi, fineCells, Nat.cast_mul, mul_div_assoc, div_self hp, mul_one]
      have := le_abs_self ((S.cells i : R) - (m i).1)
      exact max_eq_left (by linarith)

/-- At coarse nodes the interpolation has the coarse values. -/
theorem interpolate_node (S : Setup d R) (hm : ∀ i, 0 < S.micro i) (u : Node S.cells → R) (m : Node S.cells)
    (n : Node (fineCells S)) (h : ∀ i, (n i).1 = (m i).1 * S.micro i) : interpolate S u n = u m := by
  rw [interpolate, Finset.sum_eq_single m]
  · rw [Finset.prod_eq_one, mul_one]
    intro i _
    have hp : (S.micro i : R) ≠ 0 := Nat.cast_ne_zero.mpr (hm i).ne'
    rw [h i, Nat.cast_mul, mul_div_assoc, div_self hp, mul_one, sub_self, abs_zero, sub_zero]
    exact max_eq_right zero_le_one
  · intro m' _ hne
    have : ∃ i, (m' i).1 ≠ (m i).1 := by
      by_contra hc
      push Not at hc
      exact hne (funext fun i => Fin.ext (hc i))
    obtain ⟨i, hi⟩ := this
    rw [Finset.prod_eq_zero (Finset.mem_univ i), mul_zero]
    have hp : (S.micro i : R) ≠ 0 := Nat.cast_ne_zero.mpr (hm i).ne'
    rw [h i, Nat.cast_mul, mul_div_assoc, div_self hp, mul_one]
    apply max_eq_left
    rcases Nat.lt_or_gt_of_ne hi with hlt | hlt
    · have : ((m' i).1 : R) + 1 ≤ (m i).1 := by exact_mod_cast hlt
      have := le_abs_self (((m i).1 : R) - (m' i).1)
      linarith
    · have : ((m i).1 : R) + 1 ≤ (m' i).1 := by exact_mod_cast hlt
      have := neg_abs_le (((m i).1 : R) - (m' i).1)
      linarith
  · simp

theorem interpolate_ne_zero (S : Setup d R) (hm : ∀ i, 0 < S.micro i) (u : Node S.cells → R) (hu : u ≠ 0) : interpolate S u ≠ 0 := by
  intro h
  apply hu
  funext m
  rw [← interpolate_node S hm u m (fun i => ⟨(m i).1 * S.micro i, by
    have : (m i).1 * S.micro i ≤ S.cells i * S.micro i := Nat.mul_le_mul_right _ (by have := (m i).2; omega)
    simp only [fineCells]
    omega⟩) fun _ => rfl, h]
  rfl

end

theorem sharing_inner {cells : Fin d → ℕ} (n : Node cells) (h : ¬ OnBoundary n) : sharing n = 2 ^ d := by
  have : ∀ i, 0 < (n i).1 ∧ (n i).1 < cells i := by
    intro i
    have := (n i).2
    have h' : ¬ ((n i).1 = 0 ∨ (n i).1 = cells i) := fun h' => h ⟨i, h'⟩
    omega
  rw [sharing, Finset.prod_congr rfl fun i _ => if_pos (this i)]
  simp

theorem sharing_one {cells : Fin d → ℕ} (n : Node cells) : sharing n = 1 ↔ AtCorner n := by
  rw [sharing, Finset.prod_eq_one_iff]
  constructor
  · intro h i
    have := h i (Finset.mem_univ i)
    have := (n i).2
    split_ifs at * with h'
    · omega
    · omega
  · intro h i _
    have := h i
    rw [if_neg (by omega)]

/-! ## The numbers -/

theorem l2_scale (gauss : ℕ → List (ℝ × ℝ)) (G : Grid d ℝ) (over : ℕ) (f g : LocalFn G.cells ℝ) (k : ℝ) (ho : f.order = g.order)
    (hv : ∀ j x, f.value j x = k * g.value j x) : l2 gauss G over f = |k| * l2 gauss G over g := by
  have : l2Square gauss G over f = k ^ 2 * l2Square gauss G over g := by
    unfold l2Square integrate
    rw [ho, ← List.sum_map_mul_left]
    refine congrArg List.sum (List.map_congr_left fun j _ => ?_)
    rw [← List.sum_map_mul_left]
    refine congrArg List.sum (List.map_congr_left fun q _ => ?_)
    simp only [hv]
    ring
  rw [l2, this, Real.sqrt_mul (sq_nonneg k), Real.sqrt_sq_eq_abs]
  rfl

theorem valueOf_scale {cells : Fin d → ℕ} (u : Node cells → ℝ) (k : ℝ) (j : CellIndex cells) (x : Fin d → ℝ) :
    valueOf (fun n => k * u n) j x = k * valueOf u j x := by
  simp only [valueOf, Finset.mul_sum]
  exact Finset.sum_congr rfl fun _ _ => by ring

theorem norm_scale (gauss : ℕ → List (ℝ × ℝ)) (G : Grid d ℝ) (over : ℕ) (u : Node G.cells → ℝ) (k : ℝ) :
    l2 gauss G over (discrete G fun n => k * u n) = |k| * l2 gauss G over (discrete G u) :=
  l2_scale gauss G over _ _ k rfl fun j x => valueOf_scale u k j x

theorem difference_scale (gauss : ℕ → List (ℝ × ℝ)) (G : Grid d ℝ) (over : ℕ) (u : Node G.cells → ℝ) (k : ℝ) :
    l2 gauss G over (difference (discrete G fun n => k * u n) (discrete G u)) = |k - 1| * l2 gauss G over (discrete G u) := by
  refine l2_scale gauss G over _ _ (k - 1) rfl fun j x => ?_
  show valueOf (fun n => k * u n) j x - valueOf u j x = (k - 1) * valueOf u j x
  rw [valueOf_scale]
  ring

theorem projected_homogeneous (S : Setup d ℝ) (u : Node (fineCells S) → ℝ) (hu : ∀ n, OnBoundary n → u n = 0) :
    (fun n => u n / (sharing n : ℝ)) = fun n => (1 / 2 ^ d : ℝ) * u n := by
  funext n
  by_cases h : OnBoundary n
  · rw [hu n h]; simp
  · rw [sharing_inner n h]
    push_cast
    ring

/-- **C80** (partial: the numbers are those of another function; the H1 semi norm with `over_integrate` of two or more, see C79) The reported
numbers are the norms of the function with the nodal values divided by the number of cells at the node, and of its difference to the interpolation of the
coarse solution. -/
theorem C80_numbers_partial (N : ℕ) (gauss : ℕ → List (ℝ × ℝ)) (hg : GaussUpTo N gauss) (S : Setup d ℝ) (over : ℕ)
    (hN : gaussPoints (productOrder elementOrder over) ≤ N) (hc : ∀ i, 0 < fineCells S i) (hm : ∀ i, 0 < S.micro i)
    (f : CellIndex S.cells → Node S.micro → ℝ)
    (u : Node (fineCells S) → ℝ) (hf : Fits S f u) (order leaf : List (CellIndex (fineCells S))) (hp : order.Perm leaf)
    (hnd : leaf.Nodup) (hall : ∀ j, j ∈ leaf) (host : Node (fineCells S) → CellIndex S.cells) (hh : Hosts S host) (c : Node S.cells → ℝ) :
    ∃ r, report S .overwrite gauss over f order leaf host c = .ok r ∧
      r.norm = Real.sqrt (exactL2 (fineGrid S order) (fun n => u n / (sharing n : ℝ)) 0) ∧
      r.coarseL2 = Real.sqrt (exactL2 (fineGrid S order) (fun n => u n / (sharing n : ℝ)) (interpolate S c)) ∧
      (2 ≤ over → gaussPoints (semiOrder elementOrder over) ≤ N →
        r.coarseH1 = Real.sqrt (exactSemi (fineGrid S order) (fun n => u n / (sharing n : ℝ)) (interpolate S c))) := by
  have hG : (fineGrid S order).Complete := ⟨hp.nodup_iff.mpr hnd, fun j => hp.mem_iff.mpr (hall j)⟩
  rw [report, C80_projected_partial S hc f u hf order leaf hp hnd hall, Outcome.ok_bind, C80_prolongation S hm host hh]
  exact ⟨_, rfl, C79_norm N gauss hg (fineGrid S order) hG over hN _,
    congrArg Real.sqrt (C79_l2_exact N gauss hg (fineGrid S order) hG over hN _ _),
    fun ho hs => congrArg Real.sqrt (C79_h1_exact_partial N gauss hg (fineGrid S order) hG over ho hs _ _)⟩

/-- **C80 is violated** (norm) For homogeneous Dirichlet values the reported norm of the multiscale solution is its norm divided by `2 ^ d`. -/
theorem C80_violated_norm (N : ℕ) (gauss : ℕ → List (ℝ × ℝ)) (hg : GaussUpTo N gauss) (S : Setup d ℝ) (over : ℕ)
    (hN : gaussPoints (productOrder elementOrder over) ≤ N) (hc : ∀ i, 0 < fineCells S i) (f : CellIndex S.cells → Node S.micro → ℝ)
    (u : Node (fineCells S) → ℝ) (hf : Fits S f u) (order leaf : List (CellIndex (fineCells S))) (hp : order.Perm leaf)
    (hnd : leaf.Nodup) (hall : ∀ j, j ∈ leaf) (host : Node (fineCells S) → CellIndex S.cells) (c : Node S.cells → ℝ)
    (hu : ∀ n, OnBoundary n → u n = 0) :
    ∃ r, report S .overwrite gauss over f order leaf host c = .ok r ∧ r.norm = Real.sqrt (exactL2 (fineGrid S order) u 0) / 2 ^ d := by
  have hG : (fineGrid S order).Complete := ⟨hp.nodup_iff.mpr hnd, fun j => hp.mem_iff.mpr (hall j)⟩
  rw [report, C80_projected_partial S hc f u hf order leaf hp hnd hall, Outcome.ok_bind]
  refine ⟨_, rfl, ?_⟩
  rw [projected_homogeneous S u hu]
  have h1 := norm_scale gauss (fineGrid S order) over u (1 / 2 ^ d)
  have h2 := C79_norm N gauss hg (fineGrid S order) hG over hN u
  rw [h2, abs_of_pos (by positivity)] at h1
  refine Eq.trans h1 ?_
  ring

/-- **C80** (partial: the exact condition, which is not met by any interesting solution) If the multiscale solution is the coarse finite element
solution, the reported difference is zero exactly if the solution vanishes at every fine node that is not a corner of the domain. -/
theorem C80_zero_iff_partial (N : ℕ) (gauss : ℕ → List (ℝ × ℝ)) (hg : GaussUpTo N gauss) (S : Setup d ℝ) (over : ℕ)
    (hN : gaussPoints (productOrder elementOrder over) ≤ N) (hw : ∀ i, 0 < S.width i) (hc : ∀ i, 0 < S.cells i)
    (hm : ∀ i, 0 < S.micro i) (f : CellIndex S.cells → Node S.micro → ℝ)
    (c : Node S.cells → ℝ) (hf : Fits S f (interpolate S c)) (order leaf : List (CellIndex (fineCells S))) (hp : order.Perm leaf)
    (hnd : leaf.Nodup) (hall : ∀ j, j ∈ leaf) (host : Node (fineCells S) → CellIndex S.cells) (hh : Hosts S host) :
    ∃ r, report S .overwrite gauss over f order leaf host c = .ok r ∧
      (r.coarseL2 = 0 ↔ ∀ n, ¬ AtCorner n → interpolate S c n = 0) := by
  have hG : (fineGrid S order).Complete := ⟨hp.nodup_iff.mpr hnd, fun j => hp.mem_iff.mpr (hall j)⟩
  have hcf : ∀ i, 0 < fineCells S i := fun i => Nat.mul_pos (hc i) (hm i)
  have hwf : ∀ i, 0 < (fineGrid S order).width i := fun i => div_pos (hw i) (Nat.cast_pos.mpr (hm i))
  rw [report, C80_projected_partial S hcf f _ hf order leaf hp hnd hall, Outcome.ok_bind]
  refine ⟨_, rfl, ?_⟩
  rw [C80_prolongation S hm host hh]
  refine (C79_l2_zero N gauss hg (fineGrid S order) hG hwf hcf over hN _ _).trans ?_
  refine Iff.trans funext_iff (forall_congr' fun n => ?_)
  rw [← sharing_one n]
  have hs : (sharing n : ℝ) ≠ 0 := Nat.cast_ne_zero.mpr (sharing_pos n).ne'
  rw [div_eq_iff hs]
  constructor
  · intro h h1
    by_contra hz
    have : (sharing n : ℝ) = 1 := by
      apply mul_left_cancel₀ hz
      rw [← h, mul_one]
    exact h1 (by exact_mod_cast this)
  · intro h
    by_cases h1 : sharing n = 1
    · rw [h1]; simp
    · rw [h h1, zero_mul]

/-- **C80 is violated** (relative difference) If the multiscale solution is the coarse finite element solution, with homogeneous Dirichlet values
and not zero, the relative difference of the two that is printed is `2 ^ d - 1`: three in two dimensions, seven in three. -/
theorem C80_violated_relative (N : ℕ) (gauss : ℕ → List (ℝ × ℝ)) (hg : GaussUpTo N gauss) (S : Setup d ℝ) (over : ℕ)
    (hN : gaussPoints (productOrder elementOrder over) ≤ N) (hw : ∀ i, 0 < S.width i) (hc : ∀ i, 0 < S.cells i)
    (hm : ∀ i, 0 < S.micro i) (f : CellIndex S.cells → Node S.micro → ℝ)
    (c : Node S.cells → ℝ) (hf : Fits S f (interpolate S c)) (hb : ∀ m, OnBoundary m → c m = 0) (hne : c ≠ 0)
    (order leaf : List (CellIndex (fineCells S))) (hp : order.Perm leaf) (hnd : leaf.Nodup) (hall : ∀ j, j ∈ leaf)
    (host : Node (fineCells S) → CellIndex S.cells) (hh : Hosts S host) :
    ∃ r, report S .overwrite gauss over f order leaf host c = .ok r ∧ r.relative = .number (2 ^ d - 1) := by
  have hG : (fineGrid S order).Complete := ⟨hp.nodup_iff.mpr hnd, fun j => hp.mem_iff.mpr (hall j)⟩
  have hcf : ∀ i, 0 < fineCells S i := fun i => Nat.mul_pos (hc i) (hm i)
  have hwf : ∀ i, 0 < (fineGrid S order).width i := fun i => div_pos (hw i) (Nat.cast_pos.mpr (hm i))
  rw [report, C80_projected_partial S hcf f _ hf order leaf hp hnd hall, Outcome.ok_bind]
  refine ⟨_, rfl, ?_⟩
  rw [C80_prolongation S hm host hh, projected_homogeneous S _ (interpolate_boundary S hm c hb)]
  have h1 := norm_scale gauss (fineGrid S order) over (interpolate S c) (1 / 2 ^ d)
  have h2 := difference_scale gauss (fineGrid S order) over (interpolate S c) (1 / 2 ^ d)
  have h3 : l2 gauss (fineGrid S order) over (discrete (fineGrid S order) (interpolate S c)) ≠ 0 := by
    intro h
    have h' := (norm_discrete gauss (fineGrid S order) over (interpolate S c)).symm.trans h
    exact interpolate_ne_zero S hm c hne ((C79_l2_zero N gauss hg (fineGrid S order) hG hwf hcf over hN _ _).mp h')
  have h4 : (1 : ℝ) ≤ 2 ^ d := one_le_pow₀ (by norm_num)
  have h5 : (0 : ℝ) < 2 ^ d := by positivity
  rw [abs_of_pos (by positivity)] at h1
  rw [abs_of_nonpos (by rw [sub_nonpos, div_le_one h5]; exact h4)] at h2
  show relativeCoarse _ _ = _
  have e : ∀ x y : ℝ, ∀ (hx : l2 gauss (fineGrid S order) over (difference (discrete (fineGrid S order) fun n => 1 / 2 ^ d * interpolate S c n)
      (discrete (fineGrid S order) (interpolate S c))) = x)
      (hy : l2 gauss (fineGrid S order) over (discrete (fineGrid S order) fun n => 1 / 2 ^ d * interpolate S c n) = y),
      relativeCoarse (l2 gauss (fineGrid S order) over (difference (discrete (fineGrid S order) fun n => 1 / 2 ^ d * interpolate S c n)
      (discrete (fineGrid S order) (interpolate S c))))
      (l2 gauss (fineGrid S order) over (discrete (fineGrid S order) fun n => 1 / 2 ^ d * interpolate S c n)) = relativeCoarse x y := by
    rintro x y rfl rfl
    rfl
  refine (e _ _ h2 h1).trans ?_
  rw [relativeCoarse, divide, if_neg (mul_ne_zero (by positivity) h3)]
  congr 1
  field_simp
  ring

/-- **C80** (conditional) If writing accumulated, the reported differences would be zero. -/
theorem C80_zero_accumulating (N : ℕ) (gauss : ℕ → List (ℝ × ℝ)) (hg : GaussUpTo N gauss) (S : Setup d ℝ) (over : ℕ)
    (hN : gaussPoints (productOrder elementOrder over) ≤ N) (hw : ∀ i, 0 < S.width i) (hc : ∀ i, 0 < S.cells i)
    (hm : ∀ i, 0 < S.micro i) (f : CellIndex S.cells → Node S.micro → ℝ)
    (c : Node S.cells → ℝ) (hf : Fits S f (interpolate S c)) (order leaf : List (CellIndex (fineCells S))) (hp : order.Perm leaf)
    (hnd : leaf.Nodup) (hall : ∀ j, j ∈ leaf) (host : Node (fineCells S) → CellIndex S.cells) (hh : Hosts S host) :
    ∃ r, report S .accumulate gauss over f order leaf host c = .ok r ∧ r.coarseL2 = 0 ∧ r.coarseH1 = 0 ∧
      r.norm = Real.sqrt (exactL2 (fineGrid S order) (interpolate S c) 0) := by
  have hG : (fineGrid S order).Complete := ⟨hp.nodup_iff.mpr hnd, fun j => hp.mem_iff.mpr (hall j)⟩
  have hcf : ∀ i, 0 < fineCells S i := fun i => Nat.mul_pos (hc i) (hm i)
  have hwf : ∀ i, 0 < (fineGrid S order).width i := fun i => div_pos (hw i) (Nat.cast_pos.mpr (hm i))
  rw [report, C80_projected_accumulating S hcf f _ hf order leaf hp hnd hall, Outcome.ok_bind]
  refine ⟨_, rfl, ?_, ?_, ?_⟩
  · rw [C80_prolongation S hm host hh]
    exact (C79_l2_zero N gauss hg (fineGrid S order) hG hwf hcf over hN _ _).mpr rfl
  · rw [C80_prolongation S hm host hh]
    show Real.sqrt _ = 0
    rw [Real.sqrt_eq_zero']
    refine le_of_eq (List.sum_eq_zero fun x hx => ?_)
    obtain ⟨j, -, rfl⟩ := List.mem_map.mp hx
    refine List.sum_eq_zero fun y hy => ?_
    obtain ⟨q, -, rfl⟩ := List.mem_map.mp hy
    simp [difference]
  · exact C79_norm N gauss hg (fineGrid S order) hG over hN _

/-! ## From the data to the numbers -/

section
variable {R : Type} [Field R]

/-- The coarse finite element solver of error_calc.cc:162-164 works on the coarse grid. -/
abbrev coarseFem (S : Setup d R) : Grid d R where
  lower := S.lower
  width := S.width
  cells := S.cells
  order := S.order
  matrixRule := S.matrixRule
  loadRule := S.loadRule

theorem matrix_entry (G : Grid d R) (diffusion : (Fin d → R) → Matrix (Fin d) (Fin d) R) (a b : Node G.cells) :
    FemSolver.matrix G diffusion a b = (G.order.map fun J => (G.matrixRule.map fun q => ∑ i, ∑ j,
      if cornerNode J (corner i) = a ∧ cornerNode J (corner j) = b then q.weight * (∏ l, G.width l) *
        ((diffusion (fun l => G.lower l + (((J l).1 : R) + q.pos l) * G.width l) *ᵥ fun l => shapeGrad (corner j) q.pos l / G.width l) ⬝ᵥ
          fun l => shapeGrad (corner i) q.pos l / G.width l) else 0).sum).sum := by
  simp only [FemSolver.matrix, LocalAssembly.stiff, Matrix.of_apply, Spec.Galerkin.stiffness, LocalAssembly.samples]
  rw [CoarseAssembly.sum_flatMap_map, Grid.elements, List.map_map]
  refine congrArg List.sum (List.map_congr_left fun J _ => ?_)
  simp only [Function.comp_apply, element, scaleRule, List.map_map]
  rfl

theorem load_entry (G : Grid d R) (source : (Fin d → R) → R) (neumann : Node G.cells → R) (a : Node G.cells) :
    FemSolver.load G source neumann a = (G.order.map fun J => (G.loadRule.map fun q => ∑ i,
      if cornerNode J (corner i) = a then q.weight * (∏ l, G.width l) *
        (source (fun l => G.lower l + (((J l).1 : R) + q.pos l) * G.width l) * shape (corner i) q.pos) else 0).sum).sum + neumann a := by
  simp only [FemSolver.load, Pi.add_apply, LocalAssembly.addFunctional_apply, Pi.zero_apply, zero_add]
  congr 1
  rw [Grid.elements, List.map_map]
  refine congrArg List.sum (List.map_congr_left fun J _ => ?_)
  simp only [Function.comp_apply, element, scaleRule, List.map_map]
  rw [LocalAssembly.sum_map_sum]
  refine Finset.sum_congr rfl fun i _ => ?_
  by_cases h : a = cornerNode J (corner i)
  · rw [if_pos h]
    refine congrArg List.sum (List.map_congr_left fun q _ => ?_)
    rw [if_pos h.symm]
    rfl
  · rw [if_neg h]
    symm
    refine List.sum_eq_zero fun x hx => ?_
    obtain ⟨q, -, rfl⟩ := List.mem_map.mp hx
    rw [if_neg fun h' => h h'.symm]

theorem femMatrix_entry (S : Setup d R) (diffusion : (Fin d → R) → Matrix (Fin d) (Fin d) R) (a b : Node S.cells) :
    femMatrix S diffusion a b = (S.order.map fun J => (S.matrixRule.map fun q => ∑ i, ∑ j,
      if cornerNode J (corner i) = a ∧ cornerNode J (corner j) = b then q.weight * (∏ l, S.width l) *
        ((diffusion (fun l => S.lower l + (((J l).1 : R) + q.pos l) * S.width l) *ᵥ fun l => shapeGrad (corner j) q.pos l / S.width l) ⬝ᵥ
          fun l => shapeGrad (corner i) q.pos l / S.width l) else 0).sum).sum := by
  rw [femMatrix, Matrix.of_apply, Spec.Galerkin.stiffness, femSamples, CoarseAssembly.sum_flatMap_map]
  refine congrArg List.sum (List.map_congr_left fun J _ => ?_)
  rw [List.map_map]
  rfl

theorem femLoad_entry (S : Setup d R) (source : (Fin d → R) → R) (a : Node S.cells) :
    femLoad S source a = (S.order.map fun J => (S.loadRule.map fun q => ∑ i,
      if cornerNode J (corner i) = a then q.weight * (∏ l, S.width l) *
        (source (fun l => S.lower l + (((J l).1 : R) + q.pos l) * S.width l) * shape (corner i) q.pos) else 0).sum).sum := by
  rw [femLoad, Spec.Galerkin.load, femSamples, CoarseAssembly.sum_flatMap_map]
  refine congrArg List.sum (List.map_congr_left fun J _ => ?_)
  rw [List.map_map]
  refine congrArg List.sum (List.map_congr_left fun q _ => ?_)
  refine Finset.sum_congr rfl fun i _ => ?_
  dsimp only [Function.comp_apply]
  simp only [Matrix.zero_mulVec, zero_dotProduct, sub_zero]
  rfl

theorem coarseFem_matrix (S : Setup d R) (diffusion : (Fin d → R) → Matrix (Fin d) (Fin d) R) :
    FemSolver.matrix (coarseFem S) diffusion = femMatrix S diffusion := by
  ext a b
  exact (matrix_entry (coarseFem S) diffusion a b).trans (femMatrix_entry S diffusion a b).symm

theorem coarseFem_load (S : Setup d R) (source : (Fin d → R) → R) (neumann : Node S.cells → R) :
    FemSolver.load (coarseFem S) source neumann = femLoad S source + neumann := by
  funext a
  refine (load_entry (coarseFem S) source neumann a).trans ?_
  rw [Pi.add_apply, femLoad_entry]

end

/-- The multiscale solution `f` on the coarse cells, given the local solutions `xs` and the coarse solution `u` (C16, C58). -/
def Represents (S : Setup d ℝ) (constrained : Node S.micro → Bool) (xs : CellIndex S.cells → List (Node S.micro → ℝ))
    (u : Node S.cells → ℝ) (f : CellIndex S.cells → Node S.micro → ℝ) : Prop :=
  ∀ J, ∃ (neumann : Node S.micro → ℝ) (cells : List (ℕ × List (Node S.micro → ℝ))) (key : ℕ), (cells.map Prod.fst).Nodup ∧
    (key, xs J) ∈ cells ∧ (S.cell constrained neumann J).solution cells key (fun k => u (cornerNode J (corner k))) = .ok (f J)

open Verif.DirichletSolve (coarseSolve Solver) in
/-- **C80** (both methods) Without anything to correct (C72), the multiscale method and the finite element method on the coarse grid that it is
compared with have the same solution, and the multiscale solution is its interpolation. -/
theorem C80_same_solution (S : Setup d ℝ) (hS : S.Admissible) (hno : S.order.Nodup) (hnd : S.localOrder.Nodup)
    (hR : Resolving S.localRule) (hR' : Resolving S.matrixRule)
    (hd : 0 < d) (diffusion : (Fin d → ℝ) → Matrix (Fin d) (Fin d) ℝ) (hpd : Definite diffusion) (source : (Fin d → ℝ) → ℝ)
    (hp : S.Plain diffusion source)
    (flux : (Fin d → ℝ) → (Fin d → ℝ) → (Fin d → ℝ)) (hflux : ∀ x v, flux x v = diffusion x *ᵥ v)
    (constrained : Node S.micro → Bool) (hcon : ∀ node, constrained node = false → Interior S.micro node)
    (xs : CellIndex S.cells → List (Node S.micro → ℝ)) (hx : S.Solves constrained diffusion flux xs)
    (tmp : Fin (2 ^ d) → Fin (2 ^ d) → ℝ) (tmp' : Fin (2 ^ d) → ℝ) (pts : List (NeumannPoint S))
    (data : Node S.cells → ℝ) (D : Node S.cells → Bool) (hD : ∃ g, D g = true) (valid : (Node S.cells → ℝ) → Bool)
    (s s' : Solver (Node S.cells) ℝ) (hs : s.Correct) (hs' : s'.Correct) (old old' u c : Node S.cells → ℝ)
    (h : coarseSolve valid s (S.coarseMatrix diffusion xs tmp) (S.coarseLoad flux source xs tmp' pts) data D old = .ok u)
    (h' : (coarseFem S).apply true s' diffusion source (femNeumann S pts) data D old' = .ok c)
    (f : CellIndex S.cells → Node S.micro → ℝ) (hf : Represents S constrained xs u f) :
    u = c ∧ Fits S f (interpolate S c) := by
  obtain ⟨h1, h2⟩ := C72_is_fem S hS hnd hR hd diffusion source hp flux hflux constrained hcon xs hx tmp tmp' pts data D valid s hs
    old u h
  have hG : (coarseFem S).Complete := ⟨hno, hS.order_complete⟩
  have h3 := (galerkin_iff (coarseFem S) hG diffusion source (femNeumann S pts) data D c).mp
    (C76_galerkin (coarseFem S) hG s' hs' diffusion source (femNeumann S pts) data D old' c h')
  have h4 : Spec.Dirichlet.IsSolution (femMatrix S diffusion) (femLoad S source + femNeumann S pts) data D c := by
    have e1 := coarseFem_matrix S diffusion
    have e2 := coarseFem_load S source (femNeumann S pts)
    rw [← e1, ← e2]
    exact h3
  have huc : u = c := DirichletSolve.unique_of_freeInjective (C72_fem_free_injective S hS hR' diffusion hpd D hD) h1 h4
  subst huc
  refine ⟨rfl, fun n J node hn => ?_⟩
  obtain ⟨neumann, cells, key, hk, hmem, hsol⟩ := hf J
  have h5 := h2 J neumann cells hk key hmem
  rw [hsol] at h5
  injection h5 with h5
  rw [h5]
  exact fits_interpolate S hS.micro_pos u n J node hn

open Verif.DirichletSolve (coarseSolve Solver) in
/-- **C80 is violated** (from the data to the printed number) Without anything to correct, homogeneous Dirichlet values on the whole boundary and
a solution that is not zero, the printed relative difference of the multiscale solution to the finite element solution on the coarse grid is
`2 ^ d - 1`, although both are the same function. -/
theorem C80_violated_data (N : ℕ) (gauss : ℕ → List (ℝ × ℝ)) (hg : GaussUpTo N gauss) (over : ℕ)
    (hN : gaussPoints (productOrder elementOrder over) ≤ N) (S : Setup d ℝ) (hS : S.Admissible) (hno : S.order.Nodup)
    (hnd : S.localOrder.Nodup) (hR : Resolving S.localRule) (hR' : Resolving S.matrixRule)
    (hd : 0 < d) (diffusion : (Fin d → ℝ) → Matrix (Fin d) (Fin d) ℝ) (hpd : Definite diffusion) (source : (Fin d → ℝ) → ℝ)
    (hp : S.Plain diffusion source)
    (flux : (Fin d → ℝ) → (Fin d → ℝ) → (Fin d → ℝ)) (hflux : ∀ x v, flux x v = diffusion x *ᵥ v)
    (constrained : Node S.micro → Bool) (hcon : ∀ node, constrained node = false → Interior S.micro node)
    (xs : CellIndex S.cells → List (Node S.micro → ℝ)) (hx : S.Solves constrained diffusion flux xs)
    (tmp : Fin (2 ^ d) → Fin (2 ^ d) → ℝ) (tmp' : Fin (2 ^ d) → ℝ) (pts : List (NeumannPoint S))
    (D : Node S.cells → Bool) (hD : ∀ g, OnBoundary g → D g = true) (valid : (Node S.cells → ℝ) → Bool)
    (s s' : Solver (Node S.cells) ℝ) (hs : s.Correct) (hs' : s'.Correct) (old old' u c : Node S.cells → ℝ)
    (h : coarseSolve valid s (S.coarseMatrix diffusion xs tmp) (S.coarseLoad flux source xs tmp' pts) 0 D old = .ok u)
    (h' : (coarseFem S).apply true s' diffusion source (femNeumann S pts) 0 D old' = .ok c)
    (f : CellIndex S.cells → Node S.micro → ℝ) (hf : Represents S constrained xs u f) (hne : u ≠ 0)
    (order leaf : List (CellIndex (fineCells S))) (hperm : order.Perm leaf) (hleaf : leaf.Nodup) (hall : ∀ j, j ∈ leaf)
    (host : Node (fineCells S) → CellIndex S.cells) (hh : Hosts S host) :
    u = c ∧ ∃ r, report S .overwrite gauss over f order leaf host c = .ok r ∧ r.relative = .number (2 ^ d - 1) := by
  have hb : ∃ g : Node S.cells, D g = true := ⟨fun _ => ⟨0, Nat.succ_pos _⟩, hD _ ⟨⟨0, hd⟩, Or.inl rfl⟩⟩
  obtain ⟨huc, hfit⟩ := C80_same_solution S hS hno hnd hR hR' hd diffusion hpd source hp flux hflux constrained hcon xs hx tmp tmp' pts
    0 D hb valid s s' hs hs' old old' u c h h' f hf
  refine ⟨huc, ?_⟩
  have hsol := (C72_is_fem S hS hnd hR hd diffusion source hp flux hflux constrained hcon xs hx tmp tmp' pts 0 D valid s hs
    old u h).1
  subst huc
  exact C80_violated_relative N gauss hg S over hN hS.width_pos hS.cells_pos hS.micro_pos f u hfit
    (fun m hm => hsol.boundary m (hD m hm)) hne order leaf hperm hleaf hall host hh

/-! ## Instances -/

/-- the unit cube with `N` coarse cells per direction, `m` local cells per direction in each, Gauss rules with two points per direction, and
the rule with one point for the load -/
noncomputable def realSetup (d N m : ℕ) : Setup d ℝ where
  lower := 0
  width := fun _ => 1 / (N : ℝ)
  cells := fun _ => N
  micro := fun _ => m
  order := Finset.univ.toList
  localOrder := Finset.univ.toList
  localRule := tensor (legendreFour 2) d
  matrixRule := tensor (legendreFour 2) d
  loadRule := [⟨fun _ => 1 / 2, 1⟩]

theorem real_admissible (d N m : ℕ) (hN : 0 < N) (hm : 0 < m) : (realSetup d N m).Admissible where
  width_pos := fun _ => by
    have : (0 : ℝ) < N := by exact_mod_cast hN
    simpa [realSetup] using this
  cells_pos := fun _ => hN
  micro_pos := fun _ => hm
  order_complete := fun J => Finset.mem_toList.mpr (Finset.mem_univ J)
  localOrder_complete := fun j => Finset.mem_toList.mpr (Finset.mem_univ j)

theorem legendreTwo_resolving (d : ℕ) : Resolving (tensor (legendreFour 2) d) := by
  have h3 : (0 : ℝ) < Real.sqrt 3 := Real.sqrt_pos.mpr (by norm_num)
  have e : legendreFour 2 = [(1 / 2 - Real.sqrt 3 / 6, 1 / 2), (1 / 2 + Real.sqrt 3 / 6, 1 / 2)] := by
    rw [legendreFour, if_neg (by norm_num)]
    rfl
  rw [e]
  refine tensor_resolving _ (by simp) ⟨_, List.mem_cons_self, _, List.mem_cons_of_mem _ (List.mem_singleton_self _), ?_⟩ d
  intro h
  dsimp only at h
  linarith

/-- the host of a fine node: the coarse cell that contains it, the last one on the far side -/
def lastHost (N m : ℕ) (hN : 0 < N) (n : Node (fineCells (realSetup d N m))) : CellIndex (realSetup d N m).cells :=
  fun i => ⟨min ((n i).1 / m) (N - 1), (lt_of_le_of_lt (min_le_right _ _) (Nat.sub_lt hN Nat.one_pos) : _ < N)⟩

theorem lastHost_hosts (N m : ℕ) (hN : 0 < N) (hm : 0 < m) : Hosts (realSetup d N m) (lastHost N m hN) := by
  intro n i
  have h : (n i).1 ≤ N * m := Nat.lt_succ_iff.mp (n i).2
  change min ((n i).1 / m) (N - 1) * m ≤ (n i).1 ∧ (n i).1 ≤ (min ((n i).1 / m) (N - 1) + 1) * m
  rcases le_total ((n i).1 / m) (N - 1) with hl | hl
  · rw [min_eq_left hl]
    exact ⟨Nat.div_mul_le_self _ _, (Nat.lt_mul_of_div_lt (Nat.lt_succ_self _) hm).le⟩
  · rw [min_eq_right hl, Nat.sub_add_cancel hN]
    exact ⟨(Nat.mul_le_mul_right m hl).trans (Nat.div_mul_le_self _ _), h⟩

open Classical in
/-- one where `c` is the hat function of a node -/
example (N m : ℕ) (hN : 1 < N) (hm : 0 < m) : ∃ (f : _) (c : Node (realSetup 2 N m).cells → ℝ),
    Fits (realSetup 2 N m) f (interpolate (realSetup 2 N m) c) ∧ (∀ n, OnBoundary n → c n = 0) ∧ c ≠ 0 ∧
    ∃ r, report (realSetup 2 N m) .overwrite legendreFour 0 f Finset.univ.toList Finset.univ.toList (lastHost N m (by omega)) c = .ok r ∧
      r.relative = .number 3 := by
  have hA := real_admissible 2 N m (by omega) hm
  let g : Node (realSetup 2 N m).cells := fun _ => ⟨1, (by omega : 1 < N + 1)⟩
  have hb : ∀ n : Node (realSetup 2 N m).cells, OnBoundary n → (Pi.single g (1 : ℝ) : Node (realSetup 2 N m).cells → ℝ) n = 0 := by
    intro n hn
    refine Pi.single_eq_of_ne ?_ _
    rintro rfl
    obtain ⟨i, hi⟩ := hn
    rcases hi with hi | hi
    · have h0 : (1 : ℕ) = 0 := hi
      omega
    · have h0 : 1 = N := hi
      omega
  have hne : (Pi.single g (1 : ℝ) : Node (realSetup 2 N m).cells → ℝ) ≠ 0 := fun h => by
    have := congrFun h g
    simp at this
  have hfit := fits_interpolate (realSetup 2 N m) hA.micro_pos (Pi.single g (1 : ℝ))
  refine ⟨_, _, hfit, hb, hne, ?_⟩
  have h := C80_violated_relative 4 legendreFour legendreFour_gauss (realSetup 2 N m) 0 (by decide) hA.width_pos hA.cells_pos hA.micro_pos
    _ _ hfit hb hne Finset.univ.toList Finset.univ.toList (List.Perm.refl _) (Finset.nodup_toList _) (by simp) _
    (lastHost_hosts N m (by omega) hm)
  norm_num at h
  exact h

open Verif.DirichletSolve (coarseSolve Solver) in
open Verif.Spec.Dirichlet in
/-- **C80 is violated** (instance) All of this happens: for every refinement of the unit cube there are local solutions, coarse solutions of both methods
and a nonzero multiscale solution, for which the printed relative difference is `2 ^ d - 1`. -/
theorem C80_violated_instance (N m : ℕ) (hN : 1 < N) (hm : 0 < m) (hd : 0 < d) :
    ∃ (constrained : Node (realSetup d N m).micro → Bool)
      (xs : CellIndex (realSetup d N m).cells → List (Node (realSetup d N m).micro → ℝ)) (D : Node (realSetup d N m).cells → Bool)
      (s s' : Solver (Node (realSetup d N m).cells) ℝ) (u : Node (realSetup d N m).cells → ℝ)
      (f : CellIndex (realSetup d N m).cells → Node (realSetup d N m).micro → ℝ),
      (realSetup d N m).Solves constrained (fun _ => diagonal fun _ => 1) (fun _ v => diagonal (fun _ => 1) *ᵥ v) xs ∧
      (∀ g, D g = true ↔ OnBoundary g) ∧ s.Correct ∧ s'.Correct ∧
      coarseSolve (fun _ => true) s ((realSetup d N m).coarseMatrix (fun _ => diagonal fun _ => 1) xs 0)
        ((realSetup d N m).coarseLoad (fun _ v => diagonal (fun _ => 1) *ᵥ v) (fun _ => 3) xs 0 []) 0 D 0 = .ok u ∧
      (coarseFem (realSetup d N m)).apply true s' (fun _ => diagonal fun _ => 1) (fun _ => 3) (femNeumann (realSetup d N m) []) 0 D 0 = .ok u ∧
      Represents (realSetup d N m) constrained xs u f ∧ u ≠ 0 ∧
      ∃ r, report (realSetup d N m) .overwrite legendreFour 0 f Finset.univ.toList Finset.univ.toList (lastHost N m (by omega)) u = .ok r ∧
        r.relative = .number (2 ^ d - 1) := by
  classical
  have hA := real_admissible d N m (by omega) hm
  have hpos : ∀ i : Fin d, (0 : ℝ) < (fun _ => 1 : Fin d → ℝ) i := fun _ => one_pos
  have hpd : Definite (fun _ : Fin d → ℝ => diagonal (fun _ => (1 : ℝ))) := definite_diagonal _ hpos
  have hR := legendreTwo_resolving d
  have hp : (realSetup d N m).Plain (fun _ => diagonal (fun _ => (1 : ℝ))) (fun _ => 3) := Or.inr ⟨_, 3, hpos, fun _ => rfl, fun _ => rfl⟩
  obtain ⟨xs, hxs⟩ := C71_local_solutions_exist (realSetup d N m) hA hR _ hpd
    (fun node => !decide (Interior (realSetup d N m).micro node))
    ⟨fun _ => ⟨0, Nat.succ_pos _⟩, by simpa [Interior] using ⟨⟨0, hd⟩⟩⟩ (fun _ v => diagonal (fun _ => (1 : ℝ)) *ᵥ v)
  have hcon : ∀ node, (!decide (Interior (realSetup d N m).micro node)) = false → Interior (realSetup d N m).micro node :=
    fun node h => by simpa using h
  let D : Node (realSetup d N m).cells → Bool := fun g => decide (OnBoundary g)
  have hD : ∃ g, D g = true := ⟨fun _ => ⟨0, Nat.succ_pos _⟩, decide_eq_true ⟨⟨0, hd⟩, Or.inl rfl⟩⟩
  obtain ⟨hM, hL⟩ := C72_system (realSetup d N m) hA (Finset.nodup_toList _) hR hd _ _ hp (fun _ v => diagonal (fun _ => (1 : ℝ)) *ᵥ v)
    (fun _ _ => rfl) _ hcon xs hxs 0 0 []
  have hinj := C72_fem_free_injective (realSetup d N m) hA hR _ hpd D hD
  obtain ⟨x, hx, -⟩ := DirichletSolve.C25_system_solvable (femMatrix (realSetup d N m) (fun _ => diagonal (fun _ => (1 : ℝ))))
    (femLoad (realSetup d N m) (fun _ => 3) + femNeumann (realSetup d N m) []) 0 D hinj
  obtain ⟨c, -, -, s', hs', hc⟩ := C76_unique (coarseFem (realSetup d N m)) ⟨Finset.nodup_toList _, hA.order_complete⟩ hA.width_pos hA.cells_pos
    hR (fun _ => diagonal (fun _ => (1 : ℝ))) hpd (fun _ => 3) (femNeumann (realSetup d N m) []) 0 D hD
  have hs : Solver.Correct (fun (M : Matrix (Node (realSetup d N m).cells) (Node (realSetup d N m).cells) ℝ) b _ =>
      if h : ∃ x, M *ᵥ x = b then DirichletSolve.SolverResult.ok h.choose else .failed) := by
    intro M b x0 x h
    dsimp only at h
    split_ifs at h with he
    injection h with h
    subst h
    exact he.choose_spec
  have hex : ∃ u, coarseSolve (fun _ => true) (fun (M : Matrix (Node (realSetup d N m).cells) (Node (realSetup d N m).cells) ℝ) b _ =>
      if h : ∃ x, M *ᵥ x = b then DirichletSolve.SolverResult.ok h.choose else .failed)
      ((realSetup d N m).coarseMatrix (fun _ => diagonal fun _ => 1) xs 0)
      ((realSetup d N m).coarseLoad (fun _ v => diagonal (fun _ => 1) *ᵥ v) (fun _ => 3) xs 0 []) 0 D 0 = .ok u := by
    rw [hM, hL]
    unfold coarseSolve
    dsimp only
    rw [dif_pos ⟨x, hx⟩]
    exact ⟨_, rfl⟩
  obtain ⟨u, hu⟩ := hex
  obtain ⟨h1, h2⟩ := C72_is_fem (realSetup d N m) hA (Finset.nodup_toList _) hR hd _ _ hp (fun _ v => diagonal (fun _ => (1 : ℝ)) *ᵥ v)
    (fun _ _ => rfl) _ hcon xs hxs 0 0 [] 0 D (fun _ => true) _ hs 0 u hu
  have hf : Represents (realSetup d N m) (fun node => !decide (Interior (realSetup d N m).micro node)) xs u _ :=
    fun J => ⟨0, [(0, xs J)], 0, by simp, by simp, h2 J 0 _ (by simp) 0 (by simp)⟩
  have hne : u ≠ 0 := by
    rintro rfl
    let g : Node (realSetup d N m).cells := fun _ => ⟨1, (by omega : 1 < N + 1)⟩
    have hg : D g = false := by
      refine decide_eq_false ?_
      rintro ⟨i, hi⟩
      rcases hi with hi | hi
      · have h0 : (1 : ℕ) = 0 := hi
        omega
      · have h0 : 1 = N := hi
        omega
    have h3 := h1.equation g hg
    rw [mulVec_zero, Pi.zero_apply, Pi.add_apply] at h3
    have h4 : femNeumann (realSetup d N m) [] g = 0 := rfl
    have hw : (0 : ℝ) < ∏ l, (realSetup d N m).width l := Finset.prod_pos fun l _ => hA.width_pos l
    have hsh : ∀ v : Fin d → Bool, (0 : ℝ) < shape v fun _ => 1 / 2 := fun v => Finset.prod_pos fun l _ => by
      cases v l <;> norm_num [hat]
    have hterm : ∀ (J : CellIndex (realSetup d N m).cells) (i : Fin (2 ^ d)), (0 : ℝ) ≤
        if cornerNode J (corner i) = g then 1 * (∏ l, (realSetup d N m).width l) * (3 * shape (corner i) fun _ => 1 / 2) else 0 := by
      intro J i
      split_ifs
      · have := hsh (corner i)
        positivity
      · exact le_rfl
    have h5 : 0 < femLoad (realSetup d N m) (fun _ => 3) g := by
      rw [femLoad_entry]
      have e : (realSetup d N m).order = Finset.univ.toList := rfl
      have e' : (realSetup d N m).loadRule = [⟨fun _ => 1 / 2, 1⟩] := rfl
      rw [e, e']
      simp only [List.map_cons, List.map_nil, List.sum_cons, List.sum_nil, add_zero]
      rw [Finset.sum_map_toList]
      refine Finset.sum_pos' (fun J _ => Finset.sum_nonneg fun i _ => hterm J i) ⟨fun _ => ⟨0, (by omega : 0 < N)⟩, Finset.mem_univ _, ?_⟩
      refine Finset.sum_pos' (fun i _ => hterm _ i) ?_
      obtain ⟨k, hk⟩ := (corner_bijective (d := d)).2 fun _ => true
      refine ⟨k, Finset.mem_univ _, ?_⟩
      have hg' : cornerNode (cells := (realSetup d N m).cells) (fun _ => ⟨0, (by omega : 0 < N)⟩) (corner k) = g := by
        funext i
        apply Fin.ext
        rw [hk]
        rfl
      rw [if_pos hg']
      have := hsh (corner k)
      positivity
    rw [h4, add_zero] at h3
    exact h5.ne h3
  obtain ⟨huc, hr⟩ := C80_violated_data 4 legendreFour legendreFour_gauss 0 (by decide) (realSetup d N m) hA (Finset.nodup_toList _)
    (Finset.nodup_toList _) hR hR hd _ hpd _ hp (fun _ v => diagonal (fun _ => (1 : ℝ)) *ᵥ v) (fun _ _ => rfl) _ hcon xs hxs 0 0 [] D
    (fun g hg => decide_eq_true hg) (fun _ => true) _ s' hs hs' 0 0 u c hu (hc 0) _ hf hne Finset.univ.toList Finset.univ.toList
    (List.Perm.refl _) (Finset.nodup_toList _) (by simp) _ (lastHost_hosts N m (by omega) hm)
  subst huc
  exact ⟨_, xs, D, _, s', u, _, hxs, fun g => decide_eq_true_iff, hs, hs', hu, hc 0, hf, hne, hr⟩

end Verif.Report
