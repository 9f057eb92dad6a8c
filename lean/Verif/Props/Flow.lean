import Verif.Model.Flow
import Verif.Props.Q1Grid
import Mathlib.Algebra.Order.Field.Basic
import Mathlib.Algebra.BigOperators.Fin
import Mathlib.Algebra.BigOperators.Field
import Mathlib.Tactic.Ring
import Mathlib.Tactic.FieldSimp
import Mathlib.Tactic.Linarith
import Mathlib.Tactic.FinCases

/-!
# C75: the flow written to the log
-/

namespace Verif.Flow
open Verif.Q1Grid

variable {n : ℕ} {R : Type} [Field R]

/-! ## Specification -/

/-- Partial derivative in direction `i` of the multilinear function with nodal values `u` at the point with reference coordinates `x` of
cell `j`: the function is affine along each edge direction, so this is a difference quotient over the cell. -/
def slope (G : Grid n R) (u : Node G.cells → R) (j : CellIndex G.cells) (x : Fin (n + 1) → R) (i : Fin (n + 1)) : R :=
  (valueOf u j (Function.update x i 1) - valueOf u j (Function.update x i 0)) / G.width i

/-- Flow into the domain through the left side `x₀ = lower 0`: the integral of `A ∇u · ν` with outer normal `ν = -e₀`, computed
with the rule on the faces. -/
def inflow (G : Grid n R) (diffusion : (Fin (n + 1) → R) → Matrix (Fin (n + 1)) (Fin (n + 1)) R) (rule : List (FacePoint n R))
    (u : Node G.cells → R) : R :=
  ∑ j : CellIndex G.cells with (j 0).1 = 0, (rule.map fun q =>
    let x : Fin (n + 1) → R := Fin.cons 0 q.pos
    q.weight * (∏ m : Fin n, G.width m.succ) *
      ∑ i, -(diffusion (fun i => G.lower i + (((j i).1 : R) + x i) * G.width i) 0 i * slope G u j x i)).sum

/-! ## Auxiliary results -/

theorem foldl_sum {α : Type} (f : R → α → R) (g : α → R) (h : ∀ a x, f a x = a + g x) (l : List α) (a : R) :
    l.foldl f a = a + (l.map g).sum := by
  induction l generalizing a with
  | nil => simp
  | cons x l ih => simp [h, ih, add_assoc]

/-- the gradient of the local function is the partial derivative -/
theorem jacobian_slope [DecidableEq R] (G : Grid n R) (u : Node G.cells → R) (j : CellIndex G.cells) (x : Fin (n + 1) → R)
    (i : Fin (n + 1)) : (G.flowCell u j).jacobian x i = slope G u j x i := by
  simp only [Grid.flowCell, slope, valueOf, ← Finset.sum_sub_distrib, Finset.sum_div, ← mul_sub, mul_div_assoc]
  refine Finset.sum_congr rfl fun k _ => ?_
  congr 2
  have key : ∀ t : R, shape (corner k) (Function.update x i t) =
      hat (corner k i) t * ∏ l ∈ Finset.univ.erase i, hat (corner k l) (x l) := fun t => by
    rw [shape, ← Finset.mul_prod_erase _ _ (Finset.mem_univ i), Function.update_self]
    congr 1
    exact Finset.prod_congr rfl fun l hl => by rw [Function.update_of_ne (Finset.ne_of_mem_erase hl)]
  rw [key, key, shapeGrad, ← Finset.mul_prod_erase _ _ (Finset.mem_univ i), if_pos rfl, ← sub_mul]
  congr 1
  · cases corner k i <;> simp [hat, hatSlope]
  · exact Finset.prod_congr rfl fun l hl => by rw [if_neg (Finset.ne_of_mem_erase hl)]

/-- the function `a - (x₀ - lower 0)` -/
theorem slope_left (G : Grid n R) (hw : G.width 0 ≠ 0) (a : R) (j : CellIndex G.cells) (x : Fin (n + 1) → R) :
    slope G (fun node => a - ((node 0).1 : R) * G.width 0) j x 0 = -1 := by
  have hval : ∀ x : Fin (n + 1) → R,
      valueOf (fun node : Node G.cells => a - ((node 0).1 : R) * G.width 0) j x = a - (((j 0).1 : R) + x 0) * G.width 0 :=
    fun x => by
      have hnode : ∀ v : Fin (n + 1) → Bool, ((cornerNode j v 0).1 : R) = ((j 0).1 : R) + if v 0 then 1 else 0 := fun v => by
        rw [cornerNode]; split_ifs <;> simp
      rw [valueOf, sum_corner fun v => (a - ((cornerNode j v 0).1 : R) * G.width 0) * shape v x]
      simp only [hnode]
      rw [sum_one_direction_value (fun b => a - (((j 0).1 : R) + if b then 1 else 0) * G.width 0) 0 x]
      simp only [if_true, Bool.false_eq_true, if_false]
      ring
  rw [slope, hval, hval, Function.update_self, Function.update_self]
  field_simp
  ring

/-- contribution of a face -/
def faceTerm [DecidableEq R] (diffusion : (Fin (n + 1) → R) → Matrix (Fin (n + 1)) (Fin (n + 1)) R) (rule : List (FacePoint n R))
    (cell : FlowCell n R) (face : Face n R) : R :=
  if face.boundary ∧ face.centre 0 = 0 then
    (rule.map fun q => -(q.weight * face.volume * diffusion (face.toGlobal q.pos) 0 0 * cell.jacobian (face.toGlobal q.pos) 0)).sum
  else 0

theorem faceFlow_eq [DecidableEq R] (diffusion : (Fin (n + 1) → R) → Matrix (Fin (n + 1)) (Fin (n + 1)) R) (rule : List (FacePoint n R))
    (cell : FlowCell n R) (a : R) (face : Face n R) :
    faceFlow diffusion rule cell a face = a + faceTerm diffusion rule cell face := by
  unfold faceFlow faceTerm
  split_ifs
  · exact foldl_sum _ _ (fun a q => sub_eq_add_neg _ _) _ _
  · simp

theorem localFlow_eq [DecidableEq R] (diffusion : (Fin (n + 1) → R) → Matrix (Fin (n + 1)) (Fin (n + 1)) R)
    (rule : List (FacePoint n R)) (cells : List (FlowCell n R)) (h : cells ≠ []) :
    localFlow diffusion rule cells =
      .ok (cells.map fun cell => (cell.faces.map (faceTerm diffusion rule cell)).sum).sum := by
  unfold localFlow
  rw [if_neg (by simpa using h), foldl_sum _ (fun cell => (cell.faces.map (faceTerm diffusion rule cell)).sum), zero_add]
  exact fun a cell => foldl_sum _ _ (faceFlow_eq diffusion rule cell) _ _

theorem surfaceFlow_eq [DecidableEq R] (diffusion : (Fin (n + 1) → R) → Matrix (Fin (n + 1)) (Fin (n + 1)) R)
    (rule : List (FacePoint n R)) (processes : List (List (FlowCell n R))) (h : ∀ cells ∈ processes, cells ≠ []) :
    surfaceFlow diffusion rule processes =
      .ok (processes.flatten.map fun cell => (cell.faces.map (faceTerm diffusion rule cell)).sum).sum := by
  suffices H : ∀ a : R, processes.foldl (fun sum cells => sum >>= fun s => localFlow diffusion rule cells >>= fun x => .ok (s + x))
      (.ok a) = .ok (a + (processes.flatten.map fun cell => (cell.faces.map (faceTerm diffusion rule cell)).sum).sum) by
    rw [surfaceFlow, H, zero_add]
  induction processes with
  | nil => simp
  | cons c l ih =>
    intro a
    rw [List.foldl_cons, Outcome.ok_bind, localFlow_eq _ _ _ (h c List.mem_cons_self), Outcome.ok_bind,
      ih fun c hc => h c (List.mem_cons_of_mem _ hc)]
    simp [add_assoc]

/-- **C75** (undefined) A process without interior coarse cells has undefined behaviour. -/
theorem C75_violated_empty [DecidableEq R] (G : Grid n R) (diffusion : (Fin (n + 1) → R) → Matrix (Fin (n + 1)) (Fin (n + 1)) R)
    (rule : List (FacePoint n R)) (parts : List (List (CellIndex G.cells))) (h : [] ∈ parts) (u : Node G.cells → R) :
    G.printFlow diffusion rule parts u = .ub := by
  obtain ⟨l, r, rfl⟩ := List.append_of_mem h
  have hub : ∀ ps : List (List (FlowCell n R)), ps.foldl (fun sum cells => sum >>= fun s =>
      localFlow diffusion rule cells >>= fun x => .ok (s + x)) (.ub : Outcome R) = .ub := fun ps => by
    induction ps with
    | nil => rfl
    | cons c l ih => rw [List.foldl_cons, Outcome.ub_bind, ih]
  have hl : ∀ (ps : List (List (FlowCell n R))) (a : Outcome R), a ≠ .throw → ps.foldl (fun sum cells => sum >>= fun s =>
      localFlow diffusion rule cells >>= fun x => .ok (s + x)) a ≠ .throw := fun ps => by
    induction ps with
    | nil => exact fun a h => h
    | cons c l ih =>
      intro a ha
      refine ih _ ?_
      match a, ha with
      | .ub, _ => simp
      | .ok a, _ =>
        dsimp only
        rw [Outcome.ok_bind]
        unfold localFlow
        split_ifs <;> simp
  rw [Grid.printFlow, Grid.flow, surfaceFlow, List.map_append, List.foldl_append, List.map_cons, List.foldl_cons]
  have := hl (l.map fun part => part.map (G.flowCell fun _ => 0)) (.ok 0) (by simp)
  revert this
  generalize (l.map fun part => part.map (G.flowCell fun _ => 0)).foldl _ _ = o
  intro ho
  match o, ho with
  | .ub, _ => rw [Outcome.ub_bind, hub]
  | .ok a, _ => simpa [localFlow] using hub _

/-- **C75** (undefined, more processes than coarse cells) -/
theorem C75_violated_processes [DecidableEq R] (G : Grid n R)
    (diffusion : (Fin (n + 1) → R) → Matrix (Fin (n + 1)) (Fin (n + 1)) R) (rule : List (FacePoint n R))
    (parts : List (List (CellIndex G.cells))) (hnodup : parts.flatten.Nodup) (h : ∏ i, G.cells i < parts.length)
    (u : Node G.cells → R) : G.printFlow diffusion rule parts u = .ub := by
  refine C75_violated_empty G diffusion rule parts ?_ u
  by_contra hne
  have h1 : parts.length ≤ parts.flatten.length := by
    clear hnodup h
    induction parts with
    | nil => simp
    | cons c l ih =>
      have hc : c ≠ [] := fun hc => hne (hc ▸ List.mem_cons_self)
      have := ih fun h => hne (List.mem_cons_of_mem _ h)
      have := List.length_pos_iff.mpr hc
      simp only [List.length_cons, List.flatten_cons, List.length_append]
      omega
  have h2 := hnodup.length_le_card
  rw [Fintype.card_pi] at h2
  simp only [Fintype.card_fin] at h2
  omega

section ordered
variable [LinearOrder R] [IsStrictOrderedRing R]

/-- Cell `k` is the neighbour of `j` behind the face in direction `i`. -/
def Neighbour {cells : Fin (n + 1) → ℕ} (j k : CellIndex cells) (i : Fin (n + 1)) (upper : Bool) : Prop :=
  (∀ l, l ≠ i → k l = j l) ∧ if upper then (k i).1 = (j i).1 + 1 else (j i).1 = (k i).1 + 1

/-- The faces of the model are those of the grid: on the boundary exactly if there is no cell behind, the centre is in the middle of the
cell in all directions but one, and lies on the lower or upper side in that direction. -/
theorem C75_faces (G : Grid n R) (j : CellIndex G.cells) (i : Fin (n + 1)) (upper : Bool) :
    ((G.face j i upper).boundary = true ↔ ¬ ∃ k, Neighbour j k i upper) ∧
    (∀ l, l ≠ i → 2 * (G.face j i upper).centre l =
      (G.lower l + ((j l).1 : R) * G.width l) + (G.lower l + (((j l).1 : R) + 1) * G.width l)) ∧
    (G.face j i upper).centre i = G.lower i + (((j i).1 : R) + if upper then 1 else 0) * G.width i ∧
    (∀ s, (G.face j i upper).toGlobal s i = (G.face j i upper).centre i) ∧
    (∀ s m, (G.face j i upper).toGlobal s (i.succAbove m) =
      G.lower (i.succAbove m) + (((j (i.succAbove m)).1 : R) + s m) * G.width (i.succAbove m)) := by
  refine ⟨?_, fun l hl => ?_, ?_, fun s => ?_, fun s m => ?_⟩
  · have hj := (j i).2
    cases upper
    · simp only [Grid.face, Neighbour, Bool.false_eq_true, if_false, decide_eq_true_eq]
      constructor
      · rintro h ⟨k, -, hk⟩
        omega
      · intro h
        by_contra h0
        exact h ⟨Function.update j i ⟨(j i).1 - 1, by omega⟩, fun l hl => by simp [hl], by simp; omega⟩
    · simp only [Grid.face, Neighbour, if_true, decide_eq_true_eq]
      constructor
      · rintro h ⟨k, -, hk⟩
        have := (k i).2
        omega
      · intro h
        by_contra h0
        exact h ⟨Function.update j i ⟨(j i).1 + 1, by omega⟩, fun l hl => by simp [hl], by simp⟩
  · obtain ⟨m, rfl⟩ := Fin.exists_succAbove_eq hl
    simp only [Grid.face, Grid.toGlobal, Fin.insertNth_apply_succAbove]
    have : (2 : R) ≠ 0 := two_ne_zero
    field_simp
    ring
  · simp [Grid.face, Grid.toGlobal]
  · simp [Grid.face, Grid.toGlobal]
  · simp [Grid.face, Grid.toGlobal]


/-- the faces of a cell that are counted if the domain starts at zero -/
theorem faces_sum (G : Grid n R) (h0 : G.lower 0 = 0) (hw : 0 < G.width 0)
    (diffusion : (Fin (n + 1) → R) → Matrix (Fin (n + 1)) (Fin (n + 1)) R) (rule : List (FacePoint n R)) (u : Node G.cells → R)
    (j : CellIndex G.cells) :
    ((G.flowCell u j).faces.map (faceTerm diffusion rule (G.flowCell u j))).sum =
      if (j 0).1 = 0 then (rule.map fun q => -(q.weight * (∏ m : Fin n, G.width m.succ) *
        diffusion (G.toGlobal j (Fin.cons 0 q.pos)) 0 0 * slope G u j (G.toGlobal j (Fin.cons 0 q.pos)) 0)).sum else 0 := by
  have hsplit : ((G.flowCell u j).faces.map (faceTerm diffusion rule (G.flowCell u j))).sum =
      ∑ i, (faceTerm diffusion rule (G.flowCell u j) (G.face j i false) +
        faceTerm diffusion rule (G.flowCell u j) (G.face j i true)) := by
    rw [Fin.sum_univ_def]
    change (((List.finRange (n + 1)).flatMap fun i => [G.face j i false, G.face j i true]).map _).sum = _
    induction List.finRange (n + 1) with
    | nil => simp
    | cons i l ih => rw [List.flatMap_cons, List.map_append, List.sum_append, ih]; simp
  have hj : (0 : R) ≤ ((j 0).1 : R) := Nat.cast_nonneg _
  rw [hsplit, Finset.sum_eq_single 0]
  · have hT : faceTerm diffusion rule (G.flowCell u j) (G.face j 0 true) = 0 := by
      refine if_neg fun h => ?_
      have := h.2
      simp only [Grid.face, Grid.toGlobal, h0, if_true, Fin.insertNth_apply_same, zero_add] at this
      exact absurd this (by positivity)
    rw [hT, add_zero]
    unfold faceTerm
    have hc : ((G.face j 0 false).boundary = true ∧ (G.face j 0 false).centre 0 = 0) ↔ (j 0).1 = 0 := by
      simp only [Grid.face, Grid.toGlobal, h0]
      constructor
      · exact fun h => by simpa using h.1
      · exact fun h => by simp [h]
    simp only [hc]
    split_ifs
    · refine congrArg List.sum (List.map_congr_left fun q _ => ?_)
      rw [jacobian_slope]
      simp [Grid.face]
    · rfl
  · intro i _ hi
    have hne : ∀ b, faceTerm diffusion rule (G.flowCell u j) (G.face j i b) = 0 := fun b => by
      refine if_neg fun h => ?_
      have := h.2
      obtain ⟨m, hm⟩ := Fin.exists_succAbove_eq (Ne.symm hi)
      simp only [Grid.face, Grid.toGlobal, h0, zero_add] at this
      rw [← hm] at this
      simp only [Fin.insertNth_apply_succAbove] at this
      rw [hm] at this
      exact absurd this (by positivity)
    rw [hne, hne, add_zero]
  · simp

/-- the value computed for a discrete function -/
theorem flow_eq (G : Grid n R) (h0 : G.lower 0 = 0) (hw : 0 < G.width 0)
    (diffusion : (Fin (n + 1) → R) → Matrix (Fin (n + 1)) (Fin (n + 1)) R) (rule : List (FacePoint n R))
    (parts : List (List (CellIndex G.cells))) (hne : ∀ part ∈ parts, part ≠ []) (hnodup : parts.flatten.Nodup)
    (hall : ∀ j, j ∈ parts.flatten) (u : Node G.cells → R) :
    G.flow diffusion rule parts u = .ok (∑ j : CellIndex G.cells with (j 0).1 = 0,
      (rule.map fun q => -(q.weight * (∏ m : Fin n, G.width m.succ) *
        diffusion (G.toGlobal j (Fin.cons 0 q.pos)) 0 0 * slope G u j (G.toGlobal j (Fin.cons 0 q.pos)) 0)).sum) := by
  rw [Grid.flow, surfaceFlow_eq _ _ _ (by simpa using hne), ← List.map_flatten, List.map_map, Finset.sum_filter]
  congr 1
  have hmap : parts.flatten.map ((fun cell => (cell.faces.map (faceTerm diffusion rule cell)).sum) ∘ G.flowCell u) = _ :=
    List.map_congr_left fun j _ => faces_sum G h0 hw diffusion rule u j
  rw [hmap, ← List.sum_toFinset _ hnodup]
  exact Finset.sum_congr (by ext j; simp only [List.mem_toFinset, Finset.mem_univ, iff_true]; exact hall j) fun _ _ => rfl

/-- **C75** (partial) `surface_flow_gdt` computes the flow into the domain if the domain starts at zero, the first row of the
diffusion is diagonal on the left side, and the derivative of the function in the first direction is constant on each
cell at the left side.  The function has to be the one asked for (see `C75_violated_log`), and every process has interior cells. -/
theorem C75_flow_partial (G : Grid n R) (h0 : G.lower 0 = 0) (hw : 0 < G.width 0)
    (diffusion : (Fin (n + 1) → R) → Matrix (Fin (n + 1)) (Fin (n + 1)) R)
    (hdiag : ∀ x : Fin (n + 1) → R, x 0 = 0 → ∀ i, i ≠ 0 → diffusion x 0 i = 0) (rule : List (FacePoint n R))
    (parts : List (List (CellIndex G.cells))) (hne : ∀ part ∈ parts, part ≠ []) (hnodup : parts.flatten.Nodup)
    (hall : ∀ j, j ∈ parts.flatten) (u : Node G.cells → R)
    (hu : ∀ j : CellIndex G.cells, (j 0).1 = 0 → ∀ x y, slope G u j x 0 = slope G u j y 0) :
    G.flow diffusion rule parts u = .ok (inflow G diffusion rule u) := by
  rw [flow_eq G h0 hw diffusion rule parts hne hnodup hall u, inflow]
  congr 1
  refine Finset.sum_congr rfl fun j hj => congrArg List.sum (List.map_congr_left fun q _ => ?_)
  have hj0 := (Finset.mem_filter.mp hj).2
  dsimp only
  rw [Finset.sum_eq_single 0, hu j hj0 _ (Fin.cons 0 q.pos)]
  · change -(_ * _ * diffusion (fun i => G.lower i + (((j i).1 : R) + (Fin.cons 0 q.pos : Fin (n + 1) → R) i) * G.width i) 0 0 * _) = _
    ring
  · intro i _ hi
    rw [hdiag _ _ i hi, zero_mul, neg_zero]
    simp [h0, hj0]
  · simp

omit [IsStrictOrderedRing R] in
/-- **C75** (violated, the function) The value in the log is zero for every solution and every problem; a solution with unit slope
has the area of the left side as flow. -/
theorem C75_violated_log (G : Grid n R) (hw : ∀ i, 0 < G.width i) (rule : List (FacePoint n R))
    (hrule : (rule.map FacePoint.weight).sum = 1)
    (parts : List (List (CellIndex G.cells))) (hne : ∀ part ∈ parts, part ≠ []) :
    (∀ diffusion u, G.printFlow diffusion rule parts u = .ok 0) ∧
      ∃ u, inflow G (fun _ => 1) rule u = ∑ j : CellIndex G.cells with (j 0).1 = 0, ∏ m : Fin n, G.width m.succ := by
  constructor
  · intro diffusion u
    rw [Grid.printFlow, Grid.flow, surfaceFlow_eq _ _ _ (by simpa using hne), ← List.map_flatten, List.map_map]
    congr 1
    refine List.sum_eq_zero fun x hx => ?_
    obtain ⟨j, -, rfl⟩ := List.mem_map.mp hx
    refine List.sum_eq_zero fun x hx => ?_
    obtain ⟨face, -, rfl⟩ := List.mem_map.mp hx
    unfold faceTerm
    split_ifs
    · refine List.sum_eq_zero fun x hx => ?_
      obtain ⟨q, -, rfl⟩ := List.mem_map.mp hx
      simp [Grid.flowCell]
    · rfl
  · refine ⟨fun node => 0 - ((node 0).1 : R) * G.width 0, ?_⟩
    have hslope := slope_left G (hw 0).ne' 0
    refine Finset.sum_congr rfl fun j _ => ?_
    rw [List.map_congr_left (g := fun q => q.weight * ∏ m : Fin n, G.width m.succ) fun q _ => ?_, List.sum_map_mul_right, hrule, one_mul]
    dsimp only
    rw [Finset.sum_eq_single 0, hslope, Matrix.one_apply_eq]
    · ring
    · intro i _ hi
      rw [Matrix.one_apply_ne (Ne.symm hi), zero_mul, neg_zero]
    · simp

/-- The domain `(0, W) × (0, H)` as one coarse cell. -/
def oneCell (W H : R) : Grid 1 R := ⟨fun _ => 0, ![W, H], fun _ => 1⟩

/-- **C75** (violated, the position) Also for the right function the value is wrong unless it is affine on the cells at the left side: the
gradient is taken at the global position as if it were a position in the reference element.  For a nodal basis function on
one cell of height `H` the result is `1 - H / 2` instead of `1 / 2` times `H / W`: wrong if `H ≠ 1`, with the wrong sign if `2 < H`. -/
theorem C75_violated_position (W H : R) (hW : 0 < W) (rule : List (FacePoint 1 R))
    (hrule : (rule.map FacePoint.weight).sum = 1) (hmean : (rule.map fun q => q.weight * q.pos 0).sum = 1 / 2)
    (parts : List (List (CellIndex (oneCell W H).cells))) (hne : ∀ part ∈ parts, part ≠ []) (hnodup : parts.flatten.Nodup)
    (hall : ∀ j, j ∈ parts.flatten) :
    ∃ u, (oneCell W H).flow (fun _ => 1) rule parts u = .ok (H / W * (1 - H / 2)) ∧
      inflow (oneCell W H) (fun _ => 1) rule u = H / W * (1 / 2) := by
  have hw0 : (oneCell W H).width 0 = W := rfl
  have hw1 : (oneCell W H).width 1 = H := rfl
  refine ⟨fun node => if node = 0 then 1 else 0, ?_⟩
  have hval : ∀ (j : CellIndex (oneCell W H).cells) (x : Fin 2 → R),
      valueOf (fun node : Node (oneCell W H).cells => if node = 0 then (1 : R) else 0) j x = (1 - x 0) * (1 - x 1) := fun j x => by
    rw [valueOf, sum_corner fun v => (if cornerNode j v = 0 then (1 : R) else 0) * shape v x, Finset.sum_eq_single fun _ => false]
    · rw [if_pos, shape, Fin.prod_univ_two, one_mul]
      · rfl
      · funext i
        have := (j i).2
        change (j i).1 < 1 at this
        exact Fin.ext (by simp [cornerNode]; omega)
    · intro v _ hv
      rw [if_neg, zero_mul]
      intro h
      apply hv
      funext i
      have := congrArg Fin.val (congrFun h i)
      simp only [cornerNode] at this
      split_ifs at this with hvi
      · simp at this
      · simpa using hvi
    · simp
  have hslope : ∀ (j : CellIndex (oneCell W H).cells) (x : Fin 2 → R),
      slope (oneCell W H) (fun node => if node = 0 then (1 : R) else 0) j x 0 = -((1 - x 1) / W) := fun j x => by
    rw [slope, hval, hval, hw0]
    simp
    ring
  have hj : ∀ j : CellIndex (oneCell W H).cells, ∀ i, (j i).1 = 0 := fun j i => by
    have := (j i).2
    change (j i).1 < 1 at this
    omega
  have huniv : (Finset.univ.filter fun j : CellIndex (oneCell W H).cells => (j 0).1 = 0) = {fun _ => ⟨0, Nat.one_pos⟩} := by
    ext j
    simp only [Finset.mem_filter, Finset.mem_univ, true_and, Finset.mem_singleton]
    exact ⟨fun _ => funext fun i => Fin.ext (hj j i), fun _ => hj j 0⟩
  have hlin : ∀ a b : R, (rule.map fun q => q.weight * (a + b * q.pos 0)).sum = a + b * (1 / 2) := fun a b => by
    have : ∀ l : List (FacePoint 1 R), (l.map fun q => q.weight * (a + b * q.pos 0)).sum =
        a * (l.map FacePoint.weight).sum + b * (l.map fun q => q.weight * q.pos 0).sum := fun l => by
      induction l with
      | nil => simp
      | cons q l ih => simp only [List.map_cons, List.sum_cons, ih]; ring
    rw [this, hrule, hmean, mul_one]
  constructor
  · rw [flow_eq _ rfl (by rw [hw0]; exact hW) _ _ _ hne hnodup hall, huniv, Finset.sum_singleton]
    congr 1
    rw [List.map_congr_left (g := fun q => q.weight * (H / W + (-(H / W * H)) * q.pos 0)) fun q _ => ?_, hlin]
    · ring
    · rw [hslope]
      simp [Grid.toGlobal, oneCell]
      ring
  · rw [inflow, huniv, Finset.sum_singleton]
    rw [List.map_congr_left (g := fun q => q.weight * (H / W + (-(H / W)) * q.pos 0)) fun q _ => ?_, hlin]
    · ring
    · dsimp only
      rw [Fin.sum_univ_two, hslope]
      simp [oneCell]
      ring

end ordered

/-- Instances: the midpoint rule and one process satisfy the assumptions; the flow through the left side of `(0, 1) × (0, 3)` has the wrong sign. -/
example : ∃ u, (oneCell (1 : ℚ) 3).flow (fun _ => 1) [⟨fun _ => 1 / 2, 1⟩] [[fun _ => ⟨0, Nat.one_pos⟩]] u = .ok (-3 / 2) ∧
    inflow (oneCell (1 : ℚ) 3) (fun _ => 1) [⟨fun _ => 1 / 2, 1⟩] u = 3 / 2 := by
  obtain ⟨u, h1, h2⟩ := C75_violated_position (1 : ℚ) 3 one_pos [⟨fun _ => 1 / 2, 1⟩] (by simp) (by simp)
    [[fun _ => ⟨0, Nat.one_pos⟩]] (by simp) (by simp) (fun j => by
      have : j = fun _ => ⟨0, Nat.one_pos⟩ := funext fun i => Fin.ext (Nat.lt_one_iff.mp (j i).2)
      simp [this])
  exact ⟨u, by rw [h1]; norm_num, by rw [h2]; norm_num⟩

/-- Four cells, two processes, `u = 2 - x`, diffusion `diag (1 + y, 3)`: all assumptions of `C75_flow_partial` hold. -/
example (rule : List (FacePoint 1 ℚ)) :
    let G : Grid 1 ℚ := ⟨fun _ => 0, fun _ => 1, fun _ => 2⟩
    let parts : List (List (Fin 2 → Fin 2)) := [[![0, 0], ![0, 1]], [![1, 0], ![1, 1]]]
    let A : (Fin 2 → ℚ) → Matrix (Fin 2) (Fin 2) ℚ := fun x => !![1 + x 1, 0; 0, 3]
    G.flow A rule parts (fun node => 2 - ((node 0).1 : ℚ) * 1) =
      .ok (inflow G A rule fun node => 2 - ((node 0).1 : ℚ) * 1) := by
  intro G parts A
  refine C75_flow_partial G rfl one_pos A ?_ rule parts ?_ ?_ ?_ _ ?_
  · intro x _ i hi
    fin_cases i
    · exact absurd rfl hi
    · rfl
  · simp [parts]
  · decide
  · change ∀ j : Fin 2 → Fin 2, j ∈ parts.flatten
    decide
  · intro j _ x y
    exact (slope_left G one_ne_zero 2 j x).trans (slope_left G one_ne_zero 2 j y).symm

end Verif.Flow
