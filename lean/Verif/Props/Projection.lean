import Verif.Model.Projection
import Mathlib.Data.List.Perm.Basic
import Mathlib.Algebra.BigOperators.Group.List.Basic
import Mathlib.Algebra.Field.Rat
import Mathlib.Algebra.Order.Ring.Rat
import Mathlib.Algebra.CharZero.Defs
import Mathlib.Data.Nat.Cast.Basic
import Mathlib.Tactic.NormNum
import Mathlib.Tactic.Ring
import Mathlib.Tactic.FinCases
import Mathlib.Data.Fintype.Basic
import Mathlib.Tactic.FieldSimp

/-!
# C28: projection to the fine grid
-/

namespace Verif.Projection

variable {ι R : Type} [DecidableEq ι] [Field R]

/-- Specification: the number of elements that contain a node. -/
def multiplicity (elems : List (Elem ι R)) (i : ι) : ℕ := elems.countP fun e => decide (i ∈ e.nodes)

/-- Specification: the multiscale solution has the single value `u i` at node `i`, found from every
interior element; elements list each of their nodes once. -/
structure SingleValued (u : ι → R) (elems : List (Elem ι R)) : Prop where
  values : ∀ e ∈ elems, e.interior = true → e.values = e.nodes.map fun i => some (u i)
  nodup : ∀ e ∈ elems, e.nodes.Nodup

section lemmas

theorem pointLoop_overwrite (u : ι → R) (nodes : List ι) (v : ι → R) :
    pointLoop .overwrite nodes (nodes.map fun i => some (u i)) v =
      .ok fun j => if j ∈ nodes then u j else v j := by
  induction nodes generalizing v with
  | nil => simp [pointLoop]
  | cons i nodes ih =>
    rw [List.map_cons, pointLoop, ih]
    congr 1
    funext j
    by_cases h : j ∈ nodes
    · simp [h]
    · by_cases hj : j = i
      · subst hj; simp [h, write]
      · simp [h, hj, write]

theorem pointLoop_accumulate (u : ι → R) (nodes : List ι) (hn : nodes.Nodup) (v : ι → R) :
    pointLoop .accumulate nodes (nodes.map fun i => some (u i)) v =
      .ok fun j => if j ∈ nodes then v j + u j else v j := by
  induction nodes generalizing v with
  | nil => simp [pointLoop]
  | cons i nodes ih =>
    rw [List.nodup_cons] at hn
    rw [List.map_cons, pointLoop, ih hn.2]
    congr 1
    funext j
    by_cases h : j ∈ nodes
    · have hj : j ≠ i := fun e => hn.1 (e ▸ h)
      simp [h, hj, write]
    · by_cases hj : j = i
      · subst hj; simp [h, write]
      · simp [h, hj, write]

theorem walk_overwrite (u : ι → R) (es : List (Elem ι R)) (h : SingleValued u es) (v : ι → R) :
    walk .overwrite es v =
      .ok fun j => if ∃ e ∈ es, e.interior = true ∧ j ∈ e.nodes then u j else v j := by
  induction es generalizing v with
  | nil => simp [walk]
  | cons e es ih =>
    have h' : SingleValued u es :=
      ⟨fun e he => h.values e (List.mem_cons_of_mem _ he), fun e he => h.nodup e (List.mem_cons_of_mem _ he)⟩
    rw [walk]
    by_cases hi : e.interior = true
    · rw [if_pos hi, h.values e List.mem_cons_self hi, pointLoop_overwrite, Outcome.ok_bind, ih h']
      congr 1
      funext j
      by_cases h1 : ∃ e ∈ es, e.interior = true ∧ j ∈ e.nodes
      · simp only [h1, if_true, List.mem_cons, exists_eq_or_imp, or_true]
      · simp only [h1, if_false, List.mem_cons, exists_eq_or_imp, or_false, hi, true_and]
    · rw [if_neg hi, ih h']
      congr 1
      funext j
      simp only [List.mem_cons, exists_eq_or_imp, hi, false_and, false_or, Bool.false_eq_true]

theorem walk_accumulate (u : ι → R) (es : List (Elem ι R)) (h : SingleValued u es) (v : ι → R) :
    walk .accumulate es v =
      .ok fun j => v j + (multiplicity (es.filter (·.interior)) j : R) * u j := by
  induction es generalizing v with
  | nil => simp [walk, multiplicity]
  | cons e es ih =>
    have h' : SingleValued u es :=
      ⟨fun e he => h.values e (List.mem_cons_of_mem _ he), fun e he => h.nodup e (List.mem_cons_of_mem _ he)⟩
    rw [walk]
    by_cases hi : e.interior = true
    · rw [if_pos hi, h.values e List.mem_cons_self hi,
        pointLoop_accumulate _ _ (h.nodup e List.mem_cons_self), Outcome.ok_bind, ih h']
      congr 1
      funext j
      unfold multiplicity
      rw [List.filter_cons_of_pos hi, List.countP_cons]
      by_cases h1 : j ∈ e.nodes
      · simp only [h1, if_true, decide_true, Nat.cast_add, Nat.cast_one]
        ring
      · simp only [h1, if_false, decide_false, Bool.false_eq_true, Nat.add_zero]
    · rw [if_neg hi, ih h']
      congr 1
      funext j
      rw [List.filter_cons_of_neg hi]

omit [Field R] in
theorem countLoop (nodes : List ι) (hn : nodes.Nodup) (c : ι → ℕ) (j : ι) :
    nodes.foldl (fun c i => fun j => if j = i then c j + 1 else c j) c j =
      c j + if j ∈ nodes then 1 else 0 := by
  induction nodes generalizing c with
  | nil => simp
  | cons i nodes ih =>
    rw [List.nodup_cons] at hn
    rw [List.foldl_cons, ih hn.2]
    by_cases hj : j = i
    · subst hj; simp [hn.1]
    · simp [hj]

omit [Field R] in
/-- `identifySharedNodes` counts the elements around each node. -/
theorem identifySharedNodes_eq (elems : List (Elem ι R)) (hn : ∀ e ∈ elems, e.nodes.Nodup) (j : ι) :
    identifySharedNodes elems j = multiplicity elems j := by
  have : ∀ c : ι → ℕ, elems.foldl
      (fun c e => e.nodes.foldl (fun c i => fun j => if j = i then c j + 1 else c j) c) c j =
      c j + multiplicity elems j := by
    induction elems with
    | nil => simp [multiplicity]
    | cons e es ih =>
      intro c
      rw [List.foldl_cons, ih (fun e he => hn e (List.mem_cons_of_mem _ he)),
        countLoop _ (hn e List.mem_cons_self)]
      unfold multiplicity
      rw [List.countP_cons]
      simp only [decide_eq_true_eq]
      omega
  unfold identifySharedNodes
  rw [this]
  simp

end lemmas

/-! ## What the code computes -/

/-- **C28** (partial: exact result) The projection returns, for every order of the walk and previous
content, the nodal value divided by the number of elements around the node (zero
at nodes without an interior element).  Missing: the division is wrong, see below. -/
theorem C28_projection_result_partial (u : ι → R) (order elems : List (Elem ι R)) (hp : order.Perm elems)
    (h : SingleValued u elems) (old : ι → R) :
    project .overwrite order elems old = .ok fun j =>
      (if ∃ e ∈ elems, e.interior = true ∧ j ∈ e.nodes then u j else 0) / (multiplicity elems j : R) := by
  have h' : SingleValued u order :=
    ⟨fun e he => h.values e (hp.mem_iff.mp he), fun e he => h.nodup e (hp.mem_iff.mp he)⟩
  unfold project
  rw [walk_overwrite u order h', Outcome.ok_bind]
  congr 1
  funext j
  unfold postprocess
  rw [identifySharedNodes_eq elems h.nodup]
  simp only [hp.mem_iff, mul_zero]

/-- **C28 is violated** wherever a node is shared: the result at a node of an interior element is the nodal value
exactly if that value is zero or only one element contains the node. -/
theorem C28_violated [CharZero R] (u : ι → R) (order elems : List (Elem ι R)) (hp : order.Perm elems)
    (h : SingleValued u elems) (old w : ι → R) (hw : project .overwrite order elems old = .ok w) (j : ι)
    (hj : ∃ e ∈ elems, e.interior = true ∧ j ∈ e.nodes) :
    w j = u j ↔ u j = 0 ∨ multiplicity elems j = 1 := by
  rw [C28_projection_result_partial u order elems hp h] at hw
  injection hw with hw
  subst hw
  show (if ∃ e ∈ elems, e.interior = true ∧ j ∈ e.nodes then u j else 0) / _ = u j ↔ _
  rw [if_pos hj]
  have hpos : 0 < multiplicity elems j := by
    obtain ⟨e, he, -, hje⟩ := hj
    exact List.countP_pos_iff.mpr ⟨e, he, by simpa using hje⟩
  have hne : (multiplicity elems j : R) ≠ 0 := Nat.cast_ne_zero.mpr (by omega)
  rw [div_eq_iff hne]
  constructor
  · intro e
    by_cases h0 : u j = 0
    · exact Or.inl h0
    · right
      have : (multiplicity elems j : R) = 1 := by
        have e' : u j * 1 = u j * (multiplicity elems j : R) := by rw [mul_one]; exact e
        exact (mul_left_cancel₀ h0 e').symm
      exact_mod_cast this
  · rintro (h0 | h1)
    · rw [h0, zero_mul]
    · rw [h1]; simp

/-- Two elements of a one-dimensional grid with three nodes; the multiscale solution is the constant 1. -/
def demo : List (Elem (Fin 3) ℚ) :=
  [⟨true, [0, 1], [some 1, some 1]⟩, ⟨true, [1, 2], [some 1, some 1]⟩]

theorem demo_single : SingleValued (fun _ => 1) demo := by
  constructor
  · intro e he _
    simp only [demo, List.mem_cons, List.not_mem_nil, or_false] at he
    rcases he with rfl | rfl <;> rfl
  · intro e he
    simp only [demo, List.mem_cons, List.not_mem_nil, or_false] at he
    rcases he with rfl | rfl <;> decide

/-- **C28 is violated**, witness: the constant 1 becomes 1/2 at the inner node. -/
theorem C28_violated_constant :
    ∃ w, project .overwrite demo demo (fun _ => 7) = .ok w ∧ w 1 = 1 / 2 := by
  refine ⟨_, C28_projection_result_partial (fun _ => 1) demo demo (List.Perm.refl _) demo_single _, ?_⟩
  rw [if_pos ⟨⟨true, [0, 1], [some 1, some 1]⟩, by simp [demo], rfl, by simp⟩]
  have : multiplicity demo 1 = 2 := by decide
  rw [this]
  norm_num

/-- **C28** (conditional) If writing a coefficient accumulated instead of overwriting, the projection would
give the nodal values: at every node all of whose elements are interior. -/
theorem C28_projection_accumulating [CharZero R] (u : ι → R) (order elems : List (Elem ι R))
    (hp : order.Perm elems) (h : SingleValued u elems) (old : ι → R) :
    ∃ w, project .accumulate order elems old = .ok w ∧
      ∀ j, (∃ e ∈ elems, j ∈ e.nodes) → (∀ e ∈ elems, j ∈ e.nodes → e.interior = true) → w j = u j := by
  have h' : SingleValued u order :=
    ⟨fun e he => h.values e (hp.mem_iff.mp he), fun e he => h.nodup e (hp.mem_iff.mp he)⟩
  refine ⟨_, by unfold project; rw [walk_accumulate u order h', Outcome.ok_bind], ?_⟩
  intro j ⟨e, he, hje⟩ hint
  unfold postprocess
  rw [identifySharedNodes_eq elems h.nodup]
  simp only [mul_zero, zero_add]
  have hm : multiplicity (order.filter (·.interior)) j = multiplicity elems j := by
    unfold multiplicity
    rw [List.countP_filter, ← hp.countP_eq]
    apply List.countP_congr
    intro e he
    constructor
    · intro h; simp only [Bool.and_eq_true] at h; exact h.1
    · intro h
      simp only [Bool.and_eq_true]
      exact ⟨h, hint e (hp.mem_iff.mp he) (by simpa using h)⟩
  rw [hm]
  have hpos : 0 < multiplicity elems j := List.countP_pos_iff.mpr ⟨e, he, by simpa using hje⟩
  have hne : (multiplicity elems j : R) ≠ 0 := Nat.cast_ne_zero.mpr (by omega)
  field_simp

/-- A point that is not found is reported: the projection returns only if every value was found. -/
theorem C28_missing_point_throws (m : WriteMode) (order elems : List (Elem ι R)) (old : ι → R)
    (hlen : ∀ e ∈ order, e.interior = true → e.values.length = e.nodes.length)
    (e : Elem ι R) (he : e ∈ order) (hi : e.interior = true) (hnone : none ∈ e.values) :
    project m order elems old = .throw := by
  have hpl : ∀ (nodes : List ι) (values : List (Option R)) (v : ι → R), values.length = nodes.length →
      (none ∈ values → pointLoop m nodes values v = .throw) ∧
      (none ∉ values → ∃ w, pointLoop m nodes values v = .ok w) := by
    intro nodes
    induction nodes with
    | nil =>
      intro values v hl
      rw [List.length_nil, List.length_eq_zero_iff] at hl
      subst hl
      exact ⟨by simp, fun _ => ⟨v, rfl⟩⟩
    | cons i nodes ih =>
      intro values v hl
      cases values with
      | nil => simp at hl
      | cons x values =>
        cases x with
        | none => exact ⟨fun _ => rfl, fun h => absurd List.mem_cons_self h⟩
        | some x =>
          have := ih values (write m v i x) (by simpa using hl)
          refine ⟨fun h => ?_, fun h => ?_⟩
          · rw [pointLoop]; exact this.1 (by simpa using h)
          · rw [pointLoop]; exact this.2 (by simpa using h)
  have hw : ∀ (es : List (Elem ι R)) (v : ι → R),
      (∀ e ∈ es, e.interior = true → e.values.length = e.nodes.length) → e ∈ es →
      walk m es v = .throw := by
    intro es
    induction es with
    | nil => intro v _ h; cases h
    | cons e' es ih =>
      intro v hl hmem
      rw [walk]
      by_cases hi' : e'.interior = true
      · rw [if_pos hi']
        have hpl' := hpl e'.nodes e'.values v (hl e' List.mem_cons_self hi')
        by_cases hno : none ∈ e'.values
        · rw [hpl'.1 hno, Outcome.throw_bind]
        · obtain ⟨w, hw⟩ := hpl'.2 hno
          rw [hw, Outcome.ok_bind]
          apply ih _ (fun e he => hl e (List.mem_cons_of_mem _ he))
          rcases List.mem_cons.mp hmem with rfl | h
          · exact absurd hnone hno
          · exact h
      · rw [if_neg hi']
        apply ih _ (fun e he => hl e (List.mem_cons_of_mem _ he))
        rcases List.mem_cons.mp hmem with rfl | h
        · exact absurd hi hi'
        · exact h
  unfold project
  rw [hw order _ hlen he, Outcome.throw_bind]

theorem pointLoop_lengths (m : WriteMode) (nodes : List ι) (values : List (Option R)) (v : ι → R) :
    (∀ w, pointLoop m nodes values v = .ok w → values.length = nodes.length) ∧
    (values.length = nodes.length → pointLoop m nodes values v ≠ .ub) := by
  induction nodes generalizing values v with
  | nil => cases values <;> simp [pointLoop]
  | cons i nodes ih =>
    cases values with
    | nil => simp [pointLoop]
    | cons x values =>
      cases x with
      | none => simp [pointLoop]
      | some x => simpa [pointLoop] using ih values (write m v i x)

/-- **C28** (definedness) The projection stays within its arrays if the search answers with as many elements as points for
every interior element, and returns normally only in this case. -/
theorem C28_defined (m : WriteMode) (order elems : List (Elem ι R)) (old : ι → R) :
    ((∀ e ∈ order, e.interior = true → e.values.length = e.nodes.length) → project m order elems old ≠ .ub) ∧
    (∀ w, project m order elems old = .ok w → ∀ e ∈ order, e.interior = true → e.values.length = e.nodes.length) := by
  have hw : ∀ (es : List (Elem ι R)) (v : ι → R),
      ((∀ e ∈ es, e.interior = true → e.values.length = e.nodes.length) → walk m es v ≠ .ub) ∧
      (∀ w, walk m es v = .ok w → ∀ e ∈ es, e.interior = true → e.values.length = e.nodes.length) := by
    intro es
    induction es with
    | nil => intro v; simp [walk]
    | cons e es ih =>
      intro v
      rw [walk]
      by_cases hi : e.interior = true
      · rw [if_pos hi]
        obtain ⟨p1, p2⟩ := pointLoop_lengths m e.nodes e.values v
        cases hp : pointLoop m e.nodes e.values v with
        | ok w0 =>
          rw [Outcome.ok_bind]
          refine ⟨fun h => (ih w0).1 fun e' he' => h e' (List.mem_cons_of_mem _ he'), fun w hwk e' he' hi' => ?_⟩
          rcases List.mem_cons.mp he' with rfl | he'
          · exact p1 w0 hp
          · exact (ih w0).2 w hwk e' he' hi'
        | throw => rw [Outcome.throw_bind]; exact ⟨fun _ h => (by cases h), fun w h => (by cases h)⟩
        | ub =>
          exact ⟨fun h => absurd hp (p2 (h e List.mem_cons_self hi)), fun w h => (by rw [Outcome.ub_bind] at h; cases h)⟩
      · rw [if_neg hi]
        refine ⟨fun h => (ih v).1 fun e' he' => h e' (List.mem_cons_of_mem _ he'), fun w hwk e' he' hi' => ?_⟩
        rcases List.mem_cons.mp he' with rfl | he'
        · exact absurd hi' hi
        · exact (ih v).2 w hwk e' he' hi'
  obtain ⟨w1, w2⟩ := hw order (fun i => old i * 0)
  unfold project
  cases hwk : walk m order (fun i => old i * 0) with
  | ok v => rw [Outcome.ok_bind]; exact ⟨fun _ h => (by cases h), fun w _ => w2 v hwk⟩
  | throw => rw [Outcome.throw_bind]; exact ⟨fun _ h => (by cases h), fun w h => (by cases h)⟩
  | ub => exact ⟨fun h => absurd hwk (w1 h), fun w h => (by rw [Outcome.ub_bind] at h; cases h)⟩

/-- Hypotheses met: see `demo_single`; a missing point: -/
example : ∃ e ∈ [(⟨true, [0, 1], [some 1, none]⟩ : Elem (Fin 3) ℚ)], e.interior = true ∧ none ∈ e.values ∧
    e.values.length = e.nodes.length := ⟨_, List.mem_singleton_self _, rfl, by simp, rfl⟩

/-- C28 (conditional): in `demo` every node has an element and all elements are interior. -/
example : (∀ j, ∃ e ∈ demo, j ∈ e.nodes) ∧ (∀ e ∈ demo, e.interior = true) := by
  constructor
  · intro j
    fin_cases j
    · exact ⟨⟨true, [0, 1], [some 1, some 1]⟩, by simp [demo], by simp⟩
    · exact ⟨⟨true, [0, 1], [some 1, some 1]⟩, by simp [demo], by simp⟩
    · exact ⟨⟨true, [1, 2], [some 1, some 1]⟩, by simp [demo], by simp⟩
  · intro e he
    simp only [demo, List.mem_cons, List.not_mem_nil, or_false] at he
    rcases he with rfl | rfl <;> rfl

/-- **C28** (numbers of nodes and values) The loop over the points of an element reads outside of its lists exactly if nodes and values have different
numbers and no point before the end of the shorter list is missing. -/
theorem C28_out_of_bounds (m : WriteMode) (nodes : List ι) (values : List (Option R)) (v : ι → R) :
    pointLoop m nodes values v = .ub ↔ nodes.length ≠ values.length ∧ none ∉ values.take nodes.length := by
  induction nodes generalizing values v with
  | nil => cases values <;> simp [pointLoop]
  | cons i nodes ih =>
    cases values with
    | nil => simp [pointLoop]
    | cons x values =>
      cases x with
      | none => simp [pointLoop]
      | some x => simp [pointLoop, ih]

end Verif.Projection
