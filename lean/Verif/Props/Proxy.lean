import Verif.Model.Proxy
import Verif.Model.GridCreation
import Verif.Props.Search
import Verif.Props.Projection
import Verif.Props.Boundary
import Mathlib.Tactic.Linarith
import Mathlib.Tactic.FieldSimp

/-!
# C62, C63, C64: evaluation and projection of the multiscale solution
-/

namespace Verif.Proxy
open Verif.LocalGrid Verif.GridCreation

/-! ## C62: the covering coarse cell -/

/-- The points of fine cell `j`: they lie in the cell, and in each direction both ends occur (the corners of the
cell have this property). -/
structure PointsOf {d : ℕ} (g : CubeGrid d) (j : Fin d → ℕ) (points : List (Fin d → ℚ)) : Prop where
  inside : ∀ p ∈ points, ∀ i, g.cellLo i (j i) ≤ p i ∧ p i ≤ g.cellHi i (j i)
  lower : ∀ i, ∃ p ∈ points, p i = g.cellLo i (j i)
  upper : ∀ i, ∃ p ∈ points, p i = g.cellHi i (j i)

/-- **C62** (the cell) Of all coarse cells exactly the one which contains the fine cell covers its nodes, for any tolerance
below the relative width of a fine cell. -/
theorem C62_covering_cell {d : ℕ} (p : Params d) (hdom : ∀ i, p.lowerLeft i < p.upperRight i)
    (hcc : ∀ i, 0 < p.coarseCells i) (hm : ∀ i, 0 < p.microPerMacro i) (tol : ℚ) (h0 : 0 ≤ tol)
    (htol : ∀ i, tol * p.microPerMacro i < 1) (j c : Fin d → ℕ) (points : List (Fin d → ℚ))
    (hp : PointsOf (fineGrid p) j points) :
    coversStrict tol (coarseGrid p) c points = true ↔ c = fun i => j i / p.microPerMacro i := by
  -- positions relative to the coarse width `H`
  have hH : ∀ i, 0 < (p.upperRight i - p.lowerLeft i) / (p.coarseCells i : ℚ) := fun i =>
    div_pos (sub_pos.mpr (hdom i)) (Nat.cast_pos.mpr (hcc i))
  have hmq : ∀ i, (0 : ℚ) < p.microPerMacro i := fun i => Nat.cast_pos.mpr (hm i)
  have hlo : ∀ i, (fineGrid p).cellLo i (j i) =
      p.lowerLeft i + (j i : ℚ) / p.microPerMacro i * ((p.upperRight i - p.lowerLeft i) / (p.coarseCells i : ℚ)) := fun i => by
    have := (hmq i).ne'
    have : (p.coarseCells i : ℚ) ≠ 0 := Nat.cast_ne_zero.mpr (hcc i).ne'
    simp only [CubeGrid.cellLo, fineGrid, Nat.cast_mul]
    field_simp
  have hhi : ∀ i, (fineGrid p).cellHi i (j i) =
      p.lowerLeft i + ((j i : ℚ) + 1) / p.microPerMacro i * ((p.upperRight i - p.lowerLeft i) / (p.coarseCells i : ℚ)) := fun i => by
    have := (hmq i).ne'
    have : (p.coarseCells i : ℚ) ≠ 0 := Nat.cast_ne_zero.mpr (hcc i).ne'
    simp only [CubeGrid.cellHi, fineGrid, Nat.cast_mul]
    field_simp
  have hw : ∀ i k, (coarseGrid p).cellHi i k - (coarseGrid p).cellLo i k =
      (p.upperRight i - p.lowerLeft i) / (p.coarseCells i : ℚ) := fun i k => by
    simp only [CubeGrid.cellHi, CubeGrid.cellLo, coarseGrid]; ring
  have hxi : ∀ i k (t : ℚ), (p.lowerLeft i + t * ((p.upperRight i - p.lowerLeft i) / (p.coarseCells i : ℚ)) -
      (coarseGrid p).cellLo i k) / ((coarseGrid p).cellHi i k - (coarseGrid p).cellLo i k) = t - k := fun i k t => by
    rw [hw, div_eq_iff (hH i).ne']
    simp only [CubeGrid.cellLo, coarseGrid]; ring
  constructor
  · intro h
    simp only [coversStrict, List.all_eq_true, decide_eq_true_eq] at h
    funext i
    obtain ⟨a, ha, ea⟩ := hp.lower i
    obtain ⟨b, hb, eb⟩ := hp.upper i
    have h1 := (h a ha i).1
    have h2 := (h b hb i).2
    rw [ea, hlo, hxi] at h1
    rw [eb, hhi, hxi] at h2
    have k1 : ((c i * p.microPerMacro i : ℕ) : ℚ) < (j i : ℚ) + 1 := by
      push_cast
      have : (j i : ℚ) = (j i : ℚ) / p.microPerMacro i * p.microPerMacro i := by field_simp [(hmq i).ne']
      have h3 := mul_le_mul_of_nonneg_right h1 (hmq i).le
      rw [sub_mul, ← this] at h3
      linarith [htol i]
    have k2 : (j i : ℚ) + 1 < ((c i + 1) * p.microPerMacro i + 1 : ℕ) := by
      push_cast
      have : (j i : ℚ) + 1 = ((j i : ℚ) + 1) / p.microPerMacro i * p.microPerMacro i := by field_simp [(hmq i).ne']
      have h3 := mul_le_mul_of_nonneg_right h2 (hmq i).le
      rw [sub_mul, ← this] at h3
      linarith [htol i]
    have k1' : c i * p.microPerMacro i < j i + 1 := by exact_mod_cast k1
    have k2' : j i + 1 < (c i + 1) * p.microPerMacro i + 1 := by exact_mod_cast k2
    symm
    rw [Nat.div_eq_iff (hm i)]
    constructor
    · omega
    · have : (c i + 1) * p.microPerMacro i = c i * p.microPerMacro i + p.microPerMacro i := by ring
      omega
  · rintro rfl
    simp only [coversStrict, List.all_eq_true, decide_eq_true_eq]
    intro x hx i
    obtain ⟨h1, h2⟩ := hp.inside x hx i
    have e1 : (x i - (coarseGrid p).cellLo i (j i / p.microPerMacro i)) /
        ((coarseGrid p).cellHi i (j i / p.microPerMacro i) - (coarseGrid p).cellLo i (j i / p.microPerMacro i)) =
        (x i - p.lowerLeft i) / ((p.upperRight i - p.lowerLeft i) / (p.coarseCells i : ℚ)) - (j i / p.microPerMacro i : ℕ) := by
      rw [← hxi]
      congr 2
      rw [div_mul_cancel₀ _ (hH i).ne']
      ring
    rw [e1]
    rw [hlo] at h1
    rw [hhi] at h2
    have a1 : (j i : ℚ) / p.microPerMacro i ≤ (x i - p.lowerLeft i) / ((p.upperRight i - p.lowerLeft i) / (p.coarseCells i : ℚ)) := by
      rw [le_div_iff₀ (hH i)]; linarith
    have a2 : (x i - p.lowerLeft i) / ((p.upperRight i - p.lowerLeft i) / (p.coarseCells i : ℚ)) ≤ ((j i : ℚ) + 1) / p.microPerMacro i := by
      rw [div_le_iff₀ (hH i)]; linarith
    have b1 : ((j i / p.microPerMacro i : ℕ) : ℚ) ≤ (j i : ℚ) / p.microPerMacro i := by
      rw [le_div_iff₀ (hmq i)]
      exact_mod_cast Nat.div_mul_le_self _ _
    have b2 : ((j i : ℚ) + 1) / p.microPerMacro i ≤ ((j i / p.microPerMacro i : ℕ) : ℚ) + 1 := by
      rw [div_le_iff₀ (hmq i)]
      have : j i + 1 ≤ (j i / p.microPerMacro i + 1) * p.microPerMacro i := by
        have := Nat.lt_div_mul_add (a := j i) (hm i)
        rw [add_mul]; omega
      exact_mod_cast this
    constructor <;> linarith

/-- Instance of the hypotheses: the two nodes of an interval. -/
example : PointsOf (fineGrid (⟨fun _ => 0, fun _ => 1, fun _ => 2, fun _ => 2, 0, 1⟩ : Params 1)) (fun _ => 1)
    [fun _ => 1 / 4, fun _ => 1 / 2] := by
  have e1 : ∀ i, (fineGrid (⟨fun _ => 0, fun _ => 1, fun _ => 2, fun _ => 2, 0, 1⟩ : Params 1)).cellLo i 1 = 1 / 4 := by
    intro i; norm_num [CubeGrid.cellLo, fineGrid]
  have e2 : ∀ i, (fineGrid (⟨fun _ => 0, fun _ => 1, fun _ => 2, fun _ => 2, 0, 1⟩ : Params 1)).cellHi i 1 = 1 / 2 := by
    intro i; norm_num [CubeGrid.cellHi, fineGrid]
  constructor
  · intro x hx i
    rw [e1, e2]
    simp only [List.mem_cons, List.not_mem_nil, or_false] at hx
    rcases hx with rfl | rfl <;> norm_num
  · intro i
    exact ⟨fun _ => 1 / 4, by simp, (e1 i).symm⟩
  · intro i
    exact ⟨fun _ => 1 / 2, by simp, (e2 i).symm⟩

/-! ## C62: evaluation -/

section
variable {F P E R ι : Type} [DecidableEq ι] [Field R]

omit [Field R] in
theorem values_found (corr : List (ℕ × F)) (index : ℕ → ℕ) (eval : F → E → P → R) (s : Search.State) (c : ℕ)
    (hs : s.current = some c) (f : F) (hf : corr.lookup (index c) = some f) (contains : E → P → Prop) (u : P → R)
    (hu : ∀ e p, contains e p → eval f e p = u p) (es : List E) (points : List P) (h : List.Forall₂ contains es points) :
    values corr index eval s points (es.map some) = .ok (points.map fun p => some (u p)) := by
  induction h with
  | nil => rfl
  | cons h _ ih =>
    rw [List.map_cons, values, ih]
    simp [localFunction, hs, hf, hu _ _ h]

/-- What the projection relies on.  `cell e` is the position of the coarse cell that contains the fine element, `u c` the
reconstructed solution on cell `c`, which is stored as `f c` and is continuous on its local grid. -/
structure Setting (env : Search.Env P E) (corr : List (ℕ × F)) (index : ℕ → ℕ) (eval : F → E → P → R)
    (contains : ℕ → E → P → Prop) (f : ℕ → F) (u : ℕ → P → R) (cell : FineElem ι P → ℕ) (elems : List (FineElem ι P)) : Prop where
  nonempty : 0 < env.n
  size : 2 ≤ env.viewSize
  stored : ∀ c < env.n, corr.lookup (index c) = some (f c)
  value : ∀ c < env.n, ∀ e p, contains c e p → eval (f c) e p = u c p
  cover : ∀ e ∈ elems, e.interior = true → ∀ c < env.n, (env.covers c e.points = true ↔ c = cell e)
  inRange : ∀ e ∈ elems, e.interior = true → cell e < env.n
  complete : ∀ e ∈ elems, e.interior = true → Search.LocalSearchComplete env contains e.points
  points : ∀ e ∈ elems, e.interior = true → e.points ≠ []

variable {env : Search.Env P E} {corr : List (ℕ × F)} {index : ℕ → ℕ} {eval : F → E → P → R}
  {contains : ℕ → E → P → Prop} {f : ℕ → F} {u : ℕ → P → R} {cell : FineElem ι P → ℕ} {elems : List (FineElem ι P)}

omit [DecidableEq ι] [Field R] in
/-- **C62** For every history of the search object the values computed on a fine element are those of the
reconstructed solution of the coarse cell that contains the element. -/
theorem C62_element_values (hset : Setting env corr index eval contains f u cell elems) (s : Search.State)
    (hs : Search.Reachable env s) (e : FineElem ι P) (he : e ∈ elems) (hi : e.interior = true) :
    ∃ s', Search.Reachable env s' ∧
      elementValues env corr index eval s e.points = .ok (e.points.map fun p => some (u (cell e) p), s') := by
  obtain ⟨ents, s', hcall⟩ := Search.C09_succeeds env contains hset.size hset.nonempty s hs e.points (hset.complete e he hi)
    ⟨cell e, hset.inRange e he hi, (hset.cover e he hi _ (hset.inRange e he hi)).mpr rfl⟩
  obtain ⟨c, es, hc, hcn, hcov, rfl, hall⟩ :=
    Search.C08_search_elements env contains s s' e.points ents (hset.points e he hi) (hset.complete e he hi) hcall
  have : c = cell e := (hset.cover e he hi c hcn).mp hcov
  subst this
  refine ⟨s', hs.call hcall, ?_⟩
  simp only [elementValues, hcall]
  rw [values_found corr index eval s' _ hc (f (cell e)) (hset.stored _ hcn) (contains (cell e)) (u (cell e))
    (hset.value _ hcn) es e.points hall]
  rfl

omit [DecidableEq ι] [Field R] in
theorem values_zip (s : Search.State) (c : ℕ) (hs : s.current = some c) (g : F) (hg : corr.lookup (index c) = some g)
    (points : List P) (ents : List (Option E)) (hl : points.length = ents.length) :
    values corr index eval s points ents = .ok (List.zipWith (fun p e => e.map fun e => eval g e p) points ents) := by
  induction points generalizing ents with
  | nil =>
    cases ents with
    | nil => rfl
    | cons => cases hl
  | cons p ps ih =>
    cases ents with
    | nil => cases hl
    | cons e es =>
      have := ih es (by simpa using hl)
      cases e <;> simp [values, this, localFunction, hs, hg]

theorem pointLoop_none (m : Projection.WriteMode) (nodes : List ι) (vals : List (Option R)) (v : ι → R)
    (hl : nodes.length = vals.length) (h : none ∈ vals) : Projection.pointLoop m nodes vals v = .throw := by
  induction nodes generalizing vals v with
  | nil =>
    cases vals with
    | nil => cases h
    | cons => cases hl
  | cons i nodes ih =>
    cases vals with
    | nil => cases hl
    | cons x vals =>
      cases x with
      | none => rfl
      | some x =>
        rw [Projection.pointLoop]
        exact ih _ _ (by simpa using hl) (by simpa using h)

/-- **C62** (failures are reported) If the search finds no element for some node of an interior element, or finds them in a
coarse cell without a correction, the projection throws: it does not continue with values of other nodes or cells. -/
theorem C62_failure_throws (order : List (ℕ × FineElem ι P)) (t : ℕ) (e : FineElem ι P) (hi : e.interior = true)
    (hnodes : e.nodes.length = e.points.length) (st : ℕ → Search.State) (v : ι → R) (ents : List (Option E))
    (s' : Search.State) (hcall : Search.call env (st t) e.points = .ok ents s') (hl : e.points.length = ents.length)
    (c : ℕ) (hc : s'.current = some c) :
    (none ∈ ents → (∃ g, corr.lookup (index c) = some g) → walk env corr index eval ((t, e) :: order) st v = .throw) ∧
    (corr.lookup (index c) = none → (∃ x, some x ∈ ents) → walk env corr index eval ((t, e) :: order) st v = .throw) := by
  constructor
  · rintro hnone ⟨g, hg⟩
    rw [walk, if_pos hi]
    simp only [elementValues, hcall]
    rw [values_zip s' c hc g hg _ _ hl]
    simp only [Outcome.ok_bind]
    rw [pointLoop_none]
    · rfl
    · simp [hnodes, hl]
    · obtain ⟨k, hk, hke⟩ := List.getElem_of_mem hnone
      rw [List.mem_iff_getElem]
      refine ⟨k, by simp [hl, hk], ?_⟩
      rw [List.getElem_zipWith, hke]
      rfl
  · rintro hg ⟨x, hx⟩
    rw [walk, if_pos hi]
    have : values corr index eval s' e.points ents = .throw := by
      generalize e.points = points at hl
      clear hcall
      induction points generalizing ents with
      | nil =>
        cases ents with
        | nil => cases hx
        | cons => cases hl
      | cons p ps ih =>
        cases ents with
        | nil => cases hl
        | cons y es =>
          cases y with
          | some y => simp [values, localFunction, hc, hg]
          | none =>
            have := ih es (by simpa using hx) (by simpa using hl)
            simp [values, this]
    simp only [elementValues, hcall, this]
    rfl

/-- The element together with the values of the coarse cell that contains it. -/
def evaluated (u : ℕ → P → R) (cell : FineElem ι P → ℕ) (e : FineElem ι P) : Projection.Elem ι R :=
  ⟨e.interior, e.nodes, e.points.map fun p => some (u (cell e) p)⟩

/-- **C62** (whole projection) For every distribution of the elements to threads and every history of their search objects
the walk writes, element by element, the values of the coarse cell containing the element. -/
theorem C62_walk (hset : Setting env corr index eval contains f u cell elems) (order : List (ℕ × FineElem ι P))
    (ho : ∀ te ∈ order, te.2 ∈ elems) (st : ℕ → Search.State) (hst : ∀ t, Search.Reachable env (st t)) (v : ι → R) :
    walk env corr index eval order st v = Projection.walk .overwrite (order.map fun te => evaluated u cell te.2) v := by
  induction order generalizing st v with
  | nil => rfl
  | cons te order ih =>
    obtain ⟨t, e⟩ := te
    have he : e ∈ elems := ho (t, e) (by simp)
    have ih' := ih fun te h => ho te (List.mem_cons_of_mem _ h)
    rw [walk, List.map_cons, Projection.walk]
    by_cases hi : e.interior = true
    · rw [if_pos hi, if_pos (show (evaluated u cell (t, e).2).interior = true from hi)]
      obtain ⟨s', hs', hv⟩ := C62_element_values hset (st t) (hst t) e he hi
      rw [hv]
      simp only [Outcome.ok_bind]
      show _ >>= _ = Projection.pointLoop .overwrite e.nodes (e.points.map fun p => some (u (cell e) p)) v >>= _
      congr 1
      funext v'
      apply ih'
      intro t'
      by_cases ht : t' = t
      · subst ht; simpa using hs'
      · simpa [Function.update_of_ne ht] using hst t'
    · rw [if_neg hi, if_neg (show ¬ (evaluated u cell (t, e).2).interior = true from hi)]
      exact ih' st hst v

omit [DecidableEq ι] [Field R] in
theorem multiplicity_map (elems : List (FineElem ι P)) [DecidableEq ι] (g : FineElem ι P → Projection.Elem ι R)
    (hg : ∀ e, (g e).nodes = e.nodes) (j : ι) :
    Projection.multiplicity (elems.map g) j = elems.countP fun e => decide (j ∈ e.nodes) := by
  unfold Projection.multiplicity
  rw [List.countP_map]
  congr 1
  funext e
  simp [hg]

omit [Field R] in
theorem identify_map (elems : List (FineElem ι P)) (g g' : FineElem ι P → Projection.Elem ι R)
    (hg : ∀ e, (g e).nodes = (g' e).nodes) :
    Projection.identifySharedNodes (elems.map g) = Projection.identifySharedNodes (elems.map g') := by
  unfold Projection.identifySharedNodes
  rw [List.foldl_map, List.foldl_map]
  congr 1
  funext c e
  rw [hg]

theorem project_eq (hset : Setting env corr index eval contains f u cell elems) (order : List (ℕ × FineElem ι P))
    (ho : (order.map Prod.snd).Perm elems) (old : ι → R) :
    project env corr index eval order elems old =
      Projection.project .overwrite (order.map fun te => evaluated u cell te.2) (elems.map (evaluated u cell)) old := by
  unfold project Projection.project
  rw [C62_walk hset order (fun te h => ho.mem_iff.mp (List.mem_map_of_mem h)) _ (fun _ => .init)]
  congr 1
  funext v
  congr 1
  unfold Projection.postprocess
  rw [identify_map elems (fun e => (⟨e.interior, e.nodes, []⟩ : Projection.Elem ι R)) (evaluated u cell) (fun _ => rfl)]

/-! ## C63 -/

/-- **C63** (partial: solutions continuous across coarse faces) If the reconstructions of neighbouring coarse cells have a common
value `w` at the nodes of the fine grid, the result of the projection does not depend on the order of the elements,
on their distribution to threads or on previous content: it is the value divided by the number of elements around the node. -/
theorem C63_order_irrelevant_partial (hset : Setting env corr index eval contains f u cell elems) (w : ι → R)
    (hw : ∀ e ∈ elems, e.interior = true → (e.points.map (u (cell e))) = e.nodes.map w) (hn : ∀ e ∈ elems, e.nodes.Nodup)
    (order : List (ℕ × FineElem ι P)) (ho : (order.map Prod.snd).Perm elems) (old : ι → R) :
    project env corr index eval order elems old = .ok fun j =>
      (if ∃ e ∈ elems, e.interior = true ∧ j ∈ e.nodes then w j else 0) /
        ((elems.countP fun e => decide (j ∈ e.nodes) : ℕ) : R) := by
  have hs : Projection.SingleValued w (elems.map (evaluated u cell)) := by
    constructor
    · intro e' he' hi
      obtain ⟨e, he, rfl⟩ := List.mem_map.mp he'
      have := congrArg (List.map some) (hw e he hi)
      simpa [evaluated, List.map_map, Function.comp_def] using this
    · intro e' he'
      obtain ⟨e, he, rfl⟩ := List.mem_map.mp he'
      exact hn e he
  have hp : (order.map fun te => evaluated u cell te.2).Perm (elems.map (evaluated u cell)) := by
    have := ho.map (evaluated u cell)
    rwa [List.map_map] at this
  rw [project_eq hset order ho, Projection.C28_projection_result_partial w _ _ hp hs]
  congr 1
  funext j
  rw [multiplicity_map elems (evaluated u cell) (fun _ => rfl)]
  simp [evaluated]

end

/-! ### Two coarse cells with two fine cells each -/

open Verif.LocalAssembly Verif.Boundary

/-- fine element `[k, k + 1]`, nodes are numbered by position -/
def lineElem (k : ℕ) : FineElem ℕ ℕ := ⟨true, [k, k + 1], [k, k + 1]⟩

def lineElems : List (FineElem ℕ ℕ) := [lineElem 0, lineElem 1, lineElem 2, lineElem 3]

/-- nodal evaluation on the local grid of coarse cell `c`, `[2c, 2c + 2]` -/
def lineEval (g : Fin 3 → ℚ) (e : ℕ × ℕ) (p : ℕ) : ℚ := g (Fin.ofNat 3 (p - 2 * e.1))

def lineCorr (a b : Fin 3 → ℚ) (c : ℕ) : Fin 3 → ℚ := if c = 0 then a else b

theorem line_setting (a b : Fin 3 → ℚ) : Setting (Search.demoEnv 2) [(0, a), (1, b)] id lineEval (fun c e p => e = (c, p))
    (lineCorr a b) (fun c p => lineCorr a b c (Fin.ofNat 3 (p - 2 * c))) (fun e => e.nodes.headI / 2) lineElems where
  nonempty := by decide
  size := le_refl _
  stored := by
    intro c hc
    have : c = 0 ∨ c = 1 := by change c < 2 at hc; omega
    rcases this with rfl | rfl <;> rfl
  value := by
    rintro c - e p rfl
    rfl
  cover := by
    intro e he _ c hc
    have : c = 0 ∨ c = 1 := by change c < 2 at hc; omega
    simp only [lineElems, List.mem_cons, List.not_mem_nil, or_false] at he
    rcases he with rfl | rfl | rfl | rfl <;> rcases this with rfl | rfl <;> decide
  inRange := by
    intro e he _
    simp only [lineElems, List.mem_cons, List.not_mem_nil, or_false] at he
    rcases he with rfl | rfl | rfl | rfl <;> decide
  complete := by
    intro e _ _
    exact Search.demo_complete 2 e.points
  points := by
    intro e he _
    simp only [lineElems, List.mem_cons, List.not_mem_nil, or_false] at he
    rcases he with rfl | rfl | rfl | rfl <;> simp [lineElem]

/-- Instance: the second coarse cell has no correction. -/
example (v : ℕ → ℚ) : walk (Search.demoEnv 2) [(0, ![0, 1, 2])] id lineEval [(0, lineElem 2)] (fun _ => .init) v = .throw := by
  obtain ⟨ents, s', hcall⟩ := Search.C09_succeeds (Search.demoEnv 2) (fun c e p => e = (c, p)) (le_refl _) (by decide) .init .init
    (lineElem 2).points (Search.demo_complete 2 _) ⟨1, by decide, by decide⟩
  obtain ⟨c, es, hc, hcn, hcov, rfl, hall⟩ := Search.C08_search_elements (Search.demoEnv 2) (fun c e p => e = (c, p)) _ s'
    (lineElem 2).points ents (by simp [lineElem]) (Search.demo_complete 2 _) hcall
  have h1 : c = 1 := by
    have : c = 0 ∨ c = 1 := by change c < 2 at hcn; omega
    rcases this with rfl | rfl
    · revert hcov; decide
    · rfl
  subst h1
  have hlen : (lineElem 2).points.length = (es.map some).length := by simp [hall.length_eq]
  refine (C62_failure_throws [] 0 (lineElem 2) rfl rfl (fun _ => .init) v (es.map some) s' hcall hlen 1 hc).2 rfl ?_
  cases es with
  | nil => simp [lineElem] at hlen
  | cons x es => exact ⟨x, by simp⟩

/-- **C63 is violated** where the reconstructions of two coarse cells disagree: the value at the common node is the one
written last.  The solutions are those of the local problems as constrained for SPE10 (at one end only) for the
coarse solution 0, 3, 5. -/
theorem C63_violated : ∃ (a b : Fin 3 → ℚ) (w w' : ℕ → ℚ),
    (exampleCell ![false, false, true] 0).Computes exampleDiffusion 0 ![0, 3] a ∧
    (exampleCell ![false, false, true] 0).Computes exampleDiffusion 0 ![3, 5] b ∧
    project (Search.demoEnv 2) [(0, a), (1, b)] id lineEval (lineElems.map (0, ·)) lineElems 0 = .ok w ∧
    project (Search.demoEnv 2) [(0, a), (1, b)] id lineEval (lineElems.reverse.map (0, ·)) lineElems 0 = .ok w' ∧
    w 2 = 5 / 2 ∧ w' 2 = 3 / 2 := by
  obtain ⟨a, ha⟩ := oneSided_computes 0 ![0, 3]
  obtain ⟨b, hb⟩ := oneSided_computes 0 ![3, 5]
  have ea := oneSided_constant _ _ ha
  have eb := oneSided_constant _ _ hb
  have h1 : ∃ w, project (Search.demoEnv 2) [(0, a), (1, b)] id lineEval (lineElems.map (0, ·)) lineElems 0 = .ok w ∧
      w 2 = 5 / 2 := by
    rw [project_eq (line_setting a b) _ (by simp [List.map_map, Function.comp_def])]
    refine ⟨_, rfl, ?_⟩
    subst ea eb
    simp [Projection.postprocess, Projection.write, evaluated, lineElems, lineElem, Projection.identifySharedNodes, lineCorr]
  have h2 : ∃ w, project (Search.demoEnv 2) [(0, a), (1, b)] id lineEval (lineElems.reverse.map (0, ·)) lineElems 0 = .ok w ∧
      w 2 = 3 / 2 := by
    rw [project_eq (line_setting a b) _ (by
      rw [List.map_map]
      simp [Function.comp_def])]
    refine ⟨_, rfl, ?_⟩
    subst ea eb
    simp [Projection.postprocess, Projection.write, evaluated, lineElems, lineElem, Projection.identifySharedNodes, lineCorr]
  obtain ⟨w, hw, hv⟩ := h1
  obtain ⟨w', hw', hv'⟩ := h2
  exact ⟨a, b, w, w', ha, hb, hw, hw', hv, hv'⟩

/-- Instance of C63: continuous data (the function with nodal values 0, 1, 2, 3, 4). -/
example (order : List (ℕ × FineElem ℕ ℕ)) (ho : (order.map Prod.snd).Perm lineElems) (old : ℕ → ℚ) :
    ∃ w, project (Search.demoEnv 2) [(0, ![0, 1, 2]), (1, ![2, 3, 4])] id lineEval order lineElems old = .ok w ∧ w 2 = 1 := by
  refine ⟨_, C63_order_irrelevant_partial (line_setting ![0, 1, 2] ![2, 3, 4]) (fun j => (j : ℚ)) ?_ ?_ order ho old, ?_⟩
  · intro e he _
    simp only [lineElems, List.mem_cons, List.not_mem_nil, or_false] at he
    rcases he with rfl | rfl | rfl | rfl <;> simp [lineElem, lineCorr, Fin.ofNat]
  · intro e he
    simp only [lineElems, List.mem_cons, List.not_mem_nil, or_false] at he
    rcases he with rfl | rfl | rfl | rfl <;> simp [lineElem]
  · simp [lineElems, lineElem]

/-! ## C64 -/

section
variable {F : Type}

theorem corrections_ok (f : ℕ → F) (cells : List CoarseCell) :
    corrections (fun i => .ok (f i)) cells = .ok ((cells.filter (·.interior)).map fun c => (c.index, f c.index)) := by
  induction cells with
  | nil => rfl
  | cons c cells ih =>
    rw [corrections]
    by_cases h : c.interior = true
    · rw [if_pos h, ih, List.filter_cons_of_pos h]; rfl
    · rw [if_neg h, ih, List.filter_cons_of_neg h]

/-- **C64** (exact condition) The solution object can be created exactly if the process owns a coarse cell and, with assertions,
has no other cells than its own; otherwise the behaviour is undefined. -/
theorem C64_construct_iff (f : ℕ → F) (cells : List CoarseCell) (asserts : Bool) :
    let r := corrections (fun i => .ok (f i)) cells >>= fun corr => construct asserts corr cells.length
    ((∃ corr, r = .ok corr) ↔ (∃ c ∈ cells, c.interior = true) ∧ (asserts = true → ∀ c ∈ cells, c.interior = true)) ∧
    ((¬ ∃ corr, r = .ok corr) → r = .ub) := by
  intro r
  have hr : r = construct asserts ((cells.filter (·.interior)).map fun c => (c.index, f c.index)) cells.length := by
    show (corrections (fun i => .ok (f i)) cells >>= _) = _
    rw [corrections_ok]; rfl
  have he : ((cells.filter (·.interior)).map fun c => (c.index, f c.index)).isEmpty = true ↔ ¬ ∃ c ∈ cells, c.interior = true := by
    rw [List.isEmpty_iff, List.map_eq_nil_iff, List.filter_eq_nil_iff]
    push Not
    simp
  have hl : ((cells.filter (·.interior)).map fun c => (c.index, f c.index)).length = cells.length ↔
      ∀ c ∈ cells, c.interior = true := by
    rw [List.length_map, List.length_filter_eq_length_iff]
  rw [hr]
  unfold construct
  by_cases h1 : ((cells.filter (·.interior)).map fun c => (c.index, f c.index)).isEmpty = true
  · rw [if_pos h1]
    have := he.mp h1
    simp [this]
  · rw [if_neg h1]
    have h1' : ∃ c ∈ cells, c.interior = true := by
      by_contra hc
      exact h1 (he.mpr hc)
    cases asserts
    · simp [h1']
    · by_cases h2 : ∀ c ∈ cells, c.interior = true
      · have := hl.mpr h2
        simp only [this, bne_self_eq_false, Bool.and_false, Bool.false_eq_true, if_false]
        exact ⟨⟨fun _ => ⟨h1', fun _ => h2⟩, fun _ => ⟨_, rfl⟩⟩, fun h => absurd ⟨_, rfl⟩ h⟩
      · have := mt hl.mp h2
        rw [if_pos (by simpa using this)]
        exact ⟨⟨(by rintro ⟨_, h⟩; cases h), fun h => absurd (h.2 rfl) h2⟩, fun _ => rfl⟩

/-- **C64** (partial: sequential runs) On a process whose cells are all its own, and which has at least one, the object is created,
and every cell's own correction is found under its index. -/
theorem C64_sequential_partial (f : ℕ → F) (cells : List CoarseCell) (hne : cells ≠ [])
    (hall : ∀ c ∈ cells, c.interior = true) (asserts : Bool) :
    ∃ corr, (corrections (fun i => .ok (f i)) cells >>= fun corr => construct asserts corr cells.length) = .ok corr ∧
      ∀ c ∈ cells, corr.lookup c.index = some (f c.index) := by
  obtain ⟨c0, hc0⟩ := List.exists_mem_of_ne_nil cells hne
  obtain ⟨corr, h⟩ := (C64_construct_iff f cells asserts).1.mpr ⟨⟨c0, hc0, hall c0 hc0⟩, fun _ => hall⟩
  refine ⟨corr, h, fun c hc => ?_⟩
  rw [corrections_ok, Outcome.ok_bind] at h
  unfold construct at h
  split_ifs at h with h1 h2
  injection h with h
  subst h
  clear h1 h2
  rw [List.filter_eq_self.mpr hall]
  clear hne hall hc0
  induction cells with
  | nil => cases hc
  | cons a cells ih =>
    rw [List.map_cons, List.lookup_cons]
    by_cases e : c.index = a.index
    · simp [e]
    · have : (c.index == a.index) = false := by simpa using e
      rw [this]
      exact ih (by
        rcases List.mem_cons.mp hc with rfl | h
        · exact absurd rfl e
        · exact h)

/-- **C64 is violated** in parallel runs: with assertions on every process that has an overlap cell, and always on a process
without own cells. -/
theorem C64_violated (f : ℕ → F) (cells : List CoarseCell) :
    ((∃ c ∈ cells, c.interior = false) →
      (corrections (fun i => .ok (f i)) cells >>= fun corr => construct true corr cells.length) = .ub) ∧
    ((∀ c ∈ cells, c.interior = false) → ∀ asserts,
      (corrections (fun i => .ok (f i)) cells >>= fun corr => construct asserts corr cells.length) = .ub) := by
  refine ⟨?_, ?_⟩
  · rintro ⟨c, hc, hi⟩
    apply (C64_construct_iff f cells true).2
    rw [(C64_construct_iff f cells true).1]
    rintro ⟨-, h⟩
    have := h rfl c hc
    rw [hi] at this
    cases this
  · intro hall asserts
    apply (C64_construct_iff f cells asserts).2
    rw [(C64_construct_iff f cells asserts).1]
    rintro ⟨⟨c, hc, h⟩, -⟩
    rw [hall c hc] at h
    cases h

/-- Instance: two own cells; two own cells and an overlap cell. -/
example : (corrections (fun i => .ok (10 * i)) [⟨3, true⟩, ⟨5, true⟩] >>= fun corr => construct true corr 2) =
      .ok [(3, 30), (5, 50)] ∧
    (corrections (fun i => .ok (10 * i)) [⟨3, true⟩, ⟨5, true⟩, ⟨4, false⟩] >>= fun corr => construct true corr 3) = .ub :=
  ⟨rfl, rfl⟩

end

/-- **C62** (failures of the search) If no coarse cell covers the points of an element, the projection stops with an exception; a result with fewer
entities than points, or an evaluation before the first search, is outside of the rules of the language. -/
theorem C62_search_failure {F P E R ι : Type} [DecidableEq ι] [Field R] (env : Search.Env P E) (corr : List (ℕ × F)) (index : ℕ → ℕ)
    (eval : F → E → P → R) :
    (∀ (order : List (ℕ × FineElem ι P)) (t : ℕ) (e : FineElem ι P) (st : ℕ → Search.State) (v : ι → R) (s' : Search.State),
      e.interior = true → Search.call env (st t) e.points = .throw s' → walk env corr index eval ((t, e) :: order) st v = .throw) ∧
    (∀ (s : Search.State) (c : ℕ) (g : F) (points : List P) (ents : List (Option E)), s.current = some c → corr.lookup (index c) = some g →
      (values corr index eval s points ents = .ub ↔ ents.length < points.length)) ∧
    (∀ (it : Option ℕ), localFunction corr index ⟨it, none⟩ = .ub) := by
  refine ⟨fun order t e st v s' hi hcall => ?_, fun s c g points ents hs hg => ?_, fun it => rfl⟩
  · simp [walk, hi, elementValues, hcall]
  · induction points generalizing ents with
    | nil => simp [values]
    | cons p ps ih =>
      cases ents with
      | nil => simp [values]
      | cons x es =>
        have h1 := ih es
        rw [List.length_cons, List.length_cons, Nat.add_lt_add_iff_right, ← h1]
        cases x <;> cases hv : values corr index eval s ps es <;> simp [values, localFunction, hs, hg, hv]

end Verif.Proxy
