import Verif.Model.Boundary
import Verif.Spec.Dirichlet
import Verif.Props.LocalAssembly
import Mathlib.Tactic.Linarith
import Mathlib.Tactic.FinCases
import Mathlib.Tactic.NormNum

/-!
# C60, C61: boundary conditions of the problems and of the local problems
-/

namespace Verif.Boundary
open Verif.Spec.Dirichlet Matrix

variable {d : ℕ}

/-- Exact unit outer normal of a face. -/
def outerNormal (f : Face d) : Fin d → ℚ := fun i => if i = f.1 then (if f.2 then 1 else -1) else 0

/-- A normal as computed by the grid: exact up to an error below the tolerance of the comparison. -/
def Computed (n : Fin d → ℚ) (f : Face d) : Prop := ∀ i, |n i - outerNormal f i| < 1 / 100000000000

/-- External contract of the comparison of normals (tolerance 1e-10): very close vectors are equal, vectors that differ by 1/2 in
some component are not. -/
structure Tolerance (close : (Fin d → ℚ) → (Fin d → ℚ) → Bool) : Prop where
  near : ∀ a b, (∀ i, |a i - b i| < 1 / 100000000000) → close a b = true
  far : ∀ a b, (∃ i, 1 / 2 ≤ |a i - b i|) → close a b = false

/-- The comparison of all components with an absolute tolerance of 1e-10 satisfies the contract. -/
example : Tolerance (d := d) fun a b => decide (∀ i, |a i - b i| < 1 / 10000000000) := by
  constructor
  · intro a b h
    simp only [decide_eq_true_eq]
    exact fun i => lt_trans (h i) (by norm_num)
  · rintro a b ⟨i, hi⟩
    simp only [decide_eq_false_iff_not]
    intro h
    have := h i
    linarith

theorem close_iff {close : (Fin d → ℚ) → (Fin d → ℚ) → Bool} (hc : Tolerance close) {n : Fin d → ℚ} {f : Face d}
    (hn : Computed n f) (g : Face d) : close n (outerNormal g) = true ↔ f = g := by
  constructor
  · intro h
    by_contra hne
    have hfar : ∃ i, 1 / 2 ≤ |n i - outerNormal g i| := by
      refine ⟨f.1, ?_⟩
      have h1 := abs_lt.mp (hn f.1)
      rw [le_abs]
      rcases f with ⟨a, s⟩
      rcases g with ⟨b, t⟩
      simp only [outerNormal] at h1 ⊢
      by_cases hab : a = b
      · subst hab
        have hst : s ≠ t := fun e => hne (by rw [e])
        cases s <;> cases t <;> simp_all
        · right; linarith
        · left; linarith
      · cases s <;> cases t <;> simp_all
        · right; linarith
        · right; linarith
        · left; linarith
        · left; linarith
    rw [hc.far _ _ hfar] at h
    cases h
  · rintro rfl
    exact hc.near _ _ hn

theorem contains_iff {close : (Fin d → ℚ) → (Fin d → ℚ) → Bool} (hc : Tolerance close) {n : Fin d → ℚ} {f : Face d}
    (hn : Computed n f) (gs : List (Face d)) : contains close n (gs.map outerNormal) = true ↔ f ∈ gs := by
  simp only [contains, List.any_eq_true, List.mem_map]
  constructor
  · rintro ⟨_, ⟨g, hg, rfl⟩, h⟩
    rw [(close_iff hc hn g).mp h]
    exact hg
  · intro h
    exact ⟨_, ⟨f, h, rfl⟩, (close_iff hc hn f).mpr rfl⟩

/-! ## C60 -/

/-- **C60** (classification) Every boundary info tells Dirichlet and Neumann faces apart: exactly one holds. -/
theorem C60_exclusive (close : (Fin d → ℚ) → (Fin d → ℚ) → Bool) (info : Info d) (n : Fin d → ℚ) :
    info.neumann close n = !info.dirichlet close n := by
  cases info with
  | allDirichlet => rfl
  | normalBased s =>
    simp only [Info.neumann, Info.dirichlet]
    split_ifs <;> simp

/-- The Dirichlet faces of the problems in two and three dimensions, as documented by the settings. -/
def dirichletFace : Problem → Face d → Prop
  | .synthetic, f => f.1.1 ≠ 2
  | .er2007, _ => True
  | .random, f => f.1.1 = 0
  | .spe10, f => f.1.1 = 1 ∧ f.2 = true
  | .tarbert, f => f.1.1 = 1 ∧ (f.2 = true ↔ d = 3)

theorem normals2 : (![0, 1] : Fin 2 → ℚ) = outerNormal (1, true) ∧ (![0, -1] : Fin 2 → ℚ) = outerNormal (1, false) := by
  constructor <;> funext i <;> fin_cases i <;> simp [outerNormal]

theorem normals3 : (![0, 1, 0] : Fin 3 → ℚ) = outerNormal (1, true) ∧ (![0, -1, 0] : Fin 3 → ℚ) = outerNormal (1, false) ∧
    (![0, 0, 1] : Fin 3 → ℚ) = outerNormal (2, true) ∧ (![0, 0, -1] : Fin 3 → ℚ) = outerNormal (2, false) := by
  refine ⟨?_, ?_, ?_, ?_⟩ <;> funext i <;> fin_cases i <;> simp [outerNormal]

/-- **C60** (faces) In two and three dimensions, without override in the configuration, each problem has a boundary info and the
Dirichlet faces of the domain are the stated ones, for every computed normal. -/
theorem C60_dirichlet_faces (hd : d = 2 ∨ d = 3) (close : (Fin d → ℚ) → (Fin d → ℚ) → Bool) (hc : Tolerance close)
    (p : Problem) : ∃ info, boundaryInfo d p none = .ok info ∧
      ∀ (f : Face d) (n : Fin d → ℚ), Computed n f → (info.dirichlet close n = true ↔ dirichletFace p f) := by
  have hnot : ∀ (b : Bool) (P : Prop), (b = true ↔ P) → ((!b) = true ↔ ¬ P) := by
    intro b P h; cases b <;> simp_all
  rcases hd with rfl | rfl
  · obtain ⟨e1, e2⟩ := normals2
    cases p
    · refine ⟨_, rfl, fun f n hn => ?_⟩
      simp only [Info.dirichlet, dirichletFace, if_true]
      refine Iff.trans (hnot _ _ (contains_iff hc hn [])) ?_
      simp
      omega
    · exact ⟨_, rfl, fun f n hn => by simp [Info.dirichlet, dirichletFace]⟩
    · refine ⟨_, rfl, fun f n hn => ?_⟩
      simp only [Info.dirichlet, dirichletFace, if_true, e1, e2]
      refine Iff.trans (hnot _ _ (contains_iff hc hn [(1, true), (1, false)])) ?_
      revert f
      simp only [List.mem_cons, List.not_mem_nil, or_false]
      rintro ⟨a, b⟩ -
      fin_cases a <;> cases b <;> simp
    · refine ⟨_, rfl, fun f n hn => ?_⟩
      simp only [Info.dirichlet, dirichletFace, e1, Bool.false_eq_true, if_false]
      refine Iff.trans (contains_iff hc hn [(1, true)]) ?_
      rcases f with ⟨a, b⟩
      fin_cases a <;> cases b <;> simp
    · refine ⟨_, rfl, fun f n hn => ?_⟩
      simp only [Info.dirichlet, dirichletFace, e2, Bool.false_eq_true, if_false]
      refine Iff.trans (contains_iff hc hn [(1, false)]) ?_
      rcases f with ⟨a, b⟩
      fin_cases a <;> cases b <;> simp
  · obtain ⟨e1, e2, e3, e4⟩ := normals3
    cases p
    · refine ⟨_, rfl, fun f n hn => ?_⟩
      simp only [Info.dirichlet, dirichletFace, if_true, e3, e4]
      refine Iff.trans (hnot _ _ (contains_iff hc hn [(2, true), (2, false)])) ?_
      rcases f with ⟨a, b⟩
      fin_cases a <;> cases b <;> simp
    · exact ⟨_, rfl, fun f n hn => by simp [Info.dirichlet, dirichletFace]⟩
    · refine ⟨_, rfl, fun f n hn => ?_⟩
      simp only [Info.dirichlet, dirichletFace, if_true, e1, e2, e3, e4]
      refine Iff.trans (hnot _ _ (contains_iff hc hn [(1, true), (1, false), (2, true), (2, false)])) ?_
      rcases f with ⟨a, b⟩
      fin_cases a <;> cases b <;> simp
    · refine ⟨_, rfl, fun f n hn => ?_⟩
      simp only [Info.dirichlet, dirichletFace, e1, Bool.false_eq_true, if_false]
      refine Iff.trans (contains_iff hc hn [(1, true)]) ?_
      rcases f with ⟨a, b⟩
      fin_cases a <;> cases b <;> simp
    · refine ⟨_, rfl, fun f n hn => ?_⟩
      simp only [Info.dirichlet, dirichletFace, e1, Bool.false_eq_true, if_false]
      refine Iff.trans (contains_iff hc hn [(1, true)]) ?_
      rcases f with ⟨a, b⟩
      fin_cases a <;> cases b <;> simp

/-- Some face is a Dirichlet face, so the global problems are not pure Neumann problems. -/
theorem C60_some_dirichlet (hd : d = 2 ∨ d = 3) (p : Problem) : ∃ f : Face d, dirichletFace p f := by
  rcases hd with rfl | rfl <;> cases p
  · exact ⟨(0, true), by simp [dirichletFace]⟩
  · exact ⟨(0, true), trivial⟩
  · exact ⟨(0, true), rfl⟩
  · exact ⟨(1, true), rfl, rfl⟩
  · exact ⟨(1, false), rfl, by simp⟩
  · exact ⟨(0, true), by simp [dirichletFace]⟩
  · exact ⟨(0, true), trivial⟩
  · exact ⟨(0, true), rfl⟩
  · exact ⟨(1, true), rfl, rfl⟩
  · exact ⟨(1, true), rfl, by simp⟩

/-- Without settings for the dimension, construction fails. -/
theorem C60_one_dimension (p : Problem) (h : p = .random ∨ p = .spe10 ∨ p = .tarbert) :
    boundaryInfo 1 p none = .throw := by
  rcases h with rfl | rfl | rfl <;> rfl

/-- **C60** (partial: SPE10, and Tarbert in three dimensions) The Neumann values act: on the whole lower face in direction
`y` the value of the data (1 and -1) enters the global systems. -/
theorem C60_neumann_acts_partial (close : (Fin 3 → ℚ) → (Fin 3 → ℚ) → Bool) (hc : Tolerance close) (p : Problem)
    (hp : p = .spe10 ∨ p = .tarbert) : ∃ info, boundaryInfo 3 p none = .ok info ∧
      ∀ n x, Computed n (1, false) → x 1 = 0 →
        effectiveNeumann close p info n x = if p = .spe10 then 1 else -1 := by
  obtain ⟨info, hi, hf⟩ := C60_dirichlet_faces (Or.inr rfl) close hc p
  refine ⟨info, hi, fun n x hn hx => ?_⟩
  have h1 : info.dirichlet close n = false := by
    rw [← Bool.not_eq_true, hf _ _ hn]
    rcases hp with rfl | rfl <;> simp [dirichletFace]
  simp only [effectiveNeumann, C60_exclusive, h1, Bool.not_false, if_true, neumannData]
  rcases hp with rfl | rfl
  · simp [hx]
  · rw [hx]
    norm_num
    intro h
    cases h

/-- **C60** (the negation: Tarbert in two dimensions) The nonzero Neumann data sit on the Dirichlet face.  At every boundary
point that is not within 1e-6 of this face the value that enters the global systems is zero, and on this face
no Neumann value enters. -/
theorem C60_violated_tarbert_2d (close : (Fin 2 → ℚ) → (Fin 2 → ℚ) → Bool) (hc : Tolerance close) :
    ∃ info, boundaryInfo 2 .tarbert none = .ok info ∧
      (∀ n x, Computed n (1, false) → x 1 = 0 → neumannData .tarbert x = -1 ∧ effectiveNeumann close .tarbert info n x = 0) ∧
      (∀ f n x, f ≠ (1, false) → Computed n f → 1 / 1000000 ≤ x 1 → effectiveNeumann close .tarbert info n x = 0) := by
  obtain ⟨info, hi, hf⟩ := C60_dirichlet_faces (Or.inl rfl) close hc .tarbert
  refine ⟨info, hi, fun n x hn hx => ⟨?_, ?_⟩, fun f n x hne hn hx => ?_⟩
  · simp only [neumannData, hx]; norm_num
  · have h1 : info.dirichlet close n = true := by
      rw [hf _ _ hn]; simp [dirichletFace]
    simp [effectiveNeumann, C60_exclusive, h1]
  · have : ¬ |x 1| < 1 / 1000000 := by
      rw [not_lt]; exact le_trans hx (le_abs_self _)
    simp only [effectiveNeumann, neumannData, this, if_false, ite_self]

/-- One quadrature point on a boundary face: face, computed normal, position, weight times value of each test function. -/
structure FacePoint (d : ℕ) (ι : Type) where
  face : Face d
  normal : Fin d → ℚ
  pos : Fin d → ℚ
  test : ι → ℚ

/-- **C60** (the negation, consequence) The two-dimensional Tarbert problem is trivial: if the quadrature points of the other faces
keep a distance of 1e-6 to the face `x1 = 0`, the load vector is zero, and (source and Dirichlet data being
zero, tarbert.cc:84-87, 102-105) zero is the only solution of the global system. -/
theorem C60_violated_tarbert_2d_zero {ι : Type} [Fintype ι] (close : (Fin 2 → ℚ) → (Fin 2 → ℚ) → Bool) (hc : Tolerance close)
    (info : Info 2) (hi : boundaryInfo 2 .tarbert none = .ok info) (pts : List (FacePoint 2 ι))
    (hn : ∀ q ∈ pts, Computed q.normal q.face) (hlow : ∀ q ∈ pts, q.face = (1, false) → q.pos 1 = 0)
    (hother : ∀ q ∈ pts, q.face ≠ (1, false) → 1 / 1000000 ≤ q.pos 1) :
    (∀ i, (pts.map fun q => effectiveNeumann close .tarbert info q.normal q.pos * q.test i).sum = 0) ∧
    ∀ (A : Matrix ι ι ℚ) (D : ι → Bool) (u : ι → ℚ), FreeInjective A D →
      IsSolution A (fun i => (pts.map fun q => effectiveNeumann close .tarbert info q.normal q.pos * q.test i).sum) 0 D u →
      u = 0 := by
  obtain ⟨info', hi', h1, h2⟩ := C60_violated_tarbert_2d close hc
  rw [hi] at hi'
  injection hi' with hi'
  subst hi'
  have hz : ∀ i, (pts.map fun q => effectiveNeumann close .tarbert info q.normal q.pos * q.test i).sum = 0 := by
    intro i
    have : (pts.map fun q => effectiveNeumann close .tarbert info q.normal q.pos * q.test i) = pts.map fun _ => (0 : ℚ) := by
      apply List.map_congr_left
      intro q hq
      have : effectiveNeumann close .tarbert info q.normal q.pos = 0 := by
        by_cases hf : q.face = (1, false)
        · exact (h1 _ _ (hf ▸ hn q hq) (hlow q hq hf)).2
        · exact h2 _ _ _ hf (hn q hq) (hother q hq hf)
      rw [this, zero_mul]
    rw [this]
    simp
  refine ⟨hz, fun A D u hA hu => hA u (fun i hi => by simpa using hu.boundary i hi) fun i hi => ?_⟩
  rw [hu.equation i hi]
  exact hz i

/-- Instance: a grid with a quadrature point on the Dirichlet face and one on the face `x0 = 1`. -/
example : ∀ q ∈ ([⟨(1, false), outerNormal (1, false), ![1 / 2, 0], fun _ => 1⟩, ⟨(0, true), outerNormal (0, true), ![1, 1 / 2], fun _ => 1⟩] :
    List (FacePoint 2 (Fin 1))), Computed q.normal q.face ∧ (q.face = (1, false) → q.pos 1 = 0) ∧
      (q.face ≠ (1, false) → 1 / 1000000 ≤ q.pos 1) := by
  intro q hq
  simp only [List.mem_cons, List.not_mem_nil, or_false] at hq
  rcases hq with rfl | rfl
  · exact ⟨fun i => by simp, fun _ => by simp, fun h => absurd rfl h⟩
  · exact ⟨fun i => by simp, fun h => by simp at h, fun _ => by norm_num⟩

/-- Instance: the exact normals are computed normals. -/
example : Computed (outerNormal (1, false)) ((1, false) : Face 2) ∧ Computed (outerNormal (0, true)) ((0, true) : Face 2) :=
  ⟨fun i => by simp, fun i => by simp⟩

/-! ## C61 -/

/-- A node of a grid with `cells` cells per direction lies on the boundary. -/
def OnBoundary (cells node : Fin d → ℕ) : Prop := ∃ i, node i = 0 ∨ node i = cells i

theorem constrainedNode_iff (close : (Fin d → ℚ) → (Fin d → ℚ) → Bool) (info : Info d) (normal : Face d → Fin d → ℚ)
    (cells node : Fin d → ℕ) : constrainedNode close info normal cells node = true ↔
      ∃ i, node i = 0 ∧ info.dirichlet close (normal (i, false)) = true ∨
        node i = cells i ∧ info.dirichlet close (normal (i, true)) = true := by
  simp [constrainedNode]

/-- **C61** (partial: Synthetic, ER2007, Random) The local problems are constrained exactly on the whole boundary of the local
grid, whatever the configuration says about the global boundary. -/
theorem C61_all_constrained_partial (close : (Fin d → ℚ) → (Fin d → ℚ) → Bool) (p : Problem)
    (hp : p = .synthetic ∨ p = .er2007 ∨ p = .random) (override : Option (Settings d)) (normal : Face d → Fin d → ℚ)
    (cells node : Fin d → ℕ) : ∃ info, subBoundaryInfo d p override = .ok info ∧
      (constrainedNode close info normal cells node = true ↔ OnBoundary cells node) := by
  have : subBoundaryInfo d p override = .ok .allDirichlet := by
    rcases hp with rfl | rfl | rfl <;> rfl
  refine ⟨_, this, ?_⟩
  rw [constrainedNode_iff]
  simp [Info.dirichlet, OnBoundary]

/-- **C61** (the negation: SPE10 and Tarbert) Only the nodes of one face of each local grid are constrained: the upper face in
direction `y`, in two dimensions for Tarbert the lower one. -/
theorem C61_violated (hd : d = 2 ∨ d = 3) (close : (Fin d → ℚ) → (Fin d → ℚ) → Bool) (hc : Tolerance close) (p : Problem)
    (hp : p = .spe10 ∨ p = .tarbert) (normal : Face d → Fin d → ℚ) (hn : ∀ f, Computed (normal f) f)
    (cells : Fin d → ℕ) : ∃ info, subBoundaryInfo d p none = .ok info ∧ ∃ (y : Fin d) (upper : Bool), y.1 = 1 ∧
      (upper = true ↔ p = .spe10 ∨ d = 3) ∧
      ∀ node, constrainedNode close info normal cells node = true ↔ node y = if upper then cells y else 0 := by
  obtain ⟨info, hi, hf⟩ := C60_dirichlet_faces hd close hc p
  have hy : 1 < d := by omega
  have hsub : subBoundaryInfo d p none = .ok info := by
    rw [← hi]
    rcases hp with rfl | rfl <;> rfl
  refine ⟨info, hsub, ⟨1, hy⟩, decide (p = .spe10 ∨ d = 3), rfl, by simp, fun node => ?_⟩
  rw [constrainedNode_iff]
  simp only [hf _ _ (hn _)]
  constructor
  · rintro ⟨i, h | h⟩
    · rcases hp with rfl | rfl
      · simp [dirichletFace] at h
      · simp only [dirichletFace] at h
        have hi1 : i = ⟨1, hy⟩ := Fin.ext h.2.1
        subst hi1
        have h3 : ¬ d = 3 := by simpa using h.2.2
        simp [h3, h.1]
    · rcases hp with rfl | rfl
      · simp only [dirichletFace] at h
        have hi1 : i = ⟨1, hy⟩ := Fin.ext h.2.1
        subst hi1
        simp [h.1]
      · simp only [dirichletFace] at h
        have hi1 : i = ⟨1, hy⟩ := Fin.ext h.2.1
        subst hi1
        have h3 : d = 3 := by simpa using h.2.2
        simp [h3, h.1]
  · intro h
    refine ⟨⟨1, hy⟩, ?_⟩
    rcases hp with rfl | rfl
    · right
      simpa [dirichletFace] using h
    · by_cases h3 : d = 3
      · right
        simpa [dirichletFace, h3] using h
      · left
        simpa [dirichletFace, h3] using h

/-- Instance of C61: a corner of a local grid of SPE10 with 4 cells per direction lies on the boundary and is not
constrained. -/
example : OnBoundary (fun _ : Fin 3 => 4) (fun _ => 0) ∧
    constrainedNode (fun a b => decide (∀ i, |a i - b i| < 1 / 10000000000)) (.normalBased ⟨false, [![0, 1, 0]], []⟩)
      outerNormal (fun _ : Fin 3 => 4) (fun _ => 0) = false := by
  refine ⟨⟨0, Or.inl rfl⟩, ?_⟩
  rw [← Bool.not_eq_true, constrainedNode_iff]
  rintro ⟨i, h | h⟩
  · simp only [Info.dirichlet, contains, Bool.false_eq_true, if_false, List.any_cons, List.any_nil, Bool.or_false,
      decide_eq_true_eq] at h
    have := h.2 1
    fin_cases i <;> simp [outerNormal] at this <;> norm_num at this
  · simp at h

section
open Verif.LocalAssembly Verif.LocalSolve
variable {e m n : ℕ} {ι ι' : Type} [DecidableEq ι] [Fintype ι] [DecidableEq ι'] [Fintype ι'] {R : Type} [Field R] [CharZero R]

/-- **C61** (partial: constrained nodes) At a fine node on a coarse face which is constrained in the local problems of both
adjacent coarse cells the two reconstructions agree whenever the coarse solution is continuous there. -/
theorem C61_continuous_partial (K : Cell e m n ι R) (K' : Cell e m n ι' R) (hK : K.Nested) (hK' : K'.Nested)
    (diffusion : (Fin e → R) → Matrix (Fin e) (Fin e) R) (ext c ext' c' : Fin n → R) (u : ι → R) (u' : ι' → R)
    (h : K.Computes diffusion ext c u) (h' : K'.Computes diffusion ext' c' u') (i : ι) (i' : ι')
    (hi : K.constrained i = true) (hi' : K'.constrained i' = true)
    (hcont : ∑ k, c k * K.nodal k i = ∑ k, c' k * K'.nodal k i') : u i = u' i' := by
  have h1 := (computes_residual K hK diffusion ext c u h).boundary i hi
  have h2 := (computes_residual K' hK' diffusion ext' c' u' h').boundary i' hi'
  simp only [Finset.sum_apply, Pi.smul_apply, smul_eq_mul] at h1 h2
  rw [h1, h2, hcont]

/-- **C61** (the negation, consequence) If a coarse basis function vanishes at all constrained nodes of the local problem, as those
of the nodes off the constrained face do for SPE10 and Tarbert, then its multiscale basis function
is zero on the whole coarse cell (given that the constrained local system is non-singular). -/
theorem C61_violated_basis_vanishes (K : Cell e m n ι R) (hK : K.Nested) (walks : ℕ) (hw : walks ≠ 0)
    (diffusion : (Fin e → R) → Matrix (Fin e) (Fin e) R) (flux : (Fin e → R) → (Fin e → R) → (Fin e → R))
    (hflux : ∀ x v, flux x v = diffusion x *ᵥ v) (ext : Fin n → R) (valid : (ι → R) → Bool) (s : Solvers ι R)
    (hs : s.Correct (constrainMat K.constrained (K.matrix walks diffusion))) (xs : List (ι → R))
    (h : K.solve valid s true walks flux ext = .ok xs)
    (hinj : FreeInjective (stiff diffusion K.elements) K.constrained) (k : Fin n)
    (hk : ∀ i, K.constrained i = true → K.nodal k i = 0) :
    ∃ Q, xs[k.1]? = some Q ∧ K.nodal k + Q = 0 := by
  obtain ⟨Q, hQ, hsol⟩ := C58_multiscale_basis K hK walks hw diffusion flux hflux ext valid s hs xs h k
  refine ⟨Q, hQ, hinj _ (fun i hi => ?_) (fun i hi => hsol.equation i hi)⟩
  rw [hsol.boundary i hi, hk i hi]

/-- **C61** (the negation, consequence) In a cell without boundary faces the solution then does not depend on the coefficients
of these coarse basis functions at all. -/
theorem C61_violated_coefficients_ignored (K : Cell e m n ι R) (hK : K.Nested)
    (diffusion : (Fin e → R) → Matrix (Fin e) (Fin e) R) (ext ext' c c' : Fin n → R) (u u' : ι → R)
    (h : K.Computes diffusion ext c u) (h' : K.Computes diffusion ext' c' u') (hb : K.hasBoundary = false)
    (hinj : FreeInjective (stiff diffusion K.elements) K.constrained)
    (hcc : ∀ k, c k = c' k ∨ ∀ i, K.constrained i = true → K.nodal k i = 0) : u = u' := by
  have h1 := computes_residual K hK diffusion ext c u h
  have h2 := computes_residual K hK diffusion ext' c' u' h'
  rw [hb] at h1 h2
  rw [← sub_eq_zero]
  apply hinj
  · intro i hi
    rw [Pi.sub_apply, h1.boundary i hi, h2.boundary i hi, sub_eq_zero]
    simp only [Finset.sum_apply, Pi.smul_apply, smul_eq_mul]
    refine Finset.sum_congr rfl fun k _ => ?_
    rcases hcc k with e | e
    · rw [e]
    · rw [e i hi]; simp
  · intro i hi
    rw [mulVec_sub, Pi.sub_apply, h1.equation i hi, h2.equation i hi]
    simp

/-- direct solver for the interval with two fine cells, constrained at the right end only -/
def oneSidedSolver : Solvers (Fin 3) ℚ where
  direct := fun _ b => .ok ![b 0 / 2 + (b 2 + (b 0 + b 1) / 4), b 2 + (b 0 + b 1) / 4, b 2]
  generic := fun b _ => .ok ![b 0 / 2 + (b 2 + (b 0 + b 1) / 4), b 2 + (b 0 + b 1) / 4, b 2]

theorem oneSided_correct : oneSidedSolver.Correct
    (constrainMat ![false, false, true] ((exampleCell ![false, false, true] 0).matrix 1 exampleDiffusion)) := by
  have hm : (exampleCell ![false, false, true] 0).matrix 1 exampleDiffusion = !![2, -2, 0; -2, 6, -4; 0, -4, 4] := by
    rw [← example_stiff]
    ext i j
    rw [matrix_apply]
    simp [exampleCell]
  have key : ∀ b : Fin 3 → ℚ, constrainMat ![false, false, true] ((exampleCell ![false, false, true] 0).matrix 1 exampleDiffusion) *ᵥ
        ![b 0 / 2 + (b 2 + (b 0 + b 1) / 4), b 2 + (b 0 + b 1) / 4, b 2] = b := by
    intro b
    rw [hm]
    funext i
    fin_cases i <;> simp [constrainMat, mulVec, dotProduct, Fin.sum_univ_succ] <;> ring
  constructor
  · intro x b x' h
    injection h with h
    rw [← h]; exact key b
  · intro b x x' h
    injection h with h
    rw [← h]; exact key b

theorem oneSided_injective :
    FreeInjective (stiff exampleDiffusion (exampleCell ![false, false, true] 0).elements) ![false, false, true] := by
  have hst : stiff exampleDiffusion (exampleCell ![false, false, true] 0).elements = !![2, -2, 0; -2, 6, -4; 0, -4, 4] :=
    example_stiff
  intro v hv he
  have h2 := hv 2 rfl
  have h0 := he 0 rfl
  have h1 := he 1 rfl
  rw [hst] at h0 h1
  simp [mulVec, dotProduct, Fin.sum_univ_succ] at h0 h1 h2
  funext i
  fin_cases i
  · show v 0 = 0
    linarith
  · show v 1 = 0
    linarith
  · exact h2

theorem oneSided_computes (ext c : Fin 2 → ℚ) :
    ∃ u, (exampleCell ![false, false, true] 0).Computes exampleDiffusion ext c u := by
  obtain ⟨xs, hxs⟩ : ∃ xs, (exampleCell ![false, false, true] 0).solve (fun _ => true) oneSidedSolver true 1
      (fun x v => exampleDiffusion x *ᵥ v) ext = .ok xs := ⟨_, rfl⟩
  obtain ⟨u, hu, -⟩ := C58_residual_partial _ (exampleCell_nested _ 0) 1 one_ne_zero exampleDiffusion _
    (fun _ _ => rfl) ext _ _ oneSided_correct xs hxs [(7, xs)] (by simp) 7 (by simp) c
  exact ⟨u, 1, _, _, _, xs, _, 7, one_ne_zero, fun _ _ => rfl, oneSided_correct, hxs, by simp, by simp, hu⟩

/-- With one constrained end the solution is constant: the coarse value at the other end is lost. -/
theorem oneSided_constant (c : Fin 2 → ℚ) (u : Fin 3 → ℚ)
    (h : (exampleCell ![false, false, true] 0).Computes exampleDiffusion 0 c u) : u = fun _ => c 1 := by
  have hr := computes_residual _ (exampleCell_nested _ 0) _ _ _ _ h
  have hst : stiff exampleDiffusion (exampleCell ![false, false, true] 0).elements = !![2, -2, 0; -2, 6, -4; 0, -4, 4] :=
    example_stiff
  have h2 := hr.boundary 2 rfl
  have h0 := hr.equation 0 rfl
  have h1 := hr.equation 1 rfl
  rw [hst] at h0 h1
  simp [exampleCell, mulVec, dotProduct, Fin.sum_univ_succ] at h0 h1 h2
  funext i
  fin_cases i
  · show u 0 = c 1
    linarith
  · show u 1 = c 1
    linarith
  · exact h2

/-- Instance of the consequences: the interval with two fine cells, constrained at the right end only, as for SPE10 in direction
`y`.  The multiscale basis function of the left coarse node vanishes. -/
example : ∃ (xs : List (Fin 3 → ℚ)) (Q : Fin 3 → ℚ),
    (exampleCell ![false, false, true] 0).solve (fun _ => true) oneSidedSolver true 1 (fun x v => exampleDiffusion x *ᵥ v) 0 = .ok xs ∧
    xs[0]? = some Q ∧ (exampleCell ![false, false, true] 0).nodal 0 + Q = 0 := by
  obtain ⟨xs, hxs⟩ : ∃ xs, (exampleCell ![false, false, true] 0).solve (fun _ => true) oneSidedSolver true 1
      (fun x v => exampleDiffusion x *ᵥ v) 0 = .ok xs := ⟨_, rfl⟩
  obtain ⟨Q, hQ, hz⟩ := C61_violated_basis_vanishes _ (exampleCell_nested _ 0) 1 one_ne_zero exampleDiffusion _ (fun _ _ => rfl)
    0 _ oneSidedSolver oneSided_correct xs hxs oneSided_injective 0 (fun i hi => by
      fin_cases i
      · cases hi
      · cases hi
      · rfl)
  exact ⟨xs, Q, hxs, hQ, hz⟩

/-- Instance of `C61_continuous_partial`: two cells constrained at both ends, with the same coarse value at the common node. -/
example (u u' : Fin 3 → ℚ) (h : (exampleCell ![true, false, true] 0).Computes exampleDiffusion 0 ![5, 3] u)
    (h' : (exampleCell ![true, false, true] 0).Computes exampleDiffusion 0 ![3, 4] u') : u 2 = u' 0 :=
  C61_continuous_partial _ _ (exampleCell_nested _ 0) (exampleCell_nested _ 0) _ _ _ _ _ u u' h h' 2 0 rfl rfl
    (by simp [exampleCell, Fin.sum_univ_succ])

end

end Verif.Boundary
