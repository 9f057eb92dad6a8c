import Verif.Model.Pipeline
import Verif.Props.Consistency
import Verif.Props.Runs
import Verif.Props.Energy

/-!
# C82: superposition and scaling of one run of the multiscale solver
-/

namespace Verif.Pipeline
open Matrix Verif.CoarseAssembly Verif.LocalAssembly Verif.LocalSolve Verif.Q1Grid Verif.DirichletSolve Verif.Spec.Dirichlet
open Verif.Spec.Galerkin

/-! ## Lists of calls -/

instance : LawfulMonad Outcome := LawfulMonad.mk'
  (id_map := by intro α x; cases x <;> rfl)
  (pure_bind := by intro α β x f; rfl)
  (bind_assoc := by intro α β γ x f g; cases x <;> rfl)

theorem mapM_ok {α β : Type} (f : α → Outcome β) (g : α → β) (l : List α) (h : ∀ x ∈ l, f x = .ok (g x)) :
    l.mapM f = .ok (l.map g) := by
  induction l with
  | nil => rfl
  | cons x l ih =>
    rw [List.mapM_cons, h x List.mem_cons_self, Outcome.ok_bind, ih fun y hy => h y (List.mem_cons_of_mem _ hy)]
    rfl

theorem mapM_mem {α β : Type} (f : α → Outcome β) (l : List α) (ys : List β) (h : l.mapM f = .ok ys) (x : α) (hx : x ∈ l) :
    ∃ y, f x = .ok y := by
  induction l generalizing ys with
  | nil => cases hx
  | cons a l ih =>
    rw [List.mapM_cons] at h
    cases ha : f a with
    | throw => rw [ha] at h; cases h
    | ub => rw [ha] at h; cases h
    | ok y =>
      rw [ha, Outcome.ok_bind] at h
      cases hl : l.mapM f with
      | throw => rw [hl] at h; cases h
      | ub => rw [hl] at h; cases h
      | ok zs =>
        rcases List.mem_cons.mp hx with rfl | hx
        · exact ⟨y, ha⟩
        · exact ih zs hl hx

variable {d : ℕ} {R : Type} [Field R] [LinearOrder R] [IsStrictOrderedRing R]

/-! ## What a run computes -/

/-- External contracts and bookkeeping: the local system is assembled at least once, solvers that return have solved their systems, cells
have different indices, the flux is the diffusion matrix times the direction. -/
structure Works (S : Setup d R) (B : Boundary S) (P : Data d R) (m : Machine S) : Prop where
  walks : m.walks ≠ 0
  flux : ∀ x v, P.flux x v = P.diffusion x *ᵥ v
  local_correct : ∀ J, (m.solvers J).Correct (constrainMat B.constrained ((localCell S B P J).matrix m.walks P.diffusion))
  coarse_correct : m.coarseSolver.Correct
  index_injective : Function.Injective m.index

/-- matrix of a local problem -/
def localStiff (S : Setup d R) (B : Boundary S) (P : Data d R) (J : CellIndex S.cells) :
    Matrix (Node S.micro) (Node S.micro) R := stiff P.diffusion (localCell S B P J).elements

/-- prolonged coarse basis function -/
def basis (S : Setup d R) (k : Fin (2 ^ d)) (node : Node S.micro) : R :=
  shape (corner k) fun i => ((node i).1 : R) / (S.micro i : R)

/-- what the local solutions of a cell are -/
structure IsCorrector (S : Setup d R) (B : Boundary S) (P : Data d R) (J : CellIndex S.cells) (Q : Fin (2 ^ d) → Node S.micro → R)
    (qN qD : Node S.micro → R) : Prop where
  inner : ∀ k, IsSolution (localStiff S B P J) (-(localStiff S B P J *ᵥ basis S k)) 0 B.constrained (Q k)
  inside : (¬ ∃ i, (J i).1 = 0 ∨ (J i).1 + 1 = S.cells i) → qN = 0 ∧ qD = 0
  neumann : (∃ i, (J i).1 = 0 ∨ (J i).1 + 1 = S.cells i) →
    IsSolution (localStiff S B P J) (localNeumann S B P.neumann J) 0 B.constrained qN
  dirichlet : (∃ i, (J i).1 = 0 ∨ (J i).1 + 1 = S.cells i) →
    IsSolution (localStiff S B P J) (-(localStiff S B P J *ᵥ ∑ k, localExtension S B P J k • basis S k)) 0 B.constrained qD

/-- what a run computes: correctors, coarse solution, solution on the cells -/
structure Computed (S : Setup d R) (B : Boundary S) (P : Data d R) (Q : CellIndex S.cells → Fin (2 ^ d) → Node S.micro → R)
    (qN qD : CellIndex S.cells → Node S.micro → R) (u : Node S.cells → R) (fine : CellIndex S.cells → Node S.micro → R) : Prop where
  corrector : ∀ J, IsCorrector S B P J (Q J) (qN J) (qD J)
  coarse : IsSolution (S.coarseMatrix P.diffusion (fun J => Manager.corrList (Q J) (qN J) (qD J)) 0)
    (S.coarseLoad P.flux P.source (fun J => Manager.corrList (Q J) (qN J) (qD J)) 0 (neumannPoints S B P.neumann))
    (fun g => P.dirichlet (nodePos S g)) B.isDirichlet u
  fine_eq : ∀ J, fine J = ∑ k, u (cornerNode J (corner k)) • (basis S k + Q J k) + qD J - qN J

omit [LinearOrder R] [IsStrictOrderedRing R] in
theorem coarseMatrix_tmp (S : Setup d R) (diffusion : (Fin d → R) → Matrix (Fin d) (Fin d) R)
    (xs : CellIndex S.cells → List (Node S.micro → R)) (tmp tmp' : Fin (2 ^ d) → Fin (2 ^ d) → R) :
    S.coarseMatrix diffusion xs tmp = S.coarseMatrix diffusion xs tmp' := by
  rw [coarseMatrix_eq, coarseMatrix_eq]

omit [LinearOrder R] [IsStrictOrderedRing R] in
theorem coarseLoad_eq (S : Setup d R) (diffusion : (Fin d → R) → Matrix (Fin d) (Fin d) R)
    (flux : (Fin d → R) → (Fin d → R) → (Fin d → R)) (hflux : ∀ x v, flux x v = diffusion x *ᵥ v) (source : (Fin d → R) → R)
    (xs : CellIndex S.cells → List (Node S.micro → R)) (tmp : Fin (2 ^ d) → R) (pts : List (NeumannPoint S)) :
    S.coarseLoad flux source xs tmp pts =
      load (usedSamples diffusion source (S.order.map fun J => S.coarseCell S.loadRule J (xs J))) + femNeumann S pts := by
  rw [Setup.coarseLoad, addNeumann_eq]
  congr 1
  funext a
  rw [C24_load_entries diffusion flux hflux, Pi.zero_apply, zero_add]

omit [LinearOrder R] [IsStrictOrderedRing R] in
theorem getD_double {α : Type} [DecidableEq α] {β : Type} (l : List α) (f : α → β) (x : α) (hx : x ∈ l) (dflt : β) (b : ℕ) (hb : b < 2) :
    ((l.flatMap fun y => [(y, f y), (y, f y)]).map Prod.snd).getD (2 * l.idxOf x + b) dflt = f x := by
  induction l with
  | nil => cases hx
  | cons a l ih =>
    by_cases hax : a = x
    · subst hax
      rw [List.idxOf_cons_self]
      have : b = 0 ∨ b = 1 := by omega
      rcases this with rfl | rfl <;> simp
    · have hx' : x ∈ l := by
        rcases List.mem_cons.mp hx with rfl | h
        · exact absurd rfl hax
        · exact h
      rw [List.idxOf_cons_ne _ hax, show 2 * (l.idxOf x).succ + b = (2 * l.idxOf x + b) + 1 + 1 by omega]
      simpa using ih hx'

omit [IsStrictOrderedRing R] in
/-- the run after the local solutions were loaded -/
theorem rest_eq (S : Setup d R) (hS : S.Admissible) (hnd : S.order.Nodup) (B : Boundary S) (P : Data d R) (m : Machine S)
    (hidx : Function.Injective m.index) (Q : CellIndex S.cells → Fin (2 ^ d) → Node S.micro → R)
    (qN qD : CellIndex S.cells → Node S.micro → R) (w2 : Manager.World (Node S.micro → R)) (e2 : Manager.WF w2)
    (hst : ∀ J, w2.stored (m.index J) = Manager.corrList (Q J) (qN J) (qD J)) :
    (coarseSolution S B P m ((S.order.flatMap fun J => [(J, Manager.corrList (Q J) (qN J) (qD J)), (J, Manager.corrList (Q J) (qN J) (qD J))]).map
        Prod.snd) >>= fun u =>
      Manager.reconstructAll (2 ^ d + 2) 0 (fun _ => []) (coefficients S m u) w2 (S.order.map m.index) >>= fun r =>
        (pure (u, List.zipWith (fun J c => (localCell S B P J).add (fun k => u (cornerNode J (corner k))) c) S.order r.2) :
          Outcome ((Node S.cells → R) × List (Node S.micro → R)))) =
      match coarseSolve m.coarseValid m.coarseSolver
          (S.coarseMatrix P.diffusion (fun J => Manager.corrList (Q J) (qN J) (qD J)) m.tmpMatrix)
          (S.coarseLoad P.flux P.source (fun J => Manager.corrList (Q J) (qN J) (qD J)) m.tmpLoad (neumannPoints S B P.neumann))
          (fun g => P.dirichlet (nodePos S g)) B.isDirichlet 0 with
      | .ok u => .ok (u, S.order.map fun J => ∑ k, u (cornerNode J (corner k)) • (basis S k + Q J k) + qD J - qN J)
      | .invalidState => .throw
      | .other => .throw := by
  set xs : CellIndex S.cells → List (Node S.micro → R) := fun J => Manager.corrList (Q J) (qN J) (qD J) with hcl
  have hkeys : (S.order.map m.index).Nodup := hnd.map hidx
  -- coarse solution
  have hget : ∀ b, b < 2 → (fun J => ((S.order.flatMap fun J => [(J, xs J), (J, xs J)]).map Prod.snd).getD (2 * S.order.idxOf J + b) []) = xs :=
    fun b hb => funext fun J => getD_double S.order xs J (hS.order_complete J) [] b hb
  have h0 := hget 0 (by omega)
  simp only [Nat.add_zero] at h0
  unfold coarseSolution
  dsimp only
  rw [h0, hget 1 (by omega)]
  cases hc : coarseSolve m.coarseValid m.coarseSolver (S.coarseMatrix P.diffusion xs m.tmpMatrix)
      (S.coarseLoad P.flux P.source xs m.tmpLoad (neumannPoints S B P.neumann)) (fun g => P.dirichlet (nodePos S g)) B.isDirichlet 0 with
  | invalidState => rfl
  | other => rfl
  | ok u =>
  dsimp only
  rw [Outcome.ok_bind]
  -- reconstruction
  let look : ℕ → Option (CellIndex S.cells) := fun key => S.order.find? fun J => m.index J = key
  have hlook : ∀ J, look (m.index J) = some J := by
    intro J
    have : (look (m.index J)).isSome := List.find?_isSome.mpr ⟨J, hS.order_complete J, by simp⟩
    obtain ⟨J', hJ'⟩ := Option.isSome_iff_exists.mp this
    have h1 := List.find?_some hJ'
    have h2 : m.index J' = m.index J := by simpa using h1
    rw [hJ', hidx h2]
  obtain ⟨w3, e4⟩ := Manager.reconstructAll_spec (n := 2 ^ d) 0 (fun _ => [])
    (fun key => match look key with | some J => Q J | none => 0) (fun key => match look key with | some J => qN J | none => 0)
    (fun key => match look key with | some J => qD J | none => 0)
    (fun key k => match look key with | some J => u (cornerNode J (corner k)) | none => 0) w2 e2 (S.order.map m.index) hkeys (by
      intro key hk
      obtain ⟨J, -, rfl⟩ := List.mem_map.mp hk
      rw [hst J, hlook J])
  have hcoef : coefficients S m u = fun key => List.ofFn fun k => match look key with | some J => u (cornerNode J (corner k)) | none => 0 := rfl
  rw [hcoef, e4, Outcome.ok_bind]
  show Outcome.ok _ = Outcome.ok _
  congr 2
  rw [List.map_map, List.zipWith_map_right, List.zipWith_self]
  refine List.map_congr_left fun J _ => ?_
  simp only [Function.comp_apply, hlook, gt_iff_lt, lt_irrefl, if_false, Cell.add]
  have : ∀ k, (localCell S B P J).nodal k = basis S k := fun k => rfl
  simp only [this, smul_add, Finset.sum_add_distrib]
  abel

omit [IsStrictOrderedRing R] in
/-- the run in terms of its local solutions -/
theorem apply_eq (S : Setup d R) (hS : S.Admissible) (hnd : S.order.Nodup) (B : Boundary S) (P : Data d R) (m : Machine S)
    (hidx : Function.Injective m.index) (Q : CellIndex S.cells → Fin (2 ^ d) → Node S.micro → R)
    (qN qD : CellIndex S.cells → Node S.micro → R)
    (hxs : ∀ J, (localCell S B P J).solve m.valid (m.solvers J) true m.walks P.flux (localExtension S B P J) =
      .ok (Manager.corrList (Q J) (qN J) (qD J))) :
    apply S B P m =
      match coarseSolve m.coarseValid m.coarseSolver
          (S.coarseMatrix P.diffusion (fun J => Manager.corrList (Q J) (qN J) (qD J)) m.tmpMatrix)
          (S.coarseLoad P.flux P.source (fun J => Manager.corrList (Q J) (qN J) (qD J)) m.tmpLoad (neumannPoints S B P.neumann))
          (fun g => P.dirichlet (nodePos S g)) B.isDirichlet 0 with
      | .ok u => .ok (u, S.order.map fun J => ∑ k, u (cornerNode J (corner k)) • (basis S k + Q J k) + qD J - qN J)
      | .invalidState => .throw
      | .other => .throw := by
  set xs : CellIndex S.cells → List (Node S.micro → R) := fun J => Manager.corrList (Q J) (qN J) (qD J) with hcl
  unfold apply
  have hl : localSolutions S B P m = .ok (S.order.map fun J => (m.index J, xs J)) :=
    mapM_ok _ _ _ fun J _ => by rw [hxs J]; rfl
  rw [hl, Outcome.ok_bind]
  set cells := S.order.map fun J => (m.index J, xs J) with hcells
  -- save and load
  have hkeys : (S.order.map m.index).Nodup := hnd.map hidx
  have hfst : cells.map Prod.fst = S.order.map m.index := by
    rw [hcells, List.map_map]
    rfl
  obtain ⟨hwf, hst0, -⟩ := Manager.solveAll_spec (Manager.wf_init (V := Node S.micro → R)) cells (by rw [hfst]; exact hkeys)
  have hst : ∀ J, (Manager.solveAll .init cells).stored (m.index J) = xs J := by
    intro J
    have := hst0 (m.index J, xs J) (List.mem_map.mpr ⟨J, hS.order_complete J, rfl⟩)
    rw [this]
    exact List.nil_append _
  obtain ⟨w2, e1, e2, e3⟩ := Manager.loadAll_stored (Manager.solveAll .init cells) hwf
    ((S.order.flatMap fun J => [(J, xs J), (J, xs J)]).map fun c => (m.index c.1, c.2)) (by
      intro c hc
      obtain ⟨⟨J, y⟩, hJ, rfl⟩ := List.mem_map.mp hc
      obtain ⟨J', -, hJ'⟩ := List.mem_flatMap.mp hJ
      have : J = J' ∧ y = xs J' := by simpa using hJ'
      obtain ⟨rfl, rfl⟩ := this
      exact hst J)
  have hlen : ∀ J, (xs J).length = 2 ^ d + 2 := fun J => by simp [hcl, Manager.corrList]
  have hloads : ((S.order.flatMap fun J => [(J, xs J), (J, xs J)]).map fun c => (m.index c.1, c.2)).map (fun c => (c.1, c.2.length)) =
      S.order.flatMap fun J => [(m.index J, 2 ^ d + 2), (m.index J, 2 ^ d + 2)] := by
    rw [List.map_map, List.map_flatMap]
    simp [hlen]
  have hsnd : ((S.order.flatMap fun J => [(J, xs J), (J, xs J)]).map fun c => (m.index c.1, c.2)).map Prod.snd =
      (S.order.flatMap fun J => [(J, xs J), (J, xs J)]).map Prod.snd := by
    rw [List.map_map]
    rfl
  rw [hloads, hsnd] at e1
  dsimp only
  rw [e1, Outcome.ok_bind]
  dsimp only
  exact rest_eq S hS hnd B P m hidx Q qN qD w2 e2 fun J => by rw [e3, hst J]

theorem correctors_of_solve (S : Setup d R) (hS : S.Admissible) (B : Boundary S) (P : Data d R) (m : Machine S) (hm : Works S B P m)
    (J : CellIndex S.cells) (xs : List (Node S.micro → R))
    (h : (localCell S B P J).solve m.valid (m.solvers J) true m.walks P.flux (localExtension S B P J) = .ok xs) :
    ∃ Q qN qD, xs = Manager.corrList Q qN qD ∧ IsCorrector S B P J Q qN qD := by
  obtain ⟨Q, qN, qD, e, h1, h2, h3⟩ := correctors _ (cell_nested S hS B.constrained (localNeumann S B P.neumann J) J) m.walks
    hm.walks P.diffusion P.flux hm.flux (localExtension S B P J) m.valid (m.solvers J) (hm.local_correct J) xs h
  refine ⟨Q, qN, qD, e, h1, fun hb => h2 ?_, fun hb => (h3 ?_).1, fun hb => (h3 ?_).2⟩
  · simpa [Setup.cell] using hb
  · simpa [Setup.cell] using hb
  · simpa [Setup.cell] using hb

theorem apply_spec (S : Setup d R) (hS : S.Admissible) (hnd : S.order.Nodup) (B : Boundary S) (P : Data d R) (m : Machine S)
    (hm : Works S B P m) (u : Node S.cells → R) (res : List (Node S.micro → R)) (h : apply S B P m = .ok (u, res)) :
    ∃ Q qN qD fine, Computed S B P Q qN qD u fine ∧ res = S.order.map fine := by
  have hxs : ∀ J, ∃ xs, (localCell S B P J).solve m.valid (m.solvers J) true m.walks P.flux (localExtension S B P J) = .ok xs := by
    intro J
    cases hl : localSolutions S B P m with
    | throw => unfold apply at h; rw [hl] at h; cases h
    | ub => unfold apply at h; rw [hl] at h; cases h
    | ok cells =>
    obtain ⟨y, hy⟩ := mapM_mem _ _ _ hl J (hS.order_complete J)
    cases hs : (localCell S B P J).solve m.valid (m.solvers J) true m.walks P.flux (localExtension S B P J) with
    | throw => rw [hs] at hy; cases hy
    | ub => rw [hs] at hy; cases hy
    | ok xs => exact ⟨xs, rfl⟩
  choose xs hxs using hxs
  choose Q qN qD hcl hcorr using fun J => correctors_of_solve S hS B P m hm J (xs J) (hxs J)
  rw [apply_eq S hS hnd B P m hm.index_injective Q qN qD fun J => by rw [hxs J, hcl J]] at h
  split at h
  · rename_i v hv
    injection h with h
    injection h with hu hr
    subst hu
    refine ⟨Q, qN, qD, _, ⟨hcorr, ?_, fun J => rfl⟩, hr.symm⟩
    have := C25_coarse_solution _ _ hm.coarse_correct _ _ _ _ _ _ hv
    rw [coarseMatrix_tmp S P.diffusion _ 0 m.tmpMatrix, coarseLoad_eq S P.diffusion P.flux hm.flux,
      ← coarseLoad_eq S P.diffusion P.flux hm.flux P.source _ m.tmpLoad]
    exact this
  · cases h
  · cases h

/-! ## The coarse system as a sum over quadrature points -/

omit [LinearOrder R] [IsStrictOrderedRing R] in
theorem corrList_inner {ι : Type} {n : ℕ} (Q : Fin n → ι → R) (N D : ι → R) (k : Fin n) :
    (Manager.corrList Q N D).getD k.1 0 = Q k := by
  rw [List.getD_eq_getElem?_getD, Manager.corrList, List.getElem?_append_left (by simp)]
  simp

omit [LinearOrder R] [IsStrictOrderedRing R] in
theorem corrList_neumann {ι : Type} {n : ℕ} (Q : Fin n → ι → R) (N D : ι → R) :
    (Manager.corrList Q N D).getD (neumannSlot n) 0 = N := by
  rw [List.getD_eq_getElem?_getD, Manager.corrList, List.getElem?_append_right (by simp [neumannSlot])]
  simp [neumannSlot]

omit [LinearOrder R] [IsStrictOrderedRing R] in
theorem corrList_dirichlet {ι : Type} {n : ℕ} (Q : Fin n → ι → R) (N D : ι → R) :
    (Manager.corrList Q N D).getD (dirichletSlot n) 0 = D := by
  rw [List.getD_eq_getElem?_getD, Manager.corrList, List.getElem?_append_right (by simp [dirichletSlot])]
  simp [dirichletSlot]

/-- quadrature points of the coarse assemblers -/
def points (S : Setup d R) (rule : List (QPoint d R)) : List (CellIndex S.cells × CellIndex S.micro × QPoint d R) :=
  S.order.flatMap fun J => S.localOrder.flatMap fun j => rule.map fun q => (J, j, q)

/-- gradient of a function on the local grid -/
def grad (S : Setup d R) (v : Node S.micro → R) (J : CellIndex S.cells) (j : CellIndex S.micro) (x : Fin d → R) : Fin d → R :=
  (element (S.cellLower J) S.localWidth [] j).gradOf v x

/-- sample at a quadrature point -/
def sampleAt (S : Setup d R) (diffusion : (Fin d → R) → Matrix (Fin d) (Fin d) R) (source : (Fin d → R) → R)
    (Q : CellIndex S.cells → Fin (2 ^ d) → Node S.micro → R) (qN qD : CellIndex S.cells → Node S.micro → R)
    (t : CellIndex S.cells × CellIndex S.micro × QPoint d R) : Sample d (2 ^ d) (Node S.cells) R where
  weight := t.2.2.weight * ∏ i, S.localWidth i
  tensor := diffusion (globalPos (S.cellLower t.1) S.localWidth t.2.1 t.2.2.pos)
  source := source (globalPos (S.cellLower t.1) S.localWidth t.2.1 t.2.2.pos)
  dofs := fun k => cornerNode t.1 (corner k)
  val := fun k => shape (corner k) t.2.2.pos + valueOf (Q t.1 k) t.2.1 t.2.2.pos
  grad := fun k => (fun i => shapeGrad (corner k) t.2.2.pos i / S.width i) + grad S (Q t.1 k) t.1 t.2.1 t.2.2.pos
  lifting := grad S (qD t.1) t.1 t.2.1 t.2.2.pos - grad S (qN t.1) t.1 t.2.1 t.2.2.pos

omit [LinearOrder R] [IsStrictOrderedRing R] in
theorem usedSamples_points (S : Setup d R) (rule : List (QPoint d R)) (diffusion : (Fin d → R) → Matrix (Fin d) (Fin d) R)
    (source : (Fin d → R) → R) (Q : CellIndex S.cells → Fin (2 ^ d) → Node S.micro → R)
    (qN qD : CellIndex S.cells → Node S.micro → R) :
    usedSamples diffusion source (S.order.map fun J => S.coarseCell rule J (Manager.corrList (Q J) (qN J) (qD J))) =
      (points S rule).map (sampleAt S diffusion source Q qN qD) := by
  unfold usedSamples points
  rw [List.flatMap_map, List.map_flatMap]
  refine List.flatMap_congr fun J _ => ?_
  rw [List.map_flatMap]
  have : (S.coarseCell rule J (Manager.corrList (Q J) (qN J) (qD J))).cells.filter (·.covered) =
      (S.coarseCell rule J (Manager.corrList (Q J) (qN J) (qD J))).cells := by
    rw [List.filter_eq_self]
    intro e he
    obtain ⟨j, -, rfl⟩ := List.mem_map.mp he
    rfl
  rw [this]
  simp only [Setup.coarseCell, List.flatMap_map]
  refine List.flatMap_congr fun j _ => ?_
  simp only [element, scaleRule, List.map_map]
  refine List.map_congr_left fun q _ => ?_
  simp only [Function.comp_apply, sampleAt, corrList_inner, corrList_neumann, corrList_dirichlet]
  rfl

/-! ## Linearity -/

omit [LinearOrder R] [IsStrictOrderedRing R] in
theorem isSolution_comb {ι : Type} [Fintype ι] {A : Matrix ι ι R} {D : ι → Bool} {l l' g g' u u' : ι → R} (a b : R)
    (h : IsSolution A l g D u) (h' : IsSolution A l' g' D u') :
    IsSolution A (a • l + b • l') (a • g + b • g') D (a • u + b • u') := by
  refine ⟨fun i hi => ?_, fun i hi => ?_⟩
  · simp only [Pi.add_apply, Pi.smul_apply, h.boundary i hi, h'.boundary i hi]
  · simp only [mulVec_add, mulVec_smul, Pi.add_apply, Pi.smul_apply, h.equation i hi, h'.equation i hi]

omit [LinearOrder R] [IsStrictOrderedRing R] in
theorem isSolution_scale {ι : Type} [Fintype ι] {A : Matrix ι ι R} {D : ι → Bool} {l g u : ι → R} (c : R)
    (h : IsSolution A l g D u) : IsSolution (c • A) (c • l) g D u := by
  refine ⟨h.boundary, fun i hi => ?_⟩
  rw [smul_mulVec, Pi.smul_apply, h.equation i hi, Pi.smul_apply]

omit [LinearOrder R] [IsStrictOrderedRing R] in
theorem localNeumann_apply (S : Setup d R) (B : Boundary S) (g : (Fin d → R) → R) (J : CellIndex S.cells) (node : Node S.micro) :
    localNeumann S B g J node = ((B.localFaces J).map fun p => ∑ k : Fin (2 ^ d), if node = cornerNode p.cell (corner k) then
      p.weight * g (globalPos (S.cellLower J) S.localWidth p.cell p.pos) * shape (corner k) p.pos else 0).sum := by
  unfold localNeumann
  rw [foldl_contrib (R := R) (B.localFaces J) _ (fun b : Node S.micro → R => b node) (fun p => ∑ k : Fin (2 ^ d),
    if node = cornerNode p.cell (corner k) then
      p.weight * g (globalPos (S.cellLower J) S.localWidth p.cell p.pos) * shape (corner k) p.pos else 0), Pi.zero_apply, zero_add]
  intro b p
  rw [foldl_contrib (R := R) (List.finRange (2 ^ d)) _ (fun b : Node S.micro → R => b node) (fun k =>
    if node = cornerNode p.cell (corner k) then
      p.weight * g (globalPos (S.cellLower J) S.localWidth p.cell p.pos) * shape (corner k) p.pos else 0)]
  · rw [sum_finRange]
  · intro b k
    exact addToVec_apply _ _ _ _

omit [LinearOrder R] [IsStrictOrderedRing R] in
theorem localNeumann_comb (S : Setup d R) (B : Boundary S) (a b : R) (g g1 g2 : (Fin d → R) → R) (h : ∀ x, g x = a * g1 x + b * g2 x)
    (J : CellIndex S.cells) : localNeumann S B g J = a • localNeumann S B g1 J + b • localNeumann S B g2 J := by
  funext node
  simp only [Pi.add_apply, Pi.smul_apply, smul_eq_mul, localNeumann_apply]
  rw [← FemSolver.sum_map_comb]
  refine congrArg List.sum (List.map_congr_left fun p _ => ?_)
  rw [Finset.mul_sum, Finset.mul_sum, ← Finset.sum_add_distrib]
  refine Finset.sum_congr rfl fun k _ => ?_
  rw [h]
  split_ifs <;> ring

omit [LinearOrder R] [IsStrictOrderedRing R] in
theorem femNeumann_comb (S : Setup d R) (B : Boundary S) (a b : R) (g g1 g2 : (Fin d → R) → R) (h : ∀ x, g x = a * g1 x + b * g2 x) :
    femNeumann S (neumannPoints S B g) = a • femNeumann S (neumannPoints S B g1) + b • femNeumann S (neumannPoints S B g2) := by
  funext node
  simp only [Pi.add_apply, Pi.smul_apply, smul_eq_mul, femNeumann, neumannPoints, List.map_map]
  rw [← FemSolver.sum_map_comb]
  refine congrArg List.sum (List.map_congr_left fun p _ => ?_)
  simp only [Function.comp_apply]
  rw [Finset.mul_sum, Finset.mul_sum, ← Finset.sum_add_distrib]
  refine Finset.sum_congr rfl fun k _ => ?_
  rw [h]
  split_ifs <;> ring

omit [LinearOrder R] [IsStrictOrderedRing R] in
theorem localExtension_comb (S : Setup d R) (B : Boundary S) (P P1 P2 : Data d R) (a b : R)
    (h : ∀ x, P.dirichlet x = a * P1.dirichlet x + b * P2.dirichlet x) (J : CellIndex S.cells) (k : Fin (2 ^ d)) :
    localExtension S B P J k = a * localExtension S B P1 J k + b * localExtension S B P2 J k := by
  simp only [localExtension, dirichletProject, h, Pi.zero_apply]
  split_ifs <;> ring

omit [LinearOrder R] [IsStrictOrderedRing R] in
theorem grad_comb (S : Setup d R) (a b : R) (v w : Node S.micro → R) (J : CellIndex S.cells) (j : CellIndex S.micro) (x : Fin d → R) :
    grad S (a • v + b • w) J j x = a • grad S v J j x + b • grad S w J j x := by
  simp only [grad, Element.gradOf, Finset.smul_sum, ← Finset.sum_add_distrib]
  refine Finset.sum_congr rfl fun k _ => ?_
  funext i
  simp only [Pi.add_apply, Pi.smul_apply, smul_eq_mul]
  ring

omit [LinearOrder R] [IsStrictOrderedRing R] in
theorem term_comb {n : ℕ} {G : Type} [DecidableEq G] (s s1 s2 : Sample d n G R) (a b : R) (hw1 : s1.weight = s.weight)
    (hw2 : s2.weight = s.weight) (ht1 : s1.tensor = s.tensor) (ht2 : s2.tensor = s.tensor) (hd1 : s1.dofs = s.dofs)
    (hd2 : s2.dofs = s.dofs) (hv1 : s1.val = s.val) (hv2 : s2.val = s.val) (hg1 : s1.grad = s.grad) (hg2 : s2.grad = s.grad)
    (hs : s.source = a * s1.source + b * s2.source) (hl : s.lifting = a • s1.lifting + b • s2.lifting) (g : G) :
    (∑ i, if s.dofs i = g then s.weight * (s.source * s.val i - (s.tensor *ᵥ s.lifting) ⬝ᵥ s.grad i) else 0) =
      a * (∑ i, if s1.dofs i = g then s1.weight * (s1.source * s1.val i - (s1.tensor *ᵥ s1.lifting) ⬝ᵥ s1.grad i) else 0) +
      b * ∑ i, if s2.dofs i = g then s2.weight * (s2.source * s2.val i - (s2.tensor *ᵥ s2.lifting) ⬝ᵥ s2.grad i) else 0 := by
  simp only [hw1, hw2, ht1, ht2, hd1, hd2, hv1, hv2, hg1, hg2, hs, hl]
  rw [Finset.mul_sum, Finset.mul_sum, ← Finset.sum_add_distrib]
  refine Finset.sum_congr rfl fun k _ => ?_
  split_ifs
  · simp only [mulVec_add, mulVec_smul, add_dotProduct, smul_dotProduct, smul_eq_mul]
    ring
  · ring

omit [LinearOrder R] [IsStrictOrderedRing R] in
theorem load_comb (S : Setup d R) (rule : List (QPoint d R)) (diffusion : (Fin d → R) → Matrix (Fin d) (Fin d) R) (a b : R)
    (f f1 f2 : (Fin d → R) → R) (hf : ∀ x, f x = a * f1 x + b * f2 x) (Q : CellIndex S.cells → Fin (2 ^ d) → Node S.micro → R)
    (N1 D1 N2 D2 : CellIndex S.cells → Node S.micro → R) :
    load ((points S rule).map (sampleAt S diffusion f Q (fun J => a • N1 J + b • N2 J) (fun J => a • D1 J + b • D2 J))) =
      a • load ((points S rule).map (sampleAt S diffusion f1 Q N1 D1)) + b • load ((points S rule).map (sampleAt S diffusion f2 Q N2 D2)) := by
  funext node
  simp only [Pi.add_apply, Pi.smul_apply, smul_eq_mul, load, List.map_map]
  rw [← FemSolver.sum_map_comb]
  refine congrArg List.sum (List.map_congr_left fun t _ => ?_)
  refine term_comb (sampleAt S diffusion f Q (fun J => a • N1 J + b • N2 J) (fun J => a • D1 J + b • D2 J) t)
    (sampleAt S diffusion f1 Q N1 D1 t) (sampleAt S diffusion f2 Q N2 D2 t) a b rfl rfl rfl rfl rfl rfl rfl rfl rfl rfl (hf _) ?_ node
  simp only [sampleAt, grad_comb, smul_sub]
  abel

omit [LinearOrder R] [IsStrictOrderedRing R] in
/-- the matrix depends on the inner correctors only -/
theorem coarseMatrix_points (S : Setup d R) (diffusion : (Fin d → R) → Matrix (Fin d) (Fin d) R)
    (Q : CellIndex S.cells → Fin (2 ^ d) → Node S.micro → R) (qN qD : CellIndex S.cells → Node S.micro → R)
    (tmp : Fin (2 ^ d) → Fin (2 ^ d) → R) :
    S.coarseMatrix diffusion (fun J => Manager.corrList (Q J) (qN J) (qD J)) tmp =
      Matrix.of (stiffness ((points S S.matrixRule).map (sampleAt S diffusion 0 Q 0 0))) := by
  rw [coarseMatrix_eq, usedSamples_points]
  ext a b
  simp only [Matrix.of_apply, stiffness, List.map_map]
  rfl

omit [LinearOrder R] [IsStrictOrderedRing R] in
theorem coarseLoad_points (S : Setup d R) (diffusion : (Fin d → R) → Matrix (Fin d) (Fin d) R)
    (flux : (Fin d → R) → (Fin d → R) → (Fin d → R)) (hflux : ∀ x v, flux x v = diffusion x *ᵥ v) (source : (Fin d → R) → R)
    (Q : CellIndex S.cells → Fin (2 ^ d) → Node S.micro → R) (qN qD : CellIndex S.cells → Node S.micro → R)
    (tmp : Fin (2 ^ d) → R) (pts : List (NeumannPoint S)) :
    S.coarseLoad flux source (fun J => Manager.corrList (Q J) (qN J) (qD J)) tmp pts =
      load ((points S S.loadRule).map (sampleAt S diffusion source Q qN qD)) + femNeumann S pts := by
  rw [coarseLoad_eq S diffusion flux hflux, usedSamples_points]

/-! ## Uniqueness -/

/-- Conditions under which local and coarse problems have exactly one solution: positive definite diffusion, sufficient quadrature, local problems
constrained at the corners of the coarse cells, at least one Dirichlet node. -/
structure Unique (S : Setup d R) (B : Boundary S) (P : Data d R) : Prop where
  admissible : S.Admissible
  nodup : S.order.Nodup
  localRule : Resolving S.localRule
  matrixRule : Resolving S.matrixRule
  definite : Definite P.diffusion
  corners : ∀ node : Node S.micro, (∀ i, (node i).1 = 0 ∨ (node i).1 = S.micro i) → B.constrained node = true
  dirichlet : ∃ g, B.isDirichlet g = true

theorem local_unique (S : Setup d R) (B : Boundary S) (P : Data d R) (h : Unique S B P) (J : CellIndex S.cells) :
    FreeInjective (localStiff S B P J) B.constrained :=
  local_free_injective S h.admissible h.localRule P.diffusion h.definite B.constrained
    ⟨fun _ => 0, h.corners _ fun _ => Or.inl rfl⟩ _ J

theorem corrector_unique (S : Setup d R) (B : Boundary S) (P : Data d R) (h : Unique S B P) (J : CellIndex S.cells)
    (Q Q' : Fin (2 ^ d) → Node S.micro → R) (N N' D D' : Node S.micro → R) (hQ : IsCorrector S B P J Q N D)
    (hQ' : IsCorrector S B P J Q' N' D') : Q = Q' ∧ N = N' ∧ D = D' := by
  have hinj := local_unique S B P h J
  refine ⟨funext fun k => unique_of_freeInjective hinj (hQ.inner k) (hQ'.inner k), ?_⟩
  by_cases hb : ∃ i, (J i).1 = 0 ∨ (J i).1 + 1 = S.cells i
  · exact ⟨unique_of_freeInjective hinj (hQ.neumann hb) (hQ'.neumann hb), unique_of_freeInjective hinj (hQ.dirichlet hb) (hQ'.dirichlet hb)⟩
  · rw [(hQ.inside hb).1, (hQ.inside hb).2, (hQ'.inside hb).1, (hQ'.inside hb).2]
    exact ⟨rfl, rfl⟩

theorem coarse_unique (S : Setup d R) (B : Boundary S) (P : Data d R) (h : Unique S B P)
    (Q : CellIndex S.cells → Fin (2 ^ d) → Node S.micro → R) (qN qD : CellIndex S.cells → Node S.micro → R)
    (hQ : ∀ J, IsCorrector S B P J (Q J) (qN J) (qD J)) (tmp : Fin (2 ^ d) → Fin (2 ^ d) → R) :
    FreeInjective (S.coarseMatrix P.diffusion (fun J => Manager.corrList (Q J) (qN J) (qD J)) tmp) B.isDirichlet := by
  refine free_injective_of_corners S h.admissible h.matrixRule P.diffusion h.definite _ (fun J k node hn => ?_) tmp _ h.dirichlet
  rw [corrList_inner]
  exact ((hQ J).inner k).boundary node (h.corners node hn)

theorem computed_unique (S : Setup d R) (B : Boundary S) (P : Data d R) (h : Unique S B P)
    (Q Q' : CellIndex S.cells → Fin (2 ^ d) → Node S.micro → R) (qN qD qN' qD' : CellIndex S.cells → Node S.micro → R)
    (u u' : Node S.cells → R) (fine fine' : CellIndex S.cells → Node S.micro → R) (hc : Computed S B P Q qN qD u fine)
    (hc' : Computed S B P Q' qN' qD' u' fine') : u = u' ∧ fine = fine' := by
  obtain rfl : Q = Q' := funext fun J => (corrector_unique S B P h J _ _ _ _ _ _ (hc.corrector J) (hc'.corrector J)).1
  obtain rfl : qN = qN' := funext fun J => (corrector_unique S B P h J _ _ _ _ _ _ (hc.corrector J) (hc'.corrector J)).2.1
  obtain rfl : qD = qD' := funext fun J => (corrector_unique S B P h J _ _ _ _ _ _ (hc.corrector J) (hc'.corrector J)).2.2
  obtain rfl : u = u' := unique_of_freeInjective (coarse_unique S B P h Q qN qD hc.corrector 0) hc.coarse hc'.coarse
  exact ⟨rfl, funext fun J => by rw [hc.fine_eq, hc'.fine_eq]⟩

/-! ## Runs that succeed -/

/-- **C82** (success) A run returns if no value is found invalid and the solvers return whenever their systems can be solved. -/
theorem C82_succeeds (S : Setup d R) (B : Boundary S) (P : Data d R) (h : Unique S B P) (m : Machine S)
    (hm : Works S B P m) (hv : m.valid = fun _ => true) (hcv : m.coarseValid = fun _ => true)
    (hl : ∀ J x b, (∃ y, constrainMat B.constrained ((localCell S B P J).matrix m.walks P.diffusion) *ᵥ y = b) →
      ∃ y, (m.solvers J).direct x b = .ok y)
    (hc : ∀ M b x, (∃ y, M *ᵥ y = b) → ∃ y, m.coarseSolver M b x = .ok y) :
    ∃ u res, apply S B P m = .ok (u, res) := by
  have hS := h.admissible
  have hl' : ∀ J x b, ∃ y, (m.solvers J).direct x b = .ok y := by
    intro J x b
    apply hl
    have hdet : IsUnit (constrainMat B.constrained ((localCell S B P J).matrix m.walks P.diffusion)).det := by
      rw [isUnit_iff_ne_zero]
      intro h0
      obtain ⟨v, hv, hv0⟩ := exists_mulVec_eq_zero_iff.mpr h0
      apply hv
      have hw : (m.walks : R) ≠ 0 := by exact_mod_cast hm.walks
      have hmat : (localCell S B P J).matrix m.walks P.diffusion = (m.walks : R) • localStiff S B P J := by
        ext a b
        rw [matrix_apply]
        rfl
      apply local_unique S B P h J v
      · intro i hi
        have := congrFun hv0 i
        rw [constrainMat_mulVec] at this
        simpa [hi] using this
      · intro i hi
        have := congrFun hv0 i
        rw [constrainMat_mulVec, hmat, smul_mulVec] at this
        simpa [hi, hw] using this
    exact ⟨(constrainMat B.constrained ((localCell S B P J).matrix m.walks P.diffusion))⁻¹ *ᵥ b, by
      rw [mulVec_mulVec, mul_nonsing_inv _ hdet, one_mulVec]⟩
  have hxs : ∀ J, ∃ xs, (localCell S B P J).solve m.valid (m.solvers J) true m.walks P.flux (localExtension S B P J) = .ok xs := by
    intro J
    unfold Cell.solve solveCell
    rw [assembleRhs_eq, hv]
    exact solveLoop_total _ (hl' J) _ _ _ _
  choose xs hxs using hxs
  choose Q qN qD hcl hcorr using fun J => correctors_of_solve S hS B P m hm J (xs J) (hxs J)
  rw [apply_eq S hS h.nodup B P m hm.index_injective Q qN qD fun J => by rw [hxs J, hcl J]]
  obtain ⟨x, hx, -⟩ := C25_system_solvable _ (S.coarseLoad P.flux P.source (fun J => Manager.corrList (Q J) (qN J) (qD J)) m.tmpLoad
    (neumannPoints S B P.neumann)) (fun g => P.dirichlet (nodePos S g)) _ (coarse_unique S B P h Q qN qD hcorr m.tmpMatrix)
  obtain ⟨y, hy⟩ := hc _ _ 0 ⟨x, hx⟩
  unfold coarseSolve
  dsimp only
  rw [hy, finishCoarse, hcv, if_pos rfl]
  exact ⟨_, _, rfl⟩

/-- Solvers that meet the contracts exist, so there is a successful run for every problem. -/
theorem C82_run_exists (S : Setup d R) (B : Boundary S) (P : Data d R) (h : Unique S B P)
    (hflux : ∀ x v, P.flux x v = P.diffusion x *ᵥ v) :
    ∃ m, Works S B P m ∧ ∃ u res, apply S B P m = .ok (u, res) := by
  classical
  let M : CellIndex S.cells → Matrix (Node S.micro) (Node S.micro) R := fun J =>
    constrainMat B.constrained ((localCell S B P J).matrix 1 P.diffusion)
  let pick : CellIndex S.cells → (Node S.micro → R) → Outcome (Node S.micro → R) := fun J b =>
    if hb : ∃ y, M J *ᵥ y = b then .ok hb.choose else .throw
  have hpick : ∀ J b x, pick J b = .ok x → M J *ᵥ x = b := by
    intro J b x hx
    simp only [pick] at hx
    split_ifs at hx with hb
    injection hx with hx
    rw [← hx]
    exact hb.choose_spec
  let m : Machine S :=
    { walks := 1, valid := fun _ => true, solvers := fun J => ⟨fun _ b => pick J b, fun b _ => pick J b⟩, coarseValid := fun _ => true
      coarseSolver := fun M b _ => if hb : ∃ y, M *ᵥ y = b then .ok hb.choose else .failed
      tmpMatrix := 0, tmpLoad := 0, index := S.order.idxOf }
  have hm : Works S B P m :=
    { walks := one_ne_zero
      flux := hflux
      local_correct := fun J => ⟨fun _ b x hx => hpick J b x hx, fun b _ x hx => hpick J b x hx⟩
      coarse_correct := by
        intro A b x0 x hx
        simp only [m] at hx
        split_ifs at hx with hb
        injection hx with hx
        rw [← hx]
        exact hb.choose_spec
      index_injective := fun J J' e => (List.idxOf_inj (h.admissible.order_complete J)).mp e }
  refine ⟨m, hm, C82_succeeds S B P h m hm rfl rfl ?_ ?_⟩
  · intro J x b hb
    exact ⟨hb.choose, dif_pos hb⟩
  · intro A b x hb
    exact ⟨hb.choose, dif_pos hb⟩

/-! ## Superposition -/

omit [LinearOrder R] [IsStrictOrderedRing R] in
theorem corrector_comb (S : Setup d R) (B : Boundary S) (P P1 P2 : Data d R) (a b : R) (h1 : P1.diffusion = P.diffusion)
    (h2 : P2.diffusion = P.diffusion) (hN : ∀ x, P.neumann x = a * P1.neumann x + b * P2.neumann x)
    (hD : ∀ x, P.dirichlet x = a * P1.dirichlet x + b * P2.dirichlet x) (J : CellIndex S.cells)
    (Q : Fin (2 ^ d) → Node S.micro → R) (N1 D1 N2 D2 : Node S.micro → R) (hc1 : IsCorrector S B P1 J Q N1 D1)
    (hc2 : IsCorrector S B P2 J Q N2 D2) : IsCorrector S B P J Q (a • N1 + b • N2) (a • D1 + b • D2) := by
  have e1 : localStiff S B P1 J = localStiff S B P J := by unfold localStiff; rw [h1]; rfl
  have e2 : localStiff S B P2 J = localStiff S B P J := by unfold localStiff; rw [h2]; rfl
  have hz : a • (0 : Node S.micro → R) + b • (0 : Node S.micro → R) = 0 := by simp
  refine ⟨fun k => e1 ▸ hc1.inner k, fun hb => ?_, fun hb => ?_, fun hb => ?_⟩
  · rw [(hc1.inside hb).1, (hc1.inside hb).2, (hc2.inside hb).1, (hc2.inside hb).2, hz]
    exact ⟨rfl, rfl⟩
  · have := isSolution_comb a b (e1 ▸ hc1.neumann hb) (e2 ▸ hc2.neumann hb)
    rwa [hz, ← localNeumann_comb S B a b P.neumann _ _ hN J] at this
  · have := isSolution_comb a b (e1 ▸ hc1.dirichlet hb) (e2 ▸ hc2.dirichlet hb)
    rw [hz] at this
    convert this using 1
    rw [smul_neg, smul_neg, ← mulVec_smul, ← mulVec_smul, ← neg_add, ← mulVec_add, Finset.smul_sum, Finset.smul_sum,
      ← Finset.sum_add_distrib]
    congr 2
    refine Finset.sum_congr rfl fun k _ => ?_
    rw [localExtension_comb S B P P1 P2 a b hD, add_smul, mul_smul, mul_smul]

theorem computed_comb (S : Setup d R) (B : Boundary S) (P P1 P2 : Data d R) (a b : R) (h1 : P1.diffusion = P.diffusion)
    (h2 : P2.diffusion = P.diffusion) (hx : ∀ x v, P.flux x v = P.diffusion x *ᵥ v) (hx1 : ∀ x v, P1.flux x v = P1.diffusion x *ᵥ v)
    (hx2 : ∀ x v, P2.flux x v = P2.diffusion x *ᵥ v)
    (hf : ∀ x, P.source x = a * P1.source x + b * P2.source x) (hN : ∀ x, P.neumann x = a * P1.neumann x + b * P2.neumann x)
    (hD : ∀ x, P.dirichlet x = a * P1.dirichlet x + b * P2.dirichlet x) (h : Unique S B P)
    (Q1 Q2 : CellIndex S.cells → Fin (2 ^ d) → Node S.micro → R) (N1 D1 N2 D2 : CellIndex S.cells → Node S.micro → R)
    (u1 u2 : Node S.cells → R) (f1 f2 : CellIndex S.cells → Node S.micro → R)
    (hc1 : Computed S B P1 Q1 N1 D1 u1 f1) (hc2 : Computed S B P2 Q2 N2 D2 u2 f2) :
    Computed S B P Q1 (fun J => a • N1 J + b • N2 J) (fun J => a • D1 J + b • D2 J) (a • u1 + b • u2) (fun J => a • f1 J + b • f2 J) := by
  have e1 : ∀ J, localStiff S B P1 J = localStiff S B P J := fun J => by unfold localStiff; rw [h1]; rfl
  have e2 : ∀ J, localStiff S B P2 J = localStiff S B P J := fun J => by unfold localStiff; rw [h2]; rfl
  obtain rfl : Q1 = Q2 := by
    funext J k
    have i1 := (hc1.corrector J).inner k
    have i2 := (hc2.corrector J).inner k
    rw [e1] at i1
    rw [e2] at i2
    exact unique_of_freeInjective (local_unique S B P h J) i1 i2
  refine ⟨fun J => corrector_comb S B P P1 P2 a b h1 h2 hN hD J _ _ _ _ _ (hc1.corrector J) (hc2.corrector J), ?_, fun J => ?_⟩
  · have c1 := hc1.coarse
    have c2 := hc2.coarse
    rw [coarseMatrix_points, coarseLoad_points S _ _ hx1, h1] at c1
    rw [coarseMatrix_points, coarseLoad_points S _ _ hx2, h2] at c2
    rw [coarseMatrix_points, coarseLoad_points S _ _ hx, load_comb S S.loadRule P.diffusion a b P.source _ _ hf Q1,
      femNeumann_comb S B a b P.neumann _ _ hN]
    have := isSolution_comb a b c1 c2
    convert this using 1
    · rw [smul_add, smul_add]
      abel
    · funext g
      simp only [hD, Pi.add_apply, Pi.smul_apply, smul_eq_mul]
  · simp only [hc1.fine_eq, hc2.fine_eq, smul_sub, smul_add, Pi.add_apply, Pi.smul_apply, smul_eq_mul, add_smul,
      Finset.sum_add_distrib, Finset.smul_sum, mul_smul]
    abel

/-- **C82** (superposition) If source, Neumann data and Dirichlet data of a problem are a combination of those of two problems with the same
diffusion, then the coarse solution and the solution on every cell are the same combination, whatever solvers, indices, temporaries and
number of walks the three runs use. -/
theorem C82_superposition (S : Setup d R) (B : Boundary S) (P P1 P2 : Data d R) (h : Unique S B P) (a b : R)
    (h1 : P1.diffusion = P.diffusion) (h2 : P2.diffusion = P.diffusion)
    (hf : ∀ x, P.source x = a * P1.source x + b * P2.source x) (hN : ∀ x, P.neumann x = a * P1.neumann x + b * P2.neumann x)
    (hD : ∀ x, P.dirichlet x = a * P1.dirichlet x + b * P2.dirichlet x) (m m1 m2 : Machine S) (hm : Works S B P m)
    (hm1 : Works S B P1 m1) (hm2 : Works S B P2 m2) (u u1 u2 : Node S.cells → R) (res res1 res2 : List (Node S.micro → R))
    (hr : apply S B P m = .ok (u, res)) (hr1 : apply S B P1 m1 = .ok (u1, res1)) (hr2 : apply S B P2 m2 = .ok (u2, res2)) :
    u = a • u1 + b • u2 ∧ res = List.zipWith (fun v w => a • v + b • w) res1 res2 := by
  obtain ⟨Q, qN, qD, fine, hc, rfl⟩ := apply_spec S h.admissible h.nodup B P m hm u res hr
  obtain ⟨Q1, qN1, qD1, fine1, hc1, rfl⟩ := apply_spec S h.admissible h.nodup B P1 m1 hm1 u1 res1 hr1
  obtain ⟨Q2, qN2, qD2, fine2, hc2, rfl⟩ := apply_spec S h.admissible h.nodup B P2 m2 hm2 u2 res2 hr2
  have := computed_comb S B P P1 P2 a b h1 h2 hm.flux hm1.flux hm2.flux hf hN hD h _ _ _ _ _ _ _ _ _ _ hc1 hc2
  obtain ⟨rfl, rfl⟩ := computed_unique S B P h _ _ _ _ _ _ _ _ _ _ hc this
  refine ⟨rfl, ?_⟩
  rw [List.zipWith_map, List.zipWith_self]

/-! ## Scaling -/

/-- sample with diffusion and source multiplied by a number -/
def scaleSample {n : ℕ} {G : Type} (c : R) (s : Sample d n G R) : Sample d n G R :=
  { s with tensor := c • s.tensor, source := c * s.source }

omit [LinearOrder R] [IsStrictOrderedRing R] in
theorem stiffness_scale {n : ℕ} {G : Type} [DecidableEq G] (c : R) (l : List (Sample d n G R)) (a b : G) :
    stiffness (l.map (scaleSample c)) a b = c * stiffness l a b := by
  unfold stiffness
  rw [List.map_map, ← List.sum_map_mul_left]
  refine congrArg List.sum (List.map_congr_left fun s _ => ?_)
  simp only [Function.comp_apply, Finset.mul_sum]
  refine Finset.sum_congr rfl fun i _ => Finset.sum_congr rfl fun j _ => ?_
  show (if s.dofs i = a ∧ s.dofs j = b then s.weight * (((c • s.tensor) *ᵥ s.grad j) ⬝ᵥ s.grad i) else 0) = _
  split_ifs
  · rw [smul_mulVec, smul_dotProduct, smul_eq_mul]
    ring
  · rw [mul_zero]

omit [LinearOrder R] [IsStrictOrderedRing R] in
theorem load_scale {n : ℕ} {G : Type} [DecidableEq G] (c : R) (l : List (Sample d n G R)) (a : G) :
    load (l.map (scaleSample c)) a = c * load l a := by
  unfold load
  rw [List.map_map, ← List.sum_map_mul_left]
  refine congrArg List.sum (List.map_congr_left fun s _ => ?_)
  simp only [Function.comp_apply, Finset.mul_sum]
  refine Finset.sum_congr rfl fun i _ => ?_
  show (if s.dofs i = a then s.weight * (c * s.source * s.val i - ((c • s.tensor) *ᵥ s.lifting) ⬝ᵥ s.grad i) else 0) = _
  split_ifs
  · rw [smul_mulVec, smul_dotProduct, smul_eq_mul]
    ring
  · rw [mul_zero]

/-- **C82** (units) If diffusion, source and Neumann data are multiplied by the same positive number, the result stays the same. -/
theorem C82_scaling (S : Setup d R) (B : Boundary S) (P P' : Data d R) (h : Unique S B P) (c : R) (hc0 : 0 < c)
    (hA : ∀ x, P'.diffusion x = c • P.diffusion x) (hf : ∀ x, P'.source x = c * P.source x)
    (hN : ∀ x, P'.neumann x = c * P.neumann x) (hD : P'.dirichlet = P.dirichlet) (m m' : Machine S) (hm : Works S B P m)
    (hm' : Works S B P' m') (u u' : Node S.cells → R) (res res' : List (Node S.micro → R))
    (hr : apply S B P m = .ok (u, res)) (hr' : apply S B P' m' = .ok (u', res')) : u' = u ∧ res' = res := by
  obtain ⟨Q, qN, qD, fine, hc, rfl⟩ := apply_spec S h.admissible h.nodup B P m hm u res hr
  obtain ⟨Q', qN', qD', fine', hc', rfl⟩ := apply_spec S h.admissible h.nodup B P' m' hm' u' res' hr'
  have e : ∀ J, localStiff S B P' J = c • localStiff S B P J := by
    intro J
    ext i j
    have hs : samples P'.diffusion (localCell S B P' J).elements =
        (samples P.diffusion (localCell S B P J).elements).map (scaleSample c) := by
      simp only [samples, List.map_flatMap, List.map_map]
      refine List.flatMap_congr fun e _ => List.map_congr_left fun q _ => ?_
      simp only [Function.comp_apply, scaleSample, hA, mul_zero]
    rw [Matrix.smul_apply, smul_eq_mul, localStiff, localStiff, stiff, stiff, Matrix.of_apply, Matrix.of_apply, hs, stiffness_scale]
  have hext : ∀ J, localExtension S B P' J = localExtension S B P J := fun J => by
    funext k
    simp only [localExtension, hD]
  have hneu : ∀ J, localNeumann S B P'.neumann J = c • localNeumann S B P.neumann J := fun J => by
    have := localNeumann_comb S B c 0 P'.neumann P.neumann P.neumann (fun x => by rw [hN]; ring) J
    rwa [zero_smul, add_zero] at this
  have hsamples : ∀ rule f f' (_ : ∀ x, f' x = c * f x) (N D : CellIndex S.cells → Node S.micro → R),
      (points S rule).map (sampleAt S P'.diffusion f' Q N D) =
      ((points S rule).map (sampleAt S P.diffusion f Q N D)).map (scaleSample c) := by
    intro rule f f' hff N D
    rw [List.map_map]
    refine List.map_congr_left fun t _ => ?_
    simp only [Function.comp_apply, scaleSample, sampleAt, hA, hff]
  have hu' : Unique S B P' := ⟨h.admissible, h.nodup, h.localRule, h.matrixRule, fun x v hv => by
    rw [hA, smul_mulVec, smul_dotProduct, smul_eq_mul]
    exact mul_pos hc0 (h.definite x v hv), h.corners, h.dirichlet⟩
  have key : Computed S B P' Q qN qD u fine := by
    refine ⟨fun J => ⟨fun k => ?_, (hc.corrector J).inside, fun hb => ?_, fun hb => ?_⟩, ?_, hc.fine_eq⟩
    · rw [e, smul_mulVec, ← smul_neg]
      exact isSolution_scale c ((hc.corrector J).inner k)
    · rw [e, hneu]
      exact isSolution_scale c ((hc.corrector J).neumann hb)
    · rw [e, smul_mulVec, ← smul_neg, hext]
      exact isSolution_scale c ((hc.corrector J).dirichlet hb)
    · have := isSolution_scale c hc.coarse
      rw [coarseMatrix_points, coarseLoad_points S _ _ hm.flux] at this
      rw [coarseMatrix_points, coarseLoad_points S _ _ hm'.flux, hsamples _ P.source P'.source hf, hsamples _ 0 0 (by simp), hD]
      convert this using 1
      · ext a b
        rw [Matrix.of_apply, stiffness_scale]
        rfl
      · have hp := femNeumann_comb S B c 0 P'.neumann P.neumann P.neumann (fun x => by rw [hN]; ring)
        rw [zero_smul, add_zero] at hp
        rw [hp, smul_add]
        congr 1
        funext a
        rw [load_scale]
        rfl
  obtain ⟨rfl, rfl⟩ := computed_unique S B P' hu' _ _ _ _ _ _ _ _ _ _ hc' key
  exact ⟨rfl, rfl⟩

/-! ## The registered problems -/

omit [IsStrictOrderedRing R] in
open Verif.Boundary in
/-- **C82** (conditions) Synthetic, ER2007 and Random meet the conditions of the theorems above on every grid, for every positive definite
diffusion. -/
theorem C82_problems (hd : d = 2 ∨ d = 3) (close : (Fin d → ℚ) → (Fin d → ℚ) → Bool) (hc : Tolerance close) (p : Problem)
    (hp : p = .synthetic ∨ p = .er2007 ∨ p = .random) (normal : Face d → Fin d → ℚ) (hn : ∀ f, Boundary.Computed (normal f) f) :
    ∃ info subInfo, boundaryInfo d p none = .ok info ∧ subBoundaryInfo d p none = .ok subInfo ∧
      ∀ (S : Setup d R), S.Admissible → S.order.Nodup → Resolving S.localRule → Resolving S.matrixRule → ∀ (P : Data d R),
        Definite P.diffusion → ∀ faces localFaces,
        Unique S ⟨dirichletNodes close info normal S.cells, dirichletNodes close subInfo normal S.micro, faces, localFaces⟩ P := by
  obtain ⟨info, hi, hf⟩ := C60_dirichlet_faces hd close hc p
  obtain ⟨subInfo, hsub, -⟩ := C61_all_constrained_partial close p hp none normal (fun _ => 1) (fun _ => 0)
  refine ⟨info, subInfo, hi, hsub, fun S hS hnd hR hR' P hpd faces localFaces => ⟨hS, hnd, hR, hR', hpd, fun node hnode => ?_, ?_⟩⟩
  · obtain ⟨subInfo', hsub', hiff⟩ := C61_all_constrained_partial close p hp none normal S.micro (fun i => (node i).1)
    rw [hsub] at hsub'
    injection hsub' with hsub'
    subst hsub'
    exact hiff.mpr ⟨⟨0, by omega⟩, hnode _⟩
  · obtain ⟨⟨i, b⟩, hface⟩ := C60_some_dirichlet hd p
    refine ⟨fun l => if b then ⟨S.cells l, by omega⟩ else ⟨0, by omega⟩, ?_⟩
    show dirichletNodes close info normal S.cells _ = true
    rw [dirichletNodes, constrainedNode_iff]
    refine ⟨i, ?_⟩
    cases b
    · left
      exact ⟨by simp, (hf _ _ (hn _)).mpr hface⟩
    · right
      exact ⟨by simp, (hf _ _ (hn _)).mpr hface⟩

/-- Instance: three problems on every structured grid of the unit square, each with a successful run. -/
example (N m : ℕ) (hN : 0 < N) (hm : 0 < m) (faces : List (FacePoint 2 (demoSetup 2 N m).cells ℚ))
    (localFaces : CellIndex (demoSetup 2 N m).cells → List (FacePoint 2 (demoSetup 2 N m).micro ℚ)) (f1 f2 g1 g2 n1 n2 : (Fin 2 → ℚ) → ℚ)
    (a b : ℚ) :
    ∃ B : Boundary (demoSetup 2 N m), B.faces = faces ∧ B.localFaces = localFaces ∧
      let P : ((Fin 2 → ℚ) → ℚ) → ((Fin 2 → ℚ) → ℚ) → ((Fin 2 → ℚ) → ℚ) → Data 2 ℚ := fun f n g => ⟨fun _ => 1, fun _ v => v, f, n, g⟩
      Unique (demoSetup 2 N m) B (P (fun x => a * f1 x + b * f2 x) (fun x => a * n1 x + b * n2 x) (fun x => a * g1 x + b * g2 x)) ∧
      ∀ f n g, ∃ mach, Works _ B (P f n g) mach ∧ ∃ u res, apply _ B (P f n g) mach = .ok (u, res) := by
  refine ⟨⟨fun g => decide ((g 0).1 = 0), fun g => decide (∃ i, (g i).1 = 0 ∨ (g i).1 = m), faces, localFaces⟩, rfl, rfl, ?_⟩
  have hu : ∀ f n g, Unique (demoSetup 2 N m) ⟨fun g => decide ((g 0).1 = 0), fun g => decide (∃ i, (g i).1 = 0 ∨ (g i).1 = m), faces, localFaces⟩ ⟨fun _ => 1, fun _ v => v, f, n, g⟩ :=
    fun f n g => ⟨demo_admissible 2 N m hN hm, Finset.nodup_toList _, demo_resolving 2 N m, demo_resolving 2 N m, demo_definite 2, fun _ h => decide_eq_true ⟨0, h 0⟩,
      ⟨fun _ => 0, rfl⟩⟩
  exact ⟨hu _ _ _, fun f n g => C82_run_exists _ _ _ (hu f n g) fun x v => (one_mulVec v).symm⟩

end Verif.Pipeline
