import Verif.Model.SolutionManager
import Mathlib.Algebra.BigOperators.Group.List.Basic
import Mathlib.Data.List.Nodup
import Mathlib.Data.List.Range

/-!
# Auxiliary facts about the solution manager model
-/

namespace Verif.Manager

section
variable {V : Type} [AddCommGroup V]

/-- All stored pointers are allocated, no pointer is stored twice. -/
structure WF (w : World V) : Prop where
  lt : ∀ k, ∀ r ∈ w.store k, r < w.next
  nodup : ∀ k, (w.store k).Nodup
  disj : ∀ k k', k ≠ k' → ∀ r ∈ w.store k, r ∉ w.store k'

/-- the values stored for a key -/
def World.stored (w : World V) (k : ℕ) : List V := (w.store k).map w.mem

theorem wf_init : WF (World.init : World V) := by
  constructor <;> simp [World.init]

omit [AddCommGroup V] in
theorem write_self (w : World V) (r : ℕ) (v : V) (h : w.mem r = v) : w.write r v = w := by
  unfold World.write
  cases w
  congr
  funext r'
  dsimp only at h ⊢
  split_ifs with h'
  · rw [h', h]
  · rfl

theorem wf_newMgr {w : World V} (h : WF w) (k n : ℕ) : WF (newMgr w k n).1 := by
  refine ⟨fun k r hr => ?_, h.nodup, h.disj⟩
  have := h.lt k r hr
  simp only [newMgr]; omega

theorem newMgr_mem_of_lt {w : World V} (k n r : ℕ) (h : r < w.next) : (newMgr w k n).1.mem r = w.mem r := by
  simp only [newMgr]
  rw [if_neg (by omega)]

theorem newMgr_stored {w : World V} (h : WF w) (k n k' : ℕ) :
    (newMgr w k n).1.stored k' = w.stored k' := by
  unfold World.stored
  apply List.map_congr_left
  intro r hr
  exact newMgr_mem_of_lt k n r (h.lt k' r hr)

theorem loadFrom_zero (cnt i : ℕ) (w : World V) (m : Mgr) (hl : i + cnt ≤ m.slots.length)
    (hs : i + cnt ≤ (w.store m.key).length)
    (hz : ∀ j r, i ≤ j → m.slots[j]? = some r → w.mem r = 0) :
    loadFrom cnt i w m = .ok (w, ⟨m.key, m.slots.take i ++ ((w.store m.key).drop i).take cnt ++
      m.slots.drop (i + cnt)⟩) := by
  induction cnt generalizing i m with
  | zero => simp [loadFrom]
  | succ cnt ih =>
    have hi : i < m.slots.length := by omega
    have hi' : i < (w.store m.key).length := by omega
    simp only [loadFrom, List.getElem?_eq_getElem hi]
    rw [write_self _ _ _ (hz i _ le_rfl (List.getElem?_eq_getElem hi))]
    simp only [List.getElem?_eq_getElem hi']
    rw [ih (i + 1) ⟨m.key, m.slots.set i (w.store m.key)[i]⟩ (by simp; omega) (by simp; omega)
      (by
        intro j r hj hjr
        simp only at hjr
        rw [List.getElem?_set_ne (by omega)] at hjr
        exact hz j r (by omega) hjr)]
    congr 3
    simp only
    have e1 : (m.slots.set i (w.store m.key)[i]).take (i + 1) = m.slots.take i ++ [(w.store m.key)[i]] := by
      rw [List.take_set, List.take_succ_eq_append_getElem hi]
      rw [List.set_append_right _ _ (by simp)]
      simp [Nat.min_eq_left hi.le]
    have e2 : (m.slots.set i (w.store m.key)[i]).drop (i + 1 + cnt) = m.slots.drop (i + (cnt + 1)) := by
      rw [List.drop_set_of_lt (by omega), show i + 1 + cnt = i + (cnt + 1) by omega]
    rw [e1, e2, List.drop_eq_getElem_cons hi', List.take_succ_cons]
    simp only [List.append_assoc, List.cons_append, List.nil_append]

/-- Loading through a fresh manager just lets the slots point to the stored functions. -/
theorem loadFresh_eq {w : World V} (n k : ℕ) (h : n ≤ (w.store k).length) :
    loadFresh n w k = .ok ((newMgr w k n).1, ⟨k, (w.store k).take n⟩) := by
  unfold loadFresh load
  have hst : (newMgr w k n).1.store = w.store := rfl
  have := loadFrom_zero n 0 (newMgr w k n).1 (newMgr w k n).2 (by simp [newMgr])
    (by simpa [hst, newMgr] using h)
    (by
      intro j r _ hj
      simp only [newMgr] at hj ⊢
      have hm := List.mem_of_getElem? hj
      rw [List.mem_range'_1] at hm
      rw [if_pos hm])
  rw [show (newMgr w k n) = ((newMgr w k n).1, (newMgr w k n).2) from rfl]
  dsimp only
  rw [this]
  simp [newMgr]

/-- With fewer stored functions than requested, loading throws. -/
theorem loadFrom_throw (cnt i : ℕ) (w : World V) (m : Mgr) (hl : i + cnt ≤ m.slots.length)
    (hi : i ≤ (w.store m.key).length) (hs : (w.store m.key).length < i + cnt) :
    loadFrom cnt i w m = .throw := by
  induction cnt generalizing i m w with
  | zero => omega
  | succ cnt ih =>
    have hil : i < m.slots.length := by omega
    simp only [loadFrom, List.getElem?_eq_getElem hil]
    have hst : ∀ r v, (w.write r v).store = w.store := fun _ _ => rfl
    rcases Nat.lt_or_ge i (w.store m.key).length with h | h
    · simp only [hst, List.getElem?_eq_getElem h]
      apply ih
      · simp; omega
      · simp only [hst]; omega
      · simp only [hst]; omega
    · simp only [hst, List.getElem?_eq_none h]

/-- Loading on a manager whose slots already point to the stored functions zeroes them. -/
theorem loadFrom_aliased (cnt i : ℕ) (w : World V) (m : Mgr) (hm : m.slots = w.store m.key)
    (hl : i + cnt ≤ m.slots.length) :
    ∃ w', loadFrom cnt i w m = .ok (w', m) ∧ w'.store = w.store ∧ w'.next = w.next ∧
      ∀ r, w'.mem r = if r ∈ (m.slots.drop i).take cnt then 0 else w.mem r := by
  induction cnt generalizing i w with
  | zero => exact ⟨w, rfl, rfl, rfl, by simp⟩
  | succ cnt ih =>
    have hi : i < m.slots.length := by omega
    simp only [loadFrom, List.getElem?_eq_getElem hi]
    have hst : (w.write m.slots[i] 0).store m.key = m.slots := hm.symm
    simp only [hst, List.getElem?_eq_getElem hi, List.set_getElem_self]
    obtain ⟨w', h1, h2, h3, h4⟩ := ih (i + 1) (w.write m.slots[i] 0) (by rw [hst]) (by omega)
    refine ⟨w', h1, h2, h3, ?_⟩
    intro r
    rw [h4, List.drop_eq_getElem_cons hi, List.take_succ_cons]
    simp only [World.write, List.mem_cons]
    split_ifs <;> simp_all

omit [AddCommGroup V] in
theorem writeAll_spec (w : World V) (rs : List ℕ) (vs : List V) (hn : rs.Nodup)
    (hl : rs.length = vs.length) :
    (writeAll w rs vs).store = w.store ∧ (writeAll w rs vs).next = w.next ∧
    rs.map (writeAll w rs vs).mem = vs ∧ ∀ r, r ∉ rs → (writeAll w rs vs).mem r = w.mem r := by
  induction rs generalizing w vs with
  | nil =>
    cases vs with
    | nil => simp [writeAll]
    | cons v vs => simp at hl
  | cons r rs ih =>
    cases vs with
    | nil => simp at hl
    | cons v vs =>
      rw [List.nodup_cons] at hn
      obtain ⟨h1, h2, h3, h4⟩ := ih (w.write r v) vs hn.2 (by simpa using hl)
      simp only [writeAll]
      refine ⟨h1, h2, ?_, ?_⟩
      · rw [List.map_cons, h3, h4 r hn.1]
        simp [World.write]
      · intro r' hr'
        rw [List.mem_cons, not_or] at hr'
        rw [h4 r' hr'.2]
        simp [World.write, hr'.1]

theorem solveCell_spec {w : World V} (h : WF w) (key : ℕ) (vals : List V) :
    WF (solveCell w key vals) ∧ (solveCell w key vals).stored key = w.stored key ++ vals ∧
    ∀ k, k ≠ key → (solveCell w key vals).stored k = w.stored k := by
  have hnd : (newMgr w key vals.length).2.slots.Nodup := List.nodup_range'
  obtain ⟨h1, h2, h3, h4⟩ := writeAll_spec (newMgr w key vals.length).1
    (newMgr w key vals.length).2.slots vals hnd (by simp [newMgr])
  have hold : ∀ r, r < w.next →
      (writeAll (newMgr w key vals.length).1 (newMgr w key vals.length).2.slots vals).mem r = w.mem r := by
    intro r hr
    rw [h4 r (by simp only [newMgr, List.mem_range'_1]; omega)]
    exact newMgr_mem_of_lt _ _ _ hr
  have hsold : ∀ k, (w.store k).map
      (writeAll (newMgr w key vals.length).1 (newMgr w key vals.length).2.slots vals).mem = w.stored k := by
    intro k
    apply List.map_congr_left
    intro r hr
    exact hold r (h.lt k r hr)
  have hstore : (newMgr w key vals.length).1.store = w.store := rfl
  refine ⟨⟨?_, ?_, ?_⟩, ?_, ?_⟩
  · intro k r hr
    simp only [solveCell, save] at hr ⊢
    rw [h2]
    rw [h1] at hr
    split_ifs at hr with hk
    · rcases List.mem_append.mp hr with hr | hr
      · have := h.lt k r hr; simp only [newMgr]; omega
      · simp only [newMgr, List.mem_range'_1] at hr ⊢; omega
    · have := h.lt k r hr; simp only [newMgr]; omega
  · intro k
    simp only [solveCell, save]
    rw [h1]
    split_ifs with hk
    · rw [List.nodup_append]
      refine ⟨h.nodup k, hnd, ?_⟩
      intro a ha b hb hab
      have := h.lt k a ha
      simp only [newMgr, List.mem_range'_1] at hb
      omega
    · exact h.nodup k
  · intro k k' hkk r hr hr'
    simp only [solveCell, save] at hr hr'
    rw [h1, hstore] at hr hr'
    split_ifs at hr hr' with hk hk' hk'
    · exact hkk (hk.trans hk'.symm)
    · rcases List.mem_append.mp hr with hr | hr
      · exact h.disj k k' hkk r hr hr'
      · have := h.lt k' r hr'
        simp only [newMgr, List.mem_range'_1] at hr; omega
    · rcases List.mem_append.mp hr' with hr' | hr'
      · exact h.disj k k' hkk r hr hr'
      · have := h.lt k r hr
        simp only [newMgr, List.mem_range'_1] at hr'; omega
    · exact h.disj k k' hkk r hr hr'
  · have hk : (newMgr w key vals.length).2.key = key := rfl
    simp only [solveCell, save, World.stored]
    rw [h1, hstore, hk, if_pos rfl, List.map_append, h3]
    congr 1
    exact hsold key
  · intro k hk
    have hk' : (newMgr w key vals.length).2.key = key := rfl
    simp only [solveCell, save, World.stored]
    rw [h1, hstore, hk', if_neg hk]
    exact hsold k

theorem solveAll_spec {w : World V} (h : WF w) (cells : List (ℕ × List V))
    (hn : (cells.map Prod.fst).Nodup) :
    WF (solveAll w cells) ∧ (∀ c ∈ cells, (solveAll w cells).stored c.1 = w.stored c.1 ++ c.2) ∧
    ∀ k, k ∉ cells.map Prod.fst → (solveAll w cells).stored k = w.stored k := by
  induction cells generalizing w with
  | nil => exact ⟨h, by simp, fun k _ => rfl⟩
  | cons c cells ih =>
    rw [List.map_cons, List.nodup_cons] at hn
    obtain ⟨h1, h2, h3⟩ := solveCell_spec h c.1 c.2
    obtain ⟨i1, i2, i3⟩ := ih h1 hn.2
    simp only [solveAll, List.foldl_cons] at i1 i2 i3 ⊢
    refine ⟨i1, ?_, ?_⟩
    · intro d hd
      rcases List.mem_cons.mp hd with rfl | hd
      · rw [i3 d.1 hn.1, h2]
      · rw [i2 d hd, h3]
        intro he
        exact hn.1 (he ▸ List.mem_map_of_mem hd)
    · intro k hk
      rw [List.map_cons, List.mem_cons, not_or] at hk
      rw [i3 k hk.2, h3 k hk.1]

omit [AddCommGroup V] in
theorem stored_length (w : World V) (k : ℕ) : (w.stored k).length = (w.store k).length := by
  simp [World.stored]

/-- view through a fresh manager -/
theorem view_loadFresh {w : World V} (h : WF w) (k : ℕ) :
    view (newMgr w k (w.store k).length).1 ⟨k, (w.store k).take (w.store k).length⟩ = w.stored k := by
  simp only [view, List.take_length]
  exact newMgr_stored h k _ k

end

section
variable {ι R : Type} [CommRing R]

theorem accumulate_spec (w : World (ι → R)) (m : Mgr) (dof : ℕ) (cs : List R) (corr : ι → R)
    (hn : m.slots.Nodup) (hl : dof + cs.length ≤ m.slots.length) :
    ∃ w', accumulate w m dof cs corr =
        .ok (w', corr + (List.zipWith (fun c r => c • w.mem r) cs (m.slots.drop dof)).sum) ∧
      w'.store = w.store ∧ w'.next = w.next ∧
      (List.zipWith (fun _ r => w'.mem r) cs (m.slots.drop dof) =
        List.zipWith (fun c r => c • w.mem r) cs (m.slots.drop dof)) ∧
      ∀ r, r ∉ (m.slots.drop dof).take cs.length → w'.mem r = w.mem r := by
  induction cs generalizing w dof corr with
  | nil => exact ⟨w, by simp [accumulate], rfl, rfl, by simp, by simp⟩
  | cons c cs ih =>
    simp only [List.length_cons] at hl
    have hd : dof < m.slots.length := by omega
    simp only [accumulate, List.getElem?_eq_getElem hd]
    obtain ⟨w', h1, h2, h3, h4, h5⟩ := ih (w.write m.slots[dof] (c • w.mem m.slots[dof])) (dof + 1)
      (corr + (w.write m.slots[dof] (c • w.mem m.slots[dof])).mem m.slots[dof]) (by omega)
    have hnot : m.slots[dof] ∉ m.slots.drop (dof + 1) := by
      have := (List.drop_eq_getElem_cons hd) ▸ (hn.sublist (List.drop_sublist dof m.slots))
      exact (List.nodup_cons.mp this).1
    have hz : List.zipWith (fun c' r => c' • (w.write m.slots[dof] (c • w.mem m.slots[dof])).mem r) cs
        (m.slots.drop (dof + 1)) = List.zipWith (fun c' r => c' • w.mem r) cs (m.slots.drop (dof + 1)) := by
      rw [← List.map_uncurry_zip_eq_zipWith, ← List.map_uncurry_zip_eq_zipWith]
      apply List.map_congr_left
      intro p hp
      have : p.2 ∈ m.slots.drop (dof + 1) := (List.of_mem_zip hp).2
      have hne : p.2 ≠ m.slots[dof] := fun he => hnot (he ▸ this)
      simp [Function.uncurry, World.write, hne]
    rw [hz] at h1 h4
    refine ⟨w', ?_, h2, h3, ?_, ?_⟩
    · rw [h1]
      rw [List.drop_eq_getElem_cons hd, List.zipWith_cons_cons, List.sum_cons]
      congr 2
      simp [World.write, add_assoc]
    · rw [List.drop_eq_getElem_cons hd, List.zipWith_cons_cons, List.zipWith_cons_cons, h4]
      congr 1
      rw [h5]
      · simp [World.write]
      · exact fun he => hnot (List.mem_of_mem_take he)
    · intro r hr
      rw [List.length_cons, List.drop_eq_getElem_cons hd, List.take_succ_cons, List.mem_cons,
        not_or] at hr
      rw [h5 r hr.2]
      simp [World.write, hr.1]

theorem cut_apply [DecidableEq ι] (visits : List (ι × Bool)) (v : ι → R) (j : ι) :
    cut visits v j = if ∃ b ∈ visits, b.1 = j ∧ b.2 = false then 0 else v j := by
  induction visits generalizing v with
  | nil => simp [cut]
  | cons a as ih =>
    have h : cut (a :: as) v = cut as (cutPoint v a) := rfl
    rw [h, ih]
    by_cases h1 : ∃ b ∈ as, b.1 = j ∧ b.2 = false
    · have h2 : ∃ b ∈ a :: as, b.1 = j ∧ b.2 = false := by
        obtain ⟨b, hb, h⟩ := h1
        exact ⟨b, List.mem_cons_of_mem _ hb, h⟩
      rw [if_pos h1, if_pos h2]
    · rw [if_neg h1]
      unfold cutPoint
      by_cases ha : a.1 = j ∧ a.2 = false
      · have h2 : ∃ b ∈ a :: as, b.1 = j ∧ b.2 = false := ⟨a, List.mem_cons_self, ha⟩
        rw [if_pos ha.1.symm, if_pos h2, ha.2]
        simp
      · have h2 : ¬ ∃ b ∈ a :: as, b.1 = j ∧ b.2 = false := by
          rintro ⟨b, hb, hh⟩
          rcases List.mem_cons.mp hb with rfl | hb
          · exact ha hh
          · exact h1 ⟨b, hb, hh⟩
        rw [if_neg h2]
        split_ifs with h3 h4
        · rfl
        · exact absurd ⟨h3.symm, by simpa using h4⟩ ha
        · rfl

end

end Verif.Manager
