import Verif.Props.LoadBalance
import Verif.Props.FieldDomain
import Verif.Props.Proxy

/-!
# C69: the fine part of each process lies in its coarse part

The projection searches the coarse cell of every own fine element among the process's own coarse cells only
(localgridsearch.cc:74, heterogenous.cc:24-27), so it relies on the two grids being distributed alike.
-/

namespace Verif.LoadBalance
open Verif.GridCreation Verif.LocalGrid Verif.Proxy

/-! ### Parts in one direction -/

theorem partOrigin_succ (size p q : ℕ) (hp : 0 < p) : partOrigin size p (q + 1) = partOrigin size p q + partSize size p q := by
  unfold partOrigin partSize
  simp only
  have hr : size % p < p := Nat.mod_lt _ hp
  generalize size % p = r at *
  generalize size / p = m at *
  rcases Nat.lt_trichotomy (q + 1) (p - r) with h | h | h
  · rw [if_pos h, if_pos (by omega), if_pos (by omega)]; ring
  · rw [if_neg (by omega), if_pos (by omega), if_pos (by omega), h, Nat.sub_self, ← h]; ring
  · rw [if_neg (by omega), if_neg (by omega), if_neg (by omega), show q + 1 - (p - r) = q - (p - r) + 1 by omega]; ring

theorem partOrigin_zero (size p : ℕ) (hp : 0 < p) : partOrigin size p 0 = 0 := by
  unfold partOrigin
  simp only
  have hr : size % p < p := Nat.mod_lt _ hp
  rw [if_pos (by omega), zero_mul]

theorem partOrigin_last (size p : ℕ) (hp : 0 < p) : partOrigin size p p = size := by
  unfold partOrigin
  simp only
  have hr : size % p < p := Nat.mod_lt _ hp
  have hd := Nat.div_add_mod size p
  generalize size % p = r at *
  generalize size / p = m at *
  rcases Nat.eq_zero_or_pos r with h | h
  · subst h
    rw [if_neg (by omega)]; simp; omega
  · rw [if_neg (by omega), show p - (p - r) = r by omega]
    obtain ⟨s, rfl⟩ : ∃ s, p = r + s := ⟨p - r, by omega⟩
    rw [Nat.add_sub_cancel_left, ← hd]; ring

theorem partOrigin_mono (size p : ℕ) (hp : 0 < p) {q q' : ℕ} (h : q ≤ q') : partOrigin size p q ≤ partOrigin size p q' := by
  induction h with
  | refl => exact le_refl _
  | step _ ih => rw [partOrigin_succ _ _ _ hp]; omega

theorem own_succ (size p q c : ℕ) (hp : 0 < p) : Own size p q c ↔ partOrigin size p q ≤ c ∧ c < partOrigin size p (q + 1) := by
  unfold Own; rw [partOrigin_succ _ _ _ hp]

theorem own_unique {size p q q' c : ℕ} (hp : 0 < p) (h : Own size p q c) (h' : Own size p q' c) : q = q' := by
  rw [own_succ _ _ _ _ hp] at h h'
  by_contra hne
  rcases Nat.lt_or_gt_of_ne hne with hl | hl
  · have := partOrigin_mono size p hp (show q + 1 ≤ q' from hl)
    omega
  · have := partOrigin_mono size p hp (show q' + 1 ≤ q from hl)
    omega

theorem own_exists (size p c : ℕ) (hp : 0 < p) (k : ℕ) (hc : c < partOrigin size p k) : ∃ q < k, Own size p q c := by
  induction k with
  | zero => rw [partOrigin_zero _ _ hp] at hc; omega
  | succ k ih =>
    rcases Nat.lt_or_ge c (partOrigin size p k) with h | h
    · obtain ⟨q, hq, ho⟩ := ih h
      exact ⟨q, by omega, ho⟩
    · exact ⟨k, by omega, (own_succ _ _ _ _ hp).mpr ⟨h, hc⟩⟩

theorem own_lt {size p q c : ℕ} (hp : 0 < p) (hq : q < p) (h : Own size p q c) : c < size := by
  rw [own_succ _ _ _ _ hp] at h
  have := partOrigin_mono size p hp (show q + 1 ≤ p from hq)
  rw [partOrigin_last _ _ hp] at this
  omega

/-- **C69** (parts) In each direction every cell belongs to exactly one of the positions of the process grid. -/
theorem C69_parts (size p c : ℕ) (hp : 0 < p) (hc : c < size) : ∃! q, q < p ∧ Own size p q c := by
  obtain ⟨q, hq, ho⟩ := own_exists size p c hp p (by rw [partOrigin_last _ _ hp]; exact hc)
  exact ⟨q, ⟨hq, ho⟩, fun q' h => own_unique hp h.2 ho⟩

example : Own 7 3 0 1 ∧ Own 7 3 1 3 ∧ Own 7 3 2 4 ∧ ¬ Own 7 3 2 3 := by
  unfold Own partOrigin partSize; decide

/-- **C69** (exact, one direction) With `p` parts of both grids, every fine part lies in the coarse part of the same process exactly if
`p` divides the number of coarse cells, or the grids have the same cells. -/
theorem C69_direction_iff (M μ p : ℕ) (hp : 0 < p) (hμ : 0 < μ) :
    (∀ q, q < p → ∀ j, Own (M * μ) p q j → Own M p q (j / μ)) ↔ p ∣ M ∨ μ = 1 := by
  constructor
  · intro h
    by_contra hn
    push Not at hn
    obtain ⟨hpM, hμ1⟩ := hn
    have hμ2 : 2 ≤ μ := by omega
    have hr0 : 0 < M % p := Nat.pos_of_ne_zero fun h => hpM (Nat.dvd_of_mod_eq_zero h)
    have hr : M % p < p := Nat.mod_lt _ hp
    have hM := Nat.div_add_mod M p
    -- sizes of the first and the last coarse part
    have hlast : partOrigin M p (p - 1) + (M / p + 1) = M := by
      have h1 := partOrigin_succ M p (p - 1) hp
      rw [show p - 1 + 1 = p by omega, partOrigin_last _ _ hp] at h1
      rw [show partSize M p (p - 1) = M / p + 1 by unfold partSize; simp only; rw [if_neg (by omega)]] at h1
      omega
    have hfirst : partOrigin M p 1 = M / p := by
      rw [partOrigin_succ _ _ _ hp, partOrigin_zero _ _ hp]
      unfold partSize; simp only; rw [if_pos (by omega)]; omega
    -- the fine parts
    have hf0 : M / p * μ ≤ M * μ / p := by
      rw [Nat.le_div_iff_mul_le hp]
      have : M / p * p ≤ M := Nat.div_mul_le_self M p
      calc M / p * μ * p = M / p * p * μ := by ring
        _ ≤ M * μ := Nat.mul_le_mul_right _ this
    have hffirst : partOrigin (M * μ) p 1 = M * μ / p := by
      have hr' : M * μ % p < p := Nat.mod_lt _ hp
      rw [partOrigin_succ _ _ _ hp, partOrigin_zero _ _ hp]
      unfold partSize; simp only; rw [if_pos (by omega)]; omega
    rcases lt_or_eq_of_le hf0 with hlt | heq
    · -- the first fine part reaches beyond the first coarse part
      have h1 := h 0 hp (M / p * μ) ((own_succ _ _ _ _ hp).mpr ⟨by rw [partOrigin_zero _ _ hp]; omega, by rw [hffirst]; exact hlt⟩)
      rw [own_succ _ _ _ _ hp, hfirst, Nat.mul_div_cancel _ hμ] at h1
      omega
    · -- the last fine part is too small for the last coarse part
      have hflast : M * μ ≤ partOrigin (M * μ) p (p - 1) + (M / p * μ + 1) := by
        have h1 := partOrigin_succ (M * μ) p (p - 1) hp
        rw [show p - 1 + 1 = p by omega, partOrigin_last _ _ hp] at h1
        have h2 : partSize (M * μ) p (p - 1) ≤ M * μ / p + 1 := by
          unfold partSize; simp only; split_ifs <;> omega
        rw [← heq] at h2
        omega
      set c := partOrigin M p (p - 1) with hc
      have hMc : M * μ = c * μ + M / p * μ + μ := by
        calc M * μ = (c + (M / p + 1)) * μ := by rw [hlast]
          _ = _ := by ring
      obtain ⟨q, hq, ho⟩ := own_exists (M * μ) p (c * μ) hp (p - 1) (by omega)
      have h1 := h q (by omega) _ ho
      rw [Nat.mul_div_cancel _ hμ] at h1
      have h2 : Own M p (p - 1) c := by
        rw [own_succ _ _ _ _ hp, show p - 1 + 1 = p by omega, partOrigin_last _ _ hp]
        omega
      have := own_unique hp h1 h2
      omega
  · rintro (⟨M', rfl⟩ | rfl) q hq j hj
    · rw [mul_assoc, own_iff hq] at hj
      rw [own_iff hq]
      constructor
      · rw [Nat.le_div_iff_mul_le hμ]
        calc M' * q * μ = M' * μ * q := by ring
          _ ≤ j := hj.1
      · rw [Nat.div_lt_iff_lt_mul hμ]
        calc j < M' * μ * (q + 1) := hj.2
          _ = _ := by ring
    · simpa using hj

/-- Instances: 3 coarse cells and 2 processes do not match, 4 and 2 do. -/
example : ¬ (2 ∣ 3 ∨ 2 = 1) ∧ (2 ∣ 4 ∨ 2 = 1) := by decide

/-! ### Same process grids -/

theorem cost_scale (μ : ℕ) (hμ : 0 < μ) (sizes t : List ℕ) (h : ∀ s ∈ sizes, ∀ x ∈ t, x ∣ s * μ → x ∣ s) :
    ∀ a : ℚ, 0 ≤ a → (List.zipWith dirCost (sizes.map (· * μ)) t).foldl max (a * μ) = (List.zipWith dirCost sizes t).foldl max a * μ := by
  induction sizes generalizing t with
  | nil => intro a _; simp
  | cons s sizes ih =>
    intro a ha
    cases t with
    | nil => simp
    | cons x t =>
      have hμq : (0 : ℚ) < μ := by exact_mod_cast hμ
      have hx : dirCost (s * μ) x = dirCost s x * μ := by
        have e : (s * μ) % x = 0 ↔ s % x = 0 := by
          rw [← Nat.dvd_iff_mod_eq_zero, ← Nat.dvd_iff_mod_eq_zero]
          exact ⟨h s (by simp) x (by simp), fun hd => hd.mul_right μ⟩
        unfold dirCost
        simp only [e]
        push_cast
        split_ifs <;> ring
      rw [List.map_cons, List.zipWith_cons_cons, List.zipWith_cons_cons, List.foldl_cons, List.foldl_cons, hx,
        ← max_mul_of_nonneg _ _ hμq.le]
      exact ih t (fun s hs y hy => h s (List.mem_cons_of_mem _ hs) y (List.mem_cons_of_mem _ hy)) _ (le_max_of_le_left ha)

theorem dirCost_nonneg (s x : ℕ) : 0 ≤ dirCost s x := by
  unfold dirCost
  simp only
  split_ifs <;> positivity

theorem cost_cons (s x : ℕ) (sizes t : List ℕ) :
    cost (s :: sizes) (x :: t) = (List.zipWith dirCost (s :: sizes) (x :: t)).foldl max 0 := by
  unfold cost
  rw [List.zipWith_cons_cons, List.foldl_cons, List.foldl_cons, max_eq_right (by linarith [dirCost_nonneg s x]),
    max_eq_right (dirCost_nonneg s x)]

theorem foldl_step_congr (sizes sizes' : List ℕ) (l : List (List ℕ)) (b : Option (List ℕ))
    (h : ∀ t ∈ b.toList ++ l, ∀ t' ∈ b.toList ++ l, cost sizes t < cost sizes t' ↔ cost sizes' t < cost sizes' t') :
    l.foldl (step sizes) b = l.foldl (step sizes') b := by
  induction l generalizing b with
  | nil => rfl
  | cons t l ih =>
    rw [List.foldl_cons, List.foldl_cons]
    have e : step sizes b t = step sizes' b t := by
      unfold step
      cases b with
      | none => rfl
      | some b =>
        simp only
        have := h t (by simp) b (by simp)
        by_cases hc : cost sizes t < cost sizes b
        · rw [if_pos hc, if_pos (this.mp hc)]
        · rw [if_neg hc, if_neg fun h' => hc (this.mpr h')]
    rw [e]
    apply ih
    have hsub : ∀ x ∈ (step sizes' b t).toList ++ l, x ∈ b.toList ++ t :: l := by
      intro x hx
      rw [List.mem_append] at hx ⊢
      rcases hx with hx | hx
      · unfold step at hx
        cases b with
        | none => simp at hx; simp [hx]
        | some b =>
          simp only at hx
          split_ifs at hx <;> (simp at hx; simp [hx])
      · exact .inr (List.mem_cons_of_mem _ hx)
    exact fun a ha a' ha' => h a (hsub a ha) a' (hsub a' ha')

/-- Refining all directions alike does not change the process grid, if no number of processes divides only the refined number
of cells. -/
theorem balance_scale (μ P : ℕ) (hμ : 0 < μ) (hP : 0 < P) (sizes : List ℕ)
    (h : ∀ s ∈ sizes, ∀ x, x ∣ P → x ∣ s * μ → x ∣ s) : balance (sizes.map (· * μ)) P = balance sizes P := by
  unfold balance
  rw [List.length_map]
  cases sizes with
  | nil => rfl
  | cons s sizes =>
    symm
    apply foldl_step_congr
    have key : ∀ t ∈ candidates (sizes.length + 1) P, cost ((s :: sizes).map (· * μ)) t = cost (s :: sizes) t * μ := by
      intro t ht
      rw [mem_candidates _ _ hP] at ht
      match t, ht with
      | x :: t, ht =>
        rw [List.map_cons, cost_cons, cost_cons]
        have := cost_scale μ hμ (s :: sizes) (x :: t) (fun s hs y hy hd => h s hs y (by
          rw [← ht.2]; exact List.dvd_prod hy) hd) 0 (le_refl 0)
        rw [zero_mul] at this
        exact this
    intro t ht t' ht'
    simp only [Option.toList_none, List.nil_append] at ht ht'
    rw [List.length_cons] at ht ht'
    rw [key t ht, key t' ht']
    have hμq : (0 : ℚ) < μ := by exact_mod_cast hμ
    exact (mul_lt_mul_iff_left₀ hμq).symm

/-- There is a process grid. -/
theorem balance_mem (sizes : List ℕ) (P : ℕ) (hP : 0 < P) (hne : sizes ≠ []) :
    ∃ t, balance sizes P = some t ∧ t.length = sizes.length ∧ t.prod = P := by
  obtain ⟨e, he⟩ : ∃ e, sizes.length = e + 1 := ⟨sizes.length - 1, by have := List.length_pos_iff.mpr hne; omega⟩
  have hcand : (P :: List.replicate e 1) ∈ candidates (e + 1) P := by
    rw [mem_candidates _ _ hP]; simp
  have hs := candidates_sorted sizes.length P
  unfold balance
  rw [he] at hs ⊢
  cases hc : candidates (e + 1) P with
  | nil => rw [hc] at hcand; simp at hcand
  | cons b l =>
    rw [hc] at hs
    obtain ⟨r, hr, hmem, -⟩ := foldl_step sizes l b hs
    refine ⟨r, ?_, ?_⟩
    · rw [List.foldl_cons]; exact hr
    · rw [← hc, mem_candidates _ _ hP] at hmem
      exact hmem

/-- Coordinates of the process and its own cells: `c` is owned by `rank` in the grid with `size` cells distributed to the process
grid `t`. -/
def OwnCell (d : ℕ) (size t : List ℕ) (rank : ℕ) (c : ℕ → ℕ) : Prop :=
  ∀ i, i < d → Own (size.getD i 0) (t.getD i 0) (torusCoord (fun j => t.getD j 0) rank i) (c i)

/-- **C69** (partial: the same refinement in all directions, number of processes dividing the numbers of coarse cells) Both grids
are distributed to the same process grid, and every fine cell of a process lies in one of its coarse cells. -/
theorem C69_isotropic_partial (μ P : ℕ) (hμ : 0 < μ) (hP : 0 < P) (sizes : List ℕ) (hne : sizes ≠ [])
    (hdvd : ∀ s ∈ sizes, P ∣ s) :
    ∃ t, balance sizes P = some t ∧ balance (sizes.map (· * μ)) P = some t ∧ t.length = sizes.length ∧ t.prod = P ∧
      ∀ rank j, OwnCell sizes.length (sizes.map (· * μ)) t rank j → OwnCell sizes.length sizes t rank (fun i => j i / μ) := by
  have hsc := balance_scale μ P hμ hP sizes fun s hs x hx _ => hx.trans (hdvd s hs)
  obtain ⟨t, ht, hmem⟩ := balance_mem sizes P hP hne
  refine ⟨t, ht, by rw [hsc, ht], hmem.1, hmem.2, ?_⟩
  intro rank j hj i hi
  have h1 := hj i hi
  have hti : t.getD i 0 ∈ t := by
    rw [List.getD_eq_getElem?_getD, List.getElem?_eq_getElem (by omega)]
    exact List.getElem_mem _
  have hsi : sizes.getD i 0 ∈ sizes := by
    rw [List.getD_eq_getElem?_getD, List.getElem?_eq_getElem hi]
    exact List.getElem_mem _
  have hdv : t.getD i 0 ∣ P := by rw [← hmem.2]; exact List.dvd_prod hti
  have hpos' : 0 < t.getD i 0 := Nat.pos_of_dvd_of_pos hdv hP
  rw [show (sizes.map (· * μ)).getD i 0 = sizes.getD i 0 * μ by
    rw [List.getD_eq_getElem?_getD, List.getD_eq_getElem?_getD, List.getElem?_map, List.getElem?_eq_getElem hi]; rfl] at h1
  exact (C69_direction_iff _ μ _ hpos' hμ).mpr (.inl (hdv.trans (hdvd _ hsi))) _ (Nat.mod_lt _ hpos') _ h1

/-- Instance: 4 processes, 8x4 coarse cells, refined by 3. -/
example : ∃ t, balance [8, 4] 4 = some t ∧ balance [24, 12] 4 = some t := by
  obtain ⟨t, h1, h2, -⟩ := C69_isotropic_partial 3 4 (by omega) (by omega) [8, 4] (by simp) (by simp)
  exact ⟨t, h1, h2⟩

/-- **C69** (exact, cubes and `2^k` processes) The fine parts lie in the coarse parts exactly if the number of processes in the first
direction divides the number of coarse cells, or the grids are the same. -/
theorem C69_cube_iff (d k M μ : ℕ) (hd : 0 < d) (hM : 0 < M) (hμ : 0 < μ) (hdvd : 2 ^ (k / d + 1) ∣ M) :
    ∃ t, balance (List.replicate d M) (2 ^ k) = some t ∧ balance (List.replicate d (M * μ)) (2 ^ k) = some t ∧
      ((∀ rank, rank < 2 ^ k → ∀ j, OwnCell d (List.replicate d (M * μ)) t rank j →
          OwnCell d (List.replicate d M) t rank (fun i => j i / μ)) ↔ 2 ^ (k / d + k % d) ∣ M ∨ μ = 1) := by
  refine ⟨_, C68_yasp_process_grid d k M hd hM hdvd, C68_yasp_process_grid d k (M * μ) hd (by positivity) (hdvd.mul_right μ), ?_⟩
  have hget : ∀ i, i < d → (yaspGrid d k).getD i 0 = if i = 0 then 2 ^ (k / d + k % d) else 2 ^ (k / d) := by
    intro i hi
    rw [List.getD_eq_getElem?_getD, yaspGrid_get d k i hi]; rfl
  have hrep : ∀ n i, i < d → (List.replicate d n).getD i 0 = n := by
    intro n i hi
    rw [List.getD_eq_getElem?_getD, List.getElem?_replicate, if_pos hi]; rfl
  constructor
  · intro h
    rw [← C69_direction_iff M μ (2 ^ (k / d + k % d)) (by positivity) hμ]
    intro q hq j hj
    have hqk : q < 2 ^ k := lt_of_lt_of_le hq (Nat.pow_le_pow_right (by norm_num) (by
      have := Nat.div_add_mod k d
      have : k / d ≤ d * (k / d) := Nat.le_mul_of_pos_left _ hd
      omega))
    -- the rank at position q in direction 0 and 0 in the others
    have hc0 : ∀ i, i < d → torusCoord (fun j => (yaspGrid d k).getD j 0) q i = if i = 0 then q else 0 := by
      intro i hi
      unfold torusCoord
      by_cases h0 : i = 0
      · subst h0
        rw [if_pos rfl, Finset.prod_range_zero, Nat.div_one]
        dsimp only
        rw [hget 0 hd, if_pos rfl, Nat.mod_eq_of_lt hq]
      · rw [if_neg h0]
        have hge : 2 ^ (k / d + k % d) ≤ ∏ j ∈ Finset.range i, (yaspGrid d k).getD j 0 := by
          obtain ⟨i', rfl⟩ : ∃ i', i = i' + 1 := ⟨i - 1, by omega⟩
          rw [Finset.prod_range_succ', hget 0 hd, if_pos rfl]
          apply Nat.le_mul_of_pos_left
          apply Finset.prod_pos
          intro a ha
          rw [hget (a + 1) (by have := Finset.mem_range.mp ha; omega)]
          split_ifs <;> positivity
        rw [Nat.div_eq_of_lt (lt_of_lt_of_le hq hge), Nat.zero_mod]
    have hfirst : ∀ n i, i < d → 0 < i → 0 < n → (2 ^ (k / d) ∣ n) → Own n ((yaspGrid d k).getD i 0) 0 0 := by
      intro n i hi h0 hn hdv
      rw [hget i hi, if_neg (by omega)]
      obtain ⟨n', rfl⟩ := hdv
      rw [own_iff (by positivity)]
      have : 0 < n' := Nat.pos_of_mul_pos_left hn
      omega
    have hd' : 2 ^ (k / d) ∣ M := (pow_dvd_pow 2 (Nat.le_succ _)).trans hdvd
    have := h q hqk (fun i => if i = 0 then j else 0) (by
      intro i hi
      rw [hc0 i hi, hrep _ i hi]
      by_cases h0 : i = 0
      · subst h0
        simp only [if_true]
        rw [hget 0 hd, if_pos rfl]; exact hj
      · simp only [h0, if_false]
        exact hfirst _ i hi (by omega) (by positivity) (hd'.mul_right μ)) 0 hd
    rw [hc0 0 hd, hrep _ 0 hd, hget 0 hd] at this
    simpa using this
  · intro h rank _ j hj i hi
    have h1 := hj i hi
    rw [hrep _ i hi] at h1 ⊢
    have hdiv : (yaspGrid d k).getD i 0 ∣ M ∨ μ = 1 := by
      rcases h with h | h
      · left
        rw [hget i hi]
        split_ifs
        · exact h
        · exact (pow_dvd_pow 2 (Nat.le_succ _)).trans hdvd
      · exact .inr h
    have hp : 0 < (yaspGrid d k).getD i 0 := by
      rw [hget i hi]; split_ifs <;> positivity
    exact (C69_direction_iff M μ _ hp hμ).mpr hdiv _ (Nat.mod_lt _ hp) _ h1

/-- Instances: two dimensions always; 4 processes in three dimensions need a multiple of 4, not only of 2. -/
example : (∀ k, k / 2 + k % 2 ≤ k / 2 + 1) ∧ 2 ^ (2 / 3 + 1) ∣ 6 ∧ ¬ 2 ^ (2 / 3 + 2 % 3) ∣ 6 := ⟨fun k => by omega, by norm_num, by norm_num⟩

/-! ### Different refinements -/

theorem balance_two (a b : ℕ) : balance [a, b] 2 =
    if cost [a, b] [1, 2] < cost [a, b] [2, 1] then some [1, 2] else some [2, 1] := by
  have h : candidates 2 2 = [[2, 1], [1, 2]] := by decide
  unfold balance
  rw [show [a, b].length = 2 from rfl, h]
  simp only [List.foldl_cons, List.foldl_nil, step]

theorem own_lt_half (M : ℕ) (hM : 0 < M) (hM2 : 2 ∣ M) (c : ℕ) (h : Own M 2 0 c) : 2 * c < M := by
  obtain ⟨r, rfl⟩ := hM2
  rw [own_iff (by omega)] at h
  omega

/-- **C69 is violated** for different refinements of the directions: on two processes, an even number of coarse cells in two
directions and a finer refinement of the second, the coarse grid is cut in the first direction and the fine grid in the second; some fine
cell of the first process lies in a coarse cell of the other. -/
theorem C69_violated_anisotropic (M μ₀ μ₁ : ℕ) (hM : 0 < M) (hM2 : 2 ∣ M) (h0 : 0 < μ₀) (hμ : μ₀ < μ₁) :
    balance [M, M] 2 = some [2, 1] ∧ balance [M * μ₀, M * μ₁] 2 = some [1, 2] ∧
    OwnCell 2 [M * μ₀, M * μ₁] [1, 2] 0 (fun i => if i = 0 then M * μ₀ - 1 else 0) ∧
    ¬ OwnCell 2 [M, M] [2, 1] 0 (fun i => if i = 0 then (M * μ₀ - 1) / μ₀ else 0) := by
  have hMq : (0 : ℚ) < M := by exact_mod_cast hM
  have h0q : (0 : ℚ) < μ₀ := by exact_mod_cast h0
  have hμq : (μ₀ : ℚ) < μ₁ := by exact_mod_cast hμ
  have h1q : (0 : ℚ) < μ₁ := by linarith
  have hd1 : ∀ n, dirCost n 1 = n := by intro n; unfold dirCost; simp [Nat.mod_one]
  have hd2 : ∀ n, 2 ∣ n → dirCost n 2 = n / 2 := by
    intro n hn; unfold dirCost; rw [if_pos (Nat.mod_eq_zero_of_dvd hn)]; simp
  have hc : ∀ a b x y, cost [a, b] [x, y] = max (dirCost a x) (dirCost b y) := by
    intro a b x y
    rw [cost_cons]
    simp [max_eq_right (dirCost_nonneg a x)]
  refine ⟨?_, ?_, ?_, ?_⟩
  · rw [balance_two, hc, hc, hd1, hd2 M hM2, max_eq_left (by linarith), max_eq_right (by linarith), if_neg (lt_irrefl _)]
  · rw [balance_two, hc, hc, hd1, hd1, hd2 _ (hM2.mul_right _), hd2 _ (hM2.mul_right _)]
    push_cast
    have e1 : (M : ℚ) * μ₀ < M * μ₁ := by nlinarith
    have e2 : (0 : ℚ) < M * μ₁ := by positivity
    rw [if_pos]
    rw [max_lt_iff]
    exact ⟨lt_max_of_lt_right e1, lt_max_of_lt_right (by linarith)⟩
  · intro i hi
    have hp : 0 < M * μ₀ := by positivity
    have hp1 : 2 ≤ M * μ₁ := by
      have := Nat.le_of_dvd hM hM2
      nlinarith
    match i, hi with
    | 0, _ =>
      rw [own_succ _ _ _ _ (by simp)]
      simp [torusCoord, partOrigin, Nat.mod_one]
      omega
    | 1, _ =>
      rw [own_succ _ _ _ _ (by simp)]
      obtain ⟨r, hr⟩ := hM2
      have hmod : M * μ₁ % 2 = 0 := by rw [hr, mul_assoc]; simp
      simp [torusCoord, partOrigin, hmod]
      omega
  · intro h
    have := own_lt_half M hM hM2 _ (by simpa [torusCoord] using h 0 (by omega))
    have e : (M * μ₀ - 1) / μ₀ = M - 1 := by
      obtain ⟨M', rfl⟩ : ∃ M', M = M' + 1 := ⟨M - 1, by omega⟩
      rw [Nat.add_sub_cancel, Nat.div_eq_iff h0]
      have : (M' + 1) * μ₀ = M' * μ₀ + μ₀ := by ring
      omega
    omega

/-- **C69 is violated** for equal refinements too, if the numbers of coarse cells are not divisible: 3x2 coarse cells and two processes are
cut in the second direction, since uneven parts count three times; the refined 6x4 cells are cut in the first.  The fine cell (0, 3) of
the first process lies in a coarse cell of the other. -/
theorem C69_violated_isotropic :
    balance [3, 2] 2 = some [1, 2] ∧ balance [3 * 2, 2 * 2] 2 = some [2, 1] ∧
    OwnCell 2 [3 * 2, 2 * 2] [2, 1] 0 (fun i => if i = 0 then 0 else 3) ∧
    ¬ OwnCell 2 [3, 2] [1, 2] 0 (fun i => (if i = 0 then 0 else 3) / 2) := by
  have hc : ∀ a b x y, cost [a, b] [x, y] = max (dirCost a x) (dirCost b y) := by
    intro a b x y
    rw [cost_cons]
    simp [max_eq_right (dirCost_nonneg a x)]
  refine ⟨?_, ?_, ?_, ?_⟩
  · rw [balance_two, hc, hc]
    norm_num [dirCost]
  · rw [balance_two, hc, hc]
    norm_num [dirCost]
  · intro i hi
    match i, hi with
    | 0, _ => simp [Own, torusCoord, partOrigin, partSize]
    | 1, _ => simp [Own, torusCoord, partOrigin, partSize, Nat.mod_one]
  · intro h
    have := h 1 (by omega)
    simp [Own, torusCoord, partOrigin, partSize] at this

/-! ### What follows for the projection -/

section projection
variable {d : ℕ} {E F R ι : Type}

/-- **C69** (why it matters, exact) A search among the own coarse cells finds the points of a fine cell exactly if the coarse cell
around it is an own one; otherwise it throws. -/
theorem C69_search_iff (p : Params d) (hdom : ∀ i, p.lowerLeft i < p.upperRight i) (hcc : ∀ i, 0 < p.coarseCells i)
    (hm : ∀ i, 0 < p.microPerMacro i) (tol : ℚ) (ht0 : 0 ≤ tol) (htol : ∀ i, tol * p.microPerMacro i < 1)
    (env : Search.Env (Fin d → ℚ) E) (contains : ℕ → E → (Fin d → ℚ) → Prop) (cellAt : ℕ → Fin d → ℕ)
    (hcov : ∀ k points, env.covers k points = coversStrict tol (coarseGrid p) (cellAt k) points)
    (h2 : 2 ≤ env.viewSize) (hn : 0 < env.n) (hv : env.n ≤ env.viewSize) (s : Search.State) (hs : Search.Reachable env s)
    (j : Fin d → ℕ) (points : List (Fin d → ℚ)) (hp : PointsOf (fineGrid p) j points) (hne : points ≠ [])
    (hcomp : Search.LocalSearchComplete env contains points) :
    ((∃ k < env.n, cellAt k = fun i => j i / p.microPerMacro i) → ∃ ents s', Search.call env s points = .ok ents s') ∧
    ((¬ ∃ k < env.n, cellAt k = fun i => j i / p.microPerMacro i) → ∃ s', Search.call env s points = .throw s') := by
  constructor
  · rintro ⟨k, hk, hc⟩
    exact Search.C09_succeeds env contains h2 hn s hs points hcomp
      ⟨k, hk, by rw [hcov, C62_covering_cell p hdom hcc hm tol ht0 htol j _ points hp]; exact hc⟩
  · intro hno
    refine Search.C09_throws env hn hv s hs points hne fun c hc => ?_
    rw [hcov, Bool.eq_false_iff]
    intro h
    rw [C62_covering_cell p hdom hcc hm tol ht0 htol j _ points hp] at h
    exact hno ⟨c, hc, h⟩

variable [DecidableEq ι] [Field R]

/-- **C69** (why it matters, whole projection) If some interior fine element of the process lies in a coarse cell that is not its own, the
projection of the multiscale solution does not return, for any order, distribution to threads and history. -/
theorem C69_projection_fails (p : Params d) (hdom : ∀ i, p.lowerLeft i < p.upperRight i) (hcc : ∀ i, 0 < p.coarseCells i)
    (hm : ∀ i, 0 < p.microPerMacro i) (tol : ℚ) (ht0 : 0 ≤ tol) (htol : ∀ i, tol * p.microPerMacro i < 1)
    (env : Search.Env (Fin d → ℚ) E) (cellAt : ℕ → Fin d → ℕ)
    (hcov : ∀ k points, env.covers k points = coversStrict tol (coarseGrid p) (cellAt k) points)
    (corr : List (ℕ × F)) (index : ℕ → ℕ) (eval : F → E → (Fin d → ℚ) → R) (order : List (ℕ × FineElem ι (Fin d → ℚ)))
    (elems : List (FineElem ι (Fin d → ℚ))) (old : ι → R) (t : ℕ) (e : FineElem ι (Fin d → ℚ)) (he : (t, e) ∈ order)
    (hi : e.interior = true) (j : Fin d → ℕ) (hp : PointsOf (fineGrid p) j e.points) (hne : e.points ≠ [])
    (hno : ¬ ∃ k < env.n, cellAt k = fun i => j i / p.microPerMacro i) :
    ∀ w, project env corr index eval order elems old ≠ .ok w := by
  have hcall : ∀ s ents s', Search.call env s e.points ≠ .ok ents s' := by
    intro s ents s' h
    obtain ⟨-, -, c, -, hc, hcv⟩ := Search.C08_search_result env s s' e.points ents hne h
    rw [hcov, C62_covering_cell p hdom hcc hm tol ht0 htol j _ _ hp] at hcv
    exact hno ⟨c, hc, hcv⟩
  have hel : ∀ s r, elementValues env corr index eval s e.points ≠ .ok r := by
    intro s r h
    unfold elementValues at h
    split at h
    · rename_i h'
      exact hcall _ _ _ h'
    all_goals cases h
  have hwalk : ∀ (st : ℕ → Search.State) (v w : ι → R), walk env corr index eval order st v ≠ .ok w := by
    induction order with
    | nil => simp at he
    | cons te order ih =>
      obtain ⟨t', e'⟩ := te
      intro st v w h
      rw [walk] at h
      rcases List.mem_cons.mp he with heq | hmem
      · injection heq with h1 h2
        subst h1 h2
        rw [if_pos hi] at h
        cases hev : elementValues env corr index eval (st t) e.points with
        | ok r => exact hel _ _ hev
        | throw => rw [hev] at h; cases h
        | ub => rw [hev] at h; cases h
      · split_ifs at h
        · cases hev : elementValues env corr index eval (st t') e'.points with
          | ok r =>
            rw [hev, Outcome.ok_bind] at h
            obtain ⟨vals, s'⟩ := r
            simp only at h
            cases hpl : Projection.pointLoop .overwrite e'.nodes vals v with
            | ok v' => rw [hpl, Outcome.ok_bind] at h; exact ih hmem _ _ _ h
            | throw => rw [hpl] at h; cases h
            | ub => rw [hpl] at h; cases h
          | throw => rw [hev] at h; cases h
          | ub => rw [hev] at h; cases h
        · exact ih hmem _ _ _ h
  intro w h
  unfold project at h
  cases hw : walk env corr index eval order (fun _ => .init) (fun i => old i * 0) with
  | ok v => exact hwalk _ _ _ hw
  | throw => rw [hw] at h; cases h
  | ub => rw [hw] at h; cases h

/-- **C69 is violated**, with its consequence: on two processes with an even number of coarse cells and a finer refinement of the second
direction, the first process cannot project the multiscale solution to its part of the fine grid.  `env` describes the search
of this process: it runs over the own coarse cells. -/
theorem C69_violated_projection (M μ₀ μ₁ : ℕ) (hM : 0 < M) (hM2 : 2 ∣ M) (h0 : 0 < μ₀) (hμ : μ₀ < μ₁) (p : Params 2)
    (hdom : ∀ i, p.lowerLeft i < p.upperRight i) (hcells : p.coarseCells = ![M, M]) (hmicro : p.microPerMacro = ![μ₀, μ₁])
    (tol : ℚ) (ht0 : 0 ≤ tol) (htol : ∀ i, tol * p.microPerMacro i < 1)
    (env : Search.Env (Fin 2 → ℚ) E) (cellAt : ℕ → Fin 2 → ℕ)
    (hcov : ∀ k points, env.covers k points = coversStrict tol (coarseGrid p) (cellAt k) points)
    (corr : List (ℕ × F)) (index : ℕ → ℕ) (eval : F → E → (Fin 2 → ℚ) → R) :
    ∃ t t', balance [M, M] 2 = some t ∧ balance [M * μ₀, M * μ₁] 2 = some t' ∧ ∃ j : Fin 2 → ℕ,
      OwnCell 2 [M * μ₀, M * μ₁] t' 0 (fun i => if h : i < 2 then j ⟨i, h⟩ else 0) ∧
      ((∀ k < env.n, OwnCell 2 [M, M] t 0 (fun i => if h : i < 2 then cellAt k ⟨i, h⟩ else 0)) →
        ∀ (order : List (ℕ × FineElem ι (Fin 2 → ℚ))) (elems : List (FineElem ι (Fin 2 → ℚ))) (old : ι → R) (te : ℕ × FineElem ι (Fin 2 → ℚ)),
          te ∈ order → te.2.interior = true → PointsOf (fineGrid p) j te.2.points →
          ∀ w, project env corr index eval order elems old ≠ .ok w) := by
  obtain ⟨hb, hb', ho, hno⟩ := C69_violated_anisotropic M μ₀ μ₁ hM hM2 h0 hμ
  refine ⟨_, _, hb, hb', ![M * μ₀ - 1, 0], ?_, ?_⟩
  · intro i hi
    have := ho i hi
    match i, hi with
    | 0, _ => simpa using this
    | 1, _ => simpa using this
  · intro hall order elems old te hte hint hpts
    refine C69_projection_fails p hdom (by rw [hcells]; intro i; fin_cases i <;> simpa using hM)
      (by rw [hmicro]; intro i; fin_cases i <;> simp <;> omega) tol ht0 htol env cellAt hcov corr index eval order elems old te.1 te.2 hte
      hint _ hpts ?_ ?_
    · obtain ⟨q, hq, -⟩ := hpts.lower 0
      exact List.ne_nil_of_mem hq
    · rintro ⟨k, hk, hc⟩
      apply hno
      intro i hi
      have := hall k hk i hi
      rw [hc, hmicro] at this
      match i, hi with
      | 0, _ => simpa using this
      | 1, _ => simpa using this

end projection

end Verif.LoadBalance
