import Verif.Model.GridArguments
import Verif.Props.CellCounts
import Verif.Props.GridCreation
import Verif.Props.Double

/-!
# C98: what the constructor of the grid gets
-/

namespace Verif.GridArguments
open Verif CellCounts

/-! ## Specification -/

/-- The constructor gets the configured numbers, and they describe a grid: as many cells in each direction as coarse and micro cells give,
at least one, and the configured number of layers, at least zero. -/
def AsConfigured (g : Arguments) (cells : List (ℕ × ℕ)) (overlap : ℤ) : Prop :=
  List.Forall₂ (fun e p => e = (p.1 : ℤ) * p.2 ∧ 0 < e) g.elements cells ∧ g.overlap = overlap ∧ 0 ≤ g.overlap

/-- The entries of the configuration as they are read. -/
def entries (cells : List (ℕ × ℕ)) : List (ℚ × ℚ) := cells.map fun p => ((p.1 : ℚ), (p.2 : ℚ))

/-! ## Lemmas -/

theorem signed_unsigned {z : ℤ} (h : -2 ^ 31 ≤ z) (h' : z < 2 ^ 31) : asSigned (asUnsigned z) = z := by
  unfold asSigned asUnsigned
  norm_num at h h' ⊢
  split_ifs <;> omega

theorem coarseLoop_ok (cells : List ℕ) (h : ∀ c ∈ cells, c < 2 ^ 32) : coarseLoop (cells.map fun c : ℕ => (c : ℚ)) = .ok cells := by
  induction cells with
  | nil => rfl
  | cons c rest ih =>
    have hc : coarseCount (c : ℚ) = .ok c := toUnsigned_nat (h c (by simp))
    rw [List.map_cons, coarseLoop, hc, ih fun x hx => h x (by simp [hx])]
    rfl

theorem fineLoop_ok (rd : ℚ → ℚ) (hrd : ∀ n : ℕ, n < 2 ^ 32 → rd n = n) (cells : List (ℕ × ℕ)) (h : ∀ p ∈ cells, p.1 * p.2 < 2 ^ 32) :
    fineLoop rd (entries cells) = .ok (cells.map fun p => p.1 * p.2) := by
  induction cells with
  | nil => rfl
  | cons p rest ih =>
    have hp := h p (by simp)
    have hc : fineCount rd (p.1 : ℚ) (p.2 : ℚ) = .ok (p.1 * p.2) := by
      unfold fineCount
      rw [← Nat.cast_mul, hrd _ hp]
      exact toUnsigned_nat hp
    rw [entries, List.map_cons, fineLoop, hc]
    have := ih fun x hx => h x (by simp [hx])
    rw [entries] at this
    rw [this]
    rfl

theorem yaspLoop_replicate (o n : ℕ) : GridCreation.yaspLoop o (List.replicate n o) = .ok o :=
  (GridCreation.yaspLoop_ok_iff _ _ _).mpr ⟨rfl, fun _ hx => List.eq_of_mem_replicate hx⟩

theorem factor_lt {p : ℕ × ℕ} (h2 : 0 < p.2) (h : p.1 * p.2 < 2 ^ 32) : p.1 < 2 ^ 32 :=
  lt_of_le_of_lt (Nat.le_mul_of_pos_right _ h2) h

/-- The arguments for all numbers of cells for which the conversions are defined. -/
theorem fineGrid_eq (rd : ℚ → ℚ) (hrd : ∀ n : ℕ, n < 2 ^ 32 → rd n = n) (cells : List (ℕ × ℕ)) (hpos : ∀ p ∈ cells, 0 < p.1 ∧ 0 < p.2)
    (h : ∀ p ∈ cells, p.1 * p.2 < 2 ^ 32) {overlap : ℤ} (h0 : -2 ^ 31 ≤ overlap) (h1 : overlap < 2 ^ 31) :
    fineGrid rd (entries cells) overlap = .ok { elements := cells.map fun p => asSigned (p.1 * p.2), overlap := overlap } := by
  have hc := coarseLoop_ok (cells.map Prod.fst) (by
    intro c hc
    obtain ⟨p, hp, rfl⟩ := List.mem_map.mp hc
    exact factor_lt (hpos p hp).2 (h p hp))
  have he : (entries cells).map Prod.fst = (cells.map Prod.fst).map fun c : ℕ => (c : ℚ) := by
    simp [entries, Function.comp_def]
  unfold fineGrid
  rw [he, hc, fineLoop_ok rd hrd cells h]
  simp only [Outcome.ok_bind, createCubeGrid, yaspLoop_replicate, signed_unsigned h0 h1, List.map_map, Function.comp_def]

/-! ## C98 -/

/-- **C98** (exact) On YaspGrid, for all positive numbers of coarse and micro cells for which the conversions to `unsigned int` are defined and
every `grids.overlap`: the fine grid is always created, and with what is configured exactly if there are less than `2^31` cells in each
direction and the overlap is not negative. -/
theorem C98_fine_iff (rd : ℚ → ℚ) (hrd : ∀ n : ℕ, n < 2 ^ 32 → rd n = n) (cells : List (ℕ × ℕ)) (hpos : ∀ p ∈ cells, 0 < p.1 ∧ 0 < p.2)
    (h : ∀ p ∈ cells, p.1 * p.2 < 2 ^ 32) {overlap : ℤ} (h0 : -2 ^ 31 ≤ overlap) (h1 : overlap < 2 ^ 31) :
    ∃ g, fineGrid rd (entries cells) overlap = .ok g ∧ (AsConfigured g cells overlap ↔ (∀ p ∈ cells, p.1 * p.2 < 2 ^ 31) ∧ 0 ≤ overlap) := by
  refine ⟨_, fineGrid_eq rd hrd cells hpos h h0 h1, ?_⟩
  unfold AsConfigured
  simp only [true_and]
  rw [List.forall₂_map_left_iff, List.forall₂_same]
  refine and_congr_left fun _ => forall₂_congr fun p hp => ?_
  have hlt := h p hp
  have hp0 : 0 < p.1 * p.2 := Nat.mul_pos (hpos p hp).1 (hpos p hp).2
  rw [← Nat.cast_mul]
  unfold asSigned
  generalize p.1 * p.2 = n at *
  norm_num at hlt ⊢
  split_ifs with hs
  · simp [hs, hp0]
  · omega

/-- **C98** (partial: less than `2^31` cells in each direction and no negative overlap) The fine grid is created as configured. -/
theorem C98_fine_partial (rd : ℚ → ℚ) (hrd : ∀ n : ℕ, n < 2 ^ 32 → rd n = n) (cells : List (ℕ × ℕ)) (hpos : ∀ p ∈ cells, 0 < p.1 ∧ 0 < p.2)
    (h : ∀ p ∈ cells, p.1 * p.2 < 2 ^ 31) {overlap : ℤ} (h0 : 0 ≤ overlap) (h1 : overlap < 2 ^ 31) :
    ∃ g, fineGrid rd (entries cells) overlap = .ok g ∧ AsConfigured g cells overlap := by
  obtain ⟨g, hg, hiff⟩ := C98_fine_iff rd hrd cells hpos (fun p hp => (h p hp).trans (by norm_num)) (le_trans (by norm_num) h0) h1
  exact ⟨g, hg, hiff.mpr ⟨h, h0⟩⟩

/-- **C98** (partial: less than `2^31` cells and layers) The coarse grid gets the configured numbers of cells and the overlap common to all
directions. -/
theorem C98_coarse_partial (cells : List ℕ) (h : ∀ c ∈ cells, c < 2 ^ 31) {o : ℕ} (ho : o < 2 ^ 31) (n : ℕ) :
    coarseGrid (cells.map fun c : ℕ => (c : ℚ)) o (List.replicate n o) = .ok { elements := cells.map fun c : ℕ => (c : ℤ), overlap := o } := by
  unfold coarseGrid
  rw [coarseLoop_ok cells fun c hc => (h c hc).trans (by norm_num)]
  simp only [Outcome.ok_bind, createCubeGrid, yaspLoop_replicate, asSigned, ho, if_true]
  refine congrArg _ (congrArg (Arguments.mk · _) (List.map_congr_left fun c hc => if_pos (h c hc)))

/-- **C98** Different overlaps are refused, whatever the numbers of cells. -/
theorem C98_different_overlap (cells : List ℕ) (h : ∀ c ∈ cells, c < 2 ^ 32) (o : ℕ) (rest : List ℕ) (ho : ∃ x ∈ rest, x ≠ o) :
    coarseGrid (cells.map fun c : ℕ => (c : ℚ)) o rest = .throw := by
  unfold coarseGrid
  rw [coarseLoop_ok cells h]
  simp only [Outcome.ok_bind, createCubeGrid, (GridCreation.yaspLoop_throw_iff _ _).mpr ho]

/-- **C98** (the negation) A negative `grids.overlap` is not refused: it reaches the constructor of the grid as it is. -/
theorem C98_violated_overlap (rd : ℚ → ℚ) (hrd : ∀ n : ℕ, n < 2 ^ 32 → rd n = n) (cells : List (ℕ × ℕ)) (hpos : ∀ p ∈ cells, 0 < p.1 ∧ 0 < p.2)
    (h : ∀ p ∈ cells, p.1 * p.2 < 2 ^ 32) {overlap : ℤ} (h0 : -2 ^ 31 ≤ overlap) (h1 : overlap < 0) :
    ∃ g, fineGrid rd (entries cells) overlap = .ok g ∧ g.overlap = overlap ∧ g.overlap < 0 :=
  ⟨_, fineGrid_eq rd hrd cells hpos h h0 (h1.trans (by norm_num)), rfl, h1⟩

/-- **C98** (the negation) From `2^31` cells on, the constructor gets a negative number of cells, without an exception. -/
theorem C98_violated_cells (rd : ℚ → ℚ) (hrd : ∀ n : ℕ, n < 2 ^ 32 → rd n = n) (cells : List (ℕ × ℕ)) (hpos : ∀ p ∈ cells, 0 < p.1 ∧ 0 < p.2)
    (h : ∀ p ∈ cells, p.1 * p.2 < 2 ^ 32) {p : ℕ × ℕ} (hp : p ∈ cells) (hlarge : 2 ^ 31 ≤ p.1 * p.2) :
    ∃ g, fineGrid rd (entries cells) 1 = .ok g ∧ ∃ e ∈ g.elements, e < 0 := by
  refine ⟨_, fineGrid_eq rd hrd cells hpos h (by norm_num) (by norm_num), asSigned (p.1 * p.2), List.mem_map.mpr ⟨p, hp, rfl⟩, ?_⟩
  have hlt := h p hp
  unfold asSigned
  generalize p.1 * p.2 = n at *
  rw [if_neg (by omega)]
  norm_num at hlt ⊢
  omega

/-- Instances: 8 coarse with 16 micro cells in one and 4 with 4 in the other direction, one layer of overlap; `-1` is passed on; 65536 coarse
with 32768 micro cells give a negative number. -/
example : fineGrid id (entries [(8, 16), (4, 4)]) 1 = .ok { elements := [128, 16], overlap := 1 } ∧
    fineGrid id (entries [(8, 16), (4, 4)]) (-1) = .ok { elements := [128, 16], overlap := -1 } ∧
    fineGrid id (entries [(65536, 32768)]) 1 = .ok { elements := [-2147483648], overlap := 1 } := by
  refine ⟨?_, ?_, ?_⟩ <;> rw [fineGrid_eq id (fun _ _ => rfl) _ (by simp) (by simp) (by norm_num) (by norm_num)] <;> decide

/-- Roundings of double precision are exact on the numbers of cells. -/
example (cells : List (ℕ × ℕ)) (hpos : ∀ p ∈ cells, 0 < p.1 ∧ 0 < p.2) (h : ∀ p ∈ cells, p.1 * p.2 < 2 ^ 31) :
    ∃ g, fineGrid RoundedGrid.double (entries cells) 1 = .ok g ∧ AsConfigured g cells 1 :=
  C98_fine_partial _ (fun _ hn => Double.nearest_nat Double.double_nearest _ (by omega)) cells hpos h (by norm_num) (by norm_num)

end Verif.GridArguments
