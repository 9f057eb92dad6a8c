import Verif.Model.LocalGrid
import Verif.Model.OutputFiles
import Verif.Model.Outcome
import Mathlib.Data.List.Dedup
import Mathlib.Data.Fintype.Pi

/-!
# Visualisation of the local grids

Source: `src/thread_vis.cc`, with `dune/multiscale/msfem/localproblems/localgridlist.cc`.

One process.  A function of the finite volume space has one value per fine cell.  Fine cells and coarse cells are given
by their numbers in the directions.  The global id set is external: `id` gives the number of a coarse cell.
-/

namespace Verif.ThreadVis
open Verif.LocalGrid Verif.Text

variable {d : ℕ}

/-- Numbers of a cell in the directions. -/
abbrev Idx (d : ℕ) := Fin d → ℕ

/-- The grids: domain, coarse cells, micro cells, layers; leaf index and global id of the coarse cells; tolerance of
`checkInside`; names for files. -/
structure Env (d : ℕ) where
  lower : Fin d → ℚ
  upper : Fin d → ℚ
  cells : Idx d
  micro : Idx d
  layers : ℕ
  tol : ℚ
  index : Idx d → ℕ
  id : Idx d → ℕ

/-- The coarse cell `K` as the constructor of `LocalGridList` sees it. -/
def Env.coarse (e : Env d) (K : Idx d) : Fin d → DirInput := fun i =>
  coarseCell (e.lower i) (e.upper i) (e.cells i) (K i) (e.micro i) e.layers

/-- A corner of the fine cell `j`: the fine grid has `cells * micro` cells in each direction (grid_creation.cc:99-103). -/
def Env.fineCorner (e : Env d) (j : Idx d) (c : Fin d → Bool) : Fin d → ℚ := fun i =>
  e.lower i + ((j i : ℚ) + if c i then 1 else 0) * ((e.upper i - e.lower i) / ((e.cells i : ℚ) * e.micro i))

/-- localgridlist.hh:73-85 for the geometry of a fine cell. -/
def Env.coversStrict (e : Env d) (K j : Idx d) : Prop :=
  ∀ c : Fin d → Bool, checkInside e.tol (fun i => (e.coarse K i).min) (fun i => (e.coarse K i).max) (e.fineCorner j c)

instance (e : Env d) (K j : Idx d) : Decidable (e.coversStrict K j) := by
  unfold Env.coversStrict checkInside
  exact inferInstance

/-- thread_vis.cc:86-96 `id_to_ulong`: 32 bits of the id. -/
def idToUlong (id : ℕ) : ℕ := id % 2 ^ 32

/-- A finite volume function with its name. -/
structure FVFunc (d : ℕ) where
  name : List Char
  value : Idx d → ℕ

/-- thread_vis.cc:126-129, 134-148: the function of a coarse cell with the loop over the fine cells. -/
def subgridFunction (e : Env d) (fine : List (Idx d)) (K : Idx d) : FVFunc d where
  name := decimal (e.id K) ++ "_subgrid".toList
  value := fine.foldl (fun f j => if e.coversStrict K j then Function.update f j (idToUlong (e.id K)) else f) fun _ => 0

/-- thread_vis.cc:130-132. -/
def cellFunction (e : Env d) (K : Idx d) : FVFunc d where
  name := decimal (e.id K) ++ "_coarse_cell".toList
  value := fun _ => 0

/-- localgridlist.cc:45-75, 108-111: the number of local grids, one per leaf index. -/
def listSize (e : Env d) (interior : List (Idx d)) : ℕ := (interior.map e.index).dedup.length

/-- thread_vis.cc:115-150: the loop over the coarse cells, with the number of slots left in both vectors; a slot which is
not filled stays a null pointer. -/
def fillSlots (e : Env d) (fine : List (Idx d)) : ℕ → List (Idx d) →
    Outcome (List (Option (FVFunc d)) × List (Option (FVFunc d)))
  | slots, [] => .ok (List.replicate slots none, List.replicate slots none)
  | 0, _ :: _ => .throw   -- 123-125
  | slots + 1, K :: rest => do
    let r ← fillSlots e fine slots rest
    return (some (subgridFunction e fine K) :: r.1, some (cellFunction e K) :: r.2)

/-- A written file. -/
abbrev File (d : ℕ) := List Char × (Idx d → ℕ)

/-- thread_vis.cc:25-42 `output_all`. -/
def outputAll (path : List Char) : List (Option (FVFunc d)) → Outcome (List (File d))
  | [] => .ok []
  | none :: _ => .ub
  | some f :: rest => do
    let r ← outputAll path rest
    return (OutputFiles.fullpath path "solutions".toList f.name, f.value) :: r

/-- thread_vis.cc:98-154 `subgrid_vis`: the files written. -/
def subgridVis (e : Env d) (path : List Char) (interior fine : List (Idx d)) : Outcome (List (File d)) := do
  let r ← fillSlots e fine (listSize e interior) interior
  let a ← outputAll path r.1
  let b ← outputAll path r.2
  return a ++ b

end Verif.ThreadVis
