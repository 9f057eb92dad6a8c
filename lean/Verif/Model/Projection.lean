import Verif.Model.Outcome
import Mathlib.Algebra.Field.Defs
import Mathlib.Data.Nat.Cast.Defs

/-!
# Projection of the multiscale solution to the fine grid

Source: `common/heterogenous.cc:10-96`.

`ι` are the nodes of the fine grid, which are also its degrees of freedom (first order Lagrange space).
-/

namespace Verif.Projection

/-- A fine grid element: partition type interior or not, its nodes in local order, and what the search
and evaluation of the multiscale solution give at them (`none`: the search returned a null pointer). -/
structure Elem (ι R : Type) where
  interior : Bool
  nodes : List ι
  values : List (Option R)

/-- What `target_local_function->vector().set(k, v)` does to the global vector.  The function is in dune-gdt,
not in /repo; its name says `overwrite`.  The other mode serves to state how the code
would have to behave for the division in `postprocess` to be right. -/
inductive WriteMode where
  | overwrite
  | accumulate

variable {ι R : Type} [DecidableEq ι] [Field R]

/-- One write to a coefficient. -/
def write (m : WriteMode) (v : ι → R) (i : ι) (x : R) : ι → R :=
  fun j => if j = i then (match m with | .overwrite => x | .accumulate => v j + x) else v j

/-- heterogenous.cc:36-49: the loop over the Lagrange points of an element. The counter `k` runs along with
the point number since the range dimension is one and a missing point throws; more
values than nodes, or fewer, would be out of bounds. -/
def pointLoop (m : WriteMode) : List ι → List (Option R) → (ι → R) → Outcome (ι → R)
  | [], [], v => .ok v
  | i :: nodes, some x :: values, v => pointLoop m nodes values (write m v i x)
  | _ :: _, none :: _, _ => .throw                              -- l.47
  | [], _ :: _, _ => .ub
  | _ :: _, [], _ => .ub                                        -- excluded by the assert in l.31

/-- heterogenous.cc:24-53: the grid walk over the interior elements, in the order of the list. -/
def walk (m : WriteMode) : List (Elem ι R) → (ι → R) → Outcome (ι → R)
  | [], v => .ok v
  | e :: es, v =>
    if e.interior then pointLoop m e.nodes e.values v >>= walk m es else walk m es v

/-- heterogenous.cc:80-96 `identifySharedNodes`: for every element of the leaf view (all partitions)
and every node of it, increment the counter of the node. -/
def identifySharedNodes (elems : List (Elem ι R)) : ι → ℕ :=
  elems.foldl (fun c e => e.nodes.foldl (fun c i => fun j => if j = i then c j + 1 else c j) c) fun _ => 0

/-- heterogenous.cc:64-78 `postprocess`: divide every coefficient by the counter. The `assert` that the counter
is positive (l.73) is a hypothesis of the theorems. -/
def postprocess (elems : List (Elem ι R)) (v : ι → R) : ι → R :=
  fun i => v i / (identifySharedNodes elems i : R)

/-- heterogenous.cc:10-56 `project`. `old` is the previous content of the target (58-62 sets it to zero),
`order` the elements in the order of the walk, `elems` the elements of the leaf view. -/
def project (m : WriteMode) (order elems : List (Elem ι R)) (old : ι → R) : Outcome (ι → R) :=
  walk m order (fun i => old i * 0) >>= fun v => .ok (postprocess elems v)

end Verif.Projection
