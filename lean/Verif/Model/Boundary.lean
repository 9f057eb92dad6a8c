import Verif.Model.Outcome
import Mathlib.Data.Fin.VecNotation
import Mathlib.Algebra.Order.Ring.Rat
import Mathlib.Algebra.Order.Group.Unbundled.Abs

/-!
# Boundary conditions of the problems

Source: `boundary_settings` and the constructors in `problems/synthetic.cc:19-26, 45-64`, `problems/er2007.cc:16-23`,
`problems/random.cc:28-35, 97-123`, `problems/spe10.cc:27-37, 76-96`, `problems/tarbert.cc:17-27, 60-82`, boundary data
`problems/spe10.cc:98-109, 117-120`, `problems/tarbert.cc:84-105`, corners `problems/tarbert.cc:29-48`.

`double` is modelled by the rational numbers.
-/

namespace Verif.Boundary

/-- The registered problems. -/
inductive Problem where
  | synthetic
  | er2007
  | random
  | spe10
  | tarbert
deriving DecidableEq

/-- A face of an axis-parallel box: direction, and `true` for the upper end. -/
abbrev Face (d : ℕ) := Fin d × Bool

/-- Content of the parameter tree passed to `NormalBased::create`. -/
structure Settings (d : ℕ) where
  defaultDirichlet : Bool
  dirichlet : List (Fin d → ℚ)
  neumann : List (Fin d → ℚ)

/-- `boundary_settings`; `override` is the sub tree `problem.boundaryInfo` of the global configuration, which is used if it
exists.  ER2007 has no such function. -/
def settings (d : ℕ) (p : Problem) (override : Option (Settings d)) : Outcome (Settings d) :=
  match override with
  | some s => .ok s
  | none =>
    match d, p with
    -- synthetic.cc:51-62
    | 3, .synthetic => .ok ⟨true, [], [![0, 0, 1], ![0, 0, -1]]⟩
    | _, .synthetic => .ok ⟨true, [], []⟩
    | _, .er2007 => .ok ⟨true, [], []⟩
    -- random.cc:103-120
    | 1, .random => .throw
    | 3, .random => .ok ⟨true, [], [![0, 1, 0], ![0, -1, 0], ![0, 0, 1], ![0, 0, -1]]⟩
    | 2, .random => .ok ⟨true, [], [![0, 1], ![0, -1]]⟩
    | _, .random => .ok ⟨true, [], []⟩
    -- spe10.cc:82-94
    | 1, .spe10 => .throw
    | 2, .spe10 => .ok ⟨false, [![0, 1]], []⟩
    | 3, .spe10 => .ok ⟨false, [![0, 1, 0]], []⟩
    | _, .spe10 => .ok ⟨false, [], []⟩
    -- tarbert.cc:66-79
    | 1, .tarbert => .throw
    | 2, .tarbert => .ok ⟨false, [![0, -1]], []⟩
    | 3, .tarbert => .ok ⟨false, [![0, 1, 0]], []⟩
    | _, .tarbert => .ok ⟨false, [], []⟩

/-- A boundary info object of dune-stuff: `AllDirichlet`, or `NormalBased` with its settings. -/
inductive Info (d : ℕ) where
  | allDirichlet
  | normalBased (s : Settings d)

/-- The constructors: boundary info of the global grids. -/
def boundaryInfo (d : ℕ) (p : Problem) (override : Option (Settings d)) : Outcome (Info d) :=
  match p with
  | .er2007 => .ok .allDirichlet
  | p => settings d p override >>= fun s => .ok (.normalBased s)

/-- The constructors and members: boundary info of the local grids (er2007.hh:68, random.hh:109, synthetic.hh:56: a member of
type `AllDirichlet`; spe10.cc:35-36, tarbert.cc:25-26: `NormalBased` with the settings of the global grids). -/
def subBoundaryInfo (d : ℕ) (p : Problem) (override : Option (Settings d)) : Outcome (Info d) :=
  match p with
  | .er2007 | .random | .synthetic => .ok .allDirichlet
  | .spe10 | .tarbert => settings d p override >>= fun s => .ok (.normalBased s)

variable {d : ℕ}

/-- `NormalBased::contains` (dune-stuff): some normal of the list equals the outer normal up to the tolerance. -/
def contains (close : (Fin d → ℚ) → (Fin d → ℚ) → Bool) (normal : Fin d → ℚ) (l : List (Fin d → ℚ)) : Bool :=
  l.any (close normal)

/-- `dirichlet(intersection)` for a boundary intersection with the given outer normal (dune-stuff, external). -/
def Info.dirichlet (close : (Fin d → ℚ) → (Fin d → ℚ) → Bool) (info : Info d) (normal : Fin d → ℚ) : Bool :=
  match info with
  | .allDirichlet => true
  | .normalBased s =>
    if s.defaultDirichlet then !contains close normal s.neumann else contains close normal s.dirichlet

/-- `neumann(intersection)` for a boundary intersection (dune-stuff, external). -/
def Info.neumann (close : (Fin d → ℚ) → (Fin d → ℚ) → Bool) (info : Info d) (normal : Fin d → ℚ) : Bool :=
  match info with
  | .allDirichlet => false
  | .normalBased s =>
    if s.defaultDirichlet then contains close normal s.neumann else !contains close normal s.dirichlet

/-- Neumann data: spe10.cc:103-109 (comparison with zero taken as equality), tarbert.cc:89-95; zero for the others
(synthetic.cc:204-207, random.cc:167-170, er2007.hh:90). -/
def neumannData (p : Problem) (x : Fin (d + 2) → ℚ) : ℚ :=
  match p with
  | .spe10 => if x 1 = 0 then 1 else 0
  | .tarbert => if |x 1| < 1 / 1000000 then -1 else 0
  | _ => 0

/-- Neumann value which enters the global systems at a point of a boundary face: the functional is
applied on Neumann intersections only (fem_solver.cc:82, coarse_scale_operator.cc:74-75). -/
def effectiveNeumann (close : (Fin (d + 2) → ℚ) → (Fin (d + 2) → ℚ) → Bool) (p : Problem) (info : Info (d + 2))
    (normal x : Fin (d + 2) → ℚ) : ℚ :=
  if info.neumann close normal then neumannData p x else 0

/-- `DirichletConstraints` (dune-gdt, external) on a local grid with `cells` cells per direction: a Lagrange node, given by its
position in each direction, is constrained if it lies on a boundary face of Dirichlet type. -/
def constrainedNode (close : (Fin d → ℚ) → (Fin d → ℚ) → Bool) (info : Info d) (normal : Face d → Fin d → ℚ)
    (cells : Fin d → ℕ) (node : Fin d → ℕ) : Bool :=
  (List.finRange d).any fun i =>
    (node i == 0 && info.dirichlet close (normal (i, false))) ||
    (node i == cells i && info.dirichlet close (normal (i, true)))

end Verif.Boundary
