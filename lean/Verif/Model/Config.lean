import Verif.Model.GridCreation
import Verif.Model.Outcome

/-!
# Configuration values read in different places

Source: `dune/multiscale/common/grid_creation.cc`, `dune/multiscale/msfem/localproblems/localgridlist.cc`,
`dune/multiscale/msfem/algorithm.cc`, `dune/multiscale/fem/print_info.cc`,
`dune/multiscale/problems/synthetic.cc`.

`Dune::XT::Common::Configuration` is external; it is modelled as a map from keys to values, reading a value
does not change it.  A value is the list of numbers its text stands for.
-/

namespace Verif.Config
open Verif.GridCreation

/-- A configuration tree, keys with their sub-tree prefix. -/
abbrev Cfg := String → Option (List ℚ)

/-- `Configuration::set(key, value, true)`. -/
def Cfg.set (c : Cfg) (key : String) (v : List ℚ) : Cfg := fun k => if k = key then some v else c k

/-- A `DomainType` read from a list of numbers: `none` if there are fewer than `d` entries
(an exception in the library). -/
def asVector (d : ℕ) (l : List ℚ) : Option (Fin d → ℚ) :=
  if h : d ≤ l.length then some fun i => l[i.1]'(lt_of_lt_of_le i.2 h) else none

/-- grid_creation.cc:38-39, 96-97: the micro cells used for the coarse overlap and the fine grid.
There is no default: a missing key throws (`none`).  `valid` is the validator. -/
def fineMicro (d : ℕ) (valid : (Fin d → ℚ) → Bool) (problemCfg : Cfg) : Option (Fin d → ℚ) :=
  match problemCfg "grids.micro_cells_per_macrocell_dim" with
  | none => none
  | some l => match asVector d l with
    | none => none
    | some v => if valid v then some v else none

/-- localgridlist.cc:35-37: the micro cells used for the local grids, read from the global configuration with
default 8. -/
def localMicro (d : ℕ) (globalCfg : Cfg) : Option (Fin d → ℚ) :=
  match globalCfg "grids.micro_cells_per_macrocell_dim" with
  | none => some fun _ => 8
  | some l => asVector d l

/-- `problem.config().get("msfem.oversampling_layers", 0)`, grid_creation.cc:34, localgridlist.cc:38,
msfem_solver.cc:85. -/
def oversampling (problemCfg : Cfg) : List ℚ := (problemCfg "msfem.oversampling_layers").getD [0]

/-- The two configurations when the local grids are built in `msfem_algorithm`, msfem/algorithm.cc:54-66:
the problem container copies the global configuration, afterwards `grids.dim` is set in the global one. -/
def msfemConfigs (d : ℕ) (globalCfg : Cfg) : Cfg × Cfg :=
  (globalCfg, globalCfg.set "grids.dim" [(d : ℚ)])

/-! ### Reported parameters -/

/-- `Configuration::get<double>` of a value: the first number, an exception if there is none. -/
def scalar : List ℚ → Outcome ℚ
  | [] => .throw
  | x :: _ => .ok x

/-- synthetic.cc:66-69 `get_eps`: the value used. -/
def usedEpsilon (c : Cfg) : Outcome ℚ := (c "problem.epsilon").elim (.ok (1 / 20)) scalar

/-- print_info.cc:44: the value reported.  The default is `1.0f`, so the value is read as a `float`;
`single` rounds to single precision. -/
def reportedEpsilon (single : ℚ → ℚ) (c : Cfg) : Outcome ℚ :=
  (c "problem.epsilon").elim (.ok 1) fun l => do return single (← scalar l)

/-- print_info.cc:45: the reported refinement level. -/
def reportedLevel (c : Cfg) : Outcome ℚ := (c "fem.grid_level").elim (.ok 4) scalar

/-- grid_creation.cc:36-37: the coarse cells used. -/
def usedCoarseCells (d : ℕ) (c : Cfg) : Option (Fin d → ℚ) :=
  (c "grids.macro_cells_per_dim").bind (asVector d)

end Verif.Config
