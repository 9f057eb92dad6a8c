/-!
# Selection of the problem

Source: `dune/multiscale/problems/selector.cc`.

The constructors of the problem parts and `problem_init` are opaque here: `Env` says which of them throw.
-/

namespace Verif.Selector

/-- The namespaces `DMP::X` named in the macro `FUNCTION_MAP`, selector.cc:32-70. -/
inductive Problem where
  | synthetic | random | spe10 | tarbert | er2007
deriving DecidableEq

/-- The six maps, selector.cc:74-79. -/
inductive Part where
  | data | source | exactSolution | diffusion | dirichlet | neumann
deriving DecidableEq

/-- selector.cc:32-73: the entries `mk_map` emplaces into the map of one part, the same macro for every part.
(`ReturnType` and `FunctionName` vary; the strings and namespaces do not.) -/
def mkMap (_ : Part) : List (String × Problem) :=
  [("Synthetic", .synthetic), ("Random", .random), ("SPE10", .spe10), ("Tarbert", .tarbert),
   ("ER2007", .er2007)]

/-- `std::map::find` (exact comparison of strings). -/
def find (m : List (String × Problem)) (name : String) : Option Problem :=
  (m.find? fun e => e.1 == name).map (·.2)

/-- Which external calls throw. -/
structure Env where
  ctorThrows : Part → Problem → Bool
  initThrows : Problem → Bool

/-- How the construction of a container ends. -/
inductive Result where
  /-- normal; the type of every part -/
  | built (parts : Part → Problem)
  /-- `Dune::InvalidStateException` of selector.cc:101 -/
  | invalidState
  /-- an exception of a constructor or of `problem_init` -/
  | other

/-- selector.cc:88-103 `make_f` for one part, with the list of constructor calls made so far. -/
def makeF (env : Env) (p : Part) (name : String) (trace : List (Part × Problem)) :
    Except Result Problem × List (Part × Problem) :=
  match find (mkMap p) name with
  | none => (.error .invalidState, trace)
  | some q => (if env.ctorThrows p q then .error .other else .ok q, trace ++ [(p, q)])

/-- The initialiser list selector.cc:110-115, in the order of the members. -/
def makeAll (env : Env) (name : String) :
    List Part → (Part → Problem) → List (Part × Problem) → Result × List (Part × Problem)
  | [], acc, trace =>
    -- selector.cc:117
    (if env.initThrows (acc .data) then .other else .built acc, trace)
  | p :: ps, acc, trace =>
    match makeF env p name trace with
    | (.error r, trace) => (r, trace)
    | (.ok q, trace) => makeAll env name ps (fun p' => if p' = p then q else acc p') trace

/-- selector.cc:105-118: the constructor.  `configName` is the value of `problem.name`, if set. -/
def container (env : Env) (configName : Option String) : Result × List (Part × Problem) :=
  makeAll env (configName.getD "Synthetic")
    [.data, .source, .exactSolution, .diffusion, .dirichlet, .neumann] (fun _ => .synthetic) []

end Verif.Selector
