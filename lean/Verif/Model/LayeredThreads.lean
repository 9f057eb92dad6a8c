import Verif.Model.OversampledRun
import Verif.Model.Threads

/-!
# A run with oversampling in several threads

Source: as `Model/Threads.lean` and `Model/OversampledRun.lean`.
-/

namespace Verif.Oversampling
open Verif.Q1Grid

variable {d : ℕ}

/-- msfem_solver.cc:121-142 `apply` with oversampling and with threads in the phases that solve the local problems and assemble the coarse
system, see `Pipeline.applyThreads`. -/
def Layered.applyThreads (O : Layered d) (B : O.Boundary) (P : Pipeline.Data d ℚ) (m : O.Machine) (schedule loadSchedule : List ℕ) :
    Outcome ((Node O.base.cells → ℚ) × List (O.Point → ℚ)) := do
  let cells ← O.localSolutions B P m
  let loads := O.base.order.flatMap fun J => [(m.index J, 2 ^ d + 2), (m.index J, 2 ^ d + 2)]
  let s := Manager.loadThreads loads (Manager.solveThreads cells .init schedule).world loadSchedule
  let loaded ← (List.range loads.length).mapM s.result
  let u ← O.coarseSolution B P m loaded
  let (_, corrections) ← Manager.reconstructAll (2 ^ d + 2) O.layers (O.visits m) (O.coefficients m u) s.world (O.base.order.map m.index)
  return (u, List.zipWith (fun J c => O.embed J (O.part J c + O.patches.prolong J u)) O.base.order corrections)

end Verif.Oversampling
