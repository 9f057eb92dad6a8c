import Verif.Model.CoarseAssembly
import Verif.Model.Boundary

/-!
# Quadrature rules of the assembled systems

Source: `order()` of the diffusions in `problems/base.hh:55-58`, `problems/synthetic.cc:142-145`, `problems/random.cc:157-160`
(ER2007, SPE10 and Tarbert inherit the one of the base class); `msfem/coarse_scale_assembler.cc:46-51`,
`msfem/coarse_rhs_functional.cc:38-43`, `msfem/diffusion_evaluation.hh:78-84, 193-199`; `config.h.cmake:61` (elements of order one).

The orders of the elliptic operator and of products come from dune-gdt, the rules from dune-geometry (external, transcribed).
-/

namespace Verif.Quadrature
open Verif.CoarseAssembly Verif.Boundary

/-- `Diffusion::order()`. -/
def diffusionOrder : Problem → ℕ
  | .synthetic => 2
  | .er2007 => 2
  | .random => 1
  | .spe10 => 2
  | .tarbert => 2

/-- `Source::order()`: synthetic.cc:146-149, er2007.hh:84 (third argument), random.hh:169 (constant function of dune-stuff, order 0, external),
spe10.hh:57-60, tarbert.hh:53-56. -/
def sourceOrder : Problem → ℕ
  | .synthetic => 1
  | .er2007 => 3
  | .random => 0
  | .spe10 => 3
  | .tarbert => 3

/-- `st_lagrangespace_order`, config.h.cmake:61: order of all base function sets. -/
def elementOrder : ℕ := 1

/-- Order of `GDT::LocalEvaluation::Elliptic` (dune-gdt, external): order of the diffusion plus that of the gradients of test and ansatz
functions.  Used by `GDT::Operators::EllipticCG` in fem_solver.cc:64-70 and localoperator.cc:93-110. -/
def ellipticOrder (diffusion test ansatz : ℕ) : ℕ := diffusion + (test - 1) + (ansatz - 1)

/-- diffusion_evaluation.hh:83, 198: order of the functionals of the local right-hand sides. -/
def functionalOrder (diffusion test : ℕ) : ℕ := diffusion + test

/-- coarse_scale_assembler.cc:48. -/
def coarseMatrixOrder (diffusion test ansatz over : ℕ) : ℕ := diffusion + ansatz + test + over

/-- coarse_rhs_functional.cc:40. -/
def coarseLoadOrder (diffusion test over : ℕ) : ℕ := diffusion + test + over

/-- Points per direction of `QuadratureRules::rule(cube, order)`: the smallest Gauss rule exact for this order
(dune-geometry, external). -/
def gaussPoints (order : ℕ) : ℕ := order / 2 + 1

variable {R : Type} [CommSemiring R]

/-- Tensor product of a rule on the unit interval, given by pairs of position and weight (dune-geometry, external). -/
def tensor (l : List (R × R)) : (d : ℕ) → List (QPoint d R)
  | 0 => [⟨Fin.elim0, 1⟩]
  | d + 1 => l.flatMap fun pw => (tensor l d).map fun q => ⟨Fin.cons pw.1 q.pos, pw.2 * q.weight⟩

/-- Rule of the elliptic operators of a problem; `gauss n` is the Gauss rule with `n` points. -/
def ellipticRule (gauss : ℕ → List (R × R)) (p : Problem) (d : ℕ) : List (QPoint d R) :=
  tensor (gauss (gaussPoints (ellipticOrder (diffusionOrder p) elementOrder elementOrder))) d

/-- Rule of the local right-hand sides. -/
def functionalRule (gauss : ℕ → List (R × R)) (p : Problem) (d : ℕ) : List (QPoint d R) :=
  tensor (gauss (gaussPoints (functionalOrder (diffusionOrder p) elementOrder))) d

/-- Rule of the coarse matrix; `over_integrate` has its default 0. -/
def coarseMatrixRule (gauss : ℕ → List (R × R)) (p : Problem) (d : ℕ) : List (QPoint d R) :=
  tensor (gauss (gaussPoints (coarseMatrixOrder (diffusionOrder p) elementOrder elementOrder 0))) d

/-- Rule of the coarse load. -/
def coarseLoadRule (gauss : ℕ → List (R × R)) (p : Problem) (d : ℕ) : List (QPoint d R) :=
  tensor (gauss (gaussPoints (coarseLoadOrder (diffusionOrder p) elementOrder 0))) d

/-- Order of `GDT::Functionals::L2Volume` (dune-gdt, external): order of the source plus that of the test functions.  Used in
fem_solver.cc:71-72. -/
def volumeOrder (source test : ℕ) : ℕ := source + test

/-- Rule of the load of the reference problem. -/
def referenceLoadRule (gauss : ℕ → List (R × R)) (p : Problem) (d : ℕ) : List (QPoint d R) :=
  tensor (gauss (gaussPoints (volumeOrder (sourceOrder p) elementOrder))) d

end Verif.Quadrature
