import Verif.Model.CoarseAssembly
import Verif.Model.LocalSolve
import Verif.Model.SolutionManager

/-!
# Assembly of the local problems, and the solution on one coarse cell

Source: `msfem/diffusion_evaluation.hh:38-254`, `msfem/localproblems/localoperator.cc:31-170`,
`msfem/localsolution_proxy.cc:33-50`, `msfem/msfem_solver.cc:121-143`.

`ι` are the degrees of freedom of the local space, `d` the space dimension, `m` the number of local basis functions on an
element, `n` the number of coarse basis functions of the coarse cell; arithmetic is exact.
-/

namespace Verif.LocalAssembly
open Matrix Verif.CoarseAssembly Verif.LocalSolve

/-- An element of the local grid. -/
structure Element (d m : ℕ) (ι R : Type) where
  dofs : Fin m → ι
  /-- `testBase.jacobian`, in reference coordinates of the element -/
  grad : Fin m → (Fin d → R) → (Fin d → R)
  /-- `entity.geometry().global` -/
  toGlobal : (Fin d → R) → (Fin d → R)
  /-- quadrature of the functionals (order of diffusion plus order of test base, diffusion_evaluation.hh:76-85) -/
  quad : List (QPoint d R)
  /-- quadrature of the elliptic operator (chosen by dune-gdt) -/
  quadOp : List (QPoint d R)

variable {d m n : ℕ} {ι R : Type} [DecidableEq ι] [CommRing R]

/-- diffusion_evaluation.hh:101-131 `CoarseBasisProduct::evaluate` for the coarse basis function with gradient `coarseJac` in
reference coordinates of the coarse cell; `toCoarse` is `coarse_entity.geometry().local`. -/
def coarseBasisProduct (flux : (Fin d → R) → (Fin d → R) → (Fin d → R)) (toCoarse : (Fin d → R) → (Fin d → R))
    (coarseJac : (Fin d → R) → (Fin d → R)) (e : Element d m ι R) (localPoint : Fin d → R) : Fin m → R :=
  let globalPoint := e.toGlobal localPoint
  let quadInCoarseLocal := toCoarse globalPoint
  let direction := coarseJac quadInCoarseLocal
  let f := flux globalPoint direction
  fun ii => -1 * (f ⬝ᵥ e.grad ii localPoint)

/-- Gradient of the discrete function with coefficients `v` on an element. -/
def Element.gradOf (e : Element d m ι R) (v : ι → R) (localPoint : Fin d → R) : Fin d → R :=
  ∑ ii, v (e.dofs ii) • e.grad ii localPoint

/-- diffusion_evaluation.hh:210-240 `DirichletProduct::evaluate`; `ext` are the coefficients of the local Dirichlet
extension. -/
def dirichletProduct (flux : (Fin d → R) → (Fin d → R) → (Fin d → R)) (ext : ι → R) (e : Element d m ι R)
    (localPoint : Fin d → R) : Fin m → R :=
  let direction := e.gradOf ext localPoint
  let f := flux (e.toGlobal localPoint) direction
  fun ii => 0 - (f ⬝ᵥ e.grad ii localPoint)

/-- `GDT::Functionals::L2Volume` with `Codim0Integral` during one walk over the grid: integrate and add to the vector. -/
def addFunctional (evaluate : Element d m ι R → (Fin d → R) → Fin m → R) (es : List (Element d m ι R)) (v : ι → R) :
    ι → R :=
  es.foldl (fun v e => (List.finRange m).foldl (fun v ii =>
    addToVec v (e.dofs ii) ((e.quad.map fun q => q.weight * evaluate e q.pos ii).sum)) v) v

/-- `GDT::Operators::EllipticCG` during one walk over the grid (external; test functions are the rows). -/
def addElliptic (diffusion : (Fin d → R) → Matrix (Fin d) (Fin d) R) (es : List (Element d m ι R)) (A : ι → ι → R) :
    ι → ι → R :=
  es.foldl (fun A e => (List.finRange m).foldl (fun A ii => (List.finRange m).foldl (fun A jj =>
    addTo A (e.dofs ii) (e.dofs jj)
      ((e.quadOp.map fun q => q.weight *
        ((diffusion (e.toGlobal q.pos) *ᵥ e.grad jj q.pos) ⬝ᵥ e.grad ii q.pos)).sum)) A) A) A

/-- localoperator.cc:155 and 161 call `system_assembler_.assemble()` twice.  If the walker forgets its functors after the
first walk, matrix and functionals are assembled once, otherwise twice: `walks` is the number of times. -/
def repeatWalk {α : Type} (walks : ℕ) (f : α → α) (a : α) : α := f^[walks] a

/-- Data of one coarse cell. -/
structure Cell (d m n : ℕ) (ι R : Type) where
  elements : List (Element d m ι R)
  /-- `subBoundaryInfo` marks the degree of freedom as Dirichlet -/
  constrained : ι → Bool
  /-- `coarseEntity.hasBoundaryIntersections()` -/
  hasBoundary : Bool
  toCoarse : (Fin d → R) → (Fin d → R)
  coarseJac : Fin n → (Fin d → R) → (Fin d → R)
  /-- Lagrange prolongation of the coarse basis functions of the cell to the local space -/
  nodal : Fin n → ι → R
  /-- assembled functional of the Neumann data (`L2Face`), one walk -/
  neumann : ι → R

/-- System matrix of the local problem before the constraints, localoperator.cc:93-110, 155-161. -/
def Cell.matrix (K : Cell d m n ι R) (walks : ℕ) (diffusion : (Fin d → R) → Matrix (Fin d) (Fin d) R) : Matrix ι ι R :=
  Matrix.of (repeatWalk walks (addElliptic diffusion K.elements) fun _ _ => 0)

/-- Right-hand side of inner corrector `k`, localoperator.cc:141-151. -/
def Cell.inner (K : Cell d m n ι R) (walks : ℕ) (flux : (Fin d → R) → (Fin d → R) → (Fin d → R)) (k : ℕ) : ι → R :=
  if h : k < n then
    repeatWalk walks (addFunctional (coarseBasisProduct flux K.toCoarse (K.coarseJac ⟨k, h⟩)) K.elements) 0
  else 0

/-- localoperator.cc:61-77: the Dirichlet values of the coarse space prolonged to the local grid.  `ext` are the
coefficients of the coarse extension on this cell; without oversampling the local grid is the coarse cell. -/
def Cell.extension (K : Cell d m n ι R) (ext : Fin n → R) : ι → R := ∑ k, ext k • K.nodal k

/-- Right-hand side of the Dirichlet corrector, localoperator.cc:55-58, 79-83. -/
def Cell.dirichlet (K : Cell d m n ι R) (walks : ℕ) (flux : (Fin d → R) → (Fin d → R) → (Fin d → R)) (ext : Fin n → R) :
    ι → R :=
  repeatWalk walks (addFunctional (dirichletProduct flux (K.extension ext)) K.elements) 0

/-- Right-hand side of the Neumann corrector, localoperator.cc:54. -/
def Cell.neumannRhs (K : Cell d m n ι R) (walks : ℕ) : ι → R := repeatWalk walks (fun v => v + K.neumann) 0

/-- localproblemsolver.cc:61-114 on this cell. -/
def Cell.solve (K : Cell d m n ι R) (valid : (ι → R) → Bool) (s : Solvers ι R) (umfpack : Bool) (walks : ℕ)
    (flux : (Fin d → R) → (Fin d → R) → (Fin d → R)) (ext : Fin n → R) : Outcome (List (ι → R)) :=
  solveCell valid s umfpack false K.hasBoundary (n + 2) K.constrained (K.inner walks flux) (K.neumannRhs walks)
    (K.dirichlet walks flux ext)

/-- localsolution_proxy.cc:33-50 `add` for one cell: add the prolonged coarse solution, which has the
coefficients `c` on this cell. -/
def Cell.add (K : Cell d m n ι R) (c : Fin n → R) (correction : ι → R) : ι → R := correction + ∑ k, c k • K.nodal k

/-- msfem_solver.cc:121-143 `apply` as far as this cell is concerned, without oversampling: `cells` are the stored local
solutions of all cells, `key` is the index of this cell, `c` the coefficients of the coarse
solution (which includes the Dirichlet extension, coarse_scale_operator.cc:133). -/
def Cell.solution (K : Cell d m n ι R) (cells : List (ℕ × List (ι → R))) (key : ℕ) (c : Fin n → R) :
    Outcome (ι → R) := do
  let (_, correction) ← Manager.reconstruct (n + 2) 0 [] (Manager.solveAll .init cells) key (List.ofFn c)
  return K.add c correction

end Verif.LocalAssembly
