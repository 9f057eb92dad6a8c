import Mathlib.Data.Matrix.Mul
import Mathlib.Data.List.FinRange

/-!
# Assembly of the coarse system

Source: `msfem/coarse_scale_assembler.cc:35-180`, `msfem/coarse_rhs_functional.cc:27-164`.

`R` is the field of numbers (exact arithmetic), `d` the space dimension, `n` the number of coarse
basis functions per cell, `G` the global degrees of freedom.  Geometry maps, basis functions,
quadrature rules and the local solutions are data.
-/

namespace Verif.CoarseAssembly
open Matrix

/-- A quadrature point of a local cell: position in the reference element *of the local
cell* and quadrature weight times integration element (assembler.cc:79-83). -/
structure QPoint (d : ℕ) (R : Type) where
  pos : Fin d → R
  weight : R

/-- A cell of the local grid of a coarse cell, together with the local solutions on it:
values and gradients, given in reference coordinates of the local cell. -/
structure LocalCell (d n : ℕ) (R : Type) where
  /-- `localGridList_.covers(coarse, local)` -/
  covered : Bool
  quad : List (QPoint d R)
  /-- `localGridEntity.geometry().global` -/
  toGlobal : (Fin d → R) → (Fin d → R)
  valQ : Fin n → (Fin d → R) → R
  gradQ : Fin n → (Fin d → R) → (Fin d → R)
  gradDirichlet : (Fin d → R) → (Fin d → R)
  gradNeumann : (Fin d → R) → (Fin d → R)

/-- A coarse cell: global indices of its basis functions, values and gradients of the basis
functions as functions of reference coordinates *of the coarse cell*, and the map to
reference coordinates. -/
structure CoarseCell (d n : ℕ) (G R : Type) where
  dofs : Fin n → G
  phi : Fin n → (Fin d → R) → R
  gradPhi : Fin n → (Fin d → R) → (Fin d → R)
  /-- `coarse_geometry.local` -/
  toLocal : (Fin d → R) → (Fin d → R)
  cells : List (LocalCell d n R)

variable {d n : ℕ} {G R : Type} [DecidableEq G] [CommRing R]

/-- `M[r][c] += v` -/
def addTo {I J : Type} [DecidableEq I] [DecidableEq J] (M : I → J → R) (r : I) (c : J) (v : R) : I → J → R :=
  fun a b => if a = r ∧ b = c then M a b + v else M a b

/-- `v[r] += x` -/
def addToVec {I : Type} [DecidableEq I] (v : I → R) (r : I) (x : R) : I → R :=
  fun a => if a = r then v a + x else v a

/-- coarse_scale_assembler.cc:35-109 `MsFEMCodim0Integral::apply`. `ret` on entry holds arbitrary
content.  `testBase` is the basis of the coarse cell and is evaluated at `x`, the
position in the reference element of the local cell (l.79, 80). -/
def matrixIntegral (diffusion : (Fin d → R) → Matrix (Fin d) (Fin d) R) (K : CoarseCell d n G R)
    (e : LocalCell d n R) (ret : Fin n → Fin n → R) : Fin n → Fin n → R :=
  let ret := fun i j => ret i j * 0                                     -- l.55
  e.quad.foldl (fun ret q =>
    let x := q.pos
    let diffusionEval := diffusion (e.toGlobal x)                       -- l.84-86
    (List.finRange n).foldl (fun ret ii =>
      (List.finRange n).foldl (fun ret jj =>
        let gradI := K.gradPhi ii x + e.gradQ ii x                      -- l.95-96
        let gradJ := K.gradPhi jj x + e.gradQ jj x                      -- l.97-98
        addTo ret jj ii (((diffusionEval *ᵥ gradI) ⬝ᵥ gradJ) * q.weight)) ret) ret) ret

/-- coarse_scale_assembler.cc:160-177: clear the temporary, integrate, add to the system matrix.
The pair is (system matrix, temporary). -/
def matrixLocalCell (diffusion : (Fin d → R) → Matrix (Fin d) (Fin d) R) (K : CoarseCell d n G R)
    (st : (G → G → R) × (Fin n → Fin n → R)) (e : LocalCell d n R) :
    (G → G → R) × (Fin n → Fin n → R) :=
  if e.covered then
    let tmp : Fin n → Fin n → R := fun i j => st.2 i j * 0
    let tmp := matrixIntegral diffusion K e tmp
    let A := (List.finRange n).foldl (fun A ii =>
      (List.finRange n).foldl (fun A jj => addTo A (K.dofs ii) (K.dofs jj) (tmp ii jj)) A) st.1
    (A, tmp)
  else st

/-- Assembly over all coarse cells in the order of the list. -/
def assembleMatrix (diffusion : (Fin d → R) → Matrix (Fin d) (Fin d) R)
    (Ks : List (CoarseCell d n G R)) (st : (G → G → R) × (Fin n → Fin n → R)) :
    (G → G → R) × (Fin n → Fin n → R) :=
  Ks.foldl (fun st K => K.cells.foldl (matrixLocalCell diffusion K) st) st

/-- coarse_rhs_functional.cc:27-113 `RhsCodim0Integral::apply`. The Dirichlet extension is a freshly
constructed function that is never filled (l.137-138), so its gradient is zero.
`flux` is the problem's `diffusiveFlux`, a function separate from its `evaluate`. -/
def loadIntegral (flux : (Fin d → R) → (Fin d → R) → (Fin d → R)) (source : (Fin d → R) → R)
    (K : CoarseCell d n G R) (e : LocalCell d n R) (ret : Fin n → R) : Fin n → R :=
  let ret := fun i => ret i * 0                                         -- l.47
  e.quad.foldl (fun ret q =>
    let x := q.pos
    (List.finRange n).foldl (fun ret ii =>
      let reconstructionPhi := K.phi ii x + e.valQ ii x                 -- l.88, 92
      let dirichletExtensionGrad : Fin d → R := 0
      let directionOfFlux := dirichletExtensionGrad + e.gradDirichlet x - e.gradNeumann x -- l.98-102
      let diffusiveFlux := flux (e.toGlobal x) directionOfFlux  -- l.104
      let reconstructionGradPhi := K.gradPhi ii x + e.gradQ ii x        -- l.87, 105
      let ret := addToVec ret ii (q.weight * (source (e.toGlobal x) * reconstructionPhi)) -- l.109
      addToVec ret ii (-(q.weight * (diffusiveFlux ⬝ᵥ reconstructionGradPhi)))) ret) ret -- l.110

/-- coarse_rhs_functional.cc:140-162. -/
def loadLocalCell (flux : (Fin d → R) → (Fin d → R) → (Fin d → R)) (source : (Fin d → R) → R)
    (K : CoarseCell d n G R) (st : (G → R) × (Fin n → R)) (e : LocalCell d n R) :
    (G → R) × (Fin n → R) :=
  if e.covered then
    let tmp : Fin n → R := fun i => st.2 i * 0
    let tmp := loadIntegral flux source K e tmp
    let b := (List.finRange n).foldl (fun b ii => addToVec b (K.dofs ii) (tmp ii)) st.1
    (b, tmp)
  else st

/-- Assembly of the load vector over all coarse cells. -/
def assembleLoad (flux : (Fin d → R) → (Fin d → R) → (Fin d → R)) (source : (Fin d → R) → R)
    (Ks : List (CoarseCell d n G R)) (st : (G → R) × (Fin n → R)) : (G → R) × (Fin n → R) :=
  Ks.foldl (fun st K => K.cells.foldl (loadLocalCell flux source K) st) st

end Verif.CoarseAssembly
