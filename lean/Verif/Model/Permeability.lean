import Verif.Model.Outcome
import Mathlib.Algebra.Order.Floor.Ring
import Mathlib.Data.Rat.Floor
import Mathlib.Data.Matrix.Basic
import Mathlib.Algebra.Order.Ring.Rat

/-!
# The tabulated permeabilities: SPE10 and Tarbert

Source: `dune/multiscale/problems/spe10.cc`, `dune/multiscale/problems/tarbert.cc`.

`double` is modelled by the rational numbers; where the result of a division decides about an array index the rounding
of floating point operations is a parameter `rd`.
-/

namespace Verif.Permeability

/-! ### SPE10 -/

/-- spe10.cc:18-20: the raster. -/
def spe10Elements : Fin 3 → ℕ := ![60, 220, 85]

/-- spe10.cc:171 `entries_per_dim`. -/
def entriesPerDim : ℕ := 60 * 220 * 85

/-- spe10.cc:44, 48: lower left and upper right corner (`upper_right` is set twice, the second value counts). -/
def spe10Lower : Fin 3 → ℚ := ![0, 0, 0]
def spe10Upper : Fin 3 → ℚ := ![2, 5, 1]

/-- spe10.cc:158-162: the raster cell in one direction,
`min(size_t(floor(ne * ((center - ll) / (ur - ll)))), ne - 1)`.  `rd` rounds the result of every
floating point operation.  Converting a negative number to `size_t` is not covered (points of the domain give
non-negative numbers); the model gives 0. -/
def whichPartition (rd : ℚ → ℚ) (ne : ℕ) (ll ur x : ℚ) : ℕ :=
  min (⌊rd (ne * rd (rd (x - ll) / rd (ur - ll)))⌋).toNat (ne - 1)

/-- spe10.cc:163-169 (three dimensions): the index of the raster cell. -/
def spe10Subdomain (rd : ℚ → ℚ) (x : Fin 3 → ℚ) : ℕ :=
  let w := fun d => whichPartition rd (spe10Elements d) (spe10Lower d) (spe10Upper d) (x d)
  w 0 + w 1 * spe10Elements 0 + w 2 * spe10Elements 1 * spe10Elements 0

/-- spe10.cc:170-175: the array entry read for the diagonal entry `d`. -/
def spe10Entry (rd : ℚ → ℚ) (x : Fin 3 → ℚ) (d : Fin 3) : ℕ :=
  match d with
  | 0 => spe10Subdomain rd x
  | 1 => entriesPerDim + spe10Subdomain rd x
  | 2 => 2 * entriesPerDim + spe10Subdomain rd x

/-- spe10.cc:134-176 `Diffusion::evaluate`, the result object: only the diagonal is assigned.  `perm` is the content
of the permeability array. -/
def spe10Evaluate (rd : ℚ → ℚ) (perm : ℕ → ℚ) (x : Fin 3 → ℚ) (y : Matrix (Fin 3) (Fin 3) ℚ) :
    Matrix (Fin 3) (Fin 3) ℚ :=
  fun i j => if i = j then perm (spe10Entry rd x i) else y i j

/-- spe10.cc:178-185 `Diffusion::diffusiveFlux`; `junk` is the content of the local variable `eval_tmp` before it is
passed to `evaluate`. -/
def spe10Flux (rd : ℚ → ℚ) (perm : ℕ → ℚ) (junk : Matrix (Fin 3) (Fin 3) ℚ) (x direction : Fin 3 → ℚ) : Fin 3 → ℚ :=
  (spe10Evaluate rd perm x junk).mulVec direction

/-- Exceptions of the data readers. -/
inductive ReadResult (α : Type) where
  | ok (a : α)
  /-- `spe10_model2_data_file_missing` -/
  | fileMissing
  /-- `Dune::RangeError` -/
  | rangeError
  /-- `Dune::IOError` -/
  | ioError
  /-- a write outside the array -/
  | ub

/-- The loop spe10.cc:206-208, `permeability_[counter++] = tmp * scale + shift` for every number of the file, into an array
of `cap` entries.  `none`: a write outside the array. -/
def fillLoop (cap : ℕ) (f : ℚ → ℚ) : List ℚ → ℕ → (ℕ → ℚ) → Option (ℕ × (ℕ → ℚ))
  | [], counter, a => some (counter, a)
  | v :: rest, counter, a =>
    if counter < cap then fillLoop cap f rest (counter + 1) (fun i => if i = counter then f v else a i) else none

/-- spe10.cc:187-214 `Diffusion::readPermeability`.  `file` is `none` if the file cannot be opened, otherwise the
numbers which `operator>>` extracts before it fails.  `lo`, `hi` are the smallest and largest value of the data set,
`min`, `max` the configured range.  The array is zero-initialised. -/
def spe10Read (lo hi min max : ℚ) (file : Option (List ℚ)) : ReadResult (ℕ → ℚ) :=
  match file with
  | none => .fileMissing
  | some numbers =>
    if max > min then
      let scale := (max - min) / (hi - lo)
      let shift := min - scale * lo
      let dataSize := 3 * entriesPerDim
      match fillLoop dataSize (fun tmp => tmp * scale + shift) numbers 0 (fun _ => 0) with
      | none => .ub
      | some (counter, a) => if counter ≠ dataSize then .ioError else .ok a
    else .rangeError

/-! ### Tarbert -/

/-- tarbert.cc:110 `deltas_`. -/
def deltas : Fin 3 → ℚ := ![6.096, 3.048, 0.6096]

/-- tarbert.cc:29-47: the upper right corner (lower left is the origin; in two dimensions the first two entries). -/
def tarbertUpper : Fin 3 → ℚ := ![365.76, 670.56, 21.336]

/-- tarbert.cc:136-137 `std::floor(x[dim] / deltas_[dim])`. -/
def interval (rd : ℚ → ℚ) (d : Fin 3) (x : ℚ) : ℤ := ⌊rd (x / deltas d)⌋

/-- tarbert.cc:110, 136-137 with the widths of the raster rounded as well: `deltas_` holds numbers of type `double`. -/
def roundedInterval (rd : ℚ → ℚ) (d : Fin 3) (x : ℚ) : ℤ := ⌊rd (x / rd (deltas d))⌋

/-- tarbert.cc:35-45: the upper right corner as numbers of type `double`. -/
def roundedUpper (rd : ℚ → ℚ) (d : Fin 3) : ℚ := rd (tarbertUpper d)

/-- tarbert.cc:144, 149: the index of the raster cell from the intervals (two dimensions: the third is 0). -/
def tarbertOffset (p0 p1 p2 : ℤ) : ℤ := p0 + p1 * 60 + p2 * 220 * 60

/-- tarbert.cc:145-146, 150-152: the array entry of the diagonal entry `d`. -/
def tarbertEntry (offset : ℤ) (d : Fin 3) : ℤ :=
  match d with
  | 0 => offset
  | 1 => offset + 1122000
  | 2 => offset + 2244000

/-- tarbert.cc:173: length of the array. -/
def tarbertSize : ℕ := 3366000

/-- How the text of the file ends after the last number. -/
inductive Ending where
  /-- white space after the last number, then the end -/
  | blank
  /-- the end directly after the last number -/
  | bare
  /-- something which is not a number -/
  | garbage
deriving DecidableEq

/-- Memory of the array: `none` is an entry which was never written. -/
abbrev Buffer := ℕ → Option ℚ

/-- The loop tarbert.cc:174-179 with `v` the value extracted last, which did not set the end-of-file flag.  Extraction of the
last number sets the flag if the file ends directly after it.  A failed extraction in front of garbage leaves the flag
unset for ever, so the loop writes on until it leaves the array. -/
def tarbertLoop (cap : ℕ) (ending : Ending) : ℚ → List ℚ → ℕ → Buffer → Outcome (ℕ × Buffer)
  | v, rest, counter, a =>
    if counter < cap then
      let a' : Buffer := fun i => if i = counter then some v else a i
      match rest with
      | [] => match ending with
        | .garbage => .ub
        | _ => .ok (counter + 1, a')      -- extraction fails at the end of the file
      | [w] => match ending with
        | .bare => .ok (counter + 1, a')  -- extracts `w` and sets the flag
        | _ => tarbertLoop cap ending w [] (counter + 1) a'
      | w :: w' :: rest => tarbertLoop cap ending w (w' :: rest) (counter + 1) a'
    else .ub
termination_by _ rest => rest.length

/-- tarbert.cc:168-186 `Diffusion::readPermeability`.  `none`: the file cannot be opened, the pointer stays null. -/
def tarbertRead (file : Option (List ℚ × Ending)) : Outcome (Option (ℕ × Buffer)) :=
  match file with
  | none => .ok none
  | some ([], .garbage) => .ub
  | some ([], _) => .ok (some (0, fun _ => none))
  | some ([_], .bare) => .ok (some (0, fun _ => none))
  | some (v :: rest, ending) =>
    match tarbertLoop tarbertSize ending v rest 0 (fun _ => none) with
    | .ok r => .ok (some r)
    | .throw => .throw
    | .ub => .ub

/-- tarbert.cc:122-157, three dimensions, one thread: a null pointer throws `IOError`; reading an entry which was never
written or is outside the array is undefined.  The result is assigned completely; `permMatrix_` starts as zero
and only its diagonal is written. -/
def tarbertEvaluate (rd : ℚ → ℚ) (perm : Option Buffer) (x : Fin 3 → ℚ) (_y : Matrix (Fin 3) (Fin 3) ℚ) :
    Outcome (Matrix (Fin 3) (Fin 3) ℚ) :=
  match perm with
  | none => .throw
  | some buf =>
    let offset := tarbertOffset (interval rd 0 (x 0)) (interval rd 1 (x 1)) (interval rd 2 (x 2))
    let get := fun d : Fin 3 =>
      if 0 ≤ tarbertEntry offset d then buf (tarbertEntry offset d).toNat else none
    match get 0, get 1, get 2 with
    | some a, some b, some c => .ok (Matrix.diagonal ![a, b, c])
    | _, _, _ => .ub

/-- tarbert.cc:116-120, the destructor: `delete` of a pointer obtained from `new double[]` (173). -/
def tarbertDestroy (perm : Option Buffer) : Outcome Unit :=
  match perm with
  | none => .ok ()
  | some _ => .ub

/-- tarbert.cc:159-166 `Diffusion::diffusiveFlux`; `junk` is the content of `eval_tmp` before the call of `evaluate`. -/
def tarbertFlux (rd : ℚ → ℚ) (perm : Option Buffer) (junk : Matrix (Fin 3) (Fin 3) ℚ) (x direction : Fin 3 → ℚ) :
    Outcome (Fin 3 → ℚ) := do
  let evalTmp ← tarbertEvaluate rd perm x junk
  return evalTmp.mulVec direction

/-- Evaluate at the points one after the other until one evaluation throws. -/
def tarbertUse (rd : ℚ → ℚ) (perm : Option Buffer) : List (Fin 3 → ℚ) → Outcome Unit
  | [] => .ok ()
  | x :: xs => match tarbertEvaluate rd perm x 0 with
    | .ok _ => tarbertUse rd perm xs
    | .throw => .throw
    | .ub => .ub

/-- tarbert.cc:106-120, 122-157: construct the Tarbert diffusion, evaluate it at the points `xs`, destroy it (destruction
happens also if an evaluation throws). -/
def tarbertLife (rd : ℚ → ℚ) (file : Option (List ℚ × Ending)) (xs : List (Fin 3 → ℚ)) : Outcome Unit :=
  match tarbertRead file with
  | .ub => .ub
  | .throw => .throw
  | .ok r =>
    let perm := r.map (·.2)
    match tarbertUse rd perm xs, tarbertDestroy perm with
    | .ub, _ => .ub
    | _, .ub => .ub
    | u, _ => u

/-! ### Two threads evaluating the Tarbert diffusion

The members `permIntervalls_` and `permMatrix_` are shared (tarbert.hh:80-81).  Two dimensions; the accesses of
tarbert.cc:136-156 one after the other; each access is atomic and seen by the other thread at once (the most favourable
case: formally a data race is undefined). -/

/-- Shared members. -/
structure Shared where
  i0 : ℤ
  i1 : ℤ
  m00 : ℚ
  m11 : ℚ

/-- Position of a thread, with its local variables. -/
inductive Pc where
  | writeI0
  | writeI1
  | readI0
  | readI1 (a : ℤ)
  | writeM00 (offset : ℤ)
  | writeM11 (offset : ℤ)
  | readM00
  | readM11 (y00 : ℚ)
  | done (y00 y11 : ℚ)

/-- One step of a thread evaluating at the point with intervals `p0`, `p1`. -/
def threadStep (perm : ℤ → ℚ) (p0 p1 : ℤ) (s : Shared) : Pc → Shared × Pc
  | .writeI0 => ({ s with i0 := p0 }, .writeI1)
  | .writeI1 => ({ s with i1 := p1 }, .readI0)
  | .readI0 => (s, .readI1 s.i0)
  | .readI1 a => (s, .writeM00 (a + s.i1 * 60))
  | .writeM00 o => ({ s with m00 := perm o }, .writeM11 o)
  | .writeM11 o => ({ s with m11 := perm (o + 1122000) }, .readM00)
  | .readM00 => (s, .readM11 s.m00)
  | .readM11 y => (s, .done y s.m11)
  | .done a b => (s, .done a b)

/-- Run a schedule: `false` lets the first thread take a step, `true` the second. -/
def runThreads (perm : ℤ → ℚ) (p q : ℤ × ℤ) : List Bool → Shared → Pc → Pc → Shared × Pc × Pc
  | [], s, a, b => (s, a, b)
  | false :: l, s, a, b =>
    let r := threadStep perm p.1 p.2 s a
    runThreads perm p q l r.1 r.2 b
  | true :: l, s, a, b =>
    let r := threadStep perm q.1 q.2 s b
    runThreads perm p q l r.1 a r.2

end Verif.Permeability
