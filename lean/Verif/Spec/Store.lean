import Mathlib.Data.List.Basic

/-!
# Specification: a map from keys to growing lists

Independent of the model of the store; shares no definitions with it.
-/

namespace Verif.Spec.Store

variable {K F : Type} [DecidableEq K]

/-- Observations of a client. -/
inductive Obs (F : Type) where
  | unit
  | value (f : F)
  | outOfRange
  | dangling

/-- The abstract store: the contents of every key, the number of times it was cleared,
and the references given out, as pairs (clear count at the time, key). -/
structure Abs (K F : Type) where
  content : K → List F
  epoch : ℕ
  refs : List (ℕ × K)

def Abs.empty : Abs K F := ⟨fun _ => [], 0, []⟩

/-- obtain a reference to a key -/
def Abs.get (a : Abs K F) (k : K) : Abs K F := { a with refs := a.refs ++ [(a.epoch, k)] }

/-- add to the end of the list of the key the reference stands for -/
def Abs.append (a : Abs K F) (h : ℕ) (f : F) : Abs K F × Obs F :=
  match a.refs[h]? with
  | none => (a, .dangling)
  | some (e, k) =>
    if e = a.epoch then
      ({ a with content := fun k' => if k' = k then a.content k ++ [f] else a.content k' }, .unit)
    else (a, .dangling)

/-- the `i`-th element of the list of the key the reference stands for -/
def Abs.read (a : Abs K F) (h i : ℕ) : Obs F :=
  match a.refs[h]? with
  | none => .dangling
  | some (e, k) =>
    if e = a.epoch then
      if hi : i < (a.content k).length then .value ((a.content k)[i]) else .outOfRange
    else .dangling

/-- forget everything; references given out before become invalid -/
def Abs.clear (a : Abs K F) : Abs K F := { a with content := fun _ => [], epoch := a.epoch + 1 }

end Verif.Spec.Store
