/-!
# Outcome of a C++ call
-/

namespace Verif

/-- Result of a modelled call: normal return, an exception, or undefined behaviour
(also used for a violated `assert`, which is undefined once compiled out). -/
inductive Outcome (α : Type) where
  | ok (a : α)
  | throw
  | ub
deriving DecidableEq

/-- Sequencing: stop at the first call that does not return normally. -/
def Outcome.bind {α β : Type} (x : Outcome α) (f : α → Outcome β) : Outcome β :=
  match x with
  | .ok a => f a
  | .throw => .throw
  | .ub => .ub

instance : Monad Outcome where
  pure := .ok
  bind := Outcome.bind

@[simp] theorem Outcome.ok_bind {α β : Type} (a : α) (f : α → Outcome β) :
    (Outcome.ok a >>= f) = f a := rfl
@[simp] theorem Outcome.throw_bind {α β : Type} (f : α → Outcome β) :
    ((Outcome.throw : Outcome α) >>= f) = .throw := rfl
@[simp] theorem Outcome.ub_bind {α β : Type} (f : α → Outcome β) :
    ((Outcome.ub : Outcome α) >>= f) = .ub := rfl
@[simp] theorem Outcome.pure_eq {α : Type} (a : α) : (pure a : Outcome α) = .ok a := rfl

end Verif
