import Mathlib.Tactic.Basic
import Mathlib.Tactic.Common

/-!
# Python effects

Exceptions as values, and a state-and-exception monad in which, as in Python, the state changes made
before an exception is raised persist.
-/

namespace Py

/-- Exception classes the modelled code can raise.  `exception` is a bare `Exception(...)`;
`linAlgError` is `numpy.linalg.LinAlgError`. -/
inductive Err where
  | valueError
  | typeError
  | indexError
  | attributeError
  | nameError
  | notImplementedError
  | linAlgError
  | recursionError
  | zeroDivisionError
  | keyError
  | ioError
  | exception
  /-- an exception class defined or raised by user code (the simulation) -/
  | user (tag : ℕ)
  deriving DecidableEq, Repr

/-- A Python computation over a world `W`: it ends with a value or an exception, and in both cases
with a (possibly changed) world. -/
def PyM (W : Type) (α : Type) : Type := W → Except Err α × W

namespace PyM

variable {W α β : Type}

/-- Run a computation. -/
def run (x : PyM W α) (w : W) : Except Err α × W := x w

/-- Return a value. -/
protected def pure (a : α) : PyM W α := fun w => (.ok a, w)

/-- Sequencing: an exception skips the continuation and keeps the world reached so far. -/
protected def bind (x : PyM W α) (f : α → PyM W β) : PyM W β := fun w =>
  match x w with
  | (.ok a, w') => f a w'
  | (.error e, w') => (.error e, w')

instance : Monad (PyM W) where
  pure := PyM.pure
  bind := PyM.bind

/-- `raise`. -/
def raise (e : Err) : PyM W α := fun w => (.error e, w)

/-- Read the world. -/
def get : PyM W W := fun w => (.ok w, w)

/-- Change the world. -/
def modify (f : W → W) : PyM W Unit := fun w => (.ok (), f w)

/-- Run a pure computation that may raise. -/
def lift (x : Except Err α) : PyM W α := fun w => (x, w)

@[simp] theorem run_pure (a : α) (w : W) : (pure a : PyM W α).run w = (.ok a, w) := rfl

@[simp] theorem run_raise (e : Err) (w : W) : (raise e : PyM W α).run w = (.error e, w) := rfl

@[simp] theorem run_get (w : W) : (get : PyM W W).run w = (.ok w, w) := rfl

@[simp] theorem run_modify (f : W → W) (w : W) : (modify f).run w = (.ok (), f w) := rfl

@[simp] theorem run_lift (x : Except Err α) (w : W) : (lift x : PyM W α).run w = (x, w) := rfl

theorem run_bind (x : PyM W α) (f : α → PyM W β) (w : W) :
    (x >>= f).run w = match x.run w with
      | (.ok a, w') => (f a).run w'
      | (.error e, w') => (.error e, w') := rfl

theorem run_bind_ok {x : PyM W α} {f : α → PyM W β} {w w' : W} {a : α}
    (h : x.run w = (.ok a, w')) : (x >>= f).run w = (f a).run w' := by
  rw [run_bind, h]

theorem run_bind_error {x : PyM W α} {f : α → PyM W β} {w w' : W} {e : Err}
    (h : x.run w = (.error e, w')) : (x >>= f).run w = (.error e, w') := by
  rw [run_bind, h]

end PyM

end Py
