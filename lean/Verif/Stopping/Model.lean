import Verif.Py

/-!
# Model of `probnum/_pnmethod/_stopping_criterion.py`

A stopping criterion is a callable.  To make evaluation order observable, every call returns the list of
identifiers of the user-supplied callables that were invoked (in order), next to the returned python object or the
raised exception.  `V` is the type of python objects a criterion may return (`bool`, `np.bool_`, ...).
-/

namespace Probnum.Stopping

/-- Truthiness of python objects: `bool(v)`, and the objects `True` and `False`. -/
class Truthy (V : Type) where
  truth : V → Bool
  ofBool : Bool → V
  truth_ofBool : ∀ b, truth (ofBool b) = b

instance : Truthy Bool := ⟨id, id, fun _ => rfl⟩

/-- Integers as python objects: zero is falsy. -/
instance : Truthy Int := ⟨fun i => i != 0, fun b => if b then 1 else 0, by decide⟩

/-- A call: the user callables invoked so far and the outcome. -/
abbrev Call (V : Type) := List Nat × Res V

/-- A stopping criterion applied to arguments of type `σ` (`*args, **kwargs` in one object). -/
abbrev Criterion (σ V : Type) := σ → Call V

variable {σ V : Type} [Truthy V]

/-- `LambdaStoppingCriterion(stopcrit)` (`_stopping_criterion.py` 100-123); `i` identifies the callable. -/
def lambda (i : Nat) (f : σ → Res V) : Criterion σ V := fun s => ([i], f s)

/-- `StoppingCriterion.__and__` (`_stopping_criterion.py` 82-86): python's `a and b`. -/
def and (a b : Criterion σ V) : Criterion σ V := fun s =>
  match a s with
  | (l, .error e) => (l, .error e)
  | (l, .ok v) => if Truthy.truth v then
      let (l', r) := b s
      (l ++ l', r)
    else (l, .ok v)

/-- `StoppingCriterion.__or__` (`_stopping_criterion.py` 88-92): python's `a or b`. -/
def or (a b : Criterion σ V) : Criterion σ V := fun s =>
  match a s with
  | (l, .error e) => (l, .error e)
  | (l, .ok v) => if Truthy.truth v then (l, .ok v)
    else
      let (l', r) := b s
      (l ++ l', r)

/-- `StoppingCriterion.__invert__` (`_stopping_criterion.py` 94-97): python's `not a`. -/
def invert (a : Criterion σ V) : Criterion σ V := fun s =>
  match a s with
  | (l, .error e) => (l, .error e)
  | (l, .ok v) => (l, .ok (Truthy.ofBool (!Truthy.truth v)))

end Probnum.Stopping
