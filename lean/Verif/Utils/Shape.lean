import Verif.Py
import Mathlib.Data.Int.Notation

/-!
# Model: arguments that describe a shape

Models `as_shape` in `src/probnum/utils/argutils.py` (lines 13-50), which the constructors and `sample` methods call on their shape
arguments.
-/

namespace Probnum.Utils

/-- An entry of a shape argument: a Python integer (or Boolean), another integer type such as those of numpy, or something else. -/
inductive Item
  | pyInt (n : ℤ)
  | npInt (n : ℤ)
  | other
  deriving DecidableEq

/-- A shape argument: an integer of any type, a tuple, an iterable that can be iterated over again (list, array, range), an iterator,
which can be iterated over once, or something that is not iterable. -/
inductive ShapeArg
  | int (n : ℤ)
  | tuple (l : List Item)
  | iterable (l : List Item)
  | iterator (l : List Item)
  | notIterable

/-- The argument `ndim`: an integer, or anything else, such as `None`. -/
inductive NdimArg
  | int (n : ℤ)
  | other

/-- `isinstance(item, (int, numbers.Integral, np.integer))`. -/
def Item.isInt : Item → Bool
  | .other => false
  | _ => true

/-- `isinstance(item, int)`. -/
def Item.isPyInt : Item → Bool
  | .pyInt _ => true
  | _ => false

/-- `int(item)` for an integer. -/
def Item.toInt : Item → ℤ
  | .pyInt n => n
  | .npInt n => n
  | .other => 0

/-- What is left of an iterator after `all(isinstance(item, …) for item in x)`: `all` stops behind the first false value. -/
def afterAll : List Item → List Item
  | [] => []
  | x :: l => if x.isInt then afterAll l else l

/-- The conversion (`argutils.py` 29-44). -/
def convert : ShapeArg → Res (List ℤ)
  | .int n => .ok [n]
  | .tuple l =>
    if l.all Item.isPyInt then .ok (l.map Item.toInt)
    else if ! l.all Item.isInt then .error .typeError
    else .ok (l.map Item.toInt)
  | .iterable l => if ! l.all Item.isInt then .error .typeError else .ok (l.map Item.toInt)
  | .iterator l => if ! l.all Item.isInt then .error .typeError else .ok ((afterAll l).map Item.toInt)
  | .notIterable => .error .typeError

/-- `as_shape(x, ndim)` (`argutils.py` 13-50). -/
def asShape (x : ShapeArg) (ndim : NdimArg := .other) : Res (List ℤ) :=
  (convert x).bind fun shape =>
    match ndim with
    | .other => .ok shape
    | .int d => if (shape.length : ℤ) ≠ d then .error .typeError else .ok shape

end Probnum.Utils
