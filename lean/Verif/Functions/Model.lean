import Verif.RandVars.Arr

/-!
# Model of `functions/`

Arrays are those of `Verif/RandVars/Arr.lean` (shape and entries, exact real numbers; data types are not modelled).  The
Python function wrapped by `LambdaFunction` is arbitrary and may raise.
-/

namespace Probnum.Functions

open RandVars

/-- Python's `l[start:]` for a possibly negative start. -/
def sliceFrom (l : List ℕ) (start : ℤ) : List ℕ :=
  if start < 0 then l.drop (l.length + start).toNat else l.drop start.toNat

/-- Python's `l[:stop]` for a possibly negative stop. -/
def sliceTo (l : List ℕ) (stop : ℤ) : List ℕ :=
  if stop < 0 then l.take (l.length + stop).toNat else l.take stop.toNat

/-- What every `Function` has (`_function.py` 39-66): input shape, output shape and `__call__`. -/
structure Core where
  inS : List ℕ
  outS : List ℕ
  call : Arr → Res Arr

/-- `Function.__call__` (`_function.py` 71-112) around a given `_evaluate`: ValueError if the trailing shape is wrong,
AssertionError if the result has the wrong shape. -/
def checkedCall (inS outS : List ℕ) (evaluate : Arr → Res Arr) (x : Arr) : Res Arr :=
  if sliceFrom x.shape ((x.shape.length : ℤ) - inS.length) ≠ inS then .error .valueError
  else (evaluate x).bind fun fx =>
    if fx.shape = sliceTo x.shape ((x.shape.length : ℤ) - inS.length) ++ outS then .ok fx else .error .assertionError

/-- The classes the operators distinguish: `SumFunction` (with its summands), `ScaledFunction` (with function and
scalar), `Zero`, and any other `Function`. -/
inductive Kind
  | plain
  | zero
  | sum (summands : List Core)
  | scaled (function : Core) (scalar : ℝ)

/-- A `Function` object. -/
structure Fn where
  core : Core
  kind : Kind

/-- `LambdaFunction(fn, input_shape, output_shape)` (`_function.py` 150-190). -/
def mkLambda (fn : Arr → Res Arr) (inS outS : List ℕ) : Fn := ⟨⟨inS, outS, checkedCall inS outS fn⟩, .plain⟩

/-- `Zero._evaluate` (`_zero.py` 13-17). -/
def zeroEval (inS outS : List ℕ) (x : Arr) : Res Arr :=
  .ok ⟨sliceTo x.shape ((x.shape.length : ℤ) - inS.length) ++ outS, fun _ => 0⟩

/-- `Zero(input_shape, output_shape)` (`_zero.py` 10-17). -/
def mkZero (inS outS : List ℕ) : Fn := ⟨⟨inS, outS, checkedCall inS outS (zeroEval inS outS)⟩, .zero⟩

/-- `functools.reduce(operator.add, (summand(x) for summand in summands))` after the first summand
(`_algebra_fallbacks.py` 64-67). -/
noncomputable def sumFrom (x : Arr) : List Core → Arr → Res Arr
  | [], acc => .ok acc
  | g :: l, acc => (g.call x).bind fun y => (acc.add y).bind (sumFrom x l)

/-- `SumFunction._evaluate` (`_algebra_fallbacks.py` 64-67). -/
noncomputable def sumEval (f : Core) (l : List Core) (x : Arr) : Res Arr := (f.call x).bind (sumFrom x l)

/-- `SumFunction(*summands)` (`_algebra_fallbacks.py` 33-57): ValueError unless all input shapes and all output shapes
agree with the first.  (Without summands `summands[0]` is an IndexError; the operators never do that.) -/
noncomputable def mkSum (summands : List Core) : Res Fn :=
  match summands with
  | [] => .error .indexError
  | f :: l =>
    if (f :: l).all (fun g => g.inS = f.inS) = false then .error .valueError
    else if (f :: l).all (fun g => g.outS = f.outS) = false then .error .valueError
    else .ok ⟨⟨f.inS, f.outS, checkedCall f.inS f.outS (sumEval f l)⟩, .sum (f :: l)⟩

/-- `ScaledFunction(function, scalar)` (`_algebra_fallbacks.py` 97-126). -/
noncomputable def mkScaled (f : Core) (c : ℝ) : Fn :=
  ⟨⟨f.inS, f.outS, checkedCall f.inS f.outS fun x => (f.call x).map (Arr.map fun v => c * v)⟩, .scaled f c⟩

/-- `scalar * f` (`__rmul__`, `_function.py` 139-147; `ScaledFunction.__rmul__`, `_algebra_fallbacks.py` 133-141). -/
noncomputable def rmulFn (c : ℝ) (f : Fn) : Fn :=
  match f.kind with
  | .scaled g c' => mkScaled g (c * c')
  | _ => mkScaled f.core c

/-- `f * scalar` (`__mul__`, `_function.py` 129-137; `ScaledFunction.__mul__`, `_algebra_fallbacks.py` 123-131). -/
noncomputable def mulFn (f : Fn) (c : ℝ) : Fn :=
  match f.kind with
  | .scaled g c' => mkScaled g (c' * c)
  | _ => mkScaled f.core c

/-- `-f` (`_function.py` 115-116). -/
noncomputable def negFn (f : Fn) : Fn := rmulFn (-1) f

/-- `f + g`: the dispatch of `_algebra.py` 12-24, 42-49, 62-64. -/
noncomputable def addFn (f g : Fn) : Res Fn :=
  match f.kind with
  | .sum l =>
    match g.kind with
    | .sum l' => mkSum (l ++ l')
    | _ => mkSum (l ++ [g.core])
  | .zero => .ok g
  | _ =>
    match g.kind with
    | .sum l' => mkSum (f.core :: l')
    | .zero => .ok f
    | _ => mkSum [f.core, g.core]

/-- `f - g`: the dispatch of `_algebra.py` 27-34, 52-54, 67-69. -/
noncomputable def subFn (f g : Fn) : Res Fn :=
  match f.kind with
  | .sum l => mkSum (l ++ [(negFn g).core])
  | .zero => .ok (negFn g)
  | _ =>
    match g.kind with
    | .zero => .ok f
    | _ => mkSum [f.core, (negFn g).core]

/-- An expression a user can write with the operators of `Function`. -/
inductive Expr
  | fn (f : Arr → Res Arr) (inS outS : List ℕ)
  | zero (inS outS : List ℕ)
  | add (a b : Expr)
  | sub (a b : Expr)
  | neg (a : Expr)
  | mul (a : Expr) (c : ℝ)
  | rmul (c : ℝ) (a : Expr)

/-- Evaluation of the expression by Python: the object it builds. -/
noncomputable def build : Expr → Res Fn
  | .fn f i o => .ok (mkLambda f i o)
  | .zero i o => .ok (mkZero i o)
  | .add a b => (build a).bind fun f => (build b).bind fun g => addFn f g
  | .sub a b => (build a).bind fun f => (build b).bind fun g => subFn f g
  | .neg a => (build a).map negFn
  | .mul a c => (build a).map fun f => mulFn f c
  | .rmul c a => (build a).map (rmulFn c)

end Probnum.Functions
