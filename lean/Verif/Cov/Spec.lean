import Verif.Cov.Model

/-!
# Specification of the algebra of covariance functions (C44)
-/

namespace Probnum.Cov

open RandVars

/-- What `_evaluate` of a leaf is. -/
abbrev Eval := Inp → Option Inp → Res Arr

/-- The value of an expression at the inputs `x0`, `x1` and the index `idx` (batch index, then output indices), given
the values of the covariance functions at its leaves. -/
noncomputable def denote (val : Eval → Inp → Option Inp → Arr) : Expr → Inp → Option Inp → List ℕ → ℝ
  | .leaf _ _ _ _ ev, x0, x1, idx => (val ev x0 x1).get idx
  | .add a b, x0, x1, idx => denote val a x0 x1 idx + denote val b x0 x1 idx
  | .mul a b, x0, x1, idx => denote val a x0 x1 idx * denote val b x0 x1 idx
  | .scale c a, x0, x1, idx => c * denote val a x0 x1 idx

/-- Every leaf of the expression has the given input shape (for both arguments) and output shapes. -/
def Uniform (i o0 o1 : List ℕ) : Expr → Prop
  | .leaf in0 in1 out0 out1 _ => in0 = i ∧ in1 = i ∧ out0 = o0 ∧ out1 = o1
  | .add a b => Uniform i o0 o1 a ∧ Uniform i o0 o1 b
  | .mul a b => Uniform i o0 o1 a ∧ Uniform i o0 o1 b
  | .scale _ a => Uniform i o0 o1 a

/-- At the inputs `x0`, `x1` every leaf returns the array `val ev x0 x1`, and it has shape `s`. -/
def LeavesReturn (val : Eval → Inp → Option Inp → Arr) (x0 : Inp) (x1 : Option Inp) (s : List ℕ) : Expr → Prop
  | .leaf _ _ _ _ ev => ev x0 x1 = .ok (val ev x0 x1) ∧ (val ev x0 x1).shape = s
  | .add a b => LeavesReturn val x0 x1 s a ∧ LeavesReturn val x0 x1 s b
  | .mul a b => LeavesReturn val x0 x1 s a ∧ LeavesReturn val x0 x1 s b
  | .scale _ a => LeavesReturn val x0 x1 s a

/-- The inputs are batches of points of shape `i` whose batch shapes broadcast to `b` (one argument: its own batch
shape). -/
def Batch (i : List ℕ) (x0 : Inp) : Option Inp → List ℕ → Prop
  | none, b => x0.arr.shape = b ++ i
  | some x1, b => ∃ b0 b1, x0.arr.shape = b0 ++ i ∧ x1.arr.shape = b1 ++ i ∧ bshape b0 b1 = .ok b

/-- The expression is a single covariance function. -/
def IsLeaf : Expr → Prop
  | .leaf _ _ _ _ _ => True
  | _ => False

end Probnum.Cov
