import Verif.Functions.Model

/-!
# C48: function algebra

Specification: an expression denotes a function from arrays to numbers at output indices, computed entrywise
(`denote`).
-/

namespace Probnum.Functions

open RandVars

/-- The value of an expression at input `x` and output index `idx`, given the values of the functions at its leaves. -/
noncomputable def denote (val : (Arr → Res Arr) → Arr → Arr) : Expr → Arr → List ℕ → ℝ
  | .fn f _ _, x, idx => (val f x).get idx
  | .zero _ _, _, _ => 0
  | .add a b, x, idx => denote val a x idx + denote val b x idx
  | .sub a b, x, idx => denote val a x idx - denote val b x idx
  | .neg a, x, idx => -denote val a x idx
  | .mul a c, x, idx => denote val a x idx * c
  | .rmul c a, x, idx => c * denote val a x idx

/-- Every leaf of the expression has the given shapes. -/
def Uniform (i o : List ℕ) : Expr → Prop
  | .fn _ i' o' => i' = i ∧ o' = o
  | .zero i' o' => i' = i ∧ o' = o
  | .add a b => Uniform i o a ∧ Uniform i o b
  | .sub a b => Uniform i o a ∧ Uniform i o b
  | .neg a => Uniform i o a
  | .mul a _ => Uniform i o a
  | .rmul _ a => Uniform i o a

/-- At input `x` every function at a leaf returns the array `val f x`, and it has shape `batch ++ o`. -/
def LeavesReturn (val : (Arr → Res Arr) → Arr → Arr) (x : Arr) (s : List ℕ) : Expr → Prop
  | .fn f _ _ => f x = .ok (val f x) ∧ (val f x).shape = s
  | .zero _ _ => True
  | .add a b => LeavesReturn val x s a ∧ LeavesReturn val x s b
  | .sub a b => LeavesReturn val x s a ∧ LeavesReturn val x s b
  | .neg a => LeavesReturn val x s a
  | .mul a _ => LeavesReturn val x s a
  | .rmul _ a => LeavesReturn val x s a

/-- No `Zero` function among the leaves. -/
def NoZero : Expr → Prop
  | .fn _ _ _ => True
  | .zero _ _ => False
  | .add a b => NoZero a ∧ NoZero b
  | .sub a b => NoZero a ∧ NoZero b
  | .neg a => NoZero a
  | .mul a _ => NoZero a
  | .rmul _ a => NoZero a

end Probnum.Functions
