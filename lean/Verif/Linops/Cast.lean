import Verif.Py
import Verif.Linops.Rank
import Mathlib.Algebra.Order.Floor.Ring

/-!
# Property C55: casts of linear operators

Model of `astype` (`/repo/src/probnum/linops/_linear_operator.py` 318-371) and the `_astype` methods for the dtypes
int64 and float64.  Integer arithmetic is exact (no overflow), floating-point arithmetic is real arithmetic.  Operators
without an `_astype` of their own (`LambdaLinearOperator` instances, `Symmetrize` apart, inverses, sums, products,
selections, embeddings) are represented by `lam`; flags are left out (`is_symmetric` is `None`).
-/

namespace Probnum.Linops.Cast

open Finset Probnum.Linops

/-- int64 and float64. -/
inductive DType where
  | int
  | float
  deriving DecidableEq

/-- `np.result_type`. -/
def resultType : DType → DType → DType
  | .int, .int => .int
  | _, _ => .float

/-- Conversion of one value with `casting="unsafe"`: conversion to an integer truncates towards zero. -/
noncomputable def castVal : DType → ℝ → ℝ
  | .float, x => x
  | .int, x => if 0 ≤ x then (⌊x⌋ : ℝ) else (⌈x⌉ : ℝ)

/-- An array with its dtype. -/
structure Arr where
  dt : DType
  val : Mat

/-- `x.astype(dt)`. -/
noncomputable def Arr.astype (x : Arr) (dt : DType) : Arr := ⟨dt, fun i j => castVal dt (x.val i j)⟩

/-- `x @ y` for arrays. -/
def Arr.matmul (k : ℕ) (x y : Arr) : Arr := ⟨resultType x.dt y.dt, mmul k x.val y.val⟩

/-- Linear operators. -/
inductive COp where
  /-- `Matrix(A)` (`_linear_operator.py` 1602-1662) -/
  | matrix (r c : ℕ) (A : Arr)
  /-- an operator given by functions, with its matrix (1264-1452) -/
  | lam (r c : ℕ) (A : Arr)
  /-- `Scaling` (`_scaling.py`) -/
  | scaling (n : ℕ) (dt : DType) (f : ℕ → ℝ)
  /-- `Kronecker(A, B)` (`_kronecker.py` 64-203) -/
  | kron (A B : COp)
  /-- `TransposedLinearOperator(A)` (`_linear_operator.py` 1455-1494) -/
  | transposed (A : COp)
  /-- `_TypeCastLinearOperator(A, dt)` (1547-1599) -/
  | cast (A : COp) (dt : DType)

namespace COp

/-- `shape`. -/
def shape : COp → ℕ × ℕ
  | .matrix r c _ => (r, c)
  | .lam r c _ => (r, c)
  | .scaling n _ _ => (n, n)
  | .kron A B => (A.shape.1 * B.shape.1, A.shape.2 * B.shape.2)
  | .transposed A => (A.shape.2, A.shape.1)
  | .cast A _ => A.shape

/-- `dtype` (`_kronecker.py` 113 for Kronecker products). -/
def dtype : COp → DType
  | .matrix _ _ A => A.dt
  | .lam _ _ A => A.dt
  | .scaling _ dt _ => dt
  | .kron A B => resultType A.dtype B.dtype
  | .transposed A => A.dtype
  | .cast _ dt => dt

/-- `todense()`: `_linear_operator.py` 1624 (Matrix), 1475 (transposed), 1576-1578 (cast); `_scaling.py` 84, 133, 253-256;
`_kronecker.py` `np.kron`. -/
noncomputable def todense : COp → Arr
  | .matrix _ _ A => A
  | .lam _ _ A => A
  | .scaling _ dt f => ⟨dt, fun i j => if i = j then f i else 0⟩
  | .kron A B => ⟨resultType A.todense.dt B.todense.dt, kronM B.shape.1 B.shape.2 A.todense.val B.todense.val⟩
  | .transposed A => ⟨A.todense.dt, trn A.todense.val⟩
  | .cast A dt => A.todense.astype dt

/-- `self @ x`: 1623, 1569-1571 (cast), 1469 (transposed); `_kronecker.py` 254-276 for every column of `x`. -/
noncomputable def matmul : COp → Arr → Arr
  | .matrix _ c A, x => A.matmul c x
  | .lam _ c A, x => A.matmul c x
  | .scaling _ dt f, x => ⟨resultType dt x.dt, fun i j => f i * x.val i j⟩
  | .kron A B, x =>
    let y := fun k => B.matmul ⟨x.dt, fun b a => x.val (a * B.shape.2 + b) k⟩
    let z := fun k => A.matmul ⟨(y k).dt, trn (y k).val⟩
    ⟨(z 0).dt, fun i k => (z k).val (i / B.shape.1) (i % B.shape.1)⟩
  | .transposed A, x => Arr.matmul A.shape.1 (COp.transposed A).todense x
  | .cast A dt, x => (A.matmul x).astype (resultType dt x.dt)

/-- `np.can_cast(from, to, casting)` for casting `"unsafe"` and `"safe"`. -/
def canCast (safe : Bool) (src dst : DType) : Bool := !safe || src == dst || dst == .float

mutual

/-- `astype(dt, casting, copy)` (318-371) with the `_astype` methods 365-371, 1485-1488 (transposed), 1590-1599 (cast),
1640-1653 (Matrix); `_scaling.py` 244-251; `_kronecker.py` 180-189. -/
noncomputable def astype : ℕ → Bool → Bool → COp → DType → Res COp
  | 0, _, _, _, _ => .error .recursionError
  | n + 1, safe, copy, A, dt =>
    if !canCast safe A.dtype dt then .error .typeError
    else match A with
      | .matrix r c M => if M.dt = dt ∧ !copy then .ok A else .ok (.matrix r c (M.astype dt))
      | .lam _ _ M => if M.dt = dt ∧ !copy then .ok A else .ok (.cast A dt)
      | .scaling m d f => if d = dt ∧ !copy then .ok A else .ok (.scaling m dt fun i => castVal dt (f i))
      | .kron B C => do
        let B' ← astype n safe copy B dt
        let C' ← astype n safe copy C dt
        .ok (.kron B' C')
      | .transposed B => do
        let B' ← astype n safe copy B dt
        T n B'
      | .cast B d =>
        if d = dt ∧ !copy then .ok A else if dt = B.dtype ∧ !copy then .ok B else .ok (.cast A dt)

/-- `T` (939-951) with the `_transpose` methods 922-936, 1398-1402, 1476 (transposed), 1579 (cast), 1637-1638 (Matrix);
`_scaling.py` 155; `_kronecker.py` (product of the transposes). -/
noncomputable def T : ℕ → COp → Res COp
  | 0, _ => .error .recursionError
  | n + 1, A =>
    match A with
    | .matrix r c M => .ok (.matrix c r ⟨M.dt, trn M.val⟩)
    | .lam _ _ _ => .ok (.transposed A)
    | .scaling _ _ _ => .ok A
    | .kron B C => do
      let B' ← T n B
      let C' ← T n C
      .ok (.kron B' C')
    | .transposed B => .ok B
    | .cast B dt => do
      let B' ← T n B
      astype n false true B' dt

end

/-- `Scaling + Scaling`, `Scaling - Scaling`, `Scaling @ Scaling` (`_scaling.py` 208-242): the result has
`dtype=self.dtype`. -/
noncomputable def scalingBin (g : ℝ → ℝ → ℝ) : COp → COp → Res COp
  | .scaling n dt f, .scaling m _ e =>
    if n ≠ m then .error .valueError else .ok (.scaling n dt fun i => castVal dt (g (f i) (e i)))
  | _, _ => .error .typeError

end COp

end Probnum.Linops.Cast
