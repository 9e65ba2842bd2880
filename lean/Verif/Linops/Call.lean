import Verif.Linops.Apply
import Verif.RandVars.Arr

/-!
# Linear operators applied to arrays with any number of axes

`A @ x`, `x @ A` and `A(x, axis)` for arrays of any shape, on top of the products with families of matrices of
`Linops.Model`.  Arrays, `np.reshape`, broadcasting and transpositions are those of `RandVars.Arr`.  Arrays with an axis of
length 0 are outside the model: Kronecker products reject some of them, as numpy cannot infer a size from zero entries.
-/

namespace Probnum.Linops.Call

open RandVars (Arr)

/-- `self @ x` for an array (`__matmul__`, `_linear_operator.py` 1201-1222).  The assertions about the shape of the result
(1209-1210, 1214-1215) are not modelled, as the shape is part of the definition. -/
noncomputable def matmul (n : ℕ) (op : Op) (x : Arr) : Res Arr :=
  match x.shape.reverse with
  | [] => .error .valueError
  | [r] =>
    if r = op.cols then do
      let y ← matArr n op (β := Unit) r 1 fun _ i _ => x.get [i]
      .ok ⟨[op.rows], fun idx => y () (idx.getD 0 0) 0⟩
    else .error .valueError
  | k :: r :: s =>
    if r = op.cols then do
      let y ← matArr n op (β := List ℕ) r k fun b i j => x.get (b ++ [i, j])
      .ok ⟨s.reverse ++ [op.rows, k], fun idx => y (idx.take s.length) (idx.getD s.length 0) (idx.getD (s.length + 1) 0)⟩
    else .error .valueError

/-- `np.moveaxis(x, source, destination)` for one axis, both given as natural numbers. -/
def moveaxis (x : Arr) (source destination : ℕ) : Res Arr :=
  x.permute (((List.range x.ndim).eraseIdx source).insertIdx destination source)

/-- `x[..., 0]`. -/
def lastZero (x : Arr) : Arr := ⟨x.shape.dropLast, fun idx => x.get (idx ++ [0])⟩

/-- `_apply(x, axis)` (164-165; `Identity`: 1705-1707; `Scaling`: `_scaling.py` 80-82, 98, 129-131; chosen in 1380-1384). -/
noncomputable def applyAxis (n : ℕ) (op : Op) (x : Arr) (axis : ℕ) : Res Arr :=
  match op with
  | .identity _ => .ok x
  | .scaling h iso f =>
    if iso then .ok (x.map fun t => f 0 * t)
    else do
      let g ← (⟨[h.rows], fun idx => f (idx.getD 0 0)⟩ : Arr).reshape (-1 :: List.replicate (x.ndim - (axis + 1)) 1)
      g.mul x
  | _ => do
    let m ← moveaxis x axis (x.ndim - 2)
    let y ← matmul n op m
    moveaxis y (y.ndim - 2) axis

/-- `self(x, axis)` (`__call__`, 167-220).  `AxisError` is a `ValueError`. -/
noncomputable def call (n : ℕ) (op : Op) (x : Arr) (axis : Option ℤ) : Res Arr :=
  if axis.any (fun a => a < -(x.ndim : ℤ) || (x.ndim : ℤ) ≤ a) then .error .valueError
  else if x.ndim = 1 then matmul n op x
  else if 1 < x.ndim then
    let a := axis.getD (-1)
    let ax := (if a < 0 then a + x.ndim else a).toNat
    if x.shape.getD ax 0 ≠ op.cols then .error .valueError
    else if ax = x.ndim - 1 then do
      let y ← matmul n op x.asColumn
      .ok (lastZero y)
    else if ax = x.ndim - 2 then matmul n op x
    else applyAxis n op x ax
  else .error .valueError

/-- `x @ self` for an array (`__rmatmul__`, 1229-1250). -/
noncomputable def rmatmul (n : ℕ) (op : Op) (x : Arr) : Res Arr :=
  match x.shape.getLast? with
  | none => .error .valueError
  | some c =>
    if c = op.rows then do
      let t ← T n op
      call n t x (some (-1))
    else .error .valueError

end Probnum.Linops.Call
