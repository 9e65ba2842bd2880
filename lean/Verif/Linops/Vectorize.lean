import Verif.RandVars.Arr

/-!
# Model: matrix products from functions of one vector or one matrix

Models `src/probnum/linops/_vectorize.py`, which is available as `LinearOperator.broadcast_matvec` and `broadcast_matmat`
(`src/probnum/linops/_linear_operator.py` 1260-1261), with `np.vectorize` and `np.apply_along_axis`.  Exact real arithmetic, one
data type.
-/

namespace Probnum.Vectorize

open RandVars

/-- The loop of `np.vectorize` and `np.apply_along_axis` over all indices of axes with the sizes `s`, in C order: ValueError if there are
none, and if the results have different shapes (simplified: numpy also accepts shapes that can be broadcast to the first one).
Returns the shape of the results and the results. -/
def loop (s : List ℕ) (f : List ℕ → Res Arr) : Res (List ℕ × (List ℕ → Arr)) :=
  if s.prod = 0 then .error .valueError
  else ((List.range s.prod).mapM fun k => f (unravel s k)).bind fun ys =>
    match ys with
    | [] => .error .valueError
    | y :: l =>
      if l.all fun z => z.shape == y.shape then .ok (y.shape, fun idx => (y :: l).getD (ravel s idx) y)
      else .error .valueError

/-- `vectorize_matmat(matmat, method)` (`_vectorize.py` 13-52): `np.vectorize` with signature `(n,k)->(m,k)`.  The first argument of a
method is passed on, so methods and functions behave alike.  Results with more than two axes are not modelled (ValueError). -/
def vectorizeMatmat (f : Arr → Res Arr) (x : Arr) : Res Arr :=
  if x.ndim < 2 then .error .valueError
  else
    let b := x.shape.take (x.ndim - 2)
    (loop b fun i =>
      (f ⟨x.shape.drop (x.ndim - 2), fun idx => x.get (i ++ idx)⟩).bind fun y =>
        if y.ndim = 2 ∧ y.shape.getLastD 0 = x.shape.getLastD 0 then .ok y else .error .valueError).map fun r =>
      ⟨b ++ r.1, fun idx => (r.2 (idx.take b.length)).get (idx.drop b.length)⟩

/-- `vectorize_matvec(matvec, method)` (`_vectorize.py` 55-90).  For a method, `matvec` is a function of two arguments that is called with
one, which raises TypeError.  `np.apply_along_axis(matvec, -2, x)` raises AxisError, a ValueError, for arrays with one axis. -/
def vectorizeMatvec (method : Bool) (f : Arr → Res Arr) (x : Arr) : Res Arr :=
  let call (v : Arr) : Res Arr := if method then .error .typeError else f v
  if x.ndim = 2 ∧ x.shape.getD 1 0 = 1 then
    (call ⟨[x.shape.getD 0 0], fun idx => x.get [idx.headD 0, 0]⟩).bind fun y =>
      match y.shape with
      | [] => .error .indexError
      | m :: r => .ok ⟨m :: 1 :: r, fun idx => y.get (idx.headD 0 :: idx.drop 2)⟩
  else if x.ndim < 2 then .error .valueError
  else
    let b := x.shape.take (x.ndim - 2)
    let k := x.shape.getLastD 0
    (loop (b ++ [k]) fun i =>
      call ⟨[x.shape.getD (x.ndim - 2) 0], fun idx => x.get (i.take b.length ++ [idx.headD 0, i.getLastD 0])⟩).map fun r =>
      ⟨b ++ r.1 ++ [k], fun idx => (r.2 (idx.take b.length ++ [idx.getLastD 0])).get ((idx.drop b.length).dropLast)⟩

end Probnum.Vectorize
