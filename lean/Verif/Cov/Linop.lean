import Verif.Cov.Model

/-!
# Model: covariance matrices as linear operators

Models `CovarianceFunction.linop` (`src/probnum/randprocs/covfuncs/_covariance_function.py`), `CovarianceLinearOperator`
(`src/probnum/randprocs/covfuncs/_covariance_linear_operator.py`) with the parts of
`src/probnum/linops/_linear_operator.py` it inherits (`__matmul__`, `todense`, `T`, `diagonal`, `trace`), and the KeOps
versions of the covariance functions.

A KeOps `LazyTensor` of pairwise values is the function of its two indices; its operations are exact and entrywise, and
`lazy_tensor @ x` is the matrix product.
-/

namespace Probnum.Cov

open Finset RandVars Functions

/-- A KeOps lazy tensor indexed by rows and columns. -/
abbrev Lazy := ℕ → ℕ → ℝ

/-- `Vi(x)[p][j]` (or `Vj`) after `x.reshape(-1, 1)` for arrays with one axis (`_covariance_function.py` 816-821). -/
def viEntry (x : Arr) (p j : ℕ) : ℝ := if x.shape.length < 2 then x.get [p] else x.get [p, j]

/-- The length of the last axis of `Vi(x)`. -/
def viDim (x : Arr) : ℕ := if x.shape.length < 2 then 1 else x.shape.getD 1 0

/-- `_squared_euclidean_distances_keops` with scale factors (`_covariance_function.py` 805-832).  `Vi` takes arrays with two
axes only. -/
noncomputable def sqDistsKeops (scale : Arr) (x0 : Inp) (x1 : Option Inp) : Res Lazy :=
  if 2 < x0.arr.shape.length ∨ 2 < (x1.getD x0).arr.shape.length then .error .valueError
  else .ok fun p q => ∑ j ∈ range (viDim x0.arr),
    ((viEntry x0.arr p j - viEntry (x1.getD x0).arr q j) * scale.bget [j]) ^ 2

/-- `_keops_lazy_tensor` of the library's covariance functions with the handler in `_evaluate_linop`
(`_exponentiated_quadratic.py` 102-111, `_matern.py` 197-223, `_covariance_function.py` 520-551 for the others, 589-592):
`none` for NotImplementedError. -/
noncomputable def Kernel.keops : Kernel → Inp → Option Inp → Res (Option Lazy)
  | .expQuad ls, x0, x1 =>
    (sqDistsKeops (ls.map fun l => Real.sqrt (1 / 2) / l) x0 x1).map fun d => some fun p q => Real.exp (-(d p q))
  | .matern ν ls, x0, x1 =>
    open Classical in
    (sqDistsKeops (ls.map fun l => Real.sqrt (2 * ν) / l) x0 x1).map fun d =>
      if ν - 1 / 2 = (⌊ν - 1 / 2⌋₊ : ℕ) then some fun p q => maternValue ⌊ν - 1 / 2⌋₊ (Real.sqrt (d p q)) else none
  | _, _, _ => .ok none

/-- `_keops_lazy_tensor` of an expression: sums, products and multiples (`_arithmetic_fallbacks.py`) do not implement it.
Without KeOps (`avail = false`) the methods raise ImportError, which is handled in the same way. -/
noncomputable def KExpr.keops (avail : Bool) : KExpr → Inp → Option Inp → Res (Option Lazy)
  | .kernel _ k, x0, x1 => if avail then k.keops x0 x1 else .ok none
  | _, _, _ => .ok none

/-- `CovarianceLinearOperator` (`_covariance_linear_operator.py` 22-64): the shape, whether the data type is an integer type,
what `_evaluate_dense_matrix(x0, x1)` gives, and the lazy tensor if KeOps is used. -/
structure KOp where
  rows : ℕ
  cols : ℕ
  int : Bool
  dense : Res Arr
  lazy : Option Lazy

/-- `_evaluate_linop` (`_covariance_function.py` 584-604). -/
def evaluateLinop (keops : Inp → Option Inp → Res (Option Lazy)) (k : Core) (x0 : Inp) (x1 : Option Inp) : Res KOp :=
  (keops x0 x1).bind fun l => .ok
    { rows := k.out0.prod * x0.arr.shape.getD 0 0
      cols := k.out1.prod * (x1.getD x0).arr.shape.getD 0 0
      int := x0.int && (x1.getD x0).int
      dense := evaluateMatrix k x0 x1
      lazy := l }

/-- `linop(x0, x1)` (`_covariance_function.py` 415-488). -/
def linop (keops : Inp → Option Inp → Res (Option Lazy)) (k : Core) (x0 : Inp) (x1 : Option Inp) : Res KOp :=
  (preprocess k k.in0 x0).bind fun y0 =>
    match x1 with
    | none => evaluateLinop keops k y0 none
    | some x1 => (preprocess k k.in1 x1).bind fun y1 => evaluateLinop keops k y0 (some y1)

/-- `todense()` (`_covariance_linear_operator.py` 74-75). -/
def KOp.todense (A : KOp) : Res Arr := A.dense

/-- `A @ x` for an `m × n` matrix and a stack of `n × k` matrices. -/
def matmulStack (m n : ℕ) (A : ℕ → ℕ → ℝ) (x : Arr) : Arr :=
  ⟨x.shape.take (x.shape.length - 2) ++ [m, x.shape.getLastD 0], fun idx =>
    ∑ j ∈ range n, A (idx.getD (x.shape.length - 2) 0) j
      * x.get (idx.take (x.shape.length - 2) ++ [j, idx.getD (x.shape.length - 1) 0])⟩

/-- `_matmul` (`_covariance_linear_operator.py` 77-80). -/
def KOp.matmul (A : KOp) (x : Arr) : Res Arr :=
  match A.lazy with
  | some l => .ok (matmulStack A.rows A.cols l x)
  | none => A.todense.map fun M => matmulStack A.rows A.cols (fun i j => M.get [i, j]) x

/-- `A @ x` for an array `x` (`_linear_operator.py` 1197-1221): a vector, or a stack of matrices. -/
def KOp.apply (A : KOp) (x : Arr) : Res Arr :=
  if x.shape = [A.cols] then
    (A.matmul ⟨[A.cols, 1], fun idx => x.get [idx.headD 0]⟩).map fun y => ⟨[A.rows], fun idx => y.get [idx.headD 0, 0]⟩
  else if 1 < x.shape.length ∧ x.shape.getD (x.shape.length - 2) 0 = A.cols then A.matmul x
  else .error .valueError

/-- `A.T` (`_covariance_linear_operator.py` 82-89). -/
def KOp.transpose (A : KOp) : KOp where
  rows := A.cols
  cols := A.rows
  int := A.int
  dense := A.dense.map fun M => ⟨M.shape.reverse, fun idx => M.get idx.reverse⟩
  lazy := A.lazy.map fun l i j => l j i

/-- Storing a number in an array with an integer data type truncates it. -/
noncomputable def store (int : Bool) (v : ℝ) : ℝ := if int then (if 0 ≤ v then (⌊v⌋ : ℝ) else (⌈v⌉ : ℝ)) else v

/-- `diagonal()` (`_linear_operator.py` 769-792): unit vectors and the result have the data type of the operator. -/
noncomputable def KOp.diagonal (A : KOp) : Res (List ℝ) :=
  (List.range (min A.rows A.cols)).mapM fun i =>
    (A.apply ⟨[A.cols], fun idx => if idx.headD 0 = i then 1 else 0⟩).map fun y => store A.int (y.get [i])

/-- `trace()` (`_linear_operator.py` 725-767): LinAlgError unless the operator is square. -/
noncomputable def KOp.trace (A : KOp) : Res ℝ :=
  if A.rows ≠ A.cols then .error .linAlgError else A.diagonal.map List.sum

end Probnum.Cov
