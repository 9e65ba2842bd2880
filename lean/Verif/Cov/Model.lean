import Verif.Functions.Model
import Verif.Cov.Matern
import Mathlib.Algebra.Order.Floor.Ring

/-!
# Model of `randprocs/covfuncs/`

Arrays are those of `Verif/RandVars/Arr.lean`.  Numbers are exact; of data types only "integer or float" is kept, and only
for the inputs, because that decides whether in-place operations raise and whether `np.full_like` truncates.  Linear
operators (`linop`) and KeOps are not modelled here.
-/

namespace Probnum.Cov

open Finset RandVars Functions

/-- An input array: its entries, and whether its data type is an integer type. -/
structure Inp where
  arr : Arr
  int : Bool

/-- What every `CovarianceFunction` has: shapes and `__call__` (`_covariance_function.py` 126-277). -/
structure Core where
  in0 : List ℕ
  in1 : List ℕ
  out0 : List ℕ
  out1 : List ℕ
  call : Inp → Option Inp → Res Arr

/-- `_check_shapes` (`_covariance_function.py` 606-674): the batch shape, or ValueError. -/
def checkShapes (in0 in1 : List ℕ) (s0 : List ℕ) (s1 : Option (List ℕ)) : Res (List ℕ) :=
  if sliceFrom s0 ((s0.length : ℤ) - in0.length) ≠ in0 then .error .valueError
  else
    match s1 with
    | none => .ok (sliceTo s0 ((s0.length : ℤ) - in0.length))
    | some s1 =>
      if sliceFrom s1 ((s1.length : ℤ) - in1.length) ≠ in1 then .error .valueError
      else bshape (sliceTo s0 ((s0.length : ℤ) - in0.length)) (sliceTo s1 ((s1.length : ℤ) - in1.length))

/-- `__call__` (`_covariance_function.py` 280-357) around a given `_evaluate`. -/
def covCall (in0 in1 out0 out1 : List ℕ) (evaluate : Inp → Option Inp → Res Arr) (x0 : Inp) (x1 : Option Inp) : Res Arr :=
  (checkShapes in0 in1 x0.arr.shape (x1.map fun x => x.arr.shape)).bind fun b =>
    (evaluate x0 x1).bind fun k => if k.shape = b ++ out0 ++ out1 then .ok k else .error .assertionError

/-- The property `input_shape` (`_covariance_function.py` 204-219): ValueError if the two input shapes differ. -/
def Core.inputShape (k : Core) : Res (List ℕ) := if k.in0 ≠ k.in1 then .error .valueError else .ok k.in0

/-! ## Arithmetic -/

/-- The classes the operators distinguish. -/
inductive Kind
  | plain
  | sum (summands : List Core)
  | prod (factors : List Core)

/-- A covariance function object. -/
structure CovFn where
  core : Core
  kind : Kind

/-- A covariance function given by its shapes and `_evaluate`. -/
def mkCov (in0 in1 out0 out1 : List ℕ) (evaluate : Inp → Option Inp → Res Arr) : CovFn :=
  ⟨⟨in0, in1, out0, out1, covCall in0 in1 out0 out1 evaluate⟩, .plain⟩

/-- `ScaledCovarianceFunction(covfunc, scalar)` (`_arithmetic_fallbacks.py` 37-53): ValueError if the input shapes
differ. -/
noncomputable def mkScaled (k : CovFn) (c : ℝ) : Res CovFn :=
  k.core.inputShape.map fun i =>
    mkCov i i k.core.out0 k.core.out1 fun x0 x1 => (k.core.call x0 x1).map (Arr.map fun v => c * v)

/-- `functools.reduce(op, (k(x0, x1) for k in l))` after the first (`_arithmetic_fallbacks.py` 99-102, 164-167). -/
def reduceFrom (op : Arr → Arr → Res Arr) (x0 : Inp) (x1 : Option Inp) : List Core → Arr → Res Arr
  | [], acc => .ok acc
  | k :: l, acc => (k.call x0 x1).bind fun y => (op acc y).bind (reduceFrom op x0 x1 l)

/-- The whole `functools.reduce` (TypeError for an empty sequence, which does not occur). -/
def reduceCov (op : Arr → Arr → Res Arr) (l : List Core) (x0 : Inp) (x1 : Option Inp) : Res Arr :=
  match l with
  | [] => .error .typeError
  | k :: l => (k.call x0 x1).bind (reduceFrom op x0 x1 l)

/-- The comparison `(k.input_shape == k0.input_shape) and …` of the constructors (`_arithmetic_fallbacks.py` 82-88,
147-153); reading `input_shape` may raise ValueError. -/
def sameShapes (k0 k : Core) : Res Bool :=
  k.inputShape.bind fun i => k0.inputShape.map fun i0 => decide (i = i0) && decide (k.out0 = k0.out0) && decide (k.out1 = k0.out1)

/-- `_expand_sum_covfuncs` for one summand (`_arithmetic_fallbacks.py` 119-132). -/
def sumParts (k : CovFn) : List Core :=
  match k.kind with
  | .sum l => l
  | _ => [k.core]

/-- `_expand_prod_covfuncs` for one factor (`_arithmetic_fallbacks.py` 180-193). -/
def prodParts (k : CovFn) : List Core :=
  match k.kind with
  | .prod l => l
  | _ => [k.core]

/-- `all(… for k in (k0, k1))` of the two-argument constructors: stops at the first mismatch. -/
def allSame (k0 k1 : Core) : Res Bool := (sameShapes k0 k0).bind fun b => if b = false then .ok false else sameShapes k0 k1

/-- `k0 + k1`: `SumCovarianceFunction(k0, k1)` (`_arithmetic.py` 7-9, `_arithmetic_fallbacks.py` 81-97). -/
noncomputable def addCov (k0 k1 : CovFn) : Res CovFn :=
  (allSame k0.core k1.core).bind fun b =>
    if b = false then .error .valueError
    else k0.core.inputShape.map fun i =>
      ⟨⟨i, i, k0.core.out0, k0.core.out1,
        covCall i i k0.core.out0 k0.core.out1 (reduceCov Arr.add (sumParts k0 ++ sumParts k1))⟩, .sum (sumParts k0 ++ sumParts k1)⟩

/-- `k0 * k1`: `ProductCovarianceFunction(k0, k1)` (`_arithmetic_fallbacks.py` 152-167, 196-209). -/
noncomputable def mulCov (k0 k1 : CovFn) : Res CovFn :=
  (allSame k0.core k1.core).bind fun b =>
    if b = false then .error .valueError
    else k0.core.inputShape.map fun i =>
      ⟨⟨i, i, k0.core.out0, k0.core.out1,
        covCall i i k0.core.out0 k0.core.out1 (reduceCov Arr.mul (prodParts k0 ++ prodParts k1))⟩, .prod (prodParts k0 ++ prodParts k1)⟩

/-- An expression a user can write: `k * c` and `c * k` build the same object (`_arithmetic_fallbacks.py` 196-209). -/
inductive Expr
  | leaf (in0 in1 out0 out1 : List ℕ) (evaluate : Inp → Option Inp → Res Arr)
  | add (a b : Expr)
  | mul (a b : Expr)
  | scale (c : ℝ) (a : Expr)

/-- The object the expression builds. -/
noncomputable def build : Expr → Res CovFn
  | .leaf in0 in1 out0 out1 ev => .ok (mkCov in0 in1 out0 out1 ev)
  | .add a b => (build a).bind fun f => (build b).bind fun g => addCov f g
  | .mul a b => (build a).bind fun f => (build b).bind fun g => mulCov f g
  | .scale c a => (build a).bind fun f => mkScaled f c

/-! ## `matrix` -/

/-- `x[:, None, ...]`. -/
def insertAxis (a : Arr) : Arr :=
  ⟨a.shape.headD 1 :: 1 :: a.shape.tail, fun idx => a.get (idx.headD 0 :: idx.drop 2)⟩

/-- `np.moveaxis(k, 1, -1)`. -/
def moveSecondLast (k : Arr) : Arr :=
  ⟨(k.shape.headD 0 :: k.shape.drop 2) ++ [k.shape.getD 1 0],
    fun idx => k.get (idx.headD 0 :: idx.getLastD 0 :: idx.tail.dropLast)⟩

/-- `np.moveaxis(k, 0, n)`. -/
def moveFirstTo (n : ℕ) (k : Arr) : Arr :=
  ⟨(k.shape.tail.take n) ++ k.shape.headD 0 :: k.shape.tail.drop n,
    fun idx => k.get (idx.getD n 0 :: (idx.take n ++ idx.drop (n + 1)))⟩

/-- `_preprocess_linop_input` (`_covariance_function.py` 676-693) for argument 0 or 1: ValueError if the trailing shape
is wrong (also, through the error message or the reshape, if the two input shapes differ). -/
def preprocess (k : Core) (inS : List ℕ) (x : Inp) : Res Inp :=
  if x.arr.shape.length < inS.length ∨ sliceFrom x.arr.shape ((x.arr.shape.length : ℤ) - inS.length) ≠ inS then .error .valueError
  else k.inputShape.bind fun i => (x.arr.reshape (-1 :: i.map Int.ofNat)).map fun a => ⟨a, x.int⟩

/-- `_evaluate_matrix` (`_covariance_function.py` 553-582). -/
def evaluateMatrix (k : Core) (x0 : Inp) (x1 : Option Inp) : Res Arr :=
  let y1 := x1.getD x0
  (k.call ⟨insertAxis x0.arr, x0.int⟩ (some ⟨y1.arr.asRow, y1.int⟩)).bind fun c =>
    .ok ((moveFirstTo k.out0.length (moveSecondLast c)).withShape
      [k.out0.prod * c.shape.getD 0 0, k.out1.prod * c.shape.getD 1 0])

/-- `matrix(x0, x1)` (`_covariance_function.py` 359-413). -/
def matrix (k : Core) (x0 : Inp) (x1 : Option Inp) : Res Arr :=
  (preprocess k k.in0 x0).bind fun y0 =>
    match x1 with
    | none => evaluateMatrix k y0 none
    | some x1 => (preprocess k k.in1 x1).bind fun y1 => evaluateMatrix k y0 (some y1)

/-! ## The library's covariance functions -/

/-- `np.sum(a, axis=tuple(range(-n, 0)))`. -/
noncomputable def sumTail (n : ℕ) (a : Arr) : Arr :=
  ⟨a.shape.take (a.shape.length - n),
    fun idx => ∑ j ∈ range (a.shape.drop (a.shape.length - n)).prod, a.get (idx ++ unravel (a.shape.drop (a.shape.length - n)) j)⟩

/-- `np.full(shape=x0.shape[: x0.ndim - self.input_ndim], v)`. -/
def fullBatch (inS : List ℕ) (x0 : Inp) (v : ℝ) : Arr :=
  ⟨sliceTo x0.arr.shape ((x0.arr.shape.length : ℤ) - inS.length), fun _ => v⟩

/-- `x0**2 if x1 is None else x0 * x1` (`_covariance_function.py` 681). -/
noncomputable def products (x0 : Inp) : Option Inp → Res Arr
  | none => .ok (x0.arr.map fun v => v ^ 2)
  | some x1 => x0.arr.mul x1.arr

/-- `_euclidean_inner_products` (`_covariance_function.py` 695-707): AssertionError for inputs with more than one axis. -/
noncomputable def innerProducts (inS : List ℕ) (x0 : Inp) (x1 : Option Inp) : Res Arr :=
  (products x0 x1).bind fun prods =>
    if inS.length = 0 then .ok prods else if inS.length ≠ 1 then .error .assertionError else .ok (sumTail inS.length prods)

/-- `d *= s` for an array `d`: the result must have the shape of `d`, and integers cannot take floats (an array of
integers without axes is a scalar object, for which the operation is not in place). -/
noncomputable def imul (int : Bool) (d s : Arr) : Res Arr :=
  if int = true ∧ d.shape ≠ [] then .error .typeError
  else (d.mul s).bind fun r => if r.shape = d.shape then .ok r else .error .valueError

/-- `if scale_factors is not None: sqdiffs *= scale_factors` (`_covariance_function.py` 765-766). -/
noncomputable def applyScale (int : Bool) : Option Arr → Arr → Res Arr
  | none, d => .ok d
  | some s, d => imul int d s

/-- `_squared_euclidean_distances` (`_covariance_function.py` 757-781). -/
noncomputable def sqDists (inS : List ℕ) (scale : Option Arr) (x0 : Inp) (x1 : Option Inp) : Res Arr :=
  match x1 with
  | none => .ok (fullBatch inS x0 0)
  | some x1 =>
    ((x0.arr.sub x1.arr).bind (applyScale (x0.int && x1.int) scale)).map fun d => sumTail inS.length (d.map fun v => v * v)

/-- `Linear._evaluate` (`_linear.py` 49-50). -/
noncomputable def linearEval (inS : List ℕ) (c : ℝ) (x0 : Inp) (x1 : Option Inp) : Res Arr :=
  (innerProducts inS x0 x1).map (Arr.map fun v => v + c)

/-- `Polynomial._evaluate` (`_polynomial.py` 55-56), for non-negative integer exponents. -/
noncomputable def polynomialEval (inS : List ℕ) (c : ℝ) (q : ℕ) (x0 : Inp) (x1 : Option Inp) : Res Arr :=
  (innerProducts inS x0 x1).map (Arr.map fun v => (v + c) ^ q)

/-- `ExpQuad._evaluate` (`_exponentiated_quadratic.py` 89-100). -/
noncomputable def expQuadEval (inS : List ℕ) (ls : Arr) (x0 : Inp) (x1 : Option Inp) : Res Arr :=
  match x1 with
  | none => .ok (fullBatch inS x0 1)
  | some x1 => (sqDists inS (some (ls.map fun l => Real.sqrt (1 / 2) / l)) x0 (some x1)).map (Arr.map fun v => Real.exp (-v))

/-- `RatQuad._evaluate` (`_rational_quadratic.py` 71-84).  For lengthscale 0 (which the constructor accepts) numpy gives
`inf` or `nan`; that case is excluded from the theorems. -/
noncomputable def ratQuadEval (inS : List ℕ) (l α : ℝ) (x0 : Inp) (x1 : Option Inp) : Res Arr :=
  match x1 with
  | none => .ok (fullBatch inS x0 1)
  | some x1 => (sqDists inS none x0 (some x1)).map (Arr.map fun v => (1 + v / (2 * α * l ^ 2)) ^ (-α))

/-- `np.all(x0 == x1, axis=-1)`, as 0 and 1. -/
noncomputable def allEqLast (x0 x1 : Arr) : Res Arr :=
  open Classical in
  (x0.bin (fun a b => if a = b then 1 else 0) x1).map fun e =>
    ⟨e.shape.dropLast, fun idx => if ∀ j < e.shape.getLastD 0, e.get (idx ++ [j]) = 1 then 1 else 0⟩

/-- `WhiteNoise._evaluate` (`_white_noise.py` 38-49).  `np.full_like` of an integer array truncates (`σ² ≥ 0`). -/
noncomputable def whiteNoiseEval (inS : List ℕ) (σ2 : ℝ) (x0 : Inp) (x1 : Option Inp) : Res Arr :=
  open Classical in
  match x1 with
  | none => .ok (fullBatch inS x0 (if x0.int = true then (⌊σ2⌋ : ℤ) else σ2))
  | some x1 =>
    if inS = [] then (x0.arr.bin (fun a b => if a = b then 1 else 0) x1.arr).map (Arr.map fun v => σ2 * v)
    else (allEqLast x0.arr x1.arr).map (Arr.map fun v => σ2 * v)

/-- `_euclidean_distances` with scale factors (`_covariance_function.py` 783-802). -/
noncomputable def dists (inS : List ℕ) (scale : Arr) (x0 : Inp) : Option Inp → Res Arr
  | none => .ok (fullBatch inS x0 0)
  | some x1 => (sqDists inS (some scale) x0 (some x1)).map (Arr.map Real.sqrt)

/-- `Matern._evaluate` (`_matern.py` 175-195).  With one integer argument the distances are integers, and `np.finfo` in
`_matern_bessel` raises ValueError. -/
noncomputable def maternEval (inS : List ℕ) (ν : ℝ) (ls : Arr) (x0 : Inp) (x1 : Option Inp) : Res Arr :=
  open Classical in
  if x1.isNone = true ∧ x0.int = true ∧ ν - 1 / 2 ≠ (⌊ν - 1 / 2⌋₊ : ℕ) then .error .valueError
  else (dists inS (ls.map fun l => Real.sqrt (2 * ν) / l) x0 x1).map (Arr.map (maternRadial ν))

/-- `x[..., dim]`. -/
def pickLast (a : Arr) (d : ℕ) : Arr := ⟨a.shape.dropLast, fun idx => a.get (idx ++ [d])⟩

/-- `univariate_materns[dim](x0[..., dim], x1[..., dim])` (`_product_matern.py` 94-96, 117, 120). -/
noncomputable def maternDim (m : ℝ × ℝ) (d : ℕ) (x0 : Inp) (x1 : Option Inp) : Res Arr :=
  covCall [] [] [] [] (maternEval [] m.1 ⟨[], fun _ => m.2⟩) ⟨pickLast x0.arr d, x0.int⟩
    (x1.map fun x => ⟨pickLast x.arr d, x.int⟩)

/-- The loop `for dim in range(input_dim): k_x0_x1 *= …` (`_product_matern.py` 114-120), after the first dimension. -/
noncomputable def productLoop (x0 : Inp) (x1 : Option Inp) : List (ℝ × ℝ) → ℕ → Arr → Res Arr
  | [], _, acc => .ok acc
  | m :: l, d, acc => (maternDim m d x0 x1).bind fun y => (imul false acc y).bind (productLoop x0 x1 l (d + 1))

/-- `ProductMatern._evaluate` (`_product_matern.py` 103-122), with one pair (smoothness, lengthscale) per dimension.
Without dimensions the result is the number 1.0, which has no attribute `shape`. -/
noncomputable def productMaternEval (inS : List ℕ) (ms : List (ℝ × ℝ)) (x0 : Inp) (x1 : Option Inp) : Res Arr :=
  match ms with
  | [] => .error .attributeError
  | m :: l =>
    if inS = [] then covCall [] [] [] [] (maternEval [] m.1 ⟨[], fun _ => m.2⟩) x0 x1
    else if inS.length ≠ 1 then .error .valueError
    else (maternDim m 0 x0 x1).bind (productLoop x0 x1 l 1)

/-- The covariance functions of the library, with their parameters. -/
inductive Kernel
  | linear (c : ℝ)
  | polynomial (c : ℝ) (q : ℕ)
  | expQuad (ls : Arr)
  | ratQuad (l α : ℝ)
  | whiteNoise (σ2 : ℝ)
  | matern (ν : ℝ) (ls : Arr)
  | productMatern (ms : List (ℝ × ℝ))

/-- The checks `np.any(lengthscales <= 0)` and `np.broadcast_to(lengthscales, self.input_shape)`
(`_exponentiated_quadratic.py` 63-68, `_matern.py` 122-127). -/
noncomputable def checkLengthscales (inS : List ℕ) (ls : Arr) : Res Unit :=
  open Classical in
  if ∃ k < ls.size, ls.flat k ≤ 0 then .error .valueError
  else if bshape ls.shape inS = .ok inS then .ok () else .error .valueError

/-- The checks in the constructors: `_exponentiated_quadratic.py` 63-68, `_rational_quadratic.py` 67-68, `_white_noise.py`
31-32, `_matern.py` 111-127, `_product_matern.py` 92-96 (fewer parameters than dimensions: IndexError; further
parameters are ignored).  `Linear` and `Polynomial` check nothing. -/
noncomputable def Kernel.check (inS : List ℕ) : Kernel → Res Unit
  | .linear _ => .ok ()
  | .polynomial _ _ => .ok ()
  | .expQuad ls => checkLengthscales inS ls
  | .ratQuad _ α => open Classical in if 0 < α then .ok () else .error .valueError
  | .whiteNoise σ2 => open Classical in if σ2 < 0 then .error .valueError else .ok ()
  | .matern ν ls => open Classical in if ν ≤ 0 then .error .valueError else checkLengthscales inS ls
  | .productMatern ms =>
    open Classical in
    if ∃ m ∈ ms.take (if inS = [] then 1 else inS.headD 0), m.1 ≤ 0 ∨ m.2 ≤ 0 then .error .valueError
    else if ms.length < (if inS = [] then 1 else inS.headD 0) then .error .indexError else .ok ()

/-- `_evaluate` of the library's covariance functions. -/
noncomputable def Kernel.eval (inS : List ℕ) : Kernel → Inp → Option Inp → Res Arr
  | .linear c => linearEval inS c
  | .polynomial c q => polynomialEval inS c q
  | .expQuad ls => expQuadEval inS ls
  | .ratQuad l α => ratQuadEval inS l α
  | .whiteNoise σ2 => whiteNoiseEval inS σ2
  | .matern ν ls => maternEval inS ν ls
  | .productMatern ms => productMaternEval inS (ms.take (if inS = [] then 1 else inS.headD 0))

/-- The constructors. -/
noncomputable def Kernel.make (inS : List ℕ) (k : Kernel) : Res CovFn :=
  (k.check inS).map fun _ => mkCov inS inS [] [] (k.eval inS)

/-- An expression in the library's covariance functions. -/
inductive KExpr
  | kernel (inS : List ℕ) (k : Kernel)
  | add (a b : KExpr)
  | mul (a b : KExpr)
  | scale (c : ℝ) (a : KExpr)

/-- The object such an expression builds. -/
noncomputable def KExpr.make : KExpr → Res CovFn
  | .kernel i k => k.make i
  | .add a b => a.make.bind fun f => b.make.bind fun g => addCov f g
  | .mul a b => a.make.bind fun f => b.make.bind fun g => mulCov f g
  | .scale c a => a.make.bind fun f => mkScaled f c

end Probnum.Cov
