import Verif.RandVars.Arr
import Verif.LinGauss.Model

/-!
# Model of `randvars/_normal.py`, `_constant.py` and `_arithmetic.py`

Dense means and covariances of exact reals.  Linear operators as means, covariances and operands are not modelled
here (their arithmetic is in `Verif/Linops`); the Kronecker products inside `matmul` are their dense matrices.
Cached Cholesky factors are part of the state.
-/

namespace Probnum.RandVars

open Finset LinGauss

/-- A `Normal` random variable: mean, covariance and the Cholesky factor, if one is available
(`_normal.py` 66-268). -/
structure Normal where
  mean : Arr
  cov : Arr
  chol : Option Arr

/-- `expected_cov_shape` (`_normal.py` 101). -/
def expectedCov (s : List ℕ) : List ℕ := if s = [] then [] else [s.prod, s.prod]

/-- `cov_cholesky.shape != cov.shape` for a factor of a variable that is not univariate (`_normal.py` 149-170). -/
def badFactor (mean cov : Arr) : Option Arr → Prop
  | none => False
  | some L => mean.shape ≠ [] ∧ L.shape ≠ cov.shape

instance (mean cov : Arr) (L : Option Arr) : Decidable (badFactor mean cov L) := by
  cases L <;> unfold badFactor <;> infer_instance

/-- `Normal(mean, cov, cov_cholesky)` (`_normal.py` 66-228), dense arrays. -/
def mkNormal (mean cov : Arr) (chol : Option Arr) : Res Normal :=
  if 2 < mean.ndim then .error .valueError
  else if cov.shape ≠ expectedCov mean.shape then .error .valueError
  else if badFactor mean cov chol then .error .valueError
  else .ok ⟨mean, cov, chol⟩

/-- A random variable, as told apart by the operator registry (`_arithmetic.py` 59-97); of a random variable that is
neither normal nor constant only the shape is modelled. -/
inductive RV where
  | normal (N : Normal)
  | const (c : Arr)
  | other (shape : List ℕ)

/-- `rv.shape`. -/
def RV.shape : RV → List ℕ
  | .normal N => N.mean.shape
  | .const c => c.shape
  | .other s => s

/-- `-rv` (`_normal.py` 365-369, `_constant.py` 154-157). -/
noncomputable def Normal.neg (N : Normal) : Res Normal := mkNormal N.mean.neg N.cov none

/-- The factor, transformed, if available (`_arithmetic.py` 214, 227, 239, 259-262). -/
def mapFactor (L : Option Arr) (f : Arr → Res Arr) : Res (Option Arr) :=
  match L with
  | none => .ok none
  | some L => (f L).map some

/-! ## Fallbacks -/

/-- The result of the generic operators: only its shape, inferred from a sample (`_arithmetic.py` 112-139). -/
def generic (f : List ℕ → List ℕ → Res (List ℕ)) (a b : RV) : Res RV := (f a.shape b.shape).map .other

/-- Shape of a matrix product. -/
noncomputable def matmulShape (s t : List ℕ) : Res (List ℕ) := (Arr.matmul ⟨s, fun _ => 0⟩ ⟨t, fun _ => 0⟩).map Arr.shape

/-! ## Sums and differences -/

/-- `_add_normal` (`_normal.py` 382-392). -/
noncomputable def addNormal (N M : Normal) : Res RV :=
  if M.mean.shape ≠ N.mean.shape then .error .valueError
  else (N.mean.add M.mean).bind fun m => (N.cov.add M.cov).bind fun c => (mkNormal m c none).map .normal

/-- `_sub_normal` (`_normal.py` 394-404). -/
noncomputable def subNormal (N M : Normal) : Res RV :=
  if M.mean.shape ≠ N.mean.shape then .error .valueError
  else (N.mean.sub M.mean).bind fun m => (N.cov.add M.cov).bind fun c => (mkNormal m c none).map .normal

/-- `_add_normal_constant` (`_arithmetic.py` 213-219). -/
noncomputable def addNormalConst (N : Normal) (c : Arr) : Res RV :=
  (N.mean.add c).bind fun m => (mkNormal m N.cov N.chol).map .normal

/-- `_sub_normal_constant` (`_arithmetic.py` 226-232). -/
noncomputable def subNormalConst (N : Normal) (c : Arr) : Res RV :=
  (N.mean.sub c).bind fun m => (mkNormal m N.cov N.chol).map .normal

/-- `_sub_constant_normal` (`_arithmetic.py` 238-244). -/
noncomputable def subConstNormal (c : Arr) (N : Normal) : Res RV :=
  (c.sub N.mean).bind fun m => (mkNormal m N.cov N.chol).map .normal

/-- `rv1 + rv2` (`_arithmetic.py` 18-19, 75-95, 142-155, 184, 204, 222-223). -/
noncomputable def add : RV → RV → Res RV
  | .normal N, .normal M => addNormal N M
  | .normal N, .const c => addNormalConst N c
  | .const c, .normal N => addNormalConst N c
  | .const a, .const b => (a.add b).map .const
  | a, b => generic bshape a b

/-- `rv1 - rv2` (`_arithmetic.py` 22-23, 75-95, 156-158, 185, 205, 235, 247). -/
noncomputable def sub : RV → RV → Res RV
  | .normal N, .normal M => subNormal N M
  | .normal N, .const c => subNormalConst N c
  | .const c, .normal N => subConstNormal c N
  | .const a, .const b => (a.sub b).map .const
  | a, b => generic bshape a b

/-! ## Scaling -/

open Classical in
/-- `_mul_normal_constant` for a constant with one entry (`_arithmetic.py` 253-268). -/
noncomputable def scaleNormal (N : Normal) (c : Arr) : Res RV :=
  if c.flat 0 = 0 then .ok (.const ⟨N.mean.shape, fun _ => 0⟩)
  else (mapFactor N.chol c.mul).bind fun L => (c.mul N.mean).bind fun m =>
    ((c.map (· ^ 2)).mul N.cov).bind fun C => (mkNormal m C L).map .normal

/-- `rv1 * rv2` (`_arithmetic.py` 26-27, 75-95, 159-161, 186, 250-274). -/
noncomputable def mul : RV → RV → Res RV
  | .normal N, .const c => if c.size = 1 then scaleNormal N c else generic bshape (.normal N) (.const c)
  | .const c, .normal N => if c.size = 1 then scaleNormal N c else generic bshape (.normal N) (.const c)
  | .const a, .const b => (a.mul b).map .const
  | a, b => generic bshape a b

open Classical in
/-- `_truediv_normal_constant` for a constant with one entry (`_arithmetic.py` 366-380). -/
noncomputable def divNormal (N : Normal) (c : Arr) : Res RV :=
  if c.flat 0 = 0 then .error .zeroDivisionError
  else (mapFactor N.chol fun L => L.div c).bind fun L => (N.mean.div c).bind fun m =>
    (N.cov.div (c.map (· ^ 2))).bind fun C => (mkNormal m C L).map .normal

open Classical in
/-- `rv1 / rv2` (`_arithmetic.py` 34-35, 75-95, 165-167, 190-192, 365-384).  The quotient of two constants is modelled
if the divisor has no zero entry; otherwise its support contains nan or inf and only its shape is modelled. -/
noncomputable def truediv : RV → RV → Res RV
  | .normal N, .const c => if c.size = 1 then divNormal N c else generic bshape (.normal N) (.const c)
  | .const a, .const b =>
    if ∀ k < b.size, b.flat k ≠ 0 then (a.div b).map .const else generic bshape (.const a) (.const b)
  | a, b => generic bshape a b

/-! ## Matrix products -/

/-- `cholesky_update(S)` (`_cholesky_updates.py` 64-78): a vector counts as one row. -/
noncomputable def cholUpdate (Q : QR) (S : Arr) : Res Arr :=
  match S.shape with
  | [n] => (choleskyUpdate1 Q (Matrix.of fun (_ : Fin 1) (j : Fin n) => S.get [j.1])).map fun L =>
      ⟨[1, 1], fun _ => L 0 0⟩
  | [m, n] => (choleskyUpdate1 Q (Matrix.of fun (i : Fin m) (j : Fin n) => S.get [i.1, j.1])).map fun L =>
      ⟨[m, m], fun idx => if h : idx.getD 0 0 < m ∧ idx.getD 1 0 < m then L ⟨_, h.1⟩ ⟨_, h.2⟩ else 0⟩
  | _ => .error .valueError

/-- `Kronecker(A, B).todense()` (`linops/_kronecker.py`; the operator is only applied to dense matrices here). -/
noncomputable def kron (A B : Arr) : Arr :=
  match A.shape, B.shape with
  | [a, b], [c, d] => ⟨[a * c, b * d], fun idx => A.get [idx.getD 0 0 / c, idx.getD 1 0 / d] *
      B.get [idx.getD 0 0 % c, idx.getD 1 0 % d]⟩
  | _, _ => ⟨[], fun _ => 0⟩

/-- `Identity(n).todense()`. -/
noncomputable def identity (n : ℕ) : Arr := ⟨[n, n], fun idx => if idx.getD 0 0 = idx.getD 1 0 then 1 else 0⟩

/-- `constant_rv.support[:, None]` for vectors (`_arithmetic.py` 303-306). -/
def asMatrixRight (c : Arr) : Arr := if c.ndim = 1 then c.asColumn else c

/-- `constant_rv.support[None, :]` for vectors (`_arithmetic.py` 345-348). -/
def asMatrixLeft (c : Arr) : Arr := if c.ndim = 1 then c.asRow else c

/-- `K @ (cov @ K.T)`. -/
noncomputable def conjugate (K C : Arr) : Res Arr := (C.matmul K.t).bind fun D => K.matmul D

/-- `if cov.shape == () and mean.shape == (1,): cov = cov.reshape((1, 1))` (`_arithmetic.py` 294-295). -/
def fixScalar (m C : Arr) : Arr := if C.shape = [] ∧ m.shape = [1] then C.withShape [1, 1] else C

/-- The first branch of `_matmul_normal_constant` (`_arithmetic.py` 283-297). -/
noncomputable def matmulVector (Q : QR) (N : Normal) (c : Arr) : Res RV :=
  (mapFactor N.chol fun L => (c.t.matmul L).bind (cholUpdate Q)).bind fun L => (N.mean.matmul c).bind fun m =>
    ((N.cov.matmul c).bind fun D => c.t.matmul D).bind fun C => (mkNormal m (fixScalar m C) L).map .normal

/-- The second branch of `_matmul_normal_constant` (`_arithmetic.py` 299-316); a constant that is not a matrix after
line 295 cannot be a factor of `Kronecker`. -/
noncomputable def matmulMatrix (N : Normal) (c : Arr) : Res RV :=
  match N.mean.shape with
  | [] => .error .indexError
  | m :: _ =>
    if (asMatrixRight c).ndim ≠ 2 then .error .valueError
    else (N.mean.matmul c).bind fun mean => (conjugate (kron (identity m) (asMatrixRight c).t) N.cov).bind fun C =>
      (mkNormal mean C none).map .normal

/-- Whether `X` is a vector or has one row (`_arithmetic.py` 283). -/
def isRow (s : List ℕ) : Bool :=
  match s with
  | [_] => true
  | [m, _] => m == 1
  | _ => false

/-- Whether `X` is a vector or has one column (`_arithmetic.py` 328). -/
def isCol (s : List ℕ) : Bool :=
  match s with
  | [_] => true
  | [_, n] => n == 1
  | _ => false

/-- `_matmul_normal_constant` (`_arithmetic.py` 277-316). -/
noncomputable def matmulNormalConst (Q : QR) (N : Normal) (c : Arr) : Res RV :=
  if isRow N.mean.shape then matmulVector Q N c else matmulMatrix N c

/-- The first branch of `_matmul_constant_normal` (`_arithmetic.py` 328-339). -/
noncomputable def matmulVectorLeft (Q : QR) (c : Arr) (N : Normal) : Res RV :=
  (mapFactor N.chol fun L => (c.matmul L).bind (cholUpdate Q)).bind fun L => (c.matmul N.mean).bind fun m =>
    (conjugate c N.cov).bind fun C => (mkNormal m C L).map .normal

/-- The second branch of `_matmul_constant_normal` (`_arithmetic.py` 341-359). -/
noncomputable def matmulMatrixLeft (c : Arr) (N : Normal) : Res RV :=
  match N.mean.shape with
  | _ :: n :: _ =>
    if (asMatrixLeft c).ndim ≠ 2 then .error .valueError
    else (c.matmul N.mean).bind fun mean => (conjugate (kron (asMatrixLeft c) (identity n)) N.cov).bind fun C =>
      (mkNormal mean C none).map .normal
  | _ => .error .indexError

/-- `_matmul_constant_normal` (`_arithmetic.py` 322-359). -/
noncomputable def matmulConstNormal (Q : QR) (c : Arr) (N : Normal) : Res RV :=
  if isCol N.mean.shape then matmulVectorLeft Q c N else matmulMatrixLeft c N

/-- `rv1 @ rv2` (`_arithmetic.py` 30-31, 75-95, 162-164, 187-189, 319, 362). -/
noncomputable def matmul (Q : QR) : RV → RV → Res RV
  | .normal N, .const c => matmulNormalConst Q N c
  | .const c, .normal N => matmulConstNormal Q c N
  | .const a, .const b => (a.matmul b).map .const
  | a, b => generic matmulShape a b

/-! ## Indexing, reshaping, transposing -/

/-- `cov.reshape(n, n)` if the mean is not a scalar (`_normal.py` 315-316, 355-356). -/
def squareCov (mean cov : Arr) : Res Arr := if 0 < mean.ndim then cov.reshapeTo [mean.size, mean.size] else .ok cov

/-- `N[key]` for a tuple of indices (`_normal.py` 287-321). -/
def Normal.getitem (N : Normal) (key : List KeyEl) : Res Normal :=
  (N.mean.index key).bind fun mean => (N.cov.reshapeTo (N.mean.shape ++ N.mean.shape)).bind fun c =>
    (c.index key).bind fun c => (c.indexLast key).bind fun c => (squareCov mean c).bind fun c => mkNormal mean c none

/-- `N.reshape(newshape)` (`_normal.py` 323-340). -/
def Normal.reshape (N : Normal) (newshape : List ℤ) : Res Normal :=
  (N.mean.reshape newshape).bind fun mean =>
    mkNormal mean (if 0 < mean.ndim ∧ N.cov.ndim = 0 then N.cov.withShape [1, 1] else N.cov) none

/-- The axes meant by the arguments of `transpose`: explicit ones, or all of them reversed (`_normal.py` 343-346). -/
def resolveAxes (ndim : ℕ) : Option (List ℤ) → List ℤ
  | some l => l
  | none => (List.range ndim).reverse.map fun (k : ℕ) => (k : ℤ)

/-- The axes a call of `transpose` uses; no axes at all mean the reversed order (`_normal.py` 343-346). -/
def callAxes (N : Normal) (axes : Option (List ℤ)) : List ℤ :=
  resolveAxes N.mean.ndim (if axes = some [] then none else axes)

/-- Transposition once the axes are known (`_normal.py` 348-361). -/
def Normal.transposeAxes (N : Normal) (ax : List ℤ) : Res Normal :=
  (N.mean.transpose ax).bind fun mean => (N.cov.reshapeTo (N.mean.shape ++ N.mean.shape)).bind fun c =>
    (c.transpose (ax ++ ax.map ((mean.ndim : ℤ) + ·))).bind fun c => (squareCov mean c).bind fun c =>
      mkNormal mean c none

/-- `N.transpose(*axes)` (`_normal.py` 342-361).  For `N.transpose(())` the code passes no axes to numpy, which reverses
the axes of the mean and of the covariance; for a symmetric covariance this is the same as no arguments. -/
def Normal.transpose (N : Normal) (axes : Option (List ℤ)) : Res Normal := N.transposeAxes (callAxes N axes)

end Probnum.RandVars
