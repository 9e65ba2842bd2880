import Verif.RandVars.Spec
import Mathlib.Probability.CDF
import Mathlib.Probability.Distributions.Gaussian.Real
import Mathlib.Analysis.SpecialFunctions.Log.Basic
import Mathlib.Data.EReal.Basic
import Mathlib.LinearAlgebra.Matrix.NonsingularInverse

/-!
# Model of the distribution functions of `Normal`

`randvars/_normal.py` 395-560 with the wrappers of `randvars/_random_variable.py` 219-524 and 1216-1275: moments, sampling,
density, distribution function, quantiles and entropy.  What scipy computes is written as the formulas of its documentation and
source (`scipy.stats.norm`, `scipy.stats.multivariate_normal`); random numbers are arguments.  Exact real arithmetic; `none`
stands for `nan`.  Data types matter because the wrappers check them.
-/

namespace Probnum.RandVars

open MeasureTheory ProbabilityTheory Finset

/-- Floating point data types of numpy. -/
inductive Dtype
  | f16
  | f32
  | f64
  | longdouble
  deriving DecidableEq

/-- `infer_moment_dtype`, `infer_median_dtype` (`_random_variable.py` 747-782): `np.promote_types(dtype, np.float_)`. -/
def Dtype.moment : Dtype → Dtype
  | .longdouble => .longdouble
  | _ => .f64

/-- `_check_property_value` (`_random_variable.py` 790-809); the floating types are not subtypes of each other. -/
def checkProperty (shape want : List ℕ) (d wantD : Dtype) : Res Unit :=
  if shape ≠ want then .error .valueError
  else if d ≠ wantD then .error .valueError
  else .ok ()

/-- `rv.mean` (`_random_variable.py` 268-290). -/
def Normal.meanProp (N : Normal) (d : Dtype) : Res Arr :=
  (checkProperty N.mean.shape N.mean.shape d d.moment).map fun _ => N.mean

/-- `rv.mode` (`_random_variable.py` 219-238). -/
def Normal.modeProp (N : Normal) (d : Dtype) : Res Arr :=
  (checkProperty N.mean.shape N.mean.shape d d).map fun _ => N.mean

/-- `rv.cov` (`_random_variable.py` 292-314). -/
def Normal.covProp (N : Normal) (d : Dtype) : Res Arr :=
  (checkProperty N.cov.shape (if 0 < N.mean.ndim then [N.mean.size, N.mean.size] else []) d d.moment).map fun _ => N.cov

/-- `rv.median` (`_random_variable.py` 240-266). -/
def Normal.medianProp (N : Normal) (d : Dtype) : Res Arr :=
  if N.mean.shape ≠ [] then .error .notImplementedError
  else (checkProperty N.mean.shape N.mean.shape d d.moment).map fun _ => N.mean

/-- `rv.var` (`_random_variable.py` 316-342, `_normal.py` 124, 526-527: `np.diag(dense_cov).reshape(shape)`). -/
def Normal.varProp (N : Normal) (d : Dtype) : Res Arr :=
  if N.mean.shape = [] then (checkProperty N.cov.shape [] d d.moment).map fun _ => N.cov
  else (N.covProp d).bind fun C =>
    (checkProperty N.mean.shape N.mean.shape d d.moment).map fun _ =>
      ⟨N.mean.shape, fun idx => C.get [ravel N.mean.shape idx, ravel N.mean.shape idx]⟩

/-- `rv.std` (`_random_variable.py` 344-370). -/
noncomputable def Normal.stdProp (N : Normal) (d : Dtype) : Res Arr :=
  (N.varProp d).bind fun v => (checkProperty v.shape N.mean.shape d d.moment).map fun _ => v.map Real.sqrt

/-- An array of floats or `nan`, by its entries in C order. -/
structure FArr where
  shape : List ℕ
  flat : ℕ → Option ℝ

/-! ## Univariate distributions: `scipy.stats.norm` with `loc = m`, `scale = s` -/

/-- `norm.pdf`. -/
noncomputable def normPdf (m s x : ℝ) : Option ℝ :=
  if 0 < s then some (Real.exp (-((x - m) / s) ^ 2 / 2) / √(2 * Real.pi) / s) else none

/-- `norm.logpdf`. -/
noncomputable def normLogpdf (m s x : ℝ) : Option ℝ :=
  if 0 < s then some (-((x - m) / s) ^ 2 / 2 - Real.log (2 * Real.pi) / 2 - Real.log s) else none

/-- `scipy.special.ndtr`: the distribution function of the standard normal distribution. -/
noncomputable def ndtr (z : ℝ) : ℝ := cdf (gaussianReal 0 1) z

/-- `scipy.special.ndtri`: the inverse of `ndtr`. -/
noncomputable def ndtri (p : ℝ) : ℝ := sInf {z | p ≤ ndtr z}

/-- `norm.cdf`. -/
noncomputable def normCdf (m s x : ℝ) : Option ℝ := if 0 < s then some (ndtr ((x - m) / s)) else none

/-- `norm.logcdf`. -/
noncomputable def normLogcdf (m s x : ℝ) : Option ℝ := if 0 < s then some (Real.log (ndtr ((x - m) / s))) else none

/-- `norm.ppf`: infinite at 0 and 1, `nan` outside `[0, 1]`. -/
noncomputable def normPpf (m s p : ℝ) : Option EReal :=
  if 0 < s then
    if 0 < p ∧ p < 1 then some ((m + s * ndtri p : ℝ) : EReal)
    else if p = 0 then some ⊥
    else if p = 1 then some ⊤
    else none
  else none

/-- `norm.entropy`. -/
noncomputable def normEntropy (s : ℝ) : Option ℝ :=
  if 0 < s then some (0.5 * (Real.log (2 * Real.pi) + 1) + Real.log s) else none

/-- `self.mean` and `self.std` of a univariate variable. -/
noncomputable def Normal.locScale (N : Normal) (d : Dtype) : Res (ℝ × ℝ) :=
  (N.meanProp d).bind fun m => (N.stdProp d).map fun s => (m.get [], s.get [])

/-- The univariate functions are evaluated at every entry (`_normal.py` 419-432). -/
noncomputable def Normal.pointwise (f : ℝ → ℝ → ℝ → Option ℝ) (N : Normal) (d : Dtype) (x : Arr) : Res FArr :=
  (N.locScale d).map fun ms => ⟨x.shape, fun k => f ms.1 ms.2 (x.flat k)⟩

/-- `_univariate_sample` (`_normal.py` 395-411) with the standard normal numbers `z`; `norm.rvs` wants a scale that is not negative
(the square root of a negative variance is `nan`). -/
noncomputable def Normal.univariateSample (N : Normal) (d : Dtype) (size : List ℕ) (z : ℕ → ℝ) : Res FArr :=
  (N.locScale d).bind fun ms =>
    if N.cov.get [] < 0 then .error .valueError
    else .ok ⟨size, fun k => some (ms.1 + ms.2 * z k)⟩

/-! ## Multivariate distributions: `scipy.stats.multivariate_normal` -/

/-- The mean as a vector. -/
def Normal.meanVec (N : Normal) (i : Fin N.mean.size) : ℝ := N.mean.flat i

/-- The covariance as a matrix. -/
def Normal.covMat (N : Normal) : Matrix (Fin N.mean.size) (Fin N.mean.size) ℝ := Matrix.of fun i j => N.covAt i j

open Classical in
/-- `_PSD(cov, allow_singular=False)` for a symmetric matrix: ValueError for a negative eigenvalue, LinAlgError for an eigenvalue
zero. -/
noncomputable def psdCheck {n : ℕ} (C : Matrix (Fin n) (Fin n) ℝ) : Res Unit :=
  if C.PosDef then .ok () else if C.PosSemidef then .error .linAlgError else .error .valueError

open Matrix in
/-- `multivariate_normal._logpdf` for one point: `-0.5 * (rank * _LOG_2PI + log_det_cov + maha)`. -/
noncomputable def mvnLogpdf {n : ℕ} (m : Fin n → ℝ) (C : Matrix (Fin n) (Fin n) ℝ) (x : Fin n → ℝ) : ℝ :=
  -0.5 * (n * Real.log (2 * Real.pi) + Real.log C.det + (x - m) ⬝ᵥ C⁻¹ *ᵥ (x - m))

/-- `np.squeeze`: the axes of length one are removed. -/
def squeezeShape (s : List ℕ) : List ℕ := s.filter (· ≠ 1)

/-- The evaluation points: `x.reshape(x.shape[: -self.ndim] + (-1,))` (`_normal.py` 496) and `_process_quantiles`, `x - mean` of
scipy.  Returns the shape of the batch and the entries of the points; a last axis of length one is broadcast. -/
def mvnPoints (N : Normal) (x : Arr) : Res (List ℕ × (ℕ → ℕ → ℝ)) :=
  let pre := x.shape.take (x.shape.length - N.mean.ndim)
  (x.reshape (pre.map Int.ofNat ++ [-1])).bind fun y =>
    let len := y.shape.getLastD 0
    if pre = [] then
      if N.mean.size = 1 then .ok ([len], fun k _ => y.flat k)
      else if len = N.mean.size then .ok ([1], fun _ i => y.flat i)
      else if len = 1 then .ok ([1], fun _ _ => y.flat 0)
      else .error .valueError
    else if len = N.mean.size then .ok (pre, fun k i => y.flat (k * len + i))
    else if len = 1 then .ok (pre, fun k _ => y.flat k)
    else .error .valueError

/-- `_dense_pdf`, `_dense_logpdf` (`_normal.py` 494-507) with `_squeeze_output`: `g` of the log density at every point. -/
noncomputable def Normal.densePointwise (g : ℝ → ℝ) (N : Normal) (d : Dtype) (x : Arr) : Res FArr :=
  (N.meanProp d).bind fun _ => (N.covProp d).bind fun _ =>
  (mvnPoints N x).bind fun pts =>
  (psdCheck N.covMat).map fun _ =>
    ⟨squeezeShape pts.1, fun k => some (g (mvnLogpdf N.meanVec N.covMat fun i => pts.2 k i))⟩

/-- `rv.pdf(x)` (`_random_variable.py` 1216-1245). -/
noncomputable def Normal.pdf (N : Normal) (d : Dtype) (x : Arr) : Res FArr :=
  if N.mean.shape = [] then N.pointwise normPdf d x else N.densePointwise Real.exp d x

/-- `rv.logpdf(x)` (`_random_variable.py` 1251-1270). -/
noncomputable def Normal.logpdf (N : Normal) (d : Dtype) (x : Arr) : Res FArr :=
  if N.mean.shape = [] then N.pointwise normLogpdf d x else N.densePointwise id d x

/-- `rv.cdf(x)` (`_random_variable.py` 427-451, `_normal.py` 425-427) of scalar variables.  (The multivariate one is scipy's numerical
integration and not modelled.) -/
noncomputable def Normal.cdf (N : Normal) (d : Dtype) (x : Arr) : Res FArr := N.pointwise normCdf d x

/-- `rv.logcdf(x)` (`_random_variable.py` 453-477, `_normal.py` 429-430) of scalar variables. -/
noncomputable def Normal.logcdf (N : Normal) (d : Dtype) (x : Arr) : Res FArr := N.pointwise normLogcdf d x

/-- `rv.quantile(p)` (`_random_variable.py` 479-524); scipy returns double precision. -/
noncomputable def Normal.quantile (N : Normal) (d : Dtype) (p : ℝ) : Res (Option EReal) :=
  if N.mean.shape ≠ [] then .error .notImplementedError
  else (N.locScale d).bind fun ms =>
    if d ≠ .f64 then .error .valueError else .ok (normPpf ms.1 ms.2 p)

/-- `rv.entropy` (`_random_variable.py` 372-384, `_normal.py` 434-438, 529-536). -/
noncomputable def Normal.entropy (N : Normal) (d : Dtype) : Res (Option ℝ) :=
  if N.mean.shape = [] then (N.locScale d).map fun ms => normEntropy ms.2
  else (N.meanProp d).bind fun _ => (N.covProp d).bind fun _ =>
    (psdCheck N.covMat).map fun _ => some (0.5 * Real.log ((2 * Real.pi * Real.exp 1) • N.covMat).det)

/-- `_dense_sample` (`_normal.py` 463-473): `raw` are the entries of the array of shape `size + (n,)` that numpy's generator returns,
one draw per row; scipy squeezes it. -/
def Normal.denseSample (N : Normal) (d : Dtype) (size : List ℕ) (raw : ℕ → ℝ) : Res FArr :=
  (N.meanProp d).bind fun _ => (N.covProp d).bind fun _ =>
    let s := squeezeShape (size ++ [N.mean.size])
    let new := s.dropLast ++ N.mean.shape
    if new.prod = s.prod then .ok ⟨new, fun k => some (raw k)⟩ else .error .valueError

/-- `rv.sample(rng, size)` (`_random_variable.py` 408-425) for dense covariances. -/
noncomputable def Normal.sample (N : Normal) (d : Dtype) (size : List ℕ) (raw : ℕ → ℝ) : Res FArr :=
  if N.mean.shape = [] then N.univariateSample d size raw else N.denseSample d size raw

/-! ## Symmetric Kronecker covariances with identical factors -/

/-- `rv.cov` for `cov=SymmetricKronecker(A)`: with identical factors the operator is `A ⊗ A` (`linops/_kronecker.py` 372-373). -/
def symKronCov {n : ℕ} (A : Matrix (Fin n) (Fin n) ℝ) : Matrix (Fin n × Fin n) (Fin n × Fin n) ℝ :=
  Matrix.of fun p q => A p.1 q.1 * A p.2 q.2

open Matrix in
/-- `_symmetric_kronecker_identical_factors_sample` (`_normal.py` 583-603) for `size = ()` and `size = (k,)`: the shape of the result
and its matrices.  `L` is the factor of `A + ε 1`, `z c` the `c`-th column of the standard normal numbers as a matrix; the operators
are applied to the columns (`L Z Lᵀ`, then the symmetric part).  Longer sizes raise ValueError in `@`, unless their second to last
axis happens to have length `n * n` (not modelled: `none`). -/
noncomputable def symKronSample {n : ℕ} (mean L : Matrix (Fin n) (Fin n) ℝ) (size : List ℕ)
    (z : ℕ → Matrix (Fin n) (Fin n) ℝ) : Option (Res (List ℕ × (ℕ → Matrix (Fin n) (Fin n) ℝ))) :=
  let draw c := mean + (0.5 : ℝ) • (L * z c * Lᵀ + (L * z c * Lᵀ)ᵀ)
  match size with
  | [] => some (.ok ([1, n, n], draw))
  | [k] => some (.ok ([k, n, n], draw))
  | a :: b :: l => if (a :: b :: l).dropLast.getLastD 0 = n * n then none else some (.error .valueError)

end Probnum.RandVars
