import Verif.RandVars.Generic
import Mathlib.Algebra.Order.Floor.Ring
import Mathlib.Analysis.SpecialFunctions.Log.Basic
import Mathlib.Data.EReal.Basic

/-!
# Model: distributions of SciPy as random variables

Models `src/probnum/randvars/_scipy_stats.py`, and of `src/probnum/randvars/_random_variable.py` the methods `cdf`, `logcdf`, `quantile`,
`entropy`, `in_support`, `pmf`, `logpmf`, `pdf`, `logpdf` of the objects it returns.  Distributions with numbers as parameters; exact
real arithmetic.  What SciPy computes is given by the frozen distribution.
-/

namespace Probnum.RandVars

/-- The class of `scipy_rv.dist`, and whether its name is `"norm"`. -/
inductive ScipyKind
  | norm
  | continuous
  | discrete
  | generic

/-- A frozen univariate distribution (`rv_frozen`) with its methods.  `mass` is `pmf` for a discrete and `pdf` for a continuous
distribution; `ppf` is used for arguments between 0 and 1. -/
structure ScipyUni (ρ : Type) where
  kind : ScipyKind
  mean : ℝ
  var : ℝ
  std : ℝ
  median : ℝ
  entropy : ℝ
  support : EReal × EReal
  cdf : ℝ → ℝ
  logcdf : ℝ → ℝ
  ppf : ℝ → ℝ
  mass : ℝ → ℝ
  logmass : ℝ → ℝ
  rvs : List ℕ → ρ → Arr × ρ

/-- A number as an array without axes: what `_return_numpy` makes of a number (`_scipy_stats.py` 252-266, `argutils.py` 51-73). -/
def number (v : ℝ) : Arr := ⟨[], fun _ => v⟩

/-- A wrapped distribution: the generic random variable, and the functions given to the constructor besides. -/
structure Wrapped (ρ : Type) where
  kind : ScipyKind
  rv : Generic ρ
  cdfFn : ℝ → Arr
  logcdfFn : ℝ → Arr
  quantileFn : ℝ → Arr
  entropyFn : Arr
  massFn : Option (ℝ → Arr)
  logmassFn : Option (ℝ → Arr)

/-- Conversion to an integer data type: truncation. -/
noncomputable def toInt (v : ℝ) : ℝ := if 0 ≤ v then (⌊v⌋ : ℝ) else (⌈v⌉ : ℝ)

/-- Conversion to the data type of the samples: integers for discrete distributions. -/
noncomputable def toDtype (k : ScipyKind) (v : ℝ) : ℝ :=
  match k with
  | .discrete => toInt v
  | _ => v

open Classical in
/-- `_rv_init_kwargs_from_scipy_rv` (`_scipy_stats.py` 184-249) and the constructors of the wrappers (26-119).  The shape is that of one
sample, `()`.  The methods `cov` and `mode` do not exist. -/
noncomputable def wrapKwargs {ρ : Type} (U : ScipyUni ρ) : Wrapped ρ where
  kind := U.kind
  rv :=
    { shape := []
      sample := some fun size r => .ok (U.rvs size r)
      inSupport := some fun x => decide (U.support.1 ≤ (x.get [] : EReal) ∧ (x.get [] : EReal) ≤ U.support.2)
      mode := none
      median := some (.ok (number U.median))
      mean := some (.ok (number U.mean))
      cov := none
      var := some (.ok (number U.var))
      std := some (.ok (number U.std)) }
  cdfFn x := number (U.cdf x)
  logcdfFn x := number (U.logcdf x)
  quantileFn p := number (toDtype U.kind (U.ppf p))
  entropyFn := number U.entropy
  massFn := match U.kind with
    | .generic => none
    | _ => some fun x => number (U.mass x)
  logmassFn := match U.kind with
    | .generic => none
    | _ => some fun x => number (U.logmass x)

/-- `wrap_scipy_rv(scipy_rv)` (`_scipy_stats.py` 122-166) for univariate distributions. -/
noncomputable def wrapScipy {ρ : Type} (U : ScipyUni ρ) : Res (Normal ⊕ Wrapped ρ) :=
  match U.kind with
  | .norm => (mkNormal (number U.mean) (number U.var) none).map .inl
  | _ => .ok (.inr (wrapKwargs U))

/-- `_ensure_numpy_float` (`_random_variable.py` 811-846) for an array of numbers: `np.isscalar` is false for every array, also for one
without axes. -/
def ensureFloat (forceScalar : Bool) (a : Arr) : Res Arr := if forceScalar then .error .typeError else .ok a

namespace Wrapped

variable {ρ : Type}

/-- `rv.cdf(x)` (427-451). -/
def cdf (w : Wrapped ρ) (x : ℝ) : Res Arr := ensureFloat false (w.cdfFn x)

/-- `rv.logcdf(x)` (453-477). -/
def logcdf (w : Wrapped ρ) (x : ℝ) : Res Arr := ensureFloat false (w.logcdfFn x)

/-- `rv.quantile(p)` (479-524): the shape and the data type are right. -/
def quantile (w : Wrapped ρ) (p : ℝ) : Res Arr :=
  if w.rv.shape ≠ [] then .error .notImplementedError else checkShape w.rv.shape (w.quantileFn p)

/-- `rv.entropy` (372-384). -/
def entropy (w : Wrapped ρ) : Res Arr := ensureFloat true w.entropyFn

/-- `rv.pmf(x)` or `rv.pdf(x)` (1002-1033, 1216-1249); without the method AttributeError. -/
def mass (w : Wrapped ρ) (x : ℝ) : Res Arr :=
  match w.massFn with
  | none => .error .attributeError
  | some f => ensureFloat false (f x)

/-- `rv.logpmf(x)` or `rv.logpdf(x)` (1035-1063, 1251-1280). -/
def logmass (w : Wrapped ρ) (x : ℝ) : Res Arr :=
  match w.logmassFn with
  | none => .error .attributeError
  | some f => ensureFloat false (f x)

end Wrapped

end Probnum.RandVars
