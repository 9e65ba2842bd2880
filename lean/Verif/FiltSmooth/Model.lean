import Verif.Kalman.StateSpace
import Verif.RandVars.Model
import Verif.SDE.Model

/-!
# Model of `filtsmooth/_kalman_filter_smoother.py`: the functions `filter_kalman` and `smooth_rts`

The matrices are exact real matrices.  The shape checks of the constructors that are called are modelled separately
(`setup`), because matrices of the wrong shape cannot be written as arguments of `filterKalman`.
-/

namespace Probnum.FiltSmooth

open Matrix Probnum.LinGauss Probnum.Kalman Probnum.Posterior

/-! ## Shape checks -/

/-- Shapes of the array arguments of `filter_kalman` and `smooth_rts` (`_kalman_filter_smoother.py` 14-24). -/
structure ArgShapes where
  F : List ℕ
  L : List ℕ
  H : List ℕ
  R : List ℕ
  m0 : List ℕ
  C0 : List ℕ

/-- `shape[0]`. -/
def firstDim : List ℕ → Res ℕ
  | [] => .error .indexError
  | d :: _ => .ok d

/-- The shape checks of `Normal(mean, cov)` (`_normal.py` 94-107). -/
def checkNormal (mean cov : List ℕ) : Res Unit :=
  if 2 < mean.length then .error .valueError
  else if cov ≠ RandVars.expectedCov mean then .error .valueError
  else .ok ()

/-- `_assert_shapes_match` (`_lti_gaussian.py` 83-95). -/
def checkLTIGaussian (mat noise : List ℕ) : Res Unit :=
  if mat.length ≠ 2 then .error .typeError
  else if noise.length ≠ 1 then .error .typeError
  else if mat[0]? ≠ noise[0]? then .error .typeError
  else .ok ()

/-- `_setup_regression_problem` (`_kalman_filter_smoother.py` 226-237) with the checks of `Normal`, `LTIGaussian` and
`TimeSeriesRegressionProblem` (`_problems.py` 79-105). -/
def checkRegression (a : ArgShapes) (nObs nLoc : ℕ) : Res Unit := do
  let h ← firstDim a.H
  checkNormal [h] a.R
  checkLTIGaussian a.H [h]
  if nObs = nLoc then .ok () else .error .valueError

/-- `RandomProcess.__init__` (`_random_process.py` 65-72): at most one output dimension. -/
def checkProcess (m0 : List ℕ) : Res Unit := if 1 < m0.length then .error .valueError else .ok ()

/-- `_setup_prior_process` (`_kalman_filter_smoother.py` 204-223) with the checks of the constructors. -/
def checkPrior (a : ArgShapes) (priorModel : String) : Res Unit := do
  let f ← firstDim a.F
  checkNormal a.m0 a.C0
  if priorModel = "discrete" then
    checkNormal [f] a.L
    checkLTIGaussian a.F [f]
    checkProcess a.m0
  else if priorModel = "continuous" then
    SDE.construct ⟨a.F, [f], a.L⟩
    checkProcess a.m0
  else .error .valueError

/-- Everything `filter_kalman` and `smooth_rts` do before the Kalman filter runs
(`_kalman_filter_smoother.py` 99-104 and 194-199): `locations[0]` raises IndexError on an empty sequence. -/
def setup (a : ArgShapes) (nObs nLoc : ℕ) (priorModel : String) : Res Unit := do
  checkRegression a nObs nLoc
  if nLoc = 0 then .error .indexError else checkPrior a priorModel

/-! ## The functions -/

/-- The array arguments of `filter_kalman` and `smooth_rts` with the documented shapes
(`_kalman_filter_smoother.py` 57-86): state dimension `n`, `s` columns of `L`, observation dimension `m`. -/
structure Args (n s m : ℕ) where
  F : Matrix (Fin n) (Fin n) ℝ
  L : Matrix (Fin n) (Fin s) ℝ
  H : Matrix (Fin m) (Fin n) ℝ
  R : Matrix (Fin m) (Fin m) ℝ
  m0 : Fin n → ℝ
  C0 : Matrix (Fin n) (Fin n) ℝ

variable {n s m : ℕ}

/-- `_setup_prior_process` (`_kalman_filter_smoother.py` 204-223).  A discrete transition ignores the time increment
(`_linear_gaussian.py` 84-103); `Normal` rejects a matrix `L` that is not square. -/
noncomputable def setupPrior (ch : CovCholesky n) (a : Args n s m) (t0 : ℝ) (priorModel : String) :
    Res (Prior ℝ (Updated n) ℝ) :=
  if priorModel = "discrete" then
    if h : n = s then
      .ok (classicPrior t0 ⟨a.m0, a.C0⟩ fun _ => ⟨a.F, ⟨0, a.L.submatrix id (Fin.cast h),
        ch.factor (a.L.submatrix id (Fin.cast h))⟩⟩)
    else .error .valueError
  else if priorModel = "continuous" then
    .ok (classicPrior t0 ⟨a.m0, a.C0⟩ fun dt => SDE.LTISDE.discretise ch ⟨a.F, 0, a.L⟩ dt)
  else .error .valueError

/-- The measurement model of `_setup_regression_problem` (`_kalman_filter_smoother.py` 227-230).  The factor of the
noise covariance is not used by the classic implementations. -/
def measModel (a : Args n s m) : Transition n m := ⟨a.H, ⟨0, a.R, 0⟩⟩

/-- `_setup_regression_problem` (`_kalman_filter_smoother.py` 226-237). -/
noncomputable def setupRegression (a : Args n s m) (observations : List (Fin m → ℝ)) (locations : List ℝ) :
    Res (Problem ℝ (Fin m → ℝ) (Updated n)) :=
  Problem.make locations observations (.many (List.replicate locations.length (classicMeas (measModel a))))

/-- `locations[0]`. -/
def firstLocation : List ℝ → Res ℝ
  | [] => .error .indexError
  | t :: _ => .ok t

/-- `filter_kalman` (`_kalman_filter_smoother.py` 14-106). -/
noncomputable def filterKalman (ch : CovCholesky n) (a : Args n s m) (observations : List (Fin m → ℝ))
    (locations : List ℝ) (priorModel : String) : Res (Post ℝ (Updated n)) := do
  let prob ← setupRegression a observations locations
  let t0 ← firstLocation locations
  let prior ← setupPrior ch a t0 priorModel
  Kalman.filter prior prob none

/-- `smooth_rts` (`_kalman_filter_smoother.py` 109-201). -/
noncomputable def smoothRts (ch : CovCholesky n) (a : Args n s m) (observations : List (Fin m → ℝ))
    (locations : List ℝ) (priorModel : String) : Res (Post ℝ (Updated n)) := do
  let prob ← setupRegression a observations locations
  let t0 ← firstLocation locations
  let prior ← setupPrior ch a t0 priorModel
  Kalman.filtsmooth prior prob none

end Probnum.FiltSmooth
