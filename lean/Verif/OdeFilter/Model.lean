import Verif.Approx.Model
import Verif.IWP.Model

/-!
# Model of `diffeq/odefilter/`: information operators, approximation strategies, regression problems, initialisation

Exact real arithmetic.  `d` is the ODE dimension, `q` the number of derivatives of the prior; a state has
`d (q + 1)` entries, `q + 1` consecutive ones for every ODE coordinate.
-/

namespace Probnum.OdeFilter

open Matrix LinGauss Approx

variable {d q : ℕ}

/-- `problems.InitialValueProblem` (`problems/_problems.py` 118-179), vector-valued `y0`. -/
structure Ivp (d : ℕ) where
  f : ℝ → (Fin d → ℝ) → Fin d → ℝ
  t0 : ℝ
  y0 : Fin d → ℝ
  df : Option (ℝ → (Fin d → ℝ) → Matrix (Fin d) (Fin d) ℝ)
  solution : Option (ℝ → Fin d → ℝ)

/-- `ODEResidual` (`_ode_residual.py` 14-33): the ODE is `None` until it is incorporated. -/
structure Residual (d q : ℕ) where
  ode : Option (Ivp d)

/-- `ODEResidual(num_prior_derivatives=q, ode_dimension=d)` (`_ode_residual.py` 17-29, `_information_operator.py` 79-83). -/
def Residual.new (d q : ℕ) : Residual d q := ⟨none⟩

/-- `proj2coord(coord)` (`_integrator.py` 43-73) as a `d × d(q+1)` matrix: entry `(i, i (q+1) + coord)` is one.
(`IWP.proj2coord` has the same entries with row index `Fin (d * 1)`, see `proj_eq_iwp`.) -/
def proj (d q coord : ℕ) : Matrix (Fin d) (Fin (d * (q + 1))) ℝ :=
  Matrix.of fun i j => if j.1 = i.1 * (q + 1) + coord then 1 else 0

/-- `ODEResidual.incorporate_ode` (`_ode_residual.py` 31-47, `_information_operator.py` 83-88): ValueError if there is an
ODE already; caching `proj2coord(1)` indexes out of range for a prior without derivatives (IndexError). -/
def Residual.incorporate (R : Residual d q) (ivp : Ivp d) : Res (Residual d q) :=
  match R.ode with
  | some _ => .error .valueError
  | none => if q = 0 then .error .indexError else .ok ⟨some ivp⟩

/-- `ODEResidual.__call__` (`_ode_residual.py` 59-60, 67-69); calling it without an ODE calls `None`. -/
def Residual.call (R : Residual d q) (t : ℝ) (x : Fin (d * (q + 1)) → ℝ) : Res (Fin d → ℝ) :=
  match R.ode with
  | none => .error .typeError
  | some ivp => .ok (proj d q 1 *ᵥ x - ivp.f t (proj d q 0 *ᵥ x))

/-- `ODEResidual.jacobian` (`_ode_residual.py` 62-63, 71-75); a missing `df` is a call of `None`. -/
def Residual.jacobian (R : Residual d q) (t : ℝ) (x : Fin (d * (q + 1)) → ℝ) :
    Res (Matrix (Fin d) (Fin (d * (q + 1))) ℝ) :=
  match R.ode with
  | none => .error .typeError
  | some ivp =>
    match ivp.df with
    | none => .error .typeError
    | some df => .ok (proj d q 1 - df t (proj d q 0 *ᵥ x) * proj d q 0)

/-- What an ODE filter sees of a measurement model at a time `t`: the (mean) function, its Jacobian — both may raise —
and the noise.  The Jacobian is present in every case; it is used by the linearised models only. -/
structure Meas (d q : ℕ) where
  fn : ℝ → (Fin (d * (q + 1)) → ℝ) → Res (Fin d → ℝ)
  jac : ℝ → (Fin (d * (q + 1)) → ℝ) → Res (Matrix (Fin d) (Fin (d * (q + 1))) ℝ)
  noise : Normal d

/-- `ODEInformationOperator.as_transition(noise_fun)` (`_information_operator.py` 96-102, 51-68).  Without a noise
function the noise is the constant zero (`NonlinearGaussian.from_callable`). -/
def Residual.asTransition (R : Residual d q) (noise : Option (Normal d)) : Res (Meas d q) :=
  match R.ode with
  | none => .error .valueError
  | some _ => .ok ⟨R.call, R.jacobian, noise.getD (Normal.const 0)⟩

/-- The two approximation strategies of `approx_strategies/_ek.py`. -/
inductive Strategy
  | ek0
  | ek1

/-- `EK1.__call__` (`_ek.py` 26-34) keeps the operator; `EK0.__call__` (`_ek.py` 52-86) builds a new residual for the ODE
whose Jacobian is the zero matrix, and raises if there is no ODE yet. -/
def Strategy.apply (s : Strategy) (R : Residual d q) : Res (Residual d q) :=
  match s with
  | .ek1 => .ok R
  | .ek0 =>
    match R.ode with
    | none => .error .valueError
    | some ivp => (Residual.new d q).incorporate { ivp with df := some fun _ _ => 0 }

/-- The mean predicted by the measurement model linearised at `x0` (`_approx_information_operator.py` 68-81,
`_extendedkalman.py` 113-136): `J x + (g(x0) - J x0) + E[noise]`. -/
def Meas.linearisedMean (M : Meas d q) (t : ℝ) (x0 x : Fin (d * (q + 1)) → ℝ) : Res (Fin d → ℝ) :=
  (M.jac t x0).bind fun J => (M.fn t x0).map fun g => J *ᵥ x + ((g - J *ᵥ x0) + M.noise.mean)

/-! ## Regression problems -/

/-- `np.eye(d, D).reshape((-1,), order="C").reshape((d, D), order="F")` with `D = d (q+1)`
(`utils/_problem_utils.py` 86-89): entry `(i, j)` of the result is number `j d + i` of the row-by-row list. -/
def initMatrix (d q : ℕ) : Matrix (Fin d) (Fin (d * (q + 1))) ℝ :=
  Matrix.of fun i j =>
    let p := j.1 * d + i.1
    if p / (d * (q + 1)) = p % (d * (q + 1)) then 1 else 0

/-- A measurement model of the regression problem: linear (initial condition) or the ODE's. -/
inductive Model (d q : ℕ)
  | initial (tr : Transition (d * (q + 1)) d)
  | ode (M : Meas d q)

/-- The regression problem returned: locations, (zero) observations, models and the solution at the locations. -/
structure Problem (d q : ℕ) where
  locations : List ℝ
  observations : List (Fin d → ℝ)
  models : List (Model d q)
  solution : Option (List (Fin d → ℝ))

/-- The noise of the models: `Normal(mean=-y0, cov=variance·I, cov_cholesky=sqrt(variance·I))` if the variance is
positive (`_problem_utils.py` 118-120), else the constant `-y0` (139-141). -/
noncomputable def initNoise (ivp : Ivp d) (variance : ℝ) : Normal d :=
  open Classical in
  if 0 < variance then ⟨-ivp.y0, variance • 1, (variance • (1 : Matrix (Fin d) (Fin d) ℝ)).map Real.sqrt⟩
  else Normal.const (-ivp.y0)

/-- The noise handed to `as_transition` (`_problem_utils.py` 128-130 and 144): the same variable as for the initial
condition if the variance is positive, otherwise none. -/
noncomputable def odeNoise (ivp : Ivp d) (variance : ℝ) : Option (Normal d) :=
  open Classical in if 0 < variance then some (initNoise ivp variance) else none

/-- Apply an optional strategy (`_problem_utils.py` 126-127, 142-143). -/
def applyStrategy (s : Option Strategy) (R : Residual d q) : Res (Residual d q) :=
  match s with
  | none => .ok R
  | some s => s.apply R

/-- The constructor of `TimeSeriesRegressionProblem` (`problems/_problems.py` 79-110): lengths must agree. -/
def mkProblem (locations : List ℝ) (observations : List (Fin d → ℝ)) (models : List (Model d q))
    (solution : Option (List (Fin d → ℝ))) : Res (Problem d q) :=
  if observations.length = locations.length ∧ locations.length = models.length then
    .ok ⟨locations, observations, models, solution⟩
  else .error .valueError

/-- `np.stack` of a list of arrays raises ValueError for an empty list (`_problem_utils.py` 53-56). -/
def solutionAt (ivp : Ivp d) (locations : List ℝ) : Res (Option (List (Fin d → ℝ))) :=
  match ivp.solution with
  | none => .ok none
  | some y => if locations = [] then .error .valueError else .ok (some (locations.map y))

/-- `ivp_to_regression_problem` (`_problem_utils.py` 17-146).  The operator is changed by the call: the second component
of the result is the operator afterwards. -/
noncomputable def toRegression (ivp : Ivp d) (locations : List ℝ) (R : Residual d q) (s : Option Strategy) (variance : ℝ)
    (excludeInit : Bool) : Res (Problem d q × Residual d q) :=
  (solutionAt ivp locations).bind fun sol =>
  (R.incorporate ivp).bind fun R' =>
  (applyStrategy s R').bind fun R'' =>
  (R''.asTransition (odeNoise ivp variance)).bind fun M =>
  (mkProblem locations (List.replicate locations.length 0)
    (if excludeInit then List.replicate locations.length (.ode M)
     else .initial ⟨initMatrix d q, initNoise ivp variance⟩ :: List.replicate (locations.length - 1) (.ode M)) sol).map
  fun p => (p, R')

/-! ## Initialisation by stacking -/

/-- Entry `p` of `mean_matrix.reshape((-1,), order="F")` for a matrix whose rows are the given vectors
(`init_routines/_stack.py` 27-28): the matrix is read column by column, so entry `p` is coordinate
`p / (number of rows)` of row `p % (number of rows)`. -/
def flattenF (rows : List (Fin d → ℝ)) (p : ℕ) : ℝ :=
  if h : p / rows.length < d then (rows.getD (p % rows.length) 0) ⟨p / rows.length, h⟩ else 0

/-- `Stack._stack_initial_states` (`_stack.py` 42-51): rows of the mean and of the standard deviation; `n = q + 1`;
`[zeros] * (n - 2)` is empty for `n ≤ 2`. -/
def stackRows (ivp : Ivp d) (scale : ℝ) (q : ℕ) : List (Fin d → ℝ) × List (Fin d → ℝ) :=
  let fy := ivp.f ivp.t0 ivp.y0
  ([ivp.y0, fy] ++ List.replicate (q + 1 - 2) 0,
   [(0 : ℝ) • ivp.y0, (0 : ℝ) • fy] ++ List.replicate (q + 1 - 2) (scale • 1))

/-- `StackWithJacobian._stack_initial_states` (`_stack.py` 57-68); a missing `df` is a call of `None`. -/
def stackJacRows (ivp : Ivp d) (scale : ℝ) (q : ℕ) : Res (List (Fin d → ℝ) × List (Fin d → ℝ)) :=
  match ivp.df with
  | none => .error .typeError
  | some df =>
    let fy := ivp.f ivp.t0 ivp.y0
    let dfy := df ivp.t0 ivp.y0 *ᵥ fy
    .ok ([ivp.y0, fy, dfy] ++ List.replicate (q + 1 - 3) 0,
         [(0 : ℝ) • ivp.y0, (0 : ℝ) • fy, (0 : ℝ) • dfy] ++ List.replicate (q + 1 - 3) (scale • 1))

/-- The normal variable of `_StackBase.__call__` (`_stack.py` 16-33): number of entries, mean and standard deviations
(the covariance is `diag(std²)`), entry by entry. -/
structure Init where
  size : ℕ
  mean : ℕ → ℝ
  std : ℕ → ℝ

/-- `_StackBase.__call__` (`_stack.py` 23-33) after the rows are known. -/
def mkInit (rs : List (Fin d → ℝ) × List (Fin d → ℝ)) : Init :=
  ⟨d * rs.1.length, flattenF rs.1, flattenF rs.2⟩

/-- `Stack()(ivp=ivp, prior_process=…)`. -/
def stackInit (ivp : Ivp d) (scale : ℝ) (q : ℕ) : Init := mkInit (stackRows ivp scale q)

/-- `StackWithJacobian()(ivp=ivp, prior_process=…)`. -/
def stackJacInit (ivp : Ivp d) (scale : ℝ) (q : ℕ) : Res Init := (stackJacRows ivp scale q).map mkInit

end Probnum.OdeFilter
