import Verif.IWP.Model
import Verif.OdeFilter.Model

/-!
# Model of `diffeq/odefilter/init_routines/_non_probabilistic_fit.py`

The prior is an integrated Wiener process with square-root implementations (`_probsolve_ivp.py` 289-296), exact real
arithmetic.  `scipy.integrate.solve_ivp` is an argument (an oracle).
-/

namespace Probnum.OdeFilter

open Matrix LinGauss IWP Kalman Posterior

variable {d q : ℕ}

/-- The numerical ingredients of the prior: `np.linalg.qr(·, mode="r")`, `np.linalg.cholesky` for the one-dimensional
noise covariance and for `Normal.cov_cholesky`, and `config.covariance_inversion_damping`. -/
structure Numerics (d q : ℕ) where
  qr : QR
  chol : CovCholesky (q + 1)
  ch : CovCholesky (d * (q + 1))
  damping : ℝ

/-- `np.linspace(start, stop, num, endpoint=True)`; a single point is `start`. -/
noncomputable def linspace (start stop : ℝ) (num : ℕ) : List ℝ :=
  (List.range num).map fun i : ℕ => start + (i : ℝ) * ((stop - start) / ((num : ℝ) - 1))

/-- The evaluation points (`_non_probabilistic_fit.py` 34-40): `num_steps = num_derivatives + 1`. -/
noncomputable def fitGrid (t0 dt : ℝ) (q : ℕ) : List ℝ := linspace t0 (t0 + ((q + 1 : ℕ) : ℝ) * dt) (q + 1)

/-- The prior with `forward_implementation = backward_implementation = "sqrt"` as the Kalman filter uses it
(`integrator/_iwp.py` 217-280).  The increments `dt` passed by the filter are positive; `dt = 0` would be `nan`s. -/
noncomputable def sqrtPrior (E : Numerics d q) (initarg : ℝ) (initrv : Rv (d * (q + 1))) :
    Prior ℝ (Rv (d * (q + 1))) ℝ where
  initarg := initarg
  initrv := initrv
  forward rv _ dt _ :=
    (preForwardSqrt E.qr E.ch E.damping (precon q d dt) (preconInv q d dt) (preconditioned q d E.chol) 1 rv).map (·.rv)
  backward obt rv _ dt δ _ :=
    preBackwardSqrt E.qr E.ch E.damping (precon q d dt) (preconInv q d dt) (preconditioned q d E.chol) δ obt rv
  one := 1

/-- The initial random variable of `IntegratedWienerProcess(…, diffuse=True)` (`_iwp.py` 102-111):
`Normal(zeros, cov_cholesky**2, cov_cholesky)` with `cov_cholesky = 1e3 * np.eye(n)`. -/
noncomputable def diffuseRv (n : ℕ) : Rv n :=
  ⟨0, ((1000 : ℝ) • (1 : Matrix (Fin n) (Fin n) ℝ)).map (· ^ 2), some ((1000 : ℝ) • 1)⟩

/-- The measurement model of `_improve` (`_non_probabilistic_fit.py` 52-65). -/
noncomputable def fitMeas (d q : ℕ) (std : ℝ) : Transition (d * (q + 1)) d :=
  ⟨proj d q 0, ⟨0, Matrix.diagonal fun _ => (std * 1) ^ 2, Matrix.diagonal fun _ => std * 1⟩⟩

/-- Its `backward_realization` with the square-root implementation (`_linear_gaussian.py` 214-287,
`_transition.py` 485-488). -/
noncomputable def sqrtMeas (E : Numerics d q) (H : Transition (d * (q + 1)) d) :
    MeasModel (Fin d → ℝ) (Rv (d * (q + 1))) := fun y rv _ =>
  (backwardSqrt E.qr H 1 (Normal.const y) (rv.toNormal E.ch E.damping) none).map fun r => ⟨r.mean, r.cov, some r.chol⟩

/-- `out.states[0]`. -/
def firstState {S : Type} : List S → Res S
  | [] => .error .indexError
  | s :: _ => .ok s

/-- `_improve` (`_non_probabilistic_fit.py` 49-77). -/
noncomputable def improve (E : Numerics d q) (prior : Prior ℝ (Rv (d * (q + 1))) ℝ) (std : ℝ)
    (ts : List ℝ) (ys : List (Fin d → ℝ)) : Res (Rv (d * (q + 1))) := do
  let prob ← Problem.make ts ys (.many (List.replicate ts.length (sqrtMeas E (fitMeas d q std))))
  let out ← filtsmooth prior prob none
  firstState out.states

/-- `NonProbabilisticFit(dt, observation_noise_std)(ivp, prior_process)` (`_non_probabilistic_fit.py` 26-47, 93-107), and
`NonProbabilisticFitWithJacobian` (125-140): they differ in the arguments of `solve_ivp` only, which is `solve` here
(from `t_eval` to times and values, or an exception). -/
noncomputable def nonProbabilisticFit (E : Numerics d q) (prior : Prior ℝ (Rv (d * (q + 1))) ℝ) (t0 dt std : ℝ)
    (solve : List ℝ → Res (List ℝ × List (Fin d → ℝ))) : Res (Rv (d * (q + 1))) := do
  let data ← solve (fitGrid t0 dt q)
  improve E prior std data.1 data.2

end Probnum.OdeFilter
