import Verif.OdeFilter.Model
import Verif.Diffusion.Model

/-!
# Model of `diffeq/odefilter/_odefilter.py`: one step of the ODE filter, calibration, post-processing

The prior is an integrated Wiener process with square-root implementations (what `probsolve_ivp` builds), the
information operator an `ODEResidual` without noise, the strategy EK0 or EK1 with square-root implementations.
The step rule is arbitrary (`Rule`).

Times are optional in the calls of the vector field: the last call of a step passes `t=None`.
-/

namespace Probnum.OdeFilter

open Matrix LinGauss Diffusion

/-- The vector field and its Jacobian as Python callables: the time may be `None` (`none`) and calls may raise.  An
initial value problem without `df` raises TypeError in every call of `df` (a call of `None`). -/
structure Ode (d : ℕ) where
  f : Option ℝ → (Fin d → ℝ) → Res (Fin d → ℝ)
  df : Option ℝ → (Fin d → ℝ) → Res (Matrix (Fin d) (Fin d) ℝ)

variable {d q : ℕ}

/-- `ODEResidual.__call__` of the incorporated ODE (`information_operators/_ode_residual.py` 59-60, 67-69). -/
def measFn (q : ℕ) (o : Ode d) (t : Option ℝ) (x : Fin (d * (q + 1)) → ℝ) : Res (Fin d → ℝ) :=
  (o.f t (proj d q 0 *ᵥ x)).map fun v => proj d q 1 *ᵥ x - v

/-- `ODEResidual.jacobian` (`_ode_residual.py` 62-63, 71-75); EK0 replaces the Jacobian of the vector field by zero
(`approx_strategies/_ek.py` 66-83). -/
def measJac (q : ℕ) (s : Strategy) (o : Ode d) (t : Option ℝ) (x : Fin (d * (q + 1)) → ℝ) :
    Res (Matrix (Fin d) (Fin (d * (q + 1))) ℝ) :=
  match s with
  | .ek0 => .ok (proj d q 1 - (0 : Matrix (Fin d) (Fin d) ℝ) * proj d q 0)
  | .ek1 => (o.df t (proj d q 0 *ᵥ x)).map fun J => proj d q 1 - J * proj d q 0

/-- `DiscreteEKFComponent.linearize` (`filtsmooth/gaussian/approx/_extendedkalman.py` 113-136) at the point `x0`, with
the matrix and the noise evaluated at time `t`: noise `g(t, x0) - dg(t, x0) @ x0 + Constant(0)`. -/
def linearized (q : ℕ) (s : Strategy) (o : Ode d) (t : Option ℝ) (x0 : Fin (d * (q + 1)) → ℝ) :
    Res (Transition (d * (q + 1)) d) :=
  (measJac q s o t x0).bind fun H => (measFn q o t x0).map fun g => ⟨H, Normal.const ((g - H *ᵥ x0) + 0)⟩

/-- The two diffusion models (`randprocs/markov/continuous/_diffusions.py`). -/
inductive Diff
  | constant (D : ConstantDiffusion ℝ)
  | piecewise (D : PiecewiseDiffusion ℝ ℝ)

/-- `_calibrate_at_each_step` (`_odefilter.py` 121-125). -/
def Diff.perStep : Diff → Bool
  | .constant _ => false
  | .piecewise _ => true

open Classical in
/-- `_compute_local_quasi_mle` (`_diffusions.py` 196-200): `solve_triangular` with the lower factor `L` (LinAlgError if it
is singular), then the mean square.  (`d = 0` would be `0/0`.) -/
noncomputable def quasiMle (L : Matrix (Fin d) (Fin d) ℝ) (z : Fin d → ℝ) : Res ℝ :=
  if L.det = 0 then .error .linAlgError else .ok ((L⁻¹ *ᵥ z) ⬝ᵥ (L⁻¹ *ᵥ z) / (d : ℝ))

/-- `estimate_locally`: the constant model uses the measurement with the covariance of the previous state
(`_diffusions.py` 76-83), the piecewise model the one without, and checks the time (161-172). -/
noncomputable def Diff.estimate (D : Diff) (full free : Matrix (Fin d) (Fin d) ℝ) (z : Fin d → ℝ) (t : ℝ) : Res ℝ :=
  match D with
  | .constant _ => quasiMle full z
  | .piecewise P => (P.estimateLocallyGuard t).bind fun _ => quasiMle free z

/-- `update_in_place` (`_diffusions.py` 85-93, 174-177). -/
noncomputable def Diff.update (D : Diff) (est t : ℝ) : Diff :=
  match D with
  | .constant C => .constant (C.update est)
  | .piecewise P => .piecewise (P.update est t)

/-- What `attempt_step` uses of a step rule: `errorest_to_norm` and `is_accepted`. -/
structure Rule (d : ℕ) where
  norm : (Fin d → ℝ) → (Fin d → ℝ) → ℝ
  accepted : ℝ → Bool

/-- An `ODEFilter` after `initialize` (`_odefilter.py` 62-144), without its diffusion model. -/
structure Solver (d q : ℕ) where
  strategy : Strategy
  ode : Ode d
  rule : Rule d
  /-- `np.linalg.cholesky` of the one-dimensional noise covariance of the prior -/
  chol : Kalman.CovCholesky (q + 1)
  /-- `np.linalg.qr(·, mode="r")` -/
  qr : QR
  /-- `_reference_coordinates` -/
  reference : ℕ

/-- The state returned by `attempt_step` and the diffusion model afterwards; `rv = none` is a `Normal` all of whose
entries are `nan` (a rejected step). -/
structure Outcome (d q : ℕ) where
  t : ℝ
  rv : Option (Normal (d * (q + 1)))
  errors : Fin d → ℝ
  reference : Fin d → ℝ
  diffusion : Diff

open Classical in
/-- `scipy.linalg.cho_solve((L, True), C.T).T`: multiply by the inverse of `L Lᵀ`; with a singular factor the result is
not finite, modelled as LinAlgError. -/
noncomputable def choSolveT {n : ℕ} (L : Matrix (Fin d) (Fin d) ℝ) (C : Matrix (Fin n) (Fin d) ℝ) :
    Res (Matrix (Fin n) (Fin d) ℝ) :=
  if L.det = 0 then .error .linAlgError else .ok (((L * Lᵀ)⁻¹ * Cᵀ)ᵀ)

/-- The factor of the measurement covariance used in the update: recomputed with the local diffusion if the calibration
is at each step (`_odefilter.py` 307-315), else the one computed before (238-246). -/
noncomputable def finalMeasChol (S : Solver d q) (perStep : Bool) (est : ℝ) (free full : Matrix (Fin d) (Fin d) ℝ)
    (measSqrt : Matrix (Fin d) (Fin (d * (q + 1))) ℝ) : Res (Matrix (Fin d) (Fin d) ℝ) :=
  if perStep then choleskyUpdate S.qr (Real.sqrt est • free) measSqrt else .ok full

/-- The factor of the predicted covariance used in the update (`_odefilter.py` 297-305 and 322-330). -/
noncomputable def finalPredChol (S : Solver d q) (perStep : Bool) (est : ℝ)
    (free predSqrt : Matrix (Fin (d * (q + 1))) (Fin (d * (q + 1))) ℝ) :
    Res (Matrix (Fin (d * (q + 1))) (Fin (d * (q + 1))) ℝ) :=
  if perStep then choleskyUpdate S.qr (Real.sqrt est • free) predSqrt else choleskyUpdate S.qr free predSqrt

/-- The update (`_odefilter.py` 333-338): cross-covariance and gain from the matrix `H`, then `backward_realization`
with zero data, which linearises again at the mean of the prediction — with `t=None`. -/
noncomputable def correct (S : Solver d q) (H : Matrix (Fin d) (Fin (d * (q + 1))) ℝ) (mean : Fin (d * (q + 1)) → ℝ)
    (predL : Matrix (Fin (d * (q + 1))) (Fin (d * (q + 1))) ℝ) (measL : Matrix (Fin d) (Fin d) ℝ) :
    Res (Normal (d * (q + 1))) :=
  (choSolveT measL (predL * predLᵀ * Hᵀ)).bind fun gain =>
  (linearized q S.strategy S.ode none mean).bind fun lin =>
  backwardSqrt S.qr lin 1 (Normal.const 0) ⟨mean, predL * predLᵀ, predL⟩ (some gain)

open Classical in
/-- `ODEFilter.attempt_step` (`_odefilter.py` 146-348) from the state `(t, rv)`.  With `dt = 0` the discretised prior
consists of `nan`s and `solve_triangular` raises ValueError. -/
noncomputable def attempt (S : Solver d q) (D : Diff) (t : ℝ) (rv : Normal (d * (q + 1))) (dt : ℝ) : Res (Outcome d q) :=
  match IWP.discretise q d S.chol dt with
  | none => .error .valueError
  | some tr =>
    (forwardSqrt S.qr tr 1 (Normal.const rv.mean)).bind fun pf =>
    (linearized q S.strategy S.ode (some (t + dt)) pf.1.mean).bind fun lin =>
    (forwardSqrt S.qr lin 1 ⟨pf.1.mean, pf.1.cov, pf.2⟩).bind fun mf =>
    (choleskyUpdate S.qr mf.2 (lin.mat * (tr.mat * rv.chol))).bind fun full =>
    (D.estimate full mf.2 mf.1.mean (t + dt)).bind fun est =>
    let errors : Fin d → ℝ := fun i => Real.sqrt est * Real.sqrt (mf.1.cov i i)
    let reference : Fin d → ℝ := fun i => |(proj d q S.reference *ᵥ rv.mean) i|
    if S.rule.accepted (S.rule.norm errors reference) then
      (finalPredChol S D.perStep est pf.2 (tr.mat * rv.chol)).bind fun predL =>
      (finalMeasChol S D.perStep est mf.2 full (lin.mat * (tr.mat * rv.chol))).bind fun measL =>
      (correct S lin.mat pf.1.mean predL measL).map fun filt =>
        ⟨t + dt, some filt, errors, reference, D.update est t⟩
    else .ok ⟨t + dt, none, errors, reference, D⟩

/-! ## A sequence of attempts, and post-processing -/

/-- What the solver keeps between attempts: the last accepted state, the diffusion model and all accepted states. -/
structure Run (d q : ℕ) where
  t : ℝ
  rv : Normal (d * (q + 1))
  diffusion : Diff
  times : List ℝ
  rvs : List (Normal (d * (q + 1)))

/-- The beginning of `solve`/`solution_generator` (`_odesolver.py` 38-74). -/
def Run.start (t0 : ℝ) (rv0 : Normal (d * (q + 1))) (D : Diff) : Run d q := ⟨t0, rv0, D, [t0], [rv0]⟩

/-- One attempt of `perform_full_step` with the step size `dt` (`_odesolver.py` 110-139): on rejection the state is kept;
the diffusion model is the one object mutated by the attempts. -/
noncomputable def Run.next (S : Solver d q) (r : Run d q) (dt : ℝ) : Res (Run d q) :=
  (attempt S r.diffusion r.t r.rv dt).map fun o =>
    match o.rv with
    | some rv => ⟨o.t, rv, o.diffusion, r.times ++ [o.t], r.rvs ++ [rv]⟩
    | none => { r with diffusion := o.diffusion }

/-- Attempts with the step sizes `dts` in order. -/
noncomputable def Run.many (S : Solver d q) : Run d q → List ℝ → Res (Run d q)
  | r, [] => .ok r
  | r, dt :: dts => (r.next S dt).bind fun r' => Run.many S r' dts

/-- `Normal(mean, s * cov, sqrt(s) * cov_cholesky)` (`_odefilter.py` 379-387). -/
noncomputable def scaleRv {n : ℕ} (s : ℝ) (rv : Normal n) : Normal n := ⟨rv.mean, s • rv.cov, Real.sqrt s • rv.chol⟩

/-- The factor `s` of `postprocess` (`_odefilter.py` 373-377); without an accepted step the constant diffusion is `None`
and `None * array` raises TypeError. -/
def Diff.postFactor : Diff → Res ℝ
  | .constant C =>
    match C.diffusion with
    | none => .error .typeError
    | some s => .ok s
  | .piecewise _ => .ok 1

/-- The states of the filtering posterior built by `postprocess` (`_odefilter.py` 362-387). -/
noncomputable def filteringStates (r : Run d q) : Res (List (Normal (d * (q + 1)))) :=
  r.diffusion.postFactor.map fun s => r.rvs.map (scaleRv s)

/-- `self.diffusion_model(t)` at one time. -/
noncomputable def Diff.call (D : Diff) (t : ℝ) : Res ℝ :=
  match D with
  | .constant C => C.call t
  | .piecewise P => P.call t

/-- `self.diffusion_model(ts)` at a list of times, possibly empty: raises if there is no estimate yet
(`_diffusions.py` 59-65, 130-135). -/
noncomputable def Diff.callMany (D : Diff) (ts : List ℝ) : Res (List ℝ) :=
  (D.call 0).bind fun _ => ts.mapM D.call

/-- What `postprocess` hands to `smooth_list` (`_odefilter.py` 391-394): the list of states as the solver produced them
and the diffusions at the locations after the first. -/
noncomputable def smoothingInput (r : Run d q) : Res (List (Normal (d * (q + 1))) × List ℝ) :=
  (r.diffusion.callMany r.times.tail).map fun ds => (r.rvs, ds)

/-- `smooth_list` (`randprocs/markov/_transition.py` 293-345) starts with `final_rv = rv_list[-1]`, which is the last
entry of the returned list: the last state of the smoothing posterior. -/
noncomputable def lastSmoothed (r : Run d q) : Res (Normal (d * (q + 1))) :=
  (smoothingInput r).bind fun p =>
    match p.1.getLast? with
    | none => .error .indexError
    | some rv => .ok rv

/-- `_project_rv(proj, rv)` (`_odefilter_solution.py` 143-154): mean, covariance and `cov_cholesky` of the projection;
the factor is `cholesky_update(proj @ rv.cov_cholesky)`. -/
noncomputable def projectRv (Q : QR) {n : ℕ} (E : Matrix (Fin d) (Fin n) ℝ) (rv : Normal n) : Res (Normal d) :=
  (choleskyUpdate1 Q (E * rv.chol)).map fun L => ⟨E *ᵥ rv.mean, E * rv.cov * Eᵀ, L⟩

end Probnum.OdeFilter
