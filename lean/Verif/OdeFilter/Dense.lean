import Verif.OdeFilter.Solve
import Verif.Posterior.Model

/-!
# Model of `diffeq/odefilter/_odefilter_solution.py`

The object returned by `probsolve_ivp`: evaluation at arbitrary times, the stored states and derivatives, and the choice of
diffusions when sampling.  Interpolation is that of `filtsmooth/gaussian/_kalmanposterior.py` (modelled in
`Verif.Posterior.Model`) with the transition of the prior: an integrated Wiener process with square-root implementations.
-/

namespace Probnum.OdeFilter

open Matrix LinGauss IWP Kalman Posterior

variable {d q : ℕ}

/-- `diffusion_model[idx]` at one index (`randprocs/markov/continuous/_diffusions.py` 67-74, 153-159). -/
noncomputable def Diff.getItem (D : Diff) (idx : ℤ) : Res ℝ :=
  match D with
  | .constant C => C.getItem idx
  | .piecewise P => P.getItem idx

/-- `transition.forward_rv(rv, t, dt, _diffusion)` and `transition.backward_rv(rv_obtained, rv, t, dt, _diffusion)` of the
prior (`integrator/_iwp.py` 217-280).  Exceptions are passed on. -/
noncomputable def denseDyn (E : Numerics d q) : Dynamics ℝ (Res (Rv (d * (q + 1)))) ℝ where
  forward s _ dt δ := s.bind fun rv =>
    (preForwardSqrt E.qr E.ch E.damping (precon q d dt) (preconInv q d dt) (preconditioned q d E.chol) δ rv).map (·.rv)
  backward obt s _ dt δ := obt.bind fun o => s.bind fun rv =>
    preBackwardSqrt E.qr E.ch E.damping (precon q d dt) (preconInv q d dt) (preconditioned q d E.chol) δ o rv
  one := 1

/-- The states of `kalman_posterior`: those of the smoothing posterior if there is one, else those of the filtering
posterior. -/
def Solution.posteriorStates (sol : Solution d q) : List (Rv (d * (q + 1))) :=
  match sol.smoothing with
  | none => sol.filtering.map fun rv => ⟨rv.mean, rv.cov, some rv.chol⟩
  | some sm => sm

/-- `kalman_posterior` (`_odefilter.py` 362-402). -/
def Solution.posterior (sol : Solution d q) : Post ℝ (Res (Rv (d * (q + 1)))) :=
  ⟨sol.times, sol.posteriorStates.map .ok, false⟩

/-- `kalman_posterior.interpolate(t, previous_index, next_index)`. -/
noncomputable def Solution.posteriorInterpolate (E : Numerics d q) (sol : Solution d q) (t : ℝ) (prev next : Option ℤ) :
    Res (Res (Rv (d * (q + 1)))) :=
  match sol.smoothing with
  | none => interpolateFiltering (denseDyn E) (some sol.diffusion.getItem) sol.posterior t prev next
  | some _ => interpolateSmoothing (denseDyn E) (some sol.diffusion.getItem) sol.posterior t prev next

/-- `_project_rv(proj2coord(coord), rv)` (`_odefilter_solution.py` 143-154) of a random variable of the prior. -/
noncomputable def projectState (E : Numerics d q) (coord : ℕ) (rv : Rv (d * (q + 1))) : Res (Normal d) :=
  projectRv E.qr (proj d q coord) (rv.toNormal E.ch E.damping)

/-- `ODEFilterSolution.interpolate` (`_odefilter_solution.py` 88-97). -/
noncomputable def Solution.interpolate (E : Numerics d q) (sol : Solution d q) (t : ℝ) (prev next : Option ℤ) :
    Res (Normal d) :=
  (sol.posteriorInterpolate E t prev next).bind fun s => s.bind (projectState E 0)

/-- `solution.states` and `solution.derivatives`, computed in `__init__` (`_odefilter_solution.py` 69-86) with `coord = 0`
and `coord = 1`. -/
noncomputable def Solution.projected (E : Numerics d q) (sol : Solution d q) (coord : ℕ) : Res (List (Normal d)) :=
  sol.posteriorStates.mapM (projectState E coord)

/-- `solution(t)` at a number (`_odefilter_solution.py` 69-97, `_timeseriesposterior.py` 92-160). -/
noncomputable def Solution.eval (E : Numerics d q) (sol : Solution d q) (t : ℝ) : Res (Normal d) :=
  (sol.projected E 0).bind fun states => callScalar (sol.interpolate E) ⟨sol.times, states, false⟩ t

/-- `solution(ts)` at an array of times. -/
noncomputable def Solution.evalMany (E : Numerics d q) (sol : Solution d q) (ts : List ℝ) : Res (List (Normal d)) :=
  (sol.projected E 0).bind fun states => call (sol.interpolate E) ⟨sol.times, states, false⟩ ts

/-- `filtering_solution` (`_odefilter_solution.py` 129-140). -/
def Solution.filteringSolution (sol : Solution d q) : Solution d q := { sol with smoothing := none }

/-- The diffusions used for a sample at the times `t` (`_kalmanposterior.py` 290-294):
`diffusion_model[np.searchsorted(locations[:-2], t[1:])]`. -/
noncomputable def sampleDiffusions (D : Diff) (locations t : List ℝ) : Res (List ℝ) :=
  t.tail.mapM fun x => D.getItem (searchsortedLeft locations.dropLast.dropLast x)

/-- `np.einsum("dq,...q->...d", proj_to_y, samples)` for one sample (`_odefilter_solution.py` 99-112). -/
def projectSamples (samples : List (Fin (d * (q + 1)) → ℝ)) : List (Fin d → ℝ) := samples.map (proj d q 0 *ᵥ ·)

end Probnum.OdeFilter
