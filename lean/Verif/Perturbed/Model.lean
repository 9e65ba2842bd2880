import Mathlib.Analysis.SpecialFunctions.Pow.Real
import Mathlib.Analysis.SpecialFunctions.Log.Basic
import Verif.Posterior.Model

/-!
# Model of `probnum/diffeq/perturbed`

`step/_perturbation_functions.py`, `step/_perturbedstepsolver.py`, `step/_perturbedstepsolution.py` and
`scipy_wrapper/_wrapped_scipy_solver.py`.

Random draws are arguments (`u` uniform in `[0, 1]`, `z` standard normal), so a statement for all of them is a statement
for every random number generator.  Scipy's Runge-Kutta formula is an arbitrary function of time, state, slope and step.
Times and steps are real numbers.
-/

namespace Probnum.Perturbed

open Posterior

/-- `perturb_uniform` (`step/_perturbation_functions.py` 40-48) with the draw `u` of `scipy.stats.uniform.rvs`. -/
noncomputable def perturbUniform (order : ℕ) (noiseScale step u : ℝ) : Res ℝ :=
  if 1 ≤ step then .error .valueError
  else
    let shift := noiseScale * step ^ ((order : ℝ) + 0.5)
    let left := step - shift
    let right := step + shift
    .ok (left + (right - left) * u)

/-- `perturb_lognormal` (`step/_perturbation_functions.py` 82-90); the normal draw with mean `mean` and variance `cov`
is `mean + sqrt cov * z`. -/
noncomputable def perturbLognormal (order : ℕ) (noiseScale step z : ℝ) : Res ℝ :=
  let shift := 0.5 * Real.log (1 + noiseScale * step ^ (2 * order))
  let mean := Real.log step - shift
  let cov := 2 * shift
  .ok (Real.exp (mean + √cov * z))

/-- What scipy's Runge-Kutta classes contribute: the right-hand side, the new state computed by `rk_step` from time,
state, first stage and step, the stage matrix `K`, and the dense-output formula as a function of the state at the start,
`K`, the step and the relative position in it (`RkDenseOutput._call_impl`: `x = (t - t_old) / h`). -/
structure Rk (Y K : Type) where
  rhs : ℝ → Y → Y
  stepY : ℝ → Y → Y → ℝ → Y
  stages : ℝ → Y → Y → ℝ → K
  dense : Y → K → ℝ → ℝ → Y

/-- `rk.RkDenseOutput(t_old, t, y_old, Q)`, with `Q` given by the stages. -/
structure Interp (Y K : Type) where
  tOld : ℝ
  tNew : ℝ
  yOld : Y
  k : K

/-- Calling a `RkDenseOutput`. -/
noncomputable def Interp.eval {Y K : Type} (rk : Rk Y K) (i : Interp Y K) (s : ℝ) : Y :=
  rk.dense i.yOld i.k (i.tNew - i.tOld) ((s - i.tOld) / (i.tNew - i.tOld))

/-- Loop state (`t`, `y`), mutable attributes of the wrapped solver (`slope` is `self.solver.f`; `last` holds
`t_old`, `t`, `y_old`, `K`) and of the perturbed solver (`scales`), the list `interpolants`, and the reported times and
states. -/
structure State (Y K : Type) where
  t : ℝ
  y : Y
  slope : Y
  last : Option (Interp Y K)
  scales : List ℝ
  interps : List (Interp Y K)
  locs : List ℝ
  states : List Y

/-- One attempt of the loop as seen by the solver: the step size asked for, the random draw, and whether the step rule
accepts. -/
structure Event where
  dt : ℝ
  draw : ℝ
  accepted : Bool

variable {Y K : Type}

/-- `PerturbedStepSolver.initialize` and `WrappedScipyRungeKutta.initialize`
(`_perturbedstepsolver.py` 95-98, `_wrapped_scipy_solver.py` 49-64). -/
def init (rk : Rk Y K) (t0 : ℝ) (y0 : Y) : State Y K :=
  ⟨t0, y0, rk.rhs t0 y0, none, [], [], [t0], [y0]⟩

/-- `PerturbedStepSolver.attempt_step` with `WrappedScipyRungeKutta.attempt_step`
(`_perturbedstepsolver.py` 118-131, `_wrapped_scipy_solver.py` 85-118): attributes of the solver and `scales` change whether
or not the step will be accepted.  Returns the proposed state as well. -/
noncomputable def attempt (rk : Rk Y K) (perturb : ℝ → ℝ → Res ℝ) (s : State Y K) (dt draw : ℝ) :
    Res (State Y K × ℝ × Y) :=
  match perturb dt draw with
  | .error e => .error e
  | .ok noisy =>
    let yNew := rk.stepY s.t s.y s.slope noisy
    let k := rk.stages s.t s.y s.slope noisy
    .ok ({ s with
      slope := rk.rhs (s.t + noisy) yNew
      last := some ⟨s.t, s.t + noisy, s.y, k⟩
      scales := s.scales ++ [noisy / dt] }, s.t + dt, yNew)

/-- `method_callback` and `dense_output` (`_perturbedstepsolver.py` 133-135, `_wrapped_scipy_solver.py` 129-144). -/
def methodCallback (s : State Y K) : Res (State Y K) :=
  match s.last with
  | none => .error .attributeError
  | some i => .ok { s with interps := s.interps ++ [i] }

/-- One attempt in the loop of `_odesolver.py` 79-90, 110-139 (without user callbacks): on acceptance the method callback
runs and the new state is reported, on rejection the loop state stays. -/
noncomputable def step (rk : Rk Y K) (perturb : ℝ → ℝ → Res ℝ) (s : State Y K) (e : Event) : Res (State Y K) :=
  match attempt rk perturb s e.dt e.draw with
  | .error err => .error err
  | .ok (s', t, y) =>
    if e.accepted then
      match methodCallback s' with
      | .error err => .error err
      | .ok s'' => .ok { s'' with t := t, y := y, locs := s''.locs ++ [t], states := s''.states ++ [y] }
    else .ok s'

/-- A whole solve, as a sequence of attempts. -/
noncomputable def runFrom (rk : Rk Y K) (perturb : ℝ → ℝ → Res ℝ) : State Y K → List Event → Res (State Y K)
  | s, [] => .ok s
  | s, e :: es =>
    match step rk perturb s e with
    | .error err => .error err
    | .ok s' => runFrom rk perturb s' es

/-- A whole solve from the initial value. -/
noncomputable def run (rk : Rk Y K) (perturb : ℝ → ℝ → Res ℝ) (t0 : ℝ) (y0 : Y) (es : List Event) : Res (State Y K) :=
  runFrom rk perturb (init rk t0 y0) es

open Classical in
/-- `PerturbedStepSolution.interpolate` (`_perturbedstepsolution.py` 27-46); a `None` index raises TypeError.
Values are the states themselves (the code wraps them into `Constant`). -/
noncomputable def interpolate (rk : Rk Y K) (s : State Y K) (t : ℝ) (prev _next : Option ℤ) : Res Y := do
  let first ← pyIndex s.locs 0
  if t = first then pyIndex s.states 0
  else
    let final ← pyIndex s.locs (-1)
    if t = final then pyIndex s.states (-1)
    else
      match prev with
      | none => .error .typeError
      | some i =>
        let ip ← pyIndex s.interps i
        let loc ← pyIndex s.locs i
        let scale ← pyIndex s.scales i
        return ip.eval rk (loc + (t - loc) * scale)

open Classical in
/-- Calling the solution (`ODESolution` inherits `TimeSeriesPosterior.__call__`) at a scalar time. -/
noncomputable def solutionAt (rk : Rk Y K) (s : State Y K) (t : ℝ) : Res Y :=
  callScalar (interpolate rk s) (⟨s.locs, s.states, false⟩ : Post ℝ Y) t

end Probnum.Perturbed
