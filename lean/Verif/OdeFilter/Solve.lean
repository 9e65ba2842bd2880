import Verif.Ode.StepRule
import Verif.OdeFilter.Step
import Verif.OdeFilter.Fit

/-!
# Model of `diffeq/_probsolve_ivp.py`, `diffeq/_utils.py`, `stepsize/_propose_firststep.py`

The solver loop is the state machine of `Verif.Ode.Model`; an attempt is `ODEFilter.attempt_step` of
`Verif.OdeFilter.Step`; the initialisation is the one of `Verif.OdeFilter.Fit`.  Exact real arithmetic;
`algo_order` is the type index `q`; tolerances are scalars.  `scipy.integrate.solve_ivp` is an argument.
-/

namespace Probnum.OdeFilter

open Matrix LinGauss IWP Kalman

variable {d q : ℕ}

/-- A floating-point number that is finite, `inf` or `nan`. -/
inductive FirstStep
  | finite (h : ℝ)
  | inf
  | nan

/-- `ivp.y0` after `np.asarray(y0)`: a vector, or a zero-dimensional array (for a number `y0`), in which case only the
outcome of `np.linalg.norm(f(t0, y0))` is recorded. -/
inductive InitialValue (d : ℕ)
  | vector (y0 : Fin d → ℝ)
  | number (y0 : ℝ) (normF : Res ℝ)

/-- `np.linalg.norm` of a vector. -/
noncomputable def norm2 (y : Fin d → ℝ) : ℝ := Real.sqrt (∑ i, y i ^ 2)

open Classical in
/-- `0.01 * norm_y0 / norm_dy0` (`_propose_firststep.py` 14) in numpy arithmetic: division by zero gives `inf` or
`nan`. -/
noncomputable def firstStepRatio (normY normF : ℝ) : FirstStep :=
  if normF = 0 then (if normY = 0 then .nan else .inf) else .finite (0.01 * normY / normF)

/-- `propose_firststep(ivp)` (`_propose_firststep.py` 6-14). -/
noncomputable def proposeFirststep (o : Ode d) (t0 : ℝ) : InitialValue d → Res FirstStep
  | .vector y0 => (o.f (some t0) y0).map fun v => firstStepRatio (norm2 y0) (norm2 v)
  | .number y0 normF => normF.map fun v => firstStepRatio |y0| v

/-- `AdaptiveSteps(firststep, atol, rtol)` with the default limits, or `ConstantSteps(step)`. -/
inductive StepRule
  | adaptive (first : FirstStep) (atol rtol : ℝ)
  | constant (step : ℝ)

/-- `construct_steprule` (`_utils.py` 6-19). -/
noncomputable def constructSteprule (o : Ode d) (t0 : ℝ) (y0 : InitialValue d) (adaptive : Bool) (step atol rtol : Option ℝ) :
    Res StepRule :=
  if adaptive then
    match atol, rtol with
    | some a, some r =>
      match step with
      | some h => .ok (.adaptive (.finite h) a r)
      | none => (proposeFirststep o t0 y0).map fun h => .adaptive h a r
    | _, _ => .error .valueError
  else
    match step with
    | none => .error .valueError
    | some h => .ok (.constant h)

/-- `errorest_to_norm` and `is_accepted` (`_steprule.py` 63-68, 145-152; the norm of `ConstantSteps` is `None` and not
used).  Zero tolerances, where numpy would give `inf` or `nan`, are outside the model. -/
noncomputable def StepRule.rule (d : ℕ) : StepRule → Rule d
  | .adaptive _ a r => ⟨Ode.errorestToNorm a r, Ode.AdaptiveSteps.isAccepted⟩
  | .constant _ => ⟨fun _ _ => 0, fun _ => true⟩

/-- `suggest(dt, internal_norm, localconvrate=order + 1)` (`_steprule.py` 55-61, 120-143; `_odesolver.py` 126-129). -/
noncomputable def StepRule.suggest (order : ℕ) : StepRule → ℝ → ℝ → Res ℝ
  | .adaptive _ _ _, dt, n => Ode.AdaptiveSteps.default.suggest dt n (order + 1)
  | .constant h, _, _ => .ok h

/-- `steprule.firststep`. -/
def StepRule.first : StepRule → FirstStep
  | .adaptive h _ _ => h
  | .constant h => .finite h

/-- The first step size after `_adjust_time_step` (`_odesolver.py` 182-195): an infinite step is cut at the next stop
location, if there is one.  `none` is a step that stays infinite or `nan`. -/
noncomputable def effectiveFirst (t0 : ℝ) (stops : Option (List ℝ)) : FirstStep → Option ℝ
  | .finite h => some h
  | .nan => none
  | .inf =>
    match Ode.processStops stops with
    | .ok (some st) => (Ode.adjustTimeStep st t0 0).2.next.map fun nl => nl - t0
    | _ => none

/-- The solver state of the loop: `ODESolverState` with the (mutable) diffusion model, and the outcome of the attempt
that led to it — the norm of the error estimate or the exception of `attempt_step`. -/
structure LoopState (d q : ℕ) where
  t : ℝ
  rv : Normal (d * (q + 1))
  diffusion : Diff
  norm : Res ℝ

/-- `attempt_step` followed by `errorest_to_norm`, exceptions recorded.  A rejected proposal (all `nan`) is never kept. -/
noncomputable def loopAttempt (S : Solver d q) (s : LoopState d q) (dt : ℝ) : LoopState d q :=
  match attempt S s.diffusion s.t s.rv dt with
  | .error e => ⟨s.t + dt, s.rv, s.diffusion, .error e⟩
  | .ok o => ⟨o.t, o.rv.getD s.rv, o.diffusion, .ok (S.rule.norm o.errors o.reference)⟩

/-- What `perform_full_step` (`_odesolver.py` 110-139) sees of the solver: the exception of an attempt surfaces before the
step rule is asked. -/
noncomputable def loopEnv (S : Solver d q) (rule : StepRule) (first t0 tmax : ℝ) (rv0 : Normal (d * (q + 1))) (D : Diff) :
    Ode.Env (LoopState d q) ℝ (Res ℝ) where
  time s := s.t
  tmax := tmax
  start := ⟨t0, rv0, D, .ok 0⟩
  attempt _ s dt := loopAttempt S s dt
  norm s := s.norm
  accepted n := match n with
    | .ok x => S.rule.accepted x
    | .error _ => false
  suggest dt n := n.bind fun x => rule.suggest q dt x
  firststep := first
  callbacks := []

/-- Everything reported up to a configuration, in the form used by `postprocess`. -/
def loopRun (c : Ode.Config (LoopState d q) ℝ) : Run d q :=
  ⟨c.state.t, c.state.rv, c.state.diffusion, c.yields.map (·.t), c.yields.map (·.rv)⟩

/-- `ODEFilterSolution`: the locations, the states of the filtering posterior, with `dense_output` the states of the
smoothing posterior, and the diffusion model that both posteriors refer to (`_odefilter.py` 362-367, 395-402). -/
structure Solution (d q : ℕ) where
  times : List ℝ
  filtering : List (Normal (d * (q + 1)))
  smoothing : Option (List (Rv (d * (q + 1))))
  diffusion : Diff

/-- `postprocess` (`_odefilter.py` 361-404). -/
noncomputable def postprocess (prior : Prior ℝ (Rv (d * (q + 1))) ℝ) (dense : Bool) (r : Run d q) : Res (Solution d q) :=
  (filteringStates r).bind fun filt =>
    if dense then
      (smoothingInput r).bind fun p =>
      (smoothList prior none (p.1.map fun rv => ⟨rv.mean, rv.cov, some rv.chol⟩) r.times p.2).map fun sm =>
        ⟨r.times, filt, some sm, r.diffusion⟩
    else .ok ⟨r.times, filt, none, r.diffusion⟩

/-- `IntegratedWienerProcess(initarg=t0, num_derivatives=algo_order, wiener_process_dimension=dim, diffuse=True,
forward_implementation="sqrt", backward_implementation="sqrt")` (`_probsolve_ivp.py` 285-292). -/
noncomputable def solverPrior (E : Numerics d q) (t0 : ℝ) : Prior ℝ (Rv (d * (q + 1))) ℝ :=
  sqrtPrior E t0 (diffuseRv (d * (q + 1)))

open Classical in
/-- `ODEFilter.solve(ivp, stop_at)` (`_odesolver.py` 38-90, `_odefilter.py` 130-144, 349-404) with at most `n` attempts;
`none` if the loop has not ended by then.  Order: stop locations, `incorporate_ode` (IndexError for `algo_order=0`), the
initialisation (`NonProbabilisticFit()`: step `1e-2`, noise `1e-7`), the loop, `postprocess`.  If the first step is not
finite, the first attempt raises ValueError (`solve_triangular` on `nan`s). -/
noncomputable def solve (E : Numerics d q) (S : Solver d q) (rule : StepRule) (D : Diff) (t0 tmax : ℝ)
    (stops : Option (List ℝ)) (dense : Bool) (scipy : List ℝ → Res (List ℝ × List (Fin d → ℝ))) (n : ℕ) :
    Option (Res (Solution d q)) :=
  match Ode.processStops stops with
  | .error e => some (.error e)
  | .ok _ =>
    if q = 0 then some (.error .indexError)
    else
      match nonProbabilisticFit E (solverPrior E t0) t0 1e-2 1e-7 scipy with
      | .error e => some (.error e)
      | .ok rv =>
        let rv0 := rv.toNormal E.ch E.damping
        match effectiveFirst t0 stops rule.first with
        | none =>
          if t0 < tmax then some (.error .valueError)
          else some (postprocess (solverPrior E t0) dense (Run.start t0 rv0 D))
        | some h =>
          let c := Ode.run (loopEnv S rule h t0 tmax rv0 D) stops n
          match c.status with
          | .failed e => some (.error e)
          | .done => some (postprocess (solverPrior E t0) dense (loopRun c))
          | _ => none

/-- The arguments of `probsolve_ivp` (`_probsolve_ivp.py` 33-48). -/
structure Args (d : ℕ) where
  ode : Ode d
  t0 : ℝ
  tmax : ℝ
  y0 : InitialValue d
  method : String
  denseOutput : Bool
  adaptive : Bool
  atol : Option ℝ
  rtol : Option ℝ
  step : Option ℝ
  diffusionModel : String
  timeStops : Option (List ℝ)

/-- The default arguments (`_probsolve_ivp.py` 37-47). -/
noncomputable def Args.defaults (ode : Ode d) (t0 tmax : ℝ) (y0 : InitialValue d) : Args d :=
  { ode := ode, t0 := t0, tmax := tmax, y0 := y0, method := "EK0", denseOutput := true, adaptive := true,
    atol := some 1e-2, rtol := some 1e-2, step := none, diffusionModel := "dynamic", timeStops := none }

/-- `diffusion_model.lower()` and the choice of the model (`_probsolve_ivp.py` 275-282). -/
def chooseDiffusion (s : String) (t0 : ℝ) : Res Diff :=
  if s.toList.map Char.toLower = "constant".toList then .ok (.constant .init)
  else if s.toList.map Char.toLower = "dynamic".toList then .ok (.piecewise (.init t0))
  else .error .valueError

/-- `method.upper()` and the look-up in `METHODS` (`_probsolve_ivp.py` 22-25, 294-297). -/
def chooseMethod (s : String) : Res Strategy :=
  if s.toList.map Char.toUpper = "EK0".toList then .ok .ek0
  else if s.toList.map Char.toUpper = "EK1".toList then .ok .ek1
  else .error .valueError

/-- `ivp.dimension` (`problems/_problems.py` 175-179): `np.isscalar` of a zero-dimensional array is `False`, so `len` is
called and raises TypeError. -/
def checkDimension : InitialValue d → Res Unit
  | .vector _ => .ok ()
  | .number _ _ => .error .typeError

/-- The constructed solver (`_probsolve_ivp.py` 299-305). -/
noncomputable def makeSolver (E : Numerics d q) (o : Ode d) (st : Strategy) (rule : StepRule) : Solver d q :=
  ⟨st, o, rule.rule d, E.chol, E.qr, 0⟩

/-- The checks of `probsolve_ivp` before the solver is run (`_probsolve_ivp.py` 269-297), in their order. -/
noncomputable def prepare (a : Args d) : Res (StepRule × Diff × Strategy) :=
  (constructSteprule a.ode a.t0 a.y0 a.adaptive a.step a.atol a.rtol).bind fun rule =>
  (chooseDiffusion a.diffusionModel a.t0).bind fun D =>
  (checkDimension a.y0).bind fun _ =>
  (chooseMethod a.method).map fun st => (rule, D, st)

/-- `probsolve_ivp` (`_probsolve_ivp.py` 33-307) with at most `n` attempted steps. -/
noncomputable def probsolveIvp (E : Numerics d q) (a : Args d) (scipy : List ℝ → Res (List ℝ × List (Fin d → ℝ))) (n : ℕ) :
    Option (Res (Solution d q)) :=
  match prepare a with
  | .error e => some (.error e)
  | .ok (rule, D, st) => solve E (makeSolver E a.ode st rule) rule D a.t0 a.tmax a.timeStops a.denseOutput scipy n

end Probnum.OdeFilter
