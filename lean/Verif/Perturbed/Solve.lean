import Verif.Ode.Hidden
import Verif.OdeFilter.Solve
import Verif.Perturbed.Model

/-!
# Model of `diffeq/_perturbsolve_ivp.py`

The solver loop is the state machine of `Verif.Ode.Hidden`; an attempt is `Perturbed.step`.  Scipy's Runge-Kutta formulas
(new state, stages, dense output, error estimate) are arguments; the vector field does not raise; tolerances are scalars;
`noise_scale` is nonnegative and step sizes given by the user are positive (what `scipy.stats` does otherwise depends on its
version).  Exact real arithmetic; `nan` and `inf` from divisions by zero are modelled.
-/

namespace Probnum.Perturbed

open OdeFilter (FirstStep InitialValue StepRule norm2 firstStepRatio effectiveFirst)

variable {d : ℕ} {K : Type}

/-- `METHODS` (`_perturbsolve_ivp.py` 17-20). -/
inductive Method
  | rk45
  | rk23

/-- `solver_type.order`, the order of the higher-order formula (`scipy.integrate.RK45.order`, `RK23.order`). -/
def Method.order : Method → ℕ
  | .rk45 => 5
  | .rk23 => 3

/-- `METHODS[method]` (`_perturbsolve_ivp.py` 221-225); the name is not converted to upper case. -/
def chooseMethod (s : String) : Res Method :=
  if s = "RK45" then .ok .rk45 else if s = "RK23" then .ok .rk23 else .error .valueError

/-- `PERTURBS` (`_perturbsolve_ivp.py` 27-30). -/
inductive Perturbation
  | lognormal
  | uniform

/-- `PERTURBS[perturb]` (`_perturbsolve_ivp.py` 226-230). -/
def choosePerturbation (s : String) : Res Perturbation :=
  if s = "step-lognormal" then .ok .lognormal
  else if s = "step-uniform" then .ok .uniform
  else .error .valueError

/-- `perturb_step` (`_perturbedstepsolver.py` 49-57). -/
noncomputable def Perturbation.fn (order : ℕ) (noiseScale : ℝ) : Perturbation → ℝ → ℝ → Res ℝ
  | .lognormal => perturbLognormal order noiseScale
  | .uniform => perturbUniform order noiseScale

/-- A Runge-Kutta class of scipy, for any vector field: `rk_step`, the stages, `RkDenseOutput` and `_estimate_error`. -/
structure Formula (d : ℕ) (K : Type) where
  stepY : (ℝ → (Fin d → ℝ) → Fin d → ℝ) → ℝ → (Fin d → ℝ) → (Fin d → ℝ) → ℝ → Fin d → ℝ
  stages : (ℝ → (Fin d → ℝ) → Fin d → ℝ) → ℝ → (Fin d → ℝ) → (Fin d → ℝ) → ℝ → K
  dense : (Fin d → ℝ) → K → ℝ → ℝ → Fin d → ℝ
  errors : K → ℝ → Fin d → ℝ

/-- The formula for the vector field `f`. -/
def Formula.rk (F : Formula d K) (f : ℝ → (Fin d → ℝ) → Fin d → ℝ) : Rk (Fin d → ℝ) K :=
  ⟨f, F.stepY f, F.stages f, F.dense⟩

open Classical in
/-- `errorest_to_norm` (`_steprule.py` 148-152) in numpy arithmetic: a zero tolerance gives `inf`, or `nan` if the error is zero
as well; the norm of an empty vector is divided by zero.  The reference state comes with its sign
(`_wrapped_scipy_solver.py` 104).  For `ConstantSteps` the norm is `None` and not used. -/
noncomputable def ruleNorm (rule : StepRule) (errors ref : Fin d → ℝ) : FirstStep :=
  match rule with
  | .constant _ => .finite 0
  | .adaptive _ a r =>
    if d = 0 ∨ ∃ i, a + r * ref i = 0 ∧ errors i = 0 then .nan
    else if ∃ i, a + r * ref i = 0 then .inf
    else .finite (Ode.errorestToNorm a r errors ref)

/-- `is_accepted` (`_steprule.py` 63-65, 145-146): comparisons with `nan` are false. -/
noncomputable def ruleAccepted : StepRule → FirstStep → Bool
  | .constant _, _ => true
  | .adaptive _ _ _, .finite x => Ode.AdaptiveSteps.isAccepted x
  | .adaptive _ _ _, .inf => false
  | .adaptive _ _ _, .nan => false

open Classical in
/-- `suggest` (`_steprule.py` 55-61, 120-143) with `localconvrate = order + 1`.  For an infinite norm `change` is zero.  For `nan`
the suggested step is `nan`; the next attempt with it raises ValueError (lognormal perturbation; recent versions of
scipy) or gives `nan` again (uniform perturbation, see `hangs`): both are recorded as ValueError. -/
noncomputable def ruleSuggest (order : ℕ) : StepRule → ℝ → FirstStep → Res ℝ
  | .constant h, _, _ => .ok h
  | .adaptive _ _ _, dt, .finite x => Ode.AdaptiveSteps.default.suggest dt x (order + 1)
  | .adaptive _ _ _, dt, .inf =>
    let step := Ode.AdaptiveSteps.default.small * dt
    if step < Ode.AdaptiveSteps.default.minstep then .error .runtimeError
    else if Ode.AdaptiveSteps.default.maxstep < step then .error .runtimeError
    else .ok step
  | .adaptive _ _ _, _, .nan => .error .valueError

/-- The state of the loop: what has been computed on the way to it, and the outcome of the attempt that led to it — the norm
of the error estimate or the exception of `attempt_step`. -/
structure LoopState (d : ℕ) (K : Type) where
  pub : State (Fin d → ℝ) K
  norm : Res FirstStep

/-- The attributes of the solver objects are those left by the last attempt, accepted or not
(`_wrapped_scipy_solver.py` 108-115, `_perturbedstepsolver.py` 120-121). -/
def withAttributes (log : List (Ode.Attempt (LoopState d K) ℝ)) (s : State (Fin d → ℝ) K) : State (Fin d → ℝ) K :=
  match log.getLast? with
  | none => s
  | some a =>
    { s with slope := a.proposed.pub.slope, last := a.proposed.pub.last, scales := a.proposed.pub.scales }

/-- `attempt_step` and `errorest_to_norm`, exceptions recorded; the error estimate uses the perturbed step
(`_perturbedstepsolver.py` 118-131, `_wrapped_scipy_solver.py` 85-106).  The proposal is extended by what an acceptance
appends. -/
noncomputable def loopAttempt (F : Formula d K) (f : ℝ → (Fin d → ℝ) → Fin d → ℝ) (perturb : ℝ → ℝ → Res ℝ)
    (rule : StepRule) (draws : ℕ → ℝ) (c : Ode.Config (LoopState d K) ℝ) (s : LoopState d K) (dt : ℝ) : LoopState d K :=
  match step (F.rk f) perturb (withAttributes c.log s.pub) ⟨dt, draws c.attempts, true⟩ with
  | .error e => ⟨{ s.pub with t := s.pub.t + dt }, .error e⟩
  | .ok s' =>
    match s'.last with
    | none => ⟨s', .error .attributeError⟩
    | some ip => ⟨s', .ok (ruleNorm rule (F.errors ip.k (ip.tNew - ip.tOld)) s.pub.y)⟩

/-- What `perform_full_step` (`_odesolver.py` 110-139) sees of the solver. -/
noncomputable def loopEnv (order : ℕ) (rule : StepRule) (first tmax : ℝ) (start : State (Fin d → ℝ) K) :
    Ode.Env (LoopState d K) ℝ (Res FirstStep) where
  time s := s.pub.t
  tmax := tmax
  start := ⟨start, .ok (.finite 0)⟩
  attempt _ s _ := s
  norm s := s.norm
  accepted n := match n with
    | .ok x => ruleAccepted rule x
    | .error _ => false
  suggest dt n := n.bind fun x => ruleSuggest order rule dt x
  firststep := first
  callbacks := []

/-- The configuration after at most `n` attempts. -/
noncomputable def loop (F : Formula d K) (f : ℝ → (Fin d → ℝ) → Fin d → ℝ) (m : Method) (perturb : ℝ → ℝ → Res ℝ)
    (rule : StepRule) (first t0 tmax : ℝ) (y0 : Fin d → ℝ) (draws : ℕ → ℝ) (stops : Option (List ℝ)) (n : ℕ) :
    Ode.Config (LoopState d K) ℝ :=
  Ode.runAttr (loopEnv m.order rule first tmax (init (F.rk f) t0 y0)) (loopAttempt F f perturb rule draws) stops n

/-- The solution object: times and states as yielded, interpolants and scales as left in the solver objects
(`_odesolver.py` 56-62, `_perturbedstepsolver.py` 137-142). -/
def solutionOf (c : Ode.Config (LoopState d K) ℝ) : State (Fin d → ℝ) K :=
  { withAttributes c.log c.state.pub with
    locs := c.yields.map (·.pub.t)
    states := c.yields.map (·.pub.y) }

open Classical in
/-- With the uniform perturbation a step `nan` passes the check `step >= 1.0` and every later attempt gives `nan` again: the inner
loop does not end. -/
def hangs (p : Perturbation) (c : Ode.Config (LoopState d K) ℝ) : Prop :=
  p = .uniform ∧ ∃ a, c.log.getLast? = some a ∧ a.proposed.norm = .ok .nan

open Classical in
/-- `PerturbedStepSolver.solve(ivp, stop_at)` (`_odesolver.py` 38-90) with at most `n` attempts; `none` if the loop has not
ended by then.  Order: stop locations, `initialize` (scipy wants a one-dimensional `y0`), the loop.  `rule = none` stands for
`ConstantSteps(None)`: TypeError at the first use of the step.  A first step `inf` makes both perturbations raise ValueError; a
first step `nan` the lognormal one. -/
noncomputable def solve (F : Formula d K) (f : ℝ → (Fin d → ℝ) → Fin d → ℝ) (m : Method) (p : Perturbation) (noiseScale : ℝ)
    (rule? : Option StepRule) (t0 tmax : ℝ) (y0? : InitialValue d) (stops : Option (List ℝ)) (draws : ℕ → ℝ) (n : ℕ) :
    Option (Res (State (Fin d → ℝ) K)) :=
  match Ode.processStops stops with
  | .error e => some (.error e)
  | .ok _ =>
    match y0? with
    | .number _ _ => some (.error .valueError)
    | .vector y0 =>
      match rule? with
      | none =>
        if t0 < tmax then some (.error .typeError) else some (.ok (init (F.rk f) t0 y0))
      | some rule =>
        match effectiveFirst t0 stops rule.first with
        | none =>
          if t0 < tmax then
            match p, rule.first with
            | .uniform, .nan => none
            | _, _ => some (.error .valueError)
          else some (.ok (init (F.rk f) t0 y0))
        | some h =>
          let c := loop F f m (p.fn m.order noiseScale) rule h t0 tmax y0 draws stops n
          match c.status with
          | .failed e => if hangs p c then none else some (.error e)
          | .done => some (.ok (solutionOf c))
          | _ => none

/-- The arguments of `perturbsolve_ivp` (`_perturbsolve_ivp.py` 38-52). -/
structure Args (d : ℕ) where
  f : ℝ → (Fin d → ℝ) → Fin d → ℝ
  t0 : ℝ
  tmax : ℝ
  y0 : InitialValue d
  method : String
  perturb : String
  noiseScale : ℝ
  adaptive : Bool
  atol : Option ℝ
  rtol : Option ℝ
  step : Option ℝ
  timeStops : Option (List ℝ)

/-- The default arguments (`_perturbsolve_ivp.py` 43-51). -/
noncomputable def Args.defaults (f : ℝ → (Fin d → ℝ) → Fin d → ℝ) (t0 tmax : ℝ) (y0 : InitialValue d) : Args d :=
  { f := f, t0 := t0, tmax := tmax, y0 := y0, method := "RK45", perturb := "step-lognormal", noiseScale := 10,
    adaptive := true, atol := some 1e-6, rtol := some 1e-3, step := none, timeStops := none }

/-- `propose_firststep(ivp)` (`_propose_firststep.py` 6-14). -/
noncomputable def proposeFirststep (f : ℝ → (Fin d → ℝ) → Fin d → ℝ) (t0 : ℝ) : InitialValue d → Res FirstStep
  | .vector y0 => .ok (firstStepRatio (norm2 y0) (norm2 (f t0 y0)))
  | .number y0 normF => normF.map fun v => firstStepRatio |y0| v

/-- `_create_steprule` (`_perturbsolve_ivp.py` 243-254).  Other than `construct_steprule` of `probsolve_ivp` it does not check that
a step is given: `none` is `ConstantSteps(None)`. -/
noncomputable def createSteprule (a : Args d) : Res (Option StepRule) :=
  if a.adaptive then
    match a.atol, a.rtol with
    | some x, some y =>
      match a.step with
      | some h => .ok (some (.adaptive (.finite h) x y))
      | none => (proposeFirststep a.f a.t0 a.y0).map fun h => some (.adaptive h x y)
    | _, _ => .error .valueError
  else .ok (a.step.map .constant)

/-- The checks of `perturbsolve_ivp` before the solver is run (`_perturbsolve_ivp.py` 218-230), in their order. -/
noncomputable def prepare (a : Args d) : Res (Option StepRule × Method × Perturbation) :=
  (createSteprule a).bind fun rule =>
  (chooseMethod a.method).bind fun m =>
  (choosePerturbation a.perturb).map fun p => (rule, m, p)

/-- `perturbsolve_ivp` (`_perturbsolve_ivp.py` 38-240) with at most `n` attempted steps; `draws k` is the random number used
in the `k`-th attempt. -/
noncomputable def perturbsolveIvp (scipy : Method → Formula d K) (a : Args d) (draws : ℕ → ℝ) (n : ℕ) :
    Option (Res (State (Fin d → ℝ) K)) :=
  match prepare a with
  | .error e => some (.error e)
  | .ok (rule?, m, p) => solve (scipy m) a.f m p a.noiseScale rule? a.t0 a.tmax a.y0 a.timeStops draws n

end Probnum.Perturbed
