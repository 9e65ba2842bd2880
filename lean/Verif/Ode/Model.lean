import Mathlib.Algebra.Order.Group.Defs
import Mathlib.Order.Lattice
import Mathlib.Logic.Function.Iterate
import Verif.Py

/-!
# Model of `probnum/diffeq/_odesolver.py`

The solver loop (`solution_generator` with `perform_full_step` inlined) is a state machine whose step is *one*
attempted step.  Everything the concrete solver contributes is abstract:

* `attempt k s dt` is `attempt_step` at the `k`-th attempt overall (the index stands for hidden mutable state of the
  solver and for randomness, so every error history is covered);
* `norm` is `errorest_to_norm` of the proposed state;
* the step rule is the pair `accepted`, `suggest`;
* callbacks are arbitrary functions on states.

`state.ivp.tmax` is a constant here (callbacks do not replace the problem).
-/

namespace Probnum.Ode

/-- What the loop needs to know about solver, step rule, problem and callbacks. -/
structure Env (σ T N : Type) where
  /-- `state.t` -/
  time : σ → T
  /-- `state.ivp.tmax` -/
  tmax : T
  /-- `self.initialize(ivp)` -/
  start : σ
  /-- `self.attempt_step` -/
  attempt : ℕ → σ → T → σ
  /-- `self.steprule.errorest_to_norm` applied to the proposed state -/
  norm : σ → N
  /-- `self.steprule.is_accepted` -/
  accepted : N → Bool
  /-- `self.steprule.suggest` -/
  suggest : T → N → Res T
  /-- `self.steprule.firststep` -/
  firststep : T
  /-- `callbacks`, already promoted to a list (`None` is the empty list) -/
  callbacks : List (σ → σ)

/-- `_TimeStopperState` (`_odesolver.py` 176-179); `next = none` is `np.inf`. -/
structure Stopper (T : Type) where
  next : Option T
  rest : List T

/-- `_adjust_time_step` (`_odesolver.py` 182-195). -/
def adjustTimeStep {T : Type} [Add T] [Sub T] [LinearOrder T] (st : Stopper T) (t dt : T) : T × Stopper T :=
  let st' : Stopper T :=
    match st.next with
    | none => st
    | some nl =>
      if nl ≤ t then
        match st.rest with
        | [] => ⟨none, []⟩
        | x :: xs => ⟨some x, xs⟩
      else st
  match st'.next with
  | none => (dt, st')
  | some nl => (if nl < t + dt then nl - t else dt, st')

/-- Record of one attempt (for stating properties; the code does not keep it). -/
structure Attempt (σ T : Type) where
  start : σ
  dt : T
  proposed : σ
  accepted : Bool

/-- Where the generator is: it has stopped (`done`), it has raised (`failed`), or it is running; `fresh` says that
the next thing to happen is the `while state.t < tmax` test, otherwise the inner loop continues after a
rejection. -/
inductive Status where
  | fresh
  | retry
  | done
  | failed (e : PyErr)
  deriving DecidableEq

/-- Local variables of the generator plus the observable history. -/
structure Config (σ T : Type) where
  status : Status
  state : σ
  dt : T
  stopper : Option (Stopper T)
  /-- number of attempts made so far -/
  attempts : ℕ
  /-- `self.num_steps` -/
  numSteps : ℕ
  /-- everything yielded so far, in order -/
  yields : List σ
  /-- states handed to `method_callback`, in order -/
  methodCalls : List σ
  log : List (Attempt σ T)

variable {σ T N : Type} [AddCommGroup T] [LinearOrder T]

/-- `for callback in callbacks: state = callback(state)` (`_odesolver.py` 83-85). -/
def applyCallbacks (cbs : List (σ → σ)) (s : σ) : σ := cbs.foldl (fun s cb => cb s) s

/-- `_process_event_inputs` (`_odesolver.py` 92-108) for the time stops: `next(loc_iter)` on an empty
iterable raises StopIteration, which a generator turns into RuntimeError. -/
def processStops : Option (List T) → Res (Option (Stopper T))
  | none => .ok none
  | some [] => .error .runtimeError
  | some (x :: xs) => .ok (some ⟨some x, xs⟩)

/-- The part of `solution_generator` before the loop (`_odesolver.py` 69-74). `numSteps₀` is the value of
`self.num_steps` left by earlier solves: it is not reset. -/
def init (env : Env σ T N) (stopAt : Option (List T)) (numSteps₀ : ℕ := 0) : Config σ T :=
  match processStops stopAt with
  | .error e => ⟨.failed e, env.start, env.firststep, none, 0, numSteps₀, [], [], []⟩
  | .ok st => ⟨.fresh, env.start, env.firststep, st, 0, numSteps₀, [env.start], [], []⟩

/-- One attempt: body of the inner loop (`_odesolver.py` 119-136) and, on acceptance, the rest of the outer
loop body (`_odesolver.py` 83-90, 138-139). -/
def tryStep (env : Env σ T N) (c : Config σ T) : Config σ T :=
  let proposed := env.attempt c.attempts c.state c.dt
  let nrm := env.norm proposed
  let acc := env.accepted nrm
  let entry : Attempt σ T := ⟨c.state, c.dt, proposed, acc⟩
  let c := { c with attempts := c.attempts + 1, log := c.log ++ [entry] }
  match env.suggest c.dt nrm with
  | .error e => { c with status := .failed e }
  | .ok suggested =>
    if acc then
      let s := applyCallbacks env.callbacks proposed
      { c with
        status := .fresh
        state := s
        dt := min suggested (env.tmax - env.time proposed)
        numSteps := c.numSteps + 1
        yields := c.yields ++ [s]
        methodCalls := c.methodCalls ++ [c.state] }
    else
      { c with status := .retry, dt := min suggested (env.tmax - env.time c.state) }

/-- One machine step: the outer loop test and stop adjustment (`_odesolver.py` 79-81) when fresh, then one
attempt. -/
def step (env : Env σ T N) (c : Config σ T) : Config σ T :=
  match c.status with
  | .done => c
  | .failed _ => c
  | .retry => tryStep env c
  | .fresh =>
    if env.time c.state < env.tmax then
      match c.stopper with
      | none => tryStep env c
      | some st =>
        let (dt, st') := adjustTimeStep st (env.time c.state) c.dt
        tryStep env { c with dt := dt, stopper := some st' }
    else { c with status := .done }

/-- The configuration after `n` machine steps. -/
def run (env : Env σ T N) (stopAt : Option (List T)) (n : ℕ) (numSteps₀ : ℕ := 0) : Config σ T :=
  (step env)^[n] (init env stopAt numSteps₀)

end Probnum.Ode
