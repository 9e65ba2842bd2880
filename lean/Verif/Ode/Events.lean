import Verif.Ode.Model

/-!
# Events: callbacks of ODE solvers

Models `src/probnum/diffeq/callbacks/` and the parts of `src/probnum/diffeq/_odesolver.py` that concern callbacks. Different from
`Verif/Ode/Model.lean` the final time belongs to the state (`state.ivp.tmax`), so that callbacks can replace the problem, and the
argument `callbacks` can be anything that can be passed. There are no stop locations here.
-/

namespace Probnum.Events

open Probnum Probnum.Ode

/-- `DiscreteCallback`: `src/probnum/diffeq/callbacks/_callback.py:14-23`, `_discrete_callback.py:18-25`. -/
structure DiscreteCallback (σ : Type) where
  condition : σ → Bool
  replace : σ → σ

/-- `DiscreteCallback.__call__`: `src/probnum/diffeq/callbacks/_discrete_callback.py:27-32`. -/
def DiscreteCallback.call {σ : Type} (c : DiscreteCallback σ) (s : σ) : σ :=
  if c.condition s then c.replace s else s

/-- The argument `callbacks` of `solve` (`_odesolver.py:41-46`): `None`, one callback, an iterable that can be iterated over again
(list, tuple), or an iterator, which can be iterated over once. -/
inductive CallbackArg (σ : Type)
  | none
  | single (c : DiscreteCallback σ)
  | iterable (l : List (DiscreteCallback σ))
  | iterator (l : List (DiscreteCallback σ))

/-- `promote_callback_type` in `_process_event_inputs`: `_odesolver.py:96-100`. -/
def promote {σ : Type} : CallbackArg σ → CallbackArg σ
  | .single c => .iterable [c]
  | a => a

/-- `for callback in callbacks: state = callback(state)`: `_odesolver.py:83-85`. Returns what is left of `callbacks` as well. A
single callback does not occur after `promote`. -/
def applyAll {σ : Type} : CallbackArg σ → σ → σ × CallbackArg σ
  | .none, s => (s, .none)
  | .single c, s => (s, .single c)
  | .iterable l, s => (l.foldl (fun s c => c.call s) s, .iterable l)
  | .iterator l, s => (l.foldl (fun s c => c.call s) s, .iterator [])

/-- Solver, step rule and problem; as in `Verif.Ode.Env`, but the final time is that of the state. -/
structure Env (σ T N : Type) where
  time : σ → T
  /-- `state.ivp.tmax` -/
  tmax : σ → T
  start : σ
  attempt : ℕ → σ → T → σ
  norm : σ → N
  accepted : N → Bool
  suggest : T → N → Res T
  firststep : T

/-- Local variables of `solution_generator` and `perform_full_step`, what has been yielded, and a record of the accepted attempts
(state before, step, proposed state), which the code does not keep. -/
structure Config (σ T : Type) where
  status : Status
  state : σ
  dt : T
  callbacks : CallbackArg σ
  attempts : ℕ
  yields : List σ
  accepted : List (σ × T × σ)

variable {σ T N : Type} [AddCommGroup T] [LinearOrder T]

/-- `solution_generator` before its loop: `_odesolver.py:71-76`. -/
def init (env : Env σ T N) (callbacks : CallbackArg σ) : Config σ T :=
  ⟨.fresh, env.start, env.firststep, promote callbacks, 0, [env.start], []⟩

/-- One attempt (`_odesolver.py:119-136`) and, when it is accepted, the rest of the loop body (`_odesolver.py:83-88`). The step is
limited by the final time of the problem before the callbacks are called. -/
def tryStep (env : Env σ T N) (c : Config σ T) : Config σ T :=
  let proposed := env.attempt c.attempts c.state c.dt
  match env.suggest c.dt (env.norm proposed) with
  | .error e => { c with attempts := c.attempts + 1, status := .failed e }
  | .ok suggested =>
    if env.accepted (env.norm proposed) then
      { status := .fresh
        state := (applyAll c.callbacks proposed).1
        dt := min suggested (env.tmax c.state - env.time proposed)
        callbacks := (applyAll c.callbacks proposed).2
        attempts := c.attempts + 1
        yields := c.yields ++ [(applyAll c.callbacks proposed).1]
        accepted := c.accepted ++ [(c.state, c.dt, proposed)] }
    else
      { c with attempts := c.attempts + 1, status := .retry, dt := min suggested (env.tmax c.state - env.time c.state) }

/-- The loop test, `_odesolver.py:77`, and one attempt. -/
def step (env : Env σ T N) (c : Config σ T) : Config σ T :=
  match c.status with
  | .done => c
  | .failed _ => c
  | .retry => tryStep env c
  | .fresh => if env.time c.state < env.tmax c.state then tryStep env c else { c with status := .done }

/-- The configuration after `n` attempts. -/
def run (env : Env σ T N) (callbacks : CallbackArg σ) (n : ℕ) : Config σ T :=
  (step env)^[n] (init env callbacks)

end Probnum.Events
