import Mathlib.Data.Real.Basic
import Mathlib.Algebra.Order.Group.Defs
import Verif.Py

/-!
# Model of the loop of the probabilistic linear solvers

`probnum/linalg/solvers/_probabilistic_linear_solver.py`, `probnum/linalg/solvers/_state.py` and
`probnum/linalg/solvers/stopping_criteria/`.

Beliefs `β`, actions `S`, observations `O` and residuals `R` are arbitrary types; `resid` maps a belief to `b - A x.mean`.
`C` is the content of the dictionary `cache`.
-/

namespace Probnum.Linalg.Loop

/-- `LinearSolverState` (`_state.py` 35-55); the problem and the prior are constants. -/
structure State (β S O R C : Type) where
  belief : β
  actions : List (Option S)
  observations : List (Option O)
  residuals : List (Option R)
  cache : C
  step : ℕ

variable {β S O R C : Type}

/-- `LinearSolverState.__init__` (`_state.py` 35-55). -/
def State.new (resid : β → R) (prior : β) (cache : C) : State β S O R C :=
  ⟨prior, [none], [none], [some (resid prior)], cache, 0⟩

/-- The caching done by the property `residual` (`_state.py` 123-130). -/
def State.touch (resid : β → R) (st : State β S O R C) : State β S O R C :=
  match st.residuals[st.step]? with
  | some none => { st with residuals := st.residuals.set st.step (some (resid st.belief)) }
  | _ => st

/-- The property `residual` (`_state.py` 123-130): value and state afterwards. -/
def State.residual (resid : β → R) (st : State β S O R C) : Res (R × State β S O R C) :=
  match (st.touch resid).residuals[st.step]? with
  | some (some r) => .ok (r, st.touch resid)
  | some none => .error .attributeError
  | none => .error .indexError

/-- Setter of `action` (`_state.py` 94-97). -/
def State.setAction (st : State β S O R C) (a : S) : Res (State β S O R C) :=
  match st.actions[st.step]? with
  | none => .error .indexError
  | some (some _) => .error .assertionError
  | some none => .ok { st with actions := st.actions.set st.step (some a) }

/-- Setter of `observation` (`_state.py` 108-111). -/
def State.setObservation (st : State β S O R C) (o : O) : Res (State β S O R C) :=
  match st.observations[st.step]? with
  | none => .error .indexError
  | some (some _) => .error .assertionError
  | some none => .ok { st with observations := st.observations.set st.step (some o) }

/-- `next_step` (`_state.py` 137-146). -/
def State.next (st : State β S O R C) : State β S O R C :=
  { st with
    actions := st.actions ++ [none]
    observations := st.observations ++ [none]
    residuals := st.residuals ++ [none]
    step := st.step + 1 }

/-- A component of the solver (policy, information operator, belief update or stopping criterion): it sees the solver state,
returns a value or raises, and may change the state object. -/
abbrev Comp (β S O R C α : Type) := State β S O R C → Res (α × State β S O R C)

/-- What the components in the code do to the state object: nothing but read it (which may cache the current residual)
and write to `cache`. -/
def Comp.Benign (resid : β → R) {α : Type} (f : Comp β S O R C α) : Prop :=
  ∀ st a st', f st = .ok (a, st') → ∃ c, st' = { st with cache := c } ∨ st' = { st.touch resid with cache := c }

/-- The four components of a `ProbabilisticLinearSolver` (`_probabilistic_linear_solver.py` 121-131). -/
structure Solver (β S O R C : Type) where
  policy : Comp β S O R C S
  info : Comp β S O R C O
  update : Comp β S O R C β
  stop : Comp β S O R C Bool

/-- One pass through the loop body of `solve_iterator` after the `yield` (`_probabilistic_linear_solver.py` 165-181); the
flag says that the loop was left. -/
def Solver.iteration (s : Solver β S O R C) (st : State β S O R C) : Res (State β S O R C × Bool) :=
  match s.stop st with
  | .error e => .error e
  | .ok (true, st) => .ok (st, true)
  | .ok (false, st) =>
    match s.policy st with
    | .error e => .error e
    | .ok (a, st) =>
      match st.setAction a with
      | .error e => .error e
      | .ok st =>
        match s.info st with
        | .error e => .error e
        | .ok (o, st) =>
          match st.setObservation o with
          | .error e => .error e
          | .ok st =>
            match s.update st with
            | .error e => .error e
            | .ok (b, st) => .ok (({ st with belief := b } : State β S O R C).next, false)

/-- The loop, cut off after `k` passes (`_probabilistic_linear_solver.py` 161-181). -/
def Solver.runFor (s : Solver β S O R C) (st : State β S O R C) : ℕ → Res (State β S O R C × Bool)
  | 0 => .ok (st, false)
  | k + 1 =>
    match s.runFor st k with
    | .error e => .error e
    | .ok (st', true) => .ok (st', true)
    | .ok (st', false) => s.iteration st'

/-- `solve` (`_probabilistic_linear_solver.py` 184-215) returns `belief` and `state` (it may also never return). -/
def Solver.Solves (s : Solver β S O R C) (resid : β → R) (prior : β) (cache : C) (belief : β) (state : State β S O R C) :
    Prop :=
  ∃ k, s.runFor (State.new resid prior cache) k = .ok (state, true) ∧ belief = state.belief

/-- `MaxIterationsStoppingCriterion.__call__` (`_maxiter.py` 25-38); `rows` is `problem.A.shape[0]`. -/
def maxIterations (rows : ℕ) (maxiter : Option ℤ) : Comp β S O R C Bool := fun st =>
  match maxiter with
  | none => .ok (decide (rows * 10 ≤ st.step), st)
  | some m => .ok (decide (m ≤ (st.step : ℤ)), st)

/-- `ResidualNormStoppingCriterion.__call__` (`_residual_norm.py` 34-46); `norm` is the euclidean norm. -/
noncomputable def residualNorm (resid : β → R) (norm : R → ℝ) (bNorm atol rtol : ℝ) : Comp β S O R C Bool := fun st =>
  match st.residual resid with
  | .error e => .error e
  | .ok (r, st) => by
    classical exact .ok (decide (norm r ≤ atol) || decide (norm r ≤ rtol * bNorm), st)

/-- `PosteriorContractionStoppingCriterion.__call__` (`_posterior_contraction.py` 39-56); `trace` is the trace of the covariance
of the chosen quantity of interest. -/
noncomputable def posteriorContraction (trace : β → Res ℝ) (bNorm atol rtol : ℝ) : Comp β S O R C Bool := fun st =>
  match trace st.belief with
  | .error e => .error e
  | .ok t => by
    classical exact .ok (decide (|t| ≤ atol ^ 2) || decide (|t| ≤ (rtol * bNorm) ^ 2), st)

/-- `a | b` for stopping criteria (`_pnmethod/_stopping_criterion.py` 86-90): python's short-circuit `or`. -/
def orStop (a b : Comp β S O R C Bool) : Comp β S O R C Bool := fun st =>
  match a st with
  | .error e => .error e
  | .ok (true, st) => .ok (true, st)
  | .ok (false, st) => b st

end Probnum.Linalg.Loop
