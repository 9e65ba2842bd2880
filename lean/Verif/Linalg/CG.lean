import Mathlib.Analysis.Real.Sqrt
import Verif.Linalg.Loop
import Verif.Linalg.Updates

/-!
# Model of the Bayesian conjugate gradient method

`probnum/linalg/solvers/policies/_conjugate_gradient.py` and `BayesCG` in
`probnum/linalg/solvers/_probabilistic_linear_solver.py`.

The solver state is the one of `Verif.Linalg.Loop`; its cache is the list `cache["reorthogonalized_residuals"]`.
-/

namespace Probnum.Linalg.CG

open Matrix Loop

variable {n : Type} [Fintype n]

/-- A reorthogonalisation function: vector, basis, inner product (`None`: the euclidean one); it may raise. -/
abbrev Reorth (n : Type) := (n → ℝ) → List (n → ℝ) → Option (Matrix n n ℝ) → Res (n → ℝ)

/-- State of a solution-based solver. -/
abbrev St (n : Type) := State (SolBelief n) (n → ℝ) ℝ (n → ℝ) (List (n → ℝ))

/-- A component of a solution-based solver. -/
abbrev Cmp (n α : Type) := Comp (SolBelief n) (n → ℝ) ℝ (n → ℝ) (List (n → ℝ)) α

/-- `b - A @ belief.x.mean` (`_state.py` 123-130). -/
def resid (A : Matrix n n ℝ) (rhs : n → ℝ) (b : SolBelief n) : n → ℝ := residual A rhs b.mean

/-- `np.linalg.norm`. -/
noncomputable def norm2 (v : n → ℝ) : ℝ := Real.sqrt (v ⬝ᵥ v)

/-- The residual and the previous one that enter the formula, and the new cache (`_conjugate_gradient.py` 66-71, 85-101).  A
missing previous residual makes `np.linalg.norm(None)` raise a `TypeError`. -/
def residualPair (reR : Option (Reorth n)) (res : n → ℝ) (st : St n) : Res ((n → ℝ) × (n → ℝ) × List (n → ℝ)) :=
  match reR with
  | some f =>
    match f res st.cache none with
    | .error e => .error e
    | .ok res' =>
      match (st.cache ++ [res'])[st.step - 1]? with
      | none => .error .indexError
      | some prev => .ok (res', prev, st.cache ++ [res'])
  | none =>
    match st.residuals[st.step - 1]? with
    | none => .error .indexError
    | some none => .error .typeError
    | some (some prev) => .ok (res, prev, st.cache)

/-- The reorthogonalisation of the action (`_conjugate_gradient.py` 78-81, 103-124) for a normal prior with covariance `S0`.
`None` entries among the earlier actions do not occur and are dropped here. -/
def reorthAction (A S0 : Matrix n n ℝ) (reA : Option (Reorth n)) (action : n → ℝ) (st : St n) : Res (n → ℝ) :=
  match reA with
  | none => .ok action
  | some f => f action ((st.actions.take st.step).filterMap id) (some (A * S0 * Aᵀ))

open Classical in
/-- The conjugacy correction (`_conjugate_gradient.py` 73-75).  For a vanishing previous residual the code divides by
zero, which gives a vector of `nan`s (and a warning, no exception); this is an error value here. -/
noncomputable def correct (res prev last : n → ℝ) : Res (n → ℝ) :=
  if norm2 prev = 0 then .error .zeroDivisionError
  else .ok (res + ((norm2 res / norm2 prev) ^ 2) • last)

/-- `ConjugateGradientPolicy.__call__` (`_conjugate_gradient.py` 49-83). -/
noncomputable def policy (A : Matrix n n ℝ) (rhs : n → ℝ) (S0 : Matrix n n ℝ) (reR reA : Option (Reorth n)) :
    Cmp n (n → ℝ) := fun st =>
  match st.residual (resid A rhs) with
  | .error e => .error e
  | .ok (res, st) =>
    if st.step = 0 then
      match reR with
      | none => .ok (res, st)
      | some _ => .ok (res, { st with cache := st.cache ++ [res] })
    else
      match residualPair reR res st with
      | .error e => .error e
      | .ok (res, prev, cache) =>
        match st.actions[st.step - 1]? with
        | none => .error .indexError
        | some none => .error .typeError
        | some (some last) =>
          match correct res prev last with
          | .error e => .error e
          | .ok action =>
            match reorthAction A S0 reA action st with
            | .error e => .error e
            | .ok action => .ok (action, { st with cache := cache })

/-- `ProjectedResidualInformationOp.__call__` (`_projected_residual.py` 18-29) as a component. -/
def info (A : Matrix n n ℝ) (rhs : n → ℝ) : Cmp n ℝ := fun st =>
  match st.actions[st.step]? with
  | none => .error .indexError
  | some none => .error .attributeError
  | some (some a) =>
    match st.residual (resid A rhs) with
    | .error e => .error e
    | .ok (r, st) => .ok (a ⬝ᵥ r, st)

/-- `ProjectedResidualBeliefUpdate.__call__` (`_projected_residual_belief_update.py` 44-69) as a component. -/
noncomputable def update (A : Matrix n n ℝ) (noiseVar : ℝ) : Cmp n (SolBelief n) := fun st =>
  match st.observations[st.step]? with
  | none => .error .indexError
  | some none => .error .typeError
  | some (some o) =>
    match st.actions[st.step]? with
    | none => .error .indexError
    | some none => .error .attributeError
    | some (some a) => .ok (projectedUpdate A noiseVar st.belief a o, st)

/-- `BayesCG` (`_probabilistic_linear_solver.py` 219-249), with optional reorthogonalisation in the policy. -/
noncomputable def bayesCG (A : Matrix n n ℝ) (rhs : n → ℝ) (S0 : Matrix n n ℝ) (reR reA : Option (Reorth n))
    (stop : Cmp n Bool) : Solver (SolBelief n) (n → ℝ) ℝ (n → ℝ) (List (n → ℝ)) :=
  ⟨policy A rhs S0 reR reA, info A rhs, update A 0, stop⟩

end Probnum.Linalg.CG
