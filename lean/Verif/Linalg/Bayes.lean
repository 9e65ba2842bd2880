import Verif.Linalg.CG

/-!
# Model of the solution-based belief update, with the belief about the inverse

`probnum/linalg/solvers/belief_updates/solution_based/_projected_residual_belief_update.py`: the update touches the beliefs
about the solution and about the inverse; `Verif.Linalg.Updates` has the former only.
-/

namespace Probnum.Linalg.Bayes

open Matrix Loop

variable {n : Type} [Fintype n]

/-- The parts of a `LinearSystemBelief` that change: the belief about the solution, and the mean of the belief about the inverse
(`None` if there is none).  The beliefs about `A` and `b` are handed on (67-69). -/
structure Full (n : Type) where
  x : SolBelief n
  ainv : Option (Matrix n n ℝ)

/-- `cov_update` (`_projected_residual_belief_update.py` 51-56). -/
noncomputable def covUpdate (A : Matrix n n ℝ) (noiseVar : ℝ) (b : SolBelief n) (action : n → ℝ) : Matrix n n ℝ :=
  let actionA := action ᵥ* A
  let covXy := b.cov *ᵥ actionA
  let gram := actionA ⬝ᵥ covXy + noiseVar
  let gain := gramPinv gram • covXy
  vecMulVec gain covXy

/-- `ProjectedResidualBeliefUpdate.__call__` (`_projected_residual_belief_update.py` 44-69) with the belief about the inverse
(62-65): `Constant(cov_update)` if there is none, `Ainv + cov_update` otherwise. -/
noncomputable def update (A : Matrix n n ℝ) (noiseVar : ℝ) (b : Full n) (action : n → ℝ) (observation : ℝ) : Full n :=
  ⟨projectedUpdate A noiseVar b.x action observation,
    some (match b.ainv with
      | none => covUpdate A noiseVar b.x action
      | some M => M + covUpdate A noiseVar b.x action)⟩

/-- Updates with projected residuals of the system (`_projected_residual.py` 18-29) for a list of actions, in order. -/
noncomputable def updates (A : Matrix n n ℝ) (rhs : n → ℝ) (noiseVar : ℝ) : Full n → List (n → ℝ) → Full n
  | b, [] => b
  | b, s :: ss => updates A rhs noiseVar (update A noiseVar b s (projectedInfo A rhs b.x.mean s)) ss

/-- A solution-based `ProbabilisticLinearSolver` (`_probabilistic_linear_solver.py` 121-131): any policy and stopping criterion,
projected residuals (`_projected_residual.py` 18-29), and the update above with the given noise variance. -/
noncomputable def solver (A : Matrix n n ℝ) (rhs : n → ℝ) (noiseVar : ℝ) (policy : CG.Cmp n (n → ℝ))
    (stop : CG.Cmp n Bool) : Solver (SolBelief n) (n → ℝ) ℝ (n → ℝ) (List (n → ℝ)) :=
  ⟨policy, CG.info A rhs, CG.update A noiseVar, stop⟩

end Probnum.Linalg.Bayes
