import Mathlib.LinearAlgebra.Matrix.PosDef
import Verif.Py

/-!
# Model of the belief updates of the probabilistic linear solvers

`probnum/linalg/solvers/belief_updates/` and `probnum/linalg/solvers/information_ops/`.

Vectors and matrices are real, indexed by an arbitrary finite type.  Linear operators are represented by the matrices
they denote (the operator algebra itself is the subject of `Verif.Linops`).
-/

namespace Probnum.Linalg

open Matrix

variable {n : Type} [Fintype n]

open Classical in
/-- `gram_pinv = 1.0 / gram if gram > 0.0 else 0.0`
(`_matrix_based_linear_belief_update.py` 77, `_symmetric_matrix_based_linear_belief_update.py` 79,
`_projected_residual_belief_update.py` 54). -/
noncomputable def gramPinv (gram : ℝ) : ℝ := if 0 < gram then 1 / gram else 0

/-- Structure of a covariance operator, as inspected by `isinstance`. -/
inductive CovKind where
  | kronecker
  | symmetricKronecker
  | other
  deriving DecidableEq

/-- A matrix-variate normal belief: mean, kind of covariance, the second factor `B` of `Kronecker(A, B)` or the factor `A` of
`SymmetricKronecker(A)` (called `factor`), and the first factor `A` of `Kronecker(A, B)` (called `left`). -/
structure MatBelief (n : Type) where
  mean : Matrix n n ℝ
  kind : CovKind
  left : Matrix n n ℝ
  factor : Matrix n n ℝ

/-- `MatrixBasedLinearBeliefUpdate._matrix_based_update` (`_matrix_based_linear_belief_update.py` 62-89). -/
noncomputable def matrixUpdate (b : MatBelief n) (action observ : n → ℝ) : Res (MatBelief n) :=
  if b.kind = .kronecker then
    let pred := b.mean *ᵥ action
    let resid := observ - pred
    let covfactorMs := b.factor *ᵥ action
    let gram := action ⬝ᵥ covfactorMs
    let gain := gramPinv gram • covfactorMs
    let covfactorUpdate := vecMulVec gain covfactorMs
    let residGain := vecMulVec resid gain
    .ok ⟨b.mean + residGain, .kronecker, b.left, b.factor - covfactorUpdate⟩
  else .error .valueError

/-- `SymmetricMatrixBasedLinearBeliefUpdate._symmetric_matrix_based_update`
(`_symmetric_matrix_based_linear_belief_update.py` 64-93). -/
noncomputable def symmetricUpdate (b : MatBelief n) (action observ : n → ℝ) : Res (MatBelief n) :=
  if b.kind = .symmetricKronecker then
    let pred := b.mean *ᵥ action
    let resid := observ - pred
    let covfactorMs := b.factor *ᵥ action
    let gram := action ⬝ᵥ covfactorMs
    let gain := gramPinv gram • covfactorMs
    let covfactorUpdate := vecMulVec gain covfactorMs
    let residGain := vecMulVec resid gain
    .ok ⟨b.mean + residGain + residGainᵀ - vecMulVec gain (action ᵥ* residGain), .symmetricKronecker, b.left,
      b.factor - covfactorUpdate⟩
  else .error .valueError

/-- `MatrixBasedLinearBeliefUpdate.__call__` and `SymmetricMatrixBasedLinearBeliefUpdate.__call__`
(`_matrix_based_linear_belief_update.py` 37-60, `_symmetric_matrix_based_linear_belief_update.py` 39-62): beliefs about `A`
and about its inverse, the latter with action and observation swapped. -/
noncomputable def updateBoth (update : MatBelief n → (n → ℝ) → (n → ℝ) → Res (MatBelief n))
    (A Ainv : MatBelief n) (action observ : n → ℝ) : Res (MatBelief n × MatBelief n) :=
  match update A action observ with
  | .error e => .error e
  | .ok A' =>
    match update Ainv observ action with
    | .error e => .error e
    | .ok Ainv' => .ok (A', Ainv')

/-- A Gaussian belief about the solution. -/
structure SolBelief (n : Type) where
  mean : n → ℝ
  cov : Matrix n n ℝ

open Classical in
/-- `ProjectedResidualBeliefUpdate.__init__` (`_projected_residual_belief_update.py` 39-42). -/
noncomputable def newProjectedResidual (noiseVar : ℝ) : Res ℝ :=
  if noiseVar < 0 then .error .valueError else .ok noiseVar

/-- `ProjectedResidualBeliefUpdate.__call__` (`_projected_residual_belief_update.py` 44-69), the belief about the solution.
`observation` is the projected residual. -/
noncomputable def projectedUpdate (A : Matrix n n ℝ) (noiseVar : ℝ) (b : SolBelief n) (action : n → ℝ)
    (observation : ℝ) : SolBelief n :=
  let actionA := action ᵥ* A
  let covXy := b.cov *ᵥ actionA
  let gram := actionA ⬝ᵥ covXy + noiseVar
  let gain := gramPinv gram • covXy
  let covUpdate := vecMulVec gain covXy
  ⟨b.mean + observation • gain, b.cov - covUpdate⟩

/-- `MatVecInformationOp.__call__` (`_matvec.py` 16-26). -/
def matvecInfo (A : Matrix n n ℝ) (action : n → ℝ) : n → ℝ := A *ᵥ action

/-- `LinearSolverState.residual` (`_state.py` 123-130). -/
def residual (A : Matrix n n ℝ) (rhs x : n → ℝ) : n → ℝ := rhs - A *ᵥ x

/-- `ProjectedResidualInformationOp.__call__` (`_projected_residual.py` 18-29). -/
def projectedInfo (A : Matrix n n ℝ) (rhs x action : n → ℝ) : ℝ := action ⬝ᵥ residual A rhs x

end Probnum.Linalg
