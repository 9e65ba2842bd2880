import Verif.Gauss.Spec
import Verif.Kalman.Model
import Verif.LinGauss.Model

/-!
# Specification: linear Gaussian state-space models, and the Kalman filter instantiated with linear Gaussian transitions

`StateSpace` is the probabilistic specification (independent of the code).  `classicPrior` and `classicMeas` plug the
model of `LinearGaussian` (classic implementations) into the filter model.
-/

namespace Probnum.Kalman

open MeasureTheory ProbabilityTheory Matrix Probnum.Gauss Probnum.LinGauss

/-- The first `k` members of a sequence of random vectors. -/
def upTo {Ω V : Type*} (Z : ℕ → Ω → V) (k : ℕ) (ω : Ω) : Fin k → V := fun i => Z i ω

/-- A linear Gaussian state-space model up to `N` observations on a probability space: `X 0` is the initial state,
`X (k+1) = A_k X_k + W_k`, `Y k = H_k X_(k+1) + V_k`, with Gaussian noises; each noise is independent of all states
and observations before it. -/
structure StateSpace {Ω : Type*} {mΩ : MeasurableSpace Ω} (P : Measure Ω) {n m : ℕ} (N : ℕ) (init : Updated n)
    (A : ℕ → Transition n n) (H : ℕ → Transition n m) (X : ℕ → Ω → Fin n → ℝ) (Y : ℕ → Ω → Fin m → ℝ) : Prop where
  init : IsNormal P (X 0) init.mean init.cov
  dyn : ∀ k, k < N → ∃ W, (∀ ω, X (k + 1) ω = (A k).mat *ᵥ X k ω + W ω) ∧
    IsNormal P W (A k).noise.mean (A k).noise.cov ∧ IndepFun W (fun ω => (upTo X (k + 1) ω, upTo Y k ω)) P
  obs : ∀ k, k < N → ∃ V, (∀ ω, Y k ω = (H k).mat *ᵥ X (k + 1) ω + V ω) ∧
    IsNormal P V (H k).noise.mean (H k).noise.cov ∧ IndepFun V (fun ω => (upTo X (k + 2) ω, upTo Y k ω)) P

/-- A random variable with mean and covariance only (the classic implementations do not read `cov_cholesky`). -/
def toNormal {n : ℕ} (s : Updated n) : Normal n := ⟨s.mean, s.cov, 0⟩

/-- A prior process with a time-invariant linear Gaussian transition (`LTISDE`, `IntegratorTransition`): `disc dt` is
the transition `discretise(dt)` (`_lti_sde.py` 104-140, `_iwp.py`); `forward_rv` and `backward_rv` are those of the
discretised model (`_lti_sde.py` 60-102), classic implementations. -/
noncomputable def classicPrior {n : ℕ} (t0 : ℝ) (init : Updated n) (disc : ℝ → Transition n n) :
    Prior ℝ (Updated n) ℝ where
  initarg := t0
  initrv := init
  forward s _ dt _ := .ok ⟨(forwardClassic (disc dt) 1 (toNormal s)).mean, (forwardClassic (disc dt) 1 (toNormal s)).cov⟩
  backward s' s _ dt d _ := backwardClassic (disc dt) d (toNormal s') (toNormal s) none
  one := 1

/-- A linear Gaussian measurement model (classic implementations): `backward_realization` turns the data into a
`Constant` and calls `backward_rv` (`_transition.py` 485-488). -/
noncomputable def classicMeas {n m : ℕ} (H : Transition n m) : MeasModel (Fin m → ℝ) (Updated n) :=
  fun y s _ => backwardClassic H 1 (Normal.const y) (toNormal s) none

/-- The transition over a gap: `discretise(gap)`, or nothing for a zero gap. -/
noncomputable def gapTransition {n : ℕ} (disc : ℝ → Transition n n) (gap : ℝ) : Transition n n :=
  if 0 < gap then disc gap else ⟨1, ⟨0, 0, 0⟩⟩

/-- Location of state `k`: the initial time for `k = 0`, else observation location `k - 1`. -/
def stateTime (t0 : ℝ) (loc : ℕ → ℝ) : ℕ → ℝ
  | 0 => t0
  | k + 1 => loc k

/-- The regression problem with `N` observations `y 0, …, y (N-1)` at locations `loc 0, …, loc (N-1)`. -/
noncomputable def gaussProblem {n m : ℕ} (N : ℕ) (loc : ℕ → ℝ) (H : ℕ → Transition n m) (y : ℕ → Fin m → ℝ) :
    Problem ℝ (Fin m → ℝ) (Updated n) :=
  ⟨(List.range N).map loc, (List.range N).map y, (List.range N).map fun k => classicMeas (H k)⟩

end Probnum.Kalman
