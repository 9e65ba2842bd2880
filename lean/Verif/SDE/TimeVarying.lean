import Verif.SDE.Model

/-!
# Model: transitions of linear SDEs with time-varying coefficients

Models the transitions of `src/probnum/randprocs/markov/continuous/_linear_sde.py` and the realizations in `_sde.py`.  The numerical
ODE solver `scipy.integrate.solve_ivp` is an argument.
-/

namespace Probnum.SDE

open Matrix Probnum.LinGauss Probnum.Kalman

/-- The keys of `choose_mde_forward_implementation` (`_linear_sde.py` 84-87); other names raise KeyError. -/
inductive Implementation where
  | classic
  | sqrt

/-- `LinearSDE` (`_linear_sde.py` 51-102): coefficients as functions of time, and the forward implementation. -/
structure LinearSDE (n s : ℕ) where
  drift : ℝ → Matrix (Fin n) (Fin n) ℝ
  force : ℝ → Fin n → ℝ
  dispersion : ℝ → Matrix (Fin n) (Fin s) ℝ
  implementation : Implementation

/-- `scipy.integrate.solve_ivp(f, (t0, t1), y0, dense_output=True)`: the dense output; `sol.y[:, -1]` is its value at `t1`. -/
abbrev Solver (n : ℕ) := (ℝ → Moments n → Moments n) → ℝ → ℝ → Moments n → ℝ → Moments n

variable {n s : ℕ}

/-- `f` of `_setup_vectorized_mde_forward_classic` as a function of time (`_linear_sde.py` 293-308). -/
def LinearSDE.fieldClassic (sde : LinearSDE n s) (d : ℝ) (τ : ℝ) (y : Moments n) : Moments n :=
  mdeForward (sde.drift τ) (sde.force τ) (sde.dispersion τ) d y

/-- `f` of `_setup_vectorized_mde_forward_sqrt` as a function of time (`_linear_sde.py` 377-404). -/
noncomputable def LinearSDE.fieldSqrt (sde : LinearSDE n s) (d : ℝ) (τ : ℝ) (y : Moments n) : Moments n :=
  mdeForwardSqrt (sde.drift τ) (sde.force τ) (sde.dispersion τ) d y

/-- `f` of `_setup_vectorized_mde_backward` as a function of time, given the forward solution (`_linear_sde.py` 419-440). -/
noncomputable def LinearSDE.fieldBackward (sde : LinearSDE n s) (d : ℝ) (fwd : ℝ → Moments n) (τ : ℝ) (y : Moments n) : Moments n :=
  mdeBackward (sde.drift τ) (sde.force τ) (sde.dispersion τ) d (fwd τ).mean (fwd τ).cov y

open Classical in
/-- `forward_rv(rv, t, dt, _diffusion)` (`_linear_sde.py` 127-141, 172-217, 219-239): the forwarded random variable and the functions
`sol_mean`, `sol_cov`.  In the square-root implementation, `solve_triangular` raises LinAlgError if the initial factor has a zero
on its diagonal.  The Cholesky factor of a classic result is computed from its covariance when needed. -/
noncomputable def LinearSDE.forwardRv (sde : LinearSDE n s) (ch : CovCholesky n) (solve : Solver n) (rv : Normal n) (t : ℝ)
    (dt : Option ℝ) (d : ℝ) : Res (Normal n × (ℝ → Moments n)) :=
  match dt with
  | none => .error .valueError
  | some dt =>
    match sde.implementation with
    | .classic =>
      let sol := solve (sde.fieldClassic d) t (t + dt) ⟨rv.mean, rv.cov⟩
      .ok (⟨(sol (t + dt)).mean, (sol (t + dt)).cov, ch.factor (sol (t + dt)).cov⟩, sol)
    | .sqrt =>
      if ∃ i, rv.chol i i = 0 then .error .linAlgError
      else
        let sol := solve (sde.fieldSqrt d) t (t + dt) ⟨rv.mean, rv.chol⟩
        let S := (sol (t + dt)).cov
        .ok (⟨(sol (t + dt)).mean, S * Sᵀ, S⟩, fun τ => ⟨(sol τ).mean, (sol τ).cov * (sol τ).covᵀ⟩)

open Classical in
/-- `backward_rv(rv_obtained, rv, t=t, dt=dt, _diffusion)` (`_linear_sde.py` 143-170, 241-283): the ODE is solved from `t + dt` to
`t`; `np.linalg.solve` raises LinAlgError if the forward covariance is singular where the solver starts (singularity at other times
is not checked in this model). -/
noncomputable def LinearSDE.backwardRv (sde : LinearSDE n s) (ch : CovCholesky n) (solve : Solver n) (obt rv : Normal n) (t : ℝ)
    (dt : Option ℝ) (d : ℝ) : Res (Updated n × (ℝ → Moments n)) :=
  match dt with
  | none => .error .valueError
  | some dt =>
    match sde.forwardRv ch solve rv t (some dt) d with
    | .error e => .error e
    | .ok (_, fwd) =>
      if (fwd (t + dt)).cov.det = 0 then .error .linAlgError
      else
        let sol := solve (sde.fieldBackward d fwd) (t + dt) t ⟨obt.mean, obt.cov⟩
        .ok (⟨(sol t).mean, (sol t).cov⟩, sol)

/-- `forward_realization` (`_sde.py` 59-74, `_transition.py` 490-492). -/
noncomputable def LinearSDE.forwardRealization (sde : LinearSDE n s) (ch : CovCholesky n) (solve : Solver n) (x : Fin n → ℝ) (t : ℝ)
    (dt : Option ℝ) (d : ℝ) : Res (Normal n × (ℝ → Moments n)) :=
  sde.forwardRv ch solve (Normal.const x) t dt d

/-- `backward_realization` (`_sde.py` 87-107, `_transition.py` 485-488). -/
noncomputable def LinearSDE.backwardRealization (sde : LinearSDE n s) (ch : CovCholesky n) (solve : Solver n) (y : Fin n → ℝ)
    (rv : Normal n) (t : ℝ) (dt : Option ℝ) (d : ℝ) : Res (Updated n × (ℝ → Moments n)) :=
  sde.backwardRv ch solve (Normal.const y) rv t dt d

end Probnum.SDE
