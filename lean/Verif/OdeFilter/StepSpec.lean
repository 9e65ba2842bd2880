import Mathlib.Analysis.SpecialFunctions.Pow.Real
import Mathlib.Analysis.SpecialFunctions.Trigonometric.Basic
import Verif.Gauss.Spec
import Verif.OdeFilter.Step

/-!
# Specification: one step of the probabilistic ODE solver

What a step should do, in terms of random vectors.
-/

namespace Probnum.OdeFilter

open Matrix LinGauss Gauss MeasureTheory ProbabilityTheory

variable {d q : ℕ}

/-- The density of `N(m, C)` at `y`. -/
noncomputable def gaussDensity (m : Fin d → ℝ) (C : Matrix (Fin d) (Fin d) ℝ) (y : Fin d → ℝ) : ℝ :=
  (2 * Real.pi) ^ (-(d : ℝ) / 2) * C.det ^ (-(1 : ℝ) / 2) * Real.exp (-(1 / 2) * ((y - m) ⬝ᵥ (C⁻¹ *ᵥ (y - m))))

/-- The linearised residual of the ODE at time `t` around `x0`, as an affine function `x ↦ H x + b`: `H` is
`E₁ - J E₀` with the Jacobian `J` of the vector field (zero for EK0), and `H x0 + b` is the residual at `x0`. -/
structure LinearisedResidual (S : Solver d q) (t : ℝ) (x0 : Fin (d * (q + 1)) → ℝ)
    (H : Matrix (Fin d) (Fin (d * (q + 1))) ℝ) (b : Fin d → ℝ) : Prop where
  jacobian : ∃ J, H = proj d q 1 - J * proj d q 0 ∧
    match S.strategy with
    | .ek0 => J = 0
    | .ek1 => S.ode.df (some t) (proj d q 0 *ᵥ x0) = .ok J
  value : ∃ v, S.ode.f (some t) (proj d q 0 *ᵥ x0) = .ok v ∧ H *ᵥ x0 + b = proj d q 1 *ᵥ x0 - v

/-- `new` at time `t₁` is the Bayesian update of `old` at time `t₀`: with the prior `X₀ ~ N(old)`, the transition
`X₁ = Φ X₀ + W`, `W ~ N(0, s Q)` of the integrated Wiener process over `t₁ - t₀` with squared diffusion `s`, and the
residual linearised at the predicted mean, `new` is the conditional distribution of `X₁` given that the linearised
residual is zero. -/
def BayesStep (S : Solver d q) (s : ℝ) (t₀ : ℝ) (old : Normal (d * (q + 1))) (t₁ : ℝ) (new : Normal (d * (q + 1))) : Prop :=
  ∃ tr H b, IWP.discretise q d S.chol (t₁ - t₀) = some tr ∧ LinearisedResidual S t₁ (tr.mat *ᵥ old.mean) H b ∧
    ∀ {Ω : Type} {mΩ : MeasurableSpace Ω} (P : Measure Ω) (X₀ W : Ω → Fin (d * (q + 1)) → ℝ),
      IsNormal P X₀ old.mean old.cov → IsNormal P W 0 (s • tr.noise.cov) → IndepFun X₀ W P →
      ∃ f, IsConditional P (fun ω => tr.mat *ᵥ X₀ ω + W ω) (fun ω => H *ᵥ (tr.mat *ᵥ X₀ ω + W ω) + b) f new.cov ∧
        f 0 = new.mean

/-- Calling the vector field and the Jacobian without a time gives the same as calling them at any time. -/
def Ode.TimeFree (o : Ode d) : Prop := ∀ t x, o.f none x = o.f (some t) x ∧ o.df none x = o.df (some t) x

end Probnum.OdeFilter
