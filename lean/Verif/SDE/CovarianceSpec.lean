import Verif.SDE.RegressionLemmas

/-!
# Specification for C111: covariance functions of integrator priors, Gaussian regression
-/

namespace Probnum.SDE

open Matrix MeasureTheory ProbabilityTheory LinGauss Kalman Gauss

variable {q d N m : ℕ}

/-- Covariance function of a linear time-invariant process which starts at time `0` with covariance `C0` and whose last
derivative is driven by white noise, in `d` independent dimensions:
`Φ(s) C0 Φ(t)ᵀ + ∫_0^min(s,t) g_i(s - u) g_j(t - u) du`, where `Φ(h) = exp(h G)` and the impulse response `g` is the last
column of `Φ`. -/
noncomputable def procCov (q d : ℕ) (G : Matrix (Fin (q + 1)) (Fin (q + 1)) ℝ)
    (C0 : Matrix (Fin (d * (q + 1))) (Fin (d * (q + 1))) ℝ) (s t : ℝ) : Matrix (Fin (d * (q + 1))) (Fin (d * (q + 1))) ℝ :=
  IWP.kronEye d (NormedSpace.exp (s • G)) * C0 * (IWP.kronEye d (NormedSpace.exp (t • G)))ᵀ
    + IWP.kronEye d (Matrix.of fun i j => ∫ u in (0 : ℝ)..min s t,
        NormedSpace.exp ((s - u) • G) i (Fin.last q) * NormedSpace.exp ((t - u) • G) j (Fin.last q))

/-- Mean of this process, started with mean `m0`. -/
noncomputable def procMean (q d : ℕ) (G : Matrix (Fin (q + 1)) (Fin (q + 1)) ℝ) (m0 : Fin (d * (q + 1)) → ℝ) (t : ℝ) :
    Fin (d * (q + 1)) → ℝ := IWP.kronEye d (NormedSpace.exp (t • G)) *ᵥ m0

/-- Covariance function of the `q` times integrated Wiener process and its derivatives: Taylor polynomials of the initial
state, and `∫_0^min(s,t) (s-u)^(q-i)/(q-i)! (t-u)^(q-j)/(q-j)! du`. -/
noncomputable def iwpCov (q d : ℕ) (C0 : Matrix (Fin (d * (q + 1))) (Fin (d * (q + 1))) ℝ) (s t : ℝ) :
    Matrix (Fin (d * (q + 1))) (Fin (d * (q + 1))) ℝ :=
  IWP.kronEye d (IWP.taylor q s) * C0 * (IWP.kronEye d (IWP.taylor q t))ᵀ
    + IWP.kronEye d (Matrix.of fun i j => ∫ u in (0 : ℝ)..min s t,
        (s - u) ^ (q - i.1) / ((q - i.1).factorial : ℝ) * ((t - u) ^ (q - j.1) / ((q - j.1).factorial : ℝ)))

/-- The states at the times `τ 0 ≤ τ 1 ≤ …` have the means `μ` and covariances `K` of the time elapsed. -/
def HasMoments {Ω : Type*} {mΩ : MeasurableSpace Ω} {n : ℕ} (P : Measure Ω) (N : ℕ) (τ : ℕ → ℝ) (X : ℕ → Ω → Fin n → ℝ)
    (μ : ℝ → Fin n → ℝ) (K : ℝ → ℝ → Matrix (Fin n) (Fin n) ℝ) : Prop :=
  (∀ k, k ≤ N → ∀ a, ∫ ω, X k ω a ∂P = μ (τ k - τ 0) a) ∧
  ∀ j k, j ≤ N → k ≤ N → CrossCov P (X j) (X k) (K (τ j - τ 0) (τ k - τ 0))

/-- Gaussian regression on the observations `y` of `H_k X(loc k)` with noise, for a process started at `t0` with mean function
`μ` and covariance function `K`: mean and covariance of the state at location `k`. -/
noncomputable def regression {n : ℕ} (N : ℕ) (t0 : ℝ) (loc : ℕ → ℝ) (H : ℕ → Transition n m) (y : ℕ → Fin m → ℝ)
    (μ : ℝ → Fin n → ℝ) (K : ℝ → ℝ → Matrix (Fin n) (Fin n) ℝ) (k : ℕ) : Updated n :=
  let B : Matrix (Fin n) (Fin N × Fin m) ℝ := Matrix.of fun a p => (K (loc k - t0) (loc p.1 - t0) * (H p.1).matᵀ) a p.2
  let D : Matrix (Fin N × Fin m) (Fin N × Fin m) ℝ := Matrix.of fun p p' =>
    ((H p.1).mat * K (loc p.1 - t0) (loc p'.1 - t0) * (H p'.1).matᵀ + if p.1.1 = p'.1.1 then (H p'.1).noise.cov else 0) p.2 p'.2
  ⟨μ (loc k - t0) + (B * D⁻¹) *ᵥ fun p => y p.1 p.2 - ((H p.1).mat *ᵥ μ (loc p.1 - t0) + (H p.1).noise.mean) p.2,
    K (loc k - t0) (loc k - t0) - B * D⁻¹ * Bᵀ⟩

end Probnum.SDE
