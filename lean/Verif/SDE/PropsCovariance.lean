import Verif.SDE.CovarianceLemmas
import Verif.SDE.PropsRegression

/-!
# C111: integrator priors are Gaussian processes with an explicit covariance function
-/

namespace Probnum.SDE

open Matrix MeasureTheory ProbabilityTheory LinGauss Kalman Gauss

variable {q d N m : ℕ}

/-- **C111.**  A process with the transitions of an integrator (Matérn, integrated Ornstein-Uhlenbeck, any drift), started
with any Gaussian state, has at any increasing times the mean and covariance function of the linear stochastic differential
equation. -/
theorem integrator_covariance {Ω : Type*} {mΩ : MeasurableSpace Ω} {P : Measure Ω}
    (G : Matrix (Fin (q + 1)) (Fin (q + 1)) ℝ) (ch : CovCholesky (d * (q + 1))) {init : Updated (d * (q + 1))}
    (hC : init.cov.PosSemidef) {τ : ℕ → ℝ} (hτ : ∀ k, k < N → τ k < τ (k + 1)) {X : ℕ → Ω → Fin (d * (q + 1)) → ℝ}
    (h : MarkovChain P N init (fun k => (integrator q d G).discretise ch (τ (k + 1) - τ k)) X) :
    HasMoments P N τ X (procMean q d G init.mean) (procCov q d G init.cov) :=
  (integrator_semigroup G d ch).chain (fun k hk => (hτ k hk).le) (symm_of_psd hC)
    (gap_chain (disc := fun h => (integrator q d G).discretise ch h) hτ h) (procCov q d G init.cov)
    (fun s t _ hts => procCov_eq G init.cov s t hts) (procCov_symm G (symm_of_psd hC))

/-- **C111.**  A process with the transitions of `IntegratedWienerTransition` is the integrated Wiener process: its mean is the
Taylor polynomial of the initial mean and its covariance function the one of the `q` times integrated white noise. -/
theorem iwp_covariance {Ω : Type*} {mΩ : MeasurableSpace Ω} {P : Measure Ω} (chol : CovCholesky (q + 1))
    {init : Updated (d * (q + 1))} (hC : init.cov.PosSemidef) {disc : ℝ → Transition (d * (q + 1)) (d * (q + 1))}
    (hdisc : ∀ h, 0 < h → IWP.discretise q d chol h = some (disc h)) {τ : ℕ → ℝ} (hτ : ∀ k, k < N → τ k < τ (k + 1))
    {X : ℕ → Ω → Fin (d * (q + 1)) → ℝ} (h : MarkovChain P N init (fun k => disc (τ (k + 1) - τ k)) X) :
    HasMoments P N τ X (fun t => IWP.kronEye d (IWP.taylor q t) *ᵥ init.mean) (iwpCov q d init.cov) := by
  obtain ⟨ch⟩ := exists_covCholesky (d * (q + 1))
  have := (iwp_semigroup q d chol ch hdisc).chain (fun k hk => (hτ k hk).le) (symm_of_psd hC)
    (gap_chain hτ h) (procCov q d (driftIwp q) init.cov) (fun s t _ hts => procCov_eq _ init.cov s t hts)
    (procCov_symm _ (symm_of_psd hC))
  simpa only [HasMoments, procCov_iwp, exp_driftIwp] using this

/-- **C111.**  Filtering and smoothing with an integrator prior is Gaussian process regression with this covariance function,
for all initial states, increasing locations, linear measurements with positive definite noise, and data: it does not raise,
and returns the regression estimates of the full state. -/
theorem integrator_smoothing_is_regression {G : Matrix (Fin (q + 1)) (Fin (q + 1)) ℝ} (hG : Companion q G)
    (ch : CovCholesky (d * (q + 1))) {init : Updated (d * (q + 1))} (hC : init.cov.PosSemidef) (t0 : ℝ) (loc : ℕ → ℝ)
    (hN : 0 < N) (h0 : t0 ≤ loc 0) (hloc : ∀ k, k + 1 < N → loc k < loc (k + 1)) (H : ℕ → Transition (d * (q + 1)) m)
    (hH : ∀ k, k < N → (H k).noise.cov.PosDef) (y : ℕ → Fin m → ℝ) :
    filtsmooth (classicPrior t0 init fun h => (integrator q d G).discretise ch h) (gaussProblem N loc H y) none
      = .ok ⟨(List.range N).map loc, (List.range N).map
          (regression N t0 loc H y (procMean q d G init.mean) (procCov q d G init.cov)), false⟩ := by
  have := (integrator_semigroup G d ch).regression (fun h hh => IWP.kronEye_posDef d (drift_noise_posDef hG hh)) t0 loc hN h0
    hloc hC H hH (procCov q d G init.cov) (fun s t _ hts => procCov_eq G init.cov s t hts) (procCov_symm G (symm_of_psd hC)) y
    _ _ rfl rfl
  exact this

/-- **C111.**  With the integrated Wiener process as prior, smoothing is spline smoothing: Gaussian process regression with the
covariance function of the integrated Wiener process. -/
theorem iwp_smoothing_is_regression (chol : CovCholesky (q + 1)) {init : Updated (d * (q + 1))} (hC : init.cov.PosSemidef)
    {disc : ℝ → Transition (d * (q + 1)) (d * (q + 1))} (hdisc : ∀ h, 0 < h → IWP.discretise q d chol h = some (disc h))
    (t0 : ℝ) (loc : ℕ → ℝ) (hN : 0 < N) (h0 : t0 ≤ loc 0) (hloc : ∀ k, k + 1 < N → loc k < loc (k + 1))
    (H : ℕ → Transition (d * (q + 1)) m) (hH : ∀ k, k < N → (H k).noise.cov.PosDef) (y : ℕ → Fin m → ℝ) :
    filtsmooth (classicPrior t0 init disc) (gaussProblem N loc H y) none
      = .ok ⟨(List.range N).map loc, (List.range N).map
          (regression N t0 loc H y (fun t => IWP.kronEye d (IWP.taylor q t) *ᵥ init.mean) (iwpCov q d init.cov)), false⟩ := by
  obtain ⟨ch⟩ := exists_covCholesky (d * (q + 1))
  have := (iwp_semigroup q d chol ch hdisc).regression
    (fun h hh => IWP.kronEye_posDef d (drift_noise_posDef (companion_iwp q) hh)) t0 loc hN h0 hloc hC H
    hH (procCov q d (driftIwp q) init.cov) (fun s t _ hts => procCov_eq _ init.cov s t hts) (procCov_symm _ (symm_of_psd hC)) y
    _ _ rfl rfl
  simp only [procCov_iwp, exp_driftIwp] at this
  exact this

/-- **C111.**  Not integrated (`q = 0`) and started at a known state, the process is Brownian motion: the covariance is
`min(s, t)`. -/
theorem wiener_cov {s t : ℝ} (c c' : Fin d) :
    iwpCov 0 d 0 s t (finProdFinEquiv (c, 0)) (finProdFinEquiv (c', 0)) = if c = c' then min s t else 0 := by
  simp [iwpCov, kronEye_pair]

/-- **C111.**  Integrated once and started at a known state, the covariance between the process values is the kernel of cubic
smoothing splines, `min² (3 max - min) / 6`. -/
theorem integrated_wiener_cov {s t : ℝ} (c c' : Fin d) :
    iwpCov 1 d 0 s t (finProdFinEquiv (c, 0)) (finProdFinEquiv (c', 0))
      = if c = c' then min s t ^ 2 * (3 * max s t - min s t) / 6 else 0 := by
  have key : ∀ a b : ℝ, ∫ u in (0 : ℝ)..a, (a - u) * (b - u) = a ^ 2 * (3 * b - a) / 6 := fun a b => by
    have : ∀ u : ℝ, HasDerivAt (fun u => a * b * u - (a + b) * u ^ 2 / 2 + u ^ 3 / 3) ((a - u) * (b - u)) u := fun u => by
      have h := (((hasDerivAt_id' u).const_mul (a * b)).sub (((hasDerivAt_pow 2 u).const_mul (a + b)).div_const 2)).add
        ((hasDerivAt_pow 3 u).div_const 3)
      have e : a * b * 1 - (a + b) * (((2 : ℕ) : ℝ) * u ^ (2 - 1)) / 2 + ((3 : ℕ) : ℝ) * u ^ (3 - 1) / 3 = (a - u) * (b - u) := by
        norm_num; ring
      rw [← e]; exact h
    rw [intervalIntegral.integral_eq_sub_of_hasDerivAt (fun u _ => this u)
      (Continuous.intervalIntegrable (by fun_prop) _ _)]
    ring
  simp only [iwpCov, Matrix.mul_zero, Matrix.zero_mul, zero_add, kronEye_pair, Matrix.of_apply]
  by_cases h : c = c'
  · rw [if_pos h, if_pos h]
    rcases le_total s t with hst | hst
    · rw [min_eq_left hst, max_eq_right hst, ← key s t]; simp
    · rw [min_eq_right hst, max_eq_left hst, ← key t s]; simp [mul_comm]
  · rw [if_neg h, if_neg h]

/-- A concrete case of the hypotheses: a once integrated Wiener process in two dimensions started at a known state, and an
integrated Ornstein-Uhlenbeck process. -/
example (chol : CovCholesky (1 + 1)) : (∃ disc : ℝ → Transition (2 * (1 + 1)) (2 * (1 + 1)),
    ∀ h, 0 < h → IWP.discretise 1 2 chol h = some (disc h)) ∧ Companion 2 (driftIoup 2 0.5) ∧
    (0 : Matrix (Fin (2 * (1 + 1))) (Fin (2 * (1 + 1))) ℝ).PosSemidef ∧ (1 : Matrix (Fin 2) (Fin 2) ℝ).PosDef := by
  refine ⟨⟨fun h => (IWP.discretise 1 2 chol h).getD ⟨1, ⟨0, 0, 0⟩⟩, fun h hh => ?_⟩, companion_ioup 2 _,
    Matrix.PosSemidef.zero, Matrix.PosDef.one⟩
  obtain ⟨tr, h1, -⟩ := IWP.discretise_closed 1 2 chol hh.ne'
  simp only [h1, Option.getD_some]

end Probnum.SDE
