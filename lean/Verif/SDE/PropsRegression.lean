import Verif.SDE.RegressionLemmas

/-!
# C110: smoothing with a state-space prior is Gaussian process regression
-/

namespace Probnum.SDE

open Matrix MeasureTheory ProbabilityTheory LinGauss Kalman Gauss

variable {q d N : ℕ} {ℓ : ℝ}

/-- **C110.**  The transition noise of an integrator (Matérn, integrated Ornstein-Uhlenbeck, …) over a positive time step is
positive definite: no coordinate is predicted without uncertainty. -/
theorem integrator_noise_posDef {G : Matrix (Fin (q + 1)) (Fin (q + 1)) ℝ} (hG : Companion q G) (ch : CovCholesky (d * (q + 1)))
    {h : ℝ} (hh : 0 < h) : ((integrator q d G).discretise ch h).noise.cov.PosDef := by
  rw [integrator_disc]
  exact IWP.kronEye_posDef d (drift_noise_posDef hG hh)

/-- **C110.**  Filtering and smoothing with an integrator prior does not raise, for any data: increasing locations, any number
of observations but zero, any linear measurements with positive definite noise, any initial covariance (also a singular one). -/
theorem integrator_filtsmooth_ok {G : Matrix (Fin (q + 1)) (Fin (q + 1)) ℝ} (hG : Companion q G) (ch : CovCholesky (d * (q + 1)))
    {m : ℕ} (t0 : ℝ) (init : Updated (d * (q + 1))) (hinit : init.cov.PosSemidef) (loc : ℕ → ℝ)
    (H : ℕ → Transition (d * (q + 1)) m) (hN : 0 < N) (hloc : ∀ k, k + 1 < N → loc k < loc (k + 1))
    (hH : ∀ k, k < N → (H k).noise.cov.PosDef) (y : ℕ → Fin m → ℝ) :
    ∃ post, filtsmooth (classicPrior t0 init fun h => (integrator q d G).discretise ch h) (gaussProblem N loc H y) none
      = .ok post := by
  have hmono : ∀ j k, j < k → k < N → loc j < loc k := by
    intro j k hjk
    induction k, hjk using Nat.le_induction with
    | base => intro h; exact hloc j h
    | succ k hjk ih => intro h; exact (ih (by omega)).trans (hloc k h)
  have hpw : ((List.range N).map loc).Pairwise (· < ·) := by
    rw [List.pairwise_iff_getElem]
    intro i j hi hj hij
    simp only [List.getElem_map, List.getElem_range]
    exact hmono i j hij (by simpa using hj)
  exact ⟨_, filtsmooth_succeeds_of_posDef t0 init _ N loc H hN hpw hinit (fun dt h => integrator_noise_posDef hG ch h) hH y⟩

/-- **C110**, for the two processes: smoothing with a Matérn or an integrated Ornstein-Uhlenbeck process never raises, and the
noise of their transitions over a positive time is positive definite. -/
theorem matern_ioup_filtsmooth_ok (ℓ v : ℝ) (ch : CovCholesky (d * (q + 1))) {m : ℕ} (t0 : ℝ)
    (init : Updated (d * (q + 1))) (hinit : init.cov.PosSemidef) (loc : ℕ → ℝ)
    (H : ℕ → Transition (d * (q + 1)) m) (hN : 0 < N) (hloc : ∀ k, k + 1 < N → loc k < loc (k + 1))
    (hH : ∀ k, k < N → (H k).noise.cov.PosDef) (y : ℕ → Fin m → ℝ) :
    ∀ G ∈ [driftMatern q ℓ, driftIoup q v],
      (∀ h, 0 < h → ((integrator q d G).discretise ch h).noise.cov.PosDef) ∧
      ∃ post, filtsmooth (classicPrior t0 init fun h => (integrator q d G).discretise ch h) (gaussProblem N loc H y) none
        = .ok post := by
  intro G hG
  have hc : Companion q G := by
    rcases List.mem_cons.1 hG with rfl | hG
    · exact companion_matern q ℓ
    · rw [List.mem_singleton.1 hG]; exact companion_ioup q v
  exact ⟨fun h hh => integrator_noise_posDef hc ch hh, integrator_filtsmooth_ok hc ch t0 init hinit loc H hN hloc hH y⟩

/-- The hypotheses are met: a process with two coordinates and three derivatives, known initial state, values measured at the
times 0, 1, 2, ... with unit noise. -/
example : (∀ k, k + 1 < 5 → ((k : ℕ) : ℝ) < ((k + 1 : ℕ) : ℝ)) ∧
    (0 : Matrix (Fin (2 * (3 + 1))) (Fin (2 * (3 + 1))) ℝ).PosSemidef ∧ (1 : Matrix (Fin 2) (Fin 2) ℝ).PosDef :=
  ⟨fun k _ => by push_cast; linarith, Matrix.PosSemidef.zero, Matrix.PosDef.one⟩

/-- **C110.**  The stationary covariance of a Matérn process with positive diffusion is positive definite. -/
theorem stationary_posDef (hℓ : 0 < ℓ) (ch : CovCholesky (d * (q + 1))) {δ : ℝ} (hδ : 0 < δ)
    {S : Matrix (Fin (d * (q + 1))) (Fin (d * (q + 1))) ℝ}
    (hS : Stationary (fun h => (integrator q d (driftMatern q ℓ)).discretise ch h) δ S) : S.PosDef := by
  rw [stationary_unique hℓ ch hS]
  exact (IWP.kronEye_posDef d (statCov_posDef q hℓ)).smul hδ

/-! ## Specification: Gaussian process regression -/

/-- Covariance function of the Gaussian process prior: `d` independent copies of `Matern(lengthscale=ℓ, nu=q + 1/2)` times the
variance `(2q)! / (q!² (2 √(2ν)/ℓ)^(2q+1))`. -/
noncomputable def gpCov (q d : ℕ) (ℓ : ℝ) (s t : ℝ) (c c' : Fin d) : ℝ :=
  if c = c' then
    ((2 * q).factorial : ℝ) / ((q.factorial : ℝ) ^ 2 * (2 * (Real.sqrt (2 * (q + 1 / 2)) / ℓ)) ^ (2 * q + 1))
      * Cov.matern1 q ℓ s t
  else 0

/-- Gram matrix of the Gaussian process at the locations plus the covariances `R` of the noise. -/
def gram (N : ℕ) (k : ℝ → ℝ → Fin d → Fin d → ℝ) (loc : ℕ → ℝ) (R : ℕ → Matrix (Fin d) (Fin d) ℝ) :
    Matrix (Fin N × Fin d) (Fin N × Fin d) ℝ :=
  Matrix.of fun p p' => k (loc p.1) (loc p'.1) p.2 p'.2 + if p.1 = p'.1 then R p.1 p.2 p'.2 else 0

/-- Posterior mean of coordinate `c` at `t` given the data `y`. -/
noncomputable def gpMean (N : ℕ) (k : ℝ → ℝ → Fin d → Fin d → ℝ) (loc : ℕ → ℝ) (R : ℕ → Matrix (Fin d) (Fin d) ℝ)
    (y : ℕ → Fin d → ℝ) (t : ℝ) (c : Fin d) : ℝ :=
  (fun p : Fin N × Fin d => k t (loc p.1) c p.2) ⬝ᵥ ((gram N k loc R)⁻¹ *ᵥ fun p => y p.1 p.2)

/-- Posterior covariance between coordinate `c` at `s` and coordinate `c'` at `t`. -/
noncomputable def gpPost (N : ℕ) (k : ℝ → ℝ → Fin d → Fin d → ℝ) (loc : ℕ → ℝ) (R : ℕ → Matrix (Fin d) (Fin d) ℝ)
    (s t : ℝ) (c c' : Fin d) : ℝ :=
  k s t c c' - (fun p : Fin N × Fin d => k s (loc p.1) c p.2) ⬝ᵥ ((gram N k loc R)⁻¹ *ᵥ fun p => k t (loc p.1) c' p.2)

/-- **C110.**  Smoothing with a stationary Matérn process as prior is Gaussian process regression with the covariance function
`Matern`: for every order, dimension, lengthscale, all increasing locations (the first one may be the initial time), all
positive definite noises and all data, `filtsmooth` does not raise, and mean and covariance of the process values in its state
at location `k` are those of the Gaussian process posterior at this location. -/
theorem matern_smoothing_is_gp_regression (hℓ : 0 < ℓ) (ch : CovCholesky (d * (q + 1)))
    {S : Matrix (Fin (d * (q + 1))) (Fin (d * (q + 1))) ℝ}
    (hS : Stationary (fun h => (integrator q d (driftMatern q ℓ)).discretise ch h) 1 S) (t0 : ℝ) (loc : ℕ → ℝ) (hN : 0 < N)
    (h0 : t0 ≤ loc 0) (hloc : ∀ k, k + 1 < N → loc k < loc (k + 1)) (R : ℕ → Normal d) (hR0 : ∀ k, k < N → (R k).mean = 0)
    (hR : ∀ k, k < N → (R k).cov.PosDef) (y : ℕ → Fin d → ℝ) :
    ∃ states, filtsmooth (classicPrior t0 ⟨0, S⟩ fun h => (integrator q d (driftMatern q ℓ)).discretise ch h)
        (gaussProblem N loc (fun k => ⟨OdeFilter.proj d q 0, R k⟩) y) none = .ok ⟨(List.range N).map loc, states, false⟩ ∧
      ∀ k, k < N → ∃ s, states[k]? = some s ∧
        (∀ c, s.mean (finProdFinEquiv (c, 0)) = gpMean N (gpCov q d ℓ) loc (fun k => (R k).cov) y (loc k) c) ∧
        ∀ c c', s.cov (finProdFinEquiv (c, 0)) (finProdFinEquiv (c', 0))
          = gpPost N (gpCov q d ℓ) loc (fun k => (R k).cov) (loc k) (loc k) c c' := by
  set G := driftMatern q ℓ with hGdef
  set H : ℕ → Transition (d * (q + 1)) d := fun k => ⟨OdeFilter.proj d q 0, R k⟩ with hH
  set τ := stateTime t0 loc with hτ
  set A : ℕ → Transition (d * (q + 1)) (d * (q + 1)) :=
    fun k => gapTransition (fun h => (integrator q d G).discretise ch h) (τ (k + 1) - τ k) with hA
  have hSe := stationary_unique hℓ ch hS
  rw [one_smul] at hSe
  have hSp : S.PosSemidef := by rw [hSe]; exact (IWP.kronEye_posDef d (statCov_posDef q hℓ)).posSemidef
  have hstep : ∀ k, k < N → τ k ≤ τ (k + 1) := fun k hk => by
    cases k with
    | zero => exact h0
    | succ k => exact (hloc k hk).le
  have hmono : ∀ j k, j ≤ k → k ≤ N → τ j ≤ τ k := by
    intro j k hjk
    induction k, hjk using Nat.le_induction with
    | base => intro _; exact le_rfl
    | succ k hjk ih => intro hk; exact (ih (by omega)).trans (hstep k (by omega))
  have hmat : ∀ k, k < N → (A k).mat = IWP.kronEye d (NormedSpace.exp ((τ (k + 1) - τ k) • G)) := fun k hk => by
    simp only [hA, gapTransition]
    split_ifs with hg
    · rw [(matern_disc q d ℓ ch _).1, (mfdA_eq _ _ _).1]
    · have : τ (k + 1) - τ k = 0 := by have := hstep k hk; linarith
      simp [this, IWP.kronEye_one]
  have hm : ∀ k, k < N → (A k).noise.mean = 0 := fun k hk => by
    simp only [hA, gapTransition]
    split_ifs with hg
    · exact (matern_disc q d ℓ ch _).2.2
    · rfl
  have hst : ∀ k, k < N → (A k).mat * S * (A k).matᵀ + (A k).noise.cov = S := fun k hk => by
    simp only [hA, gapTransition]
    split_ifs with hg
    · have := (hS _ hg 0).2
      simpa [forwardClassic, Matrix.mul_assoc] using this
    · simp
  have hAp : ∀ k, (A k).noise.cov.PosSemidef := fun k => by
    simp only [hA, gapTransition]
    split_ifs with hg
    · exact (integrator_noise_posDef (companion_matern q ℓ) ch hg).posSemidef
    · exact Matrix.PosSemidef.zero
  obtain ⟨X, Y, hss⟩ := exists_stateSpace_psd N ⟨0, S⟩ A H hSp hAp fun k hk => (hR k hk).posSemidef
  let Φ : ℕ → ℕ → Matrix (Fin (d * (q + 1))) (Fin (d * (q + 1))) ℝ :=
    fun j k => IWP.kronEye d (NormedSpace.exp ((τ k - τ j) • G))
  let K : ℕ → ℕ → Matrix (Fin (d * (q + 1))) (Fin (d * (q + 1))) ℝ :=
    fun k j => if j ≤ k then Φ j k * S else (Φ k j * S)ᵀ
  have hcross : ∀ j k, j ≤ k → k ≤ N → CrossCov (stdBase (BaseIx (d * (q + 1)) d N)) (X k) (X j) (Φ j k * S) :=
    hss.chain.crossCov rfl hm hst Φ (fun j => by simp [Φ, IWP.kronEye_one]) fun j k _ hk => by
      rw [hmat k hk, IWP.kronEye_mul]
      have := mfdA_add G (dispersion1d q) (τ (k + 1) - τ k) (τ k - τ j)
      simp only [(mfdA_eq _ _ _).1, sub_add_sub_cancel] at this
      rw [← this]
  have hK : ∀ j k, j ≤ N → k ≤ N → CrossCov (stdBase (BaseIx (d * (q + 1)) d N)) (X j) (X k) (K j k) := fun j k hj hk => by
    by_cases h : k ≤ j
    · simp only [K, if_pos h]; exact hcross k j h hj
    · simp only [K, if_neg h]
      intro a b
      rw [covariance_comm, hcross j k (by omega) hk b a]; rfl
  have hval : ∀ s u, s ≤ u → ∀ c c' : Fin d, (IWP.kronEye d (NormedSpace.exp ((u - s) • G)) * S) (finProdFinEquiv (c, 0))
      (finProdFinEquiv (c', 0)) = gpCov q d ℓ u s c c' := fun s u hsu c c' => by
    rw [hSe, IWP.kronEye_mul, kronEye_pair, gpCov, autocov_eq q hℓ, outputScale, Cov.matern1, ← rate,
      Real.sqrt_sq (mul_nonneg (rate_pos q hℓ).le (sub_nonneg.2 hsu))]
  have hsymm : ∀ s u c c', gpCov q d ℓ u s c c' = gpCov q d ℓ s u c' c := fun s u c c' => by
    have : Cov.matern1 q ℓ u s = Cov.matern1 q ℓ s u := by
      rw [Cov.matern1, Cov.matern1]; congr 2; ring
    simp only [gpCov, this, eq_comm (a := c)]
  have hKval : ∀ j k, j < N → k < N → ∀ c c', K (j + 1) (k + 1) (finProdFinEquiv (c, 0)) (finProdFinEquiv (c', 0))
      = gpCov q d ℓ (loc j) (loc k) c c' := fun j k hj hk c c' => by
    by_cases h : k + 1 ≤ j + 1
    · simp only [K, if_pos h, Φ]
      exact hval _ _ (hmono _ _ h (by omega)) c c'
    · simp only [K, if_neg h, Φ, Matrix.transpose_apply]
      rw [hval _ _ (hmono _ _ (by omega) (by omega)) c' c, hsymm]
      rfl
  have hgram : obsCov N K H = gram N (gpCov q d ℓ) loc fun k => (R k).cov := by
    ext p p'
    simp only [obsCov, gram, Matrix.of_apply, Matrix.add_apply, hH]
    rw [Matrix.mul_assoc, proj_mul, mul_proj, hKval _ _ p.1.2 p'.1.2]
    congr 1
    by_cases h : p.1 = p'.1
    · rw [if_pos h, if_pos (congrArg _ h), h]
    · rw [if_neg h, if_neg fun h' => h (Fin.ext h')]; rfl
  have hdet : (obsCov N K H).det ≠ 0 := (obsCov_posDef hss hK hR).det_pos.ne'
  have hμ : ∀ k, k ≤ N → ∀ a, ∫ ω, X k ω a ∂(stdBase (BaseIx (d * (q + 1)) d N)) = (fun _ => 0 : ℕ → Fin (d * (q + 1)) → ℝ) k a :=
    fun k hk a => (hss.chain.stationary rfl hm hst k hk).mean a
  obtain ⟨post, hok⟩ := integrator_filtsmooth_ok (companion_matern q ℓ) ch t0 ⟨0, S⟩ hSp loc H hN hloc hR y
  have hmain := filtsmooth_is_regression t0 ⟨0, S⟩ _ N loc H X Y hss ⟨y, post, hok⟩ hμ hK hdet y
  refine ⟨_, hmain, fun k hk => ⟨_, by rw [List.getElem?_map, List.getElem?_range hk]; rfl, fun c => ?_, fun c c' => ?_⟩⟩
  · have hom : obsMean N (fun _ => 0 : ℕ → Fin (d * (q + 1)) → ℝ) H = 0 := by
      funext p
      simp [obsMean, hH, hR0 p.1 p.1.2]
    have hrow : (fun p : Fin N × Fin d => gpCov q d ℓ (loc k) (loc p.1) c p.2)
        = stateObsCov N K H k (finProdFinEquiv (c, 0)) := funext fun p => by
      simp only [stateObsCov, Matrix.of_apply, hH]
      rw [mul_proj, hKval _ _ hk p.1.2]
    show ((0 : Fin (d * (q + 1)) → ℝ) + _) _ = _
    rw [hom, sub_zero, zero_add, ← Matrix.mulVec_mulVec, gpMean, hrow, hgram]
    rfl
  · have hrow : ∀ c, (fun p : Fin N × Fin d => gpCov q d ℓ (loc k) (loc p.1) c p.2)
        = stateObsCov N K H k (finProdFinEquiv (c, 0)) := fun c => funext fun p => by
      simp only [stateObsCov, Matrix.of_apply, hH]
      rw [mul_proj, hKval _ _ hk p.1.2]
    show (K (k + 1) (k + 1) - _) _ _ = _
    rw [Matrix.sub_apply, hKval _ _ hk hk, gpPost, hrow, hrow, Matrix.mul_assoc, hgram]
    rfl

/-- A concrete case of the hypotheses: a twice integrated prior in two dimensions, three locations, the first at the initial
time, unit noise. -/
example (ch : CovCholesky (2 * (2 + 1))) : ∃ S, Stationary (fun h => (integrator 2 2 (driftMatern 2 3)).discretise ch h) 1 S ∧
    (0 : ℝ) ≤ ((0 : ℕ) : ℝ) ∧ (∀ k, k + 1 < 3 → ((k : ℕ) : ℝ) < ((k + 1 : ℕ) : ℝ)) ∧
    (1 : Matrix (Fin 2) (Fin 2) ℝ).PosDef := by
  obtain ⟨S, h1, -, -⟩ := matern_stationary (q := 2) (d := 2) (ℓ := 3) (by norm_num) ch zero_le_one
  exact ⟨S, h1, by norm_num, fun k _ => by push_cast; linarith, Matrix.PosDef.one⟩

end Probnum.SDE
