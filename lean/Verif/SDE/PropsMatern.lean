import Verif.SDE.StationaryLemmas
import Verif.SDE.Process

/-!
# Matérn processes in state-space form (C109)
-/

namespace Probnum.SDE

open Matrix Filter Topology MeasureTheory ProbabilityTheory LinGauss Kalman Gauss

/-- Specification: `N(0, S)` is a stationary distribution of the transitions `disc h` (`h > 0`) with diffusion `δ`: the
prediction from it has the same moments. -/
def Stationary {n : ℕ} (disc : ℝ → Transition n n) (δ : ℝ) (S : Matrix (Fin n) (Fin n) ℝ) : Prop :=
  ∀ h, 0 < h → ∀ L, (forwardClassic (disc h) δ ⟨0, S, L⟩).mean = 0 ∧ (forwardClassic (disc h) δ ⟨0, S, L⟩).cov = S

variable {q d N : ℕ} {ℓ : ℝ}

theorem stationary_unique (hℓ : 0 < ℓ) (ch : CovCholesky (d * (q + 1))) {δ : ℝ}
    {S : Matrix (Fin (d * (q + 1))) (Fin (d * (q + 1))) ℝ}
    (hS : Stationary (fun h => (integrator q d (driftMatern q ℓ)).discretise ch h) δ S) :
    S = δ • IWP.kronEye d (statCov q ℓ) := by
  ext r c
  refine tendsto_nhds_unique (tendsto_const_nhds.congr' ?_) (forward_cov_tendsto q d hℓ ch δ ⟨0, S, 0⟩ r c)
  filter_upwards [eventually_gt_atTop 0] with h hh
  rw [(hS h hh 0).2]

/-- **C109.**  For every order, dimension, positive lengthscale and diffusion the Matérn process has exactly one stationary
distribution (with mean zero), and its covariance is positive semidefinite. -/
theorem matern_stationary (hℓ : 0 < ℓ) (ch : CovCholesky (d * (q + 1))) {δ : ℝ} (hδ : 0 ≤ δ) :
    ∃ S, Stationary (fun h => (integrator q d (driftMatern q ℓ)).discretise ch h) δ S ∧ S.PosSemidef ∧
      ∀ S', Stationary (fun h => (integrator q d (driftMatern q ℓ)).discretise ch h) δ S' → S' = S := by
  refine ⟨δ • IWP.kronEye d (statCov q ℓ), fun h _ L => ⟨?_, ?_⟩, ?_, fun S' hS' => stationary_unique hℓ ch hS'⟩
  · simp [forwardClassic, (matern_disc q d ℓ ch h).2.2]
  · simp only [forwardClassic]
    rw [← Matrix.mul_assoc]
    exact stat_forward q d hℓ ch δ h
  · refine Matrix.PosSemidef.smul ?_ hδ
    refine Matrix.PosSemidef.of_dotProduct_mulVec_nonneg ?_ fun x => ?_
    · rw [Matrix.IsHermitian, Matrix.conjTranspose_eq_transpose_of_trivial, IWP.kronEye_transpose, statCov_symm]
    · have ht : Tendsto (fun h => star x ⬝ᵥ (((integrator q d (driftMatern q ℓ)).discretise ch h).noise.cov *ᵥ x)) atTop
          (𝓝 (star x ⬝ᵥ (IWP.kronEye d (statCov q ℓ) *ᵥ x))) := by
        simp only [dotProduct, Matrix.mulVec]
        exact tendsto_finsetSum _ fun r _ => (tendsto_finsetSum _ fun c _ =>
          (disc_cov_tendsto q d hℓ ch r c).mul_const _).const_mul _
      refine ge_of_tendsto ht ?_
      filter_upwards [eventually_gt_atTop 0] with h hh
      exact (discretise_noise_posSemidef ch _ hh.le).dotProduct_mulVec_nonneg x

/-- **C109.**  The initial distribution is forgotten: from every mean and covariance the predicted mean tends to zero and the
predicted covariance to the stationary one as the time step grows. -/
theorem matern_forgets (hℓ : 0 < ℓ) (ch : CovCholesky (d * (q + 1))) (δ : ℝ) (rv : Normal (d * (q + 1)))
    {S : Matrix (Fin (d * (q + 1))) (Fin (d * (q + 1))) ℝ}
    (hS : Stationary (fun h => (integrator q d (driftMatern q ℓ)).discretise ch h) δ S) (i j : Fin (d * (q + 1))) :
    Tendsto (fun h => (forwardClassic ((integrator q d (driftMatern q ℓ)).discretise ch h) δ rv).mean i) atTop (𝓝 0) ∧
    Tendsto (fun h => (forwardClassic ((integrator q d (driftMatern q ℓ)).discretise ch h) δ rv).cov i j) atTop
      (𝓝 (S i j)) := by
  constructor
  · simp only [forwardClassic, Pi.add_apply, (matern_disc q d ℓ ch _).2.2, Pi.zero_apply, add_zero, Matrix.mulVec, dotProduct]
    have h0 : Tendsto (fun h => ∑ k, ((integrator q d (driftMatern q ℓ)).discretise ch h).mat i k * rv.mean k) atTop
        (𝓝 (∑ k : Fin (d * (q + 1)), 0 * rv.mean k)) :=
      tendsto_finsetSum _ fun k _ => (disc_mat_tendsto q d hℓ ch i k).mul_const _
    simpa using h0
  · rw [stationary_unique hℓ ch hS]
    exact forward_cov_tendsto q d hℓ ch δ rv i j

/-- **C109.**  A Matérn process that starts in the stationary distribution is, in each of its `d` coordinates, the Gaussian
process with mean zero and the covariance function `Matern(lengthscale=ℓ, nu=q + 1/2)` times a constant variance; the
coordinates are independent.  Stated for the states at all finite increasing grids. -/
theorem matern_covariance (hℓ : 0 < ℓ) (ch : CovCholesky (d * (q + 1)))
    {S : Matrix (Fin (d * (q + 1))) (Fin (d * (q + 1))) ℝ}
    (hS : Stationary (fun h => (integrator q d (driftMatern q ℓ)).discretise ch h) 1 S)
    (t : ℕ → ℝ) (ht : ∀ k, k < N → t k < t (k + 1)) {Ω : Type*} {mΩ : MeasurableSpace Ω} {P : Measure Ω}
    {X : ℕ → Ω → Fin (d * (q + 1)) → ℝ}
    (hX : MarkovChain P N ⟨0, S⟩ (fun k => (integrator q d (driftMatern q ℓ)).discretise ch (t (k + 1) - t k)) X) :
    IsNormal P (fun ω (p : Fin (N + 1) × Fin d) => X p.1 ω (finProdFinEquiv (p.2, 0))) 0
      (Matrix.of fun p p' => if p.2 = p'.2 then
        ((2 * q).factorial : ℝ) / ((q.factorial : ℝ) ^ 2 * (2 * (Real.sqrt (2 * (q + 1 / 2)) / ℓ)) ^ (2 * q + 1))
          * Cov.matern1 q ℓ (t p.1) (t p'.1) else 0) := by
  have hS' := stationary_unique hℓ ch hS
  rw [one_smul] at hS'
  have hr := rate_pos q hℓ
  have hm : ∀ k, k < N → ((integrator q d (driftMatern q ℓ)).discretise ch (t (k + 1) - t k)).noise.mean = 0 :=
    fun k _ => (matern_disc q d ℓ ch _).2.2
  have hst : ∀ k, k < N → ((integrator q d (driftMatern q ℓ)).discretise ch (t (k + 1) - t k)).mat * S
      * ((integrator q d (driftMatern q ℓ)).discretise ch (t (k + 1) - t k)).matᵀ
      + ((integrator q d (driftMatern q ℓ)).discretise ch (t (k + 1) - t k)).noise.cov = S := fun k hk => by
    have := (hS _ (sub_pos.2 (ht k hk)) 0).2
    simpa [forwardClassic, Matrix.mul_assoc] using this
  have hg := hX.gaussian N le_rfl
  let L : (Fin (N + 1) × Fin (d * (q + 1)) → ℝ) →ₗ[ℝ] (Fin (N + 1) × Fin d → ℝ) :=
    { toFun := fun z p => z (p.1, finProdFinEquiv (p.2, 0))
      map_add' := fun _ _ => rfl
      map_smul' := fun _ _ => rfl }
  have hmono : ∀ j k, j ≤ k → k ≤ N → t j ≤ t k := by
    intro j k hjk
    induction k, hjk using Nat.le_induction with
    | base => intro _; exact le_rfl
    | succ k hjk ih => intro hk; exact (ih (by omega)).trans (ht k (by omega)).le
  have hval : ∀ s u, s ≤ u → (NormedSpace.exp ((u - s) • driftMatern q ℓ) * statCov q ℓ) 0 0
      = ((2 * q).factorial : ℝ) / ((q.factorial : ℝ) ^ 2 * (2 * (Real.sqrt (2 * (q + 1 / 2)) / ℓ)) ^ (2 * q + 1))
          * Cov.matern1 q ℓ u s := fun s u hsu => by
    rw [autocov_eq q hℓ, outputScale, Cov.matern1, ← rate, Real.sqrt_sq (mul_nonneg hr.le (sub_nonneg.2 hsu))]
  have hsym : ∀ s u, Cov.matern1 q ℓ u s = Cov.matern1 q ℓ s u := fun s u => by
    rw [Cov.matern1, Cov.matern1]
    congr 2
    ring
  have hcov : ∀ j k, j ≤ k → k ≤ N → ∀ c c', cov[fun ω => X k ω (finProdFinEquiv (c, 0)),
      fun ω => X j ω (finProdFinEquiv (c', 0)); P] = if c = c' then
        ((2 * q).factorial : ℝ) / ((q.factorial : ℝ) ^ 2 * (2 * (Real.sqrt (2 * (q + 1 / 2)) / ℓ)) ^ (2 * q + 1))
          * Cov.matern1 q ℓ (t k) (t j) else 0 := fun j k hjk hk c c' => by
    have h1 := hX.crossCov rfl hm hst (fun j k => IWP.kronEye d (NormedSpace.exp ((t k - t j) • driftMatern q ℓ)))
      (fun j => by simp [IWP.kronEye_one]) (fun j k _ _ => by
        rw [(matern_disc q d ℓ ch _).1, IWP.kronEye_mul, (mfdA_eq _ _ _).1]
        have := mfdA_add (driftMatern q ℓ) (dispersion1d q) (t (k + 1) - t k) (t k - t j)
        simp only [(mfdA_eq _ _ _).1, sub_add_sub_cancel] at this
        rw [this]) j k hjk hk (finProdFinEquiv (c, 0)) (finProdFinEquiv (c', 0))
    rw [h1]
    show (IWP.kronEye d (NormedSpace.exp ((t k - t j) • driftMatern q ℓ)) * S) _ _ = _
    rw [hS', IWP.kronEye_mul, kronEye_pair, hval _ _ (hmono j k hjk hk)]
  refine ⟨hg.map_fun (LinearMap.toContinuousLinearMap L), fun p => ?_, fun p p' => ?_⟩
  · exact (hX.stationary rfl hm hst p.1.1 (by omega)).mean _
  · rw [Matrix.of_apply]
    rcases le_total p'.1.1 p.1.1 with h | h
    · exact hcov _ _ h (by omega) _ _
    · rw [covariance_comm, hcov _ _ h (by omega), hsym]
      by_cases hc : p.2 = p'.2
      · rw [if_pos hc, if_pos hc.symm]
      · rw [if_neg hc, if_neg fun h' => hc h'.symm]

/-- Such processes exist on every grid (the hypotheses of `matern_covariance` can be met). -/
example (hℓ : 0 < ℓ) (ch : CovCholesky (2 * (1 + 1))) :
    ∃ S, Stationary (fun h => (integrator 1 2 (driftMatern 1 ℓ)).discretise ch h) 1 S ∧
      ∃ X, MarkovChain (stdBase (FBase (2 * (1 + 1)) N)) N ⟨0, S⟩
        (fun k => (integrator 1 2 (driftMatern 1 ℓ)).discretise ch (((k + 1 : ℕ) : ℝ) - (k : ℝ))) X := by
  obtain ⟨S, h1, h2, -⟩ := matern_stationary (q := 1) (d := 2) hℓ ch zero_le_one
  exact ⟨S, h1, exists_markovChain ch N ⟨0, S⟩ _ h2 fun k _ => discretise_noise_posSemidef ch _ (by push_cast; linarith)⟩

/-- **C109**, the call of the API: `forward_rv` from the stationary distribution `N(0, δ S)` with a stored Cholesky factor
returns the stationary distribution, up to the damping `ε` of `cov_cholesky`, and the cross-covariance between now and the
time `h` later is that of the Matérn covariance function. -/
theorem matern_forward_rv (hℓ : 0 < ℓ) (ch : CovCholesky (d * (q + 1))) {h ε δ : ℝ} (hh : 0 < h) (hε : 0 ≤ ε) (hδ : 0 ≤ δ)
    {S F : Matrix (Fin (d * (q + 1))) (Fin (d * (q + 1))) ℝ}
    (hS : Stationary (fun h => (integrator q d (driftMatern q ℓ)).discretise ch h) δ S) (hF : F * Fᵀ = S) :
    ∃ out, forwardRv q d (driftMatern q ℓ) ch ε h δ ⟨0, S, some F⟩ = some out ∧ out.rv.mean = 0 ∧
      out.rv.cov = S + ε • (IWP.precon q d h * (IWP.precon q d h)ᵀ) ∧
      ∀ c c', out.crosscov (finProdFinEquiv (c, 0)) (finProdFinEquiv (c', 0)) = if c = c' then δ *
        (((2 * q).factorial : ℝ) / ((q.factorial : ℝ) ^ 2 * (2 * (Real.sqrt (2 * (q + 1 / 2)) / ℓ)) ^ (2 * q + 1))
          * Cov.matern1 q ℓ h 0) else 0 := by
  have hp : S.PosSemidef := by
    have := Matrix.posSemidef_self_mul_conjTranspose F
    rwa [Matrix.conjTranspose_eq_transpose_of_trivial, hF] at this
  obtain ⟨out, h1, h2⟩ := integrator_forward_exact q d (driftMatern q ℓ) ch hh hε hδ ⟨0, S, some F⟩
    (fun F' h' => by rw [← Option.some.inj h']; exact hF) hp
  obtain ⟨e1, e2, e3⟩ := h2 0
  obtain ⟨f1, f2⟩ := hS h hh 0
  refine ⟨out, h1, e1.trans f1, by rw [e2]; exact congrArg (· + _) f2, fun c c' => ?_⟩
  rw [e3]
  have hr := rate_pos q hℓ
  show (S * ((integrator q d (driftMatern q ℓ)).discretise ch h).matᵀ) _ _ = _
  rw [(matern_disc q d ℓ ch h).1, stationary_unique hℓ ch hS, IWP.kronEye_transpose, Matrix.smul_mul, IWP.kronEye_mul,
    Matrix.smul_apply, kronEye_pair, smul_eq_mul]
  by_cases hc : c = c'
  · rw [if_pos hc, if_pos hc]
    congr 1
    have : statCov q ℓ * (mfdA (driftMatern q ℓ) (dispersion1d q) h)ᵀ
        = (mfdA (driftMatern q ℓ) (dispersion1d q) h * statCov q ℓ)ᵀ := by rw [Matrix.transpose_mul, statCov_symm]
    rw [this, Matrix.transpose_apply, (mfdA_eq _ _ _).1, autocov_eq q hℓ, outputScale, Cov.matern1, ← rate, sub_zero,
      Real.sqrt_sq (mul_nonneg hr.le hh.le)]
  · rw [if_neg hc, if_neg hc, mul_zero]

/-- The stationary covariance of every Matérn process has a Cholesky factor. -/
example (hℓ : 0 < ℓ) (ch : CovCholesky (2 * (3 + 1))) : ∃ S F,
    Stationary (fun h => (integrator 3 2 (driftMatern 3 ℓ)).discretise ch h) 1 S ∧ F * Fᵀ = S := by
  obtain ⟨S, h1, h2, -⟩ := matern_stationary (q := 3) (d := 2) hℓ ch zero_le_one
  exact ⟨S, ch.factor S, h1, ch.gram S h2⟩

/-- The default initial random variable. -/
theorem initRv_default (n : ℕ) (diffuse : Bool) :
    (initRv n none diffuse).mean = 0 ∧ (initRv n none diffuse).cov = (if diffuse then 1000000 else 1 : ℝ) • 1 := by
  refine ⟨rfl, ?_⟩
  ext i j
  cases diffuse <;> by_cases h : i = j
  · subst h; simp [initRv]
  · simp [initRv, h]
  · subst h; simp [initRv]; norm_num
  · simp [initRv, h]

/-- **C109**, the argument `initrv`: the process starts in the random variable passed, whatever `diffuse` says, and is
stationary if and only if the covariance of that random variable is the stationary one. -/
theorem matern_argument_stationary_iff (hℓ : 0 < ℓ) (ch : CovCholesky (d * (q + 1))) (rv : IWP.Rv (d * (q + 1)))
    (diffuse : Bool) {S : Matrix (Fin (d * (q + 1))) (Fin (d * (q + 1))) ℝ}
    (hS : Stationary (fun h => (integrator q d (driftMatern q ℓ)).discretise ch h) 1 S) :
    (initRv (d * (q + 1)) (some rv) diffuse).mean = rv.mean ∧
      (Stationary (fun h => (integrator q d (driftMatern q ℓ)).discretise ch h) 1
        (initRv (d * (q + 1)) (some rv) diffuse).cov ↔ rv.cov = S) := by
  refine ⟨rfl, fun h => ?_, fun h => ?_⟩
  · exact (stationary_unique hℓ ch h).trans (stationary_unique hℓ ch hS).symm
  · show Stationary _ 1 rv.cov
    rw [h]
    exact hS

example (hℓ : 0 < ℓ) (ch : CovCholesky (2 * (3 + 1))) : ∃ (rv : IWP.Rv (2 * (3 + 1))) (S : _),
    Stationary (fun h => (integrator 3 2 (driftMatern 3 ℓ)).discretise ch h) 1 S ∧ rv.cov = S := by
  obtain ⟨S, h1, h2, -⟩ := matern_stationary (q := 3) (d := 2) hℓ ch zero_le_one
  exact ⟨⟨0, S, none⟩, S, h1, rfl⟩

/-- Violation of **C109** by the default arguments: without an `initrv`, a `MaternProcess` is stationary only if it is of order
zero and has the lengthscale 2 (2·10⁶ if `diffuse`). -/
theorem matern_default_stationary_iff (hℓ : 0 < ℓ) (hd : 0 < d) (ch : CovCholesky (d * (q + 1))) (diffuse : Bool) :
    Stationary (fun h => (integrator q d (driftMatern q ℓ)).discretise ch h) 1 (initRv (d * (q + 1)) none diffuse).cov ↔
      q = 0 ∧ ℓ = if diffuse then 2000000 else 2 := by
  set s : ℝ := if diffuse then 1000000 else 1 with hs
  have hsv : s = 1 ∨ s = 1000000 := by rw [hs]; cases diffuse <;> simp
  have hls : (if diffuse then (2000000 : ℝ) else 2) = 2 * s := by rw [hs]; cases diffuse <;> norm_num
  rw [(initRv_default _ diffuse).2, ← hs, hls]
  have hspos : 0 < s := by rcases hsv with h | h <;> rw [h] <;> norm_num
  constructor
  · intro h
    have h1 := stationary_unique hℓ ch h
    rw [one_smul, ← IWP.kronEye_one, IWP.kronEye_smul] at h1
    have h2 := kronEye_inj hd h1
    have h3 := statCov_lyapunov q hℓ
    rw [← h2] at h3
    simp only [Matrix.mul_smul, Matrix.mul_one, Matrix.smul_mul, Matrix.one_mul] at h3
    have hr := rate_pos q hℓ
    have hent : ∀ i j, s * driftMatern q ℓ i j + s * driftMatern q ℓ j i + (if i.1 = q ∧ j.1 = q then 1 else 0) = 0 := fun i j => by
      have := congrFun (congrFun h3 i) j
      simp only [Matrix.add_apply, Matrix.smul_apply, smul_eq_mul, Matrix.transpose_apply, Matrix.mul_apply, dispersion1d,
        Matrix.of_apply, Finset.univ_unique, Finset.sum_singleton, Matrix.zero_apply] at this
      refine Eq.trans (congrArg _ ?_) this
      by_cases a : i.1 = q
      · by_cases b : j.1 = q
        · rw [if_pos ⟨a, b⟩, if_pos a, if_pos b, one_mul]
        · rw [if_neg fun h => b h.2, if_neg b, mul_zero]
      · rw [if_neg fun h => a h.1, if_neg a, zero_mul]
    match q, h3, hr, hent with
    | 0, _, hr, hent =>
      refine ⟨rfl, ?_⟩
      have := hent 0 0
      simp only [driftMatern, Matrix.of_apply] at this
      norm_num at this
      field_simp at this
      linarith
    | 1, _, hr, hent =>
      exfalso
      have h01 := hent 0 1
      have h11 := hent 1 1
      simp only [driftMatern, Matrix.of_apply] at h01 h11
      rw [show ((1 : ℕ) : ℝ) = 1 by norm_num] at h01 h11
      rw [← show rate 1 ℓ = Real.sqrt (2 * (1 + 1 / 2)) / ℓ by simp [rate]] at h01 h11
      norm_num [Nat.choose] at h01 h11
      have l1 : rate 1 ℓ ^ 2 = 1 := by
        have : s * (rate 1 ℓ ^ 2 - 1) = 0 := by linarith
        rcases mul_eq_zero.1 this with h | h <;> linarith
      have l2 : rate 1 ℓ = 1 := by nlinarith
      rw [l2] at h11
      rcases hsv with h | h <;> rw [h] at h11 <;> norm_num at h11
    | q + 2, _, hr, hent =>
      exfalso
      have h01 := hent ⟨0, by omega⟩ ⟨1, by omega⟩
      simp only [driftMatern, Matrix.of_apply] at h01
      have a0 : ¬(0 = q + 2) := by omega
      have a1 : ¬(1 = q + 2) := by omega
      rw [if_neg a0, if_pos trivial, if_neg a1, if_neg (by norm_num), if_neg fun h => a0 h.1] at h01
      linarith
  · rintro ⟨rfl, rfl⟩
    obtain ⟨S, h1, -, -⟩ := matern_stationary (q := 0) (d := d) hℓ ch zero_le_one
    have h2 := stationary_unique hℓ ch h1
    have h3 : statCov 0 (2 * s) = s • 1 := by
      ext i j
      have h4 := autocov_eq 0 hℓ (τ := 0)
      rw [zero_smul, NormedSpace.exp_zero, Matrix.one_mul, mul_zero] at h4
      rw [show i = 0 from Fin.ext (by omega), show j = 0 from Fin.ext (by omega), h4, Cov.matern_value]
      simp [outputScale, rate, Cov.maternCoefficient]
      ring
    rw [one_smul, h3, ← IWP.kronEye_smul, IWP.kronEye_one] at h2
    rw [← h2]; exact h1

/-! ## Integrated Ornstein-Uhlenbeck processes -/

theorem exp_ioup_last (q : ℕ) (v t : ℝ) (j : Fin (q + 1)) :
    NormedSpace.exp (t • driftIoup q v) (Fin.last q) j = if j = Fin.last q then Real.exp (-(v * t)) else 0 := by
  have hG : ∀ M : Matrix (Fin (q + 1)) (Fin (q + 1)) ℝ, ∀ j, (driftIoup q v * M) (Fin.last q) j = -v * M (Fin.last q) j :=
    fun M j => by
    rw [Matrix.mul_apply, Finset.sum_eq_single (Fin.last q)]
    · simp [driftIoup]
    · intro b _ hb
      have hb' : b.1 ≠ q := fun h => hb (Fin.ext (by simpa using h))
      have hb2 := b.2
      simp only [driftIoup, Matrix.of_apply, Fin.val_last]
      rw [if_neg fun h => hb' h.2, if_neg (by omega), zero_mul]
    · simp
  have h := linear_unique (ι := Fin 1) (κ := Fin (q + 1)) ((-v) • 1)
    (X := fun t => Matrix.of fun _ j => NormedSpace.exp (t • driftIoup q v) (Fin.last q) j)
    (Y := fun t => Matrix.of fun _ j => if j = Fin.last q then Real.exp (-(v * t)) else 0) (C := fun _ => 0)
    (fun t i j => by
      have := mderiv_exp (driftIoup q v) t (Fin.last q) j
      rw [hG] at this
      simpa using this)
    (fun t i j => by
      simp only [Matrix.of_apply]
      by_cases hj : j = Fin.last q
      · simp only [if_pos hj]
        have := ((hasDerivAt_id t).const_mul v).neg.exp
        refine this.congr_deriv ?_
        simp [hj]
        ring
      · simp only [if_neg hj]
        refine (hasDerivAt_const t (0 : ℝ)).congr_deriv ?_
        simp [hj])
    (by
      ext i j
      simp only [Matrix.of_apply, zero_smul, NormedSpace.exp_zero, mul_zero, neg_zero, Real.exp_zero, Matrix.one_apply]
      by_cases hj : j = Fin.last q
      · rw [if_pos hj, if_pos hj.symm]
      · rw [if_neg hj, if_neg fun h => hj h.symm]) t
  exact congrFun (congrFun h 0) j

theorem ioup_noise_last (q : ℕ) {v : ℝ} (hv : 0 < v) (h : ℝ) :
    mfdQ (driftIoup q v) (dispersion1d q) h (Fin.last q) (Fin.last q) = (1 - Real.exp (-(2 * v * h))) / (2 * v) := by
  rw [mfdQ_entry]
  simp only [exp_ioup_last, if_true]
  have hd : ∀ u : ℝ, HasDerivAt (fun u : ℝ => -Real.exp (-(2 * v * u)) / (2 * v))
      (Real.exp (-(v * u)) * Real.exp (-(v * u))) u := fun u => by
    refine ((((hasDerivAt_id u).const_mul (2 * v)).neg.exp.neg).div_const (2 * v)).congr_deriv ?_
    rw [← Real.exp_add]
    simp only [id, mul_one]
    rw [show -(v * u) + -(v * u) = -(2 * v * u) by ring]
    field_simp
    rfl
  rw [intervalIntegral.integral_eq_sub_of_hasDerivAt (fun u _ => hd u)
    ((by fun_prop : Continuous fun u : ℝ => Real.exp (-(v * u)) * Real.exp (-(v * u))).intervalIntegrable _ _)]
  simp
  ring

/-- **C109**, integrated Ornstein-Uhlenbeck processes: if the highest derivatives start with mean zero, independent and with
variance `1/(2 speed)`, they are independent Gaussian processes with the covariance function
`exp(-speed |s - t|)/(2 speed)`, that is `Matern(nu=1/2, lengthscale=1/speed)` up to scale, whatever the distribution of the
other coordinates. -/
theorem ioup_covariance {v : ℝ} (hv : 0 < v) (ch : CovCholesky (d * (q + 1))) (init : Updated (d * (q + 1)))
    (h0 : ∀ c : Fin d, init.mean (finProdFinEquiv (c, Fin.last q)) = 0)
    (hC : ∀ c c' : Fin d, init.cov (finProdFinEquiv (c, Fin.last q)) (finProdFinEquiv (c', Fin.last q))
      = if c = c' then 1 / (2 * v) else 0)
    (t : ℕ → ℝ) (ht : ∀ k, k < N → t k < t (k + 1)) {Ω : Type*} {mΩ : MeasurableSpace Ω} {P : Measure Ω}
    {X : ℕ → Ω → Fin (d * (q + 1)) → ℝ}
    (hX : MarkovChain P N init (fun k => (integrator q d (driftIoup q v)).discretise ch (t (k + 1) - t k)) X) :
    IsNormal P (fun ω (p : Fin (N + 1) × Fin d) => X p.1 ω (finProdFinEquiv (p.2, Fin.last q))) 0
      (Matrix.of fun p p' => if p.2 = p'.2 then 1 / (2 * v) * Cov.matern1 0 (1 / v) (t p.1) (t p'.1) else 0) := by
  let E : Matrix (Fin d) (Fin (d * (q + 1))) ℝ := Matrix.of fun c r => if r = finProdFinEquiv (c, Fin.last q) then 1 else 0
  let B : ℕ → Transition d d := fun k => ⟨Real.exp (-(v * (t (k + 1) - t k))) • 1,
    ⟨0, ((1 - Real.exp (-(2 * v * (t (k + 1) - t k)))) / (2 * v)) • 1, 0⟩⟩
  have hE : ∀ {κ : Type} (M : Matrix (Fin (d * (q + 1))) κ ℝ) c j, (E * M) c j = M (finProdFinEquiv (c, Fin.last q)) j :=
    fun M c j => by
    rw [Matrix.mul_apply, Finset.sum_eq_single (finProdFinEquiv (c, Fin.last q))]
    · simp [E]
    · intro b _ hb; simp [E, hb]
    · simp
  have hEv : ∀ (x : Fin (d * (q + 1)) → ℝ) c, (E *ᵥ x) c = x (finProdFinEquiv (c, Fin.last q)) := fun x c => by
    rw [Matrix.mulVec, dotProduct, Finset.sum_eq_single (finProdFinEquiv (c, Fin.last q))]
    · simp [E]
    · intro b _ hb; simp [E, hb]
    · simp
  have hEE : ∀ (M : Matrix (Fin (d * (q + 1))) (Fin (d * (q + 1))) ℝ) c c', (E * M * Eᵀ) c c'
      = M (finProdFinEquiv (c, Fin.last q)) (finProdFinEquiv (c', Fin.last q)) := fun M c c' => by
    have : E * M * Eᵀ = (E * (E * M)ᵀ)ᵀ := by rw [Matrix.transpose_mul, Matrix.transpose_transpose]
    rw [this, Matrix.transpose_apply, hE, Matrix.transpose_apply, hE]
  have hdisc : ∀ h, ((integrator q d (driftIoup q v)).discretise ch h).mat
        = IWP.kronEye d (NormedSpace.exp (h • driftIoup q v)) ∧
      ((integrator q d (driftIoup q v)).discretise ch h).noise.cov
        = IWP.kronEye d (mfdQ (driftIoup q v) (dispersion1d q) h) ∧
      ((integrator q d (driftIoup q v)).discretise ch h).noise.mean = 0 := fun h => by
    obtain ⟨e1, e2, e3⟩ := discretise_eq ch (integrator q d (driftIoup q v)) h
    refine ⟨?_, e2.trans (mfd_kron q d _ h).2, ?_⟩
    · rw [e1, (mfd_kron q d _ h).1, (mfdA_eq _ _ _).1]
    · rw [e3]
      have : (integrator q d (driftIoup q v)).force ∘ Fin.rev = 0 := rfl
      rw [this, Matrix.mulVec_zero]
  have hY := hX.project E B (fun k _ => by
      ext c r
      obtain ⟨⟨c', j⟩, rfl⟩ := finProdFinEquiv.surjective r
      rw [hE, (hdisc _).1, kronEye_pair, exp_ioup_last]
      simp only [B, Matrix.smul_mul, Matrix.one_mul, Matrix.smul_apply, smul_eq_mul, E, Matrix.of_apply,
        Equiv.apply_eq_iff_eq, Prod.mk.injEq]
      by_cases a : c = c' <;> by_cases b : j = Fin.last q
      · simp [a, b]
      · simp [a, b]
      · have : ¬c' = c := fun h => a h.symm
        simp [a, b, this]
      · simp [a, b])
    (fun k _ => by rw [(hdisc _).2.2, Matrix.mulVec_zero])
    (fun k _ => by
      ext c c'
      rw [hEE, (hdisc _).2.1, kronEye_pair, ioup_noise_last q hv]
      by_cases a : c = c'
      · simp [B, a]
      · simp [B, a])
  have i0 : E *ᵥ init.mean = 0 := funext fun c => by rw [hEv, h0]; rfl
  have iC : E * init.cov * Eᵀ = (1 / (2 * v)) • 1 := by
    ext c c'
    rw [hEE, hC]
    by_cases a : c = c'
    · simp [a]
    · simp [a]
  rw [i0, iC] at hY
  have hst : ∀ k, k < N → (B k).mat * ((1 / (2 * v)) • (1 : Matrix (Fin d) (Fin d) ℝ)) * (B k).matᵀ + (B k).noise.cov
      = (1 / (2 * v)) • 1 := fun k _ => by
    simp only [B, Matrix.transpose_smul, Matrix.transpose_one, Matrix.smul_mul, Matrix.mul_smul, Matrix.one_mul, smul_smul]
    rw [← add_smul]
    congr 1
    rw [show Real.exp (-(2 * v * (t (k + 1) - t k))) = Real.exp (-(v * (t (k + 1) - t k))) * Real.exp (-(v * (t (k + 1) - t k))) by
      rw [← Real.exp_add]; ring_nf]
    field_simp
    ring
  have hmono : ∀ j k, j ≤ k → k ≤ N → t j ≤ t k := by
    intro j k hjk
    induction k, hjk using Nat.le_induction with
    | base => intro _; exact le_rfl
    | succ k hjk ih => intro hk; exact (ih (by omega)).trans (ht k (by omega)).le
  have hval : ∀ s u, s ≤ u → Real.exp (-(v * (u - s))) = Cov.matern1 0 (1 / v) u s := fun s u hsu => by
    rw [Cov.matern1, Cov.matern_value]
    have e : Real.sqrt (2 * ((0 : ℕ) + 1 / 2)) / (1 / v) = v := by norm_num
    rw [e, Real.sqrt_sq (mul_nonneg hv.le (sub_nonneg.2 hsu))]
    simp [Cov.maternCoefficient]
  have hsym : ∀ s u, Cov.matern1 0 (1 / v) u s = Cov.matern1 0 (1 / v) s u := fun s u => by
    rw [Cov.matern1, Cov.matern1]
    congr 2
    ring
  have hcov : ∀ j k, j ≤ k → k ≤ N → ∀ c c', cov[fun ω => (E *ᵥ X k ω) c, fun ω => (E *ᵥ X j ω) c'; P]
      = if c = c' then 1 / (2 * v) * Cov.matern1 0 (1 / v) (t k) (t j) else 0 := fun j k hjk hk c c' => by
    have h1 := hY.crossCov rfl (fun _ _ => rfl) hst (fun j k => Real.exp (-(v * (t k - t j))) • 1)
      (fun j => by simp) (fun j k _ _ => by
        simp only [B, Matrix.smul_mul, Matrix.one_mul, smul_smul]
        rw [← Real.exp_add]; congr 2; ring) j k hjk hk c c'
    rw [h1, ← hval _ _ (hmono j k hjk hk)]
    by_cases a : c = c'
    · simp [a]
    · simp [a]
  have hg := hY.gaussian N le_rfl
  refine ⟨?_, fun p => ?_, fun p p' => ?_⟩
  · simp only [hEv] at hg; exact hg
  · have := (hY.stationary rfl (fun _ _ => rfl) hst p.1.1 (by omega)).mean p.2
    simp only [hEv] at this
    exact this
  · rw [Matrix.of_apply]
    simp only [hEv] at hcov
    rcases le_total p'.1.1 p.1.1 with h | h
    · exact hcov _ _ h (by omega) _ _
    · rw [covariance_comm, hcov _ _ h (by omega), hsym]
      by_cases hc : p.2 = p'.2
      · rw [if_pos hc, if_pos hc.symm]
      · rw [if_neg hc, if_neg fun h' => hc h'.symm]

/-- A concrete initial law with these highest derivatives. -/
example : ∀ c c' : Fin 2, ((1 / (2 * (3 : ℝ))) • (1 : Matrix (Fin (2 * (1 + 1))) (Fin (2 * (1 + 1))) ℝ))
    (finProdFinEquiv (c, Fin.last 1)) (finProdFinEquiv (c', Fin.last 1)) = if c = c' then 1 / (2 * (3 : ℝ)) else 0 := by
  intro c c'
  by_cases h : c = c'
  · simp [h]
  · simp [h, Matrix.one_apply]

end Probnum.SDE
