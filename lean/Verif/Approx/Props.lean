import Verif.Approx.Lemmas

/-!
# C51: extended and unscented Kalman components

Specification (`Verif/Gauss/Spec.lean`): for a state `X` and independent noise `N`, the prediction is the law of
`g(X) + N` and the update is the conditional law of `X` given `g(X) + N`.
-/

namespace Probnum.Approx

open Matrix LinGauss MeasureTheory ProbabilityTheory Probnum.Gauss

variable {n m : ℕ} {Ω : Type*} {mΩ : MeasurableSpace Ω} {P : Measure Ω}

/-- The model is affine with the right Jacobian: `g(x) = A x + b`, `dg = A`. -/
structure Affine (M : Nonlinear n m) (A : Matrix (Fin m) (Fin n) ℝ) (b : Fin m → ℝ) : Prop where
  fn : ∀ x, M.g x = A *ᵥ x + b
  jac : M.jac = some fun _ => A

/-- An affine model with two states and one output. -/
noncomputable def demo : Nonlinear 2 1 :=
  { g := fun x => !![1, 2] *ᵥ x + ![3]
    jac := some fun _ => !![1, 2]
    noise := ⟨![0], !![1], !![1]⟩ }

theorem demo_affine : Affine demo !![1, 2] ![3] := ⟨fun _ => rfl, rfl⟩

/-! ## Extended Kalman component -/

/-- On an affine model the linearised transition is the exact one, whatever the linearisation point, so every forward
and backward implementation of the component is that of the exact linear Gaussian transition. -/
theorem ekf_linearize_exact {M : Nonlinear n m} {A : Matrix (Fin m) (Fin n) ℝ} {b : Fin m → ℝ} (h : Affine M A b) :
    ∃ lin, ekfComponent M = .ok lin ∧
      ∀ r, lin r = { mat := A, noise := ⟨b + M.noise.mean, M.noise.cov, M.noise.chol⟩ } := by
  refine ⟨fun rv => ekfLinearize M (fun _ => A) rv.mean, by simp [ekfComponent, Nonlinear.jacobian, h.jac], fun r => ?_⟩
  simp [ekfLinearize, h.fn]

/-- **C51 (a).**  Prediction with the extended component on an affine model is exact: the returned mean, covariance
and cross-covariance are those of `g(X) + N`, for every linearisation point and diffusion. -/
theorem ekf_forward_exact {M : Nonlinear n m} {A : Matrix (Fin m) (Fin n) ℝ} {b : Fin m → ℝ} (h : Affine M A b)
    (at? : Option (Normal n)) (d : ℝ) (rv : Normal n) (X : Ω → Fin n → ℝ) (N : Ω → Fin m → ℝ)
    (hX : IsNormal P X rv.mean rv.cov) (hN : IsNormal P N M.noise.mean (d • M.noise.cov)) (hXN : IndepFun X N P) :
    ∃ lin, ekfComponent M = .ok lin ∧
      IsNormal P (fun ω => M.g (X ω) + N ω) (forwardRv lin at? d rv).mean (forwardRv lin at? d rv).cov ∧
      CrossCov P X (fun ω => M.g (X ω) + N ω) (forwardRv lin at? d rv).crosscov := by
  obtain ⟨lin, h1, h2⟩ := ekf_linearize_exact h
  refine ⟨lin, h1, ?_⟩
  have hN' : IsNormal P (fun ω => N ω + b) (b + M.noise.mean) (d • M.noise.cov) := by
    have := hN.affine (1 : Matrix (Fin m) (Fin m) ℝ) b
    simpa [add_comm] using this
  have hi : IndepFun X (fun ω => N ω + b) P := hXN.comp (φ := id) (ψ := fun x => x + b) measurable_id (by fun_prop)
  have e : (fun ω => M.g (X ω) + N ω) = fun ω => A *ᵥ X ω + (N ω + b) := by
    funext ω; rw [h.fn]; abel
  rw [e, forwardRv, h2]
  exact forward_classic_is_pushforward ⟨A, ⟨b + M.noise.mean, M.noise.cov, M.noise.chol⟩⟩ d rv X (fun ω => N ω + b) hX hN' hi

/-- **C51 (b).**  The update with the extended component on an affine model is exact conditioning on the observation,
for every linearisation point. -/
theorem ekf_backward_exact {M : Nonlinear n m} {A : Matrix (Fin m) (Fin n) ℝ} {b : Fin m → ℝ} (h : Affine M A b)
    (at? : Option (Normal n)) (d : ℝ) (rv : Normal n) (X : Ω → Fin n → ℝ) (N : Ω → Fin m → ℝ)
    (hX : IsNormal P X rv.mean rv.cov) (hN : IsNormal P N M.noise.mean (d • M.noise.cov)) (hXN : IndepFun X N P)
    (hR : M.noise.covᵀ = M.noise.cov) (hS : (A * rv.cov * Aᵀ + d • M.noise.cov).det ≠ 0) :
    ∃ lin, ekfComponent M = .ok lin ∧ ∃ (f : (Fin m → ℝ) → Fin n → ℝ) (C : Matrix (Fin n) (Fin n) ℝ),
      (∀ y, backwardRv lin at? d (Normal.const y) rv none = .ok ⟨f y, C⟩) ∧
      IsConditional P X (fun ω => M.g (X ω) + N ω) f C := by
  obtain ⟨lin, h1, h2⟩ := ekf_linearize_exact h
  refine ⟨lin, h1, ?_⟩
  have hN' : IsNormal P (fun ω => N ω + b) (b + M.noise.mean) (d • M.noise.cov) := by
    have := hN.affine (1 : Matrix (Fin m) (Fin m) ℝ) b
    simpa [add_comm] using this
  have hi : IndepFun X (fun ω => N ω + b) P := hXN.comp (φ := id) (ψ := fun x => x + b) measurable_id (by fun_prop)
  have e : (fun ω => M.g (X ω) + N ω) = fun ω => A *ᵥ X ω + (N ω + b) := by
    funext ω; rw [h.fn]; abel
  rw [e]
  simp only [backwardRv, h2]
  refine backward_realization_is_conditioning ⟨A, ⟨b + M.noise.mean, M.noise.cov, M.noise.chol⟩⟩ d rv X
    (fun ω => N ω + b) hX hN' hi hR ?_
  simpa [forwardClassic, Matrix.mul_assoc] using hS

/-- The hypotheses of (a) and (b) are met by `demo` with a standard normal state. -/
example : ∃ (Ω : Type) (_ : MeasurableSpace Ω) (P : Measure Ω) (X : Ω → Fin 2 → ℝ) (N : Ω → Fin 1 → ℝ),
    IsNormal P X 0 1 ∧ IsNormal P N demo.noise.mean ((1 : ℝ) • demo.noise.cov) ∧ IndepFun X N P ∧
    demo.noise.covᵀ = demo.noise.cov ∧ ((!![1, 2] : Matrix (Fin 1) (Fin 2) ℝ) * (1 : Matrix (Fin 2) (Fin 2) ℝ) * (!![1, 2] : Matrix (Fin 1) (Fin 2) ℝ)ᵀ + (1 : ℝ) • demo.noise.cov).det ≠ 0 := by
  obtain ⟨Ω, hΩ, P, X, N, h1, h2, h3⟩ := exists_independent_normals (0 : Fin 2 → ℝ) 1 demo.noise.mean demo.noise.chol
  refine ⟨Ω, hΩ, P, X, N, by simpa using h1, ?_, h3, ?_, ?_⟩
  · have : demo.noise.chol * demo.noise.cholᵀ = (1 : ℝ) • demo.noise.cov := by
      ext i j; fin_cases i; fin_cases j; simp [demo, Matrix.mul_apply]
    rwa [this] at h2
  · ext i j; fin_cases i; fin_cases j; rfl
  · rw [Matrix.det_fin_one, Matrix.mul_one, Matrix.add_apply, Matrix.mul_apply, Fin.sum_univ_two]
    simp only [Matrix.transpose_apply]
    norm_num [demo]

/-- For an arbitrary model: linearised at the propagated variable, the predicted mean is `g` at the mean plus the noise
mean, and the covariance is `J C Jᵀ + d Q` with the Jacobian `J` at the mean; linearised at `r`, the mean is the first
order Taylor polynomial of `g` at the mean of `r`. -/
theorem ekf_forward_general (M : Nonlinear n m) (dg : (Fin n → ℝ) → Matrix (Fin m) (Fin n) ℝ) (hj : M.jac = some dg)
    (d : ℝ) (rv : Normal n) :
    ∃ lin, ekfComponent M = .ok lin ∧
      (forwardRv lin none d rv).mean = M.g rv.mean + M.noise.mean ∧
      (forwardRv lin none d rv).cov = dg rv.mean * rv.cov * (dg rv.mean)ᵀ + d • M.noise.cov ∧
      (∀ r, (forwardRv lin (some r) d rv).mean = M.g r.mean + dg r.mean *ᵥ (rv.mean - r.mean) + M.noise.mean ∧
        (forwardRv lin (some r) d rv).cov = dg r.mean * rv.cov * (dg r.mean)ᵀ + d • M.noise.cov) ∧
      ∀ x, (forwardRealization lin none d x).mean = M.g x + M.noise.mean ∧
        (forwardRealization lin none d x).cov = d • M.noise.cov := by
  refine ⟨fun rv => ekfLinearize M dg rv.mean, by simp [ekfComponent, Nonlinear.jacobian, hj], ?_, ?_, ?_, ?_⟩
  · simp only [forwardRv, point, forwardClassic, ekfLinearize]; abel
  · simp only [forwardRv, point, forwardClassic, ekfLinearize, Matrix.mul_assoc]
  · intro r
    simp only [forwardRv, point, forwardClassic, ekfLinearize, Matrix.mul_assoc, Matrix.mulVec_sub]
    exact ⟨by abel, trivial⟩
  · intro x
    simp only [forwardRealization, point, forwardClassic, ekfLinearize, Normal.const, Matrix.zero_mul, Matrix.mul_zero, zero_add]
    exact ⟨by abel, trivial⟩

/-- Without a Jacobian the extended component cannot be constructed. -/
theorem ekf_needs_jacobian (M : Nonlinear n m) (h : M.jac = none) : ekfComponent M = .error .notImplementedError := by
  simp [ekfComponent, Nonlinear.jacobian, h]

/-- Violation: neither can the unscented component, although it never evaluates a Jacobian. -/
theorem ukf_needs_jacobian (M : Nonlinear n m) (h : M.jac = none) :
    ukfComponent M = .error .notImplementedError ∧ ∀ at? d rv, ukfForward M at? d rv = .error .notImplementedError := by
  simp [ukfForward, ukfComponent, Nonlinear.jacobian, h, Except.bind]

example : ({ demo with jac := none } : Nonlinear 2 1).jac = none := rfl

/-- The continuous extended component: the linearised SDE of an affine drift has the same drift as the original one at
every time and state, whatever the linearisation point; a state-independent dispersion is unchanged. -/
theorem ekf_sde_exact {w : ℕ} (S : Sde n w) (G : ℝ → Matrix (Fin n) (Fin n) ℝ) (v : ℝ → Fin n → ℝ)
    (L : ℝ → Matrix (Fin n) (Fin w) ℝ) (hd : ∀ t x, S.drift t x = G t *ᵥ x + v t) (hj : S.jac = some fun t _ => G t)
    (hL : ∀ t x, S.dispersion t x = L t) (x0 : Fin n → ℝ) (t : ℝ) :
    (sdeLinearize S x0).driftMatrix t = .ok (G t) ∧ (sdeLinearize S x0).force t = .ok (v t) ∧
      (sdeLinearize S x0).dispersion t = L t := by
  refine ⟨by simp [sdeLinearize, Sde.jacobian, hj], ?_, hL t x0⟩
  simp [sdeLinearize, Sde.jacobian, hj, Except.map, hd]

/-- Without a Jacobian the linearised SDE raises when its drift or force is evaluated. -/
theorem ekf_sde_needs_jacobian {w : ℕ} (S : Sde n w) (h : S.jac = none) (x0 : Fin n → ℝ) (t : ℝ) :
    (sdeLinearize S x0).driftMatrix t = .error .notImplementedError ∧
    (sdeLinearize S x0).force t = .error .notImplementedError := by
  simp [sdeLinearize, Sde.jacobian, h, Except.map]

example : ∃ (S : Sde 1 1) (G : ℝ → Matrix (Fin 1) (Fin 1) ℝ) (v : ℝ → Fin 1 → ℝ) (L : ℝ → Matrix (Fin 1) (Fin 1) ℝ),
    (∀ t x, S.drift t x = G t *ᵥ x + v t) ∧ (S.jac = some fun t _ => G t) ∧ ∀ t x, S.dispersion t x = L t :=
  ⟨⟨fun t x => !![t] *ᵥ x + ![t], fun _ _ => 1, some fun t _ => !![t]⟩, fun t => !![t], fun t => ![t], fun _ => 1,
    fun _ _ => rfl, rfl, fun _ _ => rfl⟩

/-- With unit diffusion, propagating a realization through the nonlinear model itself and through its extended
component gives the same mean and covariance. -/
theorem nonlinear_forward_realization_partial (M : Nonlinear n m) (dg : (Fin n → ℝ) → Matrix (Fin m) (Fin n) ℝ)
    (hj : M.jac = some dg) (x : Fin n → ℝ) :
    ∃ lin, ekfComponent M = .ok lin ∧
      (M.forwardRealization 1 x).mean = (forwardRealization lin none 1 x).mean ∧
      (M.forwardRealization 1 x).cov = (forwardRealization lin none 1 x).cov := by
  obtain ⟨lin, h1, _, _, _, h2⟩ := ekf_forward_general M dg hj 1 (Normal.const x)
  refine ⟨lin, h1, ?_, ?_⟩
  · rw [(h2 x).1]; simp [Nonlinear.forwardRealization]
  · rw [(h2 x).2]; simp [Nonlinear.forwardRealization]

/-- Violation: with diffusion 2 they differ — the nonlinear model multiplies the noise variable by the diffusion, so its
covariance by the square. -/
theorem nonlinear_diffusion_squared :
    ∃ lin, ekfComponent demo = .ok lin ∧
      (demo.forwardRealization 2 0).cov ≠ (forwardRealization lin none 2 0).cov := by
  obtain ⟨lin, h1, _, _, _, h2⟩ := ekf_forward_general demo (fun _ => !![1, 2]) rfl 2 (Normal.const 0)
  refine ⟨lin, h1, ?_⟩
  rw [(h2 0).2]
  intro h
  have := congrFun (congrFun h 0) 0
  norm_num [Nonlinear.forwardRealization, demo] at this

/-! ## Unscented Kalman component -/

/-- The cubature weights sum to one, the weighted sigma points have the mean of the variable and, for a valid Cholesky
factor, its covariance. -/
theorem cubature_moments (hn : 0 < n) (rv : Normal n) (hv : rv.Valid) :
    ∑ p, weightMean n p = 1 ∧ ∑ p, weightCov n p = 1 ∧
    (∀ i, ∑ p, weightMean n p * sigmaPoint rv p i = rv.mean i) ∧
    ∀ i j, ∑ p, weightCov n p * ((sigmaPoint rv p i - rv.mean i) * (sigmaPoint rv p j - rv.mean j)) = rv.cov i j := by
  refine ⟨sum_weight hn, by rw [weight_eq]; exact sum_weight hn, fun i => ?_, fun i j => ?_⟩
  · have e : ∀ p, weightMean n p * sigmaPoint rv p i
        = weightMean n p * (rv.chol *ᵥ unitPoint n p) i + weightMean n p * rv.mean i := by
      intro p; rw [sigmaPoint]; simp only [Pi.add_apply]; ring
    rw [Finset.sum_congr rfl fun p _ => e p, Finset.sum_add_distrib, sum_mean, ← Finset.sum_mul, sum_weight hn]
    simp
  · rw [weight_eq, ← show rv.chol * rv.cholᵀ = rv.cov from hv, ← sum_outer hn]
    refine Finset.sum_congr rfl fun p _ => ?_
    simp [sigmaPoint]

example : (⟨![1, 2], !![4, 0; 0, 9], !![2, 0; 0, 3]⟩ : Normal 2).Valid := by
  ext i j; fin_cases i <;> fin_cases j <;> simp [Matrix.mul_apply, Fin.sum_univ_two] <;> norm_num

/-- **C51 (c).**  For every model, the unscented prediction is the weighted mean of `g` over the cubature points plus
the noise mean; its covariance is the weighted covariance plus the noise covariance, minus the jitter times
`F Fᵀ` (`F` is the statistical linearisation). -/
theorem ukf_forward_general (M : Nonlinear n m) (hj : M.jac ≠ none) (rv : Normal n) (hv : rv.Valid) :
    ∃ (f : Forwarded n m) (F : Matrix (Fin m) (Fin n) ℝ), ukfForward M none 1 rv = .ok f ∧
      F * (rv.cov + jitter • (1 : Matrix (Fin n) (Fin n) ℝ)) = (crossCov M.g rv)ᵀ ∧
      f.mean = fxMean M.g rv + M.noise.mean ∧
      f.cov = fxCov M.g rv + M.noise.cov - jitter • (F * Fᵀ) ∧ f.crosscov = rv.cov * Fᵀ := by
  obtain ⟨dg, hdg⟩ := Option.ne_none_iff_exists'.mp hj
  set R := rv.cov + jitter • (1 : Matrix (Fin n) (Fin n) ℝ) with hR
  have hpd : R.PosDef := reg_posDef (posSemidef_of_valid hv)
  have hu : IsUnit R.det := (Matrix.isUnit_iff_isUnit_det _).mp hpd.isUnit
  have hs : Rᵀ = R := by rw [← Matrix.conjTranspose_eq_transpose_of_trivial]; exact hpd.isHermitian.eq
  set X := crossCov M.g rv with hX
  set F := (R⁻¹ * X)ᵀ with hF
  have hFR : F * R = Xᵀ := by
    rw [hF, Matrix.transpose_mul, Matrix.transpose_nonsing_inv, hs, Matrix.mul_assoc, Matrix.nonsing_inv_mul _ hu,
      Matrix.mul_one]
  refine ⟨forwardClassic { mat := F, noise :=
      { mean := M.noise.mean + (fxMean M.g rv - F *ᵥ rv.mean), cov := M.noise.cov + (fxCov M.g rv - Xᵀ * Fᵀ), chol := 0 } }
      1 rv, F, ?_, hFR, ?_, ?_, ?_⟩
  · simp only [ukfForward, ukfComponent, Nonlinear.jacobian, hdg, Except.bind, point, ukfLinearize_ok M rv hv, Except.map]
    rfl
  · simp only [forwardClassic]; abel
  · have hC : rv.cov = R - jitter • (1 : Matrix (Fin n) (Fin n) ℝ) := by rw [hR]; abel
    simp only [forwardClassic, one_smul]
    rw [← hFR, hC, Matrix.sub_mul, Matrix.mul_sub, Matrix.smul_mul, Matrix.one_mul, Matrix.mul_smul, ← Matrix.mul_assoc]
    abel
  · rfl

/-- **C51 (d).**  On an affine model, linearised at the propagated variable, the unscented prediction has the exact mean
of `g(X) + N`, and its covariance `S` is exact up to the jitter: `0 ≤ exact - S ≤ 1e-12 · A Aᵀ` in the order of
positive semidefinite matrices. -/
theorem ukf_forward_affine {M : Nonlinear n m} {A : Matrix (Fin m) (Fin n) ℝ} {b : Fin m → ℝ} (hn : 0 < n)
    (h : Affine M A b) (rv : Normal n) (hv : rv.Valid) (X : Ω → Fin n → ℝ) (N : Ω → Fin m → ℝ)
    (hX : IsNormal P X rv.mean rv.cov) (hN : IsNormal P N M.noise.mean M.noise.cov) (hXN : IndepFun X N P) :
    ∃ (f : Forwarded n m) (E : Matrix (Fin m) (Fin m) ℝ), ukfForward M none 1 rv = .ok f ∧
      IsNormal P (fun ω => M.g (X ω) + N ω) f.mean E ∧ (E - f.cov).PosSemidef ∧
      ((1 / 10 ^ 12 : ℝ) • (A * Aᵀ) - (E - f.cov)).PosSemidef := by
  obtain ⟨f, F, h1, h2, h3, h4, _⟩ := ukf_forward_general M (by rw [h.jac]; simp) rv hv
  rw [fxMean_affine hn h.fn] at h3
  rw [fxCov_affine hn h.fn rv hv] at h4
  rw [crossCov_affine hn h.fn rv hv] at h2
  set R := rv.cov + jitter • (1 : Matrix (Fin n) (Fin n) ℝ) with hR
  have hpsd := posSemidef_of_valid hv
  have hpd : R.PosDef := reg_posDef hpsd
  have hu : IsUnit R.det := (Matrix.isUnit_iff_isUnit_det _).mp hpd.isUnit
  have hs : Rᵀ = R := by rw [← Matrix.conjTranspose_eq_transpose_of_trivial]; exact hpd.isHermitian.eq
  have hsi : (R⁻¹)ᵀ = R⁻¹ := by rw [Matrix.transpose_nonsing_inv, hs]
  have hCs : rv.covᵀ = rv.cov := hv.symm
  have hC : rv.cov = R - jitter • (1 : Matrix (Fin n) (Fin n) ℝ) := by rw [hR]; abel
  have hK : rv.cov * R⁻¹ = 1 - jitter • R⁻¹ := by
    rw [hC, Matrix.sub_mul, Matrix.mul_nonsing_inv _ hu, Matrix.smul_mul, Matrix.one_mul]
  have hF : F = A * (1 - jitter • R⁻¹) := by
    rw [← hK, ← Matrix.mul_assoc]
    have h2' : F * R = A * rv.cov := by rw [h2, Matrix.transpose_mul, Matrix.transpose_transpose, hCs]
    rw [← h2', Matrix.mul_assoc, Matrix.mul_nonsing_inv _ hu, Matrix.mul_one]
  refine ⟨f, A * rv.cov * Aᵀ + M.noise.cov, h1, ?_, ?_, ?_⟩
  · have := hX.comb hN hXN A 1 b
    have e : (fun ω => M.g (X ω) + N ω) = fun ω => A *ᵥ X ω + (1 : Matrix (Fin m) (Fin m) ℝ) *ᵥ N ω + b := by
      funext ω; rw [h.fn, Matrix.one_mulVec]; abel
    rw [e, h3, show A *ᵥ rv.mean + b + M.noise.mean
      = A *ᵥ rv.mean + (1 : Matrix (Fin m) (Fin m) ℝ) *ᵥ M.noise.mean + b by rw [Matrix.one_mulVec]; abel]
    simpa using this
  · rw [h4, sub_sub_cancel]
    have := (Matrix.posSemidef_self_mul_conjTranspose F).smul jitter_pos.le
    rwa [Matrix.conjTranspose_eq_transpose_of_trivial] at this
  · rw [h4, sub_sub_cancel]
    have hj : (1 / 10 ^ 12 : ℝ) = jitter := rfl
    rw [hj, ← smul_sub]
    refine Matrix.PosSemidef.smul ?_ jitter_pos.le
    have hMM : (jitter • R⁻¹ + jitter • (R⁻¹ * rv.cov * (R⁻¹)ᵀ)).PosSemidef := by
      refine Matrix.PosSemidef.add (hpd.inv.posSemidef.smul jitter_pos.le) (Matrix.PosSemidef.smul ?_ jitter_pos.le)
      have := hpsd.mul_mul_conjTranspose_same R⁻¹
      rwa [Matrix.conjTranspose_eq_transpose_of_trivial] at this
    have key : A * Aᵀ - F * Fᵀ = A * (jitter • R⁻¹ + jitter • (R⁻¹ * rv.cov * (R⁻¹)ᵀ)) * Aᵀ := by
      rw [hsi, Matrix.mul_assoc R⁻¹, hK, hF, Matrix.transpose_mul, Matrix.transpose_sub, Matrix.transpose_one,
        Matrix.transpose_smul, hsi]
      generalize R⁻¹ = T
      simp only [Matrix.mul_sub, Matrix.sub_mul, Matrix.mul_one, Matrix.one_mul, Matrix.mul_add, Matrix.add_mul,
        Matrix.mul_smul, Matrix.smul_mul, Matrix.mul_assoc, smul_sub, smul_smul]
      abel
    rw [key]
    have := hMM.mul_mul_conjTranspose_same A
    rwa [Matrix.conjTranspose_eq_transpose_of_trivial] at this

/-- Linearised at another variable `r`, the mean of the unscented prediction on an affine model is off by
`1e-12 · A (Cov(r) + 1e-12 I)⁻¹ (mean(rv) - mean(r))`. -/
theorem ukf_forward_elsewhere_partial {M : Nonlinear n m} {A : Matrix (Fin m) (Fin n) ℝ} {b : Fin m → ℝ} (hn : 0 < n)
    (h : Affine M A b) (d : ℝ) (rv r : Normal n) (hv : r.Valid) :
    ∃ f : Forwarded n m, ukfForward M (some r) d rv = .ok f ∧
      f.mean = (A *ᵥ rv.mean + b + M.noise.mean)
        - jitter • ((A * (r.cov + jitter • (1 : Matrix (Fin n) (Fin n) ℝ))⁻¹) *ᵥ (rv.mean - r.mean)) := by
  set R := r.cov + jitter • (1 : Matrix (Fin n) (Fin n) ℝ) with hR
  have hpd : R.PosDef := reg_posDef (posSemidef_of_valid hv)
  have hu : IsUnit R.det := (Matrix.isUnit_iff_isUnit_det _).mp hpd.isUnit
  have hs : Rᵀ = R := by rw [← Matrix.conjTranspose_eq_transpose_of_trivial]; exact hpd.isHermitian.eq
  have hsi : (R⁻¹)ᵀ = R⁻¹ := by rw [Matrix.transpose_nonsing_inv, hs]
  have hF : (R⁻¹ * crossCov M.g r)ᵀ = A - jitter • (A * R⁻¹) := by
    have hC : r.cov = R - jitter • (1 : Matrix (Fin n) (Fin n) ℝ) := by rw [hR]; abel
    have hCs : r.covᵀ = r.cov := hv.symm
    rw [crossCov_affine hn h.fn r hv, Matrix.transpose_mul, Matrix.transpose_mul, hsi, Matrix.transpose_transpose, hCs, hC,
      Matrix.mul_assoc, Matrix.sub_mul, Matrix.mul_nonsing_inv _ hu, Matrix.smul_mul, Matrix.one_mul, Matrix.mul_sub,
      Matrix.mul_one, Matrix.mul_smul]
  refine ⟨forwardClassic { mat := (R⁻¹ * crossCov M.g r)ᵀ, noise :=
      { mean := M.noise.mean + (fxMean M.g r - (R⁻¹ * crossCov M.g r)ᵀ *ᵥ r.mean)
        cov := M.noise.cov + (fxCov M.g r - (crossCov M.g r)ᵀ * ((R⁻¹ * crossCov M.g r)ᵀ)ᵀ), chol := 0 } } d rv, ?_, ?_⟩
  · simp only [ukfForward, ukfComponent, Nonlinear.jacobian, h.jac, Except.bind, point, ukfLinearize_ok M r hv, Except.map]
    rfl
  · simp only [forwardClassic]
    rw [hF, fxMean_affine hn h.fn]
    simp only [Matrix.sub_mulVec, Matrix.mulVec_sub, Matrix.smul_mulVec, smul_sub]
    abel

/-- Violation: linearised at a point mass (a `Constant`), the unscented prediction of an affine model does not depend on
the propagated mean at all: it is `g` at the linearisation point. -/
theorem ukf_constant_ignores_state {M : Nonlinear n m} {A : Matrix (Fin m) (Fin n) ℝ} {b : Fin m → ℝ} (hn : 0 < n)
    (h : Affine M A b) (d : ℝ) (rv : Normal n) (x : Fin n → ℝ) :
    ∃ f : Forwarded n m, ukfForward M (some (Normal.const x)) d rv = .ok f ∧ f.mean = M.g x + M.noise.mean := by
  obtain ⟨f, h1, h2⟩ := ukf_forward_elsewhere_partial hn h d rv (Normal.const x) (Normal.const_valid x)
  refine ⟨f, h1, ?_⟩
  rw [h2, h.fn]
  have e : (Normal.const x).cov + jitter • (1 : Matrix (Fin n) (Fin n) ℝ) = jitter • 1 := by simp [Normal.const]
  have hi : (jitter • (1 : Matrix (Fin n) (Fin n) ℝ))⁻¹ = jitter⁻¹ • 1 := by
    apply Matrix.inv_eq_right_inv
    rw [Matrix.smul_mul, Matrix.one_mul, smul_smul, mul_inv_cancel₀ jitter_pos.ne', one_smul]
  rw [e, hi, Matrix.mul_smul, Matrix.mul_one, Matrix.smul_mulVec, smul_smul, mul_inv_cancel₀ jitter_pos.ne', one_smul,
    Matrix.mulVec_sub]
  simp only [Normal.const]
  abel

/-- The unscented predicted mean is exact for every quadratic model: if every output of `g` is
`c + b·x + xᵀ B x` then the weighted mean over the cubature points is `E[g(X)]`. -/
theorem ukf_mean_quadratic (hn : 0 < n) (g : (Fin n → ℝ) → Fin m → ℝ) (c : Fin m → ℝ) (b : Fin m → Fin n → ℝ)
    (B : Fin m → Matrix (Fin n) (Fin n) ℝ) (hg : ∀ x k, g x k = c k + b k ⬝ᵥ x + x ⬝ᵥ B k *ᵥ x)
    (rv : Normal n) (hv : rv.Valid) (X : Ω → Fin n → ℝ) (hX : IsNormal P X rv.mean rv.cov) (k : Fin m) :
    ∫ ω, g (X ω) k ∂P = fxMean g rv k := by
  have := hX.isProbabilityMeasure
  obtain ⟨hw, _, hm, hc⟩ := cubature_moments hn rv hv
  rw [weight_eq] at hc
  have hi := integrable_coord hX.gaussian
  have h2 := memLp_coord hX.gaussian
  have hij : ∀ i j, Integrable (fun ω => X ω i * X ω j) P := fun i j => (h2 i).integrable_mul (h2 j)
  have hE : ∀ i j, ∫ ω, X ω i * X ω j ∂P = rv.cov i j + rv.mean i * rv.mean j := by
    intro i j
    have := covariance_eq_sub (h2 i) (h2 j)
    rw [hX.cov i j, hX.mean, hX.mean] at this
    rw [this]
    simp
  have hS : ∀ i j, ∑ p, weightMean n p * (sigmaPoint rv p i * sigmaPoint rv p j) = rv.cov i j + rv.mean i * rv.mean j := by
    intro i j
    have e : ∀ p, weightMean n p * (sigmaPoint rv p i * sigmaPoint rv p j)
        = weightMean n p * ((sigmaPoint rv p i - rv.mean i) * (sigmaPoint rv p j - rv.mean j))
          + (weightMean n p * sigmaPoint rv p i) * rv.mean j + (weightMean n p * sigmaPoint rv p j) * rv.mean i
          - weightMean n p * (rv.mean i * rv.mean j) := fun p => by ring
    rw [Finset.sum_congr rfl fun p _ => e p, Finset.sum_sub_distrib, Finset.sum_add_distrib, Finset.sum_add_distrib,
      ← Finset.sum_mul, ← Finset.sum_mul, ← Finset.sum_mul, hc, hm, hm, hw]
    ring
  have hgx : ∀ x, g x k = c k + ∑ i, b k i * x i + ∑ i, ∑ j, B k i j * (x i * x j) := by
    intro x
    rw [hg]
    simp only [dotProduct, Matrix.mulVec, Finset.mul_sum]
    congr 1
    exact Finset.sum_congr rfl fun i _ => Finset.sum_congr rfl fun j _ => by ring
  have hR : fxMean g rv k = c k + ∑ i, b k i * rv.mean i + ∑ i, ∑ j, B k i j * (rv.cov i j + rv.mean i * rv.mean j) := by
    have e : ∀ p, weightMean n p * g (sigmaPoint rv p) k = weightMean n p * c k
        + ∑ i, b k i * (weightMean n p * sigmaPoint rv p i)
        + ∑ i, ∑ j, B k i j * (weightMean n p * (sigmaPoint rv p i * sigmaPoint rv p j)) := by
      intro p
      rw [hgx, mul_add, mul_add, Finset.mul_sum, Finset.mul_sum]
      congr 1
      · congr 1
        exact Finset.sum_congr rfl fun i _ => by ring
      · refine Finset.sum_congr rfl fun i _ => ?_
        rw [Finset.mul_sum]
        exact Finset.sum_congr rfl fun j _ => by ring
    rw [fxMean, Finset.sum_congr rfl fun p _ => e p, Finset.sum_add_distrib, Finset.sum_add_distrib, ← Finset.sum_mul, hw,
      one_mul, Finset.sum_comm]
    congr 1
    · congr 1
      refine Finset.sum_congr rfl fun i _ => ?_
      rw [← Finset.mul_sum, hm]
    · rw [Finset.sum_comm]
      refine Finset.sum_congr rfl fun i _ => ?_
      rw [Finset.sum_comm]
      refine Finset.sum_congr rfl fun j _ => ?_
      rw [← Finset.mul_sum, hS]
  rw [hR]
  simp only [hgx]
  have i1 : Integrable (fun ω => ∑ i, b k i * X ω i) P := integrable_finsetSum _ fun i _ => (hi i).const_mul _
  have i2 : ∀ i, Integrable (fun ω => ∑ j, B k i j * (X ω i * X ω j)) P :=
    fun i => integrable_finsetSum _ fun j _ => (hij i j).const_mul _
  have i0 : Integrable (fun ω => c k + ∑ i, b k i * X ω i) P := (integrable_const _).add i1
  rw [integral_add i0 (integrable_finsetSum _ fun i _ => i2 i),
    integral_add (integrable_const _) i1, integral_finsetSum _ fun i _ => (hi i).const_mul _,
    integral_finsetSum _ fun i _ => i2 i]
  congr 1
  · congr 1
    · simp
    · refine Finset.sum_congr rfl fun i _ => ?_
      rw [integral_const_mul, hX.mean]
  · refine Finset.sum_congr rfl fun i _ => ?_
    rw [integral_finsetSum _ fun j _ => (hij i j).const_mul _]
    refine Finset.sum_congr rfl fun j _ => ?_
    rw [integral_const_mul, hE]

/-- The hypotheses are met by `g(x) = x₀ x₁` for a standard normal state. -/
example : ∃ (Ω : Type) (_ : MeasurableSpace Ω) (P : Measure Ω) (X : Ω → Fin 2 → ℝ),
    IsNormal P X (⟨0, 1, 1⟩ : Normal 2).mean (⟨0, 1, 1⟩ : Normal 2).cov ∧ (⟨0, 1, 1⟩ : Normal 2).Valid ∧
    ∀ (x : Fin 2 → ℝ) (k : Fin 1), (fun _ => x 0 * x 1 : Fin 1 → ℝ) k
      = 0 + (0 : Fin 2 → ℝ) ⬝ᵥ x + x ⬝ᵥ (!![0, 1; 0, 0] : Matrix (Fin 2) (Fin 2) ℝ) *ᵥ x := by
  obtain ⟨Ω, hΩ, P, X, N, h1, h2, h3⟩ := exists_independent_normals (0 : Fin 2 → ℝ) 1 (0 : Fin 1 → ℝ) 1
  refine ⟨Ω, hΩ, P, X, by simpa using h1, by simp [Normal.Valid], fun x k => ?_⟩
  simp [dotProduct, Matrix.mulVec, Fin.sum_univ_two]

end Probnum.Approx
