import Verif.SDE.Lemmas
import Verif.SDE.Precon

/-!
# C59 (and the IOUP/Matérn part of C19): linear SDEs
-/

namespace Probnum.SDE

open Matrix Probnum.LinGauss Probnum.Kalman

variable {n s : ℕ}

/-! ## Specification -/

/-- Mean `m` and covariance `P` of the solution of `dx = (G x + v) dt + L dw`, the Wiener process having diffusion `d`. -/
structure SolvesMoments (sde : LTISDE n s) (d : ℝ) (m : ℝ → Fin n → ℝ) (P : ℝ → Matrix (Fin n) (Fin n) ℝ) : Prop where
  mean : ∀ t i, HasDerivAt (fun s => m s i) ((sde.drift *ᵥ m t + sde.force) i) t
  cov : ∀ t i j, HasDerivAt (fun s => P s i j)
    ((sde.drift * P t + P t * sde.driftᵀ + d • (sde.dispersion * sde.dispersionᵀ)) i j) t

/-- **C59, moment equations**: the vector field given to the ODE solver is that of the moments. -/
theorem mde_forward_classic (sde : LTISDE n s) (d : ℝ) (m : ℝ → Fin n → ℝ) (P : ℝ → Matrix (Fin n) (Fin n) ℝ) :
    SolvesMoments sde d m P ↔
      ∀ t, (∀ i, HasDerivAt (fun s => m s i)
          ((mdeForward sde.drift sde.force sde.dispersion d ⟨m t, P t⟩).mean i) t) ∧
        ∀ i j, HasDerivAt (fun s => P s i j)
          ((mdeForward sde.drift sde.force sde.dispersion d ⟨m t, P t⟩).cov i j) t :=
  ⟨fun h t => ⟨h.mean t, h.cov t⟩, fun h => ⟨fun t => (h t).1, fun t => (h t).2⟩⟩

/-! ## Discretisation -/

theorem vec_unique (G : Matrix (Fin n) (Fin n) ℝ) (v : Fin n → ℝ) {x y : ℝ → Fin n → ℝ}
    (hx : ∀ t, VDeriv x (G *ᵥ x t + v) t) (hy : ∀ t, VDeriv y (G *ᵥ y t + v) t) (h0 : x 0 = y 0) (t : ℝ) : x t = y t := by
  have h := linear_unique G (κ := Unit) (X := fun t => Matrix.of fun i _ => x t i) (Y := fun t => Matrix.of fun i _ => y t i)
    (C := fun _ => Matrix.of fun i _ => v i) (fun t i _ => by simpa [Matrix.mul_apply, Matrix.mulVec, dotProduct] using hx t i)
    (fun t i _ => by simpa [Matrix.mul_apply, Matrix.mulVec, dotProduct] using hy t i) (by ext i _; simp [h0]) t
  ext i
  simpa using congrFun (congrFun h i) ()

/-- The blocks of the stacked system. -/
theorem stacked_blocks (G : Matrix (Fin n) (Fin n) ℝ) (L : Matrix (Fin n) (Fin s) ℝ) (t : ℝ) :
    mfdA (stackedDrift G) (stackedDispersion L) t
        = Matrix.fromBlocks (mfdA G L t) ((mfdA (stackedDrift G) (stackedDispersion L) t).toBlocks₁₂) 0 1 ∧
    MDeriv (fun t => (mfdA (stackedDrift G) (stackedDispersion L) t).toBlocks₁₂)
      (G * (mfdA (stackedDrift G) (stackedDispersion L) t).toBlocks₁₂ + 1) t ∧
    mfdQ (stackedDrift G) (stackedDispersion L) t = Matrix.fromBlocks (mfdQ G L t) 0 0 0 := by
  set A := mfdA (stackedDrift G) (stackedDispersion L) with hA
  have hd : ∀ t, MDeriv A (stackedDrift G * A t) t := fun t => mfdA_deriv _ _ t
  have h0 : A 0 = 1 := mfdA_zero _ _
  have hb : ∀ t, stackedDrift G * A t = Matrix.fromBlocks (G * (A t).toBlocks₁₁ + (A t).toBlocks₂₁)
      (G * (A t).toBlocks₁₂ + (A t).toBlocks₂₂) 0 0 := fun t => by
    conv_lhs => rw [← Matrix.fromBlocks_toBlocks (A t), stackedDrift, Matrix.fromBlocks_multiply]
    simp
  have h21 : ∀ t, (A t).toBlocks₂₁ = 0 := fun t => by
    refine (eq_of_MDeriv_zero (A := fun t => (A t).toBlocks₂₁) (fun t => ?_) t).trans ?_
    · refine ((hd t).submatrix Sum.inr Sum.inl).congr ?_
      rw [hb]; ext i j; simp
    · rw [h0, ← Matrix.fromBlocks_one, Matrix.toBlocks_fromBlocks₂₁]
  have h22 : ∀ t, (A t).toBlocks₂₂ = 1 := fun t => by
    refine (eq_of_MDeriv_zero (A := fun t => (A t).toBlocks₂₂) (fun t => ?_) t).trans ?_
    · refine ((hd t).submatrix Sum.inr Sum.inr).congr ?_
      rw [hb]; ext i j; simp
    · rw [h0, ← Matrix.fromBlocks_one, Matrix.toBlocks_fromBlocks₂₂]
  have h11 : ∀ t, (A t).toBlocks₁₁ = mfdA G L t := fun t => by
    refine linear_unique G (X := fun t => (A t).toBlocks₁₁) (Y := mfdA G L) (C := fun _ => 0) (fun t => ?_)
      (fun t => (mfdA_deriv G L t).congr (by simp)) ?_ t
    · refine ((hd t).submatrix Sum.inl Sum.inl).congr ?_
      rw [hb, h21]; ext i j; simp
    · simp only [h0, mfdA_zero]
      rw [← Matrix.fromBlocks_one, Matrix.toBlocks_fromBlocks₁₁]
  refine ⟨?_, ?_, ?_⟩
  · conv_lhs => rw [← Matrix.fromBlocks_toBlocks (A t), h11, h21, h22]
  · refine ((hd t).submatrix Sum.inl Sum.inr).congr ?_
    rw [hb, h22]; ext i j; simp
  · refine lyapunov_unique (stackedDrift G) (X := mfdQ (stackedDrift G) (stackedDispersion L))
      (Y := fun t => Matrix.fromBlocks (mfdQ G L t) 0 0 0)
      (C := fun _ => stackedDispersion L * (stackedDispersion L)ᵀ) (fun t => mfdQ_deriv _ _ t) (fun t => ?_) ?_ t
    · have e : stackedDrift G * Matrix.fromBlocks (mfdQ G L t) 0 0 0
          + Matrix.fromBlocks (mfdQ G L t) 0 0 0 * (stackedDrift G)ᵀ + stackedDispersion L * (stackedDispersion L)ᵀ
          = Matrix.fromBlocks (G * mfdQ G L t + mfdQ G L t * Gᵀ + L * Lᵀ) 0 0 0 := by
        simp only [stackedDrift, stackedDispersion, Matrix.fromBlocks_transpose, Matrix.fromBlocks_multiply,
          Matrix.transpose_fromRows, Matrix.fromRows_mul_fromCols, Matrix.fromBlocks_add]
        simp
      rw [e]
      rintro (i | i) (j | j)
      · exact mfdQ_deriv G L t i j
      all_goals simpa using hasDerivAt_const t (0 : ℝ)
    · simp [mfdQ_zero]

/-- What `discretise` returns, with or without a force: the transition matrix and noise covariance of the matrix fraction
decomposition and as mean the response to the *reversed* force vector. -/
theorem discretise_eq (chol : CovCholesky n) (sde : LTISDE n s) (h : ℝ) :
    (sde.discretise chol h).mat = mfdA sde.drift sde.dispersion h ∧
    (sde.discretise chol h).noise.cov = mfdQ sde.drift sde.dispersion h ∧
    (sde.discretise chol h).noise.mean
      = (mfdA (stackedDrift sde.drift) (stackedDispersion sde.dispersion) h).toBlocks₁₂ *ᵥ (sde.force ∘ Fin.rev) := by
  obtain ⟨e1, -, e3⟩ := stacked_blocks sde.drift sde.dispersion h
  unfold LTISDE.discretise
  split
  · refine ⟨?_, ?_, ?_⟩
    · rw [e1]; simp [proj, Matrix.fromCols_mul_fromBlocks, Matrix.fromCols_mul_fromRows, Matrix.transpose_fromCols]
    · simp only
      rw [e3]; simp [proj, Matrix.fromCols_mul_fromBlocks, Matrix.fromCols_mul_fromRows, Matrix.transpose_fromCols]
    · simp only
      rw [e1]
      simp only [proj, projRev, Matrix.fromCols_mul_fromBlocks, Matrix.fromCols_mul_fromRows, Matrix.transpose_fromCols]
      simp only [Matrix.one_mul, Matrix.zero_mul, add_zero, Matrix.transpose_zero, Matrix.mul_zero, zero_add,
        Matrix.toBlocks_fromBlocks₁₂]
      rw [← Matrix.mulVec_mulVec]
      congr 1
      ext i
      simp only [Matrix.mulVec, dotProduct, Matrix.transpose_apply, Matrix.of_apply, Function.comp]
      rw [Finset.sum_eq_single i.rev]
      · simp
      · intro b _ hb
        rw [if_neg (fun h => hb (by rw [h, Fin.rev_rev])), zero_mul]
      · simp
  · rename_i hf
    rw [not_not.1 hf]
    refine ⟨rfl, rfl, ?_⟩
    have : (0 : Fin n → ℝ) ∘ Fin.rev = 0 := rfl
    rw [this, Matrix.mulVec_zero]

/-- **What discretising an LTI SDE gives**, for every drift, force, dispersion, diffusion and step of either sign: the
transition maps the moments at time `t` to those at `t + h` for every solution of the moment equations *with the force
vector reversed*. -/
theorem discretise_solves_reversed (chol : CovCholesky n) (sde : LTISDE n s) (d : ℝ) (m : ℝ → Fin n → ℝ)
    (P : ℝ → Matrix (Fin n) (Fin n) ℝ)
    (hmP : SolvesMoments ⟨sde.drift, sde.force ∘ Fin.rev, sde.dispersion⟩ d m P) (t h : ℝ)
    (L : Matrix (Fin n) (Fin n) ℝ) :
    (forwardClassic (sde.discretise chol h) d ⟨m t, P t, L⟩).mean = m (t + h) ∧
    (forwardClassic (sde.discretise chol h) d ⟨m t, P t, L⟩).cov = P (t + h) := by
  obtain ⟨e1, e2, e3⟩ := discretise_eq chol sde h
  have hshift : ∀ u, HasDerivAt (fun u : ℝ => t + u) 1 u := fun u => by simpa using (hasDerivAt_id u).const_add t
  constructor
  · simp only [forwardClassic]
    rw [e1, e3]
    refine vec_unique sde.drift (sde.force ∘ Fin.rev)
      (x := fun h => mfdA sde.drift sde.dispersion h *ᵥ m t
        + (mfdA (stackedDrift sde.drift) (stackedDispersion sde.dispersion) h).toBlocks₁₂ *ᵥ (sde.force ∘ Fin.rev))
      (y := fun h => m (t + h)) (fun u => ?_) (fun u i => ?_) ?_ h
    · refine ((VDeriv.mulVec (mfdA_deriv sde.drift sde.dispersion u) (VDeriv.const (m t))).add
        (VDeriv.mulVec (stacked_blocks sde.drift sde.dispersion u).2.1 (VDeriv.const _))).congr ?_
      simp only [Matrix.mulVec_zero, add_zero, Matrix.add_mulVec, Matrix.mulVec_add, Matrix.one_mulVec,
        Matrix.mulVec_mulVec]
      abel
    · have := (hmP.mean (t + u) i).comp u (hshift u)
      simp only [mul_one] at this
      exact this
    · simp only [mfdA_zero, add_zero]
      rw [← Matrix.fromBlocks_one, Matrix.toBlocks_fromBlocks₁₂]
      simp
  · have e : (forwardClassic (sde.discretise chol h) d ⟨m t, P t, L⟩).cov
        = mfdA sde.drift sde.dispersion h * P t * (mfdA sde.drift sde.dispersion h)ᵀ + d • mfdQ sde.drift sde.dispersion h := by
      rw [← e1, ← e2]; exact predCov_eq _ _ ⟨m t, P t, L⟩
    rw [e]
    refine lyapunov_unique sde.drift
      (X := fun h => mfdA sde.drift sde.dispersion h * P t * (mfdA sde.drift sde.dispersion h)ᵀ
        + d • mfdQ sde.drift sde.dispersion h)
      (Y := fun h => P (t + h)) (C := fun _ => d • (sde.dispersion * sde.dispersionᵀ)) (fun u => ?_) (fun u i j => ?_) ?_ h
    · refine ((((mfdA_deriv sde.drift sde.dispersion u).mul (MDeriv.const (P t))).mul
        (mfdA_deriv sde.drift sde.dispersion u).transpose).add ((mfdQ_deriv sde.drift sde.dispersion u).smul d)).congr ?_
      simp only [Matrix.mul_zero, add_zero, Matrix.transpose_mul, Matrix.mul_add, Matrix.add_mul, smul_add,
        Matrix.mul_smul, Matrix.smul_mul, Matrix.mul_assoc]
      abel
    · have := (hmP.cov (t + u) i j).comp u (hshift u)
      simp only [mul_one] at this
      exact this
    · simp [mfdA_zero, mfdQ_zero]

/-- **C59, discretisation.**  Without a force, with a palindromic force vector (in particular in one dimension): the
discretised transition solves the moment equations exactly.  Missing: other force vectors, for which it is wrong
(`discretise_force_wrong`). -/
theorem discretise_solves_partial (chol : CovCholesky n) (sde : LTISDE n s) (hf : ∀ i, sde.force i.rev = sde.force i)
    (d : ℝ) (m : ℝ → Fin n → ℝ) (P : ℝ → Matrix (Fin n) (Fin n) ℝ) (hmP : SolvesMoments sde d m P) (t h : ℝ)
    (L : Matrix (Fin n) (Fin n) ℝ) :
    (forwardClassic (sde.discretise chol h) d ⟨m t, P t, L⟩).mean = m (t + h) ∧
    (forwardClassic (sde.discretise chol h) d ⟨m t, P t, L⟩).cov = P (t + h) := by
  refine discretise_solves_reversed chol sde d m P ?_ t h L
  rw [show sde.force ∘ Fin.rev = sde.force from funext hf]
  exact hmP

/-- Solutions of the moment equations exist from every start, so the previous statements are not vacuous. -/
theorem moments_exist (chol : CovCholesky n) (sde : LTISDE n s) (d : ℝ) (m₀ : Fin n → ℝ) (P₀ : Matrix (Fin n) (Fin n) ℝ) :
    ∃ m P, SolvesMoments sde d m P ∧ m 0 = m₀ ∧ P 0 = P₀ := by
  refine ⟨fun h => mfdA sde.drift sde.dispersion h *ᵥ m₀
      + (mfdA (stackedDrift sde.drift) (stackedDispersion sde.dispersion) h).toBlocks₁₂ *ᵥ sde.force,
    fun h => mfdA sde.drift sde.dispersion h * P₀ * (mfdA sde.drift sde.dispersion h)ᵀ
      + d • mfdQ sde.drift sde.dispersion h, ⟨fun u => ?_, fun u => ?_⟩, ?_, ?_⟩
  · refine ((VDeriv.mulVec (mfdA_deriv sde.drift sde.dispersion u) (VDeriv.const m₀)).add
        (VDeriv.mulVec (stacked_blocks sde.drift sde.dispersion u).2.1 (VDeriv.const _))).congr ?_
    simp only [Matrix.mulVec_zero, add_zero, Matrix.add_mulVec, Matrix.mulVec_add, Matrix.one_mulVec,
      Matrix.mulVec_mulVec]
    abel
  · refine ((((mfdA_deriv sde.drift sde.dispersion u).mul (MDeriv.const P₀)).mul
        (mfdA_deriv sde.drift sde.dispersion u).transpose).add ((mfdQ_deriv sde.drift sde.dispersion u).smul d)).congr ?_
    simp only [Matrix.mul_zero, add_zero, Matrix.transpose_mul, Matrix.mul_add, Matrix.add_mul, smul_add,
      Matrix.mul_smul, Matrix.smul_mul, Matrix.mul_assoc]
    abel
  · simp only [mfdA_zero]
    rw [← Matrix.fromBlocks_one, Matrix.toBlocks_fromBlocks₁₂]
    simp
  · simp [mfdA_zero, mfdQ_zero]

/-- Violation of **C59**: `dx = (1, 0) dt` in two dimensions.  Started at zero, the solution at time 1 is `(1, 0)`; the
discretised transition says `(0, 1)`. -/
theorem discretise_force_wrong (chol : CovCholesky 2) :
    ∃ (sde : LTISDE 2 1) (m : ℝ → Fin 2 → ℝ) (P : ℝ → Matrix (Fin 2) (Fin 2) ℝ), SolvesMoments sde 1 m P ∧
      m 0 = 0 ∧ P 0 = 0 ∧ m 1 = ![1, 0] ∧ (forwardClassic (sde.discretise chol 1) 1 ⟨m 0, P 0, 0⟩).mean = ![0, 1] := by
  let sde : LTISDE 2 1 := ⟨0, ![1, 0], 0⟩
  have h1 : SolvesMoments sde 1 (fun t => ![t, 0]) 0 := by
    refine ⟨fun t i => ?_, fun t i j => ?_⟩
    · fin_cases i
      · simpa [sde] using hasDerivAt_id' t
      · simpa [sde] using hasDerivAt_const t (0 : ℝ)
    · simpa [sde] using hasDerivAt_const t (0 : ℝ)
  have h2 : SolvesMoments (⟨sde.drift, sde.force ∘ Fin.rev, sde.dispersion⟩ : LTISDE 2 1) 1 (fun t => ![0, t]) 0 := by
    refine ⟨fun t i => ?_, fun t i j => ?_⟩
    · fin_cases i
      · simpa [sde, Fin.rev] using hasDerivAt_const t (0 : ℝ)
      · simpa [sde, Fin.rev] using hasDerivAt_id' t
    · simpa [sde] using hasDerivAt_const t (0 : ℝ)
  refine ⟨sde, _, _, h1, by simp, rfl, rfl, ?_⟩
  have := (discretise_solves_reversed chol sde 1 _ _ h2 0 1 0).1
  simp only [zero_add] at this ⊢
  exact this

/-! ### The process noise -/

theorem mfdQ_deriv_explicit (G : Matrix (Fin n) (Fin n) ℝ) (L : Matrix (Fin n) (Fin s) ℝ) (t : ℝ) :
    MDeriv (mfdQ G L) (NormedSpace.exp (t • G) * L * (NormedSpace.exp (t • G) * L)ᵀ) t := by
  refine (mfdQ_deriv G L t).congr ?_
  refine lyapunov_unique G (X := fun t => G * mfdQ G L t + mfdQ G L t * Gᵀ + L * Lᵀ)
    (Y := fun t => NormedSpace.exp (t • G) * L * (NormedSpace.exp (t • G) * L)ᵀ) (C := fun _ => 0) (fun t => ?_)
    (fun t => ?_) ?_ t
  · refine ((((MDeriv.const G).mul (mfdQ_deriv G L t)).add ((mfdQ_deriv G L t).mul (MDeriv.const Gᵀ))).add
      (MDeriv.const (L * Lᵀ))).congr ?_
    simp only [Matrix.zero_mul, Matrix.mul_zero, add_zero, zero_add, Matrix.mul_add, Matrix.add_mul, Matrix.mul_assoc]
  · have h := (mderiv_exp G t).mul (MDeriv.const L)
    refine (h.mul h.transpose).congr ?_
    simp only [Matrix.mul_zero, add_zero, Matrix.transpose_mul, Matrix.mul_assoc]
  · simp [mfdQ_zero]

/-- **C59**: the process noise covariance is `∫₀ʰ exp(s G) L Lᵀ exp(s G)ᵀ ds` and the transition matrix `exp(h G)`. -/
theorem discretise_integral (chol : CovCholesky n) (sde : LTISDE n s) (h : ℝ) :
    (sde.discretise chol h).mat = NormedSpace.exp (h • sde.drift) ∧ ∀ i j,
      (sde.discretise chol h).noise.cov i j = ∫ u in (0 : ℝ)..h,
        (NormedSpace.exp (u • sde.drift) * sde.dispersion * (NormedSpace.exp (u • sde.drift) * sde.dispersion)ᵀ) i j := by
  obtain ⟨e1, e2, -⟩ := discretise_eq chol sde h
  refine ⟨by rw [e1, (mfdA_eq _ _ _).1], fun i j => ?_⟩
  rw [e2]
  have hc : Continuous fun u : ℝ => (NormedSpace.exp (u • sde.drift) * sde.dispersion
      * (NormedSpace.exp (u • sde.drift) * sde.dispersion)ᵀ) i j := by
    have h1 : ∀ i j, Continuous fun u : ℝ => (NormedSpace.exp (u • sde.drift) * sde.dispersion) i j := fun i j => by
      have : Differentiable ℝ fun u : ℝ => (NormedSpace.exp (u • sde.drift) * sde.dispersion) i j := fun u =>
        (((mderiv_exp sde.drift u).mul (MDeriv.const sde.dispersion)) i j).differentiableAt
      exact this.continuous
    simp only [Matrix.mul_apply (M := NormedSpace.exp _ * sde.dispersion), Matrix.transpose_apply]
    exact continuous_finsetSum _ fun k _ => (h1 i k).mul (h1 j k)
  rw [intervalIntegral.integral_eq_sub_of_hasDerivAt
    (fun u _ => mfdQ_deriv_explicit sde.drift sde.dispersion u i j) (hc.intervalIntegrable _ _), mfdQ_zero]
  simp

/-- **C59**: for nonnegative steps the process noise covariance is symmetric positive semidefinite. -/
theorem discretise_noise_posSemidef (chol : CovCholesky n) (sde : LTISDE n s) {h : ℝ} (hh : 0 ≤ h) :
    (sde.discretise chol h).noise.cov.PosSemidef := by
  rw [(discretise_eq chol sde h).2.1]
  have hsym : (mfdQ sde.drift sde.dispersion h)ᵀ = mfdQ sde.drift sde.dispersion h := by
    refine lyapunov_unique sde.drift (X := fun h => (mfdQ sde.drift sde.dispersion h)ᵀ)
      (Y := mfdQ sde.drift sde.dispersion) (C := fun _ => sde.dispersion * sde.dispersionᵀ) (fun t => ?_)
      (fun t => mfdQ_deriv _ _ t) (by simp [mfdQ_zero]) h
    refine (mfdQ_deriv sde.drift sde.dispersion t).transpose.congr ?_
    simp only [Matrix.transpose_add, Matrix.transpose_mul, Matrix.transpose_transpose]
    abel
  refine Matrix.PosSemidef.of_dotProduct_mulVec_nonneg
    (by rw [Matrix.IsHermitian, Matrix.conjTranspose_eq_transpose_of_trivial, hsym]) fun x => ?_
  have hd : ∀ t, HasDerivAt (fun t => star x ⬝ᵥ (mfdQ sde.drift sde.dispersion t *ᵥ x))
      (star x ⬝ᵥ ((NormedSpace.exp (t • sde.drift) * sde.dispersion
        * (NormedSpace.exp (t • sde.drift) * sde.dispersion)ᵀ) *ᵥ x)) t := fun t => by
    have hv := VDeriv.mulVec (mfdQ_deriv_explicit sde.drift sde.dispersion t) (VDeriv.const x)
    simp only [Matrix.mulVec_zero, add_zero] at hv
    simp only [dotProduct]
    exact HasDerivAt.fun_sum fun i _ => (hv i).const_mul _
  have hm : Monotone fun t => star x ⬝ᵥ (mfdQ sde.drift sde.dispersion t *ᵥ x) := by
    refine monotone_of_deriv_nonneg (fun t => (hd t).differentiableAt) fun t => ?_
    rw [(hd t).deriv]
    have := (Matrix.posSemidef_self_mul_conjTranspose (NormedSpace.exp (t • sde.drift) * sde.dispersion)).dotProduct_mulVec_nonneg x
    rwa [Matrix.conjTranspose_eq_transpose_of_trivial] at this
  have := hm hh
  simpa [mfdQ_zero] using this

/-! ## Square-root moment equations -/

theorem lowerHalf_add (M : Matrix (Fin n) (Fin n) ℝ) (h : Mᵀ = M) : lowerHalf M + (lowerHalf M)ᵀ = M := by
  ext i j
  simp only [lowerHalf, Matrix.add_apply, Matrix.transpose_apply, Matrix.of_apply]
  have hs : M j i = M i j := congrFun (congrFun h i) j
  rcases lt_trichotomy i j with hij | hij | hij
  · rw [if_neg (not_lt.2 hij.le), if_neg hij.ne, if_pos hij, hs, zero_add]
  · subst hij; simp; ring
  · rw [if_pos hij, if_neg (not_lt.2 hij.le), if_neg hij.ne, add_zero]

/-- The matrix before the final sign normalisation is a right derivative of the factor: it is lower triangular and makes
the derivative of `S Sᵀ` that of the covariance. -/
theorem sqrt_derivative_right (G : Matrix (Fin n) (Fin n) ℝ) (L : Matrix (Fin n) (Fin s) ℝ) {d : ℝ} (hd : 0 ≤ d)
    (S : Matrix (Fin n) (Fin n) ℝ) (hS : IsUnit S.det) (hlow : ∀ i j, i < j → S i j = 0) :
    let X := sqrtDerivative G L d S
    X * Sᵀ + S * Xᵀ = G * (S * Sᵀ) + S * Sᵀ * Gᵀ + d • (L * Lᵀ) ∧ ∀ i j, i < j → X i j = 0 := by
  intro X
  set M := S⁻¹ * (G * S) + (S⁻¹ * (G * S))ᵀ + Real.sqrt d • (S⁻¹ * L) * (Real.sqrt d • (S⁻¹ * L))ᵀ with hM
  have hX : X = S * lowerHalf M := rfl
  have hsym : Mᵀ = M := by
    rw [hM]
    simp only [Matrix.transpose_add, Matrix.transpose_mul, Matrix.transpose_transpose, Matrix.mul_assoc]
    abel
  constructor
  · have h1 : X * Sᵀ + S * Xᵀ = S * M * Sᵀ := by
      rw [hX, Matrix.transpose_mul, ← Matrix.mul_assoc, ← Matrix.add_mul, ← Matrix.mul_add, lowerHalf_add M hsym]
    have hi : ∀ {k : ℕ} (Z : Matrix (Fin n) (Fin k) ℝ), S * (S⁻¹ * Z) = Z := fun Z => by
      rw [← Matrix.mul_assoc, Matrix.mul_nonsing_inv _ hS, Matrix.one_mul]
    have hi' : (S⁻¹)ᵀ * Sᵀ = 1 := by rw [← Matrix.transpose_mul, Matrix.mul_nonsing_inv _ hS, Matrix.transpose_one]
    rw [h1, hM]
    simp only [Matrix.mul_add, Matrix.add_mul, Matrix.transpose_mul, Matrix.transpose_smul, Matrix.mul_smul,
      Matrix.smul_mul, Matrix.mul_assoc, hi, hi', Matrix.mul_one, smul_smul, Real.mul_self_sqrt hd]
  · intro i j hij
    rw [hX, Matrix.mul_apply]
    refine Finset.sum_eq_zero fun k _ => ?_
    rcases lt_or_ge i k with h | h
    · rw [hlow i k h, zero_mul]
    · have hkj : k < j := lt_of_le_of_lt h hij
      simp [lowerHalf, not_lt.2 hkj.le, hkj.ne]

/-- **C59, square-root form**: where no diagonal entry of the factor decreases, the vector field propagates a lower
triangular factor `S` with the derivative of `S Sᵀ` equal to `G P + P Gᵀ + d L Lᵀ`.  Missing: decreasing diagonal
entries, for which it is wrong (`mde_sqrt_wrong`). -/
theorem mde_sqrt_partial (G : Matrix (Fin n) (Fin n) ℝ) (u : Fin n → ℝ) (L : Matrix (Fin n) (Fin s) ℝ) {d : ℝ}
    (hd : 0 ≤ d) (y : Moments n) (hS : IsUnit y.cov.det) (hlow : ∀ i j, i < j → y.cov i j = 0)
    (hdiag : ∀ i, 0 ≤ sqrtDerivative G L d y.cov i i) :
    let X := (mdeForwardSqrt G u L d y).cov
    X * y.covᵀ + y.cov * Xᵀ = G * (y.cov * y.covᵀ) + y.cov * y.covᵀ * Gᵀ + d • (L * Lᵀ) ∧
    (∀ i j, i < j → X i j = 0) ∧ (mdeForwardSqrt G u L d y).mean = G *ᵥ y.mean + u := by
  have e : (mdeForwardSqrt G u L d y).cov = sqrtDerivative G L d y.cov := by
    ext i j
    simp [mdeForwardSqrt, trilToPositiveTril, posSign, not_lt.2 (hdiag j)]
  obtain ⟨h1, h2⟩ := sqrt_derivative_right G L hd y.cov hS hlow
  exact ⟨by simp only [e]; exact h1, by rw [e]; exact h2, rfl⟩

/-- Violation of **C59**: `dx = -x dt + dw` at variance 1.  The variance decreases with rate 1, `2·(-1)·1 + 1 = -1`; the
square-root vector field makes it increase with rate 1. -/
theorem mde_sqrt_wrong :
    ∃ (G L S : Matrix (Fin 1) (Fin 1) ℝ), IsUnit S.det ∧ (∀ i j, i < j → S i j = 0) ∧
      (G * (S * Sᵀ) + S * Sᵀ * Gᵀ + (1 : ℝ) • (L * Lᵀ)) = -1 ∧
      let X := (mdeForwardSqrt G 0 L 1 ⟨0, S⟩).cov
      X * Sᵀ + S * Xᵀ = 1 := by
  refine ⟨-1, 1, 1, by simp, fun i j h => absurd h (by simp [Subsingleton.elim i j]), by simp, ?_⟩
  have e : sqrtDerivative (-1 : Matrix (Fin 1) (Fin 1) ℝ) (1 : Matrix (Fin 1) (Fin 1) ℝ) 1 1 = (-(1 / 2) : ℝ) • 1 := by
    ext i j
    fin_cases i; fin_cases j
    simp [sqrtDerivative, lowerHalf]
  simp only [mdeForwardSqrt, e]
  ext i j
  fin_cases i; fin_cases j
  simp [trilToPositiveTril, posSign]
  norm_num

/-! ## Backward moment equations -/

/-- **C59, smoothing**: let `m, P` be the forward moments, `P` invertible, and let `x(t₁)` be known to have moments
`obt`.  The moments that the exact (Rauch–Tung–Striebel) backward transition from `t₁` to `t` gives solve the backward
moment equations that the code hands to the ODE solver, and end in `obt`. -/
theorem mde_backward_right (chol : CovCholesky n) (sde : LTISDE n s) (hf : ∀ i, sde.force i.rev = sde.force i) (d : ℝ)
    (m : ℝ → Fin n → ℝ) (P : ℝ → Matrix (Fin n) (Fin n) ℝ) (hmP : SolvesMoments sde d m P) (hsym : ∀ t, (P t)ᵀ = P t)
    (hdet : ∀ t, (P t).det ≠ 0) (t₁ : ℝ) (obt : Normal n) (L : Matrix (Fin n) (Fin n) ℝ) :
    ∃ y : ℝ → Moments n,
      (∀ t, backwardClassic (sde.discretise chol (t₁ - t)) d obt ⟨m t, P t, L⟩ none = .ok ⟨(y t).mean, (y t).cov⟩) ∧
      (y t₁).mean = obt.mean ∧ (y t₁).cov = obt.cov ∧
      ∀ t, (∀ i, HasDerivAt (fun s => (y s).mean i)
          ((mdeBackward sde.drift sde.force sde.dispersion d (m t) (P t) (y t)).mean i) t) ∧
        ∀ i j, HasDerivAt (fun s => (y s).cov i j)
          ((mdeBackward sde.drift sde.force sde.dispersion d (m t) (P t) (y t)).cov i j) t := by
  set A := mfdA sde.drift sde.dispersion with hA
  set K : ℝ → Matrix (Fin n) (Fin n) ℝ := fun t => P t * (A (t₁ - t))ᵀ * (P t₁)⁻¹ with hK
  set Λ := obt.cov - P t₁ with hΛ
  have hadd : ∀ t : ℝ, t + (t₁ - t) = t₁ := fun t => by ring
  have hpred : ∀ t, predCov (sde.discretise chol (t₁ - t)) d ⟨m t, P t, L⟩ = P t₁ := fun t => by
    have := (discretise_solves_partial chol sde hf d m P hmP t (t₁ - t) L).2
    rwa [hadd] at this
  have hmean : ∀ t, (forwardClassic (sde.discretise chol (t₁ - t)) d ⟨m t, P t, L⟩).mean = m t₁ := fun t => by
    have := (discretise_solves_partial chol sde hf d m P hmP t (t₁ - t) L).1
    rwa [hadd] at this
  have hunit : ∀ t, IsUnit (P t).det := fun t => isUnit_iff_ne_zero.2 (hdet t)
  set LL := d • (sde.dispersion * sde.dispersionᵀ) with hLL
  have hLLs : LLᵀ = LL := by simp [hLL, Matrix.transpose_mul]
  have hPis : ∀ t, ((P t)⁻¹)ᵀ = (P t)⁻¹ := fun t => by rw [Matrix.transpose_nonsing_inv, hsym]
  have hX : ∀ t, ((P t)⁻¹ * LLᵀ)ᵀ = LL * (P t)⁻¹ := fun t => by rw [Matrix.transpose_mul, Matrix.transpose_transpose, hPis]
  have hKd : ∀ t, MDeriv K ((sde.drift + LL * (P t)⁻¹) * K t) t := fun t => by
    have h1 : MDeriv P _ t := hmP.cov t
    have h2 : MDeriv (fun s => (A (t₁ - s))ᵀ) _ t := ((mfdA_deriv sde.drift sde.dispersion (t₁ - t)).comp_sub t₁).transpose
    refine ((h1.mul h2).mul (MDeriv.const (P t₁)⁻¹)).congr ?_
    have hc : (sde.drift * A (t₁ - t))ᵀ = sde.driftᵀ * (A (t₁ - t))ᵀ := by
      rw [hA, (mfdA_eq _ _ _).1, ← exp_comm, Matrix.transpose_mul]
    have hcan : LL * (P t)⁻¹ * (P t * (A (t₁ - t))ᵀ * (P t₁)⁻¹) = LL * (A (t₁ - t))ᵀ * (P t₁)⁻¹ := by
      have : (P t)⁻¹ * (P t * ((A (t₁ - t))ᵀ * (P t₁)⁻¹)) = (A (t₁ - t))ᵀ * (P t₁)⁻¹ := by
        rw [← Matrix.mul_assoc, Matrix.nonsing_inv_mul _ (hunit t), Matrix.one_mul]
      simp only [Matrix.mul_assoc, this]
    simp only [hK]
    rw [Matrix.add_mul _ _ (P t * (A (t₁ - t))ᵀ * (P t₁)⁻¹), hcan, Matrix.transpose_neg, ← hA, hc, Matrix.mul_zero]
    simp only [Matrix.add_mul, Matrix.mul_neg, Matrix.neg_mul, Matrix.mul_assoc, hLL]
    abel
  refine ⟨fun t => ⟨m t + K t *ᵥ (obt.mean - m t₁), P t + K t * Λ * (K t)ᵀ⟩, fun t => ?_, ?_, ?_, fun t => ⟨?_, ?_⟩⟩
  · have hS : (predCov (sde.discretise chol (t₁ - t)) d ⟨m t, P t, L⟩).det ≠ 0 := by rw [hpred]; exact hdet t₁
    have e : optGain (sde.discretise chol (t₁ - t)) d ⟨m t, P t, L⟩ = K t := by
      rw [optGain, hpred, (discretise_eq chol sde (t₁ - t)).1]
    have hc : (forwardClassic (sde.discretise chol (t₁ - t)) d ⟨m t, P t, L⟩).cov = P t₁ := hpred t
    simp only [backwardClassic, gainClassic_eq _ _ _ hS, e, bind, Except.bind, conditionStateOnRv, hmean, hc]
    rfl
  · have e : K t₁ = 1 := by
      simp only [hK, sub_self, hA, mfdA_zero, Matrix.transpose_one, Matrix.mul_one]
      exact Matrix.mul_nonsing_inv _ (hunit t₁)
    simp [e]
  · have e : K t₁ = 1 := by
      simp only [hK, sub_self, hA, mfdA_zero, Matrix.transpose_one, Matrix.mul_one]
      exact Matrix.mul_nonsing_inv _ (hunit t₁)
    simp [e, hΛ]
  · have h1 : VDeriv m _ t := hmP.mean t
    refine (h1.add (VDeriv.mulVec (hKd t) (VDeriv.const (obt.mean - m t₁)))).congr ?_
    simp only [mdeBackward, Matrix.mulVec_zero, add_zero, ← hLL, hX, Matrix.add_mulVec, Matrix.mulVec_add,
      Matrix.add_mul, Matrix.mulVec_mulVec, add_sub_cancel_left]
    abel
  · have h1 : MDeriv P _ t := hmP.cov t
    refine (h1.add (((hKd t).mul (MDeriv.const Λ)).mul (hKd t).transpose)).congr ?_
    have c1 : LL * (P t)⁻¹ * P t = LL := by rw [Matrix.mul_assoc, Matrix.nonsing_inv_mul _ (hunit t), Matrix.mul_one]
    have c2 : P t * (LL * (P t)⁻¹)ᵀ = LL := by
      rw [Matrix.transpose_mul, hPis, hLLs, ← Matrix.mul_assoc, Matrix.mul_nonsing_inv _ (hunit t), Matrix.one_mul]
    simp only [mdeBackward, ← hLL, hX, Matrix.mul_zero, add_zero, Matrix.transpose_mul ((sde.drift + LL * (P t)⁻¹))]
    simp only [Matrix.mul_add, Matrix.add_mul, Matrix.transpose_add, c1, c2, Matrix.mul_assoc] at *
    abel

/-! ## Constructor -/

/-- **C59, constructor**: exactly which shapes are accepted.  The number of rows of the dispersion matrix is not checked. -/
theorem construct_accepts_iff (s : Shapes) :
    construct s = .ok () ↔ ∃ n a b, s.drift = [n, n] ∧ s.force = [n] ∧ s.dispersion = [a, b] := by
  obtain ⟨dr, fo, di⟩ := s
  constructor
  · intro h
    match dr, fo, di with
    | [n, n'], [f], [a, b] =>
      simp only [construct, List.length, bind, Except.bind, pure, Except.pure, throw, throwThe, MonadExceptOf.throw] at h
      by_cases h1 : n = n' <;> by_cases h2 : f = n' <;> simp_all
    | [], _, _ => simp [construct, bind, Except.bind, throw, throwThe, MonadExceptOf.throw] at h
    | _, _, [] => simp [construct, bind, Except.bind, throw, throwThe, MonadExceptOf.throw] at h
    | _, _, [_] => simp [construct, bind, Except.bind, throw, throwThe, MonadExceptOf.throw] at h
    | [_], _, _ :: _ :: _ => simp [construct, bind, Except.bind, throw, throwThe, MonadExceptOf.throw, pure, Except.pure] at h
    | _ :: _ :: _ :: _, _, _ :: _ :: _ =>
      simp [construct, bind, Except.bind, throw, throwThe, MonadExceptOf.throw, pure, Except.pure] at h
    | [n, n'], [], _ :: _ :: _ =>
      simp only [construct, List.length, bind, Except.bind, pure, Except.pure, throw, throwThe, MonadExceptOf.throw] at h
      by_cases h1 : n = n' <;> simp_all
    | [n, n'], _ :: _ :: _, _ :: _ :: _ =>
      simp only [construct, List.length, bind, Except.bind, pure, Except.pure, throw, throwThe, MonadExceptOf.throw] at h
      by_cases h1 : n = n' <;> simp_all
    | [n, n'], [f], _ :: _ :: _ :: _ =>
      simp only [construct, List.length, bind, Except.bind, pure, Except.pure, throw, throwThe, MonadExceptOf.throw] at h
      by_cases h1 : n = n' <;> by_cases h2 : f = n' <;> simp_all
  · rintro ⟨n, a, b, rfl, rfl, rfl⟩
    simp [construct, bind, Except.bind, pure, Except.pure]

/-- Violation of **C59**: an SDE with a dispersion matrix of the wrong height is accepted and cannot be discretised. -/
theorem dispersion_rows_unchecked :
    construct ⟨[2, 2], [2], [3, 1]⟩ = .ok () ∧ discretiseShapes ⟨[2, 2], [2], [3, 1]⟩ = .error .valueError := ⟨rfl, rfl⟩

/-! ## Integrators -/

/-- The companion row of the Matérn drift: its characteristic polynomial is `(z + λ)^(q+1)` with `λ = √(2ν)/ℓ`,
`ν = q + 1/2`. -/
theorem matern_characteristic (q : ℕ) (ℓ z : ℝ) :
    ∑ j : Fin (q + 1), driftMatern q ℓ (Fin.last q) j * z ^ j.1
      = z ^ (q + 1) - (z + Real.sqrt (2 * (q + 1 / 2)) / ℓ) ^ (q + 1) := by
  rw [add_pow, Finset.sum_range_succ, ← Fin.sum_univ_eq_sum_range
    (fun j => z ^ j * (Real.sqrt (2 * (q + 1 / 2)) / ℓ) ^ (q + 1 - j) * ((q + 1).choose j : ℝ)) (q + 1)]
  simp only [driftMatern, Matrix.of_apply, Fin.val_last, if_true, Nat.sub_self, pow_zero, Nat.choose_self]
  rw [show ∀ a : ℝ, z ^ (q + 1) - (a + z ^ (q + 1) * 1 * ((1 : ℕ) : ℝ)) = -a by intros; push_cast; ring]
  rw [← Finset.sum_neg_distrib]
  exact Finset.sum_congr rfl fun j _ => by ring

/-- All rows but the last of the drift of the IOUP and of the Matérn process: the derivative of a coordinate is the next
coordinate. -/
theorem drift_shift (q : ℕ) (speed ℓ : ℝ) (x : Fin (q + 1) → ℝ) (i : Fin q) :
    (driftIoup q speed *ᵥ x) i.castSucc = x i.succ ∧ (driftMatern q ℓ *ᵥ x) i.castSucc = x i.succ := by
  have hi := i.2
  constructor
  · rw [Matrix.mulVec, dotProduct, Finset.sum_eq_single i.succ]
    · simp only [driftIoup, Matrix.of_apply, Fin.val_castSucc, Fin.val_succ, if_true]
      rw [if_neg (by omega), one_mul]
    · intro b _ hb
      have : ¬i.1 + 1 = b.1 := fun h => hb (Fin.ext (by rw [Fin.val_succ]; exact h.symm))
      simp only [driftIoup, Matrix.of_apply, Fin.val_castSucc]
      rw [if_neg (by omega), if_neg this, zero_mul]
    · simp
  · rw [Matrix.mulVec, dotProduct, Finset.sum_eq_single i.succ]
    · simp only [driftMatern, Matrix.of_apply, Fin.val_castSucc, Fin.val_succ, if_true]
      rw [if_neg (by omega), one_mul]
    · intro b _ hb
      have : ¬i.1 + 1 = b.1 := fun h => hb (Fin.ext (by rw [Fin.val_succ]; exact h.symm))
      simp only [driftMatern, Matrix.of_apply, Fin.val_castSucc]
      rw [if_neg (by omega), if_neg this, zero_mul]
    · simp

/-- The IOUP prior models a function whose `q`-th derivative is an Ornstein-Uhlenbeck process that reverts to zero with the
given speed: without noise, the derivatives `f, f', …, f^(q)` solve the equation of the prior exactly if
`f^(q+1) = -speed · f^(q)`. -/
theorem ioup_equation (q : ℕ) (speed : ℝ) (f : ℝ → ℝ) (hf : ContDiff ℝ (q + 1) f) :
    (∀ t (i : Fin (q + 1)), HasDerivAt (fun s => iteratedDeriv i f s)
        ((driftIoup q speed *ᵥ fun j => iteratedDeriv j f t) i) t) ↔
      ∀ t, iteratedDeriv (q + 1) f t = -speed * iteratedDeriv q f t := by
  have hlast : ∀ t, (driftIoup q speed *ᵥ fun j => iteratedDeriv j f t) (Fin.last q) = -speed * iteratedDeriv q f t := by
    intro t
    rw [Matrix.mulVec, dotProduct, Finset.sum_eq_single (Fin.last q)]
    · simp [driftIoup]
    · intro b _ hb
      have h1 : b.1 ≠ q := fun h => hb (Fin.ext h)
      have h2 := b.2
      simp only [driftIoup, Matrix.of_apply, Fin.val_last]
      rw [if_neg (by omega), if_neg (by omega), zero_mul]
    · simp
  have hd : ∀ (i : ℕ), i ≤ q → ∀ t, HasDerivAt (fun s => iteratedDeriv i f s) (iteratedDeriv (i + 1) f t) t := by
    intro i hi t
    rw [iteratedDeriv_succ]
    exact ((hf.differentiable_iteratedDeriv i (by exact_mod_cast Nat.lt_succ_of_le hi)) t).hasDerivAt
  constructor
  · intro h t
    have h1 := h t (Fin.last q)
    rw [hlast] at h1
    exact (hd q le_rfl t).unique h1
  · intro h t i
    rcases Fin.eq_castSucc_or_eq_last i with ⟨i, rfl⟩ | rfl
    · rw [(drift_shift q speed 1 _ i).1]
      exact hd i.1 i.2.le t
    · rw [hlast, ← h t]
      exact hd q le_rfl t

/-- A function of this kind: `exp (-speed t)`. -/
example : ∀ t, iteratedDeriv 2 (fun t : ℝ => Real.exp (-3 * t)) t = -3 * iteratedDeriv 1 (fun t => Real.exp (-3 * t)) t := by
  intro t
  rw [iteratedDeriv_exp_const_mul, iteratedDeriv_exp_const_mul]
  ring

theorem driftIwp_mul (q : ℕ) {κ : Type} (M : Matrix (Fin (q + 1)) κ ℝ) (k : Fin (q + 1)) (l : κ) :
    (driftIwp q * M) k l = if h : k.1 + 1 < q + 1 then M ⟨k.1 + 1, h⟩ l else 0 := by
  simp only [Matrix.mul_apply, driftIwp, Matrix.of_apply]
  split
  · rename_i h
    rw [Finset.sum_eq_single ⟨k.1 + 1, h⟩]
    · simp
    · intro b _ hb
      rw [if_neg (fun e => hb (Fin.ext e.symm)), zero_mul]
    · simp
  · refine Finset.sum_eq_zero fun b _ => ?_
    rw [if_neg (by omega), zero_mul]

theorem taylor_deriv (q : ℕ) (t : ℝ) : MDeriv (IWP.taylor q) (driftIwp q * IWP.taylor q t) t := by
  intro k l
  rw [driftIwp_mul]
  simp only [IWP.taylor, Matrix.of_apply]
  have hl := l.2
  rcases lt_trichotomy k l with h | h | h
  · have h' : k.1 < l.1 := h
    rw [dif_pos (by omega)]
    simp only [h.le, if_true]
    rw [if_pos (show (⟨k.1 + 1, by omega⟩ : Fin (q + 1)) ≤ l from Fin.mk_le_of_le_val (by omega))]
    have e := (hasDerivAt_pow (l.1 - k.1) t).div_const ((l.1 - k.1).factorial : ℝ)
    refine e.congr_deriv (Eq.symm ?_)
    have hf : (l.1 - k.1).factorial = (l.1 - k.1) * (l.1 - (k.1 + 1)).factorial := by
      conv_lhs => rw [show l.1 - k.1 = (l.1 - (k.1 + 1)) + 1 by omega, Nat.factorial_succ]
      rw [show l.1 - (k.1 + 1) + 1 = l.1 - k.1 by omega]
    rw [hf, show l.1 - k.1 - 1 = l.1 - (k.1 + 1) by omega]
    push_cast
    have hne : ((l.1 - k.1 : ℕ) : ℝ) ≠ 0 := by exact_mod_cast (by omega : l.1 - k.1 ≠ 0)
    have hne' : ((l.1 - (k.1 + 1)).factorial : ℝ) ≠ 0 := by exact_mod_cast Nat.factorial_ne_zero _
    field_simp
  · subst h
    simp only [le_refl, if_true, Nat.sub_self, pow_zero]
    have e : (if h : k.1 + 1 < q + 1 then
        (if (⟨k.1 + 1, h⟩ : Fin (q + 1)) ≤ k then t ^ (k.1 - (k.1 + 1)) / ((k.1 - (k.1 + 1)).factorial : ℝ) else 0)
        else 0) = 0 := by
      split
      · rw [if_neg (by simp only [Fin.le_def]; omega)]
      · rfl
    rw [e]
    exact hasDerivAt_const t _
  · have h' : l.1 < k.1 := h
    simp only [not_le.2 h, if_false]
    have e : (if h : k.1 + 1 < q + 1 then
        (if (⟨k.1 + 1, h⟩ : Fin (q + 1)) ≤ l then t ^ (l.1 - (k.1 + 1)) / ((l.1 - (k.1 + 1)).factorial : ℝ) else 0)
        else 0) = 0 := by
      split
      · rw [if_neg (by simp only [Fin.le_def]; omega)]
      · rfl
    rw [e]
    exact hasDerivAt_const t _

theorem noiseCov_deriv (q : ℕ) (t : ℝ) :
    MDeriv (IWP.noiseCov q) (driftIwp q * IWP.noiseCov q t + IWP.noiseCov q t * (driftIwp q)ᵀ
      + dispersion1d q * (dispersion1d q)ᵀ) t := by
  intro k l
  have hsym : (IWP.noiseCov q t)ᵀ = IWP.noiseCov q t := IWP.noiseCov_symm q t
  have e2 : (IWP.noiseCov q t * (driftIwp q)ᵀ) k l = (driftIwp q * IWP.noiseCov q t) l k := by
    have : IWP.noiseCov q t * (driftIwp q)ᵀ = (driftIwp q * IWP.noiseCov q t)ᵀ := by
      rw [Matrix.transpose_mul, hsym]
    rw [this, Matrix.transpose_apply]
  have e3 : (dispersion1d q * (dispersion1d q)ᵀ) k l = if k.1 = q ∧ l.1 = q then 1 else 0 := by
    simp only [Matrix.mul_apply, Matrix.transpose_apply, dispersion1d, Matrix.of_apply, Finset.univ_unique,
      Finset.sum_singleton]
    by_cases h1 : k.1 = q <;> by_cases h2 : l.1 = q <;> simp [h1, h2]
  rw [Matrix.add_apply, Matrix.add_apply, e2, e3, driftIwp_mul, driftIwp_mul]
  have hk := k.2
  have hl := l.2
  simp only [IWP.noiseCov, Matrix.of_apply]
  have e := (hasDerivAt_pow (2 * q + 1 - k.1 - l.1) t).div_const
    (((2 * q + 1 - k.1 - l.1 : ℕ) : ℝ) * ((q - k.1).factorial : ℝ) * ((q - l.1).factorial : ℝ))
  refine e.congr_deriv (Eq.symm ?_)
  have hfac : ∀ a : ℕ, a < q → ((q - a).factorial : ℝ) = (q - a : ℕ) * ((q - (a + 1)).factorial : ℝ) := fun a ha => by
    rw [show q - a = (q - (a + 1)) + 1 by omega, Nat.factorial_succ]; push_cast; ring
  have hne : ∀ m : ℕ, (m.factorial : ℝ) ≠ 0 := fun m => by exact_mod_cast Nat.factorial_ne_zero _
  have hn0 : ((2 * q + 1 - k.1 - l.1 : ℕ) : ℝ) ≠ 0 := by exact_mod_cast (by omega : 2 * q + 1 - k.1 - l.1 ≠ 0)
  have p1 : 2 * q + 1 - k.1 - l.1 - 1 = 2 * q - k.1 - l.1 := by omega
  have p2 : 2 * q + 1 - (k.1 + 1) - l.1 = 2 * q - k.1 - l.1 := by omega
  have p3 : 2 * q + 1 - (l.1 + 1) - k.1 = 2 * q - k.1 - l.1 := by omega
  rw [p1]
  by_cases hkq : k.1 < q
  · by_cases hlq : l.1 < q
    · rw [dif_pos (by omega), dif_pos (by omega), if_neg (by omega), p2, p3, hfac k.1 hkq, hfac l.1 hlq]
      have a1 : ((q - k.1 : ℕ) : ℝ) ≠ 0 := by exact_mod_cast (by omega : q - k.1 ≠ 0)
      have a2 : ((q - l.1 : ℕ) : ℝ) ≠ 0 := by exact_mod_cast (by omega : q - l.1 ≠ 0)
      have a3 : ((2 * q - k.1 - l.1 : ℕ) : ℝ) = (q - k.1 : ℕ) + (q - l.1 : ℕ) := by
        rw [show 2 * q - k.1 - l.1 = (q - k.1) + (q - l.1) by omega]; push_cast; ring
      have a4 : ((q - k.1 : ℕ) : ℝ) + (q - l.1 : ℕ) ≠ 0 := by
        rw [← a3]; exact_mod_cast (by omega : 2 * q - k.1 - l.1 ≠ 0)
      rw [a3]
      have b1 := hne (q - (k.1 + 1))
      have b2 := hne (q - (l.1 + 1))
      field_simp
      ring
    · have hl' : l.1 = q := by omega
      rw [dif_pos (by omega), dif_neg (by omega), if_neg (by omega), p2, hfac k.1 hkq, hl']
      have a1 : ((q - k.1 : ℕ) : ℝ) ≠ 0 := by exact_mod_cast (by omega : q - k.1 ≠ 0)
      have b1 := hne (q - (k.1 + 1))
      rw [hl'] at hn0
      rw [show 2 * q - k.1 - q = q - k.1 by omega]
      simp only [Nat.sub_self, Nat.factorial_zero, Nat.cast_one, mul_one, add_zero]
      field_simp
  · have hk' : k.1 = q := by omega
    by_cases hlq : l.1 < q
    · rw [dif_neg (by omega), dif_pos (by omega), if_neg (by omega), p3, hfac l.1 hlq, hk']
      have a1 : ((q - l.1 : ℕ) : ℝ) ≠ 0 := by exact_mod_cast (by omega : q - l.1 ≠ 0)
      have b1 := hne (q - (l.1 + 1))
      rw [hk'] at hn0
      rw [show 2 * q - q - l.1 = q - l.1 by omega]
      simp only [Nat.sub_self, Nat.factorial_zero, Nat.cast_one, mul_one, add_zero, zero_add]
      field_simp
    · have hl' : l.1 = q := by omega
      rw [dif_neg (by omega), dif_neg (by omega), if_pos ⟨hk', hl'⟩, hk', hl',
        show 2 * q + 1 - q - q = 1 by omega, show 2 * q - q - q = 0 by omega]
      simp

theorem kronEye_deriv (d : ℕ) {k l : ℕ} {B : ℝ → Matrix (Fin k) (Fin l) ℝ} {B' : Matrix (Fin k) (Fin l) ℝ} {t : ℝ}
    (h : MDeriv B B' t) : MDeriv (fun s => IWP.kronEye d (B s)) (IWP.kronEye d B') t := fun r c => by
  simp only [IWP.kronEye, Matrix.of_apply]
  exact (h _ _).const_mul _

/-- **C59/C18**: the closed-form discretisation of the integrated Wiener process is the matrix fraction decomposition of
its SDE. -/
theorem iwp_discretise_agrees (q d : ℕ) (chol : CovCholesky (q + 1)) (ch : CovCholesky (d * (q + 1))) {h : ℝ}
    (hh : 0 < h) :
    ∃ tr, IWP.discretise q d chol h = some tr ∧ tr.mat = ((integrator q d (driftIwp q)).discretise ch h).mat ∧
      tr.noise.cov = ((integrator q d (driftIwp q)).discretise ch h).noise.cov ∧
      tr.noise.mean = ((integrator q d (driftIwp q)).discretise ch h).noise.mean := by
  obtain ⟨tr, h1, h2, h3, h4⟩ := IWP.discretise_closed q d chol hh.ne'
  rw [abs_of_pos hh] at h2 h4
  obtain ⟨e1, e2, e3⟩ := discretise_eq ch (integrator q d (driftIwp q)) h
  refine ⟨tr, h1, ?_, ?_, ?_⟩
  · rw [h2, e1]
    refine linear_unique (integrator q d (driftIwp q)).drift (X := fun t => IWP.kronEye d (IWP.taylor q t))
      (C := fun _ => 0) (fun t => ?_) (fun t => (mfdA_deriv _ _ t).congr (by simp)) ?_ h
    · refine (kronEye_deriv d (taylor_deriv q t)).congr ?_
      simp [integrator, IWP.kronEye_mul]
    · simp only [IWP.taylor_zero, IWP.kronEye_one, mfdA_zero]
  · rw [h4, e2]
    refine lyapunov_unique (integrator q d (driftIwp q)).drift (X := fun t => IWP.kronEye d (IWP.noiseCov q t))
      (C := fun _ => (integrator q d (driftIwp q)).dispersion * (integrator q d (driftIwp q)).dispersionᵀ) (fun t => ?_)
      (fun t => mfdQ_deriv _ _ t) ?_ h
    · refine (kronEye_deriv d (noiseCov_deriv q t)).congr ?_
      simp only [integrator, IWP.kronEye_mul, IWP.kronEye_transpose, IWP.kronEye_add]
    · rw [mfdQ_zero]
      ext r c
      simp only [IWP.kronEye, IWP.noiseCov, Matrix.of_apply, Matrix.zero_apply]
      rw [zero_pow (by omega), zero_div, mul_zero]
  · rw [h3, e3]
    have : (integrator q d (driftIwp q)).force ∘ Fin.rev = 0 := rfl
    rw [this, Matrix.mulVec_zero]

theorem inCoords_integrator (q d : ℕ) (drift1d : Matrix (Fin (q + 1)) (Fin (q + 1)) ℝ) (ch : CovCholesky (d * (q + 1)))
    {h : ℝ} (hh : h ≠ 0) :
    IWP.InCoords (IWP.precon q d h) (IWP.preconInv q d h) ((integrator q d drift1d).discretise ch h)
      (((integrator q d drift1d).inCoords (IWP.precon q d h) (IWP.preconInv q d h)).discretise ch h) := by
  have hr := IWP.precon_mul_inv q d hh
  obtain ⟨a1, a2, a3⟩ := discretise_eq ch (integrator q d drift1d) h
  obtain ⟨b1, b2, b3⟩ := discretise_eq ch ((integrator q d drift1d).inCoords (IWP.precon q d h) (IWP.preconInv q d h)) h
  obtain ⟨c1, c2⟩ := mfd_conj (integrator q d drift1d).drift (integrator q d drift1d).dispersion (IWP.precon q d h)
    (IWP.preconInv q d h) hr h
  have z1 : (integrator q d drift1d).force ∘ Fin.rev = 0 := rfl
  have z2 : ((integrator q d drift1d).inCoords (IWP.precon q d h) (IWP.preconInv q d h)).force ∘ Fin.rev = 0 := by
    have : ((integrator q d drift1d).inCoords (IWP.precon q d h) (IWP.preconInv q d h)).force = 0 :=
      Matrix.mulVec_zero (IWP.preconInv q d h)
    rw [this]; rfl
  refine ⟨hr, mul_eq_one_comm.1 hr, IWP.precon_symm q d h, ?_, ?_, ?_⟩
  · rw [a1, b1]; exact c1
  · rw [a3, b3, z1, z2]; simp
  · rw [a2, b2]; exact c2

/-- **C19 for IOUP and Matérn transitions** (any one-dimensional drift), `forward_rv`: for positive steps it is that of the
plain discretisation, up to the damping `ε` of `cov_cholesky`. -/
theorem integrator_forward_exact (q d : ℕ) (drift1d : Matrix (Fin (q + 1)) (Fin (q + 1)) ℝ)
    (ch : CovCholesky (d * (q + 1))) {h ε δ : ℝ} (hh : 0 < h) (hε : 0 ≤ ε) (hδ : 0 ≤ δ) (rv : IWP.Rv (d * (q + 1)))
    (hv : rv.Valid) (hp : rv.cov.PosSemidef) :
    ∃ out, forwardRv q d drift1d ch ε h δ rv = some out ∧ ∀ L,
      let f := forwardClassic ((integrator q d drift1d).discretise ch h) δ ⟨rv.mean, IWP.effCov ε rv, L⟩
      out.rv.mean = f.mean ∧ out.rv.cov = f.cov + ε • (IWP.precon q d h * (IWP.precon q d h)ᵀ) ∧
        out.crosscov = f.crosscov :=
  ⟨_, by rw [forwardRv, if_neg hh.ne'], fun L => IWP.pre_forward_exact (inCoords_integrator q d drift1d ch hh.ne')
    (discretise_noise_posSemidef ch _ hh.le) ch hε hδ rv hv hp L⟩

/-- **C19 for IOUP and Matérn transitions**, `backward_rv` without a supplied gain. -/
theorem integrator_backward_exact (q d : ℕ) (drift1d : Matrix (Fin (q + 1)) (Fin (q + 1)) ℝ)
    (ch : CovCholesky (d * (q + 1))) {h ε δ : ℝ} (hh : 0 < h) (hε : 0 ≤ ε) (hδ : 0 ≤ δ) (obt rv : IWP.Rv (d * (q + 1)))
    (hv : rv.Valid) (hp : rv.cov.PosSemidef) (hvo : obt.Valid) (hpo : obt.cov.PosSemidef)
    (L L' : Matrix (Fin (d * (q + 1))) (Fin (d * (q + 1))) ℝ) :
    let plain := backwardClassic ((integrator q d drift1d).discretise ch h) δ ⟨obt.mean, IWP.effCov ε obt, L'⟩
      ⟨rv.mean, IWP.effCov ε rv, L⟩ none
    (∀ e, plain = .error e → backwardRv q d drift1d ch ε h δ obt rv none = some (.error e)) ∧
    ∀ u, plain = .ok u → ∃ out, backwardRv q d drift1d ch ε h δ obt rv none = some (.ok out) ∧
      out.mean = u.mean ∧ out.cov = u.cov + ε • (IWP.precon q d h * (IWP.precon q d h)ᵀ) := by
  obtain ⟨h1, h2⟩ := IWP.pre_backward_exact (inCoords_integrator q d drift1d ch hh.ne')
    (discretise_noise_posSemidef ch _ hh.le) ch hε hδ obt rv hv hp hvo hpo L L'
  refine ⟨fun e he => ?_, fun u hu => ?_⟩
  · rw [backwardRv, if_neg hh.ne', h1 e he]
  · obtain ⟨out, o1, o2⟩ := h2 u hu
    exact ⟨out, by rw [backwardRv, if_neg hh.ne', o1], o2⟩

/-- A concrete instance: an IOUP of order 1 in two dimensions. -/
example : (integrator 1 2 (driftIoup 1 3)).drift ≠ 0 ∧
    (IWP.Rv.const (fun _ : Fin (2 * (1 + 1)) => (1 : ℝ))).Valid := by
  refine ⟨fun h => ?_, ?_⟩
  · have := congrFun (congrFun h (0 : Fin 4)) (1 : Fin 4)
    simp [integrator, IWP.kronEye, driftIoup, Fin.divNat, Fin.modNat] at this
  · intro L hL; cases hL; simp [IWP.Rv.const]

end Probnum.SDE
