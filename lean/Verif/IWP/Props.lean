import Verif.IWP.Lemmas

/-!
# C18, C19, C20: integrated Wiener processes
-/

namespace Probnum.IWP

open Matrix Probnum.LinGauss Probnum.Kalman

/-! ## C18 -/

/-- **C18, closed form.**  For every order `q`, dimension `d` and nonzero step `h`: in coordinate `i`, the entry of the
transition matrix from derivative `l` to derivative `k` is `|h|^(l-k)/(l-k)!` (zero for `l < k`), the process noise
covariance of derivatives `k` and `l` is `∫₀^|h| s^(q-k)/(q-k)! · s^(q-l)/(q-l)! ds`, which is
`|h|^(2q+1-k-l) / ((2q+1-k-l)(q-k)!(q-l)!)`, different coordinates do not interact and there is no shift. -/
theorem discretise_entries (q d : ℕ) (chol : CovCholesky (q + 1)) {h : ℝ} (hh : h ≠ 0) :
    ∃ tr, discretise q d chol h = some tr ∧ tr.noise.mean = 0 ∧
      ∀ (i j : Fin d) (k l : Fin (q + 1)),
        tr.mat (finProdFinEquiv (i, k)) (finProdFinEquiv (j, l))
          = (if i = j ∧ k ≤ l then |h| ^ (l.1 - k.1) / ((l.1 - k.1).factorial : ℝ) else 0) ∧
        tr.noise.cov (finProdFinEquiv (i, k)) (finProdFinEquiv (j, l))
          = (if i = j then ∫ s in (0 : ℝ)..|h|, (s ^ (q - k.1) / ((q - k.1).factorial : ℝ))
              * (s ^ (q - l.1) / ((q - l.1).factorial : ℝ)) else 0) ∧
        tr.noise.cov (finProdFinEquiv (i, k)) (finProdFinEquiv (j, l))
          = (if i = j then |h| ^ (2 * q + 1 - k.1 - l.1) / (((2 * q + 1 - k.1 - l.1 : ℕ) : ℝ)
              * ((q - k.1).factorial : ℝ) * ((q - l.1).factorial : ℝ)) else 0) := by
  obtain ⟨tr, h1, h2, h3, h4⟩ := discretise_closed q d chol hh
  have hdm : ∀ {k : ℕ} (x : Fin d × Fin k), (finProdFinEquiv x).divNat = x.1 ∧ (finProdFinEquiv x).modNat = x.2 := by
    intro k x
    have := finProdFinEquiv.symm_apply_apply x
    rw [finProdFinEquiv_symm_apply] at this
    exact ⟨congrArg Prod.fst this, congrArg Prod.snd this⟩
  refine ⟨tr, h1, h3, fun i j k l => ⟨?_, ?_, ?_⟩⟩
  · rw [h2]
    simp only [kronEye, Matrix.of_apply, hdm, taylor]
    by_cases hij : i = j <;> by_cases hkl : k ≤ l <;> simp [hij, hkl]
  · rw [h4]
    simp only [kronEye, Matrix.of_apply, hdm, noiseCov_integral]
    by_cases hij : i = j <;> simp [hij, impulse]
  · rw [h4]
    simp only [kronEye, Matrix.of_apply, hdm, noiseCov]
    by_cases hij : i = j <;> simp [hij]

/-- **C18, Chapman–Kolmogorov.**  Propagating any random variable over `h₁` and then over `h₂` gives the mean and the
covariance of propagating it over `h₁ + h₂`, for every diffusion. -/
theorem chapman_kolmogorov (q d : ℕ) (chol : CovCholesky (q + 1)) {h₁ h₂ : ℝ} (p₁ : 0 < h₁) (p₂ : 0 < h₂) (δ : ℝ)
    (rv : Normal (d * (q + 1))) :
    ∃ tr₁ tr₂ tr, discretise q d chol h₁ = some tr₁ ∧ discretise q d chol h₂ = some tr₂ ∧
      discretise q d chol (h₁ + h₂) = some tr ∧
      ∀ L, (forwardClassic tr₂ δ ⟨(forwardClassic tr₁ δ rv).mean, (forwardClassic tr₁ δ rv).cov, L⟩).mean
          = (forwardClassic tr δ rv).mean ∧
        (forwardClassic tr₂ δ ⟨(forwardClassic tr₁ δ rv).mean, (forwardClassic tr₁ δ rv).cov, L⟩).cov
          = (forwardClassic tr δ rv).cov := by
  obtain ⟨tr₁, a1, a2, a3, a4⟩ := discretise_closed q d chol p₁.ne'
  obtain ⟨tr₂, b1, b2, b3, b4⟩ := discretise_closed q d chol p₂.ne'
  obtain ⟨tr, c1, c2, c3, c4⟩ := discretise_closed q d chol (by positivity : h₁ + h₂ ≠ 0)
  rw [abs_of_pos p₁] at a2 a4
  rw [abs_of_pos p₂] at b2 b4
  rw [abs_of_pos (by positivity)] at c2 c4
  have hm : tr₂.mat * tr₁.mat = tr.mat := by rw [a2, b2, c2, kronEye_mul, taylor_add, add_comm h₂ h₁]
  have hc : tr₂.mat * tr₁.noise.cov * tr₂.matᵀ + tr₂.noise.cov = tr.noise.cov := by
    rw [a4, b2, b4, c4, kronEye_transpose, kronEye_mul, kronEye_mul, kronEye_add, noiseCov_add]
  refine ⟨tr₁, tr₂, tr, a1, b1, c1, fun L => ⟨?_, ?_⟩⟩
  · simp only [forwardClassic, a3, b3, c3, add_zero]
    rw [Matrix.mulVec_mulVec, hm]
  · simp only [forwardClassic]
    rw [← hm, ← hc]
    simp only [Matrix.mul_add, Matrix.add_mul, Matrix.transpose_mul, Matrix.mul_assoc, Matrix.mul_smul, Matrix.smul_mul,
      smul_add]
    abel

/-- **C18**: the process noise is positive definite for every nonzero step, in the original and in the preconditioned
coordinates, so that its Cholesky factorization never fails; the Cholesky factor that is reported is one of the
reported covariance. -/
theorem noise_positive_definite (q d : ℕ) (chol : CovCholesky (q + 1)) {h : ℝ} (hh : h ≠ 0) :
    ∃ tr, discretise q d chol h = some tr ∧ tr.noise.cov.PosDef ∧ (flip (hilbert (q + 1))).PosDef ∧
      tr.noise.chol * tr.noise.cholᵀ = tr.noise.cov := by
  obtain ⟨tr, h1, h2, h3, h4⟩ := discretise_closed q d chol hh
  refine ⟨tr, h1, ?_, hilbert_posDef q, ?_⟩
  · rw [h4]; exact kronEye_posDef d (noiseCov_posDef q (abs_pos.2 hh))
  · simp only [discretise, if_neg hh, Option.some.injEq] at h1
    rw [← h1]
    simp only [preconditioned]
    rw [Matrix.transpose_mul, ← Matrix.mul_assoc, Matrix.mul_assoc (precon q d h), kronEye_transpose, kronEye_mul,
      chol.gram _ (hilbert_posDef q).posSemidef]

/-- Violation of **C18**: a step of length zero is not the identity, it is undefined (`nan`). -/
theorem zero_step_undefined (q d : ℕ) (chol : CovCholesky (q + 1)) : discretise q d chol 0 = none := by
  simp [discretise]

/-- The step length only enters through its absolute value: a negative step moves forward. -/
theorem negative_step_moves_forward (q d : ℕ) (chol : CovCholesky (q + 1)) (h : ℝ) :
    discretise q d chol (-h) = discretise q d chol h := by
  simp only [discretise, neg_eq_zero, precon, preconInv, Nordsieck.call, abs_neg]

/-- As the step goes to zero the transition tends to the identity. -/
theorem step_tends_to_identity (q d : ℕ) (chol : CovCholesky (q + 1)) :
    ∃ (A Q : ℝ → Matrix (Fin (d * (q + 1))) (Fin (d * (q + 1))) ℝ), Continuous A ∧ Continuous Q ∧ A 0 = 1 ∧ Q 0 = 0 ∧
      ∀ h, h ≠ 0 → ∃ tr, discretise q d chol h = some tr ∧ tr.mat = A h ∧ tr.noise.cov = Q h := by
  refine ⟨fun h => kronEye d (taylor q |h|), fun h => kronEye d (noiseCov q |h|), ?_, ?_, ?_, ?_, fun h hh => ?_⟩
  · refine continuous_matrix fun r c => continuous_const.mul ?_
    simp only [taylor, Matrix.of_apply]
    split
    · fun_prop
    · exact continuous_const
  · refine continuous_matrix fun r c => continuous_const.mul ?_
    simp only [noiseCov, Matrix.of_apply]
    fun_prop
  · simp [taylor_zero, kronEye_one]
  · ext r c
    simp only [kronEye, noiseCov, Matrix.of_apply, abs_zero, Matrix.zero_apply]
    rw [zero_pow (by omega), zero_div, mul_zero]
  · obtain ⟨tr, h1, h2, h3, h4⟩ := discretise_closed q d chol hh
    exact ⟨tr, h1, h2, h4⟩

/-- A concrete instance: `q = 1`, one dimension, steps 1 and 2. -/
example : taylor 1 1 = !![1, 1; 0, 1] ∧ noiseCov 1 2 = !![8 / 3, 2; 2, 2] := by
  constructor
  · ext i j; fin_cases i <;> fin_cases j <;> simp [taylor]
  · ext i j; fin_cases i <;> fin_cases j <;> norm_num [noiseCov]

/-! ## C19 -/

section

variable (q d : ℕ) (chol : CovCholesky (q + 1)) (ch : CovCholesky (d * (q + 1))) (δ : ℝ)

/-- **C19, exact behaviour of `forward_rv`** for every step `h ≠ 0`, damping `ε ≥ 0`, diffusion and input: mean and
cross-covariance (and gain, below) are those of the plain discretisation applied to the input with the covariance that
`cov_cholesky` represents (`cov`, or `cov + ε I` when no Cholesky factor was given); the covariance is that of the plain
discretisation plus `ε P Pᵀ`. -/
theorem forward_exact {h ε : ℝ} (hh : h ≠ 0) (hε : 0 ≤ ε) (hδ : 0 ≤ δ) (rv : Rv (d * (q + 1))) (hv : rv.Valid)
    (hp : rv.cov.PosSemidef) :
    ∃ tr out, discretise q d chol h = some tr ∧ forwardRv q d chol ch ε h δ rv = some out ∧ ∀ L,
      let f := forwardClassic tr δ ⟨rv.mean, effCov ε rv, L⟩
      out.rv.mean = f.mean ∧ out.rv.cov = f.cov + ε • (precon q d h * (precon q d h)ᵀ) ∧ out.crosscov = f.crosscov := by
  obtain ⟨tr, h1, -, -, h4⟩ := discretise_closed q d chol hh
  have hC := inCoords q d chol tr h1
  refine ⟨tr, _, h1, by simp only [forwardRv, if_neg hh]; rfl, fun L => ?_⟩
  obtain ⟨e1, e2, e3⟩ := pre_forwardClassic hC ch hε δ rv hv hp L
  have hS := hC.symm
  have ht : (preconInv q d h)ᵀ * (precon q d h)ᵀ = 1 := by
    rw [← Matrix.transpose_mul, hC.right, Matrix.transpose_one]
  have psd : (forwardClassic tr δ ⟨rv.mean, effCov ε rv, L⟩).cov.PosSemidef := by
    have : (forwardClassic tr δ ⟨rv.mean, effCov ε rv, L⟩).cov
        = tr.mat * effCov ε rv * tr.matᵀ + δ • tr.noise.cov := predCov_eq tr δ ⟨rv.mean, effCov ε rv, L⟩
    rw [this]
    refine (psd_conj _ (effCov_psd hε rv hp)).add (Matrix.PosSemidef.smul ?_ hδ)
    rw [h4]
    exact (kronEye_posDef d (noiseCov_posDef q (abs_pos.2 hh))).posSemidef
  refine ⟨?_, ?_, ?_⟩
  · rw [preForward, applyPrecon_mean, e1, Matrix.mulVec_mulVec, hC.right, Matrix.one_mulVec]
  · simp only [preForward]
    rw [applyPrecon_cov ch hε _ _ (fun L hL => by cases hL) (by
      show (forwardClassic _ _ _).cov.PosSemidef
      rw [e2]; exact psd_conj _ psd)]
    rw [effCov_none, e2]
    simp only [Matrix.mul_add, Matrix.add_mul, Matrix.mul_smul, Matrix.smul_mul, Matrix.mul_one, Matrix.mul_assoc,
      conj_cancel hC.right, ht]
  · simp only [preForward]
    rw [e3]
    simp only [Matrix.mul_assoc, conj_cancel hC.right, ht, Matrix.mul_one]

/-- **C19, gain of `forward_rv`**: the gain of the plain discretisation, or `LinAlgError` exactly when that raises it. -/
theorem forward_gain_exact {h ε : ℝ} (hh : h ≠ 0) (hε : 0 ≤ ε) (rv : Rv (d * (q + 1))) (hv : rv.Valid)
    (hp : rv.cov.PosSemidef) :
    ∃ tr, discretise q d chol h = some tr ∧ ∀ L,
      forwardGain q d chol ch ε h δ rv = some (gainClassic tr δ ⟨rv.mean, effCov ε rv, L⟩) := by
  obtain ⟨tr, h1, -, -, -⟩ := discretise_closed q d chol hh
  have hC := inCoords q d chol tr h1
  refine ⟨tr, h1, fun L => ?_⟩
  simp only [forwardGain, if_neg hh, preGain, pre_gainClassic hC ch hε δ rv hv hp L]
  cases gainClassic tr δ ⟨rv.mean, effCov ε rv, L⟩ with
  | error e => rfl
  | ok K =>
    simp only [Except.map, bind, Except.bind]
    rw [hC.symmInv, Matrix.mul_assoc, Matrix.mul_assoc, Matrix.mul_assoc, hC.right, Matrix.mul_one,
      conj_cancel hC.right]

/-- **C19 without damping** (`ε = 0`, i.e. exact Cholesky factors): `forward_rv` is that of the plain discretisation.
Missing for the full property: the default damping of `1e-12` and supplied gains, see below. -/
theorem forward_agrees_partial {h : ℝ} (hh : h ≠ 0) (hδ : 0 ≤ δ) (rv : Rv (d * (q + 1))) (hv : rv.Valid)
    (hp : rv.cov.PosSemidef) :
    ∃ tr out, discretise q d chol h = some tr ∧ forwardRv q d chol ch 0 h δ rv = some out ∧ ∀ L,
      let f := forwardClassic tr δ ⟨rv.mean, rv.cov, L⟩
      out.rv.mean = f.mean ∧ out.rv.cov = f.cov ∧ out.crosscov = f.crosscov ∧
      forwardGain q d chol ch 0 h δ rv = some (gainClassic tr δ ⟨rv.mean, rv.cov, L⟩) := by
  have e : effCov 0 rv = rv.cov := by
    unfold effCov
    split <;> simp
  obtain ⟨tr, out, h1, h2, h3⟩ := forward_exact q d chol ch δ hh le_rfl hδ rv hv hp
  obtain ⟨tr', h1', h4⟩ := forward_gain_exact q d chol ch δ hh le_rfl rv hv hp
  rw [h1] at h1'
  cases h1'
  rw [e] at h3 h4
  refine ⟨tr, out, h1, h2, fun L => ?_⟩
  obtain ⟨a, b, c⟩ := h3 L
  refine ⟨a, ?_, c, h4 L⟩
  rw [b, zero_smul, add_zero]

/-- **C19, `backward_rv` without a supplied gain**: that of the plain discretisation on the damped inputs, the covariance
increased by `ε P Pᵀ`; `LinAlgError` exactly when the plain one raises it. -/
theorem backward_exact {h ε : ℝ} (hh : h ≠ 0) (hε : 0 ≤ ε) (hδ : 0 ≤ δ) (obt rv : Rv (d * (q + 1))) (hv : rv.Valid)
    (hp : rv.cov.PosSemidef) (hvo : obt.Valid) (hpo : obt.cov.PosSemidef) :
    ∃ tr, discretise q d chol h = some tr ∧ ∀ L L',
      (∀ e, backwardClassic tr δ ⟨obt.mean, effCov ε obt, L'⟩ ⟨rv.mean, effCov ε rv, L⟩ none = .error e →
        backwardRv q d chol ch ε h δ obt rv none = some (.error e)) ∧
      ∀ u, backwardClassic tr δ ⟨obt.mean, effCov ε obt, L'⟩ ⟨rv.mean, effCov ε rv, L⟩ none = .ok u →
        ∃ out, backwardRv q d chol ch ε h δ obt rv none = some (.ok out) ∧ out.mean = u.mean ∧
          out.cov = u.cov + ε • (precon q d h * (precon q d h)ᵀ) := by
  obtain ⟨tr, h1, -, -, h4⟩ := discretise_closed q d chol hh
  have hC := inCoords q d chol tr h1
  refine ⟨tr, h1, fun L L' => ?_⟩
  obtain ⟨e1, e2, e3⟩ := pre_forwardClassic hC ch hε δ rv hv hp L
  have hg := pre_gainClassic hC ch hε δ rv hv hp L
  have ht : (preconInv q d h)ᵀ * (precon q d h)ᵀ = 1 := by
    rw [← Matrix.transpose_mul, hC.right, Matrix.transpose_one]
  have hQ : tr.noise.cov.PosSemidef := by
    rw [h4]; exact (kronEye_posDef d (noiseCov_posDef q (abs_pos.2 hh))).posSemidef
  simp only [backwardRv, if_neg hh, preBackward, Option.map_none]
  cases hK : gainClassic tr δ ⟨rv.mean, effCov ε rv, L⟩ with
  | error e =>
    rw [hK] at hg
    simp only [backwardClassic, hK, hg, Except.map, bind, Except.bind]
    exact ⟨fun e' h => by cases h; rfl, fun u h => by cases h⟩
  | ok K =>
    rw [hK] at hg
    refine ⟨fun e' h => by simp [backwardClassic, hK, bind, Except.bind] at h, fun u hu => ?_⟩
    have hpu : u.cov.PosSemidef := backward_cov_posSemidef tr δ ⟨obt.mean, effCov ε obt, L'⟩
      ⟨rv.mean, effCov ε rv, L⟩ hδ (effCov_psd hε rv hp) hQ (effCov_psd hε obt hpo) u hu
    simp only [backwardClassic, hK, hg, Except.map, bind, Except.bind, Except.ok.injEq] at hu ⊢
    obtain ⟨c1, c2⟩ := pre_condition hC ⟨obt.mean, effCov ε obt, L'⟩ ⟨rv.mean, effCov ε rv, L⟩
      ((applyPrecon ch ε (preconInv q d h) obt).toNormal ch ε) ((applyPrecon ch ε (preconInv q d h) rv).toNormal ch ε)
      (forwardClassic tr δ ⟨rv.mean, effCov ε rv, L⟩).mean _ (forwardClassic tr δ ⟨rv.mean, effCov ε rv, L⟩).cov _ K rfl
      (applyPrecon_cov ch hε _ obt hvo hpo) rfl (applyPrecon_cov ch hε _ rv hv hp) e1 e2
    rw [hu] at c1 c2
    refine ⟨_, rfl, ?_, ?_⟩
    · rw [applyPrecon_mean, c1, Matrix.mulVec_mulVec, hC.right, Matrix.one_mulVec]
    · rw [applyPrecon_cov ch hε _ _ (fun L hL => by cases hL) (by
        simp only
        rw [c2]; exact psd_conj _ hpu)]
      rw [effCov_none, c2]
      simp only [Matrix.mul_add, Matrix.add_mul, Matrix.mul_smul, Matrix.smul_mul, Matrix.mul_one, Matrix.mul_assoc,
        conj_cancel hC.right, ht]

/-- **C19, square-root implementation of `forward_rv`**: no damping is involved when the input comes with its Cholesky
factor, and the output has one again. -/
theorem forward_sqrt_agrees (Q : QR) {h ε : ℝ} (hh : h ≠ 0) (hε : 0 ≤ ε) (hδ : 0 ≤ δ) (rv : Rv (d * (q + 1)))
    (hv : rv.Valid) (hs : rv.chol?.isSome) :
    ∃ tr out, discretise q d chol h = some tr ∧
      preForwardSqrt Q ch ε (precon q d h) (preconInv q d h) (preconditioned q d chol) δ rv = .ok out ∧
      out.rv.Valid ∧ out.rv.chol?.isSome ∧ ∀ L,
      let f := forwardClassic tr δ ⟨rv.mean, rv.cov, L⟩
      out.rv.mean = f.mean ∧ out.rv.cov = f.cov ∧ out.crosscov = f.crosscov := by
  obtain ⟨L₀, hL₀⟩ := Option.isSome_iff_exists.1 hs
  have hp : rv.cov.PosSemidef := by
    rw [← hv L₀ hL₀]
    have := Matrix.posSemidef_self_mul_conjTranspose L₀
    rwa [Matrix.conjTranspose_eq_transpose_of_trivial] at this
  have hE : effCov ε rv = rv.cov := by simp [effCov, hL₀]
  obtain ⟨tr, h1, -, -, -⟩ := discretise_closed q d chol hh
  have hC := inCoords q d chol tr h1
  have ht : (preconInv q d h)ᵀ * (precon q d h)ᵀ = 1 := by
    rw [← Matrix.transpose_mul, hC.right, Matrix.transpose_one]
  have hno : (preconditioned q d chol).noise.Valid := by
    simp only [Normal.Valid, preconditioned]
    rw [kronEye_transpose, kronEye_mul, chol.gram _ (hilbert_posDef q).posSemidef]
  have hval : ((applyPrecon ch ε (preconInv q d h) rv).toNormal ch ε).Valid := rfl
  obtain ⟨M, hM, hM2⟩ := forwardSqrt_eq Q (preconditioned q d chol) δ _ hδ hval hno le_rfl
  refine ⟨tr, ⟨applyPrecon ch ε (precon q d h) ⟨_, _, some M⟩, _⟩, h1, by
    simp only [preForwardSqrt, hM, bind, Except.bind]; rfl, ?_, rfl, fun L => ?_⟩
  · intro L hL
    cases hL
    rfl
  obtain ⟨e1, e2, e3⟩ := pre_forwardClassic hC ch hε δ rv hv hp L
  rw [hE] at e1 e2 e3
  refine ⟨?_, ?_, ?_⟩
  · rw [applyPrecon_mean, e1, Matrix.mulVec_mulVec, hC.right, Matrix.one_mulVec]
  · show precon q d h * M * (precon q d h * M)ᵀ = _
    rw [Matrix.transpose_mul, ← Matrix.mul_assoc, Matrix.mul_assoc (precon q d h) M, hM2.gram]
    show _ * (forwardClassic _ _ _).cov * _ = _
    rw [e2]
    simp only [Matrix.mul_assoc, conj_cancel hC.right, ht, Matrix.mul_one]
  · simp only
    rw [e3]
    simp only [Matrix.mul_assoc, conj_cancel hC.right, ht, Matrix.mul_one]

/-- **C19, square-root implementation of `backward_rv`** without a supplied gain: that of the plain discretisation. -/
theorem backward_sqrt_agrees (Q : QR) {h ε : ℝ} (hh : h ≠ 0) (hε : 0 ≤ ε) (hδ : 0 < δ) (obt rv : Rv (d * (q + 1)))
    (hv : rv.Valid) (hs : rv.chol?.isSome) (hvo : obt.Valid) (hso : obt.chol?.isSome) :
    ∃ tr, discretise q d chol h = some tr ∧ ∀ L L',
      ∃ u out, backwardClassic tr δ ⟨obt.mean, obt.cov, L'⟩ ⟨rv.mean, rv.cov, L⟩ none = .ok u ∧
        preBackwardSqrt Q ch ε (precon q d h) (preconInv q d h) (preconditioned q d chol) δ obt rv = .ok out ∧
        out.Valid ∧ out.mean = u.mean ∧ out.cov = u.cov := by
  have psd : ∀ rv : Rv (d * (q + 1)), rv.Valid → rv.chol?.isSome → rv.cov.PosSemidef ∧ effCov ε rv = rv.cov := by
    intro rv hv hs
    obtain ⟨L₀, hL₀⟩ := Option.isSome_iff_exists.1 hs
    refine ⟨?_, by simp [effCov, hL₀]⟩
    rw [← hv L₀ hL₀]
    have := Matrix.posSemidef_self_mul_conjTranspose L₀
    rwa [Matrix.conjTranspose_eq_transpose_of_trivial] at this
  obtain ⟨hp, hE⟩ := psd rv hv hs
  obtain ⟨hpo, hEo⟩ := psd obt hvo hso
  obtain ⟨tr, h1, -, -, h4⟩ := discretise_closed q d chol hh
  have hC := inCoords q d chol tr h1
  have ht : (preconInv q d h)ᵀ * (precon q d h)ᵀ = 1 := by
    rw [← Matrix.transpose_mul, hC.right, Matrix.transpose_one]
  have hno : (preconditioned q d chol).noise.Valid := by
    simp only [Normal.Valid, preconditioned]
    rw [kronEye_transpose, kronEye_mul, chol.gram _ (hilbert_posDef q).posSemidef]
  refine ⟨tr, h1, fun L L' => ?_⟩
  obtain ⟨e1, e2, e3⟩ := pre_forwardClassic hC ch hε δ rv hv hp L
  have hg := pre_gainClassic hC ch hε δ rv hv hp L
  rw [hE] at e1 e2 e3 hg
  have hS : (forwardClassic tr δ ⟨rv.mean, rv.cov, L⟩).cov.det ≠ 0 := by
    have hpd : (forwardClassic tr δ ⟨rv.mean, rv.cov, L⟩).cov.PosDef := by
      have e : (forwardClassic tr δ ⟨rv.mean, rv.cov, L⟩).cov = tr.mat * rv.cov * tr.matᵀ + δ • tr.noise.cov :=
        predCov_eq tr δ ⟨rv.mean, rv.cov, L⟩
      rw [e]
      refine Matrix.PosDef.posSemidef_add (psd_conj _ hp) (Matrix.PosDef.smul ?_ hδ)
      rw [h4]
      exact kronEye_posDef d (noiseCov_posDef q (abs_pos.2 hh))
    exact hpd.det_pos.ne'
  have hS' : (forwardClassic (preconditioned q d chol) δ
      ((applyPrecon ch ε (preconInv q d h) rv).toNormal ch ε)).cov.det ≠ 0 := by
    rw [e2]; exact fun h0 => hS ((det_conj hC _).1 h0)
  obtain ⟨r, u', a1, a2, a3, a4, a5, -⟩ := backward_sqrt_agrees_partial Q (preconditioned q d chol) δ
    ((applyPrecon ch ε (preconInv q d h) obt).toNormal ch ε) ((applyPrecon ch ε (preconInv q d h) rv).toNormal ch ε)
    hδ.le rfl hno rfl hS' none (Or.inr le_rfl)
  rw [gainClassic_eq tr δ _ hS] at hg
  obtain ⟨c1, c2⟩ := pre_condition hC ⟨obt.mean, obt.cov, L'⟩ ⟨rv.mean, rv.cov, L⟩
      ((applyPrecon ch ε (preconInv q d h) obt).toNormal ch ε) ((applyPrecon ch ε (preconInv q d h) rv).toNormal ch ε)
      (forwardClassic tr δ ⟨rv.mean, rv.cov, L⟩).mean _ (forwardClassic tr δ ⟨rv.mean, rv.cov, L⟩).cov _
      (optGain tr δ ⟨rv.mean, rv.cov, L⟩) rfl
      (by rw [← hEo]; exact applyPrecon_cov ch hε _ obt hvo hpo) rfl
      (by rw [← hE]; exact applyPrecon_cov ch hε _ rv hv hp) e1 e2
  simp only [backwardClassic, hg, Except.map, bind, Except.bind, Except.ok.injEq] at a2
  rw [a2] at c1 c2
  refine ⟨conditionStateOnRv ⟨obt.mean, obt.cov, L'⟩ (forwardClassic tr δ ⟨rv.mean, rv.cov, L⟩).mean
    (forwardClassic tr δ ⟨rv.mean, rv.cov, L⟩).cov ⟨rv.mean, rv.cov, L⟩ (optGain tr δ ⟨rv.mean, rv.cov, L⟩),
    applyPrecon ch ε (precon q d h) ⟨r.mean, r.cov, some r.chol⟩, ?_, ?_, ?_, ?_, ?_⟩
  · simp only [backwardClassic, gainClassic_eq tr δ _ hS, bind, Except.bind]
  · simp only [preBackwardSqrt, a1, bind, Except.bind]
  · intro M hM; cases hM; rfl
  · rw [applyPrecon_mean, a3, c1, Matrix.mulVec_mulVec, hC.right, Matrix.one_mulVec]
  · show precon q d h * r.chol * (precon q d h * r.chol)ᵀ = _
    rw [Matrix.transpose_mul, ← Matrix.mul_assoc, Matrix.mul_assoc (precon q d h) r.chol, a5, a4, c2]
    simp only [Matrix.mul_assoc, conj_cancel hC.right, ht, Matrix.mul_one]

/-- What `backward_rv` does with a supplied gain: it is applied to the innovation multiplied by `(P Pᵀ)⁻¹`. -/
theorem backward_supplied_gain_mean {h ε : ℝ} (hh : h ≠ 0) (obt rv fwd : Rv (d * (q + 1)))
    (K : Matrix (Fin (d * (q + 1))) (Fin (d * (q + 1))) ℝ) :
    ∃ out, backwardRv q d chol ch ε h δ obt rv (some (fwd, K)) = some (.ok out) ∧
      out.mean = rv.mean + K *ᵥ ((precon q d h * precon q d h)⁻¹ *ᵥ (obt.mean - fwd.mean)) := by
  obtain ⟨tr, h1, -, -, -⟩ := discretise_closed q d chol hh
  have hC := inCoords q d chol tr h1
  refine ⟨_, by
    simp only [backwardRv, if_neg hh, preBackward, Option.map_some, backwardClassic, bind, Except.bind]; rfl, ?_⟩
  rw [applyPrecon_mean]
  simp only [conditionStateOnRv, Rv.toNormal, applyPrecon]
  have hi : (precon q d h * precon q d h)⁻¹ = preconInv q d h * preconInv q d h :=
    Matrix.inv_eq_right_inv (by rw [Matrix.mul_assoc, conj_cancel hC.right, hC.right])
  rw [hi, ← Matrix.mulVec_sub, Matrix.mulVec_add, Matrix.mulVec_mulVec, Matrix.mulVec_mulVec, Matrix.mulVec_mulVec,
    Matrix.mulVec_mulVec, hC.right, Matrix.one_mulVec, hC.symmInv]
  simp only [Matrix.mul_assoc, conj_cancel hC.right]

end

/-- Violation of **C19**: with the gain that `forward_rv` returned, `backward_rv` does not give the result of the plain
discretisation.  Wiener process (`q = 0`, one dimension), step 4, `x₀ ~ N(0, 1)`, observed `x₄ = 5`: the
predicted variance is 5, the gain 1/5 and the right mean 1; the code returns mean 1/4. -/
theorem backward_supplied_gain_disagrees (chol : CovCholesky (0 + 1)) (ch : CovCholesky (1 * (0 + 1))) :
    ∃ (obt rv : Rv (1 * (0 + 1))) (fwd : PreForwarded (1 * (0 + 1)))
      (K : Matrix (Fin (1 * (0 + 1))) (Fin (1 * (0 + 1))) ℝ) (out out' : Rv (1 * (0 + 1))),
      rv.Valid ∧ forwardRv 0 1 chol ch 0 4 1 rv = some fwd ∧ forwardGain 0 1 chol ch 0 4 1 rv = some (.ok K) ∧
      backwardRv 0 1 chol ch 0 4 1 obt rv none = some (.ok out) ∧
      backwardRv 0 1 chol ch 0 4 1 obt rv (some (fwd.rv, K)) = some (.ok out') ∧
      out.mean 0 = 1 ∧ out'.mean 0 = 1 / 4 := by
  have sub : Subsingleton (Fin (1 * (0 + 1))) := inferInstanceAs (Subsingleton (Fin 1))
  let rv : Rv (1 * (0 + 1)) := ⟨0, 1, some 1⟩
  let obt : Rv (1 * (0 + 1)) := Rv.const fun _ => 5
  have hv : rv.Valid := by intro L hL; cases hL; simp [rv]
  have hvo : obt.Valid := by intro L hL; cases hL; simp [obt, Rv.const]
  have hp : rv.cov.PosSemidef := Matrix.PosSemidef.one
  have hpo : obt.cov.PosSemidef := Matrix.PosSemidef.zero
  have h4 : (4 : ℝ) ≠ 0 := by norm_num
  obtain ⟨tr, a1, a2, a3, a4⟩ := discretise_closed 0 1 chol h4
  have m1 : tr.mat = 1 := by
    rw [a2, show taylor 0 |(4 : ℝ)| = 1 from by ext i j; fin_cases i; fin_cases j; simp [taylor], kronEye_one]
  have m2 : tr.noise.cov = (4 : ℝ) • 1 := by
    rw [a4, show noiseCov 0 |(4 : ℝ)| = (4 : ℝ) • 1 from by ext i j; fin_cases i; fin_cases j; simp [noiseCov],
      ← kronEye_smul, kronEye_one]
  have hP : predCov tr 1 ⟨rv.mean, rv.cov, 1⟩ = (5 : ℝ) • 1 := by
    rw [predCov_eq, m1, m2]
    simp only [rv, Matrix.transpose_one, Matrix.mul_one, one_smul]
    rw [show (5 : ℝ) = 1 + 4 by norm_num, add_smul, one_smul]
  have hdet : (predCov tr 1 ⟨rv.mean, rv.cov, 1⟩).det ≠ 0 := by rw [hP]; simp
  have hi : ((5 : ℝ) • (1 : Matrix (Fin (1 * (0 + 1))) (Fin (1 * (0 + 1))) ℝ))⁻¹ = (1 / 5 : ℝ) • 1 := by
    refine Matrix.inv_eq_right_inv ?_
    rw [Matrix.smul_mul, Matrix.mul_smul, Matrix.mul_one, smul_smul]; norm_num
  have hG : gainClassic tr 1 ⟨rv.mean, rv.cov, 1⟩ = .ok ((1 / 5 : ℝ) • 1) := by
    rw [gainClassic_eq tr 1 _ hdet, optGain, hP, hi, m1]
    simp [rv]
  obtain ⟨tr', out, b1, b2, b3⟩ := forward_agrees_partial 0 1 chol ch 1 h4 zero_le_one rv hv hp
  rw [a1] at b1; cases b1
  obtain ⟨c1, c2, c3, c4⟩ := b3 1
  rw [hG] at c4
  obtain ⟨tr', d1, d2⟩ := backward_exact 0 1 chol ch 1 h4 le_rfl zero_le_one obt rv hv hp hvo hpo
  rw [a1] at d1; cases d1
  have hu : backwardClassic tr 1 ⟨obt.mean, effCov 0 obt, 1⟩ ⟨rv.mean, effCov 0 rv, 1⟩ none = .ok
      (conditionStateOnRv ⟨obt.mean, effCov 0 obt, 1⟩ (forwardClassic tr 1 ⟨rv.mean, rv.cov, 1⟩).mean
        (forwardClassic tr 1 ⟨rv.mean, rv.cov, 1⟩).cov ⟨rv.mean, effCov 0 rv, 1⟩ ((1 / 5 : ℝ) • 1)) := by
    have e : effCov 0 rv = rv.cov := rfl
    simp only [e, backwardClassic, hG, bind, Except.bind]
  obtain ⟨o, e1, e2, -⟩ := (d2 1 1).2 _ hu
  obtain ⟨o', f1, f2⟩ := backward_supplied_gain_mean 0 1 chol ch 1 (ε := 0) h4 obt rv out.rv ((1 / 5 : ℝ) • 1)
  have hpre : precon 0 1 4 = (2 : ℝ) • 1 := by
    rw [precon, Nordsieck.call, ← kronEye_one, kronEye_smul]
    congr 1
    ext i j
    fin_cases i; fin_cases j
    simp only [Nordsieck.fromOrder]
    simp
    rw [show (4 : ℝ) = 2 ^ (2 : ℝ) by norm_num, ← Real.rpow_mul (by norm_num)]
    norm_num
  have hpi : (precon 0 1 4 * precon 0 1 4)⁻¹ = (1 / 4 : ℝ) • 1 := by
    rw [hpre]
    refine Matrix.inv_eq_right_inv ?_
    simp only [Matrix.smul_mul, Matrix.mul_smul, Matrix.mul_one, smul_smul]; norm_num
  have hfm : (forwardClassic tr 1 ⟨rv.mean, rv.cov, 1⟩).mean = 0 := by
    simp [forwardClassic, m1, a3, rv]
  refine ⟨obt, rv, out, _, o, o', hv, b2, c4, e1, f1, ?_, ?_⟩
  · rw [e2]
    simp only [conditionStateOnRv, hfm, sub_zero, Matrix.smul_mulVec, Matrix.one_mulVec]
    simp [rv, obt, Rv.const]
  · rw [f2, c1, hfm, hpi]
    simp only [sub_zero, Matrix.smul_mulVec, Matrix.one_mulVec]
    simp [rv, obt, Rv.const]
    norm_num

/-! ## C20 -/

theorem projLoop_eq (q d p : ℕ) (r c : Fin ((q + 1) * d)) :
    projLoop q d p r c = if r.1 % (q + 1) < p ∧ c.1 = r.1 % (q + 1) * d + r.1 / (q + 1) then 1 else 0 := by
  induction p with
  | zero => simp [projLoop]
  | succ p ih =>
    simp only [projLoop, Matrix.of_apply, ih]
    rcases lt_trichotomy (r.1 % (q + 1)) p with h | h | h
    · rw [if_neg h.ne]
      simp only [h, h.trans (Nat.lt_succ_self p), true_and]
    · rw [if_pos h, h]
      simp
    · rw [if_neg h.ne', if_neg (by omega), if_neg (by omega)]

private theorem coord_lt {q d i k : ℕ} (hi : i < d) (hk : k < q + 1) : i * (q + 1) + k < (q + 1) * d := by
  calc i * (q + 1) + k < i * (q + 1) + (q + 1) := by omega
    _ = (i + 1) * (q + 1) := by ring
    _ ≤ d * (q + 1) := Nat.mul_le_mul_right _ hi
    _ = (q + 1) * d := by ring

private theorem deriv_lt {q d i k : ℕ} (hi : i < d) (hk : k < q + 1) : k * d + i < (q + 1) * d := by
  calc k * d + i < k * d + d := by omega
    _ = (k + 1) * d := by ring
    _ ≤ (q + 1) * d := Nat.mul_le_mul_right _ hk

private theorem derivwise2coordwise_apply {q d i k : ℕ} (hi : i < d) (hk : k < q + 1) (c : Fin ((q + 1) * d)) :
    derivwise2coordwise q d ⟨i * (q + 1) + k, coord_lt hi hk⟩ c = if c = ⟨k * d + i, deriv_lt hi hk⟩ then 1 else 0 := by
  have h1 : (i * (q + 1) + k) % (q + 1) = k := by rw [Nat.mul_comm, Nat.mul_add_mod, Nat.mod_eq_of_lt hk]
  have h2 : (i * (q + 1) + k) / (q + 1) = i := by
    rw [Nat.mul_comm, Nat.mul_add_div (by omega), Nat.div_eq_of_lt hk, add_zero]
  rw [derivwise2coordwise, projLoop_eq]
  simp only [h1, h2, hk, true_and, Fin.ext_iff]

private theorem exists_coord {q d : ℕ} (r : Fin ((q + 1) * d)) :
    ∃ (i k : ℕ) (hi : i < d) (hk : k < q + 1), r = ⟨i * (q + 1) + k, coord_lt hi hk⟩ := by
  refine ⟨r.1 / (q + 1), r.1 % (q + 1), Nat.div_lt_of_lt_mul r.2, Nat.mod_lt _ (by omega), Fin.ext ?_⟩
  exact (Nat.div_add_mod' _ _).symm

/-- **C20, derivative-wise to coordinate-wise**: the `k`-th derivative of coordinate `i` is moved from position `k·d + i` to
position `i·(q+1) + k`. -/
theorem derivwise_to_coordwise (q d : ℕ) (x : Fin ((q + 1) * d) → ℝ) {i k : ℕ} (hi : i < d) (hk : k < q + 1) :
    convertDerivwiseToCoordwise q d x ⟨i * (q + 1) + k, coord_lt hi hk⟩ = x ⟨k * d + i, deriv_lt hi hk⟩ := by
  simp only [convertDerivwiseToCoordwise, Matrix.mulVec, dotProduct, derivwise2coordwise_apply hi hk]
  simp

/-- The projection is an orthogonal matrix. -/
theorem derivwise2coordwise_orthogonal (q d : ℕ) : derivwise2coordwise q d * (derivwise2coordwise q d)ᵀ = 1 := by
  ext r r'
  obtain ⟨i, k, hi, hk, rfl⟩ := exists_coord r
  obtain ⟨i', k', hi', hk', rfl⟩ := exists_coord r'
  simp only [Matrix.mul_apply, Matrix.transpose_apply, derivwise2coordwise_apply hi hk, derivwise2coordwise_apply hi' hk']
  simp only [ite_mul, one_mul, zero_mul, Finset.sum_ite_eq', Finset.mem_univ, if_true, Matrix.one_apply, Fin.mk.injEq,
    Finset.sum_ite_eq]
  refine if_congr ?_ rfl rfl
  constructor
  · intro h
    have hd := congrArg (· / d) h
    have hm := congrArg (· % d) h
    simp only [Nat.mul_comm _ d, Nat.mul_add_div (show 0 < d by omega), Nat.div_eq_of_lt hi, Nat.div_eq_of_lt hi',
      Nat.mul_add_mod, Nat.mod_eq_of_lt hi, Nat.mod_eq_of_lt hi', add_zero] at hd hm
    rw [hd, hm]
  · intro h
    have hd := congrArg (· / (q + 1)) h
    have hm := congrArg (· % (q + 1)) h
    simp only [Nat.mul_comm _ (q + 1), Nat.mul_add_div (show 0 < q + 1 by omega), Nat.div_eq_of_lt hk,
      Nat.div_eq_of_lt hk', Nat.mul_add_mod, Nat.mod_eq_of_lt hk, Nat.mod_eq_of_lt hk', add_zero] at hd hm
    rw [hd, hm]

/-- **C20, mutual inverses.** -/
theorem conversions_inverse (q d : ℕ) (x : Fin ((q + 1) * d) → ℝ) :
    convertCoordwiseToDerivwise q d (convertDerivwiseToCoordwise q d x) = x ∧
    convertDerivwiseToCoordwise q d (convertCoordwiseToDerivwise q d x) = x := by
  have h := derivwise2coordwise_orthogonal q d
  simp only [convertCoordwiseToDerivwise, convertDerivwiseToCoordwise, coordwise2derivwise]
  rw [Matrix.mulVec_mulVec, Matrix.mulVec_mulVec, h, mul_eq_one_comm.1 h, Matrix.one_mulVec]
  exact ⟨rfl, rfl⟩

/-- **C20, coordinate-wise to derivative-wise.** -/
theorem coordwise_to_derivwise (q d : ℕ) (x : Fin ((q + 1) * d) → ℝ) {i k : ℕ} (hi : i < d) (hk : k < q + 1) :
    convertCoordwiseToDerivwise q d x ⟨k * d + i, deriv_lt hi hk⟩ = x ⟨i * (q + 1) + k, coord_lt hi hk⟩ := by
  rw [← derivwise_to_coordwise q d (convertCoordwiseToDerivwise q d x) hi hk, (conversions_inverse q d x).2]

/-- **C20, projections**: `proj2coord(k)` maps a (coordinate-wise) state to the vector of the `k`-th derivatives of all
coordinates. -/
theorem proj2coord_extracts (q d : ℕ) (k : Fin (q + 1)) (x : Fin (d * (q + 1)) → ℝ) (i : Fin d) :
    (proj2coord q d k *ᵥ x) (finProdFinEquiv (i, 0)) = x ⟨i.1 * (q + 1) + k.1, by
      have := coord_lt i.2 k.2; rwa [Nat.mul_comm (q + 1)] at this⟩ := by
  have hdm : ∀ {m : ℕ} (x : Fin d × Fin m), (finProdFinEquiv x).divNat = x.1 ∧ (finProdFinEquiv x).modNat = x.2 := by
    intro m x
    have := finProdFinEquiv.symm_apply_apply x
    rw [finProdFinEquiv_symm_apply] at this
    exact ⟨congrArg Prod.fst this, congrArg Prod.snd this⟩
  simp only [Matrix.mulVec, dotProduct]
  rw [← finProdFinEquiv.sum_comp, Fintype.sum_prod_type]
  simp only [proj2coord, kronEye, Matrix.of_apply, hdm]
  rw [Finset.sum_eq_single i (fun b _ hb => by simp [Ne.symm hb]) (by simp),
    Finset.sum_eq_single k (fun b _ hb => by simp [hb]) (by simp)]
  simp only [if_true, one_mul]
  congr 1
  apply Fin.ext
  simp only [finProdFinEquiv_apply_val]
  ring

example : (⟨1 * 3 + 2, coord_lt (q := 2) (d := 2) (by decide) (by decide)⟩ : Fin 6) = 5 ∧
    (⟨2 * 2 + 1, deriv_lt (q := 2) (d := 2) (by decide) (by decide)⟩ : Fin 6) = 5 := by decide

end Probnum.IWP
