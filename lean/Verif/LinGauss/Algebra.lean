import Verif.LinGauss.Lemmas
import Mathlib.LinearAlgebra.Matrix.PosDef

/-!
# Algebra of the forward and backward passes
-/

namespace Probnum.LinGauss

open Matrix

variable {n m : ℕ}

/-- `cov_cholesky` is a square root of `cov`. -/
def Normal.Valid (rv : Normal n) : Prop := rv.chol * rv.cholᵀ = rv.cov

theorem Normal.Valid.symm {rv : Normal n} (h : rv.Valid) : rv.covᵀ = rv.cov := by
  rw [← h]; simp [Matrix.transpose_mul]

theorem Normal.const_valid (x : Fin n → ℝ) : (Normal.const x).Valid := by simp [Normal.Valid, Normal.const]

/-- Predictive covariance. -/
abbrev predCov (tr : Transition n m) (d : ℝ) (rv : Normal n) : Matrix (Fin m) (Fin m) ℝ := (forwardClassic tr d rv).cov

theorem predCov_eq (tr : Transition n m) (d : ℝ) (rv : Normal n) :
    predCov tr d rv = tr.mat * rv.cov * tr.matᵀ + d • tr.noise.cov := by
  simp [predCov, forwardClassic, Matrix.mul_assoc]

theorem predCov_symm (tr : Transition n m) (d : ℝ) (rv : Normal n) (h1 : rv.covᵀ = rv.cov)
    (h2 : tr.noise.covᵀ = tr.noise.cov) : (predCov tr d rv)ᵀ = predCov tr d rv := by
  rw [predCov_eq]
  simp [Matrix.transpose_add, Matrix.transpose_mul, h1, h2, Matrix.mul_assoc]

/-- The optimal gain `P Hᵀ S⁻¹`. -/
noncomputable def optGain (tr : Transition n m) (d : ℝ) (rv : Normal n) : Matrix (Fin n) (Fin m) ℝ :=
  rv.cov * tr.matᵀ * (predCov tr d rv)⁻¹

theorem gainClassic_eq (tr : Transition n m) (d : ℝ) (rv : Normal n) (hS : (predCov tr d rv).det ≠ 0) :
    gainClassic tr d rv = .ok (optGain tr d rv) := by
  have e : ((((forwardClassic tr d rv).covᵀ)⁻¹ * (forwardClassic tr d rv).crosscovᵀ)ᵀ) = optGain tr d rv := by
    rw [Matrix.transpose_mul, Matrix.transpose_transpose, Matrix.transpose_nonsing_inv, Matrix.transpose_transpose]
    rfl
  unfold gainClassic
  simp only
  rw [if_neg hS, e]

theorem gainClassic_singular (tr : Transition n m) (d : ℝ) (rv : Normal n) (hS : (predCov tr d rv).det = 0) :
    gainClassic tr d rv = .error .linAlgError := by
  unfold gainClassic
  simp only
  rw [if_pos hS]

theorem optGain_mul (tr : Transition n m) (d : ℝ) (rv : Normal n) (hS : (predCov tr d rv).det ≠ 0) :
    optGain tr d rv * predCov tr d rv = rv.cov * tr.matᵀ := by
  unfold optGain
  rw [Matrix.mul_assoc, Matrix.nonsing_inv_mul _ (isUnit_iff_ne_zero.2 hS), Matrix.mul_one]

/-- `K H P = K S Kᵀ`. -/
theorem gain_HP (tr : Transition n m) (d : ℝ) (rv : Normal n) (h1 : rv.covᵀ = rv.cov)
    (h2 : tr.noise.covᵀ = tr.noise.cov) (hS : (predCov tr d rv).det ≠ 0) :
    optGain tr d rv * tr.mat * rv.cov = optGain tr d rv * predCov tr d rv * (optGain tr d rv)ᵀ := by
  have h := congrArg Matrix.transpose (optGain_mul tr d rv hS)
  rw [Matrix.transpose_mul, Matrix.transpose_mul, Matrix.transpose_transpose, h1, predCov_symm tr d rv h1 h2] at h
  rw [Matrix.mul_assoc, Matrix.mul_assoc, h]

theorem gain_PHt (tr : Transition n m) (d : ℝ) (rv : Normal n)
    (hS : (predCov tr d rv).det ≠ 0) :
    rv.cov * tr.matᵀ * (optGain tr d rv)ᵀ = optGain tr d rv * predCov tr d rv * (optGain tr d rv)ᵀ := by
  rw [optGain_mul tr d rv hS]

/-- Joseph form at the optimal gain. -/
theorem joseph_eq (tr : Transition n m) (d : ℝ) (rv : Normal n) (h1 : rv.covᵀ = rv.cov)
    (h2 : tr.noise.covᵀ = tr.noise.cov) (hS : (predCov tr d rv).det ≠ 0) :
    (1 - optGain tr d rv * tr.mat) * rv.cov * (1 - optGain tr d rv * tr.mat)ᵀ
      + optGain tr d rv * (d • tr.noise.cov) * (optGain tr d rv)ᵀ
      = rv.cov - optGain tr d rv * predCov tr d rv * (optGain tr d rv)ᵀ := by
  set K := optGain tr d rv with hK
  have a := gain_HP tr d rv h1 h2 hS
  have b := gain_PHt tr d rv hS
  rw [← hK] at a b
  have hSe : K * predCov tr d rv * Kᵀ = K * tr.mat * rv.cov * (tr.matᵀ * Kᵀ) + K * (d • tr.noise.cov) * Kᵀ := by
    rw [predCov_eq]; simp only [Matrix.mul_add, Matrix.add_mul, Matrix.mul_assoc]
  have hex : (1 - K * tr.mat) * rv.cov * (1 - K * tr.mat)ᵀ
      = rv.cov - K * tr.mat * rv.cov - rv.cov * tr.matᵀ * Kᵀ + K * tr.mat * rv.cov * (tr.matᵀ * Kᵀ) := by
    rw [Matrix.transpose_sub, Matrix.transpose_one, Matrix.transpose_mul]
    simp only [Matrix.sub_mul, Matrix.mul_sub, Matrix.one_mul, Matrix.mul_one, Matrix.mul_assoc]
    abel
  rw [hex, add_assoc, ← hSe, a, b]
  abel

/-! ## Triangular square roots -/

theorem tril_gram (T : Matrix (Fin n) (Fin n) ℝ) :
    trilToPositiveTril T * (trilToPositiveTril T)ᵀ = T * Tᵀ := by
  ext i j
  simp only [Matrix.mul_apply, Matrix.transpose_apply, trilToPositiveTril, Matrix.of_apply]
  refine Finset.sum_congr rfl fun k _ => ?_
  linear_combination (T i k * T j k) * posSign_sq (T k k)

/-- A valid lower Cholesky factor of `C` (nonnegative diagonal). -/
structure IsLowerFactor (L C : Matrix (Fin n) (Fin n) ℝ) : Prop where
  gram : L * Lᵀ = C
  lower : ∀ i j : Fin n, i < j → L i j = 0
  diag : ∀ i, 0 ≤ L i i

theorem tril_isLowerFactor (T : Matrix (Fin n) (Fin n) ℝ) (h : ∀ i j : Fin n, i < j → T i j = 0) :
    IsLowerFactor (trilToPositiveTril T) (T * Tᵀ) := by
  refine ⟨tril_gram T, ?_, ?_⟩
  · intro i j hij; simp [trilToPositiveTril, h i j hij]
  · intro i; simp only [trilToPositiveTril, Matrix.of_apply]; exact mul_posSign_nonneg _

theorem finishCholesky_ok {k : ℕ} (k₁ : ℕ) (hk : k ≤ n) (R : Matrix (Fin k) (Fin n) ℝ)
    (hup : ∀ (i : Fin k) (j : Fin n), j.1 < i.1 → R i j = 0) (h : n ≤ k₁ ∨ k = k₁) :
    ∃ L, finishCholesky k₁ R = .ok L ∧ IsLowerFactor L (Rᵀ * R) := by
  have key : IsLowerFactor (trilToPositiveTril (Matrix.of fun (i j : Fin n) => if h : j.1 < k then R ⟨j.1, h⟩ i else 0))
      (Rᵀ * R) := by
    rw [← padded_gram hk R]
    apply tril_isLowerFactor
    intro i j hij
    simp only [Matrix.of_apply]
    split_ifs with hj
    · exact hup ⟨j.1, hj⟩ i hij
    · rfl
  unfold finishCholesky
  by_cases h1 : n ≤ k₁
  · exact ⟨_, by rw [if_pos h1], key⟩
  · have h2 : k = k₁ := h.resolve_left h1
    exact ⟨_, by rw [if_neg h1, if_pos h2], key⟩

theorem choleskyUpdate_ok (Q : QR) {k₁ k₂ : ℕ} (S₁ : Matrix (Fin n) (Fin k₁) ℝ) (S₂ : Matrix (Fin n) (Fin k₂) ℝ)
    (h : n ≤ k₁) : ∃ L, choleskyUpdate Q S₁ S₂ = .ok L ∧ IsLowerFactor L (S₁ * S₁ᵀ + S₂ * S₂ᵀ) := by
  obtain ⟨L, h1, h2⟩ := finishCholesky_ok k₁ (by omega) (Q.r (vstackT S₁ S₂)) (Q.upper _) (Or.inl h)
  rw [Q.gram, vstackT_gram] at h2
  exact ⟨L, h1, h2⟩

theorem factor_det {L C : Matrix (Fin n) (Fin n) ℝ} (h : L * Lᵀ = C) (hC : C.det ≠ 0) : L.det ≠ 0 := by
  intro h0
  apply hC
  rw [← h, Matrix.det_mul, h0, zero_mul]

/-! ## The square-root implementations -/

theorem forwardSqrt_eq (Q : QR) (tr : Transition n m) (d : ℝ) (rv : Normal n) (hd : 0 ≤ d) (hrv : rv.Valid)
    (hno : tr.noise.Valid) (hmn : m ≤ n) :
    ∃ L, forwardSqrt Q tr d rv = .ok (forwardClassic tr d rv, L) ∧ IsLowerFactor L (predCov tr d rv) := by
  obtain ⟨L, h1, h2⟩ := choleskyUpdate_ok Q (tr.mat * rv.chol) (Real.sqrt d • tr.noise.chol) hmn
  have e : tr.mat * rv.chol * (tr.mat * rv.chol)ᵀ + Real.sqrt d • tr.noise.chol * (Real.sqrt d • tr.noise.chol)ᵀ
      = predCov tr d rv := by
    rw [predCov_eq, ← hrv, ← hno]
    simp only [Matrix.transpose_mul, Matrix.transpose_smul, Matrix.smul_mul, Matrix.mul_smul, smul_smul,
      Real.mul_self_sqrt hd, Matrix.mul_assoc]
  rw [e] at h2
  refine ⟨L, ?_, h2⟩
  simp only [forwardSqrt, h1, bind, Except.bind]
  rw [h2.gram]
  rfl

theorem gainSqrt_eq (Q : QR) (tr : Transition n m) (d : ℝ) (rv : Normal n) (hd : 0 ≤ d) (hrv : rv.Valid)
    (hno : tr.noise.Valid) (hmn : m ≤ n) : gainSqrt Q tr d rv = gainClassic tr d rv := by
  obtain ⟨L, h1, h2⟩ := forwardSqrt_eq Q tr d rv hd hrv hno hmn
  simp only [gainSqrt, h1, bind, Except.bind]
  by_cases hS : (predCov tr d rv).det = 0
  · have : L.det = 0 := by
      have := congrArg Matrix.det h2.gram
      rw [Matrix.det_mul, Matrix.det_transpose, hS] at this
      exact mul_self_eq_zero.1 this
    rw [if_pos this, gainClassic_singular tr d rv hS]
  · rw [if_neg (factor_det h2.gram hS), gainClassic_eq tr d rv hS, h2.gram]
    congr 1
    rw [Matrix.transpose_mul, Matrix.transpose_nonsing_inv, predCov_symm tr d rv hrv.symm hno.symm,
      Matrix.transpose_transpose]
    rfl

/-- The square-root update from any of the gains the code passes to the block matrix. -/
theorem backwardSqrt_core (Q : QR) (tr : Transition n m) (d : ℝ) (obt : Normal m) (rv : Normal n) (hd : 0 ≤ d)
    (hrv : rv.Valid) (hno : tr.noise.Valid) (hob : obt.Valid) (hS : (predCov tr d rv).det ≠ 0)
    (gain : Matrix (Fin n) (Fin m) ℝ) (hg : gain = optGain tr d rv ∨ (gain = 0 ∧ obt.cov = 0)) :
    let R := Q.r (blockMat tr d obt rv gain)
    finalGain gain R = .ok (optGain tr d rv) ∧
    IsLowerFactor (trilToPositiveTril (triuR2 R)ᵀ)
      (rv.cov + optGain tr d rv * (obt.cov - predCov tr d rv) * (optGain tr d rv)ᵀ) := by
  intro R
  obtain ⟨b11, b12, b22⟩ := qr_blocks tr d obt rv gain Q hd
  change (triuR1 R)ᵀ * triuR1 R = _ at b11
  change (triuR1 R)ᵀ * triuR12 R = _ at b12
  change (triuR12 R)ᵀ * triuR12 R + (triuR2 R)ᵀ * triuR2 R = _ at b22
  rw [hrv, hno] at b11
  rw [hrv] at b12
  rw [hrv, hob] at b22
  rw [← predCov_eq] at b11
  have hdet : (triuR1 R).det ≠ 0 := by
    intro h0; apply hS; rw [← b11, Matrix.det_mul, h0, mul_zero]
  have hu : IsUnit (triuR1 R).det := isUnit_iff_ne_zero.2 hdet
  have hut : IsUnit ((triuR1 R)ᵀ).det := by rwa [Matrix.det_transpose]
  -- the triangular solve gives the optimal gain
  have hK : ((triuR1 R)⁻¹ * triuR12 R)ᵀ = optGain tr d rv := by
    have hR12 : triuR12 R = ((triuR1 R)ᵀ)⁻¹ * (tr.mat * rv.cov) := by
      rw [← b12, ← Matrix.mul_assoc, Matrix.nonsing_inv_mul _ hut, Matrix.one_mul]
    rw [hR12, ← Matrix.mul_assoc, ← Matrix.mul_inv_rev, b11]
    rw [Matrix.transpose_mul, Matrix.transpose_nonsing_inv, predCov_symm tr d rv hrv.symm hno.symm,
      Matrix.transpose_mul, hrv.symm]
    rfl
  have hKC : gain * obt.cov * gainᵀ = optGain tr d rv * obt.cov * (optGain tr d rv)ᵀ := by
    rcases hg with h | ⟨h, h'⟩
    · rw [h]
    · rw [h']; simp
  constructor
  · unfold finalGain
    by_cases h0 : gain = 0
    · rw [if_pos h0, if_neg hdet, hK]
    · rw [if_neg h0]
      rcases hg with h | ⟨h, _⟩
      · rw [h]
      · exact absurd h h0
  · have hlow : ∀ i j : Fin n, i < j → (triuR2 R)ᵀ i j = 0 := by
      intro i j hij
      simp only [Matrix.transpose_apply, triuR2, Matrix.of_apply]
      exact Q.upper _ _ _ (by simp; exact hij)
    have hf := tril_isLowerFactor _ hlow
    rw [Matrix.transpose_transpose] at hf
    have h12 : (triuR12 R)ᵀ * triuR12 R = optGain tr d rv * predCov tr d rv * (optGain tr d rv)ᵀ := by
      have e1 : triuR12 R = triuR1 R * (optGain tr d rv)ᵀ := by
        rw [← hK, Matrix.transpose_transpose, ← Matrix.mul_assoc, Matrix.mul_nonsing_inv _ hu, Matrix.one_mul]
      rw [e1, Matrix.transpose_mul, Matrix.transpose_transpose, Matrix.mul_assoc, ← Matrix.mul_assoc (triuR1 R)ᵀ, b11,
        Matrix.mul_assoc]
    have e2 : (triuR2 R)ᵀ * triuR2 R
        = rv.cov + optGain tr d rv * (obt.cov - predCov tr d rv) * (optGain tr d rv)ᵀ := by
      have : (triuR2 R)ᵀ * triuR2 R = rv.cov + gain * obt.cov * gainᵀ - (triuR12 R)ᵀ * triuR12 R := by
        rw [← b22]; abel
      rw [this, hKC, h12, Matrix.mul_sub, Matrix.sub_mul]
      abel
    rw [← e2]
    exact hf

end Probnum.LinGauss
