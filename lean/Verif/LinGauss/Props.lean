import Verif.LinGauss.Algebra
import Verif.Gauss.Lemmas
import Mathlib.Tactic.NormNum

/-!
# C12, C13, C14: linear Gaussian prediction and update, Cholesky utilities

Specification: `Verif/Gauss/Spec.lean` (what it means to be normal with given mean and covariance, and to be a
conditional distribution).
-/

namespace Probnum.LinGauss

open Matrix MeasureTheory ProbabilityTheory Probnum.Gauss

variable {n m : ℕ}

theorem symm_of_posSemidef {k : ℕ} {C : Matrix (Fin k) (Fin k) ℝ} (h : C.PosSemidef) : Cᵀ = C := by
  have := h.isHermitian.eq
  rwa [Matrix.conjTranspose_eq_transpose_of_trivial] at this

/-! ## C14 -/

/-- `tril_to_positive_tril` keeps `L Lᵀ`, keeps lower triangularity and makes the diagonal nonnegative. -/
theorem tril_to_positive_tril_correct (T : Matrix (Fin n) (Fin n) ℝ) :
    trilToPositiveTril T * (trilToPositiveTril T)ᵀ = T * Tᵀ ∧
    (∀ i j, T i j = 0 → trilToPositiveTril T i j = 0) ∧ ∀ i, 0 ≤ trilToPositiveTril T i i := by
  refine ⟨tril_gram T, ?_, ?_⟩
  · intro i j h; simp [trilToPositiveTril, h]
  · intro i; simp only [trilToPositiveTril, Matrix.of_apply]; exact mul_posSign_nonneg _

/-- A factor whose diagonal is nonnegative already is returned unchanged. -/
theorem tril_to_positive_tril_fixed (T : Matrix (Fin n) (Fin n) ℝ) (h : ∀ i, 0 ≤ T i i) : trilToPositiveTril T = T := by
  ext i j
  simp only [trilToPositiveTril, Matrix.of_apply, posSign, if_neg (not_lt.2 (h j)), mul_one]

example : ∀ i, 0 ≤ (!![0, 0; -3, 2] : Matrix (Fin 2) (Fin 2) ℝ) i i := by
  intro i
  fin_cases i <;> simp

/-- `cholesky_update(S1)` returns a lower triangular square root of `S1 S1ᵀ` with nonnegative diagonal, for every
shape with at least one column. -/
theorem cholesky_update_single_correct (Q : QR) {k₁ : ℕ} (hk : 0 < k₁) (S₁ : Matrix (Fin n) (Fin k₁) ℝ) :
    ∃ L, choleskyUpdate1 Q S₁ = .ok L ∧ L * Lᵀ = S₁ * S₁ᵀ ∧ (∀ i j : Fin n, i < j → L i j = 0) ∧ ∀ i, 0 ≤ L i i := by
  obtain ⟨L, h1, h2⟩ := finishCholesky_ok k₁ (by omega) (Q.r S₁ᵀ) (Q.upper _) (by omega)
  rw [Q.gram, Matrix.transpose_transpose] at h2
  exact ⟨L, by rw [choleskyUpdate1, if_neg (by omega), h1], h2.gram, h2.lower, h2.diag⟩

/-- `cholesky_update(S1, S2)` is correct when `S1` has at least as many columns as rows. -/
theorem cholesky_update_correct_partial (Q : QR) {k₁ k₂ : ℕ} (h : n ≤ k₁) (S₁ : Matrix (Fin n) (Fin k₁) ℝ)
    (S₂ : Matrix (Fin n) (Fin k₂) ℝ) :
    ∃ L, choleskyUpdate Q S₁ S₂ = .ok L ∧ L * Lᵀ = S₁ * S₁ᵀ + S₂ * S₂ᵀ ∧
      (∀ i j : Fin n, i < j → L i j = 0) ∧ ∀ i, 0 ≤ L i i := by
  obtain ⟨L, h1, h2⟩ := choleskyUpdate_ok Q S₁ S₂ h
  exact ⟨L, h1, h2.gram, h2.lower, h2.diag⟩

/-- Violation: with a second argument and a tall first argument (fewer columns than rows) `cholesky_update` raises
ValueError, for all values. -/
theorem cholesky_update_tall_raises (Q : QR) {k₁ k₂ : ℕ} (h : k₁ < n) (hk : 0 < k₁) (hk₂ : 0 < k₂)
    (S₁ : Matrix (Fin n) (Fin k₁) ℝ) (S₂ : Matrix (Fin n) (Fin k₂) ℝ) :
    choleskyUpdate Q S₁ S₂ = .error .valueError := by
  unfold choleskyUpdate finishCholesky
  rw [if_neg (by omega), if_neg (by omega), if_neg (by omega)]

/-- Violation: with an empty first argument and one row the result is `0`, whatever the second argument. -/
theorem cholesky_update_empty_first (Q : QR) {k₂ : ℕ} (hk : 0 < k₂) (S₁ : Matrix (Fin 1) (Fin 0) ℝ)
    (S₂ : Matrix (Fin 1) (Fin k₂) ℝ) : choleskyUpdate Q S₁ S₂ = .ok 0 := by
  unfold choleskyUpdate finishCholesky
  rw [if_neg (by omega), if_neg (by omega), if_pos (by omega)]
  congr 1
  ext i j
  simp [trilToPositiveTril]

/-- A QR function exists, so none of these statements is vacuous. -/
example : Nonempty QR := QR.exists

/-! ## C12 -/

/-- **C12, classic.**  If `x ~ N(m, P)` and the noise `~ N(b, d R)` is independent of `x`, then `H x + noise` has the
distribution returned by `forward_rv`, and `info["crosscov"]` is the covariance of `x` and `H x + noise`. -/
theorem forward_classic_is_pushforward {Ω : Type*} {mΩ : MeasurableSpace Ω} {P : Measure Ω} (tr : Transition n m) (d : ℝ)
    (rv : Normal n) (X : Ω → Fin n → ℝ) (N : Ω → Fin m → ℝ) (hX : IsNormal P X rv.mean rv.cov)
    (hN : IsNormal P N tr.noise.mean (d • tr.noise.cov)) (hXN : IndepFun X N P) :
    IsNormal P (fun ω => tr.mat *ᵥ X ω + N ω) (forwardClassic tr d rv).mean (forwardClassic tr d rv).cov ∧
    CrossCov P X (fun ω => tr.mat *ᵥ X ω + N ω) (forwardClassic tr d rv).crosscov := by
  have h1 := hX.comb hN hXN tr.mat 1 0
  have h2 := hX.comb_cov hN hXN (1 : Matrix (Fin n) (Fin n) ℝ) 0 0 tr.mat 1 0
  simp only [Matrix.one_mulVec, Matrix.zero_mulVec, add_zero, Matrix.one_mul, Matrix.transpose_one, Matrix.mul_one,
    Matrix.zero_mul] at h1 h2
  refine ⟨?_, h2⟩
  have : (forwardClassic tr d rv).cov = tr.mat * rv.cov * tr.matᵀ + d • tr.noise.cov := predCov_eq tr d rv
  rw [this]
  exact h1

/-- The hypotheses are met for every valid transition and random variable. -/
example (tr : Transition n m) (d : ℝ) (hd : 0 ≤ d) (rv : Normal n) (h1 : rv.Valid) (h2 : tr.noise.Valid) :
    ∃ (Ω : Type) (_ : MeasurableSpace Ω) (P : Measure Ω) (X : Ω → Fin n → ℝ) (N : Ω → Fin m → ℝ),
      IsNormal P X rv.mean rv.cov ∧ IsNormal P N tr.noise.mean (d • tr.noise.cov) ∧ IndepFun X N P := by
  have h := exists_independent_normals rv.mean rv.chol tr.noise.mean (Real.sqrt d • tr.noise.chol)
  have e : Real.sqrt d • tr.noise.chol * (Real.sqrt d • tr.noise.chol)ᵀ = d • tr.noise.cov := by
    rw [← h2]; simp [Matrix.transpose_smul, smul_smul, Real.mul_self_sqrt hd]
  rw [h1, e] at h
  exact h

/-- **C12, square root.**  For at most as many outputs as inputs the square-root implementation returns the same
mean, covariance, cross-covariance and gain as the classic one, and a triangular `cov_cholesky` of that covariance. -/
theorem forward_sqrt_agrees_partial (Q : QR) (tr : Transition n m) (d : ℝ) (rv : Normal n) (hd : 0 ≤ d)
    (hrv : rv.Valid) (hno : tr.noise.Valid) (hmn : m ≤ n) :
    (∃ L, forwardSqrt Q tr d rv = .ok (forwardClassic tr d rv, L) ∧ L * Lᵀ = (forwardClassic tr d rv).cov ∧
      (∀ i j : Fin m, i < j → L i j = 0) ∧ ∀ i, 0 ≤ L i i) ∧
    gainSqrt Q tr d rv = gainClassic tr d rv := by
  obtain ⟨L, h1, h2⟩ := forwardSqrt_eq Q tr d rv hd hrv hno hmn
  exact ⟨⟨L, h1, h2.gram, h2.lower, h2.diag⟩, gainSqrt_eq Q tr d rv hd hrv hno hmn⟩

/-- Violation: with more outputs than inputs the square-root implementation raises ValueError, although the classic
implementation succeeds. -/
theorem forward_sqrt_tall_raises (Q : QR) (tr : Transition n m) (d : ℝ) (rv : Normal n) (hn : 0 < n) (hnm : n < m) :
    forwardSqrt Q tr d rv = .error .valueError ∧ gainSqrt Q tr d rv = .error .valueError := by
  have h := cholesky_update_tall_raises Q hnm hn (by omega : 0 < m) (tr.mat * rv.chol) (Real.sqrt d • tr.noise.chol)
  constructor
  · simp [forwardSqrt, h, bind, Except.bind]
  · simp [gainSqrt, forwardSqrt, h, bind, Except.bind]

/-! ## C13 -/

/-- **C13 (a).**  The classic update with a realization is Gaussian conditioning: for `x ~ N(m, P)` and independent
noise, `backward_realization(y)` returns mean and covariance of the conditional distribution of `x` given
`H x + noise = y`, for every `y`. -/
theorem backward_realization_is_conditioning {Ω : Type*} {mΩ : MeasurableSpace Ω} {P : Measure Ω}
    (tr : Transition n m) (d : ℝ) (rv : Normal n) (X : Ω → Fin n → ℝ) (N : Ω → Fin m → ℝ)
    (hX : IsNormal P X rv.mean rv.cov) (hN : IsNormal P N tr.noise.mean (d • tr.noise.cov)) (hXN : IndepFun X N P)
    (hR : tr.noise.covᵀ = tr.noise.cov) (hS : (forwardClassic tr d rv).cov.det ≠ 0) :
    ∃ (f : (Fin m → ℝ) → Fin n → ℝ) (C : Matrix (Fin n) (Fin n) ℝ),
      (∀ y, backwardClassic tr d (Normal.const y) rv none = .ok ⟨f y, C⟩) ∧
      IsConditional P X (fun ω => tr.mat *ᵥ X ω + N ω) f C := by
  have hP : rv.covᵀ = rv.cov := symm_of_posSemidef hX.posSemidef
  set K := optGain tr d rv with hK
  refine ⟨fun y => rv.mean + K *ᵥ (y - (tr.mat *ᵥ rv.mean + tr.noise.mean)),
    rv.cov - K * predCov tr d rv * Kᵀ, ?_, ?_⟩
  · intro y
    simp only [backwardClassic, gainClassic_eq tr d rv hS, bind, Except.bind, conditionStateOnRv, Normal.const,
      zero_sub, Matrix.mul_neg, Matrix.neg_mul, ← sub_eq_add_neg]
    rfl
  · have hres : ∀ ω, X ω - (rv.mean + K *ᵥ ((tr.mat *ᵥ X ω + N ω) - (tr.mat *ᵥ rv.mean + tr.noise.mean)))
        = (1 - K * tr.mat) *ᵥ X ω + (-K) *ᵥ N ω + (K *ᵥ (tr.mat *ᵥ rv.mean + tr.noise.mean) - rv.mean) := by
      intro ω
      simp only [Matrix.sub_mulVec, Matrix.one_mulVec, Matrix.neg_mulVec, Matrix.mulVec_sub, Matrix.mulVec_add,
        Matrix.mulVec_mulVec]
      abel
    have hY : ∀ ω, tr.mat *ᵥ X ω + N ω = tr.mat *ᵥ X ω + (1 : Matrix (Fin m) (Fin m) ℝ) *ᵥ N ω + 0 := by
      intro ω; simp
    refine ⟨?_, ?_, ?_⟩
    · have hc : Continuous fun y : Fin m → ℝ => K *ᵥ y := (clm K).continuous
      exact (continuous_const.add (hc.comp (continuous_id.sub continuous_const))).measurable
    · simp only [hres]
      conv_rhs => skip
      have := hX.comb_indep hN hXN (1 - K * tr.mat) (-K) (K *ᵥ (tr.mat *ᵥ rv.mean + tr.noise.mean) - rv.mean)
        tr.mat 1 0 ?_
      · simpa only [← hY] using this
      · rw [Matrix.transpose_one, Matrix.mul_one]
        have h2 := optGain_mul tr d rv hS
        rw [predCov_eq, ← hK] at h2
        rw [Matrix.sub_mul, Matrix.one_mul, Matrix.sub_mul, Matrix.neg_mul, ← h2]
        simp only [Matrix.mul_add, Matrix.mul_assoc]
        abel
    · simp only [hres]
      have := hX.comb hN hXN (1 - K * tr.mat) (-K) (K *ᵥ (tr.mat *ᵥ rv.mean + tr.noise.mean) - rv.mean)
      have e1 : (1 - K * tr.mat) *ᵥ rv.mean + (-K) *ᵥ tr.noise.mean
          + (K *ᵥ (tr.mat *ᵥ rv.mean + tr.noise.mean) - rv.mean) = 0 := by
        simp only [Matrix.sub_mulVec, Matrix.one_mulVec, Matrix.neg_mulVec, Matrix.mulVec_add, Matrix.mulVec_mulVec]
        abel
      have e2 : (1 - K * tr.mat) * rv.cov * (1 - K * tr.mat)ᵀ + (-K) * (d • tr.noise.cov) * (-K)ᵀ
          = rv.cov - K * predCov tr d rv * Kᵀ := by
        rw [hK, ← joseph_eq tr d rv hP hR hS]
        simp
      rw [e1, e2] at this
      exact this

/-- A concrete case: one dimension, `P = R = 1`, `H = 1`, unit diffusion.  All hypotheses of (a)-(f) hold. -/
example : ∃ (tr : Transition 1 1) (rv : Normal 1), rv.Valid ∧ tr.noise.Valid ∧ rv.cov.PosSemidef ∧
    tr.noise.cov.PosSemidef ∧ (forwardClassic tr 1 rv).cov.det ≠ 0 ∧
    ∃ (Ω : Type) (_ : MeasurableSpace Ω) (P : Measure Ω) (X N : Ω → Fin 1 → ℝ),
      IsNormal P X rv.mean rv.cov ∧ IsNormal P N tr.noise.mean ((1 : ℝ) • tr.noise.cov) ∧ IndepFun X N P := by
  let one : Normal 1 := ⟨0, 1, 1⟩
  have h := exists_independent_normals (0 : Fin 1 → ℝ) (1 : Matrix (Fin 1) (Fin 1) ℝ) (0 : Fin 1 → ℝ)
    (1 : Matrix (Fin 1) (Fin 1) ℝ)
  refine ⟨⟨1, one⟩, one, by simp [Normal.Valid, one], by simp [Normal.Valid, one], Matrix.PosSemidef.one,
    Matrix.PosSemidef.one, ?_, ?_⟩
  · simp [forwardClassic, one]
  · simpa [one] using h

/-- **C13 (b).**  Conditioning on a random variable (the Rauch-Tung-Striebel step): if `y ~ N(m_o, C_o)` and `x` is
drawn from the conditional distribution of (a) given `y`, then `x` has the distribution returned by `backward_rv`. -/
theorem backward_rv_is_rts {Ω : Type*} {mΩ : MeasurableSpace Ω} {P : Measure Ω}
    (tr : Transition n m) (d : ℝ) (rv : Normal n) (obt : Normal m) (Y : Ω → Fin m → ℝ) (E : Ω → Fin n → ℝ)
    (hS : (forwardClassic tr d rv).cov.det ≠ 0) (f : (Fin m → ℝ) → Fin n → ℝ) (C : Matrix (Fin n) (Fin n) ℝ)
    (hf : ∀ y, backwardClassic tr d (Normal.const y) rv none = .ok ⟨f y, C⟩)
    (hY : IsNormal P Y obt.mean obt.cov) (hE : IsNormal P E 0 C) (hYE : IndepFun Y E P) :
    ∃ u, backwardClassic tr d obt rv none = .ok u ∧ IsNormal P (fun ω => f (Y ω) + E ω) u.mean u.cov := by
  set K := optGain tr d rv with hK
  have hval : ∀ o : Normal m, backwardClassic tr d o rv none
      = .ok ⟨rv.mean + K *ᵥ (o.mean - (forwardClassic tr d rv).mean),
          rv.cov + K * (o.cov - predCov tr d rv) * Kᵀ⟩ := by
    intro o
    simp only [backwardClassic, gainClassic_eq tr d rv hS, bind, Except.bind, conditionStateOnRv]
    rfl
  have hfy : ∀ y, f y = rv.mean + K *ᵥ (y - (forwardClassic tr d rv).mean) := by
    intro y
    have := hf y
    rw [hval] at this
    injection this with this
    exact (congrArg Updated.mean this).symm
  have hC : C = rv.cov - K * predCov tr d rv * Kᵀ := by
    have := hf 0
    rw [hval] at this
    injection this with this
    have h2 := (congrArg Updated.cov this).symm
    simpa [Normal.const, sub_eq_add_neg] using h2
  refine ⟨_, hval obt, ?_⟩
  have := hY.comb hE hYE K 1 (rv.mean - K *ᵥ (forwardClassic tr d rv).mean)
  have e1 : ∀ ω, K *ᵥ Y ω + (1 : Matrix (Fin n) (Fin n) ℝ) *ᵥ E ω + (rv.mean - K *ᵥ (forwardClassic tr d rv).mean)
      = f (Y ω) + E ω := by
    intro ω
    rw [hfy, Matrix.one_mulVec, Matrix.mulVec_sub]; abel
  have e2 : K *ᵥ obt.mean + (1 : Matrix (Fin n) (Fin n) ℝ) *ᵥ (0 : Fin n → ℝ)
      + (rv.mean - K *ᵥ (forwardClassic tr d rv).mean)
      = rv.mean + K *ᵥ (obt.mean - (forwardClassic tr d rv).mean) := by
    rw [Matrix.mulVec_zero, Matrix.mulVec_sub]; abel
  have e3 : K * obt.cov * Kᵀ + (1 : Matrix (Fin n) (Fin n) ℝ) * C * 1ᵀ
      = rv.cov + K * (obt.cov - predCov tr d rv) * Kᵀ := by
    rw [hC, Matrix.transpose_one, Matrix.mul_one, Matrix.one_mul, Matrix.mul_sub, Matrix.sub_mul]; abel
  rw [e2, e3] at this
  simpa only [e1] using this

/-- **C13 (c).**  The Joseph-form implementation returns the same mean and covariance as the classic one. -/
theorem backward_joseph_agrees (tr : Transition n m) (d : ℝ) (obt : Normal m) (rv : Normal n)
    (hP : rv.covᵀ = rv.cov) (hR : tr.noise.covᵀ = tr.noise.cov) :
    backwardJoseph tr d obt rv none = backwardClassic tr d obt rv none := by
  by_cases hS : (predCov tr d rv).det = 0
  · simp [backwardJoseph, backwardClassic, gainClassic_singular tr d rv hS, bind, Except.bind]
  · have hj := joseph_eq tr d rv hP hR hS
    simp only [backwardJoseph, backwardClassic, gainClassic_eq tr d rv hS, bind, Except.bind, conditionStateOnRv]
    congr 1
    have em : rv.mean + optGain tr d rv *ᵥ (obt.mean - tr.mat *ᵥ rv.mean - tr.noise.mean)
        = rv.mean + optGain tr d rv *ᵥ (obt.mean - (forwardClassic tr d rv).mean) := by
      simp [forwardClassic, sub_sub]
    have ec : (1 - optGain tr d rv * tr.mat) * rv.cov * (1 - optGain tr d rv * tr.mat)ᵀ
          + optGain tr d rv * (d • tr.noise.cov) * (optGain tr d rv)ᵀ
          + optGain tr d rv * obt.cov * (optGain tr d rv)ᵀ
        = rv.cov + optGain tr d rv * (obt.cov - (forwardClassic tr d rv).cov) * (optGain tr d rv)ᵀ := by
      rw [hj, Matrix.mul_sub, Matrix.sub_mul]; abel
    rw [em, ec]

/-- **C13 (d).**  Supplying forwarded variable and gain of a forward pass does not change the result. -/
theorem backward_given_gain_agrees (tr : Transition n m) (d : ℝ) (obt : Normal m) (rv : Normal n)
    (K : Matrix (Fin n) (Fin m) ℝ) (hK : gainClassic tr d rv = .ok K) :
    backwardClassic tr d obt rv (some ((forwardClassic tr d rv).mean, (forwardClassic tr d rv).cov, K))
      = backwardClassic tr d obt rv none ∧
    backwardJoseph tr d obt rv (some K) = backwardJoseph tr d obt rv none := by
  simp [backwardClassic, backwardJoseph, hK, bind, Except.bind]

/-- **C13 (e).**  The square-root implementation returns the same mean and covariance as the classic one and a valid
`cov_cholesky` — when it is called without a gain on a realization (Kalman update), without a gain on a random
variable for at most as many outputs as inputs (smoothing), or with the gain of the forward pass. -/
theorem backward_sqrt_agrees_partial (Q : QR) (tr : Transition n m) (d : ℝ) (obt : Normal m) (rv : Normal n)
    (hd : 0 ≤ d) (hrv : rv.Valid) (hno : tr.noise.Valid) (hob : obt.Valid)
    (hS : (forwardClassic tr d rv).cov.det ≠ 0) (gain? : Option (Matrix (Fin n) (Fin m) ℝ))
    (hg : match gain? with
      | none => obt.cov = 0 ∨ m ≤ n
      | some K => gainClassic tr d rv = .ok K) :
    ∃ (r : Normal n) (u : Updated n), backwardSqrt Q tr d obt rv gain? = .ok r ∧
      backwardClassic tr d obt rv none = .ok u ∧ r.mean = u.mean ∧ r.cov = u.cov ∧ r.Valid ∧
      (∀ i j : Fin n, i < j → r.chol i j = 0) ∧ ∀ i, 0 ≤ r.chol i i := by
  have hinit : ∃ g, initialGain Q tr d obt rv gain? = .ok g ∧ (g = optGain tr d rv ∨ (g = 0 ∧ obt.cov = 0)) := by
    unfold initialGain
    cases gain? with
    | none =>
      simp only at hg ⊢
      by_cases h0 : obt.cov = 0
      · exact ⟨0, by rw [if_neg (by simpa using h0)], Or.inr ⟨rfl, h0⟩⟩
      · have hmn : m ≤ n := hg.resolve_left h0
        exact ⟨optGain tr d rv, by rw [if_pos h0, gainSqrt_eq Q tr d rv hd hrv hno hmn, gainClassic_eq tr d rv hS],
          Or.inl rfl⟩
    | some K =>
      simp only at hg ⊢
      rw [gainClassic_eq tr d rv hS] at hg
      injection hg with hg
      exact ⟨K, rfl, Or.inl hg.symm⟩
  obtain ⟨g, hg1, hg2⟩ := hinit
  obtain ⟨h1, h2⟩ := backwardSqrt_core Q tr d obt rv hd hrv hno hob hS g hg2
  refine ⟨⟨rv.mean + optGain tr d rv *ᵥ (obt.mean - tr.mat *ᵥ rv.mean - tr.noise.mean),
      trilToPositiveTril (triuR2 (Q.r (blockMat tr d obt rv g)))ᵀ
        * (trilToPositiveTril (triuR2 (Q.r (blockMat tr d obt rv g)))ᵀ)ᵀ,
      trilToPositiveTril (triuR2 (Q.r (blockMat tr d obt rv g)))ᵀ⟩,
    ⟨rv.mean + optGain tr d rv *ᵥ (obt.mean - (forwardClassic tr d rv).mean),
      rv.cov + optGain tr d rv * (obt.cov - predCov tr d rv) * (optGain tr d rv)ᵀ⟩, ?_, ?_, ?_, ?_, ?_,
      h2.lower, h2.diag⟩
  · simp only [backwardSqrt, hg1, bind, Except.bind, h1]
  · simp only [backwardClassic, gainClassic_eq tr d rv hS, bind, Except.bind, conditionStateOnRv]
  · simp [forwardClassic, sub_sub]
  · exact h2.gram
  · rfl

/-- **C13 (f).**  The updated covariance is symmetric positive semidefinite. -/
theorem backward_cov_posSemidef (tr : Transition n m) (d : ℝ) (obt : Normal m) (rv : Normal n) (hd : 0 ≤ d)
    (hP : rv.cov.PosSemidef) (hR : tr.noise.cov.PosSemidef) (hO : obt.cov.PosSemidef) (u : Updated n)
    (hu : backwardClassic tr d obt rv none = .ok u) : u.cov.PosSemidef := by
  rw [← backward_joseph_agrees tr d obt rv (symm_of_posSemidef hP)
    (symm_of_posSemidef hR)] at hu
  by_cases hS : (predCov tr d rv).det = 0
  · simp [backwardJoseph, gainClassic_singular tr d rv hS, bind, Except.bind] at hu
  · simp only [backwardJoseph, gainClassic_eq tr d rv hS, bind, Except.bind] at hu
    injection hu with hu
    rw [← hu]
    have key : ∀ {a b : ℕ} (A : Matrix (Fin a) (Fin b) ℝ) {M : Matrix (Fin b) (Fin b) ℝ}, M.PosSemidef →
        (A * M * Aᵀ).PosSemidef := by
      intro a b A M hM
      have := hM.mul_mul_conjTranspose_same A
      rwa [Matrix.conjTranspose_eq_transpose_of_trivial] at this
    exact ((key _ hP).add (key _ (hR.smul hd))).add (key _ hO)

/-- Singular predictive covariance: both implementations raise `LinAlgError`. -/
theorem backward_singular_raises (tr : Transition n m) (d : ℝ) (obt : Normal m) (rv : Normal n)
    (hS : (forwardClassic tr d rv).cov.det = 0) :
    backwardClassic tr d obt rv none = .error .linAlgError ∧ backwardJoseph tr d obt rv none = .error .linAlgError := by
  simp [backwardJoseph, backwardClassic, gainClassic_singular tr d rv hS, bind, Except.bind]

/-- Violation: with a given gain that is not the optimal one the implementations disagree.  One dimension, `P = R = 1`,
`H = 1`, observed without uncertainty, gain 0 supplied: Joseph keeps the covariance 1, the square-root form ignores the
supplied gain. -/
theorem backward_zero_gain_disagrees (Q : QR) (y : Fin 1 → ℝ) :
    ∃ (tr : Transition 1 1) (rv : Normal 1) (j : Updated 1) (s : Normal 1),
      rv.Valid ∧ tr.noise.Valid ∧
      backwardJoseph tr 1 (Normal.const y) rv (some 0) = .ok j ∧ backwardSqrt Q tr 1 (Normal.const y) rv (some 0) = .ok s ∧
      j.cov = 1 ∧ s.cov = (1 / 2 : ℝ) • (1 : Matrix (Fin 1) (Fin 1) ℝ) := by
  let one : Normal 1 := ⟨0, 1, 1⟩
  let tr : Transition 1 1 := ⟨1, one⟩
  have hS : predCov tr 1 one = (2 : ℝ) • (1 : Matrix (Fin 1) (Fin 1) ℝ) := by
    rw [predCov_eq]; ext i j; simp [tr, one]; ring
  have hdet : (predCov tr 1 one).det ≠ 0 := by rw [hS]; simp
  have hone : one.Valid := by simp [Normal.Valid, one]
  obtain ⟨h1, h2⟩ := backwardSqrt_core Q tr 1 (Normal.const y) one (by norm_num) hone hone (Normal.const_valid y) hdet 0
    (Or.inr ⟨rfl, rfl⟩)
  refine ⟨tr, one, ⟨one.mean + (0 : Matrix (Fin 1) (Fin 1) ℝ) *ᵥ ((Normal.const y).mean - tr.mat *ᵥ one.mean - tr.noise.mean),
      (1 - 0 * tr.mat) * one.cov * (1 - 0 * tr.mat)ᵀ + 0 * ((1 : ℝ) • tr.noise.cov) * 0ᵀ
        + 0 * (Normal.const y).cov * 0ᵀ⟩,
    ⟨one.mean + optGain tr 1 one *ᵥ ((Normal.const y).mean - tr.mat *ᵥ one.mean - tr.noise.mean),
      trilToPositiveTril (triuR2 (Q.r (blockMat tr 1 (Normal.const y) one 0)))ᵀ
        * (trilToPositiveTril (triuR2 (Q.r (blockMat tr 1 (Normal.const y) one 0)))ᵀ)ᵀ,
      trilToPositiveTril (triuR2 (Q.r (blockMat tr 1 (Normal.const y) one 0)))ᵀ⟩, hone, hone, rfl, ?_, ?_, ?_⟩
  · simp only [backwardSqrt, initialGain, bind, Except.bind, h1]
  · simp [one]
  · show trilToPositiveTril _ * (trilToPositiveTril _)ᵀ = _
    rw [h2.gram]
    have hK : optGain tr 1 one = (1 / 2 : ℝ) • (1 : Matrix (Fin 1) (Fin 1) ℝ) := by
      have := optGain_mul tr 1 one hdet
      rw [hS] at this
      ext i j
      have h3 := congrFun (congrFun this i) j
      simp [tr, one, Fin.fin_one_eq_zero i, Fin.fin_one_eq_zero j] at h3 ⊢
      linarith
    rw [hK, hS]
    ext i j
    simp [one, Normal.const, Fin.fin_one_eq_zero i, Fin.fin_one_eq_zero j]
    norm_num

end Probnum.LinGauss
