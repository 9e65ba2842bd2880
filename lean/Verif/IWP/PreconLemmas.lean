import Verif.IWP.Precon
import Verif.LinGauss.Props
import Verif.Kalman.Exact

/-!
# Preconditioned transitions are plain transitions (up to the damping of `cov_cholesky`)
-/

namespace Probnum.IWP

open Matrix Probnum.LinGauss Probnum.Kalman

variable {n : ℕ}

/-- The supplied factor, if any, is a square root of the covariance. -/
def Rv.Valid (rv : Rv n) : Prop := ∀ L, rv.chol? = some L → L * Lᵀ = rv.cov

/-- The covariance that `apply_precon` works with: `cov`, or `cov + damping * I` if no Cholesky factor was supplied. -/
def effCov (ε : ℝ) (rv : Rv n) : Matrix (Fin n) (Fin n) ℝ :=
  match rv.chol? with
  | some _ => rv.cov
  | none => rv.cov + ε • 1

/-- `tr'` is the transition `tr` expressed in the coordinates `x' = Pi x`. -/
structure InCoords (P Pi : Matrix (Fin n) (Fin n) ℝ) (tr tr' : Transition n n) : Prop where
  right : P * Pi = 1
  left : Pi * P = 1
  symm : Pᵀ = P
  mat : tr'.mat = Pi * tr.mat * P
  mean : tr'.noise.mean = Pi *ᵥ tr.noise.mean
  cov : tr'.noise.cov = Pi * tr.noise.cov * Piᵀ

theorem InCoords.symmInv {P Pi : Matrix (Fin n) (Fin n) ℝ} {tr tr' : Transition n n} (h : InCoords P Pi tr tr') :
    Piᵀ = Pi := by
  have h1 : P * Piᵀ = 1 := by
    have := congrArg Matrix.transpose h.left
    rwa [Matrix.transpose_mul, h.symm, Matrix.transpose_one] at this
  calc Piᵀ = Pi * P * Piᵀ := by rw [h.left, Matrix.one_mul]
    _ = Pi := by rw [Matrix.mul_assoc, h1, Matrix.mul_one]

theorem applyPrecon_mean (ch : CovCholesky n) (ε : ℝ) (P : Matrix (Fin n) (Fin n) ℝ) (rv : Rv n) :
    (applyPrecon ch ε P rv).mean = P *ᵥ rv.mean := rfl

theorem effCov_none (ε : ℝ) (m : Fin n → ℝ) (C : Matrix (Fin n) (Fin n) ℝ) :
    effCov ε ⟨m, C, none⟩ = C + ε • 1 := rfl

theorem smul_one_psd {ε : ℝ} (h : 0 ≤ ε) : (ε • (1 : Matrix (Fin n) (Fin n) ℝ)).PosSemidef :=
  Matrix.PosSemidef.one.smul h

theorem cholOf_gram (ch : CovCholesky n) {ε : ℝ} (hε : 0 ≤ ε) (rv : Rv n) (hv : rv.Valid) (hp : rv.cov.PosSemidef) :
    cholOf ch ε rv * (cholOf ch ε rv)ᵀ = effCov ε rv := by
  unfold cholOf effCov
  cases h : rv.chol? with
  | some L => exact hv L h
  | none => exact ch.gram _ (hp.add (smul_one_psd hε))

theorem applyPrecon_cov (ch : CovCholesky n) {ε : ℝ} (hε : 0 ≤ ε) (P : Matrix (Fin n) (Fin n) ℝ) (rv : Rv n)
    (hv : rv.Valid) (hp : rv.cov.PosSemidef) : (applyPrecon ch ε P rv).cov = P * effCov ε rv * Pᵀ := by
  simp only [applyPrecon]
  rw [Matrix.transpose_mul, ← cholOf_gram ch hε rv hv hp]
  simp only [Matrix.mul_assoc]

theorem effCov_psd {ε : ℝ} (hε : 0 ≤ ε) (rv : Rv n) (hp : rv.cov.PosSemidef) : (effCov ε rv).PosSemidef := by
  unfold effCov
  split
  · exact hp
  · exact hp.add (smul_one_psd hε)

theorem conj_cancel {P Pi : Matrix (Fin n) (Fin n) ℝ} (h : P * Pi = 1) (M : Matrix (Fin n) (Fin n) ℝ) :
    P * (Pi * M) = M := by rw [← Matrix.mul_assoc, h, Matrix.one_mul]

section

variable {P Pi : Matrix (Fin n) (Fin n) ℝ} {tr tr' : Transition n n} (h : InCoords P Pi tr tr')
include h

/-- The plain transition applied to what `apply_precon` works with. -/
theorem pre_forwardClassic (ch : CovCholesky n) {ε : ℝ} (hε : 0 ≤ ε) (d : ℝ) (rv : Rv n) (hv : rv.Valid)
    (hp : rv.cov.PosSemidef) (L : Matrix (Fin n) (Fin n) ℝ) :
    let f' := forwardClassic tr' d ((applyPrecon ch ε Pi rv).toNormal ch ε)
    let f := forwardClassic tr d ⟨rv.mean, effCov ε rv, L⟩
    f'.mean = Pi *ᵥ f.mean ∧ f'.cov = Pi * f.cov * Piᵀ ∧ f'.crosscov = Pi * f.crosscov * Piᵀ := by
  have hc := applyPrecon_cov ch hε Pi rv hv hp
  have hm : (applyPrecon ch ε Pi rv).mean = Pi *ᵥ rv.mean := rfl
  have hs := h.symmInv
  have e2 : Piᵀ * Pᵀ = 1 := by rw [← Matrix.transpose_mul, h.right, Matrix.transpose_one]
  refine ⟨?_, ?_, ?_⟩
  · simp only [forwardClassic, Rv.toNormal, hm, h.mat, h.mean]
    rw [Matrix.mulVec_mulVec, Matrix.mul_assoc, Matrix.mul_assoc, h.right, Matrix.mul_one, Matrix.mulVec_add,
      Matrix.mulVec_mulVec]
  · simp only [forwardClassic, Rv.toNormal, hc, h.mat, h.cov, Matrix.transpose_mul]
    simp only [Matrix.mul_add, Matrix.add_mul, Matrix.mul_smul, Matrix.smul_mul, Matrix.mul_assoc, conj_cancel h.right,
      conj_cancel e2]
  · simp only [forwardClassic, Rv.toNormal, hc, h.mat, Matrix.transpose_mul]
    simp only [Matrix.mul_assoc, conj_cancel e2]

theorem det_conj (M : Matrix (Fin n) (Fin n) ℝ) : (Pi * M * Piᵀ).det = 0 ↔ M.det = 0 := by
  have hd : Pi.det ≠ 0 := by
    intro h0
    have := congrArg Matrix.det h.left
    rw [Matrix.det_mul, h0, zero_mul, Matrix.det_one] at this
    exact zero_ne_one this
  rw [Matrix.det_mul, Matrix.det_mul, Matrix.det_transpose]
  simp [hd]

theorem inv_conj (M : Matrix (Fin n) (Fin n) ℝ) (hM : M.det ≠ 0) : (Pi * M * Piᵀ)⁻¹ = P * M⁻¹ * P := by
  refine Matrix.inv_eq_right_inv ?_
  rw [h.symmInv]
  calc Pi * M * Pi * (P * M⁻¹ * P) = Pi * (M * ((Pi * P) * M⁻¹)) * P := by simp only [Matrix.mul_assoc]
    _ = 1 := by rw [h.left, Matrix.one_mul, Matrix.mul_nonsing_inv _ (isUnit_iff_ne_zero.2 hM), Matrix.mul_one, h.left]

theorem pre_gainClassic (ch : CovCholesky n) {ε : ℝ} (hε : 0 ≤ ε) (d : ℝ) (rv : Rv n) (hv : rv.Valid)
    (hp : rv.cov.PosSemidef) (L : Matrix (Fin n) (Fin n) ℝ) :
    gainClassic tr' d ((applyPrecon ch ε Pi rv).toNormal ch ε)
      = (gainClassic tr d ⟨rv.mean, effCov ε rv, L⟩).map fun K => Pi * K * P := by
  obtain ⟨-, hc, hx⟩ := pre_forwardClassic h ch hε d rv hv hp L
  set rv' := (applyPrecon ch ε Pi rv).toNormal ch ε with hrv'
  set rw0 : Normal n := ⟨rv.mean, effCov ε rv, L⟩ with hrw
  by_cases hS : (predCov tr d rw0).det = 0
  · rw [gainClassic_singular tr d rw0 hS, gainClassic_singular tr' d rv' (by
      show (forwardClassic tr' d rv').cov.det = 0
      rw [hc]; exact (det_conj h _).2 hS)]
    rfl
  · rw [gainClassic_eq tr d rw0 hS, gainClassic_eq tr' d rv' (by
      show (forwardClassic tr' d rv').cov.det ≠ 0
      rw [hc]; exact fun h0 => hS ((det_conj h _).1 h0))]
    have e : optGain tr' d rv' = Pi * optGain tr d rw0 * P := by
      have ex : rv'.cov * tr'.matᵀ = Pi * (rw0.cov * tr.matᵀ) * Piᵀ := hx
      have ec : predCov tr' d rv' = Pi * predCov tr d rw0 * Piᵀ := hc
      unfold optGain
      rw [ex, ec, inv_conj h _ hS, h.symmInv]
      calc Pi * (rw0.cov * tr.matᵀ) * Pi * (P * (predCov tr d rw0)⁻¹ * P)
          = Pi * (rw0.cov * tr.matᵀ) * (Pi * P) * ((predCov tr d rw0)⁻¹ * P) := by simp only [Matrix.mul_assoc]
        _ = Pi * (rw0.cov * tr.matᵀ * (predCov tr d rw0)⁻¹) * P := by
            rw [h.left, Matrix.mul_one]; simp only [Matrix.mul_assoc]
    rw [e]
    rfl

theorem pre_condition (obt rv : Normal n) (obt' rv' : Normal n) (fm fm' : Fin n → ℝ) (fc fc' K : Matrix (Fin n) (Fin n) ℝ)
    (h1 : obt'.mean = Pi *ᵥ obt.mean) (h2 : obt'.cov = Pi * obt.cov * Piᵀ) (h3 : rv'.mean = Pi *ᵥ rv.mean)
    (h4 : rv'.cov = Pi * rv.cov * Piᵀ) (h5 : fm' = Pi *ᵥ fm) (h6 : fc' = Pi * fc * Piᵀ) :
    (conditionStateOnRv obt' fm' fc' rv' (Pi * K * P)).mean = Pi *ᵥ (conditionStateOnRv obt fm fc rv K).mean ∧
    (conditionStateOnRv obt' fm' fc' rv' (Pi * K * P)).cov = Pi * (conditionStateOnRv obt fm fc rv K).cov * Piᵀ := by
  have e2 : Piᵀ * Pᵀ = 1 := by rw [← Matrix.transpose_mul, h.right, Matrix.transpose_one]
  constructor
  · simp only [conditionStateOnRv, h1, h3, h5]
    rw [← Matrix.mulVec_sub, Matrix.mulVec_mulVec, Matrix.mulVec_add, Matrix.mulVec_mulVec, Matrix.mul_assoc,
      Matrix.mul_assoc, h.right, Matrix.mul_one]
  · simp only [conditionStateOnRv, h2, h4, h6, Matrix.transpose_mul]
    simp only [Matrix.mul_add, Matrix.add_mul, Matrix.mul_sub, Matrix.sub_mul, Matrix.mul_assoc, conj_cancel h.right,
      conj_cancel e2]

end

end Probnum.IWP
