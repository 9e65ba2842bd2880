import Mathlib.LinearAlgebra.Matrix.SchurComplement
import Verif.Particle.Linearized
import Verif.Approx.Props

/-!
# Helper lemmas: densities and the update of a normal distribution
-/

namespace Probnum.Gauss

open MeasureTheory ProbabilityTheory Matrix

variable {n m : ℕ}

theorem normalPdf_pos (a : Fin n → ℝ) {C : Matrix (Fin n) (Fin n) ℝ} (hC : C.PosDef) (x : Fin n → ℝ) : 0 < normalPdf a C x := by
  unfold normalPdf
  have := hC.det_pos
  positivity

theorem measurable_normalPdf (a : Fin n → ℝ) (C : Matrix (Fin n) (Fin n) ℝ) : Measurable (normalPdf a C) := by
  unfold normalPdf
  refine Measurable.const_mul (Real.measurable_exp.comp ?_) _
  refine Continuous.measurable ?_
  have : Continuous fun x : Fin n → ℝ => x - a := by fun_prop
  exact ((this.dotProduct (Continuous.matrix_mulVec continuous_const this)).neg).div_const 2

/-- Gain, inverse of the updated covariance, and determinants. -/
theorem update_algebra {P : Matrix (Fin n) (Fin n) ℝ} {R : Matrix (Fin m) (Fin m) ℝ} (hP : P.PosDef) (hR : R.PosDef)
    (A : Matrix (Fin m) (Fin n) ℝ) {S : Matrix (Fin m) (Fin m) ℝ} {K : Matrix (Fin n) (Fin m) ℝ} (hS : S = A * P * Aᵀ + R)
    (hK : K = P * Aᵀ * S⁻¹) :
    S.PosDef ∧ (P - K * S * Kᵀ) * (P⁻¹ + Aᵀ * R⁻¹ * A) = 1 ∧ (P⁻¹ + Aᵀ * R⁻¹ * A) * K = Aᵀ * R⁻¹ ∧
      Kᵀ * (Aᵀ * R⁻¹) + S⁻¹ = R⁻¹ ∧ P.det * R.det = (P - K * S * Kᵀ).det * S.det ∧ (P - K * S * Kᵀ).PosDef := by
  have hSpd : S.PosDef := by
    rw [hS]
    refine Matrix.PosDef.posSemidef_add ?_ hR
    have := hP.posSemidef.mul_mul_conjTranspose_same A
    rwa [Matrix.conjTranspose_eq_transpose_of_trivial] at this
  have uP : IsUnit P.det := hP.det_pos.ne'.isUnit
  have uR : IsUnit R.det := hR.det_pos.ne'.isUnit
  have uS : IsUnit S.det := hSpd.det_pos.ne'.isUnit
  have sP : Pᵀ = P := by have := hP.1.eq; rwa [Matrix.conjTranspose_eq_transpose_of_trivial] at this
  have sS : Sᵀ = S := by have := hSpd.1.eq; rwa [Matrix.conjTranspose_eq_transpose_of_trivial] at this
  have sR : Rᵀ = R := by have := hR.1.eq; rwa [Matrix.conjTranspose_eq_transpose_of_trivial] at this
  have hKt : Kᵀ = S⁻¹ * A * P := by
    rw [hK, Matrix.transpose_mul, Matrix.transpose_mul, Matrix.transpose_transpose, Matrix.transpose_nonsing_inv, sS, sP,
      Matrix.mul_assoc]
  have hKS : K * S = P * Aᵀ := by rw [hK, Matrix.mul_assoc, Matrix.nonsing_inv_mul _ uS, Matrix.mul_one]
  have hAPA : A * P * Aᵀ = S - R := by rw [hS]; abel
  have h1 : (P - K * S * Kᵀ) * (P⁻¹ + Aᵀ * R⁻¹ * A) = 1 := by
    rw [hKS, hKt, Matrix.sub_mul, Matrix.mul_add, Matrix.mul_nonsing_inv _ uP, Matrix.mul_add]
    have e1 : P * Aᵀ * (S⁻¹ * A * P) * P⁻¹ = P * Aᵀ * S⁻¹ * A := by
      rw [Matrix.mul_assoc _ _ P⁻¹, Matrix.mul_assoc _ P, Matrix.mul_nonsing_inv _ uP, Matrix.mul_one]
      simp only [Matrix.mul_assoc]
    have e2 : P * Aᵀ * (S⁻¹ * A * P) * (Aᵀ * R⁻¹ * A) = P * Aᵀ * R⁻¹ * A - P * Aᵀ * S⁻¹ * A := by
      have : P * Aᵀ * (S⁻¹ * A * P) * (Aᵀ * R⁻¹ * A) = P * Aᵀ * S⁻¹ * (A * P * Aᵀ) * R⁻¹ * A := by
        simp only [Matrix.mul_assoc]
      rw [this, hAPA, Matrix.mul_sub, Matrix.sub_mul, Matrix.sub_mul]
      congr 1
      · rw [Matrix.mul_assoc _ S⁻¹ S, Matrix.nonsing_inv_mul _ uS, Matrix.mul_one]
      · rw [Matrix.mul_assoc _ R R⁻¹, Matrix.mul_nonsing_inv _ uR, Matrix.mul_one]
    rw [e1, e2]
    simp only [Matrix.mul_assoc]
    abel
  have h2 : (P⁻¹ + Aᵀ * R⁻¹ * A) * K = Aᵀ * R⁻¹ := by
    have e : (P⁻¹ + Aᵀ * R⁻¹ * A) * (P * Aᵀ) = Aᵀ * R⁻¹ * S := by
      rw [Matrix.add_mul, ← Matrix.mul_assoc, Matrix.nonsing_inv_mul _ uP, Matrix.one_mul, hS, Matrix.mul_add,
        Matrix.mul_assoc _ R⁻¹ R, Matrix.nonsing_inv_mul _ uR, Matrix.mul_one]
      simp only [Matrix.mul_assoc]
      abel
    rw [hK, ← Matrix.mul_assoc, e, Matrix.mul_assoc, Matrix.mul_nonsing_inv _ uS, Matrix.mul_one]
  have h3 : Kᵀ * (Aᵀ * R⁻¹) + S⁻¹ = R⁻¹ := by
    have : Kᵀ * (Aᵀ * R⁻¹) = S⁻¹ * (A * P * Aᵀ) * R⁻¹ := by rw [hKt]; simp only [Matrix.mul_assoc]
    rw [this, hAPA, Matrix.mul_sub, Matrix.nonsing_inv_mul _ uS, Matrix.sub_mul, Matrix.one_mul, Matrix.mul_assoc,
      Matrix.mul_nonsing_inv _ uR, Matrix.mul_one]
    abel
  have hdet : P.det * R.det = (P - K * S * Kᵀ).det * S.det := by
    have d1 : (P - K * S * Kᵀ).det * (P⁻¹ + Aᵀ * R⁻¹ * A).det = 1 := by rw [← Matrix.det_mul, h1, Matrix.det_one]
    have d2 : P.det * (P⁻¹ + Aᵀ * R⁻¹ * A).det * R.det = S.det := by
      have e1 : P * (P⁻¹ + Aᵀ * R⁻¹ * A) = 1 + (P * Aᵀ) * (R⁻¹ * A) := by
        rw [Matrix.mul_add, Matrix.mul_nonsing_inv _ uP]; simp only [Matrix.mul_assoc]
      rw [← Matrix.det_mul, e1, Matrix.det_one_add_mul_comm, mul_comm, ← Matrix.det_mul, Matrix.mul_add, Matrix.mul_one]
      congr 1
      rw [hS, ← Matrix.mul_assoc, ← Matrix.mul_assoc, ← Matrix.mul_assoc, Matrix.mul_nonsing_inv _ uR, Matrix.one_mul, add_comm]
    rw [← d2]
    linear_combination (-(P.det * R.det)) * d1
  refine ⟨hSpd, h1, h2, h3, hdet, ?_⟩
  have hW : (P⁻¹ + Aᵀ * R⁻¹ * A).PosDef := by
    refine Matrix.PosDef.add_posSemidef hP.inv ?_
    have := hR.inv.posSemidef.conjTranspose_mul_mul_same A
    rwa [Matrix.conjTranspose_eq_transpose_of_trivial] at this
  have : P - K * S * Kᵀ = (P⁻¹ + Aᵀ * R⁻¹ * A)⁻¹ := (Matrix.inv_eq_left_inv h1).symm
  rw [this]
  exact hW.inv

/-- The density of the state times that of the observation is the density of the updated state times that of the predicted
observation. -/
theorem normalPdf_update {P : Matrix (Fin n) (Fin n) ℝ} {R : Matrix (Fin m) (Fin m) ℝ} (hP : P.PosDef) (hR : R.PosDef)
    (A : Matrix (Fin m) (Fin n) ℝ) {S : Matrix (Fin m) (Fin m) ℝ} {K : Matrix (Fin n) (Fin m) ℝ} (hS : S = A * P * Aᵀ + R)
    (hK : K = P * Aᵀ * S⁻¹) (a : Fin n → ℝ) (c y : Fin m → ℝ) (x : Fin n → ℝ) :
    normalPdf a P x * normalPdf (A *ᵥ x + c) R y
      = normalPdf (a + K *ᵥ (y - (A *ᵥ a + c))) (P - K * S * Kᵀ) x * normalPdf (A *ᵥ a + c) S y := by
  obtain ⟨hSpd, h1, h2, h3, hdet, hpd⟩ := update_algebra hP hR A hS hK
  set W := P⁻¹ + Aᵀ * R⁻¹ * A with hWdef
  have hinv : (P - K * S * Kᵀ)⁻¹ = W := Matrix.inv_eq_right_inv h1
  have sP : (P⁻¹)ᵀ = P⁻¹ := by have := hP.inv.1.eq; rwa [Matrix.conjTranspose_eq_transpose_of_trivial] at this
  have sR : (R⁻¹)ᵀ = R⁻¹ := by have := hR.inv.1.eq; rwa [Matrix.conjTranspose_eq_transpose_of_trivial] at this
  have sW : Wᵀ = W := by
    rw [hWdef, Matrix.transpose_add, sP, Matrix.transpose_mul, Matrix.transpose_mul, sR, Matrix.transpose_transpose,
      Matrix.mul_assoc]
  unfold normalPdf
  rw [hinv]
  have hq : (x - a) ⬝ᵥ P⁻¹ *ᵥ (x - a) + (y - (A *ᵥ x + c)) ⬝ᵥ R⁻¹ *ᵥ (y - (A *ᵥ x + c))
      = (x - (a + K *ᵥ (y - (A *ᵥ a + c)))) ⬝ᵥ W *ᵥ (x - (a + K *ᵥ (y - (A *ᵥ a + c))))
        + (y - (A *ᵥ a + c)) ⬝ᵥ S⁻¹ *ᵥ (y - (A *ᵥ a + c)) := by
    set d := x - a with hd
    set e := y - (A *ᵥ a + c) with he
    have e1 : y - (A *ᵥ x + c) = e - A *ᵥ d := by rw [hd, he, Matrix.mulVec_sub]; abel
    have e2 : x - (a + K *ᵥ e) = d - K *ᵥ e := by rw [hd]; abel
    rw [e1, e2]
    have w1 : d ⬝ᵥ W *ᵥ d = d ⬝ᵥ P⁻¹ *ᵥ d + (A *ᵥ d) ⬝ᵥ R⁻¹ *ᵥ (A *ᵥ d) := by
      rw [hWdef, Matrix.add_mulVec, dotProduct_add, ← Matrix.mulVec_mulVec, ← Matrix.mulVec_mulVec, Matrix.dotProduct_mulVec d Aᵀ,
        Matrix.vecMul_transpose]
    have w2 : d ⬝ᵥ W *ᵥ (K *ᵥ e) = (A *ᵥ d) ⬝ᵥ R⁻¹ *ᵥ e := by
      rw [Matrix.mulVec_mulVec, h2, ← Matrix.mulVec_mulVec, Matrix.dotProduct_mulVec d Aᵀ, Matrix.vecMul_transpose]
    have w3 : (K *ᵥ e) ⬝ᵥ W *ᵥ d = (A *ᵥ d) ⬝ᵥ R⁻¹ *ᵥ e := by
      rw [dotProduct_comm, ← w2]
      rw [Matrix.dotProduct_mulVec d W, ← Matrix.mulVec_transpose, sW]
    have w4 : (K *ᵥ e) ⬝ᵥ W *ᵥ (K *ᵥ e) + e ⬝ᵥ S⁻¹ *ᵥ e = e ⬝ᵥ R⁻¹ *ᵥ e := by
      rw [Matrix.mulVec_mulVec e W, h2]
      have : (K *ᵥ e) ⬝ᵥ (Aᵀ * R⁻¹) *ᵥ e = e ⬝ᵥ (Kᵀ * (Aᵀ * R⁻¹)) *ᵥ e := by
        rw [← Matrix.mulVec_mulVec e Kᵀ, Matrix.dotProduct_mulVec e Kᵀ, Matrix.vecMul_transpose]
      rw [this, ← dotProduct_add, ← Matrix.add_mulVec, h3]
    have w5 : e ⬝ᵥ R⁻¹ *ᵥ (A *ᵥ d) = (A *ᵥ d) ⬝ᵥ R⁻¹ *ᵥ e := by
      rw [dotProduct_comm, Matrix.dotProduct_mulVec, ← Matrix.mulVec_transpose, sR, dotProduct_comm]
    simp only [Matrix.mulVec_sub, sub_dotProduct, dotProduct_sub, w1, w2, w3, w5]
    linarith [w4]
  have hexp : Real.exp (-((x - a) ⬝ᵥ P⁻¹ *ᵥ (x - a)) / 2) * Real.exp (-((y - (A *ᵥ x + c)) ⬝ᵥ R⁻¹ *ᵥ (y - (A *ᵥ x + c))) / 2)
      = Real.exp (-((x - (a + K *ᵥ (y - (A *ᵥ a + c)))) ⬝ᵥ W *ᵥ (x - (a + K *ᵥ (y - (A *ᵥ a + c))))) / 2)
        * Real.exp (-((y - (A *ᵥ a + c)) ⬝ᵥ S⁻¹ *ᵥ (y - (A *ᵥ a + c))) / 2) := by
    rw [← Real.exp_add, ← Real.exp_add]
    congr 1
    linarith [hq]
  have hsq : Real.sqrt ((2 * Real.pi) ^ n * P.det) * Real.sqrt ((2 * Real.pi) ^ m * R.det)
      = Real.sqrt ((2 * Real.pi) ^ n * (P - K * S * Kᵀ).det) * Real.sqrt ((2 * Real.pi) ^ m * S.det) := by
    have p1 := hP.det_pos
    have p2 := hpd.det_pos
    rw [← Real.sqrt_mul (by positivity), ← Real.sqrt_mul (by positivity)]
    congr 1
    linear_combination ((2 * Real.pi) ^ n * (2 * Real.pi) ^ m) * hdet
  calc _ = (Real.sqrt ((2 * Real.pi) ^ n * P.det) * Real.sqrt ((2 * Real.pi) ^ m * R.det))⁻¹
        * (Real.exp (-((x - a) ⬝ᵥ P⁻¹ *ᵥ (x - a)) / 2)
          * Real.exp (-((y - (A *ᵥ x + c)) ⬝ᵥ R⁻¹ *ᵥ (y - (A *ᵥ x + c))) / 2)) := by rw [mul_inv]; ring
    _ = _ := by rw [hexp, hsq, mul_inv]; ring

end Probnum.Gauss
