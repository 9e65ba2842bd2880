import Verif.Quad.ExpQuad
import Verif.Quad.PropsMatern
import Verif.Gauss.Lemmas
import Verif.LinGauss.Lemmas
import Mathlib.Analysis.SpecialFunctions.Gaussian.GaussianIntegral
import Mathlib.Probability.Distributions.Gaussian.Real
import Mathlib.Analysis.Matrix.Spectrum
import Mathlib.Analysis.Matrix.PosDef

/-!
# Gaussian integrals behind the embeddings of exponentiated quadratic kernels
-/

namespace Probnum.Quad

open Matrix MeasureTheory ProbabilityTheory Probnum.Gauss

/-! ## Boxes -/

theorem erf_zero : erf 0 = 0 := by simp [erf]

theorem erf_hasDerivAt (x : ℝ) : HasDerivAt erf (2 / Real.sqrt Real.pi * Real.exp (-x ^ 2)) x := by
  have hc : Continuous fun t : ℝ => Real.exp (-t ^ 2) := by fun_prop
  exact (intervalIntegral.integral_hasDerivAt_right (hc.intervalIntegrable _ _)
    (hc.stronglyMeasurableAtFilter _ _) hc.continuousAt).const_mul _

/-- The antiderivative of the kernel. -/
noncomputable def expquadK (l r : ℝ) : ℝ := l * Real.sqrt (Real.pi / 2) * erf (r / (l * Real.sqrt 2))

theorem sqrt_consts : Real.sqrt (Real.pi / 2) * (2 / Real.sqrt Real.pi) = Real.sqrt 2 := by
  have h2 : Real.sqrt 2 ≠ 0 := by positivity
  have hp : Real.sqrt Real.pi ≠ 0 := by positivity
  rw [Real.sqrt_div' _ (by norm_num)]
  field_simp
  exact (Real.sq_sqrt (by norm_num)).symm

theorem expquadK_deriv {l : ℝ} (hl : 0 < l) (r : ℝ) : HasDerivAt (expquadK l) (Real.exp (-r ^ 2 / (2 * l ^ 2))) r := by
  have h2 : Real.sqrt 2 ≠ 0 := by positivity
  have hu : HasDerivAt (fun r : ℝ => r / (l * Real.sqrt 2)) (1 / (l * Real.sqrt 2)) r := (hasDerivAt_id' r).div_const _
  have h := ((erf_hasDerivAt (r / (l * Real.sqrt 2))).comp r hu).const_mul (l * Real.sqrt (Real.pi / 2))
  refine HasDerivAt.congr_deriv h ?_
  have e : -(r / (l * Real.sqrt 2)) ^ 2 = -r ^ 2 / (2 * l ^ 2) := by
    rw [div_pow, mul_pow, Real.sq_sqrt (by norm_num)]
    ring
  rw [e]
  have : l * Real.sqrt (Real.pi / 2) * (2 / Real.sqrt Real.pi * Real.exp (-r ^ 2 / (2 * l ^ 2)) * (1 / (l * Real.sqrt 2))) =
      l * (Real.sqrt (Real.pi / 2) * (2 / Real.sqrt Real.pi)) * Real.exp (-r ^ 2 / (2 * l ^ 2)) * (1 / (l * Real.sqrt 2)) := by ring
  rw [this, sqrt_consts]
  have := hl.ne'
  field_simp

theorem expquad_integral {l : ℝ} (hl : 0 < l) (a b x : ℝ) : ∫ t in a..b, Real.exp (-(t - x) ^ 2 / (2 * l ^ 2)) =
    l * Real.sqrt (Real.pi / 2) * (erf ((b - x) / (l * Real.sqrt 2)) - erf ((a - x) / (l * Real.sqrt 2))) := by
  have hc : Continuous fun r : ℝ => Real.exp (-r ^ 2 / (2 * l ^ 2)) := by fun_prop
  rw [intervalIntegral.integral_comp_sub_right (fun r => Real.exp (-r ^ 2 / (2 * l ^ 2))) x,
    intervalIntegral.integral_eq_sub_of_hasDerivAt (fun r _ => expquadK_deriv hl r) (hc.intervalIntegrable _ _)]
  simp only [expquadK]
  ring

theorem expquad_integral_integral {l : ℝ} (hl : 0 < l) {a b : ℝ} (hab : a ≤ b) :
    ∫ x in a..b, ∫ t in a..b, Real.exp (-(t - x) ^ 2 / (2 * l ^ 2)) =
    Real.sqrt (2 * Real.pi * l ^ 2) * (l * Real.sqrt (2 / Real.pi) * (Real.exp (-(b - a) ^ 2 / (2 * l ^ 2)) - 1)
        + (b - a) * erf ((b - a) / (l * Real.sqrt 2))) := by
  have hc : Continuous fun r : ℝ => Real.exp (-r ^ 2 / (2 * l ^ 2)) := by fun_prop
  have hW : ∀ r, HasDerivAt (fun r => r * expquadK l r + l ^ 2 * (Real.exp (-r ^ 2 / (2 * l ^ 2)) - 1)) (expquadK l r) r := by
    intro r
    have h1 : HasDerivAt (fun r : ℝ => -r ^ 2 / (2 * l ^ 2)) (-(2 * r) / (2 * l ^ 2)) r := by
      simpa using (((hasDerivAt_id' r).fun_pow 2).fun_neg.div_const (2 * l ^ 2))
    have h2 := ((hasDerivAt_id' r).mul (expquadK_deriv hl r)).add ((h1.exp.sub_const 1).const_mul (l ^ 2))
    refine HasDerivAt.congr_deriv h2 ?_
    have := hl.ne'
    field_simp
    ring
  have h := integral_integral_dist (fun r => expquadK_deriv hl r) hc (by simp [expquadK, erf_zero]) hW (by simp) hab
  simp only [sq_abs] at h
  rw [h]
  simp only [expquadK]
  have e1 : Real.sqrt (2 * Real.pi * l ^ 2) = 2 * (l * Real.sqrt (Real.pi / 2)) := by
    rw [show 2 * Real.pi * l ^ 2 = (2 * l) ^ 2 * (Real.pi / 2) by ring, Real.sqrt_mul (by positivity),
      Real.sqrt_sq (by positivity)]
    ring
  have e2 : Real.sqrt (Real.pi / 2) * Real.sqrt (2 / Real.pi) = 1 := by
    rw [← Real.sqrt_mul (by positivity)]
    have := Real.pi_ne_zero
    rw [show Real.pi / 2 * (2 / Real.pi) = 1 by field_simp, Real.sqrt_one]
  rw [e1]
  have : 2 * (l * Real.sqrt (Real.pi / 2)) * (l * Real.sqrt (2 / Real.pi) * (Real.exp (-(b - a) ^ 2 / (2 * l ^ 2)) - 1)
        + (b - a) * erf ((b - a) / (l * Real.sqrt 2))) = 2 * (l ^ 2 * (Real.sqrt (Real.pi / 2) * Real.sqrt (2 / Real.pi))
        * (Real.exp (-(b - a) ^ 2 / (2 * l ^ 2)) - 1)
        + (b - a) * (l * Real.sqrt (Real.pi / 2) * erf ((b - a) / (l * Real.sqrt 2)))) := by ring
  rw [this, e2]
  ring

theorem rpow_half {u : ℝ} (hu : 0 ≤ u) (D : ℕ) : u ^ ((D : ℝ) / 2) = Real.sqrt u ^ D := by
  rw [Real.sqrt_eq_rpow, ← Real.rpow_natCast, ← Real.rpow_mul hu]
  congr 1
  ring

/-! ## Gaussian measures -/

/-- The one-dimensional integral, by completing the square. -/
theorem gauss_integral_one {l : ℝ} (hl : 0 < l) (c s : ℝ) :
    ∫ z, Real.exp (-(c + s * z) ^ 2 / (2 * l ^ 2)) ∂(gaussianReal 0 1) =
      l / Real.sqrt (l ^ 2 + s ^ 2) * Real.exp (-c ^ 2 / (2 * (l ^ 2 + s ^ 2))) := by
  have hl' := hl.ne'
  have hv : 0 < l ^ 2 + s ^ 2 := by positivity
  have hv' := hv.ne'
  rw [integral_gaussianReal_eq_integral_smul (by norm_num)]
  have e : ∀ z : ℝ, gaussianPDFReal 0 1 z • Real.exp (-(c + s * z) ^ 2 / (2 * l ^ 2)) =
      (Real.sqrt (2 * Real.pi))⁻¹ * Real.exp (-c ^ 2 / (2 * (l ^ 2 + s ^ 2))) *
        Real.exp (-((l ^ 2 + s ^ 2) / (2 * l ^ 2)) * (z + c * s / (l ^ 2 + s ^ 2)) ^ 2) := by
    intro z
    rw [gaussianPDFReal, smul_eq_mul, mul_assoc (Real.sqrt _)⁻¹, mul_assoc (Real.sqrt _)⁻¹, ← Real.exp_add, ← Real.exp_add]
    congr 1
    · simp
    · congr 1
      simp only [NNReal.coe_one]
      field_simp
      ring
  simp only [e]
  rw [integral_const_mul, integral_add_right_eq_self (fun z => Real.exp (-((l ^ 2 + s ^ 2) / (2 * l ^ 2)) * z ^ 2)),
    integral_gaussian]
  have : Real.sqrt (Real.pi / ((l ^ 2 + s ^ 2) / (2 * l ^ 2))) = Real.sqrt (2 * Real.pi) * l / Real.sqrt (l ^ 2 + s ^ 2) := by
    rw [show Real.pi / ((l ^ 2 + s ^ 2) / (2 * l ^ 2)) = 2 * Real.pi * l ^ 2 / (l ^ 2 + s ^ 2) by field_simp,
      Real.sqrt_div (by positivity), Real.sqrt_mul (by positivity), Real.sqrt_sq hl.le]
  rw [this]
  have h2 : Real.sqrt (2 * Real.pi) ≠ 0 := by positivity
  field_simp

/-- Coordinates in which the covariance is diagonal. -/
theorem exists_orthogonal {D : ℕ} {C : Matrix (Fin D) (Fin D) ℝ} (hC : C.PosSemidef) :
    ∃ (U : Matrix (Fin D) (Fin D) ℝ) (s : Fin D → ℝ), U * Uᵀ = 1 ∧ Uᵀ * U = 1 ∧
      C = U * diagonal (fun i => s i ^ 2) * Uᵀ := by
  have hH := hC.isHermitian
  refine ⟨(hH.eigenvectorUnitary : Matrix (Fin D) (Fin D) ℝ), fun i => Real.sqrt (hH.eigenvalues i), ?_, ?_, ?_⟩
  · have := Unitary.coe_mul_star_self hH.eigenvectorUnitary
    rwa [Unitary.coe_star, star_eq_conjTranspose, conjTranspose_eq_transpose_of_trivial] at this
  · have := Unitary.coe_star_mul_self hH.eigenvectorUnitary
    rwa [star_eq_conjTranspose, conjTranspose_eq_transpose_of_trivial] at this
  · have := hH.spectral_theorem
    rw [Unitary.conjStarAlgAut_apply, star_eq_conjTranspose, conjTranspose_eq_transpose_of_trivial] at this
    simp only [Real.sq_sqrt (hC.eigenvalues_nonneg _)]
    exact this

/-- The squared norm is invariant under orthogonal maps. -/
theorem sum_sq_orthogonal {D : ℕ} {U : Matrix (Fin D) (Fin D) ℝ} (hU : U * Uᵀ = 1) (v : Fin D → ℝ) :
    ∑ i, (Uᵀ *ᵥ v) i ^ 2 = ∑ i, v i ^ 2 := by
  have h : ∀ w : Fin D → ℝ, ∑ i, w i ^ 2 = w ⬝ᵥ w := fun w => Finset.sum_congr rfl fun i _ => pow_two _
  rw [h, h, dotProduct_mulVec, vecMul_transpose, mulVec_mulVec, hU, one_mulVec]

/-- Expectation of the kernel under a normal distribution. -/
theorem gauss_integral {D : ℕ} {Ω : Type*} {mΩ : MeasurableSpace Ω} {P : Measure Ω} {X : Ω → Fin D → ℝ} {m : Fin D → ℝ}
    {C : Matrix (Fin D) (Fin D) ℝ} (hX : IsNormal P X m C) {l : ℝ} (hl : 0 < l) (x : Fin D → ℝ) :
    ∫ ω, Real.exp (-(∑ i, (X ω i - x i) ^ 2) / (2 * l ^ 2)) ∂P =
      l ^ D / Real.sqrt (l ^ 2 • (1 : Matrix (Fin D) (Fin D) ℝ) + C).det *
        Real.exp (-(1 / 2) * ((x - m) ⬝ᵥ ((l ^ 2 • (1 : Matrix (Fin D) (Fin D) ℝ) + C)⁻¹ *ᵥ (x - m)))) := by
  obtain ⟨U, s, hU, hU', hC⟩ := exists_orthogonal hX.posSemidef
  have hpos : ∀ i, 0 < l ^ 2 + s i ^ 2 := fun i => by positivity
  -- the random vector in the new coordinates
  have hY := hX.affine Uᵀ (-(Uᵀ *ᵥ x))
  have hcov : Uᵀ * C * Uᵀᵀ = diagonal (fun i => s i ^ 2) := by
    rw [hC, transpose_transpose]
    calc Uᵀ * (U * diagonal (fun i => s i ^ 2) * Uᵀ) * U = (Uᵀ * U) * diagonal (fun i => s i ^ 2) * (Uᵀ * U) := by
          simp only [Matrix.mul_assoc]
      _ = _ := by rw [hU', Matrix.one_mul, Matrix.mul_one]
  have hmean : Uᵀ *ᵥ m + -(Uᵀ *ᵥ x) = Uᵀ *ᵥ (m - x) := by rw [mulVec_sub, sub_eq_add_neg]
  rw [hcov, hmean] at hY
  generalize hc : Uᵀ *ᵥ (m - x) = c at hY
  have hZ := (std_isNormal (Fin D)).affine (diagonal s) c
  rw [mulVec_zero, zero_add, Matrix.mul_one, diagonal_transpose, diagonal_mul_diagonal] at hZ
  simp only [← pow_two] at hZ
  have hlaw := hY.law_unique hZ
  have hf : Continuous fun y : Fin D → ℝ => Real.exp (-(∑ i, y i ^ 2) / (2 * l ^ 2)) := by fun_prop
  have e1 : ∀ ω, Real.exp (-(∑ i, (X ω i - x i) ^ 2) / (2 * l ^ 2)) =
      (fun y : Fin D → ℝ => Real.exp (-(∑ i, y i ^ 2) / (2 * l ^ 2))) (Uᵀ *ᵥ X ω + -(Uᵀ *ᵥ x)) := by
    intro ω
    show _ = Real.exp (-(∑ i, (Uᵀ *ᵥ X ω + -(Uᵀ *ᵥ x)) i ^ 2) / (2 * l ^ 2))
    rw [← sub_eq_add_neg, ← mulVec_sub, sum_sq_orthogonal hU]
    rfl
  simp only [e1]
  rw [← integral_map hY.gaussian.aemeasurable hf.aestronglyMeasurable, hlaw,
    integral_map hZ.gaussian.aemeasurable hf.aestronglyMeasurable]
  have e2 : ∀ z : Fin D → ℝ, Real.exp (-(∑ i, (diagonal s *ᵥ z + c) i ^ 2) / (2 * l ^ 2)) =
      ∏ i, Real.exp (-(c i + s i * z i) ^ 2 / (2 * l ^ 2)) := by
    intro z
    rw [← Real.exp_sum, ← Finset.sum_div, ← Finset.sum_neg_distrib]
    congr 3
    funext i
    rw [Pi.add_apply, mulVec_diagonal, add_comm]
  simp only [e2]
  rw [integral_fintype_prod_eq_prod (fun i z => Real.exp (-(c i + s i * z) ^ 2 / (2 * l ^ 2)))]
  simp only [gauss_integral_one hl]
  -- determinant and quadratic form
  have hA : l ^ 2 • (1 : Matrix (Fin D) (Fin D) ℝ) + C = U * diagonal (fun i => l ^ 2 + s i ^ 2) * Uᵀ := by
    have : diagonal (fun i => l ^ 2 + s i ^ 2) = l ^ 2 • (1 : Matrix (Fin D) (Fin D) ℝ) + diagonal (fun i => s i ^ 2) := by
      rw [smul_one_eq_diagonal, diagonal_add]
    rw [this, Matrix.mul_add, Matrix.add_mul, ← hC]
    simp [hU]
  have hdet : (l ^ 2 • (1 : Matrix (Fin D) (Fin D) ℝ) + C).det = ∏ i, (l ^ 2 + s i ^ 2) := by
    rw [hA, det_mul, det_mul, det_diagonal, mul_right_comm, ← det_mul, hU, det_one, one_mul]
  have hinv : (l ^ 2 • (1 : Matrix (Fin D) (Fin D) ℝ) + C)⁻¹ = U * diagonal (fun i => (l ^ 2 + s i ^ 2)⁻¹) * Uᵀ := by
    refine inv_eq_right_inv ?_
    rw [hA]
    calc U * diagonal (fun i => l ^ 2 + s i ^ 2) * Uᵀ * (U * diagonal (fun i => (l ^ 2 + s i ^ 2)⁻¹) * Uᵀ)
        = U * diagonal (fun i => l ^ 2 + s i ^ 2) * (Uᵀ * U) * (diagonal (fun i => (l ^ 2 + s i ^ 2)⁻¹) * Uᵀ) := by
          simp only [Matrix.mul_assoc]
      _ = U * (diagonal (fun i => l ^ 2 + s i ^ 2) * diagonal (fun i => (l ^ 2 + s i ^ 2)⁻¹)) * Uᵀ := by
          rw [hU', Matrix.mul_one]; simp only [Matrix.mul_assoc]
      _ = 1 := by
          rw [diagonal_mul_diagonal]
          simp only [mul_inv_cancel₀ (hpos _).ne', diagonal_one, Matrix.mul_one, hU]
  rw [hdet, hinv, Finset.prod_mul_distrib, Finset.prod_div_distrib, Finset.prod_const, Finset.card_univ, Fintype.card_fin,
    Real.sqrt_prod _ (fun i _ => (hpos i).le), ← Real.exp_sum]
  congr 2
  have hq : (x - m) ⬝ᵥ ((U * diagonal (fun i => (l ^ 2 + s i ^ 2)⁻¹) * Uᵀ) *ᵥ (x - m)) = ∑ i, c i ^ 2 / (l ^ 2 + s i ^ 2) := by
    have hx : Uᵀ *ᵥ (x - m) = -c := by rw [← hc, ← mulVec_neg, neg_sub]
    rw [← mulVec_mulVec, ← mulVec_mulVec, hx, dotProduct_mulVec, ← mulVec_transpose, hx]
    simp only [dotProduct, mulVec_diagonal, Pi.neg_apply]
    refine Finset.sum_congr rfl fun i _ => ?_
    have := (hpos i).ne'
    field_simp
  rw [hq, Finset.mul_sum]
  refine Finset.sum_congr rfl fun i _ => ?_
  have := (hpos i).ne'
  field_simp

end Probnum.Quad
