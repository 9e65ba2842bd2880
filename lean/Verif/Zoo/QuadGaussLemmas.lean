import Verif.Zoo.QuadLemmas
import Verif.Quad.ExpQuadLemmas
import Mathlib.MeasureTheory.Function.JacobianOneDim
import Mathlib.MeasureTheory.Integral.Gamma
import Mathlib.Probability.CDF
import Mathlib.Analysis.SpecialFunctions.Gaussian.GaussianIntegral
import Mathlib.Data.Nat.Factorial.DoubleFactorial

/-!
# Lemmas: the normal distribution function, and moments of the normal distribution
-/

namespace Probnum.Zoo

open MeasureTheory Set ProbabilityTheory Matrix
open scoped Nat

theorem pdf_eq (t : ℝ) : gaussianPDFReal 0 1 t = (Real.sqrt (2 * Real.pi))⁻¹ * Real.exp (-t ^ 2 / 2) := by
  simp [gaussianPDFReal]

theorem normCdf_eq_cdf (x : ℝ) : normCdf x = cdf (gaussianReal 0 1) x := by
  rw [cdf_eq_real, Measure.real, gaussianReal_apply_eq_integral 0 (by norm_num), ENNReal.toReal_ofReal, normCdf]
  · simp only [pdf_eq]
  · exact setIntegral_nonneg measurableSet_Iic fun t _ => gaussianPDFReal_nonneg _ _ _

theorem normCdf_strictMono : StrictMono normCdf := by
  refine strictMono_of_deriv_pos fun x => ?_
  rw [(normCdf_hasDerivAt x).deriv]
  positivity

theorem normCdf_continuous : Continuous normCdf :=
  continuous_iff_continuousAt.2 fun x => (normCdf_hasDerivAt x).continuousAt

theorem normCdf_mem (x : ℝ) : normCdf x ∈ Ioo (0 : ℝ) 1 := by
  have h : normCdf = cdf (gaussianReal 0 1) := funext normCdf_eq_cdf
  constructor
  · refine lt_of_le_of_lt ?_ (normCdf_strictMono (sub_one_lt x))
    rw [h]; exact cdf_nonneg _ _
  · refine lt_of_lt_of_le (normCdf_strictMono (lt_add_one x)) ?_
    rw [h]; exact cdf_le_one _ _

theorem range_normCdf : range normCdf = Ioo 0 1 := by
  have h : normCdf = cdf (gaussianReal 0 1) := funext normCdf_eq_cdf
  refine Subset.antisymm (fun y ⟨x, hx⟩ => hx ▸ normCdf_mem x) fun y hy => ?_
  have h1 := (h ▸ tendsto_cdf_atBot (gaussianReal 0 1)).eventually (gt_mem_nhds hy.1)
  have h2 := (h ▸ tendsto_cdf_atTop (gaussianReal 0 1)).eventually (lt_mem_nhds hy.2)
  obtain ⟨a, ha⟩ := h1.exists
  obtain ⟨b, hb⟩ := h2.exists
  exact mem_range_of_exists_le_of_exists_ge normCdf_continuous ⟨a, ha.le⟩ ⟨b, hb.le⟩

/-- The distribution function maps the normal distribution to the uniform distribution. -/
theorem map_normCdf : (gaussianReal 0 1).map normCdf = (volume : Measure ℝ).restrict (Icc 0 1) := by
  ext A hA
  rw [Measure.map_apply normCdf_continuous.measurable hA, gaussianReal_apply 0 (by norm_num), restrict_apply_Ioo hA]
  have h := lintegral_image_eq_lintegral_abs_deriv_mul MeasurableSet.univ
    (fun x _ => (normCdf_hasDerivAt x).hasDerivWithinAt) normCdf_strictMono.injective.injOn (A.indicator 1)
  rw [image_univ, range_normCdf, lintegral_indicator_one hA, Measure.restrict_apply hA, Measure.restrict_univ] at h
  rw [h, ← lintegral_indicator (normCdf_continuous.measurable hA)]
  refine lintegral_congr fun x => ?_
  by_cases hx : normCdf x ∈ A
  · rw [indicator_of_mem (show x ∈ normCdf ⁻¹' A from hx), indicator_of_mem hx, gaussianPDF, pdf_eq, abs_of_nonneg (by positivity)]
    simp
  · rw [indicator_of_notMem (show x ∉ normCdf ⁻¹' A from hx), indicator_of_notMem hx, mul_zero]
where
  restrict_apply_Ioo {A : Set ℝ} (hA : MeasurableSet A) :
      (volume : Measure ℝ).restrict (Icc 0 1) A = volume (A ∩ Ioo 0 1) := by
    rw [Measure.restrict_congr_set (Ioo_ae_eq_Icc (a := (0 : ℝ)) (b := 1)).symm, Measure.restrict_apply hA]

/-- A normal vector with independent entries, transformed by the distribution functions, is uniform on the unit cube. -/
theorem map_cdf_vector {d : ℕ} {Ω : Type*} {mΩ : MeasurableSpace Ω} {P : Measure Ω} {X : Ω → Fin d → ℝ} {m s : Fin d → ℝ}
    (hX : Gauss.IsNormal P X m (diagonal fun i => s i ^ 2)) (hs : ∀ i, 0 < s i) :
    AEMeasurable (fun ω i => normCdf ((X ω i - m i) / s i)) P ∧
    P.map (fun ω i => normCdf ((X ω i - m i) / s i)) = (volume : Measure (Fin d → ℝ)).restrict (Icc 0 1) := by
  have hY := hX.affine (diagonal fun i => (s i)⁻¹) (-(diagonal (fun i => (s i)⁻¹) *ᵥ m))
  have hc : diagonal (fun i => (s i)⁻¹) * diagonal (fun i => s i ^ 2) * (diagonal fun i => (s i)⁻¹)ᵀ =
      (1 : Matrix (Fin d) (Fin d) ℝ) := by
    rw [diagonal_transpose, diagonal_mul_diagonal, diagonal_mul_diagonal, ← diagonal_one]
    congr 1
    funext i
    have := (hs i).ne'
    field_simp
  rw [hc, add_neg_cancel] at hY
  have e : ∀ ω, (fun i => normCdf ((X ω i - m i) / s i)) =
      (fun z : Fin d → ℝ => fun i => normCdf (z i))
        (diagonal (fun i => (s i)⁻¹) *ᵥ X ω + -(diagonal (fun i => (s i)⁻¹) *ᵥ m)) := by
    intro ω
    funext i
    simp only [Pi.add_apply, Pi.neg_apply, mulVec_diagonal]
    congr 1
    ring
  have hm : Measurable fun z : Fin d → ℝ => fun i => normCdf (z i) :=
    measurable_pi_lambda _ fun i => normCdf_continuous.measurable.comp (measurable_pi_apply i)
  rw [show (fun ω i => normCdf ((X ω i - m i) / s i)) = _ from funext e]
  refine ⟨hm.comp_aemeasurable hY.gaussian.aemeasurable, ?_⟩
  have hlaw := hY.law_unique (Gauss.std_isNormal (Fin d))
  rw [Measure.map_id'] at hlaw
  have h1 := AEMeasurable.map_map_of_aemeasurable (g := fun z : Fin d → ℝ => fun i => normCdf (z i)) hm.aemeasurable
    hY.gaussian.aemeasurable
  refine h1.symm.trans ?_
  rw [hlaw]
  have hpi := Measure.pi_map_pi (μ := fun _ : Fin d => gaussianReal 0 1) (f := fun _ => normCdf)
    (hμ := fun i => by rw [map_normCdf]; infer_instance) (fun i => normCdf_continuous.aemeasurable)
  rw [hpi]
  simp only [map_normCdf]
  rw [← Measure.restrict_pi_pi, volume_pi]
  congr 1
  ext x
  simp [Pi.le_def, mem_pi, forall_and]

/-! ## Moments -/

theorem integrable_pow_gaussian (n : ℕ) : Integrable (fun z : ℝ => z ^ n) (gaussianReal 0 1) := by
  rcases Nat.eq_zero_or_pos n with rfl | hn
  · simp
  · have h := (memLp_id_gaussianReal (μ := 0) (v := 1) (n : NNReal)).integrable_norm_pow hn.ne'
    refine h.mono (by fun_prop) (Filter.Eventually.of_forall fun z => ?_)
    simp

theorem gaussian_moment_odd {n : ℕ} (hn : Odd n) : ∫ z, z ^ n ∂(gaussianReal 0 1) = 0 := by
  have h : ∫ z, z ^ n ∂(gaussianReal 0 1) = ∫ z, (-z) ^ n ∂(gaussianReal 0 1) := by
    have hm : (gaussianReal 0 1).map (fun x => -x) = gaussianReal 0 1 := by
      have := gaussianReal_map_neg (μ := 0) (v := 1)
      rwa [neg_zero] at this
    conv_lhs => rw [← hm]
    rw [integral_map (by fun_prop) (by fun_prop)]
  simp only [hn.neg_pow, integral_neg] at h
  linarith

theorem gaussian_moment_even (k : ℕ) : ∫ z, z ^ (2 * k) ∂(gaussianReal 0 1) = ((2 * k - 1)‼ : ℝ) := by
  rw [integral_gaussianReal_eq_integral_smul (by norm_num)]
  have e : ∀ z : ℝ, gaussianPDFReal 0 1 z • z ^ (2 * k) =
      (fun t : ℝ => (Real.sqrt (2 * Real.pi))⁻¹ * (t ^ ((2 * k : ℕ) : ℝ) * Real.exp (-(1 / 2) * t ^ (2 : ℝ)))) |z| := by
    intro z
    simp only
    rw [pdf_eq, smul_eq_mul, Real.rpow_natCast, Real.rpow_two, sq_abs, pow_mul, pow_mul, sq_abs, mul_assoc]
    congr 1
    rw [mul_comm]
    congr 2
    ring
  rw [integral_congr_ae (Filter.Eventually.of_forall e),
    integral_comp_abs (f := fun t : ℝ => (Real.sqrt (2 * Real.pi))⁻¹ * (t ^ ((2 * k : ℕ) : ℝ) * Real.exp (-(1 / 2) * t ^ (2 : ℝ)))),
    integral_const_mul, integral_rpow_mul_exp_neg_mul_rpow (by norm_num)
    (by have : (0 : ℝ) ≤ ((2 * k : ℕ) : ℝ) := Nat.cast_nonneg _
        linarith) (by norm_num)]
  have h1 : (((2 * k : ℕ) : ℝ) + 1) / 2 = k + 1 / 2 := by push_cast; ring
  have h2 : -(((2 * k : ℕ) : ℝ) + 1) / 2 = -(k + 1 / 2 : ℝ) := by push_cast; ring
  rw [h1, h2, Real.Gamma_nat_add_half]
  have h3 : (1 / 2 : ℝ) ^ (-(k + 1 / 2 : ℝ)) = 2 ^ k * Real.sqrt 2 := by
    rw [one_div, Real.inv_rpow (by norm_num), Real.rpow_neg (by norm_num), inv_inv, Real.rpow_add (by norm_num),
      Real.rpow_natCast, Real.sqrt_eq_rpow, one_div]
  rw [h3, Real.sqrt_mul (by norm_num)]
  have a1 : Real.sqrt 2 ≠ 0 := by positivity
  have a2 : Real.sqrt Real.pi ≠ 0 := by positivity
  field_simp

/-- The expectation of a monomial in a normal vector with independent entries. -/
theorem gaussian_monomial {d : ℕ} {Ω : Type*} {mΩ : MeasurableSpace Ω} {P : Measure Ω} {X : Ω → Fin d → ℝ} {σ : ℝ}
    (hX : Gauss.IsNormal P X 0 (σ ^ 2 • (1 : Matrix (Fin d) (Fin d) ℝ))) (a : Fin d → ℝ) (b : Fin d → ℕ) :
    Integrable (fun ω => ∏ i, a i * X ω i ^ b i) P ∧
    ∫ ω, ∏ i, a i * X ω i ^ b i ∂P = ∏ i, a i * (σ ^ b i * ∫ z, z ^ b i ∂(gaussianReal 0 1)) := by
  have hZ := (Gauss.std_isNormal (Fin d)).affine (σ • (1 : Matrix (Fin d) (Fin d) ℝ)) 0
  rw [mulVec_zero, zero_add, Matrix.mul_one, transpose_smul, transpose_one, Matrix.smul_mul, Matrix.one_mul, smul_smul, ← pow_two] at hZ
  have hlaw := hX.law_unique hZ
  have hf : Continuous fun y : Fin d → ℝ => ∏ i, a i * y i ^ b i := by fun_prop
  have e : ∀ z : Fin d → ℝ, (fun y : Fin d → ℝ => ∏ i, a i * y i ^ b i) ((σ • (1 : Matrix (Fin d) (Fin d) ℝ)) *ᵥ z + 0) =
      ∏ i, (a i * σ ^ b i) * z i ^ b i := by
    intro z
    simp only [add_zero, smul_mulVec, one_mulVec, Pi.smul_apply, smul_eq_mul]
    exact Finset.prod_congr rfl fun i _ => by rw [mul_pow]; ring
  have hint : Integrable (fun z : Fin d → ℝ => ∏ i, (a i * σ ^ b i) * z i ^ b i) (Measure.pi fun _ => gaussianReal 0 1) :=
    Integrable.fintype_prod (f := fun i (z : ℝ) => (a i * σ ^ b i) * z ^ b i) fun i => (integrable_pow_gaussian (b i)).const_mul _
  constructor
  · have h1 : Integrable (fun y : Fin d → ℝ => ∏ i, a i * y i ^ b i) (P.map X) := by
      rw [hlaw, integrable_map_measure hf.aestronglyMeasurable hZ.gaussian.aemeasurable]
      exact hint.congr (Filter.Eventually.of_forall fun z => (e z).symm)
    exact (integrable_map_measure hf.aestronglyMeasurable hX.gaussian.aemeasurable).1 h1
  · have h1 := integral_map hX.gaussian.aemeasurable (f := fun y : Fin d → ℝ => ∏ i, a i * y i ^ b i) hf.aestronglyMeasurable
    rw [← h1, hlaw, integral_map hZ.gaussian.aemeasurable hf.aestronglyMeasurable]
    simp only [e]
    rw [integral_fintype_prod_eq_prod (fun i (z : ℝ) => (a i * σ ^ b i) * z ^ b i)]
    exact Finset.prod_congr rfl fun i _ => by rw [integral_const_mul]; ring

end Probnum.Zoo
