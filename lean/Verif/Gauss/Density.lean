import Verif.Gauss.Lemmas
import Verif.Quad.PropsExpQuad
import Mathlib.MeasureTheory.Integral.Pi
import Mathlib.MeasureTheory.Measure.Lebesgue.Basic

/-! # The density of a normal vector

`normalPdf m C` is the formula of the density of `N(m, C)`; `IsNormal.density` shows that a vector with the distribution
`N(m, C)`, for a positive definite `C`, has this density with respect to the Lebesgue measure. -/

namespace Probnum.Gauss

open MeasureTheory ProbabilityTheory Matrix

/-- The density of `N(m, C)`: `exp(-(x - m)ᵀ C⁻¹ (x - m) / 2) / √((2π)ⁿ det C)`. -/
noncomputable def normalPdf {n : ℕ} (m : Fin n → ℝ) (C : Matrix (Fin n) (Fin n) ℝ) (x : Fin n → ℝ) : ℝ :=
  (Real.sqrt ((2 * Real.pi) ^ n * C.det))⁻¹ * Real.exp (-((x - m) ⬝ᵥ C⁻¹ *ᵥ (x - m)) / 2)

theorem pi_gaussian (n : ℕ) : Measure.pi (fun _ : Fin n => gaussianReal 0 1) =
    (volume : Measure (Fin n → ℝ)).withDensity fun x => ENNReal.ofReal (∏ i, gaussianPDFReal 0 1 (x i)) := by
  symm
  refine (Measure.pi_eq fun s hs => ?_).symm
  rw [withDensity_apply _ (MeasurableSet.univ_pi hs), ← lintegral_indicator (MeasurableSet.univ_pi hs)]
  have e : ∀ x : Fin n → ℝ, (Set.univ.pi s).indicator (fun x : Fin n → ℝ => ENNReal.ofReal (∏ i, gaussianPDFReal 0 1 (x i))) x =
      ENNReal.ofReal (∏ i, (s i).indicator (gaussianPDFReal 0 1) (x i)) := by
    intro x
    by_cases hx : x ∈ Set.univ.pi s
    · rw [Set.indicator_of_mem hx]
      congr 1
      exact Finset.prod_congr rfl fun i _ => by rw [Set.indicator_of_mem (hx i trivial)]
    · rw [Set.indicator_of_notMem hx]
      obtain ⟨i, hi⟩ : ∃ i, x i ∉ s i := by
        by_contra h
        push Not at h
        exact hx fun i _ => h i
      rw [Finset.prod_eq_zero (Finset.mem_univ i) (Set.indicator_of_notMem hi _), ENNReal.ofReal_zero]
  simp only [e]
  have hint : ∀ i, Integrable ((s i).indicator (gaussianPDFReal 0 1)) :=
    fun i => (integrable_gaussianPDFReal 0 1).indicator (hs i)
  have hnn : ∀ i x, 0 ≤ (s i).indicator (gaussianPDFReal 0 1) x :=
    fun i x => Set.indicator_nonneg (fun _ _ => gaussianPDFReal_nonneg _ _ _) x
  rw [volume_pi, ← ofReal_integral_eq_lintegral_ofReal (Integrable.fintype_prod hint)
    (.of_forall fun x => Finset.prod_nonneg fun i _ => hnn i _),
    ← volume_pi, integral_fintype_prod_volume_eq_prod (fun i => (s i).indicator (gaussianPDFReal 0 1)),
    ENNReal.ofReal_prod_of_nonneg fun i _ => integral_nonneg (hnn i)]
  refine Finset.prod_congr rfl fun i _ => ?_
  rw [gaussianReal_of_var_ne_zero _ one_ne_zero, withDensity_apply _ (hs i), ← lintegral_indicator (hs i),
    ofReal_integral_eq_lintegral_ofReal (hint i) (.of_forall (hnn i))]
  refine lintegral_congr fun x => ?_
  by_cases hx : x ∈ s i
  · rw [Set.indicator_of_mem hx, Set.indicator_of_mem hx]; rfl
  · rw [Set.indicator_of_notMem hx, Set.indicator_of_notMem hx, ENNReal.ofReal_zero]

theorem prod_pdf {n : ℕ} (x : Fin n → ℝ) :
    ∏ i, gaussianPDFReal 0 1 (x i) = (Real.sqrt ((2 * Real.pi) ^ n))⁻¹ * Real.exp (-(x ⬝ᵥ x) / 2) := by
  simp only [gaussianPDFReal, NNReal.coe_one, mul_one, sub_zero]
  rw [Finset.prod_mul_distrib, Finset.prod_const, ← Real.exp_sum, Finset.card_univ, Fintype.card_fin, inv_pow]
  congr 2
  · rw [eq_comm, Real.sqrt_eq_iff_mul_self_eq (by positivity) (by positivity), ← mul_pow, Real.mul_self_sqrt (by positivity)]
  · rw [← Finset.sum_div, Finset.sum_neg_distrib]
    simp [dotProduct, pow_two]

/-- A vector with the distribution `N(m, C)` and a positive definite `C` has the density `normalPdf m C`. -/
theorem IsNormal.density {Ω : Type*} {mΩ : MeasurableSpace Ω} {P : Measure Ω} {n : ℕ} {Y : Ω → Fin n → ℝ} {m : Fin n → ℝ}
    {C : Matrix (Fin n) (Fin n) ℝ} (h : IsNormal P Y m C) (hC : C.PosDef) :
    P.map Y = (volume : Measure (Fin n → ℝ)).withDensity fun x => ENNReal.ofReal (normalPdf m C x) := by
  obtain ⟨A, hA⟩ : ∃ A : Matrix (Fin n) (Fin n) ℝ, A * Aᵀ = C := by
    obtain ⟨L, _, _, hL⟩ := Quad.exists_cholesky hC
    exact ⟨L, hL⟩
  have hdet : A.det * A.det = C.det := by rw [← hA, det_mul, det_transpose]
  have hpos : 0 < C.det := hC.det_pos
  have hA0 : A.det ≠ 0 := fun e => by rw [e] at hdet; simp at hdet; exact hpos.ne hdet
  have hunit : IsUnit A.det := hA0.isUnit
  have hZ := (std_isNormal (Fin n)).affine A m
  rw [mul_one, mulVec_zero, zero_add, hA] at hZ
  rw [h.law_unique hZ, pi_gaussian]
  set φ : (Fin n → ℝ) → Fin n → ℝ := fun x => A *ᵥ x + m with hφ
  have hφm : Measurable φ := by
    rw [hφ]
    exact (Continuous.add (Continuous.matrix_mulVec continuous_const continuous_id) continuous_const).measurable
  have hvol : (volume : Measure (Fin n → ℝ)).map φ = ENNReal.ofReal |A.det⁻¹| • volume := by
    have e1 : φ = (fun x => x + m) ∘ (toLin' A) := by funext x; simp [hφ]
    have hl : Measurable (toLin' A) := by
      have : (toLin' A : (Fin n → ℝ) → Fin n → ℝ) = fun x => A *ᵥ x := by funext x; simp
      rw [this]
      exact (Continuous.matrix_mulVec continuous_const continuous_id).measurable
    rw [e1, ← Measure.map_map (measurable_add_const m) hl, Real.map_matrix_volume_pi_eq_smul_volume_pi hA0,
      Measure.map_smul, map_add_right_eq_self]
  ext s hs
  rw [Measure.map_apply hφm hs, withDensity_apply _ (hφm hs), withDensity_apply _ hs]
  have key : ∀ x : Fin n → ℝ, ENNReal.ofReal (∏ i, gaussianPDFReal 0 1 (x i)) =
      ENNReal.ofReal (|A.det| * normalPdf m C (φ x)) := by
    intro x
    congr 1
    rw [prod_pdf, normalPdf]
    have e2 : φ x - m = A *ᵥ x := by simp [hφ]
    have e3 : A *ᵥ x ⬝ᵥ C⁻¹ *ᵥ A *ᵥ x = x ⬝ᵥ x := by
      rw [← hA, Matrix.mul_inv_rev, ← transpose_nonsing_inv, mulVec_mulVec, Matrix.mul_assoc,
        Matrix.nonsing_inv_mul _ hunit, Matrix.mul_one, mulVec_transpose, dotProduct_comm, ← dotProduct_mulVec, mulVec_mulVec,
        Matrix.nonsing_inv_mul _ hunit, one_mulVec]
    rw [e2, e3, Real.sqrt_mul (by positivity), ← hdet, Real.sqrt_mul_self_eq_abs, mul_inv]
    have : |A.det| ≠ 0 := abs_ne_zero.2 hA0
    field_simp
  have hmeas : Measurable fun x => ENNReal.ofReal (normalPdf m C x) := by
    refine ENNReal.measurable_ofReal.comp ?_
    unfold normalPdf
    refine Measurable.const_mul (Real.measurable_exp.comp ?_) _
    refine Continuous.measurable ?_
    have : Continuous fun x : Fin n → ℝ => x - m := by fun_prop
    exact ((this.dotProduct (Continuous.matrix_mulVec continuous_const this)).neg).div_const 2
  have k1 : ∫⁻ x in φ ⁻¹' s, ENNReal.ofReal (∏ i, gaussianPDFReal 0 1 (x i)) =
      ∫⁻ y in s, ENNReal.ofReal |A.det| * ENNReal.ofReal (normalPdf m C y) ∂((volume : Measure (Fin n → ℝ)).map φ) := by
    rw [setLIntegral_map hs (hmeas.const_mul _) hφm]
    refine lintegral_congr fun x => ?_
    rw [key, ENNReal.ofReal_mul (abs_nonneg _)]
  rw [k1, hvol, Measure.restrict_smul, lintegral_smul_measure, lintegral_const_mul _ hmeas, smul_eq_mul, ← mul_assoc,
    ← ENNReal.ofReal_mul (abs_nonneg _), ← abs_mul, inv_mul_cancel₀ hA0, abs_one, ENNReal.ofReal_one, one_mul]

end Probnum.Gauss
