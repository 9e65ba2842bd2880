import Verif.Cov.MaternIntegral

/-!
# The Matérn covariance functions are scale mixtures of exponentiated quadratics, for every smoothness

`maternDoc ν u = 1/Γ(ν) ∫₀^∞ t^(ν-1) exp(-t - u²/(4t)) dt`, and for half-integer `ν` it is the closed form in the code.
-/

namespace Probnum.Cov

open MeasureTheory Set Filter Topology

/-- `t^(ν-1) exp(-t - u²/(4t))`. -/
noncomputable def mixG (ν u t : ℝ) : ℝ := t ^ (ν - 1) * Real.exp (-t - u ^ 2 / (4 * t))

theorem mixG_nonneg (ν u : ℝ) {t : ℝ} (ht : 0 < t) : 0 ≤ mixG ν u t := by
  unfold mixG
  positivity

theorem integrable_mixG {ν : ℝ} (hν : 0 < ν) (u : ℝ) : IntegrableOn (mixG ν u) (Ioi 0) := by
  refine (Real.GammaIntegral_convergent hν).mono' ?_ ?_
  · have : Measurable (mixG ν u) := by unfold mixG; fun_prop
    exact this.aestronglyMeasurable
  · refine (ae_restrict_mem measurableSet_Ioi).mono fun t ht => ?_
    have ht' : (0 : ℝ) < t := ht
    rw [Real.norm_eq_abs, abs_of_nonneg (mixG_nonneg ν u ht'), mixG, mul_comm]
    refine mul_le_mul_of_nonneg_right ?_ (Real.rpow_nonneg ht'.le _)
    rw [Real.exp_le_exp]
    have : 0 ≤ u ^ 2 / (4 * t) := by positivity
    linarith

theorem integral_mixG_zero (ν : ℝ) : ∫ t in Ioi (0 : ℝ), mixG ν 0 t = Real.Gamma ν ∨ ν ≤ 0 := by
  by_cases h : ν ≤ 0
  · exact Or.inr h
  left
  rw [Real.Gamma_eq_integral (not_le.mp h)]
  refine setIntegral_congr_fun measurableSet_Ioi fun t _ => ?_
  simp [mixG, mul_comm]

/-- `exp(-z cosh t + ν t)`. -/
noncomputable def besF (ν z t : ℝ) : ℝ := Real.exp (-(z * Real.cosh t) + ν * t)

theorem bes_subst {z : ℝ} (hz : 0 < z) (ν t : ℝ) :
    |z / 2 * Real.exp t| • mixG ν z (z / 2 * Real.exp t) = (z / 2) ^ ν * besF ν z t := by
  have hp : 0 < z / 2 * Real.exp t := by positivity
  have e1 : (z / 2 * Real.exp t) * (z / 2 * Real.exp t) ^ (ν - 1) = (z / 2) ^ ν * Real.exp (ν * t) := by
    rw [Real.rpow_sub_one hp.ne', mul_div_cancel₀ _ hp.ne', Real.mul_rpow (by positivity) (Real.exp_pos t).le, ← Real.exp_mul,
      mul_comm t ν]
  have e2 : -(z / 2 * Real.exp t) - z ^ 2 / (4 * (z / 2 * Real.exp t)) = -(z * Real.cosh t) := by
    rw [Real.cosh_eq, Real.exp_neg]
    have := Real.exp_pos t
    field_simp
    ring
  rw [abs_of_pos hp, smul_eq_mul, mixG, e2, ← mul_assoc, e1, besF, Real.exp_add]
  ring

theorem bes_image {z : ℝ} (hz : 0 < z) : (fun t : ℝ => z / 2 * Real.exp t) '' univ = Ioi 0 := by
  ext s
  constructor
  · rintro ⟨t, _, rfl⟩
    have := Real.exp_pos t
    show 0 < z / 2 * Real.exp t
    positivity
  · intro hs
    have hs' : (0 : ℝ) < s := hs
    refine ⟨Real.log (s / (z / 2)), trivial, ?_⟩
    show z / 2 * Real.exp (Real.log (s / (z / 2))) = s
    rw [Real.exp_log (by positivity)]
    field_simp

theorem bes_deriv (z : ℝ) : ∀ t ∈ (univ : Set ℝ), HasDerivWithinAt (fun t : ℝ => z / 2 * Real.exp t) (z / 2 * Real.exp t) univ t :=
  fun t _ => ((Real.hasDerivAt_exp t).const_mul (z / 2)).hasDerivWithinAt

theorem bes_inj {z : ℝ} (hz : 0 < z) : InjOn (fun t : ℝ => z / 2 * Real.exp t) univ := by
  intro s _ t _ h
  have h' : z / 2 * Real.exp s = z / 2 * Real.exp t := h
  exact Real.exp_injective (mul_left_cancel₀ (by positivity) h')

theorem integrable_besF {ν z : ℝ} (hν : 0 < ν) (hz : 0 < z) : Integrable (besF ν z) := by
  have h := integrable_mixG hν z
  rw [← bes_image hz, integrableOn_image_iff_integrableOn_abs_deriv_smul MeasurableSet.univ (bes_deriv z) (bes_inj hz)] at h
  rw [integrableOn_univ] at h
  have hc : (z / 2) ^ ν ≠ 0 := (Real.rpow_pos_of_pos (by positivity) ν).ne'
  have h2 := h.const_mul ((z / 2) ^ ν)⁻¹
  refine h2.congr (ae_of_all _ fun t => ?_)
  beta_reduce
  rw [bes_subst hz, inv_mul_cancel_left₀ hc]

theorem integral_mixG {ν z : ℝ} (hz : 0 < z) : ∫ t in Ioi (0 : ℝ), mixG ν z t = (z / 2) ^ ν * ∫ t, besF ν z t := by
  rw [← bes_image hz, integral_image_eq_integral_abs_deriv_smul MeasurableSet.univ (bes_deriv z) (bes_inj hz), setIntegral_univ,
    ← integral_const_mul]
  exact integral_congr_ae (ae_of_all _ fun t => bes_subst hz ν t)

theorem besselK_eq {ν z : ℝ} (hν : 0 < ν) (hz : 0 < z) : besselK ν z = (∫ t, besF ν z t) / 2 := by
  have hF := integrable_besF hν hz
  have hneg : IntegrableOn (fun t => besF ν z (-t)) (Ioi 0) := (hF.comp_neg).integrableOn
  have e1 : ∫ t in Ioi (0 : ℝ), besF ν z (-t) = ∫ t in Iic (0 : ℝ), besF ν z t := by
    rw [integral_comp_neg_Ioi, neg_zero]
  have e2 : ∫ t, besF ν z t = (∫ t in Iic (0 : ℝ), besF ν z t) + ∫ t in Ioi (0 : ℝ), besF ν z t :=
    (intervalIntegral.integral_Iic_add_Ioi hF.integrableOn hF.integrableOn).symm
  rw [e2, ← e1, ← integral_add hneg hF.integrableOn, besselK, ← integral_div]
  refine setIntegral_congr_fun measurableSet_Ioi fun t _ => ?_
  show Real.exp (-(z * Real.cosh t)) * Real.cosh (ν * t) = (besF ν z (-t) + besF ν z t) / 2
  rw [besF, besF, Real.cosh_neg, Real.cosh_eq (ν * t), Real.exp_add, Real.exp_add, show ν * -t = -(ν * t) by ring]
  ring

theorem maternDoc_mixture {ν u : ℝ} (hν : 0 < ν) (hu : 0 ≤ u) :
    maternDoc ν u = (Real.Gamma ν)⁻¹ * ∫ t in Ioi (0 : ℝ), mixG ν u t := by
  have hG := Real.Gamma_pos_of_pos hν
  rcases hu.eq_or_lt with rfl | hu
  · rcases integral_mixG_zero ν with h | h
    · rw [h, maternDoc, if_pos rfl, inv_mul_cancel₀ hG.ne']
    · linarith
  · rw [maternDoc, if_neg hu.ne', besselK_eq hν hu, integral_mixG hu, Real.div_rpow hu.le zero_le_two,
      Real.rpow_sub zero_lt_two, Real.rpow_one]
    have := Real.rpow_pos_of_pos (zero_lt_two (α := ℝ)) ν
    field_simp

theorem gamma_half (p : ℕ) : Real.Gamma (p + 1 / 2) = Real.sqrt Real.pi * mixD p := by
  induction p with
  | zero => simp [mixD, ← Real.Gamma_one_half_eq]
  | succ p ih =>
    have e : ((p + 1 : ℕ) : ℝ) + 1 / 2 = (p + 1 / 2) + 1 := by push_cast; ring
    rw [e, Real.Gamma_add_one (by positivity), ih, mixD]
    ring

theorem integral_mixG_half (p : ℕ) (u : ℝ) : ∫ t in Ioi (0 : ℝ), mixG (p + 1 / 2) u t = 2 * mixJ (u / 2) p := by
  rw [← integral_comp_rpow_Ioi (mixG (p + 1 / 2) u) (p := 2) two_ne_zero, mixJ, ← integral_const_mul]
  refine setIntegral_congr_fun measurableSet_Ioi fun s hs => ?_
  have hs' : (0 : ℝ) < s := hs
  have e1 : (s ^ (2 : ℝ)) = s ^ 2 := by exact_mod_cast Real.rpow_natCast s 2
  have e2 : (s ^ 2) ^ ((p : ℝ) + 1 / 2 - 1) * s = s ^ (2 * p) := by
    rw [← e1, ← Real.rpow_mul hs'.le, show (2 : ℝ) * (p + 1 / 2 - 1) = (2 * p : ℕ) - 1 by push_cast; ring,
      Real.rpow_sub_one hs'.ne', Real.rpow_natCast, div_mul_cancel₀ _ hs'.ne']
  have e3 : -(s ^ 2) - u ^ 2 / (4 * s ^ 2) = -(s ^ 2) - (u / 2) ^ 2 / s ^ 2 := by
    field_simp
    ring
  beta_reduce
  rw [e1, mixG, e3, mixE, abs_two, show (2 : ℝ) - 1 = 1 by norm_num, Real.rpow_one, smul_eq_mul]
  rw [← e2]
  ring

/-- The closed form for half-integer smoothness is the general formula. -/
theorem maternValue_doc (p : ℕ) {u : ℝ} (hu : 0 ≤ u) : maternValue p u = maternDoc (p + 1 / 2) u := by
  rw [maternDoc_mixture (by positivity) hu, integral_mixG_half, mixJ_eq hu, gamma_half, matern_value]
  have h1 := mixD_pos p
  have h2 : 0 < Real.sqrt Real.pi := Real.sqrt_pos.mpr Real.pi_pos
  show maternPoly p u * Real.exp (-u) = _
  field_simp

theorem maternDoc_pos {ν u : ℝ} (hν : 0 < ν) (hu : 0 ≤ u) : 0 < maternDoc ν u := by
  rw [maternDoc_mixture hν hu]
  refine mul_pos (inv_pos.mpr (Real.Gamma_pos_of_pos hν)) ?_
  rw [setIntegral_pos_iff_support_of_nonneg_ae ((ae_restrict_mem measurableSet_Ioi).mono fun t ht => mixG_nonneg ν u ht)
    (integrable_mixG hν u)]
  have : Function.support (mixG ν u) ∩ Ioi 0 = Ioi 0 := by
    refine inter_eq_right.mpr fun t ht => ?_
    have ht' : (0 : ℝ) < t := ht
    rw [Function.mem_support, mixG]
    positivity
  rw [this]; simp

/-- Strictly decreasing in the distance. -/
theorem maternDoc_lt {ν u v : ℝ} (hν : 0 < ν) (hu : 0 ≤ u) (h : u < v) : maternDoc ν v < maternDoc ν u := by
  rw [maternDoc_mixture hν hu, maternDoc_mixture hν (hu.trans h.le)]
  refine mul_lt_mul_of_pos_left ?_ (inv_pos.mpr (Real.Gamma_pos_of_pos hν))
  have hlt : ∀ t ∈ Ioi (0 : ℝ), mixG ν v t < mixG ν u t := by
    intro t ht
    have ht' : (0 : ℝ) < t := ht
    unfold mixG
    refine mul_lt_mul_of_pos_left ?_ (Real.rpow_pos_of_pos ht' _)
    rw [Real.exp_lt_exp]
    have : u ^ 2 / (4 * t) < v ^ 2 / (4 * t) := div_lt_div_of_pos_right (by nlinarith) (by positivity)
    linarith
  rw [← sub_pos, ← integral_sub (integrable_mixG hν u) (integrable_mixG hν v)]
  have hnn : 0 ≤ᵐ[volume.restrict (Ioi (0 : ℝ))] fun t => mixG ν u t - mixG ν v t :=
    (ae_restrict_mem measurableSet_Ioi).mono fun t ht => sub_nonneg.mpr (hlt t ht).le
  have hint : IntegrableOn (fun t => mixG ν u t - mixG ν v t) (Ioi 0) := (integrable_mixG hν u).sub (integrable_mixG hν v)
  rw [setIntegral_pos_iff_support_of_nonneg_ae hnn hint]
  have : Function.support (fun t => mixG ν u t - mixG ν v t) ∩ Ioi 0 = Ioi 0 :=
    inter_eq_right.mpr fun t ht => by rw [Function.mem_support]; exact (sub_pos.mpr (hlt t ht)).ne'
  rw [this]; simp

end Probnum.Cov
