import Verif.Cov.PropsMatern
import Mathlib.Analysis.SpecialFunctions.Gaussian.GaussianIntegral
import Mathlib.MeasureTheory.Function.JacobianOneDim
import Mathlib.MeasureTheory.Integral.IntegralEqImproper
import Mathlib.Analysis.SpecialFunctions.Exp

/-!
# The half-integer Matérn covariance functions are scale mixtures of exponentiated quadratics

`maternValue p u = c ∫₀^∞ s^(2p) exp(-s² - u²/(4s²)) ds` with `c > 0`.
-/

namespace Probnum.Cov

open MeasureTheory Set Filter Topology

/-- `exp(-s² - a²/s²)`. -/
noncomputable def mixE (a s : ℝ) : ℝ := Real.exp (-(s ^ 2) - a ^ 2 / s ^ 2)

/-- `∫ s^(2p) exp(-s² - a²/s²) ds` over the positive reals. -/
noncomputable def mixJ (a : ℝ) (p : ℕ) : ℝ := ∫ s in Ioi (0 : ℝ), s ^ (2 * p) * mixE a s

/-- `∫ a s^(2p-2) exp(-s² - a²/s²) ds` over the positive reals. -/
noncomputable def mixK (a : ℝ) (p : ℕ) : ℝ := ∫ s in Ioi (0 : ℝ), a * s ^ (2 * p) / s ^ 2 * mixE a s

theorem mixE_le (a s : ℝ) : mixE a s ≤ Real.exp (-(s ^ 2)) := by
  rw [mixE, Real.exp_le_exp]
  have : 0 ≤ a ^ 2 / s ^ 2 := by positivity
  linarith

theorem mixE_pos (a s : ℝ) : 0 < mixE a s := Real.exp_pos _

theorem measurable_mixE (a : ℝ) : Measurable (mixE a) := by
  unfold mixE
  fun_prop

theorem integrable_pow_exp (n : ℕ) : IntegrableOn (fun s : ℝ => s ^ n * Real.exp (-(s ^ 2))) (Ioi 0) := by
  have h := integrableOn_rpow_mul_exp_neg_mul_sq (b := 1) one_pos (s := n) (by have : (0 : ℝ) ≤ n := n.cast_nonneg; linarith)
  refine h.congr_fun (fun s hs => ?_) measurableSet_Ioi
  simp [Real.rpow_natCast]

theorem integrable_mixJ (a : ℝ) (n : ℕ) : IntegrableOn (fun s : ℝ => s ^ n * mixE a s) (Ioi 0) := by
  refine (integrable_pow_exp n).mono' ?_ ?_
  · exact ((measurable_id.pow_const n).mul (measurable_mixE a)).aestronglyMeasurable
  · refine (ae_restrict_mem measurableSet_Ioi).mono fun s hs => ?_
    have hs' : (0 : ℝ) < s := hs
    rw [Real.norm_eq_abs, abs_of_nonneg (mul_nonneg (pow_nonneg hs'.le _) (mixE_pos a s).le)]
    exact mul_le_mul_of_nonneg_left (mixE_le a s) (pow_nonneg hs'.le _)

theorem mixE_div_le {a s : ℝ} (ha : 0 < a) (hs : 0 < s) : a / s ^ 2 * mixE a s ≤ 1 / a * Real.exp (-(s ^ 2)) := by
  have h1 : a ^ 2 / s ^ 2 * Real.exp (-(a ^ 2 / s ^ 2)) ≤ 1 := by
    have := Real.add_one_le_exp (a ^ 2 / s ^ 2)
    rw [Real.exp_neg, ← div_eq_mul_inv, div_le_one (Real.exp_pos _)]
    linarith
  have e : mixE a s = Real.exp (-(s ^ 2)) * Real.exp (-(a ^ 2 / s ^ 2)) := by
    rw [mixE, ← Real.exp_add]; congr 1
  rw [e]
  have h2 : a / s ^ 2 * (Real.exp (-(s ^ 2)) * Real.exp (-(a ^ 2 / s ^ 2))) =
      1 / a * Real.exp (-(s ^ 2)) * (a ^ 2 / s ^ 2 * Real.exp (-(a ^ 2 / s ^ 2))) := by
    field_simp
  rw [h2]
  exact mul_le_of_le_one_right (by positivity) h1

theorem integrable_mixK {a : ℝ} (ha : 0 ≤ a) (n : ℕ) : IntegrableOn (fun s : ℝ => a * s ^ n / s ^ 2 * mixE a s) (Ioi 0) := by
  rcases ha.eq_or_lt with rfl | ha
  · simp
  refine ((integrable_pow_exp n).const_mul (1 / a)).mono' ?_ ?_
  · have : Measurable fun s : ℝ => a * s ^ n / s ^ 2 := by fun_prop
    exact (this.mul (measurable_mixE a)).aestronglyMeasurable
  · refine (ae_restrict_mem measurableSet_Ioi).mono fun s hs => ?_
    have hs' : (0 : ℝ) < s := hs
    have h := mixE_div_le ha hs'
    rw [Real.norm_eq_abs, abs_of_nonneg (mul_nonneg (by positivity) (mixE_pos a s).le)]
    calc a * s ^ n / s ^ 2 * mixE a s = s ^ n * (a / s ^ 2 * mixE a s) := by ring
      _ ≤ s ^ n * (1 / a * Real.exp (-(s ^ 2))) := mul_le_mul_of_nonneg_left h (pow_nonneg hs'.le _)
      _ = 1 / a * (s ^ n * Real.exp (-(s ^ 2))) := by ring

theorem hasDerivAt_mixE (a : ℝ) {s : ℝ} (hs : s ≠ 0) :
    HasDerivAt (mixE a) ((-(2 * s) + 2 * a ^ 2 / s ^ 3) * mixE a s) s := by
  have h1 : HasDerivAt (fun s : ℝ => s ^ 2) (2 * s) s := by simpa using hasDerivAt_pow 2 s
  have h2 : HasDerivAt (fun s : ℝ => a ^ 2 / s ^ 2) (-(a ^ 2 * (2 * s)) / (s ^ 2) ^ 2) s := by
    have := (hasDerivAt_const s (a ^ 2)).div h1 (pow_ne_zero 2 hs)
    rw [zero_mul, zero_sub] at this
    exact this
  have h3 := (h1.neg.sub h2).exp
  have e : Real.exp (-(s ^ 2) - a ^ 2 / s ^ 2) * (-(2 * s) - -(a ^ 2 * (2 * s)) / (s ^ 2) ^ 2) =
      (-(2 * s) + 2 * a ^ 2 / s ^ 3) * mixE a s := by
    rw [mixE, mul_comm]
    congr 1
    field_simp
    ring
  rw [← e]
  exact h3

/-- Integration by parts. -/
theorem mixJ_parts {a : ℝ} (ha : 0 ≤ a) (p : ℕ) : 2 * mixJ a (p + 1) = (2 * p + 1) * mixJ a p + 2 * a * mixK a p := by
  have hd : ∀ s ∈ Ioi (0 : ℝ), HasDerivAt (fun s => s ^ (2 * p + 1) * mixE a s)
      ((2 * p + 1) * (s ^ (2 * p) * mixE a s) - 2 * (s ^ (2 * (p + 1)) * mixE a s) + 2 * a * (a * s ^ (2 * p) / s ^ 2 * mixE a s)) s := by
    intro s hs
    have hs' : (0 : ℝ) < s := hs
    have h1 : HasDerivAt (fun s : ℝ => s ^ (2 * p + 1)) ((2 * p + 1 : ℕ) * s ^ (2 * p)) s := by
      simpa using hasDerivAt_pow (2 * p + 1) s
    have h2 := h1.mul (hasDerivAt_mixE a hs'.ne')
    have e : ((2 * p + 1 : ℕ) : ℝ) * s ^ (2 * p) * mixE a s + s ^ (2 * p + 1) * ((-(2 * s) + 2 * a ^ 2 / s ^ 3) * mixE a s) =
        (2 * p + 1) * (s ^ (2 * p) * mixE a s) - 2 * (s ^ (2 * (p + 1)) * mixE a s) +
          2 * a * (a * s ^ (2 * p) / s ^ 2 * mixE a s) := by
      push_cast
      field_simp
      ring
    rw [← e]
    exact h2
  have i1 := integrable_mixJ a (2 * p)
  have i2 := integrable_mixJ a (2 * (p + 1))
  have i3 := integrable_mixK ha (2 * p)
  have j1 : IntegrableOn (fun s : ℝ => (2 * p + 1) * (s ^ (2 * p) * mixE a s)) (Ioi 0) := i1.const_mul _
  have j2 : IntegrableOn (fun s : ℝ => 2 * (s ^ (2 * (p + 1)) * mixE a s)) (Ioi 0) := i2.const_mul _
  have j3 : IntegrableOn (fun s : ℝ => 2 * a * (a * s ^ (2 * p) / s ^ 2 * mixE a s)) (Ioi 0) := i3.const_mul _
  have j12 : IntegrableOn (fun s : ℝ => (2 * p + 1) * (s ^ (2 * p) * mixE a s) - 2 * (s ^ (2 * (p + 1)) * mixE a s)) (Ioi 0) :=
    j1.sub j2
  have hc : ContinuousWithinAt (fun s : ℝ => s ^ (2 * p + 1) * mixE a s) (Ici 0) 0 := by
    have h0 : (0 : ℝ) ^ (2 * p + 1) * mixE a 0 = 0 := by simp
    rw [ContinuousWithinAt, h0]
    have hb : Tendsto (fun s : ℝ => s ^ (2 * p + 1)) (𝓝[Ici 0] 0) (𝓝 0) := by
      have : Tendsto (fun s : ℝ => s ^ (2 * p + 1)) (𝓝 0) (𝓝 (0 ^ (2 * p + 1))) := (continuous_pow _).tendsto 0
      rw [zero_pow (by omega)] at this
      exact this.mono_left nhdsWithin_le_nhds
    refine squeeze_zero' ?_ ?_ hb
    · filter_upwards [self_mem_nhdsWithin] with s hs
      exact mul_nonneg (pow_nonneg hs _) (mixE_pos a s).le
    · filter_upwards [self_mem_nhdsWithin] with s hs
      refine mul_le_of_le_one_right (pow_nonneg hs _) ((mixE_le a s).trans ?_)
      rw [Real.exp_le_one_iff]
      have := sq_nonneg s
      linarith
  have ht : Tendsto (fun s : ℝ => s ^ (2 * p + 1) * mixE a s) atTop (𝓝 0) := by
    refine squeeze_zero' ?_ ?_ (Real.tendsto_pow_mul_exp_neg_atTop_nhds_zero (2 * p + 1))
    · filter_upwards [eventually_ge_atTop 0] with s hs
      exact mul_nonneg (pow_nonneg hs _) (mixE_pos a s).le
    · filter_upwards [eventually_ge_atTop 1] with s hs
      refine mul_le_mul_of_nonneg_left ((mixE_le a s).trans ?_) (pow_nonneg (by linarith) _)
      rw [Real.exp_le_exp]
      nlinarith
  have hI := integral_Ioi_of_hasDerivAt_of_tendsto hc hd (j12.add j3) ht
  have e1 : ∫ s in Ioi (0 : ℝ), ((2 * p + 1) * (s ^ (2 * p) * mixE a s) - 2 * (s ^ (2 * (p + 1)) * mixE a s) +
      2 * a * (a * s ^ (2 * p) / s ^ 2 * mixE a s)) = (2 * p + 1) * mixJ a p - 2 * mixJ a (p + 1) + 2 * a * mixK a p := by
    rw [integral_add j12 j3, integral_sub j1 j2, integral_const_mul, integral_const_mul, integral_const_mul]; rfl
  rw [e1] at hI
  simp only [zero_pow (show 2 * p + 1 ≠ 0 by omega), zero_mul, sub_zero] at hI
  linarith

theorem mixK_succ (a : ℝ) (p : ℕ) : mixK a (p + 1) = a * mixJ a p := by
  rw [mixK, mixJ, ← integral_const_mul]
  refine setIntegral_congr_fun measurableSet_Ioi fun s hs => ?_
  have hs' : (0 : ℝ) < s := hs
  beta_reduce
  field_simp
  ring

/-- The substitution `s ↦ a/s`. -/
theorem mixK_zero {a : ℝ} (ha : 0 < a) : mixK a 0 = mixJ a 0 := by
  have himg : (fun s : ℝ => a / s) '' Ioi 0 = Ioi 0 := by
    ext t
    constructor
    · rintro ⟨s, hs, rfl⟩
      exact div_pos ha hs
    · intro ht
      have ht' : (0 : ℝ) < t := ht
      exact ⟨a / t, div_pos ha ht, by field_simp⟩
  have hinj : InjOn (fun s : ℝ => a / s) (Ioi 0) := by
    intro s hs t ht h
    have hs' : (0 : ℝ) < s := hs
    have ht' : (0 : ℝ) < t := ht
    have h' : a / s = a / t := h
    field_simp at h'
    exact h'.symm
  have hd : ∀ s ∈ Ioi (0 : ℝ), HasDerivWithinAt (fun s : ℝ => a / s) (-(a / s ^ 2)) (Ioi 0) s := by
    intro s hs
    have hs' : (0 : ℝ) < s := hs
    have := ((hasDerivAt_const s a).div (hasDerivAt_id s) hs'.ne').hasDerivWithinAt (s := Ioi 0)
    have e : (0 * id s - a * 1) / id s ^ 2 = -(a / s ^ 2) := by simp; ring
    rw [e] at this
    exact this
  have h := integral_image_eq_integral_abs_deriv_smul measurableSet_Ioi hd hinj (fun s => s ^ (2 * 0) * mixE a s)
  rw [himg] at h
  rw [mixJ, h, mixK]
  refine setIntegral_congr_fun measurableSet_Ioi fun s hs => ?_
  have hs' : (0 : ℝ) < s := hs
  have e : mixE a (a / s) = mixE a s := by
    rw [mixE, mixE]
    congr 1
    field_simp
    ring
  beta_reduce
  rw [e, abs_neg, abs_of_pos (by positivity)]
  simp [smul_eq_mul]

/-- The substitution `s ↦ s - a/s`. -/
theorem mix_gauss {a : ℝ} (ha : 0 < a) : mixJ a 0 + mixK a 0 = Real.sqrt Real.pi * Real.exp (-(2 * a)) := by
  have himg : (fun s : ℝ => s - a / s) '' Ioi 0 = univ := by
    rw [eq_univ_iff_forall]
    intro v
    have hq : |v| < Real.sqrt (v ^ 2 + 4 * a) := by
      rw [← Real.sqrt_sq_eq_abs]
      exact Real.sqrt_lt_sqrt (sq_nonneg v) (by linarith)
    have hq2 : Real.sqrt (v ^ 2 + 4 * a) ^ 2 = v ^ 2 + 4 * a := Real.sq_sqrt (by positivity)
    have hpos : 0 < (v + Real.sqrt (v ^ 2 + 4 * a)) / 2 := by
      have := neg_abs_le v
      linarith
    refine ⟨(v + Real.sqrt (v ^ 2 + 4 * a)) / 2, hpos, ?_⟩
    have hpos' : v + Real.sqrt (v ^ 2 + 4 * a) ≠ 0 := by
      intro h; rw [h] at hpos; simp at hpos
    show (v + Real.sqrt (v ^ 2 + 4 * a)) / 2 - a / ((v + Real.sqrt (v ^ 2 + 4 * a)) / 2) = v
    field_simp
    nlinarith
  have hinj : InjOn (fun s : ℝ => s - a / s) (Ioi 0) := by
    have : StrictMonoOn (fun s : ℝ => s - a / s) (Ioi 0) := by
      intro s hs t ht h
      have hs' : (0 : ℝ) < s := hs
      have : a / t < a / s := div_lt_div_of_pos_left ha hs' h
      show s - a / s < t - a / t
      linarith
    exact this.injOn
  have hd : ∀ s ∈ Ioi (0 : ℝ), HasDerivWithinAt (fun s : ℝ => s - a / s) (1 + a / s ^ 2) (Ioi 0) s := by
    intro s hs
    have hs' : (0 : ℝ) < s := hs
    have := ((hasDerivAt_id s).sub ((hasDerivAt_const s a).div (hasDerivAt_id s) hs'.ne')).hasDerivWithinAt (s := Ioi 0)
    have e : 1 - (0 * id s - a * 1) / id s ^ 2 = 1 + a / s ^ 2 := by simp; ring
    rw [e] at this
    exact this
  have h := integral_image_eq_integral_abs_deriv_smul measurableSet_Ioi hd hinj (fun v => Real.exp (-1 * v ^ 2))
  rw [himg, setIntegral_univ, integral_gaussian 1, div_one] at h
  have e1 : ∫ s in Ioi (0 : ℝ), |1 + a / s ^ 2| • Real.exp (-1 * (s - a / s) ^ 2) =
      Real.exp (2 * a) * (mixJ a 0 + mixK a 0) := by
    rw [mixJ, mixK, ← integral_add (integrable_mixJ a (2 * 0)) (integrable_mixK ha.le (2 * 0)), ← integral_const_mul]
    refine setIntegral_congr_fun measurableSet_Ioi fun s hs => ?_
    have hs' : (0 : ℝ) < s := hs
    have e : Real.exp (-1 * (s - a / s) ^ 2) = Real.exp (2 * a) * mixE a s := by
      rw [mixE, ← Real.exp_add]
      congr 1
      field_simp
      ring
    beta_reduce
    rw [e, abs_of_pos (by positivity), smul_eq_mul]
    ring
  rw [e1] at h
  rw [h, Real.exp_neg]
  have := Real.exp_pos (2 * a)
  field_simp

theorem mixJ_zero {a : ℝ} (ha : 0 ≤ a) : mixJ a 0 = Real.sqrt Real.pi / 2 * Real.exp (-(2 * a)) := by
  rcases ha.eq_or_lt with rfl | ha
  · have h := integral_gaussian_Ioi 1
    rw [div_one] at h
    rw [mixJ, mul_zero, mul_zero, neg_zero, Real.exp_zero, mul_one, ← h]
    refine setIntegral_congr_fun measurableSet_Ioi fun s _ => ?_
    simp [mixE]
  · have h1 := mix_gauss ha
    rw [mixK_zero ha] at h1
    linarith

theorem mixJ_one {a : ℝ} (ha : 0 ≤ a) : 2 * mixJ a 1 = (1 + 2 * a) * mixJ a 0 := by
  have h := mixJ_parts ha 0
  have hk : a * mixK a 0 = a * mixJ a 0 := by
    rcases ha.eq_or_lt with rfl | ha
    · simp
    · rw [mixK_zero ha]
  simp only [Nat.cast_zero, mul_zero, zero_add, one_mul] at h
  rw [h, mul_assoc, hk]; ring

theorem mixJ_step {a : ℝ} (ha : 0 ≤ a) (p : ℕ) :
    2 * mixJ a (p + 2) = (2 * p + 3) * mixJ a (p + 1) + 2 * a ^ 2 * mixJ a p := by
  have h := mixJ_parts ha (p + 1)
  rw [mixK_succ] at h
  push_cast at h
  rw [h]; ring

/-! ## The polynomials -/

/-- The polynomial part. -/
noncomputable def maternPoly (p : ℕ) (u : ℝ) : ℝ := ∑ i ∈ Finset.range (p + 1), (maternCoefficient p i : ℝ) * u ^ i

theorem coeff_one (p : ℕ) : maternCoefficient (p + 1) 1 = 1 := by
  rw [maternCoefficient]
  have e : 2 * (p + 1) = (2 * p + 1) + 1 := by ring
  rw [e, Nat.add_sub_cancel, Nat.add_sub_cancel, Nat.factorial_succ p, Nat.factorial_succ (2 * p + 1)]
  have h1 : ((p.factorial : ℕ) : ℚ) ≠ 0 := by exact_mod_cast p.factorial_ne_zero
  have h2 : (((2 * p + 1).factorial : ℕ) : ℚ) ≠ 0 := by exact_mod_cast (2 * p + 1).factorial_ne_zero
  have h3 : (p : ℚ) + 1 ≠ 0 := by positivity
  have h4 : (2 * p + 1 + 1 : ℚ) ≠ 0 := by positivity
  push_cast
  field_simp
  simp
  ring

theorem coeff_step (m j : ℕ) : maternCoefficient (j + 1 + m + 2) (j + 2) = maternCoefficient (j + 1 + m + 1) (j + 2) +
    maternCoefficient (j + 1 + m) j / ((2 * (j + 1 + m : ℕ) + 1) * (2 * (j + 1 + m : ℕ) + 3)) := by
  have a1 : 2 * (j + 1 + m + 2) - (j + 2) = j + 2 * m + 2 + 1 + 1 := by omega
  have a2 : j + 1 + m + 2 - (j + 2) = m + 1 := by omega
  have a3 : 2 * (j + 1 + m + 1) - (j + 2) = j + 2 * m + 2 := by omega
  have a4 : j + 1 + m + 1 - (j + 2) = m := by omega
  have a5 : 2 * (j + 1 + m) - j = j + 2 * m + 2 := by omega
  have a6 : j + 1 + m - j = m + 1 := by omega
  have a7 : 2 * (j + 1 + m + 2) = 2 * (j + 1 + m) + 1 + 1 + 1 + 1 := by ring
  have a8 : 2 * (j + 1 + m + 1) = 2 * (j + 1 + m) + 1 + 1 := by ring
  rw [maternCoefficient, maternCoefficient, maternCoefficient, a1, a2, a3, a4, a5, a6, a7, a8]
  generalize hP : 2 * (j + 1 + m) = P
  have hPq : (P : ℚ) = 2 * (j + 1 + m) := by rw [← hP]; push_cast; ring
  rw [Nat.factorial_succ (j + 1 + m + 1), Nat.factorial_succ (j + 1 + m), Nat.factorial_succ (P + 1 + 1 + 1),
    Nat.factorial_succ (P + 1 + 1), Nat.factorial_succ (P + 1), Nat.factorial_succ P, Nat.factorial_succ (j + 1),
    Nat.factorial_succ j, Nat.factorial_succ m, Nat.factorial_succ (j + 2 * m + 2 + 1), Nat.factorial_succ (j + 2 * m + 2)]
  have h1 : ((P.factorial : ℕ) : ℚ) ≠ 0 := by exact_mod_cast P.factorial_ne_zero
  have h2 : ((j.factorial : ℕ) : ℚ) ≠ 0 := by exact_mod_cast j.factorial_ne_zero
  have h3 : ((m.factorial : ℕ) : ℚ) ≠ 0 := by exact_mod_cast m.factorial_ne_zero
  push_cast
  rw [hPq]
  have g1 : (2 * (j + 1 + m) + 1 : ℚ) ≠ 0 := by positivity
  have g2 : (2 * (j + 1 + m) + 1 + 1 : ℚ) ≠ 0 := by positivity
  have g3 : (2 * (j + 1 + m) + 1 + 1 + 1 : ℚ) ≠ 0 := by positivity
  have g4 : (2 * (j + 1 + m) + 1 + 1 + 1 + 1 : ℚ) ≠ 0 := by positivity
  have g5 : (2 * (j + 1 + m) + 3 : ℚ) ≠ 0 := by positivity
  have g6 : (j + 1 + 1 : ℚ) ≠ 0 := by positivity
  have g7 : (j + 1 : ℚ) ≠ 0 := by positivity
  have g8 : (m + 1 : ℚ) ≠ 0 := by positivity
  rw [pow_add]
  field_simp
  ring

theorem coeff_top (p : ℕ) : maternCoefficient (p + 2) (p + 2) =
    maternCoefficient p p / ((2 * (p : ℕ) + 1) * (2 * (p : ℕ) + 3)) := by
  have a1 : 2 * (p + 2) - (p + 2) = p + 1 + 1 := by omega
  have a5 : 2 * p - p = p := by omega
  have a7 : 2 * (p + 2) = 2 * p + 1 + 1 + 1 + 1 := by ring
  rw [maternCoefficient, maternCoefficient, a1, a5, Nat.sub_self, Nat.sub_self, a7]
  generalize hP : 2 * p = P
  have hPq : (P : ℚ) = 2 * p := by rw [← hP]; push_cast; ring
  rw [Nat.factorial_succ (p + 1), Nat.factorial_succ p, Nat.factorial_succ (P + 1 + 1 + 1),
    Nat.factorial_succ (P + 1 + 1), Nat.factorial_succ (P + 1), Nat.factorial_succ P]
  have h1 : ((P.factorial : ℕ) : ℚ) ≠ 0 := by exact_mod_cast P.factorial_ne_zero
  have h2 : ((p.factorial : ℕ) : ℚ) ≠ 0 := by exact_mod_cast p.factorial_ne_zero
  push_cast
  rw [hPq]
  have g1 : (2 * p + 1 : ℚ) ≠ 0 := by positivity
  have g2 : (2 * p + 1 + 1 : ℚ) ≠ 0 := by positivity
  have g3 : (2 * p + 1 + 1 + 1 : ℚ) ≠ 0 := by positivity
  have g4 : (2 * p + 1 + 1 + 1 + 1 : ℚ) ≠ 0 := by positivity
  have g5 : (2 * p + 3 : ℚ) ≠ 0 := by positivity
  have g6 : (p + 1 + 1 : ℚ) ≠ 0 := by positivity
  have g7 : (p + 1 : ℚ) ≠ 0 := by positivity
  rw [pow_add, Nat.factorial_zero]
  push_cast
  field_simp
  ring

theorem maternPoly_step (p : ℕ) (u : ℝ) :
    maternPoly (p + 2) u = maternPoly (p + 1) u + u ^ 2 / ((2 * p + 1) * (2 * p + 3)) * maternPoly p u := by
  have e2 : maternPoly (p + 2) u = 1 + u + ∑ j ∈ Finset.range (p + 1), (maternCoefficient (p + 2) (j + 2) : ℝ) * u ^ (j + 2) := by
    rw [maternPoly, Finset.sum_range_succ', Finset.sum_range_succ', maternCoefficient_zero, coeff_one]
    push_cast; ring
  have e1 : maternPoly (p + 1) u = 1 + u + ∑ j ∈ Finset.range p, (maternCoefficient (p + 1) (j + 2) : ℝ) * u ^ (j + 2) := by
    rw [maternPoly, Finset.sum_range_succ', Finset.sum_range_succ', maternCoefficient_zero, coeff_one]
    push_cast; ring
  rw [e2, e1, maternPoly, Finset.sum_range_succ, Finset.sum_range_succ, coeff_top]
  have hs : ∀ j ∈ Finset.range p, (maternCoefficient (p + 2) (j + 2) : ℝ) * u ^ (j + 2) =
      (maternCoefficient (p + 1) (j + 2) : ℝ) * u ^ (j + 2) +
        u ^ 2 / ((2 * p + 1) * (2 * p + 3)) * ((maternCoefficient p j : ℝ) * u ^ j) := by
    intro j hj
    obtain ⟨m, rfl⟩ : ∃ m, p = j + 1 + m := ⟨p - (j + 1), by have := Finset.mem_range.mp hj; omega⟩
    rw [coeff_step m j]
    push_cast
    ring
  rw [Finset.sum_congr rfl hs, Finset.sum_add_distrib, ← Finset.mul_sum]
  push_cast
  ring

/-- The factor between the integral and the polynomial. -/
noncomputable def mixD : ℕ → ℝ
  | 0 => 1
  | p + 1 => (2 * p + 1) / 2 * mixD p

theorem mixD_pos : ∀ p, 0 < mixD p
  | 0 => one_pos
  | p + 1 => mul_pos (by positivity) (mixD_pos p)

theorem mixJ_eq {u : ℝ} (hu : 0 ≤ u) : ∀ p, mixJ (u / 2) p = Real.sqrt Real.pi / 2 * mixD p * maternPoly p u * Real.exp (-u)
  | 0 => by
    rw [mixJ_zero (by linarith), mixD, maternPoly]
    have e : -(2 * (u / 2)) = -u := by ring
    simp [maternCoefficient_zero, e]
  | 1 => by
    have h := mixJ_one (a := u / 2) (by linarith)
    rw [mixJ_eq hu 0] at h
    have e0 : maternPoly 0 u = 1 := by simp [maternPoly, maternCoefficient_zero]
    have e1 : maternPoly 1 u = 1 + u := by
      rw [maternPoly, Finset.sum_range_succ, Finset.sum_range_one, maternCoefficient_zero, coeff_one 0]; simp
    rw [e0] at h
    rw [e1, mixD]
    push_cast at h ⊢
    linear_combination h / 2
  | p + 2 => by
    have h := mixJ_step (a := u / 2) (by linarith) p
    rw [mixJ_eq hu (p + 1), mixJ_eq hu p] at h
    have hs := maternPoly_step p u
    rw [hs]
    have g1 : (2 * (p : ℝ) + 1) ≠ 0 := by positivity
    have g2 : (2 * (p : ℝ) + 3) ≠ 0 := by positivity
    have hD1 : mixD (p + 1) = (2 * p + 1) / 2 * mixD p := rfl
    have hD2 : mixD (p + 2) = (2 * p + 3) / 2 * ((2 * p + 1) / 2 * mixD p) := by
      rw [mixD, mixD]; push_cast; ring
    rw [hD2]
    rw [hD1] at h
    have h' : mixJ (u / 2) (p + 2) = ((2 * p + 3) * (Real.sqrt Real.pi / 2 * ((2 * p + 1) / 2 * mixD p) * maternPoly (p + 1) u * Real.exp (-u)) +
        2 * (u / 2) ^ 2 * (Real.sqrt Real.pi / 2 * mixD p * maternPoly p u * Real.exp (-u))) / 2 := by linarith
    rw [h']
    field_simp

/-- The Matérn covariance function at scaled distance `u` as a mixture of exponentiated quadratics. -/
theorem matern_mixture (p : ℕ) : ∃ c, 0 < c ∧ ∀ u, 0 ≤ u →
    maternValue p u = c * ∫ s in Ioi (0 : ℝ), s ^ (2 * p) * Real.exp (-(s ^ 2)) * Real.exp (-(u ^ 2 / (4 * s ^ 2))) := by
  have hc : 0 < Real.sqrt Real.pi / 2 * mixD p := mul_pos (by have := Real.pi_pos; positivity) (mixD_pos p)
  refine ⟨(Real.sqrt Real.pi / 2 * mixD p)⁻¹, inv_pos.mpr hc, fun u hu => ?_⟩
  have h := mixJ_eq hu p
  have e : ∫ s in Ioi (0 : ℝ), s ^ (2 * p) * Real.exp (-(s ^ 2)) * Real.exp (-(u ^ 2 / (4 * s ^ 2))) = mixJ (u / 2) p := by
    rw [mixJ]
    refine setIntegral_congr_fun measurableSet_Ioi fun s hs => ?_
    beta_reduce
    rw [mixE, mul_assoc, ← Real.exp_add]
    congr 2
    ring
  rw [e, h, matern_value]
  show maternPoly p u * _ = _
  rw [mul_assoc (_ * _), ← mul_assoc, inv_mul_cancel₀ hc.ne', one_mul]

end Probnum.Cov
