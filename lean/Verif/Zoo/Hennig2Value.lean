import Verif.Zoo.Hennig2Lemmas

/-!
# The value of the integral of the function `hennig2d`
-/

namespace Probnum.Zoo

open Finset MeasureTheory Complex

theorem wave_0 : |wave 0 - 362588941280269881509 / 10 ^ 20| ≤ 2e-15 :=
  wave_value hennigCheck_0 squaresCheck_0 (by rw [Complex.I_pow_eq_pow_mod]; norm_num [GI.toC, pow_succ])

theorem wave_1 : |wave 1 - (-93543375578383997303) / 10 ^ 20| ≤ 2e-15 :=
  wave_value hennigCheck_1 squaresCheck_1 (by rw [Complex.I_pow_eq_pow_mod]; norm_num [GI.toC, pow_succ])

theorem wave_2 : |wave 2 - (-8407450694524196049) / 10 ^ 20| ≤ 2e-15 :=
  wave_value hennigCheck_2 squaresCheck_2 (by rw [Complex.I_pow_eq_pow_mod]; norm_num [GI.toC, pow_succ])

theorem wave_3 : |wave 3 - 34430468550885773422 / 10 ^ 20| ≤ 2e-15 :=
  wave_value hennigCheck_3 squaresCheck_3 (by rw [Complex.I_pow_eq_pow_mod]; norm_num [GI.toC, pow_succ])

theorem wave_4 : |wave 4 - 2161395935812314653 / 10 ^ 20| ≤ 2e-15 :=
  wave_value hennigCheck_4 squaresCheck_4 (by rw [Complex.I_pow_eq_pow_mod]; norm_num [GI.toC, pow_succ])

theorem wave_5 : |wave 5 - (-20840145672125128625) / 10 ^ 20| ≤ 2e-15 :=
  wave_value hennigCheck_5 squaresCheck_5 (by rw [Complex.I_pow_eq_pow_mod]; norm_num [GI.toC, pow_succ])

theorem wave_6 : |wave 6 - (-965437775496438790) / 10 ^ 20| ≤ 2e-15 :=
  wave_value hennigCheck_6 squaresCheck_6 (by rw [Complex.I_pow_eq_pow_mod]; norm_num [GI.toC, pow_succ])

theorem wave_7 : |wave 7 - 14921899129948596011 / 10 ^ 20| ≤ 2e-15 :=
  wave_value hennigCheck_7 squaresCheck_7 (by rw [Complex.I_pow_eq_pow_mod]; norm_num [GI.toC, pow_succ])

theorem wave_8 : |wave 8 - 544111787408705647 / 10 ^ 20| ≤ 2e-15 :=
  wave_value hennigCheck_8 squaresCheck_8 (by rw [Complex.I_pow_eq_pow_mod]; norm_num [GI.toC, pow_succ])

theorem wave_9 : |wave 9 - (-11617575744214892553) / 10 ^ 20| ≤ 2e-15 :=
  wave_value hennigCheck_9 squaresCheck_9 (by rw [Complex.I_pow_eq_pow_mod]; norm_num [GI.toC, pow_succ])

theorem wave_10 : |wave 10 - (-348585332912209221) / 10 ^ 20| ≤ 2e-15 :=
  wave_value hennigCheck_10 squaresCheck_10 (by rw [Complex.I_pow_eq_pow_mod]; norm_num [GI.toC, pow_succ])

theorem wave_11 : |wave 11 - 9510218933197214455 / 10 ^ 20| ≤ 2e-15 :=
  wave_value hennigCheck_11 squaresCheck_11 (by rw [Complex.I_pow_eq_pow_mod]; norm_num [GI.toC, pow_succ])

theorem wave_12 : |wave 12 - 242086157718121004 / 10 ^ 20| ≤ 2e-15 :=
  wave_value hennigCheck_12 squaresCheck_12 (by rw [Complex.I_pow_eq_pow_mod]; norm_num [GI.toC, pow_succ])

/-- The weights of the trigonometric polynomial. -/
theorem cosExp2_poly (θ : ℝ) : ∑ m ∈ range 16, Real.cos θ ^ m / (m.factorial : ℝ) =
    526911062021 / 416179814400 * Real.cos ((0 : ℕ) * θ) +
      1254441658699 / 1109812838400 * Real.cos ((1 : ℕ) * θ) +
      64566217153 / 237817036800 * Real.cos ((2 : ℕ) * θ) +
      189793048537 / 4280706662400 * Real.cos ((3 : ℕ) * θ) +
      1952801461 / 356725555200 * Real.cos ((4 : ℕ) * θ) +
      1291171267 / 2378170368000 * Real.cos ((5 : ℕ) * θ) +
      32089121 / 713451110400 * Real.cos ((6 : ℕ) * θ) +
      16734139 / 5231974809600 * Real.cos ((7 : ℕ) * θ) +
      390853 / 1961990553600 * Real.cos ((8 : ℕ) * θ) +
      519697 / 47087773286400 * Real.cos ((9 : ℕ) * θ) +
      4321 / 7847962214400 * Real.cos ((10 : ℕ) * θ) +
      1699 / 68015672524800 * Real.cos ((11 : ℕ) * θ) +
      53 / 51011754393600 * Real.cos ((12 : ℕ) * θ) +
      19 / 476109707673600 * Real.cos ((13 : ℕ) * θ) +
      1 / 714164561510400 * Real.cos ((14 : ℕ) * θ) +
      1 / 21424936845312000 * Real.cos ((15 : ℕ) * θ) := by
  have r : ∀ n : ℕ, Real.cos ((n + 2 : ℕ) * θ) = 2 * Real.cos θ * Real.cos ((n + 1 : ℕ) * θ) - Real.cos (n * θ) := fun n => by
    have h1 := Real.cos_add ((n + 1 : ℕ) * θ) θ
    have h2 := Real.cos_sub ((n + 1 : ℕ) * θ) θ
    rw [show ((n + 1 : ℕ) : ℝ) * θ + θ = ((n + 2 : ℕ) : ℝ) * θ by push_cast; ring] at h1
    rw [show ((n + 1 : ℕ) : ℝ) * θ - θ = (n : ℝ) * θ by push_cast; ring] at h2
    linarith
  generalize hc : Real.cos θ = c at r
  have h0 : Real.cos ((0 : ℕ) * θ) = 1 := by simp
  have h1 : Real.cos ((1 : ℕ) * θ) = c := by simp [hc]
  have h2 : Real.cos ((2 : ℕ) * θ) = (-1) * c ^ 0 + (2) * c ^ 2 := by
    rw [r 0, h1, h0]; ring
  have h3 : Real.cos ((3 : ℕ) * θ) = (-3) * c ^ 1 + (4) * c ^ 3 := by
    rw [r 1, h2, h1]; ring
  have h4 : Real.cos ((4 : ℕ) * θ) = (1) * c ^ 0 + (-8) * c ^ 2 + (8) * c ^ 4 := by
    rw [r 2, h3, h2]; ring
  have h5 : Real.cos ((5 : ℕ) * θ) = (5) * c ^ 1 + (-20) * c ^ 3 + (16) * c ^ 5 := by
    rw [r 3, h4, h3]; ring
  have h6 : Real.cos ((6 : ℕ) * θ) = (-1) * c ^ 0 + (18) * c ^ 2 + (-48) * c ^ 4 + (32) * c ^ 6 := by
    rw [r 4, h5, h4]; ring
  have h7 : Real.cos ((7 : ℕ) * θ) = (-7) * c ^ 1 + (56) * c ^ 3 + (-112) * c ^ 5 + (64) * c ^ 7 := by
    rw [r 5, h6, h5]; ring
  have h8 : Real.cos ((8 : ℕ) * θ) = (1) * c ^ 0 + (-32) * c ^ 2 + (160) * c ^ 4 + (-256) * c ^ 6 + (128) * c ^ 8 := by
    rw [r 6, h7, h6]; ring
  have h9 : Real.cos ((9 : ℕ) * θ) = (9) * c ^ 1 + (-120) * c ^ 3 + (432) * c ^ 5 + (-576) * c ^ 7 + (256) * c ^ 9 := by
    rw [r 7, h8, h7]; ring
  have h10 : Real.cos ((10 : ℕ) * θ) = (-1) * c ^ 0 + (50) * c ^ 2 + (-400) * c ^ 4 + (1120) * c ^ 6 + (-1280) * c ^ 8 + (512) * c ^ 10 := by
    rw [r 8, h9, h8]; ring
  have h11 : Real.cos ((11 : ℕ) * θ) = (-11) * c ^ 1 + (220) * c ^ 3 + (-1232) * c ^ 5 + (2816) * c ^ 7 + (-2816) * c ^ 9 + (1024) * c ^ 11 := by
    rw [r 9, h10, h9]; ring
  have h12 : Real.cos ((12 : ℕ) * θ) = (1) * c ^ 0 + (-72) * c ^ 2 + (840) * c ^ 4 + (-3584) * c ^ 6 + (6912) * c ^ 8 + (-6144) * c ^ 10 + (2048) * c ^ 12 := by
    rw [r 10, h11, h10]; ring
  have h13 : Real.cos ((13 : ℕ) * θ) = (13) * c ^ 1 + (-364) * c ^ 3 + (2912) * c ^ 5 + (-9984) * c ^ 7 + (16640) * c ^ 9 + (-13312) * c ^ 11 + (4096) * c ^ 13 := by
    rw [r 11, h12, h11]; ring
  have h14 : Real.cos ((14 : ℕ) * θ) = (-1) * c ^ 0 + (98) * c ^ 2 + (-1568) * c ^ 4 + (9408) * c ^ 6 + (-26880) * c ^ 8 + (39424) * c ^ 10 + (-28672) * c ^ 12 + (8192) * c ^ 14 := by
    rw [r 12, h13, h12]; ring
  have h15 : Real.cos ((15 : ℕ) * θ) = (-15) * c ^ 1 + (560) * c ^ 3 + (-6048) * c ^ 5 + (28800) * c ^ 7 + (-70400) * c ^ 9 + (92160) * c ^ 11 + (-61440) * c ^ 13 + (16384) * c ^ 15 := by
    rw [r 13, h14, h13]; ring
  rw [h0, h1, h2, h3, h4, h5, h6, h7, h8, h9, h10, h11, h12, h13, h14, h15]
  simp only [sum_range_succ, sum_range_zero, Nat.factorial]
  push_cast
  ring

theorem cosExp2_error (θ : ℝ) : |Real.exp (Real.cos θ) - ∑ m ∈ range 16, Real.cos θ ^ m / (m.factorial : ℝ)| ≤ 5.1e-14 := by
  have h := Real.abs_cos_le_one θ
  refine (Real.exp_bound h (n := 16) (by norm_num)).trans ?_
  have : |Real.cos θ| ^ 16 ≤ 1 ^ 16 := pow_le_pow_left₀ (abs_nonneg _) h _
  refine (mul_le_mul_of_nonneg_right this (by positivity)).trans ?_
  norm_num [Nat.factorial]

theorem quad_nonneg (a b : ℝ) : Real.exp (-(a ^ 2 + a * b + b ^ 2)) ≤ 1 :=
  Real.exp_le_one_iff.2 (by nlinarith [sq_nonneg (a + b), sq_nonneg a, sq_nonneg b])

theorem volume_box3_lt : volume (Set.Icc (fun _ : Fin 2 => (-3 : ℝ)) fun _ => 3) < ⊤ := by
  rw [Real.volume_Icc_pi]; exact ENNReal.prod_lt_top fun i _ => ENNReal.ofReal_lt_top

theorem wave_bound (k : ℕ) : |wave k| ≤ 36 := by
  have h : ∀ x ∈ Set.Icc (fun _ : Fin 2 => (-3 : ℝ)) (fun _ => 3),
      ‖Real.exp (-(x 0 ^ 2 + x 0 * x 1 + x 1 ^ 2)) * Real.cos (k * (3 * (x 0 ^ 2 + x 1 ^ 2) + Real.pi / 2))‖ ≤ 1 := fun x _ => by
    rw [norm_mul, Real.norm_of_nonneg (Real.exp_pos _).le, Real.norm_eq_abs]
    have := mul_le_mul (quad_nonneg (x 0) (x 1)) (Real.abs_cos_le_one (k * (3 * (x 0 ^ 2 + x 1 ^ 2) + Real.pi / 2))) (abs_nonneg _) (by norm_num)
    rwa [one_mul] at this
  have hi := norm_setIntegral_le_of_norm_le_const volume_box3_lt h
  rw [volume_box3, Real.norm_eq_abs, one_mul] at hi
  exact hi

/-- The integral of the function over the square. -/
theorem hennig2_value : |3.525721820076955 - ∫ x in Set.Icc (fun _ : Fin 2 => (-3 : ℝ)) (fun _ => 3),
    Real.exp (-(x 0 ^ 2 + x 0 * x 1 + x 1 ^ 2) - Real.sin (3 * (x 0 ^ 2 + x 1 ^ 2)))| ≤ 1e-11 := by
  have e : ∀ x : Fin 2 → ℝ, Real.exp (-(x 0 ^ 2 + x 0 * x 1 + x 1 ^ 2) - Real.sin (3 * (x 0 ^ 2 + x 1 ^ 2))) =
      Real.exp (-(x 0 ^ 2 + x 0 * x 1 + x 1 ^ 2)) * Real.exp (Real.cos (3 * (x 0 ^ 2 + x 1 ^ 2) + Real.pi / 2)) := fun x => by
    rw [Real.cos_add_pi_div_two, ← Real.exp_add]; rfl
  simp only [e]
  have hpt : ∀ x ∈ Set.Icc (fun _ : Fin 2 => (-3 : ℝ)) (fun _ => 3),
      ‖Real.exp (-(x 0 ^ 2 + x 0 * x 1 + x 1 ^ 2)) * Real.exp (Real.cos (3 * (x 0 ^ 2 + x 1 ^ 2) + Real.pi / 2)) -
        Real.exp (-(x 0 ^ 2 + x 0 * x 1 + x 1 ^ 2)) * ∑ m ∈ range 16, Real.cos (3 * (x 0 ^ 2 + x 1 ^ 2) + Real.pi / 2) ^ m / (m.factorial : ℝ)‖ ≤
        5.1e-14 := fun x _ => by
    rw [← mul_sub, norm_mul, Real.norm_of_nonneg (Real.exp_pos _).le, Real.norm_eq_abs]
    have := mul_le_mul (quad_nonneg (x 0) (x 1)) (cosExp2_error (3 * (x 0 ^ 2 + x 1 ^ 2) + Real.pi / 2)) (abs_nonneg _) (by norm_num)
    rwa [one_mul] at this
  have hint := norm_setIntegral_le_of_norm_le_const volume_box3_lt hpt
  rw [integral_sub (integrable_box3 (by fun_prop)) (integrable_box3 (by fun_prop)), volume_box3, Real.norm_eq_abs] at hint
  have hs : (∫ x in Set.Icc (fun _ : Fin 2 => (-3 : ℝ)) (fun _ => 3), Real.exp (-(x 0 ^ 2 + x 0 * x 1 + x 1 ^ 2)) *
      ∑ m ∈ range 16, Real.cos (3 * (x 0 ^ 2 + x 1 ^ 2) + Real.pi / 2) ^ m / (m.factorial : ℝ)) =
      526911062021 / 416179814400 * wave 0 +
        1254441658699 / 1109812838400 * wave 1 +
        64566217153 / 237817036800 * wave 2 +
        189793048537 / 4280706662400 * wave 3 +
        1952801461 / 356725555200 * wave 4 +
        1291171267 / 2378170368000 * wave 5 +
        32089121 / 713451110400 * wave 6 +
        16734139 / 5231974809600 * wave 7 +
        390853 / 1961990553600 * wave 8 +
        519697 / 47087773286400 * wave 9 +
        4321 / 7847962214400 * wave 10 +
        1699 / 68015672524800 * wave 11 +
        53 / 51011754393600 * wave 12 +
        19 / 476109707673600 * wave 13 +
        1 / 714164561510400 * wave 14 +
        1 / 21424936845312000 * wave 15 := by
    simp only [wave]
    simp only [← integral_const_mul]
    have cadd : ∀ f g : (Fin 2 → ℝ) → ℝ, Continuous f → Continuous g →
        (∫ x in Set.Icc (fun _ : Fin 2 => (-3 : ℝ)) (fun _ => 3), f x) + (∫ x in Set.Icc (fun _ : Fin 2 => (-3 : ℝ)) (fun _ => 3), g x) =
          ∫ x in Set.Icc (fun _ : Fin 2 => (-3 : ℝ)) (fun _ => 3), (f x + g x) :=
      fun f g hf hg => (integral_add (integrable_box3 hf) (integrable_box3 hg)).symm
    iterate 15 rw [cadd _ _ (by fun_prop) (by fun_prop)]
    refine integral_congr_ae (.of_forall fun x => ?_)
    simp only [cosExp2_poly]
    ring
  rw [hs] at hint
  have v0 := wave_0
  have v1 := wave_1
  have v2 := wave_2
  have v3 := wave_3
  have v4 := wave_4
  have v5 := wave_5
  have v6 := wave_6
  have v7 := wave_7
  have v8 := wave_8
  have v9 := wave_9
  have v10 := wave_10
  have v11 := wave_11
  have v12 := wave_12
  have v13 := wave_bound 13
  have v14 := wave_bound 14
  have v15 := wave_bound 15
  rw [abs_le] at *
  norm_num at hint v0 v1 v2 v3 v4 v5 v6 v7 v8 v9 v10 v11 v12 v13 v14 v15 ⊢
  constructor <;> linarith [hint.1, hint.2, v0.1, v0.2, v1.1, v1.2, v2.1, v2.2, v3.1, v3.2, v4.1, v4.2, v5.1, v5.2, v6.1, v6.2, v7.1, v7.2, v8.1, v8.2, v9.1, v9.2, v10.1, v10.2, v11.1, v11.2, v12.1, v12.2, v13.1, v13.2, v14.1, v14.2, v15.1, v15.2]

end Probnum.Zoo
