import Verif.Zoo.Hennig2Numbers
import Verif.Zoo.HennigLemmas
import Mathlib.Analysis.SpecialFunctions.Complex.Analytic

/-!
# The value of the integral of the function `hennig2d`: error bounds
-/

namespace Probnum.Zoo

open Finset MeasureTheory Complex

/-! ## What the kernel computed -/

noncomputable def GI.toC (z : GI) : ℂ := ⟨z.re, z.im⟩

theorem intSub_eq (a b : ℤ) : Int.sub a b = a - b := rfl

theorem GI.toC_add (a b : GI) : (GI.add a b).toC = a.toC + b.toC := by
  apply Complex.ext <;> simp [GI.toC, GI.add, Int.add_def]

theorem GI.toC_sub (a b : GI) : (GI.sub a b).toC = a.toC - b.toC := by
  apply Complex.ext <;> simp [GI.toC, GI.sub, intSub_eq]

theorem GI.toC_mul (a b : GI) : (GI.mul a b).toC = a.toC * b.toC := by
  apply Complex.ext <;> simp [GI.toC, GI.mul, intSub_eq]

theorem GI.toC_smul (n : ℕ) (a : GI) : (GI.smul n a).toC = n * a.toC := by
  apply Complex.ext <;> simp [GI.toC, GI.smul]

theorem GI.toC_ofNat (n : ℕ) : (GI.ofNat n).toC = n := by
  apply Complex.ext <;> simp [GI.toC, GI.ofNat]

theorem GI.toC_zero : GI.toC ⟨Int.ofNat 0, Int.ofNat 0⟩ = 0 := by
  apply Complex.ext <;> simp [GI.toC]

theorem hornerSteps_eq (c : ℕ → ℕ) (β : GI) (N : ℕ) : ∀ m, m ≤ N →
    (hornerSteps c β N m).toC = ∑ n ∈ range m, (c (N - m + n) : ℂ) * β.toC ^ n
  | 0, _ => by rw [sum_range_zero]; exact GI.toC_zero
  | m + 1, h => by
    have ih := hornerSteps_eq c β N m (by omega)
    have e : hornerSteps c β N (m + 1) =
      GI.add (GI.ofNat (c (Nat.sub (Nat.sub N m) 1))) (GI.mul β (hornerSteps c β N m)) := rfl
    rw [e, GI.toC_add, GI.toC_ofNat, GI.toC_mul, ih, sum_range_succ', mul_sum, add_comm]
    congr 1
    · refine sum_congr rfl fun n _ => ?_
      rw [show N - (m + 1) + (n + 1) = N - m + n by omega, pow_succ]
      ring
    · rw [pow_zero, mul_one]
      rfl

theorem horner_eq (c : ℕ → ℕ) (β : GI) (N : ℕ) :
    (hornerSteps c β N N).toC = ∑ n ∈ range N, (c n : ℂ) * β.toC ^ n := by
  rw [hornerSteps_eq c β N N le_rfl]
  simp

theorem closeTo_iff {z v : ℤ} {d : ℕ} (h : closeTo z v d = true) : |(z : ℝ) - v| ≤ d := by
  have h : (z - v).natAbs ≤ d := Nat.le_of_ble_eq_true h
  have : |z - v| ≤ (d : ℤ) := by rw [Int.abs_eq_natAbs]; exact_mod_cast h
  exact_mod_cast this

theorem ratioCheck_iff {a v : ℤ} {b : ℕ} (hb : 0 < b) (h : ratioCheck a b v = true) : |(a : ℝ) / b - v / 10 ^ 30| ≤ 1 / 10 ^ 30 := by
  have h := closeTo_iff h
  have hb' : (0 : ℝ) < b := by exact_mod_cast hb
  have e1 : ((Int.mul a (Int.ofNat (pow10 30)) : ℤ) : ℝ) = a * 10 ^ 30 := by
    rw [Int.mul_def]; push_cast [pow10]; norm_num
  have e2 : ((Int.mul v (Int.ofNat b) : ℤ) : ℝ) = v * b := by
    rw [Int.mul_def]; push_cast; rfl
  rw [e1, e2] at h
  rw [show (a : ℝ) / b - v / 10 ^ 30 = (a * 10 ^ 30 - v * b) / (b * 10 ^ 30) by field_simp, abs_div,
    abs_of_pos (show 0 < (b : ℝ) * 10 ^ 30 by positivity), div_le_div_iff₀ (by positivity) (by positivity), ← mul_assoc, one_mul]
  exact mul_le_mul_of_nonneg_right h (by positivity)

/-- Two checks on the parts give a bound on the complex numbers. -/
theorem ratio_norm {z : GI} {b : ℕ} {v : GI} (hb : 0 < b) (h1 : ratioCheck z.re b v.re = true) (h2 : ratioCheck z.im b v.im = true) :
    ‖z.toC / b - v.toC / 10 ^ 30‖ ≤ 2 / 10 ^ 30 := by
  have h1 := ratioCheck_iff hb h1
  have h2 := ratioCheck_iff hb h2
  refine (Complex.norm_le_abs_re_add_abs_im _).trans ?_
  have e : z.toC / (b : ℂ) - v.toC / 10 ^ 30 = ⟨(z.re : ℝ) / b - v.re / 10 ^ 30, (z.im : ℝ) / b - v.im / 10 ^ 30⟩ := by
    have e1 : z.toC / (b : ℂ) = z.toC / ((b : ℝ) : ℂ) := by push_cast; rfl
    have e2 : v.toC / (10 : ℂ) ^ 30 = v.toC / (((10 : ℝ) ^ 30 : ℝ) : ℂ) := by push_cast; rfl
    rw [e1, e2]
    apply Complex.ext
    · rw [Complex.sub_re, Complex.div_ofReal_re, Complex.div_ofReal_re]; rfl
    · rw [Complex.sub_im, Complex.div_ofReal_im, Complex.div_ofReal_im]; rfl
  rw [e]
  refine (add_le_add h1 h2).trans (le_of_eq ?_)
  ring

theorem expCoef_eq {N n : ℕ} (h : n ≤ N) : (expCoef N n : ℂ) = (N.factorial : ℂ) / (n.factorial : ℂ) := by
  unfold expCoef
  simp only [facN_eq, natDiv_eq]
  rw [Nat.cast_div (Nat.factorial_dvd_factorial h) (by exact_mod_cast n.factorial_ne_zero)]

theorem gaussCoef_eq {N n : ℕ} (h : n < N) :
    (gaussCoef N n : ℂ) = (N.factorial : ℂ) / (n.factorial : ℂ) * (((2 * N).factorial : ℂ) / (2 * n + 1)) := by
  unfold gaussCoef
  simp only [facN_eq, natDiv_eq, Nat.mul_eq, Nat.add_eq]
  rw [Nat.cast_mul, Nat.cast_div (Nat.factorial_dvd_factorial h.le) (by exact_mod_cast n.factorial_ne_zero),
    Nat.cast_div (Nat.dvd_factorial (by omega) (by omega)) (by exact_mod_cast (2 * n).succ_ne_zero)]
  push_cast
  rfl

/-! ## The moments -/

/-- `1 - 3 k i`. -/
noncomputable def alphaC (k : ℕ) : ℂ := 1 - 3 * k * I

theorem beta_eq (k : ℕ) : (betaGI k).toC = -9 * alphaC k := by
  apply Complex.ext
  · simp [GI.toC, betaGI, alphaC]
    try norm_num [Int.negSucc_eq]
  · simp [GI.toC, betaGI, alphaC]
    try ring

theorem alpha_norm_le (k : ℕ) : ‖alphaC k‖ ≤ 3 * k + 1 := by
  rw [alphaC]
  refine (norm_sub_le _ _).trans ?_
  simp
  linarith

theorem alpha_re (k : ℕ) : (alphaC k).re = 1 := by simp [alphaC]

theorem one_le_alpha (k : ℕ) : 1 ≤ ‖alphaC k‖ := by
  have := Complex.abs_re_le_norm (alphaC k)
  rwa [alpha_re, abs_one] at this

/-- The integrals of `x^(2r) exp (-(1 - 3 k i) x²)`. -/
noncomputable def momentC (k r : ℕ) : ℂ := ∫ x in (-3 : ℝ)..3, (x : ℂ) ^ (2 * r) * cexp (-alphaC k * (x : ℂ) ^ 2)

theorem cexp_norm (k : ℕ) (x : ℝ) : ‖cexp (-alphaC k * (x : ℂ) ^ 2)‖ = Real.exp (-x ^ 2) := by
  rw [Complex.norm_exp]
  congr 1
  rw [← Complex.ofReal_pow, Complex.re_mul_ofReal, Complex.neg_re, alpha_re]
  ring

theorem cexp_norm_le (k : ℕ) (x : ℝ) : ‖cexp (-alphaC k * (x : ℂ) ^ 2)‖ ≤ 1 := by
  rw [cexp_norm]
  exact Real.exp_le_one_iff.2 (by nlinarith [sq_nonneg x])

theorem momentC_rec (k r : ℕ) :
    2 * alphaC k * momentC k (r + 1) = (2 * r + 1) * momentC k r - 2 * 3 ^ (2 * r + 1) * cexp (-9 * alphaC k) := by
  have hd : ∀ x ∈ Set.uIcc (-3 : ℝ) 3, HasDerivAt (fun x : ℝ => (x : ℂ) ^ (2 * r + 1) * cexp (-alphaC k * (x : ℂ) ^ 2))
      ((2 * r + 1) * ((x : ℂ) ^ (2 * r) * cexp (-alphaC k * (x : ℂ) ^ 2)) -
        2 * alphaC k * ((x : ℂ) ^ (2 * (r + 1)) * cexp (-alphaC k * (x : ℂ) ^ 2))) x := fun x _ => by
    have h1 : HasDerivAt (fun z : ℂ => z ^ (2 * r + 1) * cexp (-alphaC k * z ^ 2))
        ((((2 * r + 1 : ℕ) : ℂ) * (x : ℂ) ^ (2 * r)) * cexp (-alphaC k * (x : ℂ) ^ 2) +
          (x : ℂ) ^ (2 * r + 1) * (cexp (-alphaC k * (x : ℂ) ^ 2) * (-alphaC k * ((2 : ℕ) * (x : ℂ) ^ (2 - 1))))) (x : ℂ) :=
      (hasDerivAt_pow (2 * r + 1) (x : ℂ)).mul (((hasDerivAt_pow 2 (x : ℂ)).const_mul (-alphaC k)).cexp)
    refine h1.comp_ofReal.congr_deriv ?_
    push_cast
    rw [show 2 * (r + 1) = 2 * r + 1 + 1 by ring, pow_succ _ (2 * r + 1), pow_succ _ (2 * r)]
    ring
  have hc : Continuous fun x : ℝ => ((2 * r + 1) * ((x : ℂ) ^ (2 * r) * cexp (-alphaC k * (x : ℂ) ^ 2)) -
        2 * alphaC k * ((x : ℂ) ^ (2 * (r + 1)) * cexp (-alphaC k * (x : ℂ) ^ 2)) : ℂ) := by fun_prop
  have h := intervalIntegral.integral_eq_sub_of_hasDerivAt hd (hc.intervalIntegrable _ _)
  have c1 : Continuous fun x : ℝ => ((2 * r + 1) * ((x : ℂ) ^ (2 * r) * cexp (-alphaC k * (x : ℂ) ^ 2)) : ℂ) := by fun_prop
  have c2 : Continuous fun x : ℝ => (2 * alphaC k * ((x : ℂ) ^ (2 * (r + 1)) * cexp (-alphaC k * (x : ℂ) ^ 2)) : ℂ) := by fun_prop
  rw [intervalIntegral.integral_sub (c1.intervalIntegrable _ _) (c2.intervalIntegrable _ _),
    intervalIntegral.integral_const_mul, intervalIntegral.integral_const_mul] at h
  change (2 * r + 1) * momentC k r - 2 * alphaC k * momentC k (r + 1) = _ at h
  have e : ((3 : ℝ) : ℂ) ^ (2 * r + 1) * cexp (-alphaC k * ((3 : ℝ) : ℂ) ^ 2) -
      ((-3 : ℝ) : ℂ) ^ (2 * r + 1) * cexp (-alphaC k * ((-3 : ℝ) : ℂ) ^ 2) = 2 * 3 ^ (2 * r + 1) * cexp (-9 * alphaC k) := by
    push_cast
    rw [Odd.neg_pow ⟨r, rfl⟩, neg_sq, show -alphaC k * (3 : ℂ) ^ 2 = -9 * alphaC k by ring]
    ring
  rw [e] at h
  linear_combination -h

theorem momentC_norm (k r : ℕ) : ‖momentC k r‖ ≤ 6 * 9 ^ r := by
  have h : ∀ x ∈ Set.uIoc (-3 : ℝ) 3, ‖(x : ℂ) ^ (2 * r) * cexp (-alphaC k * (x : ℂ) ^ 2)‖ ≤ 9 ^ r := fun x hx => by
    rw [Set.uIoc_of_le (by norm_num)] at hx
    have hx2 : x ^ 2 ≤ 9 := by nlinarith [hx.1, hx.2]
    rw [norm_mul, norm_pow, Complex.norm_real, Real.norm_eq_abs, pow_mul, sq_abs]
    have := mul_le_mul (pow_le_pow_left₀ (sq_nonneg x) hx2 r) (cexp_norm_le k x) (norm_nonneg _) (by positivity)
    rwa [mul_one] at this
  have := intervalIntegral.norm_integral_le_of_norm_le_const h
  rw [show |(3 : ℝ) - -3| = 6 by norm_num] at this
  rw [momentC]
  linarith

/-- The first moment and the boundary value. -/
theorem hennigCheck_spec {k N : ℕ} {h e : GI} (hc : hennigCheck k N h e = true) :
    ‖momentC k 0 - h.toC / 10 ^ 30‖ ≤ 2e-29 ∧ ‖cexp (-9 * alphaC k) - e.toC / 10 ^ 30‖ ≤ 2e-29 := by
  simp only [hennigCheck, Bool.and_eq_true, Nat.ble_eq, Nat.mul_eq, Nat.add_eq, Nat.pow_eq, pow10] at hc
  obtain ⟨⟨⟨⟨⟨c1, c2⟩, c3⟩, c4⟩, c5⟩, c6⟩ := hc
  rw [facN_eq] at c6
  have hN : (0 : ℝ) < (N.factorial : ℝ) := by exact_mod_cast N.factorial_pos
  have hNc : (N.factorial : ℂ) ≠ 0 := by exact_mod_cast N.factorial_ne_zero
  have hDc : ((2 * N).factorial : ℂ) ≠ 0 := by exact_mod_cast (2 * N).factorial_ne_zero
  -- the error of the Taylor polynomial
  have ht : ∀ x : ℝ, x ^ 2 ≤ 9 → ‖cexp (-alphaC k * (x : ℂ) ^ 2) - ∑ n ∈ range N, (-alphaC k * (x : ℂ) ^ 2) ^ n / (n.factorial : ℂ)‖ ≤ 2 / 10 ^ 30 := by
    intro x hx
    have hz : ‖-alphaC k * (x : ℂ) ^ 2‖ ≤ 27 * k + 9 := by
      rw [norm_mul, norm_neg, norm_pow, Complex.norm_real, Real.norm_eq_abs, sq_abs]
      have := mul_le_mul (alpha_norm_le k) hx (sq_nonneg x) (by positivity)
      linarith
    have hz2 : ‖-alphaC k * (x : ℂ) ^ 2‖ / (N.succ : ℝ) ≤ 1 / 2 := by
      rw [div_le_iff₀ (by positivity)]
      have : (2 : ℝ) * (27 * k + 9) ≤ (N.succ : ℝ) := by exact_mod_cast c5
      linarith
    refine (Complex.exp_bound' hz2).trans ?_
    have : ((27 : ℝ) * k + 9) ^ N * 10 ^ 30 ≤ (N.factorial : ℝ) := by exact_mod_cast c6
    have h1 : ‖-alphaC k * (x : ℂ) ^ 2‖ ^ N / (N.factorial : ℝ) ≤ 1 / 10 ^ 30 := by
      rw [div_le_div_iff₀ hN (by positivity), one_mul]
      exact (mul_le_mul_of_nonneg_right (pow_le_pow_left₀ (norm_nonneg _) hz N) (by positivity)).trans this
    linarith
  constructor
  · have r := ratio_norm (z := GI.smul 6 (hornerSteps (gaussCoef N) (betaGI k) N N))
      (by rw [facN_eq, facN_eq]; exact Nat.mul_pos (Nat.factorial_pos _) (Nat.factorial_pos _)) c3 c4
    rw [GI.toC_smul, horner_eq, facN_eq, facN_eq] at r
    have hs : (∫ x in (-3 : ℝ)..3, ∑ n ∈ range N, (-alphaC k * (x : ℂ) ^ 2) ^ n / (n.factorial : ℂ)) =
        ((6 : ℕ) : ℂ) * (∑ n ∈ range N, (gaussCoef N n : ℂ) * (betaGI k).toC ^ n) / ((N.factorial * (2 * N).factorial : ℕ) : ℂ) := by
      rw [intervalIntegral.integral_finset_sum fun n _ => Continuous.intervalIntegrable (by fun_prop) _ _, mul_sum, sum_div]
      refine sum_congr rfl fun n hn => ?_
      have e1 : ∀ x : ℝ, (-alphaC k * (x : ℂ) ^ 2) ^ n / (n.factorial : ℂ) = (-alphaC k) ^ n / (n.factorial : ℂ) * ((x ^ (2 * n) : ℝ) : ℂ) := fun x => by
        rw [mul_pow, ← pow_mul]; push_cast; ring
      simp only [e1]
      rw [intervalIntegral.integral_const_mul, intervalIntegral.integral_ofReal, integral_even_pow, gaussCoef_eq (mem_range.1 hn), beta_eq,
        show -9 * alphaC k = 9 * -alphaC k by ring, mul_pow 9, pow_succ, pow_mul]
      have : (n.factorial : ℂ) ≠ 0 := by exact_mod_cast n.factorial_ne_zero
      have h2 : (2 * (n : ℂ) + 1) ≠ 0 := by exact_mod_cast (2 * n).succ_ne_zero
      push_cast
      field_simp
      norm_num
      ring
    have hpt : ∀ x ∈ Set.uIoc (-3 : ℝ) 3, ‖(x : ℂ) ^ (2 * 0) * cexp (-alphaC k * (x : ℂ) ^ 2) -
        ∑ n ∈ range N, (-alphaC k * (x : ℂ) ^ 2) ^ n / (n.factorial : ℂ)‖ ≤ 2 / 10 ^ 30 := fun x hx => by
      rw [Set.uIoc_of_le (by norm_num)] at hx
      rw [mul_zero, pow_zero, one_mul]
      exact ht x (by nlinarith [hx.1, hx.2])
    have hi := intervalIntegral.norm_integral_le_of_norm_le_const hpt
    rw [intervalIntegral.integral_sub (Continuous.intervalIntegrable (by fun_prop) _ _) (Continuous.intervalIntegrable (by fun_prop) _ _), hs] at hi
    change ‖momentC k 0 - _‖ ≤ _ at hi
    refine (norm_sub_le_norm_sub_add_norm_sub _ _ _).trans ((add_le_add hi r).trans ?_)
    rw [show |(3 : ℝ) - -3| = 6 by norm_num]
    norm_num
  · have r := ratio_norm (z := hornerSteps (expCoef N) (betaGI k) N N) (by rw [facN_eq]; exact Nat.factorial_pos _) c1 c2
    rw [horner_eq, facN_eq] at r
    have h3 := ht 3 (by norm_num)
    have hs : ∑ n ∈ range N, (-alphaC k * ((3 : ℝ) : ℂ) ^ 2) ^ n / (n.factorial : ℂ) =
        (∑ n ∈ range N, (expCoef N n : ℂ) * (betaGI k).toC ^ n) / (N.factorial : ℂ) := by
      rw [sum_div]
      refine sum_congr rfl fun n hn => ?_
      rw [expCoef_eq (mem_range.1 hn).le, beta_eq]
      have : (n.factorial : ℂ) ≠ 0 := by exact_mod_cast n.factorial_ne_zero
      push_cast
      rw [show -alphaC k * (3 : ℂ) ^ 2 = -9 * alphaC k by ring]
      field_simp
    rw [hs, show -alphaC k * ((3 : ℝ) : ℂ) ^ 2 = -9 * alphaC k by push_cast; ring] at h3
    refine (norm_sub_le_norm_sub_add_norm_sub _ _ _).trans ((add_le_add h3 r).trans ?_)
    norm_num

/-! ## The approximate moments -/

noncomputable def approxC (k : ℕ) (h e : GI) (r : ℕ) : ℂ := (momentGI k h e r).toC / (10 ^ 30 * (modNum k : ℂ) ^ r)

theorem modNum_eq (k : ℕ) : (modNum k : ℂ) = 2 * (alphaC k * (1 + 3 * k * I)) := by
  unfold modNum alphaC
  simp only [Nat.mul_eq, Nat.add_eq]
  push_cast
  ring_nf
  rw [Complex.I_sq]
  ring

theorem modNum_ne (k : ℕ) : (modNum k : ℂ) ≠ 0 := by
  have : 0 < modNum k := by
    unfold modNum
    simp only [Nat.mul_eq, Nat.add_eq]
    positivity
  exact_mod_cast this.ne'

theorem approxC_rec (k : ℕ) (h e : GI) (r : ℕ) :
    2 * alphaC k * approxC k h e (r + 1) = (2 * r + 1) * approxC k h e r - 2 * 3 ^ (2 * r + 1) * (e.toC / 10 ^ 30) := by
  have e1 : momentGI k h e (r + 1) = GI.mul ⟨Int.ofNat 1, Int.ofNat (Nat.mul 3 k)⟩
    (GI.sub (GI.smul (Nat.add (Nat.mul 2 r) 1) (momentGI k h e r))
      (GI.smul (Nat.mul (Nat.mul 2 (Nat.pow 3 (Nat.add (Nat.mul 2 r) 1))) (Nat.pow (modNum k) r)) e)) := rfl
  have e2 : GI.toC ⟨Int.ofNat 1, Int.ofNat (Nat.mul 3 k)⟩ = 1 + 3 * k * I := by
    apply Complex.ext <;> simp [GI.toC]
  have hq := modNum_ne k
  rw [approxC, approxC, e1, GI.toC_mul, GI.toC_sub, GI.toC_smul, GI.toC_smul, e2]
  simp only [Nat.mul_eq, Nat.add_eq, Nat.pow_eq]
  push_cast
  rw [pow_succ (modNum k : ℂ)]
  field_simp
  rw [modNum_eq]
  ring

/-- The growth of the error. -/
def errQ : ℕ → ℚ
  | 0 => 1
  | r + 1 => ((2 * r + 1) * errQ r + 2 * 3 ^ (2 * r + 1)) / 2

theorem errQ_nonneg : ∀ r, 0 ≤ errQ r
  | 0 => by simp [errQ]
  | r + 1 => by
    have := errQ_nonneg r
    rw [errQ]
    positivity

theorem approxC_error {k : ℕ} {h e : GI} (h0 : ‖momentC k 0 - h.toC / 10 ^ 30‖ ≤ 2e-29)
    (h1 : ‖cexp (-9 * alphaC k) - e.toC / 10 ^ 30‖ ≤ 2e-29) : ∀ r, ‖momentC k r - approxC k h e r‖ ≤ errQ r * 2e-29
  | 0 => by
    rw [approxC, pow_zero, mul_one, errQ, Rat.cast_one, one_mul]
    exact h0
  | r + 1 => by
    have ih := approxC_error h0 h1 r
    have e1 : 2 * alphaC k * (momentC k (r + 1) - approxC k h e (r + 1)) =
        (2 * r + 1) * (momentC k r - approxC k h e r) - 2 * 3 ^ (2 * r + 1) * (cexp (-9 * alphaC k) - e.toC / 10 ^ 30) := by
      rw [mul_sub, momentC_rec, approxC_rec]; ring
    have n1 : ‖2 * alphaC k * (momentC k (r + 1) - approxC k h e (r + 1))‖ ≤
        (2 * r + 1) * (errQ r * 2e-29) + 2 * 3 ^ (2 * r + 1) * 2e-29 := by
      rw [e1]
      refine (norm_sub_le _ _).trans (add_le_add ?_ ?_)
      · rw [norm_mul]
        have : ‖(2 * (r : ℂ) + 1)‖ = 2 * r + 1 := by
          rw [show (2 * (r : ℂ) + 1) = ((2 * r + 1 : ℝ) : ℂ) by push_cast; rfl, Complex.norm_real, Real.norm_of_nonneg (by positivity)]
        rw [this]
        exact mul_le_mul_of_nonneg_left ih (by positivity)
      · rw [norm_mul]
        have : ‖(2 * (3 : ℂ) ^ (2 * r + 1))‖ = 2 * 3 ^ (2 * r + 1) := by
          rw [norm_mul, norm_pow]; norm_num
        rw [this]
        exact mul_le_mul_of_nonneg_left h1 (by positivity)
    rw [norm_mul, norm_mul] at n1
    have ha := one_le_alpha k
    have hn := norm_nonneg (momentC k (r + 1) - approxC k h e (r + 1))
    have n2 : 2 * ‖momentC k (r + 1) - approxC k h e (r + 1)‖ ≤ ‖(2 : ℂ)‖ * ‖alphaC k‖ * ‖momentC k (r + 1) - approxC k h e (r + 1)‖ := by
      rw [Complex.norm_ofNat]
      nlinarith
    rw [errQ]
    push_cast
    linarith

/-! ## The sums of the squares -/

theorem squaresGI_eq (k : ℕ) (h e : GI) (R : ℕ) : ∀ m, m ≤ R →
    (squaresGI k h e R m).toC / (squaresDen k R : ℂ) = ∑ r ∈ range m, approxC k h e r ^ 2 / ((2 * r).factorial : ℂ)
  | 0, _ => by
    rw [sum_range_zero, show squaresGI k h e R 0 = ⟨Int.ofNat 0, Int.ofNat 0⟩ from rfl, GI.toC_zero, zero_div]
  | m + 1, hm => by
    have ih := squaresGI_eq k h e R m (by omega)
    have e1 : squaresGI k h e R (m + 1) = GI.add (squaresGI k h e R m)
      (GI.smul (Nat.mul (Nat.pow (modNum k) (Nat.mul 2 (Nat.sub R m))) (Nat.div (facN (Nat.mul 2 R)) (facN (Nat.mul 2 m))))
        (GI.mul (momentGI k h e m) (momentGI k h e m))) := rfl
    rw [e1, GI.toC_add, GI.toC_smul, GI.toC_mul, sum_range_succ, ← ih, add_div]
    congr 1
    have hq := modNum_ne k
    have hf : ((2 * m).factorial : ℂ) ≠ 0 := by exact_mod_cast (2 * m).factorial_ne_zero
    have hF : ((2 * R).factorial : ℂ) ≠ 0 := by exact_mod_cast (2 * R).factorial_ne_zero
    have c1 : ((Nat.mul (Nat.pow (modNum k) (Nat.mul 2 (Nat.sub R m))) (Nat.div (facN (Nat.mul 2 R)) (facN (Nat.mul 2 m))) : ℕ) : ℂ) =
        (modNum k : ℂ) ^ (2 * (R - m)) * (((2 * R).factorial : ℂ) / ((2 * m).factorial : ℂ)) := by
      simp only [facN_eq, natDiv_eq, Nat.mul_eq, Nat.pow_eq, Nat.sub_eq]
      rw [Nat.cast_mul, Nat.cast_div (Nat.factorial_dvd_factorial (by omega)) hf]
      push_cast; rfl
    have c2 : (squaresDen k R : ℂ) = (modNum k : ℂ) ^ (2 * R) * ((2 * R).factorial : ℂ) * 10 ^ 60 := by
      unfold squaresDen pow10
      simp only [facN_eq, Nat.mul_eq, Nat.pow_eq]
      push_cast
      norm_num
    have c3 : (modNum k : ℂ) ^ (2 * R) = (modNum k : ℂ) ^ (2 * (R - m)) * ((modNum k : ℂ) ^ m * (modNum k : ℂ) ^ m) := by
      rw [← pow_add, ← pow_add]
      congr 1
      omega
    rw [c1, c2, approxC, c3]
    field_simp

theorem squaresCheck_spec {k R : ℕ} {h e v : GI} (hc : squaresCheck k R h e v = true) :
    ‖∑ r ∈ range R, approxC k h e r ^ 2 / ((2 * r).factorial : ℂ) - v.toC / 10 ^ 20‖ ≤ 2 / 10 ^ 20 := by
  simp only [squaresCheck, Bool.and_eq_true] at hc
  have h1 := closeTo_iff hc.1
  have h2 := closeTo_iff hc.2
  rw [← squaresGI_eq k h e R R le_rfl]
  have hD : 0 < squaresDen k R := by
    unfold squaresDen modNum pow10
    simp only [facN_eq, Nat.mul_eq, Nat.pow_eq, Nat.add_eq]
    positivity
  have hD' : (0 : ℝ) < squaresDen k R := by exact_mod_cast hD
  have key : ∀ a w : ℤ, |((Int.mul a (Int.ofNat (pow10 20)) : ℤ) : ℝ) - ((Int.mul w (Int.ofNat (squaresDen k R)) : ℤ) : ℝ)| ≤ (squaresDen k R : ℝ) →
      |(a : ℝ) / squaresDen k R - w / 10 ^ 20| ≤ 1 / 10 ^ 20 := fun a w h => by
    have e1 : ((Int.mul a (Int.ofNat (pow10 20)) : ℤ) : ℝ) = a * 10 ^ 20 := by
      rw [Int.mul_def]; push_cast [pow10]; norm_num
    have e2 : ((Int.mul w (Int.ofNat (squaresDen k R)) : ℤ) : ℝ) = w * squaresDen k R := by
      rw [Int.mul_def]; push_cast; rfl
    rw [e1, e2] at h
    rw [show (a : ℝ) / squaresDen k R - w / 10 ^ 20 = (a * 10 ^ 20 - w * squaresDen k R) / (squaresDen k R * 10 ^ 20) by field_simp, abs_div,
      abs_of_pos (show 0 < (squaresDen k R : ℝ) * 10 ^ 20 by positivity), div_le_div_iff₀ (by positivity) (by positivity), ← mul_assoc, one_mul]
    exact mul_le_mul_of_nonneg_right h (by positivity)
  refine (Complex.norm_le_abs_re_add_abs_im _).trans ?_
  have e1 : (squaresGI k h e R R).toC / (squaresDen k R : ℂ) = (squaresGI k h e R R).toC / ((squaresDen k R : ℝ) : ℂ) := by push_cast; rfl
  have e2 : v.toC / (10 : ℂ) ^ 20 = v.toC / (((10 : ℝ) ^ 20 : ℝ) : ℂ) := by push_cast; rfl
  rw [e1, e2, Complex.sub_re, Complex.div_ofReal_re, Complex.div_ofReal_re, Complex.sub_im, Complex.div_ofReal_im, Complex.div_ofReal_im]
  refine (add_le_add (key _ _ h1) (key _ _ h2)).trans (le_of_eq ?_)
  ring

theorem errQ_sum : ∑ r ∈ range 26, errQ r * (2 / 10 ^ 29) * (12 * 9 ^ r + errQ r * (2 / 10 ^ 29)) / ((2 * r).factorial : ℚ) ≤ 1 / 10 ^ 15 := by
  decide +kernel

/-- The sum of the squares of the moments. -/
theorem moments_value {k N : ℕ} {h e v : GI} (h1 : hennigCheck k N h e = true) (h2 : squaresCheck k 26 h e v = true) :
    ‖∑ r ∈ range 26, momentC k r ^ 2 / ((2 * r).factorial : ℂ) - v.toC / 10 ^ 20‖ ≤ 1.1e-15 := by
  obtain ⟨a, b⟩ := hennigCheck_spec h1
  have hd : ‖∑ r ∈ range 26, momentC k r ^ 2 / ((2 * r).factorial : ℂ) - ∑ r ∈ range 26, approxC k h e r ^ 2 / ((2 * r).factorial : ℂ)‖ ≤
      ((∑ r ∈ range 26, errQ r * (2 / 10 ^ 29) * (12 * 9 ^ r + errQ r * (2 / 10 ^ 29)) / ((2 * r).factorial : ℚ) : ℚ) : ℝ) := by
    rw [← sum_sub_distrib, Rat.cast_sum]
    refine (norm_sum_le _ _).trans (sum_le_sum fun r _ => ?_)
    have d := approxC_error a b r
    have m := momentC_norm k r
    rw [show (2e-29 : ℝ) = 2 / 10 ^ 29 by norm_num] at d
    have m2 : ‖momentC k r + approxC k h e r‖ ≤ 12 * 9 ^ r + errQ r * (2 / 10 ^ 29) := by
      rw [show momentC k r + approxC k h e r = 2 * momentC k r - (momentC k r - approxC k h e r) by ring]
      refine (norm_sub_le _ _).trans (add_le_add ?_ d)
      rw [norm_mul, Complex.norm_ofNat]
      linarith
    rw [← sub_div, sq_sub_sq, norm_div, norm_mul, Complex.norm_natCast, mul_comm ‖momentC k r + _‖]
    push_cast
    have hq : (0 : ℝ) ≤ errQ r := by exact_mod_cast errQ_nonneg r
    exact div_le_div_of_nonneg_right (mul_le_mul d m2 (norm_nonneg _) (by positivity)) (by positivity)
  have hq : ((∑ r ∈ range 26, errQ r * (2 / 10 ^ 29) * (12 * 9 ^ r + errQ r * (2 / 10 ^ 29)) / ((2 * r).factorial : ℚ) : ℚ) : ℝ) ≤
      ((1 / 10 ^ 15 : ℚ) : ℝ) := by exact_mod_cast errQ_sum
  refine (norm_sub_le_norm_sub_add_norm_sub _ _ _).trans ((add_le_add (hd.trans hq) (squaresCheck_spec h2)).trans ?_)
  norm_num

/-! ## The plane -/

theorem integral_boxC (f : Fin 2 → ℝ → ℂ) :
    ∫ t in Set.Icc (fun _ : Fin 2 => (-3 : ℝ)) (fun _ => 3), ∏ i, f i (t i) = ∏ i, ∫ t in (-3 : ℝ)..3, f i t := by
  rw [← Set.pi_univ_Icc, volume_pi, Measure.restrict_pi_pi, integral_fintype_prod_eq_prod]
  refine Finset.prod_congr rfl fun i _ => ?_
  rw [intervalIntegral.integral_of_le (by norm_num), integral_Icc_eq_integral_Ioc]

theorem integrable_boxC {g : (Fin 2 → ℝ) → ℂ} (hg : Continuous g) : IntegrableOn g (Set.Icc (fun _ : Fin 2 => (-3 : ℝ)) fun _ => 3) :=
  hg.continuousOn.integrableOn_compact isCompact_Icc

theorem volume_box3 : volume.real (Set.Icc (fun _ : Fin 2 => (-3 : ℝ)) fun _ => 3) = 36 := by
  rw [Measure.real, Real.volume_Icc_pi]
  norm_num [Fin.prod_univ_two]

theorem odd_moment (k r : ℕ) : ∫ x in (-3 : ℝ)..3, (x : ℂ) ^ (2 * r + 1) * cexp (-alphaC k * (x : ℂ) ^ 2) = 0 := by
  have h := intervalIntegral.integral_comp_neg (a := (-3 : ℝ)) (b := 3) fun x : ℝ => (x : ℂ) ^ (2 * r + 1) * cexp (-alphaC k * (x : ℂ) ^ 2)
  have e : ∀ x : ℝ, ((-x : ℝ) : ℂ) ^ (2 * r + 1) * cexp (-alphaC k * ((-x : ℝ) : ℂ) ^ 2) =
      -((x : ℂ) ^ (2 * r + 1) * cexp (-alphaC k * (x : ℂ) ^ 2)) := fun x => by
    push_cast
    rw [Odd.neg_pow ⟨r, rfl⟩, neg_sq]
    ring
  simp only [e, neg_neg] at h
  rw [intervalIntegral.integral_neg] at h
  generalize (∫ x in (-3 : ℝ)..3, (x : ℂ) ^ (2 * r + 1) * cexp (-alphaC k * (x : ℂ) ^ 2)) = z at h ⊢
  linear_combination (-1 / 2 : ℂ) * h

theorem sum_range_two_mul (f : ℕ → ℂ) : ∀ R, ∑ p ∈ range (2 * R), f p = ∑ r ∈ range R, (f (2 * r) + f (2 * r + 1))
  | 0 => by simp
  | R + 1 => by
    rw [show 2 * (R + 1) = 2 * R + 1 + 1 by ring, sum_range_succ, sum_range_succ, sum_range_succ, sum_range_two_mul f R]
    ring

noncomputable def planeC (k : ℕ) : ℂ := ∫ x in Set.Icc (fun _ : Fin 2 => (-3 : ℝ)) (fun _ => 3),
  cexp (-((x 0 : ℂ) * (x 1 : ℂ))) * (cexp (-alphaC k * (x 0 : ℂ) ^ 2) * cexp (-alphaC k * (x 1 : ℂ) ^ 2))

theorem plane_taylor (k R : ℕ) : ∫ x in Set.Icc (fun _ : Fin 2 => (-3 : ℝ)) (fun _ => 3),
    (∑ p ∈ range (2 * R), (-((x 0 : ℂ) * (x 1 : ℂ))) ^ p / (p.factorial : ℂ)) *
      (cexp (-alphaC k * (x 0 : ℂ) ^ 2) * cexp (-alphaC k * (x 1 : ℂ) ^ 2)) =
    ∑ r ∈ range R, momentC k r ^ 2 / ((2 * r).factorial : ℂ) := by
  have e : ∀ x : Fin 2 → ℝ, (∑ p ∈ range (2 * R), (-((x 0 : ℂ) * (x 1 : ℂ))) ^ p / (p.factorial : ℂ)) *
      (cexp (-alphaC k * (x 0 : ℂ) ^ 2) * cexp (-alphaC k * (x 1 : ℂ) ^ 2)) =
      ∑ p ∈ range (2 * R), (-1) ^ p / (p.factorial : ℂ) * ∏ i : Fin 2, ((x i : ℂ) ^ p * cexp (-alphaC k * (x i : ℂ) ^ 2)) := fun x => by
    rw [sum_mul]
    refine sum_congr rfl fun p _ => ?_
    rw [Fin.prod_univ_two, neg_pow, mul_pow]
    ring
  simp only [e]
  rw [integral_finset_sum _ fun p _ => integrable_boxC (by fun_prop), sum_range_two_mul]
  refine sum_congr rfl fun r _ => ?_
  rw [integral_const_mul, integral_const_mul, integral_boxC fun _ t => (t : ℂ) ^ (2 * r) * cexp (-alphaC k * (t : ℂ) ^ 2),
    integral_boxC fun _ t => (t : ℂ) ^ (2 * r + 1) * cexp (-alphaC k * (t : ℂ) ^ 2), Fin.prod_univ_two, Fin.prod_univ_two, odd_moment,
    Even.neg_one_pow ⟨r, by ring⟩]
  change 1 / _ * (momentC k r * momentC k r) + _ = _
  ring

theorem plane_value {k N : ℕ} {h e v : GI} (h1 : hennigCheck k N h e = true) (h2 : squaresCheck k 26 h e v = true) :
    ‖planeC k - v.toC / 10 ^ 20‖ ≤ 2e-15 := by
  have hpt : ∀ x ∈ Set.Icc (fun _ : Fin 2 => (-3 : ℝ)) (fun _ => 3),
      ‖cexp (-((x 0 : ℂ) * (x 1 : ℂ))) * (cexp (-alphaC k * (x 0 : ℂ) ^ 2) * cexp (-alphaC k * (x 1 : ℂ) ^ 2)) -
        (∑ p ∈ range (2 * 26), (-((x 0 : ℂ) * (x 1 : ℂ))) ^ p / (p.factorial : ℂ)) *
          (cexp (-alphaC k * (x 0 : ℂ) ^ 2) * cexp (-alphaC k * (x 1 : ℂ) ^ 2))‖ ≤ 2e-18 := by
    intro x hx
    have b : ∀ i, |x i| ≤ 3 := fun i => abs_le.2 ⟨hx.1 i, hx.2 i⟩
    have hz : ‖-((x 0 : ℂ) * (x 1 : ℂ))‖ ≤ 9 := by
      rw [norm_neg, norm_mul, Complex.norm_real, Complex.norm_real, Real.norm_eq_abs, Real.norm_eq_abs]
      have := mul_le_mul (b 0) (b 1) (abs_nonneg _) (by norm_num)
      linarith
    have ht := Complex.exp_bound' (x := -((x 0 : ℂ) * (x 1 : ℂ))) (n := 2 * 26) (by
      rw [div_le_iff₀ (by positivity)]
      refine hz.trans ?_
      norm_num)
    have hp : ‖-((x 0 : ℂ) * (x 1 : ℂ))‖ ^ (2 * 26) / ((2 * 26).factorial : ℝ) * 2 ≤ 2e-18 := by
      have := pow_le_pow_left₀ (norm_nonneg _) hz (2 * 26)
      refine (mul_le_mul_of_nonneg_right (div_le_div_of_nonneg_right this (by positivity)) (by norm_num)).trans ?_
      norm_num [Nat.factorial]
    rw [← sub_mul, norm_mul, norm_mul]
    have hm := mul_le_mul (cexp_norm_le k (x 0)) (cexp_norm_le k (x 1)) (norm_nonneg _) (by norm_num)
    have := mul_le_mul (ht.trans hp) hm (mul_nonneg (norm_nonneg _) (norm_nonneg _)) (by norm_num)
    rwa [one_mul, mul_one] at this
  have hi := norm_setIntegral_le_of_norm_le_const (by rw [Real.volume_Icc_pi]; exact ENNReal.prod_lt_top fun i _ => ENNReal.ofReal_lt_top) hpt
  rw [integral_sub (integrable_boxC (by fun_prop)) (integrable_boxC (by fun_prop)), plane_taylor, volume_box3] at hi
  change ‖planeC k - _‖ ≤ _ at hi
  refine (norm_sub_le_norm_sub_add_norm_sub _ _ _).trans ((add_le_add hi (moments_value h1 h2)).trans ?_)
  norm_num

/-! ## Real integrals -/

/-- The integrals of the Gaussian times the cosine of `k (3 r² + π / 2)`. -/
noncomputable def wave (k : ℕ) : ℝ := ∫ x in Set.Icc (fun _ : Fin 2 => (-3 : ℝ)) (fun _ => 3),
  Real.exp (-(x 0 ^ 2 + x 0 * x 1 + x 1 ^ 2)) * Real.cos (k * (3 * (x 0 ^ 2 + x 1 ^ 2) + Real.pi / 2))

theorem wave_eq (k : ℕ) : wave k = (I ^ k * planeC k).re := by
  rw [planeC, ← integral_const_mul]
  have h := Complex.reCLM.integral_comp_comm (integrable_boxC (g := fun x => I ^ k * (cexp (-((x 0 : ℂ) * (x 1 : ℂ))) *
    (cexp (-alphaC k * (x 0 : ℂ) ^ 2) * cexp (-alphaC k * (x 1 : ℂ) ^ 2)))) (by fun_prop))
  simp only [Complex.reCLM_apply] at h
  rw [← h, wave]
  refine integral_congr_ae (.of_forall fun x => ?_)
  beta_reduce
  have hI : I ^ k = cexp ((k * (Real.pi / 2) : ℝ) * I) := by
    have hI1 : cexp (Real.pi / 2 * I) = I := Complex.exp_pi_div_two_mul_I
    conv_lhs => rw [← hI1]
    rw [← Complex.exp_nat_mul]
    congr 1
    push_cast
    ring
  rw [hI, ← Complex.exp_add, ← Complex.exp_add, ← Complex.exp_add]
  have : ((k * (Real.pi / 2) : ℝ) : ℂ) * I + (-((x 0 : ℂ) * (x 1 : ℂ)) + (-alphaC k * (x 0 : ℂ) ^ 2 + -alphaC k * (x 1 : ℂ) ^ 2)) =
      ((-(x 0 ^ 2 + x 0 * x 1 + x 1 ^ 2) : ℝ) : ℂ) + ((k * (3 * (x 0 ^ 2 + x 1 ^ 2) + Real.pi / 2) : ℝ) : ℂ) * I := by
    rw [alphaC]
    push_cast
    ring
  rw [this, Complex.exp_add, ← Complex.ofReal_exp, Complex.re_ofReal_mul, Complex.exp_ofReal_mul_I_re]

theorem wave_value {k N : ℕ} {h e v : GI} {c : ℝ} (h1 : hennigCheck k N h e = true) (h2 : squaresCheck k 26 h e v = true)
    (hv : (I ^ k * v.toC).re = c) : |wave k - c / 10 ^ 20| ≤ 2e-15 := by
  have e1 : wave k - c / 10 ^ 20 = (I ^ k * (planeC k - v.toC / 10 ^ 20)).re := by
    rw [wave_eq, mul_sub, Complex.sub_re, ← hv, ← mul_div_assoc]
    congr 1
    rw [show (10 : ℂ) ^ 20 = (((10 : ℝ) ^ 20 : ℝ) : ℂ) by push_cast; rfl, Complex.div_ofReal_re]
  rw [e1]
  refine (Complex.abs_re_le_norm _).trans ?_
  rw [norm_mul, norm_pow, Complex.norm_I, one_pow, one_mul]
  exact plane_value h1 h2

end Probnum.Zoo
