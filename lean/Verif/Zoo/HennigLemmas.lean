import Verif.Zoo.HennigNumbers
import Mathlib.Analysis.Complex.Exponential
import Mathlib.Analysis.SpecialFunctions.Trigonometric.Basic

/-!
# The value of the integral of the function `hennig1d`: error bounds
-/

namespace Probnum.Zoo

open Finset MeasureTheory

theorem expTaylor_succ (n : ℕ) (u : ℝ) : expTaylor (n + 1) u = expTaylor n u + (-1) ^ n * u ^ n / (n.factorial : ℝ) := by
  rw [expTaylor, sum_range_succ]; rfl

theorem expTaylor_error (n : ℕ) {u : ℝ} (hu : 0 ≤ u) : |Real.exp (-u) - expTaylor n u| ≤ u ^ n / (n.factorial : ℝ) := by
  have h0 := expTaylor_sign n u hu
  have h1 := expTaylor_sign (n + 1) u hu
  rw [expTaylor_succ] at h1
  have hn : (0 : ℝ) < (n.factorial : ℝ) := by exact_mod_cast n.factorial_pos
  rcases neg_one_pow_eq_or ℝ n with h | h <;> rw [pow_succ, h] at h1 <;> rw [h] at h0 <;>
    rw [abs_le] <;> constructor <;> have := div_nonneg (pow_nonneg hu n) hn.le <;>
    simp only [neg_mul, one_mul, mul_neg, mul_one, neg_div, neg_neg] at h0 h1 <;> linarith

theorem cosTaylor_succ (n : ℕ) (x : ℝ) :
    cosTaylor (n + 1) x = cosTaylor n x + (-1) ^ n * x ^ (2 * n) / ((2 * n).factorial : ℝ) := by
  rw [cosTaylor, sum_range_succ]; rfl

theorem cosTaylor_even (n : ℕ) (x : ℝ) : cosTaylor n (-x) = cosTaylor n x := by
  rw [cosTaylor, cosTaylor]
  refine sum_congr rfl fun k _ => ?_
  rw [pow_mul (-x), neg_sq, pow_mul x]

theorem cosTaylor_error (n : ℕ) (x : ℝ) : |Real.cos x - cosTaylor (n + 1) x| ≤ x ^ (2 * (n + 1)) / ((2 * (n + 1)).factorial : ℝ) := by
  wlog hx : 0 ≤ x generalizing x
  · have := this (-x) (by linarith)
    rwa [Real.cos_neg, cosTaylor_even, pow_mul (-x), neg_sq, ← pow_mul] at this
  have h0 := (trigTaylor_sign n).1 x hx
  have h1 := (trigTaylor_sign (n + 1)).1 x hx
  rw [cosTaylor_succ (n + 1)] at h1
  have hn : (0 : ℝ) < ((2 * (n + 1)).factorial : ℝ) := by exact_mod_cast (2 * (n + 1)).factorial_pos
  rcases neg_one_pow_eq_or ℝ (n + 1) with h | h <;> rw [pow_succ _ (n + 1), h] at h1 <;> rw [h] at h0 <;>
    rw [abs_le] <;> constructor <;> have := div_nonneg (pow_nonneg hx (2 * (n + 1))) hn.le <;>
    simp only [neg_mul, one_mul, mul_neg, mul_one, neg_div, neg_neg] at h0 h1 <;> linarith

theorem cosTaylor_continuous (n : ℕ) : Continuous (cosTaylor n) := by
  unfold cosTaylor
  fun_prop

/-- The integral of the product of the Taylor polynomials. -/
theorem integral_taylors (J L : ℕ) (ω : ℝ) : ∫ x in (-3 : ℝ)..3, expTaylor J (x ^ 2) * cosTaylor L (ω * x) =
    6 * ∑ j ∈ range J, ∑ l ∈ range L, (-1) ^ (j + l) * (9 ^ j / (j.factorial : ℝ)) * ((3 * ω) ^ (2 * l) / ((2 * l).factorial : ℝ)) /
      (2 * (j + l) + 1) := by
  have e : ∀ x : ℝ, expTaylor J (x ^ 2) * cosTaylor L (ω * x) = ∑ j ∈ range J, ∑ l ∈ range L,
      (-1) ^ (j + l) / (j.factorial : ℝ) * (ω ^ (2 * l) / ((2 * l).factorial : ℝ)) * x ^ (2 * (j + l)) := fun x => by
    rw [expTaylor, cosTaylor, sum_mul_sum]
    refine sum_congr rfl fun j _ => sum_congr rfl fun l _ => ?_
    rw [← pow_mul, mul_pow, pow_add, mul_add 2, pow_add x]
    ring
  simp only [e]
  rw [intervalIntegral.integral_finset_sum fun j _ => Continuous.intervalIntegrable (by fun_prop) _ _, mul_sum]
  refine sum_congr rfl fun j _ => ?_
  rw [intervalIntegral.integral_finset_sum fun l _ => Continuous.intervalIntegrable (by fun_prop) _ _, mul_sum]
  refine sum_congr rfl fun l _ => ?_
  rw [intervalIntegral.integral_const_mul, integral_even_pow, mul_pow, pow_succ 3, mul_add 2 j l, pow_add 3, pow_mul 3 2 j]
  push_cast
  norm_num
  ring

theorem natDiv_eq (a b : ℕ) : Nat.div a b = a / b := rfl

theorem convDen_pos (J L : ℕ) : 0 < convDen J L := by
  unfold convDen monoDen
  simp only [facN_eq, Nat.mul_eq]
  exact Nat.mul_pos (Nat.mul_pos (Nat.factorial_pos _) (Nat.factorial_pos _)) (Nat.factorial_pos _)

/-- What the kernel computed. -/
theorem convNum_eq (J L y : ℕ) :
    ((convNum J L y 0 : ℝ) - (convNum J L y 1 : ℝ)) / (convDen J L : ℝ) =
      ∑ j ∈ range J, ∑ l ∈ range L, (-1) ^ (j + l) * (9 ^ j / (j.factorial : ℝ)) * ((y : ℝ) ^ (2 * l) / ((2 * l).factorial : ℝ)) /
        (2 * (j + l) + 1) := by
  rw [div_eq_iff (by exact_mod_cast (convDen_pos J L).ne'), convNum, convNum]
  simp only [sumN_eq]
  push_cast
  rw [← sum_sub_distrib, sum_mul]
  refine sum_congr rfl fun j hj => ?_
  rw [← sum_sub_distrib, sum_mul]
  refine sum_congr rfl fun l hl => ?_
  have hj' := mem_range.1 hj
  have hl' := mem_range.1 hl
  have d1 : ((expNum J j : ℕ) : ℝ) = 9 ^ j * ((J.factorial : ℝ) / (j.factorial : ℝ)) := by
    unfold expNum
    simp only [facN_eq, Nat.mul_eq, Nat.pow_eq, natDiv_eq]
    rw [Nat.cast_mul, Nat.cast_div (Nat.factorial_dvd_factorial hj'.le) (by exact_mod_cast j.factorial_ne_zero)]
    push_cast; rfl
  have d2 : ((cosNum L y l : ℕ) : ℝ) = (y : ℝ) ^ (2 * l) * (((2 * L).factorial : ℝ) / ((2 * l).factorial : ℝ)) := by
    unfold cosNum
    simp only [facN_eq, Nat.mul_eq, Nat.pow_eq, natDiv_eq]
    rw [Nat.cast_mul, Nat.cast_div (Nat.factorial_dvd_factorial (by omega)) (by exact_mod_cast (2 * l).factorial_ne_zero)]
    push_cast; rfl
  have d3 : ((Nat.div (monoDen J L) (Nat.add (Nat.mul 2 (Nat.add j l)) 1) : ℕ) : ℝ) = (monoDen J L : ℝ) / (2 * (j + l) + 1) := by
    have hd : (2 * (j + l) + 1) ∣ monoDen J L := by
      unfold monoDen
      simp only [facN_eq, Nat.mul_eq, Nat.add_eq]
      exact Nat.dvd_factorial (by omega) (by omega)
    simp only [Nat.mul_eq, Nat.add_eq, natDiv_eq]
    rw [Nat.cast_div hd (by positivity)]
    push_cast; rfl
  have d4 : (convDen J L : ℝ) = (J.factorial : ℝ) * ((2 * L).factorial : ℝ) * (monoDen J L : ℝ) := by
    unfold convDen
    simp only [facN_eq, Nat.mul_eq]
    push_cast; rfl
  have dt : ((Nat.mul (Nat.mul (expNum J j) (cosNum L y l)) (Nat.div (monoDen J L) (Nat.add (Nat.mul 2 (Nat.add j l)) 1)) : ℕ) : ℝ)
      = (9 ^ j / (j.factorial : ℝ)) * ((y : ℝ) ^ (2 * l) / ((2 * l).factorial : ℝ)) / (2 * (j + l) + 1) * (convDen J L : ℝ) := by
    rw [Nat.mul_eq, Nat.mul_eq, Nat.cast_mul, Nat.cast_mul, d1, d2, d3, d4]
    ring
  have hm : Nat.mod (Nat.add j l) 2 = (j + l) % 2 := rfl
  rw [hm]
  rcases Nat.mod_two_eq_zero_or_one (j + l) with h | h
  · rw [h, show Nat.beq 0 0 = true from rfl, show Nat.beq 0 1 = false from rfl, cond_true, cond_false, dt,
      Even.neg_one_pow (Nat.even_iff.2 h)]
    push_cast
    ring
  · rw [h, show Nat.beq 1 0 = false from rfl, show Nat.beq 1 1 = true from rfl, cond_true, cond_false, dt,
      Odd.neg_one_pow (Nat.odd_iff.2 h)]
    push_cast
    ring

/-- The integrals of `exp (-x²) cos (6 k x)`. -/
noncomputable def cosGauss (k : ℕ) : ℝ := ∫ x in (-3 : ℝ)..3, Real.exp (-x ^ 2) * Real.cos (k * (6 * x))

theorem cosGauss_value (k J L gp gm : ℕ) (h : convCheck J (L + 1) (18 * k) gp gm = true) :
    |cosGauss k - ((gp : ℝ) - gm) / 10 ^ 20| ≤ 2e-15 := by
  simp only [convCheck, Bool.and_eq_true, Nat.ble_eq, facN_eq, pow10, Nat.mul_eq, Nat.add_eq, Nat.pow_eq] at h
  obtain ⟨⟨⟨h1, h2⟩, h3⟩, h4⟩ := h
  have hJ : (0 : ℝ) < (J.factorial : ℝ) := by exact_mod_cast J.factorial_pos
  have hL : (0 : ℝ) < ((2 * (L + 1)).factorial : ℝ) := by exact_mod_cast (2 * (L + 1)).factorial_pos
  have h3' : (9 : ℝ) ^ J / (J.factorial : ℝ) ≤ 1e-16 := by
    rw [div_le_iff₀ hJ]
    have : (9 : ℝ) ^ J * 10 ^ 16 ≤ (J.factorial : ℝ) := by exact_mod_cast h3
    norm_num at this ⊢
    linarith
  have h4' : ((18 * k : ℕ) : ℝ) ^ (2 * (L + 1)) / ((2 * (L + 1)).factorial : ℝ) ≤ 1e-16 := by
    rw [div_le_iff₀ hL]
    have : ((18 * k : ℕ) : ℝ) ^ (2 * (L + 1)) * 10 ^ 16 ≤ ((2 * (L + 1)).factorial : ℝ) := by exact_mod_cast h4
    norm_num at this ⊢
    linarith
  -- the integral of the polynomial
  have hpoly : |(∫ x in (-3 : ℝ)..3, expTaylor J (x ^ 2) * cosTaylor (L + 1) ((6 * k) * x)) - ((gp : ℝ) - gm) / 10 ^ 20| ≤ 1 / 10 ^ 20 := by
    rw [integral_taylors, show (3 * (6 * (k : ℝ))) = ((18 * k : ℕ) : ℝ) by push_cast; ring, ← convNum_eq]
    have hD : (0 : ℝ) < (convDen J (L + 1) : ℝ) := by exact_mod_cast convDen_pos J (L + 1)
    have h1' : 6 * (convNum J (L + 1) (18 * k) 0 : ℝ) * 10 ^ 20 + gm * (convDen J (L + 1) : ℝ) ≤
        6 * (convNum J (L + 1) (18 * k) 1 : ℝ) * 10 ^ 20 + gp * (convDen J (L + 1) : ℝ) + (convDen J (L + 1) : ℝ) := by exact_mod_cast h1
    have h2' : 6 * (convNum J (L + 1) (18 * k) 1 : ℝ) * 10 ^ 20 + gp * (convDen J (L + 1) : ℝ) ≤
        6 * (convNum J (L + 1) (18 * k) 0 : ℝ) * 10 ^ 20 + gm * (convDen J (L + 1) : ℝ) + (convDen J (L + 1) : ℝ) := by exact_mod_cast h2
    generalize (convNum J (L + 1) (18 * k) 0 : ℝ) = a at *
    generalize (convNum J (L + 1) (18 * k) 1 : ℝ) = b at *
    generalize (convDen J (L + 1) : ℝ) = d at *
    rw [show 6 * ((a - b) / d) - ((gp : ℝ) - gm) / 10 ^ 20 = (6 * (a - b) * 10 ^ 20 - (gp - gm) * d) / (d * 10 ^ 20) by field_simp,
      abs_div, abs_of_pos (show 0 < d * 10 ^ 20 by positivity), div_le_div_iff₀ (by positivity) (by positivity), ← mul_assoc, one_mul]
    refine mul_le_mul_of_nonneg_right ?_ (by positivity)
    rw [abs_le]
    constructor <;> linarith
  -- the error of the integrand
  have hpt : ∀ x ∈ Set.uIoc (-3 : ℝ) 3,
      ‖Real.exp (-x ^ 2) * Real.cos (k * (6 * x)) - expTaylor J (x ^ 2) * cosTaylor (L + 1) ((6 * k) * x)‖ ≤ 3.1e-16 := by
    intro x hx
    rw [Set.uIoc_of_le (by norm_num)] at hx
    have hx2 : x ^ 2 ≤ 9 := by nlinarith [hx.1, hx.2]
    have hx3 : |x| ≤ 3 := by rw [abs_le]; exact ⟨hx.1.le, hx.2⟩
    have e1 : |Real.exp (-x ^ 2) - expTaylor J (x ^ 2)| ≤ 1e-16 := by
      refine (expTaylor_error J (sq_nonneg x)).trans (le_trans ?_ h3')
      gcongr
    have e2 : |Real.cos ((6 * k) * x) - cosTaylor (L + 1) ((6 * k) * x)| ≤ 1e-16 := by
      refine (cosTaylor_error L _).trans (le_trans ?_ h4')
      rw [← Even.pow_abs ⟨L + 1, by ring⟩, abs_mul, abs_of_nonneg (show (0 : ℝ) ≤ 6 * k by positivity)]
      have : 6 * (k : ℝ) * |x| ≤ ((18 * k : ℕ) : ℝ) := by
        push_cast
        nlinarith [show (0 : ℝ) ≤ k by positivity]
      gcongr
    have e3 : |expTaylor J (x ^ 2)| ≤ 2 := by
      have h5 : Real.exp (-x ^ 2) ≤ 1 := Real.exp_le_one_iff.2 (by nlinarith [sq_nonneg x])
      have h6 := Real.exp_pos (-x ^ 2)
      rw [abs_le] at e1 ⊢
      norm_num at e1
      constructor <;> linarith [e1.1, e1.2]
    rw [Real.norm_eq_abs, show (k : ℝ) * (6 * x) = (6 * k) * x by ring,
      show Real.exp (-x ^ 2) * Real.cos ((6 * k) * x) - expTaylor J (x ^ 2) * cosTaylor (L + 1) ((6 * k) * x) =
        (Real.exp (-x ^ 2) - expTaylor J (x ^ 2)) * Real.cos ((6 * k) * x) +
          expTaylor J (x ^ 2) * (Real.cos ((6 * k) * x) - cosTaylor (L + 1) ((6 * k) * x)) by ring]
    refine (abs_add_le _ _).trans ?_
    rw [abs_mul, abs_mul]
    have b1 := mul_le_mul e1 (Real.abs_cos_le_one ((6 * k) * x)) (abs_nonneg _) (by norm_num)
    have b2 := mul_le_mul e3 e2 (abs_nonneg _) (by norm_num)
    refine (add_le_add b1 b2).trans ?_
    norm_num
  have hc1 : Continuous fun x : ℝ => Real.exp (-x ^ 2) * Real.cos (k * (6 * x)) := by fun_prop
  have hc2 : Continuous fun x : ℝ => expTaylor J (x ^ 2) * cosTaylor (L + 1) ((6 * k) * x) :=
    ((expTaylor_continuous J).comp (by fun_prop)).mul ((cosTaylor_continuous (L + 1)).comp (by fun_prop))
  have hint := intervalIntegral.norm_integral_le_of_norm_le_const hpt
  rw [intervalIntegral.integral_sub (hc1.intervalIntegrable _ _) (hc2.intervalIntegrable _ _), Real.norm_eq_abs] at hint
  change |cosGauss k - _| ≤ _ at hint
  generalize (∫ x in (-3 : ℝ)..3, expTaylor J (x ^ 2) * cosTaylor (L + 1) ((6 * k) * x)) = P at *
  generalize ((gp : ℝ) - gm) / 10 ^ 20 = g at *
  rw [show |(3 : ℝ) - -3| = 6 by norm_num] at hint
  rw [abs_le] at *
  norm_num at hint hpoly ⊢
  constructor <;> linarith [hint.1, hint.2, hpoly.1, hpoly.2]

/-- The weights of the trigonometric polynomial. -/
theorem cosExp_poly (θ : ℝ) : ∑ m ∈ range 14, (Real.cos θ / 2) ^ m / (m.factorial : ℝ) =
    9249443251777 / 8697308774400 * Real.cos ((0 : ℕ) * θ) +
      62803619344033 / 121762322841600 * Real.cos ((1 : ℕ) * θ) +
      107915745467 / 1691143372800 * Real.cos ((2 : ℕ) * θ) +
      31809874323 / 6012954214400 * Real.cos ((3 : ℕ) * θ) +
      891871403 / 2705829396480 * Real.cos ((4 : ℕ) * θ) +
      4806107713 / 292229574819840 * Real.cos ((5 : ℕ) * θ) +
      12497329 / 18264348426240 * Real.cos ((6 : ℕ) * θ) +
      17833441 / 730573937049600 * Real.cos ((7 : ℕ) * θ) +
      15467 / 20293720473600 * Real.cos ((8 : ℕ) * θ) +
      2099 / 99213744537600 * Real.cos ((9 : ℕ) * θ) +
      59 / 111615462604800 * Real.cos ((10 : ℕ) * θ) +
      193 / 16072626615091200 * Real.cos ((11 : ℕ) * θ) +
      1 / 4018156653772800 * Real.cos ((12 : ℕ) * θ) +
      1 / 208944145996185600 * Real.cos ((13 : ℕ) * θ) := by
  have r : ∀ n : ℕ, Real.cos ((n + 2 : ℕ) * θ) = 2 * Real.cos θ * Real.cos ((n + 1 : ℕ) * θ) - Real.cos (n * θ) := fun n => by
    have h1 := Real.cos_add ((n + 1 : ℕ) * θ) θ
    have h2 := Real.cos_sub ((n + 1 : ℕ) * θ) θ
    rw [show ((n + 1 : ℕ) : ℝ) * θ + θ = ((n + 2 : ℕ) : ℝ) * θ by push_cast; ring] at h1
    rw [show ((n + 1 : ℕ) : ℝ) * θ - θ = (n : ℝ) * θ by push_cast; ring] at h2
    linarith
  generalize hc : Real.cos θ = c at r
  have h0 : Real.cos ((0 : ℕ) * θ) = 1 := by simp
  have h1 : Real.cos ((1 : ℕ) * θ) = c := by simp [hc]
  have h2 : Real.cos ((2 : ℕ) * θ) = (-1) * c ^ 0 + (2) * c ^ 2 := by
    rw [r 0, h1, h0]; ring
  have h3 : Real.cos ((3 : ℕ) * θ) = (-3) * c ^ 1 + (4) * c ^ 3 := by
    rw [r 1, h2, h1]; ring
  have h4 : Real.cos ((4 : ℕ) * θ) = (1) * c ^ 0 + (-8) * c ^ 2 + (8) * c ^ 4 := by
    rw [r 2, h3, h2]; ring
  have h5 : Real.cos ((5 : ℕ) * θ) = (5) * c ^ 1 + (-20) * c ^ 3 + (16) * c ^ 5 := by
    rw [r 3, h4, h3]; ring
  have h6 : Real.cos ((6 : ℕ) * θ) = (-1) * c ^ 0 + (18) * c ^ 2 + (-48) * c ^ 4 + (32) * c ^ 6 := by
    rw [r 4, h5, h4]; ring
  have h7 : Real.cos ((7 : ℕ) * θ) = (-7) * c ^ 1 + (56) * c ^ 3 + (-112) * c ^ 5 + (64) * c ^ 7 := by
    rw [r 5, h6, h5]; ring
  have h8 : Real.cos ((8 : ℕ) * θ) = (1) * c ^ 0 + (-32) * c ^ 2 + (160) * c ^ 4 + (-256) * c ^ 6 + (128) * c ^ 8 := by
    rw [r 6, h7, h6]; ring
  have h9 : Real.cos ((9 : ℕ) * θ) = (9) * c ^ 1 + (-120) * c ^ 3 + (432) * c ^ 5 + (-576) * c ^ 7 + (256) * c ^ 9 := by
    rw [r 7, h8, h7]; ring
  have h10 : Real.cos ((10 : ℕ) * θ) = (-1) * c ^ 0 + (50) * c ^ 2 + (-400) * c ^ 4 + (1120) * c ^ 6 + (-1280) * c ^ 8 + (512) * c ^ 10 := by
    rw [r 8, h9, h8]; ring
  have h11 : Real.cos ((11 : ℕ) * θ) = (-11) * c ^ 1 + (220) * c ^ 3 + (-1232) * c ^ 5 + (2816) * c ^ 7 + (-2816) * c ^ 9 + (1024) * c ^ 11 := by
    rw [r 9, h10, h9]; ring
  have h12 : Real.cos ((12 : ℕ) * θ) = (1) * c ^ 0 + (-72) * c ^ 2 + (840) * c ^ 4 + (-3584) * c ^ 6 + (6912) * c ^ 8 + (-6144) * c ^ 10 + (2048) * c ^ 12 := by
    rw [r 10, h11, h10]; ring
  have h13 : Real.cos ((13 : ℕ) * θ) = (13) * c ^ 1 + (-364) * c ^ 3 + (2912) * c ^ 5 + (-9984) * c ^ 7 + (16640) * c ^ 9 + (-13312) * c ^ 11 + (4096) * c ^ 13 := by
    rw [r 11, h12, h11]; ring
  rw [h0, h1, h2, h3, h4, h5, h6, h7, h8, h9, h10, h11, h12, h13]
  simp only [sum_range_succ, sum_range_zero, Nat.factorial]
  push_cast
  ring

/-- The error of the Taylor polynomial in the cosine. -/
theorem cosExp_error (θ : ℝ) : |Real.exp (Real.cos θ / 2) - ∑ m ∈ range 14, (Real.cos θ / 2) ^ m / (m.factorial : ℝ)| ≤ 1e-15 := by
  have h := Real.abs_cos_le_one θ
  have h' : |Real.cos θ / 2| ≤ 1 / 2 := by
    rw [abs_div, abs_of_pos (show (0 : ℝ) < 2 by norm_num)]
    linarith
  refine (Real.exp_bound (h'.trans (by norm_num)) (n := 14) (by norm_num)).trans ?_
  have : |Real.cos θ / 2| ^ 14 ≤ (1 / 2) ^ 14 := pow_le_pow_left₀ (abs_nonneg _) h' _
  refine (mul_le_mul_of_nonneg_right this (by positivity)).trans ?_
  norm_num [Nat.factorial]

/-- The integral without the factor `exp (-1/2)`. -/
theorem hennig_core : |(∫ x in (-3 : ℝ)..3, Real.exp (-x ^ 2) * Real.exp (Real.cos (6 * x) / 2)) - 188503047522714060227 / 10 ^ 20| ≤ 1.2e-14 := by
  have hpt : ∀ x ∈ Set.uIoc (-3 : ℝ) 3, ‖Real.exp (-x ^ 2) * Real.exp (Real.cos (6 * x) / 2) -
      Real.exp (-x ^ 2) * ∑ m ∈ range 14, (Real.cos (6 * x) / 2) ^ m / (m.factorial : ℝ)‖ ≤ 1e-15 := fun x _ => by
    rw [← mul_sub, norm_mul, Real.norm_eq_abs, Real.norm_eq_abs, abs_of_pos (Real.exp_pos _)]
    have h5 : Real.exp (-x ^ 2) ≤ 1 := Real.exp_le_one_iff.2 (by nlinarith [sq_nonneg x])
    have := mul_le_mul h5 (cosExp_error (6 * x)) (abs_nonneg _) (by norm_num)
    rwa [one_mul] at this
  have hc1 : Continuous fun x : ℝ => Real.exp (-x ^ 2) * Real.exp (Real.cos (6 * x) / 2) := by fun_prop
  have hc2 : Continuous fun x : ℝ => Real.exp (-x ^ 2) * ∑ m ∈ range 14, (Real.cos (6 * x) / 2) ^ m / (m.factorial : ℝ) := by fun_prop
  have hint := intervalIntegral.norm_integral_le_of_norm_le_const hpt
  rw [intervalIntegral.integral_sub (hc1.intervalIntegrable _ _) (hc2.intervalIntegrable _ _), Real.norm_eq_abs] at hint
  have hs : (∫ x in (-3 : ℝ)..3, Real.exp (-x ^ 2) * ∑ m ∈ range 14, (Real.cos (6 * x) / 2) ^ m / (m.factorial : ℝ)) =
      9249443251777 / 8697308774400 * cosGauss 0 +
        62803619344033 / 121762322841600 * cosGauss 1 +
        107915745467 / 1691143372800 * cosGauss 2 +
        31809874323 / 6012954214400 * cosGauss 3 +
        891871403 / 2705829396480 * cosGauss 4 +
        4806107713 / 292229574819840 * cosGauss 5 +
        12497329 / 18264348426240 * cosGauss 6 +
        17833441 / 730573937049600 * cosGauss 7 +
        15467 / 20293720473600 * cosGauss 8 +
        2099 / 99213744537600 * cosGauss 9 +
        59 / 111615462604800 * cosGauss 10 +
        193 / 16072626615091200 * cosGauss 11 +
        1 / 4018156653772800 * cosGauss 12 +
        1 / 208944145996185600 * cosGauss 13 := by
    simp only [cosGauss]
    simp only [← intervalIntegral.integral_const_mul]
    have cadd : ∀ f g : ℝ → ℝ, Continuous f → Continuous g → (∫ x in (-3 : ℝ)..3, f x) + (∫ x in (-3 : ℝ)..3, g x) = ∫ x in (-3 : ℝ)..3, (f x + g x) :=
      fun f g hf hg => (intervalIntegral.integral_add (hf.intervalIntegrable _ _) (hg.intervalIntegrable _ _)).symm
    iterate 13 rw [cadd _ _ (by fun_prop) (by fun_prop)]
    refine intervalIntegral.integral_congr fun x _ => ?_
    simp only [cosExp_poly]
    ring
  rw [hs] at hint
  have v0 := cosGauss_value 0 52 0 177241469651904246776 0 convCheck_0
  have v1 := cosGauss_value 1 52 38 18982679079885969 0 convCheck_1
  have v2 := cosGauss_value 2 52 63 0 1527148508623408 convCheck_2
  have v3 := cosGauss_value 3 52 88 0 345715735628415 convCheck_3
  have v4 := cosGauss_value 4 52 113 482497001498289 0 convCheck_4
  have v5 := cosGauss_value 5 52 137 779843119538779 0 convCheck_5
  have v6 := cosGauss_value 6 52 162 577161243336396 0 convCheck_6
  have v7 := cosGauss_value 7 52 187 112322713862157 0 convCheck_7
  have v8 := cosGauss_value 8 52 211 0 304073842501922 convCheck_8
  have v9 := cosGauss_value 9 52 236 0 452434144596301 convCheck_9
  have v10 := cosGauss_value 10 52 260 0 302061902793028 convCheck_10
  have v11 := cosGauss_value 11 52 285 4128090298353 0 convCheck_11
  have v12 := cosGauss_value 12 52 309 257447647327750 0 convCheck_12
  have v13 := cosGauss_value 13 52 333 313124150252746 0 convCheck_13
  rw [show |(3 : ℝ) - -3| = 6 by norm_num] at hint
  rw [abs_le] at *
  norm_num at hint v0 v1 v2 v3 v4 v5 v6 v7 v8 v9 v10 v11 v12 v13 ⊢
  constructor <;> linarith [hint.1, hint.2, v0.1, v0.2, v1.1, v1.2, v2.1, v2.2, v3.1, v3.2, v4.1, v4.2, v5.1, v5.2, v6.1, v6.2, v7.1, v7.2, v8.1, v8.2,
    v9.1, v9.2, v10.1, v10.2, v11.1, v11.2, v12.1, v12.2, v13.1, v13.2]

theorem hennig_value : |1.1433287777179366 - ∫ x in (-3 : ℝ)..3, Real.exp (-x ^ 2 - Real.sin (3 * x) ^ 2)| ≤ 1e-13 := by
  have e : ∀ x : ℝ, Real.exp (-x ^ 2 - Real.sin (3 * x) ^ 2) = Real.exp (-(1 / 2)) * (Real.exp (-x ^ 2) * Real.exp (Real.cos (6 * x) / 2)) := fun x => by
    rw [← Real.exp_add, ← Real.exp_add, Real.sin_sq_eq_half_sub]
    congr 1
    rw [show 2 * (3 * x) = 6 * x by ring]
    ring
  simp only [e]
  rw [intervalIntegral.integral_const_mul]
  have h := hennig_core
  have b1 := expTaylor_le 8 (u := 1 / 2) (by norm_num)
  have b2 := le_expTaylor 8 (u := 1 / 2) (by norm_num)
  norm_num [expTaylor, sum_range_succ, Nat.factorial] at b1 b2
  norm_num
  generalize (∫ x in (-3 : ℝ)..3, Real.exp (-x ^ 2) * Real.exp (Real.cos (6 * x) / 2)) = I at *
  generalize Real.exp (-(1 / 2)) = E at *
  rw [abs_le] at *
  norm_num at h
  constructor <;> nlinarith [h.1, h.2, b1, b2]

end Probnum.Zoo
