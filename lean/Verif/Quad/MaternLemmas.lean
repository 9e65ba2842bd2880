import Verif.Quad.Embedding
import Verif.Cov.PropsMatern
import Mathlib.MeasureTheory.Integral.IntervalIntegral.FundThmCalculus
import Mathlib.Analysis.SpecialFunctions.ExpDeriv
import Mathlib.Analysis.Calculus.Deriv.Pow
import Mathlib.Tactic.LinearCombination

/-!
# Integrals of kernels of the distance
-/

namespace Probnum.Quad

open Probnum.Cov

theorem integral_dist {k K : ℝ → ℝ} (hK : ∀ r, HasDerivAt K (k r) r) (hk : Continuous k) (h0 : K 0 = 0) {a b x : ℝ}
    (h1 : a ≤ x) (h2 : x ≤ b) : ∫ t in a..b, k |t - x| = K (x - a) + K (b - x) := by
  have hc : Continuous fun t => k |t - x| := by fun_prop
  rw [← intervalIntegral.integral_add_adjacent_intervals (hc.intervalIntegrable a x) (hc.intervalIntegrable x b)]
  have e1 : ∫ t in a..x, k |t - x| = K (x - a) := by
    have : ∫ t in a..x, k |t - x| = ∫ t in a..x, k (x - t) := by
      refine intervalIntegral.integral_congr fun t ht => ?_
      rw [Set.uIcc_of_le h1] at ht
      show k |t - x| = k (x - t)
      rw [abs_of_nonpos (by linarith [ht.2]), neg_sub]
    rw [this, intervalIntegral.integral_comp_sub_left (fun r => k r) x,
      intervalIntegral.integral_eq_sub_of_hasDerivAt (fun r _ => hK r) (hk.intervalIntegrable _ _), sub_self, h0, sub_zero]
  have e2 : ∫ t in x..b, k |t - x| = K (b - x) := by
    have : ∫ t in x..b, k |t - x| = ∫ t in x..b, k (t - x) := by
      refine intervalIntegral.integral_congr fun t ht => ?_
      rw [Set.uIcc_of_le h2] at ht
      show k |t - x| = k (t - x)
      rw [abs_of_nonneg (by linarith [ht.1])]
    rw [this, intervalIntegral.integral_comp_sub_right (fun r => k r) x,
      intervalIntegral.integral_eq_sub_of_hasDerivAt (fun r _ => hK r) (hk.intervalIntegrable _ _), sub_self, h0, sub_zero]
  rw [e1, e2]

theorem integral_integral_dist {k K W : ℝ → ℝ} (hK : ∀ r, HasDerivAt K (k r) r) (hk : Continuous k) (h0 : K 0 = 0)
    (hW : ∀ r, HasDerivAt W (K r) r) (hW0 : W 0 = 0) {a b : ℝ} (h : a ≤ b) :
    ∫ x in a..b, ∫ t in a..b, k |t - x| = 2 * W (b - a) := by
  have hKc : Continuous K := continuous_iff_continuousAt.2 fun r => (hK r).continuousAt
  have : ∫ x in a..b, ∫ t in a..b, k |t - x| = ∫ x in a..b, (K (x - a) + K (b - x)) := by
    refine intervalIntegral.integral_congr fun x hx => ?_
    rw [Set.uIcc_of_le h] at hx
    exact integral_dist hK hk h0 hx.1 hx.2
  rw [this, intervalIntegral.integral_add (Continuous.intervalIntegrable (by fun_prop) _ _)
    (Continuous.intervalIntegrable (by fun_prop) _ _),
    intervalIntegral.integral_comp_sub_right (fun r => K r) a, intervalIntegral.integral_comp_sub_left (fun r => K r) b,
    intervalIntegral.integral_eq_sub_of_hasDerivAt (fun r _ => hW r) (hKc.intervalIntegrable _ _),
    sub_self, sub_self, intervalIntegral.integral_eq_sub_of_hasDerivAt (fun r _ => hW r) (hKc.intervalIntegrable _ _), hW0]
  ring

/-- A cubic times an exponential. -/
noncomputable def cubicExp (c0 c1 c2 c3 s r : ℝ) : ℝ :=
  (c0 + c1 * (s * r) + c2 * (s * r) ^ 2 + c3 * (s * r) ^ 3) * Real.exp (-(s * r))

theorem cubicExp_deriv (c0 c1 c2 c3 s r : ℝ) : HasDerivAt (cubicExp c0 c1 c2 c3 s)
    (s * cubicExp (c1 - c0) (2 * c2 - c1) (3 * c3 - c2) (-c3) s r) r := by
  have hu : HasDerivAt (fun r : ℝ => s * r) s r := by simpa using (hasDerivAt_id' r).const_mul s
  have h2 : HasDerivAt (fun r : ℝ => (s * r) ^ 2) (2 * (s * r) * s) r := by simpa using hu.fun_pow 2
  have h3 : HasDerivAt (fun r : ℝ => (s * r) ^ 3) (3 * (s * r) ^ 2 * s) r := by simpa using hu.fun_pow 3
  have he : HasDerivAt (fun r : ℝ => Real.exp (-(s * r))) (Real.exp (-(s * r)) * (-s)) r := hu.fun_neg.exp
  have := (((hu.const_mul c1).const_add c0).fun_add (h2.const_mul c2)).fun_add (h3.const_mul c3) |>.fun_mul he
  refine this.congr_deriv ?_
  rw [cubicExp]
  ring

theorem cubicExp_continuous (c0 c1 c2 c3 s : ℝ) : Continuous (cubicExp c0 c1 c2 c3 s) :=
  continuous_iff_continuousAt.2 fun r => (cubicExp_deriv c0 c1 c2 c3 s r).continuousAt

theorem cubicExp_zero (c0 c1 c2 c3 s : ℝ) : cubicExp c0 c1 c2 c3 s 0 = c0 := by simp [cubicExp]

/-- The integral of a kernel `cubic × exp`; `q` are the coefficients of its (negated) antiderivative. -/
theorem cubic_mean {c0 c1 c2 q0 q1 q2 q3 s : ℝ} (hs : s ≠ 0) (h0 : q0 - q1 = c0) (h1 : q1 - 2 * q2 = c1)
    (h2 : q2 - 3 * q3 = c2) {a b x : ℝ} (hx1 : a ≤ x) (hx2 : x ≤ b) :
    ∫ t in a..b, cubicExp c0 c1 c2 q3 s |t - x| =
      (2 * q0 - cubicExp q0 q1 q2 q3 s (x - a) - cubicExp q0 q1 q2 q3 s (b - x)) / s := by
  have hK : ∀ r, HasDerivAt (fun r => (q0 - cubicExp q0 q1 q2 q3 s r) / s) (cubicExp c0 c1 c2 q3 s r) r := fun r => by
    refine (((cubicExp_deriv q0 q1 q2 q3 s r).const_sub q0).div_const s).congr_deriv ?_
    rw [cubicExp, cubicExp, ← h0, ← h1, ← h2]
    field_simp
    ring
  rw [integral_dist hK (cubicExp_continuous _ _ _ _ _) (by simp [cubicExp_zero]) hx1 hx2]
  ring

theorem cubic_variance {c0 c1 c2 q0 q1 q2 q3 w0 w1 w2 s : ℝ} (hs : s ≠ 0) (h0 : q0 - q1 = c0) (h1 : q1 - 2 * q2 = c1)
    (h2 : q2 - 3 * q3 = c2) (g0 : w0 - w1 = q0) (g1 : w1 - 2 * w2 = q1) (g2 : w2 - 3 * q3 = q2) {a b : ℝ} (h : a ≤ b) :
    ∫ x in a..b, ∫ t in a..b, cubicExp c0 c1 c2 q3 s |t - x| =
      2 * (q0 * (b - a) / s - (w0 - cubicExp w0 w1 w2 q3 s (b - a)) / s ^ 2) := by
  have hK : ∀ r, HasDerivAt (fun r => (q0 - cubicExp q0 q1 q2 q3 s r) / s) (cubicExp c0 c1 c2 q3 s r) r := fun r => by
    refine (((cubicExp_deriv q0 q1 q2 q3 s r).const_sub q0).div_const s).congr_deriv ?_
    rw [cubicExp, cubicExp, ← h0, ← h1, ← h2]
    field_simp
    ring
  have hW : ∀ r, HasDerivAt (fun r => q0 * r / s - (w0 - cubicExp w0 w1 w2 q3 s r) / s ^ 2)
      ((q0 - cubicExp q0 q1 q2 q3 s r) / s) r := fun r => by
    have e1 : HasDerivAt (fun r : ℝ => q0 * r / s) (q0 * 1 / s) r := ((hasDerivAt_id' r).const_mul q0).div_const s
    refine (e1.fun_sub (((cubicExp_deriv w0 w1 w2 q3 s r).const_sub w0).div_const (s ^ 2))).congr_deriv ?_
    rw [cubicExp, cubicExp, ← g0, ← g1, ← g2]
    field_simp
    ring
  exact integral_integral_dist hK (cubicExp_continuous _ _ _ _ _) (by simp [cubicExp_zero]) hW (by simp [cubicExp_zero]) h

theorem matern1_eq (p : ℕ) {l : ℝ} (hl : 0 < l) (x0 x1 : ℝ) :
    matern1 p l x0 x1 = maternValue p (Real.sqrt (2 * p + 1) / l * |x0 - x1|) := by
  rw [matern1, Real.sqrt_sq_eq_abs, abs_mul, abs_of_nonneg (by positivity)]
  congr 5
  ring

theorem matern_cubic {p : ℕ} {c0 c1 c2 c3 s : ℝ}
    (h : ∀ u : ℝ, ∑ i ∈ Finset.range (p + 1), (maternCoefficient p i : ℝ) * u ^ i = c0 + c1 * u + c2 * u ^ 2 + c3 * u ^ 3)
    (r : ℝ) : maternValue p (s * r) = cubicExp c0 c1 c2 c3 s r := by
  rw [matern_value, h, cubicExp]

theorem coeffs0 (u : ℝ) : ∑ i ∈ Finset.range (0 + 1), (maternCoefficient 0 i : ℝ) * u ^ i =
    1 + 0 * u + 0 * u ^ 2 + 0 * u ^ 3 := by
  norm_num [Finset.sum_range_succ, maternCoefficient, Nat.factorial]

theorem coeffs1 (u : ℝ) : ∑ i ∈ Finset.range (1 + 1), (maternCoefficient 1 i : ℝ) * u ^ i =
    1 + 1 * u + 0 * u ^ 2 + 0 * u ^ 3 := by
  norm_num [Finset.sum_range_succ, maternCoefficient, Nat.factorial]

theorem coeffs2 (u : ℝ) : ∑ i ∈ Finset.range (2 + 1), (maternCoefficient 2 i : ℝ) * u ^ i =
    1 + 1 * u + 1 / 3 * u ^ 2 + 0 * u ^ 3 := by
  norm_num [Finset.sum_range_succ, maternCoefficient, Nat.factorial]

theorem coeffs3 (u : ℝ) : ∑ i ∈ Finset.range (3 + 1), (maternCoefficient 3 i : ℝ) * u ^ i =
    1 + 1 * u + 2 / 5 * u ^ 2 + 1 / 15 * u ^ 3 := by
  norm_num [Finset.sum_range_succ, maternCoefficient, Nat.factorial]

end Probnum.Quad
