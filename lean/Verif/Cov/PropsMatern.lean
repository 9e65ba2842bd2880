import Verif.Cov.Matern
import Mathlib.Algebra.BigOperators.Intervals
import Mathlib.Data.Nat.Factorial.Basic
import Mathlib.Tactic.FieldSimp
import Mathlib.Tactic.LinearCombination
import Mathlib.Tactic.NormNum

/-!
# Half-integer Matérn coefficients and values (C47)
-/

namespace Probnum.Cov

/-- Specification: the coefficient of `u^i` in the polynomial part of the Matérn covariance function with smoothness
`p + 1/2`, as in the textbook formula (and the documentation of the class). -/
def maternCoefficient (p i : ℕ) : ℚ :=
  (p.factorial : ℚ) / (2 * p).factorial * ((2 * p - i).factorial / ((p - i).factorial * i.factorial)) * 2 ^ i

theorem maternCoefficient_zero (p : ℕ) : maternCoefficient p 0 = 1 := by
  have h1 : ((p.factorial : ℕ) : ℚ) ≠ 0 := by exact_mod_cast p.factorial_ne_zero
  have h2 : (((2 * p).factorial : ℕ) : ℚ) ≠ 0 := by exact_mod_cast (2 * p).factorial_ne_zero
  rw [maternCoefficient]
  simp only [Nat.sub_zero, Nat.factorial_zero, Nat.cast_one, mul_one, pow_zero]
  field_simp

/-- The recursion between neighbouring coefficients. -/
theorem maternCoefficient_succ {p n : ℕ} (h : n < p) :
    maternCoefficient p (p - n) = maternCoefficient p (p - (n + 1)) * 2 * (n + 1) / (p + n + 1) / (p - n) := by
  obtain ⟨k, rfl⟩ : ∃ k, p = n + 1 + k := ⟨p - (n + 1), by omega⟩
  have e1 : n + 1 + k - n = k + 1 := by omega
  have e2 : n + 1 + k - (n + 1) = k := by omega
  have e3 : 2 * (n + 1 + k) - (k + 1) = 2 * n + 1 + k := by omega
  have e4 : 2 * (n + 1 + k) - k = 2 * n + 1 + k + 1 := by omega
  have e5 : n + 1 + k - (k + 1) = n := by omega
  have e6 : n + 1 + k - k = n + 1 := by omega
  rw [maternCoefficient, maternCoefficient, e1, e2, e3, e4, e5, e6, Nat.factorial_succ k, Nat.factorial_succ n,
    Nat.factorial_succ (2 * n + 1 + k), pow_succ]
  have h2 : (((2 * (n + 1 + k)).factorial : ℕ) : ℚ) ≠ 0 := by exact_mod_cast (2 * (n + 1 + k)).factorial_ne_zero
  have h3 : ((k.factorial : ℕ) : ℚ) ≠ 0 := by exact_mod_cast k.factorial_ne_zero
  have h4 : ((n.factorial : ℕ) : ℚ) ≠ 0 := by exact_mod_cast n.factorial_ne_zero
  have h5 : (k : ℚ) + 1 ≠ 0 := by positivity
  have h6 : (n : ℚ) + 1 ≠ 0 := by positivity
  have h7 : (2 * n + 1 + k + 1 : ℚ) ≠ 0 := by positivity
  have h8 : ((n + 1 + k : ℕ) : ℚ) - n = k + 1 := by push_cast; ring
  have h9 : ((n + 1 + k : ℕ) : ℚ) + n + 1 = 2 * n + 1 + k + 1 := by push_cast; ring
  rw [h8, h9]
  push_cast
  field_simp

theorem coeffLoop_eq (p : ℕ) : ∀ n, n ≤ p →
    coeffLoop p n ((List.range (p - n + 1)).map (maternCoefficient p)) =
      (List.range (p + 1)).map (maternCoefficient p)
  | 0, _ => rfl
  | n + 1, h => by
    rw [coeffLoop]
    have e : p - (n + 1) + 1 = p - n := by omega
    have el : ((List.range (p - (n + 1) + 1)).map (maternCoefficient p)).getLastD 0 =
        maternCoefficient p (p - (n + 1)) := by
      rw [List.range_succ, List.map_append]
      simp
    rw [el, ← coeffLoop_eq p n (by omega), List.range_succ (n := p - n), List.map_append, e]
    rw [List.map_singleton, maternCoefficient_succ (n := n) (by omega)]

/-- **C47.** `half_integer_coefficients(p)` returns the `p + 1` coefficients
`c_i = p!/(2p)! (2p-i)!/((p-i)! i!) 2^i`, `i = 0, …, p`. -/
theorem matern_coefficients (p : ℕ) :
    halfIntegerCoefficients p = (List.range (p + 1)).map (maternCoefficient p) := by
  have h := coeffLoop_eq p p le_rfl
  rw [Nat.sub_self, List.range_succ, List.range_zero, List.nil_append, List.map_singleton, maternCoefficient_zero] at h
  exact h

theorem hornerLoop_eq (cs : List ℚ) (u : ℝ) : ∀ (n : ℕ) (res : ℝ),
    hornerLoop cs u n res = res * u ^ n + ∑ i ∈ Finset.range n, ((cs.getD i 0 : ℚ) : ℝ) * u ^ i
  | 0, res => by simp [hornerLoop]
  | n + 1, res => by
    rw [hornerLoop, hornerLoop_eq cs u n, Finset.sum_range_succ]
    ring

/-- **C47.** The value at a scaled distance `u` is the exponential times the polynomial with these coefficients. -/
theorem matern_value (p : ℕ) (u : ℝ) :
    maternValue p u = (∑ i ∈ Finset.range (p + 1), (maternCoefficient p i : ℝ) * u ^ i) * Real.exp (-u) := by
  have hc : ∀ i, i < p + 1 → (halfIntegerCoefficients p).getD i 0 = maternCoefficient p i := fun i hi => by
    rw [matern_coefficients, List.getD_eq_getElem?_getD]
    simp [hi]
  rw [maternValue, hornerLoop_eq, Finset.sum_range_succ, hc p (by omega)]
  congr 1
  rw [add_comm]
  congr 1
  refine Finset.sum_congr rfl fun i hi => ?_
  rw [hc i (by have := Finset.mem_range.1 hi; omega)]

/-- **C69.** For scalar inputs the polynomial and the exponential are evaluated at `√(2ν)/l · |x0 - x1|` with `ν = p + 1/2`:
the lengthscale divides the distance and the smoothness enters through the factor `√(2ν)`. -/
theorem matern_scalar (p : ℕ) {l : ℝ} (hl : 0 < l) (x0 x1 : ℝ) :
    matern1 p l x0 x1 =
      (∑ i ∈ Finset.range (p + 1), (maternCoefficient p i : ℝ) * (Real.sqrt (2 * p + 1) / l * |x0 - x1|) ^ i) *
        Real.exp (-(Real.sqrt (2 * p + 1) / l * |x0 - x1|)) := by
  have e : (2 * ((p : ℝ) + 1 / 2)) = 2 * p + 1 := by ring
  rw [matern1, Real.sqrt_sq_eq_abs, abs_mul, abs_of_nonneg (by positivity), matern_value, e]

example : matern1 0 2 5 1 = Real.exp (-2) := by
  rw [matern_scalar 0 (by norm_num : (0 : ℝ) < 2)]
  norm_num [maternCoefficient, Nat.factorial]

/-- **C47.** The kernel is 1 at distance 0. -/
theorem matern_value_zero (p : ℕ) : maternValue p 0 = 1 := by
  rw [matern_value, Finset.sum_range_succ', maternCoefficient_zero]
  simp

theorem maternCoefficient_nonneg (p i : ℕ) : 0 ≤ maternCoefficient p i := by
  rw [maternCoefficient]
  positivity

/-- The kernel is positive. -/
theorem matern_value_pos (p : ℕ) {u : ℝ} (h : 0 ≤ u) : 0 < maternValue p u := by
  rw [matern_value, Finset.sum_range_succ', maternCoefficient_zero]
  refine mul_pos (add_pos_of_nonneg_of_pos (Finset.sum_nonneg fun i _ => mul_nonneg ?_ (pow_nonneg h _)) (by simp))
    (Real.exp_pos _)
  exact_mod_cast maternCoefficient_nonneg p _

example : halfIntegerCoefficients 3 = [1, 1, 2 / 5, 1 / 15] := by
  rw [halfIntegerCoefficients]
  norm_num [coeffLoop]

end Probnum.Cov
