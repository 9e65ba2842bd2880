import Mathlib.Analysis.SpecialFunctions.Integrals.Basic
import Mathlib.Analysis.Calculus.Deriv.MeanValue
import Mathlib.Analysis.Real.Pi.Bounds
import Mathlib.Analysis.SpecialFunctions.Exponential

/-!
# Enclosures of Gaussian integrals by Taylor polynomials
-/

namespace Probnum.Zoo

open Finset

/-- The Taylor polynomial of `exp (-u)` with `n` terms. -/
noncomputable def expTaylor (n : ℕ) (u : ℝ) : ℝ := ∑ j ∈ range n, (-1) ^ j * u ^ j / (j.factorial : ℝ)

theorem expTaylor_deriv (n : ℕ) (u : ℝ) : HasDerivAt (expTaylor (n + 1)) (-expTaylor n u) u := by
  have h : ∀ j ∈ range (n + 1), HasDerivAt (fun u : ℝ => (-1) ^ j * u ^ j / (j.factorial : ℝ))
      ((-1) ^ j * ((j : ℝ) * u ^ (j - 1)) / (j.factorial : ℝ)) u := fun j _ =>
    ((hasDerivAt_pow j u).const_mul _).div_const _
  have := HasDerivAt.fun_sum h
  refine this.congr_deriv ?_
  rw [sum_range_succ', expTaylor, ← sum_neg_distrib]
  simp only [Nat.cast_zero, zero_mul, mul_zero, zero_div, add_zero]
  refine sum_congr rfl fun j _ => ?_
  rw [Nat.factorial_succ, Nat.add_sub_cancel]
  have : ((j.factorial : ℕ) : ℝ) ≠ 0 := by exact_mod_cast j.factorial_ne_zero
  have h1 : ((j : ℝ) + 1) ≠ 0 := by positivity
  push_cast
  field_simp
  ring

/-- The Taylor polynomials enclose the function. -/
theorem expTaylor_sign : ∀ (n : ℕ) (u : ℝ), 0 ≤ u → 0 ≤ (-1) ^ n * (Real.exp (-u) - expTaylor n u)
  | 0, u, _ => by simp [expTaylor, (Real.exp_pos _).le]
  | n + 1, u, hu => by
    have hd : ∀ v : ℝ, HasDerivAt (fun u => (-1) ^ (n + 1) * (Real.exp (-u) - expTaylor (n + 1) u))
        ((-1) ^ n * (Real.exp (-v) - expTaylor n v)) v := fun v => by
      have h1 : HasDerivAt (fun u : ℝ => Real.exp (-u)) (Real.exp (-v) * -1) v := (hasDerivAt_neg v).exp
      refine ((h1.sub (expTaylor_deriv n v)).const_mul _).congr_deriv ?_
      rw [pow_succ]; ring
    have hm : MonotoneOn (fun u => (-1) ^ (n + 1) * (Real.exp (-u) - expTaylor (n + 1) u)) (Set.Ici 0) := by
      refine monotoneOn_of_deriv_nonneg (convex_Ici 0) (fun v _ => (hd v).continuousAt.continuousWithinAt)
        (fun v _ => (hd v).differentiableAt.differentiableWithinAt) fun v hv => ?_
      rw [(hd v).deriv]
      exact expTaylor_sign n v (by simpa using interior_subset hv)
    have := hm (Set.mem_Ici.2 le_rfl) (Set.mem_Ici.2 hu) hu
    refine le_trans (le_of_eq ?_) this
    beta_reduce
    have : expTaylor (n + 1) 0 = 1 := by
      rw [expTaylor, sum_range_succ']
      simp
    rw [this]; simp

theorem expTaylor_le (m : ℕ) {u : ℝ} (hu : 0 ≤ u) : expTaylor (2 * m) u ≤ Real.exp (-u) := by
  have := expTaylor_sign (2 * m) u hu
  rw [pow_mul] at this
  norm_num at this
  exact this

theorem le_expTaylor (m : ℕ) {u : ℝ} (hu : 0 ≤ u) : Real.exp (-u) ≤ expTaylor (2 * m + 1) u := by
  have := expTaylor_sign (2 * m + 1) u hu
  rw [pow_succ, pow_mul] at this
  norm_num at this
  exact this

/-- The integral of `t ^ (2 p)` times the Taylor polynomial at `t² / 2`. -/
theorem integral_expTaylor (n p : ℕ) : ∫ t in (-3 : ℝ)..3, t ^ (2 * p) * expTaylor n (t ^ 2 / 2) =
    ∑ j ∈ range n, (-1) ^ j / (2 ^ j * (j.factorial : ℝ)) * (2 * 3 ^ (2 * (p + j) + 1) / (2 * (p + j) + 1)) := by
  have e : ∀ t : ℝ, t ^ (2 * p) * expTaylor n (t ^ 2 / 2) =
      ∑ j ∈ range n, (-1) ^ j / (2 ^ j * (j.factorial : ℝ)) * t ^ (2 * (p + j)) := fun t => by
    rw [expTaylor, mul_sum]
    refine sum_congr rfl fun j _ => ?_
    have : ((j.factorial : ℕ) : ℝ) ≠ 0 := by exact_mod_cast j.factorial_ne_zero
    rw [div_pow, ← pow_mul, mul_add 2 p j, pow_add]
    field_simp
  simp only [e]
  rw [intervalIntegral.integral_finset_sum fun j _ => Continuous.intervalIntegrable (by fun_prop) _ _]
  refine sum_congr rfl fun j _ => ?_
  rw [intervalIntegral.integral_const_mul, integral_pow, Odd.neg_pow ⟨p + j, rfl⟩]
  push_cast
  ring

theorem integral_mono3 {f g : ℝ → ℝ} (hf : Continuous f) (hg : Continuous g) (h : ∀ t, f t ≤ g t) :
    ∫ t in (-3 : ℝ)..3, f t ≤ ∫ t in (-3 : ℝ)..3, g t :=
  intervalIntegral.integral_mono (by norm_num) (hf.intervalIntegrable _ _) (hg.intervalIntegrable _ _) h

theorem expTaylor_continuous (n : ℕ) : Continuous (expTaylor n) := by
  unfold expTaylor
  fun_prop

/-- The moments of the Gaussian on `[-3, 3]`. -/
noncomputable def gaussMoment (p : ℕ) : ℝ := ∫ t in (-3 : ℝ)..3, t ^ (2 * p) * Real.exp (-(t ^ 2 / 2))

theorem gaussMoment_bounds (p : ℕ) (m : ℕ) :
    (∑ j ∈ range (2 * m), (-1) ^ j / (2 ^ j * (j.factorial : ℝ)) * (2 * 3 ^ (2 * (p + j) + 1) / (2 * (p + j) + 1))) ≤ gaussMoment p ∧
      gaussMoment p ≤ ∑ j ∈ range (2 * m + 1), (-1) ^ j / (2 ^ j * (j.factorial : ℝ)) * (2 * 3 ^ (2 * (p + j) + 1) / (2 * (p + j) + 1)) := by
  have hp : ∀ t : ℝ, 0 ≤ t ^ (2 * p) := fun t => by rw [pow_mul]; positivity
  have c1 : ∀ n, Continuous fun t : ℝ => t ^ (2 * p) * expTaylor n (t ^ 2 / 2) := fun n =>
    (continuous_pow _).mul ((expTaylor_continuous n).comp (by fun_prop))
  have c2 : Continuous fun t : ℝ => t ^ (2 * p) * Real.exp (-(t ^ 2 / 2)) := by fun_prop
  rw [← integral_expTaylor, ← integral_expTaylor]
  exact ⟨integral_mono3 (c1 _) c2 fun t => mul_le_mul_of_nonneg_left (expTaylor_le m (by positivity)) (hp t),
    integral_mono3 c2 (c1 _) fun t => mul_le_mul_of_nonneg_left (le_expTaylor m (by positivity)) (hp t)⟩

theorem gaussMoment_zero : 2.49986088948309504 < gaussMoment 0 ∧ gaussMoment 0 < 2.49986088948309505 := by
  obtain ⟨h1, h2⟩ := gaussMoment_bounds 0 20
  refine ⟨lt_of_lt_of_le ?_ h1, lt_of_le_of_lt h2 ?_⟩ <;>
    norm_num [sum_range_succ, Nat.factorial]

theorem gaussMoment_one : 2.43320691025364120 < gaussMoment 1 ∧ gaussMoment 1 < 2.43320691025364121 := by
  obtain ⟨h1, h2⟩ := gaussMoment_bounds 1 20
  refine ⟨lt_of_lt_of_le ?_ h1, lt_of_le_of_lt h2 ?_⟩ <;>
    norm_num [sum_range_succ, Nat.factorial]

theorem sqrt_two_pi : 2.5066282746310005024 < Real.sqrt (2 * Real.pi) ∧ Real.sqrt (2 * Real.pi) < 2.5066282746310005025 := by
  have h1 := Real.pi_gt_d20
  have h2 := Real.pi_lt_d20
  constructor
  · rw [Real.lt_sqrt (by norm_num)]
    norm_num at h1 ⊢
    linarith
  · rw [Real.sqrt_lt' (by norm_num)]
    norm_num at h2 ⊢
    linarith

theorem gauss_value : |4.853275495632483 - 2 * gaussMoment 1 * gaussMoment 0 / Real.sqrt (2 * Real.pi)| ≤ 1e-14 := by
  obtain ⟨a1, a2⟩ := gaussMoment_zero
  obtain ⟨b1, b2⟩ := gaussMoment_one
  obtain ⟨c1, c2⟩ := sqrt_two_pi
  have hc : 0 < Real.sqrt (2 * Real.pi) := by linarith
  have ha : 0 < gaussMoment 0 := by linarith
  have hb : 0 < gaussMoment 1 := by linarith
  rw [abs_sub_le_iff]
  constructor
  · rw [sub_le_comm, le_div_iff₀ hc]
    have h1 : 2 * 2.43320691025364120 * 2.49986088948309504 ≤ 2 * gaussMoment 1 * gaussMoment 0 := by gcongr
    have h2 : (4.853275495632483 - 1e-14) * Real.sqrt (2 * Real.pi) ≤ (4.853275495632483 - 1e-14) * 2.5066282746310005025 := by
      gcongr
    refine h2.trans (le_trans ?_ h1)
    norm_num
  · rw [sub_le_iff_le_add, div_le_iff₀ hc]
    have h1 : 2 * gaussMoment 1 * gaussMoment 0 ≤ 2 * 2.43320691025364121 * 2.49986088948309505 := by gcongr
    have h2 : (1e-14 + 4.853275495632483) * 2.5066282746310005024 ≤ (1e-14 + 4.853275495632483) * Real.sqrt (2 * Real.pi) := by
      gcongr
    refine h1.trans (le_trans ?_ h2)
    norm_num

end Probnum.Zoo
