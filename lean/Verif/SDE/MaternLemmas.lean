import Verif.SDE.Props
import Mathlib.Algebra.BigOperators.NatAntidiagonal
import Mathlib.Data.Nat.Choose.Sum
import Mathlib.Analysis.SpecialFunctions.Exp
import Mathlib.Analysis.SpecialFunctions.Gamma.Basic
import Mathlib.MeasureTheory.Integral.IntegralEqImproper

/-!
# Helper lemmas: the drift matrix of the Matérn process, its exponential and the stationary covariance
-/

namespace Probnum.SDE

open Matrix Filter Topology MeasureTheory Set

/-- `λ = √(2ν)/ℓ` with `ν = q + 1/2`. -/
noncomputable def rate (q : ℕ) (ℓ : ℝ) : ℝ := Real.sqrt (2 * (q + 1 / 2)) / ℓ

theorem rate_pos (q : ℕ) {ℓ : ℝ} (h : 0 < ℓ) : 0 < rate q ℓ := div_pos (Real.sqrt_pos.2 (by positivity)) h

/-- The nilpotent part of the drift. -/
noncomputable def nil (q : ℕ) (ℓ : ℝ) : Matrix (Fin (q + 1)) (Fin (q + 1)) ℝ := driftMatern q ℓ + rate q ℓ • 1

theorem drift_pow_zero (q : ℕ) (ℓ : ℝ) : ∀ (i : ℕ) (_ : i ≤ q) (j : Fin (q + 1)),
    (driftMatern q ℓ ^ i) 0 j = if j.1 = i then 1 else 0
  | 0, _, j => by
    rw [pow_zero, Matrix.one_apply]
    by_cases h : (0 : Fin (q + 1)) = j
    · subst h; simp
    · rw [if_neg h, if_neg fun h' => h (Fin.ext (by simpa using h'.symm))]
  | i + 1, hi, j => by
    rw [pow_succ, Matrix.mul_apply, Finset.sum_eq_single (⟨i, by omega⟩ : Fin (q + 1))]
    · rw [drift_pow_zero q ℓ i (by omega), if_pos rfl, one_mul]
      simp only [driftMatern, Matrix.of_apply]
      rw [if_neg (by omega)]
      by_cases h : i + 1 = j.1
      · rw [if_pos h, if_pos h.symm]
      · rw [if_neg h, if_neg fun h' => h h'.symm]
    · intro b _ hb
      rw [drift_pow_zero q ℓ i (by omega), if_neg fun h => hb (Fin.ext h), zero_mul]
    · simp

theorem drift_pow_top (q : ℕ) (ℓ : ℝ) (j : Fin (q + 1)) :
    (driftMatern q ℓ ^ (q + 1)) 0 j = -((q + 1).choose j.1 : ℝ) * rate q ℓ ^ (q + 1 - j.1) := by
  rw [pow_succ, Matrix.mul_apply, Finset.sum_eq_single (Fin.last q)]
  · rw [drift_pow_zero q ℓ q le_rfl, if_pos (by simp), one_mul]
    simp [driftMatern, rate]
  · intro b _ hb
    rw [drift_pow_zero q ℓ q le_rfl, if_neg fun h => hb (Fin.ext (by simpa using h)), zero_mul]
  · simp

theorem nil_pow_entry (q : ℕ) (ℓ : ℝ) (k : ℕ) (i j : Fin (q + 1)) :
    (nil q ℓ ^ k) i j = ∑ m ∈ Finset.range (k + 1), (driftMatern q ℓ ^ m) i j * rate q ℓ ^ (k - m) * (k.choose m : ℝ) := by
  have hc : Commute (driftMatern q ℓ) (rate q ℓ • (1 : Matrix (Fin (q + 1)) (Fin (q + 1)) ℝ)) :=
    (Commute.one_right _).smul_right _
  rw [nil, hc.add_pow, Matrix.sum_apply]
  refine Finset.sum_congr rfl fun m _ => ?_
  rw [smul_pow, one_pow, Matrix.mul_smul, Matrix.mul_one, ← nsmul_eq_mul', Matrix.smul_apply, Matrix.smul_apply]
  simp only [nsmul_eq_mul, smul_eq_mul]
  ring

theorem nil_pow_zero_last (q : ℕ) (ℓ : ℝ) (k : ℕ) (hk : k ≤ q) :
    (nil q ℓ ^ k) 0 (Fin.last q) = if k = q then 1 else 0 := by
  rw [nil_pow_entry, Finset.sum_congr rfl (g := fun m => if m = q then (1 : ℝ) * rate q ℓ ^ (k - m) * (k.choose m : ℝ) else 0)]
  · rw [Finset.sum_ite_eq']
    by_cases h : k = q
    · subst h; simp
    · rw [if_neg h, if_neg (by simp; omega)]
  · intro m hm
    rw [Finset.mem_range] at hm
    rw [drift_pow_zero q ℓ m (by omega)]
    simp only [Fin.val_last]
    by_cases h : m = q
    · rw [if_pos h, if_pos h.symm]
    · rw [if_neg h, if_neg fun h' => h h'.symm]; ring

theorem nil_pow_top_zero (q : ℕ) (ℓ : ℝ) (j : Fin (q + 1)) : (nil q ℓ ^ (q + 1)) 0 j = 0 := by
  rw [nil_pow_entry, Finset.sum_range_succ, drift_pow_top, Nat.sub_self, pow_zero, Nat.choose_self]
  rw [Finset.sum_congr rfl (g := fun m => if m = j.1 then rate q ℓ ^ (q + 1 - m) * ((q + 1).choose m : ℝ) else 0)]
  · rw [Finset.sum_ite_eq', if_pos (Finset.mem_range.2 j.2)]
    push_cast; ring
  · intro m hm
    rw [Finset.mem_range] at hm
    rw [drift_pow_zero q ℓ m (by omega)]
    by_cases h : m = j.1
    · rw [if_pos h, if_pos h.symm]; ring
    · rw [if_neg h, if_neg fun h' => h h'.symm]; ring

/-- The drift has the only eigenvalue `-λ` (with one Jordan block). -/
theorem nil_nilpotent (q : ℕ) (ℓ : ℝ) : nil q ℓ ^ (q + 1) = 0 := by
  ext i j
  have h : (driftMatern q ℓ ^ i.1 * nil q ℓ ^ (q + 1)) 0 j = (nil q ℓ ^ (q + 1)) i j := by
    rw [Matrix.mul_apply, Finset.sum_eq_single i]
    · rw [drift_pow_zero q ℓ i.1 (by omega), if_pos rfl, one_mul]
    · intro b _ hb
      rw [drift_pow_zero q ℓ i.1 (by omega), if_neg fun h => hb (Fin.ext h), zero_mul]
    · simp
  have hc : Commute (driftMatern q ℓ ^ i.1) (nil q ℓ ^ (q + 1)) := by
    refine Commute.pow_pow ?_ _ _
    rw [nil]
    exact (Commute.refl _).add_right ((Commute.one_right _).smul_right _)
  rw [← h, hc.eq, Matrix.mul_apply, Matrix.zero_apply]
  exact Finset.sum_eq_zero fun m _ => by rw [nil_pow_top_zero, zero_mul]

/-- The matrix exponential of the drift. -/
theorem exp_matern (q : ℕ) (ℓ t : ℝ) : NormedSpace.exp (t • driftMatern q ℓ)
    = ∑ k ∈ Finset.range (q + 1), (t ^ k / (k.factorial : ℝ) * Real.exp (-(rate q ℓ * t))) • nil q ℓ ^ k := by
  set r := rate q ℓ with hr
  have hd : ∀ (k : ℕ) (t : ℝ), HasDerivAt (fun t : ℝ => t ^ k / (k.factorial : ℝ) * Real.exp (-(r * t)))
      ((k : ℝ) * t ^ (k - 1) / (k.factorial : ℝ) * Real.exp (-(r * t))
        + t ^ k / (k.factorial : ℝ) * (Real.exp (-(r * t)) * (-(r * 1)))) t := fun k t =>
    ((hasDerivAt_pow k t).div_const _).mul (((hasDerivAt_id t).const_mul r).neg.exp)
  refine linear_unique (driftMatern q ℓ) (X := fun t => NormedSpace.exp (t • driftMatern q ℓ))
    (Y := fun t => ∑ k ∈ Finset.range (q + 1), (t ^ k / (k.factorial : ℝ) * Real.exp (-(r * t))) • nil q ℓ ^ k)
    (C := fun _ => 0) (fun t => (mderiv_exp _ t).congr (by simp)) (fun t i j => ?_) ?_ t
  · have hG : driftMatern q ℓ = nil q ℓ - r • 1 := by rw [nil, hr]; simp
    have hs : HasDerivAt (fun t : ℝ => ∑ k ∈ Finset.range (q + 1),
        (t ^ k / (k.factorial : ℝ) * Real.exp (-(r * t))) * (nil q ℓ ^ k) i j)
        (∑ k ∈ Finset.range (q + 1), ((k : ℝ) * t ^ (k - 1) / (k.factorial : ℝ) * Real.exp (-(r * t))
        + t ^ k / (k.factorial : ℝ) * (Real.exp (-(r * t)) * (-(r * 1)))) * (nil q ℓ ^ k) i j) t :=
      HasDerivAt.fun_sum fun k _ => (hd k t).mul_const _
    refine (hs.congr_deriv ?_).congr_of_eventuallyEq (.of_forall fun s => by
      simp only [Matrix.sum_apply, Matrix.smul_apply, smul_eq_mul])
    rw [add_zero, hG, Matrix.sub_mul, Matrix.sub_apply, Matrix.smul_mul, Matrix.one_mul, Matrix.mul_sum, Matrix.sum_apply,
      Matrix.smul_apply, Matrix.sum_apply]
    simp only [add_mul, Finset.sum_add_distrib, sub_eq_add_neg]
    congr 1
    · rw [Finset.sum_range_succ', Finset.sum_range_succ]
      simp only [Matrix.mul_smul, ← pow_succ', Matrix.smul_apply, smul_eq_mul]
      rw [nil_nilpotent]
      simp only [Nat.cast_zero, zero_mul, zero_div, add_zero, Matrix.zero_apply, mul_zero]
      refine Finset.sum_congr rfl fun k _ => ?_
      rw [Nat.add_sub_cancel, Nat.factorial_succ]
      have h1 : ((k.factorial : ℕ) : ℝ) ≠ 0 := by exact_mod_cast k.factorial_ne_zero
      have h2 : (k : ℝ) + 1 ≠ 0 := by positivity
      push_cast
      field_simp
    · rw [smul_eq_mul, Finset.mul_sum, ← Finset.sum_neg_distrib]
      refine Finset.sum_congr rfl fun k _ => ?_
      rw [Matrix.smul_apply, smul_eq_mul]
      ring
  · simp only [zero_smul, NormedSpace.exp_zero, mul_zero, neg_zero, Real.exp_zero, mul_one]
    rw [Finset.sum_range_succ']
    simp

/-- Entries of the exponential: polynomials times `exp(-λ t)`. -/
theorem exp_matern_entry (q : ℕ) (ℓ t : ℝ) (i j : Fin (q + 1)) : NormedSpace.exp (t • driftMatern q ℓ) i j
    = ∑ k ∈ Finset.range (q + 1), (nil q ℓ ^ k) i j / (k.factorial : ℝ) * (t ^ k * Real.exp (-(rate q ℓ * t))) := by
  rw [exp_matern, Matrix.sum_apply]
  exact Finset.sum_congr rfl fun k _ => by rw [Matrix.smul_apply, smul_eq_mul]; ring

/-- The impulse response. -/
theorem exp_matern_corner (q : ℕ) (ℓ t : ℝ) : NormedSpace.exp (t • driftMatern q ℓ) 0 (Fin.last q)
    = t ^ q / (q.factorial : ℝ) * Real.exp (-(rate q ℓ * t)) := by
  rw [exp_matern_entry, Finset.sum_eq_single q]
  · rw [nil_pow_zero_last q ℓ q le_rfl, if_pos rfl]; ring
  · intro k hk h
    rw [nil_pow_zero_last q ℓ k (by rw [Finset.mem_range] at hk; omega), if_neg h]; ring
  · simp

theorem tendsto_pow_exp (k : ℕ) {r : ℝ} (hr : 0 < r) : Tendsto (fun t : ℝ => t ^ k * Real.exp (-(r * t))) atTop (𝓝 0) := by
  have h := (Real.tendsto_pow_mul_exp_neg_atTop_nhds_zero k).comp (tendsto_id.const_mul_atTop hr)
  have h2 := h.const_mul (r ^ k)⁻¹
  rw [mul_zero] at h2
  refine h2.congr fun t => ?_
  simp only [Function.comp, id, mul_pow]
  rw [← mul_assoc, ← mul_assoc, inv_mul_cancel₀ (pow_pos hr k).ne', one_mul]

/-- The Matérn process is stable. -/
theorem exp_matern_tendsto (q : ℕ) {ℓ : ℝ} (hℓ : 0 < ℓ) (i j : Fin (q + 1)) :
    Tendsto (fun t : ℝ => NormedSpace.exp (t • driftMatern q ℓ) i j) atTop (𝓝 0) := by
  simp only [exp_matern_entry]
  have : Tendsto (fun t : ℝ => ∑ k ∈ Finset.range (q + 1),
      (nil q ℓ ^ k) i j / (k.factorial : ℝ) * (t ^ k * Real.exp (-(rate q ℓ * t)))) atTop
      (𝓝 (∑ k ∈ Finset.range (q + 1), (nil q ℓ ^ k) i j / (k.factorial : ℝ) * 0)) :=
    tendsto_finsetSum _ fun k _ => (tendsto_pow_exp k (rate_pos q hℓ)).const_mul _
  simpa using this

theorem integrable_pow_exp (k : ℕ) {r : ℝ} (hr : 0 < r) :
    IntegrableOn (fun t : ℝ => t ^ k * Real.exp (-(r * t))) (Ioi 0) := by
  have h := integrableOn_rpow_mul_exp_neg_mul_rpow (p := 1) (s := k) (by have := k.cast_nonneg (α := ℝ); linarith) one_pos hr
  refine h.congr_fun (fun t _ => ?_) measurableSet_Ioi
  simp only [Real.rpow_natCast, Real.rpow_one, neg_mul]

theorem integral_pow_exp (k : ℕ) {r : ℝ} (hr : 0 < r) :
    ∫ t in Ioi (0 : ℝ), t ^ k * Real.exp (-(r * t)) = (k.factorial : ℝ) / r ^ (k + 1) := by
  have h := Real.integral_rpow_mul_exp_neg_mul_Ioi (a := k + 1) (by positivity) hr
  rw [Real.Gamma_nat_eq_factorial] at h
  have e : ∀ t : ℝ, t ^ ((k : ℝ) + 1 - 1) = t ^ k := fun t => by rw [add_sub_cancel_right, Real.rpow_natCast]
  simp only [e] at h
  rw [h]
  have : (1 / r) ^ ((k : ℝ) + 1) = (1 / r) ^ (k + 1) := by rw [← Real.rpow_natCast]; push_cast; rfl
  rw [this, one_div, inv_pow]
  field_simp

/-- Products of two entries are integrable. -/
theorem exp_matern_integrable (q : ℕ) {ℓ : ℝ} (hℓ : 0 < ℓ) (i j k l : Fin (q + 1)) :
    IntegrableOn (fun t : ℝ => NormedSpace.exp (t • driftMatern q ℓ) i j * NormedSpace.exp (t • driftMatern q ℓ) k l)
      (Ioi 0) := by
  simp only [exp_matern_entry, Finset.sum_mul_sum]
  refine integrable_finsetSum _ fun a _ => integrable_finsetSum _ fun b _ => ?_
  have h := (integrable_pow_exp (a + b) (r := 2 * rate q ℓ) (by have := rate_pos q hℓ; linarith)).const_mul
    ((nil q ℓ ^ a) i j / (a.factorial : ℝ) * ((nil q ℓ ^ b) k l / (b.factorial : ℝ)))
  refine h.congr (.of_forall fun t => ?_)
  simp only
  rw [pow_add, show -(2 * rate q ℓ * t) = -(rate q ℓ * t) + -(rate q ℓ * t) by ring, Real.exp_add]
  ring

end Probnum.SDE
