import Mathlib.LinearAlgebra.Matrix.Kronecker
import Mathlib.Analysis.SpecialFunctions.Integrals.Basic
import Mathlib.Data.Nat.Choose.Sum
import Mathlib.Algebra.Polynomial.Roots
import Mathlib.Logic.Equiv.Fin.Basic
import Mathlib.Analysis.Matrix.Order
import Verif.IWP.Model
import Verif.IWP.PreconLemmas

/-!
# Helper lemmas for integrated Wiener processes
-/

namespace Probnum.IWP

open Matrix Probnum.LinGauss Probnum.Kalman
open scoped Kronecker

/-! ## Block diagonal matrices -/

theorem kronEye_eq (d : ℕ) {k l : ℕ} (B : Matrix (Fin k) (Fin l) ℝ) :
    kronEye d B = ((1 : Matrix (Fin d) (Fin d) ℝ) ⊗ₖ B).submatrix finProdFinEquiv.symm finProdFinEquiv.symm := by
  ext r c
  simp [kronEye, Matrix.kroneckerMap_apply, Matrix.one_apply]

theorem kronEye_mul (d : ℕ) {k l m : ℕ} (B : Matrix (Fin k) (Fin l) ℝ) (C : Matrix (Fin l) (Fin m) ℝ) :
    kronEye d B * kronEye d C = kronEye d (B * C) := by
  rw [kronEye_eq, kronEye_eq, kronEye_eq, Matrix.submatrix_mul_equiv, ← Matrix.mul_kronecker_mul, Matrix.one_mul]

theorem kronEye_transpose (d : ℕ) {k l : ℕ} (B : Matrix (Fin k) (Fin l) ℝ) : (kronEye d B)ᵀ = kronEye d Bᵀ := by
  ext r c
  simp [kronEye, eq_comm]

theorem kronEye_one (d k : ℕ) : kronEye d (1 : Matrix (Fin k) (Fin k) ℝ) = 1 := by
  rw [kronEye_eq, Matrix.one_kronecker_one, Matrix.submatrix_one_equiv]

theorem kronEye_add (d : ℕ) {k l : ℕ} (B C : Matrix (Fin k) (Fin l) ℝ) :
    kronEye d B + kronEye d C = kronEye d (B + C) := by
  ext r c; simp [kronEye, mul_add]

theorem kronEye_smul (d : ℕ) {k l : ℕ} (a : ℝ) (B : Matrix (Fin k) (Fin l) ℝ) :
    a • kronEye d B = kronEye d (a • B) := by
  ext r c; simp [kronEye]; try ring

/-! ## The preconditioner -/

theorem precon_inv_aux {q : ℕ} {h : ℝ} (hh : h ≠ 0) (i : Fin (q + 1)) :
    (|h| ^ (Nordsieck.fromOrder q).powers i / (Nordsieck.fromOrder q).scales i)
      * (|h| ^ (Nordsieck.fromOrder q).inverse.powers i / (Nordsieck.fromOrder q).inverse.scales i) = 1 := by
  have h0 : 0 < |h| := abs_pos.2 hh
  have hf : ((q - i.1).factorial : ℝ) ≠ 0 := by positivity
  simp only [Nordsieck.fromOrder, Nordsieck.inverse]
  rw [Real.rpow_neg h0.le]
  have := (Real.rpow_pos_of_pos h0 (((q - i.1 : ℕ) : ℝ) + 1 / 2)).ne'
  field_simp

theorem precon_mul_inv (q d : ℕ) {h : ℝ} (hh : h ≠ 0) : precon q d h * preconInv q d h = 1 := by
  simp only [precon, preconInv, Nordsieck.call]
  rw [kronEye_mul, Matrix.diagonal_mul_diagonal]
  simp only [precon_inv_aux hh]
  rw [Matrix.diagonal_one, kronEye_one]

theorem preconInv_mul (q d : ℕ) {h : ℝ} (hh : h ≠ 0) : preconInv q d h * precon q d h = 1 :=
  mul_eq_one_comm.1 (precon_mul_inv q d hh)

theorem precon_symm (q d : ℕ) (h : ℝ) : (precon q d h)ᵀ = precon q d h := by
  simp only [precon, Nordsieck.call]
  rw [kronEye_transpose, Matrix.diagonal_transpose]

/-- `discretise` in preconditioned coordinates is `equivalent_discretisation_preconditioned`. -/
theorem inCoords (q d : ℕ) (chol : CovCholesky (q + 1)) {h : ℝ} (tr : Transition (d * (q + 1)) (d * (q + 1)))
    (htr : discretise q d chol h = some tr) :
    InCoords (precon q d h) (preconInv q d h) tr (preconditioned q d chol) := by
  unfold discretise at htr
  split at htr
  · cases htr
  · next hh =>
    have h1 := precon_mul_inv q d hh
    have h2 := preconInv_mul q d hh
    have hs := precon_symm q d h
    have h3 : precon q d h * (preconInv q d h)ᵀ = 1 := by
      have := congrArg Matrix.transpose h2
      rwa [Matrix.transpose_mul, hs, Matrix.transpose_one] at this
    cases htr
    refine ⟨h1, h2, hs, ?_, ?_, ?_⟩
    · rw [Matrix.mul_assoc, Matrix.mul_assoc, Matrix.mul_assoc, h2, Matrix.mul_one, ← Matrix.mul_assoc, h2, Matrix.one_mul]
    · simp [preconditioned]
    · rw [hs, Matrix.mul_assoc, Matrix.mul_assoc, Matrix.mul_assoc, h3, Matrix.mul_one, ← Matrix.mul_assoc, h2,
        Matrix.one_mul]

/-! ## Closed forms -/

/-- Taylor coefficients of a polynomial motion: `h^(j-i) / (j-i)!` above the diagonal. -/
noncomputable def taylor (q : ℕ) (h : ℝ) : Matrix (Fin (q + 1)) (Fin (q + 1)) ℝ :=
  Matrix.of fun i j => if i ≤ j then h ^ (j.1 - i.1) / ((j.1 - i.1).factorial : ℝ) else 0

/-- Covariance of the integrals of white noise: `h^(2q+1-i-j) / ((2q+1-i-j) (q-i)! (q-j)!)`. -/
noncomputable def noiseCov (q : ℕ) (h : ℝ) : Matrix (Fin (q + 1)) (Fin (q + 1)) ℝ :=
  Matrix.of fun i j => h ^ (2 * q + 1 - i.1 - j.1)
    / (((2 * q + 1 - i.1 - j.1 : ℕ) : ℝ) * ((q - i.1).factorial : ℝ) * ((q - j.1).factorial : ℝ))

theorem conj_taylor (q : ℕ) {h : ℝ} (hh : h ≠ 0) :
    (Matrix.diagonal fun i => |h| ^ (Nordsieck.fromOrder q).powers i / (Nordsieck.fromOrder q).scales i)
        * flip (pascalLower (q + 1))
        * (Matrix.diagonal fun i => |h| ^ (Nordsieck.fromOrder q).inverse.powers i / (Nordsieck.fromOrder q).inverse.scales i)
      = taylor q |h| := by
  have h0 : 0 < |h| := abs_pos.2 hh
  ext i j
  rw [Matrix.mul_diagonal, Matrix.diagonal_mul]
  simp only [taylor, flip, pascalLower, Matrix.of_apply, Nordsieck.fromOrder, Nordsieck.inverse, Fin.val_rev]
  rw [show q + 1 - (i.1 + 1) = q - i.1 by omega, show q + 1 - (j.1 + 1) = q - j.1 by omega]
  by_cases hij : i ≤ j
  · have hij' : i.1 ≤ j.1 := hij
    rw [if_pos hij, Nat.choose_eq_factorial_div_factorial (by omega : q - j.1 ≤ q - i.1)]
    rw [show q - i.1 - (q - j.1) = j.1 - i.1 by omega]
    rw [Nat.cast_div (by
      have := Nat.factorial_mul_factorial_dvd_factorial (by omega : q - j.1 ≤ q - i.1)
      rwa [show q - i.1 - (q - j.1) = j.1 - i.1 by omega] at this) (by positivity)]
    push_cast
    have e : |h| ^ (((q - i.1 : ℕ) : ℝ) + 1 / 2) = |h| ^ (j.1 - i.1) * |h| ^ (((q - j.1 : ℕ) : ℝ) + 1 / 2) := by
      rw [← Real.rpow_natCast, ← Real.rpow_add h0]
      congr 1
      rw [show q - i.1 = (j.1 - i.1) + (q - j.1) by omega]
      push_cast
      ring
    rw [e, Real.rpow_neg h0.le]
    have := (Real.rpow_pos_of_pos h0 (((q - j.1 : ℕ) : ℝ) + 1 / 2)).ne'
    have f1 : ((q - i.1).factorial : ℝ) ≠ 0 := by positivity
    have f2 : ((q - j.1).factorial : ℝ) ≠ 0 := by positivity
    have f3 : ((j.1 - i.1).factorial : ℝ) ≠ 0 := by positivity
    field_simp
  · have hij' : j.1 < i.1 := by simpa using hij
    rw [if_neg hij, Nat.choose_eq_zero_of_lt (by omega)]
    simp

theorem conj_noise (q : ℕ) {h : ℝ} (hh : h ≠ 0) :
    (Matrix.diagonal fun i => |h| ^ (Nordsieck.fromOrder q).powers i / (Nordsieck.fromOrder q).scales i)
        * flip (hilbert (q + 1))
        * (Matrix.diagonal fun i => |h| ^ (Nordsieck.fromOrder q).powers i / (Nordsieck.fromOrder q).scales i)
      = noiseCov q |h| := by
  have h0 : 0 < |h| := abs_pos.2 hh
  ext i j
  rw [Matrix.mul_diagonal, Matrix.diagonal_mul]
  simp only [noiseCov, flip, hilbert, Matrix.of_apply, Nordsieck.fromOrder, Fin.val_rev]
  rw [show q + 1 - (i.1 + 1) = q - i.1 by omega, show q + 1 - (j.1 + 1) = q - j.1 by omega]
  have e : |h| ^ (((q - i.1 : ℕ) : ℝ) + 1 / 2) * |h| ^ (((q - j.1 : ℕ) : ℝ) + 1 / 2) = |h| ^ (2 * q + 1 - i.1 - j.1) := by
    rw [← Real.rpow_natCast, ← Real.rpow_add h0]
    congr 1
    rw [show 2 * q + 1 - i.1 - j.1 = (q - i.1) + (q - j.1) + 1 by omega]
    push_cast
    ring
  rw [← e, show 2 * q + 1 - i.1 - j.1 = (q - i.1) + (q - j.1) + 1 by omega]
  push_cast
  have f1 : ((q - i.1).factorial : ℝ) ≠ 0 := by positivity
  have f2 : ((q - j.1).factorial : ℝ) ≠ 0 := by positivity
  have f3 : ((q - i.1 : ℕ) : ℝ) + ((q - j.1 : ℕ) : ℝ) + 1 ≠ 0 := by positivity
  field_simp

theorem discretise_closed (q d : ℕ) (chol : CovCholesky (q + 1)) {h : ℝ} (hh : h ≠ 0) :
    ∃ tr, discretise q d chol h = some tr ∧ tr.mat = kronEye d (taylor q |h|) ∧ tr.noise.mean = 0 ∧
      tr.noise.cov = kronEye d (noiseCov q |h|) := by
  refine ⟨_, by simp only [discretise, if_neg hh]; rfl, ?_, rfl, ?_⟩
  · simp only [precon, preconInv, preconditioned, Nordsieck.call]
    rw [kronEye_mul, kronEye_mul, conj_taylor q hh]
  · rw [precon_symm]
    simp only [precon, preconditioned, Nordsieck.call]
    rw [kronEye_mul, kronEye_mul, conj_noise q hh]

/-! ## Semigroup -/

theorem taylor_add (q : ℕ) (a b : ℝ) : taylor q a * taylor q b = taylor q (a + b) := by
  ext i j
  rw [Matrix.mul_apply]
  simp only [taylor, Matrix.of_apply]
  by_cases hij : i ≤ j
  · have hij' : i.1 ≤ j.1 := hij
    rw [if_pos hij]
    have e : ∀ k : Fin (q + 1), (if i ≤ k then a ^ (k.1 - i.1) / ((k.1 - i.1).factorial : ℝ) else 0)
        * (if k ≤ j then b ^ (j.1 - k.1) / ((j.1 - k.1).factorial : ℝ) else 0)
        = if i.1 ≤ k.1 ∧ k.1 ≤ j.1 then a ^ (k.1 - i.1) / ((k.1 - i.1).factorial : ℝ)
            * (b ^ (j.1 - k.1) / ((j.1 - k.1).factorial : ℝ)) else 0 := by
      intro k
      by_cases h1 : i.1 ≤ k.1 <;> by_cases h2 : k.1 ≤ j.1 <;> simp only [Fin.le_def, h1, h2, and_self, and_true, and_false, if_true, if_false, zero_mul, mul_zero]
    simp only [e]
    rw [Fin.sum_univ_eq_sum_range (fun k => if i.1 ≤ k ∧ k ≤ j.1 then a ^ (k - i.1) / ((k - i.1).factorial : ℝ)
      * (b ^ (j.1 - k) / ((j.1 - k).factorial : ℝ)) else 0) (q + 1)]
    rw [← Finset.sum_filter]
    have hset : (Finset.range (q + 1)).filter (fun k => i.1 ≤ k ∧ k ≤ j.1) = Finset.Ico (i.1) (j.1 + 1) := by
      ext k
      simp only [Finset.mem_filter, Finset.mem_range, Finset.mem_Ico]
      omega
    rw [hset, Finset.sum_Ico_eq_sum_range, show j.1 + 1 - i.1 = (j.1 - i.1) + 1 by omega, add_pow, Finset.sum_div]
    refine Finset.sum_congr rfl fun k hk => ?_
    have hk' : k ≤ j.1 - i.1 := by have := Finset.mem_range.1 hk; omega
    rw [show i.1 + k - i.1 = k by omega, show j.1 - (i.1 + k) = j.1 - i.1 - k by omega]
    have hc : ((j.1 - i.1).choose k : ℝ) = ((j.1 - i.1).factorial : ℝ) / ((k.factorial : ℝ) * ((j.1 - i.1 - k).factorial : ℝ)) := by
      rw [Nat.choose_eq_factorial_div_factorial hk',
        Nat.cast_div (Nat.factorial_mul_factorial_dvd_factorial hk') (by positivity)]
      push_cast
      rfl
    rw [hc]
    have f1 : ((j.1 - i.1).factorial : ℝ) ≠ 0 := by positivity
    have f2 : (k.factorial : ℝ) ≠ 0 := by positivity
    have f3 : ((j.1 - i.1 - k).factorial : ℝ) ≠ 0 := by positivity
    field_simp
  · rw [if_neg hij]
    refine Finset.sum_eq_zero fun k _ => ?_
    by_cases h1 : i ≤ k
    · rw [if_neg (fun h2 => hij (h1.trans h2)), mul_zero]
    · rw [if_neg h1, zero_mul]

theorem taylor_zero (q : ℕ) : taylor q 0 = 1 := by
  ext i j
  simp only [taylor, Matrix.of_apply, Matrix.one_apply]
  rcases lt_trichotomy i j with h | h | h
  · have : j.1 - i.1 ≠ 0 := by have : i.1 < j.1 := h; omega
    rw [if_pos h.le, if_neg h.ne, zero_pow this, zero_div]
  · subst h; simp
  · rw [if_neg (not_le.2 h), if_neg h.ne']

/-- Last column of `taylor`: the response of the state to an impulse of the highest derivative `s` time units ago. -/
noncomputable def impulse (q : ℕ) (s : ℝ) (i : Fin (q + 1)) : ℝ := s ^ (q - i.1) / ((q - i.1).factorial : ℝ)

theorem impulse_eq (q : ℕ) (s : ℝ) (i : Fin (q + 1)) : impulse q s i = taylor q s i (Fin.last q) := by
  simp [impulse, taylor, Fin.le_last]

theorem taylor_impulse (q : ℕ) (a s : ℝ) : taylor q a *ᵥ impulse q s = impulse q (a + s) := by
  funext i
  have := congrFun (congrFun (taylor_add q a s) i) (Fin.last q)
  rw [Matrix.mul_apply] at this
  rw [impulse_eq, ← this]
  simp [Matrix.mulVec, dotProduct, impulse_eq]

/-- The noise covariance is the integral of the squared impulse responses. -/
theorem noiseCov_integral (q : ℕ) (h : ℝ) (i j : Fin (q + 1)) :
    noiseCov q h i j = ∫ s in (0 : ℝ)..h, impulse q s i * impulse q s j := by
  have e : ∀ s : ℝ, impulse q s i * impulse q s j
      = s ^ (q - i.1 + (q - j.1)) * (1 / (((q - i.1).factorial : ℝ) * ((q - j.1).factorial : ℝ))) := by
    intro s
    simp only [impulse]
    rw [pow_add]
    ring
  simp only [e]
  rw [intervalIntegral.integral_mul_const, integral_pow, zero_pow (by omega), sub_zero]
  simp only [noiseCov, Matrix.of_apply]
  rw [show 2 * q + 1 - i.1 - j.1 = (q - i.1) + (q - j.1) + 1 by omega]
  push_cast
  have f1 : ((q - i.1).factorial : ℝ) ≠ 0 := by positivity
  have f2 : ((q - j.1).factorial : ℝ) ≠ 0 := by positivity
  have f3 : ((q - i.1 : ℕ) : ℝ) + ((q - j.1 : ℕ) : ℝ) + 1 ≠ 0 := by positivity
  field_simp

theorem impulse_continuous (q : ℕ) (i : Fin (q + 1)) : Continuous fun s => impulse q s i := by
  unfold impulse
  fun_prop

theorem intervalIntegrable_impulse (q : ℕ) (i j : Fin (q + 1)) (a b : ℝ) :
    IntervalIntegrable (fun s => impulse q s i * impulse q s j) MeasureTheory.volume a b :=
  ((impulse_continuous q i).mul (impulse_continuous q j)).intervalIntegrable a b

/-- A quadratic form of the noise covariance is an integral of a square. -/
theorem noiseCov_bilin (q : ℕ) (h : ℝ) (x y : Fin (q + 1) → ℝ) :
    x ⬝ᵥ (noiseCov q h *ᵥ y) = ∫ s in (0 : ℝ)..h, (x ⬝ᵥ impulse q s) * (y ⬝ᵥ impulse q s) := by
  have e : ∀ s, (x ⬝ᵥ impulse q s) * (y ⬝ᵥ impulse q s)
      = ∑ i, ∑ j, (x i * y j) * (impulse q s i * impulse q s j) := by
    intro s
    simp only [dotProduct]
    rw [Finset.sum_mul_sum]
    refine Finset.sum_congr rfl fun i _ => Finset.sum_congr rfl fun j _ => ?_
    ring
  simp only [e]
  rw [intervalIntegral.integral_finsetSum]
  · simp only [dotProduct, Matrix.mulVec, Finset.mul_sum]
    refine Finset.sum_congr rfl fun i _ => ?_
    rw [intervalIntegral.integral_finsetSum]
    · refine Finset.sum_congr rfl fun j _ => ?_
      rw [intervalIntegral.integral_const_mul, ← noiseCov_integral]
      ring
    · exact fun j _ => (intervalIntegrable_impulse q i j 0 h).const_mul _
  · exact fun i _ => (continuous_finsetSum _ fun j _ =>
      ((impulse_continuous q i).mul (impulse_continuous q j)).const_mul _).intervalIntegrable 0 h

theorem noiseCov_add (q : ℕ) (a b : ℝ) :
    taylor q b * noiseCov q a * (taylor q b)ᵀ + noiseCov q b = noiseCov q (a + b) := by
  ext i j
  have h1 : (taylor q b * noiseCov q a * (taylor q b)ᵀ) i j = (taylor q b i) ⬝ᵥ (noiseCov q a *ᵥ (taylor q b j)) := by
    rw [Matrix.mul_assoc, Matrix.mul_apply]
    rfl
  have h2 : ∀ s, taylor q b i ⬝ᵥ impulse q s = impulse q (b + s) i := fun s => congrFun (taylor_impulse q b s) i
  have h3 : ∀ s, taylor q b j ⬝ᵥ impulse q s = impulse q (b + s) j := fun s => congrFun (taylor_impulse q b s) j
  rw [Matrix.add_apply, h1, noiseCov_bilin]
  simp only [h2, h3]
  rw [intervalIntegral.integral_comp_add_left (fun s => impulse q s i * impulse q s j) b, noiseCov_integral,
    noiseCov_integral, add_zero, add_comm (∫ _ in _.._, _), intervalIntegral.integral_add_adjacent_intervals
      (intervalIntegrable_impulse q i j _ _) (intervalIntegrable_impulse q i j _ _), add_comm b a]

/-! ## Positive definiteness -/

theorem impulse_poly (q : ℕ) (x : Fin (q + 1) → ℝ) (hx : x ≠ 0) (a b : ℝ) (hab : a < b) :
    ∃ c ∈ Set.Icc a b, x ⬝ᵥ impulse q c ≠ 0 := by
  by_contra hcon
  push Not at hcon
  let p : Polynomial ℝ := ∑ i : Fin (q + 1), Polynomial.monomial (q - i.1) (x i / ((q - i.1).factorial : ℝ))
  have he : ∀ c, p.eval c = x ⬝ᵥ impulse q c := by
    intro c
    simp only [p, Polynomial.eval_finset_sum, Polynomial.eval_monomial, dotProduct, impulse]
    refine Finset.sum_congr rfl fun i _ => by ring
  have hp : p = 0 := by
    refine Polynomial.eq_zero_of_infinite_isRoot p (Set.Infinite.mono ?_ (Set.Icc_infinite hab))
    intro c hc
    rw [Set.mem_setOf_eq, Polynomial.IsRoot, he, hcon c hc]
  apply hx
  funext i
  have hc : p.coeff (q - i.1) = x i / ((q - i.1).factorial : ℝ) := by
    simp only [p, Polynomial.finset_sum_coeff, Polynomial.coeff_monomial]
    rw [Finset.sum_eq_single i]
    · simp
    · intro j _ hj
      rw [if_neg]
      intro h
      exact hj (Fin.ext (by omega))
    · simp
  rw [hp, Polynomial.coeff_zero] at hc
  have f1 : ((q - i.1).factorial : ℝ) ≠ 0 := by positivity
  have := (div_eq_zero_iff.1 hc.symm).resolve_right f1
  simpa using this

theorem noiseCov_symm (q : ℕ) (h : ℝ) : (noiseCov q h)ᵀ = noiseCov q h := by
  ext i j
  rw [Matrix.transpose_apply, noiseCov_integral, noiseCov_integral]
  simp only [mul_comm]

theorem noiseCov_posDef (q : ℕ) {h : ℝ} (hh : 0 < h) : (noiseCov q h).PosDef := by
  refine Matrix.PosDef.of_dotProduct_mulVec_pos ?_ fun x hx => ?_
  · rw [Matrix.IsHermitian, Matrix.conjTranspose_eq_transpose_of_trivial, noiseCov_symm]
  · rw [star_trivial, noiseCov_bilin]
    have hc : Continuous fun s => x ⬝ᵥ impulse q s := by
      simp only [dotProduct]
      exact continuous_finsetSum _ fun i _ => continuous_const.mul (impulse_continuous q i)
    obtain ⟨c, hc1, hc2⟩ := impulse_poly q x hx 0 h hh
    exact intervalIntegral.integral_pos hh (hc.mul hc).continuousOn (fun s _ => mul_self_nonneg _)
      ⟨c, hc1, mul_self_pos.2 hc2⟩

theorem hilbert_posDef (q : ℕ) : (flip (hilbert (q + 1))).PosDef := by
  set D : Matrix (Fin (q + 1)) (Fin (q + 1)) ℝ :=
    Matrix.diagonal fun i => |(1 : ℝ)| ^ (Nordsieck.fromOrder q).powers i / (Nordsieck.fromOrder q).scales i with hD
  set E : Matrix (Fin (q + 1)) (Fin (q + 1)) ℝ :=
    Matrix.diagonal fun i => |(1 : ℝ)| ^ (Nordsieck.fromOrder q).inverse.powers i / (Nordsieck.fromOrder q).inverse.scales i
    with hE
  have hDE : D * E = 1 := by
    rw [hD, hE, Matrix.diagonal_mul_diagonal]
    simp only [precon_inv_aux (one_ne_zero)]
    exact Matrix.diagonal_one
  have hED : E * D = 1 := mul_eq_one_comm.1 hDE
  have h1 : D * flip (hilbert (q + 1)) * D = noiseCov q |(1 : ℝ)| := conj_noise q one_ne_zero
  have h2 : flip (hilbert (q + 1)) = Eᴴ * noiseCov q |(1 : ℝ)| * E := by
    rw [← h1, Matrix.conjTranspose_eq_transpose_of_trivial, hE, Matrix.diagonal_transpose, ← hE, Matrix.mul_assoc,
      Matrix.mul_assoc, hDE, Matrix.mul_one, ← Matrix.mul_assoc, hED, Matrix.one_mul]
  rw [h2]
  refine (noiseCov_posDef q (by simp)).conjTranspose_mul_mul_same (B := E) ?_
  intro x y hxy
  have := congrArg (fun v => D *ᵥ v) hxy
  simpa [Matrix.mulVec_mulVec, hDE] using this

theorem kronEye_posDef (d : ℕ) {k : ℕ} {B : Matrix (Fin k) (Fin k) ℝ} (hB : B.PosDef) : (kronEye d B).PosDef := by
  rw [kronEye_eq]
  exact (Matrix.PosDef.one.kronecker hB).submatrix finProdFinEquiv.symm.injective

end Probnum.IWP
