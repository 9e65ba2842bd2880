import Verif.Approx.Model
import Verif.LinGauss.Props
import Mathlib.Tactic.Ring
import Mathlib.Tactic.Linarith
import Mathlib.Tactic.FieldSimp
import Mathlib.LinearAlgebra.Matrix.PosDef
import Mathlib.Tactic.NoncommRing
import Mathlib.Tactic.Positivity

/-! Helper lemmas for C51. -/

namespace Probnum.Approx

open Matrix LinGauss

variable {n m : ℕ}

theorem scale_eq (n : ℕ) : scale n = 0 := by simp [scale]

theorem weightMean_zero (n : ℕ) (i : Fin 1) : weightMean n (.inl i) = 0 := by simp [weightMean, scale_eq]

theorem weightCov_zero (n : ℕ) (i : Fin 1) : weightCov n (.inl i) = 0 := by simp [weightCov, scale_eq]

theorem weightMean_rest (n : ℕ) (i : Fin n ⊕ Fin n) : weightMean n (.inr i) = 1 / (2 * n) := by
  simp [weightMean, scale_eq]

theorem weightCov_rest (n : ℕ) (i : Fin n ⊕ Fin n) : weightCov n (.inr i) = 1 / (2 * n) := by
  simp [weightCov, scale_eq]

theorem weight_eq (n : ℕ) : weightCov n = weightMean n := by
  funext p
  rcases p with p | p
  · rw [weightMean_zero, weightCov_zero]
  · rw [weightMean_rest, weightCov_rest]

/-- The cubature sum. -/
theorem cubature_sum (n : ℕ) (φ : (Fin n → ℝ) → ℝ) :
    ∑ p, weightMean n p * φ (unitPoint n p)
      = ∑ i : Fin n, 1 / (2 * (n : ℝ)) * (φ (unitPoint n (.inr (.inl i))) + φ (unitPoint n (.inr (.inr i)))) := by
  rw [Fintype.sum_sum_type, Fintype.sum_sum_type]
  simp only [weightMean_zero, weightMean_rest, zero_mul, Finset.sum_const_zero, zero_add]
  rw [← Finset.sum_add_distrib]
  exact Finset.sum_congr rfl fun i _ => by ring

theorem unit_neg (n : ℕ) (i : Fin n) : unitPoint n (.inr (.inr i)) = -unitPoint n (.inr (.inl i)) := by
  funext j; simp [unitPoint]

theorem mulVec_unit {a : ℕ} (n : ℕ) (P : Matrix (Fin a) (Fin n) ℝ) (i : Fin n) (j : Fin a) :
    (P *ᵥ unitPoint n (.inr (.inl i))) j = Real.sqrt n * P j i := by
  simp [Matrix.mulVec, dotProduct, unitPoint, mul_comm]

theorem sum_weight (hn : 0 < n) : ∑ p, weightMean n p = 1 := by
  have h := cubature_sum n fun _ => 1
  simp only [mul_one] at h
  rw [h]
  have : (n : ℝ) ≠ 0 := by positivity
  simp
  field_simp
  norm_num

theorem sum_mean {a : ℕ} (P : Matrix (Fin a) (Fin n) ℝ) (j : Fin a) :
    ∑ p, weightMean n p * (P *ᵥ unitPoint n p) j = 0 := by
  rw [cubature_sum n fun u => (P *ᵥ u) j]
  refine Finset.sum_eq_zero fun i _ => ?_
  rw [unit_neg, Matrix.mulVec_neg]
  simp

theorem sum_outer (hn : 0 < n) {a b : ℕ} (P : Matrix (Fin a) (Fin n) ℝ) (R : Matrix (Fin b) (Fin n) ℝ) (j : Fin a)
    (k : Fin b) :
    ∑ p, weightMean n p * ((P *ᵥ unitPoint n p) j * (R *ᵥ unitPoint n p) k) = (P * Rᵀ) j k := by
  rw [cubature_sum n fun u => (P *ᵥ u) j * (R *ᵥ u) k, Matrix.mul_apply]
  refine Finset.sum_congr rfl fun i _ => ?_
  rw [unit_neg, Matrix.mulVec_neg, Matrix.mulVec_neg, Pi.neg_apply, Pi.neg_apply, mulVec_unit, mulVec_unit,
    Matrix.transpose_apply]
  have h1 : (n : ℝ) ≠ 0 := by positivity
  have h2 : Real.sqrt n * Real.sqrt n = n := Real.mul_self_sqrt (by positivity)
  have h3 : Real.sqrt n ^ 2 = n := by rw [sq, h2]
  field_simp
  rw [h3]; ring

theorem outer_eq (hn : 0 < n) {a b : ℕ} (P : Matrix (Fin a) (Fin n) ℝ) (R : Matrix (Fin b) (Fin n) ℝ) :
    outer (weightCov n) (fun p => P *ᵥ unitPoint n p) (fun p => R *ᵥ unitPoint n p) = P * Rᵀ := by
  ext j k
  rw [weight_eq]
  exact sum_outer hn P R j k

section Affine

variable {A : Matrix (Fin m) (Fin n) ℝ} {b : Fin m → ℝ} {g : (Fin n → ℝ) → Fin m → ℝ}

theorem fxMean_affine (hn : 0 < n) (hg : ∀ x, g x = A *ᵥ x + b) (rv : Normal n) : fxMean g rv = A *ᵥ rv.mean + b := by
  funext k
  have e : ∀ p, weightMean n p * g (sigmaPoint rv p) k
      = weightMean n p * ((A * rv.chol) *ᵥ unitPoint n p) k + weightMean n p * (A *ᵥ rv.mean + b) k := by
    intro p
    rw [hg, sigmaPoint, Matrix.mulVec_add, Matrix.mulVec_mulVec]
    simp only [Pi.add_apply]; ring
  rw [fxMean, Finset.sum_congr rfl fun p _ => e p, Finset.sum_add_distrib, sum_mean, ← Finset.sum_mul, sum_weight hn]
  simp

theorem centered_affine (hn : 0 < n) (hg : ∀ x, g x = A *ᵥ x + b) (rv : Normal n) (p : Pt n) :
    g (sigmaPoint rv p) - fxMean g rv = (A * rv.chol) *ᵥ unitPoint n p := by
  rw [fxMean_affine hn hg, hg, sigmaPoint, Matrix.mulVec_add, Matrix.mulVec_mulVec]
  abel

theorem crossCov_affine (hn : 0 < n) (hg : ∀ x, g x = A *ᵥ x + b) (rv : Normal n) (hv : rv.Valid) :
    crossCov g rv = rv.cov * Aᵀ := by
  have e : (fun p => sigmaPoint rv p - rv.mean) = fun p => rv.chol *ᵥ unitPoint n p := by
    funext p; rw [sigmaPoint]; abel
  rw [crossCov, e, funext fun p => centered_affine hn hg rv p, outer_eq hn, Matrix.transpose_mul, ← Matrix.mul_assoc,
    show rv.chol * rv.cholᵀ = rv.cov from hv]

theorem fxCov_affine (hn : 0 < n) (hg : ∀ x, g x = A *ᵥ x + b) (rv : Normal n) (hv : rv.Valid) :
    fxCov g rv = A * rv.cov * Aᵀ := by
  rw [fxCov, funext fun p => centered_affine hn hg rv p, outer_eq hn, Matrix.transpose_mul,
    ← show rv.chol * rv.cholᵀ = rv.cov from hv]
  simp only [Matrix.mul_assoc]

end Affine

theorem jitter_pos : 0 < jitter := by unfold jitter; positivity

/-- The regularised covariance is positive definite. -/
theorem reg_posDef {C : Matrix (Fin n) (Fin n) ℝ} (hC : C.PosSemidef) :
    (C + jitter • (1 : Matrix (Fin n) (Fin n) ℝ)).PosDef := by
  have h1 : (jitter • (1 : Matrix (Fin n) (Fin n) ℝ)).PosDef := Matrix.PosDef.one.smul jitter_pos
  exact Matrix.PosDef.posSemidef_add hC h1

theorem posSemidef_of_valid {rv : Normal n} (hv : rv.Valid) : rv.cov.PosSemidef := by
  rw [← show rv.chol * rv.cholᵀ = rv.cov from hv]
  have := Matrix.posSemidef_self_mul_conjTranspose rv.chol
  rwa [Matrix.conjTranspose_eq_transpose_of_trivial] at this

theorem ukfLinearize_ok (M : Nonlinear n m) (rv : Normal n) (hv : rv.Valid) :
    ukfLinearize M rv = .ok
      { mat := ((rv.cov + jitter • (1 : Matrix (Fin n) (Fin n) ℝ))⁻¹ * crossCov M.g rv)ᵀ
        noise := { mean := M.noise.mean + (fxMean M.g rv
                      - ((rv.cov + jitter • (1 : Matrix (Fin n) (Fin n) ℝ))⁻¹ * crossCov M.g rv)ᵀ *ᵥ rv.mean)
                   cov := M.noise.cov + (fxCov M.g rv - (crossCov M.g rv)ᵀ *
                      (((rv.cov + jitter • (1 : Matrix (Fin n) (Fin n) ℝ))⁻¹ * crossCov M.g rv)ᵀ)ᵀ)
                   chol := 0 } } := by
  have h := (reg_posDef (posSemidef_of_valid hv)).isUnit
  rw [Matrix.isUnit_iff_isUnit_det, isUnit_iff_ne_zero] at h
  unfold ukfLinearize
  exact if_neg h

end Probnum.Approx
