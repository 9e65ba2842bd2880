import Mathlib.LinearAlgebra.Matrix.PosDef
import Mathlib.Analysis.Calculus.FDeriv.Mul
import Mathlib.Analysis.Calculus.FDeriv.Pi
import Mathlib.Analysis.Calculus.FDeriv.Add
import Mathlib.Analysis.Calculus.Deriv.Pow
import Mathlib.Analysis.Calculus.Deriv.Add
import Mathlib.Analysis.Calculus.Deriv.Mul
import Mathlib.Analysis.Calculus.Deriv.Comp
import Mathlib.Topology.Algebra.Module.FiniteDimension
import Mathlib.LinearAlgebra.Matrix.ToLin
import Mathlib.Tactic.Linarith
import Mathlib.Tactic.Module

/-!
# Algebra of a Gauss–Newton step

For positive definite `P` and `R`, a matrix `J`, `S = J P Jᵀ + R` and `K = P Jᵀ S⁻¹`.
-/

namespace Probnum.Iterated

open Matrix

variable {n m : ℕ}

theorem posDef_symm {k : ℕ} {C : Matrix (Fin k) (Fin k) ℝ} (h : C.PosDef) : Cᵀ = C := by
  have := h.isHermitian
  rwa [Matrix.IsHermitian, Matrix.conjTranspose_eq_transpose_of_trivial] at this

theorem posDef_det {k : ℕ} {C : Matrix (Fin k) (Fin k) ℝ} (h : C.PosDef) : IsUnit C.det :=
  (Matrix.isUnit_iff_isUnit_det _).1 h.isUnit

/-- The matrix `P⁻¹ + Jᵀ R⁻¹ J`. -/
noncomputable def hess (P : Matrix (Fin n) (Fin n) ℝ) (R : Matrix (Fin m) (Fin m) ℝ) (J : Matrix (Fin m) (Fin n) ℝ) :
    Matrix (Fin n) (Fin n) ℝ := P⁻¹ + Jᵀ * R⁻¹ * J

theorem hess_posDef {P : Matrix (Fin n) (Fin n) ℝ} {R : Matrix (Fin m) (Fin m) ℝ} (hP : P.PosDef) (hR : R.PosDef)
    (J : Matrix (Fin m) (Fin n) ℝ) : (hess P R J).PosDef := by
  have h := hR.inv.posSemidef.conjTranspose_mul_mul_same J
  rw [Matrix.conjTranspose_eq_transpose_of_trivial] at h
  exact hP.inv.add_posSemidef h

theorem innov_posDef {P : Matrix (Fin n) (Fin n) ℝ} {R : Matrix (Fin m) (Fin m) ℝ} (hP : P.PosDef) (hR : R.PosDef)
    (J : Matrix (Fin m) (Fin n) ℝ) : (J * P * Jᵀ + R).PosDef := by
  have h := hP.posSemidef.mul_mul_conjTranspose_same J
  rw [Matrix.conjTranspose_eq_transpose_of_trivial] at h
  exact Matrix.PosDef.posSemidef_add h hR

theorem hess_gain {P : Matrix (Fin n) (Fin n) ℝ} {R : Matrix (Fin m) (Fin m) ℝ} (hP : P.PosDef) (hR : R.PosDef)
    (J : Matrix (Fin m) (Fin n) ℝ) : hess P R J * (P * Jᵀ * (J * P * Jᵀ + R)⁻¹) = Jᵀ * R⁻¹ := by
  have h : hess P R J * (P * Jᵀ) = Jᵀ * R⁻¹ * (J * P * Jᵀ + R) := by
    rw [hess, Matrix.add_mul, Matrix.mul_add, Matrix.mul_assoc Jᵀ R⁻¹ R, Matrix.nonsing_inv_mul _ (posDef_det hR),
      ← Matrix.mul_assoc P⁻¹, Matrix.nonsing_inv_mul _ (posDef_det hP), Matrix.one_mul, Matrix.mul_one, add_comm]
    simp only [Matrix.mul_assoc]
  rw [← Matrix.mul_assoc, h, Matrix.mul_assoc (Jᵀ * R⁻¹),
    Matrix.mul_nonsing_inv _ (posDef_det (innov_posDef hP hR J)), Matrix.mul_one]

/-- The updated covariance is the inverse of `P⁻¹ + Jᵀ R⁻¹ J`. -/
theorem hess_cov {P : Matrix (Fin n) (Fin n) ℝ} {R : Matrix (Fin m) (Fin m) ℝ} (hP : P.PosDef) (hR : R.PosDef)
    (J : Matrix (Fin m) (Fin n) ℝ) : hess P R J * (P - P * Jᵀ * (J * P * Jᵀ + R)⁻¹ * J * P) = 1 := by
  rw [Matrix.mul_sub, Matrix.mul_assoc _ J P, ← Matrix.mul_assoc (hess P R J), hess_gain hP hR, hess, Matrix.add_mul,
    Matrix.nonsing_inv_mul _ (posDef_det hP)]
  simp only [Matrix.mul_assoc]
  abel

theorem dot_symm {k : ℕ} {A : Matrix (Fin k) (Fin k) ℝ} (h : Aᵀ = A) (x y : Fin k → ℝ) :
    x ⬝ᵥ A *ᵥ y = y ⬝ᵥ A *ᵥ x := by
  rw [Matrix.dotProduct_mulVec, ← Matrix.mulVec_transpose, h, dotProduct_comm]

theorem dot_mulVec (A : Matrix (Fin m) (Fin n) ℝ) (x : Fin n → ℝ) (y : Fin m → ℝ) : A *ᵥ x ⬝ᵥ y = x ⬝ᵥ Aᵀ *ᵥ y := by
  rw [Matrix.dotProduct_mulVec, Matrix.vecMul_transpose]

/-- `x · A x`. -/
def quad {k : ℕ} (A : Matrix (Fin k) (Fin k) ℝ) (x : Fin k → ℝ) : ℝ := x ⬝ᵥ A *ᵥ x

theorem quad_add {k : ℕ} {A : Matrix (Fin k) (Fin k) ℝ} (h : Aᵀ = A) (x y : Fin k → ℝ) :
    quad A (x + y) = quad A x + 2 * (y ⬝ᵥ A *ᵥ x) + quad A y := by
  rw [quad, quad, quad, Matrix.mulVec_add, dotProduct_add, add_dotProduct, add_dotProduct, dot_symm h x y]
  ring

theorem quad_hess {P : Matrix (Fin n) (Fin n) ℝ} {R : Matrix (Fin m) (Fin m) ℝ} (J : Matrix (Fin m) (Fin n) ℝ)
    (v : Fin n → ℝ) : quad (hess P R J) v = quad P⁻¹ v + quad R⁻¹ (J *ᵥ v) := by
  rw [quad, quad, quad, hess, Matrix.add_mulVec, dotProduct_add, dot_mulVec, Matrix.mulVec_mulVec, Matrix.mulVec_mulVec,
    Matrix.mul_assoc]

/-- Completion of the square. -/
theorem square_completion {P : Matrix (Fin n) (Fin n) ℝ} {R : Matrix (Fin m) (Fin m) ℝ} (hP : P.PosDef) (hR : R.PosDef)
    (J : Matrix (Fin m) (Fin n) ℝ) (v : Fin n → ℝ) (r : Fin m → ℝ) :
    quad P⁻¹ v + quad R⁻¹ (r - J *ᵥ v) =
      quad (J * P * Jᵀ + R)⁻¹ r + quad (hess P R J) (v - (P * Jᵀ * (J * P * Jᵀ + R)⁻¹) *ᵥ r) := by
  have hS := innov_posDef hP hR J
  have hRs : (R⁻¹)ᵀ = R⁻¹ := posDef_symm hR.inv
  have hGs := posDef_symm (hess_posDef hP hR J)
  have hSs : ((J * P * Jᵀ + R)⁻¹)ᵀ = (J * P * Jᵀ + R)⁻¹ := posDef_symm hS.inv
  have hPs := posDef_symm hP
  have hK := hess_gain hP hR J
  set K := P * Jᵀ * (J * P * Jᵀ + R)⁻¹ with hKd
  have q1 : quad R⁻¹ (r - J *ᵥ v) = quad R⁻¹ r - 2 * (J *ᵥ v ⬝ᵥ R⁻¹ *ᵥ r) + quad R⁻¹ (J *ᵥ v) := by
    have := quad_add hRs r (-(J *ᵥ v))
    rw [← sub_eq_add_neg, neg_dotProduct] at this
    rw [this]
    simp only [quad, Matrix.mulVec_neg, neg_dotProduct_neg]
    ring
  have q2 : quad (hess P R J) (v - K *ᵥ r) = quad (hess P R J) v - 2 * (J *ᵥ v ⬝ᵥ R⁻¹ *ᵥ r) +
      (J * K) *ᵥ r ⬝ᵥ R⁻¹ *ᵥ r := by
    have e := quad_add hGs v (-(K *ᵥ r))
    rw [← sub_eq_add_neg, neg_dotProduct, dot_symm hGs (K *ᵥ r) v, Matrix.mulVec_mulVec, hK] at e
    rw [e]
    simp only [quad, Matrix.mulVec_neg, neg_dotProduct_neg]
    rw [Matrix.mulVec_mulVec r _ K, hK, dot_mulVec J v, Matrix.mulVec_mulVec, ← Matrix.mulVec_mulVec r J K,
      dot_mulVec J (K *ᵥ r), Matrix.mulVec_mulVec]
    ring
  have q3 : R⁻¹ = (J * P * Jᵀ + R)⁻¹ + (J * K)ᵀ * R⁻¹ := by
    have e1 : (J * K)ᵀ = (J * P * Jᵀ + R)⁻¹ * (J * P * Jᵀ) := by
      rw [hKd, Matrix.transpose_mul, Matrix.transpose_mul, Matrix.transpose_mul, hSs, Matrix.transpose_transpose, hPs]
      simp only [Matrix.mul_assoc]
    have e2 : (J * P * Jᵀ + R)⁻¹ * (J * P * Jᵀ + R) * R⁻¹ = R⁻¹ := by
      rw [Matrix.nonsing_inv_mul _ (posDef_det hS), Matrix.one_mul]
    have e3 : (J * P * Jᵀ + R)⁻¹ * (J * P * Jᵀ + R) * R⁻¹ = (J * P * Jᵀ + R)⁻¹ * (J * P * Jᵀ) * R⁻¹ +
        (J * P * Jᵀ + R)⁻¹ := by
      rw [Matrix.mul_add, Matrix.add_mul, Matrix.mul_assoc _ R, Matrix.mul_nonsing_inv _ (posDef_det hR), Matrix.mul_one]
    rw [e1, add_comm, ← e3, e2]
  have q4 : quad R⁻¹ r = quad (J * P * Jᵀ + R)⁻¹ r + (J * K) *ᵥ r ⬝ᵥ R⁻¹ *ᵥ r := by
    rw [dot_mulVec, Matrix.mulVec_mulVec]
    simp only [quad]
    rw [← dotProduct_add, ← Matrix.add_mulVec, ← q3]
  rw [q1, q2, q4, quad_hess]
  ring

section Deriv

variable {E : Type*} [NormedAddCommGroup E] [NormedSpace ℝ E]

/-- The derivative of `f · h`. -/
theorem hasFDerivAt_dot {f h : E → Fin m → ℝ} {f' h' : E →L[ℝ] (Fin m → ℝ)} {x : E}
    (hf : HasFDerivAt f f' x) (hh : HasFDerivAt h h' x) :
    ∃ D : E →L[ℝ] ℝ, HasFDerivAt (fun x => f x ⬝ᵥ h x) D x ∧ ∀ v, D v = f' v ⬝ᵥ h x + f x ⬝ᵥ h' v := by
  have h1 := HasFDerivAt.fun_sum (u := Finset.univ) fun i _ => ((hasFDerivAt_pi'.1 hf) i).mul ((hasFDerivAt_pi'.1 hh) i)
  refine ⟨_, h1, fun v => ?_⟩
  simp only [ContinuousLinearMap.sum_apply, ContinuousLinearMap.add_apply, ContinuousLinearMap.smul_apply,
    ContinuousLinearMap.comp_apply, ContinuousLinearMap.proj_apply, smul_eq_mul]
  rw [Finset.sum_add_distrib, add_comm, dotProduct, dotProduct]
  congr 1
  exact Finset.sum_congr rfl fun i _ => mul_comm _ _

/-- The linear map of a matrix. -/
noncomputable def matMap (A : Matrix (Fin m) (Fin n) ℝ) : (Fin n → ℝ) →L[ℝ] (Fin m → ℝ) :=
  LinearMap.toContinuousLinearMap A.mulVecLin

theorem matMap_apply (A : Matrix (Fin m) (Fin n) ℝ) (v : Fin n → ℝ) : matMap A v = A *ᵥ v := rfl

/-- The derivative of `f · A f` for symmetric `A`. -/
theorem hasFDerivAt_quad {f : E → Fin m → ℝ} {f' : E →L[ℝ] (Fin m → ℝ)} {x : E}
    (hf : HasFDerivAt f f' x) {A : Matrix (Fin m) (Fin m) ℝ} (hA : Aᵀ = A) :
    ∃ D : E →L[ℝ] ℝ, HasFDerivAt (fun x => quad A (f x)) D x ∧ ∀ v, D v = 2 * (f' v ⬝ᵥ A *ᵥ f x) := by
  have h2 : HasFDerivAt (fun x => A *ᵥ f x) ((matMap A).comp f') x := ((matMap A).hasFDerivAt (x := f x)).comp x hf
  obtain ⟨D, h3, h4⟩ := hasFDerivAt_dot hf h2
  refine ⟨D, h3, fun v => ?_⟩
  rw [h4, ContinuousLinearMap.comp_apply, matMap_apply, dot_symm hA (f x)]
  ring

/-- The derivative in the direction of a point from which the function is quadratic along the line. -/
theorem deriv_of_square {F : E → ℝ} {D : E →L[ℝ] ℝ} {x μ : E} (hF : HasFDerivAt F D x) {c e : ℝ}
    (h : ∀ s : ℝ, F (μ + s • (x - μ)) = c + s ^ 2 * e) : D (x - μ) = 2 * e := by
  have hx : HasDerivAt (fun s : ℝ => μ + s • (x - μ)) (x - μ) 1 := by
    have := ((hasDerivAt_id (1 : ℝ)).smul_const (x - μ)).const_add μ
    simpa using this
  have hF' : HasFDerivAt F D (μ + (1 : ℝ) • (x - μ)) := by rwa [one_smul, add_sub_cancel]
  have h1 := hF'.comp_hasDerivAt (1 : ℝ) hx
  have h2 : HasDerivAt (fun s : ℝ => c + s ^ 2 * e) (2 * e) 1 := by
    have := (((hasDerivAt_id (1 : ℝ)).pow 2).mul_const e).const_add c
    simpa using this
  have h3 : (F ∘ fun s : ℝ => μ + s • (x - μ)) = fun s : ℝ => c + s ^ 2 * e := funext h
  rw [h3] at h1
  exact h1.unique h2

end Deriv

end Probnum.Iterated
