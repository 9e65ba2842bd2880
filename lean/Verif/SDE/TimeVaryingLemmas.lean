import Mathlib.MeasureTheory.Integral.IntervalIntegral.FundThmCalculus
import Mathlib.Analysis.Calculus.FDeriv.Mul
import Verif.SDE.TimeVarying
import Verif.SDE.Lemmas

/-!
# Lemmas: derivatives of matrices within intervals, inverses and integrals
-/

namespace Probnum.SDE

open Matrix Set

/-- Derivative within a set, entry by entry. -/
def MDerivW {ι κ : Type} (S : Set ℝ) (A : ℝ → Matrix ι κ ℝ) (A' : Matrix ι κ ℝ) (t : ℝ) : Prop :=
  ∀ i j, HasDerivWithinAt (fun s => A s i j) (A' i j) S t

section

variable {ι κ l : Type} [Fintype ι] [Fintype κ] [Fintype l] {t : ℝ} {S : Set ℝ}

theorem MDeriv.within {A : ℝ → Matrix ι κ ℝ} {A' : Matrix ι κ ℝ} (h : MDeriv A A' t) : MDerivW S A A' t :=
  fun i j => (h i j).hasDerivWithinAt

theorem MDerivW.mul {A : ℝ → Matrix l ι ℝ} {B : ℝ → Matrix ι κ ℝ} {A' : Matrix l ι ℝ} {B' : Matrix ι κ ℝ}
    (hA : MDerivW S A A' t) (hB : MDerivW S B B' t) : MDerivW S (fun s => A s * B s) (A' * B t + A t * B') t := by
  intro i j
  simp only [Matrix.mul_apply, Matrix.add_apply, ← Finset.sum_add_distrib]
  exact HasDerivWithinAt.fun_sum fun k _ => (hA i k).mul (hB k j)

theorem MDerivW.sub {A B : ℝ → Matrix ι κ ℝ} {A' B' : Matrix ι κ ℝ} (hA : MDerivW S A A' t) (hB : MDerivW S B B' t) :
    MDerivW S (fun s => A s - B s) (A' - B') t := fun i j => (hA i j).sub (hB i j)

theorem MDerivW.transpose {A : ℝ → Matrix ι κ ℝ} {A' : Matrix ι κ ℝ} (hA : MDerivW S A A' t) :
    MDerivW S (fun s => (A s)ᵀ) A'ᵀ t := fun i j => hA j i

theorem MDerivW.congr {A : ℝ → Matrix ι κ ℝ} {A' B' : Matrix ι κ ℝ} (hA : MDerivW S A A' t) (h : A' = B') : MDerivW S A B' t :=
  h ▸ hA

theorem eq_of_MDerivW_zero {A : ℝ → Matrix ι κ ℝ} {a b : ℝ} (h : ∀ t ∈ uIcc a b, MDerivW (uIcc a b) A 0 t) {t : ℝ}
    (ht : t ∈ uIcc a b) : A t = A a := by
  ext i j
  have := (convex_uIcc a b).norm_image_sub_le_of_norm_hasDerivWithin_le (f := fun s => A s i j) (f' := fun _ => 0) (C := 0)
    (fun s hs => h s hs i j) (fun s _ => by simp) left_mem_uIcc ht
  simp only [zero_mul, norm_le_zero_iff, sub_eq_zero] at this
  exact this

variable [DecidableEq ι]

theorem MDeriv.hasDerivAt {A : ℝ → Matrix ι κ ℝ} {A' : Matrix ι κ ℝ} (h : MDeriv A A' t) :
    ∀ i, HasDerivAt (fun s => A s i) (A' i) t := fun i => hasDerivAt_pi.2 (h i)

theorem MDeriv.inv {A : ℝ → Matrix ι ι ℝ} {A' : Matrix ι ι ℝ} (h : MDeriv A A' t) (hd : (A t).det ≠ 0) :
    MDeriv (fun s => (A s)⁻¹) (-((A t)⁻¹ * A' * (A t)⁻¹)) t := by
  intro i j
  have hA : HasDerivAt A A' t := hasDerivAt_pi.2 fun i => hasDerivAt_pi.2 fun j => h i j
  obtain ⟨u, hu⟩ := (Matrix.isUnit_iff_isUnit_det (A t)).2 (isUnit_iff_ne_zero.2 hd)
  open scoped Matrix.Norms.Operator in
  have h1 := hasFDerivAt_ringInverse (𝕜 := ℝ) (R := Matrix ι ι ℝ) u
  rw [hu] at h1
  open scoped Matrix.Norms.Operator in
  have h2 := h1.comp_hasDerivAt t hA
  have h3 := hasDerivAt_pi.1 (hasDerivAt_pi.1 h2 i) j
  simp only [Function.comp_apply, ← Matrix.nonsing_inv_eq_ringInverse] at h3
  refine HasDerivAt.congr_deriv h3 ?_
  rw [show A t = (u : Matrix ι ι ℝ) from hu.symm, ← Matrix.coe_units_inv]
  rfl

/-- Uniqueness for `X' = H X + C` on an interval. -/
theorem lin_unique {a b : ℝ} {Θ H : ℝ → Matrix ι ι ℝ} {C X Y : ℝ → Matrix ι κ ℝ}
    (hΘ : ∀ t ∈ uIcc a b, MDeriv Θ (H t * Θ t) t) (hdet : ∀ t ∈ uIcc a b, (Θ t).det ≠ 0)
    (hX : ∀ t ∈ uIcc a b, MDerivW (uIcc a b) X (H t * X t + C t) t)
    (hY : ∀ t ∈ uIcc a b, MDerivW (uIcc a b) Y (H t * Y t + C t) t) (h0 : X a = Y a) : ∀ t ∈ uIcc a b, X t = Y t := by
  have hu : ∀ t ∈ uIcc a b, IsUnit (Θ t).det := fun t ht => isUnit_iff_ne_zero.2 (hdet t ht)
  have hW : ∀ t ∈ uIcc a b, MDerivW (uIcc a b) (fun s => (Θ s)⁻¹ * (X s - Y s)) 0 t := fun t ht => by
    refine (((hΘ t ht).inv (hdet t ht)).within.mul ((hX t ht).sub (hY t ht))).congr ?_
    rw [← Matrix.mul_assoc (Θ t)⁻¹, Matrix.mul_assoc _ (Θ t), Matrix.mul_nonsing_inv _ (hu t ht), Matrix.mul_one]
    simp only [Matrix.neg_mul, Matrix.mul_sub, Matrix.mul_add, Matrix.mul_assoc]
    abel
  intro t ht
  have h := eq_of_MDerivW_zero hW ht
  simp only [h0, sub_self, Matrix.mul_zero] at h
  have h2 := congrArg (fun Z => Θ t * Z) h
  simp only [← Matrix.mul_assoc, Matrix.mul_nonsing_inv _ (hu t ht), Matrix.one_mul, Matrix.mul_zero] at h2
  exact sub_eq_zero.1 h2

/-- Uniqueness for `X' = H X + X Hᵀ + C` on an interval. -/
theorem lyap_unique {a b : ℝ} {Θ H : ℝ → Matrix ι ι ℝ} {C X Y : ℝ → Matrix ι ι ℝ}
    (hΘ : ∀ t ∈ uIcc a b, MDeriv Θ (H t * Θ t) t) (hdet : ∀ t ∈ uIcc a b, (Θ t).det ≠ 0)
    (hX : ∀ t ∈ uIcc a b, MDerivW (uIcc a b) X (H t * X t + X t * (H t)ᵀ + C t) t)
    (hY : ∀ t ∈ uIcc a b, MDerivW (uIcc a b) Y (H t * Y t + Y t * (H t)ᵀ + C t) t) (h0 : X a = Y a) :
    ∀ t ∈ uIcc a b, X t = Y t := by
  have hu : ∀ t ∈ uIcc a b, IsUnit (Θ t).det := fun t ht => isUnit_iff_ne_zero.2 (hdet t ht)
  have hI : ∀ t ∈ uIcc a b, MDerivW (uIcc a b) (fun s => (Θ s)⁻¹) (-((Θ t)⁻¹ * H t)) t := fun t ht => by
    refine ((hΘ t ht).inv (hdet t ht)).within.congr ?_
    rw [← Matrix.mul_assoc (Θ t)⁻¹, Matrix.mul_assoc _ (Θ t), Matrix.mul_nonsing_inv _ (hu t ht), Matrix.mul_one]
  have hW : ∀ t ∈ uIcc a b, MDerivW (uIcc a b) (fun s => (Θ s)⁻¹ * (X s - Y s) * ((Θ s)⁻¹)ᵀ) 0 t := fun t ht => by
    refine (((hI t ht).mul ((hX t ht).sub (hY t ht))).mul (hI t ht).transpose).congr ?_
    simp only [Matrix.neg_mul, Matrix.mul_neg, Matrix.mul_sub, Matrix.sub_mul, Matrix.add_mul, Matrix.mul_add, Matrix.mul_assoc,
      Matrix.transpose_neg, Matrix.transpose_mul]
    abel
  intro t ht
  have h := eq_of_MDerivW_zero hW ht
  simp only [h0, sub_self, Matrix.mul_zero, Matrix.zero_mul] at h
  have h2 := congrArg (fun Z => Θ t * Z * (Θ t)ᵀ) h
  have e : ((Θ t)⁻¹)ᵀ * (Θ t)ᵀ = 1 := by
    rw [← Matrix.transpose_mul, Matrix.mul_nonsing_inv _ (hu t ht), Matrix.transpose_one]
  simp only [Matrix.mul_assoc, e, Matrix.mul_one, Matrix.mul_zero, Matrix.zero_mul] at h2
  rw [← Matrix.mul_assoc, Matrix.mul_nonsing_inv _ (hu t ht), Matrix.one_mul] at h2
  exact sub_eq_zero.1 h2

/-- The integral of a matrix, entry by entry. -/
noncomputable def intM (F : ℝ → Matrix ι κ ℝ) (a b : ℝ) : Matrix ι κ ℝ := Matrix.of fun i j => ∫ s in a..b, F s i j

omit [DecidableEq ι] in
theorem intM_deriv {F : ℝ → Matrix ι κ ℝ} (hF : Continuous F) (a t : ℝ) : MDeriv (intM F a) (F t) t := fun i j => by
  have : Continuous fun s => F s i j := hF.matrix_elem i j
  simpa only [intM, Matrix.of_apply] using (this.integral_hasStrictDerivAt a t).hasDerivAt

omit [DecidableEq ι] in
theorem intM_self (F : ℝ → Matrix ι κ ℝ) (a : ℝ) : intM F a a = 0 := by ext i j; simp [intM]

omit [DecidableEq ι] in
theorem mul_intM {F : ℝ → Matrix ι κ ℝ} (hF : Continuous F) (A : Matrix l ι ℝ) (a b : ℝ) :
    A * intM F a b = intM (fun s => A * F s) a b := by
  ext i j
  simp only [intM, Matrix.mul_apply, Matrix.of_apply]
  rw [intervalIntegral.integral_finset_sum]
  · exact Finset.sum_congr rfl fun k _ => (intervalIntegral.integral_const_mul _ _).symm
  · exact fun k _ => ((hF.matrix_elem k j).const_mul _).intervalIntegrable _ _

omit [DecidableEq ι] in
theorem intM_mul {F : ℝ → Matrix ι κ ℝ} (hF : Continuous F) (A : Matrix κ l ℝ) (a b : ℝ) :
    intM F a b * A = intM (fun s => F s * A) a b := by
  ext i j
  simp only [intM, Matrix.mul_apply, Matrix.of_apply]
  rw [intervalIntegral.integral_finset_sum]
  · exact Finset.sum_congr rfl fun k _ => (intervalIntegral.integral_mul_const _ _).symm
  · exact fun k _ => ((hF.matrix_elem i k).mul_const _).intervalIntegrable _ _

omit [DecidableEq ι] in
/-- Integrals of positive semidefinite matrices are positive semidefinite. -/
theorem intM_posSemidef {F : ℝ → Matrix ι ι ℝ} (hF : Continuous F) (hp : ∀ s, (F s).PosSemidef) {a b : ℝ} (hab : a ≤ b) :
    (intM F a b).PosSemidef := by
  refine Matrix.PosSemidef.of_dotProduct_mulVec_nonneg ?_ fun x => ?_
  · rw [Matrix.IsHermitian, Matrix.conjTranspose_eq_transpose_of_trivial]
    ext i j
    simp only [intM, Matrix.transpose_apply, Matrix.of_apply]
    refine intervalIntegral.integral_congr fun s _ => ?_
    have := (hp s).1.eq
    rw [Matrix.conjTranspose_eq_transpose_of_trivial] at this
    exact congrFun (congrFun this i) j
  · have e : star x ⬝ᵥ (intM F a b *ᵥ x) = ∫ s in a..b, star x ⬝ᵥ (F s *ᵥ x) := by
      simp only [dotProduct, Matrix.mulVec, intM, Matrix.of_apply]
      rw [intervalIntegral.integral_finset_sum]
      · refine Finset.sum_congr rfl fun i _ => ?_
        rw [intervalIntegral.integral_const_mul]
        congr 1
        rw [intervalIntegral.integral_finset_sum]
        · exact Finset.sum_congr rfl fun k _ => (intervalIntegral.integral_mul_const _ _).symm
        · exact fun k _ => ((hF.matrix_elem i k).mul_const _).intervalIntegrable _ _
      · exact fun i _ => (continuous_const.mul
          (continuous_finsetSum _ fun k _ => (hF.matrix_elem i k).mul_const _)).intervalIntegrable _ _
    rw [e]
    exact intervalIntegral.integral_nonneg hab fun s _ => (hp s).dotProduct_mulVec_nonneg x

end

end Probnum.SDE
