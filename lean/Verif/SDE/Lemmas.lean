import Mathlib.Analysis.SpecialFunctions.Exponential
import Mathlib.Analysis.Calculus.MeanValue
import Mathlib.Topology.Instances.Matrix
import Verif.SDE.Model
import Verif.IWP.Lemmas

/-!
# Matrix-valued derivatives, matrix exponentials and the matrix fraction decomposition
-/

namespace Probnum.SDE

open Matrix

/-- The matrix-valued function `A` has derivative `A'` at `t`, entry by entry. -/
def MDeriv {ι κ : Type} (A : ℝ → Matrix ι κ ℝ) (A' : Matrix ι κ ℝ) (t : ℝ) : Prop :=
  ∀ i j, HasDerivAt (fun s => A s i j) (A' i j) t

/-- The vector-valued function `v` has derivative `v'` at `t`, entry by entry. -/
def VDeriv {ι : Type} (v : ℝ → ι → ℝ) (v' : ι → ℝ) (t : ℝ) : Prop := ∀ i, HasDerivAt (fun s => v s i) (v' i) t

section

variable {ι κ l : Type} [Fintype ι] [Fintype κ] [Fintype l] {t : ℝ}

theorem MDeriv.mul {A : ℝ → Matrix l ι ℝ} {B : ℝ → Matrix ι κ ℝ} {A' : Matrix l ι ℝ} {B' : Matrix ι κ ℝ}
    (hA : MDeriv A A' t) (hB : MDeriv B B' t) : MDeriv (fun s => A s * B s) (A' * B t + A t * B') t := by
  intro i j
  simp only [Matrix.mul_apply, Matrix.add_apply, ← Finset.sum_add_distrib]
  exact HasDerivAt.fun_sum fun k _ => (hA i k).mul (hB k j)

theorem MDeriv.const (A : Matrix ι κ ℝ) : MDeriv (fun _ => A) 0 t := fun i j => by
  simpa using hasDerivAt_const t (A i j)

theorem MDeriv.add {A B : ℝ → Matrix ι κ ℝ} {A' B' : Matrix ι κ ℝ} (hA : MDeriv A A' t) (hB : MDeriv B B' t) :
    MDeriv (fun s => A s + B s) (A' + B') t := fun i j => (hA i j).add (hB i j)

theorem MDeriv.sub {A B : ℝ → Matrix ι κ ℝ} {A' B' : Matrix ι κ ℝ} (hA : MDeriv A A' t) (hB : MDeriv B B' t) :
    MDeriv (fun s => A s - B s) (A' - B') t := fun i j => (hA i j).sub (hB i j)

theorem MDeriv.smul {A : ℝ → Matrix ι κ ℝ} {A' : Matrix ι κ ℝ} (c : ℝ) (hA : MDeriv A A' t) :
    MDeriv (fun s => c • A s) (c • A') t := fun i j => (hA i j).const_mul c

theorem MDeriv.transpose {A : ℝ → Matrix ι κ ℝ} {A' : Matrix ι κ ℝ} (hA : MDeriv A A' t) :
    MDeriv (fun s => (A s)ᵀ) A'ᵀ t := fun i j => hA j i

theorem MDeriv.congr {A : ℝ → Matrix ι κ ℝ} {A' B' : Matrix ι κ ℝ} (hA : MDeriv A A' t) (h : A' = B') : MDeriv A B' t :=
  h ▸ hA

theorem MDeriv.submatrix {l' : Type} {A : ℝ → Matrix ι κ ℝ} {A' : Matrix ι κ ℝ} (hA : MDeriv A A' t) (f : l → ι)
    (g : l' → κ) : MDeriv (fun s => (A s).submatrix f g) (A'.submatrix f g) t := fun i j => hA (f i) (g j)

/-- Reparametrisation `s ↦ c - s`. -/
theorem MDeriv.comp_sub {A : ℝ → Matrix ι κ ℝ} {A' : Matrix ι κ ℝ} (c : ℝ) (hA : MDeriv A A' (c - t)) :
    MDeriv (fun s => A (c - s)) (-A') t := fun i j => by
  have h := (hA i j).comp t ((hasDerivAt_id t).const_sub c)
  simp only [mul_neg, mul_one] at h
  exact h

theorem VDeriv.mulVec {A : ℝ → Matrix ι κ ℝ} {A' : Matrix ι κ ℝ} {v : ℝ → κ → ℝ} {v' : κ → ℝ} (hA : MDeriv A A' t)
    (hv : VDeriv v v' t) : VDeriv (fun s => A s *ᵥ v s) (A' *ᵥ v t + A t *ᵥ v') t := by
  intro i
  simp only [Matrix.mulVec, dotProduct, Pi.add_apply, ← Finset.sum_add_distrib]
  exact HasDerivAt.fun_sum fun k _ => (hA i k).mul (hv k)

theorem VDeriv.const (v : ι → ℝ) : VDeriv (fun _ => v) 0 t := fun i => by simpa using hasDerivAt_const t (v i)

theorem VDeriv.add {v w : ℝ → ι → ℝ} {v' w' : ι → ℝ} (hv : VDeriv v v' t) (hw : VDeriv w w' t) :
    VDeriv (fun s => v s + w s) (v' + w') t := fun i => (hv i).add (hw i)

theorem VDeriv.congr {v : ℝ → ι → ℝ} {v' w' : ι → ℝ} (hv : VDeriv v v' t) (h : v' = w') : VDeriv v w' t := h ▸ hv

theorem eq_of_MDeriv_zero {A : ℝ → Matrix ι κ ℝ} (h : ∀ t, MDeriv A 0 t) (t : ℝ) : A t = A 0 := by
  ext i j
  refine is_const_of_deriv_eq_zero (f := fun s => A s i j) (fun s => (h s i j).differentiableAt) (fun s => ?_) t 0
  exact (h s i j).deriv

variable [DecidableEq ι]

theorem mderiv_exp (G : Matrix ι ι ℝ) (t : ℝ) :
    MDeriv (fun s => NormedSpace.exp (s • G)) (G * NormedSpace.exp (t • G)) t := by
  intro i j
  open scoped Matrix.Norms.Operator in
  have h := hasDerivAt_exp_smul_const' (𝕂 := ℝ) G t
  open scoped Matrix.Norms.Operator in
  have hl : HasFDerivAt (fun M : Matrix ι ι ℝ => M i j)
      (LinearMap.toContinuousLinearMap (Matrix.entryLinearMap ℝ ℝ i j)) (NormedSpace.exp (t • G)) :=
    (LinearMap.toContinuousLinearMap (Matrix.entryLinearMap ℝ ℝ i j)).hasFDerivAt
  open scoped Matrix.Norms.Operator in
  have := hl.comp_hasDerivAt t h
  exact this

theorem exp_comm (G : Matrix ι ι ℝ) (t : ℝ) : NormedSpace.exp (t • G) * G = G * NormedSpace.exp (t • G) := by
  have h : Commute (t • G) G := (Commute.refl G).smul_left t
  exact h.exp_left.eq

theorem exp_neg_mul (G : Matrix ι ι ℝ) (t : ℝ) : NormedSpace.exp (t • (-G)) * NormedSpace.exp (t • G) = 1 := by
  rw [← Matrix.exp_add_of_commute]
  · simp
  · rw [smul_neg]; exact (Commute.refl _).neg_left

theorem exp_mul_neg (G : Matrix ι ι ℝ) (t : ℝ) : NormedSpace.exp (t • G) * NormedSpace.exp (t • (-G)) = 1 := by
  rw [← Matrix.exp_add_of_commute]
  · simp
  · rw [smul_neg]; exact (Commute.refl _).neg_right

/-- Uniqueness for `X' = G X + C`. -/
theorem linear_unique (G : Matrix ι ι ℝ) {X Y C : ℝ → Matrix ι κ ℝ} (hX : ∀ t, MDeriv X (G * X t + C t) t)
    (hY : ∀ t, MDeriv Y (G * Y t + C t) t) (h0 : X 0 = Y 0) (t : ℝ) : X t = Y t := by
  have hW : ∀ t, MDeriv (fun s => NormedSpace.exp (s • (-G)) * (X s - Y s)) 0 t := fun t => by
    refine ((mderiv_exp (-G) t).mul ((hX t).sub (hY t))).congr ?_
    have e := exp_comm (-G) t
    rw [← e]
    simp only [Matrix.mul_assoc, Matrix.neg_mul, Matrix.mul_neg, Matrix.mul_sub, Matrix.mul_add]
    abel
  have h := eq_of_MDeriv_zero hW t
  simp only [h0, sub_self, Matrix.mul_zero] at h
  have h2 := congrArg (fun Z => NormedSpace.exp (t • G) * Z) h
  simp only [← Matrix.mul_assoc, exp_mul_neg, Matrix.one_mul, Matrix.mul_zero] at h2
  exact sub_eq_zero.1 h2

/-- Uniqueness for `D' = G D + D Gᵀ + C`. -/
theorem lyapunov_unique (G : Matrix ι ι ℝ) {X Y C : ℝ → Matrix ι ι ℝ}
    (hX : ∀ t, MDeriv X (G * X t + X t * Gᵀ + C t) t) (hY : ∀ t, MDeriv Y (G * Y t + Y t * Gᵀ + C t) t)
    (h0 : X 0 = Y 0) (t : ℝ) : X t = Y t := by
  have hW : ∀ t, MDeriv (fun s => NormedSpace.exp (s • (-G)) * (X s - Y s) * NormedSpace.exp (s • (-Gᵀ))) 0 t := fun t => by
    refine (((mderiv_exp (-G) t).mul ((hX t).sub (hY t))).mul (mderiv_exp (-Gᵀ) t)).congr ?_
    have e := exp_comm (-G) t
    rw [← e]
    simp only [Matrix.mul_assoc, Matrix.neg_mul, Matrix.mul_neg, Matrix.mul_sub, Matrix.mul_add, Matrix.add_mul,
      Matrix.sub_mul]
    abel
  have h := eq_of_MDeriv_zero hW t
  simp only [h0, sub_self, Matrix.mul_zero, Matrix.zero_mul] at h
  have h2 := congrArg (fun Z => NormedSpace.exp (t • G) * Z * NormedSpace.exp (t • Gᵀ)) h
  simp only [Matrix.mul_zero, Matrix.zero_mul] at h2
  rw [Matrix.mul_assoc, Matrix.mul_assoc, exp_neg_mul, Matrix.mul_one, ← Matrix.mul_assoc, exp_mul_neg,
    Matrix.one_mul] at h2
  exact sub_eq_zero.1 h2

/-- `Ah = exp(t G)`. -/
theorem mfdA_eq (G : Matrix ι ι ℝ) (L : Matrix ι κ ℝ) (t : ℝ) : mfdA G L t = NormedSpace.exp (t • G) ∧
    (mfdM G L t).toBlocks₂₁ = 0 ∧ (mfdM G L t).toBlocks₂₂ = NormedSpace.exp (t • (-Gᵀ)) := by
  have hM : ∀ t, MDeriv (mfdM G L) (mfdPhi G L * mfdM G L t) t := fun t => mderiv_exp _ t
  have hb : ∀ t, mfdPhi G L * mfdM G L t = Matrix.fromBlocks
      (G * (mfdM G L t).toBlocks₁₁ + (L * Lᵀ) * (mfdM G L t).toBlocks₂₁)
      (G * (mfdM G L t).toBlocks₁₂ + (L * Lᵀ) * (mfdM G L t).toBlocks₂₂)
      (-Gᵀ * (mfdM G L t).toBlocks₂₁) (-Gᵀ * (mfdM G L t).toBlocks₂₂) := fun t => by
    conv_lhs => rw [← Matrix.fromBlocks_toBlocks (mfdM G L t), mfdPhi, Matrix.fromBlocks_multiply]
    simp
  have hM0 : mfdM G L 0 = Matrix.fromBlocks 1 0 0 1 := by simp [mfdM]
  have h21 : ∀ t, (mfdM G L t).toBlocks₂₁ = 0 := by
    intro t
    refine linear_unique (-Gᵀ) (X := fun t => (mfdM G L t).toBlocks₂₁) (Y := fun _ => 0) (C := fun _ => 0)
      (fun t => ?_) (fun t => ?_) ?_ t
    · refine ((hM t).submatrix Sum.inr Sum.inl).congr ?_
      rw [hb]; ext i j; simp
    · exact (MDeriv.const 0).congr (by simp)
    · simp only [hM0, Matrix.toBlocks_fromBlocks₂₁]
  refine ⟨?_, h21 t, ?_⟩
  · refine linear_unique G (X := mfdA G L) (Y := fun t => NormedSpace.exp (t • G)) (C := fun _ => 0)
      (fun t => ?_) (fun t => (mderiv_exp G t).congr (by simp)) ?_ t
    · refine ((hM t).submatrix Sum.inl Sum.inl).congr ?_
      rw [hb, h21]; ext i j; simp [mfdA]
    · simp only [mfdA, hM0, Matrix.toBlocks_fromBlocks₁₁, zero_smul, NormedSpace.exp_zero]
  · refine linear_unique (-Gᵀ) (X := fun t => (mfdM G L t).toBlocks₂₂) (Y := fun t => NormedSpace.exp (t • (-Gᵀ)))
      (C := fun _ => 0) (fun t => ?_) (fun t => (mderiv_exp (-Gᵀ) t).congr (by simp)) ?_ t
    · refine ((hM t).submatrix Sum.inr Sum.inr).congr ?_
      rw [hb]; ext i j; simp
    · simp only [hM0, Matrix.toBlocks_fromBlocks₂₂, zero_smul, NormedSpace.exp_zero]

theorem mfdA_deriv (G : Matrix ι ι ℝ) (L : Matrix ι κ ℝ) (t : ℝ) : MDeriv (mfdA G L) (G * mfdA G L t) t := by
  have e : mfdA G L = fun s => NormedSpace.exp (s • G) := funext fun s => (mfdA_eq G L s).1
  rw [e]; exact mderiv_exp G t

theorem mfdA_zero (G : Matrix ι ι ℝ) (L : Matrix ι κ ℝ) : mfdA G L 0 = 1 := by rw [(mfdA_eq G L 0).1]; simp

theorem mfdA_add (G : Matrix ι ι ℝ) (L : Matrix ι κ ℝ) (a b : ℝ) : mfdA G L (a + b) = mfdA G L a * mfdA G L b := by
  rw [(mfdA_eq G L _).1, (mfdA_eq G L _).1, (mfdA_eq G L _).1, add_smul, Matrix.exp_add_of_commute]
  exact ((Commute.refl G).smul_left a).smul_right b

/-- `Qh` solves the Lyapunov differential equation. -/
theorem mfdQ_deriv (G : Matrix ι ι ℝ) (L : Matrix ι κ ℝ) (t : ℝ) :
    MDeriv (mfdQ G L) (G * mfdQ G L t + mfdQ G L t * Gᵀ + L * Lᵀ) t := by
  have hM : MDeriv (mfdM G L) (mfdPhi G L * mfdM G L t) t := mderiv_exp _ t
  have hb : (mfdPhi G L * mfdM G L t).submatrix Sum.inl Sum.inr
      = G * (mfdM G L t).toBlocks₁₂ + (L * Lᵀ) * (mfdM G L t).toBlocks₂₂ := by
    conv_lhs => rw [← Matrix.fromBlocks_toBlocks (mfdM G L t), mfdPhi, Matrix.fromBlocks_multiply]
    ext i j; simp
  have h12 : MDeriv (fun s => (mfdM G L s).toBlocks₁₂) _ t := (hM.submatrix Sum.inl Sum.inr).congr hb
  have hA := (mfdA_deriv G L t).transpose
  refine (h12.mul hA).congr ?_
  obtain ⟨e1, -, e3⟩ := mfdA_eq G L t
  have hE : (mfdM G L t).toBlocks₂₂ * (mfdA G L t)ᵀ = 1 := by
    rw [e3, e1, ← Matrix.exp_transpose, Matrix.transpose_smul, exp_neg_mul]
  rw [Matrix.add_mul, Matrix.mul_assoc (L * Lᵀ), hE, Matrix.mul_one, Matrix.transpose_mul]
  simp only [mfdQ, Matrix.mul_assoc]
  have hc : Gᵀ * (mfdA G L t)ᵀ = (mfdA G L t)ᵀ * Gᵀ := by
    rw [← Matrix.transpose_mul, ← Matrix.transpose_mul, e1, exp_comm]
  abel

theorem mfdQ_zero (G : Matrix ι ι ℝ) (L : Matrix ι κ ℝ) : mfdQ G L 0 = 0 := by
  have : mfdM G L 0 = Matrix.fromBlocks 1 0 0 1 := by simp [mfdM]
  simp only [mfdQ, this, Matrix.toBlocks_fromBlocks₁₂, Matrix.zero_mul]

/-- The matrix fraction decomposition commutes with linear changes of coordinates. -/
theorem mfd_conj (G : Matrix ι ι ℝ) (L : Matrix ι κ ℝ) (P Pi : Matrix ι ι ℝ) (h : P * Pi = 1) (t : ℝ) :
    mfdA (Pi * G * P) (Pi * L) t = Pi * mfdA G L t * P ∧ mfdQ (Pi * G * P) (Pi * L) t = Pi * mfdQ G L t * Piᵀ := by
  have hl : Pi * P = 1 := mul_eq_one_comm.1 h
  have ht : Pᵀ * Piᵀ = 1 := by rw [← Matrix.transpose_mul, hl, Matrix.transpose_one]
  have hc : ∀ {τ : Type} (M : Matrix ι τ ℝ), P * (Pi * M) = M := fun M => by rw [← Matrix.mul_assoc, h, Matrix.one_mul]
  have hc' : ∀ {τ : Type} (M : Matrix ι τ ℝ), Piᵀ * (Pᵀ * M) = M := fun M => by
    rw [← Matrix.mul_assoc, ← Matrix.transpose_mul, h, Matrix.transpose_one, Matrix.one_mul]
  constructor
  · refine linear_unique (Pi * G * P) (X := mfdA (Pi * G * P) (Pi * L)) (Y := fun t => Pi * mfdA G L t * P)
      (C := fun _ => 0) (fun t => (mfdA_deriv _ _ t).congr (by simp)) (fun t => ?_) ?_ t
    · refine (((MDeriv.const Pi).mul (mfdA_deriv G L t)).mul (MDeriv.const P)).congr ?_
      simp [Matrix.mul_assoc, hc]
    · simp [mfdA_zero, hl]
  · refine lyapunov_unique (Pi * G * P) (X := mfdQ (Pi * G * P) (Pi * L)) (Y := fun t => Pi * mfdQ G L t * Piᵀ)
      (C := fun _ => Pi * L * (Pi * L)ᵀ) (fun t => mfdQ_deriv _ _ t) (fun t => ?_) ?_ t
    · refine (((MDeriv.const Pi).mul (mfdQ_deriv G L t)).mul (MDeriv.const Piᵀ)).congr ?_
      simp only [Matrix.zero_mul, zero_add, Matrix.mul_zero, add_zero, Matrix.transpose_mul, Matrix.mul_assoc, hc, hc',
        Matrix.mul_add, Matrix.add_mul]
    · simp [mfdQ_zero]

end

end Probnum.SDE
