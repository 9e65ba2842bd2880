import Mathlib.Analysis.InnerProductSpace.GramSchmidtOrtho
import Mathlib.Analysis.InnerProductSpace.PiL2
import Mathlib.Algebra.BigOperators.Fin
import Mathlib.Tactic.NoncommRing
import Mathlib.Tactic.Abel
import Verif.LinGauss.Model

/-!
# Helper lemmas: existence of QR, triangular factors, block identities
-/

namespace Probnum.LinGauss

open Matrix

/-! ## A QR function exists -/

section QRExists

variable {m n : ℕ}

/-- Columns of `A` as euclidean vectors. -/
private noncomputable def col (A : Matrix (Fin m) (Fin n) ℝ) (j : Fin n) : EuclideanSpace ℝ (Fin m) :=
  WithLp.toLp 2 (fun i => A i j)

/-- The first `m` columns, padded by zeros. -/
private noncomputable def fam (A : Matrix (Fin m) (Fin n) ℝ) (j : Fin m) : EuclideanSpace ℝ (Fin m) :=
  if h : j.1 < n then col A ⟨j.1, h⟩ else 0

private noncomputable def basis (A : Matrix (Fin m) (Fin n) ℝ) :
    OrthonormalBasis (Fin m) ℝ (EuclideanSpace ℝ (Fin m)) :=
  InnerProductSpace.gramSchmidtOrthonormalBasis (by simp) (fam A)

private theorem basis_zero (A : Matrix (Fin m) (Fin n) ℝ) (i : Fin m) (j : Fin n) (h : j.1 < i.1) :
    inner ℝ (basis A i) (col A j) = 0 := by
  have hj : j.1 < m := h.trans i.2
  have hf : fam A ⟨j.1, hj⟩ = col A j := by simp [fam]
  rw [← hf]
  exact InnerProductSpace.gramSchmidtOrthonormalBasis_inv_triangular _ (fam A) (i := ⟨j.1, hj⟩) (j := i) h

private noncomputable def rOf (A : Matrix (Fin m) (Fin n) ℝ) : Matrix (Fin (min m n)) (Fin n) ℝ :=
  Matrix.of fun i j => inner ℝ (basis A ⟨i.1, by omega⟩) (col A j)

private theorem rOf_gram (A : Matrix (Fin m) (Fin n) ℝ) : (rOf A)ᵀ * rOf A = Aᵀ * A := by
  ext j k
  have h1 : (Aᵀ * A) j k = inner ℝ (col A j) (col A k) := by
    simp only [Matrix.mul_apply, Matrix.transpose_apply, PiLp.inner_apply, col, RCLike.inner_apply]
    refine Finset.sum_congr rfl fun i _ => ?_
    simp [mul_comm]
  rw [h1, ← (basis A).sum_inner_mul_inner (col A j) (col A k)]
  simp only [Matrix.mul_apply, Matrix.transpose_apply, rOf, Matrix.of_apply]
  have h2 : ∀ i : Fin m, inner ℝ (col A j) (basis A i) * inner ℝ (basis A i) (col A k)
      = if i.1 < min m n then inner ℝ (basis A i) (col A j) * inner ℝ (basis A i) (col A k) else 0 := by
    intro i
    split_ifs with h
    · rw [real_inner_comm]
    · rw [basis_zero A i k (by omega), mul_zero]
  simp only [h2]
  rw [← Finset.sum_filter]
  refine Finset.sum_bij' (fun i _ => (⟨i.1, by omega⟩ : Fin m))
    (fun i hi => (⟨i.1, by simpa using hi⟩ : Fin (min m n))) ?_ ?_ ?_ ?_ ?_
  · intro i _; simp; omega
  · intro i _; simp
  · intro i _; rfl
  · intro i _; rfl
  · intro i _; rfl

/-- Some function satisfies the contract of `numpy.linalg.qr(mode="r")`. -/
theorem QR.exists : Nonempty QR :=
  ⟨{ r := fun A => rOf A
     gram := fun A => rOf_gram A
     upper := fun A i j h => basis_zero A ⟨i.1, by omega⟩ j h }⟩

end QRExists

/-! ## Cholesky utilities -/

variable {n m : ℕ}

theorem posSign_sq (x : ℝ) : posSign x * posSign x = 1 := by
  unfold posSign; split_ifs <;> norm_num

theorem mul_posSign_nonneg (x : ℝ) : 0 ≤ x * posSign x := by
  unfold posSign; split_ifs with h
  · linarith
  · linarith

theorem posSign_ne_zero (x : ℝ) : posSign x ≠ 0 := by
  unfold posSign; split_ifs <;> norm_num

/-- Matrix with the Gram matrix of a padded R. -/
theorem padded_gram {k : ℕ} (hk : k ≤ n) (R : Matrix (Fin k) (Fin n) ℝ) :
    (Matrix.of fun (i j : Fin n) => if h : j.1 < k then R ⟨j.1, h⟩ i else 0) *
      (Matrix.of fun (i j : Fin n) => if h : j.1 < k then R ⟨j.1, h⟩ i else 0)ᵀ = Rᵀ * R := by
  ext i j
  simp only [Matrix.mul_apply, Matrix.transpose_apply, Matrix.of_apply]
  have : ∀ x : Fin n, ((if h : x.1 < k then R ⟨x.1, h⟩ i else 0) * if h : x.1 < k then R ⟨x.1, h⟩ j else 0)
      = if h : x.1 < k then R ⟨x.1, h⟩ i * R ⟨x.1, h⟩ j else 0 := by
    intro x; split_ifs <;> simp
  simp only [this]
  have h2 : ∀ x : Fin n, (if h : x.1 < k then R ⟨x.1, h⟩ i * R ⟨x.1, h⟩ j else 0)
      = if x.1 < k then (if h : x.1 < k then R ⟨x.1, h⟩ i * R ⟨x.1, h⟩ j else 0) else 0 := by
    intro x; split_ifs <;> rfl
  rw [Finset.sum_congr rfl fun x _ => h2 x, ← Finset.sum_filter]
  refine (Finset.sum_bij' (fun a _ => (⟨a.1, by omega⟩ : Fin n))
    (fun a ha => (⟨a.1, by simpa using ha⟩ : Fin k)) ?_ ?_ ?_ ?_ ?_).symm
  · intro a _; simp
  · intro a _; simp
  · intro a _; rfl
  · intro a _; rfl
  · intro a _; simp

theorem vstackT_gram {k₁ k₂ : ℕ} (S₁ : Matrix (Fin n) (Fin k₁) ℝ) (S₂ : Matrix (Fin n) (Fin k₂) ℝ) :
    (vstackT S₁ S₂)ᵀ * vstackT S₁ S₂ = S₁ * S₁ᵀ + S₂ * S₂ᵀ := by
  ext i j
  simp [Matrix.mul_apply, vstackT, Fin.sum_univ_add]

/-! ## The block matrix of the square-root update -/

section Blocks

variable (tr : Transition n m) (d : ℝ) (obt : Normal m) (rv : Normal n) (gain : Matrix (Fin n) (Fin m) ℝ)

theorem block_gram_11 (hd : 0 ≤ d) (i j : Fin m) :
    ((blockMat tr d obt rv gain)ᵀ * blockMat tr d obt rv gain) (Fin.castAdd n i) (Fin.castAdd n j)
      = (tr.mat * (rv.chol * rv.cholᵀ) * tr.matᵀ + d • (tr.noise.chol * tr.noise.cholᵀ)) i j := by
  have hs : Real.sqrt d * Real.sqrt d = d := Real.mul_self_sqrt hd
  have h1 : tr.mat * (rv.chol * rv.cholᵀ) * tr.matᵀ = (rv.cholᵀ * tr.matᵀ)ᵀ * (rv.cholᵀ * tr.matᵀ) := by
    simp [Matrix.transpose_mul, Matrix.mul_assoc]
  rw [h1, Matrix.mul_apply, Fin.sum_univ_add, Fin.sum_univ_add]
  simp only [Matrix.transpose_apply, blockMat, Matrix.of_apply, Fin.addCases_left, Fin.addCases_right, mul_zero,
    Finset.sum_const_zero, add_zero, Matrix.add_apply, Matrix.smul_apply, smul_eq_mul]
  rw [Matrix.mul_apply, Matrix.mul_apply, Finset.mul_sum]
  congr 1
  refine Finset.sum_congr rfl fun x _ => ?_
  simp only [Matrix.transpose_apply]
  linear_combination (tr.noise.chol i x * tr.noise.chol j x) * hs

theorem block_gram_12 (i : Fin m) (j : Fin n) :
    ((blockMat tr d obt rv gain)ᵀ * blockMat tr d obt rv gain) (Fin.castAdd n i) (Fin.natAdd m j)
      = (tr.mat * (rv.chol * rv.cholᵀ)) i j := by
  have h1 : tr.mat * (rv.chol * rv.cholᵀ) = (rv.cholᵀ * tr.matᵀ)ᵀ * rv.cholᵀ := by
    simp [Matrix.transpose_mul, Matrix.mul_assoc]
  rw [h1, Matrix.mul_apply, Fin.sum_univ_add, Fin.sum_univ_add]
  simp only [Matrix.transpose_apply, blockMat, Matrix.of_apply, Fin.addCases_left, Fin.addCases_right, mul_zero,
    zero_mul, Finset.sum_const_zero, add_zero]
  rw [Matrix.mul_apply]
  rfl

theorem block_gram_22 (i j : Fin n) :
    ((blockMat tr d obt rv gain)ᵀ * blockMat tr d obt rv gain) (Fin.natAdd m i) (Fin.natAdd m j)
      = (rv.chol * rv.cholᵀ + gain * (obt.chol * obt.cholᵀ) * gainᵀ) i j := by
  have h1 : gain * (obt.chol * obt.cholᵀ) * gainᵀ = (obt.cholᵀ * gainᵀ)ᵀ * (obt.cholᵀ * gainᵀ) := by
    simp [Matrix.transpose_mul, Matrix.mul_assoc]
  rw [h1, Matrix.mul_apply, Fin.sum_univ_add, Fin.sum_univ_add]
  simp only [Matrix.transpose_apply, blockMat, Matrix.of_apply, Fin.addCases_left, Fin.addCases_right, mul_zero,
    Finset.sum_const_zero, zero_add, Matrix.add_apply]
  rw [Matrix.mul_apply, Matrix.mul_apply]
  rfl

/-- Splitting a sum over the rows of the triangular factor. -/
theorem sum_rows (g : Fin (min (n + (m + m)) (m + n)) → ℝ) :
    ∑ x, g x = ∑ a : Fin m, g ⟨a.1, by omega⟩ + ∑ a : Fin n, g ⟨m + a.1, by omega⟩ := by
  have e := blockRows n m
  rw [← Equiv.sum_comp (finCongr e.symm) g, Fin.sum_univ_add]
  rfl

variable {R : Matrix (Fin (min (n + (m + m)) (m + n))) (Fin (m + n)) ℝ}

theorem R_gram_11 (hup : ∀ i j, j.1 < i.1 → R i j = 0) (i j : Fin m) :
    (Rᵀ * R) (Fin.castAdd n i) (Fin.castAdd n j) = ((triuR1 R)ᵀ * triuR1 R) i j := by
  rw [Matrix.mul_apply, sum_rows]
  have : ∀ a : Fin n, R ⟨m + a.1, by omega⟩ (Fin.castAdd n j) = 0 := fun a => hup _ _ (by simp; omega)
  simp only [Matrix.transpose_apply, this, mul_zero, Finset.sum_const_zero, add_zero]
  simp [Matrix.mul_apply, triuR1]

theorem R_gram_12 (hup : ∀ i j, j.1 < i.1 → R i j = 0) (i : Fin m) (j : Fin n) :
    (Rᵀ * R) (Fin.castAdd n i) (Fin.natAdd m j) = ((triuR1 R)ᵀ * triuR12 R) i j := by
  rw [Matrix.mul_apply, sum_rows]
  have : ∀ a : Fin n, R ⟨m + a.1, by omega⟩ (Fin.castAdd n i) = 0 := fun a => hup _ _ (by simp; omega)
  simp only [Matrix.transpose_apply, this, zero_mul, Finset.sum_const_zero, add_zero]
  simp [Matrix.mul_apply, triuR1, triuR12]

theorem R_gram_22 (i j : Fin n) :
    (Rᵀ * R) (Fin.natAdd m i) (Fin.natAdd m j)
      = ((triuR12 R)ᵀ * triuR12 R + (triuR2 R)ᵀ * triuR2 R) i j := by
  rw [Matrix.mul_apply, sum_rows]
  simp [Matrix.mul_apply, triuR2, triuR12]

theorem qr_blocks (Q : QR) (hd : 0 ≤ d) :
    let R := Q.r (blockMat tr d obt rv gain)
    (triuR1 R)ᵀ * triuR1 R = tr.mat * (rv.chol * rv.cholᵀ) * tr.matᵀ + d • (tr.noise.chol * tr.noise.cholᵀ) ∧
    (triuR1 R)ᵀ * triuR12 R = tr.mat * (rv.chol * rv.cholᵀ) ∧
    (triuR12 R)ᵀ * triuR12 R + (triuR2 R)ᵀ * triuR2 R
      = rv.chol * rv.cholᵀ + gain * (obt.chol * obt.cholᵀ) * gainᵀ := by
  intro R
  have hup : ∀ i j, j.1 < i.1 → R i j = 0 := Q.upper _
  have hg := Q.gram (blockMat tr d obt rv gain)
  refine ⟨?_, ?_, ?_⟩
  · ext i j
    rw [← R_gram_11 hup, ← block_gram_11 tr d obt rv gain hd, ← hg]
  · ext i j
    rw [← R_gram_12 hup, ← block_gram_12 tr d obt rv gain, ← hg]
  · ext i j
    rw [← R_gram_22, ← block_gram_22 tr d obt rv gain, ← hg]

end Blocks

end Probnum.LinGauss
