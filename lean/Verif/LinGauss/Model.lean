import Mathlib.LinearAlgebra.Matrix.NonsingularInverse
import Mathlib.Data.Real.Sqrt
import Mathlib.Data.Sign.Basic
import Verif.Py

/-!
# Model of `randprocs/markov/discrete/_linear_gaussian.py`, `_condition_state.py` and
# `utils/linalg/_cholesky_updates.py`

Exact real matrices.  `config.matrix_free = False`.  numpy's `qr(·, mode="r")` is a parameter with its contract
(`QR`); `Verif/LinGauss/Lemmas.lean` proves that such a function exists.
-/

namespace Probnum.LinGauss

open Matrix

/-- The part of a `randvars.Normal` the code reads: mean, covariance and `cov_cholesky`.  `Constant(x)` is
`⟨x, 0, 0⟩`. -/
structure Normal (n : ℕ) where
  mean : Fin n → ℝ
  cov : Matrix (Fin n) (Fin n) ℝ
  chol : Matrix (Fin n) (Fin n) ℝ

/-- `randvars.Constant(support)` (`_transition.py` 487, 491): zero covariance. -/
def Normal.const {n : ℕ} (x : Fin n → ℝ) : Normal n := ⟨x, 0, 0⟩

/-- A `LinearGaussian` transition at a fixed time: `transition_matrix_fun(t)` and `noise_fun(t)`
(`_linear_gaussian.py` 15-65). -/
structure Transition (n m : ℕ) where
  mat : Matrix (Fin m) (Fin n) ℝ
  noise : Normal m

/-- `numpy.linalg.qr(A, mode="r")`: an upper triangular (trapezoidal) matrix with `min(rows, cols)` rows and the
same Gram matrix. -/
structure QR where
  r : {m n : ℕ} → Matrix (Fin m) (Fin n) ℝ → Matrix (Fin (min m n)) (Fin n) ℝ
  gram : ∀ {m n : ℕ} (A : Matrix (Fin m) (Fin n) ℝ), (r A)ᵀ * r A = Aᵀ * A
  upper : ∀ {m n : ℕ} (A : Matrix (Fin m) (Fin n) ℝ) (i : Fin (min m n)) (j : Fin n), j.1 < i.1 → r A i j = 0

/-! ## Cholesky utilities -/

open Classical in
/-- `np.sign` with `d[d == 0] = 1.0` (`_cholesky_updates.py` 94-97). -/
noncomputable def posSign (x : ℝ) : ℝ := if x < 0 then -1 else 1

/-- `tril_to_positive_tril` (`_cholesky_updates.py` 81-101), square input. -/
noncomputable def trilToPositiveTril {n : ℕ} (T : Matrix (Fin n) (Fin n) ℝ) : Matrix (Fin n) (Fin n) ℝ :=
  Matrix.of fun i j => T i j * posSign (T j j)

/-- `np.vstack((S1.T, S2.T))` (`_cholesky_updates.py` 66). -/
def vstackT {n k₁ k₂ : ℕ} (S₁ : Matrix (Fin n) (Fin k₁) ℝ) (S₂ : Matrix (Fin n) (Fin k₂) ℝ) :
    Matrix (Fin (k₁ + k₂)) (Fin n) ℝ :=
  Matrix.of fun i j => Fin.addCases (fun a => S₁ j a) (fun a => S₂ j a) i

/-- Lines 70-78 of `cholesky_update` for two-dimensional `S1` with `n` rows and `k₁` columns: transpose, or write
the transpose into the first `k₁` columns of a zero matrix.  The slice assignment `lower[:, :k₁] = R.T` needs
`R.T` to have `k₁` columns or one column (broadcasting; only possible with `k₁ = 0`, writing nothing); otherwise
numpy raises ValueError. -/
noncomputable def finishCholesky {n k : ℕ} (k₁ : ℕ) (R : Matrix (Fin k) (Fin n) ℝ) :
    Res (Matrix (Fin n) (Fin n) ℝ) :=
  if n ≤ k₁ then
    .ok (trilToPositiveTril (Matrix.of fun i j => if h : j.1 < k then R ⟨j.1, h⟩ i else 0))
  else if k = k₁ then
    .ok (trilToPositiveTril (Matrix.of fun i j => if h : j.1 < k then R ⟨j.1, h⟩ i else 0))
  else if k = 1 then
    .ok (trilToPositiveTril 0)
  else .error .valueError

/-- `cholesky_update(S1, S2)` (`_cholesky_updates.py` 11-78), two-dimensional arguments. -/
noncomputable def choleskyUpdate (Q : QR) {n k₁ k₂ : ℕ} (S₁ : Matrix (Fin n) (Fin k₁) ℝ)
    (S₂ : Matrix (Fin n) (Fin k₂) ℝ) : Res (Matrix (Fin n) (Fin n) ℝ) :=
  finishCholesky k₁ (Q.r (vstackT S₁ S₂))

/-- `cholesky_update(S1)` (`_cholesky_updates.py` 11-78 with `S2=None`); `np.vstack` of an empty array raises
ValueError (line 68). -/
noncomputable def choleskyUpdate1 (Q : QR) {n k₁ : ℕ} (S₁ : Matrix (Fin n) (Fin k₁) ℝ) :
    Res (Matrix (Fin n) (Fin n) ℝ) :=
  if k₁ = 0 then .error .valueError else finishCholesky k₁ (Q.r S₁ᵀ)

/-! ## Forward implementations -/

/-- What `forward_rv` returns: the random variable and `info["crosscov"]`. -/
structure Forwarded (n m : ℕ) where
  mean : Fin m → ℝ
  cov : Matrix (Fin m) (Fin m) ℝ
  crosscov : Matrix (Fin n) (Fin m) ℝ

variable {n m : ℕ}

/-- `_forward_rv_classic` without the gain (`_linear_gaussian.py` 169-176). -/
def forwardClassic (tr : Transition n m) (d : ℝ) (rv : Normal n) : Forwarded n m :=
  let crosscov := rv.cov * tr.matᵀ
  { mean := tr.mat *ᵥ rv.mean + tr.noise.mean
    cov := tr.mat * crosscov + d • tr.noise.cov
    crosscov := crosscov }

open Classical in
/-- The gain of `_forward_rv_classic` (`_linear_gaussian.py` 177-182): solve with the (symmetric) predictive
covariance; a singular matrix raises `LinAlgError`. -/
noncomputable def gainClassic (tr : Transition n m) (d : ℝ) (rv : Normal n) : Res (Matrix (Fin n) (Fin m) ℝ) :=
  let f := forwardClassic tr d rv
  if f.cov.det = 0 then .error .linAlgError else .ok (((f.covᵀ)⁻¹ * f.crosscovᵀ)ᵀ)

/-- `_forward_rv_sqrt` without the gain (`_linear_gaussian.py` 194-204): mean, `cov_cholesky`, covariance,
cross-covariance. -/
noncomputable def forwardSqrt (Q : QR) (tr : Transition n m) (d : ℝ) (rv : Normal n) :
    Res (Forwarded n m × Matrix (Fin m) (Fin m) ℝ) := do
  let L ← choleskyUpdate Q (tr.mat * rv.chol) (Real.sqrt d • tr.noise.chol)
  .ok ({ mean := tr.mat *ᵥ rv.mean + tr.noise.mean
         cov := L * Lᵀ
         crosscov := rv.cov * tr.matᵀ }, L)

open Classical in
/-- The gain of `_forward_rv_sqrt` (`_linear_gaussian.py` 205-208): `cho_solve` with the factor `L`, i.e. solve with
`L Lᵀ`.  LAPACK does not check a singular triangular factor (the result is non-finite); this outcome is modelled as
`LinAlgError` too. -/
noncomputable def gainSqrt (Q : QR) (tr : Transition n m) (d : ℝ) (rv : Normal n) :
    Res (Matrix (Fin n) (Fin m) ℝ) := do
  let (f, L) ← forwardSqrt Q tr d rv
  if L.det = 0 then .error .linAlgError else .ok (((L * Lᵀ)⁻¹ * f.crosscovᵀ)ᵀ)

/-! ## Backward implementations -/

/-- Result of a backward pass. -/
structure Updated (n : ℕ) where
  mean : Fin n → ℝ
  cov : Matrix (Fin n) (Fin n) ℝ

/-- `condition_state_on_rv` (`_condition_state.py` 13-17). -/
def conditionStateOnRv (obt : Normal m) (fwdMean : Fin m → ℝ) (fwdCov : Matrix (Fin m) (Fin m) ℝ) (rv : Normal n)
    (gain : Matrix (Fin n) (Fin m) ℝ) : Updated n :=
  { mean := rv.mean + gain *ᵥ (obt.mean - fwdMean)
    cov := rv.cov + gain * (obt.cov - fwdCov) * gainᵀ }

/-- `_backward_rv_classic` of a `LinearGaussian` with the classic forward implementation
(`_nonlinear_gaussian.py` 109-133): forwarded variable and gain are used if both are supplied, else recomputed. -/
noncomputable def backwardClassic (tr : Transition n m) (d : ℝ) (obt : Normal m) (rv : Normal n)
    (given : Option ((Fin m → ℝ) × Matrix (Fin m) (Fin m) ℝ × Matrix (Fin n) (Fin m) ℝ)) : Res (Updated n) :=
  match given with
  | some (fm, fc, gain) => .ok (conditionStateOnRv obt fm fc rv gain)
  | none => do
    let gain ← gainClassic tr d rv
    let f := forwardClassic tr d rv
    .ok (conditionStateOnRv obt f.mean f.cov rv gain)

/-- `_backward_rv_joseph` (`_linear_gaussian.py` 289-319) with the classic forward implementation. -/
noncomputable def backwardJoseph (tr : Transition n m) (d : ℝ) (obt : Normal m) (rv : Normal n)
    (gain? : Option (Matrix (Fin n) (Fin m) ℝ)) : Res (Updated n) := do
  let gain ← match gain? with
    | some g => .ok g
    | none => gainClassic tr d rv
  let J := 1 - gain * tr.mat
  .ok { mean := rv.mean + gain *ᵥ (obt.mean - tr.mat *ᵥ rv.mean - tr.noise.mean)
        cov := J * rv.cov * Jᵀ + gain * (d • tr.noise.cov) * gainᵀ + gain * obt.cov * gainᵀ }

/-- The block matrix of `_backward_rv_sqrt` (`_linear_gaussian.py` 258-267): `n + (m + m)` rows, `m + n` columns. -/
noncomputable def blockMat (tr : Transition n m) (d : ℝ) (obt : Normal m) (rv : Normal n)
    (gain : Matrix (Fin n) (Fin m) ℝ) : Matrix (Fin (n + (m + m))) (Fin (m + n)) ℝ :=
  Matrix.of fun r c =>
    Fin.addCases
      (fun a : Fin n => Fin.addCases (fun j : Fin m => (rv.cholᵀ * tr.matᵀ) a j) (fun j : Fin n => rv.cholᵀ a j) c)
      (fun r' : Fin (m + m) => Fin.addCases
        (fun a : Fin m => Fin.addCases (fun j : Fin m => (Real.sqrt d • tr.noise.chol)ᵀ a j) (fun _ : Fin n => 0) c)
        (fun a : Fin m => Fin.addCases (fun _ : Fin m => 0) (fun j : Fin n => (obt.cholᵀ * gainᵀ) a j) c) r') r

theorem blockRows (n m : ℕ) : min (n + (m + m)) (m + n) = m + n := by omega

/-- `big_triu[:m, :m]` (`_linear_gaussian.py` 278). -/
def triuR1 (R : Matrix (Fin (min (n + (m + m)) (m + n))) (Fin (m + n)) ℝ) : Matrix (Fin m) (Fin m) ℝ :=
  Matrix.of fun i j => R ⟨i.1, by omega⟩ (Fin.castAdd n j)

/-- `big_triu[:m, m:]` (`_linear_gaussian.py` 279). -/
def triuR12 (R : Matrix (Fin (min (n + (m + m)) (m + n))) (Fin (m + n)) ℝ) : Matrix (Fin m) (Fin n) ℝ :=
  Matrix.of fun i j => R ⟨i.1, by omega⟩ (Fin.natAdd m j)

/-- `big_triu[m:m+n, m:m+n]` (`_linear_gaussian.py` 269-271). -/
def triuR2 (R : Matrix (Fin (min (n + (m + m)) (m + n))) (Fin (m + n)) ℝ) : Matrix (Fin n) (Fin n) ℝ :=
  Matrix.of fun i j => R ⟨m + i.1, by omega⟩ (Fin.natAdd m j)

open Classical in
/-- The gain handed to the block matrix (`_linear_gaussian.py` 238-245): the supplied one, the one of an extra
forward pass if the obtained random variable has nonzero covariance, or zero. -/
noncomputable def initialGain (Q : QR) (tr : Transition n m) (d : ℝ) (obt : Normal m) (rv : Normal n)
    (gain? : Option (Matrix (Fin n) (Fin m) ℝ)) : Res (Matrix (Fin n) (Fin m) ℝ) :=
  match gain? with
  | some g => .ok g
  | none => if obt.cov ≠ 0 then gainSqrt Q tr d rv else .ok 0

open Classical in
/-- The gain used for the mean (`_linear_gaussian.py` 277-280): a zero gain is replaced by the solution of the
triangular system; a singular `R1` raises `LinAlgError`. -/
noncomputable def finalGain (gain : Matrix (Fin n) (Fin m) ℝ)
    (R : Matrix (Fin (min (n + (m + m)) (m + n))) (Fin (m + n)) ℝ) : Res (Matrix (Fin n) (Fin m) ℝ) :=
  if gain = 0 then
    if (triuR1 R).det = 0 then .error .linAlgError else .ok (((triuR1 R)⁻¹ * triuR12 R)ᵀ)
  else .ok gain

/-- `_backward_rv_sqrt` (`_linear_gaussian.py` 214-287) with the square-root forward implementation: mean,
covariance and the returned `cov_cholesky`. -/
noncomputable def backwardSqrt (Q : QR) (tr : Transition n m) (d : ℝ) (obt : Normal m) (rv : Normal n)
    (gain? : Option (Matrix (Fin n) (Fin m) ℝ)) : Res (Normal n) := do
  let gain ← initialGain Q tr d obt rv gain?
  let R := Q.r (blockMat tr d obt rv gain)
  let gain' ← finalGain gain R
  let L := trilToPositiveTril (triuR2 R)ᵀ
  .ok ⟨rv.mean + gain' *ᵥ (obt.mean - tr.mat *ᵥ rv.mean - tr.noise.mean), L * Lᵀ, L⟩

end Probnum.LinGauss
