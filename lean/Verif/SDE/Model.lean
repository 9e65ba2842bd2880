import Mathlib.Analysis.Normed.Algebra.MatrixExponential
import Mathlib.Data.Matrix.ColumnRowPartitioned
import Verif.IWP.Model

/-!
# Model: linear SDEs

Models `src/probnum/randprocs/markov/continuous/`: `_linear_sde.py` (the vector fields handed to
`scipy.integrate.solve_ivp`; the numerical ODE solver itself is not modelled), `_mfd.py` and `_lti_sde.py`, and the
preconditioned systems of `integrator/_ioup.py` and `integrator/_matern.py`.  `scipy.linalg.expm` is the exact matrix
exponential.
-/

namespace Probnum.SDE

open Matrix Probnum.LinGauss Probnum.Kalman

/-! ## Moment differential equations -/

/-- The flat vectors `y` of `_linear_sde.py` consist of a mean and a square matrix (`hstack`/`reshape`). -/
structure Moments (n : ℕ) where
  mean : Fin n → ℝ
  cov : Matrix (Fin n) (Fin n) ℝ

/-- The vector field of `_setup_vectorized_mde_forward_classic` (`_linear_sde.py` 285-313) at a time where drift matrix,
force vector and dispersion matrix are `G`, `u` and `L`. -/
def mdeForward {n s : ℕ} (G : Matrix (Fin n) (Fin n) ℝ) (u : Fin n → ℝ) (L : Matrix (Fin n) (Fin s) ℝ) (d : ℝ)
    (y : Moments n) : Moments n :=
  ⟨G *ᵥ y.mean + u, G * y.cov + y.cov * Gᵀ + d • (L * Lᵀ)⟩

/-- `np.tril(M, -1) + 1/2 * np.diag(np.diag(M))` (`_linear_sde.py` 398). -/
noncomputable def lowerHalf {n : ℕ} (M : Matrix (Fin n) (Fin n) ℝ) : Matrix (Fin n) (Fin n) ℝ :=
  Matrix.of fun i j => if j < i then M i j else if i = j then 1 / 2 * M i i else 0

/-- The argument of `tril_to_positive_tril` in `_setup_vectorized_mde_forward_sqrt` (`_linear_sde.py` 389-399).
`solve_triangular` with the (invertible, lower triangular) factor is multiplication by the inverse. -/
noncomputable def sqrtDerivative {n s : ℕ} (G : Matrix (Fin n) (Fin n) ℝ) (L : Matrix (Fin n) (Fin s) ℝ) (d : ℝ)
    (S : Matrix (Fin n) (Fin n) ℝ) : Matrix (Fin n) (Fin n) ℝ :=
  let Gbar := S⁻¹ * (G * S)
  let Lbar := Real.sqrt d • (S⁻¹ * L)
  let M := Gbar + Gbarᵀ + Lbar * Lbarᵀ
  S * lowerHalf M

/-- The vector field of `_setup_vectorized_mde_forward_sqrt` (`_linear_sde.py` 376-409); `cov` is the Cholesky factor. -/
noncomputable def mdeForwardSqrt {n s : ℕ} (G : Matrix (Fin n) (Fin n) ℝ) (u : Fin n → ℝ) (L : Matrix (Fin n) (Fin s) ℝ)
    (d : ℝ) (y : Moments n) : Moments n :=
  ⟨G *ᵥ y.mean + u, trilToPositiveTril (sqrtDerivative G L d y.cov)⟩

/-- The vector field of `_setup_vectorized_mde_backward` (`_linear_sde.py` 411-445); `fm`, `fP` are mean and covariance of
the forward solution at the same time. -/
noncomputable def mdeBackward {n s : ℕ} (G : Matrix (Fin n) (Fin n) ℝ) (u : Fin n → ℝ) (L : Matrix (Fin n) (Fin s) ℝ)
    (d : ℝ) (fm : Fin n → ℝ) (fP : Matrix (Fin n) (Fin n) ℝ) (y : Moments n) : Moments n :=
  let LL := d • (L * Lᵀ)
  let X := (fP⁻¹ * LLᵀ)ᵀ
  ⟨G *ᵥ y.mean + X *ᵥ (y.mean - fm) + u, (G + X) * y.cov + y.cov * (G + X)ᵀ - LL⟩

/-! ## Matrix fraction decomposition and discretisation -/

/-- `Phi` of `matrix_fraction_decomposition` (`_mfd.py` 15-20). -/
def mfdPhi {ι κ : Type} [Fintype ι] [Fintype κ] (F : Matrix ι ι ℝ) (L : Matrix ι κ ℝ) : Matrix (ι ⊕ ι) (ι ⊕ ι) ℝ :=
  Matrix.fromBlocks F (L * Lᵀ) 0 (-Fᵀ)

/-- `M` of `matrix_fraction_decomposition` (`_mfd.py` 21). -/
noncomputable def mfdM {ι κ : Type} [Fintype ι] [DecidableEq ι] [Fintype κ] (F : Matrix ι ι ℝ) (L : Matrix ι κ ℝ) (dt : ℝ) :
    Matrix (ι ⊕ ι) (ι ⊕ ι) ℝ := NormedSpace.exp (dt • mfdPhi F L)

/-- `Ah` of `matrix_fraction_decomposition` (`_mfd.py` 23). -/
noncomputable def mfdA {ι κ : Type} [Fintype ι] [DecidableEq ι] [Fintype κ] (F : Matrix ι ι ℝ) (L : Matrix ι κ ℝ) (dt : ℝ) :
    Matrix ι ι ℝ := (mfdM F L dt).toBlocks₁₁

/-- `Qh` of `matrix_fraction_decomposition` (`_mfd.py` 24). -/
noncomputable def mfdQ {ι κ : Type} [Fintype ι] [DecidableEq ι] [Fintype κ] (F : Matrix ι ι ℝ) (L : Matrix ι κ ℝ) (dt : ℝ) :
    Matrix ι ι ℝ := (mfdM F L dt).toBlocks₁₂ * (mfdA F L dt)ᵀ

/-- An `LTISDE` (`_lti_sde.py` 34-72) whose matrices fit. -/
structure LTISDE (n s : ℕ) where
  drift : Matrix (Fin n) (Fin n) ℝ
  force : Fin n → ℝ
  dispersion : Matrix (Fin n) (Fin s) ℝ

/-- The stacked drift matrix of `discretise` (`_lti_sde.py` 151-153). -/
def stackedDrift {n : ℕ} (G : Matrix (Fin n) (Fin n) ℝ) : Matrix (Fin n ⊕ Fin n) (Fin n ⊕ Fin n) ℝ :=
  Matrix.fromBlocks G 1 0 0

/-- The stacked dispersion matrix of `discretise` (`_lti_sde.py` 154-156). -/
def stackedDispersion {n s : ℕ} (L : Matrix (Fin n) (Fin s) ℝ) : Matrix (Fin n ⊕ Fin n) (Fin s) ℝ :=
  Matrix.fromRows L 0

/-- `np.eye(n, 2 * n)` (`_lti_sde.py` 160). -/
def proj (n : ℕ) : Matrix (Fin n) (Fin n ⊕ Fin n) ℝ := Matrix.fromCols 1 0

/-- `np.flip(proj, axis=1)` (`_lti_sde.py` 161): column `j` becomes column `2n - 1 - j`, i.e. column `i` of the first half
becomes column `n - 1 - i` of the second half. -/
def projRev (n : ℕ) : Matrix (Fin n) (Fin n ⊕ Fin n) ℝ :=
  Matrix.fromCols 0 (Matrix.of fun i j => if j = i.rev then 1 else 0)

open Classical in
/-- `LTISDE.discretise(dt)` (`_lti_sde.py` 137-175).  The `cov_cholesky` of the noise is computed lazily (`chol`). -/
noncomputable def LTISDE.discretise {n s : ℕ} (chol : CovCholesky n) (sde : LTISDE n s) (dt : ℝ) : Transition n n :=
  if sde.force ≠ 0 then
    let ah := mfdA (stackedDrift sde.drift) (stackedDispersion sde.dispersion) dt
    let qh := mfdQ (stackedDrift sde.drift) (stackedDispersion sde.dispersion) dt
    let Q := proj n * qh * (proj n)ᵀ
    ⟨proj n * ah * (proj n)ᵀ, ⟨(proj n * ah * (projRev n)ᵀ) *ᵥ sde.force, Q, chol.factor Q⟩⟩
  else
    let Q := mfdQ sde.drift sde.dispersion dt
    ⟨mfdA sde.drift sde.dispersion dt, ⟨0, Q, chol.factor Q⟩⟩

/-- The shapes of the three arguments of the `LTISDE` constructor. -/
structure Shapes where
  drift : List ℕ
  force : List ℕ
  dispersion : List ℕ

/-- The checks of the `LTISDE` constructor (`_lti_sde.py` 44-45 index the shape tuples before
`_check_initial_state_dimensions`, 178-196, runs). -/
def construct (s : Shapes) : Res Unit := do
  if s.drift.length < 1 then throw .indexError
  if s.dispersion.length < 2 then throw .indexError
  if s.drift.length ≠ 2 ∨ s.drift[0]? ≠ s.drift[1]? then throw .valueError
  if s.force.length ≠ 1 then throw .valueError
  if s.force[0]? ≠ s.drift[1]? then throw .valueError
  if s.dispersion.length ≠ 2 then throw .valueError
  pure ()

/-- `discretise` of the constructed object fails in `np.block` if the dispersion matrix has a wrong number of rows
(`_mfd.py` 15-20). -/
def discretiseShapes (s : Shapes) : Res Unit := do
  construct s
  if s.dispersion[0]? ≠ s.drift[0]? then throw .valueError
  pure ()

/-! ## Integrators -/

/-- `_drift_matrix_iwp` (`integrator/_iwp.py`), one dimension: ones above the diagonal. -/
def driftIwp (q : ℕ) : Matrix (Fin (q + 1)) (Fin (q + 1)) ℝ := Matrix.of fun i j => if i.1 + 1 = j.1 then 1 else 0

/-- `_drift_matrix_ioup` (`integrator/_ioup.py` 146-149), one dimension. -/
def driftIoup (q : ℕ) (speed : ℝ) : Matrix (Fin (q + 1)) (Fin (q + 1)) ℝ :=
  Matrix.of fun i j => if i.1 = q ∧ j.1 = q then -speed else if i.1 + 1 = j.1 then 1 else 0

/-- `_drift_matrix_matern` (`integrator/_matern.py` 145-152), one dimension. -/
noncomputable def driftMatern (q : ℕ) (lengthscale : ℝ) : Matrix (Fin (q + 1)) (Fin (q + 1)) ℝ :=
  let lam := Real.sqrt (2 * (q + 1 / 2)) / lengthscale
  Matrix.of fun i j =>
    if i.1 = q then -((q + 1).choose j.1 : ℝ) * lam ^ (q + 1 - j.1) else if i.1 + 1 = j.1 then 1 else 0

/-- `_dispersion_matrix_*`, one dimension: the last unit vector. -/
def dispersion1d (q : ℕ) : Matrix (Fin (q + 1)) (Fin 1) ℝ := Matrix.of fun i _ => if i.1 = q then 1 else 0

/-- The `LTISDE` part of an integrator: `np.kron(np.eye(d), ·)` of the one-dimensional drift and dispersion, no force. -/
def integrator (q d : ℕ) (drift1d : Matrix (Fin (q + 1)) (Fin (q + 1)) ℝ) : LTISDE (d * (q + 1)) (d * 1) :=
  ⟨IWP.kronEye d drift1d, 0, IWP.kronEye d (dispersion1d q)⟩

/-- `new_lti_sde` of `forward_rv`/`backward_rv` of the IOUP and Matérn transitions (`_ioup.py` 178-187, 234-243;
`_matern.py` the same). -/
noncomputable def LTISDE.inCoords {n s : ℕ} (sde : LTISDE n s) (P Pi : Matrix (Fin n) (Fin n) ℝ) : LTISDE n s :=
  ⟨Pi * sde.drift * P, Pi *ᵥ sde.force, Pi * sde.dispersion⟩

/-- `forward_rv` of the IOUP and Matérn transitions, classic implementation (`_ioup.py` 160-201); `none` is `nan`. -/
noncomputable def forwardRv (q d : ℕ) (drift1d : Matrix (Fin (q + 1)) (Fin (q + 1)) ℝ) (ch : CovCholesky (d * (q + 1)))
    (ε dt diffusion : ℝ) (rv : IWP.Rv (d * (q + 1))) : Option (IWP.PreForwarded (d * (q + 1))) :=
  open Classical in
  if dt = 0 then none else
    some (IWP.preForward ch ε (IWP.precon q d dt) (IWP.preconInv q d dt)
      (((integrator q d drift1d).inCoords (IWP.precon q d dt) (IWP.preconInv q d dt)).discretise ch dt) diffusion rv)

/-- `backward_rv` of the IOUP and Matérn transitions, classic implementation (`_ioup.py` 203-258); `none` is `nan`. -/
noncomputable def backwardRv (q d : ℕ) (drift1d : Matrix (Fin (q + 1)) (Fin (q + 1)) ℝ) (ch : CovCholesky (d * (q + 1)))
    (ε dt diffusion : ℝ) (obt rv : IWP.Rv (d * (q + 1)))
    (given : Option (IWP.Rv (d * (q + 1)) × Matrix (Fin (d * (q + 1))) (Fin (d * (q + 1))) ℝ)) :
    Option (Res (IWP.Rv (d * (q + 1)))) :=
  open Classical in
  if dt = 0 then none else
    some (IWP.preBackward ch ε (IWP.precon q d dt) (IWP.preconInv q d dt)
      (((integrator q d drift1d).inCoords (IWP.precon q d dt) (IWP.preconInv q d dt)).discretise ch dt) diffusion
      obt rv given)

end Probnum.SDE
