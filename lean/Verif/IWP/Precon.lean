import Verif.Kalman.SamplingModel
import Verif.LinGauss.Algebra

/-!
# Model: transitions computed in preconditioned coordinates

Models `apply_precon` (`src/probnum/randprocs/markov/integrator/_preconditioner.py` 11-28) and the bodies of
`forward_rv` and `backward_rv` shared by `integrator/_iwp.py` (191-259), `integrator/_ioup.py` (165-254) and
`integrator/_matern.py` (169-258): transform into preconditioned coordinates, call the discrete transition there,
transform back.  The preconditioner, its inverse and the discrete transition are parameters here; the concrete ones
are in `Verif/IWP/Model.lean` and `Verif/SDE`.
-/

namespace Probnum.IWP

open Matrix Probnum.LinGauss Probnum.Kalman

variable {n : ℕ}

/-- The part of a `randvars.Normal` that matters here: mean, covariance and the `cov_cholesky` given to the
constructor, if any (`randvars/_normal.py` 66-110, 237). -/
structure Rv (n : ℕ) where
  mean : Fin n → ℝ
  cov : Matrix (Fin n) (Fin n) ℝ
  chol? : Option (Matrix (Fin n) (Fin n) ℝ)

/-- `randvars.Constant(support)`: its `cov_cholesky` is zero (`randvars/_constant.py`). -/
def Rv.const (x : Fin n → ℝ) : Rv n := ⟨x, 0, some 0⟩

/-- `Normal.cov_cholesky` (`randvars/_normal.py` 239-257, 457-470): the supplied factor, or a factor of the damped
covariance `cov + damping * I` with `damping = config.covariance_inversion_damping`. -/
def cholOf (ch : CovCholesky n) (ε : ℝ) (rv : Rv n) : Matrix (Fin n) (Fin n) ℝ :=
  match rv.chol? with
  | some L => L
  | none => ch.factor (rv.cov + ε • 1)

/-- `apply_precon(precon, rv)` (`_preconditioner.py` 12-29). -/
def applyPrecon (ch : CovCholesky n) (ε : ℝ) (P : Matrix (Fin n) (Fin n) ℝ) (rv : Rv n) : Rv n :=
  let L := P * cholOf ch ε rv
  ⟨P *ᵥ rv.mean, L * Lᵀ, some L⟩

/-- As the argument of the discrete transitions. -/
def Rv.toNormal (ch : CovCholesky n) (ε : ℝ) (rv : Rv n) : Normal n := ⟨rv.mean, rv.cov, cholOf ch ε rv⟩

/-- What the preconditioned `forward_rv` returns. -/
structure PreForwarded (n : ℕ) where
  rv : Rv n
  crosscov : Matrix (Fin n) (Fin n) ℝ

/-- `forward_rv(rv, t, dt)` with the classic implementation (`_iwp.py` 217-240): `P = precon(dt)`,
`Pi = precon.inverse(dt)`, `tr` the discrete transition in preconditioned coordinates. -/
def preForward (ch : CovCholesky n) (ε : ℝ) (P Pi : Matrix (Fin n) (Fin n) ℝ) (tr : Transition n n) (d : ℝ)
    (rv : Rv n) : PreForwarded n :=
  let f := forwardClassic tr d ((applyPrecon ch ε Pi rv).toNormal ch ε)
  ⟨applyPrecon ch ε P ⟨f.mean, f.cov, none⟩, P * f.crosscov * Pᵀ⟩

/-- `info["gain"]` of `forward_rv(rv, t, dt, compute_gain=True)` with the classic implementation (`_iwp.py` 236-238). -/
noncomputable def preGain (ch : CovCholesky n) (ε : ℝ) (P Pi : Matrix (Fin n) (Fin n) ℝ) (tr : Transition n n) (d : ℝ)
    (rv : Rv n) : Res (Matrix (Fin n) (Fin n) ℝ) := do
  let K ← gainClassic tr d ((applyPrecon ch ε Pi rv).toNormal ch ε)
  .ok (P * K * Piᵀ)

/-- `forward_rv(rv, t, dt)` with the square-root implementation: the discrete transition returns its Cholesky factor. -/
noncomputable def preForwardSqrt (Q : QR) (ch : CovCholesky n) (ε : ℝ) (P Pi : Matrix (Fin n) (Fin n) ℝ)
    (tr : Transition n n) (d : ℝ) (rv : Rv n) : Res (PreForwarded n) := do
  let (f, L) ← forwardSqrt Q tr d ((applyPrecon ch ε Pi rv).toNormal ch ε)
  .ok ⟨applyPrecon ch ε P ⟨f.mean, f.cov, some L⟩, P * f.crosscov * Pᵀ⟩

/-- `backward_rv(rv_obtained, rv, rv_forwarded, gain, t, dt)` with the classic implementation (`_iwp.py` 242-280).  A
supplied gain is multiplied by `precon.inverse(dt)` from the left and its transpose from the right. -/
noncomputable def preBackward (ch : CovCholesky n) (ε : ℝ) (P Pi : Matrix (Fin n) (Fin n) ℝ) (tr : Transition n n)
    (d : ℝ) (obt rv : Rv n) (given : Option (Rv n × Matrix (Fin n) (Fin n) ℝ)) : Res (Rv n) := do
  let obt' := (applyPrecon ch ε Pi obt).toNormal ch ε
  let rv' := (applyPrecon ch ε Pi rv).toNormal ch ε
  let given' := given.map fun (fwd, gain) =>
    let fwd' := applyPrecon ch ε Pi fwd
    (fwd'.mean, fwd'.cov, Pi * gain * Piᵀ)
  let u ← backwardClassic tr d obt' rv' given'
  .ok (applyPrecon ch ε P ⟨u.mean, u.cov, none⟩)

/-- The same with the square-root implementation, no gain supplied. -/
noncomputable def preBackwardSqrt (Q : QR) (ch : CovCholesky n) (ε : ℝ) (P Pi : Matrix (Fin n) (Fin n) ℝ)
    (tr : Transition n n) (d : ℝ) (obt rv : Rv n) : Res (Rv n) := do
  let obt' := (applyPrecon ch ε Pi obt).toNormal ch ε
  let rv' := (applyPrecon ch ε Pi rv).toNormal ch ε
  let u ← backwardSqrt Q tr d obt' rv' none
  .ok (applyPrecon ch ε P ⟨u.mean, u.cov, some u.chol⟩)

end Probnum.IWP
