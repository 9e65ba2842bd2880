import Verif.LinGauss.Model

/-!
# Model of `filtsmooth/gaussian/approx/` (extended and unscented Kalman components)

Exact real arithmetic; a model is taken at a fixed time `t` (the code evaluates every function at the time it is
called with).  `n` is the input dimension and `m` the output dimension.
-/

namespace Probnum.Approx

open Matrix LinGauss

variable {n m : ℕ}

/-- `NonlinearGaussian` at a fixed time (`randprocs/markov/discrete/_nonlinear_gaussian.py` 13-61): transition
function, optional Jacobian, noise. -/
structure Nonlinear (n m : ℕ) where
  g : (Fin n → ℝ) → Fin m → ℝ
  jac : Option ((Fin n → ℝ) → Matrix (Fin m) (Fin n) ℝ)
  noise : Normal m

/-- The property `NonlinearGaussian.transition_fun_jacobian` (`_nonlinear_gaussian.py` 55-59). -/
def Nonlinear.jacobian (M : Nonlinear n m) : Res ((Fin n → ℝ) → Matrix (Fin m) (Fin n) ℝ) :=
  match M.jac with
  | some dg => .ok dg
  | none => .error .notImplementedError

/-- `NonlinearGaussian.forward_realization` (`_nonlinear_gaussian.py` 65-70): `g(t, x) + _diffusion * noise`; the
product of a number with a `Normal` multiplies the mean by it and the covariance by its square
(`randvars/_arithmetic.py` 250-268; for `_diffusion = 0` it is the constant zero). -/
def Nonlinear.forwardRealization (M : Nonlinear n m) (d : ℝ) (x : Fin n → ℝ) : Updated m :=
  { mean := M.g x + d • M.noise.mean
    cov := (d * d) • M.noise.cov }

/-! ## Extended Kalman component -/

/-- `DiscreteEKFComponent.linearize` (`_extendedkalman.py` 113-136) with `x0 = at_this_rv.mean`; adding an array to a
`Normal` shifts its mean. -/
def ekfLinearize (M : Nonlinear n m) (dg : (Fin n → ℝ) → Matrix (Fin m) (Fin n) ℝ) (x0 : Fin n → ℝ) :
    Transition n m :=
  { mat := dg x0
    noise := { mean := (M.g x0 - dg x0 *ᵥ x0) + M.noise.mean
               cov := M.noise.cov
               chol := M.noise.chol } }

/-- `DiscreteEKFComponent(non_linear_model)` followed by `linearize` (`_extendedkalman.py` 92-136): the constructor
reads `transition_fun_jacobian`, which raises when none was given. -/
def ekfComponent (M : Nonlinear n m) : Res (Normal n → Transition n m) :=
  match M.jacobian with
  | .ok dg => .ok fun rv => ekfLinearize M dg rv.mean
  | .error e => .error e

/-- The linearisation point of `forward_rv` and `backward_rv`: `_linearise_at` if given, else the random variable
(`_interface.py` 58, 104). -/
def point (at? : Option (Normal n)) (rv : Normal n) : Normal n :=
  match at? with
  | some r => r
  | none => rv

/-- `_LinearizationInterface.forward_rv` (`_interface.py` 45-64) with the classic forward implementation. -/
def forwardRv (lin : Normal n → Transition n m) (at? : Option (Normal n)) (d : ℝ) (rv : Normal n) : Forwarded n m :=
  forwardClassic (lin (point at? rv)) d rv

/-- `_LinearizationInterface.forward_realization` (`_interface.py` 21-43): linearise at `_linearise_at` or at the
realization, then `LinearGaussian.forward_realization`, which propagates `Constant(realization)`. -/
def forwardRealization (lin : Normal n → Transition n m) (at? : Option (Normal n)) (d : ℝ) (x : Fin n → ℝ) :
    Forwarded n m :=
  forwardClassic (lin (point at? (Normal.const x))) d (Normal.const x)

/-- `_LinearizationInterface.backward_rv` (`_interface.py` 89-112) with the classic backward implementation;
`backward_realization` (66-87) calls it with `Constant(realization_obtained)`. -/
noncomputable def backwardRv (lin : Normal n → Transition n m) (at? : Option (Normal n)) (d : ℝ) (obt : Normal m)
    (rv : Normal n) (given : Option ((Fin m → ℝ) × Matrix (Fin m) (Fin m) ℝ × Matrix (Fin n) (Fin m) ℝ)) :
    Res (Updated n) :=
  backwardClassic (lin (point at? rv)) d obt rv given

/-! ## Continuous extended Kalman component -/

/-- `continuous.SDE` (`randprocs/markov/continuous/_sde.py` 15-56): drift, dispersion, optional Jacobian. -/
structure Sde (n w : ℕ) where
  drift : ℝ → (Fin n → ℝ) → Fin n → ℝ
  dispersion : ℝ → (Fin n → ℝ) → Matrix (Fin n) (Fin w) ℝ
  jac : Option (ℝ → (Fin n → ℝ) → Matrix (Fin n) (Fin n) ℝ)

/-- `continuous.LinearSDE` (`_linear_sde.py`): `dx = (G(t) x + v(t)) dt + L(t) dw`. -/
structure LinSde (n w : ℕ) where
  driftMatrix : ℝ → Res (Matrix (Fin n) (Fin n) ℝ)
  force : ℝ → Res (Fin n → ℝ)
  dispersion : ℝ → Matrix (Fin n) (Fin w) ℝ

/-- `SDE.drift_jacobian` (`_sde.py` 53-56). -/
def Sde.jacobian {w : ℕ} (S : Sde n w) (t : ℝ) (x : Fin n → ℝ) : Res (Matrix (Fin n) (Fin n) ℝ) :=
  match S.jac with
  | some dg => .ok (dg t x)
  | none => .error .notImplementedError

/-- `ContinuousEKFComponent.linearize` (`_extendedkalman.py` 57-85). -/
def sdeLinearize {w : ℕ} (S : Sde n w) (x0 : Fin n → ℝ) : LinSde n w :=
  { driftMatrix := fun t => S.jacobian t x0
    force := fun t => (S.jacobian t x0).map fun J => S.drift t x0 - J *ᵥ x0
    dispersion := fun t => S.dispersion t x0 }

/-! ## Unscented Kalman component (spherical cubature) -/

/-- Row index of the sigma points: `np.concatenate((zeros, I, -I), axis=0)` (`_unscentedkalman.py` 64-65): one row,
then `n` rows, then `n` rows. -/
abbrev Pt (n : ℕ) := Fin 1 ⊕ (Fin n ⊕ Fin n)

/-- `scale` of `_weights` (`_unscentedkalman.py` 70-72) for `spread = 1`, `special_scale = 0`. -/
noncomputable def scale (n : ℕ) : ℝ := (1 : ℝ) ^ 2 * ((n : ℝ) + 0) - n

/-- The unit sigma points of `_spherical_cubature_unit_params` (`_unscentedkalman.py` 64-65). -/
noncomputable def unitPoint (n : ℕ) : Pt n → Fin n → ℝ
  | .inl _ => 0
  | .inr (.inl i) => fun j => Real.sqrt n * (if i = j then 1 else 0)
  | .inr (.inr i) => fun j => Real.sqrt n * -(if i = j then 1 else 0)

/-- `_weights_mean` (`_unscentedkalman.py` 79-83).  For `n = 0` the code divides by zero (nan); the theorems assume
`0 < n`. -/
noncomputable def weightMean (n : ℕ) : Pt n → ℝ
  | .inl _ => scale n / (n + scale n)
  | .inr _ => 1 / (2 * ((n : ℝ) + scale n))

/-- `_weights_cov` (`_unscentedkalman.py` 86-90) with `spread = 1`, `priorpar = 0`. -/
noncomputable def weightCov (n : ℕ) : Pt n → ℝ
  | .inl _ => scale n / (n + scale n) + (1 - (1 : ℝ) ^ 2 + 0)
  | .inr _ => 1 / (2 * ((n : ℝ) + scale n))

/-- `sigma_points_unit @ rv.cov_cholesky.T + rv.mean` (`_unscentedkalman.py` 97). -/
noncomputable def sigmaPoint (rv : Normal n) (p : Pt n) : Fin n → ℝ :=
  rv.chol *ᵥ unitPoint n p + rv.mean

/-- `weights_mean @ fx` (`_unscentedkalman.py` 145). -/
noncomputable def fxMean (g : (Fin n → ℝ) → Fin m → ℝ) (rv : Normal n) : Fin m → ℝ :=
  fun k => ∑ p, weightMean n p * g (sigmaPoint rv p) k

/-- `_approx_outer_product` (`_unscentedkalman.py` 153-156). -/
noncomputable def outer {a b : ℕ} (w : Pt n → ℝ) (x : Pt n → Fin a → ℝ) (y : Pt n → Fin b → ℝ) :
    Matrix (Fin a) (Fin b) ℝ :=
  Matrix.of fun j k => ∑ p, w p * (x p j * y p k)

/-- `crosscov` of `_match_moments` (`_unscentedkalman.py` 127, 144-147). -/
noncomputable def crossCov (g : (Fin n → ℝ) → Fin m → ℝ) (rv : Normal n) : Matrix (Fin n) (Fin m) ℝ :=
  outer (weightCov n) (fun p => sigmaPoint rv p - rv.mean) (fun p => g (sigmaPoint rv p) - fxMean g rv)

/-- `fx_cov` of `_match_moments` (`_unscentedkalman.py` 146, 149). -/
noncomputable def fxCov (g : (Fin n → ℝ) → Fin m → ℝ) (rv : Normal n) : Matrix (Fin m) (Fin m) ℝ :=
  outer (weightCov n) (fun p => g (sigmaPoint rv p) - fxMean g rv) (fun p => g (sigmaPoint rv p) - fxMean g rv)

/-- The constant `1e-12` (`_unscentedkalman.py` 133). -/
noncomputable def jitter : ℝ := 1 / 10 ^ 12

open Classical in
/-- `_linearization_system_matrices` and `_linearize_via_cubature` (`_unscentedkalman.py` 93-137).
`scipy.linalg.solve(·, ·, assume_a="sym")` raises for a singular matrix.  The Cholesky factor of the new noise is
computed lazily by the caller and plays no role in the classic implementation: it is left `0` here. -/
noncomputable def ukfLinearize (M : Nonlinear n m) (rv : Normal n) : Res (Transition n m) :=
  let reg := rv.cov + jitter • (1 : Matrix (Fin n) (Fin n) ℝ)
  if reg.det = 0 then .error .linAlgError
  else
    let F := (reg⁻¹ * crossCov M.g rv)ᵀ
    .ok { mat := F
          noise := { mean := M.noise.mean + (fxMean M.g rv - F *ᵥ rv.mean)
                     cov := M.noise.cov + (fxCov M.g rv - (crossCov M.g rv)ᵀ * Fᵀ)
                     chol := 0 } }

/-- `DiscreteUKFComponent(non_linear_model)` followed by `linearize` (`_unscentedkalman.py` 16-55): the constructor
reads `transition_fun_jacobian` (line 29), although the component never uses it. -/
noncomputable def ukfComponent (M : Nonlinear n m) : Res (Normal n → Res (Transition n m)) :=
  match M.jacobian with
  | .ok _ => .ok fun rv => ukfLinearize M rv
  | .error e => .error e

/-- `DiscreteUKFComponent(model).forward_rv(rv, _linearise_at=…)` (`_interface.py` 48-67). -/
noncomputable def ukfForward (M : Nonlinear n m) (at? : Option (Normal n)) (d : ℝ) (rv : Normal n) :
    Res (Forwarded n m) :=
  (ukfComponent M).bind fun lin => (lin (point at? rv)).map fun tr => forwardClassic tr d rv

end Probnum.Approx
