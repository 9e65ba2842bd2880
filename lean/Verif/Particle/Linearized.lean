import Verif.Particle.Model
import Verif.Approx.Model
import Verif.Gauss.Density
import Verif.Kalman.SamplingModel

/-!
# Model: importance distributions by local linearisation

Models `LinearizationImportanceDistribution` (`src/probnum/filtsmooth/particle/_importance_distributions.py`, called
`_importance_distributions.py` here).  Measurement models are nonlinear Gaussian models, taken at the time of the call; the
dynamics give a normal distribution for every particle.
-/

namespace Probnum.Particle

open Matrix Probnum.LinGauss Probnum.Approx Probnum.Gauss

variable {n m : ℕ}

/-- `from_ekf` or `from_ukf` (`_importance_distributions.py` 82-111), with classic implementations. -/
inductive Strategy where
  | ekf
  | ukf

/-- `linearization_strategy(measurement_model)` and its `backward_realization(data, rv, t)`
(`_importance_distributions.py` 91-96, 106-107, 126-128). -/
noncomputable def linUpdate (S : Strategy) (M : Nonlinear n m) (data : Fin m → ℝ) (rv : Normal n) : Res (Updated n) :=
  match S with
  | .ekf => (ekfComponent M).bind fun lin => Approx.backwardRv lin none 1 (Normal.const data) rv none
  | .ukf => (ukfComponent M).bind fun lin => (lin rv).bind fun tr => backwardClassic tr 1 (Normal.const data) rv none

/-- `generate_importance_rv(particle, data, t, dt, measurement_model)` (`_importance_distributions.py` 113-130).  `dyn x t dt` is
the distribution `forward_realization` returns. -/
noncomputable def generateImportance (S : Strategy) (dyn : (Fin n → ℝ) → ℝ → ℝ → Normal n) (particle : Fin n → ℝ)
    (data : Fin m → ℝ) (t : ℝ) (dt : Option ℝ) (model : Option (ℝ → Nonlinear n m)) : Res (Updated n × Normal n) :=
  match model with
  | none => .error .valueError
  | some M =>
    match dt with
    | none => .error .typeError
    | some dt => (linUpdate S (M (t + dt)) data (dyn particle t dt)).map fun q => (q, dyn particle t dt)

/-- `process_initrv_with_data(initrv, data, t, measurement_model)` (`_importance_distributions.py` 132-141). -/
noncomputable def processInitrv (S : Strategy) (initrv : Normal n) (data : Fin m → ℝ) (t : ℝ)
    (model : Option (ℝ → Nonlinear n m)) : Res (Updated n × Normal n) :=
  match model with
  | none => .error .valueError
  | some M => (linUpdate S (M t) data initrv).map fun q => (q, initrv)

/-- A particle as a vector. -/
def vec (n : ℕ) (x : Pt) : Fin n → ℝ := fun i => x.getD i 0

/-- Importance and dynamics distribution as the particle filter uses them (`_particle_filter.py` 190-203): samples are made from
a standard normal vector; `logpdf` is the logarithm of the density. -/
noncomputable def proposalOf (ch : Kalman.CovCholesky n) (q : Updated n) (p : Normal n) : Proposal (Fin n → ℝ) :=
  ⟨fun b => List.ofFn (Kalman.transformBase ch q b), fun x => Real.log (normalPdf q.mean q.cov (vec n x)),
    fun x => Real.log (normalPdf p.mean p.cov (vec n x))⟩

/-- The importance distribution in a particle filter.  Where the code raises, the value is arbitrary; the theorems are about
calls that return. -/
noncomputable def linearized (S : Strategy) (ch : Kalman.CovCholesky n) (dyn : (Fin n → ℝ) → ℝ → ℝ → Normal n)
    (initrv : Normal n) : Importance (Fin n → ℝ) (Fin m → ℝ) (ℝ → Nonlinear n m) where
  initial data t M :=
    match processInitrv S initrv data t (some M) with
    | .ok (q, p) => proposalOf ch q p
    | .error _ => proposalOf ch ⟨0, 0⟩ initrv
  generate x data t dt M :=
    match generateImportance S dyn (vec n x) data t (some dt) (some M) with
    | .ok (q, p) => proposalOf ch q p
    | .error _ => proposalOf ch ⟨0, 0⟩ initrv
  kind := .base

/-- `measmod.forward_realization(x, t=t).logpdf(data)` (`_particle_filter.py` 193-194) for a nonlinear Gaussian model. -/
noncomputable def loglikelihood (M : ℝ → Nonlinear n m) (t : ℝ) (x : Pt) (data : Fin m → ℝ) : ℝ :=
  Real.log (normalPdf ((M t).forwardRealization 1 (vec n x)).mean ((M t).forwardRealization 1 (vec n x)).cov data)

/-- A particle filter with this importance distribution (`_particle_filter.py` 67-89). -/
noncomputable def linearizedFilter (S : Strategy) (ch : Kalman.CovCholesky n) (dyn : (Fin n → ℝ) → ℝ → ℝ → Normal n)
    (initrv : Normal n) (initarg : ℝ) (num : ℕ) (withResampling : Bool) (threshold : ℝ) :
    PF (Fin n → ℝ) (Fin m → ℝ) (ℝ → Nonlinear n m) :=
  ⟨linearized S ch dyn initrv, loglikelihood, initarg, num, withResampling, threshold⟩

end Probnum.Particle
