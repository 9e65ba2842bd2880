import Mathlib.Analysis.SpecialFunctions.Log.Basic
import Verif.RandVars.Categorical

/-!
# Model of `filtsmooth/particle/`

Particles are vectors (lists of reals).  Everything random is an argument: the noise `ν` from which an importance
distribution makes a particle, one per step and particle, and the indices drawn by `rng.choice` when resampling.
Densities are positive, so their logarithms are real numbers; floating-point underflow is not modelled.
-/

namespace Probnum.Particle

open RandVars

/-- A particle. -/
abbrev Pt := List ℝ

/-- An importance distribution at one particle: how to draw from it, its log-density, and the log-density of the
dynamics (`importance_rv`, `dynamics_rv`). -/
structure Proposal (ν : Type) where
  draw : ν → Pt
  logImp : Pt → ℝ
  logDyn : Pt → ℝ

/-- Which `log_correction_factor` is used: that of `ImportanceDistribution` or that of
`BootstrapImportanceDistribution`. -/
inductive Kind where
  | base
  | bootstrap

/-- An importance distribution (`_importance_distributions.py`): `process_initrv_with_data(initrv, data, t, model)` and
`generate_importance_rv(particle, data, t_old, dt, model)`. -/
structure Importance (ν D M : Type) where
  initial : D → ℝ → M → Proposal ν
  generate : Pt → D → ℝ → ℝ → M → Proposal ν
  kind : Kind

/-- `log_correction_factor` (`_importance_distributions.py` 38-46 and 65-68). -/
noncomputable def logCorrection {ν : Type} (kind : Kind) (q : Proposal ν) (x : Pt) (w : ℝ) : ℝ :=
  match kind with
  | .base => q.logDyn x - q.logImp x + Real.log (w + 1e-14)
  | .bootstrap => 0

/-- The bootstrap importance distribution proposes from the dynamics (`_importance_distributions.py` 49-68): `initrv`,
`dynamics` are the distributions of the prior, as samplers and log-densities. -/
def bootstrap {ν D M : Type} (initDraw : ν → Pt) (initLog : Pt → ℝ) (draw : Pt → ℝ → ℝ → ν → Pt)
    (log : Pt → ℝ → ℝ → Pt → ℝ) : Importance ν D M :=
  ⟨fun _ _ _ => ⟨initDraw, initLog, initLog⟩, fun x _ t dt _ => ⟨draw x t dt, log x t dt, log x t dt⟩, .bootstrap⟩

/-- The parameters of a `ParticleFilter` (`_particle_filter.py` 67-89), with the log-likelihood
`measmod.forward_realization(x, t).logpdf(data)` of the measurement models. -/
structure PF (ν D M : Type) where
  imp : Importance ν D M
  loglik : M → ℝ → Pt → D → ℝ
  initarg : ℝ
  num : ℕ
  withResampling : Bool
  threshold : ℝ

/-- The randomness of a run: noise per step and particle, resampling indices per step. -/
structure Oracle (ν : Type) where
  noise : ℕ → ℕ → ν
  draws : ℕ → List ℕ

/-- One observation: location, data, measurement model. -/
structure Obs (D M : Type) where
  t : ℝ
  data : D
  model : M

variable {ν D M : Type}

/-- The importance distribution for one particle (`_particle_filter.py` 222-255): at the initial time the particle is
not read. -/
noncomputable def PF.proposal (f : PF ν D M) (o : Obs D M) (tOld : ℝ) (x : Pt) : Proposal ν :=
  if o.t = f.initarg then f.imp.initial o.data o.t o.model else f.imp.generate x o.data tOld (o.t - tOld) o.model

/-- New particle and unnormalised weight (`_particle_filter.py` 190-205). -/
noncomputable def PF.advance (f : PF ν D M) (R : Oracle ν) (k : ℕ) (o : Obs D M) (tOld : ℝ) (i : ℕ) (x : Pt) (w : ℝ) : Pt × ℝ :=
  let q := f.proposal o tOld x
  let y := q.draw (R.noise k i)
  (y, Real.exp (f.loglik o.model o.t y o.data + logCorrection f.imp.kind q y w))

/-- The loop over particles (`_particle_filter.py` 186-208). -/
noncomputable def PF.advanceAll (f : PF ν D M) (R : Oracle ν) (k : ℕ) (o : Obs D M) (tOld : ℝ) :
    ℕ → List (Pt × ℝ) → List (Pt × ℝ)
  | _, [] => []
  | i, (x, w) :: l => f.advance R k o tOld i x w :: f.advanceAll R k o tOld (i + 1) l

/-- `new_weights / np.sum(new_weights)` (`_particle_filter.py` 211). -/
noncomputable def normalise (l : List (Pt × ℝ)) : List (Pt × ℝ) := l.map fun e => (e.1, e.2 / (l.map (·.2)).sum)

/-- Particles and weights after a step. -/
noncomputable def PF.update (f : PF ν D M) (R : Oracle ν) (k : ℕ) (o : Obs D M) (tOld : ℝ) (l : List (Pt × ℝ)) : List (Pt × ℝ) :=
  normalise (f.advanceAll R k o tOld 0 l)

/-- `effective_number_of_events` (`_particle_filter.py` 26-33). -/
noncomputable def effective (probs : List ℝ) : ℝ := 1 / (probs.map fun p => p ^ 2).sum

/-- `min_effective_num_of_particles` (`_particle_filter.py` 86-88). -/
noncomputable def PF.minEffective (f : PF ν D M) : ℝ := f.threshold * f.num

open Classical in
/-- The random variable yielded for a weighted set of particles (`_particle_filter.py` 212-219). -/
noncomputable def PF.output (f : PF ν D M) (R : Oracle ν) (k : ℕ) (l : List (Pt × ℝ)) : Res (Categorical ℝ Unit) :=
  (Categorical.make (l.map (·.2)) (l.map (·.1)) ()).bind fun rv =>
    if f.withResampling ∧ effective rv.probs < f.minEffective then rv.resample (R.draws k) else .ok rv

/-- The loop over the data (`_particle_filter.py` 154-220): the particles and weights carried on are those before
resampling. -/
noncomputable def PF.loop (f : PF ν D M) (R : Oracle ν) : ℕ → ℝ → List (Pt × ℝ) → List (Obs D M) → Res (List (Categorical ℝ Unit))
  | _, _, _, [] => .ok []
  | k, tOld, l, o :: r =>
    let l' := f.update R k o tOld l
    (f.output R k l').bind fun rv => (f.loop R (k + 1) o.t l' r).map (rv :: ·)

/-- `np.all(np.diff(locations) > 0)` (`_particle_filter.py` 152). -/
def Increasing : List ℝ → Prop
  | a :: b :: l => a < b ∧ Increasing (b :: l)
  | _ => True

/-- The initial weights (`_particle_filter.py` 165). -/
noncomputable def PF.start (f : PF ν D M) (particles : List Pt) : List (Pt × ℝ) := particles.map fun x => (x, 1 / (f.num : ℝ))

open Classical in
/-- `ParticleFilter.filter(regression_problem)` (`_particle_filter.py` 90-220): the states of the posterior.
`particles`: the sample of the initial distribution (or, if the first datum is at the initial time, an array of nan that
is not read).  No data: `locations[0]` raises `IndexError`. -/
noncomputable def PF.filter (f : PF ν D M) (R : Oracle ν) (particles : List Pt) (data : List (Obs D M)) :
    Res (List (Categorical ℝ Unit)) :=
  if ¬ Increasing (data.map (·.t)) then .error .valueError
  else if data = [] then .error .indexError
  else f.loop R 0 f.initarg (f.start particles) data

end Probnum.Particle
