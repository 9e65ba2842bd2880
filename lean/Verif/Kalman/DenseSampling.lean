import Mathlib.Data.Finset.Sort
import Verif.Kalman.SamplingModel

/-!
# Model: samples of a smoothing posterior at given times

Models `KalmanPosterior.sample` and `SmoothingPosterior.transform_base_measure_realizations`
(`src/probnum/filtsmooth/gaussian/_kalmanposterior.py`, called `_kalmanposterior.py` here) without a diffusion model, as for
the posteriors that `Kalman.filtsmooth` returns.  One sample (`size=()`; for other sizes the code does this for every sample,
lines 271-281).  The draws from the standard normal distribution are the argument `base`, one vector per time.
-/

namespace Probnum.Kalman

open Matrix Probnum.LinGauss Probnum.Posterior

variable {n : ℕ}

/-- `np.union1d(t, locations)` (`_kalmanposterior.py` 86): sorted, without repetitions. -/
noncomputable def union1d (t locations : List ℝ) : List ℝ := (t ++ locations).toFinset.sort (· ≤ ·)

open Classical in
/-- `SmoothingPosterior.transform_base_measure_realizations` (`_kalmanposterior.py` 264-361).  `p` is the filtering posterior;
it has the locations of the smoothing posterior.  The time `tmax` belongs to both parts (299-308). -/
noncomputable def transformDense (prior : Prior ℝ (Updated n) ℝ) (dyn : Dynamics ℝ (Updated n) ℝ) (ch : CovCholesky n)
    (p : Post ℝ (Updated n)) (base : ℕ → Fin n → ℝ) (t : List ℝ) : Res (List (Fin n → ℝ)) :=
  if ¬ ∀ x ∈ p.locations, x ∈ t then .error .valueError
  else if ¬ sortedCheck t then .error .valueError
  else do
    let t0 ← amin p.locations
    let tmax ← amax p.locations
    let left := t.filter fun x => x < t0
    let right := t.filter fun x => tmax ≤ x
    let inter := t.filter fun x => t0 ≤ x ∧ x ≤ tmax
    if 0 < left.length then .error .notImplementedError
    else do
      let states ← call (interpolateFiltering dyn none p) p t
      let inside ← sampleBackward prior ch (inter.length - 1) base (fun i => inter.getD i 0)
        (fun i => states.getD i ⟨0, 0⟩) (fun _ => 1)
      let outside ← sampleForward prior ch (right.length - 1) (fun i => base (t.length - right.length + i))
        (fun i => right.getD i 0) (states.getD (states.length - right.length) ⟨0, 0⟩)
      .ok (inside.dropLast ++ outside)

open Classical in
/-- `KalmanPosterior.sample` of a smoothing posterior (`_kalmanposterior.py` 66-103). -/
noncomputable def sampleDense (prior : Prior ℝ (Updated n) ℝ) (dyn : Dynamics ℝ (Updated n) ℝ) (ch : CovCholesky n)
    (p : Post ℝ (Updated n)) (base : ℕ → Fin n → ℝ) (t : Option (List ℝ)) : Res (List (Fin n → ℝ)) :=
  match t with
  | none => transformDense prior dyn ch p base p.locations
  | some t => do
    let samples ← transformDense prior dyn ch p base (union1d t p.locations)
    .ok ((((union1d t p.locations).zip samples).filter fun q => q.1 ∈ t).map Prod.snd)

end Probnum.Kalman
