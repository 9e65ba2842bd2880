import Verif.Iterated.Component
import Verif.Kalman.StateSpace

/-!
# The iterated smoother

Models `Kalman.iterated_filtsmooth` (`src/probnum/filtsmooth/gaussian/_kalman.py` 40-138) for a linear Gaussian prior and
extended Kalman measurement models; `Kalman.filtsmooth`, the evaluation of a smoothing posterior and the loop are those of
`Verif/Kalman/Model.lean`, `Verif/Posterior/Model.lean` and `Verif/Iterated/Model.lean`.
-/

namespace Probnum.Iterated

open Matrix LinGauss Approx Kalman Posterior

variable {n m : ℕ}

/-- `DiscreteEKFComponent(model).backward_realization(y, rv, _linearise_at=…)` (`approx/_interface.py` 66-112) as the
measurement model of a regression problem. -/
noncomputable def ekfMeas (M : Nonlinear n m) : MeasModel (Fin m → ℝ) (Updated n) := fun y s lin =>
  match ekfComponent M with
  | .error e => .error e
  | .ok comp => Approx.backwardRv comp (lin.map toNormal) 1 (Normal.const y) (toNormal s) none

/-- The regression problem with `N` observations `y k` at locations `loc k` and nonlinear measurement models. -/
noncomputable def ekfProblem (N : ℕ) (loc : ℕ → ℝ) (M : ℕ → Nonlinear n m) (y : ℕ → Fin m → ℝ) :
    Problem ℝ (Fin m → ℝ) (Updated n) :=
  ⟨(List.range N).map loc, (List.range N).map y, (List.range N).map fun k => ekfMeas (M k)⟩

/-- `_previous_posterior(t)`: evaluation of a smoothing posterior without diffusion model at one time
(`_timeseriesposterior.py` 92-160, `_kalmanposterior.py` 169-260); `smooth` passes no diffusion model
(`_kalman.py` 313-318). -/
noncomputable def evalSmoothing {S D : Type} (dyn : Dynamics ℝ S D) (p : Post ℝ S) : ℝ → Res S :=
  callScalar (interpolateSmoothing dyn none p) p

/-- `Kalman.iterated_filtsmooth` (`_kalman.py` 40-138): the initial posterior or a plain smoothing pass, then smoothing
passes with the previous posterior until the criterion is met; the last one is returned. -/
noncomputable def iteratedFiltsmooth {S D Y : Type} (mean : S → List ℝ) (prior : Prior ℝ S D) (dyn : Dynamics ℝ S D)
    (prob : Problem ℝ Y S) (initPost : Option (Post ℝ S)) (fuel : ℕ) (c : Crit) : Option (Res (Post ℝ S) × Crit × ℕ) :=
  run (match initPost with
    | none => filtsmooth prior prob none
    | some p => .ok p)
    (fun p => filtsmooth prior prob (some (evalSmoothing dyn p))) (fun p => (p.states.map mean).flatten) fuel c

end Probnum.Iterated
