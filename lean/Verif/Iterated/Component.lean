import Verif.Iterated.Model
import Verif.Approx.Model

/-!
# The iterated component

Models `src/probnum/filtsmooth/optim/_iterated_component.py` around a linearising component (`Approx.backwardRv`,
`Approx.forwardRv`, `Approx.forwardRealization`).  The random variable returned by one update is the linearisation point of
the next one.
-/

namespace Probnum.Iterated

open Matrix LinGauss Approx

variable {n m : ℕ}

/-- The random variable an update returns, as a linearisation point.  Its `cov_cholesky` is computed lazily and not read by
the extended Kalman component: it is left `0`. -/
def asNormal (u : Updated n) : Normal n := ⟨u.mean, u.cov, 0⟩

/-- `IteratedDiscreteComponent.backward_rv` (`_iterated_component.py` 75-108): the first update linearises at
`_linearise_at` (or at `rv`), the following ones at the current result.  `rv_forwarded` and `gain` are accepted and not
passed on (lines 86-93, 99-106). -/
noncomputable def backwardRv (lin : Normal n → Transition n m) (at? : Option (Normal n)) (d : ℝ) (obt : Normal m)
    (rv : Normal n) (_given : Option ((Fin m → ℝ) × Matrix (Fin m) (Fin m) ℝ × Matrix (Fin n) (Fin m) ℝ)) (fuel : ℕ)
    (c : Crit) : Option (Res (Updated n) × Crit × ℕ) :=
  run (Approx.backwardRv lin at? d obt rv none) (fun u => Approx.backwardRv lin (some (asNormal u)) d obt rv none)
    (fun u => List.ofFn u.mean) fuel c

/-- `IteratedDiscreteComponent.backward_realization` (`_iterated_component.py` 110-130 with
`randprocs/markov/_transition.py` `_backward_realization_via_backward_rv`): `backward_rv` with the constant. -/
noncomputable def backwardRealization (lin : Normal n → Transition n m) (at? : Option (Normal n)) (d : ℝ) (y : Fin m → ℝ)
    (rv : Normal n) (given : Option ((Fin m → ℝ) × Matrix (Fin m) (Fin m) ℝ × Matrix (Fin n) (Fin m) ℝ)) (fuel : ℕ)
    (c : Crit) : Option (Res (Updated n) × Crit × ℕ) :=
  backwardRv lin at? d (Normal.const y) rv given fuel c

/-- `IteratedDiscreteComponent.forward_rv` (`_iterated_component.py` 135-145): that of the component. -/
def forwardRv (lin : Normal n → Transition n m) (at? : Option (Normal n)) (d : ℝ) (rv : Normal n) : Forwarded n m :=
  Approx.forwardRv lin at? d rv

/-- `IteratedDiscreteComponent.forward_realization` (`_iterated_component.py` 147-164): that of the component. -/
def forwardRealization (lin : Normal n → Transition n m) (at? : Option (Normal n)) (d : ℝ) (x : Fin n → ℝ) :
    Forwarded n m :=
  Approx.forwardRealization lin at? d x

end Probnum.Iterated
