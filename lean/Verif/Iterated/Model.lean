import Verif.Py
import Mathlib.Data.Real.Sqrt
import Mathlib.Algebra.BigOperators.Group.List.Basic

/-!
# Iterated filtering and smoothing

Models `src/probnum/filtsmooth/optim/` (`_stopping_criterion.py`, `_iterated_component.py`, `_gauss_newton.py`,
`_state_space_optimizer.py`) and the iterated smoother of `src/probnum/filtsmooth/gaussian/_kalman.py`.

Means are lists of real numbers (the flattened arrays). Floating-point infinities and `nan`s which the code produces on
purpose or by division by zero are represented by `Mag`.
-/

namespace Probnum.Iterated

/-- A non-negative floating-point number: finite, infinite, or `nan`. -/
inductive Mag where
  | fin (x : ℝ)
  | inf
  | nan

/-- `FiltSmoothStoppingCriterion`: tolerances, maximum and the counter `iterations`.
`src/probnum/filtsmooth/optim/_stopping_criterion.py:10-14`. -/
structure Crit where
  atol : ℝ
  rtol : ℝ
  maxit : ℕ
  iterations : ℕ

/-- `FiltSmoothStoppingCriterion.__init__`. -/
def Crit.init (atol rtol : ℝ) (maxit : ℕ) : Crit := ⟨atol, rtol, maxit, 0⟩

open Classical in
/-- One entry of `(error / normalisation) ** 2`; an infinite error is `none`. `_stopping_criterion.py:36-37`. -/
noncomputable def sqEntry (atol rtol : ℝ) (error : Option ℝ) (reference : ℝ) : Mag :=
  match error with
  | none => .inf
  | some e =>
    if atol + rtol * reference = 0 then (if e = 0 then .nan else .inf)
    else .fin ((e / (atol + rtol * reference)) ^ 2)

/-- The sum of two numbers. -/
noncomputable def Mag.add : Mag → Mag → Mag
  | .nan, _ => .nan
  | _, .nan => .nan
  | .inf, _ => .inf
  | _, .inf => .inf
  | .fin x, .fin y => .fin (x + y)

/-- The sum of an array: a `nan` entry makes it `nan`, otherwise an infinite entry infinite. -/
noncomputable def sumMag : List Mag → Mag
  | [] => .fin 0
  | m :: ms => m.add (sumMag ms)

/-- `np.sqrt(np.mean(…))`: the mean of an empty array is `nan`. -/
noncomputable def rms (ms : List Mag) : Mag :=
  if ms.length = 0 then .nan
  else match sumMag ms with
    | .fin x => .fin (Real.sqrt (x / ms.length))
    | m => m

/-- `evaluate_error`: `_stopping_criterion.py:34-38`. -/
noncomputable def Crit.evaluateError (c : Crit) (error : List (Option ℝ)) (reference : List ℝ) : Mag :=
  rms (List.zipWith (sqEntry c.atol c.rtol) error reference)

/-- `magnitude > 1` (false for `nan`). -/
def Mag.big : Mag → Prop
  | .fin x => 1 < x
  | .inf => True
  | .nan => False

open Classical in
/-- `FiltSmoothStoppingCriterion.__call__`: the result (or the exception) and the criterion afterwards.
`_stopping_criterion.py:16-32`. -/
noncomputable def Crit.call (c : Crit) (error : List (Option ℝ)) (reference : List ℝ) : Res Bool × Crit :=
  if c.iterations > c.maxit then (.error .runtimeError, c)
  else if (c.evaluateError error reference).big then (.ok false, { c with iterations := c.iterations + 1 })
  else (.ok true, { c with iterations := 0 })

/-- The difference of two means. -/
def diff (new old : List ℝ) : List (Option ℝ) := List.zipWith (fun a b => some (a - b)) new old

/-- `new_mean - old_mean` for `old_mean = np.inf * np.ones(…)`. -/
def infiniteError (new : List ℝ) : List (Option ℝ) := new.map fun _ => none

/-- The loop `while not stopcrit(error=new_mean - old_mean, reference=new_mean)`, the same in
`IteratedDiscreteComponent.backward_rv` (`_iterated_component.py:97-108`; `step` linearises the component at its argument),
in `Kalman.iterated_filtsmooth_posterior_generator` (`gaussian/_kalman.py:130-138`) and in `GaussNewton.solution_generator`
(`_gauss_newton.py:30-39`; `step` is `filtsmooth` with the previous posterior). The arguments are a bound on the number of
turns (`none` is returned when it is exceeded), the step, the mean of a result, the criterion, the error and the current
result; the result is the final value or exception, the criterion, and the number of steps made. -/
noncomputable def loop {P : Type} (step : P → Res P) (mean : P → List ℝ) : ℕ → Crit → List (Option ℝ) → P → ℕ →
    Option (Res P × Crit × ℕ)
  | 0, _, _, _, _ => none
  | fuel + 1, c, error, p, k => match c.call error (mean p) with
    | (.error e, c) => some (.error e, c, k)
    | (.ok true, c) => some (.ok p, c, k)
    | (.ok false, c) => match step p with
      | .error e => some (.error e, c, k)
      | .ok p' => loop step mean fuel c (diff (mean p') (mean p)) p' (k + 1)

/-- The whole iteration: the first result (the component linearised at the given or predicted random variable; the smoothing
posterior without a previous posterior; or the initial guess), then the loop.
`_iterated_component.py:86-108`, `_kalman.py:114-138`, `_gauss_newton.py:20-39` with `_state_space_optimizer.py:17-30`. -/
noncomputable def run {P : Type} (first : Res P) (step : P → Res P) (mean : P → List ℝ) (fuel : ℕ) (c : Crit) :
    Option (Res P × Crit × ℕ) :=
  match first with
  | .error e => some (.error e, c, 0)
  | .ok p => loop step mean fuel c (infiniteError (mean p)) p 0

end Probnum.Iterated
