import Mathlib.Analysis.SpecialFunctions.Pow.Real
import Verif.Ode.Model

/-!
# Model of `probnum/diffeq/stepsize/_steprule.py`

Over exact real numbers.  `numpy` turns `1.0 / 0.0` into `inf` (with a warning), so a zero error takes the
`large < change` branch.
-/

namespace Probnum.Ode

/-- Parameters of `AdaptiveSteps` (`_steprule.py` 101-118) that `suggest` uses. -/
structure AdaptiveSteps where
  small : ℝ
  large : ℝ
  safetyscale : ℝ
  minstep : ℝ
  maxstep : ℝ

namespace AdaptiveSteps

/-- The default parameters (`_steprule.py` 106-109). -/
noncomputable def default : AdaptiveSteps := ⟨0.2, 10, 0.95, 1e-15, 1e15⟩

/-- `change` as a function of a nonzero scaled error (`_steprule.py` 128-129). -/
noncomputable def change (r : AdaptiveSteps) (err : ℝ) (rate : ℕ) : ℝ :=
  r.safetyscale * (1 / err) ^ (1 / (rate : ℝ))

open Classical in
/-- The unchecked step (`_steprule.py` 126-137). -/
noncomputable def rawStep (r : AdaptiveSteps) (last err : ℝ) (rate : ℕ) : ℝ :=
  if err = 0 then r.large * last
  else if r.change err rate < r.small then r.small * last
  else if r.large < r.change err rate then r.large * last
  else r.change err rate * last

open Classical in
/-- `AdaptiveSteps.suggest` (`_steprule.py` 120-143). -/
noncomputable def suggest (r : AdaptiveSteps) (last err : ℝ) (rate : ℕ) : Res ℝ :=
  if r.rawStep last err rate < r.minstep then .error .runtimeError
  else if r.maxstep < r.rawStep last err rate then .error .runtimeError
  else .ok (r.rawStep last err rate)

open Classical in
/-- `AdaptiveSteps.is_accepted` (`_steprule.py` 145-146). -/
noncomputable def isAccepted (err : ℝ) : Bool := decide (err < 1)

end AdaptiveSteps

/-- `AdaptiveSteps.errorest_to_norm` for vectors (`_steprule.py` 148-152): root mean square of
`errorest / (atol + rtol * reference_state)`, for scalar tolerances. -/
noncomputable def errorestToNorm {d : ℕ} (atol rtol : ℝ) (errorest ref : Fin d → ℝ) : ℝ :=
  Real.sqrt (∑ i, (errorest i / (atol + rtol * ref i)) ^ 2) / Real.sqrt d

/-- Parameters of `ConstantSteps` (`_steprule.py` 48-68). -/
structure ConstantSteps where
  step : ℝ

namespace ConstantSteps

/-- `ConstantSteps.suggest` (`_steprule.py` 55-61). -/
def suggest (r : ConstantSteps) (_last _err : ℝ) (_rate : ℕ) : Res ℝ := .ok r.step

/-- `ConstantSteps.is_accepted` (`_steprule.py` 63-65). -/
def isAccepted (_err : ℝ) : Bool := true

end ConstantSteps

/-- The loop is run with this adaptive rule by a solver of the given order
(`suggest(dt, internal_norm, localconvrate=self.order + 1)`, `_odesolver.py` 126-129). -/
structure UsesAdaptive {σ : Type} (env : Env σ ℝ ℝ) (r : AdaptiveSteps) (order : ℕ) : Prop where
  suggest : ∀ dt n, env.suggest dt n = r.suggest dt n (order + 1)
  accepted : ∀ n, env.accepted n = AdaptiveSteps.isAccepted n

/-- The loop is run with this constant rule. -/
structure UsesConstant {σ : Type} (env : Env σ ℝ ℝ) (r : ConstantSteps) : Prop where
  suggest : ∀ dt n, env.suggest dt n = .ok r.step
  accepted : ∀ n, env.accepted n = true
  firststep : env.firststep = r.step

end Probnum.Ode
