import Mathlib.Probability.Distributions.Gaussian.Real
import Mathlib.Probability.Independence.Basic

/-!
# What a random generator is supposed to return
-/

namespace Probnum.Markov

open MeasureTheory ProbabilityTheory

/-- Standard normal numbers, drawn independently. -/
structure StdNormals {Ω : Type*} {mΩ : MeasurableSpace Ω} (P : Measure Ω) (z : ℕ → Ω → ℝ) : Prop where
  meas : ∀ m, Measurable (z m)
  indep : iIndepFun z P
  law : ∀ m, P.map (z m) = gaussianReal 0 1

end Probnum.Markov
