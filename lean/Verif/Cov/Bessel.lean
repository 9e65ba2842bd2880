import Mathlib.MeasureTheory.Integral.Bochner.Set
import Mathlib.MeasureTheory.Measure.Lebesgue.Basic
import Mathlib.Analysis.SpecialFunctions.Trigonometric.DerivHyp
import Mathlib.Analysis.SpecialFunctions.Gamma.Basic

/-!
# The modified Bessel function of the second kind and the Matérn covariance functions

Specification: the textbook definitions, independent of the code.
-/

namespace Probnum.Cov

open MeasureTheory Set

/-- The modified Bessel function of the second kind `K_ν(z)`, for `z > 0` (DLMF 10.32.9). -/
noncomputable def besselK (ν z : ℝ) : ℝ := ∫ t in Ioi (0 : ℝ), Real.exp (-(z * Real.cosh t)) * Real.cosh (ν * t)

/-- The Matérn covariance function with smoothness `ν` at the scaled distance `u = √(2ν) r`, as documented
(`_matern.py` 24-33); 1 at distance 0. -/
noncomputable def maternDoc (ν u : ℝ) : ℝ := if u = 0 then 1 else 2 ^ (1 - ν) / Real.Gamma ν * u ^ ν * besselK ν u

end Probnum.Cov
