import Mathlib.Probability.Distributions.Gaussian.HasGaussianLaw.Basic
import Mathlib.Probability.Moments.Covariance
import Mathlib.LinearAlgebra.Matrix.PosDef

/-!
# Specification: Gaussian random vectors

What it means for a random vector on a probability space to have the distribution `N(m, C)`, and for `N(m, C)` to be
the conditional distribution of `X` given `Y`.  This is independent of the model of probnum.
-/

namespace Probnum.Gauss

open MeasureTheory ProbabilityTheory Matrix

variable {Ω : Type*} {mΩ : MeasurableSpace Ω}

/-- `X ~ N(m, C)` under the probability measure `P`: the law of `X` is Gaussian, `m` is its mean and `C` its
covariance matrix. -/
structure IsNormal {ι : Type*} [Fintype ι] (P : Measure Ω) (X : Ω → ι → ℝ) (m : ι → ℝ) (C : Matrix ι ι ℝ) : Prop where
  gaussian : HasGaussianLaw X P
  mean : ∀ i, ∫ ω, X ω i ∂P = m i
  cov : ∀ i j, cov[fun ω => X ω i, fun ω => X ω j; P] = C i j

/-- `cov(X, Y) = C`, entrywise. -/
def CrossCov {ι κ : Type*} (P : Measure Ω) (X : Ω → ι → ℝ) (Y : Ω → κ → ℝ) (C : Matrix ι κ ℝ) : Prop :=
  ∀ i j, cov[fun ω => X ω i, fun ω => Y ω j; P] = C i j

/-- The conditional distribution of `X` given `Y = y` is `N(f y, C)`: the residual `X - f(Y)` is independent of `Y`
and distributed as `N(0, C)`. -/
structure IsConditional {ι : Type*} [Fintype ι] {β : Type*} [MeasurableSpace β] (P : Measure Ω) (X : Ω → ι → ℝ)
    (Y : Ω → β) (f : β → ι → ℝ) (C : Matrix ι ι ℝ) : Prop where
  measurable : Measurable f
  indep : IndepFun (fun ω => X ω - f (Y ω)) Y P
  residual : IsNormal P (fun ω => X ω - f (Y ω)) 0 C

end Probnum.Gauss
