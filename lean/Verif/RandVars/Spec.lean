import Verif.RandVars.Model
import Verif.Gauss.Spec

/-!
# Specification: what a `Normal` object says about a random array

`Law P X N`: under the probability measure `P` the random array `X` has the shape of `N` and the (multivariate)
normal distribution with the mean and the covariance stored in `N`.  The entries of `X` are taken in C order.
-/

namespace Probnum.RandVars

open MeasureTheory ProbabilityTheory Finset Gauss

/-- Covariance of the `i`-th and `j`-th entry (in C order) according to `N`. -/
def Normal.covAt (N : Normal) (i j : ℕ) : ℝ := N.cov.flat (i * N.mean.size + j)

/-- The entries of a random array, in C order. -/
def entries {Ω : Type*} (X : Ω → Arr) (n : ℕ) (ω : Ω) (i : Fin n) : ℝ := (X ω).flat i

/-- The random array `X` is distributed as `N` says. -/
structure Law {Ω : Type*} {mΩ : MeasurableSpace Ω} (P : Measure Ω) (X : Ω → Arr) (N : Normal) : Prop where
  shape : ∀ ω, (X ω).shape = N.mean.shape
  normal : IsNormal P (entries X N.mean.size) (fun i => N.mean.flat i) (Matrix.of fun i j => N.covAt i j)

/-- The object passed the checks of the constructor. -/
def Normal.WF (N : Normal) : Prop := mkNormal N.mean N.cov N.chol = .ok N

/-- The available Cholesky factor, if any, is a square root of the covariance. -/
def Normal.Root (N : Normal) : Prop := ∀ L, N.chol = some L → L.size = N.mean.size * N.mean.size ∧
  ∀ i < N.mean.size, ∀ j < N.mean.size,
    ∑ k ∈ range N.mean.size, L.flat (i * N.mean.size + k) * L.flat (j * N.mean.size + k) = N.covAt i j

end Probnum.RandVars
