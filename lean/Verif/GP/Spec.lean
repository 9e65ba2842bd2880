import Verif.GP.Model
import Verif.Cov.KernelSpec
import Verif.Cov.MatrixLemmas

/-!
# Specification of Gaussian processes (C46)
-/

namespace Probnum.GP

open RandVars Cov

/-- The point of the batch `x` at the batch index `B`. -/
def pt (x : Arr) (B : List ℕ) : Point := fun k => x.get (B ++ k)

/-- The mean function object computes `μ` (point, then output index) at every batch of points of shape `i`. -/
def IsMean (f : Functions.Core) (i o : List ℕ) (μ : Point → List ℕ → ℝ) : Prop :=
  f.inS = i ∧ f.outS = o ∧ ∀ (x : Arr) (b : List ℕ), x.shape = b ++ i →
    ∃ y, f.call x = .ok y ∧ y.shape = b ++ o ∧ ∀ B j, Valid b B → Valid o j → y.get (B ++ j) = μ (pt x B) j

/-- The covariance function object computes `κ` (two points, then two output indices) at all batches of float points of
shape `i` whose batch shapes broadcast; with one argument, at that point twice. -/
structure IsCov (k : Cov.Core) (i o : List ℕ) (κ : Point → Point → List ℕ → List ℕ → ℝ) : Prop where
  in0 : k.in0 = i
  in1 : k.in1 = i
  out0 : k.out0 = o
  out1 : k.out1 = o
  /-- `κ` only looks at entries the points have -/
  ext : ∀ x x' y y', Agree i x x' → Agree i y y' → ∀ j j', κ x y j j' = κ x' y' j j'
  computes : ∀ (x0 : Inp) (x1 : Option Inp) (b : List ℕ), x0.int = false → Batch i x0 x1 b →
    ∃ c, k.call x0 x1 = .ok c ∧ c.shape = b ++ (o ++ o) ∧ ∀ B j j', Valid b B → Valid o j → Valid o j' →
      c.get (B ++ (j ++ j')) = κ (pointAt i x0.arr B) (pointAt i (x1.getD x0).arr B) j j'

/-- The covariance a normal random variable stores for two of its entries: rows and columns are the entries in C order
(`_normal.py` 101). -/
def covAt (N : Normal) (idx idx' : List ℕ) : ℝ :=
  if N.mean.shape = [] then N.cov.get [] else N.cov.get [ravel N.mean.shape idx, ravel N.mean.shape idx']

/-- The normal random variable has the moments of the process at the points of the batch `x`. -/
def HasMoments (N : Normal) (b o : List ℕ) (x : Arr) (μ : Point → List ℕ → ℝ) (κ : Point → Point → List ℕ → List ℕ → ℝ) : Prop :=
  N.mean.shape = b ++ o ∧ ∀ B j, Valid b B → Valid o j → N.mean.get (B ++ j) = μ (pt x B) j ∧
    ∀ B' j', Valid b B' → Valid o j' → covAt N (B ++ j) (B' ++ j') = κ (pt x B) (pt x B') j j'

end Probnum.GP
