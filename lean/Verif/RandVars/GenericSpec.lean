import Verif.RandVars.Generic
import Mathlib.MeasureTheory.Constructions.Pi
import Mathlib.Probability.Moments.Covariance
import Mathlib.Probability.Moments.Variance
import Mathlib.Analysis.SpecialFunctions.Log.NegMulLog

/-!
# What a generic random variable should report

`Describes P X g`: whatever moments `g` reports are those of the random array `X`.  `CovRight`: the same for the covariance.
`DrawsAt P g n μ size`: a call `g.sample(rng, size)` returns independent draws with distribution `μ` (on the `n` entries in C order),
stacked in the shape `size + g.shape`; the generator is left in a fresh state, independent of the draws (`P` is the distribution of
the states of an ideal generator).
-/

namespace Probnum.RandVars

open MeasureTheory ProbabilityTheory

variable {Ω : Type*} {mΩ : MeasurableSpace Ω} {ρ : Type} {mρ : MeasurableSpace ρ}

/-- The reported mean, variance and standard deviation are right. -/
structure Describes (P : Measure Ω) (X : Ω → Arr) (g : Generic ρ) : Prop where
  shape : ∀ ω, (X ω).shape = g.shape
  mean : ∀ m, g.meanP = .ok m → m.shape = g.shape ∧ ∀ i < g.shape.prod, ∫ ω, (X ω).flat i ∂P = m.flat i
  var : ∀ v, g.varP = .ok v → v.shape = g.shape ∧ ∀ i < g.shape.prod, Var[fun ω => (X ω).flat i; P] = v.flat i
  std : ∀ s, g.stdP = .ok s → s.shape = g.shape ∧ ∀ i < g.shape.prod, √(Var[fun ω => (X ω).flat i; P]) = s.flat i

/-- The reported covariance is right. -/
def CovRight (P : Measure Ω) (X : Ω → Arr) (g : Generic ρ) : Prop :=
  ∀ C, g.covP = .ok C → ∀ i < g.shape.prod, ∀ j < g.shape.prod,
    cov[fun ω => (X ω).flat i, fun ω => (X ω).flat j; P] = C.flat (i * g.shape.prod + j)

/-- The draws stacked in an array. -/
def blocks (k n : ℕ) (a : Arr) (c : Fin k) (i : Fin n) : ℝ := a.flat (c * n + i)

/-- Samples of the given size are right. -/
def DrawsAt (P : Measure ρ) (g : Generic ρ) (n : ℕ) (μ : Measure (Fin n → ℝ)) (size : List ℕ) : Prop :=
  g.shape.prod = n ∧ ∃ (S : ρ → Arr) (T : ρ → ρ), (∀ r, g.sampleP size r = .ok (S r, T r) ∧ (S r).shape = size ++ g.shape) ∧
    P.map (fun r => (blocks size.prod n (S r), T r)) = (Measure.pi fun _ => μ).prod P

/-- Entropy of a random quantity with finitely many outcomes. -/
noncomputable def discreteEntropy {Ω α : Type} [Fintype Ω] [DecidableEq α] (p : Ω → ℝ) (Y : Ω → α) : ℝ :=
  ∑ v ∈ Finset.univ.image Y, Real.negMulLog (∑ ω, if Y ω = v then p ω else 0)

/-- Probability of a value of a random quantity with finitely many outcomes. -/
noncomputable def discreteProb {Ω α : Type} [Fintype Ω] [DecidableEq α] (p : Ω → ℝ) (Y : Ω → α) (v : α) : ℝ :=
  ∑ ω, if Y ω = v then p ω else 0

end Probnum.RandVars
