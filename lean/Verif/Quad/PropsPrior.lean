import Verif.Quad.ExistsKernel

/-! # Properties: the statistical models of Bayesian quadrature are not empty (C80) -/

namespace Probnum.Quad

open Probnum MeasureTheory ProbabilityTheory Probnum.Gauss

/-- **C80.**  Independent Gaussian processes with continuous covariance functions, observed with independent noise, exist. -/
theorem exists_kernel_priors {X : Type} [TopologicalSpace X] [TopologicalSpace.SeparableSpace X] [MeasurableSpace X] [BorelSpace X]
    {L : Type} [Countable L] {ι : L → Type} [∀ l, Countable (ι l)] [∀ l, DecidableEq (ι l)] {k : L → X → X → ℝ}
    (hk : ∀ l, Cov.IsPSD (k l)) (hc : ∀ l, Continuous fun p : X × X => k l p.1 p.2) {v : L → ℝ} (hv : ∀ l, 0 ≤ v l) :
    ∃ (Ω : Type) (_ : MeasurableSpace Ω) (Q : Measure Ω) (g : L → X → Ω → ℝ) (e : ∀ l, ι l → Ω → ℝ), IsMultiPrior Q g e k v := by
  choose φ hφ hs using fun l => exists_features (hk l) (hc l)
  obtain ⟨Ω, m, Q, g, e, h⟩ := exists_multi_prior (ι := ι) φ (fun l n => (hφ l n).measurable)
    (fun l x => by simpa only [pow_two] using (hs l x x).summable) hv
  refine ⟨Ω, m, Q, g, e, ?_⟩
  convert h using 1
  funext l x y
  exact (hs l x y).tsum_eq.symm

/-- **C80.**  For all kernels of Bayesian quadrature the statistical model is not empty: independent Gaussian processes
with these kernels times scales, observed with independent noise, exist. -/
theorem exists_priors {D : ℕ} {L : Type} [Countable L] {ι : L → Type} [∀ l, Countable (ι l)] [∀ l, DecidableEq (ι l)]
    {k : L → AnyKernel} (hk : ∀ l, (k l).Proper) {s v : L → ℝ} (hs : ∀ l, 0 ≤ s l) (hv : ∀ l, 0 ≤ v l) :
    ∃ (Ω : Type) (_ : MeasurableSpace Ω) (Q : Measure Ω) (g : L → (Fin D → ℝ) → Ω → ℝ) (e : ∀ l, ι l → Ω → ℝ),
      IsMultiPrior Q g e (fun l x y => s l * kernelValue (k l) x y) v :=
  exists_kernel_priors (fun l => (kernelValue_psd (hk l)).1.smul (hs l)) (fun l => (kernelValue_psd (hk l)).2.const_mul _) hv

/-- Gaussian processes with a product Matérn kernel of smoothness 1/2 and 5/2 exist, with two noisy observations. -/
example : ∃ (Ω : Type) (_ : MeasurableSpace Ω) (Q : Measure Ω) (g : (Fin 2 → ℝ) → Ω → ℝ) (e : Fin 2 → Ω → ℝ),
    IsPrior Q g e (fun x y => 3 * kernelValue (.matern 2 (.product ![⟨1 / 2, 1⟩, ⟨5 / 2, 2⟩])) x y) 1 := by
  obtain ⟨Ω, m, Q, g, e, h⟩ := exists_priors (D := 2) (L := Unit) (ι := fun _ => Fin 2)
    (k := fun _ => .matern 2 (.product ![⟨1 / 2, 1⟩, ⟨5 / 2, 2⟩])) (s := fun _ => 3) (v := fun _ => 1)
    (fun _ i => by fin_cases i <;> norm_num) (fun _ => by norm_num) fun _ => zero_le_one
  exact ⟨Ω, m, Q, g (), e (), h.level ()⟩

/-- Random linear functions: the covariance function `x y + 1` meets the hypotheses of `exists_kernel_priors`. -/
example : Cov.IsPSD (fun x y : ℝ => x * y + 1) ∧ Continuous fun p : ℝ × ℝ => p.1 * p.2 + 1 :=
  ⟨(Cov.IsPSD.rankOne fun x : ℝ => x).add (Cov.IsPSD.const zero_le_one), by fun_prop⟩

end Probnum.Quad
