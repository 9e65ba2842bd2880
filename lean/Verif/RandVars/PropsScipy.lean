import Verif.RandVars.Scipy
import Verif.RandVars.GenericSpec
import Verif.RandVars.Spec
import Mathlib.Probability.Distributions.Gaussian.HasGaussianLaw.Basic
import Mathlib.Probability.CDF

/-!
# Distributions of SciPy as random variables: what the wrappers report
-/

namespace Probnum.RandVars

open MeasureTheory ProbabilityTheory Set

variable {ρ : Type} {U : ScipyUni ρ} {μ : Measure ℝ}

/-- SciPy computes the documented quantities of the distribution `μ`: moments, distribution function and its generalized inverse,
probabilities or density, and an interval that carries it.  Discrete distributions have integer values. -/
structure ScipyRight (U : ScipyUni ρ) (μ : Measure ℝ) : Prop where
  mean : U.mean = ∫ x, x ∂μ
  var : U.var = Var[fun x => x; μ]
  std : U.std = √(Var[fun x => x; μ])
  cdf : ∀ x, U.cdf x = μ.real (Iic x)
  logcdf : ∀ x, 0 < μ.real (Iic x) → U.logcdf x = Real.log (μ.real (Iic x))
  ppf : ∀ p, 0 < p → p < 1 → IsLeast {x | p ≤ μ.real (Iic x)} (U.ppf p)
  support : μ {x : ℝ | ¬ (U.support.1 ≤ (x : EReal) ∧ (x : EReal) ≤ U.support.2)} = 0
  integers : U.kind = .discrete → μ (range ((↑) : ℤ → ℝ))ᶜ = 0
  pmf : U.kind = .discrete → ∀ x, U.mass x = μ.real {x}
  logpmf : U.kind = .discrete → ∀ x, 0 < μ.real {x} → U.logmass x = Real.log (μ.real {x})
  pdf : U.kind = .continuous → μ = volume.withDensity fun x => ENNReal.ofReal (U.mass x)

/-- **C92 (a).**  A normal distribution becomes a `Normal` with that distribution. -/
theorem wrap_norm (hk : U.kind = .norm) {m : ℝ} {v : NNReal} (hm : U.mean = m) (hv : U.var = v) :
    ∃ N, wrapScipy U = .ok (.inl N) ∧ N.WF ∧ ∀ (Ω : Type) (_ : MeasurableSpace Ω) (P : Measure Ω) (Y : Ω → ℝ), AEMeasurable Y P →
      P.map Y = gaussianReal m v → Law P (fun ω => number (Y ω)) N := by
  have hN : mkNormal (number U.mean) (number U.var) none = .ok ⟨number U.mean, number U.var, none⟩ := by
    unfold mkNormal
    rw [if_neg (by simp [number, Arr.ndim]), if_neg (by simp [number, expectedCov]), if_neg (by simp [badFactor])]
  refine ⟨⟨number U.mean, number U.var, none⟩, ?_, hN, fun Ω _ P Y hY hmap => ⟨fun ω => rfl, ?_, fun i => ?_, fun i j => ?_⟩⟩
  · unfold wrapScipy
    rw [hk]
    simp only [hN]
    rfl
  · have hg : HasGaussianLaw Y P := ⟨by rw [hmap]; infer_instance⟩
    exact hg.map (ContinuousLinearMap.pi fun _ : Fin 1 => ContinuousLinearMap.id ℝ ℝ)
  · show ∫ ω, Y ω ∂P = U.mean
    rw [hm]
    have := integral_map (f := fun x : ℝ => x) hY (by fun_prop)
    rw [hmap, integral_id_gaussianReal] at this
    exact this.symm
  · show cov[Y, Y; P] = U.var
    rw [covariance_self hY, hv]
    have := variance_map (X := fun x : ℝ => x) (μ := P) (Y := Y) (by fun_prop) hY
    rw [hmap, variance_fun_id_gaussianReal] at this
    exact this.symm

/-- Other distributions are wrapped. -/
theorem wrapScipy_wraps (hk : U.kind ≠ .norm) : wrapScipy U = .ok (.inr (wrapKwargs U)) := by
  unfold wrapScipy
  cases h : U.kind <;> simp_all

/-- **C92 (b).**  Mean, variance, standard deviation are those of the distribution; they, and the median, are available. -/
theorem wrap_moments (hk : U.kind ≠ .norm) (h : ScipyRight U μ) :
    ∃ w, wrapScipy U = .ok (.inr w) ∧ w.rv.shape = [] ∧ Describes μ number w.rv ∧
      (∃ a, w.rv.meanP = .ok a) ∧ (∃ a, w.rv.varP = .ok a) ∧ (∃ a, w.rv.stdP = .ok a) ∧ w.rv.medianP = .ok (number U.median) := by
  refine ⟨_, wrapScipy_wraps hk, rfl, ⟨fun _ => rfl, fun a ha => ?_, fun a ha => ?_, fun a ha => ?_⟩, ⟨_, rfl⟩, ⟨_, rfl⟩, ⟨_, rfl⟩, rfl⟩
  · obtain rfl : number U.mean = a := Except.ok.inj ha
    exact ⟨rfl, fun i _ => h.mean.symm⟩
  · obtain rfl : number U.var = a := Except.ok.inj ha
    exact ⟨rfl, fun i _ => h.var.symm⟩
  · obtain rfl : number U.std = a := Except.ok.inj ha
    exact ⟨rfl, fun i _ => h.std.symm⟩

/-- **C92 (c).**  The distribution function and its logarithm. -/
theorem wrap_cdf (hk : U.kind ≠ .norm) (h : ScipyRight U μ) :
    ∃ w, wrapScipy U = .ok (.inr w) ∧ ∀ x, w.cdf x = .ok (number (μ.real (Iic x))) ∧
      (0 < μ.real (Iic x) → w.logcdf x = .ok (number (Real.log (μ.real (Iic x))))) := by
  refine ⟨_, wrapScipy_wraps hk, fun x => ⟨?_, fun hx => ?_⟩⟩
  · show Except.ok (number (U.cdf x)) = _
    rw [h.cdf]
  · show Except.ok (number (U.logcdf x)) = _
    rw [h.logcdf x hx]

/-- The least point with distribution function at least `p` of an integer valued distribution is an integer. -/
theorem isLeast_integer [IsFiniteMeasure μ] (h : μ (range ((↑) : ℤ → ℝ))ᶜ = 0) {p q : ℝ}
    (hq : IsLeast {x | p ≤ μ.real (Iic x)} q) : ∃ k : ℤ, (k : ℝ) = q := by
  refine ⟨⌊q⌋, le_antisymm (Int.floor_le q) (hq.2 ?_)⟩
  have hsub : Ioc (⌊q⌋ : ℝ) q ⊆ (range ((↑) : ℤ → ℝ))ᶜ := by
    rintro x ⟨h1, h2⟩ ⟨k, rfl⟩
    have e1 : ⌊q⌋ < k := by exact_mod_cast h1
    exact absurd (Int.le_floor.2 h2) (not_le.2 e1)
  have h0 : μ (Ioc (⌊q⌋ : ℝ) q) = 0 := measure_mono_null hsub h
  have heq : μ.real (Iic q) = μ.real (Iic (⌊q⌋ : ℝ)) := by
    have hle : μ (Iic q) ≤ μ (Iic (⌊q⌋ : ℝ)) := by
      rw [← Iic_union_Ioc_eq_Iic (Int.floor_le q)]
      exact (measure_union_le _ _).trans (by rw [h0, add_zero])
    exact congrArg ENNReal.toReal (le_antisymm hle (measure_mono (Iic_subset_Iic.2 (Int.floor_le q))))
  show p ≤ μ.real (Iic (⌊q⌋ : ℝ))
  rw [← heq]
  exact hq.1

/-- **C92 (d).**  Quantiles between 0 and 1: the least point at which the distribution function is at least `p`, also for discrete
distributions, where the result is converted to an integer. -/
theorem wrap_quantile [IsFiniteMeasure μ] (hk : U.kind ≠ .norm) (h : ScipyRight U μ) :
    ∃ w, wrapScipy U = .ok (.inr w) ∧ ∀ p, 0 < p → p < 1 → ∃ q, w.quantile p = .ok (number q) ∧
      IsLeast {x | p ≤ μ.real (Iic x)} q := by
  refine ⟨_, wrapScipy_wraps hk, fun p h0 h1 => ⟨toDtype U.kind (U.ppf p), rfl, ?_⟩⟩
  have hl := h.ppf p h0 h1
  have e : toDtype U.kind (U.ppf p) = U.ppf p := by
    cases hd : U.kind with
    | discrete =>
      obtain ⟨k, hk⟩ := isLeast_integer (h.integers hd) hl
      show toInt (U.ppf p) = _
      rw [← hk, toInt, Int.floor_intCast, Int.ceil_intCast, ite_self]
    | _ => rfl
  rw [e]
  exact hl

/-- **C92 (e).**  Probabilities of discrete distributions, densities of continuous ones. -/
theorem wrap_mass (h : ScipyRight U μ) :
    (U.kind = .discrete → ∃ w, wrapScipy U = .ok (.inr w) ∧ ∀ x, w.mass x = .ok (number (μ.real {x})) ∧
      (0 < μ.real {x} → w.logmass x = .ok (number (Real.log (μ.real {x}))))) ∧
    (U.kind = .continuous → ∃ w, ∃ f : ℝ → ℝ, wrapScipy U = .ok (.inr w) ∧ (∀ x, w.mass x = .ok (number (f x))) ∧
      μ = volume.withDensity fun x => ENNReal.ofReal (f x)) := by
  constructor
  · intro hk
    refine ⟨_, wrapScipy_wraps (by rw [hk]; simp), fun x => ⟨?_, fun hx => ?_⟩⟩
    · simp only [Wrapped.mass, wrapKwargs, hk, ensureFloat]
      rw [h.pmf hk]
      rfl
    · simp only [Wrapped.logmass, wrapKwargs, hk, ensureFloat]
      rw [h.logpmf hk x hx]
      rfl
  · intro hk
    refine ⟨_, U.mass, wrapScipy_wraps (by rw [hk]; simp), fun x => ?_, h.pdf hk⟩
    simp only [Wrapped.mass, wrapKwargs, hk, ensureFloat]
    rfl

/-- **C92 (f), partial.**  Values for which `in_support` is false have probability zero, and almost all samples are in the support.
(Missing: values for which it is true can have probability zero, see `in_support_gap`.) -/
theorem wrap_support_partial (hk : U.kind ≠ .norm) (h : ScipyRight U μ) :
    ∃ w, wrapScipy U = .ok (.inr w) ∧ (∀ x, w.rv.inSupportP (number x) = .ok false → μ {x} = 0) ∧
      ∀ᵐ x ∂μ, w.rv.inSupportP (number x) = .ok true := by
  classical
  have e : ∀ x : ℝ, (wrapKwargs U).rv.inSupportP (number x)
      = .ok (decide (U.support.1 ≤ (x : EReal) ∧ (x : EReal) ≤ U.support.2)) := fun x => by
    simp only [Generic.inSupportP, wrapKwargs, number]
    congr
  refine ⟨_, wrapScipy_wraps hk, fun x hx => ?_, ?_⟩
  · rw [e] at hx
    refine measure_mono_null ?_ h.support
    rintro y rfl
    exact of_decide_eq_false (Except.ok.inj hx)
  · have := h.support
    rw [ae_iff]
    refine measure_mono_null (fun x hx => ?_) this
    simp only [mem_setOf_eq] at hx ⊢
    intro hc
    exact hx (by rw [e, decide_eq_true hc])

/-- **C92 (g).**  Samples of any size are SciPy's, with the given generator. -/
theorem wrap_draws (hk : U.kind ≠ .norm) {mρ : MeasurableSpace ρ} {Q : Measure ρ} {size : List ℕ}
    (hshape : ∀ r, (U.rvs size r).1.shape = size)
    (hlaw : Q.map (fun r => (blocks size.prod 1 (U.rvs size r).1, (U.rvs size r).2))
      = (Measure.pi fun _ => μ.map fun x (_ : Fin 1) => x).prod Q) :
    ∃ w, wrapScipy U = .ok (.inr w) ∧ DrawsAt Q w.rv 1 (μ.map fun x (_ : Fin 1) => x) size :=
  ⟨_, wrapScipy_wraps hk, rfl, _, _, fun r => ⟨rfl, by rw [hshape]; simp [wrapKwargs]⟩, hlaw⟩

/-- **C92 (h), disagreement.**  The entropy always raises TypeError: the wrapped function returns an array without axes, which is
not a scalar for the check. -/
theorem entropy_raises (hk : U.kind ≠ .norm) : ∃ w, wrapScipy U = .ok (.inr w) ∧ w.entropy = .error .typeError :=
  ⟨_, wrapScipy_wraps hk, rfl⟩

/-- **C92 (i), disagreement.**  The covariance of a number is its variance, but it is not implemented. -/
theorem cov_missing (hk : U.kind ≠ .norm) : ∃ w, wrapScipy U = .ok (.inr w) ∧ w.rv.covP = .error .notImplementedError ∧
    w.rv.modeP = .error .notImplementedError :=
  ⟨_, wrapScipy_wraps hk, rfl, rfl⟩

/-- **C92 (j), disagreement.**  `in_support(x)` is documented to be true iff the variable takes the value `x` with positive probability;
for discrete distributions it is true at every point between two values. -/
theorem in_support_gap (hk : U.kind = .discrete) (h : ScipyRight U μ) {k : ℤ} (h1 : U.support.1 ≤ ((k : ℝ) : EReal))
    (h2 : ((k + 1 : ℝ) : EReal) ≤ U.support.2) : ∃ w, wrapScipy U = .ok (.inr w) ∧
      w.rv.inSupportP (number (k + 1 / 2)) = .ok true ∧ μ {(k : ℝ) + 1 / 2} = 0 ∧ w.mass (k + 1 / 2) = .ok (number 0) := by
  classical
  have hz : μ {(k : ℝ) + 1 / 2} = 0 := by
    refine measure_mono_null ?_ (h.integers hk)
    rintro x rfl ⟨j, hj⟩
    have e : (2 * j : ℝ) = 2 * k + 1 := by linarith
    have e' : 2 * j = 2 * k + 1 := by exact_mod_cast e
    omega
  refine ⟨_, wrapScipy_wraps (by rw [hk]; simp), ?_, hz, ?_⟩
  · simp only [Generic.inSupportP, wrapKwargs, number]
    congr 1
    refine decide_eq_true ⟨h1.trans ?_, le_trans ?_ h2⟩
    · exact_mod_cast (by linarith : (k : ℝ) ≤ k + 1 / 2)
    · exact_mod_cast (by linarith : (k : ℝ) + 1 / 2 ≤ k + 1)
  · simp only [Wrapped.mass, wrapKwargs, hk, ensureFloat]
    rw [h.pmf hk, Measure.real, hz]
    rfl

/-! ### Concrete cases -/

/-- The distribution function of a probability measure attains its quantiles. -/
theorem exists_quantile (μ : Measure ℝ) [IsProbabilityMeasure μ] {p : ℝ} (h0 : 0 < p) (h1 : p < 1) :
    IsLeast {x | p ≤ μ.real (Iic x)} (sInf {x | p ≤ μ.real (Iic x)}) := by
  have hS : {x | p ≤ μ.real (Iic x)} = {x | p ≤ cdf μ x} := by
    ext x
    rw [mem_setOf_eq, mem_setOf_eq, cdf_eq_real]
  rw [hS]
  have hne : {x | p ≤ cdf μ x}.Nonempty := by
    obtain ⟨x, hx⟩ := ((tendsto_cdf_atTop μ).eventually (eventually_gt_nhds h1)).exists
    exact ⟨x, hx.le⟩
  have hb : BddBelow {x | p ≤ cdf μ x} := by
    obtain ⟨y, hy⟩ := ((tendsto_cdf_atBot μ).eventually (eventually_lt_nhds h0)).exists
    refine ⟨y, fun x hx => le_of_not_gt fun hlt => ?_⟩
    exact absurd (hx.trans (monotone_cdf μ hlt.le)) (not_le.2 hy)
  refine ⟨?_, fun x hx => csInf_le hb hx⟩
  show p ≤ cdf μ (sInf _)
  have hr := (cdf μ).right_continuous (sInf {x | p ≤ cdf μ x})
  refine ge_of_tendsto (hr.mono_left (nhdsWithin_mono _ Ioi_subset_Ici_self)) ?_
  filter_upwards [self_mem_nhdsWithin] with y hy
  obtain ⟨x, hx, hxy⟩ := exists_lt_of_csInf_lt hne (show sInf {x | p ≤ cdf μ x} < y from hy)
  exact le_trans (show p ≤ cdf μ x from hx) (monotone_cdf μ hxy.le)

/-- The quantities of a probability measure, computed exactly. -/
noncomputable def exactUni (μ : Measure ℝ) (kind : ScipyKind) (mass : ℝ → ℝ) (lo hi : EReal) : ScipyUni Unit where
  kind := kind
  mean := ∫ x, x ∂μ
  var := Var[fun x => x; μ]
  std := √(Var[fun x => x; μ])
  median := sInf {x | 1 / 2 ≤ μ.real (Iic x)}
  entropy := 0
  support := (lo, hi)
  cdf x := μ.real (Iic x)
  logcdf x := Real.log (μ.real (Iic x))
  ppf p := sInf {x | p ≤ μ.real (Iic x)}
  mass := mass
  logmass x := Real.log (mass x)
  rvs size r := (⟨size, fun _ => 0⟩, r)

/-- A fair coin with the values 0 and 1. -/
noncomputable def coin : Measure ℝ := (1 / 2 : ENNReal) • Measure.dirac 0 + (1 / 2 : ENNReal) • Measure.dirac 1

instance : IsProbabilityMeasure coin := ⟨by simp [coin, ENNReal.inv_two_add_inv_two]⟩

theorem coin_right : ScipyRight (exactUni coin .discrete (fun x => coin.real {x}) 0 1) coin where
  mean := rfl
  var := rfl
  std := rfl
  cdf _ := rfl
  logcdf _ _ := rfl
  ppf _ h0 h1 := exists_quantile coin h0 h1
  support := by
    simp [coin, exactUni]
  integers _ := by
    have h0 : (0 : ℝ) ∈ range ((↑) : ℤ → ℝ) := ⟨0, by simp⟩
    have h1 : (1 : ℝ) ∈ range ((↑) : ℤ → ℝ) := ⟨1, by simp⟩
    have hm : MeasurableSet (range ((↑) : ℤ → ℝ))ᶜ := (countable_range _).measurableSet.compl
    rw [coin, Measure.add_apply, Measure.smul_apply, Measure.smul_apply, Measure.dirac_apply' _ hm, Measure.dirac_apply' _ hm]
    simp [h0, h1]
  pmf _ _ := rfl
  logpmf _ _ _ := rfl
  pdf h := by cases h

/-- The uniform distribution on the unit interval. -/
noncomputable def unitUniform : Measure ℝ := volume.restrict (Icc 0 1)

instance : IsProbabilityMeasure unitUniform := ⟨by simp [unitUniform]⟩

theorem uniform_right : ScipyRight (exactUni unitUniform .continuous ((Icc 0 1).indicator 1) 0 1) unitUniform where
  mean := rfl
  var := rfl
  std := rfl
  cdf _ := rfl
  logcdf _ _ := rfl
  ppf _ h0 h1 := exists_quantile unitUniform h0 h1
  support := by
    rw [unitUniform, Measure.restrict_apply' measurableSet_Icc]
    convert measure_empty (μ := (volume : Measure ℝ))
    ext x
    simp only [exactUni, mem_inter_iff, mem_setOf_eq, mem_Icc, mem_empty_iff_false, iff_false, not_and]
    intro h h0 h1
    exact absurd (by exact_mod_cast h1) (h (by exact_mod_cast h0))
  integers h := by cases h
  pmf h := by cases h
  logpmf h := by cases h
  pdf _ := by
    have e : (fun x => ENNReal.ofReal ((Icc (0 : ℝ) 1).indicator (1 : ℝ → ℝ) x)) = (Icc (0 : ℝ) 1).indicator 1 := by
      ext x
      by_cases hx : x ∈ Icc (0 : ℝ) 1 <;> simp [hx]
    show unitUniform = volume.withDensity fun x => ENNReal.ofReal ((Icc (0 : ℝ) 1).indicator (1 : ℝ → ℝ) x)
    rw [e, withDensity_indicator_one measurableSet_Icc]
    rfl

/-- The fair coin: each value has probability 1/2, and 1/2 itself is said to be in the support. -/
example : ∃ w, wrapScipy (exactUni coin .discrete (fun x => coin.real {x}) 0 1) = .ok (.inr w) ∧
    w.mass 1 = .ok (number (1 / 2)) ∧ w.rv.inSupportP (number (0 + 1 / 2)) = .ok true := by
  obtain ⟨w, hw, hm⟩ := (wrap_mass coin_right).1 rfl
  obtain ⟨w', hw', hs, -⟩ := in_support_gap (k := 0) rfl coin_right (by simp [exactUni]) (by simp [exactUni])
  obtain rfl : w = w' := Sum.inr.inj (Except.ok.inj (hw.symm.trans hw'))
  refine ⟨w, hw, ?_, by simpa using hs⟩
  rw [(hm 1).1]
  simp [coin, Measure.real]

example : ∃ w, wrapScipy (exactUni unitUniform .continuous ((Icc 0 1).indicator 1) 0 1) = .ok (.inr w) ∧
    w.cdf (1 / 4) = .ok (number (1 / 4)) ∧ w.entropy = .error .typeError := by
  obtain ⟨w, hw, hc⟩ := wrap_cdf (by simp [exactUni]) uniform_right
  obtain ⟨w', hw', he⟩ := entropy_raises (U := exactUni unitUniform .continuous ((Icc 0 1).indicator 1) 0 1) (by simp [exactUni])
  obtain rfl : w = w' := Sum.inr.inj (Except.ok.inj (hw.symm.trans hw'))
  refine ⟨w, hw, ?_, he⟩
  rw [(hc (1 / 4)).1]
  have e : Iic (1 / 4 : ℝ) ∩ Icc 0 1 = Icc 0 (1 / 4) := by
    ext x
    simp only [mem_inter_iff, mem_Iic, mem_Icc]
    constructor
    · rintro ⟨a, b, c⟩
      exact ⟨b, a⟩
    · rintro ⟨a, b⟩
      exact ⟨b, a, by linarith⟩
  rw [Measure.real, unitUniform, Measure.restrict_apply measurableSet_Iic, e]
  simp

/-- The third quartile of the coin is 1. -/
example : ∃ w, wrapScipy (exactUni coin .discrete (fun x => coin.real {x}) 0 1) = .ok (.inr w) ∧
    ∃ q, w.quantile (3 / 4) = .ok (number q) ∧ IsLeast {x | 3 / 4 ≤ coin.real (Iic x)} q := by
  obtain ⟨w, hw, hq⟩ := wrap_quantile (by simp [exactUni]) coin_right
  exact ⟨w, hw, hq (3 / 4) (by norm_num) (by norm_num)⟩

example : ∃ w, wrapScipy (exactUni unitUniform .continuous ((Icc 0 1).indicator 1) 0 1) = .ok (.inr w) ∧
    Describes unitUniform number w.rv := by
  obtain ⟨w, hw, -, hd, -⟩ := wrap_moments (by simp [exactUni]) uniform_right
  exact ⟨w, hw, hd⟩

example : ∃ w, wrapScipy (exactUni coin .discrete (fun x => coin.real {x}) 0 1) = .ok (.inr w) ∧
    (∀ x, w.rv.inSupportP (number x) = .ok false → coin {x} = 0) := by
  obtain ⟨w, hw, h, -⟩ := wrap_support_partial (by simp [exactUni]) coin_right
  exact ⟨w, hw, h⟩

/-- The normal distribution with mean 1 and variance 4. -/
example : ∃ N, wrapScipy (exactUni (gaussianReal 1 4) .norm 0 ⊥ ⊤) = .ok (.inl N) ∧ N.WF ∧
    Law (gaussianReal 1 4) number N := by
  obtain ⟨N, h, hw, hl⟩ := wrap_norm (U := exactUni (gaussianReal 1 4) .norm 0 ⊥ ⊤) rfl (m := 1) (v := 4)
    (by simp [exactUni]) (by simp [exactUni])
  exact ⟨N, h, hw, hl ℝ _ (gaussianReal 1 4) id (by fun_prop) Measure.map_id⟩

theorem pi_dirac_const {n : ℕ} {α : Type} [MeasurableSpace α] (a : α) :
    (Measure.pi fun _ : Fin n => Measure.dirac a) = Measure.dirac fun _ => a := by
  classical
  refine Measure.pi_eq fun s hs => ?_
  rw [Measure.dirac_apply' _ (MeasurableSet.univ_pi hs)]
  simp only [Measure.dirac_apply' _ (hs _), indicator_apply, mem_univ_pi, Pi.one_apply]
  by_cases h : ∀ i, a ∈ s i
  · simp [h]
  · rw [if_neg h]
    obtain ⟨i, hi⟩ := not_forall.1 h
    exact (Finset.prod_eq_zero (Finset.mem_univ i) (if_neg hi)).symm

/-- Draws of a distribution concentrated at 0. -/
example : ∃ w, wrapScipy (exactUni (Measure.dirac 0) .discrete 0 0 0) = .ok (.inr w) ∧
    DrawsAt (Measure.dirac ()) w.rv 1 ((Measure.dirac (0 : ℝ)).map fun x (_ : Fin 1) => x) [2, 3] := by
  refine wrap_draws (by simp [exactUni]) (fun _ => rfl) ?_
  rw [Measure.map_dirac' (measurable_of_countable _), Measure.map_dirac' (by fun_prop), pi_dirac_const, Measure.dirac_prod_dirac]
  rfl

end Probnum.RandVars
