import Verif.RandVars.DistLemmas
import Verif.RandVars.PropsMatmul
import Mathlib.Probability.HasLawExists

/-!
# C84: the distribution functions of normal random variables

`Law P X N` (`Verif/RandVars/Spec.lean`): the random array `X` has the distribution the object `N` describes.  The theorems compare
what the object reports with the distribution of `X`: moments, density, distribution function, quantiles, entropy, samples.
`normalPdf` (`Verif/Gauss/Density.lean`) is the multivariate normal density, proved there to be the density of the distribution.
-/

namespace Probnum.RandVars

open MeasureTheory ProbabilityTheory Finset Gauss

variable {Ω : Type*} {mΩ : MeasurableSpace Ω} {P : Measure Ω} {X : Ω → Arr} {N : Normal} {d : Dtype}

/-- A standard normal matrix with two rows and one column, and a batch of three points of its shape: the hypotheses of the theorems on
moments, density, mode and entropy hold. -/
example : ∃ (N : Normal) (Ω : Type) (_ : MeasurableSpace Ω) (P : Measure Ω) (X : Ω → Arr) (x : Arr), N.WF ∧ Law P X N ∧
    N.mean.shape = [2, 1] ∧ 0 < N.mean.size ∧ N.mean.size ≠ 1 ∧ N.covMat.PosDef ∧ x.shape = [3] ++ N.mean.shape := by
  obtain ⟨N, h1, h2, _, h3, Ω, mΩ, P, X, h4⟩ := law_exists ⟨[2, 1], fun _ => 1⟩ (by simp [Arr.ndim]) 1
  have hs : N.mean.shape = [2, 1] := by rw [h2]
  have hc : N.covMat = 1 := by
    ext i j
    have e : N.mean.size = Arr.size ⟨[2, 1], fun _ => 1⟩ := by rw [h2]
    have := h3 (i.cast e) (j.cast e)
    rw [Matrix.transpose_one, mul_one, Matrix.one_apply] at this
    rw [Matrix.one_apply]
    simp only [Fin.cast_inj] at this
    exact this
  refine ⟨N, Ω, mΩ, P, X, ⟨[3, 2, 1], fun _ => 0⟩, h1, h4, hs, ?_, ?_, ?_, by rw [hs]; rfl⟩
  · rw [Arr.size, hs]; simp
  · rw [Arr.size, hs]; simp
  · rw [hc]
    exact Matrix.PosDef.one

/-- A scalar variable with variance 4. -/
example : ∃ (N : Normal) (Ω : Type) (_ : MeasurableSpace Ω) (P : Measure Ω) (X : Ω → Arr), N.WF ∧ Law P X N ∧
    N.mean.shape = [] ∧ 0 < N.cov.get [] := by
  obtain ⟨N, h1, h2, _, h3, Ω, mΩ, P, X, h4⟩ := law_exists ⟨[], fun _ => 1⟩ (by simp [Arr.ndim])
    ((2 : ℝ) • (1 : Matrix (Fin 1) (Fin 1) ℝ))
  have hs : N.mean.shape = [] := by rw [h2]
  have hc : N.cov.shape = [] := by rw [h1.cov, hs]; rfl
  refine ⟨N, Ω, mΩ, P, X, h1, h4, hs, ?_⟩
  have := h3 ⟨0, by simp [Arr.size]⟩ ⟨0, by simp [Arr.size]⟩
  rw [Normal.covAt, zero_mul, zero_add, Arr.flat, hc] at this
  rw [show N.cov.get [] = N.cov.get (unravel [] 0) from rfl, this]
  show 0 < ((2 : ℝ) • (1 : Matrix (Fin 1) (Fin 1) ℝ) * ((2 : ℝ) • (1 : Matrix (Fin 1) (Fin 1) ℝ)).transpose) 0 0
  simp [Matrix.mul_apply]

/-- A constant scalar and a constant vector: the hypotheses of the theorems on degenerate variables hold. -/
example : (∃ N : Normal, N.WF ∧ N.mean.shape = [] ∧ N.cov.get [] = 0) ∧
    ∃ N : Normal, N.WF ∧ N.mean.shape = [2] ∧ 0 < N.mean.size ∧ N.covMat.PosSemidef ∧ N.covMat.det = 0 := by
  refine ⟨⟨⟨⟨[], fun _ => 1⟩, ⟨[], fun _ => 0⟩, none⟩, ?_, rfl, rfl⟩, ?_⟩
  · exact mkNormal_eq (by simp [Arr.ndim]) rfl
  · refine ⟨⟨⟨[2], fun _ => 1⟩, ⟨[2, 2], fun _ => 0⟩, none⟩, mkNormal_eq (by simp [Arr.ndim]) rfl, rfl, by simp [Arr.size], ?_, ?_⟩
    · exact Matrix.PosSemidef.zero
    · have : Nonempty (Fin (Arr.size ⟨[2], fun _ => 1⟩)) := ⟨⟨0, by simp [Arr.size]⟩⟩
      exact Matrix.det_zero

/-! ## Moments -/

/-- Mean, covariance, variance and standard deviation are those of the distribution, in double precision or more. -/
theorem moments (hN : N.WF) (hX : Law P X N) (hd : d = .f64 ∨ d = .longdouble) :
    ∃ m C v s, N.meanProp d = .ok m ∧ N.covProp d = .ok C ∧ N.varProp d = .ok v ∧ N.stdProp d = .ok s ∧
      m.shape = N.mean.shape ∧ v.shape = N.mean.shape ∧ s.shape = N.mean.shape ∧
      C.shape = (if N.mean.shape = [] then [] else [N.mean.size, N.mean.size]) ∧
      ∀ i : Fin N.mean.size, ∫ ω, (X ω).flat i ∂P = m.flat i ∧ Var[fun ω => (X ω).flat i; P] = v.flat i ∧
        √(Var[fun ω => (X ω).flat i; P]) = s.flat i ∧
        ∀ j : Fin N.mean.size, cov[fun ω => (X ω).flat i, fun ω => (X ω).flat j; P] = C.flat (i * N.mean.size + j) := by
  obtain ⟨v, h1, h2, h3⟩ := Normal.varProp_ok hN hd
  obtain ⟨s, h4, h5, h6⟩ := Normal.stdProp_ok hN hd
  refine ⟨_, _, v, s, Normal.meanProp_ok hd, Normal.covProp_ok hN hd, h1, h4, rfl, h2, h5, hN.cov, fun i => ?_⟩
  have hg := hX.normal.gaussian.eval (X := fun i ω => entries X N.mean.size ω i) i
  have hv : Var[fun ω => (X ω).flat i; P] = N.covAt i i := by
    have := hX.normal.cov i i
    rw [covariance_self hg.aemeasurable] at this
    exact this
  exact ⟨hX.normal.mean i, by rw [hv, h3 i i.2], by rw [hv, h6 i i.2], fun j => hX.normal.cov i j⟩

/-- In single or half precision everything except the mode raises ValueError: the moments are computed in the precision of the
parameters but required to be double precision. -/
theorem low_precision (hd : d = .f16 ∨ d = .f32) (size : List ℕ) (raw : ℕ → ℝ) (x : Arr) (p : ℝ) :
    N.modeProp d = .ok N.mean ∧ N.meanProp d = .error .valueError ∧ N.covProp d = .error .valueError ∧
    N.varProp d = .error .valueError ∧ N.stdProp d = .error .valueError ∧ N.sample d size raw = .error .valueError ∧
    N.pdf d x = .error .valueError ∧ N.logpdf d x = .error .valueError ∧ N.entropy d = .error .valueError ∧
    (N.mean.shape = [] → N.medianProp d = .error .valueError ∧ N.quantile d p = .error .valueError ∧
      N.cdf d x = .error .valueError ∧ N.logcdf d x = .error .valueError) := by
  have hm : d ≠ d.moment := by rcases hd with rfl | rfl <;> decide
  have h1 : N.meanProp d = .error .valueError := by rw [Normal.meanProp, checkProperty_dtype hm]; rfl
  have h2 : N.covProp d = .error .valueError := by rw [Normal.covProp, checkProperty_dtype hm]; rfl
  have h3 : N.varProp d = .error .valueError := by
    unfold Normal.varProp
    rw [checkProperty_dtype hm, h2]
    split_ifs <;> rfl
  have h4 : N.stdProp d = .error .valueError := by rw [Normal.stdProp, h3]; rfl
  have h5 := Normal.locScale_fail (N := N) hm
  refine ⟨?_, h1, h2, h3, h4, ?_, ?_, ?_, ?_, fun hs => ⟨?_, ?_, ?_, ?_⟩⟩
  · rw [Normal.modeProp, checkProperty_self rfl]; rfl
  · unfold Normal.sample Normal.univariateSample Normal.denseSample
    rw [h5, h1]
    split_ifs <;> rfl
  · unfold Normal.pdf Normal.pointwise Normal.densePointwise
    rw [h5, h1]
    split_ifs <;> rfl
  · unfold Normal.logpdf Normal.pointwise Normal.densePointwise
    rw [h5, h1]
    split_ifs <;> rfl
  · unfold Normal.entropy
    rw [h5, h1]
    split_ifs <;> rfl
  · rw [Normal.medianProp, if_neg (by simpa using hs), checkProperty_dtype hm]; rfl
  · rw [Normal.quantile, if_neg (by simpa using hs), h5]; rfl
  · rw [Normal.cdf, Normal.pointwise, h5]; rfl
  · rw [Normal.logcdf, Normal.pointwise, h5]; rfl

/-! ## Scalar variables -/

/-- Density and distribution function of a scalar variable with positive variance: every entry of the argument is evaluated, and the
values are the density and distribution function of the distribution of `X` (and their logarithms). -/
theorem scalar_functions (hN : N.WF) (hX : Law P X N) (hs : N.mean.shape = []) (hv : 0 < N.cov.get [])
    (hd : d = .f64 ∨ d = .longdouble) (x : Arr) :
    ∃ f : ℝ → ℝ, P.map (fun ω => (X ω).get []) = volume.withDensity (fun t => ENNReal.ofReal (f t)) ∧
      N.pdf d x = .ok ⟨x.shape, fun k => some (f (x.flat k))⟩ ∧
      N.logpdf d x = .ok ⟨x.shape, fun k => some (Real.log (f (x.flat k)))⟩ ∧
      N.cdf d x = .ok ⟨x.shape, fun k => some (P.real {ω | (X ω).get [] ≤ x.flat k})⟩ ∧
      N.logcdf d x = .ok ⟨x.shape, fun k => some (Real.log (P.real {ω | (X ω).get [] ≤ x.flat k}))⟩ := by
  have hlaw := law_scalar hX hN hs
  have hσ : 0 < √(N.cov.get []) := Real.sqrt_pos.2 hv
  have hsq : √(N.cov.get []) ^ 2 = N.cov.get [] := Real.sq_sqrt hv.le
  have hnn : (N.cov.get []).toNNReal ≠ 0 := by rwa [ne_eq, Real.toNNReal_eq_zero, not_le]
  have hX' : AEMeasurable (fun ω => (X ω).get []) P := by
    refine AEMeasurable.of_map_ne_zero ?_
    rw [hlaw]
    exact IsProbabilityMeasure.ne_zero _
  have hcdf : ∀ t, normCdf (N.mean.get []) √(N.cov.get []) t = some (P.real {ω | (X ω).get [] ≤ t}) := fun t => by
    rw [normCdf, if_pos hσ, cdf_gaussian _ hσ, hsq, cdf_eq_real, ← hlaw]
    rw [measureReal_def, Measure.map_apply_of_aemeasurable hX' measurableSet_Iic]
    rfl
  refine ⟨gaussianPDFReal (N.mean.get []) (N.cov.get []).toNNReal, ?_, ?_, ?_, ?_, ?_⟩
  · rw [hlaw, gaussianReal_of_var_ne_zero _ hnn]
    rfl
  · rw [Normal.pdf, if_pos hs, Normal.pointwise_ok hN hs hd]
    simp only [normPdf_eq _ hσ, hsq]
  · rw [Normal.logpdf, if_pos hs, Normal.pointwise_ok hN hs hd]
    simp only [normLogpdf_eq _ hσ, hsq]
  · rw [Normal.cdf, Normal.pointwise_ok hN hs hd]
    simp only [hcdf]
  · rw [Normal.logcdf, Normal.pointwise_ok hN hs hd]
    have : ∀ t, normLogcdf (N.mean.get []) √(N.cov.get []) t = some (Real.log (P.real {ω | (X ω).get [] ≤ t})) := fun t => by
      have := hcdf t
      rw [normCdf, if_pos hσ] at this
      rw [normLogcdf, if_pos hσ, Option.some.inj this]
    simp only [this]

/-- A scalar variable with variance zero: every value of the density and of the distribution function is `nan`, as are quantiles and
entropy, although the distribution function of the constant exists. -/
theorem scalar_degenerate (hN : N.WF) (hs : N.mean.shape = []) (hv : N.cov.get [] = 0) (x : Arr) (p : ℝ) :
    N.pdf .f64 x = .ok ⟨x.shape, fun _ => none⟩ ∧ N.cdf .f64 x = .ok ⟨x.shape, fun _ => none⟩ ∧
    N.quantile .f64 p = .ok none ∧ N.entropy .f64 = .ok none ∧
    (Law P X N → ∀ᵐ ω ∂P, (X ω).get [] = N.mean.get []) := by
  have hl := Normal.locScale_ok hN hs (Or.inl (rfl : Dtype.f64 = .f64))
  rw [hv, Real.sqrt_zero] at hl
  refine ⟨?_, ?_, ?_, ?_, fun hX => ?_⟩
  · rw [Normal.pdf, if_pos hs, Normal.pointwise, hl]
    simp only [Except.map, normPdf, lt_irrefl, if_false]
  · rw [Normal.cdf, Normal.pointwise, hl]
    simp only [Except.map, normCdf, lt_irrefl, if_false]
  · rw [Normal.quantile, if_neg (by simpa using hs), hl]
    simp [Except.bind, normPpf]
  · rw [Normal.entropy, if_pos hs, hl]
    simp [Except.map, normEntropy]
  · have hlaw := law_scalar hX hN hs
    rw [hv, Real.toNNReal_zero, gaussianReal_zero_var] at hlaw
    have hX' : AEMeasurable (fun ω => (X ω).get []) P := by
      refine AEMeasurable.of_map_ne_zero ?_
      rw [hlaw]
      exact IsProbabilityMeasure.ne_zero _
    have : ∀ᵐ t ∂(Measure.dirac (N.mean.get [])), t = N.mean.get [] := by
      rw [ae_dirac_eq]
      rfl
    rw [← hlaw] at this
    exact ae_of_ae_map hX' this

/-- Quantiles of a scalar variable with positive variance: for `0 < p < 1` the reported number `q` satisfies `P(X ≤ q) = p` and is
the smallest number with `P(X ≤ q) ≥ p`. -/
theorem quantile_spec (hN : N.WF) (hX : Law P X N) (hs : N.mean.shape = []) (hv : 0 < N.cov.get []) {p : ℝ} (h0 : 0 < p)
    (h1 : p < 1) :
    ∃ q : ℝ, N.quantile .f64 p = .ok (some (q : EReal)) ∧ P.real {ω | (X ω).get [] ≤ q} = p ∧
      ∀ t, p ≤ P.real {ω | (X ω).get [] ≤ t} ↔ q ≤ t := by
  have hσ : 0 < √(N.cov.get []) := Real.sqrt_pos.2 hv
  have key : ∀ t, P.real {ω | (X ω).get [] ≤ t} = ndtr ((t - N.mean.get []) / √(N.cov.get [])) := fun t => by
    obtain ⟨f, _, _, _, h, _⟩ := scalar_functions hN hX hs hv (Or.inl (rfl : Dtype.f64 = .f64)) ⟨[], fun _ => t⟩
    rw [Normal.cdf, Normal.pointwise, Normal.locScale_ok hN hs (Or.inl rfl)] at h
    have := congrFun (congrArg FArr.flat (Except.ok.inj h)) 0
    simp only [normCdf, if_pos hσ] at this
    exact (Option.some.inj this).symm
  refine ⟨N.mean.get [] + √(N.cov.get []) * ndtri p, ?_, ?_, fun t => ?_⟩
  · rw [Normal.quantile_ok hN hs, normPpf, if_pos hσ, if_pos ⟨h0, h1⟩]
  · rw [key, add_sub_cancel_left, mul_div_cancel_left₀ _ hσ.ne', ndtr_ndtri h0 h1]
  · rw [key]
    conv_lhs => rw [← ndtr_ndtri h0 h1]
    rw [ndtr_strictMono.le_iff_le, le_div_iff₀ hσ]
    constructor <;> intro h <;> linarith

/-- The reported median of a scalar variable is its mean, and it is the quantile of one half; quantiles at 0 and 1 are infinite and
outside `[0, 1]` they are `nan`; variables with several entries have no quantiles; extended precision is refused. -/
theorem median_quantile (hN : N.WF) :
    (N.mean.shape = [] → 0 < N.cov.get [] →
      N.medianProp .f64 = .ok N.mean ∧ N.quantile .f64 (1 / 2) = .ok (some ((N.mean.get [] : ℝ) : EReal)) ∧
      N.quantile .f64 0 = .ok (some ⊥) ∧ N.quantile .f64 1 = .ok (some ⊤) ∧
      (∀ p, p < 0 ∨ 1 < p → N.quantile .f64 p = .ok none) ∧ ∀ p, N.quantile .longdouble p = .error .valueError) ∧
    (N.mean.shape ≠ [] → ∀ d p, N.medianProp d = .error .notImplementedError ∧ N.quantile d p = .error .notImplementedError) := by
  refine ⟨fun hs hv => ?_, fun hs d p => ⟨if_pos hs, if_pos hs⟩⟩
  have hσ : 0 < √(N.cov.get []) := Real.sqrt_pos.2 hv
  have hq := Normal.quantile_ok hN hs
  refine ⟨?_, ?_, ?_, ?_, fun p hp => ?_, fun p => ?_⟩
  · rw [Normal.medianProp, if_neg (by simpa using hs), checkProperty_self (Dtype.moment_self (.inl rfl))]
    rfl
  · rw [hq, normPpf, if_pos hσ, if_pos (by norm_num)]
    have : ndtri (1 / 2) = 0 :=
      ndtr_strictMono.injective ((ndtr_ndtri (by norm_num) (by norm_num)).trans ndtr_zero.symm)
    rw [this, MulZeroClass.mul_zero, add_zero]
  · rw [hq, normPpf, if_pos hσ, if_neg (by simp), if_pos rfl]
  · rw [hq, normPpf, if_pos hσ, if_neg (by simp), if_neg (by norm_num), if_pos rfl]
  · rw [hq, normPpf, if_pos hσ, if_neg, if_neg, if_neg]
    · rintro rfl
      norm_num at hp
    · rintro rfl
      norm_num at hp
    · rintro ⟨a, b⟩
      rcases hp with h | h <;> linarith
  · rw [Normal.quantile, if_neg (by simpa using hs), Normal.locScale_ok hN hs (Or.inr rfl)]
    rfl

/-! ## Variables with one or two axes -/

/-- Density of a variable with axes and positive definite covariance, for a batch of points of the variable's shape: one value per
point, in order, and the values are those of the density of the distribution of `X`. -/
theorem dense_density (hN : N.WF) (hX : Law P X N) (hs : N.mean.shape ≠ []) (hn : 0 < N.mean.size) (hC : N.covMat.PosDef)
    (hd : d = .f64 ∨ d = .longdouble) {x : Arr} {batch : List ℕ} (hx : x.shape = batch ++ N.mean.shape) (h0 : 0 ∉ batch) :
    ∃ (f : (Fin N.mean.size → ℝ) → ℝ) (a b : FArr),
      P.map (entries X N.mean.size) = volume.withDensity (fun t => ENNReal.ofReal (f t)) ∧ (∀ t, 0 < f t) ∧ Continuous f ∧
      N.pdf d x = .ok a ∧ N.logpdf d x = .ok b ∧ a.shape = batch.filter (· ≠ 1) ∧ b.shape = batch.filter (· ≠ 1) ∧
      ∀ k < batch.prod, a.flat k = some (f fun i => x.flat (k * N.mean.size + i)) ∧
        b.flat k = some (Real.log (f fun i => x.flat (k * N.mean.size + i))) := by
  obtain ⟨pts, h1, h2, h3⟩ := mvnPoints_ok hs hn hx h0
  have hpsd : psdCheck N.covMat = .ok () := if_pos hC
  have hd1 : ∀ g, N.densePointwise g d x =
      .ok ⟨squeezeShape pts.1, fun k => some (g (mvnLogpdf N.meanVec N.covMat fun i => pts.2 k i))⟩ := fun g => by
    rw [Normal.densePointwise, Normal.meanProp_ok hd, Normal.covProp_ok hN hd, h1, hpsd]
    rfl
  refine ⟨normalPdf N.meanVec N.covMat, _, _, hX.normal.density hC, normalPdf_pos _ hC, normalPdf_continuous _ _,
    (if_neg hs).trans (hd1 Real.exp), (if_neg hs).trans (hd1 id), h2, h2, fun k hk => ?_⟩
  have e : (fun i : Fin N.mean.size => pts.2 k i) = fun i : Fin N.mean.size => x.flat (k * N.mean.size + i) := funext fun i => h3 k hk i i.2
  constructor
  · show some (Real.exp (mvnLogpdf N.meanVec N.covMat fun i => pts.2 k i)) = _
    rw [e, mvnLogpdf_eq _ hC, Real.exp_log (normalPdf_pos _ hC _)]
  · show some (mvnLogpdf N.meanVec N.covMat fun i => pts.2 k i) = _
    rw [e, mvnLogpdf_eq _ hC]

/-- The values have the shape of the batch exactly if no axis of the batch has length one. -/
theorem dense_shape (hN : N.WF) (hs : N.mean.shape ≠ []) (hn : 0 < N.mean.size) (hC : N.covMat.PosDef)
    (hd : d = .f64 ∨ d = .longdouble) {x : Arr} {batch : List ℕ} (hx : x.shape = batch ++ N.mean.shape) (h0 : 0 ∉ batch) :
    ∃ a, N.pdf d x = .ok a ∧ (a.shape = batch ↔ 1 ∉ batch) := by
  obtain ⟨pts, h1, h2, _⟩ := mvnPoints_ok hs hn hx h0
  have hpsd : psdCheck N.covMat = .ok () := if_pos hC
  refine ⟨⟨squeezeShape pts.1, fun k => some (Real.exp (mvnLogpdf N.meanVec N.covMat fun i => pts.2 k i))⟩, ?_, ?_⟩
  · rw [Normal.pdf, if_neg hs, Normal.densePointwise, Normal.meanProp_ok hd, Normal.covProp_ok hN hd, h1, hpsd]
    rfl
  · show squeezeShape pts.1 = batch ↔ _
    rw [h2, squeezeShape, List.filter_eq_self]
    constructor
    · intro h hc
      exact absurd (h 1 hc) (by simp)
    · intro h a ha
      simp only [decide_eq_true_eq]
      rintro rfl
      exact h ha

/-- A singular covariance: the density and the entropy raise LinAlgError. -/
theorem dense_singular (hN : N.WF) (hs : N.mean.shape ≠ []) (hn : 0 < N.mean.size) (hC : N.covMat.PosSemidef)
    (hdet : N.covMat.det = 0) (hd : d = .f64 ∨ d = .longdouble) {x : Arr} {batch : List ℕ}
    (hx : x.shape = batch ++ N.mean.shape) (h0 : 0 ∉ batch) :
    N.pdf d x = .error .linAlgError ∧ N.logpdf d x = .error .linAlgError ∧ N.entropy d = .error .linAlgError := by
  obtain ⟨pts, h1, _, _⟩ := mvnPoints_ok hs hn hx h0
  have hpsd : psdCheck N.covMat = .error .linAlgError := by
    rw [psdCheck, if_neg (fun h => h.det_pos.ne' hdet), if_pos hC]
  refine ⟨?_, ?_, ?_⟩
  · rw [Normal.pdf, if_neg hs, Normal.densePointwise, Normal.meanProp_ok hd, Normal.covProp_ok hN hd, h1, hpsd]
    rfl
  · rw [Normal.logpdf, if_neg hs, Normal.densePointwise, Normal.meanProp_ok hd, Normal.covProp_ok hN hd, h1, hpsd]
    rfl
  · rw [Normal.entropy, if_neg hs, Normal.meanProp_ok hd, Normal.covProp_ok hN hd, hpsd]
    rfl

/-- A vector with one entry is accepted by the density of a vector with several entries: it stands for the constant vector. -/
theorem dense_broadcast (hN : N.WF) {n : ℕ} (hs : N.mean.shape = [n]) (hn : 2 ≤ n) (hC : N.covMat.PosDef) (c : ℝ) :
    ∃ a, N.pdf .f64 ⟨[1], fun _ => c⟩ = .ok a ∧ N.pdf .f64 ⟨[n], fun _ => c⟩ = .ok a := by
  have hz : N.mean.size = n := by rw [Arr.size, hs]; simp
  have hne : N.mean.shape ≠ [] := by rw [hs]; simp
  have hpsd : psdCheck N.covMat = .ok () := if_pos hC
  have h1 : mvnPoints N ⟨[1], fun _ => c⟩ = .ok ([1], fun _ _ => c) := by
    unfold mvnPoints
    have hr := reshape_last (x := ⟨[1], fun _ => c⟩) (batch := []) (shape := [1]) rfl (by simp)
    dsimp only [Arr.ndim]
    rw [hs]
    rw [show (List.take ([1].length - [n].length) [1] : List ℕ) = [] by simp]
    rw [List.map_nil, List.nil_append] at hr
    rw [List.map_nil, List.nil_append, hr]
    dsimp only [Except.bind]
    rw [if_pos rfl, hz, if_neg (by omega), if_neg (by simp [Arr.withShape]; omega), if_pos (by simp [Arr.withShape])]
    rfl
  have h2 : mvnPoints N ⟨[n], fun _ => c⟩ = .ok ([1], fun _ _ => c) := by
    unfold mvnPoints
    have hr := reshape_last (x := ⟨[n], fun _ => c⟩) (batch := []) (shape := [n]) rfl (by simp)
    dsimp only [Arr.ndim]
    rw [hs]
    rw [show (List.take ([n].length - [n].length) [n] : List ℕ) = [] by simp]
    rw [List.map_nil, List.nil_append] at hr
    rw [List.map_nil, List.nil_append, hr]
    dsimp only [Except.bind]
    rw [if_pos rfl, hz, if_neg (by omega), if_pos (by simp [Arr.withShape])]
    rfl
  have hp : ∀ x, mvnPoints N x = .ok ([1], fun _ _ => c) →
      N.pdf .f64 x = .ok ⟨[], fun _ => some (Real.exp (mvnLogpdf N.meanVec N.covMat fun _ => c))⟩ := fun x hx => by
    rw [Normal.pdf, if_neg hne, Normal.densePointwise, Normal.meanProp_ok (.inl rfl), Normal.covProp_ok hN (.inl rfl), hx, hpsd]
    rfl
  exact ⟨_, hp _ h1, hp _ h2⟩

/-! ## Mode and entropy -/

/-- The density is nowhere larger than at the reported mode. -/
theorem mode_maximal (hN : N.WF) (hd : d = .f64 ∨ d = .longdouble)
    (hC : if N.mean.shape = [] then 0 < N.cov.get [] else 0 < N.mean.size ∧ N.covMat.PosDef) {x : Arr}
    (hx : x.shape = N.mean.shape) :
    ∃ m a b p q, N.modeProp d = .ok m ∧ N.pdf d m = .ok a ∧ N.pdf d x = .ok b ∧ a.flat 0 = some p ∧ b.flat 0 = some q ∧ q ≤ p := by
  have hm : N.modeProp d = .ok N.mean := by rw [Normal.modeProp, checkProperty_self rfl]; rfl
  by_cases hs : N.mean.shape = []
  · rw [if_pos hs] at hC
    have hσ : 0 < √(N.cov.get []) := Real.sqrt_pos.2 hC
    have hp : ∀ y : Arr, N.pdf d y = .ok ⟨y.shape, fun k =>
        some (Real.exp (-((y.flat k - N.mean.get []) / √(N.cov.get [])) ^ 2 / 2) / √(2 * Real.pi) / √(N.cov.get []))⟩ := fun y => by
      rw [Normal.pdf, if_pos hs, Normal.pointwise_ok hN hs hd]
      simp only [normPdf, if_pos hσ]
    refine ⟨_, _, _, _, _, hm, hp _, hp _, rfl, rfl, ?_⟩
    have : N.mean.flat 0 = N.mean.get [] := by rw [Arr.flat, hs]; rfl
    rw [this, sub_self, zero_div]
    have h2 : -((x.flat 0 - N.mean.get []) / √(N.cov.get [])) ^ 2 / 2 ≤ -0 ^ 2 / 2 := by
      have := sq_nonneg ((x.flat 0 - N.mean.get []) / √(N.cov.get []))
      norm_num
      linarith
    gcongr
  · rw [if_neg hs] at hC
    have key : ∀ y : Arr, y.shape = N.mean.shape → ∃ a, N.pdf d y = .ok a ∧
        a.flat 0 = some (Real.exp (mvnLogpdf N.meanVec N.covMat fun i => y.flat i)) := fun y hy => by
      obtain ⟨pts, h1, _, h3⟩ := mvnPoints_ok (batch := []) hs hC.1 (by rw [hy]; rfl) (by simp)
      have hpsd : psdCheck N.covMat = .ok () := if_pos hC.2
      refine ⟨⟨squeezeShape pts.1, fun k => some (Real.exp (mvnLogpdf N.meanVec N.covMat fun i => pts.2 k i))⟩, ?_, ?_⟩
      · rw [Normal.pdf, if_neg hs, Normal.densePointwise, Normal.meanProp_ok hd, Normal.covProp_ok hN hd, h1, hpsd]
        rfl
      · have e : (fun i : Fin N.mean.size => pts.2 0 i) = fun i : Fin N.mean.size => y.flat i := funext fun i => by
          rw [h3 0 (by simp) i i.2, zero_mul, zero_add]
        show some (Real.exp (mvnLogpdf N.meanVec N.covMat fun i => pts.2 0 i)) = _
        rw [e]
    obtain ⟨a, a1, a2⟩ := key N.mean rfl
    obtain ⟨b, b1, b2⟩ := key x hx
    refine ⟨_, a, b, _, _, hm, a1, b1, a2, b2, Real.exp_le_exp.2 ?_⟩
    have h0 : (fun i : Fin N.mean.size => N.mean.flat i) - N.meanVec = 0 := sub_self _
    unfold mvnLogpdf
    rw [h0, zero_dotProduct]
    have hpos := hC.2.inv.posSemidef.dotProduct_mulVec_nonneg ((fun i : Fin N.mean.size => x.flat i) - N.meanVec)
    rw [star_trivial] at hpos
    linarith

/-- The entropy is minus the integral of the density times its logarithm. -/
theorem entropy_spec (hN : N.WF) (hX : Law P X N) (hd : d = .f64 ∨ d = .longdouble) :
    (N.mean.shape = [] → 0 < N.cov.get [] → ∃ f : ℝ → ℝ,
      P.map (fun ω => (X ω).get []) = volume.withDensity (fun t => ENNReal.ofReal (f t)) ∧ (∀ t, 0 < f t) ∧
      N.entropy d = .ok (some (-∫ t, f t * Real.log (f t)))) ∧
    (N.mean.shape ≠ [] → N.covMat.PosDef → ∃ f : (Fin N.mean.size → ℝ) → ℝ,
      P.map (entries X N.mean.size) = volume.withDensity (fun t => ENNReal.ofReal (f t)) ∧ (∀ t, 0 < f t) ∧
      N.entropy d = .ok (some (-∫ t, f t * Real.log (f t)))) := by
  constructor
  · intro hs hv
    have hσ : 0 < √(N.cov.get []) := Real.sqrt_pos.2 hv
    have hsq : √(N.cov.get []) ^ 2 = N.cov.get [] := Real.sq_sqrt hv.le
    have hnn : (N.cov.get []).toNNReal ≠ 0 := by rwa [ne_eq, Real.toNNReal_eq_zero, not_le]
    refine ⟨gaussianPDFReal (N.mean.get []) (N.cov.get []).toNNReal, ?_, fun t => gaussianPDFReal_pos _ _ _ hnn, ?_⟩
    · rw [law_scalar hX hN hs, gaussianReal_of_var_ne_zero _ hnn]
      rfl
    · rw [Normal.entropy, if_pos hs, Normal.locScale_ok hN hs hd]
      show Except.ok (normEntropy √(N.cov.get [])) = _
      have := entropy_real (N.mean.get []) hσ
      rw [hsq] at this
      rw [normEntropy, if_pos hσ, this, neg_neg]
  · intro hs hC
    refine ⟨normalPdf N.meanVec N.covMat, hX.normal.density hC, normalPdf_pos _ hC, ?_⟩
    have hpsd : psdCheck N.covMat = .ok () := if_pos hC
    rw [Normal.entropy, if_neg hs, Normal.meanProp_ok hd, Normal.covProp_ok hN hd, hpsd]
    show Except.ok (some _) = _
    rw [entropy_integral _ hC, neg_neg, Matrix.det_smul, Fintype.card_fin, Real.log_mul (by positivity) hC.det_pos.ne',
      Real.log_pow, Real.log_mul (by positivity) (Real.exp_pos _).ne', Real.log_exp]

/-! ## Samples -/

/-- Samples of a scalar variable have the requested shape; made from independent standard normal numbers they are independent and
distributed as the object says. -/
theorem scalar_sample (hN : N.WF) (hs : N.mean.shape = []) (hv : 0 ≤ N.cov.get []) (hd : d = .f64 ∨ d = .longdouble)
    (size : List ℕ) {z : ℕ → Ω → ℝ} (hz : ∀ k, HasLaw (z k) (gaussianReal 0 1) P) (hi : iIndepFun z P) :
    ∃ y : ℕ → Ω → ℝ, (∀ ω, N.sample d size (fun k => z k ω) = .ok ⟨size, fun k => some (y k ω)⟩) ∧ iIndepFun y P ∧
      ∀ k, P.map (y k) = gaussianReal (N.mean.get []) (N.cov.get []).toNNReal := by
  have hsq : √(N.cov.get []) ^ 2 = N.cov.get [] := Real.sq_sqrt hv
  refine ⟨fun k ω => N.mean.get [] + √(N.cov.get []) * z k ω, fun ω => ?_, ?_, fun k => ?_⟩
  · rw [Normal.sample, if_pos hs, Normal.univariateSample, Normal.locScale_ok hN hs hd]
    dsimp only [Except.bind]
    rw [if_neg (not_lt.2 hv)]
  · exact hi.comp (fun _ t => N.mean.get [] + √(N.cov.get []) * t) fun _ => by fun_prop
  · have h1 := gaussianReal_const_mul (hz k) √(N.cov.get [])
    have h2 := (gaussianReal_const_add h1 (N.mean.get [])).map_eq
    rw [h2, MulZeroClass.mul_zero, zero_add, mul_one]
    congr 1
    refine NNReal.eq ?_
    rw [Real.coe_toNNReal _ hv]
    exact hsq

example : ∃ (Ω : Type) (_ : MeasurableSpace Ω) (P : Measure Ω) (z : ℕ → Ω → ℝ),
    (∀ k, HasLaw (z k) (gaussianReal 0 1) P) ∧ iIndepFun z P := by
  obtain ⟨Ω, mΩ, P, z, _, h1, h2, _⟩ := exists_iid ℕ (gaussianReal 0 1)
  exact ⟨Ω, mΩ, P, z, h1, h2⟩

/-- Samples of a variable with at least two entries: `raw` holds the independent draws one after the other.  They are returned in
order, with the shape of the variable behind the requested shape, except that axes of length one of the requested shape are lost. -/
theorem dense_sample (hN : N.WF) (hs : N.mean.shape ≠ []) (hn : N.mean.size ≠ 1) (hd : d = .f64 ∨ d = .longdouble) (size : List ℕ)
    (raw : ℕ → ℝ) :
    N.sample d size raw = .ok ⟨size.filter (· ≠ 1) ++ N.mean.shape, fun k => some (raw k)⟩ ∧
    (size.filter (· ≠ 1) ++ N.mean.shape = size ++ N.mean.shape ↔ 1 ∉ size) := by
  constructor
  · rw [Normal.sample, if_neg hs, Normal.denseSample, Normal.meanProp_ok hd, Normal.covProp_ok hN hd]
    dsimp only [Except.bind]
    have h1 : squeezeShape (size ++ [N.mean.size]) = size.filter (· ≠ 1) ++ [N.mean.size] := by
      rw [squeezeShape, List.filter_append]
      simp [hn]
    rw [h1, List.dropLast_concat, if_pos]
    rw [List.prod_append, List.prod_append, List.prod_singleton]
    rfl
  · rw [List.append_left_inj, List.filter_eq_self]
    constructor
    · intro h hc
      exact absurd (h 1 hc) (by simp)
    · intro h a ha
      simp only [decide_eq_true_eq]
      rintro rfl
      exact h ha

/-- Samples of a vector or matrix with a single entry: one sample can be drawn, more raise ValueError. -/
theorem single_entry_sample (hN : N.WF) (hs : N.mean.shape ≠ []) (hn : N.mean.size = 1) (hd : d = .f64 ∨ d = .longdouble)
    (size : List ℕ) (raw : ℕ → ℝ) :
    ((∀ a ∈ size, a = 1) → N.sample d size raw = .ok ⟨N.mean.shape, fun k => some (raw k)⟩) ∧
    ((∃ a ∈ size, a ≠ 1) → 0 ∉ size → N.sample d size raw = .error .valueError) := by
  have h1 : squeezeShape (size ++ [N.mean.size]) = size.filter (· ≠ 1) := by
    rw [squeezeShape, List.filter_append]
    simp [hn]
  constructor
  · intro h
    rw [Normal.sample, if_neg hs, Normal.denseSample, Normal.meanProp_ok hd, Normal.covProp_ok hN hd]
    dsimp only [Except.bind]
    have h2 : size.filter (· ≠ 1) = [] := by
      rw [List.filter_eq_nil_iff]
      intro a ha
      simp [h a ha]
    rw [h1, h2, List.dropLast_nil, List.nil_append, if_pos]
    exact hn
  · rintro ⟨a, ha, ha1⟩ h0
    rw [Normal.sample, if_neg hs, Normal.denseSample, Normal.meanProp_ok hd, Normal.covProp_ok hN hd]
    dsimp only [Except.bind]
    have hne : size.filter (· ≠ 1) ≠ [] := by
      intro h
      have := List.filter_eq_nil_iff.1 h a ha
      simp [ha1] at this
    obtain ⟨l, c, hlc⟩ : ∃ l c, size.filter (· ≠ 1) = l ++ [c] :=
      ⟨_, _, (List.dropLast_append_getLast hne).symm⟩
    have hc : c ∈ size.filter (· ≠ 1) := by rw [hlc]; simp
    have hc1 : c ≠ 1 := by simpa using (List.mem_filter.1 hc).2
    rw [h1, hlc, List.dropLast_concat, if_neg]
    rw [List.prod_append, List.prod_append, List.prod_singleton, show N.mean.shape.prod = 1 from hn]
    intro h
    have hl : l.prod ≠ 0 := by
      rw [ne_eq, List.prod_eq_zero_iff]
      intro h
      refine h0 (List.mem_filter.1 (?_ : 0 ∈ size.filter (· ≠ 1))).1
      rw [hlc]
      simp [h]
    exact hc1 (Nat.eq_of_mul_eq_mul_left (Nat.pos_of_ne_zero hl) h).symm

/-! ## Symmetric Kronecker covariances -/

open Matrix in
/-- Samples of a matrix-variate variable with symmetric Kronecker covariance with factor `A`, made from independent standard normal
numbers with a factor `L` of `A' = L Lᵀ` (`A` plus a small multiple of the identity): they are symmetric about the mean and normal,
with `cov(X_ij, X_kl) = (A'_ik A'_jl + A'_il A'_jk) / 2`. -/
theorem symKron_sample {n k : ℕ} {mean L A' : Matrix (Fin n) (Fin n) ℝ} (hL : L * Lᵀ = A')
    {z : ℕ → Ω → Matrix (Fin n) (Fin n) ℝ} (hz : ∀ c, IsNormal P (fun ω (p : Fin n × Fin n) => z c ω p.1 p.2) 0 1) :
    ∃ y : ℕ → Ω → Matrix (Fin n) (Fin n) ℝ,
      (∀ ω, symKronSample mean L [k] (fun c => z c ω) = some (.ok ([k, n, n], fun c => y c ω))) ∧
      (∀ c ω, (y c ω - mean).IsSymm) ∧
      ∀ c, IsNormal P (fun ω (p : Fin n × Fin n) => y c ω p.1 p.2) (fun p => mean p.1 p.2)
        (Matrix.of fun p q => (A' p.1 q.1 * A' p.2 q.2 + A' p.1 q.2 * A' p.2 q.1) / 2) := by
  refine ⟨fun c ω => mean + (0.5 : ℝ) • (L * z c ω * Lᵀ + (L * z c ω * Lᵀ)ᵀ), fun ω => rfl, fun c ω => ?_, fun c => ?_⟩
  · rw [add_sub_cancel_left]
    show (_)ᵀ = _
    rw [transpose_smul, transpose_add, transpose_transpose, add_comm]
  · let M : Matrix (Fin n × Fin n) (Fin n × Fin n) ℝ :=
      Matrix.of fun p q => (L p.1 q.1 * L p.2 q.2 + L p.2 q.1 * L p.1 q.2) / 2
    have h := (hz c).affine M (fun p => mean p.1 p.2)
    have e1 : (fun ω => M *ᵥ (fun p : Fin n × Fin n => z c ω p.1 p.2) + fun p => mean p.1 p.2) =
        fun ω (p : Fin n × Fin n) => (mean + (0.5 : ℝ) • (L * z c ω * Lᵀ + (L * z c ω * Lᵀ)ᵀ)) p.1 p.2 := by
      funext ω p
      have hh : ∀ i j, (L * z c ω * Lᵀ) i j = ∑ a, ∑ b, L i a * L j b * z c ω a b := fun i j => by
        simp only [Matrix.mul_apply, Matrix.transpose_apply, Finset.sum_mul]
        rw [Finset.sum_comm]
        refine Finset.sum_congr rfl fun a _ => Finset.sum_congr rfl fun b _ => by ring
      simp only [Pi.add_apply, Matrix.add_apply, Matrix.smul_apply, Matrix.transpose_apply, smul_eq_mul, hh, mulVec, dotProduct,
        Fintype.sum_prod_type, M, Matrix.of_apply]
      rw [add_comm, ← Finset.sum_add_distrib, Finset.mul_sum]
      congr 1
      refine Finset.sum_congr rfl fun a _ => ?_
      rw [← Finset.sum_add_distrib, Finset.mul_sum]
      refine Finset.sum_congr rfl fun b _ => by ring
    have e2 : M *ᵥ 0 + (fun p : Fin n × Fin n => mean p.1 p.2) = fun p => mean p.1 p.2 := by rw [mulVec_zero, zero_add]
    have e3 : M * 1 * Mᵀ = Matrix.of fun p q => (A' p.1 q.1 * A' p.2 q.2 + A' p.1 q.2 * A' p.2 q.1) / 2 := by
      ext p q
      have hA : ∀ i j, A' i j = ∑ a, L i a * L j a := fun i j => by
        rw [← hL, Matrix.mul_apply]
        rfl
      have hprod : ∀ i j i' j', A' i j * A' i' j' = ∑ a, ∑ b, L i a * L j a * (L i' b * L j' b) := fun i j i' j' => by
        rw [hA, hA, Finset.sum_mul_sum]
      rw [mul_one, Matrix.mul_apply, Matrix.of_apply, hprod, hprod, Fintype.sum_prod_type]
      have sw : ∑ a, ∑ b, L p.1 a * L q.2 a * (L p.2 b * L q.1 b) = ∑ a, ∑ b, L p.2 a * L q.1 a * (L p.1 b * L q.2 b) := by
        rw [Finset.sum_comm]
        refine Finset.sum_congr rfl fun a _ => Finset.sum_congr rfl fun b _ => by ring
      have sw' : ∑ a, ∑ b, L p.1 a * L q.1 a * (L p.2 b * L q.2 b) = ∑ a, ∑ b, L p.2 a * L q.2 a * (L p.1 b * L q.1 b) := by
        rw [Finset.sum_comm]
        refine Finset.sum_congr rfl fun a _ => Finset.sum_congr rfl fun b _ => by ring
      have split : ∑ a, ∑ b, M p (a, b) * Mᵀ (a, b) q =
          (∑ a, ∑ b, L p.1 a * L q.1 a * (L p.2 b * L q.2 b) + ∑ a, ∑ b, L p.1 a * L q.2 a * (L p.2 b * L q.1 b) +
            ∑ a, ∑ b, L p.2 a * L q.1 a * (L p.1 b * L q.2 b) + ∑ a, ∑ b, L p.2 a * L q.2 a * (L p.1 b * L q.1 b)) / 4 := by
        simp only [← Finset.sum_add_distrib, Finset.sum_div]
        refine Finset.sum_congr rfl fun a _ => Finset.sum_congr rfl fun b _ => ?_
        simp only [M, Matrix.of_apply, Matrix.transpose_apply]
        ring
      rw [split, ← sw, ← sw']
      ring
    rw [e1, e2, e3] at h
    exact h

open Matrix in
example : ∃ (Ω : Type) (_ : MeasurableSpace Ω) (P : Measure Ω) (z : ℕ → Ω → Matrix (Fin 2) (Fin 2) ℝ)
    (L A' : Matrix (Fin 2) (Fin 2) ℝ), L * Lᵀ = A' ∧ A' 0 1 = 1 ∧
      ∀ c, IsNormal P (fun ω (p : Fin 2 × Fin 2) => z c ω p.1 p.2) 0 1 :=
  ⟨Fin 2 × Fin 2 → ℝ, _, _, fun _ ω => Matrix.of fun i j => ω (i, j), !![1, 0; 1, 1], _, rfl,
    by simp [Matrix.mul_apply, Fin.sum_univ_two], fun _ => std_isNormal (Fin 2 × Fin 2)⟩

/-- The covariance reported by such a variable, `cov(X_ij, X_kl) = A_ik A_jl`, is a different one: for the identity it declares the
entries `X_01` and `X_10` uncorrelated with variance 1; in the samples they are equal and have variance `(1 + ε)² / 2`. -/
theorem symKron_cov_differs (ε : ℝ) (hε : (1 + ε) ^ 2 ≠ 2) :
    let A : Matrix (Fin 2) (Fin 2) ℝ := 1
    let A' : Matrix (Fin 2) (Fin 2) ℝ := A + ε • 1
    symKronCov A (0, 1) (1, 0) = 0 ∧ symKronCov A (0, 1) (0, 1) = 1 ∧
    (A' 0 0 * A' 1 1 + A' 0 1 * A' 1 0) / 2 = (1 + ε) ^ 2 / 2 ∧ (1 + ε) ^ 2 / 2 ≠ symKronCov A (0, 1) (0, 1) := by
  refine ⟨by simp [symKronCov], by simp [symKronCov], by simp; ring, ?_⟩
  have : symKronCov (1 : Matrix (Fin 2) (Fin 2) ℝ) (0, 1) (0, 1) = 1 := by simp [symKronCov]
  rw [this]
  intro h
  exact hε (by linarith)

/-- Without a requested shape a batch with one matrix is returned; requested shapes with several axes raise ValueError. -/
theorem symKron_shapes {n : ℕ} (mean L : Matrix (Fin n) (Fin n) ℝ) (z : ℕ → Matrix (Fin n) (Fin n) ℝ) :
    (∃ y, symKronSample mean L [] z = some (.ok ([1, n, n], y))) ∧
    ∀ a b l, (a :: b :: l).dropLast.getLastD 0 ≠ n * n → symKronSample mean L (a :: b :: l) z = some (.error .valueError) :=
  ⟨⟨_, rfl⟩, fun _ _ _ h => if_neg h⟩

end Probnum.RandVars
