import Verif.RandVars.Dist
import Verif.RandVars.Lemmas
import Verif.RandVars.IndexLemmas
import Verif.Gauss.Density

/-! # Lemmas: the standard normal distribution function, and the entropy of normal distributions -/

namespace Probnum.RandVars

open MeasureTheory ProbabilityTheory Finset Gauss Filter Topology

/-! ## The distribution function -/

theorem noAtoms_std : NullSingletonClass (gaussianReal 0 1) := nullSingletonClass_gaussianReal one_ne_zero

theorem ndtr_eq (z : ℝ) : ndtr z = (gaussianReal 0 1).real (Set.Iic z) := cdf_eq_real _ _

theorem ndtr_continuous : Continuous ndtr := by
  have := noAtoms_std
  refine continuous_iff_continuousAt.2 fun x => ?_
  have hm : Monotone (cdf (gaussianReal 0 1)) := (cdf (gaussianReal 0 1)).mono
  have hr := (cdf (gaussianReal 0 1)).right_continuous x
  have hl : Function.leftLim (cdf (gaussianReal 0 1)) x = cdf (gaussianReal 0 1) x := by
    have h := (cdf (gaussianReal 0 1)).measure_singleton x
    rw [measure_cdf, measure_singleton] at h
    have := ENNReal.ofReal_eq_zero.1 h.symm
    exact le_antisymm (hm.leftLim_le le_rfl) (by linarith)
  have hleft : ContinuousWithinAt (cdf (gaussianReal 0 1)) (Set.Iio x) x := by
    have := hm.tendsto_leftLim x
    rw [hl] at this
    exact this
  exact continuousAt_iff_continuous_left'_right'.2 ⟨hleft, hr.mono Set.Ioi_subset_Ici_self⟩

theorem ndtr_strictMono : StrictMono ndtr := by
  intro a b hab
  have h1 : (gaussianReal 0 1) (Set.Ioc a b) ≠ 0 := by
    intro h
    have := gaussianReal_absolutelyContinuous' 0 (one_ne_zero) h
    rw [Real.volume_Ioc, ENNReal.ofReal_eq_zero] at this
    linarith
  have h2 : (gaussianReal 0 1) (Set.Ioc a b) = ENNReal.ofReal (ndtr b - ndtr a) := by
    have := (cdf (gaussianReal 0 1)).measure_Ioc a b
    rwa [measure_cdf] at this
  by_contra hc
  rw [h2] at h1
  exact h1 (ENNReal.ofReal_eq_zero.2 (by linarith [not_lt.1 hc]))

theorem exists_ndtr {p : ℝ} (h0 : 0 < p) (h1 : p < 1) : ∃ z, ndtr z = p := by
  have hb := (tendsto_cdf_atBot (gaussianReal 0 1)).eventually (gt_mem_nhds h0)
  have ht := (tendsto_cdf_atTop (gaussianReal 0 1)).eventually (lt_mem_nhds h1)
  obtain ⟨a, ha⟩ := hb.exists
  obtain ⟨b, hb⟩ := ht.exists
  have hab : a ≤ b := by
    by_contra hc
    have := ndtr_strictMono (not_le.1 hc)
    exact absurd (ha.trans hb) (not_lt.2 this.le)
  obtain ⟨z, -, hz⟩ := intermediate_value_Icc hab ndtr_continuous.continuousOn ⟨le_of_lt ha, le_of_lt hb⟩
  exact ⟨z, hz⟩

theorem ndtr_ndtri {p : ℝ} (h0 : 0 < p) (h1 : p < 1) : ndtr (ndtri p) = p := by
  obtain ⟨z, rfl⟩ := exists_ndtr h0 h1
  have : ndtri (ndtr z) = z := by
    unfold ndtri
    have : {x | ndtr z ≤ ndtr x} = Set.Ici z := by
      ext x
      exact ndtr_strictMono.le_iff_le
    rw [this, csInf_Ici]
  rw [this]

theorem ndtr_zero : ndtr 0 = 1 / 2 := by
  have := noAtoms_std
  have hneg : (gaussianReal 0 1).map (fun y => -y) = gaussianReal 0 1 := by
    rw [gaussianReal_map_neg, neg_zero]
  have h1 : (gaussianReal 0 1).real (Set.Iic 0) = (gaussianReal 0 1).real (Set.Ici 0) := by
    have e : (gaussianReal 0 1).real (Set.Iic 0) = ((gaussianReal 0 1).map (fun y => -y)).real (Set.Iic 0) := by rw [hneg]
    rw [e, map_measureReal_apply measurable_neg measurableSet_Iic]
    congr 1
    ext x
    simp
  have h2 : (gaussianReal 0 1).real (Set.Ici 0) = (gaussianReal 0 1).real (Set.Ioi 0) := by
    rw [measureReal_def, measureReal_def, measure_congr Ioi_ae_eq_Ici]
  have h3 : (gaussianReal 0 1).real (Set.Ioi 0) = 1 - (gaussianReal 0 1).real (Set.Iic 0) := by
    rw [← Set.compl_Iic, probReal_compl_eq_one_sub measurableSet_Iic]
  rw [ndtr_eq]
  linarith

/-- The distribution function of `N(m, s²)`. -/
theorem cdf_gaussian (m : ℝ) {s : ℝ} (hs : 0 < s) (x : ℝ) :
    ndtr ((x - m) / s) = cdf (gaussianReal m (s ^ 2).toNNReal) x := by
  have h : gaussianReal m (s ^ 2).toNNReal = (gaussianReal 0 1).map (fun y => m + s * y) := by
    have := gaussianReal_map_const_mul (μ := 0) (v := 1) s
    have hv : NNReal.mk (s ^ 2) (sq_nonneg s) = (s ^ 2).toNNReal := (Real.toNNReal_of_nonneg (sq_nonneg s)).symm
    rw [hv] at this
    have h2 := gaussianReal_map_const_add (μ := s * 0) (v := (s ^ 2).toNNReal * 1) m
    rw [← this, Measure.map_map (by fun_prop) (by fun_prop)] at h2
    rw [mul_zero, zero_add, mul_one] at h2
    exact h2.symm
  rw [ndtr_eq, cdf_eq_real, h, map_measureReal_apply (by fun_prop) measurableSet_Iic]
  congr 1
  ext y
  simp only [Set.mem_Iic, Set.mem_preimage]
  rw [le_div_iff₀ hs]
  constructor <;> intro h <;> linarith

/-! ## Densities -/

theorem normPdf_eq (m : ℝ) {s : ℝ} (hs : 0 < s) (x : ℝ) :
    normPdf m s x = some (gaussianPDFReal m (s ^ 2).toNNReal x) := by
  rw [normPdf, if_pos hs, gaussianPDFReal]
  congr 1
  have e : √(2 * Real.pi * s ^ 2) = √(2 * Real.pi) * s := by
    rw [Real.sqrt_mul (by positivity), Real.sqrt_sq hs.le]
  rw [Real.coe_toNNReal _ (sq_nonneg s), e]
  have : -((x - m) / s) ^ 2 / 2 = -(x - m) ^ 2 / (2 * s ^ 2) := by
    field_simp
  rw [this]
  field_simp

theorem normLogpdf_eq (m : ℝ) {s : ℝ} (hs : 0 < s) (x : ℝ) :
    normLogpdf m s x = some (Real.log (gaussianPDFReal m (s ^ 2).toNNReal x)) := by
  have h := normPdf_eq m hs x
  rw [normPdf, if_pos hs] at h
  rw [normLogpdf, if_pos hs, ← Option.some.inj h]
  congr 1
  have h1 : √(2 * Real.pi) ≠ 0 := by positivity
  rw [Real.log_div (by positivity) hs.ne', Real.log_div (Real.exp_pos _).ne' h1, Real.log_exp, Real.log_sqrt (by positivity)]

open Matrix in
theorem mvnLogpdf_eq {n : ℕ} (m : Fin n → ℝ) {C : Matrix (Fin n) (Fin n) ℝ} (hC : C.PosDef) (x : Fin n → ℝ) :
    mvnLogpdf m C x = Real.log (normalPdf m C x) := by
  have hd := hC.det_pos
  rw [mvnLogpdf, normalPdf, Real.log_mul (by positivity) (Real.exp_pos _).ne', Real.log_inv, Real.log_exp,
    Real.log_sqrt (by positivity), Real.log_mul (by positivity) hd.ne', Real.log_pow]
  ring

theorem normalPdf_pos {n : ℕ} (m : Fin n → ℝ) {C : Matrix (Fin n) (Fin n) ℝ} (hC : C.PosDef) (x : Fin n → ℝ) :
    0 < normalPdf m C x := by
  have hd := hC.det_pos
  unfold normalPdf
  positivity

theorem normalPdf_continuous {n : ℕ} (m : Fin n → ℝ) (C : Matrix (Fin n) (Fin n) ℝ) : Continuous (normalPdf m C) := by
  unfold normalPdf
  have h : Continuous fun x : Fin n → ℝ => x - m := by fun_prop
  exact continuous_const.mul (Real.continuous_exp.comp
    (((h.dotProduct (Continuous.matrix_mulVec continuous_const h)).neg).div_const 2))

/-- A random vector with the given distribution exists. -/
theorem exists_normal {n : ℕ} (m : Fin n → ℝ) {C : Matrix (Fin n) (Fin n) ℝ} (hC : C.PosDef) :
    ∃ (P : Measure (Fin n → ℝ)) (Y : (Fin n → ℝ) → Fin n → ℝ), IsNormal P Y m C := by
  obtain ⟨A, _, _, hA⟩ := Quad.exists_cholesky hC
  have hZ := (std_isNormal (Fin n)).affine A m
  rw [mul_one, Matrix.mulVec_zero, zero_add, hA] at hZ
  exact ⟨_, _, hZ⟩

open Matrix in
/-- The mean squared Mahalanobis distance is the dimension. -/
theorem mahalanobis_mean {Ω : Type*} {mΩ : MeasurableSpace Ω} {P : Measure Ω} {n : ℕ} {Y : Ω → Fin n → ℝ} {m : Fin n → ℝ}
    {C : Matrix (Fin n) (Fin n) ℝ} (h : IsNormal P Y m C) (hC : C.PosDef) :
    Integrable (fun ω => (Y ω - m) ⬝ᵥ C⁻¹ *ᵥ (Y ω - m)) P ∧ ∫ ω, (Y ω - m) ⬝ᵥ C⁻¹ *ᵥ (Y ω - m) ∂P = n := by
  have := h.isProbabilityMeasure
  have hmem : ∀ i, MemLp (fun ω => Y ω i - m i) 2 P := fun i => (memLp_coord h.gaussian i).sub (memLp_const _)
  have hint : ∀ i j, Integrable (fun ω => (Y ω i - m i) * (C⁻¹ i j * (Y ω j - m j))) P := fun i j => by
    have := ((hmem i).integrable_mul (hmem j)).const_mul (C⁻¹ i j)
    refine this.congr (Eventually.of_forall fun ω => ?_)
    simp only [Pi.mul_apply]
    ring
  have hexp : ∀ ω, (Y ω - m) ⬝ᵥ C⁻¹ *ᵥ (Y ω - m) = ∑ i, ∑ j, (Y ω i - m i) * (C⁻¹ i j * (Y ω j - m j)) := fun ω => by
    simp only [dotProduct, mulVec, Finset.mul_sum, Pi.sub_apply]
  simp only [hexp]
  refine ⟨integrable_finsetSum _ fun i _ => integrable_finsetSum _ fun j _ => hint i j, ?_⟩
  rw [integral_finsetSum _ fun i _ => integrable_finsetSum _ fun j _ => hint i j]
  have hterm : ∀ i j, ∫ ω, (Y ω i - m i) * (C⁻¹ i j * (Y ω j - m j)) ∂P = C⁻¹ i j * C j i := fun i j => by
    have hc := h.cov j i
    rw [covariance, h.mean, h.mean] at hc
    rw [← hc, ← integral_const_mul]
    refine integral_congr_ae (Eventually.of_forall fun ω => ?_)
    simp only
    ring
  have hs : ∀ i, ∫ ω, ∑ j, (Y ω i - m i) * (C⁻¹ i j * (Y ω j - m j)) ∂P = (C⁻¹ * C) i i := fun i => by
    rw [integral_finsetSum _ fun j _ => hint i j, Matrix.mul_apply]
    exact Finset.sum_congr rfl fun j _ => hterm i j
  simp only [hs]
  rw [Matrix.nonsing_inv_mul _ hC.det_pos.ne'.isUnit]
  simp

open Matrix in
/-- The entropy of a normal distribution. -/
theorem entropy_integral {n : ℕ} (m : Fin n → ℝ) {C : Matrix (Fin n) (Fin n) ℝ} (hC : C.PosDef) :
    ∫ x, normalPdf m C x * Real.log (normalPdf m C x) = -(0.5 * (n * (Real.log (2 * Real.pi) + 1) + Real.log C.det)) := by
  obtain ⟨P, Y, hY⟩ := exists_normal m hC
  have := hY.isProbabilityMeasure
  have hYm : AEMeasurable Y P := hY.gaussian.aemeasurable
  have hlaw := hY.density hC
  have hmeas : Measurable fun x => ENNReal.ofReal (normalPdf m C x) :=
    ENNReal.measurable_ofReal.comp (normalPdf_continuous m C).measurable
  have h1 : ∫ x, normalPdf m C x * Real.log (normalPdf m C x) = ∫ ω, Real.log (normalPdf m C (Y ω)) ∂P := by
    have hlog : Continuous fun x => Real.log (normalPdf m C x) :=
      (normalPdf_continuous m C).log fun x => (normalPdf_pos m hC x).ne'
    rw [← integral_map hYm hlog.aestronglyMeasurable, hlaw,
      integral_withDensity_eq_integral_toReal_smul hmeas (Eventually.of_forall fun x => ENNReal.ofReal_lt_top)]
    refine integral_congr_ae (Eventually.of_forall fun x => ?_)
    simp only [smul_eq_mul]
    rw [ENNReal.toReal_ofReal (normalPdf_pos m hC x).le]
  rw [h1]
  obtain ⟨i1, i2⟩ := mahalanobis_mean hY hC
  have h2 : ∀ ω, Real.log (normalPdf m C (Y ω)) =
      -0.5 * (n * Real.log (2 * Real.pi) + Real.log C.det) + -0.5 * ((Y ω - m) ⬝ᵥ C⁻¹ *ᵥ (Y ω - m)) := fun ω => by
    rw [← mvnLogpdf_eq m hC, mvnLogpdf]
    ring
  simp only [h2]
  rw [integral_add (integrable_const _) (i1.const_mul _), integral_const_mul (-0.5 : ℝ) fun ω => (Y ω - m) ⬝ᵥ C⁻¹ *ᵥ (Y ω - m), i2, integral_const]
  simp
  ring

/-- The entropy of a univariate normal distribution. -/
theorem entropy_real (m : ℝ) {s : ℝ} (hs : 0 < s) :
    ∫ x, gaussianPDFReal m (s ^ 2).toNNReal x * Real.log (gaussianPDFReal m (s ^ 2).toNNReal x) =
      -(0.5 * (Real.log (2 * Real.pi) + 1) + Real.log s) := by
  have hv : (s ^ 2).toNNReal ≠ 0 := by
    rw [ne_eq, Real.toNNReal_eq_zero, not_le]
    positivity
  have hint : Integrable (fun x => (x - m) ^ 2) (gaussianReal m (s ^ 2).toNNReal) :=
    ((memLp_id_gaussianReal' 2 (by simp)).sub (memLp_const m)).integrable_sq
  have hvar : ∫ x, (x - m) ^ 2 ∂gaussianReal m (s ^ 2).toNNReal = s ^ 2 := by
    have h := variance_fun_id_gaussianReal (μ := m) (v := (s ^ 2).toNNReal)
    rw [variance_eq_integral measurable_id'.aemeasurable, integral_id_gaussianReal, Real.coe_toNNReal _ (sq_nonneg s)] at h
    exact h
  have h1 := integral_gaussianReal_eq_integral_smul (μ := m) (f := fun x => Real.log (gaussianPDFReal m (s ^ 2).toNNReal x)) hv
  simp only [smul_eq_mul] at h1
  rw [← h1]
  have h2 : ∀ x, Real.log (gaussianPDFReal m (s ^ 2).toNNReal x) =
      (-(Real.log (2 * Real.pi) / 2) - Real.log s) + -(1 / (2 * s ^ 2)) * (x - m) ^ 2 := fun x => by
    have := normLogpdf_eq m hs x
    rw [normLogpdf, if_pos hs] at this
    rw [← Option.some.inj this]
    have hs' := hs.ne'
    field_simp
    ring
  simp only [h2]
  rw [integral_add (integrable_const _) (hint.const_mul _), integral_const_mul, hvar, integral_const]
  have hs' := hs.ne'
  simp
  field_simp
  ring

/-! ## The law of a scalar variable -/

theorem law_scalar {Ω : Type*} {mΩ : MeasurableSpace Ω} {P : Measure Ω} {X : Ω → Arr} {N : Normal} (hX : Law P X N)
    (hN : N.WF) (hs : N.mean.shape = []) :
    P.map (fun ω => (X ω).get []) = gaussianReal (N.mean.get []) (N.cov.get []).toNNReal := by
  have h1 : N.mean.size = 1 := by rw [Arr.size, hs]; rfl
  let i : Fin N.mean.size := ⟨0, by omega⟩
  have hg := hX.normal.gaussian.eval (X := fun i ω => entries X N.mean.size ω i) i
  have he : (fun ω => entries X N.mean.size ω i) = fun ω => (X ω).get [] := funext fun ω => by
    show (X ω).flat 0 = _
    rw [Arr.flat, hX.shape, hs]
    rfl
  have hmean := hX.normal.mean i
  have hcov := hX.normal.cov i i
  have hc : N.cov.shape = [] := by rw [hN.cov, hs]; rfl
  have hm : ∫ ω, entries X N.mean.size ω i ∂P = N.mean.get [] := by
    rw [hmean]
    show N.mean.flat 0 = _
    rw [Arr.flat, hs]
    rfl
  have hv : Var[fun ω => entries X N.mean.size ω i; P] = N.cov.get [] := by
    rw [← covariance_self hg.aemeasurable, hcov]
    show N.covAt 0 0 = _
    rw [Normal.covAt, zero_mul, zero_add, Arr.flat, hc]
    rfl
  have := hg.map_eq_gaussianReal
  rw [hm, hv, he] at this
  exact this

/-! ## The wrappers return -/

theorem checkProperty_self {s : List ℕ} {d d' : Dtype} (h : d = d') : checkProperty s s d d' = .ok () := by
  rw [checkProperty, if_neg (by simp), if_neg (by simpa using h)]

theorem checkProperty_dtype {s t : List ℕ} {d d' : Dtype} (h : d ≠ d') : checkProperty s t d d' = .error .valueError := by
  unfold checkProperty
  split_ifs <;> rfl

theorem Dtype.moment_self {d : Dtype} (hd : d = .f64 ∨ d = .longdouble) : d = d.moment := by
  rcases hd with rfl | rfl <;> rfl

theorem Normal.meanProp_ok {N : Normal} {d : Dtype} (hd : d = .f64 ∨ d = .longdouble) : N.meanProp d = .ok N.mean := by
  rw [Normal.meanProp, checkProperty_self (Dtype.moment_self hd)]
  rfl

theorem expectedCov_eq (a : Arr) : (if 0 < a.ndim then [a.size, a.size] else []) = expectedCov a.shape := by
  unfold expectedCov
  by_cases h : a.shape = []
  · rw [if_pos h, if_neg (by rw [Arr.ndim, h]; simp)]
  · rw [if_neg h, if_pos (by rw [Arr.ndim]; exact List.length_pos_iff.2 h)]
    rfl

theorem Normal.covProp_ok {N : Normal} (hN : N.WF) {d : Dtype} (hd : d = .f64 ∨ d = .longdouble) : N.covProp d = .ok N.cov := by
  rw [Normal.covProp, expectedCov_eq, hN.cov, checkProperty_self (Dtype.moment_self hd)]
  rfl

theorem Normal.varProp_ok {N : Normal} (hN : N.WF) {d : Dtype} (hd : d = .f64 ∨ d = .longdouble) :
    ∃ v, N.varProp d = .ok v ∧ v.shape = N.mean.shape ∧ ∀ i < N.mean.size, v.flat i = N.covAt i i := by
  by_cases hs : N.mean.shape = []
  · have hc : N.cov.shape = [] := by rw [hN.cov, hs]; rfl
    refine ⟨N.cov, ?_, hc.trans hs.symm, fun i hi => ?_⟩
    · rw [Normal.varProp, if_pos hs, hc, checkProperty_self (Dtype.moment_self hd)]
      rfl
    · rw [Arr.size, hs] at hi
      obtain rfl : i = 0 := by simpa using hi
      rw [Normal.covAt, zero_mul, zero_add]
  · have hc : N.cov.shape = [N.mean.size, N.mean.size] := by rw [hN.cov, expectedCov, if_neg hs]; rfl
    refine ⟨⟨N.mean.shape, fun idx => N.cov.get [ravel N.mean.shape idx, ravel N.mean.shape idx]⟩, ?_, ?_, ?_⟩
    · rw [Normal.varProp, if_neg hs, Normal.covProp_ok hN hd]
      show (checkProperty _ _ _ _).map _ = _
      rw [checkProperty_self (Dtype.moment_self hd)]
      rfl
    · rfl
    · intro i hi
      have e : ravel N.mean.shape (unravel N.mean.shape i) = i := ravel_unravel hi
      show N.cov.get [ravel N.mean.shape (unravel N.mean.shape i), ravel N.mean.shape (unravel N.mean.shape i)] = _
      rw [e, Normal.covAt, Arr.flat, hc, unravel_two _ _ _ (mul_add_lt hi hi)]
      rw [show (i * N.mean.size + i) / N.mean.size = i by
          rw [Nat.mul_comm, Nat.mul_add_div (by omega), Nat.div_eq_of_lt hi, add_zero],
        show (i * N.mean.size + i) % N.mean.size = i by rw [Nat.mul_comm, Nat.mul_add_mod, Nat.mod_eq_of_lt hi]]

theorem Normal.stdProp_ok {N : Normal} (hN : N.WF) {d : Dtype} (hd : d = .f64 ∨ d = .longdouble) :
    ∃ v, N.stdProp d = .ok v ∧ v.shape = N.mean.shape ∧ ∀ i < N.mean.size, v.flat i = √(N.covAt i i) := by
  obtain ⟨v, h1, h2, h3⟩ := Normal.varProp_ok hN hd
  refine ⟨v.map Real.sqrt, ?_, h2, fun i hi => ?_⟩
  · rw [Normal.stdProp, h1]
    show (checkProperty _ _ _ _).map _ = _
    rw [h2, checkProperty_self (Dtype.moment_self hd)]
    rfl
  · rw [← h3 i hi]
    rfl

theorem Normal.locScale_ok {N : Normal} (hN : N.WF) (hs : N.mean.shape = []) {d : Dtype} (hd : d = .f64 ∨ d = .longdouble) :
    N.locScale d = .ok (N.mean.get [], √(N.cov.get [])) := by
  obtain ⟨v, h1, h2, h3⟩ := Normal.stdProp_ok hN hd
  rw [Normal.locScale, Normal.meanProp_ok hd, h1]
  have hc : N.cov.shape = [] := by rw [hN.cov, hs]; rfl
  have := h3 0 (by rw [Arr.size, hs]; simp)
  rw [Arr.flat, h2, hs, Normal.covAt, zero_mul, zero_add, Arr.flat, hc] at this
  show Except.ok (N.mean.get [], v.get []) = _
  exact congrArg (fun t => Except.ok (N.mean.get [], t)) this

theorem Normal.pointwise_ok {N : Normal} (hN : N.WF) (hs : N.mean.shape = []) {d : Dtype} (hd : d = .f64 ∨ d = .longdouble)
    (f : ℝ → ℝ → ℝ → Option ℝ) (x : Arr) :
    N.pointwise f d x = .ok ⟨x.shape, fun k => f (N.mean.get []) √(N.cov.get []) (x.flat k)⟩ := by
  rw [Normal.pointwise, Normal.locScale_ok hN hs hd]
  rfl

theorem Normal.quantile_ok {N : Normal} (hN : N.WF) (hs : N.mean.shape = []) (p : ℝ) :
    N.quantile .f64 p = .ok (normPpf (N.mean.get []) √(N.cov.get []) p) := by
  rw [Normal.quantile, if_neg (by simpa using hs), Normal.locScale_ok hN hs (Or.inl rfl)]
  dsimp only [Except.bind]
  rw [if_neg (by simp)]

theorem Normal.locScale_fail {N : Normal} {d : Dtype} (hd : d ≠ d.moment) : N.locScale d = .error .valueError := by
  rw [Normal.locScale, Normal.meanProp, checkProperty_dtype hd]
  rfl

theorem reshape_last {x : Arr} {batch shape : List ℕ} (hx : x.shape = batch ++ shape) (h0 : 0 ∉ batch) :
    x.reshape (batch.map Int.ofNat ++ [-1]) = .ok (x.withShape (batch ++ [shape.prod])) := by
  have hk : knownSize (batch.map Int.ofNat ++ [-1]) = batch.prod := by
    unfold knownSize
    rw [List.filterMap_append]
    have : (batch.map Int.ofNat).filterMap (fun d => if d < 0 then none else some d.toNat) = batch := by
      rw [List.filterMap_map]
      have : ((fun d : ℤ => if d < 0 then none else some d.toNat) ∘ Int.ofNat) = some := funext fun n => by
        simp
      rw [this, List.filterMap_some]
    rw [this]
    simp
  have hp : batch.prod ≠ 0 := by
    rw [ne_eq, List.prod_eq_zero_iff]
    exact h0
  have hz : x.size = batch.prod * shape.prod := by rw [Arr.size, hx, List.prod_append]
  have hc : (batch.map Int.ofNat ++ [-1]).countP (· = -1) = 1 := by
    rw [List.countP_append, List.countP_map]
    have : List.countP ((fun x : ℤ => decide (x = -1)) ∘ Int.ofNat) batch = 0 := by
      rw [List.countP_eq_zero]
      intro a _
      simp only [Function.comp_apply, decide_eq_true_eq]
      have : (0 : ℤ) ≤ Int.ofNat a := Int.natCast_nonneg a
      omega
    rw [this]
    simp
  have ha : (batch.map Int.ofNat ++ [-1]).any (· < -1) = false := by
    rw [List.any_eq_false]
    intro a ha
    simp only [decide_eq_true_eq, not_lt]
    rcases List.mem_append.1 ha with h | h
    · obtain ⟨b, _, rfl⟩ := List.mem_map.1 h
      have : (0 : ℤ) ≤ Int.ofNat b := Int.natCast_nonneg b
      omega
    · rw [List.mem_singleton.1 h]
  have hm : (batch.map Int.ofNat ++ [-1]).map (fun d => if d = -1 then x.size / batch.prod else d.toNat) = batch ++ [shape.prod] := by
    rw [List.map_append, List.map_map]
    congr 1
    · conv_rhs => rw [← List.map_id batch]
      refine List.map_congr_left fun a _ => ?_
      have : (0 : ℤ) ≤ Int.ofNat a := Int.natCast_nonneg a
      simp only [Function.comp_apply]
      rw [if_neg (by omega)]
      rfl
    · rw [List.map_singleton, if_pos rfl, hz, Nat.mul_div_cancel_left _ (Nat.pos_of_ne_zero hp)]
  rw [Arr.reshape, newShape, if_neg (by rw [ha, hc]; simp), if_pos hc, hk, if_neg, hm]
  · rfl
  · push Not
    exact ⟨hp, by rw [hz, Nat.mul_mod_right]⟩

theorem mvnPoints_ok {N : Normal} {x : Arr} {batch : List ℕ} (hs : N.mean.shape ≠ []) (hn : 0 < N.mean.size)
    (hx : x.shape = batch ++ N.mean.shape) (h0 : 0 ∉ batch) :
    ∃ pts, mvnPoints N x = .ok pts ∧ squeezeShape pts.1 = squeezeShape batch ∧
      ∀ k < batch.prod, ∀ i < N.mean.size, pts.2 k i = x.flat (k * N.mean.size + i) := by
  have hpre : x.shape.take (x.shape.length - N.mean.ndim) = batch := by
    rw [hx, Arr.ndim, List.length_append, Nat.add_sub_cancel, List.take_left']
    rfl
  have hfl : ∀ j < x.size, (x.withShape (batch ++ [N.mean.size])).flat j = x.flat j := fun j hj => by
    refine Arr.withShape_flat ?_
    simpa [Arr.size, hx] using hj
  have hz : x.size = batch.prod * N.mean.size := by rw [Arr.size, hx, List.prod_append]; rfl
  have hlen : ((x.withShape (batch ++ [N.mean.size])).shape).getLastD 0 = N.mean.size := by
    show (batch ++ [N.mean.size]).getLastD 0 = _
    rw [List.getLastD_concat]
  unfold mvnPoints
  dsimp only
  rw [hpre, reshape_last hx h0, show N.mean.shape.prod = N.mean.size from rfl]
  dsimp only [Except.bind]
  rw [hlen]
  by_cases hb : batch = []
  · rw [if_pos hb]
    by_cases h1 : N.mean.size = 1
    · rw [if_pos h1]
      refine ⟨_, rfl, by rw [hb, h1]; rfl, fun k hk i hi => ?_⟩
      obtain rfl : i = 0 := by omega
      show (x.withShape (batch ++ [N.mean.size])).flat k = _
      rw [hfl k (by rw [hz, h1]; simpa using hk), h1, mul_one, add_zero]
    · rw [if_neg h1, if_pos rfl]
      refine ⟨_, rfl, by rw [hb]; rfl, fun k hk i hi => ?_⟩
      rw [hb] at hk
      obtain rfl : k = 0 := by simpa using hk
      show (x.withShape (batch ++ [N.mean.size])).flat i = _
      rw [hfl i (by rw [hz, hb]; simpa using hi), zero_mul, zero_add]
  · rw [if_neg hb, if_pos rfl]
    refine ⟨_, rfl, rfl, fun k hk i hi => ?_⟩
    show (x.withShape (batch ++ [N.mean.size])).flat (k * N.mean.size + i) = _
    rw [hfl]
    rw [hz]
    calc k * N.mean.size + i < k * N.mean.size + N.mean.size := by omega
      _ = (k + 1) * N.mean.size := by ring
      _ ≤ _ := Nat.mul_le_mul_right _ hk

end Probnum.RandVars
