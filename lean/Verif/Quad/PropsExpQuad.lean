import Verif.Quad.ExpQuadLemmas
import Verif.Cov.KernelSpec
import Verif.LinGauss.Props
import Verif.Kalman.SamplingProps

/-!
# Kernel means and variances of exponentiated quadratic kernels are the integrals they claim to be (C73)
-/

namespace Probnum.Quad

open Matrix MeasureTheory ProbabilityTheory Probnum.Gauss

/-- The exponentiated quadratic kernel with one lengthscale: `k(x, y) = exp(-‖x - y‖² / (2 l²))`. -/
noncomputable def expquad {D : ℕ} (l : ℝ) (x y : Fin D → ℝ) : ℝ := Real.exp (-(∑ i, (x i - y i) ^ 2) / (2 * l ^ 2))

/-- A vector as an input point of the covariance functions. -/
noncomputable def point {D : ℕ} (x : Fin D → ℝ) : Cov.Point
  | [j] => if h : j < D then x ⟨j, h⟩ else 0
  | _ => 0

/-- The kernel is the documented value of the library's `ExpQuad` with a scalar lengthscale (C44 and C45 show that the
library's covariance functions return the documented values). -/
theorem expquad_documented {D : ℕ} (l : ℝ) (x y : Fin D → ℝ) :
    (Cov.Kernel.expQuad ⟨[], fun _ => l⟩).value [D] (point x) (point y) = expquad l x y := by
  have hu : ∀ i : Fin D, RandVars.unravel [D] i.1 = [i.1] := fun i => by
    simp [RandVars.unravel, RandVars.unr, Nat.mod_eq_of_lt i.2]
  rw [Cov.Kernel.value, expquad, Cov.scaledSq, show [D].prod = D by simp, Finset.sum_range]
  congr 1
  have : ∀ i : Fin D, ((point x).at [D] i.1 - (point y).at [D] i.1) / Cov.scaleAt [D] ⟨[], fun _ => l⟩ i.1 = (x i - y i) / l := by
    intro i
    simp only [Cov.Point.at, hu, point, i.2, dite_true, Cov.scaleAt]
    rfl
  simp only [this, div_pow, ← Finset.sum_div]
  ring

/-! ## Boxes -/

/-- **C73.** Lebesgue measure on a box with constant `c`, in any dimension: the kernel mean is `c` times the integral of the
kernel over the box (at every location, also outside the box), and the kernel variance is `c²` times the double integral. -/
theorem expquad_lebesgue_embedding {D : ℕ} {l : ℝ} (hl : 0 < l) {a b : Fin D → ℝ} (hab : a ≤ b) (c : ℝ) :
    ∃ e, kernelEmbedding (.expQuad [D] (.inl l)) (.lebesgue a b c) = .ok e ∧
      (∀ x, e.mean x = .ok (c * ∫ t in Set.Icc a b, expquad l t x)) ∧
      e.variance = .ok (c ^ 2 * ∫ x in Set.Icc a b, ∫ t in Set.Icc a b, expquad l t x) := by
  have hprod : ∀ t x : Fin D → ℝ, expquad l t x = ∏ i, Real.exp (-(t i - x i) ^ 2 / (2 * l ^ 2)) := by
    intro t x
    rw [expquad, ← Real.exp_sum, ← Finset.sum_div, ← Finset.sum_neg_distrib]
  have hint : ∀ x : Fin D → ℝ, ∫ t in Set.Icc a b, expquad l t x =
      ∏ i, ∫ t in (a i)..(b i), Real.exp (-(t - x i) ^ 2 / (2 * l ^ 2)) := by
    intro x
    simp only [hprod]
    exact integral_box (fun i t => Real.exp (-(t - x i) ^ 2 / (2 * l ^ 2))) hab
  refine ⟨⟨expquadLebesgueMean (.inl l) a b c, expquadLebesgueVariance (.inl l) a b c⟩, ?_, fun x => ?_, ?_⟩
  · rw [kernelEmbedding, if_neg (by simp [AnyKernel.shape]), getEmbedding]
  · show expquadLebesgueMean (.inl l) a b c x = _
    simp only [expquadLebesgueMean, lengthscale, Except.map]
    congr 1
    rw [hint, mul_assoc]
    simp only [expquad_integral hl]
    rw [Finset.prod_mul_distrib, Finset.prod_const, Finset.card_univ, Fintype.card_fin, rpow_half (by positivity)]
    congr 3
    rw [show Real.pi * l ^ 2 / 2 = l ^ 2 * (Real.pi / 2) by ring, Real.sqrt_mul (by positivity), Real.sqrt_sq hl.le]
  · show expquadLebesgueVariance (.inl l) a b c = _
    simp only [expquadLebesgueVariance, lengthscale, Except.map]
    congr 1
    simp only [hint]
    rw [integral_box (fun i x => ∫ t in (a i)..(b i), Real.exp (-(t - x) ^ 2 / (2 * l ^ 2))) hab]
    simp only [expquad_integral_integral hl (hab _)]
    rw [Finset.prod_mul_distrib, Finset.prod_const, Finset.card_univ, Fintype.card_fin, rpow_half (by positivity), mul_assoc]

/-! ## Gaussian measures -/

theorem exists_cholesky {D : ℕ} {A : Matrix (Fin D) (Fin D) ℝ} (hA : A.PosDef) : ∃ L, IsCholesky A L := by
  obtain ⟨ch, -⟩ := Kalman.exists_covCholesky D
  obtain ⟨Q⟩ := LinGauss.QR.exists
  have hS := ch.gram A hA.posSemidef
  generalize ch.factor A = S at hS
  let T : Matrix (Fin D) (Fin D) ℝ := Matrix.of fun i j => Q.r Sᵀ ⟨j.1, by omega⟩ i
  have hT : T * Tᵀ = A := by
    have := Q.gram Sᵀ
    rw [transpose_transpose, hS] at this
    rw [← this]
    ext i j
    simp only [Matrix.mul_apply, transpose_apply, T, of_apply]
    exact Fintype.sum_equiv (finCongr (min_self D).symm) _ _ fun k => rfl
  obtain ⟨h1, h2, h3⟩ := LinGauss.tril_to_positive_tril_correct T
  generalize hL : LinGauss.trilToPositiveTril T = L at h1 h2 h3
  have hlow : ∀ i j, i < j → L i j = 0 := fun i j hij => h2 i j (Q.upper Sᵀ _ _ (by simpa using hij))
  have hdet : L.det = ∏ i, L i i := det_of_isLowerTriangular (M := L) (fun i j hij => hlow i j hij)
  refine ⟨L, hlow, fun i => lt_of_le_of_ne (h3 i) fun h => ?_, h1.trans hT⟩
  have h0 : L.det = 0 := hdet.trans (Finset.prod_eq_zero (Finset.mem_univ i) h.symm)
  have := hA.det_pos
  rw [← hT, ← h1, det_mul, h0, zero_mul] at this
  exact this.false

theorem cholesky_det {D : ℕ} {A L : Matrix (Fin D) (Fin D) ℝ} (h : IsCholesky A L) : ∏ i, L i i = Real.sqrt A.det := by
  have hdet : L.det = ∏ i, L i i := det_of_isLowerTriangular (M := L) (fun i j hij => h.1 i j hij)
  rw [← h.2.2, det_mul, det_transpose, hdet, ← pow_two, Real.sqrt_sq (Finset.prod_nonneg fun i _ => (h.2.1 i).le)]

theorem lowerSym_symm {D : ℕ} {A : Matrix (Fin D) (Fin D) ℝ} (hA : Aᵀ = A) : lowerSym A = A := by
  ext i j
  simp only [lowerSym, of_apply]
  split_ifs
  · rfl
  · rw [← hA, transpose_apply, hA]

theorem shifted_posDef {D : ℕ} {C : Matrix (Fin D) (Fin D) ℝ} (hC : C.PosSemidef) {l : ℝ} (hl : 0 < l) :
    (l ^ 2 • (1 : Matrix (Fin D) (Fin D) ℝ) + C).PosDef :=
  (PosDef.one.smul (by positivity)).add_posSemidef hC

/-- The flag says that the covariance is diagonal. -/
def GaussMeasure.FlagCorrect {D : ℕ} (g : GaussMeasure D) : Prop :=
  g.diagonal = true ↔ ∀ i j, i ≠ j → g.cov i j = 0

theorem flag_correct {D : ℕ} (C : Matrix (Fin D) (Fin D) ℝ) : diagonalFlag C = true ↔ ∀ i j, i ≠ j → C i j = 0 := by
  rw [diagonalFlag]
  split_ifs with h
  · subst h
    exact ⟨fun _ i j hij => absurd (Subsingleton.elim i j) hij, fun _ => rfl⟩
  · rw [decide_eq_true_iff]
    refine forall_congr' fun i => forall_congr' fun j => ?_
    by_cases hij : i = j
    · subst hij; simp
    · simp [hij, diagonal_apply_ne]

theorem expquad_gauss_mean {D : ℕ} {l : ℝ} (hl : 0 < l) {g : GaussMeasure D} (hf : g.FlagCorrect) {Ω : Type*}
    {mΩ : MeasurableSpace Ω} {P : Measure Ω} {X : Ω → Fin D → ℝ} (hX : IsNormal P X g.mean g.cov) (x : Fin D → ℝ) :
    expquadGaussMean (.inl l) g x = .ok (∫ ω, expquad l (X ω) x ∂P) := by
  have hC := hX.posSemidef
  have hA := shifted_posDef hC hl
  simp only [expquad]
  rw [gauss_integral hX hl]
  simp only [expquadGaussMean, lengthscale, Except.bind]
  split_ifs with hd
  · have hoff := hf.1 hd
    have hcov : g.cov = diagonal fun i => g.cov i i := by
      ext i j
      by_cases hij : i = j
      · subst hij; simp
      · rw [hoff i j hij, diagonal_apply_ne _ hij]
    have hAd : l ^ 2 • (1 : Matrix (Fin D) (Fin D) ℝ) + g.cov = diagonal fun i => l ^ 2 + g.cov i i := by
      rw [hcov, smul_one_eq_diagonal, diagonal_add]
      simp
    have hpos : ∀ i, 0 < l ^ 2 + g.cov i i := fun i => by
      have := hC.diag_nonneg (i := i)
      positivity
    have hinv : (diagonal fun i => l ^ 2 + g.cov i i)⁻¹ = diagonal fun i => (l ^ 2 + g.cov i i)⁻¹ := by
      refine inv_eq_right_inv ?_
      rw [diagonal_mul_diagonal]
      simp only [mul_inv_cancel₀ (hpos _).ne', diagonal_one]
    rw [hAd, det_diagonal, hinv]
    congr 4
    · norm_num
    · simp only [dotProduct, mulVec_diagonal, Pi.sub_apply, div_pow, Real.sq_sqrt (hpos _).le]
      refine Finset.sum_congr rfl fun i _ => ?_
      have := (hpos i).ne'
      field_simp
  · have hsymm : (l ^ 2 • (1 : Matrix (Fin D) (Fin D) ℝ) + g.cov)ᵀ = l ^ 2 • (1 : Matrix (Fin D) (Fin D) ℝ) + g.cov := by
      have := hA.isHermitian
      rwa [IsHermitian, conjTranspose_eq_transpose_of_trivial] at this
    have hex : ∃ L, IsCholesky (lowerSym (l ^ 2 • (1 : Matrix (Fin D) (Fin D) ℝ) + g.cov)) L := by
      rw [lowerSym_symm hsymm]
      exact exists_cholesky hA
    have hch := hex.choose_spec
    rw [scipyChoFactor, dif_pos hex]
    generalize hex.choose = L at hch
    rw [lowerSym_symm hsymm] at hch
    simp only [Except.map]
    rw [cholesky_det hch, scipyChoSolve, hch.2.2]
    congr 4
    norm_num

theorem expquad_gauss_variance {D : ℕ} {l : ℝ} (hl : 0 < l) {g : GaussMeasure D} (hf : g.FlagCorrect) {Ω : Type*}
    {mΩ : MeasurableSpace Ω} {P : Measure Ω} {X Y : Ω → Fin D → ℝ} (hX : IsNormal P X g.mean g.cov)
    (hY : IsNormal P Y g.mean g.cov) (hXY : IndepFun X Y P) :
    expquadGaussVariance (.inl l) g = .ok (∫ ω, expquad l (X ω) (Y ω) ∂P) := by
  have hZ := hX.comb hY hXY (1 : Matrix (Fin D) (Fin D) ℝ) (-1) 0
  have hcov : (1 : Matrix (Fin D) (Fin D) ℝ) * g.cov * (1 : Matrix (Fin D) (Fin D) ℝ)ᵀ
      + (-1 : Matrix (Fin D) (Fin D) ℝ) * g.cov * (-1 : Matrix (Fin D) (Fin D) ℝ)ᵀ = 2 • g.cov := by
    simp [two_smul]
  rw [hcov] at hZ
  have h := gauss_integral hZ hl 0
  have e : ∀ ω, Real.exp (-(∑ i, (((1 : Matrix (Fin D) (Fin D) ℝ) *ᵥ X ω + (-1 : Matrix (Fin D) (Fin D) ℝ) *ᵥ Y ω + 0) i
      - (0 : Fin D → ℝ) i) ^ 2) / (2 * l ^ 2)) =
      expquad l (X ω) (Y ω) := by
    intro ω
    rw [expquad]
    simp [neg_mulVec, sub_eq_add_neg]
  simp only [e] at h
  rw [h]
  have hm : (0 : Fin D → ℝ) - ((1 : Matrix (Fin D) (Fin D) ℝ) *ᵥ g.mean + (-1 : Matrix (Fin D) (Fin D) ℝ) *ᵥ g.mean + 0) = 0 := by simp [neg_mulVec]
  rw [hm, zero_dotProduct, mul_zero, Real.exp_zero, mul_one]
  simp only [expquadGaussVariance, lengthscale, Except.map]
  congr 3
  rw [gaussDenom]
  split_ifs with hd
  · have hoff := hf.1 hd
    have hAd : l ^ 2 • (1 : Matrix (Fin D) (Fin D) ℝ) + 2 • g.cov = diagonal fun i => l ^ 2 + 2 * g.cov i i := by
      ext i j
      by_cases hij : i = j
      · subst hij; simp [two_mul, two_smul]
      · simp [hoff i j hij, hij, two_smul]
    rw [hAd, det_diagonal]
  · rfl

/-- **C73.** Gaussian measure, in any dimension and for every covariance matrix (singular ones included): the kernel mean at
`x` is the expectation of `k(X, x)` for `X` distributed like the measure, and the kernel variance is the expectation of
`k(X, Y)` for independent `X` and `Y` distributed like the measure. -/
theorem expquad_gauss_embedding {D : ℕ} {l : ℝ} (hl : 0 < l) {g : GaussMeasure D} (hf : g.FlagCorrect) {Ω : Type*}
    {mΩ : MeasurableSpace Ω} {P : Measure Ω} {X Y : Ω → Fin D → ℝ} (hX : IsNormal P X g.mean g.cov)
    (hY : IsNormal P Y g.mean g.cov) (hXY : IndepFun X Y P) :
    ∃ e, kernelEmbedding (.expQuad [D] (.inl l)) (.gaussian g) = .ok e ∧
      (∀ x, e.mean x = .ok (∫ ω, expquad l (X ω) x ∂P)) ∧
      e.variance = .ok (∫ ω, expquad l (X ω) (Y ω) ∂P) := by
  refine ⟨⟨expquadGaussMean (.inl l) g, expquadGaussVariance (.inl l) g⟩, ?_, fun x => expquad_gauss_mean hl hf hX x,
    expquad_gauss_variance hl hf hX hY hXY⟩
  rw [kernelEmbedding, if_neg (by simp [AnyKernel.shape]), getEmbedding]

/-- The integrals above are not integrals of non-integrable functions. -/
theorem expquad_integrable {D : ℕ} (l : ℝ) {Ω : Type*} {mΩ : MeasurableSpace Ω} {P : Measure Ω} {X Y : Ω → Fin D → ℝ}
    {m m' : Fin D → ℝ} {C C' : Matrix (Fin D) (Fin D) ℝ} (hX : IsNormal P X m C) (hY : IsNormal P Y m' C') :
    Integrable (fun ω => expquad l (X ω) (Y ω)) P := by
  have := hX.isProbabilityMeasure
  have hm : AEMeasurable (fun ω => expquad l (X ω) (Y ω)) P := by
    have hc : Measurable fun z : (Fin D → ℝ) × (Fin D → ℝ) => expquad l z.1 z.2 := by
      unfold expquad
      fun_prop
    exact Measurable.comp_aemeasurable (g := fun z : (Fin D → ℝ) × (Fin D → ℝ) => expquad l z.1 z.2)
      (f := fun ω => (X ω, Y ω)) hc (hX.gaussian.aemeasurable.prodMk hY.gaussian.aemeasurable)
  refine Integrable.of_bound hm.aestronglyMeasurable 1 (Filter.Eventually.of_forall fun ω => ?_)
  rw [Real.norm_eq_abs, expquad, Real.abs_exp, Real.exp_le_one_iff, neg_div]
  have : 0 ≤ ∑ i, (X ω i - Y ω i) ^ 2 := Finset.sum_nonneg fun i _ => sq_nonneg _
  have : 0 ≤ (∑ i, (X ω i - Y ω i) ^ 2) / (2 * l ^ 2) := by positivity
  linarith

/-! ## Gaussian measures are what their arguments say -/

/-- **C73.** Scalar mean and variance with an input dimension `d ≥ 1`: the measure has the constant mean vector and the
diagonal covariance in `d` dimensions; without an input dimension it is one-dimensional. -/
theorem gaussian_measure_scalars (m c : ℝ) :
    (∀ d : ℕ, 1 ≤ d → ∃ g : GaussMeasure d, gaussInit (.scalar m) (.scalar c) (some d) = .ok ⟨d, g⟩ ∧
      g.mean = (fun _ => m) ∧ g.cov = c • (1 : Matrix _ _ ℝ) ∧ g.FlagCorrect) ∧
    ∃ g : GaussMeasure 1, gaussInit (.scalar m) (.scalar c) none = .ok ⟨1, g⟩ ∧
      g.mean = (fun _ => m) ∧ g.cov = c • (1 : Matrix _ _ ℝ) ∧ g.FlagCorrect := by
  have key : ∀ C : Matrix (Fin 1) (Fin 1) ℝ, C 0 0 = c → C = c • (1 : Matrix _ _ ℝ) := fun C hC => by
    ext i j
    rw [Subsingleton.elim i 0, Subsingleton.elim j 0, hC]
    simp
  refine ⟨fun d hd => ?_, ?_⟩
  · by_cases h1 : d = 1
    · subst h1
      refine ⟨⟨fun _ => m, Matrix.of fun _ _ => c, diagonalFlag (D := 1) (Matrix.of fun _ _ => c)⟩, ?_, rfl, key _ rfl,
        flag_correct (D := 1) (Matrix.of fun _ _ => c)⟩
      simp [gaussInit, extend, MeanArg.one?, CovArg.one?, Except.bind, gaussInitCore, gaussNormal]
    · refine ⟨⟨fun _ => m, c • (1 : Matrix _ _ ℝ), diagonalFlag (c • (1 : Matrix _ _ ℝ))⟩, ?_, rfl, rfl, flag_correct _⟩
      have h0 : ¬(d : ℤ) < 0 := by omega
      have h2 : ¬d < 1 := by omega
      simp only [gaussInit, extend, MeanArg.one?, CovArg.one?, h0, if_false, Except.bind, gaussInitCore, Int.toNat_natCast, h2,
        gaussNormal, h1, dite_true]
  · exact ⟨⟨fun _ => m, Matrix.of fun _ _ => c, diagonalFlag (D := 1) (Matrix.of fun _ _ => c)⟩, rfl, rfl, key _ rfl,
      flag_correct (D := 1) (Matrix.of fun _ _ => c)⟩

/-- **C73.** A mean vector with at least two entries and a covariance matrix of the same size: the measure has exactly these
moments, and the flag is right. The argument `input_dim` is ignored in this case, even if it contradicts the arrays. -/
theorem gaussian_measure_arrays {n : ℕ} (hn : 2 ≤ n) (v : Fin n → ℝ) (C : Matrix (Fin n) (Fin n) ℝ) (inputDim : Option ℤ) :
    ∃ g : GaussMeasure n, gaussInit (.vec n v) (.mat n C) inputDim = .ok ⟨n, g⟩ ∧ g.mean = v ∧ g.cov = C ∧ g.FlagCorrect := by
  refine ⟨⟨v, C, diagonalFlag C⟩, ?_, rfl, rfl, flag_correct _⟩
  have h1 : n ≠ 1 := by omega
  have h2 : ¬n < 1 := by omega
  simp only [gaussInit, extend, MeanArg.one?, CovArg.one?, h1, dite_false, Except.bind, gaussInitCore, h2, if_false, gaussNormal,
    dite_true]

/-- **C73.** Arrays that do not fit together, an empty mean, and non-positive input dimensions are rejected with
`ValueError`. -/
theorem gaussian_measure_rejects (inputDim : Option ℤ) :
    (∀ n v n' C, n ≠ n' → gaussInit (.vec n v) (.mat n' C) inputDim = .error .valueError) ∧
    (∀ n v c, n ≠ 1 → gaussInit (.vec n v) (.scalar c) inputDim = .error .valueError) ∧
    (∀ m n C, n ≠ 1 → gaussInit (.scalar m) (.mat n C) inputDim = .error .valueError) ∧
    (∀ m c d, d < 1 → gaussInit (.scalar m) (.scalar c) (some d) = .error .valueError) := by
  refine ⟨fun n v n' C h => ?_, fun n v c h => ?_, fun m n C h => ?_, fun m c d h => ?_⟩
  · have e : extend (.vec n v) (.mat n' C) inputDim = .ok (.vec n v, .mat n' C) := by
      by_cases h1 : n = 1
      · have h2 : n' ≠ 1 := fun h2 => h (h1.trans h2.symm)
        simp only [extend, CovArg.one?, h2, dite_false]
        cases (MeanArg.vec n v).one? <;> rfl
      · simp only [extend, MeanArg.one?, h1, dite_false]
    simp only [gaussInit, e, Except.bind, gaussInitCore]
    split_ifs with h0
    · rfl
    · by_cases h1 : n = 1
      · have h2 : n' ≠ 1 := fun h2 => h (h1.trans h2.symm)
        simp only [gaussNormal, h1, if_true, CovArg.one?, h2, dite_false]
      · simp only [gaussNormal, h1, if_false, dif_neg (Ne.symm h)]
  · have e : extend (.vec n v) (.scalar c) inputDim = .ok (.vec n v, .scalar c) := by
      simp only [extend, MeanArg.one?, h, dite_false]
    simp only [gaussInit, e, Except.bind, gaussInitCore, gaussNormal, h, if_false]
    split_ifs <;> rfl
  · have e : extend (.scalar m) (.mat n C) inputDim = .ok (.scalar m, .mat n C) := by
      simp only [extend, CovArg.one?, h, dite_false]
      rfl
    simp only [gaussInit, e, Except.bind, gaussInitCore, gaussNormal, CovArg.one?, h, dite_false, if_true]
  · simp only [gaussInit, extend, MeanArg.one?, CovArg.one?]
    by_cases h0 : d < 0
    · simp only [h0, if_true, Except.bind]
    · have : d = 0 := by omega
      subst this
      rfl

/-! ## Rejections -/

/-- **C73.** Kernels whose input shape is not `(input_dim,)` are rejected with `ValueError`; pairs of kernel and measure
without a known embedding with `NotImplementedError`; and with more than one lengthscale, both integrals raise
`ValueError`. Nothing else is rejected. -/
theorem embedding_rejects {D : ℕ} (k : AnyKernel) (m : AnyMeasure D) :
    (k.shape ≠ [D] → kernelEmbedding k m = .error .valueError) ∧
    (k.shape = [D] →
      ((∃ e, kernelEmbedding k m = .ok e) ∨ kernelEmbedding k m = .error .notImplementedError) ∧
      (kernelEmbedding k m = .error .notImplementedError ↔
        (∃ s, k = .other s) ∨ m = .other ∨ (∃ d k', k = .matern d k') ∧ ∃ g, m = .gaussian g)) ∧
    (∀ ls, k = .expQuad [D] (.inr ls) → m ≠ .other →
      ∃ e, kernelEmbedding k m = .ok e ∧ (∀ x, e.mean x = .error .valueError) ∧ e.variance = .error .valueError) := by
  refine ⟨fun h => by rw [kernelEmbedding, if_pos h], fun h => ?_, fun ls hk hm => ?_⟩
  · rw [kernelEmbedding, if_neg (not_not.2 h)]
    cases k with
    | expQuad s ls => cases m <;> simp [getEmbedding]
    | matern d k' =>
      have hd : d = D := by simpa [AnyKernel.shape] using h
      subst hd
      cases m <;> simp [getEmbedding]
    | other s => cases m <;> simp [getEmbedding]
  · subst hk
    cases m with
    | gaussian g => exact ⟨_, by rw [kernelEmbedding, if_neg (by simp [AnyKernel.shape]), getEmbedding], fun x => rfl, rfl⟩
    | lebesgue a b c => exact ⟨_, by rw [kernelEmbedding, if_neg (by simp [AnyKernel.shape]), getEmbedding], fun x => rfl, rfl⟩
    | other => exact absurd rfl hm

/-- The Matérn embeddings of C43 are the ones chosen for Lebesgue measures. -/
theorem embedding_matern {D : ℕ} (k : MKernel D) (a b : Fin D → ℝ) (c : ℝ) :
    kernelEmbedding (.matern D k) (.lebesgue a b c) = .ok ⟨kernelMean k a b c, kernelVariance k a b c⟩ := by
  rw [kernelEmbedding, if_neg (by simp [AnyKernel.shape]), getEmbedding, dif_pos rfl]
  rfl

/-! ## Concrete cases -/

/-- A correlated two-dimensional measure with singular covariance meets the hypotheses, with both vectors. -/
example : ∃ (g : GaussMeasure 2), gaussInit (.vec 2 ![1, -1]) (.mat 2 !![1, 2; 2, 4]) none = .ok ⟨2, g⟩ ∧ g.FlagCorrect ∧
    g.diagonal = false ∧ ∃ (Ω : Type) (_ : MeasurableSpace Ω) (P : Measure Ω) (X Y : Ω → Fin 2 → ℝ),
      IsNormal P X g.mean g.cov ∧ IsNormal P Y g.mean g.cov ∧ IndepFun X Y P := by
  obtain ⟨g, h, hm, hC, hf⟩ := gaussian_measure_arrays (le_refl 2) ![1, -1] !![1, 2; 2, 4] none
  refine ⟨g, h, hf, ?_, ?_⟩
  · by_contra hd
    have := hf.1 (by simpa using hd) 0 1 (by decide)
    rw [hC] at this
    norm_num at this
  · have e : !![(1 : ℝ), 0; 2, 0] * !![(1 : ℝ), 0; 2, 0]ᵀ = !![1, 2; 2, 4] := by
      ext i j
      fin_cases i <;> fin_cases j <;> norm_num [Matrix.mul_apply]
    obtain ⟨Ω, _, P, X, Y, hX, hY, hXY⟩ := exists_independent_normals (ι := Fin 2) (κ := Fin 2) ![1, -1] !![1, 0; 2, 0]
      ![1, -1] !![1, 0; 2, 0]
    rw [e] at hX hY
    exact ⟨Ω, _, P, X, Y, hm ▸ hC ▸ hX, hm ▸ hC ▸ hY, hXY⟩

/-- A box in two dimensions. -/
example : (0 : ℝ) < 1 / 3 ∧ (![0, -1] : Fin 2 → ℝ) ≤ ![1, 4] := by
  refine ⟨by norm_num, fun i => ?_⟩
  fin_cases i <;> norm_num

end Probnum.Quad
