import Verif.Gauss.Lemmas
import Mathlib.Probability.Distributions.Gaussian.IsGaussianProcess.Basic
import Mathlib.MeasureTheory.Function.L2Space
import Mathlib.Analysis.InnerProductSpace.Projection.Submodule
import Mathlib.MeasureTheory.Integral.Prod
import Mathlib.Analysis.InnerProductSpace.LinearMap

/-! # Integrals of Gaussian processes

A square integrable random variable that is a limit of linear combinations of a Gaussian process is normal, jointly with
the process; integrals of its paths are such limits. -/

namespace Probnum.Gauss

open MeasureTheory ProbabilityTheory Matrix Complex

variable {Ω T : Type*} {mΩ : MeasurableSpace Ω} {Q : Measure Ω} {h : T → Ω → ℝ}

/-- `Z` is in the closed linear span of the process `h`: what is orthogonal to `h` is orthogonal to `Z`. -/
structure Generated (Q : Measure Ω) (h : T → Ω → ℝ) (Z : Ω → ℝ) : Prop where
  memLp : MemLp Z 2 Q
  orth : ∀ U : Ω → ℝ, MemLp U 2 Q → (∀ t, ∫ ω, h t ω * U ω ∂Q = 0) → ∫ ω, Z ω * U ω ∂Q = 0

theorem Generated.of_mem (hh : ∀ t, MemLp (h t) 2 Q) (t : T) : Generated Q h (h t) := ⟨hh t, fun _ _ hU => hU t⟩

theorem Generated.add {Y Z : Ω → ℝ} (hY : Generated Q h Y) (hZ : Generated Q h Z) :
    Generated Q h (fun ω => Y ω + Z ω) := by
  refine ⟨hY.memLp.add hZ.memLp, fun U hU h0 => ?_⟩
  simp only [add_mul]
  rw [integral_add (f := fun ω => Y ω * U ω) (g := fun ω => Z ω * U ω) (hY.memLp.integrable_mul hU)
    (hZ.memLp.integrable_mul hU), hY.orth U hU h0, hZ.orth U hU h0, add_zero]

theorem Generated.const_mul {Z : Ω → ℝ} (hZ : Generated Q h Z) (c : ℝ) : Generated Q h (fun ω => c * Z ω) := by
  refine ⟨hZ.memLp.const_mul c, fun U hU h0 => ?_⟩
  simp only [mul_assoc]
  rw [integral_const_mul, hZ.orth U hU h0, mul_zero]

theorem Generated.sum {ι : Type*} (s : Finset ι) {Z : ι → Ω → ℝ} (hZ : ∀ i, Generated Q h (Z i)) :
    Generated Q h (fun ω => ∑ i ∈ s, Z i ω) := by
  classical
  induction s using Finset.induction_on with
  | empty => exact ⟨by simp, fun U _ _ => by simp⟩
  | insert i s hi ih =>
    simp only [Finset.sum_insert hi]
    exact (hZ i).add ih

theorem l1_le_l2 [IsProbabilityMeasure Q] (ξ : Lp ℝ 2 Q) : ∫ ω, ‖ξ ω‖ ∂Q ≤ ‖ξ‖ := by
  have h1 := integral_norm_eq_lintegral_enorm (Lp.aestronglyMeasurable ξ)
  have h2 := eLpNorm_le_eLpNorm_of_exponent_le (μ := Q) (p := 1) (q := 2) (by norm_num) (Lp.aestronglyMeasurable ξ)
  rw [eLpNorm_one_eq_lintegral_enorm] at h2
  rw [h1, Lp.norm_def]
  exact ENNReal.toReal_mono (Lp.eLpNorm_ne_top ξ) h2

theorem exp_lipschitz [IsProbabilityMeasure Q] (ξ η : Lp ℝ 2 Q) :
    ‖∫ ω, cexp (ξ ω * I) ∂Q - ∫ ω, cexp (η ω * I) ∂Q‖ ≤ ‖ξ - η‖ := by
  have int : ∀ ξ : Lp ℝ 2 Q, Integrable (fun ω => cexp (ξ ω * I)) Q := by
    intro ξ
    refine Integrable.of_bound (C := 1) ?_ (.of_forall fun ω => by rw [Complex.norm_exp_ofReal_mul_I])
    exact Complex.continuous_exp.comp_aestronglyMeasurable
      ((Complex.continuous_ofReal.comp_aestronglyMeasurable (Lp.aestronglyMeasurable ξ)).mul_const _)
  rw [← integral_sub (int ξ) (int η)]
  refine (norm_integral_le_integral_norm _).trans (le_trans ?_ (l1_le_l2 (ξ - η)))
  refine integral_mono_ae ((int ξ).sub (int η)).norm ((Lp.memLp (ξ - η)).integrable (by norm_num)).norm ?_
  filter_upwards [Lp.coeFn_sub ξ η] with ω hω
  rw [hω]
  have e : cexp (ξ ω * I) - cexp (η ω * I) = cexp (η ω * I) * (cexp (I * ((ξ ω - η ω : ℝ))) - 1) := by
    rw [mul_sub, ← Complex.exp_add, mul_one]
    congr 2
    push_cast; ring
  rw [e, norm_mul, Complex.norm_exp_ofReal_mul_I, one_mul]
  exact Real.norm_exp_I_mul_ofReal_sub_one_le

theorem l2_norm_sq (ξ : Lp ℝ 2 Q) : ‖ξ‖ ^ 2 = ∫ ω, ξ ω ^ 2 ∂Q := by
  rw [← real_inner_self_eq_norm_sq, L2.inner_def]
  refine integral_congr_ae (.of_forall fun ω => ?_)
  simp [pow_two]

/-- The characteristic function of a variable in the closed span of a centred Gaussian process. -/
theorem Generated.exp (hg : IsGaussianProcess h Q) (h0 : ∀ t, ∫ ω, h t ω ∂Q = 0) {Z : Ω → ℝ} (hZ : Generated Q h Z) :
    ∫ ω, cexp (Z ω * I) ∂Q = cexp (-((∫ ω, Z ω ^ 2 ∂Q : ℝ) : ℂ) / 2) := by
  have := hg.isProbabilityMeasure
  have hL : ∀ t, MemLp (h t) 2 Q := fun t => (hg.hasGaussianLaw_eval t).memLp_two
  set S : Submodule ℝ (Lp ℝ 2 Q) := Submodule.span ℝ (Set.range fun t => (hL t).toLp (h t)) with hS
  have hmem : hZ.memLp.toLp Z ∈ S.topologicalClosure := by
    rw [← Submodule.orthogonal_orthogonal_eq_closure, Submodule.mem_orthogonal]
    intro U hU
    rw [Submodule.mem_orthogonal] at hU
    have key := hZ.orth U (Lp.memLp U) fun t => by
      have := hU _ (Submodule.subset_span ⟨t, rfl⟩)
      rw [L2.inner_def] at this
      rw [← this]
      refine integral_congr_ae ?_
      filter_upwards [(hL t).coeFn_toLp] with ω hω
      rw [hω]
      simp [mul_comm]
    rw [L2.inner_def, ← key]
    refine integral_congr_ae ?_
    filter_upwards [hZ.memLp.coeFn_toLp] with ω hω
    rw [hω]
    simp
  have closed : IsClosed {ξ : Lp ℝ 2 Q | ∫ ω, cexp (ξ ω * I) ∂Q = cexp (-((‖ξ‖ ^ 2 : ℝ) : ℂ) / 2)} := by
    refine isClosed_eq ?_ (by fun_prop)
    refine (LipschitzWith.of_dist_le_mul (K := 1) fun ξ η => ?_).continuous
    rw [dist_eq_norm, dist_eq_norm, NNReal.coe_one, one_mul]
    exact exp_lipschitz ξ η
  have sub : (S : Set (Lp ℝ 2 Q)) ⊆ {ξ : Lp ℝ 2 Q | ∫ ω, cexp (ξ ω * I) ∂Q = cexp (-((‖ξ‖ ^ 2 : ℝ) : ℂ) / 2)} := by
    intro ξ hξ
    rw [hS] at hξ
    obtain ⟨c, rfl⟩ := Finsupp.mem_span_range_iff_exists_finsupp.1 hξ
    have gs : HasGaussianLaw (fun ω => ∑ t ∈ c.support, c t * h t ω) Q := by
      have := (hg.smul fun t => c t).hasGaussianLaw_fun_sum (I := c.support)
      simpa using this
    have hae : (c.sum fun t a => a • (hL t).toLp (h t) : Lp ℝ 2 Q) =ᵐ[Q] fun ω => ∑ t ∈ c.support, c t * h t ω := by
      rw [Finsupp.sum]
      have := Lp.coeFn_finsetSum (s := c.support) (fun t => c t • (hL t).toLp (h t))
      refine this.trans ?_
      have all : ∀ᵐ ω ∂Q, ∀ t ∈ c.support, (c t • (hL t).toLp (h t) : Lp ℝ 2 Q) ω = c t * h t ω := by
        rw [Filter.eventually_all_finset]
        intro t _
        filter_upwards [Lp.coeFn_smul (c t) ((hL t).toLp (h t)), (hL t).coeFn_toLp] with ω h1 h2
        rw [h1, Pi.smul_apply, h2, smul_eq_mul]
      filter_upwards [all] with ω hω
      rw [Finset.sum_apply]
      exact Finset.sum_congr rfl hω
    have e1 := gs.charFun_map_eq 1
    rw [charFun_apply, integral_map gs.aemeasurable (by fun_prop)] at e1
    have m0 : ∫ ω, ∑ t ∈ c.support, c t * h t ω ∂Q = 0 := by
      rw [integral_finsetSum _ fun t _ => ((hL t).integrable (by norm_num)).const_mul _]
      exact Finset.sum_eq_zero fun t _ => by rw [integral_const_mul, h0, mul_zero]
    have v0 : Var[fun ω => ∑ t ∈ c.support, c t * h t ω; Q] = ∫ ω, (∑ t ∈ c.support, c t * h t ω) ^ 2 ∂Q :=
      variance_of_integral_eq_zero gs.aemeasurable m0
    simp only [RCLike.inner_apply, conj_trivial, mul_one, one_mul] at e1
    rw [m0, v0] at e1
    show _ = _
    rw [l2_norm_sq, integral_congr_ae (g := fun ω => cexp ((∑ t ∈ c.support, c t * h t ω : ℝ) * I))
      (by filter_upwards [hae] with ω hω; rw [hω]),
      integral_congr_ae (g := fun ω => (∑ t ∈ c.support, c t * h t ω) ^ 2) (by filter_upwards [hae] with ω hω; rw [hω])]
    rw [e1]
    congr 1
    push_cast
    ring
  have := closure_minimal sub closed hmem
  have this : ∫ ω, cexp ((hZ.memLp.toLp Z : Lp ℝ 2 Q) ω * I) ∂Q = cexp (-((‖hZ.memLp.toLp Z‖ ^ 2 : ℝ) : ℂ) / 2) := this
  rw [l2_norm_sq] at this
  rw [integral_congr_ae (g := fun ω => cexp (Z ω * I)) (by filter_upwards [hZ.memLp.coeFn_toLp] with ω hω; rw [hω]),
    integral_congr_ae (g := fun ω => Z ω ^ 2) (by filter_upwards [hZ.memLp.coeFn_toLp] with ω hω; rw [hω])] at this
  exact this

/-- It has mean zero. -/
theorem Generated.mean (hg : IsGaussianProcess h Q) (h0 : ∀ t, ∫ ω, h t ω ∂Q = 0) {Z : Ω → ℝ} (hZ : Generated Q h Z) :
    ∫ ω, Z ω ∂Q = 0 := by
  have := hg.isProbabilityMeasure
  have := hZ.orth (fun _ => 1) (memLp_const 1) fun t => by simp [h0]
  simpa using this

/-- Finitely many variables in the closed span of a centred Gaussian process are jointly normal. -/
theorem Generated.gaussian {ι : Type*} [Fintype ι] (hg : IsGaussianProcess h Q) (h0 : ∀ t, ∫ ω, h t ω ∂Q = 0)
    {Z : ι → Ω → ℝ} (hZ : ∀ i, Generated Q h (Z i)) : HasGaussianLaw (fun ω i => Z i ω) Q := by
  classical
  have := hg.isProbabilityMeasure
  have hm : AEMeasurable (fun ω i => Z i ω) Q :=
    aemeasurable_pi_lambda _ fun i => (hZ i).memLp.aestronglyMeasurable.aemeasurable
  rw [hasGaussianLaw_iff_charFunDual_map_eq hm]
  intro L
  have hL : ∀ ω, L (fun i => Z i ω) = ∑ i, L (Pi.single i 1) * Z i ω := by
    intro ω
    conv_lhs => rw [pi_eq_sum_univ (fun i => Z i ω), map_sum]
    refine Finset.sum_congr rfl fun i _ => ?_
    rw [map_smul, smul_eq_mul, mul_comm]
    congr 2
    ext j; simp [Pi.single_apply, eq_comm]
  have gL : Generated Q h (fun ω => L fun i => Z i ω) := by
    simp only [hL]
    exact Generated.sum _ fun i => (hZ i).const_mul _
  have m0 := gL.mean hg h0
  have e : (⇑L ∘ fun ω i => Z i ω) = fun ω => L fun i => Z i ω := rfl
  rw [e, m0, variance_of_integral_eq_zero gL.memLp.aestronglyMeasurable.aemeasurable m0, charFunDual_apply,
    integral_map hm (by fun_prop), gL.exp hg h0]
  congr 1
  push_cast
  ring

/-- The integral of the paths of a process is in its closed span. -/
theorem Generated.integral {X : Type*} [MeasurableSpace X] {μ : Measure X} [IsFiniteMeasure μ] [SFinite Q] {g : X → Ω → ℝ}
    (hm : Measurable fun p : X × Ω => g p.1 p.2) (hg : ∀ x, MemLp (g x) 2 Q)
    (hi : Integrable (fun x => ∫ ω, g x ω ^ 2 ∂Q) μ) :
    MemLp (fun ω => ∫ x, g x ω ∂μ) 2 Q ∧ ∀ U : Ω → ℝ, MemLp U 2 Q →
      Integrable (fun x => ∫ ω, g x ω * U ω ∂Q) μ ∧
        ∫ ω, (∫ x, g x ω ∂μ) * U ω ∂Q = ∫ x, (∫ ω, g x ω * U ω ∂Q) ∂μ := by
  have hsq : Integrable (fun p : X × Ω => g p.1 p.2 ^ 2) (μ.prod Q) := by
    rw [integrable_prod_iff (by fun_prop)]
    refine ⟨.of_forall fun x => (hg x).integrable_sq, ?_⟩
    refine hi.congr (.of_forall fun x => ?_)
    simp
  have hz : MemLp (fun ω => ∫ x, g x ω ∂μ) 2 Q := by
    have hmeas : AEStronglyMeasurable (fun ω => ∫ x, g x ω ∂μ) Q :=
      (StronglyMeasurable.integral_prod_left (f := fun x ω => g x ω) hm.stronglyMeasurable).aestronglyMeasurable
    rw [memLp_two_iff_integrable_sq hmeas]
    have hb := (hsq.integral_prod_right).const_mul (μ.real Set.univ)
    refine hb.mono' (hmeas.pow 2) ?_
    filter_upwards [hsq.prod_left_ae] with ω hω
    have hl : MemLp (fun x => g x ω) 2 μ :=
      (memLp_two_iff_integrable_sq (hm.comp (by fun_prop : Measurable fun x => (x, ω))).aestronglyMeasurable).2 hω
    rw [Real.norm_eq_abs, abs_of_nonneg (sq_nonneg _)]
    have c := (hl.integrable (by norm_num))
    -- Cauchy-Schwarz
    have cs : ∀ t : ℝ, 0 ≤ ∫ x, (g x ω - t) ^ 2 ∂μ := fun t => integral_nonneg fun x => sq_nonneg _
    have ex : ∀ t : ℝ, ∫ x, (g x ω - t) ^ 2 ∂μ = ∫ x, g x ω ^ 2 ∂μ - 2 * t * ∫ x, g x ω ∂μ + t ^ 2 * μ.real Set.univ := by
      intro t
      have : ∀ x, (g x ω - t) ^ 2 = g x ω ^ 2 - (2 * t) * g x ω + t ^ 2 := fun x => by ring
      simp only [this]
      rw [integral_add (f := fun x => g x ω ^ 2 - (2 * t) * g x ω) (g := fun _ => t ^ 2) (hω.sub (c.const_mul _))
        (integrable_const _), integral_sub hω (c.const_mul _), integral_const_mul,
        integral_const, smul_eq_mul]
      ring
    by_cases h0 : μ.real Set.univ = 0
    · have : μ = 0 := by
        rw [measureReal_eq_zero_iff] at h0
        exact Measure.measure_univ_eq_zero.1 h0
      simp [this]
    · have hpos : 0 < μ.real Set.univ := lt_of_le_of_ne measureReal_nonneg (Ne.symm h0)
      have := cs ((∫ x, g x ω ∂μ) / μ.real Set.univ)
      rw [ex] at this
      field_simp at this
      nlinarith
  refine ⟨hz, fun U hU => ?_⟩
  have hU2 : Integrable (fun p : X × Ω => U p.2 ^ 2) (μ.prod Q) := hU.integrable_sq.comp_snd μ
  have hmU : AEStronglyMeasurable (fun p : X × Ω => U p.2) (μ.prod Q) := hU.aestronglyMeasurable.comp_snd
  have hprod : Integrable (fun p : X × Ω => g p.1 p.2 * U p.2) (μ.prod Q) := by
    refine (hsq.add hU2).mono' (hm.aestronglyMeasurable.mul hmU) (.of_forall fun p => ?_)
    rw [Real.norm_eq_abs, abs_mul]
    show _ ≤ g p.1 p.2 ^ 2 + U p.2 ^ 2
    nlinarith [sq_abs (g p.1 p.2), sq_abs (U p.2), sq_nonneg (|g p.1 p.2| - |U p.2|), sq_nonneg (|g p.1 p.2|), sq_nonneg (|U p.2|)]
  refine ⟨hprod.integral_prod_left, ?_⟩
  rw [integral_integral_swap hprod]
  refine integral_congr_ae (.of_forall fun ω => ?_)
  exact (integral_mul_const _ _).symm

/-- The conditional distribution of one block of a centred normal vector given the other: the weights `W` solve
`W D = B`. -/
theorem conditional_of_blocks {κ ι : Type*} [Fintype κ] [DecidableEq κ] [Fintype ι] [DecidableEq ι] {Z : Ω → κ → ℝ}
    {Y : Ω → ι → ℝ} {A : Matrix κ κ ℝ} {B : Matrix κ ι ℝ} {D : Matrix ι ι ℝ}
    (h : IsNormal Q (fun ω => Sum.elim (Z ω) (Y ω)) 0 (fromBlocks A B Bᵀ D)) {W : Matrix κ ι ℝ} (hW : W * D = B)
    (hD : Dᵀ = D) : IsConditional Q Z Y (fun y => W *ᵥ y) (A - W * Bᵀ) := by
  have e1 : ∀ ω, fromCols (1 : Matrix κ κ ℝ) (-W) *ᵥ Sum.elim (Z ω) (Y ω) + 0 = Z ω - W *ᵥ Y ω := by
    intro ω
    rw [fromCols_elim, one_mulVec, neg_mulVec, add_zero, sub_eq_add_neg]
  have e2 : ∀ ω, fromCols (0 : Matrix ι κ ℝ) (1 : Matrix ι ι ℝ) *ᵥ Sum.elim (Z ω) (Y ω) + 0 = Y ω := by
    intro ω
    rw [fromCols_elim, zero_mulVec, one_mulVec, zero_add, add_zero]
  have hBt : D * Wᵀ = Bᵀ := by rw [← hW, transpose_mul, hD]
  refine ⟨(Continuous.matrix_mulVec continuous_const continuous_id).measurable, ?_, ?_⟩
  · have := indep_of_cov_zero h (fromCols (1 : Matrix κ κ ℝ) (-W)) (fromCols (0 : Matrix ι κ ℝ) (1 : Matrix ι ι ℝ)) 0 0 (by
      rw [transpose_fromCols, fromCols_mul_fromBlocks, fromCols_mul_fromRows]
      simp [hW])
    simpa only [e1, e2] using this
  · have := h.affine (fromCols (1 : Matrix κ κ ℝ) (-W)) 0
    simp only [e1] at this
    rw [transpose_fromCols, fromCols_mul_fromBlocks, fromCols_mul_fromRows] at this
    convert this using 1
    · simp
    · simp only [Matrix.one_mul, transpose_one, transpose_neg, Matrix.mul_one, Matrix.neg_mul, Matrix.mul_neg, Matrix.add_mul]
      rw [hW]
      simp [sub_eq_add_neg]

end Probnum.Gauss
