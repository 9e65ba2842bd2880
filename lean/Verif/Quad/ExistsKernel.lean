import Verif.Quad.Exists
import Verif.Cov.PropsPsd
import Mathlib.Analysis.InnerProductSpace.Reproducing
import Mathlib.Analysis.InnerProductSpace.l2Space

/-! # Gaussian process priors with continuous covariance functions exist

A continuous covariance function on a separable space has countably many continuous features: the coordinates in the
reproducing kernel Hilbert space. -/

namespace Probnum.Quad

open Probnum Finset MeasureTheory ProbabilityTheory Probnum.Gauss

/-- The kernel with values in the operators on the real numbers. -/
noncomputable def kernelOp {X : Type} (k : X → X → ℝ) : Matrix X X (ℝ →L[ℝ] ℝ) :=
  Matrix.of fun x y => k x y • ContinuousLinearMap.id ℝ ℝ

theorem kernelOp_psd {X : Type} {k : X → X → ℝ} (hk : Cov.IsPSD k) : (kernelOp k).PosSemidef := by
  obtain ⟨hsym, hpos⟩ := Cov.isPSD_iff.1 hk
  have key : (kernelOp k).PosSemidef ↔ (kernelOp k).IsHermitian ∧ ∀ vv : X →₀ ℝ,
      0 ≤ RCLike.re (vv.sum fun x w => vv.sum fun x' w' => inner ℝ (kernelOp k x' x w) w') :=
    (RKHS.posSemidef_tfae (𝕜 := ℝ) (K := kernelOp k)).out 0 2
  refine key.2 ⟨?_, ?_⟩
  · ext x y
    have hid : ContinuousLinearMap.adjoint (ContinuousLinearMap.id ℝ ℝ) = ContinuousLinearMap.id ℝ ℝ :=
      (IsSelfAdjoint.one (ℝ →L[ℝ] ℝ)).adjoint_eq
    simp [kernelOp, Matrix.conjTranspose_apply, hsym x y, star, hid]
  · intro vv
    have h := hpos vv.support.card (fun a => (vv.support.equivFin.symm a : X)) fun a => vv (vv.support.equivFin.symm a)
    have e : ∑ a, ∑ b, vv (vv.support.equivFin.symm a) * vv (vv.support.equivFin.symm b) *
        k (vv.support.equivFin.symm a) (vv.support.equivFin.symm b) = ∑ x ∈ vv.support, ∑ y ∈ vv.support, vv x * vv y * k x y := by
      rw [← Finset.sum_coe_sort vv.support, ← Equiv.sum_comp vv.support.equivFin.symm]
      refine Finset.sum_congr rfl fun a _ => ?_
      rw [← Finset.sum_coe_sort vv.support, ← Equiv.sum_comp vv.support.equivFin.symm]
    rw [e] at h
    refine h.trans (le_of_eq ?_)
    simp only [Finsupp.sum, RCLike.re_to_real]
    refine Finset.sum_congr rfl fun x _ => Finset.sum_congr rfl fun y _ => ?_
    simp [kernelOp, hsym y x]
    ring

/-- A continuous covariance function on a separable space has countably many continuous features. -/
theorem exists_features {X : Type} [TopologicalSpace X] [TopologicalSpace.SeparableSpace X] {k : X → X → ℝ} (hk : Cov.IsPSD k)
    (hc : Continuous fun p : X × X => k p.1 p.2) :
    ∃ φ : ℕ → X → ℝ, (∀ n, Continuous (φ n)) ∧ ∀ x y, HasSum (fun n => φ n x * φ n y) (k x y) := by
  haveI : Fact (kernelOp k).PosSemidef := ⟨kernelOp_psd hk⟩
  let H := RKHS.OfKernel (kernelOp k)
  let z : X → H := fun x => RKHS.kerFun H x 1
  have hz : ∀ x y, inner ℝ (z x) (z y) = k y x := by
    intro x y
    have := RKHS.kernel_inner H y x (1 : ℝ) (1 : ℝ)
    rw [RKHS.OfKernel.kernel_ofKernel] at this
    rw [← this]
    simp [kernelOp]
  have hcont : Continuous z := by
    rw [continuous_iff_continuousAt]
    intro x
    rw [ContinuousAt, tendsto_iff_norm_sub_tendsto_zero]
    have h2 : ∀ y, ‖z y - z x‖ = Real.sqrt (k y y - 2 * k x y + k x x) := by
      intro y
      have := norm_sub_sq_real (z y) (z x)
      rw [← real_inner_self_eq_norm_sq (z y), ← real_inner_self_eq_norm_sq (z x), hz, hz, hz] at this
      rw [← this, Real.sqrt_sq (norm_nonneg _)]
    simp only [h2]
    have h3 : Continuous fun y => Real.sqrt (k y y - 2 * k x y + k x x) := by
      have a1 : Continuous fun y => k y y := hc.comp (continuous_id.prodMk continuous_id)
      have a2 : Continuous fun y => k x y := hc.comp (continuous_const.prodMk continuous_id)
      fun_prop
    have := h3.tendsto x
    rwa [show k x x - 2 * k x x + k x x = 0 by ring, Real.sqrt_zero] at this
  have hsep : TopologicalSpace.SeparableSpace H := by
    rw [← TopologicalSpace.isSeparable_univ_iff]
    have h1 : TopologicalSpace.IsSeparable (Set.range z) := TopologicalSpace.isSeparable_range hcont
    have h2 := (h1.span (R := ℝ)).closure
    refine h2.mono fun f _ => ?_
    have h3 := RKHS.kerFun_dense H
    have h4 : Submodule.span ℝ {v | ∃ (x : X) (w : ℝ), RKHS.kerFun H x w = v} ≤ Submodule.span ℝ (Set.range z) := by
      rw [Submodule.span_le]
      rintro _ ⟨x, w, rfl⟩
      have : RKHS.kerFun H x w = w • z x := by
        simp only [z]
        rw [← map_smul, smul_eq_mul, mul_one]
      rw [this]
      exact Submodule.smul_mem _ _ (Submodule.subset_span ⟨x, rfl⟩)
    have h5 : f ∈ (Submodule.span ℝ {v | ∃ (x : X) (w : ℝ), RKHS.kerFun H x w = v}).topologicalClosure := by
      rw [h3]
      trivial
    exact closure_mono h4 h5
  obtain ⟨w, b, hb⟩ := exists_hilbertBasis ℝ H
  have hw : w.Countable := by
    have hd : w.PairwiseDisjoint fun v => Metric.ball v (1 / 2 : ℝ) := by
      intro u hu v hv huv
      refine Metric.ball_disjoint_ball ?_
      have ho := b.orthonormal
      have n1 : ‖u‖ = 1 := by have := ho.1 ⟨u, hu⟩; rwa [hb] at this
      have n2 : ‖v‖ = 1 := by have := ho.1 ⟨v, hv⟩; rwa [hb] at this
      have n3 : inner ℝ u v = 0 := by
        have := ho.2 (i := ⟨u, hu⟩) (j := ⟨v, hv⟩) (fun h => huv (congrArg Subtype.val h))
        rwa [hb] at this
      have := norm_sub_sq_real u v
      rw [n1, n2, n3] at this
      rw [dist_eq_norm]
      nlinarith [norm_nonneg (u - v)]
    exact hd.countable_of_isOpen (fun _ _ => Metric.isOpen_ball) fun v _ => ⟨v, Metric.mem_ball_self (by norm_num)⟩
  haveI : Countable w := hw.to_subtype
  obtain ⟨en, hen⟩ := exists_injective_nat w
  refine ⟨fun n x => Function.extend en (fun i => inner ℝ (b i) (z x)) 0 n, fun n => ?_, fun x y => ?_⟩
  · by_cases h : n ∈ Set.range en
    · obtain ⟨i, rfl⟩ := h
      simp only [hen.extend_apply]
      exact continuous_const.inner hcont
    · simp only [Function.extend_apply' _ _ n h]
      exact continuous_const
  · have h1 := b.hasSum_inner_mul_inner (z y) (z x)
    rw [hz] at h1
    rw [← hen.hasSum_iff]
    · refine h1.congr_fun fun i => ?_
      simp only [Function.comp_apply, hen.extend_apply]
      rw [mul_comm, real_inner_comm]
    · intro n hn
      simp only [Function.extend_apply' _ _ n hn]
      exact zero_mul _

theorem matern1_continuous (p : ℕ) (l : ℝ) : Continuous fun z : ℝ × ℝ => Cov.matern1 p l z.1 z.2 := by
  simp only [Cov.matern1, Cov.maternValue, Cov.hornerLoop_eq]
  fun_prop

/-- Without closed form the value is not given. -/
theorem productValue_none {dim : ℕ} {ms : Fin dim → Matern1} {i : Fin dim} (hi : (ms i).p = none) (x y : Fin dim → ℝ) :
    productValue ms x y = none := by
  have h0 : ∀ is : List (Fin dim), is.foldl (fun acc i => acc.bind fun u =>
      ((ms i).value (x i) (y i)).map fun v => u * v) none = none := by
    intro is
    induction is with
    | nil => rfl
    | cons j is ih => rw [List.foldl_cons, Option.bind_none, ih]
  have h : ∀ (is : List (Fin dim)) (acc : Option ℝ), i ∈ is → is.foldl (fun acc i => acc.bind fun u =>
      ((ms i).value (x i) (y i)).map fun v => u * v) acc = none := by
    intro is
    induction is with
    | nil => intro acc h; cases h
    | cons j is ih =>
      intro acc h
      rw [List.foldl_cons]
      rcases List.mem_cons.1 h with rfl | h
      · rw [Matern1.value, hi]
        cases acc <;> exact h0 is
      · exact ih _ h
  exact h _ _ (List.mem_finRange i)

theorem zero_kernel {D : ℕ} : Cov.IsPSD (fun _ _ : Fin D → ℝ => (0 : ℝ)) ∧ Continuous fun _ : (Fin D → ℝ) × (Fin D → ℝ) => (0 : ℝ) :=
  ⟨Cov.IsPSD.const le_rfl, continuous_const⟩

theorem product_kernel {D : ℕ} {ms : Fin D → Matern1} (h : ∀ i, 0 < (ms i).ell) :
    Cov.IsPSD (fun x y : Fin D → ℝ => (productValue ms x y).getD 0) ∧
      Continuous fun p : (Fin D → ℝ) × (Fin D → ℝ) => (productValue ms p.1 p.2).getD 0 := by
  by_cases hp : ∃ i, (ms i).p = none
  · obtain ⟨i, hi⟩ := hp
    simp only [productValue_none hi, Option.getD_none]
    exact zero_kernel
  · have hp' : ∀ i, ∃ p, (ms i).p = some p := fun i => Option.ne_none_iff_exists'.1 fun hi => hp ⟨i, hi⟩
    choose p hp' using hp'
    have hv : ∀ i x0 x1, (ms i).value x0 x1 = some (Cov.matern1 (p i) (ms i).ell x0 x1) := by
      intro i x0 x1
      rw [Matern1.value, hp', Option.map_some]
    simp only [productValue_eq hv, Option.getD_some]
    refine ⟨psd_coord fun i => matern1_psd (p i) (h i), continuous_finset_prod _ fun i _ => ?_⟩
    exact (matern1_continuous (p i) (ms i).ell).comp (f := fun z : (Fin D → ℝ) × (Fin D → ℝ) => (z.1 i, z.2 i)) (by fun_prop)

/-- The kernels of Bayesian quadrature are continuous covariance functions. -/
theorem kernelValue_psd {D : ℕ} {k : AnyKernel} (hk : k.Proper) :
    Cov.IsPSD (kernelValue (D := D) k) ∧ Continuous fun p : (Fin D → ℝ) × (Fin D → ℝ) => kernelValue k p.1 p.2 := by
  match k, hk with
  | .expQuad _ (.inl l), _ =>
    refine ⟨expquad_psd l, ?_⟩
    simp only [kernelValue, expquad]
    fun_prop
  | .expQuad _ (.inr _), _ => exact zero_kernel
  | .other _, _ => exact zero_kernel
  | .matern dim km, hk =>
    by_cases h : dim = D
    · subst h
      cases hc : convertToProduct km with
      | error e =>
        have : (kernelValue (.matern dim km) : (Fin dim → ℝ) → (Fin dim → ℝ) → ℝ) = fun _ _ => 0 := by
          funext x y
          rw [kernelValue, dif_pos rfl, hc]
        rw [this]
        exact zero_kernel
      | ok ms =>
        have hpos : ∀ i, 0 < (ms i).ell := by
          match km, hk, hc with
          | .product ms', hk, hc => cases hc; exact fun i => (hk i).2
          | .matern (.inl l) nu, hk, hc =>
            rw [convertToProduct] at hc
            split at hc
            · cases hc
            · cases hc; exact fun i => hk.2
          | .matern (.inr ls) nu, hk, hc =>
            rw [convertToProduct] at hc
            split at hc <;> cases hc
        have : (kernelValue (.matern dim km) : (Fin dim → ℝ) → (Fin dim → ℝ) → ℝ) = fun x y => (productValue ms x y).getD 0 := by
          funext x y
          rw [kernelValue, dif_pos rfl, hc]
          rfl
        rw [this]
        exact product_kernel hpos
    · have : (kernelValue (.matern dim km) : (Fin D → ℝ) → (Fin D → ℝ) → ℝ) = fun _ _ => 0 := by
        funext x y
        rw [kernelValue, dif_neg h]
      rw [this]
      exact zero_kernel

end Probnum.Quad
