import Verif.Quad.Front
import Verif.Quad.PropsBayes
import Verif.Quad.PropsMatern
import Verif.Quad.PropsNodes
import Verif.Quad.PropsLoop
import Verif.Cov.PropsPsd

/-! # Front ends of Bayesian quadrature: specification and lemmas -/

namespace Probnum.Quad

open Probnum Probnum.Linops Probnum.Cov Finset MeasureTheory ProbabilityTheory Probnum.Gauss

/-! ## Specification -/

/-- The parameters are as the constructors of the kernels demand (`covfuncs/_matern.py`: positive smoothness and
lengthscale) or document (`_exponentiated_quadratic.py`: positive lengthscale). -/
def AnyKernel.Proper : AnyKernel → Prop
  | .expQuad _ (.inl l) => 0 < l
  | .expQuad _ (.inr _) => True
  | .matern _ (.matern (.inl l) nu) => 0 < nu ∧ 0 < l
  | .matern _ (.matern (.inr _) _) => True
  | .matern _ (.product ms) => ∀ i, 0 < (ms i).nu ∧ 0 < (ms i).ell
  | .other _ => True

/-- `μ` is the measure that the object stands for: a normal distribution, or the Lebesgue measure on a box times a
constant. -/
def IsMeasure {D : ℕ} : AnyMeasure D → Measure (Fin D → ℝ) → Prop
  | .gaussian g, μ => g.FlagCorrect ∧ IsNormal μ id g.mean g.cov
  | .lebesgue a b c, μ => a ≤ b ∧ 0 ≤ c ∧ μ = ENNReal.ofReal c • volume.restrict (Set.Icc a b)
  | .other, _ => False

/-- The locations at which the kernel mean is an integral: the domain for Matérn kernels, everything otherwise. -/
def region {D : ℕ} : AnyKernel → AnyMeasure D → Set (Fin D → ℝ)
  | .matern _ _, .lebesgue a b _ => Set.Icc a b
  | _, _ => Set.univ

/-! ## Kernels are positive semidefinite -/

theorem psd_prod {α ι : Type} {k : ι → α → α → ℝ} (s : Finset ι) (h : ∀ i, IsPSD (k i)) : IsPSD fun x y => ∏ i ∈ s, k i x y := by
  classical
  induction s using Finset.induction_on with
  | empty => exact (IsPSD.const zero_le_one).congr fun _ _ => by simp
  | insert i s hi ih => exact ((h i).mul ih).congr fun _ _ => by rw [prod_insert hi]

theorem psd_coord {D : ℕ} {k : Fin D → ℝ → ℝ → ℝ} (h : ∀ i, IsPSD (k i)) :
    IsPSD fun x y : Fin D → ℝ => ∏ i, k i (x i) (y i) :=
  psd_prod (k := fun i (x y : Fin D → ℝ) => k i (x i) (y i)) univ fun i n X => h i n fun a => X a i

theorem expquad_prod {D : ℕ} (l : ℝ) (x y : Fin D → ℝ) :
    expquad l x y = ∏ i, Real.exp (-(1 / (2 * l ^ 2) * (x i - y i) ^ 2)) := by
  rw [expquad, ← Real.exp_sum, Finset.sum_neg_distrib, ← Finset.mul_sum]
  congr 1
  ring

theorem expquad_psd {D : ℕ} (l : ℝ) : IsPSD (expquad l : (Fin D → ℝ) → (Fin D → ℝ) → ℝ) :=
  (psd_coord (D := D) (k := fun _ x y => Real.exp (-(1 / (2 * l ^ 2) * (x - y) ^ 2))) fun _ =>
    IsPSD.expSq (by positivity) fun x : ℝ => x).congr fun x y => expquad_prod l x y

theorem matern1_psd (p : ℕ) {l : ℝ} (hl : 0 < l) : IsPSD (matern1 p l) := by
  refine (IsPSD.matern (ν := p + 1 / 2) (by positivity) (c := Real.sqrt (2 * p + 1) / l) (by positivity)
    (fun _ (x : ℝ) => x) 1).congr fun x y => ?_
  rw [matern1_eq p hl, maternValue_doc p (by positivity)]
  simp [Real.sqrt_sq_eq_abs]

theorem supported_half {m : Matern1} (hm : Supported m) : ∃ n : ℕ, m.nu = n + 1 / 2 := by
  rcases hm with h | h | h | h
  · exact ⟨0, by rw [h]; norm_num⟩
  · exact ⟨1, by rw [h]; norm_num⟩
  · exact ⟨2, by rw [h]; norm_num⟩
  · exact ⟨3, by rw [h]; norm_num⟩

theorem value_psd {m : Matern1} (hm : Supported m) (hl : 0 < m.ell) {k : ℝ → ℝ → ℝ}
    (hv : ∀ x0 x1, m.value x0 x1 = some (k x0 x1)) : IsPSD k := by
  obtain ⟨n, hn⟩ := supported_half hm
  refine (matern1_psd n hl).congr fun x y => ?_
  have := hv x y
  rw [value_half hn] at this
  exact (Option.some.inj this).symm

theorem prodLoop_all {dim : ℕ} {f : Fin dim → Res ℝ} : ∀ (is : List (Fin dim)) {acc v : ℝ},
    prodLoop f is acc = .ok v → ∀ i ∈ is, ∃ w, f i = .ok w
  | [], _, _, _, i, hi => by cases hi
  | j :: is, acc, v, h, i, hi => by
    rw [prodLoop] at h
    cases hj : f j with
    | error e => rw [hj] at h; cases h
    | ok w =>
      rw [hj] at h
      rcases List.mem_cons.1 hi with rfl | hi
      · exact ⟨w, hj⟩
      · exact prodLoop_all is h i hi

/-! ## Embeddings -/

theorem integral_scaled {D : ℕ} {c : ℝ} (hc : 0 ≤ c) (ν : Measure (Fin D → ℝ)) (f : (Fin D → ℝ) → ℝ) :
    ∫ x, f x ∂(ENNReal.ofReal c • ν) = c * ∫ x, f x ∂ν := by
  rw [integral_smul_measure, ENNReal.toReal_ofReal hc, smul_eq_mul]

theorem box_finite {D : ℕ} (a b : Fin D → ℝ) (c : ℝ) :
    IsFiniteMeasure (ENNReal.ofReal c • (volume : Measure (Fin D → ℝ)).restrict (Set.Icc a b)) := by
  have : IsFiniteMeasure ((volume : Measure (Fin D → ℝ)).restrict (Set.Icc a b)) :=
    ⟨by rw [Measure.restrict_apply_univ]; exact isCompact_Icc.measure_lt_top⟩
  exact Measure.smul_finite _ ENNReal.ofReal_ne_top

/-- A symmetric continuous kernel on a box. -/
theorem embeds_box {D : ℕ} {P : Problem (Fin D → ℝ)} {a b : Fin D → ℝ} {c : ℝ} (hc : 0 ≤ c) {S : Set (Fin D → ℝ)}
    (sym : ∀ x y, P.k x y = P.k y x) (cont : Continuous fun z : (Fin D → ℝ) × (Fin D → ℝ) => P.k z.1 z.2)
    (hm : ∀ x ∈ S, P.mean x = c * ∫ t in Set.Icc a b, P.k t x)
    (hv : P.var = c ^ 2 * ∫ x in Set.Icc a b, ∫ t in Set.Icc a b, P.k t x) :
    Embeds P (ENNReal.ofReal c • volume.restrict (Set.Icc a b)) S where
  finite := box_finite a b c
  sym := sym
  mean := fun x hx => by
    rw [hm x hx, integral_scaled hc]
    simp only [sym x]
  var := by
    rw [hv, integral_scaled hc]
    simp only [integral_scaled hc]
    rw [integral_const_mul, ← mul_assoc, pow_two]
    congr 1
    refine integral_congr_ae (.of_forall fun x => ?_)
    simp only [sym x]
  diag := by
    refine Integrable.smul_measure ?_ ENNReal.ofReal_ne_top
    have : Continuous fun x => P.k x x := cont.comp (continuous_id.prodMk continuous_id)
    exact this.continuousOn.integrableOn_compact isCompact_Icc

theorem isNormal_comp {D : ℕ} {Ω : Type} [MeasurableSpace Ω] {Q : Measure Ω} {Z : Ω → Fin D → ℝ} {μ : Measure (Fin D → ℝ)}
    (hZ : Measurable Z) (e : Q.map Z = μ) {m : Fin D → ℝ} {C : Matrix (Fin D) (Fin D) ℝ} (h : IsNormal μ id m C) :
    IsNormal Q Z m C := by
  subst e
  refine ⟨⟨?_⟩, fun i => ?_, fun i j => ?_⟩
  · have := h.gaussian.isGaussian_map
    rwa [Measure.map_id] at this
  · rw [← h.mean i, integral_map hZ.aemeasurable]
    · rfl
    · exact (by fun_prop : Measurable fun x : Fin D → ℝ => x i).aestronglyMeasurable
  · rw [← h.cov i j, covariance_map]
    · rfl
    · exact (by fun_prop : Measurable fun x : Fin D → ℝ => x i).aestronglyMeasurable
    · exact (by fun_prop : Measurable fun x : Fin D → ℝ => x j).aestronglyMeasurable
    · exact hZ.aemeasurable

theorem expquad_continuous {D : ℕ} (l : ℝ) : Continuous fun z : (Fin D → ℝ) × (Fin D → ℝ) => expquad l z.1 z.2 := by
  unfold expquad
  fun_prop

theorem expquad_sym {D : ℕ} (l : ℝ) (x y : Fin D → ℝ) : expquad l x y = expquad l y x := (isPSD_iff.1 (expquad_psd l)).1 x y

theorem embeds_gauss {D : ℕ} {P : Problem (Fin D → ℝ)} {l : ℝ} (hl : 0 < l) {g : GaussMeasure D} (hf : g.FlagCorrect)
    {μ : Measure (Fin D → ℝ)} (hμ : IsNormal μ id g.mean g.cov) (hk : P.k = expquad l)
    (hm : ∀ x, expquadGaussMean (.inl l) g x = .ok (P.mean x)) (hv : expquadGaussVariance (.inl l) g = .ok P.var) :
    Embeds P μ Set.univ := by
  have := hμ.isProbabilityMeasure
  have h1 : IsNormal (μ.prod μ) Prod.fst g.mean g.cov := isNormal_comp measurable_fst Measure.fst_prod hμ
  have h2 : IsNormal (μ.prod μ) Prod.snd g.mean g.cov := isNormal_comp measurable_snd Measure.snd_prod hμ
  have hi : IndepFun (Prod.fst : (Fin D → ℝ) × (Fin D → ℝ) → _) Prod.snd (μ.prod μ) := by
    rw [indepFun_iff_map_prod_eq_prod_map_map (by fun_prop) (by fun_prop)]
    have e1 : (μ.prod μ).map Prod.fst = μ := Measure.fst_prod
    have e2 : (μ.prod μ).map Prod.snd = μ := Measure.snd_prod
    rw [e1, e2]
    exact Measure.map_id
  refine ⟨inferInstance, fun x y => by rw [hk, expquad_sym], fun x _ => ?_, ?_, ?_⟩
  · have := (hm x).symm.trans (expquad_gauss_mean hl hf hμ x)
    rw [Except.ok.inj this, hk]
    refine integral_congr_ae (.of_forall fun y => expquad_sym l y x)
  · have := hv.symm.trans (expquad_gauss_variance hl hf h1 h2 hi)
    rw [Except.ok.inj this, hk, integral_prod]
    exact expquad_integrable l h1 h2
  · rw [hk]
    exact expquad_integrable l hμ hμ

/-- Problems built by the library: the kernel, and kernel mean and variance where they are integrals. -/
theorem problemOf_embeds {D : ℕ} {k : AnyKernel} {m : AnyMeasure D} {P : Problem (Fin D → ℝ)}
    (h : problemOf k ⟨D, m⟩ = .ok P) (hk : k.Proper) :
    P.k = kernelValue k ∧ IsPSD P.k ∧ Continuous (fun z : (Fin D → ℝ) × (Fin D → ℝ) => P.k z.1 z.2) ∧
      ∀ μ, IsMeasure m μ → Embeds P μ (region k m) := by
  rw [problemOf] at h
  cases he : kernelEmbedding k m with
  | error e => dsimp only at h; rw [he] at h; cases h
  | ok emb =>
    dsimp only at h
    rw [he] at h
    dsimp only at h
    cases hv : emb.variance with
    | error e => rw [hv] at h; cases h
    | ok v =>
      rw [hv] at h
      dsimp only at h
      rw [dif_pos rfl] at h
      have h := Except.ok.inj h
      dsimp only [Fin.cast_eq_self] at h
      subst h
      rw [kernelEmbedding] at he
      split at he
      · cases he
      next hs =>
      have hs := not_not.1 hs
      refine ⟨rfl, ?_⟩
      cases k with
      | other s => cases m <;> cases he
      | expQuad s ls =>
        cases ls with
        | inr ls =>
          exfalso
          cases m with
          | other => cases he
          | gaussian g => cases he; cases hv
          | lebesgue a b c => cases he; cases hv
        | inl l =>
          have hs' : s = [D] := hs
          subst hs'
          have hl : 0 < l := hk
          have hkv : (kernelValue (.expQuad [D] (.inl l)) : (Fin D → ℝ) → (Fin D → ℝ) → ℝ) = expquad l := rfl
          refine ⟨expquad_psd l, expquad_continuous l, fun μ hμ => ?_⟩
          cases m with
          | other => cases hμ
          | gaussian g =>
            obtain ⟨hf, hn⟩ := hμ
            have he' := Except.ok.inj he
            subst he'
            refine embeds_gauss hl hf hn hkv (fun x => ?_) hv
            dsimp only
            rw [expquad_gauss_mean hl hf hn x]
          | lebesgue a b c =>
            obtain ⟨hab, hc, rfl⟩ := hμ
            obtain ⟨e', he', hm', hv'⟩ := expquad_lebesgue_embedding hl hab c
            rw [kernelEmbedding, if_neg (by simp [AnyKernel.shape])] at he'
            obtain rfl := Except.ok.inj (he'.symm.trans he)
            refine embeds_box hc (fun x y => expquad_sym l x y) (expquad_continuous l) (fun x _ => ?_) ?_
            · dsimp only
              rw [hm' x]
              rfl
            · exact Except.ok.inj (hv.symm.trans hv')
      | matern dim km =>
        have hs' : dim = D := by simpa [AnyKernel.shape] using hs
        subst hs'
        cases m with
        | other => cases he
        | gaussian g => cases he
        | lebesgue a b c =>
          rw [getEmbedding, dif_pos rfl] at he
          have he' := Except.ok.inj he
          subst he'
          dsimp only [Fin.cast_eq_self] at hv ⊢
          cases hc : convertToProduct km with
          | error e =>
            rw [kernelVariance, dif_pos rfl, hc] at hv
            cases hv
          | ok ms =>
            have hpos : ∀ i, 0 < (ms i).ell := by
              cases km with
              | product ms' => rw [convertToProduct] at hc; cases hc; exact fun i => (hk i).2
              | matern ls nu =>
                cases ls with
                | inr _ => rw [convertToProduct.eq_def] at hc; dsimp only at hc; split at hc <;> cases hc
                | inl l =>
                  rw [convertToProduct.eq_def] at hc
                  dsimp only at hc
                  split at hc
                  · cases hc
                  · cases hc; exact fun i => hk.2
            have hkm : ∀ x, kernelMean km a b c x = kernelMean (.product ms) a b c x := by
              intro x
              rw [kernelMean, kernelMean, dif_pos rfl, dif_pos rfl, hc, convertToProduct]
            have hkv : kernelVariance km a b c = kernelVariance (.product ms) a b c := by
              rw [kernelVariance, kernelVariance, dif_pos rfl, dif_pos rfl, hc, convertToProduct]
            rw [hkv] at hv
            have hsup : ∀ i, Supported (ms i) := by
              rw [kernelVariance, dif_pos rfl, convertToProduct] at hv
              dsimp only [Fin.cast_eq_self] at hv
              rw [kernelVarianceProduct] at hv
              intro i
              by_contra hcon
              cases hp : prodLoop (fun i => kernelVariance1 (ms i) (a i) (b i)) (List.finRange dim) 1 with
              | error e => rw [hp] at hv; cases hv
              | ok w =>
                obtain ⟨w', hw'⟩ := prodLoop_all _ hp i (List.mem_finRange i)
                rw [variance1_unsupported hcon] at hw'
                cases hw'
            choose k' cont hval _ _ using fun i => matern_embedding (hsup i) (hpos i)
            have hkv' : (kernelValue (.matern dim km) : (Fin dim → ℝ) → (Fin dim → ℝ) → ℝ) = fun x y => ∏ i, k' i (x i) (y i) := by
              funext x y
              rw [kernelValue, dif_pos rfl, hc]
              dsimp only [Fin.cast_eq_self]
              rw [productValue_eq hval]
              rfl
            have hpsd : IsPSD (kernelValue (.matern dim km) : (Fin dim → ℝ) → (Fin dim → ℝ) → ℝ) := by
              rw [hkv']
              exact psd_coord fun i => value_psd (hsup i) (hpos i) (hval i)
            have hcont : Continuous fun z : (Fin dim → ℝ) × (Fin dim → ℝ) => kernelValue (.matern dim km) z.1 z.2 := by
              rw [hkv']
              refine continuous_finset_prod _ fun i _ => ?_
              exact (cont i).comp (f := fun z : (Fin dim → ℝ) × (Fin dim → ℝ) => (z.1 i, z.2 i)) (by fun_prop)
            refine ⟨hpsd, hcont, fun μ hμ => ?_⟩
            obtain ⟨hab, h0, rfl⟩ := hμ
            obtain ⟨k2, e1, e2, e3⟩ := matern_product_embedding hsup hpos hab c
            have hk2 : (kernelValue (.matern dim km) : (Fin dim → ℝ) → (Fin dim → ℝ) → ℝ) = k2 := by
              rw [hkv']
              funext x y
              exact Option.some.inj ((productValue_eq hval x y).symm.trans (e1 x y))
            refine embeds_box h0 (isPSD_iff.1 hpsd).1 hcont (fun x hx => ?_) ?_
            · dsimp only
              rw [hkm, e2 x hx]
              dsimp only
              rw [hk2]
            · dsimp only
              rw [hk2]
              exact Except.ok.inj (hv.symm.trans e3)

end Probnum.Quad
