import Verif.Gauss.Lemmas

/-! # Conditional distributions of sums of independent variables -/

namespace Probnum.Gauss

open MeasureTheory ProbabilityTheory Measure

/-- A product of products is a product of two products. -/
theorem pi_prod {L : Type*} [Fintype L] {α β : L → Type*} [∀ l, MeasurableSpace (α l)] [∀ l, MeasurableSpace (β l)]
    (μ : ∀ l, Measure (α l)) (ν : ∀ l, Measure (β l)) [∀ l, IsProbabilityMeasure (μ l)] [∀ l, IsProbabilityMeasure (ν l)] :
    (Measure.pi fun l => (μ l).prod (ν l)).map (fun z => ((fun l => (z l).1), fun l => (z l).2)) =
      (Measure.pi μ).prod (Measure.pi ν) := by
  refine (Measure.prod_eq_generateFrom generateFrom_pi generateFrom_pi isPiSystem_pi isPiSystem_pi
    (FiniteSpanningSetsIn.pi fun i ↦ (μ i).toFiniteSpanningSetsIn) (FiniteSpanningSetsIn.pi fun i ↦ (ν i).toFiniteSpanningSetsIn)
    ?_).symm
  rintro _ ⟨s, hs, rfl⟩ _ ⟨t, ht, rfl⟩
  have hs' : ∀ i, MeasurableSet (s i) := fun i => hs i trivial
  have ht' : ∀ i, MeasurableSet (t i) := fun i => ht i trivial
  rw [map_apply (by fun_prop) ((MeasurableSet.univ_pi hs').prod (MeasurableSet.univ_pi ht')),
    show (fun z : ∀ l, α l × β l => ((fun l => (z l).1 : ∀ l, α l), fun l => (z l).2)) ⁻¹' (Set.univ.pi s ×ˢ Set.univ.pi t) =
      (Set.univ.pi fun i ↦ s i ×ˢ t i) by ext; simp [Set.mem_pi, forall_and]]
  simp_rw [pi_pi, prod_prod, Finset.prod_mul_distrib]

/-- If pairs are independent of each other, and so are the two components of each pair, then the family of the first
components is independent of the family of the second components. -/
theorem indep_families {Ω L : Type*} {mΩ : MeasurableSpace Ω} {P : Measure Ω} [Fintype L] {α β : L → Type*}
    [∀ l, MeasurableSpace (α l)] [∀ l, MeasurableSpace (β l)] {A : ∀ l, Ω → α l} {B : ∀ l, Ω → β l}
    (hA : ∀ l, AEMeasurable (A l) P) (hB : ∀ l, AEMeasurable (B l) P) (h : ∀ l, IndepFun (A l) (B l) P)
    (hi : iIndepFun (fun l ω => (A l ω, B l ω)) P) :
    IndepFun (fun ω l => A l ω) (fun ω l => B l ω) P ∧ iIndepFun A P ∧ iIndepFun B P := by
  have := hi.isProbabilityMeasure
  have hAi : iIndepFun A P := hi.comp (fun _ => Prod.fst) fun _ => measurable_fst
  have hBi : iIndepFun B P := hi.comp (fun _ => Prod.snd) fun _ => measurable_snd
  refine ⟨?_, hAi, hBi⟩
  have : ∀ l, IsProbabilityMeasure (P.map (A l)) := fun l => Measure.isProbabilityMeasure_map (hA l)
  have : ∀ l, IsProbabilityMeasure (P.map (B l)) := fun l => Measure.isProbabilityMeasure_map (hB l)
  rw [indepFun_iff_map_prod_eq_prod_map_map (by fun_prop) (by fun_prop), hAi.map_fun_eq_pi_map hA, hBi.map_fun_eq_pi_map hB,
    ← pi_prod]
  have e := hi.map_fun_eq_pi_map fun l => (hA l).prodMk (hB l)
  have e2 : (fun l => P.map fun ω => (A l ω, B l ω)) = fun l => (P.map (A l)).prod (P.map (B l)) := by
    funext l
    exact (indepFun_iff_map_prod_eq_prod_map_map (hA l) (hB l)).1 (h l)
  rw [e2] at e
  rw [← e, AEMeasurable.map_map_of_aemeasurable (by fun_prop) (by fun_prop)]
  rfl

theorem cov_indep {Ω : Type*} {mΩ : MeasurableSpace Ω} {P : Measure Ω} [IsProbabilityMeasure P] {U V : Ω → ℝ}
    (hU : MemLp U 2 P) (hV : MemLp V 2 P) (h : IndepFun U V P) : cov[U, V; P] = 0 := h.covariance_eq_zero hU hV

/-- Sums of independent normal variables are normal. -/
theorem IsNormal.sum {Ω L ι : Type*} {mΩ : MeasurableSpace Ω} {P : Measure Ω} [Fintype L] [Fintype ι] {X : L → Ω → ι → ℝ}
    {m : L → ι → ℝ} {C : L → Matrix ι ι ℝ} (h : ∀ l, IsNormal P (X l) (m l) (C l)) (hi : iIndepFun X P) :
    IsNormal P (fun ω => ∑ l, X l ω) (∑ l, m l) (∑ l, C l) := by
  classical
  have := hi.isProbabilityMeasure
  refine ⟨iIndepFun.hasGaussianLaw_fun_sum (fun l => (h l).gaussian) hi, fun i => ?_, fun i j => ?_⟩
  · simp only [Finset.sum_apply]
    rw [integral_finsetSum _ fun l _ => integrable_coord (h l).gaussian i]
    exact Finset.sum_congr rfl fun l _ => (h l).mean i
  · simp only [Finset.sum_apply]
    have e := covariance_fun_sum_fun_sum (μ := P) (X := fun l ω => X l ω i) (Y := fun l ω => X l ω j)
      (fun l => memLp_coord (h l).gaussian i) (fun l => memLp_coord (h l).gaussian j)
    rw [e, Matrix.sum_apply]
    refine Finset.sum_congr rfl fun l _ => ?_
    rw [Finset.sum_eq_single l]
    · exact (h l).cov i j
    · intro k _ hk
      refine cov_indep (memLp_coord (h l).gaussian i) (memLp_coord (h k).gaussian j) ?_
      exact (hi.indepFun (Ne.symm hk)).comp (measurable_pi_apply i) (measurable_pi_apply j)
    · exact fun h => absurd (Finset.mem_univ _) h

/-- The conditional distribution of a sum of independent terms, each with its own observations, is normal with the sum of
the means and the sum of the covariances. -/
theorem IsConditional.sum {Ω L ι : Type*} {mΩ : MeasurableSpace Ω} {P : Measure Ω} [Fintype L] [Fintype ι] {β : L → Type*}
    [∀ l, MeasurableSpace (β l)] {X : L → Ω → ι → ℝ} {Y : ∀ l, Ω → β l} {f : ∀ l, β l → ι → ℝ} {C : L → Matrix ι ι ℝ}
    (h : ∀ l, IsConditional P (X l) (Y l) (f l) (C l)) (hY : ∀ l, AEMeasurable (Y l) P)
    (hi : iIndepFun (fun l ω => (X l ω, Y l ω)) P) :
    IsConditional P (fun ω => ∑ l, X l ω) (fun ω l => Y l ω) (fun y => ∑ l, f l (y l)) (∑ l, C l) := by
  have hf := fun l => (h l).measurable
  have hR : iIndepFun (fun l ω => (X l ω - f l (Y l ω), Y l ω)) P :=
    hi.comp (fun l z => (z.1 - f l z.2, z.2)) fun l => by fun_prop
  obtain ⟨h1, h2, -⟩ := indep_families (A := fun l ω => X l ω - f l (Y l ω)) (B := Y)
    (fun l => (h l).residual.gaussian.aemeasurable) hY (fun l => (h l).indep) hR
  have e : (fun ω => ∑ l, X l ω - ∑ l, f l (Y l ω)) = fun ω => ∑ l, (X l ω - f l (Y l ω)) := by
    funext ω
    rw [Finset.sum_sub_distrib]
  refine ⟨Finset.measurable_sum _ fun l _ => (hf l).comp (measurable_pi_apply l), ?_, ?_⟩
  · rw [e]
    exact h1.comp (φ := fun r : L → ι → ℝ => ∑ l, r l) (by fun_prop) measurable_id
  · rw [e]
    have := IsNormal.sum (fun l => (h l).residual) h2
    simpa using this

end Probnum.Gauss
