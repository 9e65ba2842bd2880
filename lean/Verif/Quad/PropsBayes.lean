import Verif.Quad.Bayes
import Verif.Gauss.Density
import Verif.OdeFilter.PropsStep
import Mathlib.Analysis.SpecialFunctions.Integrals.Basic

/-! # Property C79: the belief of Bayesian quadrature is the conditional distribution of the integral -/

namespace Probnum.Quad

open Probnum Probnum.Linops Finset MeasureTheory ProbabilityTheory Probnum.Gauss
open scoped Matrix

variable {Ω X : Type} [mΩ : MeasurableSpace Ω] [mX : MeasurableSpace X] {Q : Measure Ω} {g : X → Ω → ℝ} {P : Problem X} {u : Update}
  {μ : Measure X} {S : Set X}

/-- **C79.**  For every state that updates can reach: under the prior that the integrand is a Gaussian process with the
kernel times the scale as its covariance, observed with noise of variance scale times jitter, the conditional distribution
of the pair `(∫ g dμ, g(x))` given the values at the nodes is normal.  The belief holds mean and variance of the integral
at the data, `predict` those of `g(x)`, and the acquisition function IVR is the squared correlation of the two.  (Nodes and
`x` are in the set `S` on which the kernel mean is the integral of the kernel.) -/
theorem bq_conditional (hP : Embeds P μ S) {s : State X} (h : Reachable u P s) (hn : ∀ y ∈ s.nodes, y ∈ S)
    {e : Fin s.nodes.length → Ω → ℝ} (hg : IsPrior Q g e (fun x y => s.scaleSq * P.k x y) (s.scaleSq * u.jitter)) {x : X}
    (hx : x ∈ S) :
    ∃ (f : (Fin s.nodes.length → ℝ) → Fin 2 → ℝ) (c : ℝ),
      IsConditional Q (fun ω => ![∫ x, g x ω ∂μ, g x ω]) (fun ω (i : Fin s.nodes.length) => g s.nodes[i] ω + e i ω) f
        !![s.belief.2, c; c, (predict P s x).2] ∧
      f (fun i => vec s.evals i) = ![s.belief.1, (predict P s x).1] ∧
      (s.belief.2 * (predict P s x).2 ≠ 0 → ivr P s x = some (c ^ 2 / (s.belief.2 * (predict P s x).2))) := by
  have := hP.finite
  have := hg.prob
  obtain ⟨hs, hb, -, hp, hf⟩ := reach_unified hP.sym h
  obtain ⟨gI, cI⟩ := hg.integral (μ := μ) (hP.diag.const_mul s.scaleSq)
  have lg : ∀ x, MemLp (g x) 2 Q := fun x => hg.memLp (.inl x)
  have le : ∀ i, MemLp (e i) 2 Q := fun i => hg.memLp (.inr i)
  have cI0 : ∀ y, cov[fun ω => ∫ x, g x ω ∂μ, g y; Q] = s.scaleSq * ∫ z, P.k y z ∂μ := by
    intro y
    rw [cI _ (lg y), ← integral_const_mul]
    refine integral_congr_ae (.of_forall fun z => ?_)
    show cov[g z, g y; Q] = _
    rw [hg.cov, hP.sym]
  have cIx : ∀ y ∈ S, cov[fun ω => ∫ x, g x ω ∂μ, g y; Q] = s.scaleSq * P.mean y := by
    intro y hy
    rw [cI0, hP.mean y hy]
  have cII : cov[fun ω => ∫ x, g x ω ∂μ, fun ω => ∫ x, g x ω ∂μ; Q] = s.scaleSq * P.var := by
    rw [cI _ gI.memLp, hP.var, ← integral_const_mul]
    refine integral_congr_ae (.of_forall fun z => ?_)
    show cov[g z, fun ω => ∫ x, g x ω ∂μ; Q] = _
    rw [covariance_comm, cI0]
  have cIe : ∀ i, cov[fun ω => ∫ x, g x ω ∂μ, e i; Q] = 0 := by
    intro i
    rw [cI _ (le i)]
    simp [hg.uncorrelated]
  let Z : Fin 2 → Ω → ℝ := ![fun ω => ∫ x, g x ω ∂μ, g x]
  let a : Fin 2 → ℕ → ℝ := ![vec (s.nodes.map P.mean), fun i => kernelMatrix P.k s.nodes [x] i 0]
  have hZ : ∀ t, Generated Q (Sum.elim g e : X ⊕ Fin s.nodes.length → Ω → ℝ) (Z t) := by
    intro t
    fin_cases t
    · exact gI
    · exact hg.gen (.inl x)
  have hA : ∀ t r, cov[Z t, Z r; Q] =
      !![s.scaleSq * P.var, s.scaleSq * P.mean x; s.scaleSq * P.mean x, s.scaleSq * P.k x x] t r := by
    intro t r
    fin_cases t <;> fin_cases r
    · exact cII
    · exact cIx x hx
    · show cov[g x, fun ω => ∫ x, g x ω ∂μ; Q] = _
      rw [covariance_comm]; exact cIx x hx
    · exact hg.cov x x
  have hag : ∀ t (i : Fin s.nodes.length), cov[Z t, g s.nodes[i]; Q] = s.scaleSq * a t i := by
    intro t i
    fin_cases t
    · show cov[fun ω => ∫ x, g x ω ∂μ, g s.nodes[i]; Q] = s.scaleSq * vec (s.nodes.map P.mean) i
      rw [cIx s.nodes[i] (hn _ (List.getElem_mem _)), vec, List.getD_eq_getElem _ _ (by simp), List.getElem_map]
      rfl
    · show cov[g x, g s.nodes[i]; Q] = s.scaleSq * kernelMatrix P.k s.nodes [x] i 0
      rw [hg.cov, cross_get _ _ i.2, hP.sym]
      rfl
  have hae : ∀ t i, cov[Z t, e i; Q] = 0 := by
    intro t i
    fin_cases t
    · exact cIe i
    · exact hg.uncorrelated x i
  have key := hg.conditional hP.sym hp hZ hA hag hae
  have hZf : (fun ω t => Z t ω) = fun ω => ![∫ x, g x ω ∂μ, g x ω] := by
    funext ω t
    fin_cases t <;> rfl
  rw [hZf] at key
  set M : Mat := kernelMatrix P.k s.nodes s.nodes + u.jitter • eye with hM
  have hc1 : s.scaleSq * P.mean x - s.scaleSq * dot s.nodes.length (choSolve s.nodes.length M (a 0)) (a 1) =
      s.scaleSq * postEmb P u.jitter s.nodes x := by
    have e1 : dot s.nodes.length (choSolve s.nodes.length M (a 0)) (a 1) =
        dot s.nodes.length (a 0) (choSolve s.nodes.length M (a 1)) := by
      rw [← bil_solves (choSolve_solves hp (a 1)), bil_comm ((posDef_iff _ _).1 hp).1, bil_solves (choSolve_solves hp (a 0)),
        dot_comm]
    rw [e1, postEmb, mul_sub]
    rfl
  have hc2 : s.scaleSq * P.mean x - s.scaleSq * dot s.nodes.length (choSolve s.nodes.length M (a 1)) (a 0) =
      s.scaleSq * postEmb P u.jitter s.nodes x := by
    rw [dot_comm, postEmb, mul_sub]
    rfl
  refine ⟨fun y t => ∑ i : Fin s.nodes.length, choSolve s.nodes.length M (a t) i * y i, s.scaleSq * postEmb P u.jitter s.nodes x, ?_, ?_, fun hden => ivr_eq hs hf x hden⟩
  · convert key using 1
    ext t r
    fin_cases t <;> fin_cases r
    · show s.belief.2 = s.scaleSq * P.var - s.scaleSq * dot s.nodes.length (choSolve s.nodes.length M (a 0)) (a 0)
      rw [hb, postVar, mul_sub]
      rfl
    · exact hc1.symm
    · exact hc2.symm
    · show (predict P s x).2 = s.scaleSq * P.k x x - s.scaleSq * dot s.nodes.length (choSolve s.nodes.length M (a 1)) (a 1)
      rw [predict_var hs hf, postPoint, mul_sub]
      rfl
  · funext t
    fin_cases t
    · show ∑ i : Fin s.nodes.length, choSolve s.nodes.length M (a 0) i * vec s.evals i = s.belief.1
      rw [reach_mean hP.sym h, dot, Finset.sum_range]
      rfl
    · show ∑ i : Fin s.nodes.length, choSolve s.nodes.length M (a 1) i * vec s.evals i = (predict P s x).1
      rw [predict_mean hs hf, dot, Finset.sum_range]
      rfl

theorem pdf_eq_density {n : ℕ} (m : Fin n → ℝ) {C : Matrix (Fin n) (Fin n) ℝ} (hC : C.PosDef) (x : Fin n → ℝ) :
    normalPdf m C x = OdeFilter.gaussDensity m C x := by
  have hd := hC.det_pos
  have hpi : (0 : ℝ) < 2 * Real.pi := by positivity
  rw [normalPdf, OdeFilter.gaussDensity, Real.sqrt_mul (by positivity), mul_inv, Real.sqrt_eq_rpow, Real.sqrt_eq_rpow,
    ← Real.rpow_neg (by positivity), ← Real.rpow_neg hd.le, ← Real.rpow_natCast, ← Real.rpow_mul hpi.le]
  have e1 : (n : ℝ) * -(1 / 2) = -(n : ℝ) / 2 := by ring
  have e2 : -(1 / 2 : ℝ) = -1 / 2 := by ring
  have e3 : ∀ q : ℝ, -q / 2 = -(1 / 2) * q := fun q => by ring
  rw [e1, e3 ((x - m) ⬝ᵥ _), e2]

/-- **C79.**  Under the prior, the values observed at the nodes have the density `N(0, v (K + jitter I))`. -/
theorem bq_likelihood {nodes : List X} {e : Fin nodes.length → Ω → ℝ} {v : ℝ} (hv : 0 < v)
    (hp : (toM nodes.length nodes.length (kernelMatrix P.k nodes nodes + u.jitter • eye)).PosDef)
    (hg : IsPrior Q g e (fun x y => v * P.k x y) (v * u.jitter)) :
    Q.map (fun ω (i : Fin nodes.length) => g nodes[i] ω + e i ω) = volume.withDensity fun y =>
      ENNReal.ofReal (normalPdf 0 (v • toM nodes.length nodes.length (kernelMatrix P.k nodes nodes + u.jitter • eye)) y) :=
  hg.observations.density (hp.smul hv)

/-- **C79.**  The estimated scale is the maximum likelihood estimate: no other scale gives the data as large a density. -/
theorem bq_scale_mle (sym : ∀ x y, P.k x y = P.k y x) (hu : u.scale = .mle) {s : State X} (h : Reachable u P s)
    (hd : ∃ i < s.nodes.length, vec s.evals i ≠ 0) :
    0 < s.scaleSq ∧ ∀ v : ℝ, 0 < v → v ≠ s.scaleSq →
      normalPdf 0 (v • toM s.nodes.length s.nodes.length (kernelMatrix P.k s.nodes s.nodes + u.jitter • eye))
          (fun i => vec s.evals i) <
        normalPdf 0 (s.scaleSq • toM s.nodes.length s.nodes.length (kernelMatrix P.k s.nodes s.nodes + u.jitter • eye))
          (fun i => vec s.evals i) := by
  obtain ⟨i, hi, hd⟩ := hd
  have hne : s.nodes ≠ [] := by
    intro e
    rw [e] at hi
    exact absurd hi (Nat.not_lt_zero _)
  obtain ⟨hp, h4, -, -, hl⟩ := closed_spec (reach_spec sym h hne).2.1
  have hn : 0 < s.nodes.length := by omega
  rw [hu, estimateScale, if_neg (not_not.2 hl), if_neg hn.ne'] at h4
  have h4 : _ = s.scaleSq := Except.ok.inj h4
  set M := kernelMatrix P.k s.nodes s.nodes + u.jitter • eye with hM
  set n := s.nodes.length with hnn
  let y : Fin n → ℝ := fun i => vec s.evals i
  have hu' : IsUnit (toM n n M).det := hp.det_pos.ne'.isUnit
  have hsol : ∀ i : Fin n, choSolve n M (vec s.evals) i = ((toM n n M)⁻¹.mulVec y) i := by
    have e1 : (toM n n M).mulVec (fun i : Fin n => choSolve n M (vec s.evals) i) = y := by
      funext i
      have := choSolve_solves hp (vec s.evals) i i.2
      rw [Finset.sum_range] at this
      exact this
    intro i
    rw [← e1, Matrix.mulVec_mulVec, Matrix.nonsing_inv_mul _ hu', Matrix.one_mulVec]
  have hq : s.scaleSq = (-y) ⬝ᵥ ((toM n n M)⁻¹.mulVec (-y)) / (n : ℝ) := by
    rw [← h4, dot, Finset.sum_range, Matrix.mulVec_neg, neg_dotProduct, dotProduct_neg, neg_neg]
    congr 1
    exact Finset.sum_congr rfl fun i _ => by rw [hsol]
  have hpos : 0 < s.scaleSq := by
    rw [hq, Matrix.mulVec_neg, neg_dotProduct, dotProduct_neg, neg_neg]
    refine div_pos ?_ (by exact_mod_cast hn)
    have hy : y ≠ 0 := fun e => hd (congrFun e ⟨i, hi⟩)
    have := hp.inv.dotProduct_mulVec_pos hy
    simpa using this
  refine ⟨hpos, fun v hv hne' => ?_⟩
  have shift : ∀ C : Matrix (Fin n) (Fin n) ℝ, OdeFilter.gaussDensity 0 C y = OdeFilter.gaussDensity (-y) C 0 := by
    intro C
    rw [OdeFilter.gaussDensity, OdeFilter.gaussDensity]
    simp
  rw [pdf_eq_density _ (hp.smul hv), pdf_eq_density _ (hp.smul hpos)]
  show OdeFilter.gaussDensity 0 _ y < OdeFilter.gaussDensity 0 _ y
  rw [shift, shift]
  exact OdeFilter.density_lt hp hn hv hq hpos hne'

/-! ## The hypotheses can be met -/

theorem linearProblem_embeds : Embeds linearProblem (volume.restrict (Set.Icc 0 1)) Set.univ where
  finite := inferInstance
  sym := fun x y => mul_comm x y
  mean := fun x _ => by
    show x / 2 = ∫ y in Set.Icc 0 1, x * y
    rw [integral_const_mul, integral_Icc_eq_integral_Ioc, ← intervalIntegral.integral_of_le zero_le_one, integral_id]
    ring
  var := by
    show (1 / 4 : ℝ) = ∫ x in Set.Icc 0 1, ∫ y in Set.Icc 0 1, x * y
    have : ∀ x : ℝ, ∫ y in Set.Icc (0 : ℝ) 1, x * y = x * (1 / 2) := by
      intro x
      rw [integral_const_mul, integral_Icc_eq_integral_Ioc, ← intervalIntegral.integral_of_le zero_le_one, integral_id]
      ring
    simp only [this]
    rw [integral_mul_const, integral_Icc_eq_integral_Ioc, ← intervalIntegral.integral_of_le zero_le_one, integral_id]
    norm_num
  diag := (Continuous.integrableOn_Icc (by show Continuous fun x : ℝ => x * x; fun_prop))

/-- There is a state with data and a prior as in `bq_conditional`. -/
example : ∃ (s : State ℝ) (Ω : Type) (_ : MeasurableSpace Ω) (Q : Measure Ω) (g : ℝ → Ω → ℝ) (e : Fin s.nodes.length → Ω → ℝ),
    Reachable ⟨1, .keep⟩ linearProblem s ∧ s.evals = [3] ∧
      IsPrior Q g e (fun x y => s.scaleSq * linearProblem.k x y) (s.scaleSq * 1) := by
  obtain ⟨s, hs, _, he⟩ := linearProblem_update
  obtain ⟨_, _, h0, _⟩ := reach_unified linearProblem_consistent.sym hs
  obtain ⟨Ω, m, Q, g, e, h⟩ := exists_prior (n := s.nodes.length) (fun (_ : Fin 1) (x : ℝ) => x) (fun _ => measurable_id) h0
    (mul_nonneg h0 zero_le_one)
  refine ⟨s, Ω, m, Q, g, e, hs, he, ?_⟩
  simpa [linearProblem] using h

/-- There is a state with an estimated scale as in `bq_scale_mle`. -/
example : ∃ s, Reachable ⟨1, .mle⟩ linearProblem s ∧ ∃ i < s.nodes.length, vec s.evals i ≠ 0 := by
  obtain ⟨s, h1, h2, h3⟩ := linearProblem_call' .mle (by decide)
  refine ⟨s, ⟨[([1], [3])], by rw [updates, h1]; rfl⟩, 0, by rw [h2]; exact Nat.one_pos, ?_⟩
  rw [h3, vec]
  norm_num

end Probnum.Quad
