import Verif.Quad.Series

/-! # Gaussian process priors with exponentiated quadratic kernels exist

A Gaussian process with covariance `∑ₙ φₙ(x) φₙ(y)` is a series with independent standard normal coefficients. -/

namespace Probnum.Quad

open Probnum Finset MeasureTheory ProbabilityTheory Probnum.Gauss

/-- There are independent priors whose covariance functions are given by features. -/
theorem exists_multi_prior {X L N : Type} {ι : L → Type} [MeasurableSpace X] [Countable L] [Countable N] [∀ l, Countable (ι l)]
    [∀ l, DecidableEq (ι l)] (φ : L → N → X → ℝ) (hφ : ∀ l n, Measurable (φ l n)) (hs : ∀ l x, Summable fun n => φ l n x ^ 2)
    {v : L → ℝ} (hv : ∀ l, 0 ≤ v l) :
    ∃ (Ω : Type) (_ : MeasurableSpace Ω) (Q : Measure Ω) (g : L → X → Ω → ℝ) (e : ∀ l, ι l → Ω → ℝ),
      IsMultiPrior Q g e (fun l x y => ∑' n, φ l n x * φ l n y) v := by
  classical
  let J := (L × N) ⊕ (Σ l, ι l)
  let cg : L → X → J → ℝ := fun l x => Sum.elim (fun p => if p.1 = l then φ l p.2 x else 0) fun _ => 0
  let ce : (l : L) → ι l → J → ℝ := fun l i => Sum.elim (fun _ => 0) fun p => if p = ⟨l, i⟩ then Real.sqrt (v l) else 0
  let coef : (Σ l, X ⊕ ι l) → J → ℝ := fun t => Sum.elim (cg t.1) (ce t.1) t.2
  have inj : ∀ l, Function.Injective fun n : N => (Sum.inl (l, n) : J) := by
    intro l a b h
    simpa using h
  have out : ∀ l x, ∀ j ∉ Set.range (fun n : N => (Sum.inl (l, n) : J)), cg l x j = 0 := by
    intro l x j hj
    match j, hj with
    | .inl (l', n), hj =>
      have : l' ≠ l := fun h => hj ⟨n, by rw [h]⟩
      simp [cg, this]
    | .inr p, _ => rfl
  have hc : ∀ t, Summable fun j => coef t j ^ 2 := by
    rintro ⟨l, x | i⟩
    · rw [← (inj l).summable_iff]
      · simpa [coef, cg, Function.comp_def] using hs l x
      · intro j hj
        show cg l x j ^ 2 = 0
        rw [out l x j hj]
        norm_num
    · refine summable_of_ne_finset_zero (s := {Sum.inr ⟨l, i⟩}) fun j hj => ?_
      match j, hj with
      | .inl _, _ => simp [coef, ce]
      | .inr p, hj =>
        have : p ≠ ⟨l, i⟩ := fun h => hj (by rw [h]; exact Finset.mem_singleton_self _)
        simp [coef, ce, this]
  obtain ⟨gp, mean, cov⟩ := noise_process coef hc
  have shape : ∀ l, ∀ t : X ⊕ ι l, (Sum.elim (fun x => noise (coef ⟨l, .inl x⟩))
      (fun i => noise (coef ⟨l, .inr i⟩)) t : (ℕ → ℝ) → ℝ) =
        noise (coef ⟨l, t⟩) := by
    intro l t
    cases t <;> rfl
  refine ⟨ℕ → ℝ, inferInstance, stdSeq ℕ, fun l x => noise (coef ⟨l, .inl x⟩),
    fun l i => noise (coef ⟨l, .inr i⟩), fun l => ⟨?_, fun x => mean _, fun i => mean _, fun x y => ?_, fun i k => ?_,
      fun x i => ?_, ?_⟩, ?_, fun l l' hl t t' => ?_⟩
  · have := (noise_process (fun t : X ⊕ ι l => coef ⟨l, t⟩) fun t => hc _).1
    convert this using 1
    funext t
    exact shape l t
  · rw [cov, ← (inj l).tsum_eq]
    · simp [coef, cg]
    · intro j hj
      by_contra h
      exact hj (by show cg l x j * _ = 0; rw [out l x j h, zero_mul])
  · rw [cov, tsum_eq_single (Sum.inr ⟨l, i⟩)]
    · by_cases hik : i = k
      · subst hik
        simp [coef, ce, Real.mul_self_sqrt (hv l)]
      · simp [coef, ce, hik]
    · intro j hj
      match j, hj with
      | .inl _, _ => simp [coef, ce]
      | .inr p, hj =>
        have : p ≠ ⟨l, i⟩ := fun h => hj (by rw [h])
        simp [coef, ce, this]
  · rw [cov]
    refine (tsum_congr fun j => ?_).trans tsum_zero
    match j with
    | .inl _ => simp [coef, ce]
    | .inr _ => simp [coef, cg]
  · refine noise_measurable (φ := fun j x => coef ⟨l, .inl x⟩ j) (fun j => ?_) fun x => hc ⟨l, .inl x⟩
    match j with
    | .inl (l', n) =>
      by_cases h : l' = l
      · simpa [coef, cg, h] using hφ l n
      · simp [coef, cg, h]
    | .inr _ => simp [coef, cg]
  · convert gp using 1
    funext t
    exact shape t.1 t.2
  · rw [shape, shape, cov]
    refine (tsum_congr fun j => ?_).trans tsum_zero
    match j, t, t' with
    | .inl (k, n), .inl x, .inl y =>
      by_cases h : k = l
      · have : k ≠ l' := fun h' => hl (h.symm.trans h')
        simp [coef, cg, this]
      · simp [coef, cg, h]
    | .inl _, .inr _, _ => simp [coef, ce]
    | .inl _, _, .inr _ => simp [coef, ce]
    | .inr _, .inl _, _ => simp [coef, cg]
    | .inr _, _, .inl _ => simp [coef, cg]
    | .inr p, .inr i, .inr k =>
      by_cases h : p = ⟨l, i⟩
      · have : p ≠ ⟨l', k⟩ := fun h' => hl (congrArg Sigma.fst (h.symm.trans h'))
        simp [coef, ce, this]
      · simp [coef, ce, h]

/-- The features of the exponentiated quadratic kernel: one for every word of coordinates. -/
noncomputable def feature {D : ℕ} (l : ℝ) (w : Σ n : ℕ, Fin n → Fin D) (x : Fin D → ℝ) : ℝ :=
  Real.exp (-(∑ i, x i ^ 2) / (2 * l ^ 2)) * (∏ j, x (w.2 j) / l) / Real.sqrt w.1.factorial

theorem feature_mul {D : ℕ} {l : ℝ} (x y : Fin D → ℝ) (n : ℕ) :
    ∑ w : Fin n → Fin D, feature l ⟨n, w⟩ x * feature l ⟨n, w⟩ y =
      Real.exp (-(∑ i, x i ^ 2) / (2 * l ^ 2)) * Real.exp (-(∑ i, y i ^ 2) / (2 * l ^ 2)) *
        ((∑ i, (x i / l) * (y i / l)) ^ n / n.factorial) := by
  have hf : Real.sqrt n.factorial * Real.sqrt n.factorial = n.factorial := Real.mul_self_sqrt (by positivity)
  rw [Fintype.sum_pow, Finset.sum_div, Finset.mul_sum]
  refine Finset.sum_congr rfl fun w _ => ?_
  rw [Finset.prod_mul_distrib, ← hf, feature, feature, div_mul_div_comm, mul_mul_mul_comm, mul_div_assoc]

theorem feature_abs {D : ℕ} {l : ℝ} (x : Fin D → ℝ) (n : ℕ) :
    ∑ w : Fin n → Fin D, |feature l ⟨n, w⟩ x| =
      Real.exp (-(∑ i, x i ^ 2) / (2 * l ^ 2)) * ((∑ i, |x i / l|) ^ n / Real.sqrt n.factorial) := by
  rw [Fintype.sum_pow, Finset.sum_div, Finset.mul_sum]
  refine Finset.sum_congr rfl fun w _ => ?_
  rw [feature, abs_div, abs_mul, Real.abs_exp, abs_of_nonneg (Real.sqrt_nonneg _), Finset.abs_prod, mul_div_assoc]

theorem summable_sqrt_factorial (a : ℝ) (ha : 0 ≤ a) : Summable fun n : ℕ => a ^ n / Real.sqrt n.factorial := by
  have h1 := Real.summable_pow_div_factorial (4 * a ^ 2)
  have h2 : Summable fun n : ℕ => (1 / 4 : ℝ) ^ n := summable_geometric_of_lt_one (by norm_num) (by norm_num)
  refine Summable.of_nonneg_of_le (fun n => by positivity) (fun n => ?_) (h1.add h2)
  have hf : Real.sqrt n.factorial ^ 2 = n.factorial := Real.sq_sqrt (by positivity)
  have e1 : (4 * a ^ 2) ^ n / n.factorial = (2 ^ n * a ^ n / Real.sqrt n.factorial) ^ 2 := by
    rw [div_pow, hf, mul_pow, mul_pow, ← pow_mul, ← pow_mul, ← pow_mul, mul_comm n 2, pow_mul 2 2 n]
    norm_num
  have e2 : (1 / 4 : ℝ) ^ n = ((1 / 2) ^ n) ^ 2 := by
    rw [← pow_mul, mul_comm, pow_mul]
    norm_num
  have e3 : a ^ n / Real.sqrt n.factorial = (2 ^ n * a ^ n / Real.sqrt n.factorial) * (1 / 2) ^ n := by
    rw [one_div, inv_pow]
    field_simp
  rw [e1, e2, e3]
  nlinarith [sq_nonneg (2 ^ n * a ^ n / Real.sqrt n.factorial - (1 / 2) ^ n), sq_nonneg (2 ^ n * a ^ n / Real.sqrt n.factorial),
    sq_nonneg ((1 / 2 : ℝ) ^ n)]

theorem feature_summable {D : ℕ} (l : ℝ) (x : Fin D → ℝ) : Summable fun w => |feature l w x| := by
  rw [summable_sigma_of_nonneg fun _ => abs_nonneg _]
  refine ⟨fun n => (hasSum_fintype _).summable, ?_⟩
  simp only [tsum_fintype, feature_abs]
  exact (summable_sqrt_factorial _ (Finset.sum_nonneg fun _ _ => abs_nonneg _)).mul_left _

theorem feature_prod_summable {D : ℕ} (l : ℝ) (x y : Fin D → ℝ) : Summable fun w => feature l w x * feature l w y := by
  refine Summable.of_norm_bounded (g := fun w => (∑' w', |feature l w' x|) * |feature l w y|)
    ((feature_summable l y).mul_left _) fun w => ?_
  rw [norm_mul, Real.norm_eq_abs, Real.norm_eq_abs]
  exact mul_le_mul_of_nonneg_right ((feature_summable l x).le_tsum w fun _ _ => abs_nonneg _) (abs_nonneg _)

/-- The features give the kernel. -/
theorem feature_tsum {D : ℕ} {l : ℝ} (hl : l ≠ 0) (x y : Fin D → ℝ) :
    ∑' w, feature l w x * feature l w y = expquad l x y := by
  rw [(feature_prod_summable l x y).tsum_sigma]
  simp only [tsum_fintype, feature_mul]
  have hexp : ∀ z : ℝ, ∑' n : ℕ, z ^ n / n.factorial = Real.exp z := by
    intro z
    rw [Real.exp_eq_exp_ℝ, NormedSpace.exp_eq_tsum_div]
  rw [tsum_mul_left, hexp, ← Real.exp_add, ← Real.exp_add, expquad]
  congr 1
  have e : ∑ i, (x i - y i) ^ 2 = ∑ i, x i ^ 2 + ∑ i, y i ^ 2 - 2 * ∑ i, x i * y i := by
    rw [Finset.mul_sum, ← Finset.sum_add_distrib, ← Finset.sum_sub_distrib]
    exact Finset.sum_congr rfl fun i _ => by ring
  have e' : ∑ i, x i / l * (y i / l) = (∑ i, x i * y i) / l ^ 2 := by
    rw [Finset.sum_div]
    exact Finset.sum_congr rfl fun i _ => by field_simp
  rw [e, e']
  field_simp
  ring

theorem feature_measurable {D : ℕ} (l : ℝ) (w) : Measurable (feature (D := D) l w) := by
  unfold feature
  fun_prop

/-- **C80.**  Independent Gaussian processes with scaled exponentiated quadratic kernels, observed with independent noise,
exist: the statistical model of (multilevel) Bayesian quadrature with these kernels is not empty. -/
theorem exists_expquad_priors {D : ℕ} {L : Type} [Countable L] {ι : L → Type} [∀ l, Countable (ι l)] [∀ l, DecidableEq (ι l)]
    {ell s v : L → ℝ} (hl : ∀ l, ell l ≠ 0) (hs : ∀ l, 0 ≤ s l) (hv : ∀ l, 0 ≤ v l) :
    ∃ (Ω : Type) (_ : MeasurableSpace Ω) (Q : Measure Ω) (g : L → (Fin D → ℝ) → Ω → ℝ) (e : ∀ l, ι l → Ω → ℝ),
      IsMultiPrior Q g e (fun l x y => s l * expquad (ell l) x y) v := by
  obtain ⟨Ω, m, Q, g, e, h⟩ := exists_multi_prior (ι := ι) (fun l w x => Real.sqrt (s l) * feature (D := D) (ell l) w x)
    (fun l w => (feature_measurable (ell l) w).const_mul _)
    (fun l x => by simpa only [mul_pow, pow_two (feature _ _ _)] using (feature_prod_summable (ell l) x x).mul_left _) hv
  refine ⟨Ω, m, Q, g, e, ?_⟩
  convert h using 1
  funext l x y
  simp only [mul_mul_mul_comm, Real.mul_self_sqrt (hs l)]
  rw [tsum_mul_left, feature_tsum (hl l)]

/-- A Gaussian process with the scaled exponentiated quadratic kernel, observed with noise, exists. -/
theorem exists_expquad_prior {D : ℕ} {ι : Type} [Countable ι] [DecidableEq ι] {ell s v : ℝ} (hl : ell ≠ 0) (hs : 0 ≤ s) (hv : 0 ≤ v) :
    ∃ (Ω : Type) (_ : MeasurableSpace Ω) (Q : Measure Ω) (g : (Fin D → ℝ) → Ω → ℝ) (e : ι → Ω → ℝ),
      IsPrior Q g e (fun x y => s * expquad ell x y) v := by
  obtain ⟨Ω, m, Q, g, e, h⟩ := exists_expquad_priors (D := D) (L := Unit) (ι := fun _ => ι) (ell := fun _ => ell) (s := fun _ => s)
    (v := fun _ => v) (fun _ => hl) (fun _ => hs) fun _ => hv
  exact ⟨Ω, m, Q, g (), e (), h.level ()⟩

end Probnum.Quad
