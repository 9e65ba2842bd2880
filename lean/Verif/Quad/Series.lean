import Verif.Quad.FrontLemmas
import Mathlib.Probability.ProductMeasure
import Mathlib.MeasureTheory.Function.LpSpace.InfiniteSum
import Mathlib.MeasureTheory.Constructions.Polish.StronglyMeasurable
import Mathlib.Probability.Independence.InfinitePi
import Mathlib.Analysis.InnerProductSpace.Subspace

/-! # Series with independent standard normal coefficients

With square summable coefficients such a series converges almost surely along a sequence of partial sums that depends on
the coefficients in a measurable way. -/

namespace Probnum.Quad

open Probnum Finset MeasureTheory ProbabilityTheory Probnum.Gauss

/-- Independent standard normal variables. -/
noncomputable abbrev stdSeq (N : Type) : Measure (N → ℝ) := Measure.infinitePi fun _ : N => gaussianReal 0 1

theorem stdSeq_indep (N : Type) : iIndepFun (fun (n : N) (ω : N → ℝ) => ω n) (stdSeq N) :=
  iIndepFun_infinitePi (P := fun _ : N => gaussianReal 0 1) (X := fun _ x => x) fun _ => measurable_id

theorem stdSeq_law (N : Type) (n : N) : (stdSeq N).map (fun ω => ω n) = gaussianReal 0 1 :=
  Measure.infinitePi_map_eval (fun _ : N => gaussianReal 0 1) n

theorem stdSeq_gauss (N : Type) : IsGaussianProcess (fun (n : N) (ω : N → ℝ) => ω n) (stdSeq N) := by
  refine ⟨fun I => ?_⟩
  refine iIndepFun.hasGaussianLaw (X := fun (n : I) (ω : N → ℝ) => ω n) (fun n => ⟨?_⟩) ?_
  · rw [stdSeq_law]; infer_instance
  · exact (stdSeq_indep N).precomp Subtype.val_injective

theorem stdSeq_memLp (N : Type) (n : N) : MemLp (fun ω : N → ℝ => ω n) 2 (stdSeq N) :=
  ((stdSeq_gauss N).hasGaussianLaw_eval n).memLp_two

theorem stdSeq_mean (N : Type) (n : N) : ∫ ω, ω n ∂(stdSeq N) = 0 := by
  have := integral_map (μ := stdSeq N) (φ := fun ω => ω n) (measurable_pi_apply n).aemeasurable (f := fun x : ℝ => x) (by fun_prop)
  rw [← this, stdSeq_law, integral_id_gaussianReal]

theorem stdSeq_prod (N : Type) [DecidableEq N] (n m : N) : ∫ ω, ω n * ω m ∂(stdSeq N) = if n = m then 1 else 0 := by
  have hc := cov_eq_integral (stdSeq_memLp N n) (stdSeq_memLp N m) (stdSeq_mean N n)
  rw [← hc]
  split_ifs with h
  · subst h
    rw [covariance_self (measurable_pi_apply n).aemeasurable]
    have := variance_map (μ := stdSeq N) (Y := fun ω => ω n) (X := fun x : ℝ => x) (by fun_prop) (measurable_pi_apply n).aemeasurable
    rw [stdSeq_law] at this
    have h2 : Var[fun x : ℝ => x; gaussianReal 0 1] = 1 := by
      have := variance_id_gaussianReal (μ := 0) (v := 1)
      simpa using this
    rw [h2] at this
    exact this.symm
  · exact IndepFun.covariance_eq_zero ((stdSeq_indep N).indepFun h) (stdSeq_memLp N n) (stdSeq_memLp N m)

/-- What is left of the squares from `N` on. -/
noncomputable def tail (a : ℕ → ℝ) (N : ℕ) : ℝ := ∑' n, a n ^ 2 - ∑ n ∈ range N, a n ^ 2

/-- The partial sums used: so many terms that the rest is below `4⁻ᵐ`, and at least `m`. -/
noncomputable def cut (a : ℕ → ℝ) : ℕ → ℕ
  | 0 => 0
  | m + 1 => max (m + 1) (sInf {N | tail a N ≤ (1 / 4) ^ m})

/-- The terms between two of these partial sums. -/
noncomputable def block {Ω : Type} (ξ : ℕ → Ω → ℝ) (a : ℕ → ℝ) (m : ℕ) (ω : Ω) : ℝ :=
  ∑ n ∈ Ico (cut a m) (cut a (m + 1)), a n * ξ n ω

/-- The series with coefficients `a`. -/
noncomputable def series {Ω : Type} (ξ : ℕ → Ω → ℝ) (a : ℕ → ℝ) (ω : Ω) : ℝ :=
  Filter.atTop.limUnder fun s : Finset ℕ => ∑ m ∈ s, block ξ a m ω

theorem tail_tendsto {a : ℕ → ℝ} (ha : Summable fun n => a n ^ 2) : Filter.Tendsto (tail a) Filter.atTop (nhds 0) := by
  have := (tendsto_const_nhds (x := ∑' n, a n ^ 2)).sub ha.hasSum.tendsto_sum_nat
  rwa [sub_self] at this

theorem tail_anti {a : ℕ → ℝ} : Antitone (tail a) := fun _ _ h =>
  sub_le_sub_left (sum_le_sum_of_subset_of_nonneg (range_subset_range.2 h) fun _ _ _ => sq_nonneg _) _

theorem cut_exists {a : ℕ → ℝ} (ha : Summable fun n => a n ^ 2) (m : ℕ) : ∃ N, tail a N ≤ (1 / 4) ^ m :=
  ((tail_tendsto ha).eventually_le_const (show (0 : ℝ) < (1 / 4) ^ m by positivity)).exists

theorem cut_tail {a : ℕ → ℝ} (ha : Summable fun n => a n ^ 2) (m : ℕ) : tail a (cut a (m + 1)) ≤ (1 / 4) ^ m :=
  (tail_anti (le_max_right _ _)).trans (Nat.sInf_mem (s := {N | tail a N ≤ (1 / 4) ^ m}) (cut_exists ha m))

theorem cut_mono {a : ℕ → ℝ} (ha : Summable fun n => a n ^ 2) : Monotone (cut a) := by
  refine monotone_nat_of_le_succ fun m => ?_
  cases m with
  | zero => exact Nat.zero_le _
  | succ m =>
    refine max_le_max (by omega) (Nat.sInf_le ?_)
    have := Nat.sInf_mem (s := {N | tail a N ≤ (1 / 4) ^ (m + 1)}) (cut_exists ha (m + 1))
    have h : ((1 : ℝ) / 4) ^ (m + 1) ≤ (1 / 4) ^ m := pow_le_pow_of_le_one (by norm_num) (by norm_num) (by omega)
    exact le_trans this h

theorem le_cut (a : ℕ → ℝ) : ∀ m, m ≤ cut a m
  | 0 => le_rfl
  | _ + 1 => le_max_left _ _

theorem cut_sum {E : Type*} [AddCommMonoid E] {a : ℕ → ℝ} (ha : Summable fun n => a n ^ 2) (f : ℕ → E) (M : ℕ) :
    ∑ m ∈ range M, ∑ n ∈ Ico (cut a m) (cut a (m + 1)), f n = ∑ n ∈ range (cut a M), f n := by
  induction M with
  | zero => simp [cut]
  | succ M ih =>
    rw [sum_range_succ, ih, ← Nat.Ico_zero_eq_range, ← Nat.Ico_zero_eq_range]
    exact sum_Ico_consecutive f (Nat.zero_le _) (cut_mono ha (Nat.le_succ M))

theorem cut_measurable {X : Type} [MeasurableSpace X] {φ : ℕ → X → ℝ} (hφ : ∀ n, Measurable (φ n))
    (hs : ∀ x, Summable fun n => φ n x ^ 2) (m : ℕ) : Measurable fun x => cut (fun n => φ n x) m := by
  classical
  cases m with
  | zero => exact measurable_const
  | succ m =>
    have ht : ∀ N, Measurable fun x => tail (fun n => φ n x) N := by
      intro N
      have h1 : Measurable fun x => ∑' n, φ n x ^ 2 := by
        refine measurable_of_tendsto_metrizable (f := fun M x => ∑ n ∈ range M, φ n x ^ 2)
          (fun M => Finset.measurable_sum _ fun n _ => (hφ n).pow_const 2) ?_
        rw [tendsto_pi_nhds]
        exact fun x => (hs x).hasSum.tendsto_sum_nat
      exact h1.sub (Finset.measurable_sum _ fun n _ => (hφ n).pow_const 2)
    have h := measurable_find (p := fun x N => tail (fun n => φ n x) N ≤ (1 / 4) ^ m) (fun x => cut_exists (hs x) m)
      fun N => measurableSet_le (ht N) measurable_const
    refine (measurable_const (a := m + 1)).max ?_
    convert h using 1
    funext x
    have hne : {N | tail (fun n => φ n x) N ≤ (1 / 4) ^ m}.Nonempty := cut_exists (hs x) m
    rw [Nat.sInf_def hne]

theorem series_measurable {X Ω : Type} [MeasurableSpace X] [MeasurableSpace Ω] {ξ : ℕ → Ω → ℝ}
    (hξ : ∀ n, Measurable (ξ n)) {φ : ℕ → X → ℝ} (hφ : ∀ n, Measurable (φ n)) (hs : ∀ x, Summable fun n => φ n x ^ 2) :
    Measurable fun p : X × Ω => series ξ (fun n => φ n p.1) p.2 := by
  refine StronglyMeasurable.measurable (StronglyMeasurable.limUnder (l := Filter.atTop)
    (f := fun (s : Finset ℕ) (p : X × Ω) => ∑ m ∈ s, block ξ (fun n => φ n p.1) m p.2) fun s => ?_)
  refine Measurable.stronglyMeasurable (Finset.measurable_sum _ fun m _ => ?_)
  have h1 : Measurable fun z : (ℕ × ℕ) × (X × Ω) => ∑ n ∈ Ico z.1.1 z.1.2, φ n z.2.1 * ξ n z.2.2 := by
    refine measurable_from_prod_countable_right fun z => ?_
    refine Finset.measurable_sum (Ico z.1 z.2) fun n _ => ?_
    exact ((hφ n).comp measurable_fst).mul ((hξ n).comp measurable_snd)
  have h2 : Measurable fun p : X × Ω => ((cut (fun n => φ n p.1) m, cut (fun n => φ n p.1) (m + 1)), p) :=
    (((cut_measurable hφ hs m).comp measurable_fst).prodMk ((cut_measurable hφ hs (m + 1)).comp measurable_fst)).prodMk measurable_id
  exact h1.comp h2

/-- The series of orthonormal variables with square summable coefficients. -/
theorem series_spec {Ω : Type} [MeasurableSpace Ω] {Q : Measure Ω} {ξ : ℕ → Ω → ℝ} (hξ : ∀ n, MemLp (ξ n) 2 Q)
    (h1 : ∀ n m, ∫ ω, ξ n ω * ξ m ω ∂Q = if n = m then 1 else 0) {a : ℕ → ℝ} (ha : Summable fun n => a n ^ 2) :
    MemLp (series ξ a) 2 Q ∧ ∀ U : Ω → ℝ, MemLp U 2 Q →
      HasSum (fun n => a n * ∫ ω, ξ n ω * U ω ∂Q) (∫ ω, series ξ a ω * U ω ∂Q) := by
  let b : ℕ → Lp ℝ 2 Q := fun n => (hξ n).toLp (ξ n)
  let f : ℕ → Lp ℝ 2 Q := fun n => a n • b n
  have hb : Orthonormal ℝ b := by
    rw [orthonormal_iff_ite]
    intro n m
    rw [← h1 n m, L2.inner_def]
    refine integral_congr_ae ?_
    filter_upwards [(hξ n).coeFn_toLp, (hξ m).coeFn_toLp] with ω e1 e2
    simp only [b]
    rw [e1, e2]
    simp [mul_comm]
  have hfam := hb.orthogonalFamily
  have hsumf : Summable f := by
    have := (hfam.summable_iff_norm_sq_summable a).2 (ha.congr fun n => by rw [Real.norm_eq_abs, sq_abs])
    exact this
  let B : ℕ → Lp ℝ 2 Q := fun m => ∑ n ∈ Ico (cut a m) (cut a (m + 1)), f n
  have hnorm : ∀ m, ‖B m‖ ^ 2 = ∑ n ∈ Ico (cut a m) (cut a (m + 1)), a n ^ 2 := by
    intro m
    have := hfam.norm_sum a (Ico (cut a m) (cut a (m + 1)))
    simp only [Real.norm_eq_abs, sq_abs] at this
    exact this
  have hB : ∀ m, ‖B (m + 1)‖ ≤ (1 / 2) ^ m := by
    intro m
    refine abs_le_of_sq_le_sq' ?_ (by positivity) |>.2
    rw [hnorm, ← pow_mul, mul_comm m 2, pow_mul]
    have h2 : ∑ n ∈ Ico (cut a (m + 1)) (cut a (m + 1 + 1)), a n ^ 2 ≤ tail a (cut a (m + 1)) := by
      rw [tail, le_sub_iff_add_le, add_comm, ← Nat.Ico_zero_eq_range, sum_Ico_consecutive _ (Nat.zero_le _) (cut_mono ha (Nat.le_succ _))]
      exact ha.sum_le_tsum _ fun _ _ => sq_nonneg _
    refine h2.trans ((cut_tail ha m).trans (le_of_eq ?_))
    norm_num
  have hs : Summable fun m => ‖B m‖ := by
    rw [← summable_nat_add_iff 1]
    exact Summable.of_nonneg_of_le (fun _ => norm_nonneg _) hB (summable_geometric_of_lt_one (by norm_num) (by norm_num))
  have htot : ∑' m, B m = ∑' n, f n := by
    refine tendsto_nhds_unique (Summable.of_norm hs).hasSum.tendsto_sum_nat ?_
    have h2 : Filter.Tendsto (cut a) Filter.atTop Filter.atTop := Filter.tendsto_atTop_mono (le_cut a) Filter.tendsto_id
    refine (hsumf.hasSum.tendsto_sum_nat.comp h2).congr fun M => ?_
    exact (cut_sum ha f M).symm
  have hs' : ∑' m, ‖B m‖ₑ ≠ ⊤ := tsum_enorm_ne_top_iff_summable_norm.2 hs
  have hae := Lp.hasSum_coeFn_tsum hs'
  have heq : series ξ a =ᵐ[Q] (∑' n, f n : Lp ℝ 2 Q) := by
    have hall : ∀ᵐ ω ∂Q, ∀ n, (f n : Ω → ℝ) ω = a n * ξ n ω := by
      rw [ae_all_iff]
      intro n
      filter_upwards [(hξ n).coeFn_toLp, Lp.coeFn_smul (a n) ((hξ n).toLp (ξ n))] with ω e1 e2
      show (a n • (hξ n).toLp (ξ n) : Lp ℝ 2 Q) ω = _
      rw [e2, Pi.smul_apply, e1, smul_eq_mul]
    have hblock : ∀ᵐ ω ∂Q, ∀ m, (B m : Ω → ℝ) ω = ∑ n ∈ Ico (cut a m) (cut a (m + 1)), (f n : Ω → ℝ) ω := by
      rw [ae_all_iff]
      intro m
      filter_upwards [Lp.coeFn_finsetSum (Ico (cut a m) (cut a (m + 1))) f] with ω e
      rw [e, Finset.sum_apply]
    rw [← htot]
    filter_upwards [hae, hall, hblock] with ω e1 e2 e4
    simp only [e4, e2] at e1
    have e3 : Filter.Tendsto (fun s : Finset ℕ => ∑ m ∈ s, block ξ a m ω) Filter.atTop (nhds ((∑' m, B m : Lp ℝ 2 Q) ω)) := by
      simpa [HasSum, block] using e1
    exact e3.limUnder_eq
  refine ⟨(Lp.memLp _).ae_eq heq.symm, fun U hU => ?_⟩
  have hin := hsumf.hasSum.mapL (innerSL ℝ (hU.toLp U))
  have e1 : ∀ (V : Lp ℝ 2 Q) (W : Ω → ℝ), W =ᵐ[Q] V → innerSL ℝ (hU.toLp U) V = ∫ ω, W ω * U ω ∂Q := by
    intro V W hW
    rw [innerSL_apply_apply, L2.inner_def]
    refine integral_congr_ae ?_
    filter_upwards [hW, hU.coeFn_toLp] with ω e1 e2
    rw [e2, e1]
    simp [mul_comm]
  rw [e1 _ _ heq] at hin
  have e2 : (fun n => innerSL ℝ (hU.toLp U) (f n)) = fun n => a n * ∫ ω, ξ n ω * U ω ∂Q := by
    funext n
    rw [show f n = a n • (hξ n).toLp (ξ n) from rfl, map_smul, e1 _ _ (hξ n).coeFn_toLp.symm, smul_eq_mul]
  rw [e2] at hin
  exact hin

/-- Series with normal coefficients are a centred Gaussian process. -/
theorem series_process_nat {T : Type} (coef : T → ℕ → ℝ) (hc : ∀ t, Summable fun j => coef t j ^ 2) :
    IsGaussianProcess (fun t => series (fun j (ω : ℕ → ℝ) => ω j) (coef t)) (stdSeq ℕ) ∧
      (∀ t, ∫ ω, series (fun j (ω : ℕ → ℝ) => ω j) (coef t) ω ∂(stdSeq ℕ) = 0) ∧
      ∀ t r, cov[series (fun j (ω : ℕ → ℝ) => ω j) (coef t), series (fun j (ω : ℕ → ℝ) => ω j) (coef r); stdSeq ℕ] =
        ∑' j, coef t j * coef r j := by
  have sp := fun t => series_spec (stdSeq_memLp ℕ) (stdSeq_prod ℕ) (hc t)
  have gen : ∀ t, Generated (stdSeq ℕ) (fun j (ω : ℕ → ℝ) => ω j) (series (fun j (ω : ℕ → ℝ) => ω j) (coef t)) := by
    intro t
    refine ⟨(sp t).1, fun U hU h0 => ?_⟩
    have := (sp t).2 U hU
    simp only [h0, mul_zero] at this
    exact this.unique hasSum_zero
  have mean : ∀ t, ∫ ω, series (fun j (ω : ℕ → ℝ) => ω j) (coef t) ω ∂(stdSeq ℕ) = 0 := fun t =>
    (gen t).mean (stdSeq_gauss ℕ) (stdSeq_mean ℕ)
  refine ⟨⟨fun I => Generated.gaussian (stdSeq_gauss ℕ) (stdSeq_mean ℕ) fun i : I => gen i.1⟩, mean, fun t r => ?_⟩
  rw [cov_eq_integral (sp t).1 (sp r).1 (mean t), ← ((sp t).2 _ (sp r).1).tsum_eq]
  refine tsum_congr fun j => ?_
  congr 1
  have := (sp r).2 _ (stdSeq_memLp ℕ j)
  simp only [stdSeq_prod] at this
  rw [show (fun ω : ℕ → ℝ => ω j * series (fun j (ω : ℕ → ℝ) => ω j) (coef r) ω) =
    fun ω => series (fun j (ω : ℕ → ℝ) => ω j) (coef r) ω * ω j from funext fun ω => mul_comm _ _, ← this.tsum_eq, tsum_eq_single j]
  · simp
  · intro j' hj'
    simp [hj']

/-- An enumeration of a countable type. -/
noncomputable def enum (J : Type) [Countable J] : J → ℕ := (exists_injective_nat J).choose

theorem enum_injective (J : Type) [Countable J] : Function.Injective (enum J) := (exists_injective_nat J).choose_spec

/-- The coefficients in the order of the enumeration. -/
noncomputable def spread {J : Type} [Countable J] (a : J → ℝ) : ℕ → ℝ := Function.extend (enum J) a 0

theorem spread_enum {J : Type} [Countable J] (a : J → ℝ) (j : J) : spread a (enum J j) = a j :=
  (enum_injective J).extend_apply a 0 j

theorem spread_out {J : Type} [Countable J] (a : J → ℝ) {n : ℕ} (h : n ∉ Set.range (enum J)) : spread a n = 0 :=
  Function.extend_apply' a _ n h

theorem spread_summable {J : Type} [Countable J] {a : J → ℝ} (h : Summable fun j => a j ^ 2) : Summable fun n => spread a n ^ 2 := by
  rw [← (enum_injective J).summable_iff]
  · simpa only [Function.comp_def, spread_enum] using h
  · intro n hn
    rw [spread_out a hn]
    norm_num

/-- The series over a countable type. -/
noncomputable def noise {J : Type} [Countable J] (a : J → ℝ) : (ℕ → ℝ) → ℝ := series (fun n ω => ω n) (spread a)

/-- Series with normal coefficients are a centred Gaussian process. -/
theorem noise_process {J T : Type} [Countable J] (coef : T → J → ℝ) (hc : ∀ t, Summable fun j => coef t j ^ 2) :
    IsGaussianProcess (fun t => noise (coef t)) (stdSeq ℕ) ∧ (∀ t, ∫ ω, noise (coef t) ω ∂(stdSeq ℕ) = 0) ∧
      ∀ t r, cov[noise (coef t), noise (coef r); stdSeq ℕ] = ∑' j, coef t j * coef r j := by
  obtain ⟨h1, h2, h3⟩ := series_process_nat (fun t => spread (coef t)) fun t => spread_summable (hc t)
  refine ⟨h1, h2, fun t r => (h3 t r).trans ?_⟩
  rw [← (enum_injective J).tsum_eq]
  · simp only [spread_enum]
  · intro n hn
    by_contra h
    exact hn (by simp only [spread_out _ h, zero_mul])

theorem noise_measurable {J X : Type} [Countable J] [MeasurableSpace X] {φ : J → X → ℝ} (hφ : ∀ j, Measurable (φ j))
    (hs : ∀ x, Summable fun j => φ j x ^ 2) : Measurable fun p : X × (ℕ → ℝ) => noise (fun j => φ j p.1) p.2 := by
  refine series_measurable (ξ := fun n (ω : ℕ → ℝ) => ω n) (φ := fun n x => spread (fun j => φ j x) n)
    (fun n => measurable_pi_apply n) (fun n => ?_) fun x => spread_summable (hs x)
  by_cases h : n ∈ Set.range (enum J)
  · obtain ⟨j, rfl⟩ := h
    simpa only [spread_enum] using hφ j
  · simpa only [spread_out _ h] using measurable_const

end Probnum.Quad
