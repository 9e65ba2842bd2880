import Verif.Kalman.DenseSamplingLemmas

/-!
# C99: samples of a smoothing posterior at given times

`g 0 < g 1 < … < g M` are all times in question: the locations of the data (`isData`) and the times at which samples are
requested (`isQuery`).  The specification is a state-space model on all of them; at times without data it has an observation
that contains no information (its matrix is zero), which the program does not get.
-/

namespace Probnum.Kalman

open MeasureTheory ProbabilityTheory Matrix Probnum.Gauss Probnum.LinGauss Probnum.Posterior

variable {n m : ℕ}

/-- **C99, exact behaviour.**  The program, given the data points alone. -/
theorem dense_samples_exact (t0 : ℝ) (init : Updated n) (disc : ℝ → Transition n n) (ch : CovCholesky n) (M : ℕ) (g : ℕ → ℝ)
    (H : ℕ → Transition n m) (isData isQuery : ℕ → Bool) (hg : ∀ i, i < M → g i < g (i + 1))
    (h0 : isData 0 = true) (hM : isData M = true) (hall : ∀ k, k ≤ M → isData k = true ∨ isQuery k = true)
    (hH0 : ∀ k, isData k = false → (H k).mat = 0) (hc : Composes disc)
    (hreg : ∀ k, k < M + 1 → Regular init (transitions t0 g disc) H k)
    (hsreg : ∀ k, 0 < k → k < M + 1 → SRegular init (transitions t0 g disc) H k) (y : ℕ → Fin m → ℝ) (b : ℕ → Fin n → ℝ) :
    ∃ post, filter (classicPrior t0 init disc) (problemOn g H (dataIx isData M) y) none = .ok post ∧
      sampleDense (classicPrior t0 init disc) (classicDyn disc) ch post b (some ((dataIx isQuery M).map g))
        = .ok ((dataIx isQuery M).map fun k => bsamp ch init (transitions t0 g disc) H (M + 1) y b (M - k)) ∧
      ((∀ k, k ≤ M → isData k = true) → sampleDense (classicPrior t0 init disc) (classicDyn disc) ch post b none
        = .ok ((List.range (M + 1)).map fun k => bsamp ch init (transitions t0 g disc) H (M + 1) y b (M - k))) := by
  refine ⟨_, filter_data t0 g disc H init isData hc hH0 y M hg hreg h0, ?_, fun hd => ?_⟩
  · have h := transformDense_grid t0 g disc H init isData hc hH0 y b ch M hg h0 hM hsreg _ rfl
    simp only [sampleDense, union1d_grid g isData hg isQuery hall, h, bind, Except.bind, select_grid g hg isQuery]
  · have h := transformDense_grid t0 g disc H init isData hc hH0 y b ch M hg h0 hM hsreg _ rfl
    have e : dataIx isData M = List.range (M + 1) := by
      rw [dataIx, List.filter_eq_self]
      intro k hk
      exact hd k (by simpa [Nat.lt_succ_iff] using hk)
    simp only [sampleDense]
    rw [e] at h ⊢
    exact h

/-- **C99.**  Samples at given times, none of them before the first or after the last location of the data, are distributed
as the process given the data: data and samples have jointly the distribution of observations and process.  Without given
times the samples are those at the locations of the data.

Partial: times after the last location are excluded, because there the claim is false (`extrapolated_samples_wrong`). -/
theorem dense_samples_distribution_partial {Ω Ω' : Type*} {mΩ : MeasurableSpace Ω} {mΩ' : MeasurableSpace Ω'} {P : Measure Ω}
    {P' : Measure Ω'} [IsProbabilityMeasure P'] (t0 : ℝ) (init : Updated n) (disc : ℝ → Transition n n) (ch : CovCholesky n)
    (M : ℕ) (g : ℕ → ℝ) (H : ℕ → Transition n m) (isData isQuery : ℕ → Bool) (X : ℕ → Ω → Fin n → ℝ) (Y : ℕ → Ω → Fin m → ℝ)
    (hg : ∀ i, i < M → g i < g (i + 1)) (h0 : isData 0 = true) (hM : isData M = true)
    (hall : ∀ k, k ≤ M → isData k = true ∨ isQuery k = true) (hH0 : ∀ k, isData k = false → (H k).mat = 0)
    (hss : StateSpace P (M + 1) init (fun k => gapTransition disc (stateTime t0 g (k + 1) - stateTime t0 g k)) H X Y)
    (hc : Composes disc) (hinit : init.cov.PosSemidef) (hdisc : ∀ dt, 0 < dt → (disc dt).noise.cov.PosDef)
    (hH : ∀ k, k < M + 1 → (H k).noise.cov.PosDef)
    (Y' : Ω' → Fin (M + 1) → Fin m → ℝ) (b : Fin (M + 1) → Ω' → Fin n → ℝ) (hY' : AEMeasurable Y' P')
    (hlaw : P'.map Y' = P.map fun ω (i : Fin (M + 1)) => Y i ω) (hb : ∀ k, IsNormal P' (b k) 0 1)
    (hbi : ∀ k, IndepFun (b k) (fun ω => (Y' ω, fun i => if k < i then b i ω else 0)) P') :
    ∃ S : (k : ℕ) → Ω' → Fin n → ℝ,
      (∀ ω, ∃ post, filter (classicPrior t0 init disc) (problemOn g H (dataIx isData M) (extend (Y' ω))) none = .ok post ∧
        sampleDense (classicPrior t0 init disc) (classicDyn disc) ch post (extend fun i => b i ω)
          (some ((dataIx isQuery M).map g)) = .ok ((dataIx isQuery M).map fun k => S k ω) ∧
        ((∀ k, k ≤ M → isData k = true) →
          sampleDense (classicPrior t0 init disc) (classicDyn disc) ch post (extend fun i => b i ω) none
            = .ok ((List.range (M + 1)).map fun k => S k ω))) ∧
      P'.map (fun ω => (Y' ω, fun k : Fin (M + 1) => S k ω))
        = P.map (fun ω => ((fun i : Fin (M + 1) => Y i ω), fun k : Fin (M + 1) => X (k + 1) ω)) := by
  set A := transitions t0 g disc with hA
  have hr := regular_of_posDef init A H (M + 1) hinit (transitions_psd t0 g disc fun dt h => (hdisc dt h).posSemidef) hH
  have hreg : ∀ k, k < M + 1 → Regular init A H k := (hr (M + 1) le_rfl).2
  have hsreg : ∀ k, 0 < k → k < M + 1 → SRegular init A H k := by
    intro k hk0 hkN
    obtain ⟨k, rfl⟩ : ∃ k', k = k' + 1 := ⟨k - 1, by omega⟩
    have hpos := hg k (by omega)
    have hg := gap_pos_transition t0 g disc k hpos
    unfold SRegular
    have : (predCov (A (k + 1)) 1 (toNormal (sseq init A H (k + 1) fun _ => 0))).PosDef := by
      rw [predCov_eq, one_smul, hA, hg]
      exact Matrix.PosDef.posSemidef_add (psd_conj _ (hr (k + 1) (by omega)).1) (hdisc _ (by linarith))
    exact this.det_pos.ne'
  obtain ⟨S, hS, hlawS⟩ := backward_samples_distribution t0 init disc M g H X Y ch hss
    ⟨fun _ => 0, _, filtsmooth_succeeds_of_posDef t0 init disc (M + 1) g H (by omega) (grid_pairwise g hg) hinit hdisc hH _⟩
    Y' b hY' hlaw hb hbi
  refine ⟨S, fun ω => ?_, hlawS⟩
  have key : ∀ k, k ≤ M → bsamp ch init A H (M + 1) (extend (Y' ω)) (extend fun i => b i ω) (M - k) = S k ω := by
    obtain ⟨filtered, hf, hsb⟩ := hS ω
    have hf2 := filter_data t0 g disc H init (fun _ => true) hc (fun _ h => nomatch h) (extend (Y' ω)) M hg hreg rfl
    have e : dataIx (fun _ => true) M = List.range (M + 1) := by simp [dataIx]
    rw [e] at hf2
    rw [show gaussProblem (M + 1) g H (extend (Y' ω)) = problemOn g H (List.range (M + 1)) (extend (Y' ω)) from rfl, hf2] at hf
    have hst := congrArg Post.states (Except.ok.inj hf)
    simp only at hst
    rw [sampleBackward_congr (t' := g) (rv' := fun k => sseq init A H (k + 1) fun i => extend (Y' ω) i) _ _ _ _ _
      (fun i hi => rfl) (fun i hi => ((List.map_inj_left.1 hst) i (by simp; omega)).symm),
      backward_samples_exact t0 init disc ch M g H (extend (Y' ω)) (extend fun i => b i ω) hg hsreg] at hsb
    intro k hk
    exact (List.map_inj_left.1 (Except.ok.inj hsb)) k (by simp; omega)
  obtain ⟨post, p1, p2, p3⟩ := dense_samples_exact t0 init disc ch M g H isData isQuery hg h0 hM hall hH0 hc hreg hsreg
    (extend (Y' ω)) (extend fun i => b i ω)
  refine ⟨post, p1, p2.trans ?_, fun hd => (p3 hd).trans ?_⟩
  · congr 1
    exact List.map_congr_left fun k hk => key k ((mem_dataIx isQuery).1 hk).1
  · congr 1
    exact List.map_congr_left fun k hk => key k (by simpa [Nat.lt_succ_iff] using hk)

/-- The hypotheses of `dense_samples_distribution_partial` are met by a two-dimensional Brownian motion, observed at times
1, 3, 5, …, 2 M + 1, with samples at times 2, 4, …, 2 M. -/
example (M : ℕ) : ∃ (Ω Ω' : Type) (_ : MeasurableSpace Ω) (_ : MeasurableSpace Ω') (P : Measure Ω) (P' : Measure Ω')
    (disc : ℝ → Transition 2 2) (H : ℕ → Transition 2 1) (isData isQuery : ℕ → Bool)
    (X : ℕ → Ω → Fin 2 → ℝ) (Y : ℕ → Ω → Fin 1 → ℝ)
    (Y' : Ω' → Fin (2 * M + 1) → Fin 1 → ℝ) (b : Fin (2 * M + 1) → Ω' → Fin 2 → ℝ),
    IsProbabilityMeasure P' ∧ isData 0 = true ∧ isData (2 * M) = true ∧ (∀ k, isData k = true ∨ isQuery k = true) ∧
    isData 1 = false ∧ (∀ k, isData k = false → (H k).mat = 0) ∧ Composes disc ∧
    (∀ dt, 0 < dt → (disc dt).noise.cov.PosDef) ∧ (∀ k, (H k).noise.cov.PosDef) ∧
    StateSpace P (2 * M + 1) ⟨0, 1⟩ (fun k => gapTransition disc
      (stateTime 0 (fun k => (k : ℝ) + 1) (k + 1) - stateTime 0 (fun k => (k : ℝ) + 1) k)) H X Y ∧
    AEMeasurable Y' P' ∧ P'.map Y' = P.map (fun ω (i : Fin (2 * M + 1)) => Y i ω) ∧ (∀ k, IsNormal P' (b k) 0 1) ∧
    ∀ k, IndepFun (b k) (fun ω => (Y' ω, fun i => if k < i then b i ω else 0)) P' := by
  set disc : ℝ → Transition 2 2 := fun dt => ⟨1, ⟨0, |dt| • 1, Real.sqrt |dt| • 1⟩⟩ with hdisc
  set isData : ℕ → Bool := fun k => decide (k % 2 = 0) with hD
  set H : ℕ → Transition 2 1 := fun k => ⟨if k % 2 = 0 then !![1, 0] else 0, ⟨0, 1, 1⟩⟩ with hH
  set A : ℕ → Transition 2 2 := fun k => gapTransition disc
      (stateTime 0 (fun k => (k : ℝ) + 1) (k + 1) - stateTime 0 (fun k => (k : ℝ) + 1) k) with hA
  have vd : ∀ dt, (disc dt).noise.Valid := by
    intro dt
    simp only [hdisc, Normal.Valid]
    simp [Matrix.transpose_smul, smul_smul, Real.mul_self_sqrt (abs_nonneg dt)]
  have vA : ∀ k, (A k).noise.Valid := by
    intro k
    simp only [hA, gapTransition]
    split
    · exact vd _
    · simp [Normal.Valid]
  have hss := exists_stateSpace (m := 1) (2 * M + 1) (0 : Fin 2 → ℝ) (1 : Matrix (Fin 2) (Fin 2) ℝ) A H vA
    (fun k => by simp [hH, Normal.Valid])
  rw [Matrix.transpose_one, Matrix.mul_one] at hss
  have hP := hss.init.isProbabilityMeasure
  obtain ⟨Ω', _, P', Y', b, h1, h2, h3, h4, h5⟩ := exists_data_and_base _ (hss.aeYs (2 * M + 1) le_rfl) (2 * M + 1) 2
  refine ⟨_, Ω', _, _, _, P', disc, H, isData, fun k => !isData k, _, _, Y', b, h1, by simp [hD], by simp [hD], fun k => ?_,
    by simp [hD], fun k hk => ?_, ⟨fun a b _ _ => ?_, fun a b _ _ => ?_, fun a b ha hb => ?_⟩, fun dt h => ?_,
    fun k => Matrix.PosDef.one, hss, h2, h3, h4, h5⟩
  · by_cases h : isData k = true
    · exact Or.inl h
    · exact Or.inr (by simpa using h)
  · simp only [hD, decide_eq_false_iff_not] at hk
    simp only [hH, hk, if_false]
  · simp [hdisc]
  · simp [hdisc]
  · simp only [hdisc, Matrix.one_mul, Matrix.transpose_one, Matrix.mul_one, ← add_smul, abs_of_pos ha, abs_of_pos hb,
      abs_of_pos (add_pos ha hb)]
  · exact Matrix.PosDef.one.smul (abs_pos.2 h.ne')

/-- **C99.**  Times before the first location of the data raise NotImplementedError. -/
theorem samples_before_first_location (prior : Prior ℝ (Updated n) ℝ) (dyn : Dynamics ℝ (Updated n) ℝ) (ch : CovCholesky n)
    (x : ℝ) (l : List ℝ) (states : List (Updated n)) (frozen : Bool) (hl : (x :: l).Pairwise (· < ·)) (base : ℕ → Fin n → ℝ)
    (t : List ℝ) (ht : ∃ s ∈ t, s < x) :
    sampleDense prior dyn ch ⟨x :: l, states, frozen⟩ base (some t) = .error .notImplementedError := by
  obtain ⟨s, hs, hsx⟩ := ht
  have hmem : ∀ z, z ∈ union1d t (x :: l) ↔ z ∈ t ∨ z ∈ x :: l := by
    intro z
    rw [union1d, Finset.mem_sort]
    simp only [List.mem_toFinset, List.mem_append]
  have hsort : sortedCheck (union1d t (x :: l)) = true := (sortedCheck_iff _).2 (Finset.pairwise_sort _ _)
  simp only [sampleDense, transformDense]
  rw [if_neg (not_not.2 fun z hz => (hmem z).2 (Or.inr hz)), if_neg (by simp [hsort])]
  simp only [amin_sorted _ _ hl, amax_sorted _ _ hl, bind, Except.bind]
  rw [if_pos]
  rw [List.length_pos_iff_exists_mem]
  exact ⟨s, by simpa [hmem] using ⟨Or.inl hs, hsx⟩⟩

/-- **C99: violated.**  The result depends only on the set of the requested times: with times in another order or with
repetitions the samples do not belong to the times at the same positions. -/
theorem samples_ignore_order (prior : Prior ℝ (Updated n) ℝ) (dyn : Dynamics ℝ (Updated n) ℝ) (ch : CovCholesky n)
    (p : Post ℝ (Updated n)) (base : ℕ → Fin n → ℝ) (t t' : List ℝ) (h : ∀ x, x ∈ t ↔ x ∈ t') :
    sampleDense prior dyn ch p base (some t) = sampleDense prior dyn ch p base (some t') := by
  have e : union1d t p.locations = union1d t' p.locations := by
    unfold union1d
    congr 1
    ext x
    simp [h]
  simp only [sampleDense, e, h]

/-- For instance: times 2 and 1, time 1 twice. -/
example (prior : Prior ℝ (Updated n) ℝ) (dyn : Dynamics ℝ (Updated n) ℝ) (ch : CovCholesky n)
    (p : Post ℝ (Updated n)) (base : ℕ → Fin n → ℝ) :
    sampleDense prior dyn ch p base (some [2, 1, 1]) = sampleDense prior dyn ch p base (some [1, 2]) :=
  samples_ignore_order prior dyn ch p base _ _ (by intro x; simp; tauto)

/-- **C99: violated.**  Brownian motion with `X(0) ~ N(0, 1)`, observed at time 0 with unit noise, sampled at time 1.  Given the
observation, `X(1)` has variance `3/2`.  The sample has another distribution, for every square root used and all data: the
same realization of the base measure is used at times 0 and 1. -/
theorem extrapolated_samples_wrong (ch : CovCholesky 1) :
    (∀ {Ω : Type} {mΩ : MeasurableSpace Ω} {P : Measure Ω} (X0 X1 Y0 : Ω → Fin 1 → ℝ),
      IsNormal P X0 0 1 →
      IsNormal P (fun ω => Y0 ω - X0 ω) 0 1 → IndepFun (fun ω => Y0 ω - X0 ω) X0 P →
      IsNormal P (fun ω => X1 ω - X0 ω) 0 1 → IndepFun (fun ω => X1 ω - X0 ω) (fun ω => (X0 ω, Y0 ω)) P →
      ∀ f C, IsConditional P X1 Y0 f C → C 0 0 = 3 / 2) ∧
    ∀ y : Fin 1 → ℝ, ∃ post, filter (classicPrior 0 ⟨0, 1⟩ brownian) (gaussProblem 1 (fun _ => 0) unitObs fun _ => y) none
        = .ok post ∧
      ∃ S : (FBase 1 1 → ℝ) → Fin 1 → ℝ,
        (∀ x, sampleDense (classicPrior 0 ⟨0, 1⟩ brownian) (classicDyn brownian) ch post (fbase 1 x) (some [1]) = .ok [S x]) ∧
        ∀ μ C, IsNormal (stdBase (FBase 1 1)) S μ C → C 0 0 ≠ 3 / 2 := by
  constructor
  · intro Ω mΩ P X0 X1 Y0 hX0 hV0 iV0 hW1 iW1 f C hC
    have hprob := hX0.isProbabilityMeasure
    have aeY0 : AEMeasurable Y0 P := by
      have := hV0.gaussian.aemeasurable.add hX0.gaussian.aemeasurable
      refine this.congr (Filter.Eventually.of_forall fun ω => ?_); simp
    have h0 : IsConditional P X0 (fun _ => ()) (fun _ => 0) 1 :=
      ⟨measurable_const, by simpa using indepFun_const_right X0 (), by simpa using hX0⟩
    have hU := h0.update aemeasurable_const hV0
      (iV0.comp (φ := id) (ψ := fun x : Fin 1 → ℝ => (x, ())) measurable_id (by fun_prop)) 1
      ((1 / 2 : ℝ) • 1) (by
        rw [Matrix.transpose_one, Matrix.mul_one, Matrix.one_mul, ← two_smul ℝ, smul_mul_smul_comm]
        norm_num)
    have hU' := hU.change (Z := Y0) (fun p => p.2) (fun y => ((), y)) measurable_snd (by fun_prop)
      (fun ω => by simp) (fun ω => by simp)
    have hP := hU'.predict aeY0 hW1 iW1 (1 : Matrix (Fin 1) (Fin 1) ℝ)
    rw [show (fun ω => (1 : Matrix (Fin 1) (Fin 1) ℝ) *ᵥ X0 ω + (X1 ω - X0 ω)) = X1 by funext ω; simp] at hP
    rw [hC.cov_unique aeY0 hP]
    simp [Matrix.mul_apply]
    norm_num
  · intro y
    set A := transitions 0 (fun _ => 0) brownian with hA
    have hA0 : A 0 = ⟨1, ⟨0, 0, 0⟩⟩ := by simp [hA, transitions, gapTransition, stateTime]
    set s := sseq ⟨0, 1⟩ A unitObs 1 fun _ => y with hs
    have hcov : s.cov = (2⁻¹ : ℝ) • 1 := by
      ext i j
      rw [Subsingleton.elim i 0, Subsingleton.elim j 0]
      simp only [hs, sseq, updS, predS, scalar_cond, scalar_gain, scalar_fwd, toNormal, hA0, Normal.const, unitObs]
      norm_num
    have hr := regular_of_posDef (n := 1) (m := 1) ⟨0, 1⟩ A unitObs 1 Matrix.PosSemidef.one
      (transitions_psd 0 (fun _ => 0) brownian fun dt h => Matrix.PosSemidef.one.smul h.le) (fun _ _ => Matrix.PosDef.one)
    have hf : filter (classicPrior 0 ⟨0, 1⟩ brownian) (gaussProblem 1 (fun _ => 0) unitObs fun _ => y) none
        = .ok ⟨[0], [s], false⟩ := by
      have := filter_data (n := 1) (m := 1) 0 (fun _ => 0) brownian unitObs ⟨0, 1⟩ (fun _ => true)
        ⟨fun a b _ _ => by simp [brownian], fun a b _ _ => by simp [brownian], fun a b _ _ => by simp [brownian, add_smul]⟩
        (fun _ h => nomatch h) (fun _ => y) 0 (fun i h => absurd h (by omega)) (fun k hk => (hr 1 le_rfl).2 k (by omega)) rfl
      simpa [dataIx, problemOn, gaussProblem, List.range_succ] using this
    refine ⟨_, hf, ?_⟩
    set L := ch.factor ((2⁻¹ : ℝ) • 1) with hL
    set F := ch.factor 1 with hF
    have hu : union1d [1] [0] = [0, 1] := by
      have : ([1] ++ [0] : List ℝ).toFinset = ([0, 1] : List ℝ).toFinset := by ext x; simp; tauto
      rw [union1d, this, List.toFinset_sort _ (by simp)]
      simp
    set p : Post ℝ (Updated 1) := ⟨[0], [s], false⟩ with hp
    have hgrid : Grid p := ⟨by simp [hp], by simp [hp], by simp [hp]⟩
    have hcall : ∃ s', call (interpolateFiltering (classicDyn brownian) none p) p [0, 1] = .ok [s, s'] := by
      refine ⟨(classicDyn brownian).forward s 0 1 1, ?_⟩
      rw [array_evaluation_is_pointwise _ p hgrid _ (by simp)]
      refine List.Forall₂.cons ?_ (List.Forall₂.cons ?_ List.Forall₂.nil)
      · exact filtering_on_grid (classicDyn brownian) none p hgrid 0 (by simp [hp])
      · have := (right_extrapolation (classicDyn brownian) none p hgrid 1 (by simp [hp]) 1 rfl (by simp [hp])).1
        simpa [hp] using this
    obtain ⟨s', hcall⟩ := hcall
    have hbm : ∀ v : Fin 1 → ℝ, (forwardClassic (brownian 1) 1 (toNormal ⟨v, 0⟩)).mean = v := by
      intro v; simp [forwardClassic, brownian, toNormal]
    have hbc : ∀ v : Fin 1 → ℝ, (forwardClassic (brownian 1) 1 (toNormal ⟨v, 0⟩)).cov = 1 := by
      intro v; simp [forwardClassic, brownian, toNormal]
    refine ⟨fun x => s.mean + L *ᵥ fbase 1 x 0 + F *ᵥ fbase 1 x 0, fun x => ?_, fun μ C hN => ?_⟩
    · simp only [sampleDense, transformDense, hu, hp]
      rw [← hp]
      simp [amin, amax, sortedCheck, hcall, bind, Except.bind, sampleForward, sampleBackward, sampleBackFrom, sampleForwFrom,
        List.range_succ, transformBase, hcov, classicPrior, hbm, hbc, ← hL, ← hF]
    · have hLL : L 0 0 * L 0 0 = 2⁻¹ := by
        have := congrFun (congrFun (ch.gram ((2⁻¹ : ℝ) • 1) (Matrix.PosSemidef.one.smul (by norm_num))) 0) 0
        simpa [Matrix.mul_apply, ← hL] using this
      have hFF : F 0 0 * F 0 0 = 1 := by
        have := congrFun (congrFun (ch.gram 1 Matrix.PosSemidef.one) 0) 0
        simpa [Matrix.mul_apply, ← hF] using this
      have hn := base_normal (ι := FBase 1 1) (fun i : Fin 1 => (Fin.ofNat 2 0, i)) (fun a b h => by simpa using h)
        (L + F) s.mean
      have e : (fun x : FBase 1 1 → ℝ => s.mean + L *ᵥ fbase 1 x 0 + F *ᵥ fbase 1 x 0)
          = fun x => (L + F) *ᵥ fbase 1 x 0 + s.mean := by
        funext x; rw [Matrix.add_mulVec, add_assoc, add_comm]
      rw [e] at hN
      have h1 := hN.cov 0 0
      have h2 := hn.cov 0 0
      have h3 : C 0 0 = ((L + F) * (L + F)ᵀ) 0 0 := by
        rw [← h1]
        exact h2
      intro h4
      rw [h4] at h3
      simp [Matrix.mul_apply] at h3
      have h5 : L 0 0 * F 0 0 = 0 := by nlinarith
      rcases mul_eq_zero.1 h5 with h | h
      · rw [h] at hLL; norm_num at hLL
      · rw [h] at hFF; norm_num at hFF

end Probnum.Kalman
