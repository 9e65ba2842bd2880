import Verif.Kalman.BatchLemmas

/-!
# C110: Kalman smoothing is Gaussian regression
-/

namespace Probnum.Kalman

open MeasureTheory ProbabilityTheory Matrix Probnum.Gauss Probnum.LinGauss Probnum.Posterior

variable {n m : ℕ}

/-! ## Specification: linear regression on a Gaussian prior

State `0` is the initial state, state `k + 1` the state at location `k`; `μ k` is the prior mean of state `k` and `K j k` the
prior covariance between the states `j` and `k`.  Observation `k` is `H_k` applied to state `k + 1` plus noise. -/

/-- Prior mean of all observations. -/
def obsMean (N : ℕ) (μ : ℕ → Fin n → ℝ) (H : ℕ → Transition n m) : Fin N × Fin m → ℝ :=
  fun p => ((H p.1).mat *ᵥ μ (p.1 + 1) + (H p.1).noise.mean) p.2

/-- Prior covariance of all observations: `H K Hᵀ + R`. -/
def obsCov (N : ℕ) (K : ℕ → ℕ → Matrix (Fin n) (Fin n) ℝ) (H : ℕ → Transition n m) :
    Matrix (Fin N × Fin m) (Fin N × Fin m) ℝ :=
  Matrix.of fun p p' => ((H p.1).mat * K (p.1 + 1) (p'.1 + 1) * (H p'.1).matᵀ
    + if p.1.1 = p'.1.1 then (H p'.1).noise.cov else 0) p.2 p'.2

/-- Prior covariance between the state at location `k` and all observations: `K Hᵀ`. -/
def stateObsCov (N : ℕ) (K : ℕ → ℕ → Matrix (Fin n) (Fin n) ℝ) (H : ℕ → Transition n m) (k : ℕ) :
    Matrix (Fin n) (Fin N × Fin m) ℝ :=
  Matrix.of fun a p => (K (k + 1) (p.1 + 1) * (H p.1).matᵀ) a p.2

/-- **C110.**  For a linear Gaussian state-space model: if `filtsmooth` does not raise on some data, then for all data the
state at location `k` of the returned posterior is the one of Gaussian regression with all observations at once,
`μ + K Hᵀ (H K Hᵀ + R)⁻¹ (y - H μ - b)` and `K - K Hᵀ (H K Hᵀ + R)⁻¹ H Kᵀ`, where `μ` and `K` are mean and covariance function
of the prior process. -/
theorem filtsmooth_is_regression {Ω : Type*} {mΩ : MeasurableSpace Ω} {P : Measure Ω} (t0 : ℝ) (init : Updated n)
    (disc : ℝ → Transition n n) (N : ℕ) (loc : ℕ → ℝ) (H : ℕ → Transition n m) (X : ℕ → Ω → Fin n → ℝ)
    (Y : ℕ → Ω → Fin m → ℝ)
    (hss : StateSpace P N init (fun k => gapTransition disc (stateTime t0 loc (k + 1) - stateTime t0 loc k)) H X Y)
    (hok : ∃ y0 post, filtsmooth (classicPrior t0 init disc) (gaussProblem N loc H y0) none = .ok post)
    {μ : ℕ → Fin n → ℝ} {K : ℕ → ℕ → Matrix (Fin n) (Fin n) ℝ} (hμ : ∀ k, k ≤ N → ∀ a, ∫ ω, X k ω a ∂P = μ k a)
    (hK : ∀ j k, j ≤ N → k ≤ N → CrossCov P (X j) (X k) (K j k)) (hdet : (obsCov N K H).det ≠ 0) (y : ℕ → Fin m → ℝ) :
    filtsmooth (classicPrior t0 init disc) (gaussProblem N loc H y) none
      = .ok ⟨(List.range N).map loc, (List.range N).map fun k =>
          ⟨μ (k + 1) + (stateObsCov N K H k * (obsCov N K H)⁻¹) *ᵥ ((fun p => y p.1 p.2) - obsMean N μ H),
            K (k + 1) (k + 1) - stateObsCov N K H k * (obsCov N K H)⁻¹ * (stateObsCov N K H k)ᵀ⟩, false⟩ := by
  have := hss.init.isProbabilityMeasure
  obtain ⟨f, C, hc, hf⟩ := kalman_smoother_exact t0 init disc N loc H X Y hss hok
  have haff : ∀ k, k < N → ∃ (W : Matrix (Fin n) (Fin N × Fin m) ℝ) (c : Fin n → ℝ), ∀ y : Fin N → Fin m → ℝ,
      f k y = W *ᵥ (fun p => y p.1 p.2) + c := by
    intro k hk
    obtain ⟨W, c, h⟩ := rseq_matrix init (transitions t0 loc disc) H N (N - 1 - k)
    refine ⟨W, c, fun y => ?_⟩
    rw [← h y]
    have h1 := hf (extend y)
    have h2 : filtsmooth (classicPrior t0 init disc) (gaussProblem N loc H (extend y)) none
        = .ok ⟨(List.range N).map loc,
          (List.range N).map fun k => rseq init (transitions t0 loc disc) H N (extend y) (N - 1 - k), false⟩ := by
      have hok' : ∃ post, filtsmooth (classicPrior t0 init disc) (gaussProblem N loc H (extend y)) none = .ok post := ⟨_, h1⟩
      obtain ⟨post, hp⟩ := hok'
      unfold filtsmooth at hp
      cases hf0 : filter (classicPrior t0 init disc) (gaussProblem N loc H (extend y)) none with
      | error e => rw [hf0] at hp; simp [bind, Except.bind] at hp
      | ok pf =>
        have hp' := hp
        rw [hf0] at hp
        simp only [bind, Except.bind] at hp
        rw [filter_one_state_per_observation _ _ _ (by simp [gaussProblem]) (by simp [gaussProblem])] at hf0
        obtain ⟨hpw, hloc, hfro, hfil⟩ := hf0
        obtain ⟨hreg, hst⟩ := (isFiltered_iff t0 init disc N loc H (extend y) pf.states).1 hfil
        have hsm := hp
        rw [smooth_exact _ _ (by
            rw [hst]; intro h; have := congrArg List.length h; simp at this; omega)
          (by rw [hloc, hst]; simp [gaussProblem])] at hsm
        obtain ⟨e1, e2, e3⟩ := hsm
        rw [hst, hloc] at e3
        have e4 : (gaussProblem N loc H (extend y)).locations = (List.range N).map loc := rfl
        rw [e4] at e3 hpw
        rw [show ((List.range N).map loc).length - 1 = N - 1 by simp] at e3
        have e5 := ((isSmoothed_iff t0 init disc N loc H (extend y) hpw (by omega) _).1 e3).2
        unfold filtsmooth
        rw [hp']
        cases post
        simp only at e1 e2 e5
        rw [e1, e2, e5, hloc]
        rfl
    rw [h1] at h2
    injection h2 with h2
    have h3 := congrArg (fun p : Post ℝ (Updated n) => p.states[k]?) h2
    simp only [List.getElem?_map, List.getElem?_range hk, Option.map_some, Option.some.injEq] at h3
    have h4 := congrArg Updated.mean h3
    simp only at h4
    rw [← h4]
    congr 1
    funext i
    simp [extend]
  have hmem : ∀ p : Fin N × Fin m, MemLp (fun ω => Y p.1 ω p.2) 2 P := fun p => hss.memY p.1 p.1.2 p.2
  have hcond : ∀ k, k < N → (∀ u, f k u = μ (k + 1) + (stateObsCov N K H k * (obsCov N K H)⁻¹) *ᵥ ((fun p => u p.1 p.2) - obsMean N μ H)) ∧
      C k = K (k + 1) (k + 1) - stateObsCov N K H k * (obsCov N K H)⁻¹ * (stateObsCov N K H k)ᵀ := by
    intro k hk
    obtain ⟨W, c, hW⟩ := haff k hk
    refine conditional_regression (hc k hk) (U := fun ω p => Y p.1 ω p.2) (g := fun u p => u p.1 p.2) (by fun_prop)
      (fun ω => rfl) hW (hss.memX (k + 1) (by omega)) hmem (hμ (k + 1) (by omega)) (fun p => ?_)
      (hK (k + 1) (k + 1) (by omega) (by omega)) (fun a p => ?_) (fun p p' => ?_) hdet
    · obtain ⟨V, h1, h2, -⟩ := hss.obs p.1 p.1.2
      have e : (fun ω => Y p.1 ω p.2) = fun ω => ((H p.1).mat *ᵥ X (p.1 + 1) ω + 0) p.2 + V ω p.2 := by
        funext ω; rw [h1 ω, add_zero]; rfl
      have m1 := memLp_mulVec (hss.memX (p.1 + 1) (by omega)) (H p.1).mat p.2
      rw [e, integral_add (by simpa using m1.integrable (by norm_num)) (integrable_coord h2.gaussian _),
        mean_affine (fun b => (hss.memX (p.1 + 1) (by omega) b).integrable (by norm_num)) (hμ (p.1 + 1) (by omega)), h2.mean]
      simp [obsMean]
    · exact hss.cov_state_obs hK p.1 p.1.2 (k + 1) (by omega) a p.2
    · exact hss.cov_obs_obs hK p.1 p'.1 p.1.2 p'.1.2 p.2 p'.2
  rw [hf y]
  congr 2
  refine List.map_congr_left fun k hk => ?_
  rw [List.mem_range] at hk
  rw [(hcond k hk).1, (hcond k hk).2]

theorem blockNoise_posDef (N : ℕ) {R : ℕ → Matrix (Fin m) (Fin m) ℝ} (hR : ∀ k, k < N → (R k).PosDef) :
    (Matrix.of fun p p' : Fin N × Fin m => if p.1 = p'.1 then R p'.1 p.2 p'.2 else 0).PosDef := by
  refine Matrix.PosDef.of_dotProduct_mulVec_pos ?_ fun x hx => ?_
  · ext p p'
    simp only [Matrix.conjTranspose_apply, Matrix.of_apply, star_trivial]
    by_cases h : p.1 = p'.1
    · rw [if_pos h, if_pos h.symm, h]
      have := (hR p'.1 p'.1.2).isHermitian.apply p.2 p'.2
      simpa using this
    · rw [if_neg h, if_neg fun h' => h h'.symm]
  · have e : star x ⬝ᵥ ((Matrix.of fun p p' : Fin N × Fin m => if p.1 = p'.1 then R p'.1 p.2 p'.2 else 0) *ᵥ x)
        = ∑ i : Fin N, star (fun b => x (i, b)) ⬝ᵥ (R i *ᵥ fun b => x (i, b)) := by
      simp only [dotProduct, Matrix.mulVec, Fintype.sum_prod_type, Matrix.of_apply, Pi.star_apply, star_trivial]
      refine Finset.sum_congr rfl fun i _ => Finset.sum_congr rfl fun b _ => ?_
      congr 1
      rw [Finset.sum_eq_single i]
      · simp
      · intro j _ hj
        exact Finset.sum_eq_zero fun b' _ => by rw [if_neg fun h => hj h.symm, zero_mul]
      · simp
    rw [e]
    obtain ⟨p, hp⟩ : ∃ p, x p ≠ 0 := by
      by_contra h
      push Not at h
      exact hx (funext h)
    refine Finset.sum_pos' (fun i _ => (hR i i.2).posSemidef.dotProduct_mulVec_nonneg _) ⟨p.1, Finset.mem_univ _, ?_⟩
    exact (hR p.1 p.1.2).dotProduct_mulVec_pos fun h => hp (congrFun h p.2)

/-- With positive definite measurement noises the covariance of the observations is regular. -/
theorem obsCov_posDef {Ω : Type*} {mΩ : MeasurableSpace Ω} {P : Measure Ω} {N : ℕ} {init : Updated n} {A : ℕ → Transition n n}
    {H : ℕ → Transition n m} {X : ℕ → Ω → Fin n → ℝ} {Y : ℕ → Ω → Fin m → ℝ} (h : StateSpace P N init A H X Y)
    {K : ℕ → ℕ → Matrix (Fin n) (Fin n) ℝ} (hK : ∀ j k, j ≤ N → k ≤ N → CrossCov P (X j) (X k) (K j k))
    (hR : ∀ k, k < N → (H k).noise.cov.PosDef) : (obsCov N K H).PosDef := by
  have := h.init.isProbabilityMeasure
  let L : (Fin (N + 1) × Fin n → ℝ) →ₗ[ℝ] (Fin N × Fin m → ℝ) :=
    { toFun := fun z p => ((H p.1).mat *ᵥ fun b => z (p.1.succ, b)) p.2
      map_add' := fun z z' => by
        funext p
        exact congrFun (Matrix.mulVec_add (H p.1).mat (fun b => z (p.1.succ, b)) fun b => z' (p.1.succ, b)) p.2
      map_smul' := fun c z => by
        funext p
        exact congrFun (Matrix.mulVec_smul (H p.1).mat c fun b => z (p.1.succ, b)) p.2 }
  have hn : IsNormal P (fun ω (p : Fin N × Fin m) => ((H p.1).mat *ᵥ X (p.1 + 1) ω) p.2)
      (fun p => ∫ ω, ((H p.1).mat *ᵥ X (p.1 + 1) ω) p.2 ∂P)
      (Matrix.of fun p p' => ((H p.1).mat * K (p.1 + 1) (p'.1 + 1) * (H p'.1).matᵀ) p.2 p'.2) := by
    refine ⟨(h.chain.gaussian N le_rfl).map_fun (LinearMap.toContinuousLinearMap L), fun p => rfl, fun p p' => ?_⟩
    have := cov_affine (h.memX (p.1 + 1) (by omega)) (h.memX (p'.1 + 1) (by omega)) (hK _ _ (by omega) (by omega))
      (H p.1).mat (H p'.1).mat 0 0 p.2 p'.2
    simp only [add_zero] at this; exact this
  have e : obsCov N K H = (Matrix.of fun p p' => ((H p.1).mat * K (p.1 + 1) (p'.1 + 1) * (H p'.1).matᵀ) p.2 p'.2)
      + Matrix.of fun p p' : Fin N × Fin m => if p.1 = p'.1 then (H p'.1).noise.cov p.2 p'.2 else 0 := by
    ext p p'
    simp only [obsCov, Matrix.of_apply, Matrix.add_apply, Fin.ext_iff]
    congr 1
    split_ifs <;> rfl
  rw [e]
  exact Matrix.PosDef.posSemidef_add hn.posSemidef (blockNoise_posDef N (R := fun k => (H k).noise.cov) hR)

theorem exists_factor {l : ℕ} {C : Matrix (Fin l) (Fin l) ℝ} (h : C.PosSemidef) : ∃ L : Matrix (Fin l) (Fin l) ℝ, L * Lᵀ = C := by
  obtain ⟨ch, -⟩ := exists_covCholesky l
  exact ⟨ch.factor C, ch.gram C h⟩

/-- State-space models exist for all positive semidefinite covariances. -/
theorem exists_stateSpace_psd (N : ℕ) (init : Updated n) (A : ℕ → Transition n n) (H : ℕ → Transition n m)
    (hi : init.cov.PosSemidef) (hA : ∀ k, (A k).noise.cov.PosSemidef) (hH : ∀ k, k < N → (H k).noise.cov.PosSemidef) :
    ∃ X Y, StateSpace (stdBase (BaseIx n m N)) N init A H X Y := by
  obtain ⟨L0, hL0⟩ := exists_factor hi
  choose LA hLA using fun k => exists_factor (hA k)
  have hH' : ∀ k, ∃ L : Matrix (Fin m) (Fin m) ℝ, k < N → L * Lᵀ = (H k).noise.cov := fun k => by
    by_cases hk : k < N
    · obtain ⟨L, h⟩ := exists_factor (hH k hk); exact ⟨L, fun _ => h⟩
    · exact ⟨0, fun h => absurd h hk⟩
  choose LH hLH using hH'
  have h := exists_stateSpace N init.mean L0 (fun k => ⟨(A k).mat, ⟨(A k).noise.mean, (A k).noise.cov, LA k⟩⟩)
    (fun k => ⟨(H k).mat, ⟨(H k).noise.mean, LH k * (LH k)ᵀ, LH k⟩⟩) (fun k => hLA k) (fun k => rfl)
  refine ⟨_, _, ⟨?_, h.dyn, fun k hk => ?_⟩⟩
  · have := h.init
    rw [hL0] at this
    exact this
  · obtain ⟨V, h1, h2, h3⟩ := h.obs k hk
    simp only [hLH k hk] at h2
    exact ⟨V, h1, h2, h3⟩

/-- The hypotheses of `filtsmooth_is_regression` are met, for example, by Brownian motion in two dimensions observed with unit
noise at the times 1, 2 and 3. -/
example : ∃ (disc : ℝ → Transition 2 2) (X Y : ℕ → (BaseIx 2 2 3 → ℝ) → Fin 2 → ℝ),
    StateSpace (stdBase (BaseIx 2 2 3)) 3 ⟨0, 1⟩
      (fun k => gapTransition disc (stateTime 0 (fun k => k + 1) (k + 1) - stateTime 0 (fun k => k + 1) k))
      (fun _ => ⟨1, ⟨0, 1, 1⟩⟩) X Y ∧
    (∃ y0 post, filtsmooth (classicPrior 0 ⟨0, 1⟩ disc) (gaussProblem (m := 2) 3 (fun k => k + 1) (fun _ => ⟨1, ⟨0, 1, 1⟩⟩) y0) none
      = .ok post) ∧
    ∀ K, (∀ j k, j ≤ 3 → k ≤ 3 → CrossCov (stdBase (BaseIx 2 2 3)) (X j) (X k) (K j k)) →
      (obsCov (m := 2) 3 K fun _ => ⟨1, ⟨0, 1, 1⟩⟩).det ≠ 0 := by
  let disc : ℝ → Transition 2 2 := fun dt => ⟨1, ⟨0, dt • 1, 0⟩⟩
  have hd : ∀ dt, 0 < dt → (disc dt).noise.cov.PosDef := fun dt h => Matrix.PosDef.one.smul h
  obtain ⟨X, Y, h⟩ := exists_stateSpace_psd 3 (⟨0, 1⟩ : Updated 2)
    (fun k => gapTransition disc (stateTime 0 (fun k => k + 1) (k + 1) - stateTime 0 (fun k => k + 1) k))
    (fun _ => (⟨1, ⟨0, 1, 1⟩⟩ : Transition 2 2)) Matrix.PosSemidef.one
    (fun k => transitions_psd 0 (fun k => k + 1) disc (fun dt h => (hd dt h).posSemidef) k) fun _ _ => Matrix.PosSemidef.one
  refine ⟨disc, X, Y, h, ⟨fun _ => 0, _, filtsmooth_succeeds_of_posDef 0 ⟨0, 1⟩ disc 3 (fun k => k + 1) _ (by norm_num) ?_
    Matrix.PosSemidef.one hd (fun _ _ => Matrix.PosDef.one) _⟩, fun K hK =>
      (obsCov_posDef h hK fun _ _ => Matrix.PosDef.one).det_pos.ne'⟩
  simp [List.range_succ]

end Probnum.Kalman
