import Verif.FiltSmooth.Props
import Verif.IWP.Props
import Verif.Kalman.Simulate
import Verif.LinGauss.Props
import Verif.OdeFilter.Fit

/-!
# C81: initialisation by a fit to a non-probabilistic solver

Specification: `Verif/Gauss/Spec.lean`, `FiltSmooth.DocModel`, and `iwpFlow`, `iwpCov` below.
-/

namespace Probnum.OdeFilter

open MeasureTheory ProbabilityTheory Matrix Gauss LinGauss IWP Kalman Posterior FiltSmooth

variable {d q : ℕ}

/-! ## Specification -/

/-- `E[X(t + h) | X(t)]` for `d` independent `q`-times integrated Wiener processes with their derivatives: a Taylor
expansion in every coordinate. -/
noncomputable def iwpFlow (d q : ℕ) (h : ℝ) : Matrix (Fin (d * (q + 1))) (Fin (d * (q + 1))) ℝ :=
  Matrix.of fun r c =>
    if r.divNat = c.divNat ∧ r.modNat ≤ c.modNat then
      h ^ (c.modNat.1 - r.modNat.1) / ((c.modNat.1 - r.modNat.1).factorial : ℝ) else 0

/-- `Cov[X(t + h) | X(t)]` for the same process. -/
noncomputable def iwpCov (d q : ℕ) (h : ℝ) : Matrix (Fin (d * (q + 1))) (Fin (d * (q + 1))) ℝ :=
  Matrix.of fun r c =>
    if r.divNat = c.divNat then ∫ s in (0 : ℝ)..h, (s ^ (q - r.modNat.1) / ((q - r.modNat.1).factorial : ℝ))
      * (s ^ (q - c.modNat.1) / ((q - c.modNat.1).factorial : ℝ)) else 0

/-! ## The grid -/

/-- **C81, evaluation points.**  There are `q + 1` points, from `t0` to `t0 + (q+1) dt`, increasing and equally spaced; the
spacing is `dt (q+1)/q`, not `dt`. -/
theorem fitGrid_spec (t0 dt : ℝ) (q : ℕ) (hdt : 0 < dt) :
    (fitGrid t0 dt q).length = q + 1 ∧ (fitGrid t0 dt q)[0]? = some t0 ∧
    (fitGrid t0 dt q).Pairwise (· < ·) ∧
    (0 < q → (fitGrid t0 dt q)[q]? = some (t0 + (q + 1) * dt) ∧
      ∀ i, i + 1 < q + 1 → ∀ a b, (fitGrid t0 dt q)[i]? = some a → (fitGrid t0 dt q)[i + 1]? = some b →
        b - a = dt * ((q + 1) / q) ∧ dt < b - a) := by
  have hstep : ∀ i : ℕ, t0 + (i : ℝ) * ((t0 + ((q + 1 : ℕ) : ℝ) * dt - t0) / (((q + 1 : ℕ) : ℝ) - 1))
      = t0 + i * (dt * ((q + 1) / q)) := by
    intro i
    have h1 : t0 + ((q + 1 : ℕ) : ℝ) * dt - t0 = dt * (q + 1) := by push_cast; ring
    have h2 : ((q + 1 : ℕ) : ℝ) - 1 = q := by push_cast; ring
    rw [h1, h2, mul_div_assoc]
  have hget : ∀ i, i < q + 1 → (fitGrid t0 dt q)[i]? = some (t0 + i * (dt * ((q + 1) / q))) := by
    intro i hi
    simp only [fitGrid, linspace, List.getElem?_map, List.getElem?_range hi, Option.map_some, hstep]
  refine ⟨by simp [fitGrid, linspace], by rw [hget 0 (by omega)]; simp, ?_, fun hq => ?_⟩
  · simp only [fitGrid, linspace, hstep]
    rw [List.pairwise_map]
    refine List.pairwise_lt_range.imp_of_mem fun {i j} hi hj hij => ?_
    have hq : 0 < q := by have := List.mem_range.1 hj; omega
    have hq' : (0 : ℝ) < q := by exact_mod_cast hq
    have hij' : (i : ℝ) < j := by exact_mod_cast hij
    have : 0 < dt * (((q : ℝ) + 1) / q) := by positivity
    nlinarith
  · have hq' : (0 : ℝ) < q := by exact_mod_cast hq
    refine ⟨by rw [hget q (by omega)]; congr 1; field_simp, fun i hi a b ha hb => ?_⟩
    rw [hget i (by omega)] at ha
    rw [hget (i + 1) hi] at hb
    rw [← Option.some.inj ha, ← Option.some.inj hb]
    constructor
    · push_cast; ring
    · have : dt < dt * (((q : ℝ) + 1) / q) := by
        rw [lt_mul_iff_one_lt_right hdt, lt_div_iff₀ hq']; linarith
      push_cast
      linarith

/-! ## The run with square-root implementations is the run with the classic implementations -/

/-- The same mean and covariance, and a Cholesky factor is present and valid. -/
structure Rep (rv : Rv (d * (q + 1))) (u : Updated (d * (q + 1))) : Prop where
  valid : rv.Valid
  isSome : rv.chol?.isSome
  mean : rv.mean = u.mean
  cov : rv.cov = u.cov

/-- The discretised prior, total. -/
noncomputable def iwpDisc (E : Numerics d q) (dt : ℝ) : Transition (d * (q + 1)) (d * (q + 1)) :=
  (discretise q d E.chol dt).getD ⟨1, ⟨0, 0, 0⟩⟩

theorem simulates (E : Numerics d q) (hε : 0 ≤ E.damping) (t0 : ℝ) (init : Rv (d * (q + 1))) (hv : init.Valid)
    (hs : init.chol?.isSome) :
    Simulates Rep (sqrtPrior E t0 init) (classicPrior t0 ⟨init.mean, init.cov⟩ (iwpDisc E)) := by
  refine ⟨rfl, rfl, ⟨hv, hs, rfl, rfl⟩, ?_, ?_⟩
  · intro s s' t dt u' hR hdt hu
    obtain ⟨tr, out, h1, h2, h3, h4, h5⟩ := forward_sqrt_agrees q d E.chol E.ch 1 E.qr hdt.ne' hε zero_le_one s hR.valid hR.isSome
    refine ⟨out.rv, by simp only [sqrtPrior, h2, Except.map], ?_⟩
    have := Except.ok.inj hu
    subst this
    obtain ⟨e1, e2, -⟩ := h5 0
    refine ⟨h3, h4, ?_, ?_⟩
    · rw [e1, hR.mean, hR.cov]; simp [iwpDisc, h1, toNormal]
    · rw [e2, hR.mean, hR.cov]; simp [iwpDisc, h1, toNormal]
  · intro o o' s s' t dt u' hRo hR hdt hu
    obtain ⟨tr, h1, h2⟩ := backward_sqrt_agrees q d E.chol E.ch 1 E.qr hdt.ne' hε zero_lt_one o s hR.valid hR.isSome hRo.valid hRo.isSome
    obtain ⟨u, out, e1, e2, e3, e4, e5⟩ := h2 0 0
    have hu' : backwardClassic tr 1 (toNormal o') (toNormal s') none = .ok u' := by
      simpa [classicPrior, iwpDisc, h1] using hu
    have e1' : backwardClassic tr 1 (toNormal o') (toNormal s') none = .ok u := by
      rw [← e1, hRo.mean, hRo.cov, hR.mean, hR.cov]; rfl
    rw [hu'] at e1'
    have := Except.ok.inj e1'
    subst this
    refine ⟨out, e2, e3, ?_, e4, e5⟩
    unfold preBackwardSqrt at e2
    simp only [bind, Except.bind] at e2
    split at e2
    · cases e2
    · rw [← Except.ok.inj e2]; rfl

theorem fitNoise_posDef {std : ℝ} (hstd : std ≠ 0) : (fitMeas d q std).noise.cov.PosDef := by
  refine Matrix.PosDef.diagonal fun _ => ?_
  positivity

theorem measSim (E : Numerics d q) {std : ℝ} (hstd : std ≠ 0) :
    MeasSim Rep (sqrtMeas E (fitMeas d q std)) (classicMeas (fitMeas d q std)) := by
  intro y s s' u' hR hu
  obtain ⟨L, hL⟩ := Option.isSome_iff_exists.1 hR.isSome
  have hval : (s.toNormal E.ch E.damping).Valid := by
    simp only [Normal.Valid, Rv.toNormal, cholOf, hL]
    exact hR.valid L hL
  have hS : (forwardClassic (fitMeas d q std) 1 (s.toNormal E.ch E.damping)).cov.det ≠ 0 := by
    refine (PosDef.det_pos ?_).ne'
    rw [show (forwardClassic (fitMeas d q std) 1 (s.toNormal E.ch E.damping)).cov = _ from predCov_eq _ _ _]
    have hp : s.cov.PosSemidef := by
      rw [← hR.valid L hL]
      have := Matrix.posSemidef_self_mul_conjTranspose L
      rwa [Matrix.conjTranspose_eq_transpose_of_trivial] at this
    have h1 := hp.mul_mul_conjTranspose_same (fitMeas d q std).mat
    rw [Matrix.conjTranspose_eq_transpose_of_trivial] at h1
    rw [one_smul]
    exact Matrix.PosDef.posSemidef_add h1 (fitNoise_posDef hstd)
  obtain ⟨r, u, h1, h2, h3, h4, h5, -, -⟩ := backward_sqrt_agrees_partial E.qr (fitMeas d q std) 1 (Normal.const y)
    (s.toNormal E.ch E.damping) zero_le_one hval (by simp [fitMeas, Normal.Valid, sq]) (by simp [Normal.Valid, Normal.const])
    hS none (Or.inl rfl)
  refine ⟨⟨r.mean, r.cov, some r.chol⟩, by simp only [sqrtMeas, h1, Except.map], ?_, rfl, ?_, ?_⟩
  · intro L' hL'; cases hL'; exact h5
  all_goals
    have e : classicMeas (fitMeas d q std) y s' none = backwardClassic (fitMeas d q std) 1 (Normal.const y)
        (s.toNormal E.ch E.damping) none := by
      simp only [classicMeas, toNormal, ← hR.mean, ← hR.cov]
      rfl
    rw [e, h2] at hu
    rw [← Except.ok.inj hu]
    assumption

theorem iwpDisc_doc (E : Numerics d q) {h : ℝ} (hh : 0 < h) :
    (iwpDisc E h).mat = iwpFlow d q h ∧ (iwpDisc E h).noise.mean = 0 ∧ (iwpDisc E h).noise.cov = iwpCov d q h := by
  obtain ⟨tr, h1, h2, h3⟩ := discretise_entries q d E.chol hh.ne'
  have e : iwpDisc E h = tr := by simp [iwpDisc, h1]
  have hr : ∀ r : Fin (d * (q + 1)), finProdFinEquiv (r.divNat, r.modNat) = r := fun r =>
    finProdFinEquiv.apply_symm_apply r
  rw [e]
  rw [abs_of_pos hh] at h3
  refine ⟨?_, h2, ?_⟩
  · ext r c
    obtain ⟨a, -, -⟩ := h3 r.divNat c.divNat r.modNat c.modNat
    rw [hr, hr] at a
    rw [a, iwpFlow, Matrix.of_apply]
  · ext r c
    obtain ⟨-, a, -⟩ := h3 r.divNat c.divNat r.modNat c.modNat
    rw [hr, hr] at a
    rw [a, iwpCov, Matrix.of_apply]

/-- Success, and agreement with the smoother of the classic implementations. -/
theorem improve_eq (E : Numerics d q) (hε : 0 ≤ E.damping) {std : ℝ} (hstd : std ≠ 0) (t0 : ℝ)
    (init : Rv (d * (q + 1))) (hv : init.Valid) (hs : init.chol?.isSome) {N : ℕ} (hN : 0 < N) (loc : ℕ → ℝ)
    (hloc : (listOf N loc).Pairwise (· < ·)) (y : ℕ → Fin d → ℝ) :
    ∃ post rv u, filtsmooth (classicPrior t0 ⟨init.mean, init.cov⟩ (iwpDisc E))
        (gaussProblem N loc (fun _ => fitMeas d q std) y) none = .ok post ∧ post.states[0]? = some u ∧
      improve E (sqrtPrior E t0 init) std (listOf N loc) (listOf N y) = .ok rv ∧ Rep rv u := by
  obtain ⟨L, hL⟩ := Option.isSome_iff_exists.1 hs
  have hp : init.cov.PosSemidef := by
    rw [← hv L hL]
    have := Matrix.posSemidef_self_mul_conjTranspose L
    rwa [Matrix.conjTranspose_eq_transpose_of_trivial] at this
  have hok := filtsmooth_succeeds_of_posDef t0 ⟨init.mean, init.cov⟩ (iwpDisc E) N loc (fun _ => fitMeas d q std) hN hloc hp
    (fun dt hdt => by
      obtain ⟨tr, h1, h2, -⟩ := noise_positive_definite q d E.chol hdt.ne'
      simpa [iwpDisc, h1] using h2) (fun _ _ => fitNoise_posDef hstd) y
  obtain ⟨post, hpost, -, hF⟩ := filtsmooth_sim (simulates E hε t0 init hv hs)
    (prob := ⟨listOf N loc, listOf N y, List.replicate N (sqrtMeas E (fitMeas d q std))⟩) rfl rfl
    (by
      simp only [gaussProblem, List.map_const', List.length_range]
      exact List.forall₂_iff_get.2 ⟨by simp, fun i _ _ => by simpa using measSim E hstd⟩)
    (by simp [gaussProblem]) (by simp [gaussProblem]) _ hok
  obtain ⟨M, rfl⟩ : ∃ M, N = M + 1 := ⟨N - 1, by omega⟩
  have hmake : Problem.make (listOf (M + 1) loc) (listOf (M + 1) y)
      (.many (List.replicate (listOf (M + 1) loc).length (sqrtMeas E (fitMeas d q std))))
      = .ok ⟨listOf (M + 1) loc, listOf (M + 1) y, List.replicate (M + 1) (sqrtMeas E (fitMeas d q std))⟩ := by
    simp [Problem.make, listOf]
  cases hst : post.states with
  | nil => rw [hst] at hF; simp [List.range_succ_eq_map] at hF
  | cons s l =>
    rw [hst] at hF
    simp only [List.range_succ_eq_map, List.map_cons] at hF
    rw [List.forall₂_cons] at hF
    refine ⟨_, s, _, hok, by simp [List.range_succ_eq_map], ?_, hF.1⟩
    simp only [improve, hmake, hpost, bind, Except.bind, hst, firstState]

/-! ## The fitted state -/

/-- **C81.**  The returned random variable is the conditional distribution of the prior's state at the initial time given
noisy observations of the solution values at the times that `solve_ivp` returned, for all values; no exception is raised
and the returned Cholesky factor is one of the returned covariance. -/
theorem fit_is_conditional {Ω : Type*} {mΩ : MeasurableSpace Ω} {P : Measure Ω} (E : Numerics d q) (hε : 0 ≤ E.damping)
    {std : ℝ} (hstd : std ≠ 0) (init : Rv (d * (q + 1))) (hv : init.Valid) (hs : init.chol?.isSome) {N : ℕ}
    (hN : 0 < N) (loc : ℕ → ℝ) (hloc : (listOf N loc).Pairwise (· < ·)) (X : ℕ → Ω → Fin (d * (q + 1)) → ℝ)
    (Y : ℕ → Ω → Fin d → ℝ)
    (hX : DocModel P N init.mean init.cov (fun k => iwpFlow d q (loc (k + 1) - loc k))
      (fun k => iwpCov d q (loc (k + 1) - loc k)) (proj d q 0) (Matrix.diagonal fun _ => std ^ 2) X Y) :
    ∃ (f : (Fin N → Fin d → ℝ) → Fin (d * (q + 1)) → ℝ) (C : Matrix (Fin (d * (q + 1))) (Fin (d * (q + 1))) ℝ),
      IsConditional P (X 0) (fun ω (i : Fin N) => Y i ω) f C ∧
      ∀ (dt : ℝ) (y : ℕ → Fin d → ℝ) (solve : List ℝ → Res (List ℝ × List (Fin d → ℝ))),
        solve (fitGrid (loc 0) dt q) = .ok (listOf N loc, listOf N y) →
        ∃ rv, nonProbabilisticFit E (sqrtPrior E (loc 0) init) (loc 0) dt std solve = .ok rv ∧
          rv.mean = f (fun i => y i) ∧ rv.cov = C ∧ ∃ L, rv.chol? = some L ∧ L * Lᵀ = C := by
  have hss : StateSpace P N ⟨init.mean, init.cov⟩
      (fun k => gapTransition (iwpDisc E) (stateTime (loc 0) loc (k + 1) - stateTime (loc 0) loc k))
      (fun _ => fitMeas d q std) (fun k => X (k - 1)) Y := by
    refine stateSpace_of_doc hX _ _ ?_ ?_ fun k => ⟨rfl, rfl, by simp [fitMeas]⟩
    · simp [stateTime, gapTransition]
    · intro k hk
      have := gaps hloc hk
      have e : gapTransition (iwpDisc E) (stateTime (loc 0) loc (k + 1 + 1) - stateTime (loc 0) loc (k + 1))
          = iwpDisc E (loc (k + 1) - loc k) := if_pos (by simpa [stateTime] using this)
      rw [e]
      exact iwpDisc_doc E (sub_pos.2 this)
  obtain ⟨post, -, -, hok, -⟩ := improve_eq E hε hstd (loc 0) init hv hs hN loc hloc fun _ => 0
  obtain ⟨f, C, hc, hy⟩ := kalman_smoother_exact (loc 0) ⟨init.mean, init.cov⟩ (iwpDisc E) N loc
    (fun _ => fitMeas d q std) _ Y hss ⟨_, post, hok⟩
  refine ⟨f 0, C 0, hc 0 hN, fun dt y solve hsolve => ?_⟩
  obtain ⟨post, rv, u, h1, h2, h3, h4⟩ := improve_eq E hε hstd (loc 0) init hv hs hN loc hloc y
  rw [hy y] at h1
  rw [← Except.ok.inj h1] at h2
  obtain ⟨M, rfl⟩ : ∃ M, N = M + 1 := ⟨N - 1, by omega⟩
  simp only [List.range_succ_eq_map, List.map_cons, List.getElem?_cons_zero, Option.some.injEq] at h2
  obtain ⟨L, hL⟩ := Option.isSome_iff_exists.1 h4.isSome
  refine ⟨rv, ?_, ?_, ?_, L, hL, ?_⟩
  · simp only [nonProbabilisticFit, hsolve, bind, Except.bind, h3]
  · rw [h4.mean, ← h2]
  · rw [h4.cov, ← h2]
  · rw [h4.valid L hL, h4.cov, ← h2]

theorem proj_zero_apply (x : Fin (d * (q + 1)) → ℝ) (i : Fin d) (r : Fin (d * (q + 1))) (hr : r.1 = i.1 * (q + 1)) :
    (proj d q 0 *ᵥ x) i = x r := by
  simp only [proj, Matrix.mulVec, dotProduct, Matrix.of_apply, add_zero, ite_mul, one_mul, zero_mul]
  rw [Finset.sum_eq_single r (fun b _ hb => if_neg fun h => hb (Fin.ext (h.trans hr.symm))) (by simp), if_pos hr]

/-- A conditional variance is at most the variance of the error of any other estimate from the same data. -/
theorem conditional_variance_le {Ω β ι : Type*} {mΩ : MeasurableSpace Ω} {P : Measure Ω} [MeasurableSpace β] [Fintype ι]
    {X : Ω → ι → ℝ} {Y : Ω → β} {f : β → ι → ℝ} {C : Matrix ι ι ℝ} (h : IsConditional P X Y f C) (r : ι) (g : β → ℝ)
    (hg : Measurable g) (hL : MemLp (fun ω => X ω r - g (Y ω)) 2 P) :
    C r r ≤ Var[fun ω => X ω r - g (Y ω); P] := by
  have := h.residual.isProbabilityMeasure
  have hE := memLp_coord h.residual.gaussian r
  have hG : MemLp (fun ω => f (Y ω) r - g (Y ω)) 2 P := by
    have := hL.sub hE
    refine this.ae_eq (Filter.Eventually.of_forall fun ω => ?_)
    simp
  have hI : IndepFun (fun ω => (X ω - f (Y ω)) r) (fun ω => f (Y ω) r - g (Y ω)) P :=
    h.indep.comp (φ := fun v : ι → ℝ => v r) (ψ := fun b => f b r - g b) (measurable_pi_apply r)
      (((measurable_pi_apply r).comp h.measurable).sub hg)
  have hsum := hI.variance_add hE hG
  have e : (fun ω => (X ω - f (Y ω)) r) + (fun ω => f (Y ω) r - g (Y ω)) = fun ω => X ω r - g (Y ω) := by
    funext ω; simp
  rw [e] at hsum
  rw [hsum, ← h.residual.cov r r, covariance_self (hE.aestronglyMeasurable.aemeasurable)]
  have := variance_nonneg (fun ω => f (Y ω) r - g (Y ω)) P
  linarith

/-- **C81, accuracy of the initial value.**  Whatever the data, the variance that the fitted state gives to each coordinate
of the solution at the first time is at most the variance of the observation noise. -/
theorem fit_initial_value_variance (E : Numerics d q) (hε : 0 ≤ E.damping) {std : ℝ} (hstd : std ≠ 0)
    (init : Rv (d * (q + 1))) (hv : init.Valid) (hs : init.chol?.isSome) {N : ℕ} (hN : 0 < N) (loc : ℕ → ℝ)
    (hloc : (listOf N loc).Pairwise (· < ·)) (y : ℕ → Fin d → ℝ) (dt : ℝ)
    (solve : List ℝ → Res (List ℝ × List (Fin d → ℝ)))
    (hsolve : solve (fitGrid (loc 0) dt q) = .ok (listOf N loc, listOf N y)) :
    ∃ rv, nonProbabilisticFit E (sqrtPrior E (loc 0) init) (loc 0) dt std solve = .ok rv ∧
      ∀ (i : Fin d) (r : Fin (d * (q + 1))), r.1 = i.1 * (q + 1) → rv.cov r r ≤ std ^ 2 := by
  obtain ⟨L, hL⟩ := Option.isSome_iff_exists.1 hs
  have hp : init.cov.PosSemidef := by
    rw [← hv L hL]
    have := Matrix.posSemidef_self_mul_conjTranspose L
    rwa [Matrix.conjTranspose_eq_transpose_of_trivial] at this
  obtain ⟨chd, -⟩ := exists_covCholesky d
  -- beyond the last gap the covariance of the specification does not matter
  obtain ⟨X, Y, hX⟩ := exists_doc E.ch chd N init.mean init.cov (fun k => iwpFlow d q (loc (k + 1) - loc k))
    (fun k => if k + 1 < N then iwpCov d q (loc (k + 1) - loc k) else 0) (proj d q 0)
    (Matrix.diagonal fun _ => std ^ 2) hp
    (fun k => by
      by_cases hk : k + 1 < N
      · have hg := sub_pos.2 (gaps hloc hk)
        rw [if_pos hk, ← (iwpDisc_doc E hg).2.2]
        obtain ⟨tr, h1, h2, -⟩ := noise_positive_definite q d E.chol hg.ne'
        simpa [iwpDisc, h1] using h2.posSemidef
      · rw [if_neg hk]; exact PosSemidef.zero)
    (PosSemidef.diagonal fun _ => sq_nonneg _)
  have hX' : DocModel _ N init.mean init.cov (fun k => iwpFlow d q (loc (k + 1) - loc k))
      (fun k => iwpCov d q (loc (k + 1) - loc k)) (proj d q 0) (Matrix.diagonal fun _ => std ^ 2) X Y :=
    ⟨hX.init, fun k hk => by simpa only [if_pos hk] using hX.dyn k hk, hX.obs⟩
  obtain ⟨f, C, hC, h⟩ := fit_is_conditional E hε hstd init hv hs hN loc hloc X Y hX'
  obtain ⟨rv, h1, -, h3, -⟩ := h dt y solve hsolve
  refine ⟨rv, h1, fun i r hr => ?_⟩
  obtain ⟨V, hV, hVN, -⟩ := hX.obs 0 hN
  have e : (fun ω => X 0 ω r - (Y (⟨0, hN⟩ : Fin N) ω) i) = fun ω => -(V ω i) := by
    funext ω
    rw [hV ω, Pi.add_apply, proj_zero_apply _ i r hr]
    ring
  have hLp : MemLp (fun ω => -(V ω i)) 2 _ := (memLp_coord hVN.gaussian i).neg
  rw [h3]
  refine (conditional_variance_le hC r (fun b => b ⟨0, hN⟩ i) (by fun_prop) (by rw [e]; exact hLp)).trans ?_
  rw [e, variance_fun_neg, ← covariance_self (memLp_coord hVN.gaussian i).aestronglyMeasurable.aemeasurable, hVN.cov i i]
  simp

/-! ## Failures -/

/-- **C81, exceptions.**  An exception of `solve_ivp` is passed on; if it returns no points (it gave up before the first
evaluation point) the result is an IndexError; if the numbers of times and values differ, a ValueError. -/
theorem fit_raises (E : Numerics d q) (prior : Prior ℝ (Rv (d * (q + 1))) ℝ) (t0 dt std : ℝ)
    (solve : List ℝ → Res (List ℝ × List (Fin d → ℝ))) :
    (∀ e, solve (fitGrid t0 dt q) = .error e → nonProbabilisticFit E prior t0 dt std solve = .error e) ∧
    (solve (fitGrid t0 dt q) = .ok ([], []) → nonProbabilisticFit E prior t0 dt std solve = .error .indexError) ∧
    (∀ ts ys, solve (fitGrid t0 dt q) = .ok (ts, ys) → ys.length ≠ ts.length →
      nonProbabilisticFit E prior t0 dt std solve = .error .valueError) := by
  refine ⟨fun e h => ?_, fun h => ?_, fun ts ys h hl => ?_⟩
  · simp only [nonProbabilisticFit, h, bind, Except.bind]
  · simp only [nonProbabilisticFit, h, bind, Except.bind]
    rfl
  · simp only [nonProbabilisticFit, h, bind, Except.bind, improve, Problem.make]
    rw [if_neg (by simp [hl])]

/-! ## The hypotheses are met -/

theorem diffuseRv_valid (n : ℕ) : (diffuseRv n).Valid ∧ (diffuseRv n).chol?.isSome := by
  refine ⟨?_, rfl⟩
  intro L hL
  cases hL
  ext i j
  by_cases h : i = j
  · subst h; simp [diffuseRv, sq]
  · simp [diffuseRv, h]

/-- The numerical ingredients exist. -/
example : ∃ E : Numerics d q, 0 ≤ E.damping := by
  obtain ⟨Q⟩ := QR.exists
  obtain ⟨c, -⟩ := exists_covCholesky (q + 1)
  obtain ⟨c', -⟩ := exists_covCholesky (d * (q + 1))
  exact ⟨⟨Q, c, c', 0⟩, le_rfl⟩

/-- The default routine on a scalar problem with a twice integrated Wiener process, for whatever values `solve_ivp`
returns at the requested points: the returned variance of the initial value is at most `1e-14`. -/
example (E : Numerics 1 2) (hε : 0 ≤ E.damping) (y : ℕ → Fin 1 → ℝ) :
    ∃ rv, nonProbabilisticFit E (sqrtPrior E 0 (diffuseRv _)) 0 (1 / 100) (1 / 10 ^ 7)
        (fun ts => .ok (ts, listOf ts.length y)) = .ok rv ∧ rv.cov 0 0 ≤ 1 / 10 ^ 14 := by
  obtain ⟨h1, -, h3, -⟩ := fitGrid_spec 0 (1 / 100) 2 (by norm_num)
  have hg : fitGrid 0 (1 / 100) 2 = listOf 3 fun k => (k : ℝ) * (3 / 200) := by
    simp only [fitGrid, linspace, listOf]
    refine List.map_congr_left fun i _ => ?_
    norm_num
  obtain ⟨hv, hs⟩ := diffuseRv_valid (1 * (2 + 1))
  have := fit_initial_value_variance E hε (std := 1 / 10 ^ 7) (by norm_num) (diffuseRv _) hv hs (N := 3) (by norm_num)
    (fun k => (k : ℝ) * (3 / 200)) (by rw [← hg]; exact h3) y (1 / 100) (fun ts => .ok (ts, listOf ts.length y))
    (by simp only [Nat.cast_zero, zero_mul, h1, ← hg])
  simp only [Nat.cast_zero, zero_mul] at this
  obtain ⟨rv, e1, e2⟩ := this
  exact ⟨rv, e1, (e2 0 0 rfl).trans (by norm_num)⟩

end Probnum.OdeFilter
