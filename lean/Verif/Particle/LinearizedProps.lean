import Verif.Particle.LinearizedLemmas

/-!
# C100: importance distributions by local linearisation

Specification: a weighted particle `(x', w')` made from a particle with weight `w` stands for the measure
`w · p(data | x') · p(x' | x) dx'`: the expectation of `w' φ(x')` is the integral of `φ` with respect to it, for every `φ`.
-/

namespace Probnum.Particle

open MeasureTheory ProbabilityTheory Matrix Probnum.LinGauss Probnum.Approx Probnum.Gauss

variable {n m : ℕ} {Ω Ω' : Type*} {mΩ : MeasurableSpace Ω} {mΩ' : MeasurableSpace Ω'} {P : Measure Ω} {P' : Measure Ω'}

theorem vec_ofFn (v : Fin n → ℝ) : vec n (List.ofFn v) = v := by
  funext i
  simp [vec, List.getD]

theorem transformBase_normal (ch : Kalman.CovCholesky n) (q : Updated n) (hq : q.cov.PosSemidef) {b : Ω → Fin n → ℝ}
    (hb : IsNormal P b 0 1) : IsNormal P (fun ω => Kalman.transformBase ch q (b ω)) q.mean q.cov := by
  have := hb.affine (ch.factor q.cov) q.mean
  rw [Matrix.mul_one, ch.gram _ hq, mulVec_zero, zero_add] at this
  simpa only [Kalman.transformBase, add_comm] using this

/-- What `advance` does with a proposal made from `q` and `p`. -/
theorem advance_eq (f : PF (Fin n → ℝ) (Fin m → ℝ) (ℝ → Nonlinear n m)) (hk : f.imp.kind = .base) (ch : Kalman.CovCholesky n)
    (R : Oracle (Fin n → ℝ)) (k i : ℕ) (o : Obs (Fin m → ℝ) (ℝ → Nonlinear n m)) (tOld : ℝ) (x : Pt) {w : ℝ} (hw : 0 ≤ w)
    (q : Updated n) (p : Normal n) (hq : q.cov.PosDef) (hp : p.cov.PosDef) (hprop : f.proposal o tOld x = proposalOf ch q p) :
    f.advance R k o tOld i x w = (List.ofFn (Kalman.transformBase ch q (R.noise k i)),
      Real.exp (f.loglik o.model o.t (List.ofFn (Kalman.transformBase ch q (R.noise k i))) o.data)
        * (normalPdf p.mean p.cov (Kalman.transformBase ch q (R.noise k i))
          / normalPdf q.mean q.cov (Kalman.transformBase ch q (R.noise k i))) * (w + 1e-14)) := by
  have h1 : 0 < w + 1e-14 := by norm_num; linarith
  simp only [PF.advance, hprop, logCorrection, hk, proposalOf, vec_ofFn, Prod.mk.injEq, true_and]
  rw [Real.exp_add, Real.exp_add, Real.exp_sub, Real.exp_log (normalPdf_pos _ hp _), Real.exp_log (normalPdf_pos _ hq _),
    Real.exp_log h1, mul_assoc]

theorem proposal_unbiased (f : PF (Fin n → ℝ) (Fin m → ℝ) (ℝ → Nonlinear n m)) (hk : f.imp.kind = .base)
    (ch : Kalman.CovCholesky n) (o : Obs (Fin m → ℝ) (ℝ → Nonlinear n m)) (tOld : ℝ) (x : Pt) {w : ℝ} (hw : 0 ≤ w)
    (q : Updated n) (p : Normal n) (hq : q.cov.PosDef) (hp : p.cov.PosDef) (hprop : f.proposal o tOld x = proposalOf ch q p)
    (hll : Measurable fun v : Fin n → ℝ => f.loglik o.model o.t (List.ofFn v) o.data)
    (φ : Pt → ENNReal) (hφ : Measurable fun v : Fin n → ℝ => φ (List.ofFn v)) (R : Ω → Oracle (Fin n → ℝ)) (k i : ℕ)
    (hb : IsNormal P (fun ω => (R ω).noise k i) 0 1) (X' : Ω' → Fin n → ℝ) (hX' : IsNormal P' X' p.mean p.cov) :
    ∫⁻ ω, ENNReal.ofReal (f.advance (R ω) k o tOld i x w).2 * φ (f.advance (R ω) k o tOld i x w).1 ∂P
      = ENNReal.ofReal (w + 1e-14)
        * ∫⁻ ω, ENNReal.ofReal (Real.exp (f.loglik o.model o.t (List.ofFn (X' ω)) o.data)) * φ (List.ofFn (X' ω)) ∂P' := by
  have hQ := transformBase_normal ch q hq.posSemidef hb
  set F : (Fin n → ℝ) → ENNReal := fun v => ENNReal.ofReal (Real.exp (f.loglik o.model o.t (List.ofFn v) o.data)) * φ (List.ofFn v)
    with hF
  have mF : Measurable F := (ENNReal.measurable_ofReal.comp (Real.measurable_exp.comp hll)).mul hφ
  have mp := measurable_normalPdf p.mean p.cov
  have mq := measurable_normalPdf q.mean q.cov
  have mp' : Measurable fun v => ENNReal.ofReal (normalPdf p.mean p.cov v) := ENNReal.measurable_ofReal.comp mp
  set G : (Fin n → ℝ) → ENNReal := fun v => ENNReal.ofReal (w + 1e-14)
    * (ENNReal.ofReal (normalPdf p.mean p.cov v / normalPdf q.mean q.cov v) * F v) with hG
  have mG : Measurable G := ((ENNReal.measurable_ofReal.comp (mp.div mq)).mul mF).const_mul _
  have h1 : ∀ ω, ENNReal.ofReal (f.advance (R ω) k o tOld i x w).2 * φ (f.advance (R ω) k o tOld i x w).1
      = G (Kalman.transformBase ch q ((R ω).noise k i)) := by
    intro ω
    rw [advance_eq f hk ch (R ω) k i o tOld x hw q p hq hp hprop]
    simp only [hG, hF]
    rw [ENNReal.ofReal_mul (mul_nonneg (Real.exp_pos _).le (div_nonneg (normalPdf_pos _ hp _).le (normalPdf_pos _ hq _).le)),
      ENNReal.ofReal_mul (Real.exp_pos _).le]
    ring
  simp only [h1]
  rw [← lintegral_map' (f := G) (mG.aemeasurable) hQ.gaussian.aemeasurable, hQ.density hq,
    lintegral_withDensity_eq_lintegral_mul _
      (f := fun v => ENNReal.ofReal (normalPdf q.mean q.cov v)) (ENNReal.measurable_ofReal.comp mq) mG,
    ← lintegral_map' (f := F) mF.aemeasurable hX'.gaussian.aemeasurable, hX'.density hp,
    lintegral_withDensity_eq_lintegral_mul _ mp' mF,
    ← lintegral_const_mul _ (mp'.mul mF)]
  refine lintegral_congr fun v => ?_
  simp only [hG, Pi.mul_apply]
  have e : ENNReal.ofReal (normalPdf q.mean q.cov v) * ENNReal.ofReal (normalPdf p.mean p.cov v / normalPdf q.mean q.cov v)
      = ENNReal.ofReal (normalPdf p.mean p.cov v) := by
    rw [← ENNReal.ofReal_mul (normalPdf_pos _ hq _).le, mul_div_cancel₀ _ (normalPdf_pos _ hq v).ne']
  rw [← e]
  ring

section Filter

variable (S : Strategy) (ch : Kalman.CovCholesky n) (dyn : (Fin n → ℝ) → ℝ → ℝ → Normal n) (initrv : Normal n) (initarg : ℝ)
  (num : ℕ) (withResampling : Bool) (threshold : ℝ)

theorem proposal_generate (o : Obs (Fin m → ℝ) (ℝ → Nonlinear n m)) (tOld : ℝ) (x : Pt) (h : o.t ≠ initarg) {q : Updated n}
    {p : Normal n} (hok : generateImportance S dyn (vec n x) o.data tOld (some (o.t - tOld)) (some o.model) = .ok (q, p)) :
    (linearizedFilter S ch dyn initrv initarg num withResampling threshold).proposal o tOld x = proposalOf ch q p := by
  simp only [PF.proposal, linearizedFilter, if_neg h, linearized, hok]

theorem proposal_initial (o : Obs (Fin m → ℝ) (ℝ → Nonlinear n m)) (tOld : ℝ) (x : Pt) (h : o.t = initarg) {q : Updated n}
    {p : Normal n} (hok : processInitrv S initrv o.data o.t (some o.model) = .ok (q, p)) :
    (linearizedFilter S ch dyn initrv initarg num withResampling threshold).proposal o tOld x = proposalOf ch q p := by
  simp only [PF.proposal, linearizedFilter, if_pos h, linearized, hok]

theorem measurable_loglikelihood (M : ℝ → Nonlinear n m) (t : ℝ) (data : Fin m → ℝ) (hg : Measurable (M t).g)
    (hR : (M t).noise.cov.PosDef) : Measurable fun v : Fin n → ℝ => loglikelihood M t (List.ofFn v) data := by
  simp only [loglikelihood, vec_ofFn, Nonlinear.forwardRealization]
  refine Real.measurable_log.comp ?_
  unfold normalPdf
  refine Measurable.const_mul (Real.measurable_exp.comp ?_) _
  have h1 : Measurable fun v : Fin n → ℝ => data - ((M t).g v + (1 : ℝ) • (M t).noise.mean) :=
    measurable_const.sub (hg.add measurable_const)
  have h2 : Measurable fun z : Fin m → ℝ => -(z ⬝ᵥ ((1 * 1 : ℝ) • (M t).noise.cov)⁻¹ *ᵥ z) / 2 :=
    ((continuous_id.dotProduct (Continuous.matrix_mulVec continuous_const continuous_id)).neg.div_const 2).measurable
  exact h2.comp h1

theorem exp_loglikelihood (M : ℝ → Nonlinear n m) (t : ℝ) (data : Fin m → ℝ) (hR : (M t).noise.cov.PosDef) (v : Fin n → ℝ) :
    Real.exp (loglikelihood M t (List.ofFn v) data)
      = normalPdf ((M t).g v + (M t).noise.mean) (M t).noise.cov data := by
  simp only [loglikelihood, vec_ofFn, Nonlinear.forwardRealization, one_smul, one_mul]
  exact Real.exp_log (normalPdf_pos _ hR _)

/-- **C100 (a).**  Importance sampling by local linearisation is unbiased, however bad the linearisation: for a particle `x` with
weight `w`, the expectation of new weight times `φ`(new particle) is `w + 1e-14` times the integral of `φ(x') p(data | x')` with
respect to the dynamics from `x` (`X'`).

Partial: the property says `w`, the program uses `w + 1e-14` (`zero_weight_revived`). -/
theorem importance_unbiased_partial (o : Obs (Fin m → ℝ) (ℝ → Nonlinear n m)) (tOld : ℝ) (x : Pt) {w : ℝ} (hw : 0 ≤ w)
    (ht : o.t ≠ initarg) {q : Updated n} {p : Normal n}
    (hok : generateImportance S dyn (vec n x) o.data tOld (some (o.t - tOld)) (some o.model) = .ok (q, p))
    (hq : q.cov.PosDef) (hp : (dyn (vec n x) tOld (o.t - tOld)).cov.PosDef) (hg : Measurable (o.model o.t).g)
    (hR : (o.model o.t).noise.cov.PosDef)
    (φ : Pt → ENNReal) (hφ : Measurable fun v : Fin n → ℝ => φ (List.ofFn v)) (R : Ω → Oracle (Fin n → ℝ)) (k i : ℕ)
    (hb : IsNormal P (fun ω => (R ω).noise k i) 0 1) (X' : Ω' → Fin n → ℝ)
    (hX' : IsNormal P' X' (dyn (vec n x) tOld (o.t - tOld)).mean (dyn (vec n x) tOld (o.t - tOld)).cov) :
    let f := linearizedFilter (m := m) S ch dyn initrv initarg num withResampling threshold
    ∫⁻ ω, ENNReal.ofReal (f.advance (R ω) k o tOld i x w).2 * φ (f.advance (R ω) k o tOld i x w).1 ∂P
      = ENNReal.ofReal (w + 1e-14) * ∫⁻ ω, ENNReal.ofReal
          (normalPdf ((o.model o.t).g (X' ω) + (o.model o.t).noise.mean) (o.model o.t).noise.cov o.data)
            * φ (List.ofFn (X' ω)) ∂P' := by
  intro f
  have hpe : p = dyn (vec n x) tOld (o.t - tOld) := by
    simp only [generateImportance] at hok
    cases hl : linUpdate S (o.model (tOld + (o.t - tOld))) o.data (dyn (vec n x) tOld (o.t - tOld)) with
    | error e => rw [hl] at hok; simp [Except.map] at hok
    | ok r => rw [hl] at hok; simp [Except.map] at hok; exact hok.2.symm
  subst hpe
  have := proposal_unbiased f rfl ch o tOld x hw q _ hq hp
    (proposal_generate S ch dyn initrv initarg num withResampling threshold o tOld x ht hok)
    (measurable_loglikelihood o.model o.t o.data hg hR) φ hφ R k i hb X' hX'
  rw [this]
  congr 1
  refine lintegral_congr fun ω => ?_
  rw [← exp_loglikelihood o.model o.t o.data hR]
  rfl

/-- The same at the initial time: the initial distribution takes the place of the dynamics. -/
theorem initial_unbiased_partial (o : Obs (Fin m → ℝ) (ℝ → Nonlinear n m)) (tOld : ℝ) (x : Pt) {w : ℝ} (hw : 0 ≤ w)
    (ht : o.t = initarg) {q : Updated n} {p : Normal n}
    (hok : processInitrv S initrv o.data o.t (some o.model) = .ok (q, p))
    (hq : q.cov.PosDef) (hp : initrv.cov.PosDef) (hg : Measurable (o.model o.t).g)
    (hR : (o.model o.t).noise.cov.PosDef)
    (φ : Pt → ENNReal) (hφ : Measurable fun v : Fin n → ℝ => φ (List.ofFn v)) (R : Ω → Oracle (Fin n → ℝ)) (k i : ℕ)
    (hb : IsNormal P (fun ω => (R ω).noise k i) 0 1) (X' : Ω' → Fin n → ℝ)
    (hX' : IsNormal P' X' initrv.mean initrv.cov) :
    let f := linearizedFilter (m := m) S ch dyn initrv initarg num withResampling threshold
    ∫⁻ ω, ENNReal.ofReal (f.advance (R ω) k o tOld i x w).2 * φ (f.advance (R ω) k o tOld i x w).1 ∂P
      = ENNReal.ofReal (w + 1e-14) * ∫⁻ ω, ENNReal.ofReal
          (normalPdf ((o.model o.t).g (X' ω) + (o.model o.t).noise.mean) (o.model o.t).noise.cov o.data)
            * φ (List.ofFn (X' ω)) ∂P' := by
  intro f
  have hpe : p = initrv := by
    simp only [processInitrv] at hok
    cases hl : linUpdate S (o.model o.t) o.data initrv with
    | error e => rw [hl] at hok; simp [Except.map] at hok
    | ok r => rw [hl] at hok; simp [Except.map] at hok; exact hok.2.symm
  subst hpe
  have := proposal_unbiased f rfl ch o tOld x hw q _ hq hp
    (proposal_initial S ch dyn p initarg num withResampling threshold o tOld x ht hok)
    (measurable_loglikelihood o.model o.t o.data hg hR) φ hφ R k i hb X' hX'
  rw [this]
  congr 1
  refine lintegral_congr fun ω => ?_
  rw [← exp_loglikelihood o.model o.t o.data hR]
  rfl

/-- The update of the extended Kalman filter in the notation of `update_algebra`. -/
theorem linUpdate_ekf (M : Nonlinear n m) (dg : (Fin n → ℝ) → Matrix (Fin m) (Fin n) ℝ) (hj : M.jac = some dg)
    (hR : M.noise.cov.PosDef) (rv : Normal n) (hp : rv.cov.PosDef) (data : Fin m → ℝ)
    {Sm : Matrix (Fin m) (Fin m) ℝ} {K : Matrix (Fin n) (Fin m) ℝ} (hS : Sm = dg rv.mean * rv.cov * (dg rv.mean)ᵀ + M.noise.cov)
    (hK : K = rv.cov * (dg rv.mean)ᵀ * Sm⁻¹) :
    linUpdate .ekf M data rv
      = .ok ⟨rv.mean + K *ᵥ (data - (M.g rv.mean + M.noise.mean)), rv.cov - K * Sm * Kᵀ⟩ := by
  obtain ⟨hSpd, -⟩ := update_algebra hp hR (dg rv.mean) hS hK
  have sS : Smᵀ = Sm := by have := hSpd.1.eq; rwa [Matrix.conjTranspose_eq_transpose_of_trivial] at this
  have hcov : (forwardClassic (ekfLinearize M dg rv.mean) 1 rv).cov = Sm := by
    rw [hS]; simp [forwardClassic, ekfLinearize, Matrix.mul_assoc]
  have hmean : (forwardClassic (ekfLinearize M dg rv.mean) 1 rv).mean = M.g rv.mean + M.noise.mean := by
    simp only [forwardClassic, ekfLinearize]; abel
  have hgain : gainClassic (ekfLinearize M dg rv.mean) 1 rv = .ok K := by
    simp only [gainClassic, hcov, if_neg hSpd.det_pos.ne']
    congr 1
    rw [hK, sS, Matrix.transpose_mul, Matrix.transpose_transpose, Matrix.transpose_nonsing_inv, sS]
    rfl
  simp only [linUpdate, ekfComponent, Nonlinear.jacobian, hj, Except.bind, Approx.backwardRv, point, backwardClassic, hgain, bind,
    hmean, hcov, conditionStateOnRv, Normal.const]
  congr 2
  rw [zero_sub, Matrix.mul_neg, Matrix.neg_mul, ← sub_eq_add_neg]

/-- **C100 (b).**  With the extended Kalman filter, calls for models with Jacobian and regular noise succeed, and the importance
distribution has a density, for dynamics with regular covariance: the hypotheses of (a) hold. -/
theorem ekf_importance_regular (M : ℝ → Nonlinear n m) (x : Fin n → ℝ) (data : Fin m → ℝ) (t dt : ℝ)
    (hj : (M (t + dt)).jac ≠ none) (hR : (M (t + dt)).noise.cov.PosDef) (hp : (dyn x t dt).cov.PosDef) :
    ∃ q, generateImportance .ekf dyn x data t (some dt) (some M) = .ok (q, dyn x t dt) ∧ q.cov.PosDef := by
  obtain ⟨dg, hdg⟩ := Option.ne_none_iff_exists'.1 hj
  have h := linUpdate_ekf (M (t + dt)) dg hdg hR (dyn x t dt) hp data rfl rfl
  refine ⟨_, (congrArg (Except.map fun q => (q, dyn x t dt)) h : _), ?_⟩
  exact (update_algebra hp hR (dg (dyn x t dt).mean) rfl rfl).2.2.2.2.2

/-- **C100 (c).**  For affine measurement functions the importance distribution of the extended Kalman filter is optimal: it is the
conditional distribution of the next state given the data, and the new weight does not depend on the draw: it is the old weight
(plus `1e-14`) times the density of the data given the particle. -/
theorem ekf_importance_optimal {A : ℝ → Matrix (Fin m) (Fin n) ℝ} {c : ℝ → Fin m → ℝ} (o : Obs (Fin m → ℝ) (ℝ → Nonlinear n m))
    (tOld : ℝ) (x : Pt) {w : ℝ} (hw : 0 ≤ w) (ht : o.t ≠ initarg) (ha : Affine (o.model o.t) (A o.t) (c o.t))
    (hR : (o.model o.t).noise.cov.PosDef) (hp : (dyn (vec n x) tOld (o.t - tOld)).cov.PosDef) :
    let p := dyn (vec n x) tOld (o.t - tOld)
    let f := linearizedFilter (m := m) .ekf ch dyn initrv initarg num withResampling threshold
    (∀ (R : Oracle (Fin n → ℝ)) (k i : ℕ), (f.advance R k o tOld i x w).2
      = normalPdf (A o.t *ᵥ p.mean + (c o.t + (o.model o.t).noise.mean))
          (A o.t * p.cov * (A o.t)ᵀ + (o.model o.t).noise.cov) o.data * (w + 1e-14)) ∧
    ∀ (X' : Ω' → Fin n → ℝ) (N : Ω' → Fin m → ℝ), IsNormal P' X' p.mean p.cov →
      IsNormal P' N (o.model o.t).noise.mean (o.model o.t).noise.cov → IndepFun X' N P' →
      ∃ (F : (Fin m → ℝ) → Fin n → ℝ) (C : Matrix (Fin n) (Fin n) ℝ),
        IsConditional P' X' (fun ω => (o.model o.t).g (X' ω) + N ω) F C ∧
        generateImportance .ekf dyn (vec n x) o.data tOld (some (o.t - tOld)) (some o.model) = .ok (⟨F o.data, C⟩, p) := by
  intro p f
  have hto : tOld + (o.t - tOld) = o.t := by ring
  set M := o.model o.t with hM
  set Sm := A o.t * p.cov * (A o.t)ᵀ + M.noise.cov with hS
  set K := p.cov * (A o.t)ᵀ * Sm⁻¹ with hK
  have hl := linUpdate_ekf M (fun _ => A o.t) ha.jac hR p hp o.data hS hK
  have hgen : generateImportance .ekf dyn (vec n x) o.data tOld (some (o.t - tOld)) (some o.model)
      = .ok (⟨p.mean + K *ᵥ (o.data - (M.g p.mean + M.noise.mean)), p.cov - K * Sm * Kᵀ⟩, p) := by
    simp only [generateImportance, hto]
    rw [hl]
    rfl
  have hpd := (update_algebra hp hR (A o.t) hS hK).2.2.2.2.2
  refine ⟨fun R k i => ?_, fun X' N hX' hN hi => ?_⟩
  · rw [advance_eq f rfl ch R k i o tOld x hw _ p hpd hp
      (proposal_generate .ekf ch dyn initrv initarg num withResampling threshold o tOld x ht hgen)]
    set v := Kalman.transformBase ch ⟨p.mean + K *ᵥ (o.data - (M.g p.mean + M.noise.mean)), p.cov - K * Sm * Kᵀ⟩ (R.noise k i)
    show Real.exp (loglikelihood o.model o.t (List.ofFn v) o.data) * _ * _ = _
    rw [exp_loglikelihood o.model o.t o.data hR v, ← hM, ha.fn, ha.fn]
    have hid := normalPdf_update hp hR (A o.t) hS hK p.mean (c o.t + M.noise.mean) o.data v
    have hqpos := normalPdf_pos (p.mean + K *ᵥ (o.data - (A o.t *ᵥ p.mean + (c o.t + M.noise.mean)))) hpd v
    rw [add_assoc, add_assoc]
    congr 1
    rw [mul_div_assoc', div_eq_iff hqpos.ne', mul_comm, hid, mul_comm]
  · obtain ⟨lin, h1, F, C, h2, h3⟩ := ekf_backward_exact (P := P') ha none 1 p X' N hX' (by simpa using hN) hi
      (by have := hR.1.eq; rwa [Matrix.conjTranspose_eq_transpose_of_trivial] at this)
      (by rw [one_smul]; exact (update_algebra hp hR (A o.t) hS hK).1.det_pos.ne')
    refine ⟨F, C, h3, ?_⟩
    simp only [generateImportance, hto, linUpdate]
    rw [← hM, h1]
    exact congrArg (Except.map fun q => (q, p)) (h2 o.data)

/-- **C100: violated.**  A particle with weight zero gets a positive weight. -/
theorem zero_weight_revived (o : Obs (Fin m → ℝ) (ℝ → Nonlinear n m)) (tOld : ℝ) (x : Pt) (R : Oracle (Fin n → ℝ)) (k i : ℕ) :
    0 < ((linearizedFilter (m := m) S ch dyn initrv initarg num withResampling threshold).advance R k o tOld i x 0).2 :=
  Real.exp_pos _

/-- **C100.**  Without a measurement model, a time step or a Jacobian (also for the unscented filter) the call raises. -/
theorem importance_errors (x : Fin n → ℝ) (data : Fin m → ℝ) (t dt : ℝ) (dt? : Option ℝ) (M : ℝ → Nonlinear n m) :
    generateImportance S dyn x data t dt? (none : Option (ℝ → Nonlinear n m)) = .error .valueError ∧
    processInitrv S initrv data t (none : Option (ℝ → Nonlinear n m)) = .error .valueError ∧
    generateImportance S dyn x data t none (some M) = .error .typeError ∧
    ((M (t + dt)).jac = none →
      generateImportance S dyn x data t (some dt) (some M) = .error .notImplementedError) := by
  refine ⟨rfl, rfl, rfl, fun h => ?_⟩
  cases S <;>
    simp [generateImportance, linUpdate, ekfComponent, ukfComponent, Nonlinear.jacobian, h, Except.bind, Except.map]

end Filter

/-- A measurement model that is not affine: `x ↦ x₀²` with unit noise. -/
noncomputable def squareModel : Nonlinear 2 1 := ⟨fun x _ => x 0 ^ 2, some fun x => !![2 * x 0, 0], ⟨0, 1, 1⟩⟩

/-- The hypotheses of (a), (b) and (c) are met: a random walk in two dimensions, observed through `squareModel` or through an affine
model. -/
example (x : Fin 2 → ℝ) (data : Fin 1 → ℝ) (t : ℝ) :
    (∃ q, generateImportance .ekf (fun x _ _ => ⟨x, 1, 1⟩) x data t (some 1) (some fun _ => squareModel) = .ok (q, ⟨x, 1, 1⟩) ∧
      q.cov.PosDef) ∧ Measurable squareModel.g ∧ squareModel.noise.cov.PosDef ∧ Affine demo !![1, 2] ![3] ∧
      demo.noise.cov.PosDef := by
  refine ⟨ekf_importance_regular _ _ x data t 1 (by simp [squareModel]) Matrix.PosDef.one Matrix.PosDef.one, ?_,
    Matrix.PosDef.one, demo_affine, ?_⟩
  · exact measurable_pi_iff.2 fun _ => (measurable_pi_apply 0).pow_const 2
  · have : demo.noise.cov = 1 := by ext i j; fin_cases i; fin_cases j; rfl
    rw [this]
    exact Matrix.PosDef.one

end Probnum.Particle
