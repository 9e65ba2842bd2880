import Mathlib.Analysis.SpecialFunctions.Log.Basic
import Verif.OdeFilter.StepLemmas
import Verif.OdeFilter.StepSpec
import Verif.Diffusion.Props

/-!
# C70, C71, C72: a step of the ODE filter, its calibration, and the calibrated posterior
-/

namespace Probnum.OdeFilter

open Matrix LinGauss Gauss Diffusion MeasureTheory ProbabilityTheory

variable {d q : ℕ}

/-! ## Preparations -/

theorem discretise_props (chol : Kalman.CovCholesky (q + 1)) {dt : ℝ} {tr : Transition (d * (q + 1)) (d * (q + 1))}
    (h : IWP.discretise q d chol dt = some tr) :
    dt ≠ 0 ∧ tr.noise.mean = 0 ∧ tr.noise.Valid ∧ tr.noise.cov.PosDef := by
  have hdt : dt ≠ 0 := by
    rintro rfl
    rw [IWP.zero_step_undefined] at h; cases h
  obtain ⟨tr', h1, h2, -⟩ := IWP.discretise_entries q d chol hdt
  obtain ⟨tr'', h3, h4, -, h5⟩ := IWP.noise_positive_definite q d chol hdt
  rw [h] at h1 h3
  cases h1; cases h3
  exact ⟨hdt, h2, h5, h4⟩

theorem linearized_residual {S : Solver d q} {t : ℝ} {x0 : Fin (d * (q + 1)) → ℝ} {lin : Transition (d * (q + 1)) d}
    (h : linearized q S.strategy S.ode (some t) x0 = .ok lin) :
    LinearisedResidual S t x0 lin.mat lin.noise.mean ∧ ∃ b, lin.noise = Normal.const b := by
  obtain ⟨g, h1, h2, h3⟩ := linearized_ok h
  obtain ⟨v, h4, h5⟩ := map_ok h2
  refine ⟨⟨?_, v, h4, ?_⟩, _, h3⟩
  · revert h1
    unfold measJac
    cases S.strategy with
    | ek0 => intro h1; exact ⟨0, by simpa using h1.symm, rfl⟩
    | ek1 =>
      intro h1
      obtain ⟨J, h6, h7⟩ := map_ok h1
      exact ⟨J, h7.symm, h6⟩
  · rw [h3, h5]; simp [Normal.const]

theorem linearized_free {s : Strategy} {o : Ode d} (h : o.TimeFree) (t : ℝ) (x0 : Fin (d * (q + 1)) → ℝ) :
    linearized q s o none x0 = linearized q s o (some t) x0 := by
  unfold linearized measFn
  have e : measJac q s o none x0 = measJac q s o (some t) x0 := by
    cases s with
    | ek0 => rfl
    | ek1 => simp only [measJac, (h t _).2]
  rw [e, (h t _).1]

/-- What an attempt that returns has computed. -/
theorem attempt_ok {S : Solver d q} {D : Diff} {t : ℝ} {rv : Normal (d * (q + 1))} {dt : ℝ} {o : Outcome d q}
    (hrv : rv.Valid) (h : attempt S D t rv dt = .ok o) :
    ∃ tr lin, IWP.discretise q d S.chol dt = some tr ∧
      linearized q S.strategy S.ode (some (t + dt)) (predMean tr rv) = .ok lin ∧
      ∃ pL mL full est, IsLowerFactor pL tr.noise.cov ∧ IsLowerFactor mL (freeCov tr lin) ∧
        IsLowerFactor full (fullCov tr lin rv) ∧ D.estimate full mL (predRes tr lin rv) (t + dt) = .ok est ∧
        (let errors : Fin d → ℝ := fun i => Real.sqrt est * Real.sqrt (freeCov tr lin i i)
        let reference : Fin d → ℝ := fun i => |(proj d q S.reference *ᵥ rv.mean) i|
        if S.rule.accepted (S.rule.norm errors reference) then
          (finalPredChol S D.perStep est pL (tr.mat * rv.chol)).bind fun predL =>
          (finalMeasChol S D.perStep est mL full (lin.mat * (tr.mat * rv.chol))).bind fun measL =>
          (correct S lin.mat (predMean tr rv) predL measL).map fun filt =>
            (⟨t + dt, some filt, errors, reference, D.update est t⟩ : Outcome d q)
        else .ok ⟨t + dt, none, errors, reference, D⟩) = .ok o := by
  cases htr : IWP.discretise q d S.chol dt with
  | none => unfold attempt at h; rw [htr] at h; cases h
  | some tr =>
    obtain ⟨-, hm, hno, -⟩ := discretise_props S.chol htr
    have hlin : ∃ lin, linearized q S.strategy S.ode (some (t + dt)) (predMean tr rv) = .ok lin := by
      have h' := h
      unfold attempt at h'
      rw [htr] at h'
      obtain ⟨pf, h1, h'⟩ := bind_ok h'
      obtain ⟨lin, h2, h'⟩ := bind_ok h'
      obtain ⟨L, h3, -⟩ := forwardSqrt_eq S.qr tr 1 (Normal.const rv.mean) zero_le_one (Normal.const_valid _) hno le_rfl
      rw [h3] at h1
      cases h1
      exact ⟨lin, h2⟩
    obtain ⟨lin, hlin⟩ := hlin
    obtain ⟨pL, mL, full, h1, h2, h3, h4⟩ := attempt_core S D t rv dt tr lin hrv htr hno hlin
    rw [h4] at h
    obtain ⟨est, h5, h6⟩ := bind_ok h
    exact ⟨tr, lin, rfl, hlin, pL, mL, full, est, h1, h2, h3, h5, h6⟩

/-- The conditional distribution after one step, for covariances scaled by `c`. -/
theorem conditional_of_update {lin : Transition (d * (q + 1)) d} {tr : Transition (d * (q + 1)) (d * (q + 1))}
    {rv : Normal (d * (q + 1))} {b : Fin d → ℝ} (hn : lin.noise = Normal.const b) (hm : tr.noise.mean = 0) (s c : ℝ)
    (hc : c ≠ 0) {predL : Matrix (Fin (d * (q + 1))) (Fin (d * (q + 1))) ℝ}
    (hp : predL * predLᵀ = tr.mat * rv.cov * tr.matᵀ + s • tr.noise.cov)
    (hS : (lin.mat * (predL * predLᵀ) * lin.matᵀ).det ≠ 0) {u : Updated (d * (q + 1))}
    (hu : backwardClassic lin 1 (Normal.const 0) ⟨predMean tr rv, predL * predLᵀ, predL⟩ none = .ok u)
    {Ω : Type} {mΩ : MeasurableSpace Ω} (P : Measure Ω) (X₀ W : Ω → Fin (d * (q + 1)) → ℝ)
    (hX : IsNormal P X₀ rv.mean (c • rv.cov)) (hW : IsNormal P W 0 ((c * s) • tr.noise.cov)) (hXW : IndepFun X₀ W P) :
    ∃ f, IsConditional P (fun ω => tr.mat *ᵥ X₀ ω + W ω) (fun ω => lin.mat *ᵥ (tr.mat *ᵥ X₀ ω + W ω) + b) f (c • u.cov) ∧
      f 0 = u.mean := by
  have hprob := hX.isProbabilityMeasure
  have hX1 : IsNormal P (fun ω => tr.mat *ᵥ X₀ ω + W ω) (predMean tr rv) (c • (predL * predLᵀ)) := by
    have := hX.comb hW hXW tr.mat (1 : Matrix (Fin (d * (q + 1))) (Fin (d * (q + 1))) ℝ) 0
    simp only [Matrix.one_mulVec, add_zero, Matrix.one_mul, Matrix.transpose_one, Matrix.mul_one, Matrix.mul_smul,
      Matrix.smul_mul] at this
    have e : predMean tr rv = tr.mat *ᵥ rv.mean := by rw [predMean, hm, add_zero]
    rw [e, hp, smul_add, smul_smul]
    exact this
  have hN : IsNormal P (fun _ : Ω => b) lin.noise.mean ((1 : ℝ) • lin.noise.cov) := by
    have := hX.affine (0 : Matrix (Fin d) (Fin (d * (q + 1))) ℝ) b
    rw [hn]
    simpa [Normal.const] using this
  have e1 : predCov lin 1 ⟨predMean tr rv, c • (predL * predLᵀ), predL⟩ = c • (lin.mat * (predL * predLᵀ) * lin.matᵀ) := by
    rw [predCov_eq, hn]; simp [Normal.const]
  have e0 : predCov lin 1 ⟨predMean tr rv, predL * predLᵀ, predL⟩ = lin.mat * (predL * predLᵀ) * lin.matᵀ := by
    rw [predCov_eq, hn]; simp [Normal.const]
  have hdet : (predCov lin 1 ⟨predMean tr rv, c • (predL * predLᵀ), predL⟩).det ≠ 0 := by
    rw [e1, Matrix.det_smul]
    exact mul_ne_zero (pow_ne_zero _ hc) hS
  have hdet0 : (predCov lin 1 ⟨predMean tr rv, predL * predLᵀ, predL⟩).det ≠ 0 := by rw [e0]; exact hS
  have hR : lin.noise.covᵀ = lin.noise.cov := by rw [hn]; simp [Normal.const]
  obtain ⟨f, C, h1, h2⟩ := backward_realization_is_conditioning lin 1 ⟨predMean tr rv, c • (predL * predLᵀ), predL⟩
    (fun ω => tr.mat *ᵥ X₀ ω + W ω) (fun _ => b) hX1 hN (indepFun_const_right _ b) hR hdet
  have hu' := h1 0
  have eg : optGain lin 1 ⟨predMean tr rv, c • (predL * predLᵀ), predL⟩
      = optGain lin 1 ⟨predMean tr rv, predL * predLᵀ, predL⟩ := by
    have hci : (c • (lin.mat * (predL * predLᵀ) * lin.matᵀ))⁻¹ = c⁻¹ • (lin.mat * (predL * predLᵀ) * lin.matᵀ)⁻¹ := by
      have := Matrix.inv_smul' (lin.mat * (predL * predLᵀ) * lin.matᵀ) (Units.mk0 c hc) (isUnit_iff_ne_zero.2 hS)
      exact this
    rw [optGain, optGain, e1, e0, hci]
    simp only [Matrix.smul_mul, Matrix.mul_smul, smul_smul, inv_mul_cancel₀ hc, one_smul]
  simp only [backwardClassic, gainClassic_eq _ _ _ hdet, gainClassic_eq _ _ _ hdet0, bind, Except.bind, eg,
    conditionStateOnRv, Except.ok.injEq] at hu hu'
  have hm0 : u.mean = f 0 := by
    rw [← hu]
    exact congrArg Updated.mean hu'
  have hc0 : C = c • u.cov := by
    have a := congrArg Updated.cov hu'
    have b' := congrArg Updated.cov hu
    simp only at a b'
    rw [← a, ← b']
    have f1 : (forwardClassic lin 1 ⟨predMean tr rv, c • (predL * predLᵀ), predL⟩).cov = _ := e1
    have f0 : (forwardClassic lin 1 ⟨predMean tr rv, predL * predLᵀ, predL⟩).cov = _ := e0
    rw [f1, f0]
    simp only [Normal.const, zero_sub, Matrix.mul_neg, Matrix.neg_mul, Matrix.mul_smul, Matrix.smul_mul, smul_add,
      smul_neg]
  rw [hc0] at h2
  exact ⟨f, h2, hm0.symm⟩

/-- What an accepted step has computed. -/
theorem accepted_ok {S : Solver d q} {D : Diff} {t : ℝ} {rv : Normal (d * (q + 1))} {dt : ℝ} {o : Outcome d q}
    {r : Normal (d * (q + 1))} (hrv : rv.Valid) (hfree : S.ode.TimeFree) (h : attempt S D t rv dt = .ok o)
    (hr : o.rv = some r) :
    ∃ tr lin est predL u, IWP.discretise q d S.chol dt = some tr ∧
      linearized q S.strategy S.ode (some (t + dt)) (predMean tr rv) = .ok lin ∧
      est = predRes tr lin rv ⬝ᵥ ((estCov D tr lin rv)⁻¹ *ᵥ predRes tr lin rv) / (d : ℝ) ∧
      o.t = t + dt ∧ o.diffusion = D.update est t ∧
      predL * predLᵀ = tr.mat * rv.cov * tr.matᵀ + stepDiffusion D est • tr.noise.cov ∧
      (lin.mat * (predL * predLᵀ) * lin.matᵀ).det ≠ 0 ∧
      backwardClassic lin 1 (Normal.const 0) ⟨predMean tr rv, predL * predLᵀ, predL⟩ none = .ok u ∧
      r.mean = u.mean ∧ r.cov = u.cov ∧ r.Valid := by
  obtain ⟨tr, lin, htr, hlin, pL, mL, full, est, h1, h2, h3, h4, h5⟩ := attempt_ok hrv h
  obtain ⟨-, hest, hpos⟩ := estimate_ok h2.gram h3.gram h4
  simp only at h5
  split at h5
  · obtain ⟨predL', measL', e1, e2, f1, f2⟩ := final_factors S D.perStep hpos (s := stepDiffusion D est) rfl hrv h1 h2 h3
    rw [e1, e2] at h5
    obtain ⟨r', h6, h7⟩ := map_ok h5
    subst h7
    simp only [Option.some.injEq] at hr
    subst hr
    obtain ⟨-, b, hn⟩ := linearized_residual hlin
    have hm : measL' * measL'ᵀ = lin.mat * (predL' * predL'ᵀ) * lin.matᵀ := by rw [f2.gram, f1.gram]
    obtain ⟨c1, c2⟩ := correct_ok S hn (by rw [linearized_free hfree (t + dt)]; exact hlin) hm
    by_cases hdet : (lin.mat * (predL' * predL'ᵀ) * lin.matᵀ).det = 0
    · rw [c1 hdet] at h6; cases h6
    · obtain ⟨r'', u, g1, g2, g3, g4, g5⟩ := c2 hdet
      rw [g1] at h6
      cases h6
      exact ⟨tr, lin, est, predL', u, htr, hlin, hest, rfl, rfl, f1.gram, hdet, g2, g3, g4, g5⟩
  · cases h5; cases hr

/-! ## C70: an accepted step is an exact Gaussian update -/

/-- **C70, partial.**  For a vector field that can be called without a time, the state after an accepted step is the
exact conditional distribution: prior `N(rv)` at `t`, integrated Wiener process with the squared diffusion `s` of the
step (the local estimate if the solver calibrates at each step, one otherwise) up to `t + dt`, and the linearised
residual equal to zero.  The returned `cov_cholesky` is a factor of the returned covariance.  Missing: vector fields that
use the time, see `time_dependent_step_raises`. -/
theorem accepted_step_is_conditioning_partial {S : Solver d q} {D : Diff} {t : ℝ} {rv : Normal (d * (q + 1))} {dt : ℝ}
    {o : Outcome d q} {r : Normal (d * (q + 1))} (hrv : rv.Valid) (hfree : S.ode.TimeFree)
    (h : attempt S D t rv dt = .ok o) (hr : o.rv = some r) :
    ∃ est, o.t = t + dt ∧ o.diffusion = D.update est t ∧ BayesStep S (if D.perStep then est else 1) t rv (t + dt) r ∧
      r.Valid := by
  obtain ⟨tr, lin, est, predL, u, htr, hlin, -, ht, hd, hp, hS, hu, hm, hc, hv⟩ := accepted_ok hrv hfree h hr
  obtain ⟨-, hm0, -, -⟩ := discretise_props S.chol htr
  obtain ⟨hres, b, hn⟩ := linearized_residual hlin
  refine ⟨est, ht, hd, ⟨tr, lin.mat, lin.noise.mean, by rwa [add_sub_cancel_left], ?_, ?_⟩, hv⟩
  · have : predMean tr rv = tr.mat *ᵥ rv.mean := by rw [predMean, hm0, add_zero]
    rwa [this] at hres
  · intro Ω mΩ P X₀ W hX hW hXW
    have hb : lin.noise.mean = b := by rw [hn]; rfl
    have := conditional_of_update hn hm0 (stepDiffusion D est) 1 one_ne_zero hp hS hu P X₀ W (by simpa using hX)
      (by simpa [stepDiffusion] using hW) hXW
    rw [one_smul, ← hb] at this
    rw [hc, hm]
    exact this

/-! ## When a step succeeds -/

theorem posSemidef_of_valid {n : ℕ} {rv : Normal n} (h : rv.Valid) : rv.cov.PosSemidef := by
  rw [← h]
  have := Matrix.posSemidef_self_mul_conjTranspose rv.chol
  rwa [Matrix.conjTranspose_eq_transpose_of_trivial] at this

theorem posDef_conj {n m : ℕ} {C : Matrix (Fin n) (Fin n) ℝ} (hC : C.PosDef) (H : Matrix (Fin m) (Fin n) ℝ)
    (hH : ∀ v, Hᵀ *ᵥ v = 0 → v = 0) : (H * C * Hᵀ).PosDef := by
  have hinj : Function.Injective (Hᵀ).mulVec := by
    intro v w e
    have : Hᵀ *ᵥ (v - w) = 0 := by rw [Matrix.mulVec_sub, sub_eq_zero]; exact e
    exact sub_eq_zero.1 (hH _ this)
  have := hC.conjTranspose_mul_mul_same (B := Hᵀ) hinj
  rwa [Matrix.conjTranspose_eq_transpose_of_trivial, Matrix.transpose_transpose] at this

theorem posSemidef_conj {n m : ℕ} {C : Matrix (Fin n) (Fin n) ℝ} (hC : C.PosSemidef) (H : Matrix (Fin m) (Fin n) ℝ) :
    (H * C * Hᵀ).PosSemidef := by
  have := hC.mul_mul_conjTranspose_same H
  rwa [Matrix.conjTranspose_eq_transpose_of_trivial] at this

theorem linMat_rank (hq : 0 < q) {S : Solver d q} {t : ℝ} {x0 : Fin (d * (q + 1)) → ℝ}
    {H : Matrix (Fin d) (Fin (d * (q + 1))) ℝ} {b : Fin d → ℝ} (h : LinearisedResidual S t x0 H b) :
    ∀ v, Hᵀ *ᵥ v = 0 → v = 0 := by
  obtain ⟨J, rfl, -⟩ := h.jacobian
  exact proj_full_rank hq J

theorem measCov_det (hq : 0 < q) {S : Solver d q} {t : ℝ} {x0 : Fin (d * (q + 1)) → ℝ}
    {H : Matrix (Fin d) (Fin (d * (q + 1))) ℝ} {b : Fin d → ℝ} (h : LinearisedResidual S t x0 H b)
    {tr : Transition (d * (q + 1)) (d * (q + 1))} (hQ : tr.noise.cov.PosDef) {rv : Normal (d * (q + 1))} (hrv : rv.Valid)
    {s : ℝ} (hs : 0 < s) : (H * (tr.mat * rv.cov * tr.matᵀ + s • tr.noise.cov) * Hᵀ).PosDef :=
  posDef_conj ((hQ.smul hs).posSemidef_add (posSemidef_conj (posSemidef_of_valid hrv) tr.mat)) H (linMat_rank hq h)

/-- The vector field, and the Jacobian if the strategy uses it, can be evaluated at time `t`. -/
def Evaluates (S : Solver d q) (t : ℝ) : Prop :=
  (∀ x, ∃ v, S.ode.f (some t) x = .ok v) ∧ (S.strategy = .ek1 → ∀ x, ∃ J, S.ode.df (some t) x = .ok J)

theorem linearized_total {S : Solver d q} {t : ℝ} (h : Evaluates S t) (x0 : Fin (d * (q + 1)) → ℝ) :
    ∃ lin, linearized q S.strategy S.ode (some t) x0 = .ok lin := by
  obtain ⟨v, hv⟩ := h.1 (proj d q 0 *ᵥ x0)
  have hJ : ∃ H, measJac q S.strategy S.ode (some t) x0 = .ok H := by
    have h2 := h.2
    revert h2
    unfold measJac
    cases S.strategy with
    | ek0 => intro _; exact ⟨_, rfl⟩
    | ek1 =>
      intro h2
      obtain ⟨J, hJ⟩ := h2 rfl (proj d q 0 *ᵥ x0)
      exact ⟨_, by rw [hJ]; rfl⟩
  obtain ⟨H, hH⟩ := hJ
  exact ⟨_, by simp only [linearized, measFn, hH, hv, Except.bind, Except.map]; rfl⟩

/-- The computation up to the decision succeeds. -/
theorem attempt_decided (hq : 0 < q) {S : Solver d q} {D : Diff} {t : ℝ} {rv : Normal (d * (q + 1))} {dt : ℝ}
    (hrv : rv.Valid) (hdt : dt ≠ 0) (hev : Evaluates S (t + dt))
    (hD : match D with
      | .constant _ => True
      | .piecewise P => P.tmax ≤ t + dt) :
    ∃ tr lin pL mL full est, IWP.discretise q d S.chol dt = some tr ∧
      linearized q S.strategy S.ode (some (t + dt)) (predMean tr rv) = .ok lin ∧
      IsLowerFactor pL tr.noise.cov ∧ IsLowerFactor mL (freeCov tr lin) ∧ IsLowerFactor full (fullCov tr lin rv) ∧
      est = predRes tr lin rv ⬝ᵥ ((estCov D tr lin rv)⁻¹ *ᵥ predRes tr lin rv) / (d : ℝ) ∧ 0 ≤ est ∧
      (estCov D tr lin rv).PosDef ∧
      attempt S D t rv dt =
        (let errors : Fin d → ℝ := fun i => Real.sqrt est * Real.sqrt (freeCov tr lin i i)
        let reference : Fin d → ℝ := fun i => |(proj d q S.reference *ᵥ rv.mean) i|
        if S.rule.accepted (S.rule.norm errors reference) then
          (finalPredChol S D.perStep est pL (tr.mat * rv.chol)).bind fun predL =>
          (finalMeasChol S D.perStep est mL full (lin.mat * (tr.mat * rv.chol))).bind fun measL =>
          (correct S lin.mat (predMean tr rv) predL measL).map fun filt =>
            (⟨t + dt, some filt, errors, reference, D.update est t⟩ : Outcome d q)
        else .ok ⟨t + dt, none, errors, reference, D⟩) := by
  obtain ⟨tr, htr, -⟩ := IWP.noise_positive_definite q d S.chol hdt
  obtain ⟨-, hm, hno, hQ⟩ := discretise_props S.chol htr
  obtain ⟨lin, hlin⟩ := linearized_total hev (predMean tr rv)
  obtain ⟨hres, -⟩ := linearized_residual hlin
  obtain ⟨pL, mL, full, h1, h2, h3, h4⟩ := attempt_core S D t rv dt tr lin hrv htr hno hlin
  have hfree : (freeCov tr lin).PosDef := posDef_conj hQ lin.mat (linMat_rank hq hres)
  have hfull : (fullCov tr lin rv).PosDef := by
    have := measCov_det hq hres hQ hrv one_pos
    rwa [one_smul] at this
  have hestc : (estCov D tr lin rv).PosDef := by
    unfold estCov; split <;> assumption
  have hest : D.estimate full mL (predRes tr lin rv) (t + dt)
      = .ok (predRes tr lin rv ⬝ᵥ ((estCov D tr lin rv)⁻¹ *ᵥ predRes tr lin rv) / (d : ℝ)) := by
    cases D with
    | constant C =>
      exact quasiMle_of_det h3.gram _ hfull.det_pos.ne'
    | piecewise P =>
      have hg : P.estimateLocallyGuard (t + dt) = .ok () := by
        unfold PiecewiseDiffusion.estimateLocallyGuard
        rw [if_neg (not_not.2 hD)]
      simp only [Diff.estimate, hg, Except.bind]
      exact quasiMle_of_det h2.gram _ hfree.det_pos.ne'
  refine ⟨tr, lin, pL, mL, full, _, htr, hlin, h1, h2, h3, rfl, (estimate_ok h2.gram h3.gram hest).2.2, hestc, ?_⟩
  rw [h4, hest]
  rfl

/-- **C70, steps succeed.**  For `q ≥ 1`, a nonzero step size, a vector field that can be called without a time and can
be evaluated, the attempt returns: a state if the step rule accepts, no state otherwise.  With the piecewise constant
diffusion this needs a nonzero predicted residual, see `zero_residual_step_raises`. -/
theorem step_succeeds_partial (hq : 0 < q) {S : Solver d q} {D : Diff} {t : ℝ} {rv : Normal (d * (q + 1))} {dt : ℝ}
    (hrv : rv.Valid) (hdt : dt ≠ 0) (hfree : S.ode.TimeFree) (hev : Evaluates S (t + dt))
    (hD : match D with
      | .constant _ => True
      | .piecewise P => P.tmax ≤ t + dt ∧ ∀ tr v, IWP.discretise q d S.chol dt = some tr →
          S.ode.f (some (t + dt)) (proj d q 0 *ᵥ (tr.mat *ᵥ rv.mean)) = .ok v → proj d q 1 *ᵥ (tr.mat *ᵥ rv.mean) ≠ v) :
    ∃ o, attempt S D t rv dt = .ok o ∧ o.t = t + dt ∧
      (o.rv.isSome = true ↔ S.rule.accepted (S.rule.norm o.errors o.reference) = true) := by
  obtain ⟨tr, lin, pL, mL, full, est, htr, hlin, h1, h2, h3, hest, hpos, hC, h4⟩ := attempt_decided hq (D := D) hrv hdt hev
    (by cases D with
      | constant C => trivial
      | piecewise P => exact hD.1)
  obtain ⟨-, hm, hno, hQ⟩ := discretise_props S.chol htr
  obtain ⟨hres, b, hn⟩ := linearized_residual hlin
  rw [h4]
  simp only
  split
  · rename_i hacc
    obtain ⟨predL, measL, e1, e2, f1, f2⟩ := final_factors S D.perStep hpos (s := stepDiffusion D est) rfl hrv h1 h2 h3
    have hspos : 0 < stepDiffusion D est := by
      cases D with
      | constant C => simp [stepDiffusion, Diff.perStep]
      | piecewise P =>
        have hz : predRes tr lin rv ≠ 0 := by
          obtain ⟨v, hv, he⟩ := hres.value
          have hpm : predMean tr rv = tr.mat *ᵥ rv.mean := by rw [predMean, hm, add_zero]
          rw [predRes, he]
          intro h0
          exact hD.2 tr v htr (by rw [← hpm]; exact hv) (by rw [← hpm]; exact sub_eq_zero.1 h0)
        have hd : 0 < d := by
          rcases Nat.eq_zero_or_pos d with rfl | hd
          · exact absurd (funext fun i => i.elim0) hz
          · exact hd
        have hq' := hC.inv.dotProduct_mulVec_pos hz
        simp only [stepDiffusion, Diff.perStep, if_true]
        rw [hest]
        refine div_pos ?_ (by exact_mod_cast hd)
        simpa using hq'
    have hm' : measL * measLᵀ = lin.mat * (predL * predLᵀ) * lin.matᵀ := by rw [f2.gram, f1.gram]
    have hdet : (lin.mat * (predL * predLᵀ) * lin.matᵀ).det ≠ 0 := by
      rw [f1.gram]
      exact (measCov_det hq hres hQ hrv hspos).det_pos.ne'
    obtain ⟨r, u, g1, -⟩ := (correct_ok S hn (by rw [linearized_free hfree (t + dt)]; exact hlin) hm').2 hdet
    refine ⟨⟨t + dt, some r, fun i => Real.sqrt est * Real.sqrt (freeCov tr lin i i),
      fun i => |(proj d q S.reference *ᵥ rv.mean) i|, D.update est t⟩,
      by simp only [e1, e2, Except.bind, g1, Except.map], rfl, ?_⟩
    simp only [Option.isSome_some, true_iff]
    exact hacc
  · rename_i hacc
    refine ⟨_, rfl, rfl, ?_⟩
    simp only [Option.isSome_none, Bool.false_eq_true, false_iff]
    exact hacc

/-- Violation: every accepted step calls the vector field without a time.  If that raises, an attempt either is rejected or
raises. -/
theorem time_dependent_never_accepted {S : Solver d q} {D : Diff} {t : ℝ} {rv : Normal (d * (q + 1))} {dt : ℝ}
    {o : Outcome d q} (hrv : rv.Valid) (hnone : ∀ x, ∃ e, S.ode.f none x = .error e)
    (h : attempt S D t rv dt = .ok o) : o.rv = none := by
  obtain ⟨tr, lin, htr, hlin, pL, mL, full, est, h1, h2, h3, h4, h5⟩ := attempt_ok hrv h
  simp only at h5
  split at h5
  · exfalso
    obtain ⟨predL, e1, h5⟩ := bind_ok h5
    obtain ⟨measL, e2, h5⟩ := bind_ok h5
    obtain ⟨r, h6, -⟩ := map_ok h5
    obtain ⟨g, -, h6⟩ := bind_ok h6
    obtain ⟨l, h6, -⟩ := bind_ok h6
    obtain ⟨g, -, h7, -⟩ := linearized_ok h6
    obtain ⟨v, h8, -⟩ := map_ok h7
    obtain ⟨e, he⟩ := hnone (proj d q 0 *ᵥ predMean tr rv)
    rw [he] at h8; cases h8
  · cases h5; rfl

/-- Violation, concretely: a vector field that uses the time raises TypeError when it is called with `None`; with a step
rule that accepts (constant steps), EK0 and constant diffusion, the very first step raises, whatever the state. -/
theorem time_dependent_step_raises (hq : 0 < q) {S : Solver d q} {C : ConstantDiffusion ℝ} {t : ℝ}
    {rv : Normal (d * (q + 1))} {dt : ℝ} (hrv : rv.Valid) (hdt : dt ≠ 0) (hs : S.strategy = .ek0)
    (hev : ∀ x, ∃ v, S.ode.f (some (t + dt)) x = .ok v) (hnone : ∀ x, S.ode.f none x = .error .typeError)
    (hacc : ∀ e, S.rule.accepted e = true) : attempt S (.constant C) t rv dt = .error .typeError := by
  obtain ⟨tr, lin, pL, mL, full, est, htr, hlin, h1, h2, h3, hest, hpos, hC, h4⟩ := attempt_decided hq
    (D := .constant C) hrv hdt (S := S) ⟨hev, by rw [hs]; intro h; cases h⟩ trivial
  obtain ⟨-, hm, hno, hQ⟩ := discretise_props S.chol htr
  obtain ⟨hres, b, hn⟩ := linearized_residual hlin
  obtain ⟨predL, measL, e1, e2, f1, f2⟩ := final_factors S (Diff.constant C).perStep hpos
    (s := stepDiffusion (.constant C) est) rfl hrv h1 h2 h3
  have hdet : measL.det ≠ 0 := by
    refine factor_det f2.gram (measCov_det hq hres hQ hrv ?_).det_pos.ne'
    simp [stepDiffusion, Diff.perStep]
  have hl : linearized q S.strategy S.ode none (predMean tr rv) = .error .typeError := by
    rw [hs]
    simp only [linearized, measJac, measFn, hnone, Except.bind, Except.map]
  rw [h4]
  simp only [hacc, if_true, e1, e2, Except.bind, correct, choSolveT, if_neg hdet, hl, Except.map]

/-- Violation: with the piecewise constant diffusion a step from an exactly known state whose predicted residual is zero
(for example any constant solution of the ODE) has the local diffusion zero, hence a zero measurement covariance: the gain
is not finite. -/
theorem zero_residual_step_raises (hq : 0 < q) (hd : 0 < d) {S : Solver d q} {P : PiecewiseDiffusion ℝ ℝ} {t : ℝ}
    {x : Fin (d * (q + 1)) → ℝ} {dt : ℝ} (hdt : dt ≠ 0) (hev : Evaluates S (t + dt)) (hP : P.tmax ≤ t + dt)
    (hz : ∀ tr, IWP.discretise q d S.chol dt = some tr →
      S.ode.f (some (t + dt)) (proj d q 0 *ᵥ (tr.mat *ᵥ x)) = .ok (proj d q 1 *ᵥ (tr.mat *ᵥ x)))
    (hacc : ∀ e, S.rule.accepted e = true) :
    attempt S (.piecewise P) t (Normal.const x) dt = .error .linAlgError := by
  obtain ⟨tr, lin, pL, mL, full, est, htr, hlin, h1, h2, h3, hest, hpos, hC, h4⟩ := attempt_decided hq
    (D := .piecewise P) (rv := Normal.const x) (Normal.const_valid x) hdt (S := S) hev hP
  obtain ⟨-, hm, hno, hQ⟩ := discretise_props S.chol htr
  obtain ⟨hres, b, hn⟩ := linearized_residual hlin
  have hpm : predMean tr (Normal.const x) = tr.mat *ᵥ x := by rw [predMean, hm, add_zero]; rfl
  have hr0 : predRes tr lin (Normal.const x) = 0 := by
    obtain ⟨v, hv, he⟩ := hres.value
    rw [predRes, he]
    rw [hpm, hz tr htr] at hv
    rw [hpm, ← Except.ok.inj hv, sub_self]
  have hest0 : est = 0 := by rw [hest, hr0]; simp
  subst hest0
  obtain ⟨predL, measL, e1, e2, f1, f2⟩ := final_factors S (Diff.piecewise P).perStep le_rfl
    (s := 0) rfl (Normal.const_valid x) h1 h2 h3
  have hdet : measL.det = 0 := by
    have hg := congrArg Matrix.det f2.gram
    haveI : Nonempty (Fin d) := ⟨⟨0, hd⟩⟩
    rw [Matrix.det_mul, Matrix.det_transpose] at hg
    have hz0 : (lin.mat * (tr.mat * (Normal.const x).cov * tr.matᵀ + (0 : ℝ) • tr.noise.cov) * lin.matᵀ).det = 0 := by
      simp [Normal.const, Matrix.det_zero]
    rw [hz0] at hg
    exact mul_self_eq_zero.1 hg
  rw [h4]
  simp only [hacc, if_true, e1, e2, Except.bind, correct, choSolveT, if_pos hdet, Except.map]

/-! ## C71: local calibration and error estimate -/

/-- The quasi-maximum-likelihood estimate maximises the likelihood of the data zero under `N(z, v C)` among all `v > 0`. -/
theorem density_lt {z : Fin d → ℝ} {C : Matrix (Fin d) (Fin d) ℝ} (hC : C.PosDef) (hd : 0 < d) {v w : ℝ} (hv : 0 < v)
    (hw : w = z ⬝ᵥ (C⁻¹ *ᵥ z) / (d : ℝ)) (hw0 : 0 < w) (hne : v ≠ w) :
    gaussDensity z (v • C) 0 < gaussDensity z (w • C) 0 := by
  have hd' : (0 : ℝ) < d := by exact_mod_cast hd
  have hdet := hC.det_pos
  have key : ∀ {s : ℝ}, 0 < s → gaussDensity z (s • C) 0
      = (2 * Real.pi) ^ (-(d : ℝ) / 2) * C.det ^ (-(1 : ℝ) / 2) * Real.exp (-((d : ℝ) / 2) * (Real.log s + w / s)) := by
    intro s hs
    have hi : (s • C)⁻¹ = s⁻¹ • C⁻¹ := by
      have := Matrix.inv_smul' C (Units.mk0 s hs.ne') (isUnit_iff_ne_zero.2 hdet.ne')
      exact this
    have hq : (0 - z) ⬝ᵥ ((s • C)⁻¹ *ᵥ (0 - z)) = d * (w / s) := by
      rw [hi, zero_sub, Matrix.mulVec_neg, neg_dotProduct, dotProduct_neg, neg_neg, Matrix.smul_mulVec, dotProduct_smul,
        hw, smul_eq_mul]
      field_simp
    have hp : (s ^ d) ^ (-(1 : ℝ) / 2) = Real.exp (-((d : ℝ) / 2) * Real.log s) := by
      rw [Real.rpow_def_of_pos (pow_pos hs d), Real.log_pow]
      congr 1; ring
    rw [gaussDensity, hq, Matrix.det_smul, Fintype.card_fin, Real.mul_rpow (pow_pos hs d).le hdet.le, hp]
    have : Real.exp (-((d : ℝ) / 2) * (Real.log s + w / s))
        = Real.exp (-((d : ℝ) / 2) * Real.log s) * Real.exp (-(1 / 2) * (d * (w / s))) := by
      rw [← Real.exp_add]; congr 1; ring
    rw [this]; ring
  rw [key hv, key hw0]
  refine mul_lt_mul_of_pos_left (Real.exp_lt_exp.2 ?_)
    (mul_pos (Real.rpow_pos_of_pos (by positivity) _) (Real.rpow_pos_of_pos hdet _))
  have hr : w / v ≠ 1 := fun h => hne ((div_eq_one_iff_eq hv.ne').1 h).symm
  have hl := Real.log_lt_sub_one_of_pos (div_pos hw0 hv) hr
  rw [Real.log_div hw0.ne' hv.ne'] at hl
  have hww : w / w = 1 := div_self hw0.ne'
  rw [hww]
  have : (0 : ℝ) < d / 2 := by positivity
  nlinarith

/-- **C71.**  Every attempt, accepted or not, computes from the residual `z` linearised at the prediction
* a local squared diffusion `est` that is zero if `z` is zero and otherwise is the unique maximiser of the likelihood of
  the data zero under `N(z, v C)`, where `C` is the covariance of the linearised residual for unit diffusion — including the
  covariance of the previous state for the constant model, without it for the piecewise constant model;
* the error estimate: the standard deviations of the linearised residual for an exact previous state and the diffusion
  `est`;
* as reference the absolute values of the chosen derivative in the previous state.

If the step is accepted the estimate is handed to the diffusion model. -/
theorem local_calibration (hq : 0 < q) (hd : 0 < d) {S : Solver d q} {D : Diff} {t : ℝ} {rv : Normal (d * (q + 1))} {dt : ℝ}
    {o : Outcome d q} (hrv : rv.Valid) (hr : S.reference ≤ q) (h : attempt S D t rv dt = .ok o) :
    ∃ tr H b est, IWP.discretise q d S.chol dt = some tr ∧ LinearisedResidual S (t + dt) (tr.mat *ᵥ rv.mean) H b ∧
      (let z := H *ᵥ (tr.mat *ᵥ rv.mean) + b
       let C := H * ((if D.perStep then 0 else tr.mat * rv.cov * tr.matᵀ) + tr.noise.cov) * Hᵀ
       C.PosDef ∧ 0 ≤ est ∧ (est = 0 ↔ z = 0) ∧
       ∀ v, 0 < v → 0 < est → v ≠ est → gaussDensity z (v • C) 0 < gaussDensity z (est • C) 0) ∧
      (∀ {Ω : Type} {mΩ : MeasurableSpace Ω} (P : Measure Ω) (W : Ω → Fin (d * (q + 1)) → ℝ),
        IsNormal P W 0 (est • tr.noise.cov) → ∀ i, 0 ≤ o.errors i ∧
          o.errors i ^ 2 = cov[fun ω => (H *ᵥ (tr.mat *ᵥ rv.mean + W ω) + b) i,
            fun ω => (H *ᵥ (tr.mat *ᵥ rv.mean + W ω) + b) i; P]) ∧
      (∀ i, o.reference i = |coord rv.mean S.reference i|) ∧
      (o.rv.isSome = true ↔ S.rule.accepted (S.rule.norm o.errors o.reference) = true) ∧
      o.diffusion = if o.rv.isSome then D.update est t else D := by
  obtain ⟨tr, lin, htr, hlin, pL, mL, full, est, h1, h2, h3, h4, h5⟩ := attempt_ok hrv h
  obtain ⟨hdet, hest, hpos⟩ := estimate_ok h2.gram h3.gram h4
  obtain ⟨-, hm, hno, hQ⟩ := discretise_props S.chol htr
  obtain ⟨hres, b, hn⟩ := linearized_residual hlin
  have hpm : predMean tr rv = tr.mat *ᵥ rv.mean := by rw [predMean, hm, add_zero]
  have hCe : lin.mat * ((if D.perStep then 0 else tr.mat * rv.cov * tr.matᵀ) + tr.noise.cov) * lin.matᵀ
      = estCov D tr lin rv := by
    unfold estCov freeCov fullCov
    split <;> simp
  have hCp : (estCov D tr lin rv).PosDef := by
    unfold estCov
    split
    · exact posDef_conj hQ lin.mat (linMat_rank hq hres)
    · have := measCov_det hq hres hQ hrv one_pos
      rwa [one_smul] at this
  have hz : lin.mat *ᵥ (tr.mat *ᵥ rv.mean) + lin.noise.mean = predRes tr lin rv := by rw [predRes, hpm]
  have herr : o.errors = (fun i => Real.sqrt est * Real.sqrt (freeCov tr lin i i)) ∧
      o.reference = (fun i => |(proj d q S.reference *ᵥ rv.mean) i|) ∧
      (o.rv.isSome = true ↔ S.rule.accepted (S.rule.norm o.errors o.reference) = true) ∧
      o.diffusion = if o.rv.isSome then D.update est t else D := by
    simp only at h5
    split at h5
    · rename_i hacc
      obtain ⟨predL, e1, h5⟩ := bind_ok h5
      obtain ⟨measL, e2, h5⟩ := bind_ok h5
      obtain ⟨r, h6, h7⟩ := map_ok h5
      subst h7
      refine ⟨rfl, rfl, ?_, by simp⟩
      simpa using hacc
    · rename_i hacc
      cases h5
      refine ⟨rfl, rfl, ?_, by simp⟩
      simpa using hacc
  obtain ⟨he1, he2, he3, he4⟩ := herr
  refine ⟨tr, lin.mat, lin.noise.mean, est, htr, by rw [← hpm]; exact hres, ?_, ?_, ?_, he3, he4⟩
  · simp only [hCe, hz]
    have hd' : (0 : ℝ) < d := by exact_mod_cast hd
    refine ⟨hCp, hpos, ?_, ?_⟩
    · constructor
      · intro h0
        by_contra hne
        have hp := hCp.inv.dotProduct_mulVec_pos hne
        have : (0 : ℝ) < est := by rw [hest]; exact div_pos (by simpa using hp) hd'
        exact this.ne' h0
      · intro h0; rw [hest, h0]; simp
    · intro v hv hw hne
      exact density_lt hCp hd hv hest hw hne
  · intro Ω mΩ P W hW i
    rw [he1]
    refine ⟨mul_nonneg (Real.sqrt_nonneg _) (Real.sqrt_nonneg _), ?_⟩
    have hZ := hW.affine lin.mat (lin.mat *ᵥ (tr.mat *ᵥ rv.mean) + lin.noise.mean)
    have e : (fun ω => lin.mat *ᵥ W ω + (lin.mat *ᵥ (tr.mat *ᵥ rv.mean) + lin.noise.mean))
        = fun ω => lin.mat *ᵥ (tr.mat *ᵥ rv.mean + W ω) + lin.noise.mean := by
      funext ω
      rw [Matrix.mulVec_add]
      abel
    rw [e] at hZ
    rw [hZ.cov i i]
    have hf : 0 ≤ freeCov tr lin i i :=
      (posSemidef_conj hQ.posSemidef lin.mat).diag_nonneg
    rw [mul_pow, Real.sq_sqrt hpos, Real.sq_sqrt hf, Matrix.mul_smul, Matrix.smul_mul]
    rfl
  · intro i
    rw [he2]
    simp only [proj_mulVec rv.mean hr]

end Probnum.OdeFilter
