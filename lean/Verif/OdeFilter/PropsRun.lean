import Verif.OdeFilter.PropsStep
import Verif.Kalman.SamplingProps

/-!
# C72: sequences of steps, and the posterior handed to the user
-/

namespace Probnum.OdeFilter

open Matrix LinGauss Gauss Diffusion MeasureTheory ProbabilityTheory

variable {d q : ℕ}

/-! ## Consecutive entries of the solution -/

/-- `R k` holds between the `k`-th and the next entry of the solution, for every `k`. -/
def Consecutive (R : ℕ → ℝ → Normal (d * (q + 1)) → ℝ → Normal (d * (q + 1)) → Prop) (times : List ℝ)
    (rvs : List (Normal (d * (q + 1)))) : Prop :=
  ∀ k t₀ x₀ t₁ x₁, times[k]? = some t₀ → rvs[k]? = some x₀ → times[k + 1]? = some t₁ → rvs[k + 1]? = some x₁ →
    R k t₀ x₀ t₁ x₁

theorem Consecutive.append {R : ℕ → ℝ → Normal (d * (q + 1)) → ℝ → Normal (d * (q + 1)) → Prop} {times : List ℝ}
    {rvs : List (Normal (d * (q + 1)))} (h : Consecutive R times rvs) (hl : times.length = rvs.length) {t : ℝ}
    {x : Normal (d * (q + 1))} (ht : times.getLast? = some t) (hx : rvs.getLast? = some x) {t' : ℝ}
    {x' : Normal (d * (q + 1))} (hR : R (times.length - 1) t x t' x') : Consecutive R (times ++ [t']) (rvs ++ [x']) := by
  intro k t₀ x₀ t₁ x₁ h1 h2 h3 h4
  rw [List.getLast?_eq_getElem?] at ht hx
  have hpos : 0 < times.length := by
    rcases Nat.eq_zero_or_pos times.length with h0 | h0
    · rw [List.length_eq_zero_iff.1 h0] at ht; cases ht
    · exact h0
  rcases lt_trichotomy (k + 1) times.length with hk | hk | hk
  · rw [List.getElem?_append_left (by omega)] at h1 h2 h3 h4
    exact h k t₀ x₀ t₁ x₁ h1 h2 h3 h4
  · rw [List.getElem?_append_left (by omega)] at h1 h2
    rw [hk, List.getElem?_concat_length] at h3
    rw [hk, hl, List.getElem?_concat_length] at h4
    have hk' : times.length - 1 = k := by omega
    have hk'' : rvs.length - 1 = k := by omega
    rw [hk'] at ht hR
    rw [hk''] at hx
    rw [h1] at ht; rw [h2] at hx
    cases ht; cases hx; cases h3; cases h4
    exact hR
  · rw [List.getElem?_eq_none (by simp; omega)] at h3
    cases h3

/-- The bookkeeping of a run. -/
structure Run.Inv (r : Run d q) : Prop where
  len : r.times.length = r.rvs.length
  lastTime : r.times.getLast? = some r.t
  lastRv : r.rvs.getLast? = some r.rv
  valid : r.rv.Valid

theorem Run.start_inv (t0 : ℝ) {rv0 : Normal (d * (q + 1))} (h : rv0.Valid) (D : Diff) : (Run.start t0 rv0 D).Inv :=
  ⟨rfl, rfl, rfl, h⟩

/-- **C72, rejected steps**: a rejected attempt leaves state, solution and diffusion model as they were. -/
theorem rejected_step_leaves_no_trace {S : Solver d q} {r r' : Run d q} {dt : ℝ} {o : Outcome d q}
    (h : attempt S r.diffusion r.t r.rv dt = .ok o) (hr : o.rv = none) (hn : r.next S dt = .ok r')
    (hv : r.rv.Valid) : r' = r := by
  have hd : o.diffusion = r.diffusion := by
    obtain ⟨tr, lin, htr, hlin, pL, mL, full, est, h1, h2, h3, h4, h5⟩ := attempt_ok hv h
    simp only at h5
    split at h5
    · obtain ⟨predL, e1, h5⟩ := bind_ok h5
      obtain ⟨measL, e2, h5⟩ := bind_ok h5
      obtain ⟨x, h6, h7⟩ := map_ok h5
      subst h7; cases hr
    · cases h5; rfl
  simp only [Run.next, h, Except.map, hr, Except.ok.injEq] at hn
  rw [← hn, hd]

/-- One attempt in a run: nothing, or one accepted step. -/
theorem next_cases {S : Solver d q} (hfree : S.ode.TimeFree) {r r' : Run d q} {dt : ℝ} (hi : r.Inv)
    (h : r.next S dt = .ok r') :
    r' = r ∨ ∃ o x, attempt S r.diffusion r.t r.rv dt = .ok o ∧ o.rv = some x ∧
      r' = ⟨o.t, x, o.diffusion, r.times ++ [o.t], r.rvs ++ [x]⟩ ∧ r'.Inv := by
  obtain ⟨o, ho, h'⟩ := map_ok h
  cases hx : o.rv with
  | none => exact .inl (rejected_step_leaves_no_trace ho hx h hi.valid)
  | some x =>
    right
    rw [hx] at h'
    refine ⟨o, x, ho, hx, h'.symm, ?_⟩
    obtain ⟨est, -, -, -, hv⟩ := accepted_step_is_conditioning_partial hi.valid hfree ho hx
    subst h'
    exact ⟨by simp [hi.len], by simp, by simp, hv⟩

theorem many_induct {S : Solver d q} {motive : Run d q → Prop}
    (step : ∀ r dt r', motive r → r.next S dt = .ok r' → motive r') :
    ∀ (dts : List ℝ) (r r' : Run d q), motive r → Run.many S r dts = .ok r' → motive r'
  | [], r, r', h, e => by
    have : r = r' := by simpa [Run.many] using e
    exact this ▸ h
  | dt :: dts, r, r', h, e => by
    obtain ⟨r1, h1, h2⟩ := bind_ok e
    exact many_induct step dts r1 r' (step r dt r1 h h1) h2

/-- A step with the constant diffusion model, all covariances scaled by the same factor: the scaled new state is the
Bayesian update of the scaled old state for the scaled prior. -/
theorem scaled_step {S : Solver d q} {C : ConstantDiffusion ℝ} {t : ℝ} {rv : Normal (d * (q + 1))} {dt : ℝ}
    {o : Outcome d q} {r : Normal (d * (q + 1))} (hrv : rv.Valid) (hfree : S.ode.TimeFree)
    (h : attempt S (.constant C) t rv dt = .ok o) (hr : o.rv = some r) {c : ℝ} (hc : 0 < c) :
    BayesStep S c t (scaleRv c rv) o.t (scaleRv c r) := by
  obtain ⟨tr, lin, est, predL, u, htr, hlin, -, ht, hd, hp, hS, hu, hm, hcov, hv⟩ := accepted_ok hrv hfree h hr
  obtain ⟨-, hm0, -, -⟩ := discretise_props S.chol htr
  obtain ⟨hres, b, hn⟩ := linearized_residual hlin
  rw [ht]
  refine ⟨tr, lin.mat, lin.noise.mean, by rwa [add_sub_cancel_left], ?_, ?_⟩
  · have : predMean tr rv = tr.mat *ᵥ rv.mean := by rw [predMean, hm0, add_zero]
    rwa [this] at hres
  · intro Ω mΩ P X₀ W hX hW hXW
    have hb : lin.noise.mean = b := by rw [hn]; rfl
    have := conditional_of_update hn hm0 (stepDiffusion (.constant C) est) c hc.ne' hp hS hu P X₀ W hX
      (by simpa [stepDiffusion, Diff.perStep] using hW) hXW
    rw [← hb] at this
    simp only [scaleRv, hcov, hm]
    exact this

/-- **C72, constant diffusion, partial.**  For a vector field that can be called without a time: after any sequence of
attempts, the calibrated states of the filtering posterior are the Bayesian filter of the calibrated prior.  With the
final diffusion `s > 0`, every state is the exact update of the one before for the squared diffusion `s` — the initial
covariance being scaled by `s` too.  The number of recorded estimates is the number of accepted steps.  Missing: the
smoothing posterior, see `smoothing_last_state_uncalibrated`; vector fields that use the time. -/
theorem constant_posterior_is_calibrated_partial {S : Solver d q} (hfree : S.ode.TimeFree) {t0 : ℝ}
    {rv0 : Normal (d * (q + 1))} (hv : rv0.Valid) {dts : List ℝ} {r : Run d q}
    (h : Run.many S (Run.start t0 rv0 (.constant .init)) dts = .ok r) :
    ∃ C, r.diffusion = .constant C ∧ C.seen + 1 = r.times.length ∧ r.times.length = r.rvs.length ∧
      r.times.head? = some t0 ∧ r.rvs.head? = some rv0 ∧
      ∀ s states, filteringStates r = .ok states → C.diffusion = some s → 0 < s →
        states.head? = some (scaleRv s rv0) ∧ states.length = r.times.length ∧
        Consecutive (fun _ t₀ x₀ t₁ x₁ => BayesStep S s t₀ x₀ t₁ x₁) r.times states := by
  have main : ∀ r' : Run d q, Run.many S (Run.start t0 rv0 (.constant .init)) dts = .ok r' →
      r'.Inv ∧ r'.times.head? = some t0 ∧ r'.rvs.head? = some rv0 ∧
      (∃ C, r'.diffusion = .constant C ∧ C.seen + 1 = r'.times.length) ∧
      Consecutive (fun _ t₀ x₀ t₁ x₁ => ∀ c : ℝ, 0 < c → BayesStep S c t₀ (scaleRv c x₀) t₁ (scaleRv c x₁))
        r'.times r'.rvs := by
    intro r' h'
    refine many_induct (motive := fun r' => r'.Inv ∧ r'.times.head? = some t0 ∧ r'.rvs.head? = some rv0 ∧
      (∃ C, r'.diffusion = .constant C ∧ C.seen + 1 = r'.times.length) ∧
      Consecutive (fun _ t₀ x₀ t₁ x₁ => ∀ c : ℝ, 0 < c → BayesStep S c t₀ (scaleRv c x₀) t₁ (scaleRv c x₁))
        r'.times r'.rvs) ?_ dts _ r' ?_ h'
    · rintro r dt r1 ⟨hi, ht, hx, ⟨C, hC, hs⟩, hcons⟩ hn
      rcases next_cases hfree hi hn with rfl | ⟨o, x, ho, hox, rfl, hi'⟩
      · exact ⟨hi, ht, hx, ⟨C, hC, hs⟩, hcons⟩
      · have ho' := ho
        rw [hC] at ho'
        obtain ⟨est, -, hd, -, -⟩ := accepted_step_is_conditioning_partial hi.valid hfree ho' hox
        refine ⟨hi', ?_, ?_, ⟨C.update est, hd, ?_⟩, ?_⟩
        · simp [List.head?_append, ht]
        · simp [List.head?_append, hx]
        · have : (C.update est).seen = C.seen + 1 := by
            unfold ConstantDiffusion.update; split <;> rfl
          rw [this, hs]; simp
        · exact hcons.append hi.len hi.lastTime hi.lastRv fun c hc => scaled_step hi.valid hfree ho' hox hc
    · refine ⟨Run.start_inv t0 hv _, rfl, rfl, ⟨.init, rfl, rfl⟩, ?_⟩
      intro k t₀ x₀ t₁ x₁ _ _ h3 _
      simp [Run.start] at h3
  obtain ⟨hi, ht, hx, ⟨C, hC, hs⟩, hcons⟩ := main r h
  refine ⟨C, hC, hs, hi.len, ht, hx, ?_⟩
  intro s states hst hCs hpos
  have hstates : states = r.rvs.map (scaleRv s) := by
    simp only [filteringStates, hC, Diff.postFactor, hCs, Except.map, Except.ok.injEq] at hst
    exact hst.symm
  subst hstates
  refine ⟨by rw [List.head?_map, hx]; rfl, by rw [List.length_map, hi.len], ?_⟩
  intro k t₀ x₀ t₁ x₁ h1 h2 h3 h4
  rw [List.getElem?_map, Option.map_eq_some_iff] at h2 h4
  obtain ⟨y₀, h2, rfl⟩ := h2
  obtain ⟨y₁, h4, rfl⟩ := h4
  exact hcons k t₀ y₀ t₁ y₁ h1 h2 h3 h4 s hpos

/-- **C72, piecewise constant diffusion, partial.**  For a vector field that can be called without a time: the diffusion
model has recorded exactly one estimate per accepted step, and every state of the solution is the exact Bayesian update
of the one before for the estimate recorded for this step.  The recorded location of an estimate is the *start* of its
step.  Missing: the smoothing posterior, see `smoothing_diffusions_shifted`; vector fields that use the time. -/
theorem piecewise_posterior_is_calibrated_partial {S : Solver d q} (hfree : S.ode.TimeFree) {t0 : ℝ}
    {rv0 : Normal (d * (q + 1))} (hv : rv0.Valid) {dts : List ℝ} {r : Run d q}
    (h : Run.many S (Run.start t0 rv0 (.piecewise (.init t0))) dts = .ok r) :
    ∃ P, r.diffusion = .piecewise P ∧ P.t0 = t0 ∧ P.rest = r.times.dropLast ∧ P.diffusions.length + 1 = r.times.length ∧
      r.times.length = r.rvs.length ∧ r.times.head? = some t0 ∧ r.rvs.head? = some rv0 ∧
      Consecutive (fun k t₀ x₀ t₁ x₁ => ∃ s, P.diffusions[k]? = some s ∧ BayesStep S s t₀ x₀ t₁ x₁) r.times r.rvs ∧
      ∃ states, filteringStates r = .ok states ∧ states.map Normal.mean = r.rvs.map Normal.mean ∧
        states.map Normal.cov = r.rvs.map Normal.cov := by
  have main : ∀ r' : Run d q, Run.many S (Run.start t0 rv0 (.piecewise (.init t0))) dts = .ok r' →
      r'.Inv ∧ r'.times.head? = some t0 ∧ r'.rvs.head? = some rv0 ∧
      (∃ P, r'.diffusion = .piecewise P ∧ P.t0 = t0 ∧ P.rest = r'.times.dropLast ∧
        P.diffusions.length + 1 = r'.times.length ∧
        Consecutive (fun k t₀ x₀ t₁ x₁ => ∃ s, P.diffusions[k]? = some s ∧ BayesStep S s t₀ x₀ t₁ x₁)
          r'.times r'.rvs) := by
    intro r' h'
    refine many_induct (motive := fun r' => r'.Inv ∧ r'.times.head? = some t0 ∧ r'.rvs.head? = some rv0 ∧
      (∃ P, r'.diffusion = .piecewise P ∧ P.t0 = t0 ∧ P.rest = r'.times.dropLast ∧
        P.diffusions.length + 1 = r'.times.length ∧
        Consecutive (fun k t₀ x₀ t₁ x₁ => ∃ s, P.diffusions[k]? = some s ∧ BayesStep S s t₀ x₀ t₁ x₁)
          r'.times r'.rvs)) ?_ dts _ r' ?_ h'
    · rintro r dt r1 ⟨hi, ht, hx, P, hP, hP0, hPr, hPl, hcons⟩ hn
      rcases next_cases hfree hi hn with rfl | ⟨o, x, ho, hox, rfl, hi'⟩
      · exact ⟨hi, ht, hx, P, hP, hP0, hPr, hPl, hcons⟩
      · have ho' := ho
        rw [hP] at ho'
        obtain ⟨est, hot, hd, hB, -⟩ := accepted_step_is_conditioning_partial hi.valid hfree ho' hox
        refine ⟨hi', ?_, ?_, P.update est r.t, hd, hP0, ?_, ?_, ?_⟩
        · simp [List.head?_append, ht]
        · simp [List.head?_append, hx]
        · have hlast := List.dropLast_append_getLast? (l := r.times) r.t hi.lastTime
          simp only [PiecewiseDiffusion.update, hPr, List.dropLast_concat]
          exact hlast
        · simp only [PiecewiseDiffusion.update, List.length_append, List.length_singleton]
          omega
        · refine Consecutive.append (R := fun k t₀ x₀ t₁ x₁ => ∃ s, (P.update est r.t).diffusions[k]? = some s ∧
            BayesStep S s t₀ x₀ t₁ x₁) ?_ hi.len hi.lastTime hi.lastRv ?_
          · intro k t₀ x₀ t₁ x₁ h1 h2 h3 h4
            obtain ⟨s, hs, hb⟩ := hcons k t₀ x₀ t₁ x₁ h1 h2 h3 h4
            refine ⟨s, ?_, hb⟩
            have hlt : k < P.diffusions.length := by
              by_contra hk
              rw [List.getElem?_eq_none (by omega)] at hs; cases hs
            simp only [PiecewiseDiffusion.update]
            rw [List.getElem?_append_left hlt]; exact hs
          · refine ⟨est, ?_, ?_⟩
            · have : r.times.length - 1 = P.diffusions.length := by omega
              simp only [PiecewiseDiffusion.update]
              rw [this, List.getElem?_concat_length]
            · rw [hot]; simpa [Diff.perStep] using hB
    · refine ⟨Run.start_inv t0 hv _, rfl, rfl, .init t0, rfl, rfl, rfl, rfl, ?_⟩
      intro k t₀ x₀ t₁ x₁ _ _ h3 _
      simp [Run.start] at h3
  obtain ⟨hi, ht, hx, P, hP, hP0, hPr, hPl, hcons⟩ := main r h
  refine ⟨P, hP, hP0, hPr, hPl, hi.len, ht, hx, hcons, r.rvs.map (scaleRv 1), ?_, ?_, ?_⟩
  · simp only [filteringStates, hP, Diff.postFactor, Except.map]
  · rw [List.map_map]; rfl
  · rw [List.map_map]
    refine List.map_congr_left fun x _ => ?_
    simp [scaleRv]

/-- **C72, the solution in state space**: the states and derivatives of an ODE solution (coordinates 0 and 1 of the prior)
have the marginal law of the full state, and a lower triangular factor of their covariance. -/
theorem solution_is_marginal (hd : 0 < d) (Q : QR) {rv : Normal (d * (q + 1))} (hv : rv.Valid) (k : ℕ) (hk : k ≤ q) :
    ∃ y, projectRv Q (proj d q k) rv = .ok y ∧ y.Valid ∧ (∀ i, y.mean i = coord rv.mean k i) ∧
      ∀ {Ω : Type} {mΩ : MeasurableSpace Ω} (P : Measure Ω) (X : Ω → Fin (d * (q + 1)) → ℝ),
        IsNormal P X rv.mean rv.cov → IsNormal P (fun ω i => coord (X ω) k i) y.mean y.cov := by
  obtain ⟨L, h1, h2, -, -⟩ := cholesky_update_single_correct Q (Nat.mul_pos hd (Nat.succ_pos q)) (proj d q k * rv.chol)
  refine ⟨⟨proj d q k *ᵥ rv.mean, proj d q k * rv.cov * (proj d q k)ᵀ, L⟩, ?_, ?_, ?_, ?_⟩
  · simp only [projectRv, h1, Except.map]
  · show L * Lᵀ = _
    rw [h2, ← hv, Matrix.transpose_mul]
    simp only [Matrix.mul_assoc]
  · intro i
    show (proj d q k *ᵥ rv.mean) i = _
    rw [proj_mulVec _ hk]
  · intro Ω mΩ P X hX
    have := hX.affine (proj d q k) 0
    simp only [add_zero] at this
    have e : (fun ω i => coord (X ω) k i) = fun ω => proj d q k *ᵥ X ω := by
      funext ω i; rw [proj_mulVec _ hk]
    rw [e]
    exact this

/-! ## Violations in the smoothing posterior -/

/-- Violation: with the constant diffusion the smoothing posterior is computed from the *uncalibrated* states.  Its last
state is the last filtering state before scaling, so unless the diffusion is one or the covariance is zero it differs
from the last state of the filtering posterior (smoothing and filtering agree at the final time). -/
theorem smoothing_last_state_uncalibrated {r : Run d q} (hi : r.Inv) {C : ConstantDiffusion ℝ}
    (hC : r.diffusion = .constant C) {s : ℝ} (hs : C.diffusion = some s) :
    ∃ states last smoothed, filteringStates r = .ok states ∧ states.getLast? = some last ∧ lastSmoothed r = .ok smoothed ∧
      smoothed.cov = r.rv.cov ∧ last.cov = s • r.rv.cov ∧ (s ≠ 1 → r.rv.cov ≠ 0 → last.cov ≠ smoothed.cov) := by
  have hcall : ∀ ts : List ℝ, ∃ ds, ts.mapM (m := Res) (Diff.constant C).call = .ok ds := by
    intro ts
    induction ts with
    | nil => exact ⟨[], rfl⟩
    | cons t ts ih =>
      obtain ⟨ds, hds⟩ := ih
      refine ⟨(s * 1) :: ds, ?_⟩
      rw [List.mapM_cons, hds]
      simp [Diff.call, ConstantDiffusion.call, hs, bind, Except.bind, pure, Except.pure]
  obtain ⟨ds, hds⟩ := hcall r.times.tail
  have h0 : (Diff.constant C).call 0 = .ok (s * 1) := by simp [Diff.call, ConstantDiffusion.call, hs]
  refine ⟨r.rvs.map (scaleRv s), scaleRv s r.rv, r.rv, ?_, ?_, ?_, rfl, rfl, ?_⟩
  · simp only [filteringStates, hC, Diff.postFactor, hs, Except.map]
  · rw [List.getLast?_map, hi.lastRv]; rfl
  · simp only [lastSmoothed, smoothingInput, hC, Diff.callMany, h0, Except.bind, hds, Except.map, hi.lastRv]
  · intro h1 h2 h3
    simp only [scaleRv] at h3
    have : (s - 1) • r.rv.cov = 0 := by rw [sub_smul, one_smul, h3, sub_self]
    rcases smul_eq_zero.1 this with h | h
    · exact h1 (by linarith)
    · exact h2 h

/-- After an accepted step with the constant diffusion the state is uncertain, in every problem. -/
theorem accepted_cov_ne_zero (hq : 0 < q) (hd : 0 < d) {S : Solver d q} {C : ConstantDiffusion ℝ} {t : ℝ}
    {rv : Normal (d * (q + 1))} {dt : ℝ} {o : Outcome d q} {r : Normal (d * (q + 1))} (hrv : rv.Valid)
    (hfree : S.ode.TimeFree) (h : attempt S (.constant C) t rv dt = .ok o) (hr : o.rv = some r) : r.cov ≠ 0 := by
  obtain ⟨tr, lin, est, predL, u, htr, hlin, -, -, -, hp, hS, hu, -, hcov, -⟩ := accepted_ok hrv hfree h hr
  obtain ⟨-, -, -, hQ⟩ := discretise_props S.chol htr
  obtain ⟨-, b, hn⟩ := linearized_residual hlin
  have hP : (predL * predLᵀ).PosDef := by
    rw [hp]
    simp only [stepDiffusion, Diff.perStep, Bool.false_eq_true, if_false, one_smul]
    exact Matrix.PosDef.posSemidef_add (posSemidef_conj (posSemidef_of_valid hrv) tr.mat) hQ
  have hPs : (predL * predLᵀ)ᵀ = predL * predLᵀ := by simp [Matrix.transpose_mul]
  rw [← backward_joseph_agrees lin 1 (Normal.const 0) ⟨predMean tr rv, predL * predLᵀ, predL⟩ hPs
    (by rw [hn]; simp [Normal.const])] at hu
  have hS' : (predCov lin 1 ⟨predMean tr rv, predL * predLᵀ, predL⟩).det ≠ 0 := by
    rw [predCov_eq, hn]; simpa [Normal.const] using hS
  simp only [backwardJoseph, gainClassic_eq _ _ _ hS', bind, Except.bind] at hu
  injection hu with hu
  rw [hcov, ← hu]
  simp only [hn, Normal.const, Matrix.mul_zero, Matrix.zero_mul, smul_zero, add_zero]
  generalize optGain lin 1 ⟨predMean tr rv, predL * predLᵀ, predL⟩ = K
  intro h0
  have hJ : ∀ v, (1 - K * lin.mat)ᵀ *ᵥ v = 0 := by
    intro v
    by_contra hv
    have h1 := hP.dotProduct_mulVec_pos hv
    have h2 : v ⬝ᵥ (((1 - K * lin.mat) * (predL * predLᵀ) * (1 - K * lin.mat)ᵀ) *ᵥ v) = 0 := by
      rw [h0, Matrix.zero_mulVec, dotProduct_zero]
    rw [← Matrix.mulVec_mulVec, ← Matrix.mulVec_mulVec, Matrix.dotProduct_mulVec, ← Matrix.mulVec_transpose] at h2
    rw [star_trivial, h2] at h1
    exact lt_irrefl _ h1
  have hK : K * lin.mat = 1 := by
    have h1 : (1 - K * lin.mat)ᵀ = 0 := by
      ext i j
      have := congrFun (hJ (Pi.single j 1)) i
      rw [Matrix.mulVec_single_one] at this
      exact this
    have h2 : 1 - K * lin.mat = 0 := by rw [← Matrix.transpose_transpose (1 - K * lin.mat), h1, Matrix.transpose_zero]
    exact (sub_eq_zero.1 h2).symm
  have hrank : d * (q + 1) ≤ d := by
    calc d * (q + 1) = (K * lin.mat).rank := by rw [hK, Matrix.rank_one, Fintype.card_fin]
      _ ≤ lin.mat.rank := Matrix.rank_mul_le_right _ _
      _ ≤ Fintype.card (Fin d) := Matrix.rank_le_card_height _
      _ = d := Fintype.card_fin d
  have : d * 1 < d * (q + 1) := Nat.mul_lt_mul_of_pos_left (by omega) hd
  omega

/-- Violation: in every run with the constant diffusion model and at least one accepted step, the smoothing and the
filtering posterior disagree at the final time unless the final diffusion is exactly one. -/
theorem smoothing_disagrees_at_the_end (hq : 0 < q) (hd : 0 < d) {S : Solver d q} (hfree : S.ode.TimeFree) {t0 : ℝ}
    {rv0 : Normal (d * (q + 1))} (hv : rv0.Valid) {dts : List ℝ} {r : Run d q}
    (h : Run.many S (Run.start t0 rv0 (.constant .init)) dts = .ok r) (hN : 2 ≤ r.times.length) :
    ∃ s, r.diffusion.postFactor = .ok s ∧ (s ≠ 1 → ∃ states last smoothed, filteringStates r = .ok states ∧
      states.getLast? = some last ∧ lastSmoothed r = .ok smoothed ∧ last.cov ≠ smoothed.cov) := by
  obtain ⟨hi, ⟨C, hC, hs⟩, hcov⟩ := many_induct (S := S) (motive := fun r' => r'.Inv ∧
      (∃ C : ConstantDiffusion ℝ, r'.diffusion = .constant C ∧ (2 ≤ r'.times.length → ∃ s, C.diffusion = some s)) ∧
      (2 ≤ r'.times.length → r'.rv.cov ≠ 0))
    (by
      rintro r dt r1 ⟨hi, ⟨C, hC, hs⟩, hcov⟩ hn
      rcases next_cases hfree hi hn with rfl | ⟨o, x, ho, hox, rfl, hi'⟩
      · exact ⟨hi, ⟨C, hC, hs⟩, hcov⟩
      · rw [hC] at ho
        obtain ⟨est, -, hd', -, -⟩ := accepted_step_is_conditioning_partial hi.valid hfree ho hox
        refine ⟨hi', ⟨C.update est, hd', fun _ => ?_⟩, fun _ => accepted_cov_ne_zero hq hd hi.valid hfree ho hox⟩
        unfold ConstantDiffusion.update
        split <;> exact ⟨_, rfl⟩)
    dts _ r ⟨Run.start_inv t0 hv _, ⟨.init, rfl, fun h => absurd h (by simp [Run.start])⟩,
      fun h => absurd h (by simp [Run.start])⟩ h
  obtain ⟨s, hs⟩ := hs hN
  refine ⟨s, by simp only [hC, Diff.postFactor, hs], fun h1 => ?_⟩
  obtain ⟨states, last, smoothed, a, b, c, -, -, e⟩ := smoothing_last_state_uncalibrated hi hC hs
  exact ⟨states, last, smoothed, a, b, c, e h1 (hcov hN)⟩

/-- The diffusion looked up by the piecewise constant model at the `k`-th later location of a run. -/
theorem call_shifted (t0 : ℝ) (times : List ℝ) (ests : List ℝ) (hl : ests.length + 1 = times.length)
    (hh : times.head? = some t0) (hasc : times.Pairwise (· < ·)) (k : ℕ) (hk : k + 1 < times.length) :
    (PiecewiseDiffusion.mk t0 times.dropLast ests : PiecewiseDiffusion ℝ ℝ).call times[k + 1]
      = .ok (if h : k + 1 < ests.length then ests[k + 1] else ests[ests.length - 1]) := by
  have hd : times.dropLast.length = ests.length := by rw [List.length_dropLast]; omega
  have hz1 : (times.dropLast.zip ests).map Prod.fst = times.dropLast := List.map_fst_zip hd.le
  have hz2 : (times.dropLast.zip ests).map Prod.snd = ests := List.map_snd_zip hd.ge
  have hzl : (times.dropLast.zip ests).length = ests.length := by rw [List.length_zip, hd, min_self]
  have hne : times.dropLast.zip ests ≠ [] := by
    intro h
    rw [h] at hzl
    simp at hzl; omega
  have hlt : ∀ i j (hi : i < times.length) (hj : j < times.length), i < j → times[i] < times[j] :=
    fun i j hi hj hij => List.pairwise_iff_getElem.1 hasc i j hi hj hij
  have h0 : times[0]'(by omega) = t0 := by
    rw [List.head?_eq_getElem?, List.getElem?_eq_getElem (by omega)] at hh
    exact Option.some.inj hh
  have hAsc : Ascending t0 (times.dropLast.zip ests) := by
    unfold Ascending
    rw [hz1, List.pairwise_cons]
    constructor
    · intro x hx
      obtain ⟨i, hi, rfl⟩ := List.getElem_of_mem (List.mem_of_mem_dropLast hx)
      rcases Nat.eq_zero_or_pos i with rfl | hp
      · exact h0.ge
      · exact h0 ▸ (hlt 0 i (by omega) hi hp).le
    · exact (hasc.sublist (List.dropLast_sublist times)).imp le_of_lt
  obtain ⟨D, s, h1, h2, h3⟩ := piecewise_exact t0 _ hne hAsc times[k + 1]
  rw [(calibrate_iff t0 _).1 hAsc, hz1, hz2] at h1
  cases h1
  rw [h2]
  have hne0 : times[k + 1] ≠ t0 := by
    rw [← h0]
    exact (hlt 0 (k + 1) (by omega) hk (by omega)).ne'
  rw [if_neg hne0] at h3
  -- evaluate the left-continuous function
  have left : ∀ (steps : List (ℝ × ℝ)) (t : ℝ) (j : ℕ), (∀ i (hi : i < steps.length), i < j → steps[i].1 < t) →
      (∀ hj : j < steps.length, t ≤ steps[j].1) → (hs : 0 < steps.length) →
      leftContinuous t steps = some (if h : j < steps.length then steps[j].2 else steps[steps.length - 1].2) := by
    intro steps
    induction steps with
    | nil => intro t j _ _ hs; exact absurd hs (by simp)
    | cons p rest ih =>
      intro t j hlow hhigh _
      cases rest with
      | nil =>
        simp only [leftContinuous, List.length_singleton]
        split
        · rename_i h
          have : j = 0 := by omega
          subst this; rfl
        · rfl
      | cons p' rest' =>
        by_cases hj : j = 0
        · subst hj
          have : t ≤ p.1 := hhigh (by simp)
          simp [leftContinuous, this]
        · have hp : ¬ t ≤ p.1 := not_le.2 (hlow 0 (by simp) (by omega))
          simp only [leftContinuous, hp, if_false]
          obtain ⟨j', rfl⟩ := Nat.exists_eq_succ_of_ne_zero hj
          rw [ih t j' (fun i hi hij => hlow (i + 1) (by simpa using hi) (by omega))
            (fun hj' => hhigh (by simpa using hj')) (by simp)]
          simp only [List.length_cons, Nat.succ_eq_add_one]
          by_cases hc : j' < rest'.length + 1
          · rw [dif_pos hc, dif_pos (by omega)]; rfl
          · rw [dif_neg hc, dif_neg (by omega)]; rfl
  have hget : ∀ i (hi : i < (times.dropLast.zip ests).length),
      (times.dropLast.zip ests)[i].1 = times[i]'(by omega) ∧ (times.dropLast.zip ests)[i].2 = ests[i]'(by omega) := by
    intro i hi
    rw [List.getElem_zip]
    exact ⟨List.getElem_dropLast _, rfl⟩
  have hl' := left (times.dropLast.zip ests) times[k + 1] (k + 1)
    (fun i hi hij => by rw [(hget i hi).1]; exact hlt i (k + 1) (by omega) hk hij)
    (fun hj => by rw [(hget _ hj).1]) (by omega)
  rw [hl'] at h3
  congr 1
  have h4 := Option.some.inj h3
  rw [h4]
  by_cases hc : k + 1 < ests.length
  · rw [dif_pos (by omega), dif_pos hc, (hget _ _).2]
  · rw [dif_neg (by omega), dif_neg hc, (hget _ _).2]
    simp only [hzl]

/-- Violation: with the piecewise constant diffusion, smoothing the `k`-th step uses the estimate of the step *after* it
(and the last estimate for the last two steps): the list of diffusions handed to the smoother is the list of recorded
estimates without its first entry, with the last one repeated. -/
theorem smoothing_diffusions_shifted {S : Solver d q} (hfree : S.ode.TimeFree) {t0 : ℝ}
    {rv0 : Normal (d * (q + 1))} (hv : rv0.Valid) {dts : List ℝ} {r : Run d q}
    (h : Run.many S (Run.start t0 rv0 (.piecewise (.init t0))) dts = .ok r) (hasc : r.times.Pairwise (· < ·))
    (hN : 2 ≤ r.times.length) :
    ∃ P, r.diffusion = .piecewise P ∧ ∃ hP : P.diffusions ≠ [],
      smoothingInput r = .ok (r.rvs, P.diffusions.tail ++ [P.diffusions.getLast hP]) := by
  obtain ⟨P, hP, hP0, hPr, hPl, hlen, hh, -, -, -⟩ := piecewise_posterior_is_calibrated_partial hfree hv h
  have hne : P.diffusions ≠ [] := by
    intro h0; rw [h0] at hPl; simp at hPl; omega
  refine ⟨P, hP, hne, ?_⟩
  have hPeq : P = ⟨t0, r.times.dropLast, P.diffusions⟩ := by
    cases P; simp only at hP0 hPr; rw [hP0, hPr]
  have hcall : ∀ k (hk : k + 1 < r.times.length), (Diff.piecewise P).call r.times[k + 1]
      = .ok (if h : k + 1 < P.diffusions.length then P.diffusions[k + 1]
          else P.diffusions[P.diffusions.length - 1]'(by have := List.length_pos_iff.2 hne; omega)) := by
    intro k hk
    have := call_shifted t0 r.times P.diffusions hPl hh hasc k hk
    rw [← hPeq] at this
    exact this
  -- every later location yields the shifted estimate
  have hmap : ∀ (ts ds : List ℝ) (f : ℝ → Res ℝ), ts.length = ds.length →
      (∀ i (h1 : i < ts.length) (h2 : i < ds.length), f ts[i] = .ok ds[i]) → ts.mapM (m := Res) f = .ok ds := by
    intro ts
    induction ts with
    | nil => intro ds f hl _; cases ds with
      | nil => rfl
      | cons => simp at hl
    | cons t ts ih =>
      intro ds f hl hf
      cases ds with
      | nil => simp at hl
      | cons x ds =>
        rw [List.mapM_cons, ih ds f (by simpa using hl) (fun i h1 h2 => by
          have := hf (i + 1) (by simpa using h1) (by simpa using h2)
          simpa using this)]
        have h0 := hf 0 (by simp) (by simp)
        simp only [List.getElem_cons_zero] at h0
        rw [h0]; rfl
  have hm := hmap r.times.tail (P.diffusions.tail ++ [P.diffusions.getLast hne]) (Diff.piecewise P).call
    (by rw [List.length_append, List.length_tail, List.length_tail]; simp; have := List.length_pos_iff.2 hne; omega)
    (by
      intro i h1 h2
      rw [List.length_tail] at h1
      rw [List.getElem_tail, hcall i (by omega)]
      congr 1
      by_cases hc : i + 1 < P.diffusions.length
      · rw [dif_pos hc, List.getElem_append_left (by rw [List.length_tail]; omega), List.getElem_tail]
      · rw [dif_neg hc, List.getElem_append_right (by rw [List.length_tail]; omega)]
        simp [List.getLast_eq_getElem])
  have h0 : ∃ s, (Diff.piecewise P).call 0 = .ok s := by
    have hsome : ∀ t : ℝ, ∃ s, P.call t = .ok s := by
      intro t
      have hd : r.times.dropLast.length = P.diffusions.length := by rw [List.length_dropLast]; omega
      have hz1 : (r.times.dropLast.zip P.diffusions).map Prod.fst = r.times.dropLast := List.map_fst_zip hd.le
      have hz2 : (r.times.dropLast.zip P.diffusions).map Prod.snd = P.diffusions := List.map_snd_zip hd.ge
      have hAsc : Ascending t0 (r.times.dropLast.zip P.diffusions) := by
        unfold Ascending
        rw [hz1, List.pairwise_cons]
        constructor
        · intro x hx
          obtain ⟨i, hi, rfl⟩ := List.getElem_of_mem (List.mem_of_mem_dropLast hx)
          have h00 : r.times[0]'(by omega) = t0 := by
            rw [List.head?_eq_getElem?, List.getElem?_eq_getElem (by omega)] at hh
            exact Option.some.inj hh
          rcases Nat.eq_zero_or_pos i with rfl | hp
          · exact h00.ge
          · exact h00 ▸ (List.pairwise_iff_getElem.1 hasc 0 i (by omega) hi hp).le
        · exact (hasc.sublist (List.dropLast_sublist r.times)).imp le_of_lt
      have hne' : r.times.dropLast.zip P.diffusions ≠ [] := by
        intro h
        have := congrArg List.length h
        rw [List.length_zip, hd, min_self] at this
        exact hne (List.length_eq_zero_iff.1 this)
      obtain ⟨D, s, h1, h2, -⟩ := piecewise_exact t0 _ hne' hAsc t
      rw [(calibrate_iff t0 _).1 hAsc, hz1, hz2, ← hPeq] at h1
      cases h1
      exact ⟨s, h2⟩
    exact hsome 0
  obtain ⟨s, hs⟩ := h0
  simp only [smoothingInput, hP, Diff.callMany, hs, Except.bind, hm, Except.map]

/-! ## The hypotheses are met -/

/-- The logisticOde equation `y' = y (1 - y)` as Python callables that do not look at the time. -/
def logisticOde : Ode 1 :=
  ⟨fun _ y => .ok fun i => y i * (1 - y i), fun _ y => .ok (Matrix.of fun i _ => 1 - 2 * y i)⟩

/-- A vector field that uses the time: `y' = t y` raises TypeError for `t=None`. -/
def timeDependent : Ode 1 :=
  ⟨fun t y => match t with
    | none => .error .typeError
    | some t => .ok fun i => t * y i, fun t _ => match t with
    | none => .error .typeError
    | some t => .ok (Matrix.of fun _ _ => t)⟩

/-- The ODE `y' = 0`. -/
def stationary : Ode 1 := ⟨fun _ _ => .ok 0, fun _ _ => .ok 0⟩

theorem exists_covChol (n : ℕ) : Nonempty (Kalman.CovCholesky n) := ⟨(Kalman.exists_covCholesky n).choose⟩

/-- A step rule that accepts every step (`ConstantSteps`). -/
def acceptAll (d : ℕ) : Rule d := ⟨fun _ _ => 0, fun _ => true⟩

/-- Solvers for the logisticOde equation with the constant diffusion: the first step succeeds, so all hypotheses of the
theorems on accepted steps are met, with an initial state of zero or nonzero covariance. -/
theorem logistic_run (st : Strategy) (chol : Kalman.CovCholesky 2) (qr : QR) (rv0 : Normal (1 * (1 + 1)))
    (hv : rv0.Valid) : ∃ r : Run 1 1,
      Run.many ⟨st, logisticOde, acceptAll 1, chol, qr, 0⟩ (Run.start 0 rv0 (.constant .init)) [1 / 2, 1 / 4] = .ok r ∧
      r.times = [0, 0 + 1 / 2, 0 + 1 / 2 + 1 / 4] ∧ r.Inv := by
  have hfree : (logisticOde).TimeFree := fun t x => ⟨rfl, rfl⟩
  have hnext : ∀ (r : Run 1 1) (C : ConstantDiffusion ℝ) (dt : ℝ), r.diffusion = .constant C → r.Inv → dt ≠ 0 →
      ∃ r' : Run 1 1, r.next ⟨st, logisticOde, acceptAll 1, chol, qr, 0⟩ dt = .ok r' ∧ r'.times = r.times ++ [r.t + dt] ∧
        r'.t = r.t + dt ∧ r'.Inv ∧ ∃ C', r'.diffusion = .constant C' := by
    intro r C dt hC hi hdt
    obtain ⟨o, ho, hot, hoa⟩ := step_succeeds_partial (S := ⟨st, logisticOde, acceptAll 1, chol, qr, 0⟩) (D := .constant C)
      (t := r.t) (dt := dt) one_pos hi.valid hdt hfree ⟨fun x => ⟨_, rfl⟩, fun _ x => ⟨_, rfl⟩⟩ trivial
    obtain ⟨x, hx⟩ := Option.isSome_iff_exists.1 (hoa.2 rfl)
    have hn : r.next ⟨st, logisticOde, acceptAll 1, chol, qr, 0⟩ dt
        = .ok ⟨o.t, x, o.diffusion, r.times ++ [o.t], r.rvs ++ [x]⟩ := by
      simp only [Run.next, hC, ho, Except.map, hx]
    obtain ⟨est, -, hd, -, hxv⟩ := accepted_step_is_conditioning_partial hi.valid hfree ho hx
    exact ⟨_, hn, by simp only [hot], hot, ⟨by simp [hi.len], by simp, by simp, hxv⟩, C.update est, hd⟩
  have hi0 := Run.start_inv 0 hv (.constant .init)
  obtain ⟨r1, h1, t1, e1, i1, C1, d1⟩ := hnext _ .init (1 / 2) rfl hi0 (by norm_num)
  obtain ⟨r2, h2, t2, e2, i2, C2, d2⟩ := hnext r1 C1 (1 / 4) d1 i1 (by norm_num)
  refine ⟨r2, ?_, ?_, i2⟩
  · simp only [Run.many, h1, Except.bind, h2]
  · rw [t2, t1, e1]; rfl

example : ∃ (S : Solver 1 1) (r : Run 1 1), S.ode.TimeFree ∧
    Run.many S (Run.start 0 (Normal.const ![1 / 2, 1 / 4]) (.constant .init)) [1 / 2, 1 / 4] = .ok r ∧
    r.times.length = 3 := by
  obtain ⟨qr⟩ := QR.exists
  obtain ⟨chol⟩ := exists_covChol 2
  obtain ⟨r, hr, ht, -⟩ := logistic_run .ek1 chol qr (Normal.const ![1 / 2, 1 / 4]) (Normal.const_valid _)
  exact ⟨_, r, fun t x => ⟨rfl, rfl⟩, hr, by rw [ht]; rfl⟩

-- `y' = t y` with EK0 and the constant diffusion: the first step raises TypeError.
example : ∃ (S : Solver 1 1), (∀ t x, ∃ v, S.ode.f (some t) x = .ok v) ∧
    attempt S (.constant .init) 0 (Normal.const ![1, 0]) (1 / 2) = .error .typeError := by
  obtain ⟨qr⟩ := QR.exists
  obtain ⟨chol⟩ := exists_covChol 2
  refine ⟨⟨.ek0, timeDependent, acceptAll 1, chol, qr, 0⟩, fun t x => ⟨_, rfl⟩, ?_⟩
  exact time_dependent_step_raises one_pos (Normal.const_valid _) (by norm_num) rfl (fun x => ⟨_, rfl⟩)
    (fun x => rfl) (fun _ => rfl)

-- `y' = 0`, `y(0) = 3` with the (default) piecewise constant diffusion: the first step has a singular gain.
example : ∃ (S : Solver 1 1),
    attempt S (.piecewise (.init 0)) 0 (Normal.const ![3, 0]) (1 / 2) = .error .linAlgError := by
  obtain ⟨qr⟩ := QR.exists
  obtain ⟨chol⟩ := exists_covChol 2
  refine ⟨⟨.ek0, stationary, acceptAll 1, chol, qr, 0⟩, ?_⟩
  refine zero_residual_step_raises one_pos one_pos (by norm_num) ⟨fun x => ⟨_, rfl⟩, fun h => by cases h⟩ ?_ ?_
    (fun _ => rfl)
  · have : (PiecewiseDiffusion.init (0 : ℝ) : PiecewiseDiffusion ℝ ℝ).tmax = 0 := rfl
    rw [this]; norm_num
  · intro tr htr
    have : proj 1 1 1 *ᵥ (tr.mat *ᵥ (![3, 0] : Fin (1 * (1 + 1)) → ℝ)) = 0 := by
      obtain ⟨tr', h1, -, h2⟩ := IWP.discretise_entries 1 1 chol (h := 1 / 2) (by norm_num)
      rw [h1] at htr; cases htr
      rw [proj_mulVec _ (le_refl 1)]
      funext i
      fin_cases i
      have h10 := (h2 0 0 1 0).1
      have e1 : (finProdFinEquiv ((0 : Fin 1), (1 : Fin (1 + 1)))) = (1 : Fin (1 * (1 + 1))) := rfl
      have e0 : (finProdFinEquiv ((0 : Fin 1), (0 : Fin (1 + 1)))) = (0 : Fin (1 * (1 + 1))) := rfl
      rw [e1, e0] at h10
      have : (tr.mat *ᵥ (![3, 0] : Fin (1 * (1 + 1)) → ℝ)) 1 = 0 := by
        simp only [Matrix.mulVec, dotProduct]
        have h10' : tr.mat 1 0 = 0 := h10.trans (by simp)
        refine (Fin.sum_univ_two (fun i : Fin 2 => tr.mat (1 : Fin 2) (i : Fin 2) * (![3, 0] : Fin 2 → ℝ) i)).trans ?_
        refine (congrArg₂ (· + ·) (congrArg (· * (3 : ℝ)) h10') (mul_zero _)).trans ?_
        simp
      exact this
    rw [this]; rfl

-- The logistic equation, `y(0) = 1/2`, one EK0 step of size `1/2`: the diffusion is `1/2048`, so the smoothing posterior
-- and the filtering posterior disagree at the final time.
example : ∃ (S : Solver 1 1) (r : Run 1 1) (states : List (Normal (1 * (1 + 1)))) (last smoothed : Normal (1 * (1 + 1))),
    S.ode.TimeFree ∧
    Run.many S (Run.start 0 (Normal.const ![1 / 2, 1 / 4]) (.constant .init)) [1 / 2] = .ok r ∧
    filteringStates r = .ok states ∧ states.getLast? = some last ∧ lastSmoothed r = .ok smoothed ∧
    last.cov ≠ smoothed.cov := by
  obtain ⟨qr⟩ := QR.exists
  obtain ⟨chol⟩ := exists_covChol 2
  have hfree : (logisticOde).TimeFree := fun t x => ⟨rfl, rfl⟩
  obtain ⟨o, ho, hot, hoa⟩ := step_succeeds_partial (S := ⟨.ek0, logisticOde, acceptAll 1, chol, qr, 0⟩)
    (D := .constant .init) (t := 0) (dt := 1 / 2) (rv := Normal.const ![1 / 2, 1 / 4]) one_pos (Normal.const_valid _)
    (by norm_num) hfree ⟨fun x => ⟨_, rfl⟩, fun _ x => ⟨_, rfl⟩⟩ trivial
  obtain ⟨x, hx⟩ := Option.isSome_iff_exists.1 (hoa.2 rfl)
  obtain ⟨tr, lin, est, -, -, htr, hlin, hest, -, hd, -⟩ := accepted_ok (Normal.const_valid _) hfree ho hx
  obtain ⟨tr', h1, h1m, h2⟩ := IWP.discretise_entries 1 1 chol (h := 1 / 2) (by norm_num)
  rw [h1] at htr; cases htr
  have e1 : (finProdFinEquiv ((0 : Fin 1), (1 : Fin (1 + 1)))) = (1 : Fin (1 * (1 + 1))) := rfl
  have e0 : (finProdFinEquiv ((0 : Fin 1), (0 : Fin (1 + 1)))) = (0 : Fin (1 * (1 + 1))) := rfl
  have m00 : tr.mat 0 0 = 1 := by have := (h2 0 0 0 0).1; rw [e0] at this; rw [this]; norm_num
  have m01 : tr.mat 0 1 = 1 / 2 := by
    have := (h2 0 0 0 1).1
    rw [e0, e1] at this
    rw [this]; norm_num
  have m10 : tr.mat 1 0 = 0 := by have := (h2 0 0 1 0).1; rw [e0, e1] at this; rw [this]; simp
  have m11 : tr.mat 1 1 = 1 := by have := (h2 0 0 1 1).1; rw [e1] at this; rw [this]; norm_num
  have q11 : tr.noise.cov 1 1 = 1 / 2 := by
    have := (h2 0 0 1 1).2.2
    rw [e1] at this
    rw [this]; norm_num
  obtain ⟨⟨⟨J, hJ, hJ0⟩, v, hv, hz⟩, -⟩ := linearized_residual hlin
  have hJ0' : J = 0 := hJ0
  have hH : lin.mat = proj 1 1 1 := by rw [hJ, hJ0', Matrix.zero_mul, sub_zero]
  have sum2 : ∀ f : Fin (1 * (1 + 1)) → ℝ, ∑ i, f i = f 0 + f 1 := fun f => Fin.sum_univ_two (f : Fin 2 → ℝ)
  have hp : predMean tr (Normal.const ![1 / 2, 1 / 4]) 0 = 5 / 8 ∧ predMean tr (Normal.const ![1 / 2, 1 / 4]) 1 = 1 / 4 := by
    have a0 : (Normal.const (n := 1 * (1 + 1)) ![1 / 2, 1 / 4]).mean 0 = 1 / 2 := rfl
    have a1 : (Normal.const (n := 1 * (1 + 1)) ![1 / 2, 1 / 4]).mean 1 = 1 / 4 := rfl
    constructor
    · rw [predMean, h1m, add_zero, Matrix.mulVec, dotProduct, sum2, m00, m01, a0, a1]; norm_num
    · rw [predMean, h1m, add_zero, Matrix.mulVec, dotProduct, sum2, m10, m11, a0, a1]; norm_num
  have hc0 : ∀ y : Fin (1 * (1 + 1)) → ℝ, (proj 1 1 0 *ᵥ y) 0 = y 0 := fun y => by
    rw [proj_mulVec y (Nat.zero_le 1)]; rfl
  have hc1 : ∀ y : Fin (1 * (1 + 1)) → ℝ, (proj 1 1 1 *ᵥ y) 0 = y 1 := fun y => by
    rw [proj_mulVec y (le_refl 1)]; rfl
  have hv0 : v 0 = 15 / 64 := by
    have : (fun i => (proj 1 1 0 *ᵥ predMean tr (Normal.const ![1 / 2, 1 / 4])) i *
        (1 - (proj 1 1 0 *ᵥ predMean tr (Normal.const ![1 / 2, 1 / 4])) i)) = v := by
      simpa [logisticOde] using hv
    rw [← this]
    simp only [hc0, hp.1]; norm_num
  have hz0 : predRes tr lin (Normal.const ![1 / 2, 1 / 4]) 0 = 1 / 64 := by
    rw [predRes, hz, Pi.sub_apply, hc1, hp.2, hv0]; norm_num
  have hC : estCov (.constant .init) tr lin (Normal.const ![1 / 2, 1 / 4]) 0 0 = 1 / 2 := by
    have hf : estCov (.constant .init) tr lin (Normal.const ![1 / 2, 1 / 4])
        = fullCov tr lin (Normal.const ![1 / 2, 1 / 4]) := rfl
    have h0 : (Normal.const (n := 1 * (1 + 1)) ![1 / 2, 1 / 4]).cov = 0 := rfl
    rw [hf, fullCov, h0, Matrix.mul_zero, Matrix.zero_mul, zero_add, hH]
    have hl : ∀ j, proj 1 1 1 0 j = if j = 1 then 1 else 0 := by
      intro j
      have := hc1 (Pi.single j 1)
      rw [Matrix.mulVec_single_one] at this
      refine this.trans ?_
      rw [Pi.single_apply]
      simp only [eq_comm]
    have l0 : proj 1 1 1 0 0 = 0 := (hl 0).trans (if_neg (by decide))
    have l1 : proj 1 1 1 0 1 = 1 := (hl 1).trans (if_pos rfl)
    rw [Matrix.mul_apply, sum2, Matrix.transpose_apply, Matrix.transpose_apply, l0, l1,
      mul_zero, mul_one, zero_add, Matrix.mul_apply, sum2, l0, l1, q11]
    norm_num
  have hCi : (estCov (.constant .init) tr lin (Normal.const ![1 / 2, 1 / 4]))⁻¹ 0 0 = 2 := by
    generalize estCov (.constant .init) tr lin (Normal.const ![1 / 2, 1 / 4]) = C at hC
    rw [Matrix.inv_def, Matrix.det_unique, Matrix.adjugate_subsingleton]
    simp [hC]
  have hest' : est = 1 / 2048 := by
    rw [hest]
    simp only [dotProduct, Matrix.mulVec, Finset.univ_unique, Fin.default_eq_zero, Finset.sum_singleton, hCi]
    have : (predRes tr lin (Normal.const ![1 / 2, 1 / 4]) : Fin 1 → ℝ) 0 = 1 / 64 := hz0
    simp only [this]
    norm_num
  refine ⟨⟨.ek0, logisticOde, acceptAll 1, chol, qr, 0⟩,
    ⟨o.t, x, o.diffusion, [0] ++ [o.t], [Normal.const ![1 / 2, 1 / 4]] ++ [x]⟩, ?_⟩
  have hmany : Run.many ⟨.ek0, logisticOde, acceptAll 1, chol, qr, 0⟩
      (Run.start 0 (Normal.const ![1 / 2, 1 / 4]) (.constant .init)) [1 / 2]
      = .ok ⟨o.t, x, o.diffusion, [0] ++ [o.t], [Normal.const ![1 / 2, 1 / 4]] ++ [x]⟩ := by
    simp only [Run.many, Run.next, Run.start, ho, Except.map, hx, Except.bind]
  obtain ⟨s, hs, hdis⟩ := smoothing_disagrees_at_the_end one_pos one_pos
    (S := ⟨.ek0, logisticOde, acceptAll 1, chol, qr, 0⟩) hfree (Normal.const_valid _) hmany (by simp)
  have hs' : s = 1 / 2048 := by
    rw [hd, hest'] at hs
    simpa [Diff.update, ConstantDiffusion.update, ConstantDiffusion.init, Diff.postFactor] using hs.symm
  obtain ⟨states, last, smoothed, a, b, c, e⟩ := hdis (by rw [hs']; norm_num)
  exact ⟨states, last, smoothed, hfree, hmany, a, b, c, e⟩

end Probnum.OdeFilter
