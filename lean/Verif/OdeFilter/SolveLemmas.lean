import Verif.Ode.Terminate
import Verif.OdeFilter.PropsFit
import Verif.OdeFilter.PropsRun
import Verif.OdeFilter.Solve

/-!
# Lemmas on the solver loop of `probsolve_ivp`
-/

namespace Probnum.OdeFilter

open Matrix LinGauss IWP Kalman

variable {d q : ℕ}

/-- The time of the proposal, whether there is a state, and that a rejected attempt does not touch the diffusion. -/
theorem attempt_outcome {S : Solver d q} {D : Diff} {t dt : ℝ} {rv : Normal (d * (q + 1))} {o : Outcome d q}
    (h : attempt S D t rv dt = .ok o) :
    o.t = t + dt ∧ o.rv.isSome = S.rule.accepted (S.rule.norm o.errors o.reference) ∧
      (o.rv = none → o.diffusion = D) := by
  unfold attempt at h
  cases htr : discretise q d S.chol dt with
  | none => rw [htr] at h; cases h
  | some tr =>
    rw [htr] at h
    simp only at h
    obtain ⟨pf, -, h⟩ := bind_ok h
    obtain ⟨lin, -, h⟩ := bind_ok h
    obtain ⟨mf, -, h⟩ := bind_ok h
    obtain ⟨full, -, h⟩ := bind_ok h
    obtain ⟨est, -, h⟩ := bind_ok h
    split at h
    · rename_i hacc
      obtain ⟨predL, -, h⟩ := bind_ok h
      obtain ⟨measL, -, h⟩ := bind_ok h
      obtain ⟨x, -, h⟩ := map_ok h
      subst h
      refine ⟨rfl, ?_, fun h => by cases h⟩
      simp only [Option.isSome_some]
      exact hacc.symm
    · rename_i hacc
      have := Except.ok.inj h
      subst this
      refine ⟨rfl, ?_, fun _ => rfl⟩
      simp only [Option.isSome_none]
      exact (Bool.eq_false_iff.2 hacc).symm

theorem loopAttempt_time (S : Solver d q) (s : LoopState d q) (dt : ℝ) : (loopAttempt S s dt).t = s.t + dt := by
  unfold loopAttempt
  cases h : attempt S s.diffusion s.t s.rv dt with
  | error e => rfl
  | ok o => exact (attempt_outcome h).1

/-- A positive constant step, or the adaptive rule. -/
def StepRule.Positive : StepRule → Prop
  | .adaptive _ _ _ => True
  | .constant h => 0 < h

theorem suggest_pos {rule : StepRule} (hp : rule.Positive) : ∃ m, 0 < m ∧ ∀ (order : ℕ) (dt n h : ℝ),
    rule.suggest order dt n = .ok h → m ≤ h := by
  cases rule with
  | adaptive f a r =>
    refine ⟨_, Ode.AdaptiveSteps.default_sane.minstep_pos, fun order dt n h hh => ?_⟩
    exact ((Ode.AdaptiveSteps.suggest_ok_iff _ _ _ _ _).1 hh).2.1
  | constant s =>
    refine ⟨s, hp, fun order dt n h hh => ?_⟩
    have := Except.ok.inj hh
    exact this.le

theorem loop_timeKeeping (S : Solver d q) {rule : StepRule} (hp : rule.Positive) (first t0 tmax : ℝ)
    (rv0 : Normal (d * (q + 1))) (D : Diff) : Ode.TimeKeeping (loopEnv S rule first t0 tmax rv0 D) := by
  refine ⟨fun _ s dt => loopAttempt_time S s dt, fun cb h => absurd h (List.not_mem_nil), fun dt n h _ hh => ?_⟩
  obtain ⟨m, hm, hs⟩ := suggest_pos hp
  obtain ⟨x, -, hx⟩ := bind_ok hh
  exact hm.trans_le (hs q dt x h hx)

/-- The adaptive rule as an environment of the loop model, to reuse the results on it. -/
private noncomputable def ruleEnv (order : ℕ) : Ode.Env ℝ ℝ ℝ where
  time := id
  tmax := 0
  start := 0
  attempt _ s _ := s
  norm := id
  accepted := Ode.AdaptiveSteps.isAccepted
  suggest dt n := Ode.AdaptiveSteps.default.suggest dt n (order + 1)
  firststep := 0
  callbacks := []

theorem rejected_shrinks {rule : StepRule} (order : ℕ) (dt n h : ℝ) (hacc : (rule.rule d).accepted n = false)
    (hs : rule.suggest order dt n = .ok h) : h ≤ dt ∧ (0 < dt → h ≤ 0.95 * dt) := by
  cases rule with
  | constant s => cases hacc
  | adaptive f a r =>
    have hu : Ode.UsesAdaptive (ruleEnv order) Ode.AdaptiveSteps.default order := ⟨fun _ _ => rfl, fun _ => rfl⟩
    have e1 : Ode.AdaptiveSteps.default.safetyscale < 1 := by norm_num [Ode.AdaptiveSteps.default]
    have e2 : Ode.AdaptiveSteps.default.small < 1 := by norm_num [Ode.AdaptiveSteps.default]
    have e3 : Ode.AdaptiveSteps.default.safetyscale ≤ Ode.AdaptiveSteps.default.large := by
      norm_num [Ode.AdaptiveSteps.default]
    refine ⟨Ode.adaptive_rejectShrinks (ruleEnv order) _ order Ode.AdaptiveSteps.default_sane hu e1 e2 e3 dt n h hacc hs,
      fun hdt => ?_⟩
    have := (Ode.AdaptiveSteps.suggest_shrinks_on_rejection _ Ode.AdaptiveSteps.default_sane dt n (order + 1) hdt hacc e1
      e2 e3 h hs).1
    have e4 : max Ode.AdaptiveSteps.default.small Ode.AdaptiveSteps.default.safetyscale = 0.95 := by
      norm_num [Ode.AdaptiveSteps.default]
    rwa [e4] at this

theorem loop_rejectShrinks (E : Numerics d q) (o : Ode d) (st : Strategy) (rule : StepRule) (first t0 tmax : ℝ)
    (rv0 : Normal (d * (q + 1))) (D : Diff) :
    Ode.RejectShrinks (loopEnv (makeSolver E o st rule) rule first t0 tmax rv0 D) := by
  intro dt n h hacc hs
  obtain ⟨x, rfl, hx⟩ := bind_ok hs
  exact (rejected_shrinks q dt x h hacc hx).1

/-! ## The loop performs the attempts of `Run.many` -/

theorem many_append (S : Solver d q) : ∀ (dts : List ℝ) (r : Run d q) (dt : ℝ),
    Run.many S r (dts ++ [dt]) = (Run.many S r dts).bind fun r' => r'.next S dt
  | [], r, dt => by
    simp only [List.nil_append, Run.many, Except.bind]
    cases r.next S dt <;> rfl
  | a :: dts, r, dt => by
    simp only [List.cons_append, Run.many]
    cases h : r.next S a with
    | error e => rfl
    | ok r' => exact many_append S dts r' dt

/-- The reported states are those of a sequence of attempts. -/
def Follows (S : Solver d q) (t0 : ℝ) (rv0 : Normal (d * (q + 1))) (D : Diff) (c : Ode.Config (LoopState d q) ℝ) : Prop :=
  ∃ dts, Run.many S (Run.start t0 rv0 D) dts = .ok (loopRun c)

theorem tryStep_follows {S : Solver d q} {rule : StepRule} {first t0 tmax : ℝ} {rv0 : Normal (d * (q + 1))} {D : Diff}
    {c : Ode.Config (LoopState d q) ℝ} (h : Follows S t0 rv0 D c)
    (hnf : ∀ e, (Ode.tryStep (loopEnv S rule first t0 tmax rv0 D) c).status ≠ .failed e) :
    Follows S t0 rv0 D (Ode.tryStep (loopEnv S rule first t0 tmax rv0 D) c) := by
  obtain ⟨dts, hd⟩ := h
  set env := loopEnv S rule first t0 tmax rv0 D with henv
  cases hatt : attempt S c.state.diffusion c.state.t c.state.rv c.dt with
  | error e =>
    exfalso
    refine hnf e ?_
    have hn : env.norm (env.attempt c.attempts c.state c.dt) = .error e := by
      show (loopAttempt S c.state c.dt).norm = _
      simp [loopAttempt, hatt]
    have hs : env.suggest c.dt (.error e) = .error e := rfl
    unfold Ode.tryStep
    simp only [hn, hs]
  | ok o =>
    obtain ⟨ht, hsome, hrej⟩ := attempt_outcome hatt
    have hla : env.attempt c.attempts c.state c.dt
        = ⟨o.t, o.rv.getD c.state.rv, o.diffusion, .ok (S.rule.norm o.errors o.reference)⟩ := by
      show loopAttempt S c.state c.dt = _
      simp [loopAttempt, hatt]
    have hn : env.norm ⟨o.t, o.rv.getD c.state.rv, o.diffusion, .ok (S.rule.norm o.errors o.reference)⟩
        = .ok (S.rule.norm o.errors o.reference) := rfl
    have hac : env.accepted (.ok (S.rule.norm o.errors o.reference)) = S.rule.accepted (S.rule.norm o.errors o.reference) := rfl
    have hsg : env.suggest c.dt (.ok (S.rule.norm o.errors o.reference))
        = rule.suggest q c.dt (S.rule.norm o.errors o.reference) := rfl
    cases hs : rule.suggest q c.dt (S.rule.norm o.errors o.reference) with
    | error e =>
      refine absurd ?_ (hnf e)
      unfold Ode.tryStep
      simp only [hla, hn, hsg, hs]
    | ok s =>
      have hnext : (loopRun c).next S c.dt = .ok (match o.rv with
          | some rv => ⟨o.t, rv, o.diffusion, (loopRun c).times ++ [o.t], (loopRun c).rvs ++ [rv]⟩
          | none => { loopRun c with diffusion := o.diffusion }) := by
        simp only [Run.next, loopRun, hatt, Except.map]
        cases o.rv <;> rfl
      by_cases hacc : S.rule.accepted (S.rule.norm o.errors o.reference) = true
      · unfold Ode.tryStep
        simp only [hla, hn, hsg, hs, hac, hacc, if_true]
        rw [hacc] at hsome
        obtain ⟨x, hx⟩ := Option.isSome_iff_exists.1 hsome
        refine ⟨dts ++ [c.dt], ?_⟩
        rw [many_append, hd]
        simp only [Except.bind]
        rw [hnext, hx]
        simp [loopRun, Ode.applyCallbacks, henv, loopEnv]
      · have hacc' : S.rule.accepted (S.rule.norm o.errors o.reference) = false := by simpa using hacc
        unfold Ode.tryStep
        simp only [hla, hn, hsg, hs, hac, hacc', Bool.false_eq_true, if_false]
        rw [hacc'] at hsome
        refine ⟨dts ++ [c.dt], ?_⟩
        have hx : o.rv = none := by simpa using hsome
        rw [many_append, hd]
        simp only [Except.bind]
        rw [hnext, hx]
        simp [loopRun, hrej hx]

theorem run_follows (S : Solver d q) (rule : StepRule) (first t0 tmax : ℝ) (rv0 : Normal (d * (q + 1))) (D : Diff)
    (stops : Option (List ℝ)) (n : ℕ)
    (hnf : ∀ e, (Ode.run (loopEnv S rule first t0 tmax rv0 D) stops n).status ≠ .failed e) :
    Follows S t0 rv0 D (Ode.run (loopEnv S rule first t0 tmax rv0 D) stops n) := by
  induction n with
  | zero =>
    refine ⟨[], ?_⟩
    have hs : stops ≠ some [] := by
      rintro rfl
      exact hnf .runtimeError rfl
    cases stops with
    | none => rfl
    | some l =>
      cases l with
      | nil => exact absurd rfl hs
      | cons x xs => rfl
  | succ n ih =>
    rw [Ode.run_succ] at hnf ⊢
    set c := Ode.run (loopEnv S rule first t0 tmax rv0 D) stops n with hc
    have hnf' : ∀ e, c.status ≠ .failed e := by
      intro e he
      refine hnf e ?_
      unfold Ode.step
      rw [he]
      exact he
    have hF := ih hnf'
    unfold Ode.step at hnf ⊢
    split
    · exact hF
    · exact hF
    · rename_i hs
      rw [hs] at hnf
      exact tryStep_follows hF hnf
    · rename_i hs
      rw [hs] at hnf
      simp only at hnf
      split
      · rename_i hlt
        rw [if_pos hlt] at hnf
        cases hst : c.stopper with
        | none =>
          rw [hst] at hnf
          exact tryStep_follows hF hnf
        | some st =>
          rw [hst] at hnf
          exact tryStep_follows (c := { c with
            dt := (Ode.adjustTimeStep st ((loopEnv S rule first t0 tmax rv0 D).time c.state) c.dt).1,
            stopper := some (Ode.adjustTimeStep st ((loopEnv S rule first t0 tmax rv0 D).time c.state) c.dt).2 }) hF hnf
      · exact hF

/-- A stopped machine stays as it is. -/
theorem run_final {σ N : Type} (env : Ode.Env σ ℝ N) (stops : Option (List ℝ)) {n m : ℕ} (h : n ≤ m)
    (hf : (Ode.run env stops n).status = .done ∨ ∃ e, (Ode.run env stops n).status = .failed e) :
    Ode.run env stops m = Ode.run env stops n := by
  induction h with
  | refl => rfl
  | step _ ih =>
    rw [Ode.run_succ, ih]
    unfold Ode.step
    rcases hf with hf | ⟨e, hf⟩ <;> rw [hf]

/-! ## Which exceptions can occur in the loop -/

/-- Induction over the states of a run: all attempted step sizes are positive. -/
theorem run_induct {σ N : Type} (env : Ode.Env σ ℝ N) (stops : Option (List ℝ)) (htk : Ode.TimeKeeping env)
    (h0 : 0 < env.firststep) (h1 : env.time env.start + env.firststep ≤ env.tmax) (hst : Ode.AdmissibleStops env stops)
    (J : σ → Prop) (Err : PyErr → Prop) (hJ : J env.start)
    (hstep : ∀ c : Ode.Config σ ℝ, J c.state → 0 < c.dt →
      J (Ode.tryStep env c).state ∧ ∀ e, (Ode.tryStep env c).status = .failed e → Err e) (n : ℕ) :
    J (Ode.run env stops n).state ∧ ∀ e, (Ode.run env stops n).status = .failed e → Err e := by
  induction n with
  | zero =>
    have hne : stops ≠ some [] := by
      rcases hst with rfl | ⟨s, rfl, h, -⟩
      · simp
      · simpa using h
    cases stops with
    | none => exact ⟨hJ, fun e h => by cases h⟩
    | some l =>
      cases l with
      | nil => exact absurd rfl hne
      | cons x xs => exact ⟨hJ, fun e h => by cases h⟩
  | succ n ih =>
    obtain ⟨ih1, ih2⟩ := ih
    rw [Ode.run_succ]
    have hinv := Ode.run_inv env stops htk h0 h1 hst n
    set c := Ode.run env stops n with hc
    unfold Ode.step
    split
    · rename_i hs; exact ⟨ih1, fun e he => by rw [hs] at he; cases he⟩
    · rename_i e' hs; exact ⟨ih1, ih2⟩
    · rename_i hs
      rcases hinv with hinv | ⟨-, e, he⟩
      · exact hstep c ih1 (hinv.dt_pos (hinv.retry hs))
      · rw [hs] at he; cases he
    · rename_i hs
      rcases hinv with hinv | ⟨-, e, he⟩
      · split
        · rename_i hlt
          cases hsp : c.stopper with
          | none => exact hstep c ih1 (hinv.dt_pos hlt)
          | some st =>
            have hS := hinv.stop st hsp
            have ha := Ode.adjust_spec st (env.time c.state) c.dt (hinv.dt_pos hlt) hS.chain hS.rest hS.none
            exact hstep { c with
              dt := (Ode.adjustTimeStep st (env.time c.state) c.dt).1,
              stopper := some (Ode.adjustTimeStep st (env.time c.state) c.dt).2 } ih1 ha.1
        · exact ⟨ih1, fun e he => by cases he⟩
      · rw [hs] at he; cases he

/-- The diffusion model fits a state reached from `t0`. -/
def DiffOk (t0 t : ℝ) : Diff → Prop
  | .constant C => C.diffusion.isSome = true ∨ t = t0
  | .piecewise P => P.tmax ≤ t

/-- An attempt from a good state: an outcome, again good if accepted, or (piecewise constant diffusion only)
LinAlgError. -/
theorem attempt_good (hq : 0 < q) {S : Solver d q} {D : Diff} {t0 t : ℝ} {rv : Normal (d * (q + 1))} {dt : ℝ}
    (hrv : rv.Valid) (hdt : 0 < dt) (hfree : S.ode.TimeFree) (hev : Evaluates S (t + dt)) (hD : DiffOk t0 t D) :
    (∃ o, attempt S D t rv dt = .ok o ∧
      ∀ r, o.rv = some r → r.Valid ∧ DiffOk t0 (t + dt) o.diffusion ∧ o.diffusion.perStep = D.perStep) ∨
    (attempt S D t rv dt = .error .linAlgError ∧ D.perStep = true) := by
  have hgood : ∀ o, attempt S D t rv dt = .ok o →
      ∀ r, o.rv = some r → r.Valid ∧ DiffOk t0 (t + dt) o.diffusion ∧ o.diffusion.perStep = D.perStep := by
    intro o ho r hr
    obtain ⟨tr, lin, est, predL, u, -, -, -, -, hd, -, -, -, -, -, hv⟩ := accepted_ok hrv hfree ho hr
    refine ⟨hv, ?_, ?_⟩
    · rw [hd]
      cases D with
      | constant C =>
        left
        simp only [Diffusion.ConstantDiffusion.update]
        cases C.diffusion <;> rfl
      | piecewise P =>
        show (P.update est t).tmax ≤ t + dt
        have : (P.update est t).tmax = t := by
          simp [Diffusion.PiecewiseDiffusion.tmax, Diffusion.PiecewiseDiffusion.locations, Diffusion.PiecewiseDiffusion.update]
        rw [this]
        linarith
    · rw [hd]; cases D <;> rfl
  cases hp : D with
  | constant C =>
    left
    subst hp
    obtain ⟨o, ho, -⟩ := step_succeeds_partial hq (D := .constant C) hrv hdt.ne' hfree hev trivial
    exact ⟨o, ho, hgood o ho⟩
  | piecewise P =>
    have hD' : P.tmax ≤ t := by subst hp; exact hD
    obtain ⟨tr, lin, pL, mL, full, est, htr, hlin, h1, h2, h3, hest, hpos, hC, h4⟩ := attempt_decided hq
      (D := .piecewise P) hrv hdt.ne' hev (by show P.tmax ≤ t + dt; linarith)
    obtain ⟨-, b, hn⟩ := linearized_residual hlin
    rw [← hp] at h4 ⊢
    obtain ⟨predL, measL, e1, e2, f1, f2⟩ := final_factors S D.perStep hpos (s := stepDiffusion D est) rfl hrv h1 h2 h3
    have hm : measL * measLᵀ = lin.mat * (predL * predLᵀ) * lin.matᵀ := by rw [f2.gram, f1.gram]
    obtain ⟨c1, c2⟩ := correct_ok S hn (by rw [linearized_free hfree (t + dt)]; exact hlin) hm
    simp only at h4
    split at h4
    · rw [e1, e2] at h4
      simp only [Except.bind] at h4
      by_cases hdet : (lin.mat * (predL * predLᵀ) * lin.matᵀ).det = 0
      · right
        rw [c1 hdet] at h4
        exact ⟨h4, by rw [hp]; rfl⟩
      · left
        obtain ⟨r, u, g1, -⟩ := c2 hdet
        rw [g1] at h4
        exact ⟨_, h4, hgood _ h4⟩
    · exact Or.inl ⟨_, h4, hgood _ h4⟩

theorem suggest_error {rule : StepRule} {order : ℕ} {dt n : ℝ} {e : PyErr} (h : rule.suggest order dt n = .error e) :
    e = .runtimeError ∧ ∃ f a r, rule = .adaptive f a r := by
  cases rule with
  | constant s => cases h
  | adaptive f a r =>
    refine ⟨?_, f, a, r, rfl⟩
    simp only [StepRule.suggest, Ode.AdaptiveSteps.suggest] at h
    split at h
    · cases h; rfl
    · split at h
      · cases h; rfl
      · cases h

/-- One attempt of the loop from a good state. -/
theorem tryStep_good (hq : 0 < q) {S : Solver d q} {rule : StepRule} {first t0 tmax : ℝ} {rv0 : Normal (d * (q + 1))}
    {D : Diff} (hfree : S.ode.TimeFree) (hev : ∀ t, Evaluates S t) (c : Ode.Config (LoopState d q) ℝ)
    (hJ : c.state.rv.Valid ∧ DiffOk t0 c.state.t c.state.diffusion ∧ c.state.diffusion.perStep = D.perStep)
    (hdt : 0 < c.dt) :
    let c' := Ode.tryStep (loopEnv S rule first t0 tmax rv0 D) c
    (c'.state.rv.Valid ∧ DiffOk t0 c'.state.t c'.state.diffusion ∧ c'.state.diffusion.perStep = D.perStep) ∧
      ∀ e, c'.status = .failed e →
        (e = .runtimeError ∧ ∃ f a r, rule = .adaptive f a r) ∨ (e = .linAlgError ∧ D.perStep = true) := by
  obtain ⟨hv, hd, hp⟩ := hJ
  intro c'
  set env := loopEnv S rule first t0 tmax rv0 D with henv
  rcases attempt_good hq hv hdt hfree (hev _) hd with ⟨o, hatt, hgood⟩ | ⟨hatt, hps⟩
  · obtain ⟨ht, hsome, hrej⟩ := attempt_outcome hatt
    have hla : env.attempt c.attempts c.state c.dt
        = ⟨o.t, o.rv.getD c.state.rv, o.diffusion, .ok (S.rule.norm o.errors o.reference)⟩ := by
      show loopAttempt S c.state c.dt = _
      simp [loopAttempt, hatt]
    have hn : env.norm ⟨o.t, o.rv.getD c.state.rv, o.diffusion, .ok (S.rule.norm o.errors o.reference)⟩
        = .ok (S.rule.norm o.errors o.reference) := rfl
    have hac : env.accepted (.ok (S.rule.norm o.errors o.reference)) = S.rule.accepted (S.rule.norm o.errors o.reference) := rfl
    have hsg : env.suggest c.dt (.ok (S.rule.norm o.errors o.reference))
        = rule.suggest q c.dt (S.rule.norm o.errors o.reference) := rfl
    have hcb : env.callbacks = [] := rfl
    cases hs : rule.suggest q c.dt (S.rule.norm o.errors o.reference) with
    | error e =>
      have hc' : c'.state = c.state ∧ c'.status = .failed e := by
        show (Ode.tryStep env c).state = c.state ∧ (Ode.tryStep env c).status = .failed e
        unfold Ode.tryStep
        simp only [hla, hn, hsg, hs, and_self]
      rw [hc'.1, hc'.2]
      refine ⟨⟨hv, hd, hp⟩, fun e' he' => ?_⟩
      cases he'
      exact Or.inl (suggest_error hs)
    | ok s =>
      by_cases hacc : S.rule.accepted (S.rule.norm o.errors o.reference) = true
      · rw [hacc] at hsome
        obtain ⟨x, hx⟩ := Option.isSome_iff_exists.1 hsome
        obtain ⟨g1, g2, g3⟩ := hgood x hx
        have hc' : c'.state = ⟨o.t, x, o.diffusion, .ok (S.rule.norm o.errors o.reference)⟩ ∧ c'.status = .fresh := by
          show (Ode.tryStep env c).state = _ ∧ (Ode.tryStep env c).status = _
          unfold Ode.tryStep
          simp only [hla, hn, hsg, hs, hac, hacc, if_true, hcb]
          refine ⟨?_, trivial⟩
          rw [hx]
          rfl
        rw [hc'.1, hc'.2]
        exact ⟨⟨g1, by rw [ht]; exact g2, by rw [g3, hp]⟩, fun e he => by cases he⟩
      · have hacc' : S.rule.accepted (S.rule.norm o.errors o.reference) = false := by simpa using hacc
        have hc' : c'.state = c.state ∧ c'.status = .retry := by
          show (Ode.tryStep env c).state = _ ∧ (Ode.tryStep env c).status = _
          unfold Ode.tryStep
          simp only [hla, hn, hsg, hs, hac, hacc', Bool.false_eq_true, if_false, and_self]
        rw [hc'.1, hc'.2]
        exact ⟨⟨hv, hd, hp⟩, fun e he => by cases he⟩
  · have hn : env.norm (env.attempt c.attempts c.state c.dt) = .error .linAlgError := by
      show (loopAttempt S c.state c.dt).norm = _
      simp [loopAttempt, hatt]
    have hs : env.suggest c.dt (.error .linAlgError) = .error .linAlgError := rfl
    have hc' : c'.state = c.state ∧ c'.status = .failed .linAlgError := by
      show (Ode.tryStep env c).state = c.state ∧ (Ode.tryStep env c).status = _
      unfold Ode.tryStep
      simp only [hn, hs, and_self]
    rw [hc'.1, hc'.2]
    refine ⟨⟨hv, hd, hp⟩, fun e he => ?_⟩
    cases he
    exact Or.inr ⟨rfl, by rw [← hp]; exact hps⟩

end Probnum.OdeFilter
