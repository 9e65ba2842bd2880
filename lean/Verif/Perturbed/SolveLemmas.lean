import Verif.Ode.Terminate
import Verif.OdeFilter.SolveLemmas
import Verif.OdeFilter.PropsSolve
import Verif.Perturbed.Props
import Verif.Perturbed.Solve

/-!
# Lemmas on the solver loop of `perturbsolve_ivp`
-/

namespace Probnum.Perturbed

open OdeFilter (FirstStep InitialValue StepRule norm2 firstStepRatio effectiveFirst bind_ok map_ok StopsFine)

variable {d : ℕ} {K : Type}

/-! ## One attempt -/

/-- What one attempt computes. -/
theorem step_accepted (rk : Rk (Fin d → ℝ) K) (perturb : ℝ → ℝ → Res ℝ) (s : State (Fin d → ℝ) K) (dt draw : ℝ) :
    (∀ e, perturb dt draw = .error e → step rk perturb s ⟨dt, draw, true⟩ = .error e ∧
      step rk perturb s ⟨dt, draw, false⟩ = .error e) ∧
    ∀ noisy, perturb dt draw = .ok noisy → ∃ s', step rk perturb s ⟨dt, draw, true⟩ = .ok s' ∧
      step rk perturb s ⟨dt, draw, false⟩ = .ok { s with slope := s'.slope, last := s'.last, scales := s'.scales } ∧
      s'.t = s.t + dt ∧ s'.y = rk.stepY s.t s.y s.slope noisy ∧ s'.locs = s.locs ++ [s.t + dt] ∧
      s'.states = s.states ++ [s'.y] ∧
      s'.last = some ⟨s.t, s.t + noisy, s.y, rk.stages s.t s.y s.slope noisy⟩ := by
  constructor
  · intro e he
    simp only [step, attempt, he, and_self]
  · intro noisy hn
    simp only [step, attempt, hn, methodCallback, if_true, Bool.false_eq_true, if_false]
    exact ⟨_, rfl, rfl, rfl, rfl, rfl, rfl, rfl⟩

theorem withAttributes_pub (log : List (Ode.Attempt (LoopState d K) ℝ)) (s : State (Fin d → ℝ) K) :
    (withAttributes log s).t = s.t ∧ (withAttributes log s).y = s.y ∧ (withAttributes log s).locs = s.locs ∧
      (withAttributes log s).states = s.states ∧ (withAttributes log s).interps = s.interps := by
  unfold withAttributes
  cases log.getLast? <;> simp

theorem withAttributes_append (log : List (Ode.Attempt (LoopState d K) ℝ)) (a : Ode.Attempt (LoopState d K) ℝ)
    (s : State (Fin d → ℝ) K) : withAttributes (log ++ [a]) s =
      { s with slope := a.proposed.pub.slope, last := a.proposed.pub.last, scales := a.proposed.pub.scales } := by
  simp [withAttributes]

theorem loopAttempt_time (F : Formula d K) (f : ℝ → (Fin d → ℝ) → Fin d → ℝ) (perturb : ℝ → ℝ → Res ℝ)
    (rule : StepRule) (draws : ℕ → ℝ) (c : Ode.Config (LoopState d K) ℝ) (s : LoopState d K) (dt : ℝ) :
    (loopAttempt F f perturb rule draws c s dt).pub.t = s.pub.t + dt := by
  obtain ⟨h1, h2⟩ := step_accepted (F.rk f) perturb (withAttributes c.log s.pub) dt (draws c.attempts)
  unfold loopAttempt
  cases hp : perturb dt (draws c.attempts) with
  | error e => rw [(h1 e hp).1]
  | ok noisy =>
    obtain ⟨s', e1, -, e3, -, -, -, e7⟩ := h2 noisy hp
    rw [e1]
    simp only [e7]
    rw [e3, (withAttributes_pub c.log s.pub).1]

/-! ## The step rule -/

theorem ruleSuggest_pos {rule : StepRule} (hp : rule.Positive) : ∃ m, 0 < m ∧ ∀ (order : ℕ) (dt : ℝ) (n : FirstStep) (h : ℝ),
    ruleSuggest order rule dt n = .ok h → m ≤ h := by
  obtain ⟨m, hm, hs⟩ := OdeFilter.suggest_pos hp
  cases rule with
  | constant s =>
    exact ⟨m, hm, fun order dt n h hh => hs order dt 0 h hh⟩
  | adaptive f a r =>
    refine ⟨min m Ode.AdaptiveSteps.default.minstep, lt_min hm Ode.AdaptiveSteps.default_sane.minstep_pos,
      fun order dt n h hh => ?_⟩
    cases n with
    | finite x => exact (min_le_left _ _).trans (hs order dt x h hh)
    | nan => cases hh
    | inf =>
      simp only [ruleSuggest] at hh
      split at hh
      · cases hh
      · rename_i h1
        split at hh
        · cases hh
        · obtain rfl := Except.ok.inj hh
          exact (min_le_right _ _).trans (not_lt.1 h1)

theorem ruleSuggest_rejected {rule : StepRule} (order : ℕ) (dt : ℝ) (n : FirstStep) (h : ℝ) (hdt : 0 < dt)
    (hacc : ruleAccepted rule n = false) (hs : ruleSuggest order rule dt n = .ok h) : h ≤ 0.95 * dt := by
  cases rule with
  | constant s => cases hacc
  | adaptive f a r =>
    cases n with
    | finite x =>
      exact (OdeFilter.rejected_shrinks (d := 0) (rule := .adaptive f a r) order dt x h hacc hs).2 hdt
    | nan => cases hs
    | inf =>
      simp only [ruleSuggest] at hs
      split at hs
      · cases hs
      · split at hs
        · cases hs
        · obtain rfl := Except.ok.inj hs
          have : Ode.AdaptiveSteps.default.small = 0.2 := rfl
          rw [this]
          nlinarith

theorem ruleSuggest_rejected' {rule : StepRule} (order : ℕ) (dt : ℝ) (n : FirstStep) (h : ℝ)
    (hacc : ruleAccepted rule n = false) (hs : ruleSuggest order rule dt n = .ok h) : h ≤ dt := by
  cases rule with
  | constant s => cases hacc
  | adaptive f a r =>
    cases n with
    | finite x =>
      exact (OdeFilter.rejected_shrinks (d := 0) (rule := .adaptive f a r) order dt x h hacc hs).1
    | nan => cases hs
    | inf =>
      obtain ⟨m, hm, hpos⟩ := ruleSuggest_pos (rule := .adaptive f a r) trivial
      have h0 : 0 < h := hm.trans_le (hpos order dt .inf h hs)
      simp only [ruleSuggest] at hs
      split at hs
      · cases hs
      · split at hs
        · cases hs
        · obtain rfl := Except.ok.inj hs
          have : Ode.AdaptiveSteps.default.small = 0.2 := rfl
          rw [this] at h0 ⊢
          nlinarith

/-- The exceptions of the step rule. -/
theorem ruleSuggest_error {rule : StepRule} {order : ℕ} {dt : ℝ} {n : FirstStep} {e : PyErr}
    (h : ruleSuggest order rule dt n = .error e) :
    (∃ f a r, rule = .adaptive f a r) ∧ ((e = .runtimeError ∧ n ≠ .nan) ∨ (e = .valueError ∧ n = .nan)) := by
  cases rule with
  | constant s => cases h
  | adaptive f a r =>
    refine ⟨⟨f, a, r, rfl⟩, ?_⟩
    cases n with
    | finite x =>
      exact Or.inl ⟨(OdeFilter.suggest_error (rule := .adaptive f a r) h).1, by simp⟩
    | nan => cases h; exact Or.inr ⟨rfl, rfl⟩
    | inf =>
      left
      refine ⟨?_, by simp⟩
      simp only [ruleSuggest] at h
      split at h
      · cases h; rfl
      · split at h
        · cases h; rfl
        · cases h

/-! ## The loop -/

section
variable (F : Formula d K) (f : ℝ → (Fin d → ℝ) → Fin d → ℝ) (m : Method) (perturb : ℝ → ℝ → Res ℝ) (rule : StepRule)
  (first t0 tmax : ℝ) (y0 : Fin d → ℝ) (draws : ℕ → ℝ) (stops : Option (List ℝ))

/-- The environment of the loop, with the attempts made in the run. -/
noncomputable def fullEnv : Ode.Env (LoopState d K) ℝ (Res FirstStep) :=
  Ode.attrEnv (loopEnv m.order rule first tmax (init (F.rk f) t0 y0)) (loopAttempt F f perturb rule draws) stops

theorem loop_eq_run (n : ℕ) : loop F f m perturb rule first t0 tmax y0 draws stops n
    = Ode.run (fullEnv F f m perturb rule first t0 tmax y0 draws stops) stops n :=
  Ode.runAttr_eq_run _ _ _ _

theorem loop_timeKeeping (hp : rule.Positive) :
    Ode.TimeKeeping (fullEnv F f m perturb rule first t0 tmax y0 draws stops) := by
  refine ⟨fun _ s dt => loopAttempt_time F f perturb rule draws _ s dt, fun cb h => absurd h (List.not_mem_nil),
    fun dt n h _ hh => ?_⟩
  obtain ⟨b, hb, hs⟩ := ruleSuggest_pos hp
  obtain ⟨x, -, hx⟩ := bind_ok hh
  exact hb.trans_le (hs _ dt x h hx)

theorem loop_rejectShrinks : Ode.RejectShrinks (fullEnv F f m perturb rule first t0 tmax y0 draws stops) := by
  intro dt n h hacc hs
  obtain ⟨x, rfl, hx⟩ := bind_ok hs
  exact ruleSuggest_rejected' _ dt x h hacc hx

theorem loop_admissible (hs : StopsFine t0 stops) :
    Ode.AdmissibleStops (fullEnv F f m perturb rule first t0 tmax y0 draws stops) stops := by
  rcases hs with hs | ⟨l, h1, h2, h3⟩
  · exact Or.inl hs
  · exact Or.inr ⟨l, h1, h2, h3, loop_rejectShrinks F f m perturb rule first t0 tmax y0 draws stops⟩

theorem loop_ends (hp : rule.Positive) (h0 : 0 < first) (h1 : t0 + first ≤ tmax) (hs : StopsFine t0 stops) :
    ∃ n, (loop F f m perturb rule first t0 tmax y0 draws stops n).status = .done ∨
      ∃ e, (loop F f m perturb rule first t0 tmax y0 draws stops n).status = .failed e := by
  obtain ⟨b, hb, hpos⟩ := ruleSuggest_pos hp
  simp only [loop_eq_run]
  refine Ode.loop_terminates (fullEnv F f m perturb rule first t0 tmax y0 draws stops) stops
    (loop_timeKeeping F f m perturb rule first t0 tmax y0 draws stops hp) h0 h1
    (loop_admissible F f m perturb rule first t0 tmax y0 draws stops hs) hb (ρ := 0.95) (by norm_num)
    (fun dt n h hh => ?_) (fun dt n h hdt hacc hh => ?_)
  · obtain ⟨x, -, hx⟩ := bind_ok hh
    exact hpos _ dt x h hx
  · obtain ⟨x, rfl, hx⟩ := bind_ok hh
    exact ruleSuggest_rejected _ dt x h hdt hacc hx

end

/-! ## The loop performs the attempts of `Perturbed.run` -/

/-- The history of a configuration, in the form used by `Perturbed.run`. -/
def events (draws : ℕ → ℝ) (c : Ode.Config (LoopState d K) ℝ) : List Event :=
  c.log.mapIdx fun i a => ⟨a.dt, draws i, a.accepted⟩

theorem runFrom_append (rk : Rk (Fin d → ℝ) K) (perturb : ℝ → ℝ → Res ℝ) : ∀ (es : List Event)
    (s : State (Fin d → ℝ) K) (e : Event),
    runFrom rk perturb s (es ++ [e]) = (runFrom rk perturb s es).bind fun s' => step rk perturb s' e
  | [], s, e => by
    simp only [List.nil_append, runFrom, Except.bind]
    cases step rk perturb s e <;> rfl
  | a :: es, s, e => by
    simp only [List.cons_append, runFrom]
    cases h : step rk perturb s a with
    | error e => rfl
    | ok s' => exact runFrom_append rk perturb es s' e

/-- The facts kept by the loop. -/
structure Follows (F : Formula d K) (f : ℝ → (Fin d → ℝ) → Fin d → ℝ) (perturb : ℝ → ℝ → Res ℝ) (t0 : ℝ) (y0 : Fin d → ℝ)
    (draws : ℕ → ℝ) (c : Ode.Config (LoopState d K) ℝ) : Prop where
  count : c.log.length = c.attempts
  run : Perturbed.run (F.rk f) perturb t0 y0 (events draws c) = .ok (withAttributes c.log c.state.pub)
  times : c.yields.map (·.pub.t) = c.state.pub.locs
  states : c.yields.map (·.pub.y) = c.state.pub.states

/-- The cases of one attempt. -/
theorem tryStep_cases {F : Formula d K} {f : ℝ → (Fin d → ℝ) → Fin d → ℝ} {m : Method} {perturb : ℝ → ℝ → Res ℝ}
    {rule : StepRule} {first tmax : ℝ} {start : State (Fin d → ℝ) K} {draws : ℕ → ℝ} (c0 c : Ode.Config (LoopState d K) ℝ)
    (hlog : c.log = c0.log) (hatt : c.attempts = c0.attempts) :
    let env : Ode.Env (LoopState d K) ℝ (Res FirstStep) :=
      { loopEnv m.order rule first tmax start with attempt := fun _ => loopAttempt F f perturb rule draws c0 }
    let cur := withAttributes c.log c.state.pub
    (∃ e, perturb c.dt (draws c.attempts) = .error e ∧ (Ode.tryStep env c).status = .failed e ∧
      (Ode.tryStep env c).dt = c.dt ∧ ∃ a, (Ode.tryStep env c).log = c.log ++ [a] ∧ a.dt = c.dt ∧ a.proposed.norm = .error e) ∨
    ∃ noisy s' x, perturb c.dt (draws c.attempts) = .ok noisy ∧
      step (F.rk f) perturb cur ⟨c.dt, draws c.attempts, true⟩ = .ok s' ∧
      x = ruleNorm rule (F.errors ((F.rk f).stages cur.t cur.y cur.slope noisy) noisy) c.state.pub.y ∧
      (Ode.tryStep env c).attempts = c.attempts + 1 ∧
      (Ode.tryStep env c).log = c.log ++ [⟨c.state, c.dt, ⟨s', .ok x⟩, ruleAccepted rule x⟩] ∧
      ((∃ e, ruleSuggest m.order rule c.dt x = .error e ∧ (Ode.tryStep env c).status = .failed e ∧
          (Ode.tryStep env c).state = c.state) ∨
       (∃ h, ruleSuggest m.order rule c.dt x = .ok h ∧ ruleAccepted rule x = true ∧
          (Ode.tryStep env c).status = .fresh ∧ (Ode.tryStep env c).state = ⟨s', .ok x⟩ ∧
          (Ode.tryStep env c).dt = min h (tmax - (c.state.pub.t + c.dt)) ∧
          (Ode.tryStep env c).yields = c.yields ++ [⟨s', .ok x⟩]) ∨
       (∃ h, ruleSuggest m.order rule c.dt x = .ok h ∧ ruleAccepted rule x = false ∧
          (Ode.tryStep env c).status = .retry ∧ (Ode.tryStep env c).state = c.state ∧
          (Ode.tryStep env c).dt = min h (tmax - c.state.pub.t) ∧
          (Ode.tryStep env c).yields = c.yields)) := by
  intro env cur
  obtain ⟨h1, h2⟩ := step_accepted (F.rk f) perturb cur c.dt (draws c.attempts)
  cases hp : perturb c.dt (draws c.attempts) with
  | error e =>
    left
    have hla : env.attempt c.attempts c.state c.dt = ⟨{ c.state.pub with t := c.state.pub.t + c.dt }, .error e⟩ := by
      show loopAttempt F f perturb rule draws c0 c.state c.dt = _
      unfold loopAttempt
      rw [← hlog, ← hatt, (h1 e hp).1]
    have hn : env.norm ⟨{ c.state.pub with t := c.state.pub.t + c.dt }, .error e⟩ = .error e := rfl
    have hs : env.suggest c.dt (.error e) = .error e := rfl
    refine ⟨e, rfl, ?_, ?_, ?_⟩
    · unfold Ode.tryStep
      simp only [hla, hn, hs]
    · unfold Ode.tryStep
      simp only [hla, hn, hs]
    · unfold Ode.tryStep
      simp only [hla, hn, hs]
      exact ⟨_, rfl, rfl, rfl⟩
  | ok noisy =>
    right
    obtain ⟨s', e1, -, e3, e4, -, -, e7⟩ := h2 noisy hp
    have ht : s'.t = c.state.pub.t + c.dt := by rw [e3, (withAttributes_pub c.log c.state.pub).1]
    set x := ruleNorm rule (F.errors ((F.rk f).stages cur.t cur.y cur.slope noisy) noisy) c.state.pub.y with hx
    have hla : env.attempt c.attempts c.state c.dt = ⟨s', .ok x⟩ := by
      show loopAttempt F f perturb rule draws c0 c.state c.dt = _
      unfold loopAttempt
      rw [← hlog, ← hatt, e1]
      simp only [e7, hx]
      congr 4
      ring
    have hn : env.norm ⟨s', .ok x⟩ = .ok x := rfl
    have htm : ∀ s : LoopState d K, env.time s = s.pub.t := fun _ => rfl
    have hend : env.tmax = tmax := rfl
    have hac : env.accepted (.ok x) = ruleAccepted rule x := rfl
    have hsg : env.suggest c.dt (.ok x) = ruleSuggest m.order rule c.dt x := rfl
    have hcb : env.callbacks = [] := rfl
    refine ⟨noisy, s', x, rfl, e1, rfl, Ode.tryStep_attempts env c, ?_, ?_⟩
    · unfold Ode.tryStep
      simp only [hla, hn, hsg, hac]
      cases ruleSuggest m.order rule c.dt x with
      | error e => rfl
      | ok h => cases ruleAccepted rule x <;> rfl
    · cases hs : ruleSuggest m.order rule c.dt x with
      | error e =>
        refine Or.inl ⟨e, rfl, ?_, ?_⟩ <;>
        · unfold Ode.tryStep
          simp only [hla, hn, hsg, hs]
      | ok h =>
        right
        cases hb : ruleAccepted rule x with
        | true =>
          refine Or.inl ⟨h, rfl, rfl, ?_, ?_, ?_, ?_⟩ <;>
          · unfold Ode.tryStep
            simp [hla, hn, hsg, hs, hac, hb, hcb, Ode.applyCallbacks, htm, hend, ht]
        | false =>
          refine Or.inr ⟨h, rfl, rfl, ?_, ?_, ?_, ?_⟩ <;>
          · unfold Ode.tryStep
            simp [hla, hn, hsg, hs, hac, hb, hcb, htm, hend]

theorem events_append {draws : ℕ → ℝ} {c c' : Ode.Config (LoopState d K) ℝ} {a : Ode.Attempt (LoopState d K) ℝ}
    (h : c'.log = c.log ++ [a]) : events draws c' = events draws c ++ [⟨a.dt, draws c.log.length, a.accepted⟩] := by
  simp [events, h, List.mapIdx_append]

theorem tryStep_follows {F : Formula d K} {f : ℝ → (Fin d → ℝ) → Fin d → ℝ} {m : Method} {perturb : ℝ → ℝ → Res ℝ}
    {rule : StepRule} {first tmax t0 : ℝ} {y0 : Fin d → ℝ} {start : State (Fin d → ℝ) K} {draws : ℕ → ℝ}
    {c0 c : Ode.Config (LoopState d K) ℝ} (hlog : c.log = c0.log) (hatt : c.attempts = c0.attempts)
    (hF : Follows F f perturb t0 y0 draws c)
    (hnf : ∀ e, (Ode.tryStep { loopEnv m.order rule first tmax start with
      attempt := fun _ => loopAttempt F f perturb rule draws c0 } c).status ≠ .failed e) :
    Follows F f perturb t0 y0 draws (Ode.tryStep { loopEnv m.order rule first tmax start with
      attempt := fun _ => loopAttempt F f perturb rule draws c0 } c) := by
  have hc := tryStep_cases (F := F) (f := f) (m := m) (perturb := perturb) (rule := rule) (first := first) (tmax := tmax)
    (start := start) (draws := draws) c0 c hlog hatt
  simp only at hc
  set c' := Ode.tryStep { loopEnv m.order rule first tmax start with
      attempt := fun _ => loopAttempt F f perturb rule draws c0 } c with hc'
  rcases hc with ⟨e, -, he, -⟩ | ⟨noisy, s', x, hp, hst, -, hatts, hlog', hcases⟩
  · exact absurd he (hnf e)
  · obtain ⟨s'', e1, e2, e3, -, e5, e6, -⟩ := (step_accepted (F.rk f) perturb (withAttributes c.log c.state.pub) c.dt
      (draws c.attempts)).2 noisy hp
    obtain rfl : s' = s'' := Except.ok.inj (hst.symm.trans e1)
    have hev := events_append (draws := draws) hlog'
    simp only [hF.count] at hev
    have hcount : c'.log.length = c'.attempts := by
      rw [hlog', hatts, List.length_append, hF.count]; rfl
    rcases hcases with ⟨e, -, he, -⟩ | ⟨h, -, hacc, -, hs, -, hy⟩ | ⟨h, -, hacc, -, hs, -, hy⟩
    · exact absurd he (hnf e)
    · refine ⟨hcount, ?_, ?_, ?_⟩
      · rw [hev, hacc, Perturbed.run, runFrom_append]
        have := hF.run
        rw [Perturbed.run] at this
        rw [this]
        simp only [Except.bind]
        rw [hst, hlog', withAttributes_append, hs]
      · rw [hy, hs, List.map_append, hF.times, e5, (withAttributes_pub c.log c.state.pub).2.2.1]
        simp only [List.map_cons, List.map_nil]
        rw [e3]
      · rw [hy, hs, List.map_append, hF.states, e6, (withAttributes_pub c.log c.state.pub).2.2.2.1]
        rfl
    · refine ⟨hcount, ?_, ?_, ?_⟩
      · rw [hev, hacc, Perturbed.run, runFrom_append]
        have := hF.run
        rw [Perturbed.run] at this
        rw [this]
        simp only [Except.bind]
        rw [e2, hlog', withAttributes_append, hs]
        obtain ⟨g1, g2, g3, g4, g5⟩ := withAttributes_pub c.log c.state.pub
        congr 1
        simp only [State.mk.injEq]
        exact ⟨g1, g2, trivial, trivial, trivial, g5, g3, g4⟩
      · rw [hy, hs, hF.times]
      · rw [hy, hs, hF.states]

theorem loop_follows (F : Formula d K) (f : ℝ → (Fin d → ℝ) → Fin d → ℝ) (m : Method) (perturb : ℝ → ℝ → Res ℝ)
    (rule : StepRule) (first t0 tmax : ℝ) (y0 : Fin d → ℝ) (draws : ℕ → ℝ) (stops : Option (List ℝ)) (n : ℕ)
    (hnf : ∀ e, (loop F f m perturb rule first t0 tmax y0 draws stops n).status ≠ .failed e) :
    Follows F f perturb t0 y0 draws (loop F f m perturb rule first t0 tmax y0 draws stops n) := by
  induction n with
  | zero =>
    have hs : stops ≠ some [] := by
      rintro rfl
      exact hnf .runtimeError rfl
    cases stops with
    | none => exact ⟨rfl, rfl, rfl, rfl⟩
    | some l =>
      cases l with
      | nil => exact absurd rfl hs
      | cons x xs => exact ⟨rfl, rfl, rfl, rfl⟩
  | succ n ih =>
    have hsucc : loop F f m perturb rule first t0 tmax y0 draws stops (n + 1)
        = Ode.step { loopEnv m.order rule first tmax (init (F.rk f) t0 y0) with
            attempt := fun _ => loopAttempt F f perturb rule draws (loop F f m perturb rule first t0 tmax y0 draws stops n) }
          (loop F f m perturb rule first t0 tmax y0 draws stops n) := rfl
    rw [hsucc] at hnf ⊢
    set c := loop F f m perturb rule first t0 tmax y0 draws stops n with hc
    have hnf' : ∀ e, c.status ≠ .failed e := by
      intro e he
      refine hnf e ?_
      unfold Ode.step
      rw [he]
      exact he
    have hF := ih hnf'
    unfold Ode.step at hnf ⊢
    split
    · exact hF
    · exact hF
    · rename_i hs
      rw [hs] at hnf
      exact tryStep_follows rfl rfl hF hnf
    · rename_i hs
      rw [hs] at hnf
      simp only at hnf
      split
      · rename_i hlt
        rw [if_pos hlt] at hnf
        cases hst : c.stopper with
        | none =>
          rw [hst] at hnf
          exact tryStep_follows rfl rfl hF hnf
        | some st =>
          rw [hst] at hnf
          exact tryStep_follows (c := { c with
            dt := (Ode.adjustTimeStep st c.state.pub.t c.dt).1,
            stopper := some (Ode.adjustTimeStep st c.state.pub.t c.dt).2 }) rfl rfl
            ⟨hF.count, hF.run, hF.times, hF.states⟩ hnf
      · exact ⟨hF.count, hF.run, hF.times, hF.states⟩

/-! ## Induction over a run -/

/-- Induction over the configurations of a run with positive steps. -/
theorem loop_induct {F : Formula d K} {f : ℝ → (Fin d → ℝ) → Fin d → ℝ} {m : Method} {perturb : ℝ → ℝ → Res ℝ}
    {rule : StepRule} {first t0 tmax : ℝ} {y0 : Fin d → ℝ} {draws : ℕ → ℝ} {stops : Option (List ℝ)}
    (hp : rule.Positive) (h0 : 0 < first) (h1 : t0 + first ≤ tmax) (hs : StopsFine t0 stops)
    (J : Ode.Config (LoopState d K) ℝ → Prop)
    (hinit : J (loop F f m perturb rule first t0 tmax y0 draws stops 0))
    (hadj : ∀ c dt st, J c → dt ≤ c.dt → J { c with dt := dt, stopper := st })
    (hdone : ∀ c, c.status = .fresh → J c → J { c with status := .done })
    (htry : ∀ c0 c, c.log = c0.log → c.attempts = c0.attempts → c.status = .fresh ∨ c.status = .retry → J c → 0 < c.dt →
      J (Ode.tryStep { loopEnv m.order rule first tmax (init (F.rk f) t0 y0) with
        attempt := fun _ => loopAttempt F f perturb rule draws c0 } c)) (n : ℕ) :
    J (loop F f m perturb rule first t0 tmax y0 draws stops n) := by
  induction n with
  | zero => exact hinit
  | succ n ih =>
    have hinv := Ode.run_inv (fullEnv F f m perturb rule first t0 tmax y0 draws stops) stops
      (loop_timeKeeping F f m perturb rule first t0 tmax y0 draws stops hp) h0 h1
      (loop_admissible F f m perturb rule first t0 tmax y0 draws stops hs) n
    rw [← loop_eq_run] at hinv
    have hsucc : loop F f m perturb rule first t0 tmax y0 draws stops (n + 1)
        = Ode.step { loopEnv m.order rule first tmax (init (F.rk f) t0 y0) with
            attempt := fun _ => loopAttempt F f perturb rule draws (loop F f m perturb rule first t0 tmax y0 draws stops n) }
          (loop F f m perturb rule first t0 tmax y0 draws stops n) := rfl
    rw [hsucc]
    set c := loop F f m perturb rule first t0 tmax y0 draws stops n with hc
    unfold Ode.step
    split
    · exact ih
    · exact ih
    · rename_i hst
      rcases hinv with hinv | ⟨-, e, he⟩
      · exact htry c c rfl rfl (.inr hst) ih (hinv.dt_pos (hinv.retry hst))
      · rw [hst] at he; cases he
    · rename_i hst
      rcases hinv with hinv | ⟨-, e, he⟩
      · split
        · rename_i hlt
          cases hsp : c.stopper with
          | none => exact htry c c rfl rfl (.inl hst) ih (hinv.dt_pos hlt)
          | some st =>
            have hS := hinv.stop st hsp
            have ha := Ode.adjust_spec st c.state.pub.t c.dt (hinv.dt_pos hlt) hS.chain hS.rest hS.none
            exact htry c { c with
              dt := (Ode.adjustTimeStep st c.state.pub.t c.dt).1,
              stopper := some (Ode.adjustTimeStep st c.state.pub.t c.dt).2 } rfl rfl (.inl hst) (hadj c _ _ ih ha.2.1) ha.1
        · exact hdone c hst ih
      · rw [hst] at he; cases he

/-- Why a run has failed: the perturbation or the step rule has raised in the last attempt. -/
def Cause (order : ℕ) (perturb : ℝ → ℝ → Res ℝ) (rule : StepRule) (c : Ode.Config (LoopState d K) ℝ) (e : PyErr) : Prop :=
  ∃ a, c.log.getLast? = some a ∧ 0 < a.dt ∧ ((a.proposed.norm = .error e ∧ ∃ u, perturb a.dt u = .error e) ∨
    ∃ x, a.proposed.norm = .ok x ∧ ruleSuggest order rule a.dt x = .error e ∧ ∃ er ref, x = ruleNorm (d := d) rule er ref)

theorem loop_attempts {F : Formula d K} {f : ℝ → (Fin d → ℝ) → Fin d → ℝ} {m : Method} {perturb : ℝ → ℝ → Res ℝ}
    {rule : StepRule} {first t0 tmax : ℝ} {y0 : Fin d → ℝ} {draws : ℕ → ℝ} {stops : Option (List ℝ)}
    (hp : rule.Positive) (h0 : 0 < first) (h1 : t0 + first ≤ tmax) (hs : StopsFine t0 stops) (n : ℕ) :
    (∀ a ∈ (loop F f m perturb rule first t0 tmax y0 draws stops n).log, 0 < a.dt) ∧
    ∀ e, (loop F f m perturb rule first t0 tmax y0 draws stops n).status = .failed e →
      Cause m.order perturb rule (loop F f m perturb rule first t0 tmax y0 draws stops n) e := by
  refine loop_induct hp h0 h1 hs (fun c => (∀ a ∈ c.log, 0 < a.dt) ∧ ∀ e, c.status = .failed e →
    Cause m.order perturb rule c e) ?_ (fun c dt st h _ => h) (fun c _ h => ⟨h.1, fun e he => by cases he⟩) ?_ n
  · have hne := hs.ne
    cases stops with
    | none => exact ⟨(fun a ha => by cases ha), fun e he => by cases he⟩
    | some l =>
      cases l with
      | nil => exact absurd rfl hne
      | cons x xs => exact ⟨(fun a ha => by cases ha), fun e he => by cases he⟩
  · intro c0 c hlog hatt _ hJ hdt
    have hc := tryStep_cases (F := F) (f := f) (m := m) (perturb := perturb) (rule := rule) (first := first) (tmax := tmax)
      (start := init (F.rk f) t0 y0) (draws := draws) c0 c hlog hatt
    simp only at hc
    rcases hc with ⟨e, hpe, he, hd, a, hl, ha, hn⟩ | ⟨noisy, s', x, -, -, hx, -, hl, hcases⟩
    · constructor
      · intro b hb
        rw [hl] at hb
        rcases List.mem_append.1 hb with hb | hb
        · exact hJ.1 b hb
        · rw [List.mem_singleton.1 hb, ha]; exact hdt
      · intro e' he'
        rw [he] at he'
        cases he'
        exact ⟨a, by rw [hl]; simp, ha ▸ hdt, Or.inl ⟨hn, _, by rw [ha]; exact hpe⟩⟩
    · constructor
      · intro b hb
        rw [hl] at hb
        rcases List.mem_append.1 hb with hb | hb
        · exact hJ.1 b hb
        · rw [List.mem_singleton.1 hb]; exact hdt
      · intro e' he'
        rcases hcases with ⟨e, h1, h2, -⟩ | ⟨h, -, -, h2, -⟩ | ⟨h, -, -, h2, -⟩
        · rw [h2] at he'
          cases he'
          exact ⟨⟨c.state, c.dt, ⟨s', .ok x⟩, ruleAccepted rule x⟩, by rw [hl]; simp, hdt, Or.inr ⟨x, rfl, h1, _, _, hx⟩⟩
        · rw [h2] at he'; cases he'
        · rw [h2] at he'; cases he'

/-- With constant steps every attempt is accepted and no step is longer than the given one. -/
theorem loop_constant {F : Formula d K} {f : ℝ → (Fin d → ℝ) → Fin d → ℝ} {m : Method} {perturb : ℝ → ℝ → Res ℝ}
    {h t0 tmax : ℝ} {y0 : Fin d → ℝ} {draws : ℕ → ℝ} {stops : Option (List ℝ)}
    (h0 : 0 < h) (h1 : t0 + h ≤ tmax) (hs : StopsFine t0 stops) (n : ℕ) :
    let c := loop F f m perturb (.constant h) h t0 tmax y0 draws stops n
    (∀ a ∈ c.log, a.dt ≤ h) ∧ ((∃ e, c.status = .failed e) ∨ ∀ a ∈ c.log, a.accepted = true) := by
  refine (loop_induct (F := F) (f := f) (m := m) (perturb := perturb) (rule := .constant h) (y0 := y0) (draws := draws)
    (stops := stops) h0 h0 h1 hs (fun c => c.dt ≤ h ∧ (∀ a ∈ c.log, a.dt ≤ h) ∧
      ((∃ e, c.status = .failed e) ∨ ∀ a ∈ c.log, a.accepted = true)) ?_ ?_ ?_ ?_ n).2
  · have hne := hs.ne
    cases stops with
    | none => exact ⟨le_rfl, (fun a ha => by cases ha), Or.inr fun a ha => by cases ha⟩
    | some l =>
      cases l with
      | nil => exact absurd rfl hne
      | cons x xs => exact ⟨le_rfl, (fun a ha => by cases ha), Or.inr fun a ha => by cases ha⟩
  · intro c dt st hJ hle
    exact ⟨hle.trans hJ.1, hJ.2⟩
  · intro c hst hJ
    refine ⟨hJ.1, hJ.2.1, Or.inr ?_⟩
    rcases hJ.2.2 with ⟨e, he⟩ | hJ
    · rw [hst] at he; cases he
    · exact hJ
  · intro c0 c hlog hatt hst hJ hdt
    have hacc : ∀ a ∈ c.log, a.accepted = true := by
      rcases hJ.2.2 with ⟨e, he⟩ | hJ
      · rcases hst with hst | hst <;> rw [hst] at he <;> cases he
      · exact hJ
    have hc := tryStep_cases (F := F) (f := f) (m := m) (perturb := perturb) (rule := .constant h) (first := h) (tmax := tmax)
      (start := init (F.rk f) t0 y0) (draws := draws) c0 c hlog hatt
    simp only at hc
    rcases hc with ⟨e, hpe, he, hd, a, hl, ha, hn⟩ | ⟨noisy, s', x, -, -, hx, -, hl, hcases⟩
    · refine ⟨?_, ?_, Or.inl ⟨e, he⟩⟩
      · rw [hd]; exact hJ.1
      · intro b hb
        rw [hl] at hb
        rcases List.mem_append.1 hb with hb | hb
        · exact hJ.2.1 b hb
        · rw [List.mem_singleton.1 hb, ha]; exact hJ.1
    · have hlog' : ∀ b ∈ c.log ++ [(⟨c.state, c.dt, ⟨s', .ok x⟩, ruleAccepted (.constant h) x⟩ : Ode.Attempt (LoopState d K) ℝ)],
          b.dt ≤ h ∧ b.accepted = true := by
        intro b hb
        rcases List.mem_append.1 hb with hb | hb
        · exact ⟨hJ.2.1 b hb, hacc b hb⟩
        · rw [List.mem_singleton.1 hb]; exact ⟨hJ.1, rfl⟩
      rw [← hl] at hlog'
      refine ⟨?_, fun b hb => (hlog' b hb).1, Or.inr fun b hb => (hlog' b hb).2⟩
      rcases hcases with ⟨e, h1, -⟩ | ⟨s, h1, -, -, -, h5, -⟩ | ⟨s, -, h2, -⟩
      · cases h1
      · rw [h5]
        obtain rfl := Except.ok.inj h1
        exact min_le_left _ _
      · cases h2

end Probnum.Perturbed
