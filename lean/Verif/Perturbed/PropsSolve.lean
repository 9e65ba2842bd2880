import Verif.Perturbed.SolveLemmas

/-!
# C83: `perturbsolve_ivp`
-/

namespace Probnum.Perturbed

open OdeFilter (FirstStep InitialValue StepRule norm2 firstStepRatio effectiveFirst bind_ok map_ok StopsFine)

variable {d : ℕ} {K : Type}

/-- The first step size: the one given, or for adaptive steps `0.01 * |y0| / |f(t0, y0)|`. -/
def FirstStepIs (a : Args d) (h : ℝ) : Prop :=
  a.step = some h ∨ (a.adaptive = true ∧ a.step = none ∧ ∃ y0, a.y0 = .vector y0 ∧ a.f a.t0 y0 ≠ 0 ∧
    h = 0.01 * norm2 y0 / norm2 (a.f a.t0 y0))

/-! ## Lemmas -/

theorem prepare_ok {a : Args d} {r : Option StepRule × Method × Perturbation} (hp : prepare a = .ok r) :
    createSteprule a = .ok r.1 ∧ chooseMethod a.method = .ok r.2.1 ∧ choosePerturbation a.perturb = .ok r.2.2 := by
  obtain ⟨rule, hr, hp⟩ := bind_ok hp
  obtain ⟨m, hm, hp⟩ := bind_ok hp
  obtain ⟨p, hpp, hp⟩ := map_ok hp
  subst hp
  exact ⟨hr, hm, hpp⟩

theorem rule_first {a : Args d} {rule? : Option StepRule} (hr : createSteprule a = .ok rule?) {h : ℝ}
    (hf : FirstStepIs a h) : ∃ rule, rule? = some rule ∧ rule.first = .finite h ∧ (0 < h → rule.Positive) ∧
      (a.adaptive = true → ∃ x y, a.atol = some x ∧ a.rtol = some y ∧ rule = .adaptive (.finite h) x y) ∧
      (a.adaptive = false → rule = .constant h) := by
  unfold createSteprule at hr
  by_cases hb : a.adaptive = true
  · rw [if_pos hb] at hr
    cases ha : a.atol with
    | none => rw [ha] at hr; cases hr
    | some x =>
      cases hrt : a.rtol with
      | none => rw [ha, hrt] at hr; cases hr
      | some y =>
        rw [ha, hrt] at hr
        simp only at hr
        rcases hf with hf | ⟨-, hf, y0, hy, hv, hh⟩
        · rw [hf] at hr
          obtain rfl := Except.ok.inj hr
          exact ⟨_, rfl, rfl, fun _ => trivial, fun _ => ⟨x, y, rfl, rfl, rfl⟩, fun h => by rw [hb] at h; cases h⟩
        · rw [hf, hy] at hr
          simp only [proposeFirststep, Except.map] at hr
          have hne : norm2 (a.f a.t0 y0) ≠ 0 := fun h => hv (OdeFilter.norm2_eq_zero.1 h)
          rw [firstStepRatio, if_neg hne, ← hh] at hr
          obtain rfl := Except.ok.inj hr
          exact ⟨_, rfl, rfl, fun _ => trivial, fun _ => ⟨x, y, rfl, rfl, rfl⟩, fun h => by rw [hb] at h; cases h⟩
  · rw [if_neg hb] at hr
    rcases hf with hf | ⟨hf, -⟩
    · rw [hf] at hr
      obtain rfl := Except.ok.inj hr
      exact ⟨_, rfl, rfl, fun h => h, fun h => absurd h hb, fun _ => rfl⟩
    · exact absurd hf hb

open Classical in
/-- `perturbsolve_ivp` after the preparations. -/
theorem perturbsolve_eq {scipy : Method → Formula d K} {a : Args d} {draws : ℕ → ℝ} {n : ℕ} {rule : StepRule} {m : Method}
    {p : Perturbation} (hp : prepare a = .ok (some rule, m, p)) (hne : a.timeStops ≠ some []) {y0 : Fin d → ℝ}
    (hy : a.y0 = .vector y0) {h : ℝ} (hf : rule.first = .finite h) :
    perturbsolveIvp scipy a draws n =
      match (loop (scipy m) a.f m (p.fn m.order a.noiseScale) rule h a.t0 a.tmax y0 draws a.timeStops n).status with
      | .failed e =>
        if hangs p (loop (scipy m) a.f m (p.fn m.order a.noiseScale) rule h a.t0 a.tmax y0 draws a.timeStops n) then none
        else some (.error e)
      | .done => some (.ok (solutionOf
          (loop (scipy m) a.f m (p.fn m.order a.noiseScale) rule h a.t0 a.tmax y0 draws a.timeStops n)))
      | _ => none := by
  unfold perturbsolveIvp
  rw [hp]
  simp only
  unfold solve
  have hst : ∃ st, Ode.processStops a.timeStops = .ok st := by
    cases hts : a.timeStops with
    | none => exact ⟨_, rfl⟩
    | some l =>
      cases l with
      | nil => exact absurd hts hne
      | cons x xs => exact ⟨_, rfl⟩
  obtain ⟨st, hst⟩ := hst
  rw [hst, hy]
  simp only [hf, effectiveFirst]
  rfl

theorem tryStep_stopper {σ T N : Type} [AddCommGroup T] [LinearOrder T] (env : Ode.Env σ T N) (c : Ode.Config σ T) :
    (Ode.tryStep env c).stopper = c.stopper := by
  unfold Ode.tryStep
  simp only
  split
  · rfl
  · split <;> rfl

/-- Without stop locations there is nothing to stop at. -/
theorem loop_stopper (F : Formula d K) (f : ℝ → (Fin d → ℝ) → Fin d → ℝ) (m : Method) (perturb : ℝ → ℝ → Res ℝ)
    (rule : StepRule) (first t0 tmax : ℝ) (y0 : Fin d → ℝ) (draws : ℕ → ℝ) (n : ℕ) :
    (loop F f m perturb rule first t0 tmax y0 draws none n).stopper = none := by
  induction n with
  | zero => rfl
  | succ n ih =>
    generalize hc : loop F f m perturb rule first t0 tmax y0 draws none n = c at ih
    have h : loop F f m perturb rule first t0 tmax y0 draws none (n + 1) =
        Ode.step { loopEnv m.order rule first tmax (init (F.rk f) t0 y0) with
          attempt := fun _ => loopAttempt F f perturb rule draws c } c := by
      rw [← hc]
      rfl
    rw [h]
    unfold Ode.step
    cases c.status with
    | done => exact ih
    | failed e => exact ih
    | retry => exact (tryStep_stopper _ _).trans ih
    | fresh =>
      simp only
      split
      · rw [ih]
        exact (tryStep_stopper _ _).trans ih
      · exact ih

/-- One more attempt, without stop locations. -/
theorem loop_succ (F : Formula d K) (f : ℝ → (Fin d → ℝ) → Fin d → ℝ) (m : Method) (perturb : ℝ → ℝ → Res ℝ)
    (rule : StepRule) (first t0 tmax : ℝ) (y0 : Fin d → ℝ) (draws : ℕ → ℝ) (n : ℕ) {c : Ode.Config (LoopState d K) ℝ}
    (hc : loop F f m perturb rule first t0 tmax y0 draws none n = c) (hst : c.stopper = none)
    (hs : (c.status = .fresh ∧ c.state.pub.t < tmax) ∨ c.status = .retry) :
    loop F f m perturb rule first t0 tmax y0 draws none (n + 1) =
      Ode.tryStep { loopEnv m.order rule first tmax (init (F.rk f) t0 y0) with
        attempt := fun _ => loopAttempt F f perturb rule draws c } c := by
  have h : loop F f m perturb rule first t0 tmax y0 draws none (n + 1) =
      Ode.step { loopEnv m.order rule first tmax (init (F.rk f) t0 y0) with
        attempt := fun _ => loopAttempt F f perturb rule draws c } c := by
    rw [← hc]
    rfl
  rw [h]
  unfold Ode.step
  rcases hs with ⟨hs, ht⟩ | hs
  · rw [hs]
    simp only
    have ht' : (loopEnv m.order rule first tmax (init (F.rk f) t0 y0)).time c.state
        < (loopEnv m.order rule first tmax (init (F.rk f) t0 y0)).tmax := ht
    rw [if_pos ht', hst]
  · rw [hs]

/-- What a returned solution tells about the arguments. -/
theorem perturbsolve_ok {scipy : Method → Formula d K} {a : Args d} {draws : ℕ → ℝ} {n : ℕ} {sol : State (Fin d → ℝ) K}
    (h : perturbsolveIvp scipy a draws n = some (.ok sol)) {h1 : ℝ} (hf : FirstStepIs a h1) :
    ∃ rule m p y0, prepare a = .ok (some rule, m, p) ∧ a.y0 = .vector y0 ∧ rule.first = .finite h1 ∧
      (0 < h1 → rule.Positive) ∧
      (loop (scipy m) a.f m (p.fn m.order a.noiseScale) rule h1 a.t0 a.tmax y0 draws a.timeStops n).status = .done ∧
      sol = solutionOf (loop (scipy m) a.f m (p.fn m.order a.noiseScale) rule h1 a.t0 a.tmax y0 draws a.timeStops n) := by
  cases hp : prepare a with
  | error e => unfold perturbsolveIvp at h; rw [hp] at h; cases h
  | ok r =>
    obtain ⟨rule?, m, p⟩ := r
    obtain ⟨hr, -, -⟩ := prepare_ok hp
    obtain ⟨rule, rfl, hfirst, hpos, -, -⟩ := rule_first hr hf
    have hne : a.timeStops ≠ some [] := by
      intro hc
      unfold perturbsolveIvp at h
      rw [hp] at h
      simp only [solve, hc, Ode.processStops] at h
      cases h
    cases hy : a.y0 with
    | number x v =>
      exfalso
      unfold perturbsolveIvp at h
      rw [hp] at h
      simp only [solve, hy] at h
      split at h <;> cases h
    | vector y0 =>
      refine ⟨rule, m, p, y0, rfl, rfl, hfirst, hpos, ?_⟩
      rw [perturbsolve_eq hp hne hy hfirst] at h
      split at h
      · split at h <;> cases h
      · rename_i hs
        exact ⟨hs, (Except.ok.inj (Option.some.inj h)).symm⟩
      · cases h

/-- The solution object is the state after the attempts made. -/
theorem solutionOf_run {F : Formula d K} {f : ℝ → (Fin d → ℝ) → Fin d → ℝ} {m : Method} {perturb : ℝ → ℝ → Res ℝ}
    {rule : StepRule} {first t0 tmax : ℝ} {y0 : Fin d → ℝ} {draws : ℕ → ℝ} {stops : Option (List ℝ)} {n : ℕ}
    (hnf : ∀ e, (loop F f m perturb rule first t0 tmax y0 draws stops n).status ≠ .failed e) :
    run (F.rk f) perturb t0 y0 (events draws (loop F f m perturb rule first t0 tmax y0 draws stops n))
      = .ok (solutionOf (loop F f m perturb rule first t0 tmax y0 draws stops n)) := by
  have hF := loop_follows F f m perturb rule first t0 tmax y0 draws stops n hnf
  rw [hF.run]
  obtain ⟨-, -, g3, g4, -⟩ := withAttributes_pub (loop F f m perturb rule first t0 tmax y0 draws stops n).log
    (loop F f m perturb rule first t0 tmax y0 draws stops n).state.pub
  refine congrArg Except.ok ?_
  unfold solutionOf
  rw [hF.times, hF.states, ← g3, ← g4]

theorem events_mem {draws : ℕ → ℝ} {c : Ode.Config (LoopState d K) ℝ} {e : Event} (h : e ∈ events draws c) :
    ∃ a ∈ c.log, e.dt = a.dt ∧ e.accepted = a.accepted := by
  unfold events at h
  rw [List.mem_mapIdx] at h
  obtain ⟨i, hi, rfl⟩ := h
  exact ⟨_, List.getElem_mem hi, rfl, rfl⟩

/-! ## The time grid -/

/-- **C83 (a), partial.**  If the first step is positive and does not jump over the end, and the stop locations are fine, the times
of a returned solution start at `t0`, end at `tmax`, increase strictly and contain all stop locations in between — for every random
number generator, whatever the perturbations do. -/
theorem perturbsolve_grid_partial {scipy : Method → Formula d K} {a : Args d} {draws : ℕ → ℝ} {n : ℕ}
    {sol : State (Fin d → ℝ) K} (h : perturbsolveIvp scipy a draws n = some (.ok sol)) {h1 : ℝ} (hf : FirstStepIs a h1)
    (hpos : 0 < h1) (hfit : a.t0 + h1 ≤ a.tmax) (hstops : StopsFine a.t0 a.timeStops) :
    sol.locs.head? = some a.t0 ∧ sol.locs.getLast? = some a.tmax ∧ sol.locs.Pairwise (· < ·) ∧
      sol.states.length = sol.locs.length ∧
      (∀ s ∈ a.timeStops.getD [], a.t0 < s → s ≤ a.tmax → s ∈ sol.locs) := by
  obtain ⟨rule, m, p, y0, hp, hy, hfirst, hP, hdone, rfl⟩ := perturbsolve_ok h hf
  have htk := loop_timeKeeping (scipy m) a.f m (p.fn m.order a.noiseScale) rule h1 a.t0 a.tmax y0 draws a.timeStops (hP hpos)
  have hadm := loop_admissible (scipy m) a.f m (p.fn m.order a.noiseScale) rule h1 a.t0 a.tmax y0 draws a.timeStops hstops
  have hlocs : (solutionOf (loop (scipy m) a.f m (p.fn m.order a.noiseScale) rule h1 a.t0 a.tmax y0 draws a.timeStops n)).locs
      = Ode.times (fullEnv (scipy m) a.f m (p.fn m.order a.noiseScale) rule h1 a.t0 a.tmax y0 draws a.timeStops)
          a.timeStops n := by
    rw [Ode.times, ← loop_eq_run]
    rfl
  have hdone' := hdone
  rw [loop_eq_run] at hdone'
  obtain ⟨g1, g2, -⟩ := Ode.times_increasing_within_domain_partial _ _ htk hpos hfit hadm n
  rw [hlocs]
  refine ⟨g1, Ode.solution_ends_at_tmax_partial _ _ htk hpos hfit hadm n hdone', g2, ?_, fun s hs hlo hhi =>
    Ode.stop_locations_hit_partial _ _ htk hpos hfit hadm n hdone' s hs hlo hhi⟩
  rw [← hlocs]
  simp [solutionOf]

/-! ## Termination -/

/-- The result does not depend on the bound on the number of attempts. -/
theorem perturbsolve_stable {scipy : Method → Formula d K} {a : Args d} {draws : ℕ → ℝ} {n k : ℕ}
    {r : Res (State (Fin d → ℝ) K)} (h : perturbsolveIvp scipy a draws n = some r) (hnk : n ≤ k) :
    perturbsolveIvp scipy a draws k = some r := by
  unfold perturbsolveIvp at h ⊢
  cases hp : prepare a with
  | error e => rw [hp] at h; exact h
  | ok q =>
    obtain ⟨rule?, m, p⟩ := q
    rw [hp] at h
    simp only at h ⊢
    unfold solve at h ⊢
    cases hst : Ode.processStops a.timeStops with
    | error e => rw [hst] at h; exact h
    | ok st =>
      rw [hst] at h
      simp only at h ⊢
      cases hy : a.y0 with
      | number x v => rw [hy] at h; exact h
      | vector y0 =>
        rw [hy] at h
        simp only at h ⊢
        cases rule? with
        | none => exact h
        | some rule =>
          simp only at h ⊢
          cases hef : effectiveFirst a.t0 a.timeStops rule.first with
          | none => rw [hef] at h; exact h
          | some h1 =>
            rw [hef] at h
            simp only at h ⊢
            set c := fun j => loop (scipy m) a.f m (p.fn m.order a.noiseScale) rule h1 a.t0 a.tmax y0 draws a.timeStops j with hc
            have hfin : (c n).status = .done ∨ ∃ e, (c n).status = .failed e := by
              cases hs : (c n).status with
              | fresh => simp only [hc] at hs; rw [hs] at h; cases h
              | retry => simp only [hc] at hs; rw [hs] at h; cases h
              | done => exact Or.inl rfl
              | failed e => exact Or.inr ⟨e, rfl⟩
            have heq : c k = c n := by
              simp only [hc, loop_eq_run] at hfin ⊢
              exact OdeFilter.run_final _ _ hnk hfin
            simp only [hc] at heq
            rw [heq]
            exact h

/-- Norms of errors that cannot be `nan`: constant steps, or a nonzero absolute tolerance with relative tolerance zero. -/
def NormsFine (a : Args d) : Prop :=
  a.adaptive = false ∨ (0 < d ∧ a.rtol = some 0 ∧ ∃ x, a.atol = some x ∧ x ≠ 0)

theorem norm_ne_nan {a : Args d} (hn : NormsFine a) {rule : StepRule} (hr : createSteprule a = .ok (some rule))
    (er ref : Fin d → ℝ) : ruleNorm rule er ref ≠ .nan := by
  unfold createSteprule at hr
  rcases hn with hn | ⟨hd, hrt, x, hx, hx0⟩
  · rw [hn, if_neg (by simp)] at hr
    have := Except.ok.inj hr
    cases hs : a.step with
    | none => rw [hs] at this; cases this
    | some h =>
      rw [hs] at this
      simp only [Option.map_some, Option.some.injEq] at this
      subst this
      simp [ruleNorm]
  · have key : ∀ h, ruleNorm (.adaptive h x 0) er ref ≠ .nan := by
      intro h
      unfold ruleNorm
      simp [hx0, hd.ne']
    cases hb : a.adaptive with
    | false =>
      rw [hb, if_neg (by simp)] at hr
      have := Except.ok.inj hr
      cases hs : a.step with
      | none => rw [hs] at this; cases this
      | some h =>
        rw [hs] at this
        simp only [Option.map_some, Option.some.injEq] at this
        subst this
        simp [ruleNorm]
    | true =>
      rw [hb, if_pos rfl, hx, hrt] at hr
      simp only at hr
      cases hs : a.step with
      | some h =>
        rw [hs] at hr
        have := Option.some.inj (Except.ok.inj hr)
        subst this
        exact key _
      | none =>
        rw [hs] at hr
        obtain ⟨h, -, hh⟩ := map_ok hr
        have := Option.some.inj hh
        subst this
        exact key _

/-- The outcome once the loop has ended. -/
theorem perturbsolve_ends {scipy : Method → Formula d K} {a : Args d} {draws : ℕ → ℝ} {rule : StepRule} {m : Method}
    {p : Perturbation} (hp : prepare a = .ok (some rule, m, p)) {y0 : Fin d → ℝ} (hy : a.y0 = .vector y0) {h1 : ℝ}
    (hf : FirstStepIs a h1) (hpos : 0 < h1) (hfit : a.t0 + h1 ≤ a.tmax) (hstops : StopsFine a.t0 a.timeStops) :
    ∃ n, (∃ sol, perturbsolveIvp scipy a draws n = some (.ok sol)) ∨
      ∃ e, Cause m.order (p.fn m.order a.noiseScale) rule
          (loop (scipy m) a.f m (p.fn m.order a.noiseScale) rule h1 a.t0 a.tmax y0 draws a.timeStops n) e ∧
        (perturbsolveIvp scipy a draws n = some (.error e) ∨ (∀ k, perturbsolveIvp scipy a draws k = none) ∧ e = .valueError ∧
          p = .uniform ∧ ∃ er ref, ruleNorm (d := d) rule er ref = .nan) := by
  obtain ⟨hr, -, -⟩ := prepare_ok hp
  obtain ⟨rule', hrule, hfirst, hP, -, -⟩ := rule_first hr hf
  obtain rfl : rule = rule' := Option.some.inj hrule
  obtain ⟨n, hn⟩ := loop_ends (scipy m) a.f m (p.fn m.order a.noiseScale) rule h1 a.t0 a.tmax y0 draws a.timeStops (hP hpos)
    hpos hfit hstops
  refine ⟨n, ?_⟩
  have heq := fun k => perturbsolve_eq (scipy := scipy) (draws := draws) (n := k) hp hstops.ne hy hfirst
  rcases hn with hn | ⟨e, hn⟩
  · left
    rw [heq n, hn]
    exact ⟨_, rfl⟩
  · right
    have hc := (loop_attempts (hP hpos) hpos hfit hstops n).2 e hn
    refine ⟨e, hc, ?_⟩
    by_cases hh : hangs p (loop (scipy m) a.f m (p.fn m.order a.noiseScale) rule h1 a.t0 a.tmax y0 draws a.timeStops n)
    · right
      have hnone : perturbsolveIvp scipy a draws n = none := by
        rw [heq n, hn]
        exact if_pos hh
      obtain ⟨hu, b, hb1, hb2⟩ := hh
      obtain ⟨b', hb1', -, hb3⟩ := hc
      obtain rfl : b = b' := Option.some.inj (hb1.symm.trans hb1')
      have hx : e = .valueError ∧ ∃ er ref, ruleNorm (d := d) rule er ref = .nan := by
        rcases hb3 with ⟨h3, -⟩ | ⟨x, h3, h4, er, ref, h5⟩
        · rw [hb2] at h3; cases h3
        · rw [hb2] at h3
          obtain rfl := Except.ok.inj h3
          obtain ⟨-, h6 | h6⟩ := ruleSuggest_error h4
          · exact absurd rfl h6.2
          · exact ⟨h6.1, er, ref, h5.symm⟩
      refine ⟨fun k => ?_, hx.1, hu, hx.2⟩
      cases hk : perturbsolveIvp scipy a draws k with
      | none => rfl
      | some r =>
        exfalso
        rcases le_total n k with hnk | hkn
        · have hfin : loop (scipy m) a.f m (p.fn m.order a.noiseScale) rule h1 a.t0 a.tmax y0 draws a.timeStops k
              = loop (scipy m) a.f m (p.fn m.order a.noiseScale) rule h1 a.t0 a.tmax y0 draws a.timeStops n := by
            simp only [loop_eq_run] at hn ⊢
            exact OdeFilter.run_final _ _ hnk (Or.inr ⟨e, hn⟩)
          rw [heq k, hfin, ← heq n, hnone] at hk
          cases hk
        · rw [perturbsolve_stable hk hkn] at hnone
          cases hnone
    · left
      rw [heq n, hn]
      exact if_neg hh

/-- **C83 (b), partial.**  Under the same conditions the solver ends after finitely many attempts, with a result that does not change
any more: with the lognormal perturbation always, with the uniform perturbation if no error norm can be `nan`
(see `perturbsolve_uniform_hangs`). -/
theorem perturbsolve_terminates_partial (scipy : Method → Formula d K) (a : Args d) (draws : ℕ → ℝ)
    (hprep : ∃ q, prepare a = .ok q) (hy : ∃ y0, a.y0 = .vector y0) {h1 : ℝ} (hf : FirstStepIs a h1) (hpos : 0 < h1)
    (hfit : a.t0 + h1 ≤ a.tmax) (hstops : StopsFine a.t0 a.timeStops)
    (hnan : a.perturb = "step-lognormal" ∨ NormsFine a) :
    ∃ n r, ∀ k, n ≤ k → perturbsolveIvp scipy a draws k = some r := by
  obtain ⟨⟨rule?, m, p⟩, hp⟩ := hprep
  obtain ⟨y0, hy⟩ := hy
  obtain ⟨hr, -, hpp⟩ := prepare_ok hp
  obtain ⟨rule, rfl, -⟩ := rule_first hr hf
  obtain ⟨n, ⟨sol, hs⟩ | ⟨e, -, hs | ⟨-, -, hu, er, ref, hx⟩⟩⟩ := perturbsolve_ends (scipy := scipy) (draws := draws) hp hy hf hpos hfit hstops
  · exact ⟨n, _, fun k hk => perturbsolve_stable hs hk⟩
  · exact ⟨n, _, fun k hk => perturbsolve_stable hs hk⟩
  · exfalso
    rcases hnan with hl | hl
    · simp only [choosePerturbation, hl, if_true] at hpp
      have := Except.ok.inj hpp
      rw [hu] at this
      cases this
    · exact norm_ne_nan hl hr er ref hx

/-- **C83 (c).**  What can happen, for finite first steps within the time span: a solution; RuntimeError from the step-size limits
(adaptive steps); ValueError from the uniform perturbation at a step of at least one; ValueError, or no end, after an undefined
error norm (adaptive steps). -/
theorem perturbsolve_outcome (scipy : Method → Formula d K) {a : Args d} {draws : ℕ → ℝ} (hprep : ∃ q, prepare a = .ok q)
    (hy : ∃ y0, a.y0 = .vector y0) {h1 : ℝ} (hf : FirstStepIs a h1) (hpos : 0 < h1)
    (hfit : a.t0 + h1 ≤ a.tmax) (hstops : StopsFine a.t0 a.timeStops) :
    (∃ n sol, perturbsolveIvp scipy a draws n = some (.ok sol)) ∨
    (a.adaptive = true ∧ ∃ n, perturbsolveIvp scipy a draws n = some (.error .runtimeError)) ∨
    (a.perturb = "step-uniform" ∧ (a.adaptive = false → 1 ≤ h1) ∧
      ∃ n, perturbsolveIvp scipy a draws n = some (.error .valueError)) ∨
    (a.adaptive = true ∧ ¬ NormsFine a ∧ ((∃ n, perturbsolveIvp scipy a draws n = some (.error .valueError)) ∨
      (a.perturb = "step-uniform" ∧ ∀ n, perturbsolveIvp scipy a draws n = none))) := by
  obtain ⟨⟨rule?, m, p⟩, hp⟩ := hprep
  obtain ⟨y0, hy⟩ := hy
  obtain ⟨hr, -, hpp⟩ := prepare_ok hp
  obtain ⟨rule, rfl, hfirst, hP, had, hcon⟩ := rule_first hr hf
  have huni : p = .uniform → a.perturb = "step-uniform" := by
    rintro rfl
    simp only [choosePerturbation] at hpp
    split at hpp
    · cases hpp
    · split at hpp
      · assumption
      · cases hpp
  have hadt : (∃ f x y, rule = StepRule.adaptive f x y) → a.adaptive = true := by
    rintro ⟨f, x, y, rfl⟩
    cases hb : a.adaptive with
    | true => rfl
    | false => cases hcon hb
  obtain ⟨n, ⟨sol, hs⟩ | ⟨e, ⟨b, hb1, hb2, hb3⟩, hs⟩⟩ :=
    perturbsolve_ends (scipy := scipy) (draws := draws) hp hy hf hpos hfit hstops
  · exact Or.inl ⟨n, sol, hs⟩
  · right
    have hnn : ∀ {er ref : Fin d → ℝ}, ruleNorm rule er ref = .nan → ¬ NormsFine a :=
      fun hx hN => norm_ne_nan hN hr _ _ hx
    have hadn : ∀ {er ref : Fin d → ℝ}, ruleNorm rule er ref = .nan → a.adaptive = true := by
      intro er ref hx
      cases rule with
      | adaptive f x y => exact hadt ⟨f, x, y, rfl⟩
      | constant s => cases hx
    rcases hs with hs | ⟨hs, rfl, hu, er, ref, hx⟩
    · rcases hb3 with ⟨-, u, hu⟩ | ⟨x, -, h4, er, ref, h5⟩
      · right; left
        cases p with
        | lognormal => cases hu
        | uniform =>
          simp only [Perturbation.fn, perturbUniform] at hu
          split at hu
          · rename_i h1le
            obtain rfl : PyErr.valueError = e := Except.error.inj hu
            refine ⟨huni rfl, fun hadf => ?_, n, hs⟩
            obtain rfl := hcon hadf
            have := (loop_constant (F := scipy m) (f := a.f) (m := m)
              (perturb := Perturbation.uniform.fn m.order a.noiseScale) (y0 := y0) (draws := draws) hpos hfit hstops n).1 b
              (List.mem_of_getLast? hb1)
            linarith
          · cases hu
      · obtain ⟨had', ⟨rfl, -⟩ | ⟨rfl, hx⟩⟩ := ruleSuggest_error h4
        · exact Or.inl ⟨hadt had', n, hs⟩
        · rw [hx] at h5
          exact Or.inr (Or.inr ⟨hadt had', hnn h5.symm, Or.inl ⟨n, hs⟩⟩)
    · exact Or.inr (Or.inr ⟨hadn hx, hnn hx, Or.inr ⟨huni hu, hs⟩⟩)

/-- **C83 (d).**  With constant steps the solver always returns a solution: for every vector field, every random number generator and
either perturbation (the uniform one for steps below one). -/
theorem perturbsolve_constant_succeeds (scipy : Method → Formula d K) {a : Args d} {draws : ℕ → ℝ}
    (hy : ∃ y0, a.y0 = .vector y0) (had : a.adaptive = false) {h1 : ℝ} (hs : a.step = some h1) (hpos : 0 < h1)
    (hfit : a.t0 + h1 ≤ a.tmax) (hstops : StopsFine a.t0 a.timeStops) (hm : a.method ∈ ["RK45", "RK23"])
    (hp : a.perturb = "step-lognormal" ∨ (a.perturb = "step-uniform" ∧ h1 < 1)) :
    ∃ n sol, ∀ k, n ≤ k → perturbsolveIvp scipy a draws k = some (.ok sol) := by
  have hprep : ∃ q, prepare a = .ok q := by
    have e1 : createSteprule a = .ok (some (.constant h1)) := by
      unfold createSteprule
      rw [had, if_neg (by simp), hs]
      rfl
    have e2 : ∃ m, chooseMethod a.method = .ok m := by
      simp only [List.mem_cons, List.not_mem_nil, or_false] at hm
      rcases hm with hm | hm <;> rw [hm]
      · exact ⟨.rk45, rfl⟩
      · exact ⟨.rk23, rfl⟩
    have e3 : ∃ p, choosePerturbation a.perturb = .ok p := by
      rcases hp with hp | ⟨hp, -⟩ <;> rw [hp]
      · exact ⟨.lognormal, rfl⟩
      · exact ⟨.uniform, rfl⟩
    obtain ⟨m, e2⟩ := e2
    obtain ⟨p, e3⟩ := e3
    exact ⟨(some (.constant h1), m, p), by simp [prepare, e1, e2, e3, Except.bind, Except.map]⟩
  rcases perturbsolve_outcome scipy (draws := draws) hprep hy (Or.inl hs) hpos hfit hstops with
    ⟨n, sol, h⟩ | ⟨h, -⟩ | ⟨h, h', -⟩ | ⟨h, -⟩
  · exact ⟨n, sol, fun k hk => perturbsolve_stable h hk⟩
  · rw [had] at h; cases h
  · rcases hp with hp | ⟨-, hlt⟩
    · rw [hp] at h
      exact absurd h (by decide)
    · exact absurd (h' had) (not_le.2 hlt)
  · rw [had] at h; cases h

/-! ## The states -/

/-- **C83 (e).**  A returned solution is the result of a sequence of attempts with positive steps, the `i`-th attempt using the
`i`-th random draw; with constant steps all of them are accepted. -/
theorem perturbsolve_is_run {scipy : Method → Formula d K} {a : Args d} {draws : ℕ → ℝ} {n : ℕ}
    {sol : State (Fin d → ℝ) K} (h : perturbsolveIvp scipy a draws n = some (.ok sol)) {h1 : ℝ} (hf : FirstStepIs a h1)
    (hpos : 0 < h1) (hfit : a.t0 + h1 ≤ a.tmax) (hstops : StopsFine a.t0 a.timeStops) :
    ∃ m p y0 es, chooseMethod a.method = .ok m ∧ choosePerturbation a.perturb = .ok p ∧ a.y0 = .vector y0 ∧
      run ((scipy m).rk a.f) (p.fn m.order a.noiseScale) a.t0 y0 es = .ok sol ∧ (∀ e ∈ es, 0 < e.dt) ∧
      (∀ i (hi : i < es.length), es[i].draw = draws i) ∧
      (a.adaptive = false → ∀ e ∈ es, e.accepted = true ∧ e.dt ≤ h1) := by
  obtain ⟨rule, m, p, y0, hp, hy, hfirst, hP, hdone, rfl⟩ := perturbsolve_ok h hf
  obtain ⟨hr, hm, hpp⟩ := prepare_ok hp
  have hnf : ∀ e, (loop (scipy m) a.f m (p.fn m.order a.noiseScale) rule h1 a.t0 a.tmax y0 draws a.timeStops n).status
      ≠ .failed e := by
    intro e he
    rw [hdone] at he; cases he
  refine ⟨m, p, y0, _, hm, hpp, hy, solutionOf_run hnf, fun e he => ?_, fun i hi => ?_, fun had e he => ?_⟩
  · obtain ⟨b, hb, e1, -⟩ := events_mem he
    rw [e1]
    exact (loop_attempts (hP hpos) hpos hfit hstops n).1 b hb
  · simp [events]
  · obtain ⟨rule', hrule, -, -, -, hcon⟩ := rule_first hr hf
    obtain rfl : rule = rule' := Option.some.inj hrule
    obtain rfl := hcon had
    obtain ⟨b, hb, e1, e2⟩ := events_mem he
    obtain ⟨g1, g2⟩ := loop_constant (F := scipy m) (f := a.f) (m := m) (perturb := p.fn m.order a.noiseScale) (y0 := y0)
      (draws := draws) hpos hfit hstops n
    rcases g2 with ⟨e', he'⟩ | g2
    · exact absurd he' (hnf e')
    · rw [e1, e2]
      exact ⟨g2 b hb, g1 b hb⟩

/-- **C83 (f).**  At the ends of the time span the solution object returns the initial value and the last state. -/
theorem perturbsolve_ends_of_solution {scipy : Method → Formula d K} {a : Args d} {draws : ℕ → ℝ} {n : ℕ}
    {sol : State (Fin d → ℝ) K} (h : perturbsolveIvp scipy a draws n = some (.ok sol)) {h1 : ℝ} (hf : FirstStepIs a h1)
    (hpos : 0 < h1) (hfit : a.t0 + h1 ≤ a.tmax) (hstops : StopsFine a.t0 a.timeStops) {y0 : Fin d → ℝ}
    (hy : a.y0 = .vector y0) :
    ∃ m, chooseMethod a.method = .ok m ∧ sol.states.head? = some y0 ∧
      solutionAt ((scipy m).rk a.f) sol a.t0 = .ok y0 ∧
      ∃ y, sol.states.getLast? = some y ∧ solutionAt ((scipy m).rk a.f) sol a.tmax = .ok y := by
  obtain ⟨m, p, y0', es, hm, -, hy', hrun, hdt, -⟩ := perturbsolve_is_run h hf hpos hfit hstops
  obtain rfl : y0 = y0' := by
    rw [hy] at hy'
    exact InitialValue.vector.inj hy'
  obtain ⟨g1, g2⟩ := dense_output_at_ends _ _ _ _ _ _ hrun hdt
  obtain ⟨-, b2, -, -, b5, -⟩ := bookkeeping _ _ _ _ _ _ hrun
  obtain ⟨-, hlast, -⟩ := perturbsolve_grid_partial h hf hpos hfit hstops
  refine ⟨m, hm, by rw [List.head?_eq_getElem?]; exact b5, g1, ?_⟩
  cases hl : sol.states.getLast? with
  | none =>
    rw [List.getLast?_eq_none_iff] at hl
    rw [hl] at b2
    simp at b2
  | some y => exact ⟨y, rfl, g2 _ y hlast hl⟩

/-- The facts kept by accepted attempts. -/
private structure Recursion (rk : Rk (Fin d → ℝ) K) (perturb : ℝ → ℝ → Res ℝ) (es : List Event) (s : State (Fin d → ℝ) K) :
    Prop where
  nlocs : s.locs.length = es.length + 1
  nstates : s.states.length = es.length + 1
  lastLoc : s.locs.getLast? = some s.t
  lastState : s.states.getLast? = some s.y
  slope : s.slope = rk.rhs s.t s.y
  recur : ∀ i (hi : i < es.length), ∃ noisy t y, perturb es[i].dt es[i].draw = .ok noisy ∧ s.locs[i]? = some t ∧
    s.states[i]? = some y ∧ s.locs[i + 1]? = some (t + es[i].dt) ∧
    s.states[i + 1]? = some (rk.stepY t y (rk.rhs t y) noisy)

/-- Without rejections, every state is computed from its predecessor by the Runge-Kutta formula with the perturbed step — if the
vector field does not depend on time or the perturbation leaves the steps as they are. -/
theorem states_recursion (rk : Rk (Fin d → ℝ) K) (perturb : ℝ → ℝ → Res ℝ) (t0 : ℝ) (y0 : Fin d → ℝ) (es : List Event)
    (s : State (Fin d → ℝ) K) (h : run rk perturb t0 y0 es = .ok s) (hacc : ∀ e ∈ es, e.accepted = true)
    (hfree : (∀ t t' y, rk.rhs t y = rk.rhs t' y) ∨ ∀ e ∈ es, perturb e.dt e.draw = .ok e.dt) :
    ∀ i (hi : i < es.length), ∃ noisy t y, perturb es[i].dt es[i].draw = .ok noisy ∧ s.locs[i]? = some t ∧
      s.states[i]? = some y ∧ s.locs[i + 1]? = some (t + es[i].dt) ∧
      s.states[i + 1]? = some (rk.stepY t y (rk.rhs t y) noisy) := by
  suffices H : Recursion rk perturb es s from H.recur
  induction es using List.reverseRecOn generalizing s with
  | nil =>
    rw [run, runFrom] at h
    obtain rfl := Except.ok.inj h
    exact ⟨rfl, rfl, rfl, rfl, rfl, fun i hi => absurd hi (Nat.not_lt_zero i)⟩
  | append_singleton es e ih =>
    rw [run, runFrom_append] at h
    obtain ⟨s1, h1, h2⟩ := bind_ok h
    have hI := ih s1 h1 (fun e he => hacc e (List.mem_append_left _ he))
      (hfree.imp id fun hf e he => hf e (List.mem_append_left _ he))
    have hemem : e ∈ es ++ [e] := by simp
    have hea := hacc e hemem
    obtain ⟨edt, edraw, eacc⟩ := e
    simp only at hea
    subst hea
    obtain ⟨g1, g2⟩ := step_accepted rk perturb s1 edt edraw
    cases hp : perturb edt edraw with
    | error err => rw [(g1 err hp).1] at h2; cases h2
    | ok noisy =>
      obtain ⟨s', e1, -, e3, e4, e5, e6, -⟩ := g2 noisy hp
      obtain rfl : s' = s := Except.ok.inj (e1.symm.trans h2)
      have hslope : s'.slope = rk.rhs (s1.t + noisy) s'.y := by
        rw [e4]
        simp only [step, attempt, hp, methodCallback, if_true] at h2
        obtain rfl := Except.ok.inj h2
        rfl
      refine ⟨?_, ?_, ?_, ?_, ?_, ?_⟩
      · simp [e5, hI.nlocs]
      · simp [e6, hI.nstates]
      · simp [e5, e3]
      · simp [e6]
      · rw [hslope, e3]
        rcases hfree with hf | hf
        · exact hf _ _ _
        · have : noisy = edt := by
            have := hf _ hemem
            simp only at this
            rw [hp] at this
            exact Except.ok.inj this
          rw [this]
      · intro i hi
        rw [List.length_append, List.length_singleton] at hi
        rcases Nat.lt_or_ge i es.length with hlt | hge
        · obtain ⟨z, t, y, r1, r2, r3, r4, r5⟩ := hI.recur i hlt
          refine ⟨z, t, y, ?_, ?_, ?_, ?_, ?_⟩
          · rw [List.getElem_append_left hlt]; exact r1
          · rw [e5, List.getElem?_append_left (by rw [hI.nlocs]; omega)]; exact r2
          · rw [e6, List.getElem?_append_left (by rw [hI.nstates]; omega)]; exact r3
          · rw [e5, List.getElem?_append_left (by rw [hI.nlocs]; omega), List.getElem_append_left hlt]; exact r4
          · rw [e6, List.getElem?_append_left (by rw [hI.nstates]; omega)]; exact r5
        · obtain rfl : i = es.length := by omega
          have l1 := hI.lastLoc
          have l2 := hI.lastState
          rw [List.getLast?_eq_getElem?, hI.nlocs] at l1
          rw [List.getLast?_eq_getElem?, hI.nstates] at l2
          simp only [Nat.add_sub_cancel] at l1 l2
          refine ⟨noisy, s1.t, s1.y, ?_, ?_, ?_, ?_, ?_⟩
          · simpa using hp
          · rw [e5, List.getElem?_append_left (by rw [hI.nlocs]; omega)]; exact l1
          · rw [e6, List.getElem?_append_left (by rw [hI.nstates]; omega)]; exact l2
          · rw [e5, List.getElem?_append_right (by rw [hI.nlocs])]
            simp [hI.nlocs]
          · rw [e6, List.getElem?_append_right (by rw [hI.nstates])]
            simp [hI.nstates, e4, hI.slope]

/-- **C83 (g), partial.**  Constant steps, vector field without time: every state is computed from its predecessor by the Runge-Kutta
formula with a randomly perturbed step.  (Partial: for vector fields that depend on time, or adaptive steps with rejections, the
slope passed on belongs to another point; see C66.) -/
theorem perturbsolve_states_partial {scipy : Method → Formula d K} {a : Args d} {draws : ℕ → ℝ} {n : ℕ}
    {sol : State (Fin d → ℝ) K} (h : perturbsolveIvp scipy a draws n = some (.ok sol)) (had : a.adaptive = false)
    {h1 : ℝ} (hs : a.step = some h1) (hpos : 0 < h1) (hfit : a.t0 + h1 ≤ a.tmax) (hstops : StopsFine a.t0 a.timeStops)
    (hfree : ∀ t t' y, a.f t y = a.f t' y) :
    ∃ m p, chooseMethod a.method = .ok m ∧ choosePerturbation a.perturb = .ok p ∧
      ∀ i, i + 1 < sol.locs.length → ∃ t t' y noisy, sol.locs[i]? = some t ∧ sol.locs[i + 1]? = some t' ∧
        sol.states[i]? = some y ∧ p.fn m.order a.noiseScale (t' - t) (draws i) = .ok noisy ∧
        sol.states[i + 1]? = some ((scipy m).stepY a.f t y (a.f t y) noisy) := by
  obtain ⟨m, p, y0, es, hm, hp, hy, hrun, hdt, hdraw, hacc⟩ := perturbsolve_is_run h (Or.inl hs) hpos hfit hstops
  have hall := hacc had
  refine ⟨m, p, hm, hp, fun i hi => ?_⟩
  have hlen : sol.locs.length = es.length + 1 := by
    have := (bookkeeping _ _ _ _ _ _ hrun).1
    rwa [show acceptedOf es = es from List.filter_eq_self.2 fun e he => (hall e he).1] at this
  obtain ⟨noisy, t, y, r1, r2, r3, r4, r5⟩ := states_recursion _ _ _ _ _ _ hrun (fun e he => (hall e he).1)
    (Or.inl hfree) i (by omega)
  refine ⟨t, _, y, noisy, r2, r4, r3, ?_, r5⟩
  rw [add_sub_cancel_left, ← hdraw i (by omega)]
  exact r1

/-- Without noise a positive step (below one for the uniform perturbation) stays as it is. -/
theorem perturbation_zero_noise (order : ℕ) (p : Perturbation) (step u : ℝ) (hs : 0 < step) (h1 : p = .uniform → step < 1) :
    p.fn order 0 step u = .ok step := by
  cases p with
  | lognormal =>
    simp [Perturbation.fn, perturbLognormal, Real.exp_log hs]
  | uniform =>
    simp only [Perturbation.fn, perturbUniform]
    rw [if_neg (not_le.2 (h1 rfl))]
    simp

/-- **C83 (h).**  With `noise_scale=0` and constant steps the solver is the plain Runge-Kutta method on the grid of the solution, for
every vector field and every random number generator. -/
theorem perturbsolve_without_noise {scipy : Method → Formula d K} {a : Args d} {draws : ℕ → ℝ} {n : ℕ}
    {sol : State (Fin d → ℝ) K} (h : perturbsolveIvp scipy a draws n = some (.ok sol)) (had : a.adaptive = false)
    {h1 : ℝ} (hs : a.step = some h1) (hpos : 0 < h1) (hfit : a.t0 + h1 ≤ a.tmax) (hstops : StopsFine a.t0 a.timeStops)
    (hn : a.noiseScale = 0) (hone : a.perturb = "step-uniform" → h1 < 1) :
    ∃ m, chooseMethod a.method = .ok m ∧
      ∀ i, i + 1 < sol.locs.length → ∃ t t' y, sol.locs[i]? = some t ∧ sol.locs[i + 1]? = some t' ∧
        sol.states[i]? = some y ∧ sol.states[i + 1]? = some ((scipy m).stepY a.f t y (a.f t y) (t' - t)) := by
  obtain ⟨m, p, y0, es, hm, hp, hy, hrun, hdt, hdraw, hacc⟩ := perturbsolve_is_run h (Or.inl hs) hpos hfit hstops
  have hall := hacc had
  have huni : p = .uniform → h1 < 1 := by
    rintro rfl
    refine hone ?_
    simp only [choosePerturbation] at hp
    split at hp
    · cases hp
    · split at hp
      · assumption
      · cases hp
  have hid : ∀ e ∈ es, p.fn m.order a.noiseScale e.dt e.draw = .ok e.dt := fun e he => by
    rw [hn]
    exact perturbation_zero_noise _ _ _ _ (hdt e he) fun hu => (hall e he).2.trans_lt (huni hu)
  refine ⟨m, hm, fun i hi => ?_⟩
  have hlen : sol.locs.length = es.length + 1 := by
    have := (bookkeeping _ _ _ _ _ _ hrun).1
    rwa [show acceptedOf es = es from List.filter_eq_self.2 fun e he => (hall e he).1] at this
  obtain ⟨noisy, t, y, r1, r2, r3, r4, r5⟩ := states_recursion _ _ _ _ _ _ hrun (fun e he => (hall e he).1)
    (Or.inr hid) i (by omega)
  refine ⟨t, _, y, r2, r4, r3, ?_⟩
  have : noisy = es[i].dt := by
    rw [hid es[i] (List.getElem_mem _)] at r1
    exact (Except.ok.inj r1).symm
  rw [add_sub_cancel_left, ← this]
  exact r5

/-! ## Exceptions -/

/-- **C83 (i).**  Missing tolerances, unknown methods and unknown perturbations raise ValueError (in this order, before anything is
computed); an empty list of stop locations raises RuntimeError; a number as initial value raises ValueError. -/
theorem perturbsolve_argument_errors (scipy : Method → Formula d K) (a : Args d) (draws : ℕ → ℝ) (n : ℕ) :
    (a.adaptive = true → (a.atol = none ∨ a.rtol = none) → perturbsolveIvp scipy a draws n = some (.error .valueError)) ∧
    (∀ rule?, createSteprule a = .ok rule? →
      (a.method ∉ ["RK45", "RK23"] ∨ a.perturb ∉ ["step-lognormal", "step-uniform"] →
        perturbsolveIvp scipy a draws n = some (.error .valueError)) ∧
      (a.method ∈ ["RK45", "RK23"] → a.perturb ∈ ["step-lognormal", "step-uniform"] →
        (a.timeStops = some [] → perturbsolveIvp scipy a draws n = some (.error .runtimeError)) ∧
        (a.timeStops ≠ some [] → (∃ x v, a.y0 = .number x v) →
          perturbsolveIvp scipy a draws n = some (.error .valueError)))) := by
  refine ⟨fun had h => ?_, fun rule? hr => ⟨fun h => ?_, fun hm hp => ⟨fun hst => ?_, fun hst hy => ?_⟩⟩⟩
  · have : createSteprule a = .error .valueError := by
      unfold createSteprule
      rw [if_pos had]
      rcases h with h | h
      · rw [h]
      · rw [h]
        cases a.atol <;> rfl
    simp [perturbsolveIvp, prepare, this, Except.bind]
  · simp only [perturbsolveIvp, prepare, hr, Except.bind]
    by_cases hm : a.method ∈ ["RK45", "RK23"]
    · have hp := h.resolve_left (not_not.2 hm)
      have e2 : ∃ m, chooseMethod a.method = .ok m := by
        simp only [List.mem_cons, List.not_mem_nil, or_false] at hm
        rcases hm with hm | hm <;> rw [hm]
        · exact ⟨.rk45, rfl⟩
        · exact ⟨.rk23, rfl⟩
      obtain ⟨m, e2⟩ := e2
      have e3 : choosePerturbation a.perturb = .error .valueError := by
        simp only [List.mem_cons, List.not_mem_nil, or_false, not_or] at hp
        rw [choosePerturbation, if_neg hp.1, if_neg hp.2]
      simp [e2, e3, Except.map]
    · have e2 : chooseMethod a.method = .error .valueError := by
        simp only [List.mem_cons, List.not_mem_nil, or_false, not_or] at hm
        rw [chooseMethod, if_neg hm.1, if_neg hm.2]
      simp [e2]
  all_goals
    have e2 : ∃ m, chooseMethod a.method = .ok m := by
      simp only [List.mem_cons, List.not_mem_nil, or_false] at hm
      rcases hm with hm | hm <;> rw [hm]
      · exact ⟨.rk45, rfl⟩
      · exact ⟨.rk23, rfl⟩
    have e3 : ∃ p, choosePerturbation a.perturb = .ok p := by
      simp only [List.mem_cons, List.not_mem_nil, or_false] at hp
      rcases hp with hp | hp <;> rw [hp]
      · exact ⟨.lognormal, rfl⟩
      · exact ⟨.uniform, rfl⟩
    obtain ⟨m, e2⟩ := e2
    obtain ⟨p, e3⟩ := e3
    simp only [perturbsolveIvp, prepare, hr, e2, e3, Except.bind, Except.map]
  · simp only [solve, hst, Ode.processStops]
  · obtain ⟨x, v, hy⟩ := hy
    have hps : ∃ st, Ode.processStops a.timeStops = .ok st := by
      cases hts : a.timeStops with
      | none => exact ⟨_, rfl⟩
      | some l =>
        cases l with
        | nil => exact absurd hts hst
        | cons x xs => exact ⟨_, rfl⟩
    obtain ⟨st, hps⟩ := hps
    simp only [solve, hps, hy]

/-- **C83 (j).**  Constant steps without a step size are not rejected beforehand, as they are in `probsolve_ivp`: the first attempt
raises TypeError. -/
theorem perturbsolve_missing_step (scipy : Method → Formula d K) (a : Args d) (draws : ℕ → ℝ) (n : ℕ)
    (had : a.adaptive = false) (hs : a.step = none) (hm : a.method ∈ ["RK45", "RK23"])
    (hp : a.perturb ∈ ["step-lognormal", "step-uniform"]) (hst : a.timeStops ≠ some []) (hy : ∃ y0, a.y0 = .vector y0)
    (hlt : a.t0 < a.tmax) : perturbsolveIvp scipy a draws n = some (.error .typeError) := by
  have e1 : createSteprule a = .ok none := by
    unfold createSteprule
    rw [had, if_neg (by simp), hs]
    rfl
  have e2 : ∃ m, chooseMethod a.method = .ok m := by
    simp only [List.mem_cons, List.not_mem_nil, or_false] at hm
    rcases hm with hm | hm <;> rw [hm]
    · exact ⟨.rk45, rfl⟩
    · exact ⟨.rk23, rfl⟩
  have e3 : ∃ p, choosePerturbation a.perturb = .ok p := by
    simp only [List.mem_cons, List.not_mem_nil, or_false] at hp
    rcases hp with hp | hp <;> rw [hp]
    · exact ⟨.lognormal, rfl⟩
    · exact ⟨.uniform, rfl⟩
  obtain ⟨m, e2⟩ := e2
  obtain ⟨p, e3⟩ := e3
  have hps : ∃ st, Ode.processStops a.timeStops = .ok st := by
    cases hts : a.timeStops with
    | none => exact ⟨_, rfl⟩
    | some l =>
      cases l with
      | nil => exact absurd hts hst
      | cons x xs => exact ⟨_, rfl⟩
  obtain ⟨st, hps⟩ := hps
  obtain ⟨y0, hy⟩ := hy
  simp only [perturbsolveIvp, prepare, e1, e2, e3, Except.bind, Except.map, solve, hps, hy, if_pos hlt]

/-- **C83 (k).**  The uniform perturbation raises ValueError for a first step of at least one, without stop locations. -/
theorem perturbsolve_uniform_large_step {scipy : Method → Formula d K} {a : Args d} {draws : ℕ → ℝ} {n : ℕ}
    (hprep : ∃ q, prepare a = .ok q) (hp : a.perturb = "step-uniform") (hy : ∃ y0, a.y0 = .vector y0) {h1 : ℝ}
    (hf : FirstStepIs a h1) (h1le : 1 ≤ h1) (hlt : a.t0 < a.tmax) (hst : a.timeStops = none) (hn : 0 < n) :
    perturbsolveIvp scipy a draws n = some (.error .valueError) := by
  obtain ⟨⟨rule?, m, p⟩, hprep⟩ := hprep
  obtain ⟨y0, hy⟩ := hy
  obtain ⟨hr, -, hpp⟩ := prepare_ok hprep
  obtain ⟨rule, rfl, hfirst, -⟩ := rule_first hr hf
  obtain rfl : Perturbation.uniform = p := by
    rw [hp] at hpp
    exact Except.ok.inj hpp
  suffices h1 : perturbsolveIvp scipy a draws 1 = some (.error .valueError) from perturbsolve_stable h1 hn
  rw [perturbsolve_eq hprep (by rw [hst]; simp) hy hfirst, hst]
  set c := loop (scipy m) a.f m (Perturbation.uniform.fn m.order a.noiseScale) rule h1 a.t0 a.tmax y0 draws none 1 with hc
  have hpert : Perturbation.uniform.fn m.order a.noiseScale h1 (draws 0) = .error .valueError := by
    simp only [Perturbation.fn, perturbUniform, if_pos h1le]
  have hcs := tryStep_cases (F := scipy m) (f := a.f) (m := m) (perturb := Perturbation.uniform.fn m.order a.noiseScale)
    (rule := rule) (first := h1) (tmax := a.tmax) (start := init ((scipy m).rk a.f) a.t0 y0) (draws := draws)
    (loop (scipy m) a.f m (Perturbation.uniform.fn m.order a.noiseScale) rule h1 a.t0 a.tmax y0 draws none 0)
    (loop (scipy m) a.f m (Perturbation.uniform.fn m.order a.noiseScale) rule h1 a.t0 a.tmax y0 draws none 0) rfl rfl
  have hc1 := loop_succ (scipy m) a.f m (Perturbation.uniform.fn m.order a.noiseScale) rule h1 a.t0 a.tmax y0 draws 0 rfl rfl
    (Or.inl ⟨rfl, hlt⟩)
  simp only at hcs
  rw [← hc1] at hcs
  rw [zero_add, ← hc] at hcs
  have hdt0 : (loop (scipy m) a.f m (Perturbation.uniform.fn m.order a.noiseScale) rule h1 a.t0 a.tmax y0 draws none 0).dt = h1 := rfl
  have hat0 : (loop (scipy m) a.f m (Perturbation.uniform.fn m.order a.noiseScale) rule h1 a.t0 a.tmax y0 draws none 0).attempts = 0 := rfl
  rw [hdt0, hat0, hpert] at hcs
  rcases hcs with ⟨e, he, hfail, -, b, hb, -, hb3⟩ | ⟨noisy, s', x, h, -⟩
  · obtain rfl := Except.error.inj he
    rw [hfail]
    refine if_neg ?_
    rintro ⟨-, b', hb', hb3'⟩
    rw [hb] at hb'
    simp only [List.getLast?_concat, Option.some.injEq] at hb'
    rw [← hb', hb3] at hb3'
    cases hb3'
  · cases h

/-- The first attempt, without stop locations. -/
theorem first_attempt (F : Formula d K) (f : ℝ → (Fin d → ℝ) → Fin d → ℝ) (m : Method) (perturb : ℝ → ℝ → Res ℝ)
    (rule : StepRule) (h t0 tmax : ℝ) (y0 : Fin d → ℝ) (draws : ℕ → ℝ) (hlt : t0 < tmax) {noisy : ℝ}
    (hp : perturb h (draws 0) = .ok noisy) :
    ∃ s' k, step (F.rk f) perturb (init (F.rk f) t0 y0) ⟨h, draws 0, true⟩ = .ok s' ∧
      (loop F f m perturb rule h t0 tmax y0 draws none 1).log =
        [⟨⟨init (F.rk f) t0 y0, .ok (.finite 0)⟩, h, ⟨s', .ok (ruleNorm rule (F.errors k noisy) y0)⟩,
          ruleAccepted rule (ruleNorm rule (F.errors k noisy) y0)⟩] ∧
      (∀ e, ruleSuggest m.order rule h (ruleNorm rule (F.errors k noisy) y0) = .error e →
        (loop F f m perturb rule h t0 tmax y0 draws none 1).status = .failed e) ∧
      (∀ h', ruleSuggest m.order rule h (ruleNorm rule (F.errors k noisy) y0) = .ok h' →
        ruleAccepted rule (ruleNorm rule (F.errors k noisy) y0) = true →
        (loop F f m perturb rule h t0 tmax y0 draws none 1).status = .fresh ∧
        (loop F f m perturb rule h t0 tmax y0 draws none 1).dt = min h' (tmax - (t0 + h)) ∧
        (loop F f m perturb rule h t0 tmax y0 draws none 1).state.pub.t = t0 + h ∧
        (loop F f m perturb rule h t0 tmax y0 draws none 1).attempts = 1 ∧
        (loop F f m perturb rule h t0 tmax y0 draws none 1).stopper = none) := by
  have hcs := tryStep_cases (F := F) (f := f) (m := m) (perturb := perturb) (rule := rule) (first := h) (tmax := tmax)
    (start := init (F.rk f) t0 y0) (draws := draws) (loop F f m perturb rule h t0 tmax y0 draws none 0)
    (loop F f m perturb rule h t0 tmax y0 draws none 0) rfl rfl
  have hc1 := loop_succ F f m perturb rule h t0 tmax y0 draws 0 rfl rfl (Or.inl ⟨rfl, hlt⟩)
  simp only at hcs
  have hstp : (loop F f m perturb rule h t0 tmax y0 draws none 1).stopper = none := by
    rw [← zero_add 1, hc1, tryStep_stopper]
    rfl
  rw [← hc1, zero_add] at hcs
  have hdt0 : (loop F f m perturb rule h t0 tmax y0 draws none 0).dt = h := rfl
  have hat0 : (loop F f m perturb rule h t0 tmax y0 draws none 0).attempts = 0 := rfl
  rw [hdt0, hat0, hp] at hcs
  rcases hcs with ⟨e, he, -⟩ | ⟨noisy', s', x, h1, h2, h3, h4, h5, h6⟩
  · cases he
  · obtain rfl := Except.ok.inj h1
    refine ⟨s', (F.rk f).stages t0 y0 (f t0 y0) noisy, h2, ?_, fun e he => ?_, fun h' hs' ha => ?_⟩
    · rw [h5, h3]; rfl
    · have hx : x = ruleNorm rule (F.errors ((F.rk f).stages t0 y0 (f t0 y0) noisy) noisy) y0 := h3
      rw [← hx] at he
      rcases h6 with ⟨e', g1, g2, -⟩ | ⟨h', g1, -⟩ | ⟨h', g1, -⟩ <;> rw [he] at g1
      · obtain rfl := Except.error.inj g1
        exact g2
      · cases g1
      · cases g1
    · have hx : x = ruleNorm rule (F.errors ((F.rk f).stages t0 y0 (f t0 y0) noisy) noisy) y0 := h3
      rw [← hx] at hs' ha
      rcases h6 with ⟨e', g1, g2, -⟩ | ⟨h'', g1, -, g3, g4, g5, -⟩ | ⟨h', -, g2, -⟩
      · rw [hs'] at g1; cases g1
      · rw [hs'] at g1
        obtain rfl := Except.ok.inj g1
        refine ⟨g3, g5, ?_, h4, hstp⟩
        rw [g4]
        obtain ⟨-, q⟩ := step_accepted (F.rk f) perturb (init (F.rk f) t0 y0) h (draws 0)
        obtain ⟨s'', q1, -, q3, -⟩ := q noisy hp
        obtain rfl : s'' = s' := Except.ok.inj (q1.symm.trans h2)
        exact q3
      · rw [ha] at g2; cases g2

/-- The factor by which the step changes after an attempt with the scaled error `x`, for a method of order `p`. -/
noncomputable def stepFactor (p : ℕ) (x : ℝ) : ℝ :=
  if x = 0 then 10 else max (1 / 5) (min 10 (95 / 100 * (1 / x) ^ (1 / ((p : ℝ) + 1))))

theorem rawStep_factor (p : ℕ) (h x : ℝ) : Ode.AdaptiveSteps.default.rawStep h x (p + 1) = stepFactor p x * h := by
  have e : Ode.AdaptiveSteps.default.change x (p + 1) = 95 / 100 * (1 / x) ^ (1 / ((p : ℝ) + 1)) := by
    show (0.95 : ℝ) * (1 / x) ^ (1 / ((p + 1 : ℕ) : ℝ)) = _
    push_cast
    norm_num
  unfold Ode.AdaptiveSteps.rawStep stepFactor
  rw [e]
  generalize 95 / 100 * (1 / x) ^ (1 / ((p : ℝ) + 1)) = y
  show (if x = 0 then (10 : ℝ) * h else if y < 0.2 then 0.2 * h else if 10 < y then 10 * h else y * h) = _
  by_cases h0 : x = 0
  · rw [if_pos h0, if_pos h0]
  · rw [if_neg h0, if_neg h0]
    by_cases h1 : y < 0.2
    · rw [if_pos h1, max_eq_left ((min_le_right _ _).trans (by norm_num at h1 ⊢; linarith))]
      norm_num
    · rw [if_neg h1]
      norm_num at h1
      by_cases h2 : 10 < y
      · rw [if_pos h2, min_eq_left h2.le, max_eq_right (by norm_num)]
      · rw [if_neg h2, min_eq_right (not_lt.1 h2), max_eq_right (by linarith)]

/-- **C83 (n).**  Every attempt with adaptive steps, at any time of the integration: the error estimate of the Runge-Kutta formula
for the perturbed step is measured in the root mean square norm relative to `atol + rtol * y`, where `y` is the current state; the
attempt is accepted iff this is less than one, and the next step is the last one times `0.95 * norm ** (-1 / (p + 1))`, at least
a fifth of it and at most ten times as much, where `p` is 5 for RK45 and 3 for RK23, but it does not go beyond the end.  If a
tolerance vanishes, the attempt is rejected and the step is divided by five, or the integration ends with an exception. -/
theorem adaptive_attempt (F : Formula d K) (f : ℝ → (Fin d → ℝ) → Fin d → ℝ) (m : Method) (perturb : ℝ → ℝ → Res ℝ)
    (a r : ℝ) (first t0 tmax : ℝ) (y0 : Fin d → ℝ) (draws : ℕ → ℝ) (n : ℕ) {c c' : Ode.Config (LoopState d K) ℝ}
    {fs : FirstStep} (hc : loop F f m perturb (.adaptive fs a r) first t0 tmax y0 draws none n = c)
    (hs : (c.status = .fresh ∧ c.state.pub.t < tmax) ∨ c.status = .retry)
    (hc' : loop F f m perturb (.adaptive fs a r) first t0 tmax y0 draws none (n + 1) = c') {noisy : ℝ}
    (hp : perturb c.dt (draws c.attempts) = .ok noisy) :
    ∃ k : K, ∃ y e : Fin d → ℝ, y = c.state.pub.y ∧ e = F.errors k noisy ∧
      k = F.stages f c.state.pub.t y (withAttributes c.log c.state.pub).slope noisy ∧
      ∃ acc : Bool, c'.log.map (·.accepted) = c.log.map (·.accepted) ++ [acc] ∧
      (d = 0 ∨ (∃ i, a + r * y i = 0 ∧ e i = 0) → acc = false ∧ c'.status = .failed .valueError) ∧
      (d ≠ 0 → (¬ ∃ i, a + r * y i = 0 ∧ e i = 0) → (∃ i, a + r * y i = 0) → acc = false ∧ c'.state = c.state ∧
        (c'.status = .failed .runtimeError ∨ c'.status = .retry ∧ c'.dt = min (c.dt / 5) (tmax - c.state.pub.t))) ∧
      (d ≠ 0 → (∀ i, a + r * y i ≠ 0) → ∀ x, x = √((∑ i, (e i / (a + r * y i)) ^ 2) / d) →
        (acc = true ↔ x < 1) ∧
        (c'.status = .failed .runtimeError ∨
          ∃ p : ℕ, p = (match m with | .rk45 => 5 | .rk23 => 3) ∧
            (x < 1 → c'.status = .fresh ∧ c'.state.pub.t = c.state.pub.t + c.dt ∧
              c'.dt = min (stepFactor p x * c.dt) (tmax - (c.state.pub.t + c.dt))) ∧
            (1 ≤ x → c'.status = .retry ∧ c'.state = c.state ∧
              c'.dt = min (stepFactor p x * c.dt) (tmax - c.state.pub.t)))) := by
  have hcs := tryStep_cases (F := F) (f := f) (m := m) (perturb := perturb) (rule := .adaptive fs a r) (first := first) (tmax := tmax)
    (start := init (F.rk f) t0 y0) (draws := draws) c c rfl rfl
  have hc1 := loop_succ F f m perturb (.adaptive fs a r) first t0 tmax y0 draws n hc
    (by rw [← hc, loop_stopper]) hs
  simp only at hcs
  rw [← hc1, hc', hp] at hcs
  rcases hcs with ⟨e, he, -⟩ | ⟨noisy', s', x, h1, h2, h3, h4, h5, h6⟩
  · cases he
  obtain rfl := Except.ok.inj h1
  have ht : (withAttributes c.log c.state.pub).t = c.state.pub.t := by
    unfold withAttributes
    split <;> rfl
  have hy : (withAttributes c.log c.state.pub).y = c.state.pub.y := by
    unfold withAttributes
    split <;> rfl
  have htime : s'.t = c.state.pub.t + c.dt := by
    obtain ⟨-, q⟩ := step_accepted (F.rk f) perturb (withAttributes c.log c.state.pub) c.dt (draws c.attempts)
    obtain ⟨s'', q1, -, q3, -⟩ := q noisy hp
    obtain rfl : s'' = s' := Except.ok.inj (q1.symm.trans h2)
    rw [q3, ht]
  rw [ht, hy] at h3
  refine ⟨_, c.state.pub.y, _, rfl, rfl, rfl, ruleAccepted (.adaptive fs a r) x, by rw [h5, List.map_append]; rfl,
    fun hnan => ?_, fun hd hn hinf => ?_, fun hd hfin w hw => ?_⟩
  · obtain rfl : x = .nan := h3.trans (if_pos hnan)
    refine ⟨rfl, ?_⟩
    rcases h6 with ⟨e', g1, g2, -⟩ | ⟨h', g1, -⟩ | ⟨h', g1, -⟩
    · obtain rfl : PyErr.valueError = e' := Except.error.inj g1
      exact g2
    · cases g1
    · cases g1
  · obtain rfl : x = .inf := h3.trans ((if_neg (not_or.2 ⟨hd, hn⟩)).trans (if_pos hinf))
    have hsm : Ode.AdaptiveSteps.default.small * c.dt = c.dt / 5 := by
      show (0.2 : ℝ) * c.dt = _
      ring
    refine ⟨rfl, ?_⟩
    have hsug : ruleSuggest m.order (.adaptive fs a r) c.dt .inf = .error .runtimeError ∨
        ruleSuggest m.order (.adaptive fs a r) c.dt .inf = .ok (c.dt / 5) := by
      simp only [ruleSuggest, hsm]
      split_ifs <;> simp
    rcases h6 with ⟨e', g1, g2, g3⟩ | ⟨h', -, g2, -⟩ | ⟨h', g1, -, g3, g4, g5, -⟩
    · refine ⟨g3, Or.inl ?_⟩
      rcases hsug with q | q <;> rw [q] at g1
      · obtain rfl := Except.error.inj g1
        exact g2
      · cases g1
    · cases g2
    · refine ⟨g4, Or.inr ⟨g3, ?_⟩⟩
      rcases hsug with q | q <;> rw [q] at g1
      · cases g1
      · obtain rfl := Except.ok.inj g1
        exact g5
  · have hx : x = .finite w := by
      rw [h3, ruleNorm, if_neg (not_or.2 ⟨hd, fun ⟨i, hi, _⟩ => hfin i hi⟩), if_neg fun ⟨i, hi⟩ => hfin i hi, hw,
        Real.sqrt_div (Finset.sum_nonneg fun _ _ => sq_nonneg _)]
      rfl
    subst hx
    have hacc : ruleAccepted (.adaptive fs a r) (.finite w) = true ↔ w < 1 := by
      simp [ruleAccepted, Ode.AdaptiveSteps.isAccepted]
    have hsug : ruleSuggest m.order (.adaptive fs a r) c.dt (.finite w) = .error .runtimeError ∨
        ruleSuggest m.order (.adaptive fs a r) c.dt (.finite w) = .ok (stepFactor m.order w * c.dt) := by
      simp only [ruleSuggest, Ode.AdaptiveSteps.suggest, rawStep_factor]
      split_ifs <;> simp
    refine ⟨hacc, ?_⟩
    rcases h6 with ⟨e', g1, g2, g3⟩ | ⟨h', g1, g2, g3, g4, g5, -⟩ | ⟨h', g1, g2, g3, g4, g5, -⟩
    · left
      rcases hsug with q | q <;> rw [q] at g1
      · obtain rfl := Except.error.inj g1
        exact g2
      · cases g1
    · right
      rcases hsug with q | q <;> rw [q] at g1
      · cases g1
      obtain rfl := Except.ok.inj g1
      exact ⟨m.order, by cases m <;> rfl, fun _ => ⟨g3, by rw [g4]; exact htime, g5⟩, fun hle => absurd (hacc.1 g2) (not_lt.2 hle)⟩
    · right
      rcases hsug with q | q <;> rw [q] at g1
      · cases g1
      obtain rfl := Except.ok.inj g1
      refine ⟨m.order, by cases m <;> rfl, fun hlt => ?_, fun _ => ⟨g3, g4, g5⟩⟩
      rw [hacc.2 hlt] at g2
      cases g2

/-- **C83 (l), disagreement.**  Adaptive steps with the uniform perturbation fail when they should do best: error estimates that
vanish enlarge the step tenfold, and a step of at least one raises ValueError. -/
theorem perturbsolve_uniform_grows (scipy : Method → Formula d K) (hz : ∀ m k h, (scipy m).errors k h = 0) {a : Args d}
    (draws : ℕ → ℝ) (hprep : ∃ q, prepare a = .ok q) (hp : a.perturb = "step-uniform") (had : a.adaptive = true)
    (hN : NormsFine a) {y0 : Fin d → ℝ} (hy : a.y0 = .vector y0) {h : ℝ} (hs : a.step = some h) (h1 : h < 1) (h2 : 1 ≤ 10 * h)
    (hlong : a.t0 + h + 1 ≤ a.tmax) (hst : a.timeStops = none) :
    perturbsolveIvp scipy a draws 2 = some (.error .valueError) := by
  obtain ⟨⟨rule?, m, p⟩, hprep⟩ := hprep
  obtain ⟨hr, -, hpp⟩ := prepare_ok hprep
  obtain ⟨rule, rfl, hfirst, -, hadr, -⟩ := rule_first hr (Or.inl hs)
  obtain ⟨x, y, hx, hyt, rfl⟩ := hadr had
  obtain rfl : Perturbation.uniform = p := by
    rw [hp] at hpp
    exact Except.ok.inj hpp
  rcases hN with hN | ⟨hd, hrt, x', hx', hx0⟩
  · rw [had] at hN; cases hN
  obtain rfl : y = 0 := by rw [hyt] at hrt; exact Option.some.inj hrt
  obtain rfl : x' = x := by rw [hx] at hx'; exact (Option.some.inj hx').symm
  rw [perturbsolve_eq hprep (by rw [hst]; simp) hy hfirst, hst]
  have hpert : ∃ noisy, Perturbation.uniform.fn m.order a.noiseScale h (draws 0) = .ok noisy := by
    simp only [Perturbation.fn, perturbUniform, if_neg (not_le.2 h1)]
    exact ⟨_, rfl⟩
  obtain ⟨noisy, hpert⟩ := hpert
  obtain ⟨s', k, -, -, -, hok⟩ := first_attempt (scipy m) a.f m (Perturbation.uniform.fn m.order a.noiseScale)
    (.adaptive (.finite h) x' 0) h a.t0 a.tmax y0 draws (by linarith) hpert
  have hnorm : ruleNorm (.adaptive (.finite h) x' 0) ((scipy m).errors k noisy) y0 = .finite 0 := by
    unfold ruleNorm
    rw [hz]
    simp [hx0, hd.ne', Ode.errorestToNorm]
  have hsug : ruleSuggest m.order (.adaptive (.finite h) x' 0) h (.finite 0) = .ok (10 * h) := by
    simp only [ruleSuggest, Ode.AdaptiveSteps.suggest, Ode.AdaptiveSteps.rawStep, Ode.AdaptiveSteps.default, if_true]
    rw [if_neg (by norm_num; linarith), if_neg (by norm_num; linarith)]
  rw [hnorm] at hok
  obtain ⟨g1, g2, g3, g4, g5⟩ := hok _ hsug (by simp [ruleAccepted, Ode.AdaptiveSteps.isAccepted])
  set c := loop (scipy m) a.f m (Perturbation.uniform.fn m.order a.noiseScale) (.adaptive (.finite h) x' 0) h a.t0 a.tmax y0
    draws none 1 with hc
  have hc2 := loop_succ (scipy m) a.f m (Perturbation.uniform.fn m.order a.noiseScale) (.adaptive (.finite h) x' 0) h a.t0 a.tmax
    y0 draws 1 hc.symm g5 (Or.inl ⟨g1, by rw [g3]; linarith⟩)
  have hcs := tryStep_cases (F := scipy m) (f := a.f) (m := m) (perturb := Perturbation.uniform.fn m.order a.noiseScale)
    (rule := .adaptive (.finite h) x' 0) (first := h) (tmax := a.tmax) (start := init ((scipy m).rk a.f) a.t0 y0)
    (draws := draws) c c rfl rfl
  simp only at hcs
  rw [← hc2] at hcs
  have hlarge : Perturbation.uniform.fn m.order a.noiseScale c.dt (draws c.attempts) = .error .valueError := by
    have : 1 ≤ c.dt := by
      rw [g2]
      exact le_min h2 (by linarith)
    simp only [Perturbation.fn, perturbUniform, if_pos this]
  rw [hlarge] at hcs
  rcases hcs with ⟨e, he, hfail, -, b, hb, -, hb3⟩ | ⟨noisy, s', x, h, -⟩
  · obtain rfl := Except.error.inj he
    show (match (loop _ _ _ _ _ _ _ _ _ _ _ (1 + 1)).status with | .failed e => _ | .done => _ | _ => _) = _
    rw [hfail]
    refine if_neg ?_
    rintro ⟨-, b', hb', hb3'⟩
    rw [hb] at hb'
    simp only [List.getLast?_concat, Option.some.injEq] at hb'
    rw [← hb', hb3] at hb3'
    cases hb3'
  · cases h

/-- **C83 (m), disagreement.**  A vanishing tolerance (the initial value enters it with its sign) with a vanishing error estimate:
the solver raises ValueError with the lognormal perturbation, and does not end with the uniform one. -/
theorem perturbsolve_nan (scipy : Method → Formula d K) (hz : ∀ m k h, (scipy m).errors k h = 0) {a : Args d}
    (draws : ℕ → ℝ) (hprep : ∃ q, prepare a = .ok q) (had : a.adaptive = true)
    {y0 : Fin d → ℝ} (hy : a.y0 = .vector y0) {h x r : ℝ} (hs : a.step = some h) (hx : a.atol = some x) (hr : a.rtol = some r)
    (htol : ∃ i, x + r * y0 i = 0) (hlt : a.t0 < a.tmax) (hst : a.timeStops = none) :
    (a.perturb = "step-lognormal" → perturbsolveIvp scipy a draws 1 = some (.error .valueError)) ∧
    (a.perturb = "step-uniform" → h < 1 → ∀ n, perturbsolveIvp scipy a draws n = none) := by
  obtain ⟨⟨rule?, m, p⟩, hprep⟩ := hprep
  obtain ⟨hcr, -, hpp⟩ := prepare_ok hprep
  obtain ⟨rule, rfl, hfirst, -, hadr, -⟩ := rule_first hcr (Or.inl hs)
  obtain ⟨x', r', hx', hr', rfl⟩ := hadr had
  obtain rfl : x' = x := by rw [hx] at hx'; exact (Option.some.inj hx').symm
  obtain rfl : r' = r := by rw [hr] at hr'; exact (Option.some.inj hr').symm
  have heq := fun n => perturbsolve_eq (scipy := scipy) (draws := draws) (n := n) hprep (by rw [hst]; simp) hy hfirst
  rw [hst] at heq
  have key : ∀ noisy, p.fn m.order a.noiseScale h (draws 0) = .ok noisy →
      (loop (scipy m) a.f m (p.fn m.order a.noiseScale) (.adaptive (.finite h) x' r') h a.t0 a.tmax y0 draws none 1).status
        = .failed .valueError ∧
      ∃ b, (loop (scipy m) a.f m (p.fn m.order a.noiseScale) (.adaptive (.finite h) x' r') h a.t0 a.tmax y0 draws none 1).log.getLast?
        = some b ∧ b.proposed.norm = .ok .nan := by
    intro noisy hpert
    obtain ⟨s', k, -, hlog, herr, -⟩ := first_attempt (scipy m) a.f m (p.fn m.order a.noiseScale)
      (.adaptive (.finite h) x' r') h a.t0 a.tmax y0 draws hlt hpert
    have hnorm : ruleNorm (.adaptive (.finite h) x' r') ((scipy m).errors k noisy) y0 = .nan := by
      unfold ruleNorm
      rw [hz]
      obtain ⟨i, hi⟩ := htol
      exact if_pos (Or.inr ⟨i, hi, rfl⟩)
    rw [hnorm] at herr hlog
    refine ⟨herr _ rfl, ?_⟩
    rw [hlog]
    exact ⟨_, rfl, rfl⟩
  constructor
  · intro hl
    obtain rfl : Perturbation.lognormal = p := by
      rw [hl] at hpp
      exact Except.ok.inj hpp
    obtain ⟨k1, -⟩ := key _ rfl
    rw [heq 1, k1]
    refine if_neg ?_
    rintro ⟨h, -⟩
    cases h
  · intro hu h1 n
    obtain rfl : Perturbation.uniform = p := by
      rw [hu] at hpp
      exact Except.ok.inj hpp
    have hpert : ∃ noisy, Perturbation.uniform.fn m.order a.noiseScale h (draws 0) = .ok noisy := by
      simp only [Perturbation.fn, perturbUniform, if_neg (not_le.2 h1)]
      exact ⟨_, rfl⟩
    obtain ⟨noisy, hpert⟩ := hpert
    obtain ⟨k1, b, k2, k3⟩ := key _ hpert
    cases n with
    | zero =>
      rw [heq 0]
      rfl
    | succ n =>
      have hfin := OdeFilter.run_final (fullEnv (scipy m) a.f m (Perturbation.uniform.fn m.order a.noiseScale)
        (.adaptive (.finite h) x' r') h a.t0 a.tmax y0 draws none) none (Nat.le_add_left 1 n)
      simp only [← loop_eq_run] at hfin
      have hfin := hfin (Or.inr ⟨_, k1⟩)
      rw [heq (n + 1), hfin, k1]
      exact if_pos ⟨rfl, b, k2, k3⟩

/-! ## Concrete cases -/

/-- Euler's method as a stand-in for scipy's formulas, with error estimate zero. -/
noncomputable def eulerFormula : Method → Formula 1 Unit := fun _ =>
  ⟨fun _ _ y k h => y + h • k, fun _ _ _ _ _ => (), fun y _ _ _ => y, fun _ _ => 0⟩

/-- `y' = y`, `y(0) = 1` on `[0, 2]` with constant steps `1/4` and stop locations 1 and 3/2. -/
noncomputable def growthArgs : Args 1 :=
  { f := fun _ y => y, t0 := 0, tmax := 2, y0 := .vector fun _ => 1, method := "RK45", perturb := "step-lognormal",
    noiseScale := 10, adaptive := false, atol := none, rtol := none, step := some (1 / 4), timeStops := some [1, 3 / 2] }

theorem growthArgs_stops : StopsFine growthArgs.t0 growthArgs.timeStops := by
  refine Or.inr ⟨[1, 3 / 2], rfl, by simp, ?_, ?_⟩
  · simp; norm_num
  · intro s hs
    simp only [List.tail_cons, List.mem_singleton] at hs
    rw [hs]
    show (0 : ℝ) < 3 / 2
    norm_num

/-- A call that meets the hypotheses of the theorems about the grid, termination and the states, with any random numbers. -/
example (draws : ℕ → ℝ) : ∃ n sol, perturbsolveIvp eulerFormula growthArgs draws n = some (.ok sol) ∧
    sol.locs.head? = some 0 ∧ sol.locs.getLast? = some 2 ∧ (3 / 2 : ℝ) ∈ sol.locs ∧
    sol.states.head? = some (fun _ => 1) ∧
    ∀ i, i + 1 < sol.locs.length → ∃ t t' y noisy, sol.locs[i]? = some t ∧ sol.locs[i + 1]? = some t' ∧
      sol.states[i]? = some y ∧ perturbLognormal 5 10 (t' - t) (draws i) = .ok noisy ∧
      sol.states[i + 1]? = some (y + noisy • y) := by
  have hfit : growthArgs.t0 + 1 / 4 ≤ growthArgs.tmax := by
    show (0 : ℝ) + 1 / 4 ≤ 2
    norm_num
  obtain ⟨n, sol, h⟩ := perturbsolve_constant_succeeds eulerFormula (a := growthArgs) (draws := draws) ⟨_, rfl⟩ rfl rfl
    (by norm_num) hfit growthArgs_stops (by simp [growthArgs]) (Or.inl rfl)
  have h := h n le_rfl
  obtain ⟨g1, g2, -, -, g5⟩ := perturbsolve_grid_partial h (Or.inl rfl) (by norm_num) hfit growthArgs_stops
  obtain ⟨-, -, g6, -⟩ := perturbsolve_ends_of_solution h (Or.inl rfl) (by norm_num) hfit growthArgs_stops rfl
  obtain ⟨m, p, hm, hp, g7⟩ := perturbsolve_states_partial h rfl rfl (by norm_num) hfit growthArgs_stops (fun _ _ _ => rfl)
  obtain rfl : Method.rk45 = m := Except.ok.inj hm
  obtain rfl : Perturbation.lognormal = p := Except.ok.inj hp
  refine ⟨n, sol, h, g1, g2, g5 (3 / 2) (by simp [growthArgs]) ?_ ?_, g6, g7⟩
  · show (0 : ℝ) < 3 / 2
    norm_num
  · show (3 / 2 : ℝ) ≤ 2
    norm_num

/-- The first attempt for `y' = y`, `y(0) = 1` with a first step 1/4 and an error estimate of a tenth, tolerances 1/100 and 1/100: the
scaled error is 5, so the attempt is repeated with a smaller step. -/
example (draws : ℕ → ℝ) : ∃ c' : Ode.Config (LoopState 1 Unit) ℝ, c' =
      loop { eulerFormula .rk23 with errors := fun _ _ _ => 1 / 10 } (fun _ y => y) .rk23 (fun h _ => .ok h)
        (.adaptive (.finite (1 / 4)) (1 / 100) (1 / 100)) (1 / 4) 0 2 (fun _ => 1) draws none 1 ∧
    c'.log.map (·.accepted) = [false] ∧
    (c'.status = .failed .runtimeError ∨ c'.status = .retry ∧ c'.dt = min (stepFactor 3 5 * (1 / 4)) 2) := by
  refine ⟨_, rfl, ?_⟩
  obtain ⟨k, y, e, rfl, rfl, -, acc, hlog, -, -, h⟩ := adaptive_attempt { eulerFormula .rk23 with errors := fun _ _ _ => 1 / 10 }
    (fun _ y => y) .rk23 (fun h _ => .ok h) (1 / 100) (1 / 100) (1 / 4) 0 2 (fun _ => 1) draws 0 (fs := .finite (1 / 4)) rfl
    (Or.inl ⟨rfl, show (0 : ℝ) < 2 by norm_num⟩) rfl rfl
  have hx : (5 : ℝ) = √((∑ i : Fin 1, ((1 / 10 : ℝ) / (1 / 100 + 1 / 100 * (fun _ => 1 : Fin 1 → ℝ) i)) ^ 2) / (1 : ℕ)) := by
    rw [Fin.sum_univ_one]
    norm_num
    rw [show (25 : ℝ) = 5 ^ 2 by norm_num, Real.sqrt_sq (by norm_num)]
  obtain ⟨h1, h2⟩ := h one_ne_zero (fun i => show (1 / 100 + 1 / 100 * 1 : ℝ) ≠ 0 by norm_num) 5 hx
  have hacc : acc = false := by
    cases acc with
    | false => rfl
    | true => exact absurd (h1.1 rfl) (by norm_num)
  subst hacc
  refine ⟨hlog, h2.imp id fun ⟨p, hp, _, q⟩ => ?_⟩
  obtain rfl : p = 3 := hp
  obtain ⟨q1, -, q3⟩ := q (by norm_num)
  refine ⟨q1, q3.trans ?_⟩
  show min (stepFactor 3 5 * (1 / 4)) (2 - 0) = _
  rw [sub_zero]

/-- The same call with `noise_scale=0` is Euler's method, also for `y' = t y`. -/
example (draws : ℕ → ℝ) :
    ∃ n sol, perturbsolveIvp eulerFormula { growthArgs with f := fun t y => t • y, noiseScale := 0 } draws n = some (.ok sol) ∧
    ∀ i, i + 1 < sol.locs.length → ∃ t t' y, sol.locs[i]? = some t ∧ sol.locs[i + 1]? = some t' ∧
      sol.states[i]? = some y ∧ sol.states[i + 1]? = some (y + (t' - t) • t • y) := by
  have hfit : growthArgs.t0 + 1 / 4 ≤ growthArgs.tmax := by
    show (0 : ℝ) + 1 / 4 ≤ 2
    norm_num
  obtain ⟨n, sol, h⟩ := perturbsolve_constant_succeeds eulerFormula
    (a := { growthArgs with f := fun t y => t • y, noiseScale := 0 }) (draws := draws) ⟨_, rfl⟩ rfl rfl
    (by norm_num) hfit growthArgs_stops (by simp [growthArgs]) (Or.inl rfl)
  have h := h n le_rfl
  obtain ⟨_, -, g⟩ := perturbsolve_without_noise h rfl rfl (by norm_num) hfit growthArgs_stops rfl
    (fun h => absurd h (by simp [growthArgs]))
  exact ⟨n, sol, h, g⟩

/-- Adaptive steps with the default arguments: `y' = y`, `y(0) = 1` on `[0, 2]`, first step `0.01`. -/
example (draws : ℕ → ℝ) : ∃ n r, ∀ k, n ≤ k →
    perturbsolveIvp eulerFormula (Args.defaults (fun _ y => y) 0 2 (.vector fun _ => 1)) draws k = some r := by
  have hone : norm2 (fun _ : Fin 1 => (1 : ℝ)) = 1 := by simp [norm2]
  refine perturbsolve_terminates_partial _ _ _ ⟨_, rfl⟩ ⟨_, rfl⟩ (h1 := 0.01) (Or.inr ⟨rfl, rfl, _, rfl, ?_, ?_⟩) (by norm_num) ?_
    (Or.inl rfl) (Or.inl rfl)
  · intro h
    exact absurd (congrFun h 0) (by simp [Args.defaults])
  · simp only [Args.defaults, hone]
    norm_num
  · show (0 : ℝ) + 0.01 ≤ 2
    norm_num

/-- The witness for (l): `y' = y` with error estimate zero, first step `1/2`, uniform perturbation. -/
example (draws : ℕ → ℝ) : perturbsolveIvp eulerFormula
    { growthArgs with perturb := "step-uniform", adaptive := true, tmax := 10, atol := some 1, rtol := some 0, step := some (1 / 2), timeStops := none } draws 2 = some (.error .valueError) :=
  perturbsolve_uniform_grows _ (fun _ _ _ => rfl) draws ⟨_, rfl⟩ rfl rfl (Or.inr ⟨by norm_num, rfl, 1, rfl, one_ne_zero⟩) rfl rfl
    (by norm_num) (by norm_num) (by show (0 : ℝ) + 1 / 2 + 1 ≤ 10; norm_num) rfl

/-- The witness for (m): `y(0) = -1` and equal tolerances. -/
example (draws : ℕ → ℝ) (n : ℕ) : perturbsolveIvp eulerFormula
    { growthArgs with y0 := .vector fun _ => -1, perturb := "step-uniform", adaptive := true, atol := some 0.01, rtol := some 0.01, timeStops := none } draws n = none :=
  (perturbsolve_nan _ (fun _ _ _ => rfl) draws ⟨_, rfl⟩ rfl rfl rfl rfl rfl ⟨0, by norm_num⟩
    (by show (0 : ℝ) < 2; norm_num) rfl).2 rfl (by norm_num) n

/-- Constant steps without a step size. -/
example (draws : ℕ → ℝ) (n : ℕ) : perturbsolveIvp eulerFormula { growthArgs with step := none } draws n
    = some (.error .typeError) :=
  perturbsolve_missing_step _ _ _ _ rfl rfl (by simp [growthArgs]) (by simp [growthArgs]) (by simp [growthArgs]) ⟨_, rfl⟩
    (by show (0 : ℝ) < 2; norm_num)

/-- A method that scipy has but `perturbsolve_ivp` does not. -/
example (draws : ℕ → ℝ) (n : ℕ) : perturbsolveIvp eulerFormula { growthArgs with method := "DOP853" } draws n
    = some (.error .valueError) :=
  ((perturbsolve_argument_errors eulerFormula { growthArgs with method := "DOP853" } draws n).2 _ rfl).1
    (Or.inl (by simp))

/-- The uniform perturbation with step 1. -/
example (draws : ℕ → ℝ) : perturbsolveIvp eulerFormula
    { growthArgs with perturb := "step-uniform", step := some 1, timeStops := none } draws 1 = some (.error .valueError) :=
  perturbsolve_uniform_large_step ⟨_, rfl⟩ rfl ⟨_, rfl⟩ (Or.inl rfl) le_rfl (by show (0 : ℝ) < 2; norm_num) rfl one_pos

end Probnum.Perturbed
