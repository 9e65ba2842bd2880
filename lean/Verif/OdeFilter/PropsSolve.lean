import Verif.OdeFilter.SolveLemmas
import Verif.Posterior.EvalLemmas

/-!
# C82: `probsolve_ivp`
-/

namespace Probnum.OdeFilter

open Matrix LinGauss IWP Kalman Gauss Posterior FiltSmooth MeasureTheory ProbabilityTheory

variable {d q : ℕ}

/-! ## Specification -/

/-- The size of the first step: the argument `step`, or the proposal `‖y0‖ / (100 ‖f(t0, y0)‖)`. -/
def FirstStepIs (a : Args d) (h : ℝ) : Prop :=
  a.step = some h ∨ (a.adaptive = true ∧ a.step = none ∧ ∃ y0 v, a.y0 = .vector y0 ∧ a.ode.f (some a.t0) y0 = .ok v ∧
    v ≠ 0 ∧ h = 0.01 * norm2 y0 / norm2 v)

/-- Time stops that are not given, or a nonempty ascending list with at most its first entry not right of `t0`. -/
def StopsFine (t0 : ℝ) (stops : Option (List ℝ)) : Prop :=
  stops = none ∨ ∃ l, stops = some l ∧ l ≠ [] ∧ Ode.GoodStops t0 l

/-! ## Lemmas -/

theorem norm2_eq_zero {v : Fin d → ℝ} : norm2 v = 0 ↔ v = 0 := by
  unfold norm2
  rw [Real.sqrt_eq_zero (Finset.sum_nonneg fun i _ => sq_nonneg _),
    Finset.sum_eq_zero_iff_of_nonneg (fun i _ => sq_nonneg _)]
  constructor
  · intro h; funext i; simpa using h i (Finset.mem_univ i)
  · rintro rfl i _; simp

theorem prepare_first {a : Args d} {rule : StepRule} {D : Diff} {st : Strategy} (hp : prepare a = .ok (rule, D, st))
    {h : ℝ} (hf : FirstStepIs a h) : rule.first = .finite h ∧ (0 < h → rule.Positive) := by
  obtain ⟨rule', hr, hp⟩ := bind_ok hp
  obtain ⟨D', -, hp⟩ := bind_ok hp
  obtain ⟨-, -, hp⟩ := bind_ok hp
  obtain ⟨st', -, hp⟩ := map_ok hp
  obtain ⟨rfl, -⟩ := Prod.mk.inj hp
  unfold constructSteprule at hr
  rcases hf with hs | ⟨had, hs, y0, v, hy, hv, hne, rfl⟩
  · rw [hs] at hr
    by_cases had : a.adaptive = true
    · rw [if_pos had] at hr
      cases hat : a.atol with
      | none => rw [hat] at hr; cases hr
      | some at' =>
        cases hrt : a.rtol with
        | none => rw [hat, hrt] at hr; cases hr
        | some rt =>
          rw [hat, hrt] at hr
          have := Except.ok.inj hr
          subst this
          exact ⟨rfl, fun _ => trivial⟩
    · rw [if_neg had] at hr
      have := Except.ok.inj hr
      subst this
      exact ⟨rfl, fun h => h⟩
  · rw [if_pos had] at hr
    cases hat : a.atol with
    | none => rw [hat] at hr; cases hr
    | some at' =>
      cases hrt : a.rtol with
      | none => rw [hat, hrt] at hr; cases hr
      | some rt =>
        rw [hat, hrt, hs] at hr
        simp only at hr
        obtain ⟨x, hx, hr⟩ := map_ok hr
        subst hr
        rw [hy, proposeFirststep, hv] at hx
        simp only [Except.map] at hx
        have := Except.ok.inj hx
        subst this
        refine ⟨?_, fun _ => trivial⟩
        show firstStepRatio _ _ = _
        rw [firstStepRatio, if_neg (fun h => hne (norm2_eq_zero.1 h))]

theorem processStops_ok {stops : Option (List ℝ)} {st : Option (Ode.Stopper ℝ)} (h : Ode.processStops stops = .ok st) :
    stops ≠ some [] := by
  rintro rfl
  cases h

theorem solve_ok {E : Numerics d q} {S : Solver d q} {rule : StepRule} {D : Diff} {t0 tmax : ℝ} {stops : Option (List ℝ)}
    {dense : Bool} {scipy : List ℝ → Res (List ℝ × List (Fin d → ℝ))} {n : ℕ} {sol : Solution d q} {h : ℝ}
    (hs : solve E S rule D t0 tmax stops dense scipy n = some (.ok sol)) (hf : rule.first = .finite h) :
    stops ≠ some [] ∧ q ≠ 0 ∧ ∃ rv, nonProbabilisticFit E (solverPrior E t0) t0 1e-2 1e-7 scipy = .ok rv ∧
      (Ode.run (loopEnv S rule h t0 tmax (rv.toNormal E.ch E.damping) D) stops n).status = .done ∧
      postprocess (solverPrior E t0) dense
        (loopRun (Ode.run (loopEnv S rule h t0 tmax (rv.toNormal E.ch E.damping) D) stops n)) = .ok sol := by
  unfold solve at hs
  cases hst : Ode.processStops stops with
  | error e => rw [hst] at hs; cases hs
  | ok st =>
    rw [hst] at hs
    simp only at hs
    refine ⟨processStops_ok hst, ?_⟩
    by_cases hq : q = 0
    · rw [if_pos hq] at hs; cases hs
    · rw [if_neg hq] at hs
      refine ⟨hq, ?_⟩
      cases hfit : nonProbabilisticFit E (solverPrior E t0) t0 1e-2 1e-7 scipy with
      | error e => rw [hfit] at hs; cases hs
      | ok rv =>
        rw [hfit] at hs
        have he : effectiveFirst t0 stops rule.first = some h := by rw [hf]; rfl
        simp only [he] at hs
        refine ⟨rv, rfl, ?_⟩
        cases hc : (Ode.run (loopEnv S rule h t0 tmax (rv.toNormal E.ch E.damping) D) stops n).status with
        | fresh => rw [hc] at hs; cases hs
        | retry => rw [hc] at hs; cases hs
        | failed e => rw [hc] at hs; cases hs
        | done =>
          rw [hc] at hs
          exact ⟨rfl, Option.some.inj hs⟩

theorem postprocess_ok {prior : Prior ℝ (Rv (d * (q + 1))) ℝ} {dense : Bool} {r : Run d q} {sol : Solution d q}
    (h : postprocess prior dense r = .ok sol) : sol.times = r.times ∧
      filteringStates r = .ok sol.filtering ∧ sol.diffusion = r.diffusion := by
  obtain ⟨filt, hf, h⟩ := bind_ok h
  by_cases hd : dense = true
  · rw [if_pos hd] at h
    obtain ⟨p, -, h⟩ := bind_ok h
    obtain ⟨sm, -, h⟩ := map_ok h
    subst h
    exact ⟨rfl, hf, rfl⟩
  · rw [if_neg hd] at h
    have := Except.ok.inj h
    subst this
    exact ⟨rfl, hf, rfl⟩

theorem probsolve_prepared {E : Numerics d q} {a : Args d} {scipy : List ℝ → Res (List ℝ × List (Fin d → ℝ))} {n : ℕ}
    {sol : Solution d q} (h : probsolveIvp E a scipy n = some (.ok sol)) :
    ∃ rule D st, prepare a = .ok (rule, D, st) ∧
      solve E (makeSolver E a.ode st rule) rule D a.t0 a.tmax a.timeStops a.denseOutput scipy n = some (.ok sol) := by
  unfold probsolveIvp at h
  cases hp : prepare a with
  | error e => rw [hp] at h; cases h
  | ok p =>
    rw [hp] at h
    exact ⟨p.1, p.2.1, p.2.2, rfl, h⟩

theorem admissible {E : Numerics d q} {o : Ode d} {st : Strategy} {rule : StepRule} {h t0 tmax : ℝ}
    {rv0 : Normal (d * (q + 1))} {D : Diff} {stops : Option (List ℝ)} (hs : StopsFine t0 stops) :
    Ode.AdmissibleStops (loopEnv (makeSolver E o st rule) rule h t0 tmax rv0 D) stops := by
  rcases hs with hs | ⟨l, h1, h2, h3⟩
  · exact Or.inl hs
  · exact Or.inr ⟨l, h1, h2, h3, loop_rejectShrinks E o st rule h t0 tmax rv0 D⟩

/-! ## The time grid -/

/-- **C82, time grid.**  If `probsolve_ivp` returns a solution and the first step is positive and does not jump over the
end, then the reported times start at `t0`, increase strictly, end at `tmax` and contain every stop location in
`(t0, tmax]`. -/
theorem probsolve_grid_partial {E : Numerics d q} {a : Args d} {scipy : List ℝ → Res (List ℝ × List (Fin d → ℝ))} {n : ℕ}
    {sol : Solution d q} (h : probsolveIvp E a scipy n = some (.ok sol)) {h1 : ℝ} (hf : FirstStepIs a h1) (hpos : 0 < h1)
    (hfit : a.t0 + h1 ≤ a.tmax) (hstops : StopsFine a.t0 a.timeStops) :
    sol.times.head? = some a.t0 ∧ sol.times.getLast? = some a.tmax ∧ sol.times.Pairwise (· < ·) ∧
      (∀ s ∈ a.timeStops.getD [], a.t0 < s → s ≤ a.tmax → s ∈ sol.times) := by
  obtain ⟨rule, D, st, hp, hs⟩ := probsolve_prepared h
  obtain ⟨hfirst, hP⟩ := prepare_first hp hf
  obtain ⟨-, hq, rv, hrv, hdone, hpost⟩ := solve_ok hs hfirst
  obtain ⟨ht, -⟩ := postprocess_ok hpost
  have htk := loop_timeKeeping (makeSolver E a.ode st rule) (hP hpos) h1 a.t0 a.tmax (rv.toNormal E.ch E.damping) D
  have hadm := admissible (E := E) (o := a.ode) (st := st) (rule := rule) (h := h1) (tmax := a.tmax)
    (rv0 := rv.toNormal E.ch E.damping) (D := D) hstops
  have e : sol.times = Ode.times (loopEnv (makeSolver E a.ode st rule) rule h1 a.t0 a.tmax (rv.toNormal E.ch E.damping) D)
      a.timeStops n := ht
  rw [e]
  obtain ⟨g1, g2, -⟩ := Ode.times_increasing_within_domain_partial _ a.timeStops htk hpos hfit hadm n
  refine ⟨g1, Ode.solution_ends_at_tmax_partial _ a.timeStops htk hpos hfit hadm n hdone, g2, ?_⟩
  intro s hs1 hs2 hs3
  exact Ode.stop_locations_hit_partial _ a.timeStops htk hpos hfit hadm n hdone s hs1 hs2 hs3

/-! ## Termination -/

/-- The result does not depend on the bound on the number of attempts. -/
theorem probsolve_stable {E : Numerics d q} {a : Args d} {scipy : List ℝ → Res (List ℝ × List (Fin d → ℝ))} {n m : ℕ}
    {r : Res (Solution d q)} (h : probsolveIvp E a scipy n = some r) (hnm : n ≤ m) : probsolveIvp E a scipy m = some r := by
  unfold probsolveIvp at h ⊢
  cases hp : prepare a with
  | error e => rw [hp] at h; exact h
  | ok p =>
    rw [hp] at h
    obtain ⟨rule, D, st⟩ := p
    simp only at h ⊢
    unfold solve at h ⊢
    cases hst : Ode.processStops a.timeStops with
    | error e => rw [hst] at h; exact h
    | ok st' =>
      rw [hst] at h
      simp only at h ⊢
      by_cases hq : q = 0
      · rw [if_pos hq] at h ⊢; exact h
      · rw [if_neg hq] at h ⊢
        cases hfit : nonProbabilisticFit E (solverPrior E a.t0) a.t0 1e-2 1e-7 scipy with
        | error e => rw [hfit] at h; exact h
        | ok rv =>
          rw [hfit] at h
          simp only at h ⊢
          cases he : effectiveFirst a.t0 a.timeStops rule.first with
          | none => rw [he] at h; exact h
          | some h1 =>
            rw [he] at h
            simp only at h ⊢
            set env := loopEnv (makeSolver E a.ode st rule) rule h1 a.t0 a.tmax (rv.toNormal E.ch E.damping) D
            have hfin : Ode.run env a.timeStops m = Ode.run env a.timeStops n := by
              refine run_final env a.timeStops hnm ?_
              cases hc : (Ode.run env a.timeStops n).status with
              | fresh => rw [hc] at h; cases h
              | retry => rw [hc] at h; cases h
              | failed e => exact Or.inr ⟨e, rfl⟩
              | done => exact Or.inl rfl
            rw [hfin]
            exact h

/-- **C82, termination.**  With a positive first step that does not jump over the end, `probsolve_ivp` ends, for every
vector field (whatever its calls return or raise), every tolerance and every result of the initialisation. -/
theorem probsolve_terminates_partial (E : Numerics d q) (a : Args d) (scipy : List ℝ → Res (List ℝ × List (Fin d → ℝ)))
    {h1 : ℝ} (hf : FirstStepIs a h1) (hpos : 0 < h1) (hfit : a.t0 + h1 ≤ a.tmax) (hstops : StopsFine a.t0 a.timeStops) :
    ∃ n r, ∀ m, n ≤ m → probsolveIvp E a scipy m = some r := by
  suffices hx : ∃ n r, probsolveIvp E a scipy n = some r by
    obtain ⟨n, r, hr⟩ := hx
    exact ⟨n, r, fun m hm => probsolve_stable hr hm⟩
  unfold probsolveIvp
  cases hp : prepare a with
  | error e => exact ⟨0, _, rfl⟩
  | ok p =>
    obtain ⟨rule, D, st⟩ := p
    obtain ⟨hfirst, hP⟩ := prepare_first hp hf
    simp only
    unfold solve
    cases hst : Ode.processStops a.timeStops with
    | error e => exact ⟨0, _, rfl⟩
    | ok st' =>
      simp only
      by_cases hq : q = 0
      · exact ⟨0, _, if_pos hq⟩
      · simp only [hq, if_false]
        cases hfitr : nonProbabilisticFit E (solverPrior E a.t0) a.t0 1e-2 1e-7 scipy with
        | error e => exact ⟨0, _, rfl⟩
        | ok rv =>
          have he : effectiveFirst a.t0 a.timeStops rule.first = some h1 := by rw [hfirst]; rfl
          simp only [he]
          set env := loopEnv (makeSolver E a.ode st rule) rule h1 a.t0 a.tmax (rv.toNormal E.ch E.damping) D with henv
          obtain ⟨m, hm, hsug⟩ := suggest_pos (hP hpos)
          obtain ⟨n, hn⟩ := Ode.loop_terminates env a.timeStops (loop_timeKeeping _ (hP hpos) _ _ _ _ _) hpos hfit
            (admissible hstops) hm (ρ := 0.95) (by norm_num)
            (fun dt n h hs => by
              obtain ⟨x, -, hx⟩ := bind_ok hs
              exact hsug q dt x h hx)
            (fun dt n h hdt hacc hs => by
              obtain ⟨x, rfl, hx⟩ := bind_ok hs
              exact (rejected_shrinks q dt x h hacc hx).2 hdt)
          refine ⟨n, ?_⟩
          rcases hn with hn | ⟨e, hn⟩
          · exact ⟨_, by rw [hn]⟩
          · exact ⟨_, by rw [hn]⟩

/-! ## The posterior -/

/-- The initialisation gets data at increasing times (`scipy.integrate.solve_ivp` returns the requested times). -/
def FitData (q : ℕ) (t0 : ℝ) (scipy : List ℝ → Res (List ℝ × List (Fin d → ℝ))) : Prop :=
  ∃ (N : ℕ) (loc : ℕ → ℝ) (y : ℕ → Fin d → ℝ), 0 < N ∧ (listOf N loc).Pairwise (· < ·) ∧
    scipy (fitGrid t0 1e-2 q) = .ok (listOf N loc, listOf N y)

theorem fit_valid (E : Numerics d q) (hε : 0 ≤ E.damping) {t0 : ℝ} {scipy : List ℝ → Res (List ℝ × List (Fin d → ℝ))}
    (hdata : FitData q t0 scipy) :
    ∃ rv, nonProbabilisticFit E (solverPrior E t0) t0 1e-2 1e-7 scipy = .ok rv ∧ (rv.toNormal E.ch E.damping).Valid := by
  obtain ⟨N, loc, y, hN, hloc, hs⟩ := hdata
  obtain ⟨hv, hsome⟩ := diffuseRv_valid (d * (q + 1))
  obtain ⟨post, rv, u, -, -, h3, h4⟩ := improve_eq E hε (std := 1e-7) (by norm_num) t0 (diffuseRv (d * (q + 1))) hv hsome hN
    loc hloc y
  refine ⟨rv, ?_, ?_⟩
  · unfold nonProbabilisticFit
    rw [hs]
    exact h3
  · obtain ⟨L, hL⟩ := Option.isSome_iff_exists.1 h4.isSome
    simp only [Normal.Valid, Rv.toNormal, cholOf, hL]
    exact h4.valid L hL

theorem prepare_diffusion {a : Args d} {rule : StepRule} {D : Diff} {st : Strategy}
    (hp : prepare a = .ok (rule, D, st)) : chooseDiffusion a.diffusionModel a.t0 = .ok D := by
  obtain ⟨rule', hr, hp⟩ := bind_ok hp
  obtain ⟨D', hD, hp⟩ := bind_ok hp
  obtain ⟨-, -, hp⟩ := bind_ok hp
  obtain ⟨st', -, hp⟩ := map_ok hp
  obtain ⟨-, h2⟩ := Prod.mk.inj hp
  obtain ⟨rfl, -⟩ := Prod.mk.inj h2
  exact hD

/-- The states of a solution are those of a sequence of attempts from the fitted initial state. -/
theorem solution_follows {E : Numerics d q} {a : Args d} {scipy : List ℝ → Res (List ℝ × List (Fin d → ℝ))} {n : ℕ}
    {sol : Solution d q} (h : probsolveIvp E a scipy n = some (.ok sol)) {h1 : ℝ} (hf : FirstStepIs a h1) :
    ∃ rule D st rv dts r, prepare a = .ok (rule, D, st) ∧
      nonProbabilisticFit E (solverPrior E a.t0) a.t0 1e-2 1e-7 scipy = .ok rv ∧
      Run.many (makeSolver E a.ode st rule) (Run.start a.t0 (rv.toNormal E.ch E.damping) D) dts = .ok r ∧
      sol.times = r.times ∧
      filteringStates r = .ok sol.filtering ∧ sol.diffusion = r.diffusion := by
  obtain ⟨rule, D, st, hp, hs⟩ := probsolve_prepared h
  obtain ⟨hfirst, -⟩ := prepare_first hp hf
  obtain ⟨-, hq, rv, hrv, hdone, hpost⟩ := solve_ok hs hfirst
  obtain ⟨dts, hd⟩ := run_follows (makeSolver E a.ode st rule) rule h1 a.t0 a.tmax (rv.toNormal E.ch E.damping) D
    a.timeStops n (fun e he => by rw [hdone] at he; cases he)
  obtain ⟨ht, hfs, hdf⟩ := postprocess_ok hpost
  exact ⟨rule, D, st, rv, dts, _, hp, hrv, hd, ht, hfs, hdf⟩

/-- **C82, posterior with `diffusion_model="constant"`.**  For an autonomous ODE the filtering states of a solution are
the Bayesian updates of each other for one common diffusion, starting with the fitted initial state scaled by it. -/
theorem probsolve_constant_posterior {E : Numerics d q} (hε : 0 ≤ E.damping) {a : Args d} (hfree : a.ode.TimeFree)
    (hdm : a.diffusionModel.toList.map Char.toLower = "constant".toList)
    {scipy : List ℝ → Res (List ℝ × List (Fin d → ℝ))} (hdata : FitData q a.t0 scipy) {n : ℕ}
    {sol : Solution d q} (h : probsolveIvp E a scipy n = some (.ok sol)) {h1 : ℝ} (hf : FirstStepIs a h1) :
    ∃ rule st rv s, prepare a = .ok (rule, .constant .init, st) ∧
      nonProbabilisticFit E (solverPrior E a.t0) a.t0 1e-2 1e-7 scipy = .ok rv ∧
      sol.filtering.length = sol.times.length ∧
      (0 < s → sol.filtering.head? = some (scaleRv s (rv.toNormal E.ch E.damping)) ∧
        Consecutive (fun _ t₀ x₀ t₁ x₁ => BayesStep (makeSolver E a.ode st rule) s t₀ x₀ t₁ x₁) sol.times sol.filtering) := by
  obtain ⟨rule, D, st, rv, dts, r, hp, hrv, hm, ht, hfs, -⟩ := solution_follows h hf
  have hD := prepare_diffusion hp
  rw [chooseDiffusion, if_pos hdm] at hD
  have := Except.ok.inj hD
  subst this
  obtain ⟨rv', hrv', hv⟩ := fit_valid E hε hdata
  rw [hrv] at hrv'
  have := Except.ok.inj hrv'
  subst this
  obtain ⟨C, hC, -, hlen, -, -, hcal⟩ := constant_posterior_is_calibrated_partial (S := makeSolver E a.ode st rule) hfree hv hm
  obtain ⟨s, hs, hmap⟩ := map_ok hfs
  have hsC : C.diffusion = some s := by
    rw [hC] at hs
    simp only [Diff.postFactor] at hs
    cases hc : C.diffusion with
    | none => rw [hc] at hs; cases hs
    | some s' => rw [hc] at hs; exact congrArg some (Except.ok.inj hs)
  refine ⟨rule, st, rv, s, hp, hrv, ?_, fun hpos => ?_⟩
  · rw [← hmap, List.length_map, ht, hlen]
  · obtain ⟨g1, -, g3⟩ := hcal s _ hfs hsC hpos
    rw [ht]
    exact ⟨g1, g3⟩

/-- **C82, posterior with `diffusion_model="dynamic"`** (the default).  For an autonomous ODE the filtering states of a
solution start with the fitted initial state and are the Bayesian updates of each other, each step with its own
diffusion. -/
theorem probsolve_dynamic_posterior {E : Numerics d q} (hε : 0 ≤ E.damping) {a : Args d} (hfree : a.ode.TimeFree)
    (hdm : a.diffusionModel.toList.map Char.toLower = "dynamic".toList)
    {scipy : List ℝ → Res (List ℝ × List (Fin d → ℝ))} (hdata : FitData q a.t0 scipy) {n : ℕ}
    {sol : Solution d q} (h : probsolveIvp E a scipy n = some (.ok sol)) {h1 : ℝ} (hf : FirstStepIs a h1) :
    ∃ rule st rv, ∃ rvs : List (Normal (d * (q + 1))), prepare a = .ok (rule, .piecewise (.init a.t0), st) ∧
      nonProbabilisticFit E (solverPrior E a.t0) a.t0 1e-2 1e-7 scipy = .ok rv ∧
      sol.filtering.map Normal.mean = rvs.map Normal.mean ∧ sol.filtering.map Normal.cov = rvs.map Normal.cov ∧
      rvs.length = sol.times.length ∧ rvs.head? = some (rv.toNormal E.ch E.damping) ∧
      Consecutive (fun _ t₀ x₀ t₁ x₁ => ∃ s, BayesStep (makeSolver E a.ode st rule) s t₀ x₀ t₁ x₁) sol.times rvs := by
  obtain ⟨rule, D, st, rv, dts, r, hp, hrv, hm, ht, hfs, -⟩ := solution_follows h hf
  have hD := prepare_diffusion hp
  rw [chooseDiffusion, if_neg (by rw [hdm]; decide), if_pos hdm] at hD
  have := Except.ok.inj hD
  subst this
  obtain ⟨rv', hrv', hv⟩ := fit_valid E hε hdata
  rw [hrv] at hrv'
  have := Except.ok.inj hrv'
  subst this
  obtain ⟨P, hP, -, -, -, hlen, -, hhead, hcons, states, hst, hmean, hcov⟩ :=
    piecewise_posterior_is_calibrated_partial (S := makeSolver E a.ode st rule) hfree hv hm
  rw [hfs] at hst
  have := Except.ok.inj hst
  subst this
  refine ⟨rule, st, rv, r.rvs, hp, hrv, hmean, hcov, by rw [ht, hlen], hhead, ?_⟩
  rw [ht]
  intro k t₀ x₀ t₁ x₁ e1 e2 e3 e4
  obtain ⟨s, -, hb⟩ := hcons k t₀ x₀ t₁ x₁ e1 e2 e3 e4
  exact ⟨s, hb⟩

/-! ## Argument errors -/

/-- **C82, argument errors.**  In this order: missing tolerances or a missing step, an exception of the vector field in
the proposal of the first step, an unknown diffusion model, a number as initial value, an unknown method; then an empty
list of stop locations, `algo_order=0`, an exception of the initialisation. -/
theorem probsolve_argument_errors (E : Numerics d q) (a : Args d) (scipy : List ℝ → Res (List ℝ × List (Fin d → ℝ)))
    (n : ℕ) :
    (a.adaptive = true → (a.atol = none ∨ a.rtol = none) → probsolveIvp E a scipy n = some (.error .valueError)) ∧
    (a.adaptive = false → a.step = none → probsolveIvp E a scipy n = some (.error .valueError)) ∧
    (∀ rule, constructSteprule a.ode a.t0 a.y0 a.adaptive a.step a.atol a.rtol = .ok rule →
      (a.diffusionModel.toList.map Char.toLower ≠ "constant".toList →
        a.diffusionModel.toList.map Char.toLower ≠ "dynamic".toList → probsolveIvp E a scipy n = some (.error .valueError)) ∧
      (a.diffusionModel.toList.map Char.toLower ∈ ["constant".toList, "dynamic".toList] →
        ((∃ y f, a.y0 = .number y f) → probsolveIvp E a scipy n = some (.error .typeError)) ∧
        ((∃ y, a.y0 = .vector y) →
          (a.method.toList.map Char.toUpper ≠ "EK0".toList → a.method.toList.map Char.toUpper ≠ "EK1".toList →
            probsolveIvp E a scipy n = some (.error .valueError)) ∧
          (a.method.toList.map Char.toUpper ∈ ["EK0".toList, "EK1".toList] →
            (a.timeStops = some [] → probsolveIvp E a scipy n = some (.error .runtimeError)) ∧
            (a.timeStops ≠ some [] → (q = 0 → probsolveIvp E a scipy n = some (.error .indexError)) ∧
              (q ≠ 0 → ∀ e, nonProbabilisticFit E (solverPrior E a.t0) a.t0 1e-2 1e-7 scipy = .error e →
                probsolveIvp E a scipy n = some (.error e))))))) := by
  have hdc : a.diffusionModel.toList.map Char.toLower ∈ ["constant".toList, "dynamic".toList] →
      ∃ D, chooseDiffusion a.diffusionModel a.t0 = .ok D := by
    intro h
    unfold chooseDiffusion
    rcases List.mem_cons.1 h with h | h
    · exact ⟨_, if_pos h⟩
    · rw [List.mem_singleton] at h
      by_cases h' : a.diffusionModel.toList.map Char.toLower = "constant".toList
      · exact ⟨_, if_pos h'⟩
      · exact ⟨_, by rw [if_neg h', if_pos h]⟩
  have hmc : a.method.toList.map Char.toUpper ∈ ["EK0".toList, "EK1".toList] → ∃ s, chooseMethod a.method = .ok s := by
    intro h
    unfold chooseMethod
    rcases List.mem_cons.1 h with h | h
    · exact ⟨_, if_pos h⟩
    · rw [List.mem_singleton] at h
      by_cases h' : a.method.toList.map Char.toUpper = "EK0".toList
      · exact ⟨_, if_pos h'⟩
      · exact ⟨_, by rw [if_neg h', if_pos h]⟩
  refine ⟨fun had hno => ?_, fun had hno => ?_, fun rule hr => ⟨fun h1 h2 => ?_, fun hd => ?_⟩⟩
  · have : constructSteprule a.ode a.t0 a.y0 a.adaptive a.step a.atol a.rtol = .error .valueError := by
      unfold constructSteprule
      rw [if_pos had]
      cases hat : a.atol with
      | none => rfl
      | some x =>
        rcases hno with h | h
        · rw [hat] at h; cases h
        · rw [h]
    simp only [probsolveIvp, prepare, this, Except.bind]
  · have : constructSteprule a.ode a.t0 a.y0 a.adaptive a.step a.atol a.rtol = .error .valueError := by
      unfold constructSteprule
      rw [if_neg (by rw [had]; decide), hno]
    simp only [probsolveIvp, prepare, this, Except.bind]
  · simp only [probsolveIvp, prepare, hr, Except.bind, chooseDiffusion, if_neg h1, if_neg h2]
  · obtain ⟨D, hD⟩ := hdc hd
    refine ⟨?_, ?_⟩
    · rintro ⟨y, f, hy⟩
      rw [hy] at hr
      simp only [probsolveIvp, prepare, hr, hD, Except.bind, hy, checkDimension]
    · rintro ⟨y, hy⟩
      rw [hy] at hr
      refine ⟨fun h1 h2 => ?_, fun hmm => ?_⟩
      · simp only [probsolveIvp, prepare, hr, hD, Except.bind, hy, checkDimension, chooseMethod, if_neg h1, if_neg h2,
          Except.map]
      · obtain ⟨st, hst⟩ := hmc hmm
        have hp : prepare a = .ok (rule, D, st) := by
          simp only [prepare, hr, hD, Except.bind, hy, checkDimension, hst, Except.map]
        refine ⟨fun hs => ?_, fun hs => ⟨fun hq => ?_, fun hq e he => ?_⟩⟩
        · simp only [probsolveIvp, hp, solve, hs, Ode.processStops]
        all_goals
          have hps : ∃ s, Ode.processStops a.timeStops = .ok s := by
            cases h : a.timeStops with
            | none => exact ⟨_, rfl⟩
            | some l =>
              cases l with
              | nil => exact absurd h hs
              | cons x xs => exact ⟨_, rfl⟩
          obtain ⟨s, hps⟩ := hps
        · simp only [probsolveIvp, hp, solve, hps, if_pos hq]
        · simp only [probsolveIvp, hp, solve, hps, if_neg hq, he]

/-! ## The other outcomes -/

/-- The vector field and its Jacobian can be evaluated at all times. -/
def Total (o : Ode d) : Prop := (∀ t x, ∃ v, o.f (some t) x = .ok v) ∧ ∀ t x, ∃ J, o.df (some t) x = .ok J

theorem evaluates_of_total {E : Numerics d q} {o : Ode d} (h : Total o) (st : Strategy) (rule : StepRule) (t : ℝ) :
    Evaluates (makeSolver E o st rule) t := ⟨h.1 t, fun _ => h.2 t⟩

/-- `solve` after the preparations. -/
theorem probsolve_eq {E : Numerics d q} {a : Args d} {scipy : List ℝ → Res (List ℝ × List (Fin d → ℝ))} {n : ℕ}
    {rule : StepRule} {D : Diff} {st : Strategy} (hp : prepare a = .ok (rule, D, st)) (hne : a.timeStops ≠ some [])
    (hq : 0 < q) {rv : Rv (d * (q + 1))}
    (hrv : nonProbabilisticFit E (solverPrior E a.t0) a.t0 1e-2 1e-7 scipy = .ok rv) {h1 : ℝ}
    (he : effectiveFirst a.t0 a.timeStops rule.first = some h1) :
    probsolveIvp E a scipy n =
      match (Ode.run (loopEnv (makeSolver E a.ode st rule) rule h1 a.t0 a.tmax (rv.toNormal E.ch E.damping) D)
        a.timeStops n).status with
      | .failed e => some (.error e)
      | .done => some (postprocess (solverPrior E a.t0) a.denseOutput
          (loopRun (Ode.run (loopEnv (makeSolver E a.ode st rule) rule h1 a.t0 a.tmax (rv.toNormal E.ch E.damping) D)
            a.timeStops n)))
      | _ => none := by
  have hps : ∃ s, Ode.processStops a.timeStops = .ok s := by
    cases h : a.timeStops with
    | none => exact ⟨_, rfl⟩
    | some l =>
      cases l with
      | nil => exact absurd h hne
      | cons x xs => exact ⟨_, rfl⟩
  obtain ⟨s, hps⟩ := hps
  simp only [probsolveIvp, hp, solve, hps, if_neg hq.ne', hrv, he]
  rfl

theorem StopsFine.ne {t0 : ℝ} {stops : Option (List ℝ)} (h : StopsFine t0 stops) : stops ≠ some [] := by
  rcases h with rfl | ⟨l, rfl, h, -⟩
  · simp
  · simpa using h

theorem prepare_rule {a : Args d} {rule : StepRule} {D : Diff} {st : Strategy} (hp : prepare a = .ok (rule, D, st)) :
    (∃ f x y, rule = .adaptive f x y) → a.adaptive = true := by
  rintro ⟨f, x, y, rfl⟩
  obtain ⟨rule', hr, hp⟩ := bind_ok hp
  obtain ⟨D', -, hp⟩ := bind_ok hp
  obtain ⟨-, -, hp⟩ := bind_ok hp
  obtain ⟨st', -, hp⟩ := map_ok hp
  obtain ⟨rfl, -⟩ := Prod.mk.inj hp
  unfold constructSteprule at hr
  by_contra had
  rw [if_neg had] at hr
  cases hs : a.step with
  | none => rw [hs] at hr; cases hr
  | some h => rw [hs] at hr; cases hr

theorem prepare_perStep {a : Args d} {rule : StepRule} {D : Diff} {st : Strategy} (hp : prepare a = .ok (rule, D, st))
    (h : D.perStep = true) : a.diffusionModel.toList.map Char.toLower = "dynamic".toList := by
  have hD := prepare_diffusion hp
  unfold chooseDiffusion at hD
  split at hD
  · have := Except.ok.inj hD
    subst this
    cases h
  · split at hD
    · assumption
    · cases hD

/-- **C82, outcomes.**  For an autonomous ODE whose vector field and Jacobian can be evaluated, accepted arguments, a
positive first step that does not jump over the end, and without dense output, `probsolve_ivp` ends with a solution, or
(adaptive steps only) with the RuntimeError of the step size limits, or (dynamic diffusion only) with a
LinAlgError. -/
theorem probsolve_outcome {E : Numerics d q} (hε : 0 ≤ E.damping) (hq : 0 < q) {a : Args d} (hfree : a.ode.TimeFree)
    (htot : Total a.ode) {scipy : List ℝ → Res (List ℝ × List (Fin d → ℝ))} (hdata : FitData q a.t0 scipy)
    (hprep : ∃ p, prepare a = .ok p) {h1 : ℝ} (hf : FirstStepIs a h1) (hpos : 0 < h1) (hfit : a.t0 + h1 ≤ a.tmax)
    (hstops : StopsFine a.t0 a.timeStops) (hdense : a.denseOutput = false) :
    ∃ n, (∃ sol, probsolveIvp E a scipy n = some (.ok sol)) ∨
      (a.adaptive = true ∧ probsolveIvp E a scipy n = some (.error .runtimeError)) ∨
      (a.diffusionModel.toList.map Char.toLower = "dynamic".toList ∧
        probsolveIvp E a scipy n = some (.error .linAlgError)) := by
  obtain ⟨⟨rule, D, st⟩, hp⟩ := hprep
  obtain ⟨hfirst, hP⟩ := prepare_first hp hf
  obtain ⟨rv, hrv, hv⟩ := fit_valid E hε hdata
  have he : effectiveFirst a.t0 a.timeStops rule.first = some h1 := by rw [hfirst]; rfl
  obtain ⟨n, r, hn⟩ := probsolve_terminates_partial E a scipy hf hpos hfit hstops
  have hres := hn n le_rfl
  rw [probsolve_eq hp hstops.ne hq hrv he] at hres
  refine ⟨n, ?_⟩
  have hDstart : DiffOk a.t0 a.t0 D := by
    have hD := prepare_diffusion hp
    unfold chooseDiffusion at hD
    split at hD
    · have := Except.ok.inj hD
      subst this
      exact Or.inr rfl
    · split at hD
      · have := Except.ok.inj hD
        subst this
        exact le_rfl
      · cases hD
  set env := loopEnv (makeSolver E a.ode st rule) rule h1 a.t0 a.tmax (rv.toNormal E.ch E.damping) D with henv
  have htk : Ode.TimeKeeping env := loop_timeKeeping _ (hP hpos) h1 a.t0 a.tmax _ D
  have hadm : Ode.AdmissibleStops env a.timeStops := admissible hstops
  obtain ⟨hJ, herr⟩ := run_induct env a.timeStops htk hpos hfit hadm
    (fun s => s.rv.Valid ∧ DiffOk a.t0 s.t s.diffusion ∧ s.diffusion.perStep = D.perStep)
    (fun e => (e = .runtimeError ∧ ∃ f a r, rule = .adaptive f a r) ∨ (e = .linAlgError ∧ D.perStep = true))
    ⟨hv, hDstart, rfl⟩ (fun c hJ hdt => tryStep_good hq hfree (evaluates_of_total htot st rule) c hJ hdt) n
  cases hc : (Ode.run env a.timeStops n).status with
  | fresh => rw [hc] at hres; cases hres
  | retry => rw [hc] at hres; cases hres
  | failed e =>
    rw [probsolve_eq hp hstops.ne hq hrv he, ← henv, hc]
    rcases herr e hc with ⟨rfl, hr⟩ | ⟨rfl, hD⟩
    · exact Or.inr (Or.inl ⟨prepare_rule hp hr, rfl⟩)
    · exact Or.inr (Or.inr ⟨prepare_perStep hp hD, rfl⟩)
  | done =>
    rw [probsolve_eq hp hstops.ne hq hrv he, ← henv, hc]
    left
    have hlast : (Ode.run env a.timeStops n).state.t = a.tmax := by
      rcases Ode.run_inv env a.timeStops htk hpos hfit hadm n with h | ⟨-, e, h⟩
      · exact h.finished hc
      · rw [hc] at h; cases h
    have hpf : ∃ s, (Ode.run env a.timeStops n).state.diffusion.postFactor = .ok s := by
      have hok := hJ.2.1
      cases hd : (Ode.run env a.timeStops n).state.diffusion with
      | piecewise P => exact ⟨1, rfl⟩
      | constant C =>
        rw [hd, hlast] at hok
        rcases hok with h | h
        · obtain ⟨s, hs⟩ := Option.isSome_iff_exists.1 h
          exact ⟨s, by simp only [Diff.postFactor, hs]⟩
        · exfalso; linarith
    obtain ⟨s, hs⟩ := hpf
    have hf' : filteringStates (loopRun (Ode.run env a.timeStops n))
        = .ok ((loopRun (Ode.run env a.timeStops n)).rvs.map (scaleRv s)) := by
      unfold filteringStates
      have : (loopRun (Ode.run env a.timeStops n)).diffusion.postFactor = .ok s := hs
      rw [this]
      rfl
    refine ⟨⟨(loopRun (Ode.run env a.timeStops n)).times, (loopRun (Ode.run env a.timeStops n)).rvs.map (scaleRv s), none,
      (loopRun (Ode.run env a.timeStops n)).diffusion⟩, ?_⟩
    simp only [postprocess, hf', Except.bind, hdense, Bool.false_eq_true, if_false]

/-- With constant steps and the constant diffusion model there is always a solution. -/
theorem probsolve_constant_succeeds {E : Numerics d q} (hε : 0 ≤ E.damping) (hq : 0 < q) {a : Args d} (hfree : a.ode.TimeFree)
    (htot : Total a.ode) {scipy : List ℝ → Res (List ℝ × List (Fin d → ℝ))} (hdata : FitData q a.t0 scipy)
    (hy : ∃ y, a.y0 = .vector y) (had : a.adaptive = false) {h1 : ℝ} (hs : a.step = some h1) (hpos : 0 < h1)
    (hfit : a.t0 + h1 ≤ a.tmax)
    (hdm : a.diffusionModel.toList.map Char.toLower = "constant".toList)
    (hm : a.method.toList.map Char.toUpper ∈ ["EK0".toList, "EK1".toList])
    (hstops : StopsFine a.t0 a.timeStops) (hdense : a.denseOutput = false) :
    ∃ n sol, probsolveIvp E a scipy n = some (.ok sol) := by
  obtain ⟨y, hy⟩ := hy
  have hmm : ∃ s, chooseMethod a.method = .ok s := by
    unfold chooseMethod
    rcases List.mem_cons.1 hm with h | h
    · exact ⟨_, if_pos h⟩
    · rw [List.mem_singleton] at h
      by_cases h' : a.method.toList.map Char.toUpper = "EK0".toList
      · exact ⟨_, if_pos h'⟩
      · exact ⟨_, by rw [if_neg h', if_pos h]⟩
  obtain ⟨st, hst⟩ := hmm
  have hp : prepare a = .ok (.constant h1, .constant .init, st) := by
    simp only [prepare, constructSteprule, had, Bool.false_eq_true, if_false, hs, Except.bind, chooseDiffusion,
      if_pos hdm, hy, checkDimension, hst, Except.map]
  obtain ⟨n, ⟨sol, h⟩ | ⟨h, -⟩ | ⟨h, -⟩⟩ := probsolve_outcome hε hq hfree htot hdata ⟨_, hp⟩ (Or.inl hs) hpos hfit hstops hdense
  · exact ⟨n, sol, h⟩
  · rw [had] at h; cases h
  · rw [hdm] at h; exact absurd h (by decide)

/-- **C82, no usable first step.**  Without `step`, without stop locations, the adaptive solver raises ValueError if the
initial value or the initial slope is zero. -/
theorem probsolve_no_first_step_raises {E : Numerics d q} (hε : 0 ≤ E.damping) (hq : 0 < q) {a : Args d}
    {scipy : List ℝ → Res (List ℝ × List (Fin d → ℝ))} (hdata : FitData q a.t0 scipy) (hprep : ∃ p, prepare a = .ok p)
    (had : a.adaptive = true) (hstep : a.step = none) (hst : a.timeStops = none) {y v : Fin d → ℝ} (hy : a.y0 = .vector y)
    (hv : a.ode.f (some a.t0) y = .ok v) (hzero : y = 0 ∨ v = 0) (hlt : a.t0 < a.tmax) {n : ℕ} (hn : 0 < n) :
    probsolveIvp E a scipy n = some (.error .valueError) := by
  obtain ⟨⟨rule, D, st⟩, hp⟩ := hprep
  obtain ⟨rv, hrv, hval⟩ := fit_valid E hε hdata
  have hne : a.timeStops ≠ some [] := by rw [hst]; simp
  have hrule : rule.first = firstStepRatio (norm2 y) (norm2 v) := by
    obtain ⟨rule', hr, hp⟩ := bind_ok hp
    obtain ⟨D', -, hp⟩ := bind_ok hp
    obtain ⟨-, -, hp⟩ := bind_ok hp
    obtain ⟨st', -, hp⟩ := map_ok hp
    obtain ⟨rfl, -⟩ := Prod.mk.inj hp
    unfold constructSteprule at hr
    rw [if_pos had] at hr
    cases hat : a.atol with
    | none => rw [hat] at hr; cases hr
    | some x =>
      cases hrt : a.rtol with
      | none => rw [hat, hrt] at hr; cases hr
      | some z =>
        rw [hat, hrt, hstep] at hr
        simp only [proposeFirststep, hy, hv, Except.map] at hr
        have := Except.ok.inj hr
        subst this
        rfl
  by_cases hv0 : v = 0
  · have he : effectiveFirst a.t0 a.timeStops rule.first = none := by
      rw [hrule, hst, firstStepRatio, if_pos (norm2_eq_zero.2 hv0)]
      split <;> rfl
    simp only [probsolveIvp, hp, solve, hst, Ode.processStops, if_neg hq.ne', hrv]
    rw [hst] at he
    simp only [he, if_pos hlt]
  · have hy0 : y = 0 := hzero.resolve_right hv0
    have he : effectiveFirst a.t0 a.timeStops rule.first = some 0 := by
      rw [hrule, firstStepRatio, if_neg (fun h => hv0 (norm2_eq_zero.1 h)), norm2_eq_zero.2 hy0]
      simp [effectiveFirst]
    rw [probsolve_eq hp hne hq hrv he, hst]
    set env := loopEnv (makeSolver E a.ode st rule) rule 0 a.t0 a.tmax (rv.toNormal E.ch E.damping) D with henv
    have h1 : (Ode.run env none 1).status = .failed .valueError := by
      rw [Ode.run_succ]
      have h0 : Ode.run env none 0 = Ode.init env none := rfl
      have hatt : (loopAttempt (makeSolver E a.ode st rule) env.start 0).norm = .error .valueError := by
        unfold loopAttempt attempt IWP.discretise
        rw [if_pos rfl]
      rw [h0]
      have hstat : (Ode.init env none).status = .fresh := rfl
      unfold Ode.step
      rw [hstat]
      simp only
      have hlt' : env.time (Ode.init env none).state < env.tmax := hlt
      rw [if_pos hlt']
      have hstop : (Ode.init env none).stopper = none := rfl
      rw [hstop]
      simp only
      have hn : env.norm (env.attempt (Ode.init env none).attempts (Ode.init env none).state (Ode.init env none).dt)
          = .error .valueError := hatt
      have hs : env.suggest (Ode.init env none).dt (.error .valueError) = .error .valueError := rfl
      unfold Ode.tryStep
      simp only [hn, hs]
    rw [run_final env none hn (Or.inr ⟨_, h1⟩), h1]

/-- **C82, vector fields that use the time.**  With constant steps, EK0 and the constant diffusion, an ODE whose vector
field cannot be called without a time raises TypeError. -/
theorem probsolve_time_dependent_raises {E : Numerics d q} (hε : 0 ≤ E.damping) (hq : 0 < q) {a : Args d}
    {scipy : List ℝ → Res (List ℝ × List (Fin d → ℝ))} (hdata : FitData q a.t0 scipy)
    (hy : ∃ y, a.y0 = .vector y) (had : a.adaptive = false) {h1 : ℝ} (hs : a.step = some h1) (hpos : h1 ≠ 0)
    (hlt : a.t0 < a.tmax) (hdm : a.diffusionModel.toList.map Char.toLower = "constant".toList)
    (hm : a.method.toList.map Char.toUpper = "EK0".toList) (hst : a.timeStops = none)
    (hev : ∀ x, ∃ v, a.ode.f (some (a.t0 + h1)) x = .ok v) (hnone : ∀ x, a.ode.f none x = .error .typeError)
    {n : ℕ} (hn : 0 < n) : probsolveIvp E a scipy n = some (.error .typeError) := by
  obtain ⟨y, hy⟩ := hy
  have hp : prepare a = .ok (.constant h1, .constant .init, .ek0) := by
    simp only [prepare, constructSteprule, had, Bool.false_eq_true, if_false, hs, Except.bind, chooseDiffusion,
      if_pos hdm, hy, checkDimension, chooseMethod, if_pos hm, Except.map]
  obtain ⟨rv, hrv, hval⟩ := fit_valid E hε hdata
  have hne : a.timeStops ≠ some [] := by rw [hst]; simp
  rw [probsolve_eq hp hne hq hrv (h1 := h1) rfl, hst]
  set env := loopEnv (makeSolver E a.ode .ek0 (.constant h1)) (.constant h1) h1 a.t0 a.tmax (rv.toNormal E.ch E.damping)
    (.constant .init) with henv
  have h1' : (Ode.run env none 1).status = .failed .typeError := by
    rw [Ode.run_succ]
    have h0 : Ode.run env none 0 = Ode.init env none := rfl
    have hatt : (loopAttempt (makeSolver E a.ode .ek0 (.constant h1)) env.start h1).norm = .error .typeError := by
      have : attempt (makeSolver E a.ode .ek0 (.constant h1)) env.start.diffusion env.start.t env.start.rv h1
          = .error .typeError :=
        time_dependent_step_raises hq (S := makeSolver E a.ode .ek0 (.constant h1)) (C := .init) (t := a.t0)
          hval hpos rfl hev hnone (fun _ => rfl)
      unfold loopAttempt
      rw [this]
    rw [h0]
    have hstat : (Ode.init env none).status = .fresh := rfl
    unfold Ode.step
    rw [hstat]
    simp only
    have hlt' : env.time (Ode.init env none).state < env.tmax := hlt
    rw [if_pos hlt']
    have hstop : (Ode.init env none).stopper = none := rfl
    rw [hstop]
    simp only
    have hn : env.norm (env.attempt (Ode.init env none).attempts (Ode.init env none).state (Ode.init env none).dt)
        = .error .typeError := hatt
    have hs : env.suggest (Ode.init env none).dt (.error .typeError) = .error .typeError := rfl
    unfold Ode.tryStep
    simp only [hn, hs]
  rw [run_final env none hn (Or.inr ⟨_, h1'⟩), h1']

/-- **C82, empty time span.**  If `tmax` is not after `t0` there is no step: with the constant diffusion this raises
TypeError, with the dynamic diffusion and dense output NotImplementedError, without dense output the solution has the one
state at `t0`. -/
theorem probsolve_empty_span {E : Numerics d q} (hq : 0 < q) {a : Args d} {rule : StepRule} {D : Diff} {st : Strategy}
    (hp : prepare a = .ok (rule, D, st)) {h1 : ℝ} (hf : FirstStepIs a h1) (hne : a.timeStops ≠ some [])
    {scipy : List ℝ → Res (List ℝ × List (Fin d → ℝ))} {rv : Rv (d * (q + 1))}
    (hrv : nonProbabilisticFit E (solverPrior E a.t0) a.t0 1e-2 1e-7 scipy = .ok rv)
    (hle : a.tmax ≤ a.t0) {n : ℕ} (hn : 0 < n) :
    (a.diffusionModel.toList.map Char.toLower = "constant".toList →
      probsolveIvp E a scipy n = some (.error .typeError)) ∧
    (a.diffusionModel.toList.map Char.toLower = "dynamic".toList →
      (a.denseOutput = true → probsolveIvp E a scipy n = some (.error .notImplementedError)) ∧
      (a.denseOutput = false →
        probsolveIvp E a scipy n = some (.ok ⟨[a.t0], [scaleRv 1 (rv.toNormal E.ch E.damping)], none, D⟩))) := by
  obtain ⟨hfirst, -⟩ := prepare_first hp hf
  have he : effectiveFirst a.t0 a.timeStops rule.first = some h1 := by rw [hfirst]; rfl
  have hD := prepare_diffusion hp
  rw [probsolve_eq hp hne hq hrv he]
  set env := loopEnv (makeSolver E a.ode st rule) rule h1 a.t0 a.tmax (rv.toNormal E.ch E.damping) D with henv
  have hst : (Ode.init env a.timeStops).status = .fresh ∧ (Ode.init env a.timeStops).state = env.start ∧
      (Ode.init env a.timeStops).yields = [env.start] := by
    cases h : a.timeStops with
    | none => exact ⟨rfl, rfl, rfl⟩
    | some l =>
      cases l with
      | nil => exact absurd h hne
      | cons x xs => exact ⟨rfl, rfl, rfl⟩
  have hstep : Ode.run env a.timeStops 1 = { Ode.init env a.timeStops with status := .done } := by
    rw [Ode.run_succ]
    have h0 : Ode.run env a.timeStops 0 = Ode.init env a.timeStops := rfl
    rw [h0]
    unfold Ode.step
    rw [hst.1]
    simp only
    rw [if_neg (by rw [hst.2.1]; exact not_lt.2 hle)]
  have hdone : (Ode.run env a.timeStops 1).status = .done := by rw [hstep]
  rw [run_final env a.timeStops hn (Or.inl hdone), hdone]
  have hrun : loopRun (Ode.run env a.timeStops 1) = Run.start a.t0 (rv.toNormal E.ch E.damping) D := by
    rw [hstep]
    simp only [loopRun, hst.2.1, hst.2.2]
    rfl
  simp only [hrun]
  refine ⟨fun hdm => ?_, fun hdm => ?_⟩
  · rw [chooseDiffusion, if_pos hdm] at hD
    have := Except.ok.inj hD
    subst this
    rfl
  · rw [chooseDiffusion, if_neg (by rw [hdm]; decide), if_pos hdm] at hD
    have := Except.ok.inj hD
    subst this
    refine ⟨fun hd => ?_, fun hd => ?_⟩
    · rw [hd]
      simp only [postprocess, filteringStates, Run.start, Diff.postFactor, Except.map, Except.bind, if_true, smoothingInput,
        Diff.callMany, Diff.call, Diffusion.PiecewiseDiffusion.call, Diffusion.PiecewiseDiffusion.locations,
        Diffusion.PiecewiseDiffusion.init, List.length_singleton, le_refl]
    · rw [hd]
      rfl

/-! ## Dense output -/

theorem smoothFrom_succeeds {E : Numerics d q} (hε : 0 ≤ E.damping) (t0 : ℝ) : ∀ (l : List (Rv (d * (q + 1)) × ℝ × ℝ))
    (curr : Rv (d * (q + 1))) (t : ℝ), curr.Valid → curr.chol?.isSome = true → (t :: l.map (·.2.1)).Pairwise (· > ·) →
    (∀ x ∈ l, x.1.Valid ∧ x.1.chol?.isSome = true ∧ 0 < x.2.2) →
    ∃ out, smoothFrom (solverPrior E t0) none curr t l = .ok out ∧ out.length = l.length ∧
      ∀ y ∈ out, y.Valid ∧ y.chol?.isSome = true
  | [], curr, t, _, _, _, _ => ⟨[], rfl, rfl, fun y hy => absurd hy (by simp)⟩
  | (rv, t', δ) :: l, curr, t, hv, hs, hp, hl => by
    obtain ⟨h1, h2, h3⟩ := hl _ (List.mem_cons_self ..)
    have hlt : t' < t := (List.pairwise_cons.1 hp).1 t' (by simp)
    obtain ⟨tr, -, hb⟩ := backward_sqrt_agrees q d E.chol E.ch δ E.qr (h := t - t') (by linarith [hlt] : t - t' ≠ 0) hε h3
      curr rv h1 h2 hv hs
    obtain ⟨u, out, -, hout, hov, -⟩ := hb 0 0
    have hsome : out.chol?.isSome = true := by
      unfold preBackwardSqrt at hout
      obtain ⟨u', -, hu⟩ := bind_ok hout
      have := Except.ok.inj hu
      rw [← this]
      rfl
    obtain ⟨more, hm, hlen, hmv⟩ := smoothFrom_succeeds hε t0 l out t' hov hsome (List.pairwise_cons.1 hp).2
      fun x hx => hl x (List.mem_cons_of_mem _ hx)
    refine ⟨out :: more, ?_, by simp [hlen], fun y hy => ?_⟩
    swap
    · rcases List.mem_cons.1 hy with rfl | hy
      · exact ⟨hov, hsome⟩
      · exact hmv y hy
    have hbk : (solverPrior E t0).backward curr rv t' (t - t') δ none = .ok out := hout
    simp only [smoothFrom, bind, pure, Except.pure, Except.bind, hbk, hm]

/-- **C82, dense output.**  Smoothing after a run with positive diffusions succeeds, gives one state per time and does not
change the filtering states. -/
theorem dense_output_succeeds_partial {E : Numerics d q} (hε : 0 ≤ E.damping) (t0 : ℝ) {r : Run d q}
    (hvalid : ∀ x ∈ r.rvs, x.Valid) (hlen : r.times.length = r.rvs.length) (hne : r.times ≠ [])
    (hinc : r.times.Pairwise (· < ·)) {filt : List (Normal (d * (q + 1)))} (hf : filteringStates r = .ok filt)
    {ds : List ℝ} (hds : r.diffusion.callMany r.times.tail = .ok ds) (hpos : ∀ δ ∈ ds, 0 < δ) :
    postprocess (solverPrior E t0) false r = .ok ⟨r.times, filt, none, r.diffusion⟩ ∧
      ∃ sm, postprocess (solverPrior E t0) true r = .ok ⟨r.times, filt, some sm, r.diffusion⟩ ∧ sm.length = r.times.length ∧
        (∀ x ∈ sm, x.Valid ∧ x.chol?.isSome = true) ∧
        sm.getLast? = r.rvs.getLast?.map fun rv => ⟨rv.mean, rv.cov, some rv.chol⟩ := by
  refine ⟨by simp only [postprocess, hf, Except.bind, Bool.false_eq_true, if_false], ?_⟩
  have hlds : ds.length = r.times.tail.length := by
    obtain ⟨x, -, h⟩ := bind_ok hds
    exact (((Posterior.mapM_ok_iff _ _ _).1 h).length_eq).symm
  have hz : ((r.rvs.map fun rv => (⟨rv.mean, rv.cov, some rv.chol⟩ : Rv (d * (q + 1)))).zip r.times).map Prod.snd = r.times := by
    rw [List.map_snd_zip]
    simp [hlen]
  have hzf : ∀ x ∈ (r.rvs.map fun rv => (⟨rv.mean, rv.cov, some rv.chol⟩ : Rv (d * (q + 1)))).zip r.times,
      x.1.Valid ∧ x.1.chol?.isSome = true := by
    rintro ⟨x, t⟩ hx
    obtain ⟨rv, hrv, rfl⟩ := List.mem_map.1 (List.of_mem_zip hx).1
    refine ⟨fun L hL => ?_, rfl⟩
    have := Option.some.inj hL
    subst this
    exact hvalid rv hrv
  have hsm : ∃ sm, smoothList (solverPrior E t0) none (r.rvs.map fun rv => (⟨rv.mean, rv.cov, some rv.chol⟩ : Rv (d * (q + 1))))
      r.times ds = .ok sm ∧ sm.length = r.times.length ∧ (∀ x ∈ sm, x.Valid ∧ x.chol?.isSome = true) ∧
      sm.getLast? = (r.rvs.map fun rv => (⟨rv.mean, rv.cov, some rv.chol⟩ : Rv (d * (q + 1)))).getLast? := by
    have hz' : ((r.rvs.map fun rv => (⟨rv.mean, rv.cov, some rv.chol⟩ : Rv (d * (q + 1)))).zip r.times).map Prod.fst
        = r.rvs.map fun rv => (⟨rv.mean, rv.cov, some rv.chol⟩ : Rv (d * (q + 1))) := by
      rw [List.map_fst_zip]
      simp [hlen]
    generalize (r.rvs.map fun rv => (⟨rv.mean, rv.cov, some rv.chol⟩ : Rv (d * (q + 1)))) = S at hz hzf hz' ⊢
    unfold smoothList
    cases hrev : (S.zip r.times).reverse with
    | nil =>
      exfalso
      rw [List.reverse_eq_nil_iff] at hrev
      rw [hrev] at hz
      exact hne hz.symm
    | cons x earlier =>
      obtain ⟨last, tl⟩ := x
      have hmap : tl :: earlier.map Prod.snd = r.times.reverse := by
        rw [← hz, ← List.map_reverse, hrev]
        rfl
      have hl1 : earlier.length + 1 = r.times.length := by
        have := congrArg List.length hmap
        simpa using this
      have hl2 : earlier.length = ds.reverse.length := by
        rw [List.length_reverse, hlds, List.length_tail]
        omega
      have hmem : ∀ y ∈ (last, tl) :: earlier, y ∈ S.zip r.times := by
        intro y hy
        rw [← hrev] at hy
        exact List.mem_reverse.1 hy
      have hlast := hzf _ (hmem _ (List.mem_cons_self ..))
      have hl : ((earlier.zip ds.reverse).map fun p => (p.1.1, p.1.2, p.2)).map (·.2.1) = earlier.map Prod.snd := by
        rw [List.map_map]
        have : ((fun x : Rv (d * (q + 1)) × ℝ × ℝ => x.2.1) ∘ fun p : (Rv (d * (q + 1)) × ℝ) × ℝ => (p.1.1, p.1.2, p.2))
            = Prod.snd ∘ Prod.fst := rfl
        rw [this, ← List.map_map, List.map_fst_zip (by rw [hl2])]
      obtain ⟨out, ho, holen, hov⟩ := smoothFrom_succeeds hε t0 ((earlier.zip ds.reverse).map fun p => (p.1.1, p.1.2, p.2))
        last tl hlast.1 hlast.2 (by
          rw [hl, hmap, List.pairwise_reverse]
          exact hinc) (by
          intro x hx
          obtain ⟨p, hp, rfl⟩ := List.mem_map.1 hx
          have h1 := List.of_mem_zip (show (p.1, p.2) ∈ earlier.zip ds.reverse from hp)
          have h2 := hzf _ (hmem _ (List.mem_cons_of_mem _ h1.1))
          exact ⟨h2.1, h2.2, hpos _ (List.mem_reverse.1 h1.2)⟩)
      refine ⟨out.reverse ++ [last], ?_, ?_, ?_, ?_⟩
      · simp only [ho, bind, Except.bind]
      · rw [List.length_append, List.length_reverse, holen, List.length_map, List.length_zip, ← hl2]
        simp [hl1]
      · intro x hx
        rcases List.mem_append.1 hx with hx | hx
        · exact hov x (List.mem_reverse.1 hx)
        · rw [List.mem_singleton] at hx
          rw [hx]; exact hlast
      · have hS : S.reverse = last :: earlier.map Prod.fst := by
          rw [← hz', ← List.map_reverse, hrev]
          rfl
        rw [List.getLast?_append, List.getLast?_eq_head?_reverse (xs := S), hS]
        rfl
  obtain ⟨sm, hsm, hsl, hsv, hsL⟩ := hsm
  refine ⟨sm, ?_, hsl, hsv, by rw [hsL, List.getLast?_map]⟩
  simp only [postprocess, hf, Except.bind, if_true, smoothingInput, hds, Except.map, hsm]

/-- All states of a run are valid and the constant diffusion is not negative. -/
theorem constant_run_props {S : Solver d q} (hfree : S.ode.TimeFree) {t0 : ℝ} {rv0 : Normal (d * (q + 1))} (hv : rv0.Valid)
    {dts : List ℝ} {r : Run d q} (h : Run.many S (Run.start t0 rv0 (.constant .init)) dts = .ok r) :
    (∀ x ∈ r.rvs, x.Valid) ∧ ∃ C, r.diffusion = .constant C ∧ ∀ s, C.diffusion = some s → 0 ≤ s := by
  have main := many_induct (S := S) (motive := fun r => r.Inv ∧ (∀ x ∈ r.rvs, x.Valid) ∧
    ∃ C : Diffusion.ConstantDiffusion ℝ, r.diffusion = .constant C ∧ ∀ s, C.diffusion = some s → 0 ≤ s ∧ 1 ≤ C.seen) ?_ dts _ r ?_ h
  · obtain ⟨-, h1, C, hC, hs⟩ := main
    exact ⟨h1, C, hC, fun s h => (hs s h).1⟩
  · rintro r dt r1 ⟨hi, hx, C, hC, hs⟩ hn
    rcases next_cases hfree hi hn with rfl | ⟨o, x, ho, hox, rfl, hi'⟩
    · exact ⟨hi, hx, C, hC, hs⟩
    · rw [hC] at ho
      obtain ⟨tr, lin, htr, hlin, pL, mL, full, est, h1, h2, h3, h4, -⟩ := attempt_ok hi.valid ho
      obtain ⟨tr', lin', est', predL, u, htr', hlin', hest, -, hd, -, -, -, -, -, hv'⟩ := accepted_ok hi.valid hfree ho hox
      refine ⟨hi', ?_, C.update est', hd, ?_⟩
      · intro y hy
        rcases List.mem_append.1 hy with hy | hy
        · exact hx y hy
        · rw [List.mem_singleton] at hy; rw [hy]; exact hv'
      · have hpos : 0 ≤ est' := by
          obtain ⟨-, hest2, hp⟩ := estimate_ok h2.gram h3.gram h4
          rw [htr'] at htr
          have := Option.some.inj htr
          subst this
          rw [hlin'] at hlin
          have := Except.ok.inj hlin
          subst this
          rw [hest, ← hest2]
          exact hp
        intro s hs'
        unfold Diffusion.ConstantDiffusion.update at hs' ⊢
        cases hc : C.diffusion with
        | none =>
          rw [hc] at hs'
          simp only [Option.some.injEq] at hs' ⊢
          subst hs'
          exact ⟨hpos, by simp⟩
        | some old =>
          obtain ⟨ho1, ho2⟩ := hs old hc
          rw [hc] at hs'
          simp only [Option.some.injEq] at hs' ⊢
          subst hs'
          refine ⟨?_, by simp⟩
          have h1 : (1 : ℝ) ≤ (C.seen : ℝ) := by exact_mod_cast ho2
          have h2 : 1 / (C.seen : ℝ) ≤ 1 := by rw [div_le_one (by linarith)]; exact h1
          have h3 : 0 ≤ 1 / (C.seen : ℝ) := by positivity
          have := mul_nonneg h3 hpos
          have := mul_nonneg (sub_nonneg.2 h2) ho1
          linarith
  · exact ⟨Run.start_inv t0 hv _, by intro x hx; simp [Run.start] at hx; rw [hx]; exact hv, .init, rfl,
      fun s h => by cases h⟩

/-- **C72**: the calibrated states carry factors of their covariances. -/
theorem filtering_states_valid {S : Solver d q} (hfree : S.ode.TimeFree) {t0 : ℝ} {rv0 : Normal (d * (q + 1))} (hv : rv0.Valid)
    {dts : List ℝ} {r : Run d q} (h : Run.many S (Run.start t0 rv0 (.constant .init)) dts = .ok r)
    {states : List (Normal (d * (q + 1)))} (hs : filteringStates r = .ok states) :
    ∀ x ∈ states, x.cov = x.chol * x.cholᵀ := by
  obtain ⟨h1, C, hC, hpos⟩ := constant_run_props hfree hv h
  obtain ⟨s, hs', hmap⟩ := map_ok hs
  have hsC : C.diffusion = some s := by
    rw [hC] at hs'
    simp only [Diff.postFactor] at hs'
    cases hc : C.diffusion with
    | none => rw [hc] at hs'; cases hs'
    | some s' => rw [hc] at hs'; exact congrArg some (Except.ok.inj hs')
  intro x hx
  rw [← hmap] at hx
  obtain ⟨y, hy, rfl⟩ := List.mem_map.1 hx
  have hy' := h1 y hy
  have hss : Real.sqrt s * Real.sqrt s = s := Real.mul_self_sqrt (hpos s hsC)
  simp only [scaleRv, Matrix.transpose_smul, Matrix.smul_mul, Matrix.mul_smul, smul_smul, hss]
  exact congrArg (s • ·) (Eq.symm hy')

/-- **C82, method.**  `"EK0"` and `"EK1"`, in any capitalisation, select the linearisation of order zero and one. -/
theorem prepare_method {a : Args d} {rule : StepRule} {D : Diff} {st : Strategy} (hp : prepare a = .ok (rule, D, st)) :
    (a.method.toList.map Char.toUpper = "EK0".toList ∧ st = .ek0) ∨ (a.method.toList.map Char.toUpper = "EK1".toList ∧ st = .ek1) := by
  unfold prepare at hp
  obtain ⟨_, -, hp⟩ := bind_ok hp
  obtain ⟨_, -, hp⟩ := bind_ok hp
  obtain ⟨_, -, hp⟩ := bind_ok hp
  obtain ⟨st', hst, hp⟩ := map_ok hp
  obtain ⟨-, h2⟩ := Prod.mk.inj hp
  obtain ⟨-, rfl⟩ := Prod.mk.inj h2
  unfold chooseMethod at hst
  by_cases h0 : a.method.toList.map Char.toUpper = "EK0".toList
  · rw [if_pos h0] at hst
    exact .inl ⟨h0, (Except.ok.inj hst).symm⟩
  · rw [if_neg h0] at hst
    by_cases h1 : a.method.toList.map Char.toUpper = "EK1".toList
    · rw [if_pos h1] at hst
      exact .inr ⟨h1, (Except.ok.inj hst).symm⟩
    · rw [if_neg h1] at hst
      cases hst

/-- **C82, acceptance.**  With adaptive steps, a step is accepted exactly if the root mean square of the error estimate, relative to
`atol + rtol * |y|` for the solution `y` before the step, is smaller than 1; with constant steps every step is accepted. -/
theorem probsolve_acceptance {E : Numerics d q} {a : Args d} {rule : StepRule} {D : Diff} {st : Strategy} (hp : prepare a = .ok (rule, D, st))
    {D' : Diff} {t : ℝ} {rv : Normal (d * (q + 1))} (hv : rv.Valid) {dt : ℝ} {o : Outcome d q}
    (ho : attempt (makeSolver E a.ode st rule) D' t rv dt = .ok o) :
    (∀ atol rtol, a.adaptive = true → a.atol = some atol → a.rtol = some rtol →
      (o.rv.isSome ↔ Real.sqrt (∑ i, (o.errors i / (atol + rtol * |(proj d q 0 *ᵥ rv.mean) i|)) ^ 2) / Real.sqrt d < 1)) ∧
    (a.adaptive = false → o.rv.isSome) := by
  have hrule : (∀ atol rtol, a.adaptive = true → a.atol = some atol → a.rtol = some rtol → ∃ f, rule = .adaptive f atol rtol) ∧
      (a.adaptive = false → ∃ h, rule = .constant h) := by
    unfold prepare at hp
    obtain ⟨rule', hr, hp⟩ := bind_ok hp
    obtain ⟨_, -, hp⟩ := bind_ok hp
    obtain ⟨_, -, hp⟩ := bind_ok hp
    obtain ⟨_, -, hp⟩ := map_ok hp
    obtain ⟨rfl, -⟩ := Prod.mk.inj hp
    constructor
    · intro atol rtol h1 h2 h3
      unfold constructSteprule at hr
      rw [h1, h2, h3] at hr
      cases hstep : a.step with
      | some h =>
        rw [hstep] at hr
        exact ⟨_, (Except.ok.inj hr).symm⟩
      | none =>
        rw [hstep] at hr
        obtain ⟨f, -, hf⟩ := map_ok (show (proposeFirststep a.ode a.t0 a.y0).map _ = .ok _ from hr)
        exact ⟨f, hf.symm⟩
    · intro h1
      unfold constructSteprule at hr
      rw [h1] at hr
      cases hstep : a.step with
      | some h =>
        rw [hstep] at hr
        exact ⟨_, (Except.ok.inj hr).symm⟩
      | none =>
        rw [hstep] at hr
        cases hr
  obtain ⟨tr, lin, -, -, pL, mL, full, est, -, -, -, -, h⟩ := attempt_ok hv ho
  simp only at h
  constructor
  · intro atol rtol h1 h2 h3
    obtain ⟨f, rfl⟩ := hrule.1 atol rtol h1 h2 h3
    have key : ∀ e ref : Fin d → ℝ, (makeSolver E a.ode st (.adaptive f atol rtol)).rule.accepted
        ((makeSolver E a.ode st (.adaptive f atol rtol)).rule.norm e ref) = true ↔
        Real.sqrt (∑ i, (e i / (atol + rtol * ref i)) ^ 2) / Real.sqrt d < 1 := fun e ref => by
      show Ode.AdaptiveSteps.isAccepted (Ode.errorestToNorm atol rtol e ref) = true ↔ _
      rw [Ode.AdaptiveSteps.isAccepted, decide_eq_true_iff]
      rfl
    split at h
    · rename_i hacc
      obtain ⟨_, -, h⟩ := bind_ok h
      obtain ⟨_, -, h⟩ := bind_ok h
      obtain ⟨_, -, rfl⟩ := map_ok h
      exact ⟨fun _ => (key _ _).1 hacc, fun _ => rfl⟩
    · rename_i hacc
      obtain rfl := Except.ok.inj h
      exact ⟨fun h => absurd h (by simp), fun hlt => absurd ((key _ _).2 hlt) hacc⟩
  · intro h1
    obtain ⟨f, rfl⟩ := hrule.2 h1
    rw [if_pos (show (makeSolver E a.ode st (.constant f)).rule.accepted _ = true from rfl)] at h
    obtain ⟨_, -, h⟩ := bind_ok h
    obtain ⟨_, -, h⟩ := bind_ok h
    obtain ⟨_, -, rfl⟩ := map_ok h
    rfl

/-- **C82, dense output with the constant diffusion.**  If the call without dense output returns a solution some state of
which has a nonzero covariance, then the call with dense output returns the same times and filtering states, and one
smoothed state per time.  The last smoothed state is the last filtering state *before* calibration. -/
theorem probsolve_dense_output_partial {E : Numerics d q} (hε : 0 ≤ E.damping) {a : Args d} (hfree : a.ode.TimeFree)
    (hdm : a.diffusionModel.toList.map Char.toLower = "constant".toList)
    {scipy : List ℝ → Res (List ℝ × List (Fin d → ℝ))} (hdata : FitData q a.t0 scipy) (hd : a.denseOutput = false)
    {n : ℕ} {sol : Solution d q} (h : probsolveIvp E a scipy n = some (.ok sol)) {h1 : ℝ} (hf : FirstStepIs a h1)
    (hpos : 0 < h1) (hfit : a.t0 + h1 ≤ a.tmax) (hstops : StopsFine a.t0 a.timeStops)
    (hcov : ∃ x ∈ sol.filtering, x.cov ≠ 0) :
    sol.smoothing = none ∧ ∃ sm, sm.length = sol.times.length ∧ (∀ x ∈ sm, x.Valid ∧ x.chol?.isSome = true) ∧
      probsolveIvp E { a with denseOutput := true } scipy n = some (.ok ⟨sol.times, sol.filtering, some sm, sol.diffusion⟩) ∧
      ∃ C s z x, sol.diffusion = .constant C ∧ C.diffusion = some s ∧ 0 < s ∧ sm.getLast? = some z ∧
        sol.filtering.getLast? = some x ∧ x.mean = z.mean ∧ x.cov = s • z.cov := by
  obtain ⟨g1, -, g3, -⟩ := probsolve_grid_partial h hf hpos hfit hstops
  obtain ⟨rule, D, st, hp, hs⟩ := probsolve_prepared h
  obtain ⟨hfirst, -⟩ := prepare_first hp hf
  obtain ⟨-, hq, rv, hrv, hdone, hpost⟩ := solve_ok hs hfirst
  have hD := prepare_diffusion hp
  rw [chooseDiffusion, if_pos hdm] at hD
  have := Except.ok.inj hD
  subst this
  obtain ⟨rv', hrv', hv⟩ := fit_valid E hε hdata
  rw [hrv] at hrv'
  have := Except.ok.inj hrv'
  subst this
  obtain ⟨dts, hm⟩ := run_follows (makeSolver E a.ode st rule) rule h1 a.t0 a.tmax (rv.toNormal E.ch E.damping)
    (.constant .init) a.timeStops n (fun e he => by rw [hdone] at he; cases he)
  set r := loopRun (Ode.run (loopEnv (makeSolver E a.ode st rule) rule h1 a.t0 a.tmax (rv.toNormal E.ch E.damping)
    (.constant .init)) a.timeStops n) with hr
  obtain ⟨ht, hfs, hdf⟩ := postprocess_ok hpost
  obtain ⟨hvalid, C, hC, hCpos⟩ := constant_run_props (S := makeSolver E a.ode st rule) hfree hv hm
  obtain ⟨C', hC', -, hlen, -⟩ := constant_posterior_is_calibrated_partial (S := makeSolver E a.ode st rule) hfree hv hm
  obtain ⟨s, hsf, hmap⟩ := map_ok hfs
  have hsC : C.diffusion = some s := by
    rw [hC] at hsf
    simp only [Diff.postFactor] at hsf
    cases hc : C.diffusion with
    | none => rw [hc] at hsf; cases hsf
    | some s' => rw [hc] at hsf; exact congrArg some (Except.ok.inj hsf)
  have hspos : 0 < s := by
    refine lt_of_le_of_ne (hCpos s hsC) fun h0 => ?_
    obtain ⟨x, hx, hne⟩ := hcov
    rw [← hmap] at hx
    obtain ⟨y, -, rfl⟩ := List.mem_map.1 hx
    exact hne (by simp [scaleRv, ← h0])
  have hcall : ∀ t, r.diffusion.call t = .ok (s * 1) := by
    intro t
    rw [hC]
    simp only [Diff.call, Diffusion.ConstantDiffusion.call, hsC]
  have hds : r.diffusion.callMany r.times.tail = .ok (r.times.tail.map fun _ => s * 1) := by
    unfold Diff.callMany
    rw [hcall]
    show r.times.tail.mapM r.diffusion.call = _
    rw [Posterior.mapM_ok_iff]
    generalize r.times.tail = l
    induction l with
    | nil => exact .nil
    | cons x l ih => exact .cons (hcall x) ih
  obtain ⟨hno, sm, hsm, hsl, hsv, hsL⟩ := dense_output_succeeds_partial hε a.t0 (r := r) hvalid hlen
    (by intro h0; rw [ht, h0] at g1; cases g1) (by rw [← ht]; exact g3) hfs hds
    (by intro δ hδ; obtain ⟨-, -, rfl⟩ := List.mem_map.1 hδ; linarith)
  rw [hd, hno] at hpost
  have hsol := Except.ok.inj hpost
  have hrne : r.rvs ≠ [] := by
    intro h0
    rw [h0] at hlen
    have : r.times = [] := List.length_eq_zero_iff.1 hlen
    rw [ht, this] at g1
    cases g1
  refine ⟨by rw [← hsol], sm, by rw [hsl, ht], hsv, ?_, C, s, _, _, by rw [hdf, hC], hsC, hspos,
    by rw [hsL, List.getLast?_eq_some_getLast hrne]; rfl,
    by rw [← hmap, List.getLast?_map, List.getLast?_eq_some_getLast hrne]; rfl, rfl, rfl⟩
  have he : effectiveFirst a.t0 a.timeStops rule.first = some h1 := by rw [hfirst]; rfl
  have hp' : prepare { a with denseOutput := true } = .ok (rule, .constant .init, st) := hp
  rw [probsolve_eq hp' hstops.ne (Nat.pos_of_ne_zero hq) hrv he, hdone]
  simp only
  rw [← hr, hsm, ht, hdf]

theorem run_valid {S : Solver d q} (hfree : S.ode.TimeFree) {t0 : ℝ} {rv0 : Normal (d * (q + 1))} (hv : rv0.Valid) {D : Diff}
    {dts : List ℝ} {r : Run d q} (h : Run.many S (Run.start t0 rv0 D) dts = .ok r) : ∀ x ∈ r.rvs, x.Valid := by
  have main := many_induct (S := S) (motive := fun r => r.Inv ∧ ∀ x ∈ r.rvs, x.Valid) ?_ dts _ r ?_ h
  · exact main.2
  · rintro r dt r1 ⟨hi, hx⟩ hn
    rcases next_cases hfree hi hn with rfl | ⟨o, x, ho, hox, rfl, hi'⟩
    · exact ⟨hi, hx⟩
    · obtain ⟨tr', lin', est', predL, u, htr', hlin', hest, -, hd, -, -, -, -, -, hv'⟩ := accepted_ok hi.valid hfree ho hox
      refine ⟨hi', fun y hy => ?_⟩
      rcases List.mem_append.1 hy with hy | hy
      · exact hx y hy
      · rw [List.mem_singleton] at hy; rw [hy]; exact hv'
  · refine ⟨Run.start_inv t0 hv _, fun x hx => ?_⟩
    rw [List.mem_singleton.1 hx]
    exact hv

/-- **C82, dense output with the dynamic diffusion** (the default).  If the call without dense output returns a solution
and all estimated diffusions are positive, then the call with dense output returns the same times and filtering states,
and one smoothed state per time.  The last smoothed state is the last filtering state. -/
theorem probsolve_dense_output_dynamic_partial {E : Numerics d q} (hε : 0 ≤ E.damping) {a : Args d} (hfree : a.ode.TimeFree)
    (hdm : a.diffusionModel.toList.map Char.toLower = "dynamic".toList)
    {scipy : List ℝ → Res (List ℝ × List (Fin d → ℝ))} (hdata : FitData q a.t0 scipy) (hd : a.denseOutput = false)
    {n : ℕ} {sol : Solution d q} (h : probsolveIvp E a scipy n = some (.ok sol)) {h1 : ℝ} (hf : FirstStepIs a h1)
    (hpos : 0 < h1) (hfit : a.t0 + h1 ≤ a.tmax) (hstops : StopsFine a.t0 a.timeStops)
    (hdiff : ∀ P, sol.diffusion = .piecewise P → ∀ s ∈ P.diffusions, 0 < s) :
    sol.smoothing = none ∧ ∃ sm, sm.length = sol.times.length ∧ (∀ x ∈ sm, x.Valid ∧ x.chol?.isSome = true) ∧
      probsolveIvp E { a with denseOutput := true } scipy n = some (.ok ⟨sol.times, sol.filtering, some sm, sol.diffusion⟩) ∧
      ∃ z x, sm.getLast? = some z ∧ sol.filtering.getLast? = some x ∧ x.mean = z.mean ∧ x.cov = z.cov := by
  obtain ⟨g1, g2, g3, -⟩ := probsolve_grid_partial h hf hpos hfit hstops
  obtain ⟨rule, D, st, hp, hs⟩ := probsolve_prepared h
  obtain ⟨hfirst, -⟩ := prepare_first hp hf
  obtain ⟨-, hq, rv, hrv, hdone, hpost⟩ := solve_ok hs hfirst
  have hD := prepare_diffusion hp
  rw [chooseDiffusion, if_neg (by rw [hdm]; decide), if_pos hdm] at hD
  have := Except.ok.inj hD
  subst this
  obtain ⟨rv', hrv', hv⟩ := fit_valid E hε hdata
  rw [hrv] at hrv'
  have := Except.ok.inj hrv'
  subst this
  obtain ⟨dts, hm⟩ := run_follows (makeSolver E a.ode st rule) rule h1 a.t0 a.tmax (rv.toNormal E.ch E.damping)
    (.piecewise (.init a.t0)) a.timeStops n (fun e he => by rw [hdone] at he; cases he)
  set r := loopRun (Ode.run (loopEnv (makeSolver E a.ode st rule) rule h1 a.t0 a.tmax (rv.toNormal E.ch E.damping)
    (.piecewise (.init a.t0))) a.timeStops n) with hr
  obtain ⟨ht, hfs, hdf⟩ := postprocess_ok hpost
  have hvalid := run_valid (S := makeSolver E a.ode st rule) hfree hv hm
  obtain ⟨P, hP, -, -, -, hlen, -, hhead, -, states, hst, hmean, hcov⟩ :=
    piecewise_posterior_is_calibrated_partial (S := makeSolver E a.ode st rule) hfree hv hm
  have hN : 2 ≤ r.times.length := by
    rw [ht] at g1 g2
    by_contra hlt
    obtain ⟨t, hl⟩ : ∃ t, r.times = [t] := by
      match hrt : r.times, hlt with
      | [], _ => rw [hrt] at g1; cases g1
      | [t], _ => exact ⟨t, rfl⟩
      | _ :: _ :: _, hlt => simp at hlt
    rw [hl] at g1 g2
    have e1 : t = a.t0 := Option.some.inj g1
    have e2 : t = a.tmax := Option.some.inj g2
    linarith
  obtain ⟨P', hP', hne, hin⟩ := smoothing_diffusions_shifted (S := makeSolver E a.ode st rule) hfree hv hm (by rw [← ht]; exact g3) hN
  obtain ⟨ds, hds, hds'⟩ := map_ok hin
  have hdsP : ds = P'.diffusions.tail ++ [P'.diffusions.getLast hne] := (Prod.mk.inj hds').2
  have hdpos : ∀ δ ∈ ds, 0 < δ := by
    intro δ hδ
    refine hdiff P' (by rw [hdf, hP']) δ ?_
    rw [hdsP] at hδ
    rcases List.mem_append.1 hδ with hδ | hδ
    · exact List.mem_of_mem_tail hδ
    · rw [List.mem_singleton.1 hδ]; exact List.getLast_mem hne
  obtain ⟨hno, sm, hsm, hsl, hsv, hsL⟩ := dense_output_succeeds_partial hε a.t0 (r := r) hvalid hlen
    (by intro h0; rw [h0] at hN; simp at hN) (by rw [← ht]; exact g3) hfs hds hdpos
  rw [hd, hno] at hpost
  have hsol := Except.ok.inj hpost
  have hrne : r.rvs ≠ [] := by
    intro h0
    rw [h0] at hlen
    rw [hlen] at hN
    simp at hN
  rw [hfs] at hst
  have := Except.ok.inj hst
  subst this
  have hfne : sol.filtering ≠ [] := by
    intro h0
    rw [h0] at hmean
    exact hrne (List.map_eq_nil_iff.1 hmean.symm)
  have e1 := congrArg List.getLast? hmean
  have e2 := congrArg List.getLast? hcov
  rw [List.getLast?_map, List.getLast?_map, List.getLast?_eq_some_getLast hfne, List.getLast?_eq_some_getLast hrne] at e1 e2
  refine ⟨by rw [← hsol], sm, by rw [hsl, ht], hsv, ?_, ⟨(r.rvs.getLast hrne).mean, (r.rvs.getLast hrne).cov, some (r.rvs.getLast hrne).chol⟩,
    _, by rw [hsL, List.getLast?_eq_some_getLast hrne]; rfl, List.getLast?_eq_some_getLast hfne, Option.some.inj e1, Option.some.inj e2⟩
  have he : effectiveFirst a.t0 a.timeStops rule.first = some h1 := by rw [hfirst]; rfl
  have hp' : prepare { a with denseOutput := true } = .ok (rule, .piecewise (.init a.t0), st) := hp
  rw [probsolve_eq hp' hstops.ne (Nat.pos_of_ne_zero hq) hrv he, hdone]
  simp only
  rw [← hr, hsm, ht, hdf]

/-! ## The hypotheses are met -/

/-- A solver that returns the requested times gives data for the initialisation. -/
theorem fitData_of_evaluations (q : ℕ) (t0 : ℝ) (y : ℝ → Fin d → ℝ) : FitData q t0 fun ts => .ok (ts, ts.map y) := by
  obtain ⟨-, -, h3, -⟩ := fitGrid_spec t0 1e-2 q (by norm_num)
  refine ⟨q + 1, fun i => t0 + (i : ℝ) * ((t0 + ((q + 1 : ℕ) : ℝ) * 1e-2 - t0) / (((q + 1 : ℕ) : ℝ) - 1)),
    fun i => y (t0 + (i : ℝ) * ((t0 + ((q + 1 : ℕ) : ℝ) * 1e-2 - t0) / (((q + 1 : ℕ) : ℝ) - 1))), Nat.succ_pos q, h3, ?_⟩
  show Except.ok (_, List.map y (fitGrid t0 1e-2 q)) = _
  simp only [fitGrid, linspace, listOf, List.map_map]
  rfl

theorem exists_numerics (d q : ℕ) : ∃ E : Numerics d q, 0 ≤ E.damping := by
  obtain ⟨Q⟩ := QR.exists
  obtain ⟨c, -⟩ := exists_covCholesky (q + 1)
  obtain ⟨c', -⟩ := exists_covCholesky (d * (q + 1))
  exact ⟨⟨Q, c, c', 0⟩, le_rfl⟩

/-- The arguments `probsolve_ivp(f, 0, 2, [1/10], method="ek1", adaptive=False, step=1/4, diffusion_model="constant",
dense_output=False, time_stops=[1, 3/2])` for the logistic equation. -/
noncomputable def logisticArgs : Args 1 :=
  { Args.defaults logisticOde 0 2 (.vector fun _ => 1 / 10) with
    method := "ek1", adaptive := false, step := some (1 / 4), diffusionModel := "constant", denseOutput := false,
    timeStops := some [1, 3 / 2] }

theorem logisticArgs_stops : StopsFine logisticArgs.t0 logisticArgs.timeStops := by
  refine Or.inr ⟨[1, 3 / 2], rfl, by simp, ?_, ?_⟩
  · simp; norm_num
  · intro s hs
    simp only [List.tail_cons, List.mem_singleton] at hs
    rw [hs]
    show (0 : ℝ) < 3 / 2
    norm_num

/-- A call that satisfies the hypotheses of the theorems above: there is a solution, its times run from 0 to 2 through 1
and 3/2, and its states are calibrated Bayesian updates. -/
example (E : Numerics 1 3) (hε : 0 ≤ E.damping) (y : ℝ → Fin 1 → ℝ) :
    ∃ n sol s, probsolveIvp E logisticArgs (fun ts => .ok (ts, ts.map y)) n = some (.ok sol) ∧
      sol.times.head? = some 0 ∧ sol.times.getLast? = some 2 ∧ (1 : ℝ) ∈ sol.times ∧
      (0 < s → Consecutive (fun _ t₀ x₀ t₁ x₁ =>
        BayesStep (makeSolver E logisticOde .ek1 (.constant (1 / 4))) s t₀ x₀ t₁ x₁) sol.times sol.filtering) := by
  have hf : FirstStepIs logisticArgs (1 / 4) := Or.inl rfl
  have hfit : logisticArgs.t0 + 1 / 4 ≤ logisticArgs.tmax := by
    show (0 : ℝ) + 1 / 4 ≤ 2
    norm_num
  have hfree : logisticArgs.ode.TimeFree := fun t x => ⟨rfl, rfl⟩
  obtain ⟨n, sol, h⟩ := probsolve_constant_succeeds hε (by norm_num) (a := logisticArgs) hfree
    ⟨fun t x => ⟨_, rfl⟩, fun t x => ⟨_, rfl⟩⟩ (fitData_of_evaluations 3 logisticArgs.t0 y) ⟨_, rfl⟩ rfl rfl (by norm_num)
    hfit (by decide) (by decide) logisticArgs_stops rfl
  obtain ⟨g1, g2, -, g4⟩ := probsolve_grid_partial h hf (by norm_num) hfit logisticArgs_stops
  obtain ⟨rule, st, rv, s, hp, -, -, hc⟩ := probsolve_constant_posterior hε hfree (by decide)
    (fitData_of_evaluations 3 logisticArgs.t0 y) h hf
  have hp' : prepare logisticArgs = .ok (.constant (1 / 4), .constant .init, .ek1) := rfl
  rw [hp'] at hp
  obtain ⟨rfl, h2⟩ := Prod.mk.inj (Except.ok.inj hp)
  obtain ⟨-, rfl⟩ := Prod.mk.inj h2
  refine ⟨n, sol, s, h, g1, g2, g4 1 (by simp [logisticArgs]) ?_ ?_, fun hs => (hc hs).2⟩
  · show (0 : ℝ) < 1
    norm_num
  · show (1 : ℝ) ≤ 2
    norm_num

/-- A step with piecewise constant diffusion and a nonzero predicted residual records a positive diffusion. -/
theorem step_diffusion_positive (hq : 0 < q) {S : Solver d q} {P : Diffusion.PiecewiseDiffusion ℝ ℝ} {t : ℝ}
    {rv : Normal (d * (q + 1))} {dt : ℝ} {o : Outcome d q} (hrv : rv.Valid) (hdt : dt ≠ 0) (hev : Evaluates S (t + dt))
    (hP : P.tmax ≤ t + dt) (hacc : ∀ e, S.rule.accepted e = true)
    (hz : ∀ tr v, IWP.discretise q d S.chol dt = some tr →
      S.ode.f (some (t + dt)) (proj d q 0 *ᵥ (tr.mat *ᵥ rv.mean)) = .ok v → proj d q 1 *ᵥ (tr.mat *ᵥ rv.mean) ≠ v)
    (h : attempt S (.piecewise P) t rv dt = .ok o) : ∃ est, 0 < est ∧ o.diffusion = .piecewise (P.update est t) := by
  obtain ⟨tr, lin, pL, mL, full, est, htr, hlin, h1, h2, h3, hest, hpos, hC, h4⟩ := attempt_decided hq
    (D := .piecewise P) hrv hdt hev hP
  obtain ⟨-, hm, hno, hQ⟩ := discretise_props S.chol htr
  obtain ⟨hres, b, hn⟩ := linearized_residual hlin
  rw [h4] at h
  simp only [hacc, if_true] at h
  obtain ⟨predL, -, h⟩ := bind_ok h
  obtain ⟨measL, -, h⟩ := bind_ok h
  obtain ⟨r, -, rfl⟩ := map_ok h
  refine ⟨est, ?_, rfl⟩
  have hz : predRes tr lin rv ≠ 0 := by
    obtain ⟨v, hv, he⟩ := hres.value
    have hpm : predMean tr rv = tr.mat *ᵥ rv.mean := by rw [predMean, hm, add_zero]
    rw [predRes, he]
    intro h0
    exact hz tr v htr (by rw [← hpm]; exact hv) (by rw [← hpm]; exact sub_eq_zero.1 h0)
  have hd : 0 < d := by
    rcases Nat.eq_zero_or_pos d with rfl | hd
    · exact absurd (funext fun i => i.elim0) hz
    · exact hd
  have hq' := hC.inv.dotProduct_mulVec_pos hz
  rw [hest]
  refine div_pos ?_ (by exact_mod_cast hd)
  simpa using hq'

/-- The equation `y' = c`. -/
def constOde (c : ℝ) : Ode 1 where
  f _ _ := .ok fun _ => c
  df _ _ := .ok 0

/-- The arguments `probsolve_ivp(lambda t, y: c, 0, 1/4, [0], method="ek0", adaptive=False, step=1/4,
diffusion_model="dynamic", dense_output=False)`. -/
noncomputable def constArgs (c : ℝ) : Args 1 :=
  { Args.defaults (constOde c) 0 (1 / 4) (.vector 0) with
    method := "ek0", adaptive := false, step := some (1 / 4), diffusionModel := "dynamic", denseOutput := false }

/-- Calls that satisfy the hypotheses of the theorem on dense output with dynamic diffusion: all `y' = c` but one. -/
theorem exists_positive_call (E : Numerics 1 3) (hε : 0 ≤ E.damping) (y : ℝ → Fin 1 → ℝ) :
    ∃ c₀ : ℝ, ∀ c ≠ c₀, ∃ sol, probsolveIvp E (constArgs c) (fun ts => .ok (ts, ts.map y)) 2 = some (.ok sol) ∧
      ∀ P, sol.diffusion = .piecewise P → ∀ s ∈ P.diffusions, 0 < s := by
  obtain ⟨rv, hrv, hv⟩ := fit_valid E hε (fitData_of_evaluations 3 0 y)
  obtain ⟨tr, htr, -⟩ := IWP.noise_positive_definite 3 1 E.chol (h := (1 / 4 : ℝ)) (by norm_num)
  set x := rv.toNormal E.ch E.damping with hx
  refine ⟨(proj 1 3 1 *ᵥ (tr.mat *ᵥ x.mean)) 0, fun c hc => ?_⟩
  have hp : prepare (constArgs c) = .ok (.constant (1 / 4), .piecewise (.init 0), .ek0) := by
    have hD : chooseDiffusion (constArgs c).diffusionModel (constArgs c).t0 = .ok (.piecewise (.init 0)) := by
      rw [chooseDiffusion, if_neg (by show ¬ ("dynamic".toList.map Char.toLower = _); decide),
        if_pos (by show "dynamic".toList.map Char.toLower = _; decide)]
      rfl
    have hM : chooseMethod (constArgs c).method = .ok .ek0 := by
      rw [chooseMethod, if_pos (by show "ek0".toList.map Char.toUpper = _; decide)]
    have hR : constructSteprule (constArgs c).ode (constArgs c).t0 (constArgs c).y0 (constArgs c).adaptive
        (constArgs c).step (constArgs c).atol (constArgs c).rtol = .ok (.constant (1 / 4)) := rfl
    rw [prepare, hR, hD, hM]
    rfl
  set S := makeSolver E (constOde c) .ek0 (.constant (1 / 4)) with hS
  have hz : ∀ tr' v, IWP.discretise 3 1 S.chol (1 / 4) = some tr' →
      S.ode.f (some (0 + 1 / 4)) (proj 1 3 0 *ᵥ (tr'.mat *ᵥ x.mean)) = .ok v →
      proj 1 3 1 *ᵥ (tr'.mat *ᵥ x.mean) ≠ v := by
    intro tr' v h1 h2 h3
    have e : tr' = tr := Option.some.inj (h1.symm.trans htr)
    subst e
    have e2 : (fun _ => c) = v := Except.ok.inj h2
    rw [← e2] at h3
    exact hc (congrFun h3 0).symm
  have hev : Evaluates S (0 + 1 / 4) := ⟨fun x => ⟨_, rfl⟩, fun h x => ⟨_, rfl⟩⟩
  have htm : (Diffusion.PiecewiseDiffusion.init (K := ℝ) (0 : ℝ)).tmax ≤ 0 + 1 / 4 := by
    show (0 : ℝ) ≤ 0 + 1 / 4
    norm_num
  obtain ⟨o, ho, hot, hs⟩ := step_succeeds_partial (by norm_num) (S := S) (D := .piecewise (.init 0)) (t := 0) (rv := x)
    (dt := 1 / 4) hv (by norm_num) (fun t x => ⟨rfl, rfl⟩) hev ⟨htm, hz⟩
  obtain ⟨est, hest, hod⟩ := step_diffusion_positive (by norm_num) hv (by norm_num) hev htm (fun _ => rfl) hz ho
  obtain ⟨z, hz⟩ := Option.isSome_iff_exists.1 (hs.2 rfl)
  have hatt : loopAttempt S ⟨0, x, .piecewise (.init 0), .ok 0⟩ (1 / 4)
      = ⟨0 + 1 / 4, z, .piecewise ((Diffusion.PiecewiseDiffusion.init 0).update est 0),
        .ok (S.rule.norm o.errors o.reference)⟩ := by
    simp only [loopAttempt, ho, hz, hot, hod, Option.getD_some]
  set env := loopEnv S (.constant (1 / 4)) (1 / 4) 0 (1 / 4) x (.piecewise (.init 0)) with henv
  have hrun : (Ode.run env none 2).status = .done ∧
      (Ode.run env none 2).state.diffusion = .piecewise ((Diffusion.PiecewiseDiffusion.init 0).update est 0) := by
    have h0 : Ode.run env none 0 = ⟨.fresh, env.start, 1 / 4, none, 0, 0, [env.start], [], []⟩ := rfl
    have hlt : env.time env.start < env.tmax := by
      show (0 : ℝ) < 1 / 4
      norm_num
    have ha : env.attempt 0 env.start (1 / 4) = _ := hatt
    have h1 : (Ode.run env none 1).status = .fresh ∧ (Ode.run env none 1).state
        = ⟨0 + 1 / 4, z, .piecewise ((Diffusion.PiecewiseDiffusion.init 0).update est 0),
          .ok (S.rule.norm o.errors o.reference)⟩ := by
      rw [Ode.run_succ, h0]
      simp only [Ode.step, if_pos hlt, Ode.tryStep, ha]
      exact ⟨rfl, rfl⟩
    have hnl : ¬ env.time (Ode.run env none 1).state < env.tmax := by
      rw [h1.2]
      show ¬ ((0 : ℝ) + 1 / 4 < 1 / 4)
      norm_num
    rw [Ode.run_succ]
    simp only [Ode.step, h1.1, if_neg hnl]
    exact ⟨trivial, by rw [h1.2]⟩
  have hres : probsolveIvp E (constArgs c) (fun ts => .ok (ts, ts.map y)) 2
      = some (postprocess (solverPrior E 0) false (loopRun (Ode.run env none 2))) := by
    refine (probsolve_eq (E := E) (n := 2) hp (fun h => by cases h) (by norm_num) hrv (h1 := 1 / 4) rfl).trans ?_
    show (match (Ode.run env none 2).status with
      | .failed e => (some (.error e) : Option (Res (Solution 1 3)))
      | .done => some (postprocess (solverPrior E 0) false (loopRun (Ode.run env none 2)))
      | _ => none) = _
    rw [hrun.1]
  have hf : filteringStates (loopRun (Ode.run env none 2)) = .ok ((loopRun (Ode.run env none 2)).rvs.map (scaleRv 1)) := by
    have : (loopRun (Ode.run env none 2)).diffusion.postFactor = .ok 1 := by
      show (Ode.run env none 2).state.diffusion.postFactor = .ok 1
      rw [hrun.2]
      rfl
    unfold filteringStates
    rw [this]
    rfl
  refine ⟨⟨(loopRun (Ode.run env none 2)).times, (loopRun (Ode.run env none 2)).rvs.map (scaleRv 1), none,
    (loopRun (Ode.run env none 2)).diffusion⟩, ?_, ?_⟩
  · rw [hres]
    simp only [postprocess, hf, Except.bind, Bool.false_eq_true, if_false]
  · intro P hP s hs
    have hP' : Diff.piecewise P = .piecewise ((Diffusion.PiecewiseDiffusion.init 0).update est 0) := hP.symm.trans hrun.2
    cases hP'
    have : s ∈ [est] := hs
    rw [List.mem_singleton.1 this]
    exact hest

/-- The default arguments with initial value zero raise ValueError: `y' = y (1 - y)`, `y(0) = 0`. -/
example (E : Numerics 1 3) (hε : 0 ≤ E.damping) (y : ℝ → Fin 1 → ℝ) :
    probsolveIvp E (Args.defaults logisticOde 0 1 (.vector 0)) (fun ts => .ok (ts, ts.map y)) 1
      = some (.error .valueError) := by
  refine probsolve_no_first_step_raises hε (by norm_num) (fitData_of_evaluations 3 _ y) ⟨_, rfl⟩ rfl rfl rfl (y := 0)
    (v := fun i => (0 : Fin 1 → ℝ) i * (1 - (0 : Fin 1 → ℝ) i)) rfl rfl (Or.inl rfl) ?_ one_pos
  show (0 : ℝ) < 1
  norm_num

end Probnum.OdeFilter
