import Mathlib.Algebra.Order.Field.Rat
import Mathlib.Tactic.NormNum
import Verif.Ode.Lemmas

/-!
# C03, C04, C06: the time grid of ODE solutions, stop locations, accepted steps
-/

namespace Probnum.Ode

variable {σ T N : Type} [AddCommGroup T] [LinearOrder T] [IsOrderedAddMonoid T]

/-- The times of the states yielded after `n` machine steps. -/
def times (env : Env σ T N) (stopAt : Option (List T)) (n : ℕ) : List T :=
  (run env stopAt n).yields.map env.time

/-- Admissible stop lists for the positive theorems: none given, or a nonempty ascending list with at most its first
entry not right of the initial time, and a rule that does not enlarge rejected steps. -/
def AdmissibleStops (env : Env σ T N) (stopAt : Option (List T)) : Prop :=
  stopAt = none ∨ ∃ stops, stopAt = some stops ∧ stops ≠ [] ∧ GoodStops (env.time env.start) stops ∧ RejectShrinks env

theorem run_inv (env : Env σ T N) (stopAt : Option (List T)) (htk : TimeKeeping env)
    (h0 : 0 < env.firststep) (h1 : env.time env.start + env.firststep ≤ env.tmax)
    (hst : AdmissibleStops env stopAt) (n : ℕ) :
    Inv env (stopAt.getD []) (run env stopAt n) ∨
      (Weak env (stopAt.getD []) (run env stopAt n) ∧ ∃ e, (run env stopAt n).status = .failed e) := by
  have hlt : env.time env.start < env.tmax := (lt_add_of_pos_right _ h0).trans_le h1
  have hnone : ∀ n, (run env stopAt n).stopper = none ∨ RejectShrinks env := by
    intro n
    rcases hst with rfl | ⟨stops, rfl, _, _, hr⟩
    · left
      induction n with
      | zero => rfl
      | succ n ih => rw [run_succ, step_stopper_none]; exact ih
    · exact Or.inr hr
  induction n with
  | zero =>
    left
    rcases hst with rfl | ⟨stops, rfl, hne, hg, hr⟩
    · refine ⟨⟨[], rfl⟩, by simp [run, init, processStops], rfl, hlt.le, h1, fun _ => h0, ?_, ?_, fun _ => rfl, ?_⟩
      · intro h; cases h
      · intro h; cases h
      · intro st hst; cases hst
    · cases stops with
      | nil => exact absurd rfl hne
      | cons x xs =>
        refine ⟨⟨[], rfl⟩, by simp [run, init, processStops], rfl, hlt.le, h1, fun _ => h0, ?_, ?_, ?_, ?_⟩
        · intro h; cases h
        · intro h; cases h
        · intro h; cases h
        · intro st hst
          simp only [run, init, processStops, Function.iterate_zero, id_eq, Option.some.injEq] at hst
          subst hst
          refine ⟨by simpa using hg.1, ?_, by simp, ?_, ?_⟩
          · intro y hy; exact hg.2 y hy
          · intro h; cases h
          · intro s hs h2
            refine ⟨fun h3 => absurd h2 (not_lt.2 h3), fun _ => ?_⟩
            simpa [run, init, processStops] using hs
  | succ n ih =>
    rw [run_succ]
    exact step_inv _ htk (hnone n) ih

/-- **C03, partial.**  If the first step does not jump over the end (`t0 + firststep ≤ tmax`, which the solver does
not ensure itself, see `first_step_overshoots`), then at every point of the execution, for every error history,
the yielded times start at `t0`, increase strictly and never exceed `tmax`. -/
theorem times_increasing_within_domain_partial (env : Env σ T N) (stopAt : Option (List T)) (htk : TimeKeeping env)
    (h0 : 0 < env.firststep) (h1 : env.time env.start + env.firststep ≤ env.tmax)
    (hst : AdmissibleStops env stopAt) (n : ℕ) :
    (times env stopAt n).head? = some (env.time env.start) ∧
      (times env stopAt n).Pairwise (· < ·) ∧
      ∀ t ∈ times env stopAt n, t ≤ env.tmax := by
  have hw : Weak env (stopAt.getD []) (run env stopAt n) := by
    rcases run_inv env stopAt htk h0 h1 hst n with h | h
    · exact h.weak
    · exact h.1
  refine ⟨?_, hw.sorted, ?_⟩
  · rw [times, List.head?_map, hw.head]; rfl
  · intro t ht
    obtain ⟨ys, hys⟩ := hw.last
    have hs := hw.sorted
    rw [times, hys, List.map_append] at ht
    rw [hys, List.map_append, List.pairwise_append] at hs
    rcases List.mem_append.1 ht with ht | ht
    · exact ((hs.2.2 t ht _ (by simp)).le).trans hw.le
    · simp only [List.map_cons, List.map_nil, List.mem_singleton] at ht
      rw [ht]; exact hw.le

/-- **C03, partial (end point).**  If the solver stops without an exception, the last yielded time is `tmax`. -/
theorem solution_ends_at_tmax_partial (env : Env σ T N) (stopAt : Option (List T)) (htk : TimeKeeping env)
    (h0 : 0 < env.firststep) (h1 : env.time env.start + env.firststep ≤ env.tmax)
    (hst : AdmissibleStops env stopAt) (n : ℕ) (hdone : (run env stopAt n).status = .done) :
    (times env stopAt n).getLast? = some env.tmax := by
  rcases run_inv env stopAt htk h0 h1 hst n with h | ⟨_, e, he⟩
  · obtain ⟨ys, hys⟩ := h.last
    rw [times, hys, List.map_append]
    simp [h.finished hdone]
  · rw [he] at hdone; cases hdone

/-- **C04, partial.**  When the solver stops, every requested stop location in `(t0, tmax]` is among the
solution times (ascending stop list, at most its first entry not right of `t0`). -/
theorem stop_locations_hit_partial (env : Env σ T N) (stopAt : Option (List T)) (htk : TimeKeeping env)
    (h0 : 0 < env.firststep) (h1 : env.time env.start + env.firststep ≤ env.tmax)
    (hst : AdmissibleStops env stopAt) (n : ℕ) (hdone : (run env stopAt n).status = .done)
    (s : T) (hs : s ∈ stopAt.getD []) (hlo : env.time env.start < s) (hhi : s ≤ env.tmax) :
    s ∈ times env stopAt n := by
  rcases run_inv env stopAt htk h0 h1 hst n with h | ⟨_, e, he⟩
  · obtain ⟨y, hy, hys⟩ := h.weak.cover s hs hlo (by rw [h.finished hdone]; exact hhi)
    exact hys ▸ List.mem_map_of_mem hy
  · rw [he] at hdone; cases hdone

/-- No stop location is jumped over while the solver is running either: once the solution has passed `s`, `s` is
among its times. -/
theorem stop_locations_not_skipped_partial (env : Env σ T N) (stopAt : Option (List T)) (htk : TimeKeeping env)
    (h0 : 0 < env.firststep) (h1 : env.time env.start + env.firststep ≤ env.tmax)
    (hst : AdmissibleStops env stopAt) (n : ℕ)
    (s : T) (hs : s ∈ stopAt.getD []) (hlo : env.time env.start < s)
    (t : T) (ht : t ∈ times env stopAt n) (hst' : s ≤ t) : s ∈ times env stopAt n := by
  have hw : Weak env (stopAt.getD []) (run env stopAt n) := by
    rcases run_inv env stopAt htk h0 h1 hst n with h | h
    · exact h.weak
    · exact h.1
  have hle : t ≤ env.time (run env stopAt n).state := by
    obtain ⟨ys, hys⟩ := hw.last
    have hso := hw.sorted
    rw [times, hys, List.map_append] at ht
    rw [hys, List.map_append, List.pairwise_append] at hso
    rcases List.mem_append.1 ht with ht | ht
    · exact (hso.2.2 t ht _ (by simp)).le
    · simp only [List.map_cons, List.map_nil, List.mem_singleton] at ht
      exact ht.le
  obtain ⟨y, hy, hys⟩ := hw.cover s hs hlo (hst'.trans hle)
  exact hys ▸ List.mem_map_of_mem hy

/-! ### Concrete environments: a solver whose state is its time -/

/-- A solver over `ℤ` whose state is its time, with a constant step `h` (`ConstantSteps`,
`_steprule.py` 48-68: always accepted, always suggests `h`). -/
def constantEnv (h tmax : ℤ) : Env ℤ ℤ Unit where
  time := id
  tmax := tmax
  start := 0
  attempt := fun _ s dt => s + dt
  norm := fun _ => ()
  accepted := fun _ => true
  suggest := fun _ _ => .ok h
  firststep := h
  callbacks := []

theorem constantEnv_timeKeeping (h tmax : ℤ) (hh : 0 < h) : TimeKeeping (constantEnv h tmax) := by
  refine ⟨fun _ _ _ => rfl, by simp [constantEnv], ?_⟩
  intro dt n h' _ he
  simp only [constantEnv, Except.ok.injEq] at he
  exact he ▸ hh

/-- The hypotheses of the positive theorems are met by an ordinary run: step 3 on [0,10] with stops 4 and 7. -/
example : TimeKeeping (constantEnv 3 10) ∧ 0 < (constantEnv 3 10).firststep ∧
    (constantEnv 3 10).time (constantEnv 3 10).start + (constantEnv 3 10).firststep
      ≤ (constantEnv 3 10).tmax ∧
    AdmissibleStops (constantEnv 3 10) (some [4, 7]) ∧
    (run (constantEnv 3 10) (some [4, 7]) 5).status = .done ∧
    times (constantEnv 3 10) (some [4, 7]) 5 = [0, 3, 4, 7, 10] := by
  refine ⟨constantEnv_timeKeeping _ _ (by decide), by decide, by decide, ?_, by decide, by decide⟩
  refine Or.inr ⟨_, rfl, by simp, ⟨by simp, by simp [constantEnv]⟩, ?_⟩
  intro dt n h hacc; simp [constantEnv] at hacc

/-- **C03, violated.**  The first step is not clipped: `ConstantSteps(10)` on `[0, 1]` yields the time 10. -/
theorem first_step_overshoots :
    times (constantEnv 10 1) none 2 = [0, 10] ∧ (run (constantEnv 10 1) none 2).status = .done := by
  decide

/-- **C03/C04, violated for stop lists with two entries not right of `t0`**: stops `-1, 0, 2` on `[0, 4]`
produce a step of size zero, i.e. a repeated time. -/
theorem two_early_stops_repeat_time :
    times (constantEnv 1 4) (some [-1, 0, 2]) 1 = [0, 0] := by
  decide

/-- **C03/C04, violated for unsorted stop lists**: stops `2, 1` make the solver step backwards. -/
theorem unsorted_stops_step_backwards :
    times (constantEnv 2 4) (some [2, 1]) 2 = [0, 2, 1] := by
  decide

/-- An empty list of stop locations makes the generator raise instead of being ignored. -/
theorem empty_stops_raise (env : Env σ T N) (n : ℕ) :
    (run env (some []) n).status = .failed .runtimeError ∧ (run env (some []) n).yields = [] := by
  induction n with
  | zero => exact ⟨rfl, rfl⟩
  | succ n ih =>
    rw [run_succ]
    unfold step
    rw [ih.1]
    exact ih

/-- **C03, non-termination.**  `ConstantSteps(0)` never finishes: for every number of machine steps the solver is
still running, with the same time repeated. -/
theorem zero_step_never_terminates (n : ℕ) :
    (run (constantEnv 0 1) none n).status = .fresh ∧
      times (constantEnv 0 1) none n = List.replicate (n + 1) 0 := by
  have key : ∀ n, (run (constantEnv 0 1) none n).status = .fresh ∧ (run (constantEnv 0 1) none n).state = 0 ∧
      (run (constantEnv 0 1) none n).dt = 0 ∧ (run (constantEnv 0 1) none n).stopper = none ∧
      (run (constantEnv 0 1) none n).yields = List.replicate (n + 1) 0 := by
    intro n
    induction n with
    | zero => simp [run, init, processStops, constantEnv]
    | succ n ih =>
      obtain ⟨h1, h2, h3, h4, h5⟩ := ih
      rw [run_succ]
      have ht : (constantEnv 0 1).time (run (constantEnv 0 1) none n).state < (constantEnv 0 1).tmax := by
        rw [h2]; decide
      simp only [step, h1, ht, if_true, h4]
      have hatt : (constantEnv 0 1).attempt (run (constantEnv 0 1) none n).attempts
          (run (constantEnv 0 1) none n).state (run (constantEnv 0 1) none n).dt = 0 := by
        rw [h2, h3]; simp [constantEnv]
      simp only [tryStep, hatt]
      refine ⟨rfl, rfl, ?_, h4, ?_⟩
      · show min (0 : ℤ) (1 - 0) = 0
        decide
      · show (run (constantEnv 0 1) none n).yields ++ [0] = _
        rw [h5, ← List.replicate_succ']
  refine ⟨(key n).1, ?_⟩
  rw [times, (key n).2.2.2.2]
  simp [constantEnv]

/-! ## C06 -/

/-- The last state reported before the attempts in `log`: the initial state or the last accepted proposal after
callbacks. -/
def lastReported (env : Env σ T N) (log : List (Attempt σ T)) : σ :=
  match (log.filter (·.accepted)).getLast? with
  | none => env.start
  | some a => applyCallbacks env.callbacks a.proposed

omit [IsOrderedAddMonoid T] in
private theorem tryStep_reported (env : Env σ T N) (c : Config σ T)
    (hd : ∀ a ∈ c.log, a.accepted = env.accepted (env.norm a.proposed)) :
    (∃ a : Attempt σ T, (tryStep env c).log = c.log ++ [a] ∧ a.start = c.state ∧ a.dt = c.dt ∧
      a.proposed = env.attempt c.attempts c.state c.dt ∧
      a.accepted = env.accepted (env.norm a.proposed) ∧
      (tryStep env c).attempts = c.attempts + 1 ∧
      ((∃ e, (tryStep env c).status = .failed e ∧ (tryStep env c).yields = c.yields ∧
          (tryStep env c).state = c.state ∧ (tryStep env c).numSteps = c.numSteps ∧
          (tryStep env c).methodCalls = c.methodCalls) ∨
       (a.accepted = true ∧ (tryStep env c).status = .fresh ∧
          (tryStep env c).state = applyCallbacks env.callbacks a.proposed ∧
          (tryStep env c).yields = c.yields ++ [applyCallbacks env.callbacks a.proposed] ∧
          (tryStep env c).numSteps = c.numSteps + 1 ∧
          (tryStep env c).methodCalls = c.methodCalls ++ [c.state]) ∨
       (a.accepted = false ∧ (tryStep env c).status = .retry ∧ (tryStep env c).state = c.state ∧
          (tryStep env c).yields = c.yields ∧ (tryStep env c).numSteps = c.numSteps ∧
          (tryStep env c).methodCalls = c.methodCalls))) := by
  refine ⟨⟨c.state, c.dt, env.attempt c.attempts c.state c.dt,
    env.accepted (env.norm (env.attempt c.attempts c.state c.dt))⟩, ?_⟩
  unfold tryStep
  simp only
  cases hsug : env.suggest c.dt (env.norm (env.attempt c.attempts c.state c.dt)) with
  | error e => simp
  | ok h =>
    by_cases hacc : env.accepted (env.norm (env.attempt c.attempts c.state c.dt)) = true
    · simp [hacc]
    · have hacc' : env.accepted (env.norm (env.attempt c.attempts c.state c.dt)) = false := by simpa using hacc
      simp [hacc']

/-- Invariant behind C06: unless the execution has failed, the log explains the yields; on failure the last logged
attempt is not reported. -/
private def ReportInv (env : Env σ T N) (c : Config σ T) : Prop :=
  (∀ i (hi : i < c.log.length), (c.log[i]).start = lastReported env (c.log.take i)) ∧
  (∀ a ∈ c.log, a.accepted = env.accepted (env.norm a.proposed)) ∧
  ∃ done : List (Attempt σ T),
    (c.log = done ∨ ∃ e a, c.status = .failed e ∧ c.log = done ++ [a]) ∧
    c.yields = env.start :: ((done.filter (·.accepted)).map fun a => applyCallbacks env.callbacks a.proposed) ∧
    c.methodCalls = (done.filter (·.accepted)).map (·.start) ∧
    c.numSteps = (done.filter (·.accepted)).length ∧
    c.state = lastReported env done

omit [IsOrderedAddMonoid T] in
private theorem lastReported_append (env : Env σ T N) (l : List (Attempt σ T)) (a : Attempt σ T) :
    lastReported env (l ++ [a]) =
      if a.accepted then applyCallbacks env.callbacks a.proposed else lastReported env l := by
  unfold lastReported
  rw [List.filter_append]
  cases h : a.accepted <;> simp [List.filter_cons, h]

omit [IsOrderedAddMonoid T] in
private theorem tryStep_reportInv (env : Env σ T N) (c : Config σ T) (hnf : ∀ e, c.status ≠ .failed e)
    (h : ReportInv env c) : ReportInv env (tryStep env c) := by
  obtain ⟨h1, h2, done, h3, h4, h5, h6, h7⟩ := h
  have h3' : c.log = done := by
    rcases h3 with h3 | ⟨e, a, he, _⟩
    · exact h3
    · exact absurd he (hnf e)
  subst h3'
  obtain ⟨a, ha1, ha2, -, -, ha5, -, hcase⟩ := tryStep_reported env c h2
  refine ⟨?_, ?_, ?_⟩
  · intro i hi
    have hi' : i ≤ c.log.length := by
      rw [ha1, List.length_append] at hi; simp at hi; omega
    rcases Nat.lt_or_ge i c.log.length with hl | hl
    · simp only [ha1, List.getElem_append_left hl, List.take_append_of_le_length hi', h1 i hl]
    · have : i = c.log.length := by omega
      subst this
      simp only [ha1, List.getElem_concat_length, List.take_left, ha2, h7]
  · intro b hb
    rw [ha1] at hb
    rcases List.mem_append.1 hb with hb | hb
    · exact h2 b hb
    · rw [List.mem_singleton] at hb; rw [hb]; exact ha5
  · rcases hcase with ⟨e, he, hy, hs, hn, hm⟩ | ⟨hacc, he, hs, hy, hn, hm⟩ | ⟨hacc, he, hs, hy, hn, hm⟩
    · exact ⟨c.log, Or.inr ⟨e, a, he, ha1⟩, by rw [hy, h4], by rw [hm, h5], by rw [hn, h6], by rw [hs, h7]⟩
    · refine ⟨c.log ++ [a], Or.inl ha1, ?_, ?_, ?_, ?_⟩
      · rw [hy, h4]; simp [List.filter_append, List.filter_cons, hacc]
      · rw [hm, h5]; simp [List.filter_append, List.filter_cons, hacc, ha2]
      · rw [hn, h6]; simp [List.filter_append, List.filter_cons, hacc]
      · rw [hs, lastReported_append, if_pos hacc]
    · refine ⟨c.log ++ [a], Or.inl ha1, ?_, ?_, ?_, ?_⟩
      · rw [hy, h4]; simp [List.filter_append, List.filter_cons, hacc]
      · rw [hm, h5]; simp [List.filter_append, List.filter_cons, hacc]
      · rw [hn, h6]; simp [List.filter_append, List.filter_cons, hacc]
      · rw [hs, lastReported_append, h7]; simp [hacc]

omit [IsOrderedAddMonoid T] in
private theorem run_reportInv (env : Env σ T N) (stopAt : Option (List T)) (hs : stopAt ≠ some []) (n : ℕ) :
    ReportInv env (run env stopAt n) := by
  induction n with
  | zero =>
    have : ∃ st, processStops stopAt = .ok st := by
      rcases stopAt with _ | _ | ⟨x, xs⟩
      · exact ⟨_, rfl⟩
      · exact absurd rfl hs
      · exact ⟨_, rfl⟩
    obtain ⟨st, hst⟩ := this
    have hrun : run env stopAt 0 = ⟨.fresh, env.start, env.firststep, st, 0, 0, [env.start], [], []⟩ := by
      simp [run, init, hst]
    rw [hrun]
    exact ⟨by simp, by simp, [], Or.inl rfl, rfl, rfl, rfl, rfl⟩
  | succ n ih =>
    rw [run_succ]
    unfold step
    split
    · exact ih
    · exact ih
    · next hst => exact tryStep_reportInv env _ (by intro e he; rw [hst] at he; cases he) ih
    · next hst =>
      split
      · split
        · exact tryStep_reportInv env _ (by intro e he; rw [hst] at he; cases he) ih
        · refine tryStep_reportInv env _ (by intro e he; rw [hst] at he; cases he) ?_
          obtain ⟨h1, h2, done, h3, h4⟩ := ih
          exact ⟨h1, h2, done, h3, h4⟩
      · obtain ⟨h1, h2, done, h3, h4⟩ := ih
        refine ⟨h1, h2, done, ?_, h4⟩
        rcases h3 with h3 | ⟨e, a, he, _⟩
        · exact Or.inl h3
        · rw [hst] at he; cases he

omit [IsOrderedAddMonoid T] in
/-- **C06 (a).**  At any point of any execution that has not raised, for every rejection history: the yielded states
are the initial state followed by exactly the accepted proposals passed through all callbacks in their given order,
each once and in order; the step counter is their number; the method callback was called once per accepted
step with the state it started from. -/
theorem only_accepted_steps_reported (env : Env σ T N) (stopAt : Option (List T)) (hs : stopAt ≠ some []) (n : ℕ)
    (hnf : ∀ e, (run env stopAt n).status ≠ .failed e) :
    let c := run env stopAt n
    let acc := c.log.filter fun a => env.accepted (env.norm a.proposed)
    c.yields = env.start :: acc.map (fun a => env.callbacks.foldl (fun s cb => cb s) a.proposed) ∧
      c.numSteps = acc.length ∧ c.methodCalls = acc.map (·.start) := by
  obtain ⟨h1, h2, done, h3, h4, h5, h6, h7⟩ := run_reportInv env stopAt hs n
  have h3' : (run env stopAt n).log = done := by
    rcases h3 with h3 | ⟨e, a, he, _⟩
    · exact h3
    · exact absurd he (hnf e)
  subst h3'
  have hf : (run env stopAt n).log.filter (fun a => env.accepted (env.norm a.proposed))
      = (run env stopAt n).log.filter (·.accepted) := by
    apply List.filter_congr
    intro a ha
    rw [h2 a ha]
  simp only [hf]
  exact ⟨h4, h6, h5⟩

omit [IsOrderedAddMonoid T] in
/-- **C06 (b).**  Every attempt, in particular every retry after rejections, starts from the last reported
state. -/
theorem attempts_start_from_last_accepted (env : Env σ T N) (stopAt : Option (List T)) (hs : stopAt ≠ some [])
    (n i : ℕ) (hi : i < (run env stopAt n).log.length) :
    ((run env stopAt n).log[i]).start = lastReported env ((run env stopAt n).log.take i) :=
  (run_reportInv env stopAt hs n).1 i hi

omit [IsOrderedAddMonoid T] in
/-- **C06 (c).**  If a step rule raises, nothing of the failed attempt is reported: the yielded states are still those
of the accepted attempts before it. -/
theorem failed_attempt_not_reported (env : Env σ T N) (stopAt : Option (List T)) (hs : stopAt ≠ some []) (n : ℕ) :
    ∃ k, (run env stopAt n).yields = env.start ::
      ((((run env stopAt n).log.take k).filter fun a => env.accepted (env.norm a.proposed)).map
        fun a => env.callbacks.foldl (fun s cb => cb s) a.proposed) ∧
      (run env stopAt n).log.length ≤ k + 1 := by
  obtain ⟨h1, h2, done, h3, h4, h5, h6, h7⟩ := run_reportInv env stopAt hs n
  have hpre : ∃ k, (run env stopAt n).log.take k = done ∧ (run env stopAt n).log.length ≤ k + 1 := by
    rcases h3 with h3 | ⟨e, a, he, h3⟩
    · exact ⟨done.length, by rw [h3, List.take_length], by rw [h3]; omega⟩
    · exact ⟨done.length, by rw [h3, List.take_left], by rw [h3]; simp⟩
  obtain ⟨k, hk, hlen⟩ := hpre
  refine ⟨k, ?_, hlen⟩
  have hf : ((run env stopAt n).log.take k).filter (fun a => env.accepted (env.norm a.proposed))
      = done.filter (·.accepted) := by
    rw [hk]
    apply List.filter_congr
    intro a ha
    rw [h2 a (by
      rw [← hk] at ha
      exact List.mem_of_mem_take ha)]
  rw [hf]
  exact h4

/-- A rule that rejects odd times: the run makes five attempts and reports three states after the initial one. -/
example :
    let env : Env ℤ ℤ ℤ := {
      time := id, tmax := 6, start := 0
      attempt := fun _ s dt => s + dt
      norm := fun s => s % 2
      accepted := fun e => e = 0
      suggest := fun dt e => if e = 0 then .ok 3 else .ok (dt - 1)
      firststep := 3
      callbacks := [] }
    (run env none 6).yields = [0, 2, 4, 6] ∧ (run env none 6).log.length = 5 ∧
      (run env none 6).status = .done := by
  decide

/-- The step counter is not reset between solves: it counts the steps of the whole life of the solver object. -/
theorem num_steps_not_reset :
    (run (constantEnv 1 2) none 3 (numSteps₀ := 2)).numSteps = 4 ∧
      (run (constantEnv 1 2) none 3 (numSteps₀ := 2)).yields.length = 3 := by
  decide

end Probnum.Ode
