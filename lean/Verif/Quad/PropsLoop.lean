import Verif.Quad.PropsAcq

/-! # Property C42: the loop of Bayesian quadrature and its evaluations of the integrand -/

namespace Probnum.Quad

open Probnum Probnum.Linops Finset

variable {X ρ : Type}

/-! ## Specification -/

/-- What the loop carries: state, bookkeeping, generator, and the nodes at which the integrand was evaluated. -/
structure Cfg (X ρ : Type) where
  s : State X
  info : Info
  r : ρ
  log : Log X

/-- One iteration without the stopping decision. -/
noncomputable def iterate (P : Problem X) (u : Update) (p : Policy X ρ) (f : List X → List ℝ) (c : Cfg X ρ) :
    Res (Cfg X ρ) :=
  match p.call c.s c.r with
  | .error e => .error e
  | .ok (xs, r) => match u.call P c.s xs (f xs) with
    | .error e => .error e
    | .ok s => .ok ⟨s, ⟨c.info.iteration + 1, c.info.nevals + p.batchSize, false⟩, r, c.log ++ xs⟩

/-- `k` iterations. -/
noncomputable def iterates (P : Problem X) (u : Update) (p : Policy X ρ) (f : List X → List ℝ) :
    ℕ → Cfg X ρ → Res (Cfg X ρ)
  | 0, c => .ok c
  | k + 1, c => match iterate P u p f c with
    | .error e => .error e
    | .ok c => iterates P u p f k c

/-- The policy returns as many nodes as its batch size. -/
def Policy.Sized (p : Policy X ρ) : Prop := ∀ s r xs r', p.call s r = .ok (xs, r') → xs.length = p.batchSize

/-- The criterion stops when the number of evaluations reaches `n`. -/
def Crit.Limits (c : Crit X) (n : ℕ) : Prop := ∀ (s : State X) (i : Info), n ≤ i.nevals → c.holds s i

/-! ## Helper lemmas -/

section

variable {P : Problem X} {u : Update} {crit : Crit X} {p : Policy X ρ} {f : List X → List ℝ}

theorem bqLoop_stop (fuel : ℕ) {c : Cfg X ρ} {policy : Option (Policy X ρ)} (h : crit.holds c.s c.info) :
    bqLoop P u crit policy f (fuel + 1) c.s c.info c.r c.log = some (.ok (c.s, { c.info with hasConverged := true }, c.log)) := by
  rw [bqLoop.eq_def]
  simp only [h, decide_true, if_true]

theorem bqLoop_go (fuel : ℕ) {c : Cfg X ρ} (h : ¬ crit.holds c.s c.info) :
    bqLoop P u crit (some p) f (fuel + 1) c.s c.info c.r c.log = match iterate P u p f c with
      | .error e => some (.error e)
      | .ok c => bqLoop P u crit (some p) f fuel c.s c.info c.r c.log := by
  rw [bqLoop, iterate]
  simp only [h, decide_false]
  cases p.call c.s c.r with
  | error e => rfl
  | ok a =>
    obtain ⟨xs, r⟩ := a
    dsimp only
    cases u.call P c.s xs (f xs) with
    | error e => rfl
    | ok s => rfl

end

/-! ## C42 -/

section

variable {P : Problem X} {u : Update} {crit : Crit X} {p : Policy X ρ} {f : List X → List ℝ}

/-- The loop returns the first state of the iteration that satisfies the criterion, and nothing else. -/
theorem bq_stops_first (fuel : ℕ) (c : Cfg X ρ) (s : State X) (info : Info) (log : Log X) :
    bqLoop P u crit (some p) f fuel c.s c.info c.r c.log = some (.ok (s, info, log)) ↔
      ∃ k < fuel, ∃ c', iterates P u p f k c = .ok c' ∧ crit.holds c'.s c'.info ∧
        (∀ j < k, ∃ d, iterates P u p f j c = .ok d ∧ ¬ crit.holds d.s d.info) ∧
        s = c'.s ∧ info = { c'.info with hasConverged := true } ∧ log = c'.log := by
  induction fuel generalizing c with
  | zero =>
    refine ⟨fun h => ?_, fun ⟨k, hk, _⟩ => absurd hk (Nat.not_lt_zero _)⟩
    rw [bqLoop] at h
    cases h
  | succ fuel ih =>
    by_cases hc : crit.holds c.s c.info
    · rw [bqLoop_stop fuel hc]
      constructor
      · intro h
        cases h
        exact ⟨0, Nat.succ_pos _, c, rfl, hc, fun j hj => absurd hj (Nat.not_lt_zero _), rfl, rfl, rfl⟩
      · rintro ⟨k, _, c', hk, _, hj, rfl, rfl, rfl⟩
        cases k with
        | zero =>
          cases hk
          rfl
        | succ k =>
          obtain ⟨d, hd, hn⟩ := hj 0 (Nat.succ_pos _)
          cases hd
          exact absurd hc hn
    · rw [bqLoop_go fuel hc]
      cases hi : iterate P u p f c with
      | error e =>
        dsimp only
        refine ⟨fun h => (by cases h), ?_⟩
        rintro ⟨k, _, c', hk, hc', _⟩
        cases k with
        | zero => cases hk; exact absurd hc' hc
        | succ k => rw [iterates, hi] at hk; cases hk
      | ok d =>
        dsimp only
        rw [ih d]
        constructor
        · rintro ⟨k, hk, c', h1, h2, h3, h4⟩
          refine ⟨k + 1, by omega, c', by rw [iterates, hi]; exact h1, h2, fun j hj => ?_, h4⟩
          cases j with
          | zero => exact ⟨c, rfl, hc⟩
          | succ j =>
            obtain ⟨d', hd, hn⟩ := h3 j (by omega)
            exact ⟨d', by rw [iterates, hi]; exact hd, hn⟩
        · rintro ⟨k, hk, c', h1, h2, h3, h4⟩
          cases k with
          | zero => cases h1; exact absurd h2 hc
          | succ k =>
            rw [iterates, hi] at h1
            refine ⟨k, by omega, c', h1, h2, fun j hj => ?_, h4⟩
            obtain ⟨d', hd, hn⟩ := h3 (j + 1) (by omega)
            rw [iterates, hi] at hd
            exact ⟨d', hd, hn⟩

/-- `k` iterations evaluate the integrand at `k * batch_size` nodes, chosen by the policy, append them to the state and
count them. -/
theorem bq_counts (sym : ∀ x y, P.k x y = P.k y x) (hp : p.Sized) {k : ℕ} {c c' : Cfg X ρ} (hc : Fits P c.s)
    (h : iterates P u p f k c = .ok c') : Fits P c'.s ∧ ∃ xs : List X, xs.length = k * p.batchSize ∧
      c'.log = c.log ++ xs ∧ c'.s.nodes = c.s.nodes ++ xs ∧ c'.info.nevals = c.info.nevals + xs.length ∧
      c'.info.iteration = c.info.iteration + k := by
  induction k generalizing c with
  | zero =>
    cases h
    exact ⟨hc, [], by simp, by simp, by simp, rfl, rfl⟩
  | succ k ih =>
    rw [iterates] at h
    cases hi : iterate P u p f c with
    | error e => rw [hi] at h; cases h
    | ok d =>
      rw [hi] at h
      rw [iterate] at hi
      cases hq : p.call c.s c.r with
      | error e => rw [hq] at hi; cases hi
      | ok a =>
        obtain ⟨xs, r⟩ := a
        rw [hq] at hi
        dsimp only at hi
        cases hu : u.call P c.s xs (f xs) with
        | error e => rw [hu] at hi; cases hi
        | ok s =>
          rw [hu] at hi
          cases hi
          obtain ⟨hf, hn, _⟩ := hc.call sym hu
          have hl := hp _ _ _ _ hq
          obtain ⟨hf', ys, h1, h2, h3, h4, h5⟩ := ih hf h
          refine ⟨hf', xs ++ ys, ?_, ?_, ?_, ?_, ?_⟩
          · rw [List.length_append, hl, h1, Nat.succ_mul, Nat.add_comm]
          · rw [h2, List.append_assoc]
          · rw [h3, hn, List.append_assoc]
          · rw [h4, List.length_append, hl, Nat.add_assoc]
          · rw [h5, Nat.add_assoc, Nat.add_comm 1 k]

/-- With a limit of `n` evaluations the loop ends with less than `n + batch_size` evaluations, or makes none. -/
theorem bq_budget (sym : ∀ x y, P.k x y = P.k y x) (hp : p.Sized) {n : ℕ} (hn : crit.Limits n) {fuel : ℕ} {c : Cfg X ρ}
    (hc : Fits P c.s) {s : State X} {info : Info} {log : Log X}
    (h : bqLoop P u crit (some p) f fuel c.s c.info c.r c.log = some (.ok (s, info, log))) :
    ∃ xs : List X, log = c.log ++ xs ∧ s.nodes = c.s.nodes ++ xs ∧ s.evals.length = s.nodes.length ∧
      info.nevals = c.info.nevals + xs.length ∧ (xs = [] ∨ info.nevals < n + p.batchSize) := by
  obtain ⟨k, _, c', h1, h2, h3, rfl, rfl, rfl⟩ := (bq_stops_first ..).1 h
  obtain ⟨hf, xs, h4, h5, h6, h7, _⟩ := bq_counts sym hp hc h1
  refine ⟨xs, h5, h6, hf.evals, h7, ?_⟩
  cases k with
  | zero => exact .inl (List.length_eq_zero_iff.1 (by rw [h4, Nat.zero_mul]))
  | succ k =>
    obtain ⟨d, hd, hnd⟩ := h3 k (Nat.lt_succ_self k)
    obtain ⟨_, ys, h8, _, _, h9, _⟩ := bq_counts sym hp hc hd
    refine .inr ?_
    have : d.info.nevals < n := by
      by_contra hge
      exact hnd (hn _ _ (by omega))
    show c'.info.nevals < _
    rw [h7, h4, Nat.succ_mul]
    rw [h9, h8] at this
    omega

/-- With a limit of `n` evaluations and a positive batch size, `n` iterations are enough. -/
theorem bq_terminates {n : ℕ} (hn : crit.Limits n) (hb : 0 < p.batchSize) (c : Cfg X ρ) {fuel : ℕ}
    (hf : n < fuel + c.info.nevals) (hf0 : 0 < fuel) : bqLoop P u crit (some p) f fuel c.s c.info c.r c.log ≠ none := by
  induction fuel generalizing c with
  | zero => exact absurd hf0 (lt_irrefl 0)
  | succ fuel ih =>
    by_cases hc : crit.holds c.s c.info
    · rw [bqLoop_stop fuel hc]
      exact Option.some_ne_none _
    · rw [bqLoop_go fuel hc]
      cases hi : iterate P u p f c with
      | error e => exact Option.some_ne_none _
      | ok d =>
        dsimp only
        have hlt : c.info.nevals < n := by
          by_contra hge
          exact hc (hn _ _ (by omega))
        have hd : d.info.nevals = c.info.nevals + p.batchSize := by
          rw [iterate] at hi
          cases hq : p.call c.s c.r with
          | error e => rw [hq] at hi; cases hi
          | ok a =>
            rw [hq] at hi
            dsimp only at hi
            cases hu : u.call P c.s a.1 (f a.1) with
            | error e => rw [hu] at hi; cases hi
            | ok s => rw [hu] at hi; cases hi; rfl
        exact ih d (by omega) (by omega)

end

/-- The criteria that `from_problem` builds stop at the evaluation limit; the default limit is 25 per dimension. -/
theorem from_problem_limits (dim : ℕ) (maxEvals : Option ℕ) (varTol relTol : Option ℝ) (n : ℕ) (h : maxEvals = some n) :
    (fromProblemCrit (X := X) dim maxEvals varTol relTol true).Limits n ∧
      (fromProblemCrit (X := X) dim none none none true).Limits (dim * 25) := by
  subst h
  refine ⟨fun s i hi => ?_, fun s i hi => .inr hi⟩
  cases varTol <;> cases relTol
  · exact hi
  · exact .inl hi
  · exact .inl hi
  · exact .inl (.inl hi)

/-- The options combine as documented: the loop stops when any of the given criteria is met. -/
theorem from_problem_any (dim : ℕ) (maxEvals : Option ℕ) (varTol relTol : Option ℝ)
    (h : maxEvals ≠ none ∨ varTol ≠ none ∨ relTol ≠ none) (s : State X) (i : Info) :
    (fromProblemCrit (X := X) dim maxEvals varTol relTol true).holds s i ↔
      (∃ n, maxEvals = some n ∧ n ≤ i.nevals) ∨ (∃ t, varTol = some t ∧ s.belief.2 ≤ t) ∨
        (∃ t, relTol = some t ∧ ∃ q, s.previous.getLast? = some q ∧ s.belief.1 ≠ 0 ∧
          |(s.belief.1 - q.1) / s.belief.1| ≤ t) := by
  cases hg : s.previous.getLast? <;> cases maxEvals <;> cases varTol <;> cases relTol <;>
    simp [fromProblemCrit, Crit.holds, hg, or_assoc] at h ⊢

/-! ## `integrate` -/

theorem prepare_ok {S : Solver X ρ} {f : Option (List X → Rows ℝ)} {nodes : Option (Rows X)} {evals : Option (Rows ℝ)}
    {hasRng : Bool} {n : Option (List X)} {e : List ℝ} {log : Log X}
    (h : S.prepare f nodes evals hasRng = .ok (n, e, log)) : n = nodes.map Rows.rows ∧
      (S.policy = none → nodes.isSome) ∧ log = if evals.isSome then [] else (nodes.map Rows.rows).getD [] := by
  rw [Solver.prepare] at h
  split at h
  · cases h
  · next h0 =>
    cases hf : fixedEvals f nodes evals with
    | error e => rw [hf] at h; cases h
    | ok a =>
      rw [hf] at h
      dsimp only at h
      split at h
      · cases h
      · split at h
        · cases h
        · next hb =>
          cases h
          refine ⟨rfl, fun hp => ?_, ?_⟩
          · rw [hp, badPolicy] at hb
            cases nodes with
            | none => exact absurd rfl hb
            | some _ => rfl
          · cases nodes with
            | none =>
              rw [fixedEvals.eq_def] at hf
              cases hf
              cases evals <;> rfl
            | some x =>
              cases evals with
              | some e' => cases hf; rfl
              | none =>
                cases f with
                | none => exact absurd ⟨rfl, rfl⟩ h0
                | some g => cases hf; rfl

theorem start_ok {S : Solver X ρ} {g : List X → List ℝ} {nodes n : Option (List X)} {evals e : List ℝ} {log lg : Log X}
    {hasRng : Bool} {r r' : ρ} (h : S.start g nodes evals log hasRng r = .ok (n, e, lg, r')) :
    ∃ design : List X, (design = match S.design with | none => [] | some d => (d.2 r).1) ∧
      n.getD [] = nodes.getD [] ++ design ∧ lg = log ++ design := by
  rw [Solver.start] at h
  cases hd : S.design with
  | none =>
    rw [hd] at h
    cases h
    exact ⟨[], rfl, (List.append_nil _).symm, (List.append_nil _).symm⟩
  | some d =>
    rw [hd] at h
    dsimp only at h
    split at h
    · cases h
    · cases nodes with
      | none => cases h; exact ⟨_, rfl, rfl, rfl⟩
      | some x => cases h; exact ⟨_, rfl, rfl, rfl⟩

/-- A call of `integrate` that returns: the nodes of the result are the given nodes, the initial design and the nodes of
the policy; the integrand was evaluated at the design, the nodes of the policy, and the given nodes if no values were
given for them; the reported number of evaluations is the number of nodes, and below the limit plus the batch size,
unless the data before the loop reaches the limit. -/
theorem integrate_budget {S : Solver X ρ} (sym : ∀ x y, S.problem.k x y = S.problem.k y x) {p : Policy X ρ}
    (hS : S.policy = some p) (hp : p.Sized) {n : ℕ} (hn : S.crit.Limits n) {fuel : ℕ} {f : Option (List X → Rows ℝ)}
    {nodes : Option (Rows X)} {evals : Option (Rows ℝ)} {hasRng : Bool} {r : ρ} {s : State X} {info : Info} {log : Log X}
    (h : S.integrate fuel f nodes evals hasRng r = some (.ok (s, info, log))) :
    ∃ given design chosen : List X, given = (nodes.map Rows.rows).getD [] ∧
      (design = match S.design with | none => [] | some d => (d.2 r).1) ∧
      s.nodes = given ++ design ++ chosen ∧
      log = (if evals.isSome then [] else given) ++ design ++ chosen ∧
      info.nevals = s.nodes.length ∧ s.evals.length = s.nodes.length ∧
      (chosen = [] ∨ info.nevals < n + p.batchSize) := by
  rw [Solver.integrate] at h
  cases hprep : S.prepare f nodes evals hasRng with
  | error e => rw [hprep] at h; cases h
  | ok a =>
    obtain ⟨m, e, lg⟩ := a
    rw [hprep] at h
    dsimp only at h
    obtain ⟨h1, _, hlog⟩ := prepare_ok hprep
    cases hst : S.start (integrand f) m e lg hasRng r with
    | error e => rw [hst] at h; cases h
    | ok b =>
      obtain ⟨m', e', lg', r'⟩ := b
      rw [hst] at h
      dsimp only at h
      obtain ⟨design, hdes, h2, h3⟩ := start_ok hst
      have key : ∀ t : State X, Fits S.problem t → t.nodes = m'.getD [] →
          bqLoop S.problem S.update (if S.policy.isSome then S.crit else .immediate) S.policy (integrand f) fuel t
            ⟨0, t.evals.length, false⟩ r' lg' = some (.ok (s, info, log)) →
          ∃ given design chosen : List X, given = (nodes.map Rows.rows).getD [] ∧
            (design = match S.design with | none => [] | some d => (d.2 r).1) ∧
            s.nodes = given ++ design ++ chosen ∧
            log = (if evals.isSome then [] else given) ++ design ++ chosen ∧
            info.nevals = s.nodes.length ∧ s.evals.length = s.nodes.length ∧
            (chosen = [] ∨ info.nevals < n + p.batchSize) := by
        intro t ft ht hl
        rw [hS, if_pos (by rfl)] at hl
        obtain ⟨xs, k1, k2, k3, k4, k5⟩ := bq_budget (c := ⟨t, ⟨0, t.evals.length, false⟩, r', lg'⟩) sym hp hn ft hl
        have k1 : log = lg' ++ xs := k1
        have k2 : s.nodes = t.nodes ++ xs := k2
        have k4 : info.nevals = t.evals.length + xs.length := k4
        refine ⟨_, design, xs, rfl, hdes, ?_, ?_, ?_, k3, k5⟩
        · rw [k2, ht, h2, h1]
        · rw [k1, h3, hlog]
        · rw [k4, k2, ft.evals, List.length_append]
      cases m' with
      | none => exact key _ (fits_initial _) rfl h
      | some x =>
        dsimp only at h
        cases hu : S.update.call S.problem (State.initial S.problem) x e' with
        | error e => rw [hu] at h; cases h
        | ok t =>
          rw [hu] at h
          obtain ⟨ft, t1, _⟩ := (fits_initial S.problem).call sym hu
          exact key t ft t1 h

/-- Without a policy (hence without an initial design) the given data is used and the loop makes no evaluation. -/
theorem integrate_fixed_data {S : Solver X ρ} (hS : S.policy = none) (hd : S.design = none) (fuel : ℕ)
    (f : Option (List X → Rows ℝ)) (nodes : Option (Rows X)) (evals : Option (Rows ℝ)) (hasRng : Bool) (r : ρ) :
    (∃ e, S.integrate (fuel + 1) f nodes evals hasRng r = some (.error e)) ∨
      ∃ x ys s, nodes = some x ∧ S.update.call S.problem (State.initial S.problem) x.rows ys = .ok s ∧
        S.integrate (fuel + 1) f nodes evals hasRng r =
          some (.ok (s, ⟨0, s.evals.length, true⟩, if evals.isSome then [] else x.rows)) := by
  rw [Solver.integrate]
  cases hprep : S.prepare f nodes evals hasRng with
  | error e => exact .inl ⟨e, rfl⟩
  | ok a =>
    obtain ⟨m, e, lg⟩ := a
    dsimp only
    obtain ⟨h1, h3, hlog⟩ := prepare_ok hprep
    rw [Solver.start, hd]
    cases nodes with
    | none => exact absurd (h3 hS) (by simp)
    | some x =>
      subst h1
      dsimp only [Option.map_some]
      cases hu : S.update.call S.problem (State.initial S.problem) x.rows e with
      | error e => exact .inl ⟨e, rfl⟩
      | ok t =>
        refine .inr ⟨x, e, t, rfl, hu, ?_⟩
        dsimp only
        rw [hS, if_neg (by simp)]
        rw [bqLoop_stop (c := ⟨t, ⟨0, t.evals.length, false⟩, r, lg⟩) (crit := .immediate) fuel trivial, hlog]
        rfl

/-- Function values given without nodes are silently ignored when there is a policy. -/
theorem integrate_ignores_evals {S : Solver X ρ} {p : Policy X ρ} (hS : S.policy = some p) (fuel : ℕ)
    (f : List X → Rows ℝ) (ys : List ℝ) (hasRng : Bool) (r : ρ) :
    S.integrate fuel (some f) none (some ⟨1, ys⟩) hasRng r = S.integrate fuel (some f) none none hasRng r := by
  have e : S.prepare (some f) none (some ⟨1, ys⟩) hasRng =
      if badPolicy S.policy (some f) none hasRng = true then .error .valueError else .ok (none, ys, []) := by
    rw [Solver.prepare, if_neg (by simp)]
    rfl
  have e' : S.prepare (some f) none none hasRng =
      if badPolicy S.policy (some f) none hasRng = true then .error .valueError else .ok (none, [], []) := by
    rw [Solver.prepare, if_neg (by simp)]
    rfl
  rw [Solver.integrate, Solver.integrate, e, e']
  by_cases hb : badPolicy S.policy (some f) none hasRng = true
  · rw [if_pos hb, if_pos hb]
  · rw [if_neg hb, if_neg hb]
    dsimp only
    rw [Solver.start.eq_def, Solver.start.eq_def]
    cases S.design with
    | none => rfl
    | some d => rfl

/-- The checks on the arguments. -/
theorem integrate_rejects {S : Solver X ρ} (fuel : ℕ) (hasRng : Bool) (r : ρ) :
    (∀ nodes, S.integrate fuel none nodes none hasRng r = some (.error .valueError)) ∧
    (∀ f nodes (evals : Rows ℝ), evals.ndim ≠ 1 → S.integrate fuel f nodes (some evals) hasRng r = some (.error .valueError)) ∧
    (∀ f nodes (evals : Rows ℝ), nodes.ndim ≠ 2 ∨ nodes.rows.length ≠ evals.rows.length →
      S.integrate fuel f (some nodes) (some evals) hasRng r = some (.error .valueError)) ∧
    (∀ nodes evals, S.policy ≠ none → S.integrate fuel none nodes (some evals) hasRng r = some (.error .valueError)) ∧
    (∀ f evals, S.policy = none → S.integrate fuel f none evals hasRng r = some (.error .valueError)) := by
  have lift : ∀ {f nodes evals}, S.prepare f nodes evals hasRng = .error .valueError →
      S.integrate fuel f nodes evals hasRng r = some (.error .valueError) := by
    intro f nodes evals h
    rw [Solver.integrate, h]
  have some_case : ∀ {f : Option (List X → Rows ℝ)} {nodes : Option (Rows X)} {evals : Rows ℝ},
      badShapes nodes (some evals) = true ∨ badPolicy S.policy f nodes hasRng = true →
      S.prepare f nodes (some evals) hasRng = .error .valueError := by
    intro f nodes evals h
    have e : fixedEvals f nodes (some evals) = .ok (some evals, []) := by cases nodes <;> rfl
    rw [Solver.prepare, if_neg (by simp), e]
    dsimp only
    split
    · rfl
    · next h1 => rw [if_pos (h.resolve_left h1)]
  refine ⟨fun nodes => lift ?_, fun f nodes evals h => lift (some_case (.inl ?_)),
    fun f nodes evals h => lift (some_case (.inl ?_)), fun nodes evals h => lift (some_case (.inr ?_)), fun f evals h => ?_⟩
  · rw [Solver.prepare, if_pos ⟨rfl, rfl⟩]
  · cases nodes <;> simp [badShapes, h]
  · rcases h with h | h <;> simp [badShapes, h]
  · obtain ⟨p, hp⟩ := Option.ne_none_iff_exists'.1 h
    rw [hp]
    rfl
  · cases evals with
    | some e => exact lift (some_case (.inr (by rw [h]; rfl)))
    | none =>
      refine lift ?_
      cases f with
      | none => rw [Solver.prepare, if_pos ⟨rfl, rfl⟩]
      | some g =>
        rw [Solver.prepare, if_neg (by simp), h]
        rfl

/-- **C42.**  Without a random number generator, a policy or an initial design that needs one is refused, whatever the
other arguments are. -/
theorem integrate_needs_rng {S : Solver X ρ} (fuel : ℕ) (f : Option (List X → Rows ℝ)) (nodes : Option (Rows X))
    (evals : Option (Rows ℝ)) (r : ρ)
    (h : (∃ p, S.policy = some p ∧ p.requiresRng = true) ∨ ∃ d, S.design = some (true, d)) :
    S.integrate fuel f nodes evals false r = some (.error .valueError) := by
  rw [Solver.integrate]
  have key : S.prepare f nodes evals false = .error .valueError ∨ ∃ q, S.prepare f nodes evals false = .ok q := by
    rw [Solver.prepare]
    by_cases h0 : f.isNone ∧ evals.isNone
    · rw [if_pos h0]; exact .inl rfl
    · rw [if_neg h0]
      have hf : ∃ q, fixedEvals f nodes evals = .ok q := by
        cases nodes with
        | none => exact ⟨_, rfl⟩
        | some x => cases evals with
          | some e => exact ⟨_, rfl⟩
          | none => cases f with
            | none => exact absurd ⟨rfl, rfl⟩ h0
            | some g => exact ⟨_, rfl⟩
      obtain ⟨q, hq⟩ := hf
      rw [hq]
      dsimp only
      split
      · exact .inl rfl
      · split
        · exact .inl rfl
        · exact .inr ⟨_, rfl⟩
  rcases key with e | ⟨⟨a, b, c⟩, e⟩
  · rw [e]
  · rcases h with ⟨p, hp, hr⟩ | ⟨d, hd⟩
    · exfalso
      rw [Solver.prepare, hp] at e
      have hb : badPolicy (some p) f nodes false = true := by simp [badPolicy, hr]
      split at e
      · cases e
      · split at e
        · cases e
        · split at e
          · cases e
          · first
              | cases e
              | (rw [if_pos hb] at e; cases e)
    · rw [e]
      dsimp only
      rw [Solver.start.eq_def, hd]
      dsimp only
      rw [if_pos ⟨rfl, rfl⟩]

/-! ## A concrete case -/

/-- A policy that needs a generator. -/
example : ∃ p, (⟨linearProblem, some ⟨1, true, fun _ r => .ok ([1], r)⟩, ⟨1, .keep⟩, .immediate, none⟩ : Solver ℝ Unit).policy =
    some p ∧ p.requiresRng = true := ⟨_, rfl, rfl⟩

/-- A policy that always chooses the node 1. -/
noncomputable def onePolicy : Policy ℝ Unit := ⟨1, false, fun _ r => .ok ([1], r)⟩

example : onePolicy.Sized ∧ (fromProblemCrit (X := ℝ) 1 (some 3) none none true).Limits 3 := by
  refine ⟨fun s r xs r' h => ?_, (from_problem_limits 1 (some 3) none none 3 rfl).1⟩
  cases h
  rfl

/-- A call with one given value and a limit of one evaluation returns. -/
example : ∃ s, (⟨linearProblem, some onePolicy, ⟨1, .keep⟩, .maxNevals 1, none⟩ : Solver ℝ Unit).integrate 1
    (some fun x => ⟨1, x⟩) (some ⟨2, [1]⟩) (some ⟨1, [3]⟩) false () = some (.ok (s, ⟨0, 1, true⟩, [])) := by
  obtain ⟨s, h1, _, h2⟩ := linearProblem_call
  refine ⟨s, ?_⟩
  have e : (⟨linearProblem, some onePolicy, ⟨1, .keep⟩, .maxNevals 1, none⟩ : Solver ℝ Unit).prepare
      (some fun x => ⟨1, x⟩) (some ⟨2, [1]⟩) (some ⟨1, [3]⟩) false = .ok (some [1], [3], []) := rfl
  rw [Solver.integrate, e]
  dsimp only
  rw [Solver.start]
  dsimp only
  rw [h1]
  dsimp only
  rw [h2]
  exact bqLoop_stop (crit := .maxNevals 1) (c := ⟨s, ⟨0, 1, false⟩, (), []⟩) 0 (le_refl 1)

end Probnum.Quad
