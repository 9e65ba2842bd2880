import Verif.Linalg.Loop
import Mathlib.Tactic.NormNum
import Mathlib.Tactic.Linarith

/-!
# C36: the loop of the probabilistic linear solvers
-/

namespace Probnum.Linalg.Loop

variable {β S O R C : Type}

/-- All four components are benign. -/
structure Solver.Benign (s : Solver β S O R C) (resid : β → R) : Prop where
  policy : Comp.Benign resid s.policy
  info : Comp.Benign resid s.info
  update : Comp.Benign resid s.update
  stop : Comp.Benign resid s.stop

/-- Same state up to the cached residual of the current step and the dictionary `cache`. -/
private def Sim (resid : β → R) (st st' : State β S O R C) : Prop :=
  ∃ c, st' = { st with cache := c } ∨ st' = { st.touch resid with cache := c }

private theorem touch_belief (resid : β → R) (st : State β S O R C) : (st.touch resid).belief = st.belief := by
  unfold State.touch; split <;> rfl

private theorem touch_actions (resid : β → R) (st : State β S O R C) : (st.touch resid).actions = st.actions := by
  unfold State.touch; split <;> rfl

private theorem touch_observations (resid : β → R) (st : State β S O R C) :
    (st.touch resid).observations = st.observations := by
  unfold State.touch; split <;> rfl

private theorem touch_step (resid : β → R) (st : State β S O R C) : (st.touch resid).step = st.step := by
  unfold State.touch; split <;> rfl

private theorem touch_length (resid : β → R) (st : State β S O R C) :
    (st.touch resid).residuals.length = st.residuals.length := by
  unfold State.touch; split <;> simp

private theorem touch_residuals (resid : β → R) (st : State β S O R C) (i : ℕ) :
    (st.touch resid).residuals[i]? = st.residuals[i]? ∨
      (i = st.step ∧ st.residuals[i]? = some none ∧ (st.touch resid).residuals[i]? = some (some (resid st.belief))) := by
  unfold State.touch
  split
  · rename_i h
    by_cases hi : i = st.step
    · subst hi
      refine Or.inr ⟨rfl, h, ?_⟩
      have := (List.getElem?_eq_some_iff.1 h).1
      simp [this]
    · refine Or.inl ?_
      simp [List.getElem?_set, Ne.symm hi]
  · exact Or.inl rfl

/-- The observable fields that a benign component keeps. -/
private structure Keeps (resid : β → R) (st st' : State β S O R C) : Prop where
  belief : st'.belief = st.belief
  actions : st'.actions = st.actions
  observations : st'.observations = st.observations
  step : st'.step = st.step
  length : st'.residuals.length = st.residuals.length
  residuals : ∀ i : ℕ, st'.residuals[i]? = st.residuals[i]? ∨
    (i = st.step ∧ st.residuals[i]? = some none ∧ st'.residuals[i]? = some (some (resid st.belief)))

private theorem keeps_of_benign {resid : β → R} {α : Type} {f : Comp β S O R C α} (hf : Comp.Benign resid f)
    {st st' : State β S O R C} {a : α} (h : f st = .ok (a, st')) : Keeps resid st st' := by
  obtain ⟨c, rfl | rfl⟩ := hf st a st' h
  · exact ⟨rfl, rfl, rfl, rfl, rfl, fun _ => Or.inl rfl⟩
  · exact ⟨touch_belief .., touch_actions .., touch_observations .., touch_step .., touch_length ..,
      touch_residuals resid st⟩

/-- What one pass that does not stop does. -/
private theorem iteration_false {s : Solver β S O R C} {resid : β → R} (hb : s.Benign resid) {st st' : State β S O R C}
    (h : s.iteration st = .ok (st', false)) :
    (∃ st1, s.stop st = .ok (false, st1)) ∧
    ∃ a o, st'.step = st.step + 1 ∧ st.actions[st.step]? = some none ∧ st.observations[st.step]? = some none ∧
      st'.actions = st.actions.set st.step (some a) ++ [none] ∧
      st'.observations = st.observations.set st.step (some o) ++ [none] ∧
      st'.residuals.length = st.residuals.length + 1 ∧
      ∀ i : ℕ, i < st.residuals.length → st'.residuals[i]? = st.residuals[i]? ∨
        (i = st.step ∧ st.residuals[i]? = some none ∧ st'.residuals[i]? = some (some (resid st.belief))) := by
  unfold Solver.iteration at h
  cases h1 : s.stop st with
  | error e => rw [h1] at h; cases h
  | ok p =>
    obtain ⟨b, st1⟩ := p
    rw [h1] at h
    cases b with
    | true => simp at h
    | false =>
      dsimp only at h
      have k1 := keeps_of_benign hb.stop h1
      refine ⟨⟨st1, rfl⟩, ?_⟩
      cases h2 : s.policy st1 with
      | error e => rw [h2] at h; cases h
      | ok p =>
        obtain ⟨a, st2⟩ := p
        rw [h2] at h
        dsimp only at h
        have k2 := keeps_of_benign hb.policy h2
        cases h3 : st2.setAction a with
        | error e => rw [h3] at h; cases h
        | ok st3 =>
          rw [h3] at h
          dsimp only at h
          have k3 : st2.actions[st2.step]? = some none ∧ st3 = { st2 with actions := st2.actions.set st2.step (some a) } := by
            unfold State.setAction at h3
            split at h3
            · cases h3
            · cases h3
            · rename_i hh
              exact ⟨hh, (Except.ok.inj h3).symm⟩
          obtain ⟨k3a, k3b⟩ := k3
          cases h4 : s.info st3 with
          | error e => rw [h4] at h; cases h
          | ok p =>
            obtain ⟨o, st4⟩ := p
            rw [h4] at h
            dsimp only at h
            have k4 := keeps_of_benign hb.info h4
            cases h5 : st4.setObservation o with
            | error e => rw [h5] at h; cases h
            | ok st5 =>
              rw [h5] at h
              dsimp only at h
              have k5 : st4.observations[st4.step]? = some none ∧
                  st5 = { st4 with observations := st4.observations.set st4.step (some o) } := by
                unfold State.setObservation at h5
                split at h5
                · cases h5
                · cases h5
                · rename_i hh
                  exact ⟨hh, (Except.ok.inj h5).symm⟩
              obtain ⟨k5a, k5b⟩ := k5
              cases h6 : s.update st5 with
              | error e => rw [h6] at h; cases h
              | ok p =>
                obtain ⟨b, st6⟩ := p
                rw [h6] at h
                dsimp only at h
                have k6 := keeps_of_benign hb.update h6
                have hst := congrArg Prod.fst (Except.ok.inj h)
                dsimp only at hst
                subst hst
                have s3 : st3.step = st.step := by rw [k3b]; exact k2.step.trans k1.step
                have s4 : st4.step = st.step := k4.step.trans s3
                have s5 : st5.step = st.step := by rw [k5b]; exact s4
                have b3 : st3.belief = st.belief := by rw [k3b]; exact k2.belief.trans k1.belief
                have b5 : st5.belief = st.belief := by rw [k5b]; exact k4.belief.trans b3
                have r3 : st3.residuals = st2.residuals := by rw [k3b]
                have r5 : st5.residuals = st4.residuals := by rw [k5b]
                refine ⟨a, o, ?_, ?_, ?_, ?_, ?_, ?_, ?_⟩
                · show st6.step + 1 = _; rw [k6.step, s5]
                · rw [← k1.actions, ← k2.actions, ← k1.step, ← k2.step]; exact k3a
                · have o4 : st4.observations = st.observations := by
                    rw [k4.observations, k3b]; exact k2.observations.trans k1.observations
                  rw [← o4, ← s4]; exact k5a
                · show st6.actions ++ [none] = _
                  rw [k6.actions, k5b]
                  show st4.actions ++ [none] = _
                  rw [k4.actions, k3b]
                  show st2.actions.set st2.step (some a) ++ [none] = _
                  rw [k2.actions, k1.actions, k2.step, k1.step]
                · show st6.observations ++ [none] = _
                  rw [k6.observations, k5b]
                  show st4.observations.set st4.step (some o) ++ [none] = _
                  rw [k4.observations, s4, k3b]
                  show st2.observations.set st.step (some o) ++ [none] = _
                  rw [k2.observations, k1.observations]
                · show (st6.residuals ++ [none]).length = _
                  rw [List.length_append, k6.length, r5, k4.length, r3, k2.length, k1.length]
                  rfl
                · intro i hi
                  have l6 : i < st6.residuals.length := by
                    rw [k6.length, r5, k4.length, r3, k2.length, k1.length]; exact hi
                  have e : ({ st6 with belief := b } : State β S O R C).next.residuals[i]? = st6.residuals[i]? := by
                    show (st6.residuals ++ [none])[i]? = _
                    rw [List.getElem?_append_left l6]
                  rw [e]
                  have q1 := k1.residuals i
                  have q2 := k2.residuals i
                  have q4 := k4.residuals i
                  have q6 := k6.residuals i
                  rw [r3, b3, s3] at q4
                  rw [r5, b5, s5] at q6
                  rw [k1.belief, k1.step] at q2
                  rcases q6 with q6 | ⟨i6, n6, v6⟩
                  · rw [q6]
                    rcases q4 with q4 | ⟨i4, n4, v4⟩
                    · rw [q4]
                      rcases q2 with q2 | ⟨i2, n2, v2⟩
                      · rw [q2]; exact q1
                      · rcases q1 with q1 | ⟨i1, n1, v1⟩
                        · exact Or.inr ⟨i2, by rw [← q1]; exact n2, v2⟩
                        · rw [v1] at n2; cases n2
                    · rcases q2 with q2 | ⟨i2, n2, v2⟩
                      · rcases q1 with q1 | ⟨i1, n1, v1⟩
                        · exact Or.inr ⟨i4, by rw [← q1, ← q2]; exact n4, v4⟩
                        · rw [q2, v1] at n4; cases n4
                      · rw [v2] at n4; cases n4
                  · rcases q4 with q4 | ⟨i4, n4, v4⟩
                    · rcases q2 with q2 | ⟨i2, n2, v2⟩
                      · rcases q1 with q1 | ⟨i1, n1, v1⟩
                        · exact Or.inr ⟨i6, by rw [← q1, ← q2, ← q4]; exact n6, v6⟩
                        · rw [q4, q2, v1] at n6; cases n6
                      · rw [q4, v2] at n6; cases n6
                    · rw [v4] at n6; cases n6

private theorem runFor_false_prev {s : Solver β S O R C} {st0 st : State β S O R C} {k : ℕ}
    (h : s.runFor st0 (k + 1) = .ok (st, false)) :
    ∃ st', s.runFor st0 k = .ok (st', false) ∧ s.iteration st' = .ok (st, false) := by
  rw [Solver.runFor] at h
  cases hr : s.runFor st0 k with
  | error e => rw [hr] at h; cases h
  | ok p =>
    obtain ⟨st', b⟩ := p
    rw [hr] at h
    cases b with
    | true => simp at h
    | false => exact ⟨st', rfl, h⟩

/-- **C36 (a), alignment.**  After `k` completed iterations the step counter is `k`; the three lists have `k + 1`
entries; action and observation `i` are set exactly for `i < k`; the cached residual of step `i` is either absent or the
residual `b - A x` of the belief the solver had at the start of step `i`. -/
theorem lists_aligned (s : Solver β S O R C) (resid : β → R) (hb : s.Benign resid) (prior : β) (c : C) (k : ℕ)
    (st : State β S O R C) (h : s.runFor (State.new resid prior c) k = .ok (st, false)) :
    st.step = k ∧ st.actions.length = k + 1 ∧ st.observations.length = k + 1 ∧ st.residuals.length = k + 1 ∧
    (∀ i < k, (∃ a, st.actions[i]? = some (some a)) ∧ (∃ o, st.observations[i]? = some (some o))) ∧
    st.actions[k]? = some none ∧ st.observations[k]? = some none ∧
    (∀ i ≤ k, ∃ sti, s.runFor (State.new resid prior c) i = .ok (sti, false) ∧
      (st.residuals[i]? = some none ∨ st.residuals[i]? = some (some (resid sti.belief)))) := by
  induction k generalizing st with
  | zero =>
    rw [Solver.runFor] at h
    have := congrArg Prod.fst (Except.ok.inj h)
    dsimp only at this
    subst this
    refine ⟨rfl, rfl, rfl, rfl, by simp, rfl, rfl, ?_⟩
    intro i hi
    obtain rfl : i = 0 := by omega
    exact ⟨_, rfl, Or.inr rfl⟩
  | succ k ih =>
    obtain ⟨st', h', hit⟩ := runFor_false_prev h
    obtain ⟨i1, i2, i3, i4, i5, i6, i7, i8⟩ := ih st' h'
    obtain ⟨-, a, o, e1, -, -, e4, e5, e6, e7⟩ := iteration_false hb hit
    rw [i1] at e1 e4 e5 e7
    refine ⟨e1, ?_, ?_, ?_, ?_, ?_, ?_, ?_⟩
    · rw [e4]; simp [i2]
    · rw [e5]; simp [i3]
    · rw [e6, i4]
    · intro i hi
      rw [e4, e5, List.getElem?_append_left (by simp [i2]; omega), List.getElem?_append_left (by simp [i3]; omega)]
      rcases Nat.lt_or_ge i k with hlt | hge
      · have hne : k ≠ i := by omega
        simpa [List.getElem?_set, hne] using i5 i hlt
      · obtain rfl : i = k := by omega
        simp [i2, i3]
    · rw [e4, List.getElem?_append_right (by simp [i2])]; simp [i2]
    · rw [e5, List.getElem?_append_right (by simp [i3])]; simp [i3]
    · intro i hi
      rcases Nat.lt_or_ge i (k + 1) with hlt | hge
      · obtain ⟨sti, hs, hor⟩ := i8 i (by omega)
        refine ⟨sti, hs, ?_⟩
        rcases e7 i (by rw [i4]; exact hlt) with e | ⟨ei, -, ev⟩
        · rw [e]; exact hor
        · subst ei
          rw [h'] at hs
          have := congrArg Prod.fst (Except.ok.inj hs)
          dsimp only at this
          subst this
          exact Or.inr ev
      · obtain rfl : i = k + 1 := by omega
        refine ⟨st, h, Or.inl ?_⟩
        have hlen : k + 1 < st.residuals.length := by rw [e6, i4]; omega
        unfold Solver.iteration at hit
        -- the last entry is the `None` appended by `next_step`
        have : ∃ (st6 : State β S O R C) (b : β), st = ({ st6 with belief := b } : State β S O R C).next := by
          cases h1 : s.stop st' with
          | error e => rw [h1] at hit; cases hit
          | ok p =>
            obtain ⟨b, st1⟩ := p
            rw [h1] at hit
            cases b with
            | true => simp at hit
            | false =>
              dsimp only at hit
              cases h2 : s.policy st1 with
              | error e => rw [h2] at hit; cases hit
              | ok p =>
                rw [h2] at hit
                dsimp only at hit
                cases h3 : p.2.setAction p.1 with
                | error e => rw [h3] at hit; cases hit
                | ok st3 =>
                  rw [h3] at hit
                  dsimp only at hit
                  cases h4 : s.info st3 with
                  | error e => rw [h4] at hit; cases hit
                  | ok p =>
                    rw [h4] at hit
                    dsimp only at hit
                    cases h5 : p.2.setObservation p.1 with
                    | error e => rw [h5] at hit; cases hit
                    | ok st5 =>
                      rw [h5] at hit
                      dsimp only at hit
                      cases h6 : s.update st5 with
                      | error e => rw [h6] at hit; cases hit
                      | ok p =>
                        rw [h6] at hit
                        dsimp only at hit
                        exact ⟨p.2, p.1, (congrArg Prod.fst (Except.ok.inj hit)).symm⟩
        obtain ⟨st6, b, hst⟩ := this
        have hl6 : st6.residuals.length = k + 1 := by
          have := congrArg (fun q : State β S O R C => q.residuals.length) hst
          simp only [State.next, List.length_append, List.length_singleton] at this
          rw [e6, i4] at this
          omega
        rw [hst]
        show (st6.residuals ++ [none])[k + 1]? = _
        rw [List.getElem?_append_right (by omega), hl6]
        simp

/-- **C36 (b), when and what `solve` returns.**  `solve` returns a belief exactly if there is a number `k` of iterations such
that the criterion was evaluated to false at the start of iterations `0 … k-1` and to true at the start of iteration `k`; what
is returned is the belief after those `k` iterations, and exactly `k` actions were taken. -/
theorem solve_returns_iff (s : Solver β S O R C) (resid : β → R) (hb : s.Benign resid) (prior : β) (c : C) (belief : β)
    (st : State β S O R C) :
    s.Solves resid prior c belief st ↔
      ∃ k stk, s.runFor (State.new resid prior c) k = .ok (stk, false) ∧ s.stop stk = .ok (true, st) ∧
        belief = stk.belief ∧ st.belief = stk.belief ∧ st.step = k ∧
        (∀ i < k, ∃ sti sti', s.runFor (State.new resid prior c) i = .ok (sti, false) ∧ s.stop sti = .ok (false, sti')) ∧
        (∀ i : ℕ, (∃ a, st.actions[i]? = some (some a)) ↔ i < k) := by
  have hprev : ∀ k stk, s.runFor (State.new resid prior c) k = .ok (stk, false) → ∀ i < k,
      ∃ sti sti', s.runFor (State.new resid prior c) i = .ok (sti, false) ∧ s.stop sti = .ok (false, sti') := by
    intro k
    induction k with
    | zero => intro _ _ i hi; omega
    | succ k ih =>
      intro stk h i hi
      obtain ⟨st', h', hit⟩ := runFor_false_prev h
      rcases Nat.lt_or_ge i k with hlt | hge
      · exact ih st' h' i hlt
      · obtain rfl : i = k := by omega
        obtain ⟨⟨st1, h1⟩, -⟩ := iteration_false hb hit
        exact ⟨st', st1, h', h1⟩
  constructor
  · rintro ⟨k, h, hbel⟩
    induction k with
    | zero => rw [Solver.runFor] at h; simp at h
    | succ k ih =>
      rw [Solver.runFor] at h
      cases hr : s.runFor (State.new resid prior c) k with
      | error e => rw [hr] at h; cases h
      | ok p =>
        obtain ⟨st', b⟩ := p
        rw [hr] at h
        cases b with
        | true =>
          dsimp only at h
          exact ih (by rw [hr]; exact h)
        | false =>
          dsimp only at h
          have hstop : s.stop st' = .ok (true, st) := by
            unfold Solver.iteration at h
            cases h1 : s.stop st' with
            | error e => rw [h1] at h; cases h
            | ok p =>
              obtain ⟨b, st1⟩ := p
              rw [h1] at h
              cases b with
              | true =>
                have := congrArg Prod.fst (Except.ok.inj h)
                dsimp only at this
                rw [this]
              | false =>
                dsimp only at h
                exfalso
                cases h2 : s.policy st1 with
                | error e => rw [h2] at h; cases h
                | ok p =>
                  rw [h2] at h
                  dsimp only at h
                  cases h3 : p.2.setAction p.1 with
                  | error e => rw [h3] at h; cases h
                  | ok st3 =>
                    rw [h3] at h
                    dsimp only at h
                    cases h4 : s.info st3 with
                    | error e => rw [h4] at h; cases h
                    | ok p =>
                      rw [h4] at h
                      dsimp only at h
                      cases h5 : p.2.setObservation p.1 with
                      | error e => rw [h5] at h; cases h
                      | ok st5 =>
                        rw [h5] at h
                        dsimp only at h
                        cases h6 : s.update st5 with
                        | error e => rw [h6] at h; cases h
                        | ok p =>
                          rw [h6] at h
                          dsimp only at h
                          have := congrArg Prod.snd (Except.ok.inj h)
                          cases this
          have kk := keeps_of_benign hb.stop hstop
          obtain ⟨a1, a2, -, -, a5, a6, -⟩ := lists_aligned s resid hb prior c k st' hr
          refine ⟨k, st', hr, hstop, by rw [hbel, kk.belief], kk.belief, by rw [kk.step, a1], hprev k st' hr, fun i => ?_⟩
          rw [kk.actions]
          constructor
          · rintro ⟨a, ha⟩
            by_contra hc
            have hl := (List.getElem?_eq_some_iff.1 ha).1
            obtain rfl : i = k := by omega
            rw [a6] at ha
            cases ha
          · intro hi
            exact (a5 i hi).1
  · rintro ⟨k, stk, h, hstop, hbel, hbel', -⟩
    refine ⟨k + 1, ?_, by rw [hbel, hbel']⟩
    rw [Solver.runFor, h]
    show s.iteration stk = _
    rw [Solver.iteration, hstop]

/-- **C36 (c).**  The result of `solve` is unique. -/
theorem solve_unique (s : Solver β S O R C) (resid : β → R) (prior : β) (c : C) (b b' : β)
    (st st' : State β S O R C) (h : s.Solves resid prior c b st) (h' : s.Solves resid prior c b' st') : b = b' ∧ st = st' := by
  obtain ⟨k, hk, rfl⟩ := h
  obtain ⟨k', hk', rfl⟩ := h'
  have mono : ∀ k st d, s.runFor (State.new resid prior c) k = .ok (st, true) →
      s.runFor (State.new resid prior c) (k + d) = .ok (st, true) := by
    intro k st d hk
    induction d with
    | zero => exact hk
    | succ d ih => rw [← Nat.add_assoc, Solver.runFor, ih]
  rcases Nat.le_total k k' with hle | hle
  · have := mono k st (k' - k) hk
    rw [Nat.add_sub_cancel' hle, hk'] at this
    have := congrArg Prod.fst (Except.ok.inj this)
    dsimp only at this
    rw [this]; exact ⟨rfl, rfl⟩
  · have := mono k' st' (k - k') hk'
    rw [Nat.add_sub_cancel' hle, hk] at this
    have := congrArg Prod.fst (Except.ok.inj this)
    dsimp only at this
    rw [this]; exact ⟨rfl, rfl⟩

/-- **C36 (d), iteration limit.**  With the maximum-iterations criterion (alone, or in front of any other criterion that is
combined with it by `|`) the loop ends: after at most `m + 1` passes it has returned or a component has raised, and at most
`m` actions were taken. -/
theorem max_iterations_bound (s : Solver β S O R C) (resid : β → R) (hb : s.Benign resid) (rows : ℕ) (maxiter : Option ℤ)
    (other : Comp β S O R C Bool)
    (hs : s.stop = orStop (maxIterations rows maxiter) other ∨ s.stop = maxIterations rows maxiter)
    (prior : β) (c : C) :
    let m : ℕ := match maxiter with
      | none => 10 * rows
      | some k => k.toNat
    (∃ e, s.runFor (State.new resid prior c) (m + 1) = .error e) ∨
      ∃ st, s.Solves resid prior c st.belief st ∧ st.step ≤ m := by
  intro m
  cases h : s.runFor (State.new resid prior c) (m + 1) with
  | error e => exact Or.inl ⟨e, rfl⟩
  | ok p =>
    obtain ⟨st, b⟩ := p
    refine Or.inr ?_
    cases b with
    | false =>
      exfalso
      obtain ⟨st', h', hit⟩ := runFor_false_prev h
      obtain ⟨a1, -⟩ := lists_aligned s resid hb prior c m st' h'
      obtain ⟨⟨st1, h1⟩, -⟩ := iteration_false hb hit
      have htrue : maxIterations rows maxiter st' = .ok (true, st') := by
        unfold maxIterations
        cases maxiter with
        | none =>
          have : rows * 10 ≤ st'.step := by rw [a1]; simp only [m]; omega
          simp [this]
        | some k =>
          have : k ≤ (st'.step : ℤ) := by rw [a1]; simp only [m]; exact Int.self_le_toNat k
          simp [this]
      rcases hs with hs | hs
      · rw [hs, orStop, htrue] at h1
        simp at h1
      · rw [hs, htrue] at h1
        simp at h1
    | true =>
      refine ⟨st, ⟨m + 1, h, rfl⟩, ?_⟩
      obtain ⟨k, stk, hk, -, -, -, hstep, -⟩ := (solve_returns_iff s resid hb prior c st.belief st).1 ⟨m + 1, h, rfl⟩
      rw [hstep]
      by_contra hc
      have hlt : m + 1 ≤ k := by omega
      -- a run that is still going after `k ≥ m + 1` passes was still going after `m + 1`
      have still : ∀ d, s.runFor (State.new resid prior c) (m + 1 + d) = .ok (st, true) := by
        intro d
        induction d with
        | zero => exact h
        | succ d ih => rw [← Nat.add_assoc, Solver.runFor, ih]
      have := still (k - (m + 1))
      rw [Nat.add_sub_cancel' hlt, hk] at this
      have := congrArg Prod.snd (Except.ok.inj this)
      cases this

/-- **C36 (e), reasons for stopping.**  The predefined criteria say what they document: the number of steps reached the limit;
the norm of the *current* residual is at most the absolute tolerance or the relative tolerance times `‖b‖`; the trace of
the covariance is at most the squared tolerances.  None of them changes anything observable. -/
theorem criteria_exact (resid : β → R) (norm : R → ℝ) (bNorm atol rtol : ℝ) (rows : ℕ) (maxiter : ℤ) (trace : β → Res ℝ)
    (st : State β S O R C) (hres : st.residuals[st.step]? = some none ∨
      st.residuals[st.step]? = some (some (resid st.belief))) :
    (∃ st', maxIterations rows (some maxiter) st = .ok (decide (maxiter ≤ st.step), st') ∧ st' = st) ∧
    (∃ st', maxIterations rows none st = .ok (decide (10 * rows ≤ st.step), st') ∧ st' = st) ∧
    (∃ b, residualNorm resid norm bNorm atol rtol st = .ok (b, st.touch resid) ∧
      (b = true ↔ norm (resid st.belief) ≤ max atol (rtol * bNorm))) ∧
    (∀ t, trace st.belief = .ok t → ∃ b, posteriorContraction trace bNorm atol rtol st = .ok (b, st) ∧
      (b = true ↔ |t| ≤ max (atol ^ 2) ((rtol * bNorm) ^ 2))) := by
  refine ⟨⟨st, rfl, rfl⟩, ⟨st, by simp [maxIterations, Nat.mul_comm], rfl⟩, ?_, ?_⟩
  · have : st.residual resid = .ok (resid st.belief, st.touch resid) := by
      unfold State.residual
      have : (st.touch resid).residuals[st.step]? = some (some (resid st.belief)) := by
        rcases touch_residuals resid st st.step with h | ⟨-, -, h⟩
        · rcases hres with h' | h'
          · exfalso
            rw [h'] at h
            unfold State.touch at h
            rw [h'] at h
            have hl := (List.getElem?_eq_some_iff.1 h').1
            simp [hl] at h
          · rw [h, h']
        · exact h
      rw [this]
    unfold residualNorm
    rw [this]
    refine ⟨_, rfl, ?_⟩
    simp [le_max_iff]
  · intro t ht
    unfold posteriorContraction
    rw [ht]
    refine ⟨_, rfl, ?_⟩
    simp [le_max_iff]

/-- Criteria built from benign ones with `|` are benign, and so are the predefined ones. -/
theorem criteria_benign (resid : β → R) (norm : R → ℝ) (bNorm atol rtol : ℝ) (rows : ℕ) (maxiter : Option ℤ)
    (trace : β → Res ℝ) (a b : Comp β S O R C Bool) :
    Comp.Benign resid (maxIterations rows maxiter : Comp β S O R C Bool) ∧
    Comp.Benign resid (residualNorm resid norm bNorm atol rtol : Comp β S O R C Bool) ∧
    Comp.Benign resid (posteriorContraction trace bNorm atol rtol : Comp β S O R C Bool) ∧
    (Comp.Benign resid a → Comp.Benign resid b → Comp.Benign resid (orStop a b)) := by
  refine ⟨?_, ?_, ?_, ?_⟩
  · intro st x st' h
    unfold maxIterations at h
    split at h
    · have := congrArg Prod.snd (Except.ok.inj h); exact ⟨st.cache, Or.inl this.symm⟩
    · have := congrArg Prod.snd (Except.ok.inj h); exact ⟨st.cache, Or.inl this.symm⟩
  · intro st x st' h
    unfold residualNorm at h
    cases hr : st.residual resid with
    | error e => rw [hr] at h; cases h
    | ok p =>
      rw [hr] at h
      have h2 := congrArg Prod.snd (Except.ok.inj h)
      have h3 : p.2 = st.touch resid := by
        unfold State.residual at hr
        split at hr
        · exact (congrArg Prod.snd (Except.ok.inj hr)).symm
        · cases hr
        · cases hr
      refine ⟨(st.touch resid).cache, Or.inr ?_⟩
      exact h2.symm.trans h3
  · intro st x st' h
    unfold posteriorContraction at h
    cases hr : trace st.belief with
    | error e => rw [hr] at h; cases h
    | ok t =>
      rw [hr] at h
      have := congrArg Prod.snd (Except.ok.inj h)
      exact ⟨st.cache, Or.inl this.symm⟩
  · intro ha hb st x st' h
    unfold orStop at h
    cases h1 : a st with
    | error e => rw [h1] at h; cases h
    | ok p =>
      obtain ⟨v, st1⟩ := p
      rw [h1] at h
      cases v with
      | true =>
        have := congrArg Prod.snd (Except.ok.inj h)
        dsimp only at this
        rw [← this]
        exact ha st _ st1 h1
      | false =>
        dsimp only at h
        obtain ⟨c1, e1⟩ := ha st _ st1 h1
        obtain ⟨c2, e2⟩ := hb st1 _ st' h
        refine ⟨c2, ?_⟩
        have hidem : (st.touch resid).touch resid = st.touch resid := by
          have hcase := touch_residuals resid st st.step
          have hs := touch_step resid st
          rw [State.touch, hs]
          split
          · rename_i hh
            rcases hcase with hc | ⟨-, -, hc⟩
            · rw [hh] at hc
              have hc' := hc.symm
              unfold State.touch at hh
              rw [hc'] at hh
              have hl := (List.getElem?_eq_some_iff.1 hc').1
              simp [hl] at hh
            · rw [hc] at hh; cases hh
          · rfl
        have htc : ∀ (q : State β S O R C) (d : C), ({ q with cache := d } : State β S O R C).touch resid
            = { q.touch resid with cache := d } := by
          intro q d
          unfold State.touch
          dsimp only
          split <;> rfl
        rcases e1 with rfl | rfl
        · rcases e2 with rfl | rfl
          · exact Or.inl rfl
          · rw [htc]; exact Or.inr rfl
        · rcases e2 with rfl | rfl
          · exact Or.inr rfl
          · rw [htc, hidem]; exact Or.inr rfl

/-- A toy solver on the real line: belief `x`, action `1`, observation the current residual `3 - x`, update `x + 1`. -/
noncomputable def toy : Solver ℝ ℝ ℝ ℝ Unit where
  policy := fun st => .ok (1, st)
  info := fun st => st.residual (fun x => 3 - x)
  update := fun st => .ok (st.belief + 1, st)
  stop := orStop (maxIterations 1 none) (residualNorm (fun x => 3 - x) (fun r => |r|) 3 (1 / 2) 0)

theorem toy_benign : toy.Benign (fun x => 3 - x) where
  policy := fun st a st' h => ⟨st.cache, Or.inl (congrArg Prod.snd (Except.ok.inj h)).symm⟩
  info := by
    intro st a st' h
    refine ⟨(st.touch fun x => 3 - x).cache, Or.inr ?_⟩
    unfold toy State.residual at h
    dsimp only at h
    split at h
    · exact (congrArg Prod.snd (Except.ok.inj h)).symm
    · cases h
    · cases h
  update := fun st a st' h => ⟨st.cache, Or.inl (congrArg Prod.snd (Except.ok.inj h)).symm⟩
  stop := (criteria_benign _ (fun _ => 0) 0 0 0 1 none (fun _ => .ok 0) _ _).2.2.2
    (criteria_benign _ (fun _ => 0) 0 0 0 _ _ (fun _ => .ok 0) (maxIterations 1 none) (maxIterations 1 none)).1
    (criteria_benign _ _ _ _ _ 1 none (fun _ => .ok 0) (maxIterations 1 none) (maxIterations 1 none)).2.1

example : (∃ e, toy.runFor (State.new (fun x => 3 - x) 0 ()) 11 = .error e) ∨
    ∃ st, toy.Solves (fun x => 3 - x) 0 () st.belief st ∧ st.step ≤ 10 :=
  max_iterations_bound toy _ toy_benign 1 none _ (Or.inl rfl) 0 ()

end Probnum.Linalg.Loop
