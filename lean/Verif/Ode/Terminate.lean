import Mathlib.Data.Finset.Card
import Verif.Ode.Props
import Verif.Ode.StepRuleProps

/-!
# Termination of the solver loop, with stop locations

The statements are for an arbitrary type `N` of error norms, so that they also apply to solvers whose attempts raise.
-/

namespace Probnum.Ode

variable {σ N : Type}

/-- The increments of an increasing list of times: at least `δ`, or the step ends in one of the exceptional points. -/
def Gaps (δ : ℝ) (S : List ℝ) : List ℝ → Prop
  | [] => True
  | [_] => True
  | a :: b :: l => (δ ≤ b - a ∨ b ∈ S) ∧ Gaps δ S (b :: l)

theorem Gaps.append {δ : ℝ} {S : List ℝ} : ∀ {l : List ℝ} {a b : ℝ}, Gaps δ S (l ++ [a]) → (δ ≤ b - a ∨ b ∈ S) →
    Gaps δ S (l ++ [a] ++ [b])
  | [], a, b, _, hb => ⟨hb, trivial⟩
  | [c], a, b, h, hb => ⟨h.1, hb, trivial⟩
  | c :: c' :: l, a, b, h, hb => ⟨h.1, Gaps.append (l := c' :: l) h.2 hb⟩

open Classical in
theorem Gaps.count {δ : ℝ} (hδ : 0 ≤ δ) {S : List ℝ} : ∀ (l : List ℝ) (a hi : ℝ), Gaps δ S (a :: l) →
    (a :: l).Pairwise (· < ·) → (∀ t ∈ a :: l, t ≤ hi) →
    (l.length : ℝ) * δ ≤ hi - a + ((l.filter (· ∈ S)).length : ℝ) * δ
  | [], a, hi, _, _, h => by simpa using h a (by simp)
  | b :: l, a, hi, hg, hp, h => by
    have ih := Gaps.count hδ l b hi hg.2 (List.pairwise_cons.1 hp).2 fun t ht => h t (List.mem_cons_of_mem _ ht)
    have hab : a < b := (List.pairwise_cons.1 hp).1 b (by simp)
    rw [List.filter_cons]
    by_cases hb : b ∈ S
    · simp only [hb, decide_true, if_true, List.length_cons]
      push_cast
      linarith
    · simp only [hb, decide_false, Bool.false_eq_true, if_false, List.length_cons]
      rcases hg.1 with h1 | h1
      · push_cast; linarith
      · exact absurd h1 hb

open Classical in
/-- An increasing list below `hi` with such increments is short. -/
theorem Gaps.bounded {δ : ℝ} (hδ : 0 < δ) {S l : List ℝ} {a hi : ℝ} (hg : Gaps δ S (a :: l))
    (hp : (a :: l).Pairwise (· < ·)) (h : ∀ t ∈ a :: l, t ≤ hi) : (l.length : ℝ) ≤ (hi - a) / δ + S.length := by
  have h1 := Gaps.count hδ.le l a hi hg hp h
  have h2 : (l.filter (· ∈ S)).length ≤ S.length := by
    have hn : (l.filter (· ∈ S)).Nodup :=
      ((List.pairwise_cons.1 hp).2.imp (fun h => ne_of_lt h) : l.Pairwise (· ≠ ·)).filter _
    have := (List.subperm_of_subset hn (fun x hx => by simpa using (List.mem_filter.1 hx).2) :
      (l.filter (· ∈ S)).Subperm S).length_le
    exact this
  have h2' : ((l.filter (· ∈ S)).length : ℝ) ≤ S.length := by exact_mod_cast h2
  have h3 : (l.length : ℝ) * δ ≤ ((hi - a) / δ + S.length) * δ := by
    rw [add_mul, div_mul_cancel₀ _ hδ.ne']
    have := mul_le_mul_of_nonneg_right h2' hδ.le
    linarith
  exact le_of_mul_le_mul_right h3 hδ

/-- The next step is long, or ends in the final time or a stop location; and so were all earlier steps. -/
structure Long (env : Env σ ℝ N) (δ : ℝ) (stops : List ℝ) (c : Config σ ℝ) : Prop where
  yields : ∃ ys, c.yields = ys ++ [c.state]
  gaps : Gaps δ (env.tmax :: stops) (c.yields.map env.time)
  dt : δ ≤ c.dt ∨ env.time c.state + c.dt ∈ env.tmax :: stops
  stopper : ∀ st, c.stopper = some st → ∀ x ∈ st.next.toList ++ st.rest, x ∈ stops

theorem tryStep_long {env : Env σ ℝ N} {δ : ℝ} {stops : List ℝ} (htk : TimeKeeping env)
    (hsug : ∀ dt n h, env.suggest dt n = .ok h → δ ≤ h) {c : Config σ ℝ} (h : Long env δ stops c)
    (hnf : ∀ e, (tryStep env c).status ≠ .failed e) :
    Long env δ stops (tryStep env c) := by
  unfold tryStep at hnf ⊢
  simp only at hnf ⊢
  cases hs : env.suggest c.dt (env.norm (env.attempt c.attempts c.state c.dt)) with
  | error e => exact absurd (by rw [hs]) (hnf e)
  | ok s =>
    have hsδ := hsug _ _ _ hs
    simp only
    by_cases hacc : env.accepted (env.norm (env.attempt c.attempts c.state c.dt)) = true
    · simp only [hacc, if_true]
      have htp := htk.attempt c.attempts c.state c.dt
      have htc : env.time (applyCallbacks env.callbacks (env.attempt c.attempts c.state c.dt))
          = env.time c.state + c.dt := by
        rw [time_applyCallbacks _ _ htk.callbacks, htp]
      refine ⟨⟨_, rfl⟩, ?_, ?_, h.stopper⟩
      · obtain ⟨ys, hys⟩ := h.yields
        have hg := h.gaps
        simp only [hys, List.map_append, List.map_cons, List.map_nil] at hg ⊢
        refine Gaps.append hg ?_
        rw [htc]
        rcases h.dt with hd | hd
        · left; linarith
        · exact Or.inr hd
      · simp only [htc, htp]
        rcases le_total s (env.tmax - (env.time c.state + c.dt)) with hm | hm
        · left; rw [min_eq_left hm]; exact hsδ
        · right; rw [min_eq_right hm]; simp
    · have hacc' : env.accepted (env.norm (env.attempt c.attempts c.state c.dt)) = false := by simpa using hacc
      simp only [hacc', Bool.false_eq_true, if_false]
      refine ⟨h.yields, h.gaps, ?_, h.stopper⟩
      simp only
      rcases le_total s (env.tmax - env.time c.state) with hm | hm
      · left; rw [min_eq_left hm]; exact hsδ
      · right; rw [min_eq_right hm]; simp

theorem step_long {env : Env σ ℝ N} {δ : ℝ} {stops : List ℝ} (htk : TimeKeeping env)
    (hsug : ∀ dt n h, env.suggest dt n = .ok h → δ ≤ h) {c : Config σ ℝ} (h : Long env δ stops c)
    (hnf : ∀ e, (step env c).status ≠ .failed e) : Long env δ stops (step env c) := by
  unfold step at hnf ⊢
  split
  · exact h
  · exact h
  · rename_i hs
    rw [hs] at hnf
    exact tryStep_long htk hsug h hnf
  · rename_i hs
    rw [hs] at hnf
    simp only at hnf
    split
    · rename_i hlt
      rw [if_pos hlt] at hnf
      cases hst : c.stopper with
      | none =>
        rw [hst] at hnf
        exact tryStep_long htk hsug h hnf
      | some st =>
        rw [hst] at hnf
        simp only at hnf ⊢
        refine tryStep_long htk hsug (c := { c with
          dt := (adjustTimeStep st (env.time c.state) c.dt).1,
          stopper := some (adjustTimeStep st (env.time c.state) c.dt).2 }) ⟨h.yields, h.gaps, ?_, ?_⟩ hnf
        all_goals
          have hmem := h.stopper st hst
          obtain ⟨nx, rs⟩ := st
        · simp only
          cases nx with
          | none => simpa [adjustTimeStep] using h.dt
          | some nl =>
            by_cases hle : nl ≤ env.time c.state
            · cases rs with
              | nil => simpa [adjustTimeStep, hle] using h.dt
              | cons x xs =>
                simp only [adjustTimeStep, hle, if_true]
                split
                · right
                  rw [add_sub_cancel]
                  exact List.mem_cons_of_mem _ (hmem x (by simp))
                · exact h.dt
            · simp only [adjustTimeStep, hle, if_false]
              split
              · right
                rw [add_sub_cancel]
                exact List.mem_cons_of_mem _ (hmem nl (by simp))
              · exact h.dt
        · intro st' hst' x hx
          simp only [Option.some.injEq] at hst'
          subst hst'
          cases nx with
          | none => exact hmem x (by simpa [adjustTimeStep] using hx)
          | some nl =>
            by_cases hle : nl ≤ env.time c.state
            · cases rs with
              | nil => simp [adjustTimeStep, hle] at hx
              | cons y ys =>
                simp only [adjustTimeStep, hle, if_true] at hx
                exact hmem x (by simp at hx ⊢; tauto)
            · simp only [adjustTimeStep, hle, if_false] at hx
              exact hmem x hx
    · exact ⟨h.yields, h.gaps, h.dt, h.stopper⟩

theorem init_long (env : Env σ ℝ N) (δ : ℝ) (hfirst : δ ≤ env.firststep) (stopAt : Option (List ℝ))
    (hs : stopAt ≠ some []) : Long env δ (stopAt.getD []) (init env stopAt) := by
  cases stopAt with
  | none => exact ⟨⟨[], rfl⟩, trivial, Or.inl hfirst, fun st h => by cases h⟩
  | some l =>
    cases l with
    | nil => exact absurd rfl hs
    | cons x xs =>
      refine ⟨⟨[], rfl⟩, trivial, Or.inl hfirst, fun st h => ?_⟩
      simp only [init, processStops, Option.some.injEq] at h
      subst h
      intro y hy
      simpa using hy

/-- A machine step of a running machine: the next configuration has status fresh and one more yield, or retry and the
same yields and state and at most the suggested step, or the machine stops. -/
theorem step_cases (env : Env σ ℝ N) (c : Config σ ℝ) (hc : c.status = .fresh ∨ c.status = .retry) :
    (step env c).status = .done ∨ (∃ e, (step env c).status = .failed e) ∨
    ((step env c).status = .fresh ∧ (step env c).yields.length = c.yields.length + 1) ∨
    ((step env c).status = .retry ∧ (step env c).yields = c.yields ∧
      (c.status = .retry → ∃ n h, env.accepted n = false ∧ env.suggest c.dt n = .ok h ∧ (step env c).dt ≤ h)) := by
  have htry : ∀ c : Config σ ℝ, (∃ e, (tryStep env c).status = .failed e) ∨
      ((tryStep env c).status = .fresh ∧ (tryStep env c).yields.length = c.yields.length + 1) ∨
      ((tryStep env c).status = .retry ∧ (tryStep env c).yields = c.yields ∧
        ∃ n h, env.accepted n = false ∧ env.suggest c.dt n = .ok h ∧ (tryStep env c).dt ≤ h) := by
    intro c
    unfold tryStep
    simp only
    cases hs : env.suggest c.dt (env.norm (env.attempt c.attempts c.state c.dt)) with
    | error e => exact Or.inl ⟨e, rfl⟩
    | ok s =>
      right
      simp only
      by_cases hacc : env.accepted (env.norm (env.attempt c.attempts c.state c.dt)) = true
      · left; simp [hacc]
      · have hacc' : env.accepted (env.norm (env.attempt c.attempts c.state c.dt)) = false := by simpa using hacc
        right
        simp only [hacc', Bool.false_eq_true, if_false]
        exact ⟨trivial, trivial, _, s, hacc', hs, min_le_left _ _⟩
  rcases hc with hc | hc
  · by_cases hlt : env.time c.state < env.tmax
    · have hto : ∃ c' : Config σ ℝ, c'.yields = c.yields ∧ step env c = tryStep env c' := by
        cases hst : c.stopper with
        | none => exact ⟨c, rfl, by simp [step, hc, hlt, hst]⟩
        | some st =>
          have hs : step env c = tryStep env { c with
            dt := (adjustTimeStep st (env.time c.state) c.dt).1,
            stopper := some (adjustTimeStep st (env.time c.state) c.dt).2 } := by
              unfold step; rw [hc]; simp only [hlt, if_true, hst]
          refine ⟨_, ?_, hs⟩
          rfl
      obtain ⟨c', hy, hs⟩ := hto
      have ht := htry c'
      rw [← hs, hy] at ht
      rcases ht with h | h | h
      · exact Or.inr (Or.inl h)
      · exact Or.inr (Or.inr (Or.inl h))
      · exact Or.inr (Or.inr (Or.inr ⟨h.1, h.2.1, fun hr => by rw [hc] at hr; cases hr⟩))
    · left; simp [step, hc, hlt]
  · have : step env c = tryStep env c := by simp [step, hc]
    rw [this]
    rcases htry c with h | h | h
    · exact Or.inr (Or.inl h)
    · exact Or.inr (Or.inr (Or.inl h))
    · exact Or.inr (Or.inr (Or.inr ⟨h.1, h.2.1, fun _ => h.2.2⟩))

/-- **C05, C82: termination.**  If suggestions are at least `m > 0` and rejected steps are shortened by a factor below
one, the solver loop ends after finitely many attempts, with or without stop locations. -/
theorem loop_terminates (env : Env σ ℝ N) (stopAt : Option (List ℝ)) (htk : TimeKeeping env)
    (h0 : 0 < env.firststep) (h1 : env.time env.start + env.firststep ≤ env.tmax) (hst : AdmissibleStops env stopAt)
    {m ρ : ℝ} (hm : 0 < m) (hρ : ρ < 1) (hsug : ∀ dt n h, env.suggest dt n = .ok h → m ≤ h)
    (hrej : ∀ dt n h, 0 < dt → env.accepted n = false → env.suggest dt n = .ok h → h ≤ ρ * dt) :
    ∃ n, (run env stopAt n).status = .done ∨ ∃ e, (run env stopAt n).status = .failed e := by
  by_contra hcon
  push Not at hcon
  have hrun : ∀ n, (run env stopAt n).status = .fresh ∨ (run env stopAt n).status = .retry := by
    intro n
    cases h : (run env stopAt n).status with
    | fresh => exact Or.inl rfl
    | retry => exact Or.inr rfl
    | done => exact absurd h (hcon n).1
    | failed e => exact absurd h ((hcon n).2 e)
  have hinv : ∀ n, Inv env (stopAt.getD []) (run env stopAt n) := by
    intro n
    rcases run_inv env stopAt htk h0 h1 hst n with h | ⟨_, e, he⟩
    · exact h
    · exact absurd he ((hcon n).2 e)
  have hne : stopAt ≠ some [] := by
    rcases hst with rfl | ⟨s, rfl, h, -⟩
    · simp
    · simpa using h
  have hδ : 0 < min m env.firststep := lt_min hm h0
  have hlong : ∀ n, Long env (min m env.firststep) (stopAt.getD []) (run env stopAt n) := by
    intro n
    induction n with
    | zero => exact init_long env _ (min_le_right _ _) stopAt hne
    | succ n ih =>
      rw [run_succ]
      refine step_long htk (fun dt n h hs => (min_le_left _ _).trans (hsug dt n h hs)) ih fun e he => ?_
      exact (hcon (n + 1)).2 e (by rw [run_succ]; exact he)
  -- rejections are finite
  have hfin : ∀ n, ∃ k, n ≤ k ∧ (run env stopAt k).status = .fresh := by
    intro n
    by_contra hc
    push Not at hc
    have hret : ∀ k, n ≤ k → (run env stopAt k).status = .retry := fun k hk => (hrun k).resolve_left (hc k hk)
    have hpos : ∀ k, n ≤ k → 0 < (run env stopAt k).dt := fun k hk =>
      (hinv k).dt_pos ((hinv k).retry (hret k hk))
    have hstep : ∀ k, n ≤ k → (run env stopAt (k + 1)).dt ≤ ρ * (run env stopAt k).dt ∧ m ≤ ρ * (run env stopAt k).dt := by
      intro k hk
      have h2 := hret (k + 1) (by omega)
      have hs := step_cases env (run env stopAt k) (hrun k)
      rw [← run_succ, h2] at hs
      rcases hs with h | ⟨e, h⟩ | ⟨h, -⟩ | ⟨-, -, h⟩
      · cases h
      · cases h
      · cases h
      · obtain ⟨e, s, hacc, hs, hdt⟩ := h (hret k hk)
        have := hrej _ e s (hpos k hk) hacc hs
        exact ⟨hdt.trans this, (hsug _ e s hs).trans this⟩
    have hρ0 : 0 < ρ := by
      have h2 := (hstep n le_rfl).2
      have h3 := hpos n le_rfl
      by_contra hneg
      nlinarith [mul_nonneg (neg_nonneg.2 (not_lt.1 hneg)) h3.le]
    have hgeo : ∀ k, (run env stopAt (n + k)).dt ≤ ρ ^ k * (run env stopAt n).dt := by
      intro k
      induction k with
      | zero => simp
      | succ k ih =>
        calc (run env stopAt (n + (k + 1))).dt ≤ ρ * (run env stopAt (n + k)).dt := (hstep (n + k) (by omega)).1
          _ ≤ ρ * (ρ ^ k * (run env stopAt n).dt) := mul_le_mul_of_nonneg_left ih hρ0.le
          _ = ρ ^ (k + 1) * (run env stopAt n).dt := by ring
    have hd0 := hpos n le_rfl
    obtain ⟨k, hk⟩ := exists_pow_lt_of_lt_one (div_pos hm hd0) hρ
    have h3 := (hstep (n + k) (by omega)).2
    have h4 := hgeo k
    rw [lt_div_iff₀ hd0] at hk
    have h5 := hpos (n + k) (by omega)
    nlinarith
  -- the number of reported states grows
  have hgrow : ∀ k, ∃ n, k ≤ (run env stopAt n).yields.length := by
    have hmono : ∀ n, (run env stopAt n).yields.length ≤ (run env stopAt (n + 1)).yields.length := by
      intro n
      have hs := step_cases env (run env stopAt n) (hrun n)
      rw [← run_succ] at hs
      rcases hs with h | ⟨e, h⟩ | ⟨-, h⟩ | ⟨-, h, -⟩
      · exact absurd h (hcon (n + 1)).1
      · exact absurd h ((hcon (n + 1)).2 e)
      · omega
      · rw [h]
    have hmono' : ∀ n k, n ≤ k → (run env stopAt n).yields.length ≤ (run env stopAt k).yields.length := by
      intro n k h
      induction h with
      | refl => exact le_rfl
      | step _ ih => exact ih.trans (hmono _)
    intro k
    induction k with
    | zero => exact ⟨0, Nat.zero_le _⟩
    | succ k ih =>
      obtain ⟨n, hn⟩ := ih
      obtain ⟨j, hj, hf⟩ := hfin (n + 1)
      obtain ⟨j, rfl⟩ : ∃ i, j = i + 1 := ⟨j - 1, by omega⟩
      refine ⟨j + 1, ?_⟩
      have hs := step_cases env (run env stopAt j) (hrun j)
      rw [← run_succ, hf] at hs
      rcases hs with h | ⟨e, h⟩ | ⟨-, h⟩ | ⟨h, -⟩
      · cases h
      · cases h
      · have := hmono' n j (by omega)
        omega
      · cases h
  obtain ⟨K, hK⟩ := exists_nat_gt ((env.tmax - env.time env.start) / (min m env.firststep) + ((env.tmax :: stopAt.getD []).length : ℝ))
  obtain ⟨n, hn⟩ := hgrow (K + 1)
  have hg := (hlong n).gaps
  have hp := (hinv n).sorted
  have hle := (times_increasing_within_domain_partial env stopAt htk h0 h1 hst n).2.2
  have hh := (hinv n).head
  cases hy : (run env stopAt n).yields with
  | nil => rw [hy] at hh; cases hh
  | cons y ys =>
    rw [hy] at hg hp hh hn
    rw [times, hy] at hle
    have hy0 : y = env.start := by simpa using hh
    have hb := Gaps.bounded hδ hg hp hle
    rw [hy0] at hb
    simp only [List.length_cons, List.length_map] at hb hn hK
    have : (K : ℝ) ≤ ys.length := by exact_mod_cast (by omega : K ≤ ys.length)
    linarith

/-- **Termination, adaptive steps, with or without stop locations**: for every error history the solver loop ends. -/
theorem adaptive_solver_terminates_with_stops (env : Env σ ℝ ℝ) (r : AdaptiveSteps) (order : ℕ) (hr : r.Sane)
    (hu : UsesAdaptive env r order) (hs : r.safetyscale < 1) (hsm : r.small < 1) (hla : r.safetyscale ≤ r.large)
    (hatt : ∀ k s dt, env.time (env.attempt k s dt) = env.time s + dt)
    (hcb : ∀ cb ∈ env.callbacks, ∀ s, env.time (cb s) = env.time s)
    (hfirst : 0 < env.firststep) (hfit : env.time env.start + env.firststep ≤ env.tmax) (stopAt : Option (List ℝ))
    (hstop : stopAt = none ∨ ∃ stops, stopAt = some stops ∧ stops ≠ [] ∧ GoodStops (env.time env.start) stops) :
    ∃ n, (run env stopAt n).status = .done ∨ ∃ e, (run env stopAt n).status = .failed e := by
  have hsh := adaptive_rejectShrinks env r order hr hu hs hsm hla
  refine loop_terminates env stopAt
    ⟨hatt, hcb, fun dt n h _ hh => adaptive_positive env r order hr hu dt n h hh⟩ hfirst hfit ?_ hr.minstep_pos
    (ρ := max r.small r.safetyscale) (max_lt hsm hs) ?_ ?_
  · rcases hstop with h | ⟨s, h1, h2, h3⟩
    · exact Or.inl h
    · exact Or.inr ⟨s, h1, h2, h3, hsh⟩
  · intro dt n h hh
    rw [hu.suggest, AdaptiveSteps.suggest_ok_iff] at hh
    exact hh.2.1
  · intro dt n h hdt hacc hh
    rw [hu.suggest] at hh
    rw [hu.accepted] at hacc
    exact (r.suggest_shrinks_on_rejection hr dt n _ hdt hacc hs hsm hla h hh).1

/-- **Termination, constant steps, with or without stop locations**: the solver loop ends regularly. -/
theorem constant_solver_terminates_with_stops (env : Env σ ℝ ℝ) (r : ConstantSteps) (hu : UsesConstant env r)
    (hpos : 0 < r.step)
    (hatt : ∀ k s dt, env.time (env.attempt k s dt) = env.time s + dt)
    (hcb : ∀ cb ∈ env.callbacks, ∀ s, env.time (cb s) = env.time s)
    (hfit : env.time env.start + env.firststep ≤ env.tmax) (stopAt : Option (List ℝ))
    (hstop : stopAt = none ∨ ∃ stops, stopAt = some stops ∧ stops ≠ [] ∧ GoodStops (env.time env.start) stops) :
    ∃ n, (run env stopAt n).status = .done := by
  have hst : AdmissibleStops env stopAt := by
    rcases hstop with h | ⟨s, h1, h2, h3⟩
    · exact Or.inl h
    · exact Or.inr ⟨s, h1, h2, h3, fun dt n h hacc => by rw [hu.accepted] at hacc; cases hacc⟩
  have hne : stopAt ≠ some [] := by
    rcases hst with rfl | ⟨s, rfl, h, -⟩
    · simp
    · simpa using h
  obtain ⟨n, h | ⟨e, h⟩⟩ := loop_terminates env stopAt
    ⟨hatt, hcb, fun dt n h _ hh => by rw [hu.suggest] at hh; cases hh; exact hpos⟩ (by rw [hu.firststep]; exact hpos) hfit hst
    hpos (ρ := 0) one_pos
    (fun dt n h hh => by rw [hu.suggest] at hh; cases hh; exact le_rfl)
    (fun dt n h _ hacc => by rw [hu.accepted] at hacc; cases hacc)
  · exact ⟨n, h⟩
  · exfalso
    have hno : ∀ n, ∀ e, (run env stopAt n).status ≠ .failed e := by
      intro n
      induction n with
      | zero =>
        intro e he
        cases stopAt with
        | none => cases he
        | some l =>
          cases l with
          | nil => exact hne rfl
          | cons x xs => cases he
      | succ n ih =>
        intro e he
        rw [run_succ] at he
        have htry : ∀ c : Config σ ℝ, (tryStep env c).status = .fresh := by
          intro c; simp [tryStep, hu.suggest, hu.accepted]
        unfold step at he
        split at he
        · next h => rw [h] at he; cases he
        · next e' h => exact ih e' h
        · rw [htry] at he; cases he
        · split at he
          · split at he
            · rw [htry] at he; cases he
            · rw [htry] at he; cases he
          · cases he
    exact hno n e h

/-- The hypotheses of the termination theorems are met: the default adaptive rule on `[0, 1]`, stops at `1/4`, `1/2`. -/
example : ∃ env : Env ℝ ℝ ℝ, UsesAdaptive env AdaptiveSteps.default 2 ∧
    (∀ k s dt, env.time (env.attempt k s dt) = env.time s + dt) ∧
    (∀ cb ∈ env.callbacks, ∀ s, env.time (cb s) = env.time s) ∧
    0 < env.firststep ∧ env.time env.start + env.firststep ≤ env.tmax ∧
    GoodStops (env.time env.start) [1 / 4, 1 / 2] := by
  refine ⟨{ time := id, tmax := 1, start := 0, attempt := fun _ s dt => s + dt, norm := fun s => |s|,
            accepted := AdaptiveSteps.isAccepted, suggest := fun dt n => AdaptiveSteps.default.suggest dt n 3,
            firststep := 1/2, callbacks := [] }, ⟨fun _ _ => rfl, fun _ => rfl⟩, ?_, ?_, ?_, ?_, ?_, ?_⟩
  · intro k s dt; rfl
  · simp
  · norm_num
  · norm_num
  · norm_num
  · intro s hs
    simp only [List.tail_cons, List.mem_singleton] at hs
    subst hs
    show (0 : ℝ) < 1 / 2
    norm_num

end Probnum.Ode
