import Verif.Ode.Events
import Verif.Ode.StepRuleProps
import Mathlib.Algebra.Order.Group.Basic
import Mathlib.Data.List.Forall2
import Mathlib.Tactic.Linarith
import Mathlib.Tactic.Abel
import Mathlib.Tactic.NormNum

/-!
# C97: events of ODE solvers
-/

namespace Probnum.Events

open Probnum Probnum.Ode

variable {σ T N : Type} [AddCommGroup T] [LinearOrder T]

/-! ## Specification -/

/-- `s'` is the state `s` after all events in the list have been handled in turn: an event replaces the state it sees when its
condition holds for that state, and keeps it otherwise. -/
inductive Passes : List (DiscreteCallback σ) → σ → σ → Prop
  | nil (s : σ) : Passes [] s s
  | replaced {c : DiscreteCallback σ} {l : List (DiscreteCallback σ)} {s s' : σ} :
      c.condition s = true → Passes l (c.replace s) s' → Passes (c :: l) s s'
  | kept {c : DiscreteCallback σ} {l : List (DiscreteCallback σ)} {s s' : σ} :
      c.condition s = false → Passes l s s' → Passes (c :: l) s s'

/-- The callbacks in an argument. -/
def CallbackArg.list : CallbackArg σ → List (DiscreteCallback σ)
  | .none => []
  | .single c => [c]
  | .iterable l => l
  | .iterator l => l

/-- The argument can be iterated over more than once. -/
def CallbackArg.Reusable : CallbackArg σ → Prop
  | .iterator _ => False
  | _ => True

/-- The record of accepted attempts is right: each proposal was computed from the state and the step, and accepted. -/
def Genuine (env : Env σ T N) (l : List (σ × T × σ)) : Prop :=
  ∀ a ∈ l, (∃ k, a.2.2 = env.attempt k a.1 a.2.1) ∧ env.accepted (env.norm a.2.2) = true

/-! ## Helpers -/

theorem run_succ (env : Env σ T N) (cb : CallbackArg σ) (n : ℕ) : run env cb (n + 1) = step env (run env cb n) :=
  Function.iterate_succ_apply' _ _ _

theorem foldl_passes (l : List (DiscreteCallback σ)) (s : σ) : Passes l s (l.foldl (fun s c => c.call s) s) := by
  induction l generalizing s with
  | nil => exact .nil s
  | cons c l ih =>
    rw [List.foldl_cons]
    cases h : c.condition s with
    | false =>
      rw [show c.call s = s by simp [DiscreteCallback.call, h]]
      exact .kept h (ih s)
    | true =>
      rw [show c.call s = c.replace s by simp [DiscreteCallback.call, h]]
      exact .replaced h (ih _)

theorem Passes.unique {l : List (DiscreteCallback σ)} {s a b : σ} (ha : Passes l s a) (hb : Passes l s b) : a = b := by
  induction ha with
  | nil s => cases hb; rfl
  | replaced h _ ih =>
    cases hb with
    | replaced _ hb => exact ih hb
    | kept h' _ => rw [h] at h'; cases h'
  | kept h _ ih =>
    cases hb with
    | replaced h' _ => rw [h] at h'; cases h'
    | kept _ hb => exact ih hb

/-- What an attempt does. -/
theorem tryStep_cases (env : Env σ T N) (c : Config σ T) :
    (∃ e, (tryStep env c).status = .failed e ∧ (tryStep env c).yields = c.yields ∧ (tryStep env c).state = c.state ∧
      (tryStep env c).accepted = c.accepted ∧ (tryStep env c).callbacks = c.callbacks) ∨
    (∃ h, env.suggest c.dt (env.norm (env.attempt c.attempts c.state c.dt)) = .ok h ∧
      (tryStep env c).status = .retry ∧ (tryStep env c).yields = c.yields ∧ (tryStep env c).state = c.state ∧
      (tryStep env c).accepted = c.accepted ∧ (tryStep env c).callbacks = c.callbacks ∧
      (tryStep env c).dt = min h (env.tmax c.state - env.time c.state)) ∨
    ∃ h p, env.suggest c.dt (env.norm p) = .ok h ∧ p = env.attempt c.attempts c.state c.dt ∧
      env.accepted (env.norm p) = true ∧ (tryStep env c).status = .fresh ∧
      (tryStep env c).state = (applyAll c.callbacks p).1 ∧
      (tryStep env c).yields = c.yields ++ [(applyAll c.callbacks p).1] ∧
      (tryStep env c).accepted = c.accepted ++ [(c.state, c.dt, p)] ∧
      (tryStep env c).callbacks = (applyAll c.callbacks p).2 ∧
      (tryStep env c).dt = min h (env.tmax c.state - env.time p) := by
  unfold tryStep
  cases hs : env.suggest c.dt (env.norm (env.attempt c.attempts c.state c.dt)) with
  | error e => exact Or.inl ⟨e, by simp [hs]⟩
  | ok h =>
    by_cases ha : env.accepted (env.norm (env.attempt c.attempts c.state c.dt)) = true
    · refine Or.inr (Or.inr ⟨h, _, hs, rfl, ha, ?_⟩)
      simp [ha, hs]
    · refine Or.inr (Or.inl ⟨h, rfl, ?_⟩)
      simp [ha, hs]

/-- A property of the configuration that is kept by attempts and does not mention the status is kept by steps. -/
theorem step_keeps (env : Env σ T N) (P : Config σ T → Prop) (h : ∀ c, P c → P (tryStep env c))
    (hd : ∀ c, P c → P { c with status := .done }) (c : Config σ T) (hc : P c) : P (step env c) := by
  unfold step
  split
  · exact hc
  · exact hc
  · exact h c hc
  · split
    · exact h c hc
    · exact hd c hc

theorem forall2_append {α β : Type} {R : α → β → Prop} : ∀ {l : List α} {l' : List β} {a : α} {b : β},
    List.Forall₂ R l l' → R a b → List.Forall₂ R (l ++ [a]) (l' ++ [b])
  | _, _, _, _, .nil, h => .cons h .nil
  | _, _, _, _, .cons h1 h2, h => .cons h1 (forall2_append h2 h)

/-! ## The callbacks that are called -/

/-- **C97.** With no callbacks, one callback, or an iterable that can be used again, and at any point of any execution: what the
solver has yielded after the initial state are the proposals of the accepted attempts, in order, each after all callbacks in
their order. -/
theorem every_step_passes_partial (env : Env σ T N) (cb : CallbackArg σ) (hcb : cb.Reusable) (n : ℕ) :
    Genuine env (run env cb n).accepted ∧
    ∃ rest, (run env cb n).yields = env.start :: rest ∧
      List.Forall₂ (Passes cb.list) ((run env cb n).accepted.map (·.2.2)) rest := by
  let P : Config σ T → Prop := fun c => promote cb = c.callbacks ∧ Genuine env c.accepted ∧
    ∃ rest, c.yields = env.start :: rest ∧ List.Forall₂ (Passes cb.list) (c.accepted.map (·.2.2)) rest
  have hap : ∀ s, Passes cb.list s (applyAll (promote cb) s).1 ∧ (applyAll (promote cb) s).2 = promote cb := by
    intro s
    cases cb with
    | none => exact ⟨.nil s, rfl⟩
    | single c => exact ⟨foldl_passes [c] s, rfl⟩
    | iterable l => exact ⟨foldl_passes l s, rfl⟩
    | iterator l => exact hcb.elim
  have key : ∀ c, P c → P (tryStep env c) := by
    rintro c ⟨h1, h2, rest, h3, h4⟩
    rcases tryStep_cases env c with ⟨e, -, hy, -, ha, hc⟩ | ⟨h, -, -, hy, -, ha, hc, -⟩ |
      ⟨h, p, -, hp, hacc, -, -, hy, ha, hc, -⟩
    · exact ⟨by rw [hc]; exact h1, by rw [ha]; exact h2, rest, by rw [hy]; exact h3, by rw [ha]; exact h4⟩
    · exact ⟨by rw [hc]; exact h1, by rw [ha]; exact h2, rest, by rw [hy]; exact h3, by rw [ha]; exact h4⟩
    · rw [← h1] at hy hc
      refine ⟨by rw [hc]; exact (hap p).2.symm, ?_, rest ++ [(applyAll (promote cb) p).1], ?_, ?_⟩
      · rw [ha]
        intro a hmem
        rcases List.mem_append.1 hmem with hmem | hmem
        · exact h2 a hmem
        · rw [List.mem_singleton] at hmem
          subst hmem
          exact ⟨⟨_, hp⟩, hacc⟩
      · rw [hy, h3]; rfl
      · rw [ha, List.map_append]
        exact forall2_append h4 (hap p).1
  have : P (run env cb n) := by
    induction n with
    | zero => exact ⟨rfl, (by intro a ha; cases ha), [], rfl, .nil⟩
    | succ n ih =>
      rw [run_succ]
      exact step_keeps env P key (fun c h => h) _ ih
  exact this.2

/-- **C97, refuted in part.** When the callbacks are passed as an iterator (a generator, `map`, `filter`, `zip`), they are called
after the first accepted step only: all later states are the bare proposals. -/
theorem iterator_used_up (env : Env σ T N) (l : List (DiscreteCallback σ)) (n : ℕ) :
    Genuine env (run env (.iterator l) n).accepted ∧
    ((run env (.iterator l) n).accepted = [] ∧ (run env (.iterator l) n).yields = [env.start] ∨
      ∃ a as s, (run env (.iterator l) n).accepted = a :: as ∧ Passes l a.2.2 s ∧
        (run env (.iterator l) n).yields = env.start :: s :: as.map (·.2.2)) := by
  let P : Config σ T → Prop := fun c => Genuine env c.accepted ∧
    (c.callbacks = .iterator l ∧ c.accepted = [] ∧ c.yields = [env.start] ∨
      c.callbacks = .iterator [] ∧ ∃ a as s, c.accepted = a :: as ∧ Passes l a.2.2 s ∧
        c.yields = env.start :: s :: as.map (·.2.2))
  have key : ∀ c, P c → P (tryStep env c) := by
    rintro c ⟨h2, h⟩
    rcases tryStep_cases env c with ⟨e, -, hy, -, ha, hc⟩ | ⟨h', -, -, hy, -, ha, hc, -⟩ |
      ⟨h', p, -, hp, hacc, -, -, hy, ha, hc, -⟩
    · exact ⟨by rw [ha]; exact h2, by rw [hc, hy, ha]; exact h⟩
    · exact ⟨by rw [ha]; exact h2, by rw [hc, hy, ha]; exact h⟩
    · refine ⟨?_, ?_⟩
      · rw [ha]
        intro a hmem
        rcases List.mem_append.1 hmem with hmem | hmem
        · exact h2 a hmem
        · rw [List.mem_singleton] at hmem
          subst hmem
          exact ⟨⟨_, hp⟩, hacc⟩
      · right
        rcases h with ⟨h1, h3, h4⟩ | ⟨h1, a, as, s, h3, h4, h5⟩
        · rw [h1] at hy hc
          exact ⟨hc, (c.state, c.dt, p), [], _, by rw [ha, h3]; rfl, foldl_passes l p, by rw [hy, h4]; rfl⟩
        · rw [h1] at hy hc
          refine ⟨hc, a, as ++ [(c.state, c.dt, p)], s, by rw [ha, h3]; rfl, h4, ?_⟩
          rw [hy, h5]
          simp [applyAll]
  have : P (run env (.iterator l) n) := by
    induction n with
    | zero => exact ⟨(by intro a ha; cases ha), Or.inl ⟨rfl, rfl, rfl⟩⟩
    | succ n ih =>
      rw [run_succ]
      exact step_keeps env P key (fun c h => h) _ ih
  refine ⟨this.1, ?_⟩
  rcases this.2 with ⟨-, h⟩ | ⟨-, h⟩
  · exact Or.inl h
  · exact Or.inr h

/-! ## Events that end the simulation -/

theorem done_stays (env : Env σ T N) (cb : CallbackArg σ) (n k : ℕ) (h : (run env cb n).status = .done) :
    run env cb (n + k) = run env cb n := by
  induction k with
  | zero => rfl
  | succ k ih =>
    rw [← Nat.add_assoc, run_succ, ih]
    unfold step
    rw [h]

/-- **C97.** A callback can end the simulation: when it returns a state whose problem ends at or before the time of the state,
nothing more is yielded, no matter how far the original problem goes on. -/
theorem event_ends_solution (env : Env σ T N) (cb : CallbackArg σ) (n : ℕ) (hf : (run env cb n).status = .fresh)
    (h : env.tmax (run env cb n).state ≤ env.time (run env cb n).state) (k : ℕ) :
    (run env cb (n + 1 + k)).status = .done ∧ (run env cb (n + 1 + k)).yields = (run env cb n).yields := by
  have e : run env cb (n + 1) = { run env cb n with status := .done } := by
    rw [run_succ]
    unfold step
    rw [hf]
    simp [not_lt.2 h]
  have hd : (run env cb (n + 1)).status = .done := by rw [e]
  rw [done_stays env cb (n + 1) k hd]
  exact ⟨hd, by rw [e]⟩

/-- **C97.** The solver ends only when the last yielded state has reached the final time of its own problem: that of the problem put
there by the callbacks, if they replaced it. -/
theorem ends_with_current_problem (env : Env σ T N) (cb : CallbackArg σ) (n : ℕ) (h : (run env cb n).status = .done) :
    ∃ s, (run env cb n).yields.getLast? = some s ∧ env.tmax s ≤ env.time s := by
  let P : Config σ T → Prop := fun c => c.yields.getLast? = some c.state
  have key : ∀ c, P c → P (tryStep env c) := by
    intro c hc
    rcases tryStep_cases env c with ⟨e, -, hy, hs, -⟩ | ⟨h', -, -, hy, hs, -⟩ | ⟨h', p, -, -, -, -, hs, hy, -⟩
    · show _ = _; rw [hy, hs]; exact hc
    · show _ = _; rw [hy, hs]; exact hc
    · show _ = _; rw [hy, hs]; simp
  have hP : ∀ n, P (run env cb n) := by
    intro n
    induction n with
    | zero => rfl
    | succ n ih =>
      rw [run_succ]
      exact step_keeps env P key (fun c h => h) _ ih
  refine ⟨_, hP n, ?_⟩
  induction n with
  | zero => cases h
  | succ n ih =>
    rw [run_succ] at h ⊢
    generalize hc : run env cb n = c at h ih ⊢
    cases hst : c.status with
    | done =>
      have : step env c = c := by unfold step; rw [hst]
      rw [this]; exact ih hst
    | failed e =>
      have : step env c = c := by unfold step; rw [hst]
      rw [this, hst] at h; cases h
    | retry =>
      have : step env c = tryStep env c := by unfold step; rw [hst]
      rw [this] at h
      rcases tryStep_cases env c with ⟨e, h', -⟩ | ⟨_, -, h', -⟩ | ⟨_, p, -, -, -, h', -⟩ <;> rw [h'] at h <;> cases h
    | fresh =>
      by_cases ht : env.time c.state < env.tmax c.state
      · have : step env c = tryStep env c := by unfold step; rw [hst]; simp [ht]
        rw [this] at h
        rcases tryStep_cases env c with ⟨e, h', -⟩ | ⟨_, -, h', -⟩ | ⟨_, p, -, -, -, h', -⟩ <;> rw [h'] at h <;> cases h
      · have : step env c = { c with status := .done } := by unfold step; rw [hst]; simp [ht]
        rw [this]
        exact not_lt.1 ht

/-! ## The times -/

/-- An attempted step of size `dt` ends at `t + dt` and keeps the problem, and from a positive step the rule suggests a positive one
(or raises). -/
structure TimeKeeping (env : Env σ T N) : Prop where
  attempt : ∀ k s dt, env.time (env.attempt k s dt) = env.time s + dt
  problem : ∀ k s dt, env.tmax (env.attempt k s dt) = env.tmax s
  positive : ∀ dt n h, 0 < dt → env.suggest dt n = .ok h → 0 < h

/-- The events do not move time, do not prolong a problem that has just been finished, and do not shorten a problem, except to end it
immediately. -/
structure Gentle (env : Env σ T N) (l : List (DiscreteCallback σ)) : Prop where
  time : ∀ s s', Passes l s s' → env.time s' = env.time s
  finished : ∀ s s', Passes l s s' → env.tmax s ≤ env.time s → env.tmax s' ≤ env.time s'
  running : ∀ s s', Passes l s s' → env.time s < env.tmax s → env.tmax s ≤ env.tmax s' ∨ env.tmax s' ≤ env.time s'

/-- **C97.** With gentle events the times of the yielded states are strictly increasing, and no step goes beyond the final time of the
problem that was current when it was made. -/
theorem event_times_partial [IsOrderedAddMonoid T] (env : Env σ T N) (cb : CallbackArg σ) (hcb : cb.Reusable)
    (htk : TimeKeeping env) (hg : Gentle env cb.list) (h0 : 0 < env.firststep)
    (h1 : env.time env.start + env.firststep ≤ env.tmax env.start) (n : ℕ) :
    ((run env cb n).yields.map env.time).Pairwise (· < ·) ∧
    ∀ a ∈ (run env cb n).accepted, env.time a.2.2 ≤ env.tmax a.2.2 := by
  have hap : ∀ s, Passes cb.list s (applyAll (promote cb) s).1 ∧ (applyAll (promote cb) s).2 = promote cb := by
    intro s
    cases cb with
    | none => exact ⟨.nil s, rfl⟩
    | single c => exact ⟨foldl_passes [c] s, rfl⟩
    | iterable l => exact ⟨foldl_passes l s, rfl⟩
    | iterator l => exact hcb.elim
  let Live : Config σ T → Prop := fun c =>
    env.time c.state < env.tmax c.state ∧ 0 < c.dt ∧ env.time c.state + c.dt ≤ env.tmax c.state
  let Base : Config σ T → Prop := fun c => c.callbacks = promote cb ∧ c.yields.getLast? = some c.state ∧
    (c.yields.map env.time).Pairwise (· < ·) ∧ (∀ y ∈ c.yields, env.time y ≤ env.time c.state) ∧
    ∀ a ∈ c.accepted, env.time a.2.2 ≤ env.tmax a.2.2
  let P : Config σ T → Prop := fun c => Base c ∧ (c.status = .retry → Live c) ∧
    (c.status = .fresh → env.tmax c.state ≤ env.time c.state ∨ Live c)
  have key : ∀ c, Base c → Live c → P (tryStep env c) := by
    rintro c ⟨hc0, hl, hp, hle, hacc0⟩ ⟨hlt, hpos, hend⟩
    rcases tryStep_cases env c with ⟨e, hst, hy, hs, ha, hc⟩ | ⟨h, hsug, hst, hy, hs, ha, hc, hdt⟩ |
      ⟨h, p, hsug, hpp, hacc, hst, hs, hy, ha, hc, hdt⟩
    · refine ⟨⟨by rw [hc, hc0], by rw [hy, hs]; exact hl, by rw [hy]; exact hp, by rw [hy, hs]; exact hle,
        by rw [ha]; exact hacc0⟩, ?_, ?_⟩ <;> (intro h; rw [hst] at h; cases h)
    · refine ⟨⟨by rw [hc, hc0], by rw [hy, hs]; exact hl, by rw [hy]; exact hp, by rw [hy, hs]; exact hle,
        by rw [ha]; exact hacc0⟩, fun _ => ?_, ?_⟩
      · show _ ∧ _ ∧ _
        rw [hs, hdt]
        refine ⟨hlt, lt_min (htk.positive _ _ _ hpos hsug) (sub_pos.2 hlt), ?_⟩
        calc env.time c.state + min h (env.tmax c.state - env.time c.state)
            ≤ env.time c.state + (env.tmax c.state - env.time c.state) := by gcongr; exact min_le_right _ _
          _ = env.tmax c.state := by abel
      · intro h; rw [hst] at h; cases h
    · rw [hc0] at hs hy hc
      have hpt : env.time p = env.time c.state + c.dt := by rw [hpp, htk.attempt]
      have hpm : env.tmax p = env.tmax c.state := by rw [hpp, htk.problem]
      have hpass := (hap p).1
      have ht := hg.time _ _ hpass
      have hgt : env.time c.state < env.time p := by rw [hpt]; exact lt_add_of_pos_right _ hpos
      refine ⟨⟨by rw [hc]; exact (hap p).2, by rw [hy, hs]; simp, ?_, ?_, ?_⟩, ?_, fun _ => ?_⟩
      · rw [hy, List.map_append, List.pairwise_append]
        refine ⟨hp, by simp, ?_⟩
        intro a ha' b hb
        obtain ⟨y, hym, rfl⟩ := List.mem_map.1 ha'
        simp only [List.map_cons, List.map_nil, List.mem_singleton] at hb
        subst hb
        rw [ht]
        exact (hle y hym).trans_lt hgt
      · rw [hy, hs]
        intro y hym
        rcases List.mem_append.1 hym with hym | hym
        · rw [ht]; exact (hle y hym).trans hgt.le
        · rw [List.mem_singleton] at hym; rw [hym]
      · rw [ha]
        intro a hmem
        rcases List.mem_append.1 hmem with hmem | hmem
        · exact hacc0 a hmem
        · rw [List.mem_singleton] at hmem
          subst hmem
          show env.time p ≤ env.tmax p
          rw [hpt, hpm]; exact hend
      · intro h; rw [hst] at h; cases h
      · rw [hs]
        by_cases hfin : env.tmax p ≤ env.time p
        · exact Or.inl (hg.finished _ _ hpass hfin)
        · have hrun := not_le.1 hfin
          rcases hg.running _ _ hpass hrun with h2 | h2
          · right
            show _ ∧ _ ∧ _
            rw [hs, hdt, ht, ← hpm]
            refine ⟨hrun.trans_le h2, lt_min (htk.positive _ _ _ hpos hsug) (sub_pos.2 hrun), ?_⟩
            refine le_trans ?_ h2
            calc env.time p + min h (env.tmax p - env.time p)
                ≤ env.time p + (env.tmax p - env.time p) := by gcongr; exact min_le_right _ _
              _ = env.tmax p := by abel
          · exact Or.inl h2
  have hP : P (run env cb n) := by
    induction n with
    | zero =>
      refine ⟨⟨rfl, rfl, by simp [run, init], ?_, (by intro a ha; cases ha)⟩, (by intro h; cases h), fun _ => Or.inr ?_⟩
      · intro y hy
        rw [List.mem_singleton.1 hy]
        exact le_rfl
      · exact ⟨(lt_add_of_pos_right _ h0).trans_le h1, h0, h1⟩
    | succ n ih =>
      rw [run_succ]
      generalize run env cb n = c at ih
      obtain ⟨hb, hr, hf⟩ := ih
      cases hst : c.status with
      | done =>
        have : step env c = c := by unfold step; rw [hst]
        rw [this]; exact ⟨hb, hr, hf⟩
      | failed e =>
        have : step env c = c := by unfold step; rw [hst]
        rw [this]; exact ⟨hb, hr, hf⟩
      | retry =>
        have : step env c = tryStep env c := by unfold step; rw [hst]
        rw [this]; exact key c hb (hr hst)
      | fresh =>
        by_cases ht : env.time c.state < env.tmax c.state
        · have : step env c = tryStep env c := by unfold step; rw [hst]; simp [ht]
          rw [this]
          rcases hf hst with h | h
          · exact absurd ht (not_lt.2 h)
          · exact key c hb h
        · have : step env c = { c with status := .done } := by unfold step; rw [hst]; simp [ht]
          rw [this]
          exact ⟨hb, by intro h; (cases h), by intro h; cases h⟩
  exact ⟨hP.1.2.2.1, hP.1.2.2.2.2⟩

/-! ## Concrete solvers: constant steps; the state is the pair of time and final time -/

/-- A solver with constant step `h`, from time zero to `tmax`. -/
def constantEnv (h tmax : ℤ) : Env (ℤ × ℤ) ℤ Unit where
  time := Prod.fst
  tmax := Prod.snd
  start := (0, tmax)
  attempt := fun _ s dt => (s.1 + dt, s.2)
  norm := fun _ => ()
  accepted := fun _ => true
  suggest := fun _ _ => .ok h
  firststep := h

/-- When time `t` has been reached, the final time becomes `tmax`. -/
def setEnd (t tmax : ℤ) : DiscreteCallback (ℤ × ℤ) := ⟨fun s => decide (t ≤ s.1), fun s => (s.1, tmax)⟩

theorem constantEnv_timeKeeping (h tmax : ℤ) (hh : 0 < h) : TimeKeeping (constantEnv h tmax) :=
  ⟨fun _ _ _ => rfl, fun _ _ _ => rfl, fun _ _ _ _ e => by cases e; exact hh⟩

/-- An event that ends the simulation at time three, long before the problem ends. -/
example : (run (constantEnv 1 100) (.single (setEnd 3 3)) 4).status = .done ∧
    (run (constantEnv 1 100) (.single (setEnd 3 3)) 4).yields = [(0, 100), (1, 100), (2, 100), (3, 3)] := by
  decide +kernel

theorem setEnd_gentle : Gentle (constantEnv 1 100) [setEnd 3 0] := by
  refine ⟨?_, ?_, ?_⟩ <;>
  · rintro ⟨a, b⟩ s' h
    cases h with
    | replaced hc h' =>
      cases h'
      simp only [setEnd, decide_eq_true_eq] at hc
      first
        | rfl
        | (intro _; show (0 : ℤ) ≤ a; omega)
        | (intro _; right; show (0 : ℤ) ≤ a; omega)
    | kept hc h' =>
      cases h'
      first
        | rfl
        | exact fun h => h
        | exact fun _ => Or.inl le_rfl

/-- An event that ends the problem at time three is gentle, and the times are increasing. -/
example (n : ℕ) : ((run (constantEnv 1 100) (.single (setEnd 3 0)) n).yields.map Prod.fst).Pairwise (· < ·) :=
  (event_times_partial _ (.single (setEnd 3 0)) trivial (constantEnv_timeKeeping 1 100 one_pos) setEnd_gentle (by decide)
    (by decide) n).1

/-- The callbacks of an iterator are called once. -/
theorem iterator_loses_event :
    (run (constantEnv 1 5) (.iterator [setEnd 2 2]) 6).yields.map Prod.fst = [0, 1, 2, 3, 4, 5] ∧
    (run (constantEnv 1 5) (.iterable [setEnd 2 2]) 6).yields.map Prod.fst = [0, 1, 2] := by
  decide +kernel

/-- **C97, refuted in part.** An event that prolongs the problem when its end is reached: the next step has size zero, so the solution
has the same time twice. -/
theorem prolonged_repeats_time :
    (run (constantEnv 1 1) (.single ⟨fun s => decide (s.1 = 1), fun s => (s.1, 2)⟩) 4).status = .done ∧
    (run (constantEnv 1 1) (.single ⟨fun s => decide (s.1 = 1), fun s => (s.1, 2)⟩) 4).yields.map Prod.fst = [0, 1, 1, 2] := by
  decide +kernel

/-- **C97, refuted in part.** An event that moves the end of the problem closer: the next step was limited by the old end, so the
solution goes beyond the new one. -/
theorem shortened_overshoots :
    (run (constantEnv 2 10) (.single (setEnd 2 3)) 3).status = .done ∧
    (run (constantEnv 2 10) (.single (setEnd 2 3)) 3).yields = [(0, 10), (2, 3), (4, 3)] := by
  decide +kernel

/-- **C97, refuted in part.** With adaptive steps every attempt to go on from an end that has been moved away raises `RuntimeError`: the
step is zero, every suggestion from it is zero, and that is below the minimal step. For every solver, rule and error estimate. -/
theorem prolonged_adaptive_raises (env : Env σ ℝ ℝ) (r : AdaptiveSteps) (hr : 0 < r.minstep) (order : ℕ)
    (hs : ∀ dt n, env.suggest dt n = r.suggest dt n (order + 1)) (hpos : ∀ dt n h, 0 < dt → env.suggest dt n = .ok h → 0 < h)
    (c : Config σ ℝ) (p : σ) (suggested : ℝ)
    (hdt0 : 0 < c.dt) (hp : p = env.attempt c.attempts c.state c.dt) (hacc : env.accepted (env.norm p) = true)
    (hsug : env.suggest c.dt (env.norm p) = .ok suggested) (hend : env.time p = env.tmax c.state)
    (hext : env.time (applyAll c.callbacks p).1 < env.tmax (applyAll c.callbacks p).1) :
    (step env (tryStep env c)).status = .failed .runtimeError ∧
    (step env (tryStep env c)).yields = c.yields ++ [(applyAll c.callbacks p).1] := by
  have e : tryStep env c = ⟨.fresh, (applyAll c.callbacks p).1, 0, (applyAll c.callbacks p).2, c.attempts + 1,
      c.yields ++ [(applyAll c.callbacks p).1], c.accepted ++ [(c.state, c.dt, p)]⟩ := by
    unfold tryStep
    rw [← hp]
    simp only [hsug, hacc, if_true]
    rw [hend, sub_self, min_eq_right (hpos _ _ _ hdt0 hsug).le]
  have hraw : ∀ err, r.rawStep 0 err (order + 1) = 0 := by
    intro err
    unfold AdaptiveSteps.rawStep
    split_ifs <;> simp
  have hz : ∀ n, env.suggest 0 n = .error .runtimeError := by
    intro n
    rw [hs, AdaptiveSteps.suggest, hraw, if_pos hr]
  rw [e]
  unfold step
  simp only [hext, if_true]
  unfold tryStep
  simp [hz]

/-- A solver with adaptive steps whose error estimates are all half the tolerance. -/
noncomputable def adaptiveEnv (r : AdaptiveSteps) (order : ℕ) (h tmax : ℝ) : Env (ℝ × ℝ) ℝ ℝ where
  time := Prod.fst
  tmax := Prod.snd
  start := (0, tmax)
  attempt := fun _ s dt => (s.1 + dt, s.2)
  norm := fun _ => 1 / 2
  accepted := AdaptiveSteps.isAccepted
  suggest := fun dt n => r.suggest dt n (order + 1)
  firststep := h

/-- The default rule, one step to the end of the problem, and an event that then doubles the final time. -/
example : (run (adaptiveEnv AdaptiveSteps.default 0 1 1) (.single ⟨fun s => decide (s.1 = 1), fun s => (s.1, 2)⟩) 2).status
    = .failed .runtimeError := by
  obtain ⟨h, hh⟩ := AdaptiveSteps.default.suggest_total_inside AdaptiveSteps.default_sane 1 (1 / 2) 1 one_pos
    (by norm_num [AdaptiveSteps.default]) (by norm_num [AdaptiveSteps.default])
  have := prolonged_adaptive_raises (adaptiveEnv AdaptiveSteps.default 0 1 1) AdaptiveSteps.default
    AdaptiveSteps.default_sane.minstep_pos 0 (fun _ _ => rfl)
    (fun dt n h h0 e => AdaptiveSteps.default_sane.minstep_pos.trans_le ((AdaptiveSteps.suggest_ok_iff _ _ _ _ _).1 e).2.1)
    (init (adaptiveEnv AdaptiveSteps.default 0 1 1) (.single ⟨fun s => decide (s.1 = 1), fun s => (s.1, 2)⟩))
    (0 + 1, 1) h one_pos rfl (by norm_num [adaptiveEnv, AdaptiveSteps.isAccepted]) hh (by norm_num [adaptiveEnv, init])
    (by norm_num [adaptiveEnv, init, promote, applyAll, DiscreteCallback.call])
  rw [← this.1]
  show (step _ (step _ _)).status = _
  congr 2
  show (if _ then _ else _) = _
  rw [if_pos]
  norm_num [adaptiveEnv, init]

end Probnum.Events
