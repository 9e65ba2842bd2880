import Mathlib.Algebra.Order.Group.Basic
import Mathlib.Data.List.Sort
import Mathlib.Tactic.Linarith
import Mathlib.Tactic.Abel
import Verif.Ode.Model

/-! Invariants of the solver loop. -/

namespace Probnum.Ode

variable {σ T N : Type} [AddCommGroup T] [LinearOrder T] [IsOrderedAddMonoid T]

/-- An attempted step of size `dt` ends at `t + dt`, callbacks do not move time, and from a positive step the rule
suggests a positive one (or raises). -/
structure TimeKeeping (env : Env σ T N) : Prop where
  attempt : ∀ k s dt, env.time (env.attempt k s dt) = env.time s + dt
  callbacks : ∀ cb ∈ env.callbacks, ∀ s, env.time (cb s) = env.time s
  positive : ∀ dt n h, 0 < dt → env.suggest dt n = .ok h → 0 < h

/-- After a rejection the rule does not suggest a larger step. -/
def RejectShrinks (env : Env σ T N) : Prop :=
  ∀ dt n h, env.accepted n = false → env.suggest dt n = .ok h → h ≤ dt

/-- Stop locations in ascending order, at most the first of them not right of the initial time. -/
def GoodStops (t0 : T) (stops : List T) : Prop :=
  stops.Pairwise (· < ·) ∧ ∀ s ∈ stops.tail, t0 < s

theorem time_applyCallbacks (time : σ → T) (cbs : List (σ → σ)) (h : ∀ cb ∈ cbs, ∀ s, time (cb s) = time s) (s : σ) :
    time (applyCallbacks cbs s) = time s := by
  induction cbs generalizing s with
  | nil => rfl
  | cons cb cbs ih =>
    simp only [applyCallbacks, List.foldl_cons]
    have := ih (fun cb hcb => h cb (List.mem_cons_of_mem _ hcb)) (cb s)
    rw [applyCallbacks] at this
    rw [this, h cb (by simp)]

/-- Invariant of the stopper. -/
structure StInv (env : Env σ T N) (stops : List T) (c : Config σ T) (st : Stopper T) : Prop where
  chain : (st.next.toList ++ st.rest).Pairwise (· < ·)
  rest : ∀ x ∈ st.rest, env.time c.state < x
  none : st.next = none → st.rest = []
  retry : c.status = .retry → ∀ x ∈ st.next, env.time c.state + c.dt ≤ x ∧ env.time c.state < x
  cover : ∀ s ∈ stops, env.time env.start < s →
    (s ≤ env.time c.state → ∃ y ∈ c.yields, env.time y = s) ∧
    (env.time c.state < s → s ∈ st.next.toList ++ st.rest)

/-- Invariant of the loop. -/
structure Inv (env : Env σ T N) (stops : List T) (c : Config σ T) : Prop where
  last : ∃ ys, c.yields = ys ++ [c.state]
  sorted : (c.yields.map env.time).Pairwise (· < ·)
  head : c.yields.head? = some env.start
  le : env.time c.state ≤ env.tmax
  dt_le : env.time c.state + c.dt ≤ env.tmax
  dt_pos : env.time c.state < env.tmax → 0 < c.dt
  retry : c.status = .retry → env.time c.state < env.tmax
  finished : c.status = .done → env.time c.state = env.tmax
  nostop : c.stopper = none → stops = []
  stop : ∀ st, c.stopper = some st → StInv env stops c st

/-- Same yields, same state: the part of the invariant kept by a failure. -/
structure Weak (env : Env σ T N) (stops : List T) (c : Config σ T) : Prop where
  last : ∃ ys, c.yields = ys ++ [c.state]
  sorted : (c.yields.map env.time).Pairwise (· < ·)
  head : c.yields.head? = some env.start
  le : env.time c.state ≤ env.tmax
  cover : ∀ s ∈ stops, env.time env.start < s → s ≤ env.time c.state → ∃ y ∈ c.yields, env.time y = s

theorem Inv.weak {env : Env σ T N} {stops : List T} {c : Config σ T} (h : Inv env stops c) :
    Weak env stops c := by
  refine ⟨h.last, h.sorted, h.head, h.le, ?_⟩
  intro s hs h1 h2
  cases hst : c.stopper with
  | none => rw [h.nostop hst] at hs; cases hs
  | some st => exact ((h.stop st hst).cover s hs h1).1 h2

theorem tryStep_inv {env : Env σ T N} {stops : List T} (c : Config σ T)
    (htk : TimeKeeping env) (hrs : c.stopper = none ∨ RejectShrinks env)
    (last : ∃ ys, c.yields = ys ++ [c.state])
    (sorted : (c.yields.map env.time).Pairwise (· < ·))
    (head : c.yields.head? = some env.start)
    (lt : env.time c.state < env.tmax)
    (dt_le : env.time c.state + c.dt ≤ env.tmax)
    (dt_pos : 0 < c.dt)
    (nostop : c.stopper = none → stops = [])
    (stop : ∀ st, c.stopper = some st → StInv env stops c st ∧
      ∀ x ∈ st.next, env.time c.state + c.dt ≤ x ∧ env.time c.state < x) :
    Inv env stops (tryStep env c) ∨
      (Weak env stops (tryStep env c) ∧ ∃ e, (tryStep env c).status = .failed e) := by
  have hcover : ∀ s ∈ stops, env.time env.start < s → s ≤ env.time c.state →
      ∃ y ∈ c.yields, env.time y = s := by
    intro s hs h1 h2
    cases hst : c.stopper with
    | none => rw [nostop hst] at hs; cases hs
    | some st => exact ((stop st hst).1.cover s hs h1).1 h2
  unfold tryStep
  simp only
  cases hsug : env.suggest c.dt (env.norm (env.attempt c.attempts c.state c.dt)) with
  | error e => exact Or.inr ⟨⟨last, sorted, head, lt.le, hcover⟩, e, rfl⟩
  | ok h =>
    have hpos := htk.positive _ _ _ dt_pos hsug
    simp only
    left
    by_cases hacc : env.accepted (env.norm (env.attempt c.attempts c.state c.dt)) = true
    · simp only [hacc, if_true]
      set p := env.attempt c.attempts c.state c.dt with hp
      have htp : env.time p = env.time c.state + c.dt := htk.attempt _ _ _
      have htc : env.time (applyCallbacks env.callbacks p) = env.time c.state + c.dt := by
        rw [time_applyCallbacks _ _ htk.callbacks, htp]
      have hlt : env.time c.state < env.time (applyCallbacks env.callbacks p) := by
        rw [htc]; exact lt_add_of_pos_right _ dt_pos
      have hcov' : ∀ s ∈ stops, env.time env.start < s → ∀ st, c.stopper = some st →
          ((s ≤ env.time (applyCallbacks env.callbacks p) →
            ∃ y ∈ c.yields ++ [applyCallbacks env.callbacks p], env.time y = s) ∧
          (env.time (applyCallbacks env.callbacks p) < s → s ∈ st.next.toList ++ st.rest)) := by
        intro s hs h1 st hst
        obtain ⟨hSI, hnx⟩ := stop st hst
        have hc := hSI.cover s hs h1
        constructor
        · intro hle
          by_cases hsc : s ≤ env.time c.state
          · obtain ⟨y, hy, hys⟩ := hc.1 hsc
            exact ⟨y, List.mem_append_left _ hy, hys⟩
          · have hmem := hc.2 (not_le.1 hsc)
            refine ⟨_, List.mem_append_right _ (List.mem_singleton_self _), ?_⟩
            rcases List.mem_append.1 hmem with hm | hm
            · have hsn : s ∈ st.next := by simpa using hm
              have := (hnx s hsn).1
              rw [htc] at hle ⊢
              exact le_antisymm this hle
            · -- in the rest: beyond next, contradiction
              exfalso
              cases hn : st.next with
              | none => rw [hSI.none hn] at hm; cases hm
              | some x =>
                have h2 := (hnx x (by simp [hn])).1
                have h3 := hSI.chain
                rw [hn] at h3
                have h4 := (List.pairwise_append.1 h3).2.2 x (by simp) s hm
                rw [htc] at hle
                exact absurd (h4.trans_le hle) (not_lt.2 h2)
        · intro hlt'
          exact hc.2 (hlt.trans hlt')
      refine ⟨⟨c.yields, rfl⟩, ?_, ?_, ?_, ?_, ?_, ?_, ?_, nostop, ?_⟩
      · rw [List.map_append, List.pairwise_append]
        refine ⟨sorted, by simp, ?_⟩
        intro a ha b hb
        simp only [List.map_cons, List.map_nil, List.mem_singleton] at hb
        subst hb
        obtain ⟨ys, hys⟩ := last
        rw [hys, List.map_append, List.pairwise_append] at sorted
        rw [hys, List.map_append] at ha
        rcases List.mem_append.1 ha with ha | ha
        · exact (sorted.2.2 a ha _ (by simp)).trans hlt
        · simp only [List.map_cons, List.map_nil, List.mem_singleton] at ha
          rw [ha]; exact hlt
      · obtain ⟨ys, hys⟩ := last
        rw [List.head?_append, head]; rfl
      · rw [htc]; exact dt_le
      · rw [htc, htp]
        have := min_le_right h (env.tmax - (env.time c.state + c.dt))
        calc env.time c.state + c.dt + min h (env.tmax - (env.time c.state + c.dt))
            ≤ env.time c.state + c.dt + (env.tmax - (env.time c.state + c.dt)) := by gcongr
          _ = env.tmax := by abel
      · intro hl
        rw [htc] at hl
        rw [htp]
        exact lt_min hpos (sub_pos.2 hl)
      · intro hs; cases hs
      · intro hs; cases hs
      · intro st hst
        obtain ⟨hSI, hnx⟩ := stop st hst
        refine ⟨hSI.chain, ?_, hSI.none, ?_, ?_⟩
        · intro x hx
          show env.time (applyCallbacks env.callbacks p) < x
          cases hn : st.next with
          | none => rw [hSI.none hn] at hx; cases hx
          | some y =>
            have h2 := (hnx y (by simp [hn])).1
            have h3 := hSI.chain
            rw [hn] at h3
            have h4 := (List.pairwise_append.1 h3).2.2 y (by simp) x hx
            rw [htc]; exact h2.trans_lt h4
        · intro hs; cases hs
        · intro s hs h1
          exact hcov' s hs h1 st hst
    · have hacc' : env.accepted (env.norm (env.attempt c.attempts c.state c.dt)) = false := by
        simpa using hacc
      simp only [hacc', Bool.false_eq_true, if_false]
      refine ⟨last, sorted, head, lt.le, ?_, ?_, fun _ => lt, ?_, nostop, ?_⟩
      · calc env.time c.state + min h (env.tmax - env.time c.state)
            ≤ env.time c.state + (env.tmax - env.time c.state) := by gcongr; exact min_le_right _ _
          _ = env.tmax := by abel
      · intro _; exact lt_min hpos (sub_pos.2 lt)
      · intro hs; cases hs
      · intro st hst
        obtain ⟨hSI, hnx⟩ := stop st hst
        refine ⟨hSI.chain, hSI.rest, hSI.none, ?_, hSI.cover⟩
        intro _ x hx
        refine ⟨?_, (hnx x hx).2⟩
        rcases hrs with hrs | hrs
        · rw [hrs] at hst; cases hst
        · have hle : min h (env.tmax - env.time c.state) ≤ c.dt :=
            (min_le_left _ _).trans (hrs _ _ _ hacc' hsug)
          calc env.time c.state + min h (env.tmax - env.time c.state)
              ≤ env.time c.state + c.dt := by gcongr
            _ ≤ x := (hnx x hx).1

theorem tryStep_stopper (env : Env σ T N) (c : Config σ T) : (tryStep env c).stopper = c.stopper := by
  unfold tryStep
  simp only
  split
  · rfl
  · split <;> rfl

theorem step_stopper_none (env : Env σ T N) (c : Config σ T) :
    (step env c).stopper = none ↔ c.stopper = none := by
  unfold step
  split
  · rfl
  · rfl
  · rw [tryStep_stopper]
  · split
    · split
      · next h => rw [tryStep_stopper]
      · next st h => rw [tryStep_stopper, h]; simp
    · rfl

theorem adjust_spec (st : Stopper T) (t dt : T) (hdt : 0 < dt)
    (chain : (st.next.toList ++ st.rest).Pairwise (· < ·)) (rest : ∀ x ∈ st.rest, t < x)
    (hnone : st.next = none → st.rest = []) :
    let r := adjustTimeStep st t dt
    0 < r.1 ∧ r.1 ≤ dt ∧
      (r.2.next.toList ++ r.2.rest).Pairwise (· < ·) ∧ (∀ x ∈ r.2.rest, t < x) ∧
      (r.2.next = none → r.2.rest = []) ∧
      (∀ x ∈ r.2.next, t + r.1 ≤ x ∧ t < x) ∧
      (∀ s, t < s → s ∈ st.next.toList ++ st.rest → s ∈ r.2.next.toList ++ r.2.rest) := by
  rcases st with ⟨_ | nl, rs⟩
  · have : rs = [] := hnone rfl
    subst this
    simp only [adjustTimeStep]
    exact ⟨hdt, le_rfl, by simp, by simp, by simp, by simp, by simp⟩
  · simp only [Option.toList, List.singleton_append, List.pairwise_cons] at chain rest
    simp only [adjustTimeStep]
    by_cases hnl : nl ≤ t
    · simp only [hnl, if_true]
      cases rs with
      | nil =>
        simp only [Option.toList, List.nil_append]
        refine ⟨hdt, le_rfl, by simp, by simp, by simp, by simp, ?_⟩
        intro s hts hs
        simp only [List.append_nil, List.mem_singleton] at hs
        exact absurd hts (not_lt.2 (hs ▸ hnl))
      | cons x xs =>
        have hx : t < x := rest x (by simp)
        have hxs := List.pairwise_cons.1 chain.2
        simp only [Option.toList, List.singleton_append, List.pairwise_cons]
        refine ⟨?_, ?_, hxs, ?_, by simp, ?_, ?_⟩
        · split
          · exact sub_pos.2 hx
          · exact hdt
        · split
          · next h => exact (sub_le_iff_le_add'.2 h.le)
          · exact le_rfl
        · intro y hy; exact rest y (List.mem_cons_of_mem _ hy)
        · intro y hy
          simp only [Option.mem_def, Option.some.injEq] at hy
          subst hy
          refine ⟨?_, hx⟩
          split
          · exact (add_sub_cancel _ _).le
          · next h => exact not_lt.1 h
        · intro s hts hs
          simp only [List.mem_cons] at hs ⊢
          rcases hs with rfl | hs
          · exact absurd hts (not_lt.2 hnl)
          · exact hs
    · have hlt := not_le.1 hnl
      simp only [hnl, if_false]
      simp only [Option.toList, List.singleton_append, List.pairwise_cons]
      refine ⟨?_, ?_, chain, rest, by simp, ?_, ?_⟩
      · split
        · exact sub_pos.2 hlt
        · exact hdt
      · split
        · next h => exact (sub_le_iff_le_add'.2 h.le)
        · exact le_rfl
      · intro y hy
        simp only [Option.mem_def, Option.some.injEq] at hy
        subst hy
        refine ⟨?_, hlt⟩
        split
        · exact (add_sub_cancel _ _).le
        · next h => exact not_lt.1 h
      · intro s _ hs; exact hs

/-- The invariant is kept by every machine step (or the machine has failed and keeps the weak invariant). -/
theorem step_inv {env : Env σ T N} {stops : List T} (c : Config σ T)
    (htk : TimeKeeping env) (hrs : c.stopper = none ∨ RejectShrinks env)
    (h : Inv env stops c ∨ (Weak env stops c ∧ ∃ e, c.status = .failed e)) :
    Inv env stops (step env c) ∨ (Weak env stops (step env c) ∧ ∃ e, (step env c).status = .failed e) := by
  rcases h with h | ⟨hw, e, he⟩
  · unfold step
    split
    · exact Or.inl h
    · next e he => exact Or.inr ⟨h.weak, e, he⟩
    · next hs =>
      have hlt := h.retry hs
      refine tryStep_inv c htk hrs h.last h.sorted h.head hlt h.dt_le (h.dt_pos hlt) h.nostop ?_
      intro st hst
      exact ⟨h.stop st hst, (h.stop st hst).retry hs⟩
    · next hs =>
      split
      · next hlt =>
        split
        · next hn =>
          refine tryStep_inv c htk hrs h.last h.sorted h.head hlt h.dt_le (h.dt_pos hlt) h.nostop ?_
          intro st hst
          rw [hn] at hst; cases hst
        · next st hst =>
          have hS := h.stop st hst
          have ha := adjust_spec st (env.time c.state) c.dt (h.dt_pos hlt) hS.chain hS.rest hS.none
          simp only at ha
          obtain ⟨a1, a2, a3, a4, a5, a6, a7⟩ := ha
          refine tryStep_inv _ htk ?_ h.last h.sorted h.head hlt ?_ a1 ?_ ?_
          · rcases hrs with hrs | hrs
            · rw [hst] at hrs; cases hrs
            · exact Or.inr hrs
          · exact (add_le_add le_rfl a2).trans h.dt_le
          · intro hc; cases hc
          · intro st' hst'
            simp only [Option.some.injEq] at hst'
            subst hst'
            refine ⟨⟨a3, a4, a5, fun _ => a6, ?_⟩, a6⟩
            intro s hs' h1
            obtain ⟨c1, c2⟩ := hS.cover s hs' h1
            exact ⟨c1, fun h2 => a7 s h2 (c2 h2)⟩
      · next hnlt =>
        left
        have heq : env.time c.state = env.tmax := le_antisymm h.le (not_lt.1 hnlt)
        refine ⟨h.last, h.sorted, h.head, h.le, h.dt_le, h.dt_pos, ?_, fun _ => heq, h.nostop, ?_⟩
        · intro hc; cases hc
        · intro st hst
          have := h.stop st hst
          exact ⟨this.chain, this.rest, this.none, fun hc => (by cases hc), this.cover⟩
  · right
    unfold step
    rw [he]
    exact ⟨hw, e, he⟩

omit [IsOrderedAddMonoid T] in
theorem run_succ (env : Env σ T N) (stopAt : Option (List T)) (n k : ℕ) :
    run env stopAt (n + 1) k = step env (run env stopAt n k) := by
  simp [run, Function.iterate_succ_apply']

end Probnum.Ode
