import Mathlib.Data.List.Sort
import Mathlib.Algebra.Order.Group.Int
import Mathlib.Algebra.Order.Group.Basic
import Mathlib.Algebra.Order.Ring.Int
import Mathlib.Tactic.Linarith
import Mathlib.Tactic.Ring
import Verif.Posterior.Props
import Verif.Kalman.Model

/-!
# C11 and C15: the Kalman filter loop and the smoothing list
-/

namespace Probnum.Kalman

open Probnum.Posterior

variable {T S D Y : Type} [AddCommGroup T] [LinearOrder T]

/-! ## Specification -/

/-- Where to linearise: nowhere, or at the previous posterior evaluated at `t`. -/
def linAt (prev : Option (T → Res S)) (t : T) : Res (Option S) :=
  match prev with
  | none => .ok none
  | some f => (f t).map some

/-- Predicting `s` from `tOld` to `t` gives `s'`: over exactly the gap if it is positive, unchanged otherwise. -/
def Predicts (prior : Prior T S D) (prev : Option (T → Res S)) (tOld t : T) (s s' : S) : Prop :=
  if 0 < t - tOld then ∃ lin, linAt prev tOld = .ok lin ∧ prior.forward s t (t - tOld) lin = .ok s' else s' = s

/-- Updating `s'` on the observation `y` at `t` gives `s''`. -/
def Updates (prev : Option (T → Res S)) (t : T) (y : Y) (mm : MeasModel Y S) (s' s'' : S) : Prop :=
  ∃ lin, linAt prev t = .ok lin ∧ mm y s' lin = .ok s''

/-- `states` is the sequence of filtered states for the observations: state `i` comes from state `i - 1` (the initial
random variable at the initial time for `i = 0`) by predicting over the gap and updating on observation `i`. -/
def IsFiltered (prior : Prior T S D) (prev : Option (T → Res S)) (locs : List T) (obs : List Y)
    (models : List (MeasModel Y S)) (states : List S) : Prop :=
  states.length = locs.length ∧
  ∀ (i : ℕ) (tOld t : T) (sOld s : S) (y : Y) (mm : MeasModel Y S), (prior.initarg :: locs)[i]? = some tOld → locs[i]? = some t →
    (prior.initrv :: states)[i]? = some sOld → states[i]? = some s → obs[i]? = some y → models[i]? = some mm →
    ∃ s', Predicts prior prev tOld t sOld s' ∧ Updates prev t y mm s' s

/-! ## Helper lemmas -/

theorem predict_ok_iff (prior : Prior T S D) (prev : Option (T → Res S)) (tOld t : T) (s s' : S) :
    predict prior prev tOld t s = .ok s' ↔ Predicts prior prev tOld t s s' := by
  unfold predict Predicts linAt
  by_cases h : 0 < t - tOld
  · simp only [if_pos h]
    cases prev with
    | none => simp [bind, Except.bind, pure, Except.pure]
    | some f =>
      cases hf : f tOld <;> simp [bind, Except.bind, Except.map, hf]
  · simp only [if_neg h]
    constructor
    · intro h; injection h with h; exact h.symm
    · intro h; rw [h]

theorem update_ok_iff (prev : Option (T → Res S)) (t : T) (y : Y) (mm : MeasModel Y S) (s' s'' : S) :
    update prev t y mm s' = .ok s'' ↔ Updates prev t y mm s' s'' := by
  unfold update Updates linAt
  cases prev with
  | none => simp [bind, Except.bind, pure, Except.pure]
  | some f => cases hf : f t <;> simp [bind, Except.bind, Except.map, hf]

theorem increasing_iff (l : List T) : increasing l = true ↔ l.Pairwise (· < ·) := by
  induction l with
  | nil => simp [increasing]
  | cons x l ih =>
    cases l with
    | nil => simp [increasing]
    | cons y r =>
      rw [increasing, Bool.and_eq_true, ih, decide_eq_true_iff]
      constructor
      · rintro ⟨h1, h2⟩
        refine List.pairwise_cons.2 ⟨fun a ha => ?_, h2⟩
        rcases List.mem_cons.1 ha with rfl | ha
        · exact h1
        · exact h1.trans (List.rel_of_pairwise_cons h2 ha)
      · intro h
        exact ⟨List.rel_of_pairwise_cons h (by simp), (List.pairwise_cons.1 h).2⟩

/-- A run along the list of triples. -/
inductive Run (prior : Prior T S D) (prev : Option (T → Res S)) :
    T → S → List (T × Y × MeasModel Y S) → List S → Prop
  | nil (t s) : Run prior prev t s [] []
  | cons {tOld s t y mm s' s'' rest ss} : Predicts prior prev tOld t s s' → Updates prev t y mm s' s'' →
      Run prior prev t s'' rest ss → Run prior prev tOld s ((t, y, mm) :: rest) (s'' :: ss)

theorem Run.length {prior : Prior T S D} {prev : Option (T → Res S)} {t : T} {s : S}
    {l : List (T × Y × MeasModel Y S)} {ss : List S} (h : Run prior prev t s l ss) : ss.length = l.length := by
  induction h with
  | nil => rfl
  | cons _ _ _ ih => simp [ih]

theorem run_iff (prior : Prior T S D) (prev : Option (T → Res S)) (l : List (T × Y × MeasModel Y S)) :
    ∀ (t0 : T) (s0 : S) (ss : List S), Run prior prev t0 s0 l ss ↔
      ss.length = l.length ∧ ∀ (i : ℕ) (tOld : T) (sOld s : S) (x : T × Y × MeasModel Y S), (t0 :: l.map Prod.fst)[i]? = some tOld → l[i]? = some x →
        (s0 :: ss)[i]? = some sOld → ss[i]? = some s →
        ∃ s', Predicts prior prev tOld x.1 sOld s' ∧ Updates prev x.1 x.2.1 x.2.2 s' s := by
  induction l with
  | nil =>
    intro t0 s0 ss
    constructor
    · intro h; cases h; simp
    · rintro ⟨h, -⟩
      have : ss = [] := List.length_eq_zero_iff.1 h
      subst this; exact Run.nil _ _
  | cons x l ih =>
    intro t0 s0 ss
    obtain ⟨t, y, mm⟩ := x
    constructor
    · intro h
      cases h with
      | @cons _ _ _ _ _ s' s'' _ ss h1 h2 h3 =>
        obtain ⟨hl, hr⟩ := (ih _ _ _).1 h3
        refine ⟨by simp [hl], ?_⟩
        intro i tOld sOld s x e1 e2 e3 e4
        cases i with
        | zero =>
          simp only [List.getElem?_cons_zero, Option.some.injEq] at e1 e2 e3 e4
          subst e1 e2 e3 e4
          exact ⟨s', h1, h2⟩
        | succ i =>
          simp only [List.getElem?_cons_succ, List.map_cons] at e1 e2 e3 e4
          exact hr i tOld sOld s x e1 e2 e3 e4
    · rintro ⟨hl, hr⟩
      cases ss with
      | nil => simp at hl
      | cons s'' ss =>
        obtain ⟨s', h1, h2⟩ := hr 0 t0 s0 s'' (t, y, mm) rfl rfl rfl rfl
        refine Run.cons h1 h2 ((ih t s'' ss).2 ⟨by simpa using hl, ?_⟩)
        intro i tOld sOld s x e1 e2 e3 e4
        exact hr (i + 1) tOld sOld s x (by simpa using e1) (by simpa using e2) (by simpa using e3) (by simpa using e4)

theorem loop_states (prior : Prior T S D) (prev : Option (T → Res S)) (l : List (T × Y × MeasModel Y S)) :
    ∀ (t0 : T) (s0 : S), let r := loop prior prev t0 s0 l
      Run prior prev t0 s0 (l.take r.1.length) (r.1.map Filtered.state) ∧
      r.1.map Filtered.loc = (l.take r.1.length).map Prod.fst ∧
      (r.2 = .ok () → r.1.length = l.length) ∧
      (∀ e, r.2 = .error e → ∃ tOld sOld x, (t0 :: l.map Prod.fst)[r.1.length]? = some tOld ∧
        (s0 :: r.1.map Filtered.state)[r.1.length]? = some sOld ∧ l[r.1.length]? = some x ∧
        (predict prior prev tOld x.1 sOld = .error e ∨
          ∃ s', Predicts prior prev tOld x.1 sOld s' ∧ update prev x.1 x.2.1 x.2.2 s' = .error e)) := by
  induction l with
  | nil => intro t0 s0; simp [loop, Run.nil]
  | cons x l ih =>
    intro t0 s0
    obtain ⟨t, y, mm⟩ := x
    cases hp : predict prior prev t0 t s0 with
    | error e =>
      simp only [loop, hp]
      refine ⟨Run.nil _ _, rfl, by simp, ?_⟩
      intro e' he'
      injection he' with he'
      subst he'
      exact ⟨t0, s0, (t, y, mm), rfl, rfl, rfl, Or.inl hp⟩
    | ok s' =>
      have hP := (predict_ok_iff prior prev t0 t s0 s').1 hp
      cases hu : update prev t y mm s' with
      | error e =>
        simp only [loop, hp, hu]
        refine ⟨Run.nil _ _, rfl, by simp, ?_⟩
        intro e' he'
        injection he' with he'
        subst he'
        exact ⟨t0, s0, (t, y, mm), rfl, rfl, rfl, Or.inr ⟨s', hP, hu⟩⟩
      | ok s'' =>
        have hU := (update_ok_iff prev t y mm s' s'').1 hu
        obtain ⟨a, b, c, d⟩ := ih t s''
        simp only [loop, hp, hu, List.map_cons, List.length_cons, List.take_succ_cons]
        refine ⟨Run.cons hP hU a, by rw [b], fun h => by rw [c h], ?_⟩
        intro e he
        obtain ⟨tOld, sOld, x, e1, e2, e3, e4⟩ := d e he
        exact ⟨tOld, sOld, x, by simpa using e1, by simpa using e2, by simpa using e3, e4⟩

theorem Run.unique {prior : Prior T S D} {prev : Option (T → Res S)} {t : T} {s : S}
    {l : List (T × Y × MeasModel Y S)} {ss ss' : List S} (h : Run prior prev t s l ss) (h' : Run prior prev t s l ss') :
    ss = ss' := by
  induction h generalizing ss' with
  | nil => cases h'; rfl
  | cons h1 h2 _ ih =>
    cases h' with
    | cons h1' h2' h3' =>
      have e1 := ((predict_ok_iff _ _ _ _ _ _).2 h1).symm.trans ((predict_ok_iff _ _ _ _ _ _).2 h1')
      injection e1 with e1; subst e1
      have e2 := ((update_ok_iff _ _ _ _ _ _).2 h2).symm.trans ((update_ok_iff _ _ _ _ _ _).2 h2')
      injection e2 with e2; subst e2
      rw [ih h3']

theorem Run.loop {prior : Prior T S D} {prev : Option (T → Res S)} {t : T} {s : S}
    {l : List (T × Y × MeasModel Y S)} {ss : List S} (h : Run prior prev t s l ss) :
    (loop prior prev t s l).2 = .ok () ∧ (loop prior prev t s l).1.map Filtered.state = ss := by
  induction h with
  | nil => exact ⟨rfl, rfl⟩
  | cons h1 h2 _ ih =>
    simp only [Kalman.loop, (predict_ok_iff _ _ _ _ _ _).2 h1, (update_ok_iff _ _ _ _ _ _).2 h2, List.map_cons]
    exact ⟨ih.1, by rw [ih.2]⟩

theorem appendAll_ok (l : List (Filtered T S)) : ∀ (p : Post T S), p.frozen = false →
    (p.locations ++ l.map Filtered.loc).Pairwise (· < ·) →
    appendAll p l = .ok ⟨p.locations ++ l.map Filtered.loc, p.states ++ l.map Filtered.state, false⟩ := by
  induction l with
  | nil => intro p hf _; cases p; simp only at hf; simp [appendAll, hf]
  | cons f l ih =>
    intro p hf hp
    have hlast : ∀ x, p.locations.getLast? = some x → x < f.loc := by
      intro x hx
      have hm := List.mem_of_getLast? hx
      rw [List.pairwise_append] at hp
      exact hp.2.2 x hm f.loc (by simp)
    simp only [appendAll, (append_exact p f.loc f.state).1 ⟨hf, hlast⟩]
    rw [ih _ rfl (by simpa using hp)]
    simp

theorem triples_map_fst (p : Problem T Y S) (h1 : p.observations.length = p.locations.length)
    (h2 : p.models.length = p.locations.length) : p.triples.map Prod.fst = p.locations := by
  unfold Problem.triples
  rw [List.map_fst_zip]
  simp [h1, h2]

theorem triples_getElem? (p : Problem T Y S) (i : ℕ) (t : T) (y : Y) (mm : MeasModel Y S) :
    p.triples[i]? = some (t, y, mm) ↔
      p.locations[i]? = some t ∧ p.observations[i]? = some y ∧ p.models[i]? = some mm := by
  unfold Problem.triples
  rw [List.getElem?_zip_eq_some, List.getElem?_zip_eq_some]

theorem run_isFiltered (prior : Prior T S D) (prev : Option (T → Res S)) (p : Problem T Y S)
    (h1 : p.observations.length = p.locations.length) (h2 : p.models.length = p.locations.length) (ss : List S) :
    Run prior prev prior.initarg prior.initrv p.triples ss ↔
      IsFiltered prior prev p.locations p.observations p.models ss := by
  have hl : p.triples.length = p.locations.length := by
    rw [← triples_map_fst p h1 h2, List.length_map]
  rw [run_iff, hl, triples_map_fst p h1 h2]
  unfold IsFiltered
  refine and_congr Iff.rfl ⟨fun h => ?_, fun h => ?_⟩
  · intro i tOld t sOld s y mm e1 e2 e3 e4 e5 e6
    exact h i tOld sOld s (t, y, mm) e1 ((triples_getElem? p i t y mm).2 ⟨e2, e5, e6⟩) e3 e4
  · intro i tOld sOld s ⟨t, y, mm⟩ e1 e2 e3 e4
    obtain ⟨a, b, c⟩ := (triples_getElem? p i t y mm).1 e2
    exact h i tOld t sOld s y mm e1 a e3 e4 b c

/-! ## C11 -/

/-- Building a regression problem: a single measurement model is replicated; unequal lengths raise ValueError. -/
theorem problem_make_exact (locs : List T) (obs : List Y) (ms : Models Y S) :
    (∀ p, Problem.make locs obs ms = .ok p → p.locations = locs ∧ p.observations = obs ∧
      p.observations.length = p.locations.length ∧ p.models.length = p.locations.length ∧
      (∀ m, ms = .single m → ∀ x ∈ p.models, x = m)) ∧
    (Problem.make locs obs ms = .error .valueError ∨ ∃ p, Problem.make locs obs ms = .ok p) := by
  unfold Problem.make
  simp only
  split_ifs with h
  · refine ⟨?_, Or.inr ⟨_, rfl⟩⟩
    intro p hp
    injection hp with hp
    subst hp
    refine ⟨rfl, rfl, h.1, h.2.symm, ?_⟩
    rintro m rfl x hx
    exact List.eq_of_mem_replicate hx
  · exact ⟨by intro p hp; simp at hp, Or.inl rfl⟩

/-- **C11.**  `Kalman.filter` succeeds with a posterior exactly when the locations are strictly increasing and the
states of the posterior, one per location, are the filtered states of the specification. -/
theorem filter_one_state_per_observation (prior : Prior T S D) (prob : Problem T Y S) (prev : Option (T → Res S))
    (h1 : prob.observations.length = prob.locations.length) (h2 : prob.models.length = prob.locations.length)
    (post : Post T S) :
    filter prior prob prev = .ok post ↔
      prob.locations.Pairwise (· < ·) ∧ post.locations = prob.locations ∧ post.frozen = false ∧
      IsFiltered prior prev prob.locations prob.observations prob.models post.states := by
  have hloc := triples_map_fst prob h1 h2
  have hlen : prob.triples.length = prob.locations.length := by rw [← hloc, List.length_map]
  by_cases hinc : increasing prob.locations = true
  swap
  · have : ¬ prob.locations.Pairwise (· < ·) := fun h => hinc ((increasing_iff _).2 h)
    simp only [Kalman.filter, generator, if_pos hinc, appendAll]
    constructor
    · intro h; simp at h
    · rintro ⟨h, -⟩; exact absurd h this
  have hpw := (increasing_iff _).1 hinc
  obtain ⟨a, b, c, -⟩ := loop_states prior prev prob.triples prior.initarg prior.initrv
  have happ : appendAll Post.init (loop prior prev prior.initarg prior.initrv prob.triples).1
      = .ok ⟨(loop prior prev prior.initarg prior.initrv prob.triples).1.map Filtered.loc,
          (loop prior prev prior.initarg prior.initrv prob.triples).1.map Filtered.state, false⟩ := by
    rw [appendAll_ok _ Post.init rfl]
    · simp [Post.init]
    · simp only [Post.init, List.nil_append]
      rw [b, List.map_take, hloc]
      exact hpw.sublist (List.take_sublist _ _)
  simp only [Kalman.filter, generator, hinc, not_true_eq_false, if_false, happ]
  constructor
  · intro h
    cases hr : (loop prior prev prior.initarg prior.initrv prob.triples).2 with
    | error e => rw [hr] at h; simp at h
    | ok u =>
      rw [hr] at h
      injection h with h
      subst h
      have hc := c hr
      refine ⟨hpw, ?_, rfl, ?_⟩
      · simp only [b, hc, List.take_length, hloc]
      · rw [← run_isFiltered prior prev prob h1 h2]
        simpa [hc] using a
  · rintro ⟨-, hl, hf, hs⟩
    rw [← run_isFiltered prior prev prob h1 h2] at hs
    obtain ⟨e1, e2⟩ := hs.loop
    rw [e1]
    cases post with
    | mk pl ps pf =>
      simp only at hl hf hs e2 ⊢
      rw [hl, hf, e2, b, c e1, List.take_length, hloc]

/-- Locations that are not strictly increasing raise ValueError before any state is produced and before any method of
the prior or of a measurement model is called. -/
theorem unordered_locations_raise (prior : Prior T S D) (prob : Problem T Y S) (prev : Option (T → Res S))
    (h : ¬ prob.locations.Pairwise (· < ·)) :
    generator prior prob prev = ([], .error .valueError) ∧ filter prior prob prev = .error .valueError := by
  have : ¬ increasing prob.locations = true := fun h' => h ((increasing_iff _).1 h')
  simp [generator, Kalman.filter, this, appendAll]

/-- If a step raises, the exception reaches the caller of `filter`, and the generator has yielded exactly the filtered
states of the observations before that step. -/
theorem step_exception_propagates (prior : Prior T S D) (prob : Problem T Y S) (prev : Option (T → Res S))
    (h1 : prob.observations.length = prob.locations.length) (h2 : prob.models.length = prob.locations.length)
    (hpw : prob.locations.Pairwise (· < ·)) (e : PyErr) (h : filter prior prob prev = .error e) :
    ∃ k, k < prob.locations.length ∧ (generator prior prob prev).1.length = k ∧
      (generator prior prob prev).1.map Filtered.loc = prob.locations.take k ∧
      IsFiltered prior prev (prob.locations.take k) (prob.observations.take k) (prob.models.take k)
        ((generator prior prob prev).1.map Filtered.state) ∧
      ∃ tOld t sOld y mm, (prior.initarg :: prob.locations)[k]? = some tOld ∧ prob.locations[k]? = some t ∧
        (prior.initrv :: (generator prior prob prev).1.map Filtered.state)[k]? = some sOld ∧
        prob.observations[k]? = some y ∧ prob.models[k]? = some mm ∧
        (predict prior prev tOld t sOld = .error e ∨
          ∃ s', Predicts prior prev tOld t sOld s' ∧ update prev t y mm s' = .error e) := by
  have hloc := triples_map_fst prob h1 h2
  have hlen : prob.triples.length = prob.locations.length := by rw [← hloc, List.length_map]
  have hinc := (increasing_iff _).2 hpw
  obtain ⟨a, b, c, d⟩ := loop_states prior prev prob.triples prior.initarg prior.initrv
  have happ : appendAll Post.init (loop prior prev prior.initarg prior.initrv prob.triples).1
      = .ok ⟨(loop prior prev prior.initarg prior.initrv prob.triples).1.map Filtered.loc,
          (loop prior prev prior.initarg prior.initrv prob.triples).1.map Filtered.state, false⟩ := by
    rw [appendAll_ok _ Post.init rfl]
    · simp [Post.init]
    · simp only [Post.init, List.nil_append]
      rw [b, List.map_take, hloc]
      exact hpw.sublist (List.take_sublist _ _)
  have hg : generator prior prob prev = loop prior prev prior.initarg prior.initrv prob.triples := by
    simp [generator, hinc]
  simp only [Kalman.filter, hg, happ] at h
  rw [hg]
  set r := loop prior prev prior.initarg prior.initrv prob.triples with hr
  cases hr2 : r.2 with
  | ok u => rw [hr2] at h; simp at h
  | error e' =>
    rw [hr2] at h
    injection h with h
    subst h
    obtain ⟨tOld, sOld, x, e1, e2, e3, e4⟩ := d _ hr2
    obtain ⟨f1, f2, f3⟩ := (triples_getElem? prob _ x.1 x.2.1 x.2.2).1 e3
    have hk : r.1.length < prob.locations.length := (List.getElem?_eq_some_iff.1 f1).1
    have htake : prob.triples.take r.1.length
        = (⟨prob.locations.take r.1.length, prob.observations.take r.1.length, prob.models.take r.1.length⟩
            : Problem T Y S).triples := by
      simp [Problem.triples, List.zip, List.take_zipWith]
    refine ⟨r.1.length, hk, rfl, ?_, ?_, tOld, x.1, sOld, x.2.1, x.2.2, ?_, f1, e2, f2, f3, e4⟩
    · rw [b, List.map_take, hloc]
    · rw [htake] at a
      exact (run_isFiltered prior prev ⟨_, _, _⟩ (by simp [h1]) (by simp [h2]) _).1 a
    · rw [← hloc]; exact e1

/-- After the first observation there is always a prediction, over the positive gap to the previous location. -/
theorem later_observations_are_predicted [IsOrderedAddMonoid T] (prior : Prior T S D) (prob : Problem T Y S)
    (prev : Option (T → Res S)) (hpw : prob.locations.Pairwise (· < ·)) (i : ℕ) (tOld t : T) (s s' : S)
    (e1 : prob.locations[i]? = some tOld) (e2 : prob.locations[i + 1]? = some t) :
    Predicts prior prev tOld t s s' ↔
      0 < t - tOld ∧ ∃ lin, linAt prev tOld = .ok lin ∧ prior.forward s t (t - tOld) lin = .ok s' := by
  have h : tOld < t := by
    obtain ⟨h1, h1'⟩ := List.getElem?_eq_some_iff.1 e1
    obtain ⟨h2, h2'⟩ := List.getElem?_eq_some_iff.1 e2
    rw [← h1', ← h2']
    exact List.pairwise_iff_getElem.1 hpw i (i + 1) h1 h2 (by omega)
  have h' : 0 < t - tOld := sub_pos.2 h
  simp [Predicts, h']

/-- A concrete run: integers, `forward` adds the gap, updates add the observation; three observations, the first at
the initial time. -/
def demoPrior : Prior ℤ ℤ Unit :=
  { initarg := 0, initrv := 100, forward := fun s _ dt _ => .ok (s + dt),
    backward := fun a b _ _ _ _ => .ok (a - b), one := () }

def demoProblem : Problem ℤ ℤ ℤ := ⟨[0, 2, 5], [1, 10, 1000], List.replicate 3 fun y s _ => .ok (s + y)⟩

example : filter demoPrior demoProblem none = .ok ⟨[0, 2, 5], [101, 113, 1116], false⟩ := by decide +kernel

/-- Violation: a first location before the initial time is accepted, and the initial random variable is used there
without any prediction. -/
theorem first_location_before_start_not_predicted [IsOrderedAddMonoid T] (prior : Prior T S D) (t : T)
    (h : t < prior.initarg) (y : Y) (mm : MeasModel Y S) (s : S) (hs : mm y prior.initrv none = .ok s) :
    filter prior ⟨[t], [y], [mm]⟩ none = .ok ⟨[t], [s], false⟩ := by
  have h' : ¬ 0 < t - prior.initarg := not_lt.2 (sub_nonpos.2 h.le)
  simp [Kalman.filter, generator, increasing, Problem.triples, loop, predict, update, h', hs, appendAll, Post.append,
    Post.init, bind, Except.bind, pure, Except.pure]

/-- A deterministic prior with drift `2t`: the exact flow over `[t, t + dt]` adds `(t + dt)² - t²`. -/
def squarePrior : Prior ℤ ℤ Unit :=
  { initarg := 0, initrv := 0, forward := fun s t dt _ => .ok (s + ((t + dt) ^ 2 - t ^ 2)),
    backward := fun a _ _ _ _ _ => .ok a, one := () }

/-- Violation: `forward_rv` is called with the end of the gap as starting time, so for time-dependent dynamics the
prediction is over `[t, 2t - t_old]` instead of `[t_old, t]`.  With drift `2t` from 0 and one uninformative
observation at 1 the filtered state is 3; the exact state is 1. -/
theorem prediction_over_shifted_interval :
    filter squarePrior ⟨[1], [()], [fun _ s _ => .ok s]⟩ none = .ok ⟨[1], [3], false⟩ ∧
    squarePrior.forward 0 0 1 none = .ok 1 := by decide +kernel

/-! ## C15 -/

/-- Specification: `smoothed` are the smoothed states for the filtered `states`: same number, the same last state,
and state `i` comes from filtered state `i` by conditioning on smoothed state `i + 1` over the gap between their
locations, with the diffusion of that interval. -/
def IsSmoothed (prior : Prior T S D) (prev : Option (T → Res S)) (states : List S) (locs : List T) (ds : List D)
    (smoothed : List S) : Prop :=
  smoothed.length = states.length ∧ smoothed.getLast? = states.getLast? ∧
  ∀ (i : ℕ) (rv s s' : S) (t t' : T) (d : D), states[i]? = some rv → smoothed[i]? = some s → smoothed[i + 1]? = some s' → locs[i]? = some t →
    locs[i + 1]? = some t' → ds[i]? = some d →
    ∃ lin, linAt prev t = .ok lin ∧ prior.backward s' rv t (t' - t) d lin = .ok s

/-- Chain of backward steps in descending order. -/
inductive Back (prior : Prior T S D) (prev : Option (T → Res S)) : S → T → List (S × T × D) → List S → Prop
  | nil (s t) : Back prior prev s t [] []
  | cons {curr t rv t' d rest lin curr' ss} : linAt prev t' = .ok lin →
      prior.backward curr rv t' (t - t') d lin = .ok curr' → Back prior prev curr' t' rest ss →
      Back prior prev curr t ((rv, t', d) :: rest) (curr' :: ss)

theorem smoothFrom_iff (prior : Prior T S D) (prev : Option (T → Res S)) (l : List (S × T × D)) :
    ∀ (s : S) (t : T) (ss : List S), smoothFrom prior prev s t l = .ok ss ↔ Back prior prev s t l ss := by
  induction l with
  | nil =>
    intro s t ss
    constructor
    · intro h; simp only [smoothFrom] at h; injection h with h; subst h; exact Back.nil _ _
    · intro h; cases h; rfl
  | cons x l ih =>
    intro s t ss
    obtain ⟨rv, t', d⟩ := x
    have hsf : smoothFrom prior prev s t ((rv, t', d) :: l) = (linAt prev t').bind fun lin =>
        (prior.backward s rv t' (t - t') d lin).bind fun curr' =>
          (smoothFrom prior prev curr' t' l).bind fun more => .ok (curr' :: more) := by
      cases prev <;> rfl
    rw [hsf]
    constructor
    · intro h
      cases h1 : linAt prev t' with
      | error e => rw [h1] at h; simp [Except.bind] at h
      | ok lin =>
        rw [h1] at h
        simp only [Except.bind] at h
        cases h2 : prior.backward s rv t' (t - t') d lin with
        | error e => rw [h2] at h; simp at h
        | ok c =>
          rw [h2] at h
          simp only at h
          cases h3 : smoothFrom prior prev c t' l with
          | error e => rw [h3] at h; simp at h
          | ok more =>
            rw [h3] at h
            simp only at h
            injection h with h
            subst h
            exact Back.cons h1 h2 ((ih _ _ _).1 h3)
    · intro h
      cases h with
      | cons h1 h2 h3 => simp [h1, h2, (ih _ _ _).2 h3, bind, Except.bind]

theorem back_iff (prior : Prior T S D) (prev : Option (T → Res S)) (l : List (S × T × D)) :
    ∀ (s : S) (t : T) (ss : List S), Back prior prev s t l ss ↔
      ss.length = l.length ∧ ∀ (i : ℕ) (rv : S) (t' : T) (d : D) (curr : S) (tc : T) (curr' : S), l[i]? = some (rv, t', d) → (s :: ss)[i]? = some curr →
        (t :: l.map fun x => x.2.1)[i]? = some tc → ss[i]? = some curr' →
        ∃ lin, linAt prev t' = .ok lin ∧ prior.backward curr rv t' (tc - t') d lin = .ok curr' := by
  induction l with
  | nil =>
    intro s t ss
    constructor
    · intro h; cases h; simp
    · rintro ⟨h, -⟩
      have : ss = [] := List.length_eq_zero_iff.1 h
      subst this; exact Back.nil _ _
  | cons x l ih =>
    intro s t ss
    obtain ⟨rv, t', d⟩ := x
    constructor
    · intro h
      cases h with
      | cons h1 h2 h3 =>
        obtain ⟨hl, hr⟩ := (ih _ _ _).1 h3
        refine ⟨by simp [hl], ?_⟩
        intro i rv0 t0 d0 curr tc curr' e1 e2 e3 e4
        cases i with
        | zero =>
          simp only [List.getElem?_cons_zero, Option.some.injEq, Prod.mk.injEq] at e1 e2 e3 e4
          obtain ⟨rfl, rfl, rfl⟩ := e1
          subst e2 e3 e4
          exact ⟨_, h1, h2⟩
        | succ i =>
          simp only [List.getElem?_cons_succ, List.map_cons] at e1 e2 e3 e4
          exact hr i _ _ _ _ _ _ e1 e2 e3 e4
    · rintro ⟨hl, hr⟩
      cases ss with
      | nil => simp at hl
      | cons c ss =>
        obtain ⟨lin, h1, h2⟩ := hr 0 rv t' d s t c rfl rfl rfl rfl
        refine Back.cons h1 h2 ((ih c t' ss).2 ⟨by simpa using hl, ?_⟩)
        intro i rv0 t0 d0 curr tc curr' e1 e2 e3 e4
        exact hr (i + 1) rv0 t0 d0 curr tc curr' (by simpa using e1) (by simpa using e2) (by simpa using e3)
          (by simpa using e4)

/-- **C15.**  `smooth_list` returns `out` exactly when `out` are the smoothed states of the specification; in
particular nothing else can be returned and an exception is raised exactly when a backward step raises. -/
theorem smooth_list_exact (prior : Prior T S D) (prev : Option (T → Res S)) (states : List S) (locs : List T)
    (ds : List D) (hs : states ≠ []) (h1 : locs.length = states.length) (h2 : ds.length + 1 = states.length)
    (out : List S) :
    smoothList prior prev states locs ds = .ok out ↔ IsSmoothed prior prev states locs ds out := by
  obtain ⟨init, last, rfl⟩ : ∃ init last, states = init ++ [last] :=
    ⟨states.dropLast, states.getLast hs, (List.dropLast_append_getLast hs).symm⟩
  have hlne : locs ≠ [] := by intro h; simp [h] at h1
  obtain ⟨li, tl, rfl⟩ : ∃ init last, locs = init ++ [last] :=
    ⟨locs.dropLast, locs.getLast hlne, (List.dropLast_append_getLast hlne).symm⟩
  have hli : li.length = init.length := by simpa using h1
  have hds : ds.length = init.length := by simpa using h2
  have hz : ((init ++ [last]).zip (li ++ [tl])).reverse = (last, tl) :: (init.zip li).reverse := by
    rw [List.zip_append hli.symm]; simp
  set l : List (S × T × D) := (((init.zip li).reverse.zip ds.reverse).map fun p => (p.1.1, p.1.2, p.2)) with hl
  have hlen : l.length = init.length := by simp [hl, hli, hds]
  have hget : ∀ i, i < init.length → ∀ (rv : S) (t' : T) (d : D), l[i]? = some (rv, t', d) ↔
      init[init.length - 1 - i]? = some rv ∧ li[init.length - 1 - i]? = some t' ∧
        ds[init.length - 1 - i]? = some d := by
    intro i hi rv t' d
    rw [hl, List.getElem?_map]
    simp only [Option.map_eq_some_iff, Prod.exists, List.getElem?_zip_eq_some, Prod.mk.injEq]
    have hz' : (init.zip li).length = init.length := by simp [hli]
    constructor
    · rintro ⟨a, b, c, ⟨e1, e2⟩, rfl, rfl, rfl⟩
      rw [List.getElem?_reverse (by omega), hz', List.getElem?_zip_eq_some] at e1
      rw [List.getElem?_reverse (by omega), hds] at e2
      exact ⟨e1.1, e1.2, e2⟩
    · rintro ⟨e1, e2, e3⟩
      refine ⟨rv, t', d, ⟨?_, ?_⟩, rfl, rfl, rfl⟩
      · rw [List.getElem?_reverse (by omega), hz', List.getElem?_zip_eq_some]; exact ⟨e1, e2⟩
      · rw [List.getElem?_reverse (by omega), hds]; exact e3
  have hmap : (l.map fun x => x.2.1) = li.reverse := by
    apply List.ext_getElem?
    intro i
    by_cases hi : i < init.length
    · rw [List.getElem?_map, List.getElem?_reverse (by omega)]
      have a1 : init.length - 1 - i < init.length := by omega
      have := (hget i hi init[init.length - 1 - i] (li[init.length - 1 - i]'(by omega))
        (ds[init.length - 1 - i]'(by omega))).2
        ⟨List.getElem?_eq_getElem _, List.getElem?_eq_getElem _, List.getElem?_eq_getElem _⟩
      rw [this, show li.length - 1 - i = init.length - 1 - i by omega,
        List.getElem?_eq_getElem (by omega : init.length - 1 - i < li.length)]
      rfl
    · rw [List.getElem?_eq_none (by simp; omega), List.getElem?_eq_none (by simp; omega)]
  have hsm : smoothList prior prev (init ++ [last]) (li ++ [tl]) ds
      = (smoothFrom prior prev last tl l).bind fun o => .ok (o.reverse ++ [last]) := by
    simp only [smoothList, hz]
    rfl
  have hstep : smoothList prior prev (init ++ [last]) (li ++ [tl]) ds = .ok out ↔
      ∃ ss, Back prior prev last tl l ss ∧ out = ss.reverse ++ [last] := by
    rw [hsm]
    constructor
    · intro h
      cases hf : smoothFrom prior prev last tl l with
      | error e => rw [hf] at h; simp [Except.bind] at h
      | ok ss =>
        rw [hf] at h
        simp only [Except.bind] at h
        injection h with h
        exact ⟨ss, (smoothFrom_iff _ _ _ _ _ _).1 hf, h.symm⟩
    · rintro ⟨ss, h, rfl⟩
      rw [(smoothFrom_iff _ _ _ _ _ _).2 h]
      rfl
  rw [hstep]
  -- index correspondence between ascending and descending order
  have hrev : ∀ (ss : List S), ss.length = init.length → ∀ j, j ≤ init.length →
      (ss.reverse ++ [last])[j]? = (last :: ss)[init.length - j]? := by
    intro ss hss j hj
    have : ss.reverse ++ [last] = (last :: ss).reverse := by simp
    rw [this, List.getElem?_reverse (by simp; omega)]
    congr 1
    simp [hss]
  have htl : ∀ j, j ≤ init.length → (li ++ [tl])[j]? = (tl :: l.map fun x => x.2.1)[init.length - j]? := by
    intro j hj
    rw [hmap]
    have : li ++ [tl] = (tl :: li.reverse).reverse := by simp
    rw [this, List.getElem?_reverse (by simp; omega)]
    congr 1
    simp [hli]
  constructor
  · rintro ⟨ss, hb, rfl⟩
    obtain ⟨hl1, hr⟩ := (back_iff _ _ _ _ _ _).1 hb
    rw [hlen] at hl1
    refine ⟨by simp [hl1], by simp, ?_⟩
    intro i rv s s' t t' d e1 e2 e3 e4 e5 e6
    have hi : i < init.length := by
      have := (List.getElem?_eq_some_iff.1 e6).1; omega
    have ei : init.length - 1 - (init.length - 1 - i) = i := by omega
    refine hr (init.length - 1 - i) rv t d s' t' s ((hget _ (by omega) _ _ _).2 ⟨?_, ?_, ?_⟩) ?_ ?_ ?_
    · rw [ei]; rw [List.getElem?_append_left hi] at e1; exact e1
    · rw [ei]; rw [List.getElem?_append_left (by omega)] at e4; exact e4
    · rw [ei]; exact e6
    · rw [hrev ss hl1 (i + 1) (by omega)] at e3
      rw [show init.length - 1 - i = init.length - (i + 1) by omega]; exact e3
    · rw [htl (i + 1) (by omega)] at e5
      rw [show init.length - 1 - i = init.length - (i + 1) by omega]; exact e5
    · rw [hrev ss hl1 i (by omega), show init.length - i = (init.length - 1 - i) + 1 by omega,
        List.getElem?_cons_succ] at e2
      exact e2
  · rintro ⟨hlo, hlast, hr⟩
    have hne : out ≠ [] := by intro h; simp [h] at hlo
    obtain ⟨oi, ol, rfl⟩ : ∃ init last, out = init ++ [last] :=
      ⟨out.dropLast, out.getLast hne, (List.dropLast_append_getLast hne).symm⟩
    have : ol = last := by simpa using hlast
    subst this
    have hoi : oi.reverse.length = init.length := by simpa using hlo
    refine ⟨oi.reverse, (back_iff _ _ _ _ _ _).2 ⟨by rw [hlen, hoi], ?_⟩, by simp⟩
    intro i rv t' d curr tc curr' e1 e2 e3 e4
    have hi : i < init.length := by
      have := (List.getElem?_eq_some_iff.1 e1).1; omega
    obtain ⟨g1, g2, g3⟩ := (hget i hi rv t' d).1 e1
    have hrev' := hrev oi.reverse hoi
    rw [List.reverse_reverse] at hrev'
    refine hr (init.length - 1 - i) rv curr' curr t' tc d ?_ ?_ ?_ ?_ ?_ g3
    · rw [List.getElem?_append_left (by omega)]; exact g1
    · rw [hrev' _ (by omega), show init.length - (init.length - 1 - i) = i + 1 by omega, List.getElem?_cons_succ]
      exact e4
    · rw [hrev' _ (by omega), show init.length - (init.length - 1 - i + 1) = i by omega]; exact e2
    · rw [List.getElem?_append_left (by omega)]; exact g2
    · rw [htl _ (by omega), show init.length - (init.length - 1 - i + 1) = i by omega]; exact e3

/-- Smoothing an empty list raises IndexError. -/
theorem smooth_empty_raises (prior : Prior T S D) (prev : Option (T → Res S)) (locs : List T) (ds : List D) :
    smoothList prior prev ([] : List S) locs ds = .error .indexError := by
  simp [smoothList]

/-- `Kalman.smooth`: the smoothed posterior has the same locations and the smoothed states for unit diffusions. -/
theorem smooth_exact (prior : Prior T S D) (post : Post T S) (hs : post.states ≠ [])
    (hl : post.locations.length = post.states.length) (out : Post T S) :
    smooth prior post = .ok out ↔ out.locations = post.locations ∧ out.frozen = false ∧
      IsSmoothed prior none post.states post.locations (List.replicate (post.locations.length - 1) prior.one)
        out.states := by
  have hpos : 0 < post.states.length := List.length_pos_iff.2 hs
  have key := smooth_list_exact prior none post.states post.locations
    (List.replicate (post.locations.length - 1) prior.one) hs hl (by simp; omega)
  constructor
  · intro h
    unfold smooth at h
    cases hf : smoothList prior none post.states post.locations
      (List.replicate (post.locations.length - 1) prior.one) with
    | error e => rw [hf] at h; simp [bind, Except.bind] at h
    | ok ss =>
      rw [hf] at h
      simp only [bind, Except.bind] at h
      injection h with h
      subst h
      exact ⟨rfl, rfl, (key ss).1 hf⟩
  · rintro ⟨a, b, c⟩
    unfold smooth
    rw [(key _).2 c]
    cases out
    simp only at a b
    simp [bind, Except.bind, Post.init, a, b]

example : smoothList demoPrior none [1, 10, 1000] [0, 2, 5] [(), ()] = .ok [989, 990, 1000] := by decide +kernel

example : filtsmooth demoPrior demoProblem none = .ok ⟨[0, 2, 5], [902, 1003, 1116], false⟩ := by decide +kernel

end Probnum.Kalman
