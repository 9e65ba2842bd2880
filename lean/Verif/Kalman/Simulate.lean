import Mathlib.Data.List.Forall2
import Verif.Kalman.Props

/-!
# Two runs of the Kalman filter and smoother with related representations of the random variables

If the methods of one prior and its measurement models succeed with related results whenever those of another prior
do, then so do whole runs of `Kalman.filtsmooth`.
-/

namespace Probnum.Kalman

open Probnum.Posterior

variable {T S S' D Y : Type} [AddCommGroup T] [LinearOrder T] {R : S → S' → Prop}

/-- Whenever the methods of `prior'` succeed on related arguments (positive time increments, unit diffusion), so do
those of `prior`, with related results. -/
structure Simulates (R : S → S' → Prop) (prior : Prior T S D) (prior' : Prior T S' D) : Prop where
  initarg : prior.initarg = prior'.initarg
  one : prior.one = prior'.one
  init : R prior.initrv prior'.initrv
  forward : ∀ s s' t dt u', R s s' → 0 < dt → prior'.forward s' t dt none = .ok u' →
    ∃ u, prior.forward s t dt none = .ok u ∧ R u u'
  backward : ∀ o o' s s' t dt u', R o o' → R s s' → 0 < dt → prior'.backward o' s' t dt prior'.one none = .ok u' →
    ∃ u, prior.backward o s t dt prior.one none = .ok u ∧ R u u'

/-- The same for measurement models. -/
def MeasSim (R : S → S' → Prop) (m : MeasModel Y S) (m' : MeasModel Y S') : Prop :=
  ∀ y s s' u', R s s' → m' y s' none = .ok u' → ∃ u, m y s none = .ok u ∧ R u u'

theorem predict_sim {prior : Prior T S D} {prior' : Prior T S' D} (h : Simulates R prior prior') (tOld t : T) (s : S)
    (s' u' : S') (hs : R s s') (hu : predict prior' none tOld t s' = .ok u') :
    ∃ u, predict prior none tOld t s = .ok u ∧ R u u' := by
  unfold predict at hu ⊢
  by_cases hd : 0 < t - tOld
  · rw [if_pos hd] at hu ⊢
    exact h.forward s s' t (t - tOld) u' hs hd hu
  · rw [if_neg hd] at hu ⊢
    exact ⟨s, rfl, by rw [← Except.ok.inj hu]; exact hs⟩

theorem loop_sim {prior : Prior T S D} {prior' : Prior T S' D} (h : Simulates R prior prior')
    {l : List (T × Y × MeasModel Y S)} {l' : List (T × Y × MeasModel Y S')}
    (hl : List.Forall₂ (fun x x' => x.1 = x'.1 ∧ x.2.1 = x'.2.1 ∧ MeasSim R x.2.2 x'.2.2) l l') :
    ∀ (tOld : T) (s : S) (s' : S'), R s s' → (loop prior' none tOld s' l').2 = .ok () →
      (loop prior none tOld s l).2 = .ok () ∧
      List.Forall₂ (fun f f' => f.loc = f'.loc ∧ R f.state f'.state) (loop prior none tOld s l).1
        (loop prior' none tOld s' l').1 := by
  induction hl with
  | nil => intro tOld s s' hs _; exact ⟨rfl, List.Forall₂.nil⟩
  | @cons x x' l l' hx _ ih =>
    intro tOld s s' hs hok
    obtain ⟨t, y, m⟩ := x
    obtain ⟨t', y', m'⟩ := x'
    obtain ⟨rfl, rfl, hm⟩ := hx
    simp only [loop] at hok ⊢
    cases hp : predict prior' none tOld t s' with
    | error e => simp [hp] at hok
    | ok u' =>
      obtain ⟨u, hu, hR⟩ := predict_sim h tOld t s s' u' hs hp
      simp only [hp, hu] at hok ⊢
      cases hq : update none t y m' u' with
      | error e => simp [hq] at hok
      | ok w' =>
        obtain ⟨w, hw, hR'⟩ := hm y u u' w' hR hq
        have hw' : update none t y m u = .ok w := hw
        simp only [hq, hw'] at hok ⊢
        obtain ⟨h1, h2⟩ := ih t w w' hR' hok
        exact ⟨h1, List.Forall₂.cons ⟨rfl, hR'⟩ h2⟩

theorem appendAll_sim {l : List (Filtered T S)} {l' : List (Filtered T S')}
    (hl : List.Forall₂ (fun f f' => f.loc = f'.loc ∧ R f.state f'.state) l l') :
    ∀ (p : Post T S) (p' q' : Post T S'), p.locations = p'.locations → p.frozen = p'.frozen →
      List.Forall₂ R p.states p'.states → appendAll p' l' = .ok q' →
      ∃ q, appendAll p l = .ok q ∧ q.locations = q'.locations ∧ q.frozen = q'.frozen ∧
        List.Forall₂ R q.states q'.states := by
  induction hl with
  | nil =>
    intro p p' q' h1 h2 h3 h
    rw [← Except.ok.inj h]
    exact ⟨p, rfl, h1, h2, h3⟩
  | @cons f f' l l' hf _ ih =>
    intro p p' q' h1 h2 h3 h
    obtain ⟨hloc, hst⟩ := hf
    unfold appendAll at h ⊢
    unfold Post.append at h ⊢
    rw [h1, h2, hloc]
    by_cases hfr : p'.frozen = true
    · simp [hfr] at h
    · rw [if_neg hfr] at h
      rw [if_neg hfr]
      have h3' : List.Forall₂ R (p.states ++ [f.state]) (p'.states ++ [f'.state]) :=
        List.rel_append h3 (List.Forall₂.cons hst List.Forall₂.nil)
      cases hg : p'.locations.getLast? with
      | none =>
        rw [hg] at h
        simp only at h ⊢
        exact ih _ ⟨p'.locations ++ [f'.loc], p'.states ++ [f'.state], p'.frozen⟩ q' rfl rfl h3' h
      | some last =>
        rw [hg] at h
        simp only at h ⊢
        by_cases hle : f'.loc ≤ last
        · simp [hle] at h
        · simp only [if_neg hle] at h ⊢
          exact ih _ ⟨p'.locations ++ [f'.loc], p'.states ++ [f'.state], p'.frozen⟩ q' rfl rfl h3' h

theorem filter_sim {prior : Prior T S D} {prior' : Prior T S' D} (h : Simulates R prior prior')
    {prob : Problem T Y S} {prob' : Problem T Y S'} (hl : prob.locations = prob'.locations)
    (hy : prob.observations = prob'.observations) (hm : List.Forall₂ (MeasSim R) prob.models prob'.models)
    (post' : Post T S') (hok : filter prior' prob' none = .ok post') :
    ∃ post, filter prior prob none = .ok post ∧ post.locations = post'.locations ∧ post.frozen = post'.frozen ∧
      List.Forall₂ R post.states post'.states := by
  unfold filter generator at hok ⊢
  rw [hl, h.initarg]
  by_cases hinc : ¬ increasing prob'.locations = true
  · rw [if_pos hinc] at hok; simp [appendAll] at hok
  · rw [if_neg hinc] at hok
    rw [if_neg hinc]
    have htr : List.Forall₂ (fun (x : T × Y × MeasModel Y S) (x' : T × Y × MeasModel Y S') =>
        x.1 = x'.1 ∧ x.2.1 = x'.2.1 ∧ MeasSim R x.2.2 x'.2.2) prob.triples prob'.triples := by
      unfold Problem.triples
      rw [hl, hy]
      generalize prob'.locations = a
      generalize prob'.observations = b
      generalize prob.models = m at hm
      generalize prob'.models = m' at hm
      induction hm generalizing a b with
      | nil => simp
      | cons hx _ ih =>
        cases a with
        | nil => simp
        | cons a0 a =>
          cases b with
          | nil => simp
          | cons b0 b => exact List.Forall₂.cons ⟨rfl, rfl, hx⟩ (ih a b)
    have hgen : (loop prior' none prior'.initarg prior'.initrv prob'.triples).2 = .ok () := by
      cases hg : (loop prior' none prior'.initarg prior'.initrv prob'.triples).2 with
      | ok u => rfl
      | error e =>
        simp only [hg] at hok
        cases ha : appendAll Post.init (loop prior' none prior'.initarg prior'.initrv prob'.triples).1 <;>
          simp [ha] at hok
    obtain ⟨h1, h2⟩ := loop_sim h htr prior'.initarg prior.initrv prior'.initrv h.init hgen
    simp only [hgen, h1] at hok ⊢
    cases ha : appendAll Post.init (loop prior' none prior'.initarg prior'.initrv prob'.triples).1 with
    | error e => simp [ha] at hok
    | ok p' =>
      simp only [ha] at hok
      obtain ⟨p, hp, r⟩ := appendAll_sim h2 Post.init Post.init p' rfl rfl List.Forall₂.nil ha
      simp only [hp]
      rw [← Except.ok.inj hok]
      exact ⟨p, rfl, r⟩

theorem smoothFrom_sim [IsOrderedAddMonoid T] {prior : Prior T S D} {prior' : Prior T S' D}
    (h : Simulates R prior prior') {l : List (S × T × D)} {l' : List (S' × T × D)}
    (hl : List.Forall₂ (fun x x' => R x.1 x'.1 ∧ x.2.1 = x'.2.1 ∧ x.2.2 = prior.one ∧ x'.2.2 = prior'.one) l l') :
    ∀ (s : S) (s' : S') (t : T) (out' : List S'), R s s' → (t :: l'.map (·.2.1)).Pairwise (fun a b => b < a) →
      smoothFrom prior' none s' t l' = .ok out' →
      ∃ out, smoothFrom prior none s t l = .ok out ∧ List.Forall₂ R out out' := by
  induction hl with
  | nil => intro s s' t out' _ _ h; rw [← Except.ok.inj h]; exact ⟨[], rfl, List.Forall₂.nil⟩
  | @cons x x' l l' hx _ ih =>
    intro s s' t out' hs hpw hok
    obtain ⟨rv, t1, d⟩ := x
    obtain ⟨rv', t2, d'⟩ := x'
    obtain ⟨hrv, rfl, rfl, rfl⟩ := hx
    rw [List.map_cons, List.pairwise_cons] at hpw
    have hlt : t1 < t := hpw.1 _ (by simp)
    simp only [smoothFrom, bind, Except.bind, pure, Except.pure] at hok ⊢
    cases hb : prior'.backward s' rv' t1 (t - t1) prior'.one none with
    | error e => rw [hb] at hok; cases hok
    | ok c' =>
      obtain ⟨c, hc, hR⟩ := h.backward s s' rv rv' t1 (t - t1) c' hs hrv (sub_pos.2 hlt) hb
      rw [hb] at hok
      rw [hc]
      simp only at hok ⊢
      cases hm : smoothFrom prior' none c' t1 l' with
      | error e => rw [hm] at hok; cases hok
      | ok m' =>
        obtain ⟨m, hm', hR'⟩ := ih c c' t1 m' hR hpw.2 hm
        rw [hm] at hok
        rw [hm']
        simp only at hok ⊢
        rw [← Except.ok.inj hok]
        exact ⟨c :: m, rfl, List.Forall₂.cons hR hR'⟩

theorem map_snd_zip_sublist {α β : Type*} (a : List α) (b : List β) : ((a.zip b).map (·.2)).Sublist b := by
  induction a generalizing b with
  | nil => simp
  | cons x a ih =>
    cases b with
    | nil => simp
    | cons y b => simpa using ih b

theorem map_fst_zip_sublist {α β : Type*} (a : List α) (b : List β) : ((a.zip b).map (·.1)).Sublist a := by
  induction a generalizing b with
  | nil => simp
  | cons x a ih =>
    cases b with
    | nil => simp
    | cons y b => simpa using ih b

theorem forall₂_zip {α β γ : Type*} {R : α → β → Prop} {a : List α} {b : List β} (h : List.Forall₂ R a b)
    (c : List γ) : List.Forall₂ (fun x y => R x.1 y.1 ∧ x.2 = y.2) (a.zip c) (b.zip c) := by
  induction h generalizing c with
  | nil => simp
  | cons hx _ ih =>
    cases c with
    | nil => simp
    | cons c0 c => exact List.Forall₂.cons ⟨hx, rfl⟩ (ih c)

theorem forall₂_zip_replicate {α β : Type*} {R : α → β → Prop} {a : List α} {b : List β} (h : List.Forall₂ R a b)
    (n : ℕ) (x y : D) : List.Forall₂ (fun p q => R p.1 q.1 ∧ p.2 = x ∧ q.2 = y) (a.zip (List.replicate n x))
      (b.zip (List.replicate n y)) := by
  induction h generalizing n with
  | nil => simp
  | cons hx _ ih =>
    cases n with
    | zero => simp
    | succ n =>
      simp only [List.replicate_succ, List.zip_cons_cons]
      exact List.Forall₂.cons ⟨hx, rfl, rfl⟩ (ih n)

/-- A successful run of filter and smoother is simulated. -/
theorem filtsmooth_sim [IsOrderedAddMonoid T] {prior : Prior T S D} {prior' : Prior T S' D}
    (h : Simulates R prior prior') {prob : Problem T Y S} {prob' : Problem T Y S'}
    (hl : prob.locations = prob'.locations) (hy : prob.observations = prob'.observations)
    (hm : List.Forall₂ (MeasSim R) prob.models prob'.models)
    (h1 : prob'.observations.length = prob'.locations.length) (h2 : prob'.models.length = prob'.locations.length)
    (post' : Post T S') (hok : filtsmooth prior' prob' none = .ok post') :
    ∃ post, filtsmooth prior prob none = .ok post ∧ post.locations = post'.locations ∧
      List.Forall₂ R post.states post'.states := by
  unfold filtsmooth at hok ⊢
  cases hf : filter prior' prob' none with
  | error e => rw [hf] at hok; cases hok
  | ok pf' =>
    obtain ⟨pf, hpf, e1, e2, e3⟩ := filter_sim h hl hy hm pf' hf
    obtain ⟨hpw, hloc, -, -⟩ := (filter_one_state_per_observation prior' prob' none h1 h2 pf').1 hf
    rw [← hloc] at hpw
    rw [hf] at hok
    rw [hpf]
    simp only [bind, Except.bind, smooth, smoothList] at hok ⊢
    rw [e1]
    have hz := List.forall₂_reverse_iff.2 (forall₂_zip e3 pf'.locations)
    have hsub : (((pf'.states.zip pf'.locations).reverse).map (·.2)).Pairwise (fun a b => b < a) := by
      rw [List.map_reverse, List.pairwise_reverse]
      exact hpw.sublist (map_snd_zip_sublist _ _)
    generalize (pf.states.zip pf'.locations).reverse = a at hz hok ⊢
    generalize (pf'.states.zip pf'.locations).reverse = a' at hz hok hsub ⊢
    cases hz with
    | nil => cases hok
    | @cons x x' l l' hx hl' =>
      obtain ⟨s, t⟩ := x
      obtain ⟨s', t'⟩ := x'
      obtain ⟨hR, rfl⟩ := hx
      simp only [List.reverse_replicate] at hok ⊢
      have hz2 := forall₂_zip_replicate hl' (pf'.locations.length - 1) prior.one prior'.one
      cases hsm : smoothFrom prior' none s' t ((l'.zip (List.replicate (pf'.locations.length - 1) prior'.one)).map
          fun p => (p.1.1, p.1.2, p.2)) with
      | error e => rw [hsm] at hok; cases hok
      | ok out' =>
        obtain ⟨out, ho, hF⟩ := smoothFrom_sim h
          (l := (l.zip (List.replicate (pf'.locations.length - 1) prior.one)).map fun p => (p.1.1, p.1.2, p.2))
          (by
            rw [List.forall₂_map_left_iff, List.forall₂_map_right_iff]
            exact hz2.imp fun p q ⟨⟨a, b⟩, c, d⟩ => ⟨a, b, c, d⟩) s s' t out' hR
          (by
            refine hsub.sublist (List.Sublist.cons_cons t ?_)
            rw [List.map_map]
            have := (map_fst_zip_sublist l' (List.replicate (pf'.locations.length - 1) prior'.one)).map (·.2)
            rw [List.map_map] at this
            exact this) hsm
        rw [hsm] at hok
        rw [ho]
        simp only at hok ⊢
        rw [← Except.ok.inj hok]
        exact ⟨_, rfl, rfl, List.rel_append (List.forall₂_reverse_iff.2 hF) (List.Forall₂.cons hR List.Forall₂.nil)⟩

end Probnum.Kalman
