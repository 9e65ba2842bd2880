import Mathlib.Tactic.Positivity
import Mathlib.Tactic.NormNum
import Mathlib.Algebra.Order.Archimedean.Basic
import Mathlib.Analysis.SpecificLimits.Basic
import Verif.Ode.StepRule
import Verif.Ode.Lemmas

/-!
# C05: adaptive step-size selection, and termination of the solver loop
-/

namespace Probnum.Ode

namespace AdaptiveSteps

/-- Parameters as documented: `0 < small ≤ large`, `0 < safetyscale`, `0 < minstep`. -/
structure Sane (r : AdaptiveSteps) : Prop where
  small_pos : 0 < r.small
  small_le_large : r.small ≤ r.large
  safety_pos : 0 < r.safetyscale
  minstep_pos : 0 < r.minstep

theorem default_sane : default.Sane := by
  refine ⟨?_, ?_, ?_, ?_⟩ <;> norm_num [default]

theorem rawStep_bounds (r : AdaptiveSteps) (hr : r.Sane) (last err : ℝ) (rate : ℕ) (hl : 0 ≤ last) :
    r.small * last ≤ r.rawStep last err rate ∧ r.rawStep last err rate ≤ r.large * last := by
  have h := mul_le_mul_of_nonneg_right hr.small_le_large hl
  unfold rawStep
  split_ifs with h1 h2 h3
  · exact ⟨h, le_rfl⟩
  · exact ⟨le_rfl, h⟩
  · exact ⟨h, le_rfl⟩
  · exact ⟨mul_le_mul_of_nonneg_right (not_lt.1 h2) hl, mul_le_mul_of_nonneg_right (not_lt.1 h3) hl⟩

theorem suggest_ok_iff (r : AdaptiveSteps) (last err : ℝ) (rate : ℕ) (h : ℝ) :
    r.suggest last err rate = .ok h ↔
      h = r.rawStep last err rate ∧ r.minstep ≤ h ∧ h ≤ r.maxstep := by
  unfold suggest
  split_ifs with h1 h2
  · simp only [reduceCtorEq, false_iff]
    rintro ⟨rfl, h3, _⟩; exact absurd h1 (not_lt.2 h3)
  · simp only [reduceCtorEq, false_iff]
    rintro ⟨rfl, _, h3⟩; exact absurd h2 (not_lt.2 h3)
  · simp only [Except.ok.injEq]
    constructor
    · rintro rfl; exact ⟨rfl, not_lt.1 h1, not_lt.1 h2⟩
    · rintro ⟨rfl, _⟩; rfl

/-- **C05 (a).**  A suggested step lies between `limitchange[0] * laststep` and `limitchange[1] * laststep` and in
`[minstep, maxstep]`; the only other outcome is RuntimeError. -/
theorem suggest_within_limits (r : AdaptiveSteps) (hr : r.Sane) (last err : ℝ) (rate : ℕ) (hl : 0 < last) :
    (∃ h, r.suggest last err rate = .ok h ∧ r.small * last ≤ h ∧ h ≤ r.large * last ∧
      r.minstep ≤ h ∧ h ≤ r.maxstep) ∨ r.suggest last err rate = .error .runtimeError := by
  cases hs : r.suggest last err rate with
  | ok h =>
    left
    obtain ⟨h1, h2, h3⟩ := (r.suggest_ok_iff last err rate h).1 hs
    have := r.rawStep_bounds hr last err rate hl.le
    rw [← h1] at this
    exact ⟨h, rfl, this.1, this.2, h2, h3⟩
  | error e =>
    right
    unfold suggest at hs
    split_ifs at hs <;> cases hs <;> rfl

/-- When the whole range `[small * last, large * last]` lies inside `[minstep, maxstep]` no error is raised. -/
theorem suggest_total_inside (r : AdaptiveSteps) (hr : r.Sane) (last err : ℝ) (rate : ℕ) (hl : 0 < last)
    (h1 : r.minstep ≤ r.small * last) (h2 : r.large * last ≤ r.maxstep) :
    ∃ h, r.suggest last err rate = .ok h := by
  have := r.rawStep_bounds hr last err rate hl.le
  exact ⟨_, (r.suggest_ok_iff _ _ _ _).2 ⟨rfl, h1.trans this.1, this.2.trans h2⟩⟩

theorem change_antitone (r : AdaptiveSteps) (hr : r.Sane) (e₁ e₂ : ℝ) (rate : ℕ) (h0 : 0 < e₁) (h : e₁ ≤ e₂) :
    r.change e₂ rate ≤ r.change e₁ rate := by
  unfold change
  apply mul_le_mul_of_nonneg_left _ hr.safety_pos.le
  apply Real.rpow_le_rpow
  · have := h0.trans_le h; positivity
  · exact one_div_le_one_div_of_le h0 h
  · positivity

theorem rawStep_antitone (r : AdaptiveSteps) (hr : r.Sane) (last e₁ e₂ : ℝ) (rate : ℕ) (hl : 0 ≤ last)
    (h0 : 0 ≤ e₁) (h : e₁ ≤ e₂) : r.rawStep last e₂ rate ≤ r.rawStep last e₁ rate := by
  rcases h0.eq_or_lt with h0 | h0
  · have : r.rawStep last e₁ rate = r.large * last := by simp [rawStep, h0.symm]
    rw [this]
    exact (r.rawStep_bounds hr last e₂ rate hl).2
  · have hc := r.change_antitone hr e₁ e₂ rate h0 h
    have hb₁ := r.rawStep_bounds hr last e₁ rate hl
    have hb₂ := r.rawStep_bounds hr last e₂ rate hl
    have ne₁ : e₁ ≠ 0 := h0.ne'
    have ne₂ : e₂ ≠ 0 := (h0.trans_le h).ne'
    by_cases hs : r.change e₂ rate < r.small
    · have : r.rawStep last e₂ rate = r.small * last := by simp [rawStep, ne₂, hs]
      rw [this]; exact hb₁.1
    · by_cases hL : r.large < r.change e₁ rate
      · have hns : ¬ r.change e₁ rate < r.small := not_lt.2 (hr.small_le_large.trans hL.le)
        have : r.rawStep last e₁ rate = r.large * last := by simp [rawStep, ne₁, hL, hns]
        rw [this]; exact hb₂.2
      · have hL₂ : ¬ r.large < r.change e₂ rate := not_lt.2 (hc.trans (not_lt.1 hL))
        have hs₁ : ¬ r.change e₁ rate < r.small := not_lt.2 ((not_lt.1 hs).trans hc)
        have e1 : r.rawStep last e₁ rate = r.change e₁ rate * last := by simp [rawStep, ne₁, hL, hs₁]
        have e2 : r.rawStep last e₂ rate = r.change e₂ rate * last := by simp [rawStep, ne₂, hL₂, hs]
        rw [e1, e2]
        exact mul_le_mul_of_nonneg_right hc hl

/-- **C05 (b).**  The suggestion is non-increasing in the scaled error. -/
theorem suggest_antitone (r : AdaptiveSteps) (hr : r.Sane) (last e₁ e₂ : ℝ) (rate : ℕ) (hl : 0 < last)
    (h0 : 0 ≤ e₁) (h : e₁ ≤ e₂) (h₁ h₂ : ℝ) (s₁ : r.suggest last e₁ rate = .ok h₁)
    (s₂ : r.suggest last e₂ rate = .ok h₂) : h₂ ≤ h₁ := by
  rw [suggest_ok_iff] at s₁ s₂
  rw [s₁.1, s₂.1]
  exact r.rawStep_antitone hr last e₁ e₂ rate hl.le h0 h

theorem rawStep_rejected (r : AdaptiveSteps) (hr : r.Sane) (last err : ℝ) (rate : ℕ) (hl : 0 ≤ last)
    (he : 1 ≤ err) (hsl : r.safetyscale ≤ r.large) :
    r.rawStep last err rate ≤ max r.small r.safetyscale * last := by
  have hc : r.change err rate ≤ r.safetyscale := by
    unfold change
    have h1 : (1 / err : ℝ) ^ (1 / (rate : ℝ)) ≤ 1 := by
      apply Real.rpow_le_one
      · positivity
      · rw [div_le_one (by linarith)]; exact he
      · positivity
    nlinarith [hr.safety_pos]
  have hne : err ≠ 0 := by linarith
  unfold rawStep
  simp only [hne, if_false]
  split_ifs with h1 h2
  · exact mul_le_mul_of_nonneg_right (le_max_left _ _) hl
  · exact absurd (h2.trans_le hc) (not_lt.2 hsl)
  · exact mul_le_mul_of_nonneg_right (hc.trans (le_max_right _ _)) hl

/-- **C05 (c).**  After a rejection (scaled error at least one) the proposal is strictly smaller, by at least the
factor `max limitchange[0] safetyscale < 1`. -/
theorem suggest_shrinks_on_rejection (r : AdaptiveSteps) (hr : r.Sane) (last err : ℝ) (rate : ℕ) (hl : 0 < last)
    (he : isAccepted err = false) (hs : r.safetyscale < 1) (hsm : r.small < 1) (hla : r.safetyscale ≤ r.large)
    (h : ℝ) (hsug : r.suggest last err rate = .ok h) :
    h ≤ max r.small r.safetyscale * last ∧ h < last := by
  have he' : 1 ≤ err := by simpa [isAccepted] using he
  rw [suggest_ok_iff] at hsug
  have := r.rawStep_rejected hr last err rate hl.le he' hla
  rw [← hsug.1] at this
  refine ⟨this, this.trans_lt ?_⟩
  have hm : max r.small r.safetyscale < 1 := max_lt hsm hs
  nlinarith

example : default.Sane ∧ default.safetyscale < 1 ∧ default.small < 1 ∧ default.safetyscale ≤ default.large ∧
    isAccepted 2 = false := by
  refine ⟨default_sane, ?_, ?_, ?_, ?_⟩ <;> norm_num [default, isAccepted]

end AdaptiveSteps

/-- Acceptance in terms of the error estimate: the weighted root mean square is below one. -/
theorem accepted_iff_weighted_rms {d : ℕ} (hd : 0 < d) (atol rtol : ℝ) (errorest ref : Fin d → ℝ) :
    AdaptiveSteps.isAccepted (errorestToNorm atol rtol errorest ref) = true ↔
      ∑ i, (errorest i / (atol + rtol * ref i)) ^ 2 < d := by
  have hd' : (0 : ℝ) < d := by exact_mod_cast hd
  simp only [AdaptiveSteps.isAccepted, decide_eq_true_eq]
  unfold errorestToNorm
  rw [div_lt_one (Real.sqrt_pos.2 hd'), Real.sqrt_lt_sqrt_iff]
  exact Finset.sum_nonneg fun i _ => sq_nonneg _

/-! ## Connection with the loop -/

section Loop

variable {σ : Type}

/-- The adaptive rule satisfies the side conditions of the time-grid theorems (C03, C04). -/
theorem adaptive_positive (env : Env σ ℝ ℝ) (r : AdaptiveSteps) (order : ℕ) (hr : r.Sane)
    (hu : UsesAdaptive env r order) (dt n h : ℝ) (hs : env.suggest dt n = .ok h) : 0 < h := by
  rw [hu.suggest, AdaptiveSteps.suggest_ok_iff] at hs
  exact hr.minstep_pos.trans_le hs.2.1

theorem adaptive_rejectShrinks (env : Env σ ℝ ℝ) (r : AdaptiveSteps) (order : ℕ) (hr : r.Sane)
    (hu : UsesAdaptive env r order) (hs : r.safetyscale < 1) (hsm : r.small < 1) (hla : r.safetyscale ≤ r.large) :
    RejectShrinks env := by
  intro dt n h hacc hsug
  have hpos := adaptive_positive env r order hr hu dt n h hsug
  rw [hu.suggest] at hsug
  rw [hu.accepted] at hacc
  rcases lt_or_ge 0 dt with hdt | hdt
  · exact (r.suggest_shrinks_on_rejection hr dt n _ hdt hacc hs hsm hla h hsug).2.le
  · -- a nonpositive step cannot yield a positive suggestion
    exfalso
    rw [AdaptiveSteps.suggest_ok_iff] at hsug
    have he : (1 : ℝ) ≤ n := by simpa [AdaptiveSteps.isAccepted] using hacc
    have hfac : ∃ c, 0 ≤ c ∧ r.rawStep dt n (order + 1) = c * dt := by
      unfold AdaptiveSteps.rawStep
      have h1 : 0 ≤ r.change n (order + 1) := by
        unfold AdaptiveSteps.change
        have : (0 : ℝ) ≤ (1 / n) ^ (1 / ((order + 1 : ℕ) : ℝ)) := Real.rpow_nonneg (by positivity) _
        exact mul_nonneg hr.safety_pos.le this
      split_ifs
      · exact ⟨_, hr.small_pos.le.trans hr.small_le_large, rfl⟩
      · exact ⟨_, hr.small_pos.le, rfl⟩
      · exact ⟨_, hr.small_pos.le.trans hr.small_le_large, rfl⟩
      · exact ⟨_, h1, rfl⟩
    obtain ⟨c, hc, hcd⟩ := hfac
    rw [hsug.1, hcd] at hpos
    nlinarith

/-- A retry is an attempt after a rejection; its effect on the step size. -/
private theorem retry_step (env : Env σ ℝ ℝ) (c : Config σ ℝ) (h1 : c.status = .retry)
    (h2 : (step env c).status = .retry) :
    ∃ n h, env.accepted n = false ∧ env.suggest c.dt n = .ok h ∧ (step env c).dt ≤ h := by
  have hs : step env c = tryStep env c := by simp [step, h1]
  rw [hs] at h2 ⊢
  refine ⟨env.norm (env.attempt c.attempts c.state c.dt), ?_⟩
  unfold tryStep at h2 ⊢
  simp only at h2 ⊢
  cases hsug : env.suggest c.dt (env.norm (env.attempt c.attempts c.state c.dt)) with
  | error e => rw [hsug] at h2; cases h2
  | ok h =>
    rw [hsug] at h2
    simp only at h2 ⊢
    by_cases hacc : env.accepted (env.norm (env.attempt c.attempts c.state c.dt)) = true
    · simp [hacc] at h2
    · have hacc' : env.accepted (env.norm (env.attempt c.attempts c.state c.dt)) = false := by simpa using hacc
      simp only [hacc', Bool.false_eq_true, if_false]
      exact ⟨h, trivial, rfl, min_le_left _ _⟩

/-- **C05 (d).**  Finitely many rejections: from every point of every execution the inner loop is left after finitely
many attempts, by an accepted step or by RuntimeError. -/
theorem finitely_many_rejections (env : Env σ ℝ ℝ) (r : AdaptiveSteps) (order : ℕ) (hr : r.Sane)
    (hu : UsesAdaptive env r order) (hs : r.safetyscale < 1) (hsm : r.small < 1) (hla : r.safetyscale ≤ r.large)
    (stopAt : Option (List ℝ)) (n : ℕ) : ∃ m, n ≤ m ∧ (run env stopAt m).status ≠ .retry := by
  by_contra hcon
  push Not at hcon
  set q := max r.small r.safetyscale with hq
  have hq0 : 0 < q := hr.small_pos.trans_le (le_max_left _ _)
  have hq1 : q < 1 := max_lt hsm hs
  have hstep : ∀ k, n ≤ k → 0 < (run env stopAt k).dt ∧
      (run env stopAt (k + 1)).dt ≤ q * (run env stopAt k).dt ∧ r.minstep ≤ q * (run env stopAt k).dt := by
    intro k hk
    have h1 := hcon k hk
    have h2 := hcon (k + 1) (by omega)
    rw [run_succ] at h2
    obtain ⟨e, h, hacc, hsug, hdt⟩ := retry_step env _ h1 h2
    have hpos := adaptive_positive env r order hr hu _ e h hsug
    have hle := adaptive_rejectShrinks env r order hr hu hs hsm hla _ e h hacc hsug
    have hdtpos : 0 < (run env stopAt k).dt := hpos.trans_le hle
    have hsug' := hsug
    rw [hu.suggest] at hsug'
    rw [hu.accepted] at hacc
    have := (r.suggest_shrinks_on_rejection hr _ e _ hdtpos hacc hs hsm hla h hsug').1
    rw [run_succ]
    exact ⟨hdtpos, hdt.trans this, ((r.suggest_ok_iff _ _ _ _).1 hsug').2.1.trans this⟩
  have hgeo : ∀ k, (run env stopAt (n + k)).dt ≤ q ^ k * (run env stopAt n).dt := by
    intro k
    induction k with
    | zero => simp
    | succ k ih =>
      calc (run env stopAt (n + (k + 1))).dt ≤ q * (run env stopAt (n + k)).dt := (hstep (n + k) (by omega)).2.1
        _ ≤ q * (q ^ k * (run env stopAt n).dt) := mul_le_mul_of_nonneg_left ih hq0.le
        _ = q ^ (k + 1) * (run env stopAt n).dt := by ring
  have hd0 := (hstep n le_rfl).1
  obtain ⟨k, hk⟩ := exists_pow_lt_of_lt_one (div_pos hr.minstep_pos hd0) hq1
  have h3 := (hstep (n + k) (by omega)).2.2
  have h4 := hgeo k
  have h5 : q ^ k * (run env stopAt n).dt < r.minstep := by
    rwa [lt_div_iff₀ hd0] at hk
  have h6 : q * (run env stopAt (n + k)).dt ≤ (run env stopAt (n + k)).dt := by
    have := (hstep (n + k) (by omega)).1
    nlinarith
  linarith

/-! ## Termination -/

/-- Number of accepted steps and progress in time, without stop locations: if the rule never suggests less than `δ`
then after `k` accepted steps the time is at least `t0 + k δ`, or the end has been reached. -/
private structure Progress (env : Env σ ℝ ℝ) (δ : ℝ) (c : Config σ ℝ) : Prop where
  stopper : c.stopper = none
  dt : env.time c.state < env.tmax → δ ≤ c.dt ∨ env.time c.state + c.dt = env.tmax
  le : env.time c.state ≤ env.tmax
  dt_le : env.time c.state + c.dt ≤ env.tmax
  prog : env.time c.state = env.tmax ∨ env.time env.start + c.numSteps * δ ≤ env.time c.state
  retry : c.status = .retry → env.time c.state < env.tmax

private theorem tryStep_progress (env : Env σ ℝ ℝ) (δ : ℝ) (hδ : 0 < δ)
    (hatt : ∀ k s dt, env.time (env.attempt k s dt) = env.time s + dt)
    (hcb : ∀ cb ∈ env.callbacks, ∀ s, env.time (cb s) = env.time s)
    (hsug : ∀ dt n h, env.suggest dt n = .ok h → δ ≤ h)
    (c : Config σ ℝ) (h : Progress env δ c) (hlt : env.time c.state < env.tmax) :
    (∃ e, (tryStep env c).status = .failed e) ∨ Progress env δ (tryStep env c) := by
  unfold tryStep
  simp only
  cases hs : env.suggest c.dt (env.norm (env.attempt c.attempts c.state c.dt)) with
  | error e => exact Or.inl ⟨e, rfl⟩
  | ok s =>
    right
    have hsδ := hsug _ _ _ hs
    simp only
    by_cases hacc : env.accepted (env.norm (env.attempt c.attempts c.state c.dt)) = true
    · simp only [hacc, if_true]
      have htp := hatt c.attempts c.state c.dt
      have htc : env.time (applyCallbacks env.callbacks (env.attempt c.attempts c.state c.dt))
          = env.time c.state + c.dt := by
        rw [time_applyCallbacks _ _ hcb, htp]
      refine ⟨h.stopper, ?_, ?_, ?_, ?_, ?_⟩
      · intro hl
        simp only [htc] at hl ⊢
        rw [htp]
        rcases le_total s (env.tmax - (env.time c.state + c.dt)) with hm | hm
        · left; rw [min_eq_left hm]; exact hsδ
        · right; rw [min_eq_right hm]; ring
      · simp only [htc]; exact h.dt_le
      · simp only [htc, htp]
        have := min_le_right s (env.tmax - (env.time c.state + c.dt))
        linarith
      · simp only [htc]
        rcases h.dt hlt with hd | hd
        · right
          rcases h.prog with hp | hp
          · exact absurd hp hlt.ne
          · push_cast; linarith
        · exact Or.inl hd
      · intro hc; cases hc
    · have hacc' : env.accepted (env.norm (env.attempt c.attempts c.state c.dt)) = false := by simpa using hacc
      simp only [hacc', Bool.false_eq_true, if_false]
      refine ⟨h.stopper, ?_, h.le, ?_, h.prog, fun _ => hlt⟩
      · intro _
        rcases le_total s (env.tmax - env.time c.state) with hm | hm
        · left; simp only; rw [min_eq_left hm]; exact hsδ
        · right; simp only; rw [min_eq_right hm]; ring
      · simp only
        have := min_le_right s (env.tmax - env.time c.state)
        linarith

private theorem step_progress (env : Env σ ℝ ℝ) (δ : ℝ) (hδ : 0 < δ)
    (hatt : ∀ k s dt, env.time (env.attempt k s dt) = env.time s + dt)
    (hcb : ∀ cb ∈ env.callbacks, ∀ s, env.time (cb s) = env.time s)
    (hsug : ∀ dt n h, env.suggest dt n = .ok h → δ ≤ h)
    (c : Config σ ℝ) (h : Progress env δ c) :
    (∃ e, (step env c).status = .failed e) ∨ (step env c).status = .done ∨ Progress env δ (step env c) := by
  unfold step
  split
  · next hs => exact Or.inr (Or.inl hs)
  · next e hs => exact Or.inl ⟨e, hs⟩
  · next hs =>
    rcases tryStep_progress env δ hδ hatt hcb hsug c h (h.retry hs) with h' | h'
    · exact Or.inl h'
    · exact Or.inr (Or.inr h')
  · next hs =>
    split
    · next hlt =>
      rw [h.stopper]
      rcases tryStep_progress env δ hδ hatt hcb hsug c h hlt with h' | h'
      · exact Or.inl h'
      · exact Or.inr (Or.inr h')
    · exact Or.inr (Or.inl rfl)

private theorem final_stays (env : Env σ ℝ ℝ) (c : Config σ ℝ)
    (h : c.status = .done ∨ ∃ e, c.status = .failed e) : step env c = c := by
  unfold step
  rcases h with h | ⟨e, h⟩ <;> simp [h]

/-- A fresh, unfinished configuration gains one accepted step as soon as the retries end. -/
private theorem numSteps_grows (env : Env σ ℝ ℝ) (stopAt : Option (List ℝ)) 
    (hrej : ∀ n, ∃ m, n ≤ m ∧ (run env stopAt m).status ≠ .retry)
    (hrun : ∀ n, (run env stopAt n).status = .fresh ∨ (run env stopAt n).status = .retry) (k : ℕ) :
    ∃ n, k ≤ (run env stopAt n).numSteps := by
  -- one machine step increases the counter iff it ends fresh
  have hinc : ∀ n, (run env stopAt (n + 1)).status = .fresh →
      (run env stopAt (n + 1)).numSteps = (run env stopAt n).numSteps + 1 := by
    intro n hf
    have htry : ∀ c : Config σ ℝ, (tryStep env c).status = .fresh →
        (tryStep env c).numSteps = c.numSteps + 1 := by
      intro c hc
      unfold tryStep at hc ⊢
      simp only at hc ⊢
      cases hs : env.suggest c.dt (env.norm (env.attempt c.attempts c.state c.dt)) with
      | error e => rw [hs] at hc; cases hc
      | ok s =>
        rw [hs] at hc
        simp only at hc ⊢
        by_cases hacc : env.accepted (env.norm (env.attempt c.attempts c.state c.dt)) = true
        · simp [hacc]
        · have hacc' : env.accepted (env.norm (env.attempt c.attempts c.state c.dt)) = false := by simpa using hacc
          simp [hacc'] at hc
    rw [run_succ] at hf ⊢
    rcases hrun n with h | h
    · unfold step at hf ⊢
      rw [h] at hf ⊢
      simp only at hf ⊢
      split at hf
      · next hlt =>
        rw [if_pos hlt]
        split at hf
        · exact htry _ hf
        · exact htry _ hf
      · cases hf
    · have : step env (run env stopAt n) = tryStep env (run env stopAt n) := by simp [step, h]
      rw [this] at hf ⊢
      exact htry _ hf
  have hmono : ∀ n, (run env stopAt n).numSteps ≤ (run env stopAt (n + 1)).numSteps := by
    intro n
    rcases hrun (n + 1) with h | h
    · rw [hinc n h]; omega
    · -- retry: counter unchanged
      have htry : ∀ c : Config σ ℝ, c.numSteps ≤ (tryStep env c).numSteps := by
        intro c
        unfold tryStep
        simp only
        split
        · exact le_rfl
        · split
          · exact Nat.le_succ _
          · exact le_rfl
      rw [run_succ]
      unfold step
      split
      · exact le_rfl
      · exact le_rfl
      · exact htry _
      · split
        · split
          · exact htry _
          · next st _ => exact htry { run env stopAt n with
              dt := (adjustTimeStep st (env.time (run env stopAt n).state) (run env stopAt n).dt).1,
              stopper := some (adjustTimeStep st (env.time (run env stopAt n).state) (run env stopAt n).dt).2 }
        · exact le_rfl
  have hmono' : ∀ n m, n ≤ m → (run env stopAt n).numSteps ≤ (run env stopAt m).numSteps := by
    intro n m h
    induction h with
    | refl => exact le_rfl
    | step _ ih => exact ih.trans (hmono _)
  induction k with
  | zero => exact ⟨0, Nat.zero_le _⟩
  | succ k ih =>
    obtain ⟨n, hn⟩ := ih
    obtain ⟨m, hm, hne⟩ := hrej (n + 1)
    have hfresh : (run env stopAt m).status = .fresh := by
      rcases hrun m with h | h
      · exact h
      · exact absurd h hne
    obtain ⟨m', rfl⟩ : ∃ m', m = m' + 1 := ⟨m - 1, by omega⟩
    refine ⟨m' + 1, ?_⟩
    rw [hinc m' hfresh]
    have := hmono' n m' (by omega)
    omega

private theorem terminates_of_progress (env : Env σ ℝ ℝ) (δ : ℝ) (hδ : 0 < δ)
    (hatt : ∀ k s dt, env.time (env.attempt k s dt) = env.time s + dt)
    (hcb : ∀ cb ∈ env.callbacks, ∀ s, env.time (cb s) = env.time s)
    (hsug : ∀ dt n h, env.suggest dt n = .ok h → δ ≤ h)
    (hfirst : δ ≤ env.firststep) (hfit : env.time env.start + env.firststep ≤ env.tmax)
    (hrej : ∀ n, ∃ m, n ≤ m ∧ (run env none m).status ≠ .retry) :
    ∃ n, (run env none n).status = .done ∨ ∃ e, (run env none n).status = .failed e := by
  by_contra hcon
  push Not at hcon
  have hrun : ∀ n, (run env none n).status = .fresh ∨ (run env none n).status = .retry := by
    intro n
    cases h : (run env none n).status with
    | fresh => exact Or.inl rfl
    | retry => exact Or.inr rfl
    | done => exact absurd h (hcon n).1
    | failed e => exact absurd h ((hcon n).2 e)
  have hprog : ∀ n, Progress env δ (run env none n) := by
    intro n
    induction n with
    | zero =>
      refine ⟨rfl, fun _ => Or.inl hfirst, ?_, hfit, Or.inr ?_, ?_⟩
      · show env.time env.start ≤ env.tmax
        linarith
      · show env.time env.start + ((0 : ℕ) : ℝ) * δ ≤ env.time env.start
        simp
      · intro h; cases h
    | succ n ih =>
      rw [run_succ]
      rcases step_progress env δ hδ hatt hcb hsug _ ih with ⟨e, h⟩ | h | h
      · exact absurd (by rw [run_succ]; exact h) ((hcon (n + 1)).2 e)
      · exact absurd (by rw [run_succ]; exact h) (hcon (n + 1)).1
      · exact h
  obtain ⟨k, hk⟩ := exists_nat_gt ((env.tmax - env.time env.start) / δ)
  obtain ⟨n, hn⟩ := numSteps_grows env none hrej hrun k
  have hp := hprog n
  have hend : env.time (run env none n).state = env.tmax := by
    rcases hp.prog with h | h
    · exact h
    · exfalso
      have h1 : (k : ℝ) ≤ (run env none n).numSteps := by exact_mod_cast hn
      rw [div_lt_iff₀ hδ] at hk
      have h2 := mul_le_mul_of_nonneg_right h1 hδ.le
      linarith [hp.le]
  have hfresh : (run env none n).status = .fresh := by
    rcases hrun n with h | h
    · exact h
    · exact absurd hend (hp.retry h).ne
  have hdone : (run env none (n + 1)).status = .done := by
    rw [run_succ]
    unfold step
    rw [hfresh]
    simp only
    rw [if_neg (by rw [hend]; exact lt_irrefl _)]
  exact (hcon (n + 1)).1 hdone

/-- **Termination, adaptive steps.**  Without stop locations every solve with sane adaptive steps ends after finitely
many attempts, regularly or with an exception, for every error history. -/
theorem adaptive_solver_terminates (env : Env σ ℝ ℝ) (r : AdaptiveSteps) (order : ℕ) (hr : r.Sane)
    (hu : UsesAdaptive env r order) (hs : r.safetyscale < 1) (hsm : r.small < 1) (hla : r.safetyscale ≤ r.large)
    (hatt : ∀ k s dt, env.time (env.attempt k s dt) = env.time s + dt)
    (hcb : ∀ cb ∈ env.callbacks, ∀ s, env.time (cb s) = env.time s)
    (hfirst : r.minstep ≤ env.firststep) (hfit : env.time env.start + env.firststep ≤ env.tmax) :
    ∃ n, (run env none n).status = .done ∨ ∃ e, (run env none n).status = .failed e := by
  refine terminates_of_progress env r.minstep hr.minstep_pos hatt hcb ?_ hfirst hfit
    (finitely_many_rejections env r order hr hu hs hsm hla none)
  intro dt n h hsug
  rw [hu.suggest, AdaptiveSteps.suggest_ok_iff] at hsug
  exact hsug.2.1

/-- **Termination, constant steps.**  Without stop locations every solve with a positive constant step ends regularly
after finitely many steps. -/
theorem constant_solver_terminates (env : Env σ ℝ ℝ) (r : ConstantSteps) (hu : UsesConstant env r)
    (hpos : 0 < r.step)
    (hatt : ∀ k s dt, env.time (env.attempt k s dt) = env.time s + dt)
    (hcb : ∀ cb ∈ env.callbacks, ∀ s, env.time (cb s) = env.time s)
    (hfit : env.time env.start + env.firststep ≤ env.tmax) :
    ∃ n, (run env none n).status = .done := by
  have hnofail : ∀ n, (run env none n).status = .fresh ∨ (run env none n).status = .done := by
    intro n
    induction n with
    | zero => exact Or.inl rfl
    | succ n ih =>
      rw [run_succ]
      have htry : ∀ c : Config σ ℝ, (tryStep env c).status = .fresh := by
        intro c; simp [tryStep, hu.suggest, hu.accepted]
      unfold step
      rcases ih with h | h <;> rw [h] <;> simp only
      · split
        · split
          · exact Or.inl (htry _)
          · exact Or.inl (htry _)
        · exact Or.inr rfl
      · exact Or.inr h
  obtain ⟨n, h | ⟨e, h⟩⟩ := terminates_of_progress env r.step hpos hatt hcb
    (fun dt n h hsug => by rw [hu.suggest] at hsug; cases hsug; exact le_rfl)
    (by rw [hu.firststep]) hfit
    (fun n => ⟨n, le_rfl, by rcases hnofail n with h | h <;> rw [h] <;> simp⟩)
  · exact ⟨n, h⟩
  · rcases hnofail n with h' | h' <;> rw [h'] at h <;> cases h

/-- An environment that meets the hypotheses of `adaptive_solver_terminates`: the default rule on [0, 1]. -/
example : ∃ env : Env ℝ ℝ ℝ, UsesAdaptive env AdaptiveSteps.default 2 ∧
    (∀ k s dt, env.time (env.attempt k s dt) = env.time s + dt) ∧
    (∀ cb ∈ env.callbacks, ∀ s, env.time (cb s) = env.time s) ∧
    AdaptiveSteps.default.minstep ≤ env.firststep ∧ env.time env.start + env.firststep ≤ env.tmax := by
  refine ⟨{ time := id, tmax := 1, start := 0, attempt := fun _ s dt => s + dt, norm := fun s => |s|,
            accepted := AdaptiveSteps.isAccepted, suggest := fun dt n => AdaptiveSteps.default.suggest dt n 3,
            firststep := 1/2, callbacks := [] }, ⟨fun _ _ => rfl, fun _ => rfl⟩, ?_, ?_, ?_, ?_⟩
  · intro k s dt; rfl
  · simp
  · norm_num [AdaptiveSteps.default]
  · norm_num

end Loop

end Probnum.Ode
