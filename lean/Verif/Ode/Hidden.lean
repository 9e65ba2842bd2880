import Verif.Ode.Props

/-!
# Solvers whose attributes change with every attempt

The attempt of a solver may depend on attributes that earlier attempts, accepted or not, have left behind.  The machine
`runAttr` makes every attempt with the attributes read off the configuration.  Every run of it is a run of the machine of
`Verif.Ode.Model` (whose attempts may depend on their number), so that everything proved there applies.
-/

namespace Probnum.Ode

variable {σ T N : Type} [AddCommGroup T] [LinearOrder T]

/-- The loop of `_odesolver.py` 69-90 for a solver whose attempt `att c` depends on the configuration `c` before it. -/
def runAttr (env : Env σ T N) (att : Config σ T → σ → T → σ) (stopAt : Option (List T)) : ℕ → Config σ T
  | 0 => init env stopAt
  | n + 1 =>
    let c := runAttr env att stopAt n
    step { env with attempt := fun _ => att c } c

/-- The environment in which the `k`-th attempt is the one made in the run. -/
def attrEnv (env : Env σ T N) (att : Config σ T → σ → T → σ) (stopAt : Option (List T)) : Env σ T N :=
  { env with attempt := fun k => att (runAttr env att stopAt k) }

theorem tryStep_congr (env : Env σ T N) {A B : ℕ → σ → T → σ} (c : Config σ T) (h : A c.attempts = B c.attempts) :
    tryStep { env with attempt := A } c = tryStep { env with attempt := B } c := by
  unfold tryStep
  simp only [h]

theorem step_congr (env : Env σ T N) {A B : ℕ → σ → T → σ} (c : Config σ T)
    (h : c.status = .fresh ∨ c.status = .retry → A c.attempts = B c.attempts) :
    step { env with attempt := A } c = step { env with attempt := B } c := by
  unfold step
  split
  · rfl
  · rfl
  · rename_i hs
    exact tryStep_congr env c (h (.inr hs))
  · rename_i hs
    have h := h (.inl hs)
    simp only
    split
    · split
      · exact tryStep_congr env c h
      · exact tryStep_congr env _ h
    · rfl

theorem tryStep_attempts (env : Env σ T N) (c : Config σ T) : (tryStep env c).attempts = c.attempts + 1 := by
  unfold tryStep
  simp only
  split
  · rfl
  · split <;> rfl

theorem step_attempts (env : Env σ T N) (c : Config σ T)
    (h : (step env c).status = .fresh ∨ (step env c).status = .retry) :
    (c.status = .fresh ∨ c.status = .retry) ∧ (step env c).attempts = c.attempts + 1 := by
  unfold step at h ⊢
  split at h
  · rename_i hs; rw [hs] at h; simp at h
  · rename_i hs; rw [hs] at h; simp at h
  · rename_i hs
    rw [hs]
    exact ⟨.inr rfl, tryStep_attempts env c⟩
  · rename_i hs
    rw [hs]
    refine ⟨.inl rfl, ?_⟩
    simp only
    split at h
    · rename_i hlt
      rw [if_pos hlt]
      split
      · exact tryStep_attempts env c
      · exact tryStep_attempts env _
    · simp at h

theorem runAttr_attempts (env : Env σ T N) (att : Config σ T → σ → T → σ) (stopAt : Option (List T)) :
    ∀ n, (runAttr env att stopAt n).status = .fresh ∨ (runAttr env att stopAt n).status = .retry →
      (runAttr env att stopAt n).attempts = n
  | 0, _ => by
    unfold runAttr init
    split <;> rfl
  | n + 1, h => by
    unfold runAttr at h ⊢
    obtain ⟨h1, h2⟩ := step_attempts _ _ h
    rw [h2, runAttr_attempts env att stopAt n h1]

/-- Every run with attributes is a run of the machine of `Verif.Ode.Model`. -/
theorem runAttr_eq_run (env : Env σ T N) (att : Config σ T → σ → T → σ) (stopAt : Option (List T)) (n : ℕ) :
    runAttr env att stopAt n = run (attrEnv env att stopAt) stopAt n := by
  induction n with
  | zero =>
    unfold runAttr run init attrEnv
    rfl
  | succ n ih =>
    have hr : run (attrEnv env att stopAt) stopAt (n + 1)
        = step (attrEnv env att stopAt) (run (attrEnv env att stopAt) stopAt n) := by
      unfold run
      rw [Function.iterate_succ_apply']
    rw [hr, ← ih]
    show step { env with attempt := fun _ => att (runAttr env att stopAt n) } (runAttr env att stopAt n) = _
    exact step_congr env _ fun hs => by
      simp only [runAttr_attempts env att stopAt n hs]

end Probnum.Ode
