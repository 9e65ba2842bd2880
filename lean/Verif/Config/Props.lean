import Verif.Config.Lemmas

/-!
# C01: the configuration context manager

Specification vocabulary: `r.get? k` is the observable value of option `k` (`none`: not registered).
-/

namespace Probnum.Config

variable {V : Type}

/-- Keyword arguments as python admits them: names are distinct. -/
def DistinctKw (kw : List (String × V)) : Prop := (kw.map Prod.fst).Nodup

/-- All names are registered. -/
def AllRegistered (kw : List (String × V)) (r : Registry V) : Prop :=
  ∀ k ∈ kw.map Prod.fst, (r.get? k).isSome

/-- **C01 (a)**.  For registered options the body of `with config(**kw)` runs, its outcome (value or exception) is
the outcome of the whole statement, and it starts in a registry where every named option has the requested
value and every other option is unchanged. -/
theorem with_runs_body_under_requested_values (kw : List (String × V)) (body : Prog V) (r : Registry V)
    (hd : DistinctKw kw) (hk : AllRegistered kw r) :
    ∃ r₁, (∀ k v, (k, v) ∈ kw → r₁.get? k = some v) ∧
      (∀ k, k ∉ kw.map Prod.fst → r₁.get? k = r.get? k) ∧
      (exec (.withConfig kw body) r).1 = (exec body r₁).1 ∧
      (∀ k, k ∉ kw.map Prod.fst →
        (exec (.withConfig kw body) r).2.get? k = (exec body r₁).2.get? k) := by
  obtain ⟨olds, r₁, h1, h2, h3, h4, h5⟩ := enter_ok kw [] r hd hk
  refine ⟨r₁, h4, h5, ?_, ?_⟩
  · simp [exec, h1]
  · intro k hk'
    simp only [exec, h1, List.nil_append]
    exact restore_of_not_mem _ _ _ (by rw [h2]; exact hk')

/-- **C01 (b)**.  Whatever the body does and however it ends, every option named in the `with` statement has its
previous value afterwards. -/
theorem with_restores_named (kw : List (String × V)) (body : Prog V) (r : Registry V)
    (hd : DistinctKw kw) (hk : AllRegistered kw r) (k : String) (hmem : k ∈ kw.map Prod.fst) :
    (exec (.withConfig kw body) r).2.get? k = r.get? k := by
  obtain ⟨olds, r₁, h1, h2, h3, h4, h5⟩ := enter_ok kw [] r hd hk
  simp only [exec, h1, List.nil_append]
  have hm : k ∈ olds.map Prod.fst := by rw [h2]; exact hmem
  obtain ⟨⟨k', v⟩, hkv, rfl⟩ := List.mem_map.1 hm
  rw [restore_of_mem olds _ k' v (by rw [h2]; exact hd) hkv, h3 _ _ hkv]
  apply exec_isSome
  obtain ⟨⟨k'', w⟩, hw, hw'⟩ := List.mem_map.1 hmem
  simp only at hw'
  subst hw'
  rw [h4 _ _ hw]; rfl

/-- Programs that never assign or register an option directly; they may read, raise, catch and nest `with`
blocks whose names are distinct and registered in `r`. -/
def OnlyScoped (r : Registry V) : Prog V → Prop
  | .skip => True
  | .read _ => True
  | .assign _ _ => False
  | .register _ _ => False
  | .raise _ => True
  | .seq p q => OnlyScoped r p ∧ OnlyScoped r q
  | .attempt p => OnlyScoped r p
  | .withConfig kw body => DistinctKw kw ∧ AllRegistered kw r ∧ OnlyScoped r body

theorem OnlyScoped.congr {r r' : Registry V} (h : ∀ k, (r.get? k).isSome → (r'.get? k).isSome) (p : Prog V) :
    OnlyScoped r p → OnlyScoped r' p := by
  induction p with
  | seq p q ihp ihq => exact fun hp => ⟨ihp hp.1, ihq hp.2⟩
  | attempt p ih => exact ih
  | withConfig kw body ih => exact fun hp => ⟨hp.1, fun k hk => h k (hp.2.1 k hk), ih hp.2.2⟩
  | _ => exact id

/-- **C01 (c)**.  A program that changes options only through (arbitrarily nested) `with config(...)` blocks on
registered options leaves every option as it found it, also when it raises at any point. -/
theorem scoped_program_restores_everything (p : Prog V) (r : Registry V) (hp : OnlyScoped r p) (k : String) :
    (exec p r).2.get? k = r.get? k := by
  induction p generalizing r k with
  | skip => rfl
  | read k' => simp only [exec, getAttr]; cases r.get? k' <;> rfl
  | assign _ _ => exact hp.elim
  | register _ _ => exact hp.elim
  | raise e => rfl
  | seq p q ihp ihq =>
    simp only [exec]
    have h1 := ihp r hp.1
    split
    · next r' heq =>
      rw [heq] at h1
      have hq : OnlyScoped r' q := OnlyScoped.congr (fun k hk => by rw [h1]; exact hk) q hp.2
      rw [ihq r' hq, h1]
    · next r' heq => rw [heq] at h1; exact h1 k
  | attempt p ih => exact ih r hp k
  | withConfig kw body ih =>
    by_cases hmem : k ∈ kw.map Prod.fst
    · exact with_restores_named kw body r hp.1 hp.2.1 k hmem
    · obtain ⟨r₁, h1, h2, _, h4⟩ := with_runs_body_under_requested_values kw body r hp.1 hp.2.1
      rw [h4 k hmem]
      have hsome : ∀ k, (r.get? k).isSome → (r₁.get? k).isSome := by
        intro k' hk'
        by_cases hm : k' ∈ kw.map Prod.fst
        · obtain ⟨⟨k'', w⟩, hw, rfl⟩ := List.mem_map.1 hm
          rw [h1 _ _ hw]; rfl
        · rw [h2 _ hm]; exact hk'
      rw [ih r₁ (OnlyScoped.congr hsome body hp.2.2), h2 k hmem]

/-- A nested, raising and catching program that meets the hypotheses of
`scoped_program_restores_everything`. -/
example : OnlyScoped defaults
    (.seq (.attempt (.withConfig [("matrix_free", "True"), ("covariance_inversion_damping", "0")]
        (.seq (.withConfig [("matrix_free", "False")] (.raise .runtimeError)) .skip)))
      (.read "no_such_option")) := by
  refine ⟨⟨?_, ?_, ⟨?_, ?_, trivial⟩, trivial⟩, trivial⟩
  · simp [DistinctKw]
  · intro k hk; simp at hk; rcases hk with rfl | rfl <;> decide
  · simp [DistinctKw]
  · intro k hk; simp at hk; subst hk; decide

/-- **C01 (d)**.  Reading or assigning an unregistered option, and registering an existing one, raise and change
nothing. -/
theorem unregistered_access_raises (r : Registry V) (k : String) (v : V) (h : r.get? k = none) :
    getAttr r k = (.error .attributeError, r) ∧ setAttr r k v = (.error .attributeError, r) := by
  simp [getAttr, setAttr, h]

theorem register_twice_raises (r : Registry V) (k : String) (v : V) (h : (r.get? k).isSome) :
    Config.register r k v = (.error .keyError, r) := by
  obtain ⟨o, ho⟩ := Option.isSome_iff_exists.1 h
  simp [Config.register, ho]

/-- Registering a new option makes it readable with its default and touches no other option; assignments are
read back. -/
theorem register_then_get (r : Registry V) (k : String) (v : V) (h : r.get? k = none) :
    (Config.register r k v).1 = .ok () ∧
      ∀ k', (Config.register r k v).2.get? k' = if k' = k then some v else r.get? k' := by
  refine ⟨by simp [Config.register, h], fun k' => ?_⟩
  simp only [Config.register, h, get?_append]
  by_cases hk : k' = k
  · subst hk; simp [h]
  · simp [hk, Ne.symm hk]

theorem assign_then_get (r : Registry V) (k : String) (v : V) (h : (r.get? k).isSome) :
    (setAttr r k v).1 = .ok () ∧
      ∀ k', (setAttr r k v).2.get? k' = if k' = k then some v else r.get? k' := by
  obtain ⟨o, ho⟩ := Option.isSome_iff_exists.1 h
  refine ⟨by simp [setAttr, ho], fun k' => ?_⟩
  simp only [setAttr, ho, get?_set]
  by_cases hk : k' = k
  · subst hk; simp
  · simp [hk, Ne.symm hk]

/-- **C01 (e)**.  A `with` statement naming an unregistered option raises AttributeError and does not run its body:
the options named before the first unregistered one keep the *new* values.  This is the exact behaviour of the
code; see `with_unregistered_changes_options` for the violation it causes. -/
theorem with_unregistered_exact (kw₁ kw₂ : List (String × V)) (bad : String) (v : V) (body : Prog V)
    (r : Registry V) (hd : DistinctKw kw₁) (hk : AllRegistered kw₁ r) (hbad : r.get? bad = none) :
    (exec (.withConfig (kw₁ ++ (bad, v) :: kw₂) body) r).1 = .error .attributeError ∧
      (∀ k w, (k, w) ∈ kw₁ → (exec (.withConfig (kw₁ ++ (bad, v) :: kw₂) body) r).2.get? k = some w) ∧
      (∀ k, k ∉ kw₁.map Prod.fst →
        (exec (.withConfig (kw₁ ++ (bad, v) :: kw₂) body) r).2.get? k = r.get? k) := by
  have key : ∀ (kw₁ old : List (String × V)) (r : Registry V), DistinctKw kw₁ → AllRegistered kw₁ r →
      r.get? bad = none → ∃ r', enter (kw₁ ++ (bad, v) :: kw₂) old r = (.error .attributeError, r') ∧
        (enter kw₁ old r).2 = r' := by
    intro kw₁
    induction kw₁ with
    | nil => intro old r _ _ hb; exact ⟨r, by simp [enter, hb], rfl⟩
    | cons a kw₁ ih =>
      intro old r hd hk hb
      obtain ⟨k, w⟩ := a
      obtain ⟨o, ho⟩ := Option.isSome_iff_exists.1 (hk k (by simp))
      obtain ⟨r', h1, h2⟩ := ih (old ++ [(k, o)]) (r.set k w) (List.nodup_cons.1 hd).2
        (fun k' hk' => by rw [isSome_set]; exact hk k' (by simp only [List.map_cons, List.mem_cons]; exact Or.inr hk'))
        (by
          rw [get?_set]
          by_cases hkb : k = bad
          · subst hkb; rw [ho] at hb; cases hb
          · simp [hkb, hb])
      exact ⟨r', by simp [enter, ho, h1], by simp [enter, ho, h2]⟩
  obtain ⟨r', h1, h2⟩ := key kw₁ [] r hd hk hbad
  obtain ⟨olds, r₁, g1, g2, g3, g4, g5⟩ := enter_ok kw₁ [] r hd hk
  have hr : r₁ = r' := by rw [← h2, g1]
  subst hr
  simp only [exec, h1]
  exact ⟨trivial, g4, g5⟩

/-- **C01, violated part**: `with config(matrix_free=True, bogus=1): ...` raises AttributeError and leaves
`matrix_free` changed for the rest of the session. -/
theorem with_unregistered_changes_options :
    (exec (.withConfig [("matrix_free", "True"), ("bogus", "1")] .skip) defaults).1
        = .error .attributeError ∧
      (exec (.withConfig [("matrix_free", "True"), ("bogus", "1")] .skip) defaults).2.get? "matrix_free"
        = some "True" ∧
      defaults.get? "matrix_free" = some "False" := by
  refine ⟨by rfl, by rfl, by rfl⟩

/-- **C01 (f)**, partial: when the *first* name is unregistered nothing changes. -/
theorem with_first_unregistered_unchanged_partial (kw : List (String × V)) (bad : String) (v : V)
    (body : Prog V) (r : Registry V) (hbad : r.get? bad = none) :
    exec (.withConfig ((bad, v) :: kw) body) r = (.error .attributeError, r) := by
  simp [exec, enter, hbad]

example : DistinctKw [("matrix_free", "True")] ∧ AllRegistered [("matrix_free", "True")] defaults ∧
    defaults.get? "bogus" = none := by
  refine ⟨by simp [DistinctKw], ?_, by decide⟩
  intro k hk; simp at hk; subst hk; decide

end Probnum.Config
