import Verif.Config.Model

namespace Probnum.Config

variable {V : Type}

theorem get?_set (r : Registry V) (k k' : String) (v : V) :
    (r.set k v).get? k' = if k = k' ∧ (r.get? k).isSome then some v else r.get? k' := by
  induction r with
  | nil => simp [Registry.set, Registry.get?]
  | cons a r ih =>
    obtain ⟨ka, va⟩ := a
    by_cases h : ka = k
    · subst h
      simp only [Registry.set, Registry.get?, if_true]
      by_cases h2 : ka = k' <;> simp [h2]
    · simp only [Registry.set, Registry.get?, if_neg h]
      by_cases h2 : ka = k'
      · subst h2
        have : ¬ k = ka := fun h' => h h'.symm
        simp [this]
      · simp [h2, ih]

theorem get?_append (r : Registry V) (k k' : String) (v : V) :
    (r ++ [(k, v)] : Registry V).get? k' = (r.get? k').or (if k = k' then some v else none) := by
  induction r with
  | nil => simp [Registry.get?]
  | cons a r ih =>
    obtain ⟨ka, va⟩ := a
    simp only [List.cons_append, Registry.get?]
    split
    · simp
    · exact ih

theorem isSome_set (r : Registry V) (k k' : String) (v : V) :
    ((r.set k v).get? k').isSome = (r.get? k').isSome := by
  rw [get?_set]
  split
  · next h => obtain ⟨rfl, h⟩ := h; simp [h]
  · rfl

/-- Effect of `restore` on a key that is not in the list. -/
theorem restore_of_not_mem (old : List (String × V)) (r : Registry V) (k : String)
    (h : k ∉ old.map Prod.fst) : (restore old r).get? k = r.get? k := by
  induction old generalizing r with
  | nil => rfl
  | cons a old ih =>
    obtain ⟨ka, va⟩ := a
    simp only [List.map_cons, List.mem_cons, not_or] at h
    simp only [restore]
    rw [ih _ h.2, get?_set]
    simp [Ne.symm h.1]

/-- Effect of `restore` on a key of the list, names distinct. -/
theorem restore_of_mem (old : List (String × V)) (r : Registry V) (k : String) (v : V)
    (hd : (old.map Prod.fst).Nodup) (h : (k, v) ∈ old) (hr : (r.get? k).isSome) :
    (restore old r).get? k = some v := by
  induction old generalizing r with
  | nil => simp at h
  | cons a old ih =>
    obtain ⟨ka, va⟩ := a
    simp only [List.map_cons, List.nodup_cons] at hd
    simp only [restore]
    rcases List.mem_cons.1 h with h | h
    · cases h
      rw [restore_of_not_mem _ _ _ hd.1, get?_set]
      simp [hr]
    · exact ih _ hd.2 h (by rw [isSome_set]; exact hr)

/-- What `enter` does when it succeeds. -/
theorem enter_ok (kw : List (String × V)) (old : List (String × V)) (r : Registry V)
    (hd : (kw.map Prod.fst).Nodup) (hk : ∀ k ∈ kw.map Prod.fst, (r.get? k).isSome) :
    ∃ olds r', enter kw old r = (.ok (old ++ olds), r') ∧
      olds.map Prod.fst = kw.map Prod.fst ∧
      (∀ k v, (k, v) ∈ olds → r.get? k = some v) ∧
      (∀ k v, (k, v) ∈ kw → r'.get? k = some v) ∧
      (∀ k, k ∉ kw.map Prod.fst → r'.get? k = r.get? k) := by
  induction kw generalizing old r with
  | nil => exact ⟨[], r, by simp [enter]⟩
  | cons a kw ih =>
    obtain ⟨k, v⟩ := a
    simp only [List.map_cons, List.nodup_cons, List.mem_cons, forall_eq_or_imp] at hd hk
    obtain ⟨o, ho⟩ := Option.isSome_iff_exists.1 hk.1
    obtain ⟨olds, r', h1, h2, h3, h4, h5⟩ := ih (old ++ [(k, o)]) (r.set k v) hd.2
      (fun k' hk' => by rw [isSome_set]; exact hk.2 k' hk')
    refine ⟨(k, o) :: olds, r', ?_, ?_, ?_, ?_, ?_⟩
    · simp only [enter, ho, h1, List.append_assoc, List.singleton_append]
    · simp [h2]
    · intro k' v' hm
      rcases List.mem_cons.1 hm with hm | hm
      · cases hm; exact ho
      · have := h3 _ _ hm
        rw [get?_set] at this
        have hne : k ≠ k' := by
          rintro rfl
          apply hd.1
          rw [← h2]
          exact List.mem_map_of_mem (f := Prod.fst) hm
        simpa [hne] using this
    · intro k' v' hm
      rcases List.mem_cons.1 hm with hm | hm
      · cases hm
        rw [h5 _ hd.1, get?_set]
        simp [ho]
      · exact h4 _ _ hm
    · intro k' hk'
      simp only [List.map_cons, List.mem_cons, not_or] at hk'
      rw [h5 _ hk'.2, get?_set]
      simp [Ne.symm hk'.1]

/-- Options are never unregistered by any program. -/
theorem exec_isSome (p : Prog V) (r : Registry V) (k : String) (h : (r.get? k).isSome) :
    ((exec p r).2.get? k).isSome := by
  have henter : ∀ (kw old : List (String × V)) (r : Registry V), (r.get? k).isSome →
      ((enter kw old r).2.get? k).isSome := by
    intro kw
    induction kw with
    | nil => intro old r h; simpa [enter] using h
    | cons a kw ih =>
      intro old r h
      obtain ⟨ka, va⟩ := a
      simp only [enter]
      split
      · exact h
      · exact ih _ _ (by rw [isSome_set]; exact h)
  have hrestore : ∀ (old : List (String × V)) (r : Registry V), (r.get? k).isSome →
      ((restore old r).get? k).isSome := by
    intro old
    induction old with
    | nil => intro r h; simpa [restore] using h
    | cons a old ih =>
      intro r h
      obtain ⟨ka, va⟩ := a
      simp only [restore]
      exact ih _ (by rw [isSome_set]; exact h)
  induction p generalizing r with
  | skip => exact h
  | read k' =>
    simp only [exec, getAttr]
    cases r.get? k' <;> exact h
  | assign k' v' =>
    simp only [exec, setAttr]
    split
    · exact h
    · rw [isSome_set]; exact h
  | register k' v' =>
    simp only [exec, Config.register]
    split
    · exact h
    · rw [get?_append]; cases hg : r.get? k <;> simp_all
  | raise e => exact h
  | seq p q ihp ihq =>
    simp only [exec]
    have := ihp r h
    split
    · next heq => rw [heq] at this; exact ihq _ this
    · next heq => rw [heq] at this; exact this
  | attempt p ih => exact ih r h
  | withConfig kw body ih =>
    simp only [exec]
    have := henter kw [] r h
    split
    · next heq => rw [heq] at this; exact this
    · next heq => rw [heq] at this; exact hrestore _ _ (ih _ this)

end Probnum.Config
