import Verif.Linalg.UnitVector
import Mathlib.Algebra.Order.BigOperators.Group.Finset
import Mathlib.Algebra.BigOperators.Field
import Mathlib.Data.Matrix.Diagonal
import Mathlib.Tactic.Ring
import Mathlib.Tactic.Positivity
import Mathlib.Tactic.FieldSimp
import Mathlib.Tactic.Linarith
import Mathlib.Tactic.FinCases
import Mathlib.Tactic.NormNum

/-!
# C62: unit-vector policies
-/

namespace Probnum.Linalg.UnitVector

open Finset

variable {n : ℕ}

/-- Weights that `rng.choice` accepts. -/
def IsProb (p : Fin n → ℝ) : Prop := (∀ i, 0 ≤ p i) ∧ ∑ i, p i = 1

private theorem cum_succ (p : Fin n → ℝ) (i : Fin n) : cum p (i + 1) = cum p i + p i := by
  unfold cum
  have : (univ.filter fun j : Fin n => j.val < i.val + 1) = insert i (univ.filter fun j : Fin n => j.val < i.val) := by
    ext j
    simp only [mem_filter, mem_univ, true_and, mem_insert, Fin.ext_iff]
    omega
  rw [this, sum_insert (by simp)]
  ring

private theorem cum_mono {p : Fin n → ℝ} (h : ∀ i, 0 ≤ p i) {a b : ℕ} (hab : a ≤ b) : cum p a ≤ cum p b := by
  unfold cum
  refine sum_le_sum_of_subset_of_nonneg ?_ fun i _ _ => h i
  intro i hi
  simp only [mem_filter, mem_univ, true_and] at hi ⊢
  omega

/-- **C62 (a), the law of the draw.**  For admissible weights and every uniform number `u ∈ [0, 1)` the draw succeeds, and it
gives index `i` exactly if `u` lies in the half-open interval between the cumulative sums, whose length is the weight of `i`. -/
theorem choice_law (p : Fin n → ℝ) (hp : IsProb p) (u : ℝ) (h0 : 0 ≤ u) (h1 : u < 1) :
    (∃ i, choice (some p) u = .ok i) ∧
    ∀ i, choice (some p) u = .ok i ↔ cum p i ≤ u ∧ u < cum p i + p i := by
  classical
  have hno : ¬ ((∃ i, p i < 0) ∨ ∑ i, p i ≠ 1) := by
    rintro (⟨i, hi⟩ | h)
    · exact absurd (hp.1 i) (not_le.2 hi)
    · exact h hp.2
  set idx := #{i : Fin n | cum p (i + 1) ≤ u} with hidx
  -- the set of indices with small cumulative sums is an initial segment
  have hseg : ∀ i : Fin n, cum p (i + 1) ≤ u ↔ i.val < idx := by
    have hfull : (n : ℕ) = n := rfl
    -- least index whose cumulative sum exceeds `u`
    have hcn : cum p n = 1 := by
      unfold cum
      rw [← hp.2]
      congr 1
      ext i; simp
    have hex : ∃ k, u < cum p (k + 1) := ⟨n, by
      have : cum p n ≤ cum p (n + 1) := cum_mono hp.1 (by omega)
      linarith⟩
    set k := Nat.find hex with hk
    have hkspec : u < cum p (k + 1) := Nat.find_spec hex
    have hmin : ∀ j < k, cum p (j + 1) ≤ u := fun j hj => not_lt.1 (Nat.find_min hex hj)
    have hiff : ∀ i : Fin n, cum p (i + 1) ≤ u ↔ i.val < k := by
      intro i
      constructor
      · intro h
        by_contra hc
        have := cum_mono hp.1 (show k + 1 ≤ i.val + 1 by omega)
        linarith
      · exact hmin i
    have hkn : k ≤ n := by
      by_contra hc
      have h2 : cum p n ≤ u := by
        rcases Nat.eq_zero_or_pos n with hn | hn
        · have : cum p n = 0 := by
            unfold cum
            subst hn
            simp
          linarith
        · have := hmin (n - 1) (by omega)
          rwa [Nat.sub_add_cancel hn] at this
      linarith
    have hcard : idx = k := by
      rw [hidx]
      have : (univ.filter fun i : Fin n => cum p (i + 1) ≤ u) = univ.filter fun i : Fin n => i.val < k := by
        ext i; simp [hiff]
      rw [this]
      rw [Fin.card_filter_val_lt]
      omega
    intro i
    rw [hiff, hcard]
  have hlt : idx < n := by
    by_contra hc
    have hle : idx ≤ n := by
      rw [hidx]
      refine (card_le_univ _).trans ?_
      simp
    have hcn : cum p n = 1 := by
      unfold cum
      rw [← hp.2]
      congr 1
      ext i; simp
    rcases Nat.eq_zero_or_pos n with hn | hn
    · subst hn
      have := hp.2
      simp at this
    · have := (hseg ⟨n - 1, by omega⟩).2 (by show n - 1 < idx; omega)
      have e : ((⟨n - 1, by omega⟩ : Fin n).val + 1) = n := by show n - 1 + 1 = n; omega
      rw [e, hcn] at this
      linarith
  have hval : choice (some p) u = .ok ⟨idx, hlt⟩ := by
    unfold choice
    dsimp only
    rw [if_neg hno]
    exact dif_pos hlt
  refine ⟨⟨_, hval⟩, fun i => ?_⟩
  rw [hval]
  constructor
  · intro h
    obtain rfl := Except.ok.inj h
    constructor
    · rcases Nat.eq_zero_or_pos idx with hz | hz
      · show cum p idx ≤ u
        rw [hz]
        have : cum p 0 = 0 := by unfold cum; simp
        rw [this]; exact h0
      · have := (hseg ⟨idx - 1, by omega⟩).2 (by show idx - 1 < idx; omega)
        have e : ((⟨idx - 1, by omega⟩ : Fin n).val + 1) = idx := by show idx - 1 + 1 = idx; omega
        rw [e] at this
        exact this
    · rw [← cum_succ]
      by_contra hc
      have := (hseg ⟨idx, hlt⟩).1 (not_lt.1 hc)
      exact lt_irrefl _ this
  · rintro ⟨ha, hb⟩
    congr 1
    refine Fin.ext ?_
    show idx = i.val
    have h2 : ¬ i.val < idx := by
      rw [← hseg, cum_succ]
      exact not_le.2 hb
    have h3 : ¬ idx < i.val := by
      intro hc
      have h4 : ¬ cum p (idx + 1) ≤ u := fun h => lt_irrefl _ ((hseg ⟨idx, hlt⟩).1 h)
      have h5 := cum_mono hp.1 (show idx + 1 ≤ i.val by omega)
      exact h4 (h5.trans ha)
    omega

/-- An index that is drawn has positive weight. -/
theorem choice_pos (p : Fin n → ℝ) (hp : IsProb p) (u : ℝ) (h0 : 0 ≤ u) (h1 : u < 1) (i : Fin n)
    (h : choice (some p) u = .ok i) : 0 < p i := by
  obtain ⟨ha, hb⟩ := ((choice_law p hp u h0 h1).2 i).1 h
  linarith

/-- **C62 (b), initial weights.**  The option `uniform` gives every index the weight `1 / n`; the option `rownorm` gives, for a
matrix with equal row and column norms (for example a symmetric one) that is not zero, index `i` the share of the squared
norm of row `i` in the sum of all of them.  Both are admissible. -/
theorem initial_weights_partial (A : Matrix (Fin n) (Fin n) ℝ) (hn : 0 < n) :
    (∃ p, initialWeights .uniform A = some p ∧ IsProb p ∧ ∀ i, p i = 1 / (n : ℝ)) ∧
    ((∀ i, ∑ j, A i j ^ 2 = ∑ j, A j i ^ 2) → A ≠ 0 → ∃ p, initialWeights .rownorm A = some p ∧ IsProb p ∧
      ∀ i, p i = (∑ j, A i j ^ 2) / ∑ k, ∑ j, A k j ^ 2) := by
  have hn' : (n : ℝ) ≠ 0 := by positivity
  refine ⟨⟨_, rfl, ⟨fun i => by positivity, ?_⟩, fun i => rfl⟩, fun hsym hA => ?_⟩
  · simp; field_simp
  · have hpos : ∑ k, ∑ j, A k j ^ 2 ≠ 0 := by
      intro h
      apply hA
      ext i j
      have h1 := (sum_eq_zero_iff_of_nonneg (fun k _ => sum_nonneg fun j _ => sq_nonneg (A k j))).1 h i (mem_univ _)
      have h2 := (sum_eq_zero_iff_of_nonneg (fun j _ => sq_nonneg (A i j))).1 h1 j (mem_univ _)
      simpa using h2
    have e : ∑ j, ∑ i, A i j ^ 2 = ∑ k, ∑ j, A k j ^ 2 := sum_comm
    refine ⟨fun j => (∑ i, A i j ^ 2) / ∑ k, ∑ j, A k j ^ 2, ?_, ⟨fun i => ?_, ?_⟩, fun i => ?_⟩
    · show normalise _ = _
      unfold normalise
      rw [e, if_neg hpos]
    · exact div_nonneg (sum_nonneg fun _ _ => sq_nonneg _) (sum_nonneg fun _ _ => sum_nonneg fun _ _ => sq_nonneg _)
    · rw [← sum_div, e, div_self hpos]
    · rw [hsym]

/-- **C62 (b), violated.**  In general `rownorm` weights with the norms of the columns: here row 0 carries everything,
but both indices have weight `1/2`; and for a matrix with a single non-zero column, only that index is ever drawn. -/
theorem rownorm_uses_columns :
    initialWeights .rownorm (Matrix.of ![![1, 1], ![0, 0]] : Matrix (Fin 2) (Fin 2) ℝ) = some (fun _ => 1 / 2) ∧
    initialWeights .rownorm (Matrix.of ![![1, 0], ![1, 0]] : Matrix (Fin 2) (Fin 2) ℝ) = some ![1, 0] := by
  constructor
  · show normalise _ = _
    unfold normalise
    rw [if_neg (by simp [Fin.sum_univ_two] <;> norm_num)]
    congr 1
    ext i
    fin_cases i <;> simp [Fin.sum_univ_two] <;> norm_num
  · show normalise _ = _
    unfold normalise
    rw [if_neg (by simp [Fin.sum_univ_two] <;> norm_num)]
    congr 1
    ext i
    fin_cases i <;> simp [Fin.sum_univ_two] <;> norm_num

/-- A zero matrix makes the `rownorm` policy raise. -/
theorem rownorm_zero (replace : Bool) (u : ℝ) :
    draw .rownorm replace (0 : Matrix (Fin n) (Fin n) ℝ) none u = .error .valueError := by
  unfold draw initialWeights normalise choice
  simp

/-- **C62 (c), form of the actions.**  Every action is the unit vector of the drawn index, and the option string is checked. -/
theorem action_is_unit (p : Probs) (replace : Bool) (A : Matrix (Fin n) (Fin n) ℝ) (cache : Option (Weights n)) (u : ℝ)
    (idx : Fin n) (action : Fin n → ℝ) (w : Weights n) (h : draw p replace A cache u = .ok (idx, action, w)) :
    action = Pi.single idx 1 ∧ (replace = true → w = cache.getD (initialWeights p A)) := by
  unfold draw at h
  dsimp only at h
  cases hc : choice (cache.getD (initialWeights p A)) u with
  | error e => rw [hc] at h; cases h
  | ok i =>
    rw [hc] at h
    dsimp only at h
    cases replace
    · have h' := Except.ok.inj h
      simp only [Prod.mk.injEq] at h'
      obtain ⟨rfl, rfl, -⟩ := h'
      refine ⟨?_, fun h => by cases h⟩
      ext j; simp [Pi.single_apply]
    · have h' := Except.ok.inj h
      simp only [Prod.mk.injEq] at h'
      obtain ⟨rfl, rfl, hw⟩ := h'
      refine ⟨?_, fun _ => hw.symm⟩
      ext j; simp [Pi.single_apply]

theorem options_checked (s : String) :
    (s = "uniform" → newPolicy s = .ok .uniform) ∧ (s = "rownorm" → newPolicy s = .ok .rownorm) ∧
    (s ≠ "uniform" → s ≠ "rownorm" → newPolicy s = .error .valueError) := by
  refine ⟨fun h => by subst h; rfl, fun h => by subst h; rfl, fun h1 h2 => ?_⟩
  simp [newPolicy, h1, h2]

/-- The weights that remain after the indices in `D` have been drawn without replacement from the weights `p`. -/
noncomputable def remaining (p : Fin n → ℝ) (D : Finset (Fin n)) : Weights n :=
  normalise fun i => if i ∈ D then 0 else p i

private theorem remaining_prob {p : Fin n → ℝ} (hp : ∀ i, 0 < p i) {D : Finset (Fin n)} (hD : D ≠ univ) :
    ∃ w, remaining p D = some w ∧ IsProb w ∧ (∀ i ∈ D, w i = 0) ∧
      ∀ i, w i = (if i ∈ D then 0 else p i) / ∑ j, (if j ∈ D then 0 else p j) := by
  have hpos : 0 < ∑ j, (if j ∈ D then 0 else p j) := by
    obtain ⟨i, hi⟩ : ∃ i, i ∉ D := by
      by_contra hc
      push Not at hc
      exact hD (eq_univ_iff_forall.2 hc)
    refine sum_pos' (fun j _ => ?_) ⟨i, mem_univ _, by rw [if_neg hi]; exact hp i⟩
    split
    · exact le_rfl
    · exact (hp j).le
  refine ⟨fun i => (if i ∈ D then 0 else p i) / ∑ j, (if j ∈ D then 0 else p j), ?_, ⟨fun i => ?_, ?_⟩, ?_, fun i => rfl⟩
  · unfold remaining normalise
    rw [if_neg hpos.ne']
  · refine div_nonneg ?_ hpos.le
    split
    · exact le_rfl
    · exact (hp i).le
  · rw [← sum_div, div_self hpos.ne']
  · intro i hi; simp [hi]

/-- **C62 (d), without replacement.**  Start from positive weights `p` (the uniform ones, or `rownorm` for a matrix without zero
columns).  For every stream of at most `n` uniform numbers all draws succeed, no index is drawn twice, and each draw is
made from the original weights restricted to the indices not drawn before; after `n` draws every index was drawn exactly
once. -/
theorem without_replacement (pr : Probs) (A : Matrix (Fin n) (Fin n) ℝ) (p : Fin n → ℝ)
    (hw : initialWeights pr A = some p) (hp : ∀ i, 0 < p i) (hsum : ∑ i, p i = 1) (us : List ℝ)
    (hus : ∀ u ∈ us, 0 ≤ u ∧ u < 1) (hlen : us.length ≤ n) :
    ∃ is as c, draws pr false A none us = .ok (is, as, c) ∧ is.length = us.length ∧ is.Nodup ∧
      as = is.map (fun i => Pi.single i 1) ∧
      (∀ (k : ℕ) (i : Fin n) (u : ℝ), is[k]? = some i → us[k]? = some u →
        choice (remaining p (is.take k).toFinset) u = .ok i) ∧
      (us.length = n → ∀ i, i ∈ is) := by
  -- general statement: draws starting after `D` has been drawn
  have key : ∀ (us : List ℝ) (D : Finset (Fin n)) (cache : Option (Weights n)),
      cache.getD (initialWeights pr A) = remaining p D → (∀ u ∈ us, 0 ≤ u ∧ u < 1) → #D + us.length ≤ n →
      ∃ is as c, draws pr false A cache us = .ok (is, as, c) ∧ is.length = us.length ∧ is.Nodup ∧ (∀ i ∈ is, i ∉ D) ∧
        as = is.map (fun i => Pi.single i 1) ∧
        (∀ (k : ℕ) (i : Fin n) (u : ℝ), is[k]? = some i → us[k]? = some u →
          choice (remaining p (D ∪ (is.take k).toFinset)) u = .ok i) := by
    intro us
    induction us with
    | nil =>
      intro D cache _ _ _
      exact ⟨[], [], cache, rfl, rfl, List.nodup_nil, by simp, rfl, by simp⟩
    | cons u us ih =>
      intro D cache hc hus hlen
      have hD : D ≠ univ := by
        intro h
        rw [h, card_univ, Fintype.card_fin, List.length_cons] at hlen
        omega
      obtain ⟨w, hrem, hprob, hzero, hwf⟩ := remaining_prob hp hD
      obtain ⟨hu0, hu1⟩ := hus u (by simp)
      obtain ⟨i, hi⟩ := (choice_law w hprob u hu0 hu1).1
      have hipos := choice_pos w hprob u hu0 hu1 i hi
      have hiD : i ∉ D := fun h => by rw [hzero i h] at hipos; exact lt_irrefl _ hipos
      have hdraw : draw pr false A cache u = .ok (i, (fun j => if j = i then 1 else 0), remaining p (insert i D)) := by
        unfold draw
        dsimp only
        rw [hc, hrem, hi]
        dsimp only
        rw [if_neg Bool.false_ne_true]
        have hT : 0 < ∑ j, (if j ∈ D then 0 else p j) := by
          have := hipos
          rw [hwf i, if_neg hiD] at this
          by_contra hneg
          have h2 : p i / ∑ j, (if j ∈ D then 0 else p j) ≤ 0 := div_nonpos_of_nonneg_of_nonpos (hp i).le (not_lt.1 hneg)
          linarith
        set T := ∑ j, (if j ∈ D then 0 else p j) with hTdef
        have e : (fun j => if j = i then 0 else w j) = fun j => (if j ∈ insert i D then 0 else p j) / T := by
          ext j
          rw [hwf j]
          by_cases hji : j = i
          · simp [hji]
          · by_cases hjD : j ∈ D <;> simp [hji, hjD]
        have e2 : normalise (fun j => (if j ∈ insert i D then 0 else p j) / T) = remaining p (insert i D) := by
          unfold remaining normalise
          rw [← sum_div]
          by_cases hz : ∑ j, (if j ∈ insert i D then 0 else p j) = 0
          · rw [if_pos (by rw [hz, zero_div]), if_pos hz]
          · rw [if_neg (div_ne_zero hz hT.ne'), if_neg hz]
            congr 1
            ext j
            rw [div_div_div_cancel_right₀ hT.ne']
        show Except.ok (i, _, normalise fun j => if j = i then 0 else w j) = _
        rw [e, e2]
      obtain ⟨is, as, c, h1, h2, h3, h4, h5, h6⟩ := ih (insert i D) (some (remaining p (insert i D))) rfl
        (fun v hv => hus v (by simp [hv])) (by
          rw [card_insert_of_notMem hiD]; rw [List.length_cons] at hlen; omega)
      refine ⟨i :: is, (fun j => if j = i then 1 else 0) :: as, c, ?_, by simp [h2], ?_, ?_, ?_, ?_⟩
      · rw [draws, hdraw]
        dsimp only
        rw [h1]
      · rw [List.nodup_cons]
        exact ⟨fun h => h4 i h (by simp), h3⟩
      · intro j hj
        rcases List.mem_cons.1 hj with rfl | hj
        · exact hiD
        · exact fun h => h4 j hj (by simp [h])
      · rw [List.map_cons, ← h5]
        congr 1
        ext j; simp [Pi.single_apply]
      · intro k j v hk hv
        cases k with
        | zero =>
          simp only [List.getElem?_cons_zero, Option.some.injEq] at hk hv
          subst hk hv
          simp only [List.take_zero, List.toFinset_nil, union_empty]
          rw [hrem]
          exact hi
        | succ k =>
          simp only [List.getElem?_cons_succ] at hk hv
          have := h6 k j v hk hv
          rw [List.take_succ_cons, List.toFinset_cons, union_insert, ← insert_union]
          exact this
  have hrem0 : remaining p ∅ = some p := by
    unfold remaining normalise
    simp [hsum]
  obtain ⟨is, as, c, h1, h2, h3, -, h5, h6⟩ := key us ∅ none (by
    show initialWeights pr A = _
    rw [hw, hrem0]) hus (by simpa using hlen)
  refine ⟨is, as, c, h1, h2, h3, h5, fun k i u hk hu => by simpa using h6 k i u hk hu, fun hn i => ?_⟩
  have hcard : #is.toFinset = n := by rw [List.toFinset_card_of_nodup h3, h2, hn]
  have : is.toFinset = univ := by
    rw [← card_eq_iff_eq_univ, hcard, Fintype.card_fin]
  have := this ▸ mem_univ i
  exact List.mem_toFinset.1 this

/-- **C62 (d), afterwards.**  When every index was drawn the weights are `0 / 0`, and the next draw raises a `ValueError`
(a solver without replacement cannot make more than `n` iterations). -/
theorem exhausted_raises (pr : Probs) (A : Matrix (Fin n) (Fin n) ℝ) (p : Fin n → ℝ) (u : ℝ) :
    draw pr false A (some (remaining p univ)) u = .error .valueError := by
  unfold draw remaining normalise choice
  simp

/-- With replacement every draw is made from the initial weights. -/
theorem with_replacement (pr : Probs) (A : Matrix (Fin n) (Fin n) ℝ) (p : Fin n → ℝ) (hw : initialWeights pr A = some p)
    (hp : IsProb p) (us : List ℝ) (hus : ∀ u ∈ us, 0 ≤ u ∧ u < 1) :
    ∃ is as c, draws pr true A none us = .ok (is, as, c) ∧ is.length = us.length ∧
      as = is.map (fun i => Pi.single i 1) ∧
      ∀ (k : ℕ) (i : Fin n) (u : ℝ), is[k]? = some i → us[k]? = some u → choice (some p) u = .ok i := by
  have key : ∀ (us : List ℝ) (cache : Option (Weights n)), cache.getD (initialWeights pr A) = some p →
      (∀ u ∈ us, 0 ≤ u ∧ u < 1) → ∃ is as c, draws pr true A cache us = .ok (is, as, c) ∧ is.length = us.length ∧
      as = is.map (fun i => Pi.single i 1) ∧
      ∀ (k : ℕ) (i : Fin n) (u : ℝ), is[k]? = some i → us[k]? = some u → choice (some p) u = .ok i := by
    intro us
    induction us with
    | nil => intro cache _ _; exact ⟨[], [], cache, rfl, rfl, rfl, by simp⟩
    | cons u us ih =>
      intro cache hc hus
      obtain ⟨hu0, hu1⟩ := hus u (by simp)
      obtain ⟨i, hi⟩ := (choice_law p hp u hu0 hu1).1
      have hdraw : draw pr true A cache u = .ok (i, (fun j => if j = i then 1 else 0), some p) := by
        unfold draw
        dsimp only
        rw [hc, hi]
        rfl
      obtain ⟨is, as, c, h1, h2, h5, h6⟩ := ih (some (some p)) rfl (fun v hv => hus v (by simp [hv]))
      refine ⟨i :: is, (fun j => if j = i then 1 else 0) :: as, c, ?_, by simp [h2], ?_, ?_⟩
      · rw [draws, hdraw]
        dsimp only
        rw [h1]
      · rw [List.map_cons, ← h5]
        congr 1
        ext j; simp [Pi.single_apply]
      · intro k j v hk hv
        cases k with
        | zero =>
          simp only [List.getElem?_cons_zero, Option.some.injEq] at hk hv
          subst hk hv
          exact hi
        | succ k => exact h6 k j v (by simpa using hk) (by simpa using hv)
  exact key us none hw hus

/-- Three draws from three uniform weights. -/
example : ∃ is as c, draws .uniform false (1 : Matrix (Fin 3) (Fin 3) ℝ) none [0.5, 0.2, 0.9] = .ok (is, as, c) ∧
    is.length = 3 ∧ is.Nodup ∧ ∀ i, i ∈ is := by
  obtain ⟨is, as, c, h1, h2, h3, -, -, h6⟩ := without_replacement .uniform (1 : Matrix (Fin 3) (Fin 3) ℝ)
    (fun _ => 1 / ((3 : ℕ) : ℝ)) rfl (fun _ => by norm_num) (by simp) [0.5, 0.2, 0.9]
    (by
      intro u hu
      simp only [List.mem_cons, List.not_mem_nil, or_false] at hu
      rcases hu with rfl | rfl | rfl <;> norm_num) (by simp)
  exact ⟨is, as, c, h1, h2, h3, h6 rfl⟩

end Probnum.Linalg.UnitVector
