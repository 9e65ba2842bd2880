import Mathlib.Data.List.Sort
import Mathlib.Data.List.Forall2
import Mathlib.Order.MinMax
import Mathlib.Algebra.Order.Group.Int
import Mathlib.Algebra.Order.Group.Basic
import Mathlib.Tactic.Linarith
import Verif.Posterior.Model

/-! Helper lemmas for `Verif.Posterior.Eval`. -/

namespace Probnum.Posterior

variable {α β : Type}

theorem mapM_ok_iff (f : α → Res β) (l : List α) (vs : List β) :
    l.mapM f = .ok vs ↔ List.Forall₂ (fun x v => f x = .ok v) l vs := by
  induction l generalizing vs with
  | nil =>
    simp only [List.mapM_nil, pure, Except.pure, Except.ok.injEq]
    constructor
    · rintro rfl; exact .nil
    · intro h; cases h; rfl
  | cons x l ih =>
    rw [List.mapM_cons]
    cases hx : f x with
    | error e =>
      simp only [bind, Except.bind, reduceCtorEq, false_iff]
      intro h
      cases h with
      | cons h1 _ => rw [hx] at h1; cases h1
    | ok y =>
      cases hl : l.mapM f with
      | error e =>
        simp only [bind, Except.bind, reduceCtorEq, false_iff]
        intro h
        cases h with
        | cons _ h2 => rw [← ih] at h2; rw [hl] at h2; cases h2
      | ok ys =>
        simp only [bind, Except.bind, pure, Except.pure, Except.ok.injEq]
        constructor
        · rintro rfl; exact .cons hx ((ih ys).1 hl)
        · intro h
          cases h with
          | cons h1 h2 =>
            rw [hx] at h1; cases h1
            rw [← ih, hl] at h2; cases h2; rfl

theorem mapM_congr' {f g : α → Res β} {l : List α} (h : ∀ x ∈ l, f x = g x) : l.mapM f = l.mapM g := by
  induction l with
  | nil => rfl
  | cons x l ih =>
    rw [List.mapM_cons, List.mapM_cons, h x (by simp), ih (fun y hy => h y (List.mem_cons_of_mem _ hy))]

theorem forall₂_append_split {R : α → β → Prop} (a b : List α) (vs : List β)
    (h : List.Forall₂ R (a ++ b) vs) : ∃ u v, vs = u ++ v ∧ List.Forall₂ R a u ∧ List.Forall₂ R b v := by
  induction a generalizing vs with
  | nil => exact ⟨[], vs, rfl, .nil, h⟩
  | cons x a ih =>
    cases h with
    | cons h1 h2 =>
      obtain ⟨u, v, rfl, hu, hv⟩ := ih _ h2
      exact ⟨_ :: u, v, rfl, .cons h1 hu, hv⟩

section Order

variable {T : Type} [LinearOrder T]

theorem sortedCheck_iff (ts : List T) : sortedCheck ts = true ↔ ts.Pairwise (· ≤ ·) := by
  induction ts with
  | nil => simp [sortedCheck]
  | cons x ts ih =>
    cases ts with
    | nil => simp [sortedCheck]
    | cons y r =>
      simp only [sortedCheck, Bool.and_eq_true, decide_eq_true_eq, ih]
      rw [List.pairwise_cons (a := x)]
      constructor
      · rintro ⟨h1, h2⟩
        refine ⟨?_, h2⟩
        intro z hz
        rcases List.mem_cons.1 hz with rfl | hz
        · exact h1
        · exact h1.trans ((List.pairwise_cons.1 h2).1 z hz)
      · rintro ⟨h1, h2⟩
        exact ⟨h1 y (by simp), h2⟩

theorem amin_sorted (x : T) (l : List T) (h : (x :: l).Pairwise (· < ·)) : amin (x :: l) = .ok x := by
  simp only [amin, Except.ok.injEq]
  have h1 := (List.pairwise_cons.1 h).1
  clear h
  induction l with
  | nil => rfl
  | cons y l ih =>
    rw [List.foldl_cons, min_eq_left (h1 y (by simp)).le]
    exact ih (fun z hz => h1 z (List.mem_cons_of_mem _ hz))

theorem amax_sorted (x : T) (l : List T) (h : (x :: l).Pairwise (· < ·)) :
    amax (x :: l) = .ok ((x :: l).getLast (by simp)) := by
  simp only [amax, Except.ok.injEq]
  induction l generalizing x with
  | nil => rfl
  | cons y l ih =>
    rw [List.foldl_cons, max_eq_right ((List.pairwise_cons.1 h).1 y (by simp)).le,
      List.getLast_cons (by simp)]
    exact ih y (List.pairwise_cons.1 h).2

theorem sorted_split (ts : List T) (a b : T) (hab : a ≤ b) (h : ts.Pairwise (· ≤ ·)) :
    ts = ts.filter (fun t => t < a) ++ ts.filter (fun t => a ≤ t ∧ t ≤ b) ++ ts.filter (fun t => b < t) := by
  induction ts with
  | nil => rfl
  | cons x ts ih =>
    obtain ⟨h1, h2⟩ := List.pairwise_cons.1 h
    have ih := ih h2
    by_cases hx : x < a
    · have h3 : ¬ (a ≤ x ∧ x ≤ b) := fun h => absurd h.1 (not_le.2 hx)
      have h4 : ¬ b < x := not_lt.2 (hx.le.trans hab)
      rw [List.filter_cons, List.filter_cons, List.filter_cons]
      simp only [hx, h3, h4, decide_true, decide_false, if_true, if_false, Bool.false_eq_true, List.cons_append]
      rw [← ih]
    · have hax := not_lt.1 hx
      have e1 : ts.filter (fun t => t < a) = [] := by
        rw [List.filter_eq_nil_iff]
        intro y hy
        simpa using hax.trans (h1 y hy)
      by_cases hb : x ≤ b
      · have h4 : ¬ b < x := not_lt.2 hb
        rw [e1] at ih
        rw [List.filter_cons, List.filter_cons, List.filter_cons]
        simp only [hx, hax, hb, h4, e1, and_self, decide_true, decide_false, if_true, if_false,
          Bool.false_eq_true, List.nil_append, List.cons_append]
        rw [List.nil_append] at ih
        rw [← ih]
      · have hbx := not_le.1 hb
        have e2 : ts.filter (fun t => a ≤ t ∧ t ≤ b) = [] := by
          rw [List.filter_eq_nil_iff]
          intro y hy
          have : b < y := hbx.trans_le (h1 y hy)
          simp [not_le.2 this]
        rw [e1, e2] at ih
        have h3 : ¬ (a ≤ x ∧ x ≤ b) := fun h => hb h.2
        rw [List.filter_cons, List.filter_cons, List.filter_cons]
        simp only [hx, h3, hbx, e1, e2, decide_true, decide_false, if_true, if_false,
          Bool.false_eq_true, List.nil_append, List.append_nil]
        rw [List.nil_append, List.nil_append] at ih
        rw [← ih]

/-- `searchsorted` at a stored location returns its index. -/
theorem searchsorted_getElem (l : List T) (h : l.Pairwise (· < ·)) (i : ℕ) (hi : i < l.length) :
    searchsortedLeft l l[i] = i := by
  induction l generalizing i with
  | nil => simp at hi
  | cons x l ih =>
    obtain ⟨h1, h2⟩ := List.pairwise_cons.1 h
    cases i with
    | zero => simp [searchsortedLeft]
    | succ i =>
      simp only [List.getElem_cons_succ, searchsortedLeft]
      rw [if_pos (h1 _ (List.getElem_mem _)), ih h2]

/-- `searchsorted` strictly between two consecutive locations. -/
theorem searchsorted_between (l : List T) (h : l.Pairwise (· < ·)) (i : ℕ) (hi : i + 1 < l.length) (t : T)
    (h1 : l[i] < t) (h2 : t ≤ l[i + 1]) : searchsortedLeft l t = i + 1 := by
  induction l generalizing i with
  | nil => simp at hi
  | cons x l ih =>
    obtain ⟨hx, hl⟩ := List.pairwise_cons.1 h
    cases i with
    | zero =>
      simp only [List.getElem_cons_zero] at h1
      cases l with
      | nil => simp at hi
      | cons y l =>
        simp only [Nat.zero_add, List.getElem_cons_succ, List.getElem_cons_zero] at h2
        simp [searchsortedLeft, h1, not_lt.2 h2]
    | succ i =>
      simp only [List.getElem_cons_succ] at h1 h2
      simp only [searchsortedLeft]
      rw [if_pos ((hx _ (List.getElem_mem _)).trans h1)]
      rw [ih hl i (by simpa using hi) h1 h2]

end Order

theorem pyIndex_nat (a : List α) (n : ℕ) (h : n < a.length) : pyIndex a (n : ℤ) = .ok a[n] := by
  simp [pyIndex, List.getElem?_eq_getElem h]

theorem pyIndex_last (a : List α) (h : a ≠ []) : pyIndex a (-1) = .ok (a.getLast h) := by
  have hl := List.length_pos_iff.2 h
  have h1 : ¬ ((a.length : ℤ) + -1 < 0) := by omega
  have h2 : ((a.length : ℤ) + -1).toNat = a.length - 1 := by omega
  simp only [pyIndex, h1, h2]
  simp only [Left.nonneg_neg_iff, Int.reduceLE, if_false]
  rw [List.getElem?_eq_getElem (by omega)]
  simp [List.getLast_eq_getElem]

end Probnum.Posterior
