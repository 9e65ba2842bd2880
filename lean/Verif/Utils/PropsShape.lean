import Verif.Utils.Shape
import Mathlib.Data.List.Forall2
import Mathlib.Tactic.Common

/-!
# Shape arguments: accepted forms and the resulting shape
-/

namespace Probnum.Utils

/-- The value of an integer. -/
inductive Reads : Item → ℤ → Prop
  | py (n) : Reads (.pyInt n) n
  | np (n) : Reads (.npInt n) n

/-- The documented meaning of a shape argument, `ShapeLike`: an integer is a shape with one axis, an iterable of integers the shape with
these sizes. -/
inductive Means : ShapeArg → List ℤ → Prop
  | int (n) : Means (.int n) [n]
  | tuple {l s} : List.Forall₂ Reads l s → Means (.tuple l) s
  | iterable {l s} : List.Forall₂ Reads l s → Means (.iterable l) s
  | iterator {l s} : List.Forall₂ Reads l s → Means (.iterator l) s

theorem reads_iff {x : Item} {n : ℤ} : Reads x n ↔ x.isInt = true ∧ x.toInt = n := by
  constructor
  · rintro (_ | _) <;> exact ⟨rfl, rfl⟩
  · rintro ⟨h1, rfl⟩
    cases x with
    | pyInt n => exact .py n
    | npInt n => exact .np n
    | other => cases h1

theorem forall₂_reads {l : List Item} {s : List ℤ} : List.Forall₂ Reads l s ↔ l.all Item.isInt = true ∧ l.map Item.toInt = s := by
  induction l generalizing s with
  | nil =>
    constructor
    · rintro ⟨⟩
      exact ⟨rfl, rfl⟩
    · rintro ⟨-, rfl⟩
      exact .nil
  | cons x l ih =>
    constructor
    · rintro (_ | ⟨h1, h2⟩)
      obtain ⟨a, b⟩ := reads_iff.1 h1
      obtain ⟨c, d⟩ := ih.1 h2
      exact ⟨by simp [a, c], by simp [b, d]⟩
    · rintro ⟨h1, rfl⟩
      rw [List.all_cons, Bool.and_eq_true] at h1
      exact .cons (reads_iff.2 ⟨h1.1, rfl⟩) (ih.2 ⟨h1.2, rfl⟩)

theorem isInt_of_isPyInt {l : List Item} (h : l.all Item.isPyInt = true) : l.all Item.isInt = true := by
  rw [List.all_eq_true] at h ⊢
  intro x hx
  have := h x hx
  cases x with
  | pyInt n => rfl
  | npInt n => rfl
  | other => cases this

theorem convert_iff {x : ShapeArg} (hx : ∀ l, x ≠ .iterator l) (s : List ℤ) :
    (convert x = .ok s ↔ Means x s) ∧ ((¬∃ s, Means x s) → convert x = .error .typeError) := by
  have many : ∀ l : List Item, (¬∃ s, List.Forall₂ Reads l s) → l.all Item.isInt = false := by
    intro l h
    by_contra hc
    rw [Bool.not_eq_false] at hc
    exact h ⟨_, forall₂_reads.2 ⟨hc, rfl⟩⟩
  cases x with
  | int n =>
    refine ⟨⟨fun h => ?_, fun h => ?_⟩, fun h => absurd ⟨_, .int n⟩ h⟩
    · rw [← Except.ok.inj h]
      exact .int n
    · cases h
      rfl
  | tuple l =>
    have e : convert (.tuple l) = convert (.iterable l) := by
      show (if l.all Item.isPyInt then _ else _) = (if ! l.all Item.isInt then _ else _)
      by_cases hp : l.all Item.isPyInt = true
      · rw [if_pos hp, isInt_of_isPyInt hp]
        rfl
      · rw [if_neg hp]
    rw [e]
    show ((if ! l.all Item.isInt then _ else _) = _ ↔ _) ∧ (_ → (if ! l.all Item.isInt then _ else _) = _)
    constructor
    · constructor
      · intro h
        refine .tuple (forall₂_reads.2 ?_)
        cases hc : l.all Item.isInt with
        | false =>
          rw [hc] at h
          cases h
        | true =>
          rw [hc] at h
          exact ⟨rfl, Except.ok.inj h⟩
      · rintro (_ | h)
        obtain ⟨h1, h2⟩ := forall₂_reads.1 h
        rw [h1, ← h2]
        rfl
    · intro h
      rw [many l fun ⟨s, hs⟩ => h ⟨s, .tuple hs⟩]
      rfl
  | iterable l =>
    show ((if ! l.all Item.isInt then _ else _) = _ ↔ _) ∧ (_ → (if ! l.all Item.isInt then _ else _) = _)
    constructor
    · constructor
      · intro h
        refine .iterable (forall₂_reads.2 ?_)
        cases hc : l.all Item.isInt with
        | false =>
          rw [hc] at h
          cases h
        | true =>
          rw [hc] at h
          exact ⟨rfl, Except.ok.inj h⟩
      · rintro (_ | _ | h)
        obtain ⟨h1, h2⟩ := forall₂_reads.1 h
        rw [h1, ← h2]
        rfl
    · intro h
      rw [many l fun ⟨s, hs⟩ => h ⟨s, .iterable hs⟩]
      rfl
  | iterator l => exact absurd rfl (hx l)
  | notIterable =>
    refine ⟨⟨(fun h => by cases h), (fun h => by cases h)⟩, fun _ => rfl⟩

/-- **C94 (a), partial.**  Integers of any type, tuples, lists, arrays and other collections of integers give the shape they mean;
everything else raises TypeError, and so does a shape that has not the required number of axes.  (Missing: iterators, see
`iterator_lost`.) -/
theorem as_shape_partial {x : ShapeArg} (hx : ∀ l, x ≠ .iterator l) :
    (∀ s, asShape x = .ok s ↔ Means x s) ∧ (∀ d s, asShape x (.int d) = .ok s ↔ Means x s ∧ (s.length : ℤ) = d) ∧
    (∀ nd e, asShape x nd = .error e → e = .typeError) ∧ ((¬∃ s, Means x s) → ∀ nd, asShape x nd = .error .typeError) := by
  have hc := convert_iff hx
  refine ⟨fun s => ?_, fun d s => ?_, fun nd e h => ?_, fun h nd => ?_⟩
  · rw [← (hc s).1]
    unfold asShape
    cases convert x with
    | error e => exact ⟨(fun h => by cases h), (fun h => by cases h)⟩
    | ok t => exact Iff.rfl
  · rw [← (hc s).1]
    unfold asShape
    cases convert x with
    | error e => exact ⟨(fun h => by cases h), (fun h => by cases h.1)⟩
    | ok t =>
      show (if (t.length : ℤ) ≠ d then _ else _) = _ ↔ _
      by_cases ht : (t.length : ℤ) = d
      · rw [if_neg (not_not.2 ht)]
        constructor
        · intro h
          obtain rfl := Except.ok.inj h
          exact ⟨rfl, ht⟩
        · exact fun h => h.1
      · rw [if_pos ht]
        constructor
        · intro h
          cases h
        · rintro ⟨h1, h2⟩
          obtain rfl := Except.ok.inj h1
          exact absurd h2 ht
  · by_cases hm : ∃ s, Means x s
    · obtain ⟨s, hs⟩ := hm
      unfold asShape at h
      rw [(hc s).1.2 hs] at h
      cases nd with
      | other => cases h
      | int d =>
        change (if (s.length : ℤ) ≠ d then _ else _) = _ at h
        by_cases ht : (s.length : ℤ) ≠ d
        · rw [if_pos ht] at h
          exact (Except.error.inj h).symm
        · rw [if_neg ht] at h
          cases h
    · unfold asShape at h
      rw [(hc []).2 hm] at h
      exact (Except.error.inj h).symm
  · unfold asShape
    rw [(hc []).2 h]
    rfl

/-- **C94 (b).**  A shape that has been converted once is not changed by a second conversion. -/
theorem as_shape_again {x : ShapeArg} {nd : NdimArg} {s : List ℤ} (_h : asShape x nd = .ok s) : asShape (.tuple (s.map .pyInt)) = .ok s := by
  refine (as_shape_partial (fun l h => by cases h)).1 s |>.2 (.tuple ?_)
  rw [List.forall₂_map_left_iff]
  exact List.forall₂_same.2 fun n _ => .py n

theorem afterAll_ints {l : List Item} (h : l.all Item.isInt = true) : afterAll l = [] := by
  induction l with
  | nil => rfl
  | cons x l ih =>
    rw [List.all_cons, Bool.and_eq_true] at h
    show (if x.isInt then _ else _) = _
    rw [if_pos h.1, ih h.2]

/-- **C94 (c), disagreement.**  An iterator is an iterable of integers, but the check of its entries uses it up: the result is always the
shape of a number, and with the right number of axes it is rejected. -/
theorem iterator_lost {l : List Item} {s : List ℤ} (h : Means (.iterator l) s) :
    asShape (.iterator l) = .ok [] ∧ (s ≠ [] → asShape (.iterator l) ≠ .ok s ∧ asShape (.iterator l) (.int s.length) = .error .typeError) := by
  obtain ⟨h1, h2⟩ : l.all Item.isInt = true ∧ l.map Item.toInt = s := by
    cases h with
    | iterator h => exact forall₂_reads.1 h
  have hc : convert (.iterator l) = .ok [] := by
    show (if ! l.all Item.isInt then _ else _) = _
    rw [h1, afterAll_ints h1]
    rfl
  refine ⟨by unfold asShape; rw [hc]; rfl, fun hs => ⟨?_, ?_⟩⟩
  · unfold asShape
    rw [hc]
    intro h
    exact hs (Except.ok.inj h).symm
  · unfold asShape
    rw [hc]
    show (if (([] : List ℤ).length : ℤ) ≠ (s.length : ℤ) then _ else _) = _
    rw [if_pos]
    intro h
    apply hs
    apply List.eq_nil_of_length_eq_zero
    simpa using h.symm

/-- **C94 (d), disagreement.**  Sizes are not checked: negative integers are shapes, too. -/
theorem negative_accepted (n : ℤ) (_hn : n < 0) : asShape (.int n) = .ok [n] ∧ asShape (.tuple [.pyInt n]) (.int 1) = .ok [n] :=
  ⟨rfl, rfl⟩

/-! ### Concrete cases -/

example : asShape (.tuple [.pyInt 2, .npInt 3]) (.int 2) = .ok [2, 3] :=
  ((as_shape_partial (fun l h => by cases h)).2.1 2 [2, 3]).2 ⟨.tuple (.cons (.py 2) (.cons (.np 3) .nil)), rfl⟩

example : asShape (.iterable [.pyInt 2, .other]) = .error .typeError := rfl

/-- `RandomVariable.sample(rng, size=iter([2, 3]))` draws one sample. -/
example : asShape (.iterator [.pyInt 2, .pyInt 3]) = .ok [] :=
  (iterator_lost (.iterator (.cons (.py 2) (.cons (.py 3) .nil)))).1

end Probnum.Utils
