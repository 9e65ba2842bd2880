import Verif.Linalg.Problinsolve

/-!
# C56: linear-system validation
-/

namespace Probnum.Linalg.Problinsolve

/-! ## Shapes and types -/

/-- Specification: the types an argument may have. -/
def TypesOk (A b : Arg) (A0 Ainv0 x0 : Option Arg) : Prop :=
  A.kind ≠ .other ∧ (b.kind = .ndarray ∨ b.kind = .sparse ∨ b.kind.isRv = true) ∧
  (∀ a, A0 = some a → a.kind.isRv = true) ∧ (∀ a, Ainv0 = some a → a.kind ≠ .other) ∧
  (∀ a, x0 = some a → a.kind = .ndarray ∨ a.kind = .sparse ∨ a.kind.isRv = true) ∧
  ¬ ((∃ a, (A0 = some a ∨ Ainv0 = some a) ∧ a.kind.isRv = true) ∧ ∃ x, x0 = some x ∧ x.kind.isRv = true)

/-- Specification: square matrices of matching size, with matching right-hand side and guess. -/
def ShapesOk (A b : Arg) (A0 Ainv0 x0 : Option Arg) : Prop :=
  ∃ n rest, A.shape = n :: n :: rest ∧ (∃ m, b.shape = n :: m) ∧ (∀ a, A0 = some a → a.shape = A.shape) ∧
    (∀ a, Ainv0 = some a → a.shape = A.shape) ∧ (∀ a, x0 = some a → ∃ m, a.shape = n :: m)

theorem rejectIf_ok (c : Bool) : rejectIf c = .ok () ↔ c = false := by
  cases c <;> simp [rejectIf]

theorem seq_ok {β : Type} (x : Res Unit) (f : Unit → Res β) (y : β) :
    (x >>= f) = .ok y ↔ x = .ok () ∧ f () = .ok y := by
  cases x with
  | error e => simp [bind, Except.bind]
  | ok a => simp [bind, Except.bind]

theorem isLinop_iff (k : Kind) : (!k.isLinop) = false ↔ k ≠ .other := by
  cases k <;> simp [Kind.isLinop]

theorem isVector_iff (k : Kind) : (!k.isVector) = false ↔ (k = .ndarray ∨ k = .sparse ∨ k.isRv = true) := by
  cases k <;> simp [Kind.isVector, Kind.isRv]

theorem checkTypes_ok (A b : Arg) (A0 Ainv0 x0 : Option Arg) :
    checkTypes A b A0 Ainv0 x0 = .ok () ↔ TypesOk A b A0 Ainv0 x0 := by
  unfold checkTypes TypesOk
  simp only [seq_ok, rejectIf_ok, isLinop_iff, isVector_iff]
  refine and_congr Iff.rfl (and_congr Iff.rfl (and_congr ?_ (and_congr ?_ (and_congr ?_ ?_))))
  · cases A0 <;> simp
  · cases Ainv0 with
    | none => simp
    | some a => simp only [isLinop_iff]; simp
  · cases x0 with
    | none => simp
    | some a => simp only [isVector_iff]; simp
  · cases A0 <;> cases Ainv0 <;> cases x0 <;> simp [isRv?] <;> grind

theorem entriesAgree_ok (s : List Nat) (i : Nat) (t : List Nat) (j : Nat) :
    entriesAgree s i t j = .ok () ↔ ∃ d, s[i]? = some d ∧ t[j]? = some d := by
  unfold entriesAgree at_
  cases h : s[i]? with
  | none => simp [bind, Except.bind]
  | some d =>
    cases h' : t[j]? with
    | none => simp [bind, Except.bind]
    | some e =>
      simp only [bind, Except.bind, rejectIf_ok, bne_eq_false_iff_eq, Option.some.injEq]
      constructor
      · rintro rfl; exact ⟨_, rfl, rfl⟩
      · rintro ⟨_, rfl, h⟩; exact h.symm

theorem checkShapes_ok (A b : Arg) (A0 Ainv0 x0 : Option Arg) :
    checkShapes A b A0 Ainv0 x0 = .ok () ↔ ShapesOk A b A0 Ainv0 x0 := by
  obtain ⟨ka, sa⟩ := A
  obtain ⟨kb, sb⟩ := b
  unfold checkShapes ShapesOk
  simp only [seq_ok, rejectIf_ok, entriesAgree_ok]
  rcases sa with _ | ⟨n, _ | ⟨m, rest⟩⟩
  · simp
  · simp
  · rcases sb with _ | ⟨k, sb⟩
    · simp
    · have hM : ∀ M : Option Arg, shapeDiffers (n :: m :: rest) M = false ↔
          ∀ a, M = some a → a.shape = n :: m :: rest := by
        intro M
        cases M with
        | none => simp [shapeDiffers]
        | some a => simp only [shapeDiffers, bne_eq_false_iff_eq, Option.some.injEq, forall_eq']; exact eq_comm
      have hS : ∀ M : Option Arg, (∀ a, M = some a → a.shape = n :: m :: rest) → m = n → optSquare M = .ok () := by
        intro M h hm
        cases M with
        | none => rfl
        | some a => rw [optSquare, entriesAgree_ok, h a rfl]; exact ⟨n, rfl, by simp [hm]⟩
      have hG : guessAgrees (n :: m :: rest) x0 = .ok () ↔ ∀ a, x0 = some a → ∃ r, a.shape = m :: r := by
        cases x0 with
        | none => simp [guessAgrees]
        | some a =>
          rw [guessAgrees, entriesAgree_ok]
          cases ha : a.shape with
          | nil => simp [ha]
          | cons d r => simp [ha, eq_comm]
      rw [hM, hM, hG]
      constructor
      · rintro ⟨h1, h2, h3, h4, h5, -⟩
        obtain ⟨d, hd1, hd2⟩ := h1
        obtain ⟨d', hd3, hd4⟩ := h5
        simp only [List.getElem?_cons_zero, List.getElem?_cons_succ, Option.some.injEq] at hd1 hd2 hd3 hd4
        subst hd1
        subst hd2
        subst hd3
        subst hd4
        exact ⟨_, rest, rfl, ⟨sb, rfl⟩, h3, h2, h4⟩
      · rintro ⟨n', rest', h0, ⟨r, hr⟩, h1, h2, h3⟩
        simp only [List.cons.injEq] at h0 hr
        obtain ⟨rfl, rfl, rfl⟩ := h0
        obtain ⟨rfl, rfl⟩ := hr
        exact ⟨⟨_, rfl, rfl⟩, h2, h1, h3, ⟨_, rfl, rfl⟩, hS A0 h1 rfl, hS Ainv0 h2 rfl⟩

theorem checkTypes_error (A b : Arg) (A0 Ainv0 x0 : Option Arg) (e : PyErr)
    (h : checkTypes A b A0 Ainv0 x0 = .error e) : e = .valueError := by
  have key : ∀ (c : Bool) (f : Unit → Res Unit), (rejectIf c >>= f) = .error e →
      e = .valueError ∨ f () = .error e := by
    intro c f hf
    cases c <;> simp_all [rejectIf, bind, Except.bind]
  unfold checkTypes at h
  rcases key _ _ h with h | h; · exact h
  rcases key _ _ h with h | h; · exact h
  rcases key _ _ h with h | h; · exact h
  rcases key _ _ h with h | h; · exact h
  rcases key _ _ h with h | h; · exact h
  revert h
  unfold rejectIf
  split <;> simp_all

/-- **C56 (a), what is accepted.**  The check passes exactly for arguments of the documented types whose shapes match: `A` is
square in its first two dimensions, `b` and the guess have as many rows, `A0` and `Ainv0` have the shape of `A`. -/
theorem check_accepts_iff (A b : Arg) (A0 Ainv0 x0 : Option Arg) :
    check A b A0 Ainv0 x0 = .ok () ↔ TypesOk A b A0 Ainv0 x0 ∧ ShapesOk A b A0 Ainv0 x0 := by
  rw [check, seq_ok, checkTypes_ok, checkShapes_ok]

/-- **C56 (a), two-dimensional matrices.**  For a matrix `A` the check passes exactly for square systems. -/
theorem check_square (A b : Arg) (A0 Ainv0 x0 : Option Arg) (n m : Nat) (hA : A.shape = [n, m]) :
    check A b A0 Ainv0 x0 = .ok () ↔ TypesOk A b A0 Ainv0 x0 ∧ n = m ∧ (∃ r, b.shape = n :: r) ∧
      (∀ a, A0 = some a → a.shape = [n, n]) ∧ (∀ a, Ainv0 = some a → a.shape = [n, n]) ∧
      (∀ a, x0 = some a → ∃ r, a.shape = n :: r) := by
  rw [check_accepts_iff]
  refine and_congr_right fun _ => ?_
  unfold ShapesOk
  rw [hA]
  constructor
  · rintro ⟨n', rest, h1, h2⟩
    simp only [List.cons.injEq] at h1
    obtain ⟨rfl, rfl, -⟩ := h1
    exact ⟨rfl, h2⟩
  · rintro ⟨rfl, h2⟩
    exact ⟨n, [], rfl, h2⟩

/-- **C56 (b), what is raised (partial).**  When `A` has at least two dimensions and `b` and the guess at least one, a rejected
system raises `ValueError`.  Missing: fewer dimensions, see `check_index_error`. -/
theorem check_rejects_partial (A b : Arg) (A0 Ainv0 x0 : Option Arg) (hA : 2 ≤ A.shape.length) (hb : b.shape ≠ [])
    (hx : ∀ a, x0 = some a → a.shape ≠ []) (e : PyErr) (h : check A b A0 Ainv0 x0 = .error e) : e = .valueError := by
  unfold check at h
  cases ht : checkTypes A b A0 Ainv0 x0 with
  | error e' =>
    rw [ht] at h
    have : e' = e := Except.error.inj h
    subst this
    exact checkTypes_error A b A0 Ainv0 x0 _ ht
  | ok u =>
    rw [ht] at h
    have h' : checkShapes A b A0 Ainv0 x0 = .error e := h
    clear h ht
    obtain ⟨ka, sa⟩ := A
    obtain ⟨kb, sb⟩ := b
    rcases sa with _ | ⟨n, _ | ⟨m, rest⟩⟩
    · simp at hA
    · simp at hA
    rcases sb with _ | ⟨k, sb⟩
    · simp at hb
    have key : ∀ (c : Bool) (f : Unit → Res Unit), (rejectIf c >>= f) = .error e →
        e = .valueError ∨ (c = false ∧ f () = .error e) := by
      intro c f hf
      cases c <;> simp_all [rejectIf, bind, Except.bind]
    have key2 : ∀ (s : List Nat) (i : Nat) (t : List Nat) (j : Nat) (f : Unit → Res Unit), i < s.length → j < t.length →
        (entriesAgree s i t j >>= f) = .error e → e = .valueError ∨ f () = .error e := by
      intro s i t j f hi hj hf
      unfold entriesAgree at_ at hf
      rw [List.getElem?_eq_getElem hi, List.getElem?_eq_getElem hj] at hf
      by_cases hc : s[i] = t[j] <;> simp_all [rejectIf, bind, Except.bind]
    have key3 : ∀ (s : List Nat) (i : Nat) (t : List Nat) (j : Nat), i < s.length → j < t.length →
        entriesAgree s i t j = .error e → e = .valueError := by
      intro s i t j hi hj hf
      unfold entriesAgree at_ at hf
      rw [List.getElem?_eq_getElem hi, List.getElem?_eq_getElem hj] at hf
      by_cases hc : s[i] = t[j] <;> simp_all [rejectIf, bind, Except.bind]
    have hok : ∀ f : Unit → Res Unit, ((Except.ok () : Res Unit) >>= f) = f () := fun f => rfl
    unfold checkShapes at h'
    rcases key2 _ _ _ _ _ (by simp) (by simp) h' with h' | h'; · exact h'
    rcases key _ _ h' with h' | ⟨hi1, h'⟩; · exact h'
    rcases key _ _ h' with h' | ⟨hi2, h'⟩; · exact h'
    have h'' : e = .valueError ∨ (do
        entriesAgree (n :: m :: rest) 0 (n :: m :: rest) 1
        optSquare A0
        optSquare Ainv0) = .error e := by
      cases x0 with
      | none => exact Or.inr h'
      | some x =>
        refine key2 (n :: m :: rest) 1 x.shape 0 _ (by simp) ?_ h'
        have := hx x rfl
        cases hxs : x.shape with
        | nil => exact absurd hxs this
        | cons _ _ => simp
    rcases h'' with h' | h'; · exact h'
    rcases key2 _ _ _ _ _ (by simp) (by simp) h' with h' | h'; · exact h'
    have h3 : e = .valueError ∨ optSquare Ainv0 = .error e := by
      cases A0 with
      | none => exact Or.inr h'
      | some a =>
        simp only [shapeDiffers, bne_eq_false_iff_eq] at hi2
        refine key2 _ _ _ _ _ ?_ ?_ h' <;> rw [← hi2] <;> simp
    rcases h3 with h' | h'; · exact h'
    cases Ainv0 with
    | none => simp [optSquare] at h'
    | some a =>
      simp only [shapeDiffers, bne_eq_false_iff_eq] at hi1
      refine key3 _ _ _ _ ?_ ?_ h' <;> rw [← hi1] <;> simp

/-- **C56 fails: a vector instead of a matrix** raises `IndexError`, not the documented `ValueError`. -/
theorem check_index_error (n : Nat) : check ⟨.ndarray, [n]⟩ ⟨.ndarray, [n]⟩ none none none = .error .indexError ∧
    check ⟨.ndarray, []⟩ ⟨.ndarray, [n]⟩ none none none = .error .indexError := by
  constructor
  · simp [check, checkTypes, checkShapes, entriesAgree, guessAgrees, shapeDiffers,  at_, rejectIf, Kind.isLinop, Kind.isVector, isRv?, bind,
      Except.bind]
  · rfl

/-- **C56 fails: stacks of matrices** are accepted. -/
theorem check_accepts_stack (n k : Nat) :
    check ⟨.ndarray, [n, n, k]⟩ ⟨.ndarray, [n]⟩ none none none = .ok () := by
  rw [check_accepts_iff]
  refine ⟨⟨by simp, Or.inl rfl, by simp, by simp, by simp, by simp⟩, n, [k], rfl, ⟨[], rfl⟩, by simp, by simp, by simp⟩

/-! ## The assumption string -/

/-- The documented options (`_problinsolve.py` 47-58). -/
inductive Token where
  | gen
  | sym
  | pos
  | noise
  deriving DecidableEq

/-- Their spelling. -/
def Token.text : Token → List Char
  | .gen => ['g', 'e', 'n']
  | .sym => ['s', 'y', 'm']
  | .pos => ['p', 'o', 's']
  | .noise => ['n', 'o', 'i', 's', 'e']

/-- The string that names the given options in this order. -/
def spell : List Token → List Char
  | [] => []
  | t :: ts => t.text ++ spell ts

theorem erase_gen (ts : List Token) : erase 'g' ['e', 'n'] (spell ts) = spell (ts.filter (· ≠ .gen)) := by
  induction ts with
  | nil => simp [spell, erase]
  | cons t ts ih => cases t <;> simp [spell, Token.text, erase, ih]

theorem not_ym (ts : List Token) : List.isPrefixOf ['y', 'm'] (spell ts) = false := by
  cases ts with
  | nil => rfl
  | cons t ts => cases t <;> simp [spell, Token.text, List.isPrefixOf]

theorem erase_sym (ts : List Token) : erase 's' ['y', 'm'] (spell ts) = spell (ts.filter (· ≠ .sym)) := by
  induction ts with
  | nil => simp [spell, erase]
  | cons t ts ih =>
    have := not_ym ts
    cases t <;> simp_all [spell, Token.text, erase]

theorem erase_pos (ts : List Token) : erase 'p' ['o', 's'] (spell ts) = spell (ts.filter (· ≠ .pos)) := by
  induction ts with
  | nil => simp [spell, erase]
  | cons t ts ih => cases t <;> simp [spell, Token.text, erase, ih]

theorem not_oise (ts : List Token) : List.isPrefixOf ['o', 'i', 's', 'e'] (spell ts) = false := by
  cases ts with
  | nil => rfl
  | cons t ts => cases t <;> simp [spell, Token.text, List.isPrefixOf]

theorem erase_noise (ts : List Token) :
    erase 'n' ['o', 'i', 's', 'e'] (spell ts) = spell (ts.filter (· ≠ .noise)) := by
  induction ts with
  | nil => simp [spell, erase]
  | cons t ts ih =>
    have := not_oise ts
    cases t <;> simp_all [spell, Token.text, erase]

theorem filter_all (ts : List Token) :
    (((ts.filter (· ≠ .gen)).filter (· ≠ .sym)).filter (· ≠ .pos)).filter (· ≠ .noise) = [] := by
  induction ts with
  | nil => rfl
  | cons t ts ih => cases t <;> simpa using ih

/-- **C56 (c), documented strings are accepted.**  Every combination of the documented options, in any order, with any repetitions
and in any mixture of upper and lower case, passes the check. -/
theorem documented_accepted (ts : List Token) (s : List Char) (h : s.map Char.toLower = spell ts) : leftover (lower s) = [] := by
  rw [lower, h, leftover, erase_gen, erase_sym, erase_pos, erase_noise, filter_all]
  rfl

/-- **C56 fails: undocumented strings are accepted.**  The options are removed one after the other, so that a text split by an
option counts as an option. -/
theorem undocumented_accepted :
    leftover "noposise".toList = [] ∧ (∀ ts, spell ts ≠ "noposise".toList) ∧
    initSolver none none none "symnoposise".toList = .ok none := by
  refine ⟨by decide +kernel, fun ts => ?_, by rfl⟩
  cases ts with
  | nil => simp [spell]
  | cons t ts => cases t <;> simp [spell, Token.text]

theorem contains_sym (ts : List Token) : contains ['s', 'y', 'm'] (spell ts) = true ↔ .sym ∈ ts := by
  induction ts with
  | nil => simp [spell, contains]
  | cons t ts ih =>
    have := not_ym ts
    cases t <;> simp_all [spell, Token.text, contains]

theorem contains_pos (ts : List Token) : contains ['p', 'o', 's'] (spell ts) = true ↔ .pos ∈ ts := by
  induction ts with
  | nil => simp [spell, contains]
  | cons t ts ih => cases t <;> simp_all [spell, Token.text, contains]

theorem contains_noise (ts : List Token) : contains ['n', 'o', 'i', 's', 'e'] (spell ts) = true ↔ .noise ∈ ts := by
  induction ts with
  | nil => simp [spell, contains]
  | cons t ts ih =>
    have := not_oise ts
    cases t <;> simp_all [spell, Token.text, contains]

theorem spell_append (ts us : List Token) : spell (ts ++ us) = spell ts ++ spell us := by
  induction ts with
  | nil => rfl
  | cons t ts ih => simp [spell, ih]

/-! ## The whole input handling -/

/-- Specification: the prior declares the matrix symmetric. -/
def DeclaresSymmetric (M : Option Arg) : Prop := ∃ sh, M = some ⟨.randvar true, sh⟩

theorem addSym_spell (M : Option Arg) (ts : List Token) :
    ∃ us, addSym M (spell ts) = spell us ∧ (.sym ∈ us ↔ .sym ∈ ts ∨ DeclaresSymmetric M) ∧
      (.pos ∈ us ↔ .pos ∈ ts) ∧ (.noise ∈ us ↔ .noise ∈ ts) := by
  by_cases hM : DeclaresSymmetric M
  · obtain ⟨sh, rfl⟩ := hM
    unfold addSym
    split
    · split
      · next h =>
        rw [contains_sym] at h
        exact ⟨ts, rfl, by simp [h], Iff.rfl, Iff.rfl⟩
      · exact ⟨ts ++ [.sym], by rw [spell_append]; rfl, by simp [DeclaresSymmetric], by simp, by simp⟩
    · next h => exact absurd rfl (h sh)
  · refine ⟨ts, ?_, by simp [hM], Iff.rfl, Iff.rfl⟩
    unfold addSym
    split
    · exact absurd ⟨_, rfl⟩ hM
    · rfl

/-- **C56 (d), the choice of the solver.**  For documented options and a guess that is not a random variable, a solver is created
exactly for symmetric positive definite systems without noise, where symmetry is named as an option or declared by a prior.
Everything else raises `NotImplementedError`. -/
theorem solver_exists_iff (A0 Ainv0 x0 : Option Arg) (hx : isRv? x0 = false) (ts : List Token) :
    (initSolver A0 Ainv0 x0 (spell ts) = .ok x0 ↔
      (.sym ∈ ts ∨ DeclaresSymmetric A0 ∨ DeclaresSymmetric Ainv0) ∧ .pos ∈ ts ∧ .noise ∉ ts) ∧
    (¬ ((.sym ∈ ts ∨ DeclaresSymmetric A0 ∨ DeclaresSymmetric Ainv0) ∧ .pos ∈ ts ∧ .noise ∉ ts) →
      initSolver A0 Ainv0 x0 (spell ts) = .error .notImplementedError) := by
  obtain ⟨us, h1, h2, h3, h4⟩ := addSym_spell A0 ts
  obtain ⟨vs, h5, h6, h7, h8⟩ := addSym_spell Ainv0 us
  have hg : guessOf A0 Ainv0 x0 = x0 := by simp [guessOf, hx]
  have hs : (.sym ∈ vs ↔ .sym ∈ ts ∨ DeclaresSymmetric A0 ∨ DeclaresSymmetric Ainv0) := by rw [h6, h2, or_assoc]
  rw [initSolver, hg, h1, h5]
  have e1 := contains_sym vs
  have e2 := contains_pos vs
  have e3 := contains_noise vs
  rw [hs] at e1
  rw [h7, h3] at e2
  rw [h8, h4] at e3
  simp only [hx, Bool.false_eq_true, if_false, ← e1, ← e2, ← e3]
  cases contains ['s', 'y', 'm'] (spell vs) <;> cases contains ['p', 'o', 's'] (spell vs) <;>
    cases contains ['n', 'o', 'i', 's', 'e'] (spell vs) <;> simp

/-- **C56 (e), a random guess.**  Without a prior on the matrix or its inverse a random variable as guess is not supported. -/
theorem random_guess (x : Arg) (hx : x.kind.isRv = true) (s : List Char) :
    initSolver none none (some x) s = .error .notImplementedError := by
  simp [initSolver, guessOf, isRv?, hx]

/-- **C56 (e), a random guess next to a prior** on the matrix or on its inverse is replaced by its mean. -/
theorem random_guess_replaced (A0 Ainv0 : Option Arg) (h : A0.isSome ∨ Ainv0.isSome) (x : Arg) (hx : x.kind.isRv = true)
    (ts : List Token) (hsym : .sym ∈ ts) (hpos : .pos ∈ ts) (hno : .noise ∉ ts) :
    initSolver A0 Ainv0 (some x) (spell ts) = .ok (some ⟨.ndarray, x.shape⟩) := by
  have hg : guessOf A0 Ainv0 (some x) = some ⟨.ndarray, x.shape⟩ := by
    have : (Ainv0.isSome || A0.isSome) = true := by rcases h with h | h <;> simp [h]
    simp [guessOf, isRv?, this, hx]
  have hg' : guessOf A0 Ainv0 (some ⟨.ndarray, x.shape⟩) = some ⟨.ndarray, x.shape⟩ := by simp [guessOf, isRv?, Kind.isRv]
  have := (solver_exists_iff A0 Ainv0 (some ⟨.ndarray, x.shape⟩) rfl ts).1.2 ⟨Or.inl hsym, hpos, hno⟩
  simp only [initSolver, hg'] at this
  simp only [initSolver, hg]
  exact this

example : initSolver (some ⟨.randvar false, [2, 2]⟩) none (some ⟨.randvar false, [2]⟩) (spell [.sym, .pos])
    = .ok (some ⟨.ndarray, [2]⟩) :=
  random_guess_replaced _ _ (Or.inl rfl) _ rfl _ (by simp) (by simp) (by simp)

/-- **C56 (f), checks come first.**  Whatever reaches a solver has passed all checks, and whatever fails the checks is rejected with
their exception. -/
theorem checks_first (A b : Arg) (A0 Ainv0 x0 : Option Arg) (s : List Char) :
    (∀ setup, front A b A0 Ainv0 x0 s = .ok setup → check A b A0 Ainv0 x0 = .ok () ∧ leftover (lower s) = []) ∧
    (∀ e, check A b A0 Ainv0 x0 = .error e → front A b A0 Ainv0 x0 s = .error e) ∧
    (check A b A0 Ainv0 x0 = .ok () → leftover (lower s) ≠ [] → front A b A0 Ainv0 x0 s = .error .valueError) := by
  refine ⟨fun setup h => ?_, fun e h => ?_, fun h h' => ?_⟩
  · unfold front at h
    rw [seq_ok, seq_ok, rejectIf_ok] at h
    exact ⟨h.1, by simpa using h.2.1⟩
  · unfold front
    rw [h]; rfl
  · unfold front
    rw [h]
    have : rejectIf (leftover (lower s) != []) = .error .valueError := by
      unfold rejectIf
      rw [if_pos (by simpa using h')]
    show (rejectIf (leftover (lower s) != []) >>= _) = _
    rw [this]; rfl

/-- **C56 (g), arrays become columns.**  For arrays (right-hand side with one or two dimensions, guess with one or two
dimensions) that pass the checks and documented options naming a symmetric positive definite system, the solver is created with a
right-hand side and a guess with two dimensions, as many right-hand sides as columns. -/
theorem front_arrays (A b : Arg) (A0 Ainv0 x0 : Option Arg) (s : List Char) (ts : List Token)
    (hs : s.map Char.toLower = spell ts) (hsym : .sym ∈ ts) (hpos : .pos ∈ ts) (hno : .noise ∉ ts)
    (hc : check A b A0 Ainv0 x0 = .ok ()) (n : Nat)
    (hbk : b.kind.isRv = false) (hxk : isRv? x0 = false)
    (hb : b.shape = [n] ∨ ∃ k, b.shape = [n, k])
    (hx : ∀ a, x0 = some a → a.shape = [n] ∨ ∃ k, a.shape = [n, k]) :
    ∃ setup, front A b A0 Ainv0 x0 s = .ok setup ∧ setup.b.shape = [n, setup.nrhs] ∧
      (b.shape = [n] → setup.nrhs = 1) ∧ (∀ k, b.shape = [n, k] → setup.nrhs = k) ∧
      (setup.x0 = none ↔ x0 = none) ∧ ∀ a, setup.x0 = some a → ∃ k, a.shape = [n, k] := by
  have hl := documented_accepted ts s hs
  have hbc : ∃ b' k, asColvec b = .ok b' ∧ b'.shape = [n, k] ∧ (b.shape = [n] → k = 1) ∧
      (∀ k', b.shape = [n, k'] → k = k') := by
    rcases hb with hb | ⟨k, hb⟩
    · exact ⟨⟨b.kind, [n, 1]⟩, 1, by simp [asColvec, hbk, hb], rfl, fun _ => rfl, fun k' h => by simp [hb] at h⟩
    · exact ⟨b, k, by simp [asColvec, hbk, hb], hb, fun h => by simp [hb] at h, fun k' h => by simpa [hb] using h⟩
  obtain ⟨b', k, h1, h2, h3, h4⟩ := hbc
  have hxc : ∃ x', optColvec x0 = .ok x' ∧ (x' = none ↔ x0 = none) ∧ isRv? x' = false ∧
      ∀ a, x' = some a → ∃ k, a.shape = [n, k] := by
    cases x0 with
    | none => exact ⟨none, rfl, Iff.rfl, rfl, fun a h => by simp at h⟩
    | some a =>
      have hk : a.kind.isRv = false := hxk
      rcases hx a rfl with hx | ⟨k, hx⟩
      · exact ⟨some ⟨a.kind, [n, 1]⟩, by simp [optColvec, asColvec, hk, hx, Except.map], by simp, hk, fun a' h => by
          have := Option.some.inj h
          subst this
          exact ⟨1, rfl⟩⟩
      · exact ⟨some a, by simp [optColvec, asColvec, hk, hx, Except.map], by simp, hk, fun a' h => by
          have := Option.some.inj h
          subst this
          exact ⟨k, hx⟩⟩
  obtain ⟨x', h5, h6, h7, h8⟩ := hxc
  have hi : initSolver A0 Ainv0 x' (lower s) = .ok x' := by
    rw [lower, hs]
    exact (solver_exists_iff A0 Ainv0 x' h7 ts).1.2 ⟨Or.inl hsym, hpos, hno⟩
  refine ⟨⟨b', k, x'⟩, ?_, h2, h3, h4, h6, h8⟩
  unfold front
  rw [hc]
  have hr : rejectIf (leftover (lower s) != []) = .ok () := by rw [rejectIf_ok]; simpa using hl
  show (rejectIf (leftover (lower s) != []) >>= _) = _
  rw [hr]
  have hat : at_ b'.shape 1 = .ok k := by rw [h2]; rfl
  simp only [bind, Except.bind, hbk, Bool.false_eq_true, if_false, h1, h5, hat, hi]

/-- **C56 fails: a random right-hand side of shape `(n,)`**, documented as supported, raises `IndexError` after all checks have
passed. -/
theorem random_rhs_index_error (n : Nat) (k : Bool) (s : List Char) (ts : List Token) (hs : s.map Char.toLower = spell ts) :
    check ⟨.ndarray, [n, n]⟩ ⟨.randvar k, [n]⟩ none none none = .ok () ∧
    front ⟨.ndarray, [n, n]⟩ ⟨.randvar k, [n]⟩ none none none s = .error .indexError := by
  have hc : check ⟨.ndarray, [n, n]⟩ ⟨.randvar k, [n]⟩ none none none = .ok () := by
    rw [check_accepts_iff]
    exact ⟨⟨by simp, Or.inr (Or.inr rfl), by simp, by simp, by simp, by simp⟩, n, [], rfl, ⟨[], rfl⟩, by simp, by simp,
      by simp⟩
  refine ⟨hc, ?_⟩
  have hl := documented_accepted ts s hs
  unfold front
  rw [hc]
  have hr : rejectIf (leftover (lower s) != []) = .ok () := by rw [rejectIf_ok]; simpa using hl
  show (rejectIf (leftover (lower s) != []) >>= _) = _
  rw [hr]
  rfl

/-- **C56 fails: a random guess of shape `(n,)`** next to an array `Ainv0` is not turned into a column: the solver starts with a
guess of shape `(n,)` and a right-hand side of shape `(n, 1)`. -/
theorem random_guess_not_column (n : Nat) (k : Bool) :
    front ⟨.ndarray, [n, n]⟩ ⟨.ndarray, [n]⟩ none (some ⟨.ndarray, [n, n]⟩) (some ⟨.randvar k, [n]⟩) "sympos".toList
      = .ok ⟨⟨.ndarray, [n, 1]⟩, 1, some ⟨.ndarray, [n]⟩⟩ := by
  have hc : check ⟨.ndarray, [n, n]⟩ ⟨.ndarray, [n]⟩ none (some ⟨.ndarray, [n, n]⟩) (some ⟨.randvar k, [n]⟩) = .ok () := by
    rw [check_accepts_iff]
    exact ⟨⟨by simp, Or.inl rfl, by simp, by simp, by simp [Kind.isRv], by simp [Kind.isRv]⟩, n, [], rfl, ⟨[], rfl⟩,
      by simp, by simp, by simp⟩
  unfold front
  rw [hc]
  have hr : rejectIf (leftover (lower "sympos".toList) != []) = .ok () := by rw [rejectIf_ok]; decide +kernel
  show (rejectIf (leftover (lower "sympos".toList) != []) >>= _) = _
  rw [hr]
  have hp : asColvec ⟨.randvar k, [n]⟩ = .ok ⟨.randvar k, [n]⟩ := by simp [asColvec, Kind.isRv]
  show ((asColvec ⟨.randvar k, [n]⟩).map some >>= _) = _
  rw [hp]
  rfl

example : ∃ setup, front ⟨.ndarray, [3, 3]⟩ ⟨.ndarray, [3, 2]⟩ none none none "SymPosSym".toList = .ok setup ∧
    setup.nrhs = 2 := by
  obtain ⟨setup, h1, -, -, h2, -⟩ := front_arrays ⟨.ndarray, [3, 3]⟩ ⟨.ndarray, [3, 2]⟩ none none none "SymPosSym".toList
    [.sym, .pos, .sym] (by decide +kernel) (by simp) (by simp) (by simp) (by rfl) 3 rfl rfl (Or.inr ⟨2, rfl⟩) (by simp)
  exact ⟨setup, h1, h2 2 rfl⟩

example : check ⟨.ndarray, [3, 2]⟩ ⟨.ndarray, [3]⟩ none none none = .error .valueError := rfl

end Probnum.Linalg.Problinsolve
