import Verif.Stopping.Model

/-!
# C02: stopping criteria form a Boolean algebra with short-circuit evaluation
-/

namespace Probnum.Stopping

variable {σ V : Type} [Truthy V]

/-! ## Specification -/

/-- Propositional formulas over numbered atoms: how a user combines criteria with `&`, `|`, `~`. -/
inductive Formula where
  | atom (i : Nat)
  | conj (a b : Formula)
  | disj (a b : Formula)
  | neg (a : Formula)

/-- Classical truth of a formula under a valuation of the atoms. -/
def Formula.sat (v : Nat → Bool) : Formula → Bool
  | .atom i => v i
  | .conj a b => a.sat v && b.sat v
  | .disj a b => a.sat v || b.sat v
  | .neg a => !a.sat v

/-- The atoms of a formula from left to right. -/
def Formula.atoms : Formula → List Nat
  | .atom i => [i]
  | .conj a b => a.atoms ++ b.atoms
  | .disj a b => a.atoms ++ b.atoms
  | .neg a => a.atoms

/-- The atoms a left-to-right short-circuit evaluation looks at. -/
def Formula.visited (v : Nat → Bool) : Formula → List Nat
  | .atom i => [i]
  | .conj a b => if a.sat v then a.visited v ++ b.visited v else a.visited v
  | .disj a b => if a.sat v then a.visited v else a.visited v ++ b.visited v
  | .neg a => a.visited v

/-- The criterion object a user builds from the formula with the operators of the library. -/
def Formula.build (f : Nat → σ → Res V) : Formula → Criterion σ V
  | .atom i => lambda i (f i)
  | .conj a b => and (a.build f) (b.build f)
  | .disj a b => or (a.build f) (b.build f)
  | .neg a => invert (a.build f)

/-- `bool(c(s))`, if the call returns. -/
def verdict (c : Criterion σ V) (s : σ) : Res Bool := (c s).2.map Truthy.truth

/-! ## Theorems -/

/-- If every atom that short-circuit evaluation reaches returns, the combined criterion returns,
its truth value is the truth value of the formula, and exactly the atoms reached are called, in order. -/
theorem combined_criterion_correct (f : Nat → σ → Res V) (s : σ) (v : Nat → Bool) (φ : Formula)
    (h : ∀ i ∈ φ.visited v, (f i s).map Truthy.truth = .ok (v i)) :
    verdict (φ.build f) s = .ok (φ.sat v) ∧ (φ.build f s).1 = φ.visited v := by
  induction φ with
  | atom i =>
    refine ⟨?_, rfl⟩
    have := h i (by simp [Formula.visited])
    simpa [verdict, Formula.build, lambda, Formula.sat] using this
  | conj a b iha ihb =>
    have ha := iha (fun i hi => h i (by simp only [Formula.visited]; split <;> simp [hi]))
    obtain ⟨ha1, ha2⟩ := ha
    simp only [verdict] at ha1 ihb ⊢
    simp only [Formula.build, and, Formula.sat, Formula.visited]
    rcases hc : a.build f s with ⟨l, r⟩
    rw [hc] at ha1 ha2
    cases r with
    | error e => simp [Except.map] at ha1
    | ok x =>
      simp only [Except.map, Except.ok.injEq] at ha1
      simp only at ha2
      by_cases hx : a.sat v = true
      · rw [hx] at ha1
        obtain ⟨hb1, hb2⟩ := ihb (fun i hi => h i (by simp [Formula.visited, hx, hi]))
        simp [ha1, hx, ha2, hb1, hb2]
      · simp only [Bool.not_eq_true] at hx
        rw [hx] at ha1
        simp [ha1, hx, ha2, Except.map]
  | disj a b iha ihb =>
    have ha := iha (fun i hi => h i (by simp only [Formula.visited]; split <;> simp [hi]))
    obtain ⟨ha1, ha2⟩ := ha
    simp only [verdict] at ha1 ihb ⊢
    simp only [Formula.build, or, Formula.sat, Formula.visited]
    rcases hc : a.build f s with ⟨l, r⟩
    rw [hc] at ha1 ha2
    cases r with
    | error e => simp [Except.map] at ha1
    | ok x =>
      simp only [Except.map, Except.ok.injEq] at ha1
      simp only at ha2
      by_cases hx : a.sat v = true
      · rw [hx] at ha1
        simp [ha1, hx, ha2, Except.map]
      · simp only [Bool.not_eq_true] at hx
        rw [hx] at ha1
        obtain ⟨hb1, hb2⟩ := ihb (fun i hi => h i (by simp [Formula.visited, hx, hi]))
        simp [ha1, hx, ha2, hb1, hb2]
  | neg a iha =>
    obtain ⟨ha1, ha2⟩ := iha h
    simp only [verdict] at ha1 ⊢
    simp only [Formula.build, invert, Formula.sat, Formula.visited]
    rcases hc : a.build f s with ⟨l, r⟩
    rw [hc] at ha1 ha2
    cases r with
    | error e => simp [Except.map] at ha1
    | ok x =>
      simp only [Except.map, Except.ok.injEq] at ha1
      simp only at ha2
      simp [Except.map, Truthy.truth_ofBool, ha1, ha2]

/-- Formulas that are logically equivalent give criteria with the same verdict, whatever the (returning) callables
are: De Morgan, distributivity, double negation, ... -/
theorem equivalent_formulas_same_verdict (f : Nat → σ → Res V) (s : σ) (φ ψ : Formula)
    (hret : ∀ i, ∃ b, (f i s).map Truthy.truth = .ok b)
    (heq : ∀ v, φ.sat v = ψ.sat v) :
    verdict (φ.build f) s = verdict (ψ.build f) s := by
  have hv := fun i => (hret i).choose_spec
  let v := fun i => (hret i).choose
  rw [(combined_criterion_correct f s v φ fun i _ => hv i).1,
    (combined_criterion_correct f s v ψ fun i _ => hv i).1, heq]

/-- The visited atoms are a sublist of the atoms in reading order: no callable is invoked more often
than it is written, nor out of order. -/
theorem visited_sublist_atoms (v : Nat → Bool) (φ : Formula) : (φ.visited v).Sublist φ.atoms := by
  induction φ with
  | atom i => exact List.Sublist.refl _
  | conj a b iha ihb =>
    simp only [Formula.visited, Formula.atoms]
    split
    · exact iha.append ihb
    · exact iha.trans (List.sublist_append_left _ _)
  | disj a b iha ihb =>
    simp only [Formula.visited, Formula.atoms]
    split
    · exact iha.trans (List.sublist_append_left _ _)
    · exact iha.append ihb
  | neg a ih => exact ih

/-- Short circuit: if the left operand returns a falsy object, `a & b` returns that object and `b` is not
called; the same for a truthy object and `a | b`.  This holds even if `b` would raise. -/
theorem and_short_circuit (a b : Criterion σ V) (s : σ) (l : List Nat) (v : V)
    (h : a s = (l, .ok v)) (hv : Truthy.truth v = false) : and a b s = (l, .ok v) := by
  simp [and, h, hv]

theorem or_short_circuit (a b : Criterion σ V) (s : σ) (l : List Nat) (v : V)
    (h : a s = (l, .ok v)) (hv : Truthy.truth v = true) : or a b s = (l, .ok v) := by
  simp [or, h, hv]

/-- Exceptions propagate: if evaluation reaches an atom `i` that raises `e` after atoms `l` that return, the
combination raises `e` and calls nothing after `i`. -/
theorem exception_propagates (f : Nat → σ → Res V) (s : σ) (v : Nat → Bool) (φ : Formula)
    (l : List Nat) (i : Nat) (l' : List Nat) (e : PyErr)
    (hvis : φ.visited v = l ++ i :: l')
    (hl : ∀ j ∈ l, (f j s).map Truthy.truth = .ok (v j))
    (hi : f i s = .error e) :
    φ.build f s = (l ++ [i], .error e) := by
  induction φ generalizing l l' with
  | atom j =>
    simp only [Formula.visited] at hvis
    rcases l with _ | ⟨x, l⟩
    · simp only [List.nil_append, List.cons.injEq] at hvis
      obtain ⟨rfl, _⟩ := hvis
      simp [Formula.build, lambda, hi]
    · simp at hvis
  | neg a ih =>
    simp only [Formula.build, invert, ih l l' hvis hl]
  | conj a b iha ihb =>
    simp only [Formula.visited] at hvis
    simp only [Formula.build, and]
    by_cases hx : a.sat v = true
    · simp only [hx, if_true] at hvis
      rcases List.append_eq_append_iff.1 hvis with ⟨m, h1, h2⟩ | ⟨m, h1, h2⟩
      · have ha := combined_criterion_correct f s v a (fun j hj => hl j (by rw [h1]; simp [hj]))
        rcases hc : a.build f s with ⟨la, ra⟩
        simp only [verdict, hc] at ha
        cases ra with
        | error e => simp [Except.map] at ha
        | ok y =>
          simp only [Except.map, Except.ok.injEq, hx] at ha
          have hb := ihb m l' h2 (fun j hj => hl j (by rw [h1]; simp [hj]))
          simp [ha.1, ha.2, hb, h1]
      · rcases m with _ | ⟨y, m⟩
        · simp only [List.append_nil, List.nil_append] at h1 h2
          have ha := combined_criterion_correct f s v a (fun j hj => hl j (by rw [← h1]; exact hj))
          rcases hc : a.build f s with ⟨la, ra⟩
          simp only [verdict, hc] at ha
          cases ra with
          | error e => simp [Except.map] at ha
          | ok y =>
            simp only [Except.map, Except.ok.injEq, hx] at ha
            have hb := ihb [] l' h2.symm (by simp)
            simp [ha.1, ha.2, hb, h1]
        · simp only [List.cons_append, List.cons.injEq] at h2
          obtain ⟨rfl, h2⟩ := h2
          rw [iha l m h1 hl]
    · simp only [hx] at hvis
      rw [iha l l' hvis hl]
  | disj a b iha ihb =>
    simp only [Formula.visited] at hvis
    simp only [Formula.build, or]
    by_cases hx : a.sat v = true
    · simp only [hx, if_true] at hvis
      rw [iha l l' hvis hl]
    · simp only [hx] at hvis
      simp only [Bool.not_eq_true] at hx
      rcases List.append_eq_append_iff.1 hvis with ⟨m, h1, h2⟩ | ⟨m, h1, h2⟩
      · have ha := combined_criterion_correct f s v a (fun j hj => hl j (by rw [h1]; simp [hj]))
        rcases hc : a.build f s with ⟨la, ra⟩
        simp only [verdict, hc] at ha
        cases ra with
        | error e => simp [Except.map] at ha
        | ok y =>
          simp only [Except.map, Except.ok.injEq, hx] at ha
          have hb := ihb m l' h2 (fun j hj => hl j (by rw [h1]; simp [hj]))
          simp [ha.1, ha.2, hb, h1]
      · rcases m with _ | ⟨y, m⟩
        · simp only [List.append_nil, List.nil_append] at h1 h2
          have ha := combined_criterion_correct f s v a (fun j hj => hl j (by rw [← h1]; exact hj))
          rcases hc : a.build f s with ⟨la, ra⟩
          simp only [verdict, hc] at ha
          cases ra with
          | error e => simp [Except.map] at ha
          | ok y =>
            simp only [Except.map, Except.ok.injEq, hx] at ha
            have hb := ihb [] l' h2.symm (by simp)
            simp [ha.1, ha.2, hb, h1]
        · simp only [List.cons_append, List.cons.injEq] at h2
          obtain ⟨rfl, h2⟩ := h2
          rw [iha l m h1 hl]

/-- Witness: `~(a0 & a1) | a2` on criteria that inspect an integer state, with a raising `a2` that is not reached. -/
example :
    let f : Nat → Int → Res Int := fun i s => match i with
      | 0 => .ok s
      | 1 => .ok (s - 1)
      | _ => .error .valueError
    let φ : Formula := .disj (.neg (.conj (.atom 0) (.atom 1))) (.atom 2)
    let v : Nat → Bool := fun i => i == 0
    (∀ i ∈ φ.visited v, (f i 1).map Truthy.truth = .ok (v i)) ∧ φ.visited v = [0, 1] ∧ φ.sat v = true := by
  refine ⟨?_, by decide, by decide⟩
  intro i hi
  have : i = 0 ∨ i = 1 := by simpa [Formula.visited, Formula.sat] using hi
  rcases this with rfl | rfl <;> rfl

end Probnum.Stopping
