import Verif.Linalg.SystemBelief
import Verif.RandVars.PropsMatmul

/-!
# Beliefs about linear systems: accepted arguments, and the solution induced by a belief about the inverse
-/

namespace Probnum.SysBelief

open MeasureTheory RandVars
open LinGauss (QR)

/-! ## Which arguments are accepted -/

/-- What the constructor requires of the shapes (of the arguments that are given): a vector or matrix `x`, matrices `A` and
`Ainv`, a vector or matrix `b`; as many rows of `x` as columns of `A`; as many rows of `b` as rows of `A`; `x` and `b` are both
vectors, or matrices with the same number of columns; and `A` and `Ainv` have the same shape. -/
structure Fits (x Ainv A b : Option (List ℕ)) : Prop where
  x_dim : ∀ s, x = some s → s.length = 1 ∨ s.length = 2
  Ainv_dim : ∀ s, Ainv = some s → s.length = 2
  A_dim : ∀ s, A = some s → s.length = 2
  b_dim : ∀ s, b = some s → s.length = 1 ∨ s.length = 2
  x_A : ∀ s t, x = some s → A = some t → t[1]? = s[0]?
  b_A : ∀ s t, b = some s → A = some t → t[0]? = s[0]?
  x_b : ∀ s t, x = some s → b = some t → s.tail = t.tail
  Ainv_A : ∀ s t, Ainv = some s → A = some t → t = s

theorem bind_unit {α : Type} {p : Res Unit} {f : Unit → Res α} {y : α} : p.bind f = .ok y ↔ p = .ok () ∧ f () = .ok y := by
  cases p with
  | error e => simp [Except.bind]
  | ok u => cases u; simp [Except.bind]

theorem given_ok {s : Option (List ℕ)} {check : List ℕ → Res Unit} : given s check = .ok () ↔ ∀ t, s = some t → check t = .ok () := by
  cases s <;> simp [given]

theorem axis_ok {s : List ℕ} {i d : ℕ} : axis s i = .ok d ↔ s[i]? = some d := by
  unfold axis
  cases s[i]? <;> simp

theorem requireEq_ok {s t : List ℕ} {i j : ℕ} : requireEq (axis s i) (axis t j) = .ok () ↔ s[i]? = t[j]? ∧ i < s.length := by
  unfold requireEq axis
  cases hs : s[i]? with
  | none =>
    simp only [Except.bind, reduceCtorEq, false_iff, not_and, not_lt]
    exact fun _ => List.getElem?_eq_none_iff.1 hs
  | some d =>
    have hi : i < s.length := (List.getElem?_eq_some_iff.1 hs).1
    cases ht : t[j]? with
    | none => simp [Except.bind]
    | some e =>
      simp only [Except.bind, Option.some.injEq, hi, and_true]
      split <;> simp_all

theorem checkB_ok {s : List ℕ} : checkB s = .ok () ↔ s.length = 1 ∨ s.length = 2 := by
  unfold checkB
  split
  · simp only [reduceCtorEq, false_iff]; omega
  · simp only [true_iff]; omega

/-- The checks of the shapes together. -/
theorem checks_ok (x Ainv A b : Option (List ℕ)) :
    ((given x fun s => checkX s A b) = .ok () ∧ (given Ainv fun s => checkAinv s A) = .ok () ∧
      (given A fun s => checkA s b) = .ok () ∧ given b checkB = .ok ()) ↔ Fits x Ainv A b := by
  simp only [given_ok, checkB_ok]
  constructor
  · rintro ⟨h1, h2, h3, h4⟩
    have hX : ∀ s, x = some s → (s.length = 1 ∨ s.length = 2) ∧ (∀ t, A = some t → t[1]? = s[0]?) ∧
        ∀ t, b = some t → s.tail = t.tail := fun s hs => by
      have := h1 s hs
      unfold checkX at this
      split at this
      · cases this
      · rename_i hl
        rw [bind_unit, given_ok, given_ok] at this
        refine ⟨by omega, fun t ht => (requireEq_ok.1 (this.1 t ht)).1, fun t ht => ?_⟩
        have hb := h4 t ht
        have hq := this.2 t ht
        rcases s with _ | ⟨s0, _ | ⟨s1, _ | ⟨s2, s3⟩⟩⟩
        · simp at hl
        · rcases t with _ | ⟨t0, _ | ⟨t1, t2⟩⟩
          · simp at hb
          · rfl
          · simp at hq
        · rw [if_pos (by simp), requireEq_ok] at hq
          rcases t with _ | ⟨t0, _ | ⟨t1, _ | ⟨t2, t3⟩⟩⟩
          · simp at hb
          · simp at hq
          · simpa using hq
          · simp at hb
        · simp at hl
    have hI : ∀ s, Ainv = some s → s.length = 2 ∧ ∀ t, A = some t → t = s := fun s hs => by
      have := h2 s hs
      unfold checkAinv at this
      split at this
      · cases this
      · rename_i hl
        rw [given_ok] at this
        refine ⟨not_not.1 hl, fun t ht => ?_⟩
        have hq := this t ht
        split at hq
        · cases hq
        · rename_i h
          exact not_not.1 h
    have hA : ∀ s, A = some s → s.length = 2 ∧ ∀ t, b = some t → s[0]? = t[0]? := fun s hs => by
      have := h3 s hs
      unfold checkA at this
      split at this
      · cases this
      · rename_i hl
        rw [given_ok] at this
        exact ⟨not_not.1 hl, fun t ht => (requireEq_ok.1 (this t ht)).1⟩
    exact ⟨fun s hs => (hX s hs).1, fun s hs => (hI s hs).1, fun s hs => (hA s hs).1, h4, fun s t hs ht => (hX s hs).2.1 t ht,
      fun s t hs ht => (hA t ht).2 s hs, fun s t hs ht => (hX s hs).2.2 t ht, fun s t hs ht => (hI s hs).2 t ht⟩
  · intro h
    refine ⟨fun s hs => ?_, fun s hs => ?_, fun s hs => ?_, h.b_dim⟩
    · have hd := h.x_dim s hs
      unfold checkX
      rw [if_neg (by omega), bind_unit, given_ok, given_ok]
      refine ⟨fun t ht => requireEq_ok.2 ⟨h.x_A s t hs ht, by rw [h.A_dim t ht]; omega⟩, fun t ht => ?_⟩
      have hb := h.b_dim t ht
      have hq := h.x_b s t hs ht
      rcases s with _ | ⟨s0, _ | ⟨s1, _ | ⟨s2, s3⟩⟩⟩
      · simp at hd
      · rw [if_neg (by simp)]
        rcases t with _ | ⟨t0, _ | ⟨t1, t2⟩⟩
        · simp at hb
        · rfl
        · simp at hq
      · rw [if_pos (by simp), requireEq_ok]
        rcases t with _ | ⟨t0, _ | ⟨t1, _ | ⟨t2, t3⟩⟩⟩
        · simp at hb
        · simp at hq
        · simpa using hq
        · simp at hb
      · simp at hd
    · unfold checkAinv
      rw [if_neg (by simp [h.Ainv_dim s hs]), given_ok]
      exact fun t ht => if_neg (not_not.2 (h.Ainv_A s t hs ht))
    · unfold checkA
      rw [if_neg (by simp [h.A_dim s hs]), given_ok]
      exact fun t ht => requireEq_ok.2 ⟨h.b_A t s ht hs, by rw [h.A_dim s hs]; omega⟩

/-- The shapes of the given random variables. -/
def shapes (R : Option RV) : Option (List ℕ) := R.map RV.shape

theorem asRv_ok {a : Option Arg} {R : Option RV} : asRv a = .ok R ↔ a = R.map .rv := by
  rcases a with _ | ⟨S⟩ | ⟨c⟩ <;> rcases R with _ | R <;> simp [asRv]

theorem bind_rv {α : Type} {a : Option Arg} {f : Option RV → Res α} {y : α} :
    (asRv a).bind f = .ok y ↔ ∃ R : Option RV, a = R.map .rv ∧ f R = .ok y := by
  constructor
  · intro h
    cases ha : asRv a with
    | error e => rw [ha] at h; cases h
    | ok R => rw [ha] at h; exact ⟨R, asRv_ok.1 ha, h⟩
  · rintro ⟨R, ha, h⟩
    rw [asRv_ok.2 ha]
    exact h

theorem shape_map (R : Option RV) : (R.map Arg.rv).map Arg.shape = shapes R := by
  cases R <;> rfl

/-- **C91 (a).**  The constructor accepts exactly the random variables whose shapes fit, if at least one of `x` and `Ainv` is given, and
the belief is about these random variables. -/
theorem create_accepts (x Ainv A b : Option Arg) (hyper : Option (List (String × RV))) (β : Belief) :
    create x Ainv A b hyper = .ok β ↔
      x = β.px.map .rv ∧ Ainv = β.Ainv.map .rv ∧ A = β.A.map .rv ∧ b = β.b.map .rv ∧ β.hyper = hyper.getD [] ∧
      (β.px ≠ none ∨ β.Ainv ≠ none) ∧ Fits (shapes β.px) (shapes β.Ainv) (shapes β.A) (shapes β.b) := by
  unfold create
  by_cases hn : x.isNone && Ainv.isNone
  · rw [if_pos hn]
    simp only [Bool.and_eq_true, Option.isNone_iff_eq_none] at hn
    simp only [reduceCtorEq, false_iff]
    rintro ⟨h1, h2, -, -, -, h3, -⟩
    rw [hn.1] at h1
    rw [hn.2] at h2
    rcases h3 with h3 | h3
    · exact h3 (Option.map_eq_none_iff.1 h1.symm)
    · exact h3 (Option.map_eq_none_iff.1 h2.symm)
  · rw [if_neg hn]
    simp only [bind_unit, bind_rv]
    constructor
    · rintro ⟨g1, g2, g3, g4, X, rfl, A', rfl, I, rfl, b', rfl, h⟩
      obtain rfl := Except.ok.inj h
      have hf := (checks_ok _ _ _ _).1 ⟨g1, g2, g3, g4⟩
      simp only [shape_map] at hf
      refine ⟨rfl, rfl, rfl, rfl, rfl, ?_, hf⟩
      by_contra hc
      push Not at hc
      obtain ⟨e1, e2⟩ := hc
      simp only at e1
      have e2 : I = none := e2
      subst e1 e2
      exact hn rfl
    · rintro ⟨rfl, rfl, rfl, rfl, h5, -, hf⟩
      have hf' := hf
      simp only [← shape_map] at hf'
      obtain ⟨g1, g2, g3, g4⟩ := (checks_ok _ _ _ _).2 hf'
      refine ⟨g1, g2, g3, g4, _, rfl, _, rfl, _, rfl, _, rfl, ?_⟩
      rw [← h5]
      rfl

/-- **C91 (b).**  Random variables of a square system are accepted: a matrix `A` and its inverse, and a solution and a right-hand
side of the same shape, each given or not. -/
theorem create_square {n : ℕ} {t : List ℕ} (ht : t.length ≤ 1) {x Ainv A b : Option RV} (hx : ∀ s, shapes x = some s → s = n :: t)
    (hI : ∀ s, shapes Ainv = some s → s = [n, n]) (hA : ∀ s, shapes A = some s → s = [n, n])
    (hb : ∀ s, shapes b = some s → s = n :: t) (hne : x ≠ none ∨ Ainv ≠ none) (hyper : Option (List (String × RV))) :
    ∃ β, create (x.map .rv) (Ainv.map .rv) (A.map .rv) (b.map .rv) hyper = .ok β ∧ β.px = x ∧ β.Ainv = Ainv ∧ β.A = A ∧ β.b = b := by
  have hd : (n :: t).length = 1 ∨ (n :: t).length = 2 := by simp only [List.length_cons]; omega
  refine ⟨⟨x, Ainv, A, b, hyper.getD []⟩, (create_accepts _ _ _ _ _ _).2 ⟨rfl, rfl, rfl, rfl, rfl, hne, ?_⟩, rfl, rfl, rfl, rfl⟩
  exact ⟨fun s hs => hx s hs ▸ hd, fun s hs => by rw [hI s hs]; rfl, fun s hs => by rw [hA s hs]; rfl, fun s hs => hb s hs ▸ hd,
    fun s u hs hu => by rw [hx s hs, hA u hu]; rfl, fun s u hs hu => by rw [hb s hs, hA u hu]; rfl,
    fun s u hs hu => by rw [hx s hs, hb u hu], fun s u hs hu => by rw [hI s hs, hA u hu]⟩

/-- **C91 (c).**  Missing information: TypeError.  So is an array in place of a random variable, if its shape fits. -/
theorem create_type_errors (A b : Option Arg) (hyper : Option (List (String × RV))) (x Ainv : Option Arg)
    (hne : x ≠ none ∨ Ainv ≠ none) (hf : Fits (x.map Arg.shape) (Ainv.map Arg.shape) (A.map Arg.shape) (b.map Arg.shape)) :
    create none none A b hyper = .error .typeError ∧
      ((∃ a, some (.array a) ∈ [x, Ainv, A, b]) ↔ create x Ainv A b hyper = .error .typeError) := by
  refine ⟨rfl, ?_⟩
  obtain ⟨g1, g2, g3, g4⟩ := (checks_ok _ _ _ _).2 hf
  unfold create
  rw [if_neg (by rcases x with _ | x <;> rcases Ainv with _ | I <;> simp_all)]
  simp only [g1, g2, g3, g4, Except.bind]
  rcases x with _ | ⟨x⟩ | ⟨x⟩ <;> rcases Ainv with _ | ⟨I⟩ | ⟨I⟩ <;> rcases A with _ | ⟨A⟩ | ⟨A⟩ <;> rcases b with _ | ⟨b⟩ | ⟨b⟩ <;>
    simp [asRv]

/-! ## The solution -/

/-- **C91 (d).**  A given belief about the solution is returned, whatever else is given. -/
theorem x_given (Q : QR) {β : Belief} {R : RV} (h : β.px = some R) : β.x Q = .ok R := by
  rw [Belief.x, h]

/-- **C91 (d).**  The given hyperparameters, and KeyError for names that are not given. -/
theorem hyperparameter_lookup {x Ainv A b : Option Arg} {hyper : Option (List (String × RV))} {β : Belief}
    (h : create x Ainv A b hyper = .ok β) (key : String) :
    (∀ R, β.hyperparameter key = .ok R ↔ (hyper.getD []).lookup key = some R) ∧
    (β.hyperparameter key = .error .keyError ↔ ∀ R, (key, R) ∉ hyper.getD []) := by
  have e : β.hyper = hyper.getD [] := ((create_accepts _ _ _ _ _ _).1 h).2.2.2.2.1
  unfold Belief.hyperparameter
  rw [e]
  generalize hyper.getD [] = l
  constructor
  · intro R
    cases l.lookup key <;> simp
  · have hl : l.lookup key = none ↔ ∀ R, (key, R) ∉ l := by
      rw [List.lookup_eq_none_iff]
      constructor
      · intro h R hR
        simpa using h _ hR
      · rintro h ⟨k, R⟩ hR
        simp only [bne_iff_ne, ne_eq]
        rintro rfl
        exact h R hR
    rw [← hl]
    cases l.lookup key <;> simp

/-- **C91 (e).**  A normal belief about the inverse and a known right-hand side: the induced belief about the solution is the
distribution of the product. -/
theorem induced_normal_constant (Q : QR) {β : Belief} {N : RandVars.Normal} {c : Arr} (hx : β.px = none) (hI : β.Ainv = some (.normal N))
    (hb : β.b = some (.const c)) (hN : N.WF) {Ω : Type*} {mΩ : MeasurableSpace Ω} {P : Measure Ω} {H : Ω → Arr} (hH : Law P H N) :
    (∀ R, β.x Q = .ok R → ∃ S, R = .normal S ∧ S.WF ∧ ∃ X : Ω → Arr, (∀ ω, (H ω).matmul c = .ok (X ω)) ∧ Law P X S) ∧
    (N.chol = none → (∃ n m r, N.mean.shape = [n, m] ∧ c.shape = m :: r ∧ r.length ≤ 1) → ∃ R, β.x Q = .ok R) := by
  have e : β.x Q = matmul Q (.normal N) (.const c) := by
    rw [Belief.x, hx]
    show β.inducedX Q = _
    rw [Belief.inducedX, show β.pAinv = _ from hI, show β.pb = _ from hb]
  rw [e]
  refine ⟨fun R h => ?_, fun h0 ⟨n, m, r, hs, hc, hr⟩ => ?_⟩
  · obtain ⟨S, h1, h2, h3, -⟩ := matmul_constant Q hN hH h
    exact ⟨S, h1, h2, h3⟩
  · rw [matmul_constant_accepts Q hN h0 c (by rw [hs]; simp)]
    rcases r with _ | ⟨p, _ | ⟨_, _⟩⟩
    · exact ⟨_, Arr.matmul_mv_eq hs hc⟩
    · exact ⟨_, Arr.matmul_mm_eq hs hc⟩
    · simp at hr

/-- **C91 (f).**  A known inverse and a normal belief about the right-hand side. -/
theorem induced_constant_normal (Q : QR) {β : Belief} {N : RandVars.Normal} {c : Arr} (hx : β.px = none) (hI : β.Ainv = some (.const c))
    (hb : β.b = some (.normal N)) (hN : N.WF) {Ω : Type*} {mΩ : MeasurableSpace Ω} {P : Measure Ω} {B : Ω → Arr} (hB : Law P B N) :
    (∀ R, β.x Q = .ok R → ∃ S, R = .normal S ∧ S.WF ∧ ∃ X : Ω → Arr, (∀ ω, c.matmul (B ω) = .ok (X ω)) ∧ Law P X S) ∧
    (N.chol = none → (∃ n m r, c.shape = [n, m] ∧ N.mean.shape = m :: r) → ∃ R, β.x Q = .ok R) := by
  have e : β.x Q = matmul Q (.const c) (.normal N) := by
    rw [Belief.x, hx]
    show β.inducedX Q = _
    rw [Belief.inducedX, show β.pAinv = _ from hI, show β.pb = _ from hb]
  rw [e]
  refine ⟨fun R h => ?_, fun h0 ⟨n, m, r, hc, hs⟩ => ?_⟩
  · obtain ⟨S, h1, h2, h3, -⟩ := constant_matmul Q hN hB h
    exact ⟨S, h1, h2, h3⟩
  · exact constant_matmul_ok Q hN h0 c hc hs

/-- **C91 (g).**  With a known inverse and a known right-hand side the solution is known. -/
theorem induced_constant (Q : QR) {β : Belief} {c d : Arr} (hx : β.px = none) (hI : β.Ainv = some (.const c))
    (hb : β.b = some (.const d)) : β.x Q = (c.matmul d).map .const := by
  rw [Belief.x, hx]
  show β.inducedX Q = _
  rw [Belief.inducedX, show β.pAinv = _ from hI, show β.pb = _ from hb]
  rfl

/-! ## Disagreements -/

/-- **C91 (h), disagreement.**  The class is documented for pseudo-inverses, but `Ainv` must have the shape of `A`: for a system with
`m` equations for `n ≠ m` unknowns a belief about the pseudo-inverse is rejected, and accepted is only one of the wrong shape. -/
theorem pseudo_inverse_rejected {m n : ℕ} (hmn : m ≠ n) {A H b : RV} (hA : A.shape = [m, n]) (hb : b.shape = [m])
    (hyper : Option (List (String × RV))) :
    (H.shape = [n, m] → create none (some (.rv H)) (some (.rv A)) (some (.rv b)) hyper = .error .valueError) ∧
    (H.shape = [m, n] → ∃ β, create none (some (.rv H)) (some (.rv A)) (some (.rv b)) hyper = .ok β) := by
  constructor
  · intro hH
    unfold create
    simp only [Option.isNone, Bool.and_false, Bool.false_eq_true, if_false, Option.map, given, Arg.shape, hA, hH, hb, Except.bind,
      checkAinv]
    rw [if_neg (by simp), if_pos (by simp; omega)]
  · intro hH
    refine ⟨⟨none, some H, some A, some b, hyper.getD []⟩, (create_accepts _ _ _ _ _ _).2 ⟨rfl, rfl, rfl, rfl, rfl, Or.inr (by
      simp [Belief.Ainv]), ?_⟩⟩
    have e1 : shapes (some H) = some [m, n] := congrArg some hH
    have e2 : shapes (some A) = some [m, n] := congrArg some hA
    have e3 : shapes (some b) = some [m] := congrArg some hb
    show Fits none (shapes (some H)) (shapes (some A)) (shapes (some b))
    rw [e1, e2, e3]
    refine ⟨?_, ?_, ?_, ?_, ?_, ?_, ?_, ?_⟩ <;> simp

/-- **C91 (i), disagreement.**  A belief about the inverse alone is accepted, but then there is no solution: the documented requirement
of a right-hand side is not checked. -/
theorem missing_rhs (Q : QR) {H : RV} {n m : ℕ} (hH : H.shape = [n, m]) (hyper : Option (List (String × RV))) :
    ∃ β, create none (some (.rv H)) none none hyper = .ok β ∧ β.x Q = .error .valueError := by
  refine ⟨⟨none, some H, none, none, hyper.getD []⟩, (create_accepts _ _ _ _ _ _).2 ⟨rfl, rfl, rfl, rfl, rfl, Or.inr (by
      simp [Belief.Ainv]), ?_⟩, rfl⟩
  have e1 : shapes (some H) = some [n, m] := congrArg some hH
  show Fits none (shapes (some H)) none none
  rw [e1]
  refine ⟨?_, ?_, ?_, ?_, ?_, ?_, ?_, ?_⟩ <;> simp

/-- **C91 (j), disagreement.**  The shapes of `Ainv` and `b` are not compared, nor those of `x` and `Ainv`: an inverse with `m` columns
and a right-hand side with `k ≠ m` entries are accepted, for any vector `x`; without `x` the solution raises ValueError. -/
theorem shapes_not_compared (Q : QR) {c d : Arr} {x : RV} {n m k l : ℕ} (hc : c.shape = [n, m]) (hd : d.shape = [k]) (hx : x.shape = [l])
    (hk : m ≠ k) (hyper : Option (List (String × RV))) :
    (∃ β, create (some (.rv x)) (some (.rv (.const c))) none (some (.rv (.const d))) hyper = .ok β) ∧
    ∃ β, create none (some (.rv (.const c))) none (some (.rv (.const d))) hyper = .ok β ∧ β.x Q = .error .valueError := by
  have e1 : shapes (some (.const c)) = some [n, m] := congrArg some hc
  have e2 : shapes (some (.const d)) = some [k] := congrArg some hd
  have e3 : shapes (some x) = some [l] := congrArg some hx
  refine ⟨⟨⟨some x, some (.const c), none, some (.const d), hyper.getD []⟩, (create_accepts _ _ _ _ _ _).2 ⟨rfl, rfl, rfl, rfl, rfl,
    Or.inl (by simp), ?_⟩⟩, ⟨none, some (.const c), none, some (.const d), hyper.getD []⟩,
    (create_accepts _ _ _ _ _ _).2 ⟨rfl, rfl, rfl, rfl, rfl, Or.inr (by simp [Belief.Ainv]), ?_⟩, ?_⟩
  · show Fits (shapes (some x)) (shapes (some (.const c))) none (shapes (some (.const d)))
    rw [e1, e2, e3]
    refine ⟨?_, ?_, ?_, ?_, ?_, ?_, ?_, ?_⟩ <;> simp
  · show Fits none (shapes (some (.const c))) none (shapes (some (.const d)))
    rw [e1, e2]
    refine ⟨?_, ?_, ?_, ?_, ?_, ?_, ?_, ?_⟩ <;> simp
  · rw [induced_constant Q (c := c) (d := d) rfl rfl rfl, Arr.matmul, hc, hd]
    simp only
    rw [if_neg hk]
    rfl

/-- **C91 (k), disagreement.**  A system matrix with fewer than two axes, or a vector `b` for a matrix `x`, is reported by IndexError
instead of the ValueError meant for it. -/
theorem index_errors {x A b : RV} (hyper : Option (List (String × RV))) (Ainv : Option Arg) :
    (∀ n m, x.shape = [n] → A.shape = [m] → ∀ b, create (some (.rv x)) Ainv (some (.rv A)) b hyper = .error .indexError) ∧
    (∀ n k m, x.shape = [n, k] → b.shape = [m] → create (some (.rv x)) Ainv none (some (.rv b)) hyper = .error .indexError) := by
  constructor
  · intro n m hx hA b
    unfold create
    simp only [Option.isNone, Bool.false_and, Bool.false_eq_true, if_false, Option.map, given, Arg.shape, hx, hA, checkX]
    rfl
  · intro n k m hx hb
    unfold create
    simp only [Option.isNone, Bool.false_and, Bool.false_eq_true, if_false, Option.map, given, Arg.shape, hx, hb, checkX]
    rfl

/-! ## Cases that meet the hypotheses -/

section Examples

/-- The matrix `[[2, 0], [0, 4]]` and the vector `(1, 1)`. -/
noncomputable def exA : Arr := ⟨[2, 2], fun idx => if idx = [0, 0] then 2 else if idx = [1, 1] then 4 else 0⟩

/-- Its inverse. -/
noncomputable def exInv : Arr := ⟨[2, 2], fun idx => if idx = [0, 0] then 1 / 2 else if idx = [1, 1] then 1 / 4 else 0⟩

/-- The vector `(1, 1)`. -/
def exB : Arr := ⟨[2], fun _ => 1⟩

/-- A belief about the system with known quantities: the solution is `(1/2, 1/4)`. -/
example (Q : QR) : ∃ β, create none (some (.rv (.const exInv))) (some (.rv (.const exA))) (some (.rv (.const exB))) none = .ok β ∧
    ∃ v, β.x Q = .ok (.const v) ∧ v.shape = [2] ∧ v.get [0] = 1 / 2 ∧ v.get [1] = 1 / 4 := by
  obtain ⟨β, h1, h2, h3, h4, h5⟩ := create_square (n := 2) (t := []) (by simp) (x := none) (Ainv := some (.const exInv))
    (A := some (.const exA)) (b := some (.const exB)) (by intro s hs; cases hs)
    (by intro s hs; exact (Option.some.inj hs).symm) (by intro s hs; exact (Option.some.inj hs).symm)
    (by intro s hs; exact (Option.some.inj hs).symm) (Or.inr (by simp)) none
  refine ⟨β, h1, ?_⟩
  rw [induced_constant Q h2 h3 h5, Arr.matmul_mv_eq (r := 2) (n := 2) rfl rfl]
  refine ⟨_, rfl, rfl, ?_, ?_⟩ <;> simp [exInv, exB, Finset.sum_range_succ]

/-- Normal beliefs about a 2 × 2 inverse with any covariance `L Lᵀ`, and the induced solutions. -/
example (Q : QR) (L : Matrix (Fin exInv.size) (Fin exInv.size) ℝ) : ∃ (N : RandVars.Normal) (β : Belief) (S : RandVars.Normal),
    create none (some (.rv (.normal N))) none (some (.rv (.const exB))) none = .ok β ∧ N.mean = exInv ∧ β.x Q = .ok (.normal S) ∧
    ∃ (Ω : Type) (_ : MeasurableSpace Ω) (P : Measure Ω) (H X : Ω → Arr), Law P H N ∧ (∀ ω, (H ω).matmul exB = .ok (X ω)) ∧ Law P X S := by
  obtain ⟨N, hN, hm, h0, -, Ω, mΩ, P, H, hH⟩ := law_exists exInv (by simp [exInv, Arr.ndim]) L
  have hs : N.mean.shape = [2, 2] := by rw [hm]; rfl
  obtain ⟨β, h1, h2, h3, -, h5⟩ := create_square (n := 2) (t := []) (by simp) (x := none) (Ainv := some (.normal N))
    (A := none) (b := some (.const exB)) (by intro s hs; cases hs)
    (by intro s hs'; exact (Option.some.inj hs').symm.trans hs) (by intro s hs; cases hs)
    (by intro s hs; exact (Option.some.inj hs).symm) (Or.inr (by simp)) none
  obtain ⟨q1, q2⟩ := induced_normal_constant Q h2 h3 h5 hN hH
  obtain ⟨R, hR⟩ := q2 h0 ⟨2, 2, [], hs, rfl, by simp⟩
  obtain ⟨S, rfl, -, X, hX, hL⟩ := q1 R hR
  exact ⟨N, β, S, h1, hm, hR, Ω, mΩ, P, H, X, hH, hX, hL⟩

/-- The same with a normal belief about the right-hand side. -/
example (Q : QR) (L : Matrix (Fin exB.size) (Fin exB.size) ℝ) : ∃ (N : RandVars.Normal) (β : Belief) (S : RandVars.Normal),
    create none (some (.rv (.const exInv))) none (some (.rv (.normal N))) none = .ok β ∧ N.mean = exB ∧ β.x Q = .ok (.normal S) := by
  obtain ⟨N, hN, hm, h0, -, Ω, mΩ, P, H, hH⟩ := law_exists exB (by simp [exB, Arr.ndim]) L
  have hs : N.mean.shape = [2] := by rw [hm]; rfl
  obtain ⟨β, h1, h2, h3, -, h5⟩ := create_square (n := 2) (t := []) (by simp) (x := none) (Ainv := some (.const exInv))
    (A := none) (b := some (.normal N)) (by intro s hs; cases hs)
    (by intro s hs; exact (Option.some.inj hs).symm) (by intro s hs; cases hs)
    (by intro s hs'; exact (Option.some.inj hs').symm.trans hs) (Or.inr (by simp)) none
  obtain ⟨q1, q2⟩ := induced_constant_normal Q h2 h3 h5 hN hH
  obtain ⟨R, hR⟩ := q2 h0 ⟨2, 2, [], rfl, hs⟩
  obtain ⟨S, rfl, -⟩ := q1 R hR
  exact ⟨N, β, S, h1, hm, hR⟩

/-- An array in place of a random variable. -/
example : create none (some (.rv (.const exInv))) (some (.array exA)) none none = .error .typeError := by
  refine ((create_type_errors (some (.array exA)) none none none (some (.rv (.const exInv))) (Or.inr (by simp)) ?_).2).1
    ⟨exA, by simp⟩
  refine ⟨?_, ?_, ?_, ?_, ?_, ?_, ?_, ?_⟩ <;> simp [Arg.shape, RV.shape, exA, exInv]

example : create none (some (.rv (.other [3, 2]))) (some (.rv (.other [2, 3]))) (some (.rv (.const exB))) none = .error .valueError :=
  (pseudo_inverse_rejected (m := 2) (n := 3) (by simp) (b := .const exB) rfl rfl none).1 rfl

end Examples

end Probnum.SysBelief
