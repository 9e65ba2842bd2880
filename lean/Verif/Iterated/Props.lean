import Verif.Iterated.Model
import Mathlib.Tactic.NormNum
import Mathlib.Tactic.Linarith
import Mathlib.Tactic.Push

/-!
# Iteration control of iterated filters and smoothers (C58)
-/

namespace Probnum.Iterated

/-! ## Specification -/

/-- The root mean square of the entries of `error`, each divided by `atol + rtol * reference`. -/
noncomputable def normalisedDifference (atol rtol : ℝ) (error reference : List ℝ) : ℝ :=
  Real.sqrt ((List.zipWith (fun e r => (e / (atol + rtol * r)) ^ 2) error reference).sum / reference.length)

/-- The results of the successive steps. -/
inductive Steps {P : Type} (step : P → Res P) (p0 : P) : ℕ → P → Prop
  | zero : Steps step p0 0 p0
  | succ {k : ℕ} {p q : P} : Steps step p0 k p → step p = .ok q → Steps step p0 (k + 1) q

/-- The change between the results `k - 1` and `k` is not small: the computed magnitude is larger than 1. The first result
is compared with infinity. -/
def Moves {P : Type} (mean : P → List ℝ) (c : Crit) (old : Option P) (p : P) : Prop :=
  (c.evaluateError (match old with | none => infiniteError (mean p) | some q => diff (mean p) (mean q)) (mean p)).big

/-- The same settings, another counter. -/
def Crit.withCount (c : Crit) (n : ℕ) : Crit := { c with iterations := n }

/-! ## The criterion -/

theorem sumMag_fin {α β : Type} (f : α → β → ℝ) : ∀ (as : List α) (bs : List β),
    sumMag (List.zipWith (fun a b => .fin (f a b)) as bs) = .fin (List.zipWith f as bs).sum
  | [], _ => by simp [sumMag]
  | _ :: _, [] => by simp [sumMag]
  | a :: as, b :: bs => by
    rw [List.zipWith_cons_cons, sumMag, sumMag_fin f as bs, List.zipWith_cons_cons, List.sum_cons, Mag.add]

theorem sqEntries_fin {atol rtol : ℝ} : ∀ (error reference : List ℝ), (∀ r ∈ reference, atol + rtol * r ≠ 0) →
    List.zipWith (sqEntry atol rtol) (error.map some) reference =
      List.zipWith (fun e r => .fin ((e / (atol + rtol * r)) ^ 2)) error reference
  | [], _, _ => by simp
  | _ :: _, [], _ => by simp
  | e :: es, r :: rs, h => by
    rw [List.map_cons, List.zipWith_cons_cons, List.zipWith_cons_cons,
      sqEntries_fin es rs fun r hr => h r (List.mem_cons_of_mem _ hr), sqEntry, if_neg (h r List.mem_cons_self)]

/-- **C58.** With a counter that does not exceed the maximum, and where no normalisation vanishes, the criterion returns
`True` exactly if the normalised difference is at most one; `True` resets the counter, `False` increases it by one. -/
theorem criterion_value {c : Crit} (hc : c.iterations ≤ c.maxit) {error reference : List ℝ}
    (hl : error.length = reference.length) (hne : reference ≠ [])
    (hr : ∀ r ∈ reference, c.atol + c.rtol * r ≠ 0) :
    c.call (error.map some) reference =
      if normalisedDifference c.atol c.rtol error reference ≤ 1 then (.ok true, c.withCount 0)
      else (.ok false, c.withCount (c.iterations + 1)) := by
  have hlen : (List.zipWith (fun e r => Mag.fin ((e / (c.atol + c.rtol * r)) ^ 2)) error reference).length =
      reference.length := by rw [List.length_zipWith, hl, min_self]
  have e : c.evaluateError (error.map some) reference =
      .fin (normalisedDifference c.atol c.rtol error reference) := by
    rw [Crit.evaluateError, sqEntries_fin error reference hr, rms, hlen,
      if_neg (by rw [List.length_eq_zero_iff]; exact hne), sumMag_fin]
    rfl
  rw [Crit.call, if_neg (not_lt.2 hc), e]
  by_cases h : normalisedDifference c.atol c.rtol error reference ≤ 1
  · have hb : ¬(Mag.fin (normalisedDifference c.atol c.rtol error reference)).big := not_lt.2 h
    rw [if_pos h, if_neg hb]
    rfl
  · have hb : (Mag.fin (normalisedDifference c.atol c.rtol error reference)).big := not_le.1 h
    rw [if_neg h, if_pos hb]
    rfl

/-- **C58.** When the counter exceeds the maximum, the criterion raises `RuntimeError`. -/
theorem criterion_raises {c : Crit} (hc : c.maxit < c.iterations) (error : List (Option ℝ)) (reference : List ℝ) :
    c.call error reference = (.error .runtimeError, c) := by
  rw [Crit.call, if_pos hc]

theorem sumMag_replicate : ∀ n, sumMag (List.replicate (n + 1) .inf) = .inf
  | 0 => rfl
  | n + 1 => by rw [List.replicate_succ, sumMag, sumMag_replicate n]; rfl

/-- The first comparison (with infinity) never succeeds. -/
theorem first_moves {P : Type} {mean : P → List ℝ} {c : Crit} {p : P} (h : mean p ≠ []) : Moves mean c none p := by
  rw [Moves]
  have e : ∀ l : List ℝ, List.zipWith (sqEntry c.atol c.rtol) (infiniteError l) l = List.replicate l.length .inf := by
    intro l
    induction l with
    | nil => rfl
    | cons x l ih =>
      rw [infiniteError] at ih ⊢
      rw [List.map_cons, List.zipWith_cons_cons, ih, List.length_cons, List.replicate_succ]
      rfl
  obtain ⟨x, l, hl⟩ := List.exists_cons_of_ne_nil h
  rw [Crit.evaluateError, e, hl, List.length_cons, rms, List.length_replicate, if_neg (by omega), sumMag_replicate]
  trivial

/-! ## The loop -/

theorem moves_withCount {P : Type} (mean : P → List ℝ) (c : Crit) (n : ℕ) (old : Option P) (p : P) :
    Moves mean (c.withCount n) old p ↔ Moves mean c old p := Iff.rfl

/-- The error passed to the criterion. -/
def errorOf {P : Type} (mean : P → List ℝ) (old : Option P) (p : P) : List (Option ℝ) :=
  match old with
  | none => infiniteError (mean p)
  | some q => diff (mean p) (mean q)

theorem call_moves {P : Type} {mean : P → List ℝ} {c : Crit} {old : Option P} {p : P} (hc : c.iterations ≤ c.maxit)
    (h : Moves mean c old p) : c.call (errorOf mean old p) (mean p) = (.ok false, c.withCount (c.iterations + 1)) := by
  rw [Crit.call, if_neg (not_lt.2 hc), if_pos]
  · rfl
  · cases old <;> exact h

theorem call_stops {P : Type} {mean : P → List ℝ} {c : Crit} {old : Option P} {p : P} (hc : c.iterations ≤ c.maxit)
    (h : ¬Moves mean c old p) : c.call (errorOf mean old p) (mean p) = (.ok true, c.withCount 0) := by
  rw [Crit.call, if_neg (not_lt.2 hc), if_neg]
  · rfl
  · cases old <;> exact h

/-- What can come out of an iteration that started with result `p0`, made `k` steps in all, and had the counter `n0` at the
beginning. -/
inductive Outcome {P : Type} (step : P → Res P) (mean : P → List ℝ) (c : Crit) (p0 : P) (n0 k : ℕ) : Res P × Crit → Prop
  /-- Success: the last change is the first small one, within the limit, and the counter is reset. -/
  | done {q : Option P} {p : P} (hp : Steps step p0 k p) (hq : q = none ∧ k = 0 ∨ ∃ j x, q = some x ∧ k = j + 1 ∧ Steps step p0 j x)
      (hstop : ¬Moves mean c q p)
      (hfirst : ∀ j x y, j + 1 < k → Steps step p0 j x → Steps step p0 (j + 1) y → Moves mean c (some x) y)
      (hlim : n0 + k ≤ c.maxit) : Outcome step mean c p0 n0 k (.ok p, c.withCount 0)
  /-- The limit is exceeded; the counter stays. -/
  | limit (hlim : n0 + k = c.maxit + 1)
      (hfirst : ∀ j x y, j + 1 < k → Steps step p0 j x → Steps step p0 (j + 1) y → Moves mean c (some x) y) :
      Outcome step mean c p0 n0 k (.error .runtimeError, c.withCount (n0 + k))
  /-- A step fails; the counter stays. -/
  | failed {p : P} {e : PyErr} (hp : Steps step p0 k p) (hs : step p = .error e) (hlim : n0 + k ≤ c.maxit) :
      Outcome step mean c p0 n0 k (.error e, c.withCount (n0 + k + 1))

theorem Steps.unique {P : Type} {step : P → Res P} {p0 : P} {k : ℕ} {p q : P} (h : Steps step p0 k p)
    (h' : Steps step p0 k q) : p = q := by
  induction h generalizing q with
  | zero => cases h'; rfl
  | succ h1 h2 ih =>
    cases h' with
    | succ g1 g2 =>
      have e := ih g1
      subst e
      rw [h2] at g2
      exact Except.ok.inj g2

theorem loop_outcome {P : Type} (step : P → Res P) (mean : P → List ℝ) (c : Crit) (p0 : P) (n0 : ℕ) :
    ∀ (fuel k : ℕ) (old : Option P) (p : P), Steps step p0 k p →
      (old = none ∧ k = 0 ∨ ∃ j x, old = some x ∧ k = j + 1 ∧ Steps step p0 j x) →
      (∀ j x y, j + 1 < k → Steps step p0 j x → Steps step p0 (j + 1) y → Moves mean c (some x) y) →
      n0 + k ≤ c.maxit + 1 → c.maxit + 2 ≤ n0 + k + fuel →
      ∃ r k', loop step mean fuel (c.withCount (n0 + k)) (errorOf mean old p) p k = some (r.1, r.2, k') ∧
        Outcome step mean c p0 n0 k' r
  | 0, k, _, _, _, _, _, h1, h2 => by omega
  | fuel + 1, k, old, p, hp, hold, hmoves, h1, h2 => by
    rw [loop]
    by_cases hlim : n0 + k ≤ c.maxit
    · by_cases hm : Moves mean c old p
      · have e := call_moves (c := c.withCount (n0 + k)) hlim ((moves_withCount mean c _ old p).2 hm)
        rw [e]
        dsimp only
        cases hs : step p with
        | error err => exact ⟨_, k, rfl, .failed hp hs hlim⟩
        | ok q =>
          dsimp only
          have hq : Steps step p0 (k + 1) q := .succ hp hs
          have ih := loop_outcome step mean c p0 n0 fuel (k + 1) (some p) q hq (.inr ⟨k, p, rfl, rfl, hp⟩) ?_ (by omega)
            (by omega)
          · exact ih
          · intro j x y hj hx hy
            by_cases hjk : j + 1 < k
            · exact hmoves j x y hjk hx hy
            · have hk : k = j + 1 := by omega
              subst hk
              rcases hold with ⟨_, h0⟩ | ⟨j', x', ho, hk, hx'⟩
              · omega
              · have : j' = j := by omega
                subst this
                rw [hx.unique hx', hy.unique hp]
                rw [ho] at hm
                exact hm
      · have e := call_stops (c := c.withCount (n0 + k)) hlim (fun h => hm ((moves_withCount mean c _ old p).1 h))
        rw [e]
        exact ⟨_, k, rfl, .done hp hold hm hmoves hlim⟩
    · have hlim' : n0 + k = c.maxit + 1 := by omega
      rw [criterion_raises (c := c.withCount (n0 + k)) (by show c.maxit < n0 + k; omega)]
      exact ⟨_, k, rfl, .limit hlim' hmoves⟩

/-! ## The properties -/

/-- **C58** (for a fresh counter). Every iteration terminates: after at most `maxit` steps with a result that differs from
the previous one by a normalised difference that is not larger than one, or after at most `maxit + 1` steps with
`RuntimeError`, or with the exception of a step. On success the counter is zero again. Missing: after an exception the
counter is not reset, see `iteration_stale_counter`. -/
theorem iteration_terminates_partial {P : Type} (step : P → Res P) (mean : P → List ℝ) {c : Crit} (hc : c.iterations = 0)
    (p0 : P) {fuel : ℕ} (hf : c.maxit + 2 ≤ fuel) :
    ∃ r c' k, run (.ok p0) step mean fuel c = some (r, c', k) ∧ Outcome step mean c p0 0 k (r, c') := by
  have h := loop_outcome step mean c p0 0 fuel 0 none p0 .zero (.inl ⟨rfl, rfl⟩) (fun j x y hj => by omega) (by omega)
    (by omega)
  obtain ⟨r, k', h1, h2⟩ := h
  refine ⟨r.1, r.2, k', ?_, h2⟩
  have e : c.withCount (0 + 0) = c := by rw [Crit.withCount, add_zero, ← hc]
  rw [e] at h1
  exact h1

/-- The number of steps is at most `maxit + 1`, and on success at most `maxit`. -/
theorem iteration_count {P : Type} {step : P → Res P} {mean : P → List ℝ} {c c' : Crit} {p0 : P} {k : ℕ} {r : Res P}
    (h : Outcome step mean c p0 0 k (r, c')) : k ≤ c.maxit + 1 ∧ (∀ p, r = .ok p → k ≤ c.maxit ∧ c'.iterations = 0) := by
  generalize hx : (r, c') = x at h
  cases h with
  | done hp hq hstop hfirst hlim =>
    cases hx
    exact ⟨by omega, fun p _ => ⟨by omega, rfl⟩⟩
  | limit hlim hfirst =>
    cases hx
    exact ⟨by omega, fun p h => (by cases h)⟩
  | failed hp hs hlim =>
    cases hx
    exact ⟨by omega, fun p h => (by cases h)⟩

/-- On success at least one step was made (for means that are not empty). -/
theorem iteration_refines {P : Type} {step : P → Res P} {mean : P → List ℝ} {c c' : Crit} {p0 p : P} {k : ℕ}
    (hne : mean p0 ≠ []) (h : Outcome step mean c p0 0 k (.ok p, c')) : 1 ≤ k := by
  generalize hx : ((.ok p, c') : Res P × Crit) = x at h
  cases h with
  | done hp hq hstop hfirst hlim =>
    rcases hq with ⟨rfl, rfl⟩ | ⟨j, y, _, rfl, _⟩
    · cases hp
      exact absurd (first_moves hne) hstop
    · omega
  | limit _ _ => cases hx
  | failed _ _ _ => cases hx

/-- After a `RuntimeError` the counter stays above the maximum. -/
theorem limit_counter {P : Type} {step : P → Res P} {mean : P → List ℝ} {c c' : Crit} {p0 : P} {n0 k : ℕ}
    (hstep : ∀ p, step p ≠ .error .runtimeError) (h : Outcome step mean c p0 n0 k (.error .runtimeError, c')) :
    c'.iterations = c'.maxit + 1 := by
  generalize hx : ((.error .runtimeError, c') : Res P × Crit) = x at h
  cases h with
  | done _ _ _ _ _ => cases hx
  | limit hlim _ => cases hx; exact hlim
  | failed _ hs _ => cases hx; exact absurd hs (hstep _)

/-- The last part of the property fails: once the limit was exceeded, every later iteration with the same criterion raises
`RuntimeError` at once, whatever the data, and the counter never recovers. -/
theorem iteration_stale_counter {P : Type} (step : P → Res P) (mean : P → List ℝ) {c : Crit} (hc : c.maxit < c.iterations)
    (p0 : P) (fuel : ℕ) : run (.ok p0) step mean (fuel + 1) c = some (.error .runtimeError, c, 0) := by
  rw [run, loop, criterion_raises hc]

/-- A division `0 / 0` in one entry makes the magnitude `nan`, and the criterion then returns `True` whatever the other
entries are. -/
theorem criterion_nan : (Crit.init 0 1 10).call [some 0, some 100] [0, 1] = (.ok true, Crit.init 0 1 10) := by
  have e : (Crit.init 0 1 10).evaluateError [some 0, some 100] [0, 1] = .nan := by
    simp [Crit.evaluateError, Crit.init, sqEntry, rms, sumMag, Mag.add]
  rw [Crit.call, if_neg (by decide), e, if_neg (show ¬Mag.nan.big from fun h => h)]
  rfl

/-- The reference enters with its sign: here a difference of `1/1000` is judged infinitely large, although the tolerance for
the reference with the other sign is `2`. -/
theorem criterion_sign : ((Crit.init 1 1 10).call [some (1 / 1000)] [-1]).1 = .ok false ∧
    ((Crit.init 1 1 10).call [some (1 / 1000)] [1]).1 = .ok true := by
  constructor
  · have e : (Crit.init 1 1 10).evaluateError [some (1 / 1000)] [-1] = .inf := by
      simp [Crit.evaluateError, Crit.init, sqEntry, rms, sumMag, Mag.add]
    rw [Crit.call, if_neg (by decide), e, if_pos (show Mag.inf.big from trivial)]
  · have h := criterion_value (c := Crit.init 1 1 10) (by decide) (error := [1 / 1000]) (reference := [1]) rfl (by simp)
      (by simp [Crit.init])
    have h0 : normalisedDifference (Crit.init 1 1 10).atol (Crit.init 1 1 10).rtol [1 / 1000] [1] ≤ 1 := by
      rw [normalisedDifference, Real.sqrt_le_one]
      norm_num [Crit.init]
    rw [if_pos h0] at h
    rw [show ([some (1 / 1000)] : List (Option ℝ)) = [1 / 1000].map some from rfl, h]

/-- A concrete iteration: the mean is halved in every step, the tolerance is one. -/
example : ∃ r c' k, run (.ok (8 : ℝ)) (fun p => .ok (p / 2)) (fun p => [p]) 12 (Crit.init 1 0 10) = some (r, c', k) ∧
    Outcome (fun p => .ok (p / 2)) (fun p => [p]) (Crit.init 1 0 10) 8 0 k (r, c') :=
  iteration_terminates_partial _ _ rfl _ (by decide)

end Probnum.Iterated
