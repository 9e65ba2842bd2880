import Mathlib.Data.List.Sort
import Mathlib.Order.MinMax
import Mathlib.Algebra.Order.Group.Int
import Mathlib.Algebra.Order.Group.Basic
import Mathlib.Algebra.Order.Field.Rat
import Mathlib.Tactic.Linarith
import Mathlib.Tactic.NormNum
import Verif.Posterior.Model

/-!
# C09 and C10: the time-series posterior container and its evaluation
-/

namespace Probnum.Posterior

/-! ## C09 -/

section Container

variable {T S : Type} [LinearOrder T]

/-- The mutating operations of the public interface. -/
inductive PostOp (T S : Type) where
  | append (loc : T) (s : S)
  | freeze

/-- Execute one operation. -/
def stepOp (p : Post T S) : PostOp T S → Res Unit × Post T S
  | .append loc s => p.append loc s
  | .freeze => (.ok (), p.freeze)

/-- Execute a sequence of operations (exceptions are caught by the caller and execution goes on), collecting
the outcome of every call. -/
def runOps (p : Post T S) : List (PostOp T S) → List (Res Unit) × Post T S
  | [] => ([], p)
  | op :: ops =>
    let (r, p') := stepOp p op
    let (rs, p'') := runOps p' ops
    (r :: rs, p'')

/-- The pairs handed to successful appends, in order. -/
def successful : List (PostOp T S) → List (Res Unit) → List (T × S)
  | .append loc s :: ops, .ok _ :: rs => (loc, s) :: successful ops rs
  | _ :: ops, _ :: rs => successful ops rs
  | _, _ => []

private theorem getLast?_lt_append {l : List T} {t : T} (h : l.Pairwise (· < ·))
    (hl : ∀ x, l.getLast? = some x → x < t) : (l ++ [t]).Pairwise (· < ·) := by
  rw [List.pairwise_append]
  refine ⟨h, by simp, ?_⟩
  intro a ha b hb
  rw [List.mem_singleton] at hb
  subst hb
  have hne : l ≠ [] := List.ne_nil_of_mem ha
  have hsplit := List.dropLast_append_getLast hne
  have hlast := hl (l.getLast hne) (List.getLast?_eq_some_getLast hne)
  rw [← hsplit] at ha h
  rw [List.pairwise_append] at h
  rcases List.mem_append.1 ha with ha | ha
  · exact (h.2.2 a ha _ (by simp)).trans hlast
  · rw [List.mem_singleton] at ha
    exact ha ▸ hlast

/-- What one append does: it succeeds exactly on an unfrozen object at a location right of the last one, and then
adds the pair at the end; otherwise it raises ValueError and changes nothing. -/
theorem append_exact (p : Post T S) (loc : T) (s : S) :
    ((p.frozen = false ∧ ∀ x, p.locations.getLast? = some x → x < loc) →
      p.append loc s = (.ok (), ⟨p.locations ++ [loc], p.states ++ [s], false⟩)) ∧
    (¬ (p.frozen = false ∧ ∀ x, p.locations.getLast? = some x → x < loc) →
      p.append loc s = (.error .valueError, p)) := by
  constructor
  · rintro ⟨h1, h2⟩
    cases hg : p.locations.getLast? with
    | none => simp [Post.append, h1, hg]
    | some x =>
      have : ¬ loc ≤ x := not_le.2 (h2 x hg)
      simp [Post.append, h1, hg, this]
  · intro h
    by_cases hf : p.frozen = true
    · simp [Post.append, hf]
    · have hf' : p.frozen = false := by simpa using hf
      cases hg : p.locations.getLast? with
      | none => exact absurd ⟨hf', by simp [hg]⟩ h
      | some x =>
        have : loc ≤ x := by
          by_contra hc
          exact h ⟨hf', fun y hy => by rw [hg] at hy; cases hy; exact not_le.1 hc⟩
        simp [Post.append, hf', hg, this]

/-- **C09.**  After any sequence of append/freeze calls on a new posterior: the locations are strictly ascending,
locations and states are exactly the pairs of the successful appends in order, and the object is frozen iff
it was frozen at some point. -/
theorem container_invariant (ops : List (PostOp T S)) :
    let res := runOps (Post.init) ops
    res.2.locations.Pairwise (· < ·) ∧
      res.2.locations = (successful ops res.1).map Prod.fst ∧
      res.2.states = (successful ops res.1).map Prod.snd ∧
      res.2.locations.length = res.2.states.length ∧
      (res.2.frozen = true ↔ PostOp.freeze ∈ ops) := by
  have key : ∀ (ops : List (PostOp T S)) (p : Post T S) (acc : List (T × S)),
      p.locations = acc.map Prod.fst → p.states = acc.map Prod.snd → p.locations.Pairwise (· < ·) →
      let res := runOps p ops
      res.2.locations.Pairwise (· < ·) ∧
        res.2.locations = (acc ++ successful ops res.1).map Prod.fst ∧
        res.2.states = (acc ++ successful ops res.1).map Prod.snd ∧
        (res.2.frozen = true ↔ p.frozen = true ∨ PostOp.freeze ∈ ops) := by
    intro ops
    induction ops with
    | nil => intro p acc h1 h2 h3; simp [runOps, successful, h1, h2]; simpa [h1] using h3
    | cons op ops ih =>
      intro p acc h1 h2 h3
      cases op with
      | freeze =>
        have := ih p.freeze acc h1 h2 h3
        simp only [runOps, stepOp, successful]
        obtain ⟨a, b, c, d⟩ := this
        exact ⟨a, b, c, by rw [d]; simp [Post.freeze]⟩
      | append loc s =>
        by_cases hc : p.frozen = false ∧ ∀ x, p.locations.getLast? = some x → x < loc
        · have he := (append_exact p loc s).1 hc
          have := ih ⟨p.locations ++ [loc], p.states ++ [s], false⟩ (acc ++ [(loc, s)])
            (by simp [h1]) (by simp [h2]) (getLast?_lt_append h3 hc.2)
          simp only [runOps, stepOp, he, successful]
          obtain ⟨a, b, c, d⟩ := this
          refine ⟨a, ?_, ?_, ?_⟩
          · rw [b]; simp
          · rw [c]; simp
          · rw [d]; simp [hc.1]
        · have he := (append_exact p loc s).2 hc
          have := ih p acc h1 h2 h3
          simp only [runOps, stepOp, he, successful]
          obtain ⟨a, b, c, d⟩ := this
          exact ⟨a, b, c, by rw [d]; simp⟩
  obtain ⟨a, b, c, d⟩ := key ops Post.init [] rfl rfl (by simp [Post.init])
  refine ⟨a, by simpa using b, by simpa using c, ?_, by simpa [Post.init] using d⟩
  rw [b, c]; simp

/-- A frozen posterior never changes again. -/
theorem frozen_is_final (p : Post T S) (h : p.frozen = true) (ops : List (PostOp T S)) :
    (runOps p ops).2 = p := by
  induction ops generalizing p with
  | nil => rfl
  | cons op ops ih =>
    cases op with
    | freeze =>
      have : p.freeze = p := by cases p; simp only [Post.freeze] at *; rw [h]
      simp [runOps, stepOp, this, ih p h]
    | append loc s =>
      have := (append_exact p loc s).2 (by simp [h])
      simp [runOps, stepOp, this, ih p h]

/-- Appends before, at and after an accepted location, and after freezing. -/
example : runOps (Post.init : Post ℚ String)
    [.append 0 "a", .append 1 "b", .append 1 "c", .append (1/2) "d", .append 2 "e", .freeze, .append 3 "f"]
    = ([.ok (), .ok (), .error .valueError, .error .valueError, .ok (), .ok (), .error .valueError],
       ⟨[0, 1, 2], ["a", "b", "e"], true⟩) := by
  simp [runOps, stepOp, Post.append, Post.init, Post.freeze]
  norm_num

/-- The constructor itself does not check the locations it is given: the invariant fails for
posteriors built from arbitrary lists. -/
theorem constructor_does_not_check :
    ¬ (Post.init [1, 0] ["a", "b"] : Post ℚ String).locations.Pairwise (· < ·) := by
  simp [Post.init]

end Container

end Probnum.Posterior
