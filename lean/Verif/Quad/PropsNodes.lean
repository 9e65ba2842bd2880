import Verif.Quad.Nodes
import Mathlib.Data.Nat.Digits.Defs
import Mathlib.Algebra.Order.BigOperators.Group.List
import Mathlib.Data.Rat.Cast.Order
import Mathlib.Data.List.Nodup
import Mathlib.Tactic.FieldSimp
import Mathlib.Tactic.IntervalCases

/-! # Properties C39 (van der Corput nodes) and C57 (domains) -/

namespace Probnum.Quad

open Probnum

/-! ## Specification -/

/-- The value of a list of binary digits written after the binary point. -/
def binaryFraction {K : Type} [Field K] : List ℕ → K
  | [] => 0
  | d :: ds => (d + binaryFraction ds) / 2

/-- The radical inverse in base 2: the binary digits of `k`, lowest first, written after the binary point. -/
def radicalInverse {K : Type} [Field K] (k : ℕ) : K := binaryFraction (Nat.digits 2 k)

/-- What `as_domain` accepts, and the result: two bounds, given as numbers (or arrays with one element) that are repeated
for the given dimension, or as one-dimensional arrays of the same length (the dimension, if it is given); every lower
bound is below the upper bound. -/
def IsDomain {α : Type} [LT α] (domain : List (Arr α)) (inputDim : Option ℤ) (a b : List α) (d : ℤ) : Prop :=
  (∃ A B : Arr α, domain = [A, B] ∧
    ((inputDim = some d ∧ 1 ≤ d ∧ ∃ x y, A.data = [x] ∧ B.data = [y] ∧
        a = List.replicate d.toNat x ∧ b = List.replicate d.toNat y) ∨
      ((inputDim = none ∨ inputDim = some d ∧ 1 < d) ∧ A.shape.length ≤ 1 ∧ B.shape.length ≤ 1 ∧
        A.data = a ∧ B.data = b ∧ (a.length : ℤ) = d ∧ (b.length : ℤ) = d))) ∧
  ∀ (i : ℕ) (ha : i < a.length) (hb : i < b.length), a[i] < b[i]

/-! ## Helper lemmas -/

section vdc

variable {K : Type} [Field K]

theorem vdcLoop_eq [CharZero K] (n : ℕ) (q c : K) : vdcLoop n q c = q + 2 * c * radicalInverse n := by
  induction n using Nat.strong_induction_on generalizing q c with
  | _ n ih =>
    rw [vdcLoop]
    split
    · next h =>
      subst h
      simp [radicalInverse, binaryFraction]
    · next h =>
      rw [ih (n / 2) (by omega)]
      have e : radicalInverse n = ((n % 2 : ℕ) + radicalInverse (n / 2) : K) / 2 := by
        rw [radicalInverse, radicalInverse, Nat.digits_def' (by norm_num) (by omega), binaryFraction]
      have h2 : (2 : K) ≠ 0 := by exact_mod_cast (two_ne_zero : (2 : ℕ) ≠ 0)
      rw [e]
      field_simp
      ring

end vdc

variable {K : Type} [Field K] [LinearOrder K] [IsStrictOrderedRing K]

theorem radicalInverse_step (n : ℕ) : radicalInverse n = ((n % 2 : ℕ) + radicalInverse (n / 2) : K) / 2 := by
  by_cases h : n = 0
  · subst h
    simp [radicalInverse, binaryFraction]
  · rw [radicalInverse, radicalInverse, Nat.digits_def' (by norm_num) (by omega), binaryFraction]

theorem radicalInverse_range (n : ℕ) : (0 : K) ≤ radicalInverse n ∧ (radicalInverse n : K) < 1 ∧
    (0 < n → (0 : K) < radicalInverse n) := by
  induction n using Nat.strong_induction_on with
  | _ n ih =>
    by_cases h : n = 0
    · subst h
      simp [radicalInverse, binaryFraction]
    · obtain ⟨h1, h2, h3⟩ := ih (n / 2) (by omega)
      rw [radicalInverse_step]
      rcases Nat.mod_two_eq_zero_or_one n with e | e
      · have h4 := h3 (by omega)
        rw [e, Nat.cast_zero, zero_add]
        exact ⟨by linarith, by linarith, fun _ => by linarith⟩
      · rw [e, Nat.cast_one]
        exact ⟨by linarith, by linarith, fun _ => by linarith⟩

theorem radicalInverse_injective {m n : ℕ} (h : (radicalInverse m : K) = radicalInverse n) : m = n := by
  induction m using Nat.strong_induction_on generalizing n with
  | _ m ih =>
    by_cases hm : m = 0
    · subst hm
      by_contra hn
      have h1 := (radicalInverse_range (K := K) n).2.2 (by omega)
      rw [← h] at h1
      simp [radicalInverse, binaryFraction] at h1
    · rw [radicalInverse_step m, radicalInverse_step n] at h
      have a := radicalInverse_range (K := K) (m / 2)
      have b := radicalInverse_range (K := K) (n / 2)
      rcases Nat.mod_two_eq_zero_or_one m with e | e <;> rcases Nat.mod_two_eq_zero_or_one n with e' | e' <;>
        rw [e, e'] at h
      · have := ih (m / 2) (by omega) (n := n / 2) (by push_cast at h; linarith)
        omega
      · push_cast at h; linarith [a.2.1, b.1]
      · push_cast at h; linarith [b.2.1, a.1]
      · have := ih (m / 2) (by omega) (n := n / 2) (by push_cast at h; linarith)
        omega

omit [LinearOrder K] [IsStrictOrderedRing K] in
theorem call_eq [CharZero K] (p : VdC K) (n : ℕ) :
    p.call n = (List.range p.batchSize).map fun k => p.a + (p.b - p.a) * radicalInverse (n + k + 1) := by
  rw [VdC.call, vdcSequence, List.map_map, List.range'_eq_map_range, List.map_map]
  have : n + 1 + p.batchSize - (n + 1) = p.batchSize := by omega
  simp only [this]
  refine List.map_congr_left fun k _ => ?_
  simp only [Function.comp_apply, vdcLoop_eq]
  have e : n + 1 + k = n + k + 1 := by omega
  rw [e, zero_add, mul_one_div_cancel (by norm_num), one_mul]
  ring

omit [LinearOrder K] [IsStrictOrderedRing K] in
theorem run_eq [CharZero K] (a b : K) (ms : List ℕ) (nodes : List K) :
    runVdC a b nodes ms = nodes ++
      (List.range ms.sum).map fun k => a + (b - a) * radicalInverse (nodes.length + k + 1) := by
  induction ms generalizing nodes with
  | nil => simp [runVdC]
  | cons m ms ih =>
    rw [runVdC, ih, call_eq, List.append_assoc, List.sum_cons, List.range_add, List.map_append, List.map_map]
    congr 2
    refine List.map_congr_left fun k _ => ?_
    simp only [Function.comp_apply, List.length_append, List.length_map, List.length_range, Nat.add_assoc]

/-! ## C39 -/

/-- The nodes chosen by the policy after `nodes` are the next radical inverses mapped to the domain, however the calls
are split into batches. -/
theorem vdc_nodes (a b : K) (nodes : List K) (batches : List ℕ) :
    runVdC a b nodes batches = nodes ++
      (List.range batches.sum).map fun k => a + (b - a) * radicalInverse (nodes.length + k + 1) :=
  run_eq a b batches nodes

/-- The nodes do not depend on the split into batches. -/
theorem vdc_batching (a b : K) (nodes : List K) {batches batches' : List ℕ} (h : batches.sum = batches'.sum) :
    runVdC a b nodes batches = runVdC a b nodes batches' := by
  rw [run_eq, run_eq, h]

/-- The new nodes lie strictly inside the domain. -/
theorem vdc_inside {a b : K} (hab : a < b) (nodes : List K) (batches : List ℕ) {x : K}
    (hx : x ∈ (runVdC a b nodes batches).drop nodes.length) : a < x ∧ x < b := by
  rw [run_eq, List.drop_left] at hx
  obtain ⟨k, _, rfl⟩ := List.mem_map.1 hx
  obtain ⟨_, h2, h3⟩ := radicalInverse_range (K := K) (nodes.length + k + 1)
  have h3 := h3 (by omega)
  have h4 : 0 < b - a := by linarith
  have h5 := mul_pos h4 h3
  have h6 := mul_lt_mul_of_pos_left h2 h4
  rw [mul_one] at h6
  exact ⟨by linarith, by linarith⟩

/-- The new nodes are pairwise distinct. -/
theorem vdc_distinct {a b : K} (hab : a < b) (nodes : List K) (batches : List ℕ) :
    ((runVdC a b nodes batches).drop nodes.length).Nodup := by
  rw [run_eq, List.drop_left]
  refine List.Nodup.map_on (fun i _ j _ h => ?_) List.nodup_range
  have h4 : b - a ≠ 0 := by
    intro h0; linarith
  have h := radicalInverse_injective (mul_left_cancel₀ h4 (add_left_cancel h))
  omega

/-- The policy is available exactly for bounded domains of dimension at most one. -/
theorem vdc_accepts (m d : ℕ) (a b : List (Bound K)) (ha : a.length = d) (hb : b.length = d) (hd : 0 < d) :
    (∃ p, VdC.mk? m d a b = .ok p) ↔ d = 1 ∧ ∃ x y, a = [.fin x] ∧ b = [.fin y] := by
  rw [VdC.mk?.eq_def]
  split
  · next h => exact ⟨fun ⟨p, hp⟩ => (by cases hp), fun ⟨h1, _⟩ => (by omega)⟩
  · next h =>
    have hd : d = 1 := by omega
    split
    · exact ⟨fun _ => ⟨hd, _, _, rfl, rfl⟩, fun _ => ⟨_, rfl⟩⟩
    · next h2 =>
      exact ⟨fun ⟨p, hp⟩ => (by cases hp), fun ⟨_, x, y, h3, h4⟩ => absurd h4 (h2 x y h3)⟩

/-- The documented beginning of the sequence (a check of the specification). -/
example : (List.range 5).map (fun k => (radicalInverse (k + 1) : ℚ)) = [1/2, 1/4, 3/4, 1/8, 5/8] := by
  norm_num [List.range, List.range.loop, radicalInverse, binaryFraction]

example : (runVdC (0 : ℚ) 2 [1] [2, 1]).length = 4 := by
  rw [vdc_nodes]
  simp

/-! ## C57 -/

section domain

variable {α : Type} [LT α] [DecidableRel (α := α) (· < ·)]

theorem all_zip_iff {a b : List α} : (∀ p ∈ a.zip b, p.1 < p.2) ↔
    ∀ (i : ℕ) (ha : i < a.length) (hb : i < b.length), a[i] < b[i] := by
  constructor
  · intro h i ha hb
    exact h (a[i], b[i]) (by
      rw [List.mem_iff_getElem]
      exact ⟨i, by rw [List.length_zip]; exact lt_min ha hb, List.getElem_zip⟩)
  · rintro h ⟨x, y⟩ hp
    obtain ⟨i, hi, e⟩ := List.mem_iff_getElem.1 hp
    rw [List.getElem_zip] at e
    rw [List.length_zip] at hi
    cases e
    exact h i (lt_of_lt_of_le hi (min_le_left _ _)) (lt_of_lt_of_le hi (min_le_right _ _))

theorem full_singleton {A : Arr α} {x : α} (d : ℕ) (h : A.data = [x]) : full d A = List.replicate d x := by
  simp [full, h]

/-- The result of the last checks. -/
theorem asDomain_check {a b a' b' : List α} {na nb : ℕ} {d d' : ℤ} :
    (if 1 < na ∨ 1 < nb then (.error .valueError : Res ((List α × List α) × ℤ))
      else if ¬ ∀ p ∈ a.zip b, p.1 < p.2 then .error .valueError else .ok ((a, b), d)) = .ok ((a', b'), d') ↔
      na ≤ 1 ∧ nb ≤ 1 ∧ a = a' ∧ b = b' ∧ d = d' ∧
        ∀ (i : ℕ) (ha : i < a'.length) (hb : i < b'.length), a'[i] < b'[i] := by
  constructor
  · intro h
    split at h
    · cases h
    · next h1 =>
      split at h
      · cases h
      · next h2 =>
        cases h
        exact ⟨by omega, by omega, rfl, rfl, rfl, all_zip_iff.1 (not_not.1 h2)⟩
  · rintro ⟨h1, h2, rfl, rfl, rfl, h3⟩
    rw [if_neg (by omega), if_neg (not_not.2 (all_zip_iff.2 h3))]

/-- `as_domain` returns exactly the specified domains. -/
theorem as_domain_iff (domain : List (Arr α)) (inputDim : Option ℤ) (a b : List α) (d : ℤ) :
    asDomain domain inputDim = .ok ((a, b), d) ↔ IsDomain domain inputDim a b d := by
  have one : ∀ A : Arr α, A.size = 1 ↔ ∃ x, A.data = [x] := by
    intro A
    rw [Arr.size, ← A.size_eq, List.length_eq_one_iff]
  have ndim : ∀ A : Arr α, A.ndim1 ≤ 1 ↔ A.shape.length ≤ 1 := by
    intro A
    rw [Arr.ndim1]; omega
  have size : ∀ A : Arr α, A.size = A.data.length := fun A => A.size_eq.symm
  rw [asDomain.eq_def, IsDomain]
  match domain with
  | [A, B] =>
    dsimp only
    cases inputDim with
    | none =>
      dsimp only
      rw [if_neg (show ¬ badDim none = true by decide)]
      by_cases hs : A.size = B.size
      · rw [if_neg (not_not.2 hs), asDomain_check, ndim, ndim]
        constructor
        · rintro ⟨h1, h2, h3, h4, h5, h6⟩
          refine ⟨⟨A, B, rfl, .inr ⟨.inl rfl, h1, h2, h3, h4, ?_, ?_⟩⟩, h6⟩
          · rw [← h3, ← size, h5]
          · rw [← h4, ← size, ← hs, h5]
        · rintro ⟨⟨A', B', e, h⟩, h6⟩
          cases e
          rcases h with h | ⟨_, h1, h2, h3, h4, h5, h7⟩
          · cases h.1
          · exact ⟨h1, h2, h3, h4, by rw [size, h3, h5], h6⟩
      · rw [if_pos hs]
        refine ⟨fun h => (by cases h), ?_⟩
        rintro ⟨⟨A', B', e, h⟩, h6⟩
        cases e
        rcases h with h | ⟨_, h1, h2, h3, h4, h5, h7⟩
        · cases h.1
        · exact absurd (by rw [size, size, h3, h4]; omega) hs
    | some e =>
      dsimp only
      by_cases he : e < 1
      · rw [if_pos (show badDim (some e) = true by simpa [badDim] using he)]
        refine ⟨fun h => (by cases h), ?_⟩
        rintro ⟨⟨A', B', e', h⟩, h6⟩
        rcases h with ⟨h, h1, _⟩ | ⟨h, _⟩
        · cases h; omega
        · rcases h with h | ⟨h, h1⟩
          · cases h
          · cases h; omega
      · rw [if_neg (show ¬ badDim (some e) = true by simpa [badDim] using he)]
        by_cases hs : A.size = B.size
        · rw [if_neg (not_not.2 hs)]
          by_cases h1 : A.size = 1
          · rw [if_pos h1]
            obtain ⟨x, hx⟩ := (one A).1 h1
            obtain ⟨y, hy⟩ := (one B).1 (hs ▸ h1)
            rw [asDomain_check, full_singleton _ hx, full_singleton _ hy]
            constructor
            · rintro ⟨_, _, rfl, rfl, rfl, h6⟩
              exact ⟨⟨A, B, rfl, .inl ⟨rfl, by omega, x, y, hx, hy, rfl, rfl⟩⟩, h6⟩
            · rintro ⟨⟨A', B', e', h⟩, h6⟩
              cases e'
              rcases h with ⟨h, _, x', y', hx', hy', h7, h8⟩ | ⟨h, _, _, h2, _, h3, _⟩
              · cases h
                rw [hx] at hx'; cases hx'
                rw [hy] at hy'; cases hy'
                exact ⟨le_refl _, le_refl _, h7.symm, h8.symm, rfl, h6⟩
              · rcases h with h | ⟨h, h4⟩
                · cases h
                · rw [← h2, ← size, h1] at h3
                  omega
          · rw [if_neg h1]
            by_cases h2 : e = A.size
            · rw [if_neg (not_not.2 h2), asDomain_check, ndim, ndim]
              constructor
              · rintro ⟨h3, h4, h5, h7, rfl, h6⟩
                refine ⟨⟨A, B, rfl, .inr ⟨.inr ⟨rfl, by omega⟩, h3, h4, h5, h7, ?_, ?_⟩⟩, h6⟩
                · rw [← h5, ← size, h2]
                · rw [← h7, ← size, ← hs, h2]
              · rintro ⟨⟨A', B', e', h⟩, h6⟩
                cases e'
                rcases h with ⟨h, _, x', y', hx', hy', h7, h8⟩ | ⟨h, h3, h4, h5, h7, h8, _⟩
                · exact absurd ((one A).2 ⟨_, hx'⟩) h1
                · rcases h with h | ⟨h, _⟩
                  · cases h
                  · cases h
                    exact ⟨h3, h4, h5, h7, rfl, h6⟩
            · rw [if_pos h2]
              refine ⟨fun h => (by cases h), ?_⟩
              rintro ⟨⟨A', B', e', h⟩, h6⟩
              cases e'
              rcases h with ⟨h, _, x', y', hx', hy', h7, h8⟩ | ⟨h, h3, h4, h5, h7, h8, _⟩
              · exact absurd ((one A).2 ⟨_, hx'⟩) h1
              · rcases h with h | ⟨h, _⟩
                · cases h
                · cases h
                  exact absurd (by rw [size, h5, h8]) h2
        · rw [if_pos hs]
          refine ⟨fun h => (by cases h), ?_⟩
          rintro ⟨⟨A', B', e', h⟩, h6⟩
          cases e'
          rcases h with ⟨h, _, x', y', hx', hy', h7, h8⟩ | ⟨h, h3, h4, h5, h7, h8, h9⟩
          · exact absurd (((one A).2 ⟨_, hx'⟩).trans ((one B).2 ⟨_, hy'⟩).symm) hs
          · exact absurd (by rw [size, size, h5, h7]; omega) hs
  | [] | [_] | _ :: _ :: _ :: _ =>
    dsimp only
    constructor
    · intro h
      split at h <;> cases h
    · rintro ⟨⟨A', B', e', h⟩, h6⟩
      cases e'

/-- The returned bounds have the returned length. -/
theorem as_domain_length {domain : List (Arr α)} {inputDim : Option ℤ} {a b : List α} {d : ℤ}
    (h : asDomain domain inputDim = .ok ((a, b), d)) : (a.length : ℤ) = d ∧ (b.length : ℤ) = d ∧
      (inputDim = none ∨ inputDim = some d) := by
  obtain ⟨⟨A, B, _, h⟩, _⟩ := (as_domain_iff ..).1 h
  rcases h with ⟨hd, h1, x, y, _, _, rfl, rfl⟩ | ⟨h, _, _, _, _, h1, h2⟩
  · rw [List.length_replicate, List.length_replicate]
    exact ⟨by omega, by omega, .inr hd⟩
  · exact ⟨h1, h2, h.imp id And.left⟩

/-- Every other input raises ValueError. -/
theorem as_domain_rejects {domain : List (Arr α)} {inputDim : Option ℤ} (h : ∀ a b d, ¬ IsDomain domain inputDim a b d) :
    asDomain domain inputDim = .error .valueError := by
  cases e : asDomain domain inputDim with
  | ok r => exact absurd ((as_domain_iff ..).1 e) (h _ _ _)
  | error err =>
    have : ∀ x : Res ((List α × List α) × ℤ), x = asDomain domain inputDim → x = .error err → err = .valueError := by
      intro x hx hx'
      rw [hx, asDomain.eq_def] at hx'
      iterate 11 (all_goals try dsimp only at hx'
                  all_goals try split at hx')
      all_goals first | (cases hx'; rfl) | cases hx'
    rw [this _ rfl e]

end domain

/-- Scalars are repeated. -/
example : asDomain [⟨[], [(0 : ℚ)], rfl⟩, ⟨[], [1], rfl⟩] (some 3) = .ok (([0, 0, 0], [1, 1, 1]), 3) := by
  rw [as_domain_iff]
  refine ⟨⟨_, _, rfl, .inl ⟨rfl, by norm_num, 0, 1, rfl, rfl, rfl, rfl⟩⟩, ?_⟩
  intro i ha hb
  rw [List.length_cons, List.length_cons, List.length_cons, List.length_nil] at ha
  interval_cases i <;> norm_num

/-- Empty bounds are accepted without an input dimension and give a domain of dimension zero. -/
theorem as_domain_zero_dim : asDomain [⟨[0], ([] : List ℚ), rfl⟩, ⟨[0], [], rfl⟩] none = .ok (([], []), 0) := by
  rw [as_domain_iff]
  refine ⟨⟨_, _, rfl, .inr ⟨.inl rfl, by decide, by decide, rfl, rfl, rfl, rfl⟩⟩, ?_⟩
  intro i ha
  exact absurd ha (Nat.not_lt_zero _)

end Probnum.Quad
