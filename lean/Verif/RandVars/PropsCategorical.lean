import Mathlib.Algebra.BigOperators.Fin
import Mathlib.Tactic.NormNum
import Verif.RandVars.Categorical

/-!
# C32: probability masses of categorical random variables; C67: point masses
-/

namespace Probnum.RandVars

open Finset

variable {α δ : Type} [DecidableEq α] [DecidableEq δ] {c : Categorical α δ}

/-- Specification: the total probability of the support points equal to `x`, i.e. the probability that the sampled
point is `x`. -/
def massOf (c : Categorical α δ) (x : List α) : ℝ :=
  ∑ k ∈ range c.support.length, if c.support.getD k [] = x then c.probs.getD k 0 else 0

/-- No point of the support shares a component with `x` unless it is `x`. -/
def NoPartial (c : Categorical α δ) (x : List α) : Prop :=
  ∀ p ∈ c.support, p = x ∨ rowMask x p 0 = []

theorem rowMask_nil {x p : List α} (k : ℕ) : rowMask x p k = [] ↔ ∀ e ∈ x.zip p, e.1 ≠ e.2 := by
  simp [rowMask, List.filterMap_eq_nil_iff]

theorem rowMask_mem {x p : List α} {k i : ℕ} (h : i ∈ rowMask x p k) : i = k := by
  simp only [rowMask, List.mem_filterMap] at h
  obtain ⟨e, _, h⟩ := h
  split at h
  · exact (Option.some.inj h).symm
  · cases h

theorem rowMask_self {x : List α} (hx : x ≠ []) (k : ℕ) : rowMask x x k ≠ [] := by
  cases x with
  | nil => exact absurd rfl hx
  | cons a x => simp [rowMask]

theorem mask_range {x : List α} : ∀ (s : List (List α)) (k i : ℕ), i ∈ maskFrom x s k → k ≤ i ∧ i < k + s.length
  | [], _, _, h => by simp [maskFrom] at h
  | p :: s, k, i, h => by
    rw [maskFrom, List.mem_append] at h
    rcases h with h | h
    · rw [rowMask_mem h]; simp
    · have := mask_range s (k + 1) i h
      rw [List.length_cons]; omega

/-- The first entry of the mask belongs to the first point sharing a component with `x`. -/
theorem mask_head {x : List α} : ∀ (s : List (List α)) (k : ℕ),
    (maskFrom x s k = [] ∧ ∀ p ∈ s, rowMask x p 0 = []) ∨
    ∃ j r, maskFrom x s k = (k + j) :: r ∧ j < s.length ∧ rowMask x (s.getD j []) 0 ≠ [] ∧
      ∀ i < j, rowMask x (s.getD i []) 0 = []
  | [], _ => Or.inl ⟨rfl, by simp⟩
  | p :: s, k => by
    rcases hp : rowMask x p k with _ | ⟨a, r⟩
    · have hp0 : rowMask x p 0 = [] := by rw [rowMask_nil] at hp ⊢; exact hp
      rcases mask_head s (k + 1) with ⟨h1, h2⟩ | ⟨j, r, h1, h2, h3, h4⟩
      · left
        refine ⟨by rw [maskFrom, hp, h1]; rfl, fun q hq => ?_⟩
        rcases List.mem_cons.1 hq with rfl | hq
        · exact hp0
        · exact h2 q hq
      · right
        refine ⟨j + 1, r, ?_, by simpa using h2, by simpa using h3, ?_⟩
        · rw [maskFrom, hp, h1, List.nil_append]; congr 1; omega
        · intro i hi
          rcases i with _ | i
          · simpa using hp0
          · simpa using h4 i (by omega)
    · right
      have ha : a = k := rowMask_mem (x := x) (p := p) (by rw [hp]; simp)
      refine ⟨0, r ++ maskFrom x s (k + 1), ?_, by simp, ?_, by simp⟩
      · rw [maskFrom, hp, ha]; rfl
      · simp only [List.getD_cons_zero]
        intro h0
        rw [rowMask_nil] at h0
        rw [(rowMask_nil k).2 h0] at hp
        cases hp

/-- What `pmf` returns, for every support and every `x`: the probability of the first support point that shares a
component with `x`, or 0 if there is none. -/
theorem pmf_eq_first (hlen : c.probs.length = c.support.length) (x : List α) :
    (c.pmf x c.dtype = .ok 0 ∧ ∀ p ∈ c.support, rowMask x p 0 = []) ∨
    ∃ j < c.support.length, c.pmf x c.dtype = .ok (c.probs.getD j 0) ∧ rowMask x (c.support.getD j []) 0 ≠ [] ∧
      ∀ i < j, rowMask x (c.support.getD i []) 0 = [] := by
  rcases mask_head (x := x) c.support 0 with ⟨h1, h2⟩ | ⟨j, r, h1, h2, h3, h4⟩
  · left
    refine ⟨?_, h2⟩
    rw [Categorical.pmf, if_neg (by simp), h1]; rfl
  · right
    refine ⟨j, h2, ?_, h3, h4⟩
    rw [Categorical.pmf, if_neg (by simp), h1, Nat.zero_add, pickFirst, if_pos]
    rw [List.all_eq_true]
    intro i hi
    have := mask_range c.support 0 i (by rw [h1, Nat.zero_add]; exact hi)
    simpa [hlen] using this.2

/-- The probability mass function is right – the total probability of the support points equal to `x`, and 0 if there is
none – if the support has no repetitions and no point shares a component with `x` unless it is equal to `x`. -/
theorem pmf_correct_partial (hlen : c.probs.length = c.support.length) (hnd : c.support.Nodup) {x : List α} (hx : x ≠ [])
    (hp : NoPartial c x) : c.pmf x c.dtype = .ok (massOf c x) := by
  rcases pmf_eq_first hlen x with ⟨h1, h2⟩ | ⟨j, hj, h1, h2, _⟩
  · rw [h1, massOf, Finset.sum_eq_zero]
    intro k hk
    rw [if_neg]
    intro he
    have hk := mem_range.1 hk
    have hmem : c.support.getD k [] ∈ c.support := by
      rw [List.getD_eq_getElem?_getD, List.getElem?_eq_getElem hk]; exact List.getElem_mem hk
    have := h2 _ hmem
    rw [he] at this
    exact rowMask_self hx 0 this
  · have hmem : c.support.getD j [] ∈ c.support := by
      rw [List.getD_eq_getElem?_getD, List.getElem?_eq_getElem hj]; exact List.getElem_mem hj
    have hjx : c.support.getD j [] = x := (hp _ hmem).resolve_right h2
    rw [h1, massOf, Finset.sum_eq_single j]
    · rw [if_pos hjx]
    · intro k hk hne
      rw [if_neg]
      intro he
      have hk := mem_range.1 hk
      rw [← hjx, List.getD_eq_getElem?_getD, List.getD_eq_getElem?_getD, List.getElem?_eq_getElem hk,
        List.getElem?_eq_getElem hj] at he
      exact hne ((List.Nodup.getElem_inj_iff hnd).1 he)
    · intro h; exact absurd (mem_range.2 hj) h

/-- For scalar supports without repetitions the probability mass function is right for every `x`. -/
theorem pmf_scalar (hlen : c.probs.length = c.support.length) (hnd : c.support.Nodup)
    (hs : ∀ p ∈ c.support, ∃ a, p = [a]) (a : α) : c.pmf [a] c.dtype = .ok (massOf c [a]) := by
  refine pmf_correct_partial hlen hnd (by simp) fun p hp => ?_
  obtain ⟨b, rfl⟩ := hs p hp
  by_cases h : a = b
  · exact Or.inl (by rw [h])
  · right; simp [rowMask, h]

/-- The masses of the support points of a support without repetitions sum to the sum of the probabilities, and are
nonnegative if the probabilities are. -/
theorem pmf_normalised (hlen : c.probs.length = c.support.length) (hnd : c.support.Nodup)
    (hne : ∀ p ∈ c.support, p ≠ []) (hp : ∀ x ∈ c.support, NoPartial c x) :
    (∃ f : List α → ℝ, (∀ x ∈ c.support, c.pmf x c.dtype = .ok (f x) ∧ ((∀ p ∈ c.probs, 0 ≤ p) → 0 ≤ f x)) ∧
      (c.support.map f).sum = c.probs.sum) := by
  refine ⟨massOf c, fun x hx => ⟨pmf_correct_partial hlen hnd (hne x hx) (hp x hx), fun h => ?_⟩, ?_⟩
  · refine Finset.sum_nonneg fun k hk => ?_
    split
    · have hk : k < c.probs.length := by rw [hlen]; exact mem_range.1 hk
      rw [List.getD_eq_getElem?_getD, List.getElem?_eq_getElem hk]
      exact h _ (List.getElem_mem hk)
    · exact le_refl _
  · have key : ∀ k, (hk : k < c.support.length) → massOf c c.support[k] = c.probs.getD k 0 := by
      intro k hk
      rw [massOf, Finset.sum_eq_single k]
      · rw [if_pos (by rw [List.getD_eq_getElem?_getD, List.getElem?_eq_getElem hk]; rfl)]
      · intro i hi hne
        rw [if_neg]
        intro he
        have hi := mem_range.1 hi
        rw [List.getD_eq_getElem?_getD, List.getElem?_eq_getElem hi] at he
        exact hne ((List.Nodup.getElem_inj_iff hnd).1 he)
      · intro h; exact absurd (mem_range.2 hk) h
    congr 1
    refine List.ext_getElem (by simp [hlen]) fun k h1 h2 => ?_
    rw [List.getElem_map, key k (by simpa using h1), List.getD_eq_getElem?_getD, List.getElem?_eq_getElem h2]
    rfl

/-- The default support `0, …, K-1`: `pmf(k)` is the `k`-th probability and `pmf` is 0 elsewhere. -/
theorem pmf_default {δ : Type} [DecidableEq δ] {c : Categorical ℤ δ} {probs : List ℝ} {d : δ} (h : Categorical.default probs d = .ok c)
    (a : ℤ) : c.pmf [a] d = .ok (if 0 ≤ a ∧ a < probs.length then probs.getD a.toNat 0 else 0) := by
  unfold Categorical.default Categorical.make at h
  split at h
  · cases h
  · obtain rfl := Except.ok.inj h
    have hnd : (arangeSupport probs.length).Nodup := by
      unfold arangeSupport
      exact List.Nodup.map (fun a b h => by simpa using h) List.nodup_range
    have hlen : (arangeSupport probs.length).length = probs.length := by simp [arangeSupport]
    have := pmf_scalar (c := ⟨probs, arangeSupport probs.length, d⟩) hlen.symm hnd (by
      intro p hp
      obtain ⟨k, _, rfl⟩ := List.mem_map.1 hp
      exact ⟨_, rfl⟩) a
    refine Eq.trans this (congrArg _ ?_)
    show ∑ k ∈ range (arangeSupport probs.length).length, _ = _
    rw [hlen]
    have hget : ∀ k ∈ range probs.length, (arangeSupport probs.length).getD k [] = [(k : ℤ)] := by
      intro k hk
      rw [List.getD_eq_getElem?_getD, List.getElem?_eq_getElem (by rw [hlen]; exact mem_range.1 hk)]
      simp [arangeSupport]
    split
    · rename_i ha
      rw [Finset.sum_eq_single a.toNat]
      · rw [if_pos]
        rw [hget _ (mem_range.2 (by omega))]
        congr 1; omega
      · intro k hk hne
        rw [if_neg]
        rw [hget k hk]
        intro h
        simp at h
        omega
      · intro h; exact absurd (mem_range.2 (by omega)) h
    · rename_i ha
      refine Finset.sum_eq_zero fun k hk => ?_
      rw [if_neg]
      rw [hget k hk]
      intro h
      simp at h
      have := mem_range.1 hk
      omega

/-! ### Violations -/

/-- Violation: with repeated support points only the first one counts.  This is the normal state after resampling. -/
theorem pmf_duplicates : ∃ c : Categorical ℤ Unit, Categorical.make [1 / 2, 1 / 2] [[7], [7]] () = .ok c ∧
    c.pmf [7] () = .ok (1 / 2) ∧ massOf c [7] = 1 := by
  refine ⟨_, rfl, ?_, ?_⟩
  · rw [Categorical.pmf, if_neg (by simp)]
    simp [maskFrom, rowMask, pickFirst]
  · rw [massOf]
    show ∑ k ∈ range 2, _ = _
    rw [Finset.sum_range_succ, Finset.sum_range_one]
    simp
    norm_num

/-- Violation: for vector-valued supports one agreeing component is enough.  With probability 1/4 for `(0, 0)` and 3/4
for `(0, 1)`, `pmf((0, 1))` is 1/4 and the impossible `(0, 5)` has mass 1/4. -/
theorem pmf_vector : ∃ c : Categorical ℤ Unit, Categorical.make [1 / 4, 3 / 4] [[0, 0], [0, 1]] () = .ok c ∧
    c.pmf [0, 1] () = .ok (1 / 4) ∧ massOf c [0, 1] = 3 / 4 ∧ c.pmf [0, 5] () = .ok (1 / 4) ∧ massOf c [0, 5] = 0 := by
  refine ⟨_, rfl, ?_, ?_, ?_, ?_⟩
  · rw [Categorical.pmf, if_neg (by simp)]
    simp [maskFrom, rowMask, pickFirst]
  · rw [massOf]
    show ∑ k ∈ range 2, _ = _
    rw [Finset.sum_range_succ, Finset.sum_range_one]
    simp
  · rw [Categorical.pmf, if_neg (by simp)]
    simp [maskFrom, rowMask, pickFirst]
  · rw [massOf]
    show ∑ k ∈ range 2, _ = _
    rw [Finset.sum_range_succ, Finset.sum_range_one]
    simp

/-- Violation: an `x` of another dtype raises `ValueError` even if it equals a support point. -/
theorem pmf_dtype (x : List α) {d : δ} (h : d ≠ c.dtype) : c.pmf x d = .error .valueError := by
  rw [Categorical.pmf, if_pos h]

/-- Violation: the constructor accepts more support points than probabilities; `pmf` then raises `IndexError`. -/
theorem pmf_short_probabilities : ∃ c : Categorical ℤ Unit, Categorical.make [1] [[0], [1]] () = .ok c ∧
    c.pmf [1] () = .error .indexError := by
  refine ⟨_, rfl, ?_⟩
  rw [Categorical.pmf, if_neg (by simp)]
  simp [maskFrom, rowMask, pickFirst]

/-! ### Sampling, mode and resampling -/

/-- Samples are support points. -/
theorem sample_mem {draws : List ℕ} {s : List (List α)} (h : c.sample draws = .ok s)
    (hd : ∀ k ∈ draws, k < c.support.length) : s.length = draws.length ∧ ∀ p ∈ s, p ∈ c.support := by
  unfold Categorical.sample at h
  split at h
  · cases h
  · obtain rfl := Except.ok.inj h
    refine ⟨by simp, fun p hp => ?_⟩
    obtain ⟨k, hk, rfl⟩ := List.mem_map.1 hp
    rw [List.getD_eq_getElem?_getD, List.getElem?_eq_getElem (hd k hk)]
    exact List.getElem_mem _

/-- If the index `k` is drawn with probability `probabilities[k]`, the sampled point is `x` with probability `massOf`. -/
theorem sample_mass (hlen : c.probs.length = c.support.length) (x : List α) :
    ∑ k ∈ range c.support.length, (if c.sample [k] = .ok [x] then c.probs.getD k 0 else 0) = massOf c x := by
  refine Finset.sum_congr rfl fun k _ => ?_
  have : (c.sample [k] = .ok [x]) ↔ c.support.getD k [] = x := by
    rw [Categorical.sample, if_neg (by simpa using hlen)]
    constructor
    · intro h; simpa using Except.ok.inj h
    · intro h; rw [List.map_cons, List.map_nil, h]
  by_cases h : c.support.getD k [] = x
  · rw [if_pos (this.2 h), if_pos h]
  · rw [if_neg (fun h' => h (this.1 h')), if_neg h]

theorem argmaxFrom_spec (all : List ℝ) : ∀ (l : List ℝ) (k best : ℕ) (m : ℝ), all.drop k = l → best < k → k ≤ all.length →
    all.getD best 0 = m → (∀ i < k, all.getD i 0 ≤ m) → (∀ i < best, all.getD i 0 < m) →
    argmaxFrom l k best m < all.length ∧ (∀ i < all.length, all.getD i 0 ≤ all.getD (argmaxFrom l k best m) 0) ∧
      ∀ i < argmaxFrom l k best m, all.getD i 0 < all.getD (argmaxFrom l k best m) 0
  | [], k, best, m, hd, hb, hk, hm, h1, h2 => by
    have : all.length ≤ k := List.drop_eq_nil_iff.1 hd
    rw [argmaxFrom, hm]
    exact ⟨by omega, fun i hi => h1 i (by omega), h2⟩
  | p :: l, k, best, m, hd, hb, hk, hm, h1, h2 => by
    have hlt : k < all.length := by
      by_contra h
      rw [List.drop_eq_nil_iff.2 (by omega)] at hd
      cases hd
    have hp : all.getD k 0 = p := by
      have := congrArg (fun l => l.getD 0 0) hd
      simpa [List.getD_eq_getElem?_getD] using this
    have hd' : all.drop (k + 1) = l := by rw [← List.drop_drop, hd]; rfl
    rw [argmaxFrom]
    split
    · rename_i h
      refine argmaxFrom_spec all l (k + 1) k p hd' (by omega) hlt hp (fun i hi => ?_) (fun i hi => ?_)
      · rcases Nat.lt_succ_iff_lt_or_eq.1 hi with hi | rfl
        · exact (h1 i hi).trans h.le
        · rw [hp]
      · exact lt_of_le_of_lt (h1 i hi) h
    · rename_i h
      refine argmaxFrom_spec all l (k + 1) best m hd' (by omega) hlt hm (fun i hi => ?_) h2
      rcases Nat.lt_succ_iff_lt_or_eq.1 hi with hi | rfl
      · exact h1 i hi
      · rw [hp]; exact not_lt.1 h

/-- The mode is a support point of largest probability, the first one of them. -/
theorem mode_correct (hlen : c.probs.length = c.support.length) {p : List α} (h : c.mode = .ok p) :
    ∃ k < c.support.length, c.support.getD k [] = p ∧ (∀ i < c.support.length, c.probs.getD i 0 ≤ c.probs.getD k 0) ∧
      ∀ i < k, c.probs.getD i 0 < c.probs.getD k 0 := by
  unfold Categorical.mode argmax at h
  split at h
  · cases h
  · rename_i q l hq
    have hs := argmaxFrom_spec c.probs l 1 0 q (by rw [hq]; rfl) (by omega) (by rw [hq]; simp) (by rw [hq]; rfl)
      (fun i hi => by
        obtain rfl : i = 0 := by omega
        rw [hq]; simp) (fun i hi => by omega)
    rw [hlen] at hs
    refine ⟨argmaxFrom l 1 0 q, hs.1, ?_, hs.2⟩
    have h : pointAt c.support (argmaxFrom l 1 0 q) = .ok p := h
    unfold pointAt at h
    split at h
    · rename_i h1
      rw [List.getD_eq_getElem?_getD, h1]
      exact Except.ok.inj h
    · cases h

/-- The mode of a categorical random variable with at least one point exists. -/
theorem mode_ok (hlen : c.probs.length = c.support.length) (hne : c.support ≠ []) : ∃ p, c.mode = .ok p := by
  unfold Categorical.mode argmax
  split
  · rename_i h
    rw [h] at hlen
    exact absurd (List.length_eq_zero_iff.1 hlen.symm) hne
  · rename_i q l hq
    have hs := argmaxFrom_spec c.probs l 1 0 q (by rw [hq]; rfl) (by omega) (by rw [hq]; simp) (by rw [hq]; rfl)
      (fun i hi => by
        obtain rfl : i = 0 := by omega
        rw [hq]; simp) (fun i hi => by omega)
    rw [hlen] at hs
    show ∃ p, pointAt c.support (argmaxFrom l 1 0 q) = .ok p
    rw [pointAt, List.getElem?_eq_getElem hs.1]
    exact ⟨_, rfl⟩

/-- Resampling keeps the number of points, draws them from the support and makes them equally likely. -/
theorem resample_correct (hlen : c.probs.length = c.support.length) (hne : c.support ≠ []) {draws : List ℕ}
    (hd : ∀ k ∈ draws, k < c.support.length) (hn : draws.length = c.support.length) :
    ∃ c', c.resample draws = .ok c' ∧ c'.support.length = c.support.length ∧ (∀ p ∈ c'.support, p ∈ c.support) ∧
      c'.probs.length = c'.support.length ∧ (∀ p ∈ c'.probs, p = 1 / (c.support.length : ℝ)) ∧ c'.probs.sum = 1 ∧
      c'.dtype = c.dtype := by
  have hs : c.sample draws = .ok (draws.map fun k => c.support.getD k []) := by
    rw [Categorical.sample, if_neg (by simpa using hlen)]
  have hpos : 0 < c.support.length := List.length_pos_iff.2 hne
  have hm := sample_mem hs hd
  refine ⟨⟨c.probs.map fun _ => 1 / (c.support.length : ℝ), draws.map fun k => c.support.getD k [], c.dtype⟩, ?_, ?_, hm.2,
    ?_, ?_, ?_, rfl⟩
  · rw [Categorical.resample, hs]
    show Categorical.make _ _ _ = _
    rw [Categorical.make, if_neg]
    intro h
    rw [List.map_eq_nil_iff] at h
    rw [h] at hn
    simp at hn
    omega
  · simp [hn]
  · simp [hn, hlen]
  · intro p hp
    obtain ⟨_, _, rfl⟩ := List.mem_map.1 hp
    rfl
  · rw [List.map_const', List.sum_replicate, hlen, nsmul_eq_mul, mul_one_div_cancel]
    exact_mod_cast hpos.ne'

/-- The hypotheses are met, for example, by three distinct vectors with pairwise different components. -/
example : ∃ c : Categorical ℤ Unit, Categorical.make [1 / 2, 1 / 4, 1 / 4] [[1, 2], [3, 4], [5, 6]] () = .ok c ∧
    c.probs.length = c.support.length ∧ c.support.Nodup ∧ NoPartial c [3, 4] := by
  refine ⟨_, rfl, rfl, by decide, ?_⟩
  unfold NoPartial
  decide

/-! ### Point masses -/

/-- The mass of a constant is concentrated in its support. -/
theorem constant_pmf (s x : List ℝ) : (x = s → constPmf s x = 1) ∧ (x ≠ s → constPmf s x = 0) := by
  constructor
  · intro h; rw [constPmf, if_pos h]
  · intro h; rw [constPmf, if_neg h]

/-- The distribution function of a constant jumps from 0 to 1 where every component reaches the support. -/
theorem constant_cdf (s x : List ℝ) (hlen : x.length = s.length) :
    ((∀ i < s.length, s.getD i 0 ≤ x.getD i 0) → constCdf s x = 1) ∧
    ((∃ i < s.length, x.getD i 0 < s.getD i 0) → constCdf s x = 0) := by
  have key : List.Forall₂ (fun a b : ℝ => b ≤ a) x s ↔ ∀ i < s.length, s.getD i 0 ≤ x.getD i 0 := by
    rw [List.forall₂_iff_get]
    constructor
    · rintro ⟨_, h⟩ i hi
      rw [List.getD_eq_getElem?_getD, List.getD_eq_getElem?_getD, List.getElem?_eq_getElem hi,
        List.getElem?_eq_getElem (by omega)]
      exact h i (by omega) hi
    · intro h
      refine ⟨hlen, fun i h1 h2 => ?_⟩
      have := h i h2
      rwa [List.getD_eq_getElem?_getD, List.getD_eq_getElem?_getD, List.getElem?_eq_getElem h2,
        List.getElem?_eq_getElem h1] at this
  constructor
  · intro h; rw [constCdf, if_pos (key.2 h)]
  · rintro ⟨i, hi, h⟩
    rw [constCdf, if_neg]
    intro h'
    exact absurd (key.1 h' i hi) (not_le.2 h)

/-- Every sample of a constant, for every sample size, consists of copies of the support. -/
theorem constant_sample (s : Arr) (size idx idx' : List ℕ) (h : Valid size idx) :
    (constSample s size).shape = size ++ s.shape ∧ (constSample s size).get (idx ++ idx') = s.get idx' := by
  refine ⟨rfl, ?_⟩
  show s.get ((idx ++ idx').drop size.length) = _
  rw [List.drop_left' (List.Forall₂.length_eq h).symm]

/-- Violation: `in_support` raises `ValueError` for every constant and every normal random variable and every argument
(their support checks return numpy booleans, which `in_support` rejects). -/
theorem in_support_always_raises (s x : List ℝ) :
    constInSupport s x = .error .valueError ∧ normalInSupport x = .error .valueError := ⟨rfl, rfl⟩

end Probnum.RandVars
