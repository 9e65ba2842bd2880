import Mathlib.Algebra.Order.BigOperators.Group.List
import Mathlib.Algebra.Field.Basic
import Mathlib.Algebra.CharZero.Defs
import Mathlib.Data.Nat.Cast.Order.Field
import Mathlib.Tactic.FieldSimp
import Mathlib.Tactic.Ring
import Mathlib.Tactic.Linarith
import Mathlib.Tactic.NormNum
import Mathlib.Data.List.Sort
import Verif.Diffusion.Model

/-!
# C07 and C08: calibrated diffusions
-/

namespace Probnum.Diffusion

/-! ## C07: `ConstantDiffusion` -/

section Constant

variable {K : Type} [Field K]

/-- The history of a diffusion object: the estimates it was updated with, first to last. -/
def afterUpdates (es : List K) : ConstantDiffusion K := es.foldl ConstantDiffusion.update .init

/-- Arithmetic mean, the specification of C07. -/
def mean (es : List K) : K := es.sum / (es.length : K)

/-- Before any update, evaluation raises NotImplementedError. -/
theorem constant_before_update_raises {T : Type} (t : T) (i : ℤ) :
    (afterUpdates ([] : List K)).call t = .error .notImplementedError ∧
      (afterUpdates ([] : List K)).getItem i = .error .notImplementedError :=
  ⟨rfl, rfl⟩

private theorem foldl_from [CharZero K] (es : List K) (s : K) (xs : List K)
    (hs : s * (xs.length : K) = xs.sum) :
    ∃ s', es.foldl ConstantDiffusion.update ⟨some s, xs.length + 1⟩
      = ⟨some s', (xs ++ es).length + 1⟩ ∧ s' * ((xs ++ es).length : K) = (xs ++ es).sum := by
  induction es generalizing s xs with
  | nil => exact ⟨s, by simp, by simpa using hs⟩
  | cons e es ih =>
    have hpos : ((xs.length : K) + 1) ≠ 0 := by exact_mod_cast Nat.succ_ne_zero xs.length
    obtain ⟨s', h1, h2⟩ := ih
      (1 / ((xs.length + 1 : ℕ) : K) * e + (1 - 1 / ((xs.length + 1 : ℕ) : K)) * s) (xs ++ [e]) (by
        push_cast [List.length_append, List.length_singleton, List.sum_append, List.sum_singleton]
        rw [← hs]
        field_simp
        ring)
    refine ⟨s', ?_, ?_⟩
    · rw [List.foldl_cons, List.append_cons, ← h1]
      simp [ConstantDiffusion.update]
    · rw [List.append_cons]; exact h2

/-- **C07, exact behaviour of the code.**  After one estimate the diffusion is that estimate; after `n ≥ 2`
estimates it is the mean of all estimates *except the first one*. -/
theorem constant_diffusion_exact [CharZero K] (e : K) (es : List K) :
    (afterUpdates (e :: es)).diffusion = some (if es = [] then e else mean es) := by
  obtain ⟨s', h1, h2⟩ := foldl_from es e [] (by simp)
  simp only [List.length_nil, List.nil_append, Nat.zero_add] at h1 h2
  have : afterUpdates (e :: es) = ⟨some s', es.length + 1⟩ := by
    simpa [afterUpdates, ConstantDiffusion.update, ConstantDiffusion.init] using h1
  rw [this]
  by_cases h : es = []
  · subst h
    simp at h1
    simp [h1]
  · have hl : (es.length : K) ≠ 0 := by
      exact_mod_cast fun h0 => h (List.length_eq_zero_iff.1 h0)
    simp only [h, if_false, Option.some.injEq, mean]
    rw [eq_div_iff hl, h2]

/-- **C07, violated**: two estimates `1, 3` are calibrated to `3`, their mean is `2`.  The first local
estimate is discarded as soon as a second one arrives. -/
theorem constant_diffusion_is_not_mean :
    ¬ ∀ es : List ℚ, es ≠ [] → (afterUpdates es).diffusion = some (mean es) := by
  intro h
  have h1 := h [1, 3] (by simp)
  rw [constant_diffusion_exact] at h1
  norm_num [mean] at h1

/-- The first estimate never matters once there is a second one. -/
theorem constant_diffusion_ignores_first [CharZero K] (e e' x : K) (es : List K) :
    (afterUpdates (e :: x :: es)).diffusion = (afterUpdates (e' :: x :: es)).diffusion := by
  rw [constant_diffusion_exact, constant_diffusion_exact]; simp

/-- **C07, partial**: the calibrated value is the mean whenever the first estimate equals the mean of the others
(in particular for a single estimate and for constant histories). -/
theorem constant_diffusion_is_mean_partial [CharZero K] (e : K) (es : List K) (h : es = [] ∨ e = mean es) :
    (afterUpdates (e :: es)).diffusion = some (mean (e :: es)) := by
  rw [constant_diffusion_exact]
  rcases h with rfl | h
  · simp [mean]
  · by_cases hes : es = []
    · subst hes; simp [mean]
    · have hl : (es.length : K) ≠ 0 := by
        exact_mod_cast fun h0 => hes (List.length_eq_zero_iff.1 h0)
      have hl1 : ((es.length : K) + 1) ≠ 0 := by exact_mod_cast Nat.succ_ne_zero es.length
      simp only [hes, if_false, Option.some.injEq]
      have : mean (e :: es) = (mean es + es.sum) / ((es.length : K) + 1) := by
        simp [mean, List.sum_cons, h]
      rw [this, mean]
      field_simp
      ring

example : (3 : ℚ) = mean [2, 4] := by norm_num [mean]

/-- The calibrated diffusion is the same at every time and index. -/
theorem constant_diffusion_constant {T : Type} (e : K) (es : List K) :
    ∃ s, (afterUpdates (e :: es)).diffusion = some s ∧
      (∀ t : T, (afterUpdates (e :: es)).call t = .ok s) ∧
      ∀ i, (afterUpdates (e :: es)).getItem i = .ok s := by
  have : ∃ s, (afterUpdates (e :: es)).diffusion = some s := by
    have key : ∀ (es : List K) (d : ConstantDiffusion K), (∃ s, d.diffusion = some s) →
        ∃ s, (es.foldl ConstantDiffusion.update d).diffusion = some s := by
      intro es
      induction es with
      | nil => exact fun d h => h
      | cons x es ih =>
        rintro d ⟨s, h⟩
        exact ih _ (by simp [ConstantDiffusion.update, h])
    exact key es _ ⟨e, rfl⟩
  obtain ⟨s, hs⟩ := this
  exact ⟨s, hs, fun t => by simp [ConstantDiffusion.call, hs], fun i => by simp [ConstantDiffusion.getItem, hs]⟩

/-- Calibration keeps diffusions between bounds of the local estimates (so it keeps them nonnegative). -/
theorem constant_diffusion_bounds {K : Type} [Field K] [LinearOrder K] [IsStrictOrderedRing K]
    (lo hi : K) (e : K) (es : List K) (h : ∀ x ∈ e :: es, lo ≤ x ∧ x ≤ hi) :
    ∃ s, (afterUpdates (e :: es)).diffusion = some s ∧ lo ≤ s ∧ s ≤ hi := by
  rw [constant_diffusion_exact]
  refine ⟨_, rfl, ?_⟩
  by_cases hes : es = []
  · simp only [hes, if_true]; exact h e (by simp)
  · have hl : (0 : K) < es.length := by
      exact_mod_cast List.length_pos_iff.2 hes
    simp only [hes, if_false, mean]
    rw [le_div_iff₀ hl, div_le_iff₀ hl]
    constructor
    · have := List.card_nsmul_le_sum es lo (fun x hx => (h x (List.mem_cons_of_mem _ hx)).1)
      rw [nsmul_eq_mul] at this; linarith
    · have := List.sum_le_card_nsmul es hi (fun x hx => (h x (List.mem_cons_of_mem _ hx)).2)
      rw [nsmul_eq_mul] at this; linarith

end Constant

/-! ## C08: `PiecewiseConstantDiffusion` -/

section Piecewise

variable {T K : Type} [LinearOrder T]

/-- Calibration of a piecewise constant diffusion: `steps` lists the accepted steps as (end time, estimate). -/
def calibrate (t0 : T) (steps : List (T × K)) : Res (PiecewiseDiffusion T K) :=
  steps.foldlM (fun d p => d.estimateAndUpdate p.2 p.1) (PiecewiseDiffusion.init t0)

/-- The documented piecewise constant function (class docstring, `_diffusions.py` 97-114): `σ_1` before `t_1`, `σ_n`
on `t_(n-1) ≤ t < t_n`, `σ_N` from `t_N` on. -/
def documented (t : T) : List (T × K) → Option K
  | [] => none
  | [(_, s)] => some s
  | (t₁, s) :: p :: rest => if t < t₁ then some s else documented t (p :: rest)

/-- The left-continuous variant: `σ_n` on `t_(n-1) < t ≤ t_n`. -/
def leftContinuous (t : T) : List (T × K) → Option K
  | [] => none
  | [(_, s)] => some s
  | (t₁, s) :: p :: rest => if t ≤ t₁ then some s else leftContinuous t (p :: rest)

/-- The end times are ascending and not before `t0`. -/
def Ascending (t0 : T) (steps : List (T × K)) : Prop := (t0 :: steps.map Prod.fst).Pairwise (· ≤ ·)

private theorem getLast_ge (t0 : T) (ts : List T) (h : (t0 :: ts).Pairwise (· ≤ ·)) :
    ∀ x ∈ t0 :: ts, x ≤ (t0 :: ts).getLast (by simp) := by
  intro x hx
  have hsplit := List.dropLast_append_getLast (l := t0 :: ts) (by simp)
  rw [← hsplit] at hx h
  rw [List.pairwise_append] at h
  rcases List.mem_append.1 hx with hx | hx
  · exact h.2.2 x hx _ (by simp)
  · rw [List.mem_singleton] at hx
    exact hx.le

open Classical in
private theorem calibrate_from (t0 : T) (pre steps : List (T × K)) (hpre : Ascending t0 pre) :
    steps.foldlM (fun d p => d.estimateAndUpdate p.2 p.1)
        (⟨t0, pre.map Prod.fst, pre.map Prod.snd⟩ : PiecewiseDiffusion T K)
      = (if Ascending t0 (pre ++ steps) then
          (.ok ⟨t0, (pre ++ steps).map Prod.fst, (pre ++ steps).map Prod.snd⟩ : Res _)
        else .error .valueError) := by
  induction steps generalizing pre with
  | nil => simp [hpre, pure, Except.pure]
  | cons p steps ih =>
    rw [List.foldlM_cons]
    by_cases hp : (t0 :: pre.map Prod.fst).getLast (by simp) ≤ p.1
    · have hasc : Ascending t0 (pre ++ [p]) := by
        unfold Ascending at hpre ⊢
        rw [List.map_append, ← List.cons_append, List.pairwise_append]
        refine ⟨hpre, by simp, ?_⟩
        intro a ha b hb
        simp only [List.map_cons, List.map_nil, List.mem_singleton] at hb
        subst hb
        exact (getLast_ge t0 _ hpre a ha).trans hp
      have := ih (pre ++ [p]) hasc
      rw [List.append_assoc, List.singleton_append] at this
      rw [← this]
      simp only [PiecewiseDiffusion.estimateAndUpdate, PiecewiseDiffusion.estimateLocallyGuard,
        PiecewiseDiffusion.tmax, PiecewiseDiffusion.locations, hp, not_true, if_false,
        PiecewiseDiffusion.update, bind, Except.bind, List.map_append, List.map_cons, List.map_nil]
    · have hnot : ¬ Ascending t0 (pre ++ p :: steps) := by
        intro h
        apply hp
        unfold Ascending at h
        rw [List.map_append, ← List.cons_append, List.pairwise_append] at h
        exact h.2.2 _ (List.getLast_mem _) _ (by simp)
      simp only [PiecewiseDiffusion.estimateAndUpdate, PiecewiseDiffusion.estimateLocallyGuard,
        PiecewiseDiffusion.tmax, PiecewiseDiffusion.locations, hp, not_false_iff, if_true,
        bind, Except.bind, hnot, if_false]

/-- Calibration succeeds exactly on ascending end times (otherwise ValueError), and then stores them with their
estimates. -/
theorem calibrate_iff (t0 : T) (steps : List (T × K)) :
    (Ascending t0 steps → calibrate t0 steps = .ok ⟨t0, steps.map Prod.fst, steps.map Prod.snd⟩) ∧
      (¬ Ascending t0 steps → calibrate t0 steps = .error .valueError) := by
  have := calibrate_from t0 [] steps (by simp [Ascending])
  simp only [List.map_nil, List.nil_append] at this
  constructor <;> intro h
  · simpa [calibrate, PiecewiseDiffusion.init, h] using this
  · simpa [calibrate, PiecewiseDiffusion.init, h] using this

/-- Before any step, evaluation raises NotImplementedError. -/
theorem piecewise_before_update_raises (t0 t : T) (i : ℤ) :
    (PiecewiseDiffusion.init t0 : PiecewiseDiffusion T K).call t = .error .notImplementedError ∧
      (PiecewiseDiffusion.init t0 : PiecewiseDiffusion T K).getItem i = .error .notImplementedError := by
  constructor <;> rfl

private theorem npIndex_nat {α : Type} (a : List α) (n : ℕ) (h : n < a.length) :
    npIndex a (n : ℤ) = .ok a[n] := by
  have : ¬ ((n : ℤ) < 0) := by omega
  simp [npIndex, List.getElem?_eq_getElem h]

private theorem npIndex_last {α : Type} (a : List α) (h : a ≠ []) :
    npIndex a (-1) = .ok (a.getLast h) := by
  have hl := List.length_pos_iff.2 h
  have h1 : ¬ ((a.length : ℤ) + -1 < 0) := by omega
  have h2 : ((a.length : ℤ) + -1).toNat = a.length - 1 := by omega
  simp only [npIndex, h1, h2]
  simp only [Left.nonneg_neg_iff, Int.reduceLE, if_false]
  rw [List.getElem?_eq_getElem (by omega)]
  simp [List.getLast_eq_getElem]

private theorem left_index (t : T) (steps : List (T × K)) (hne : steps ≠ [])
    (ht : t ≤ (steps.map Prod.fst).getLast (by simpa using hne)) :
    ∃ h : searchsortedLeft (steps.map Prod.fst) t < steps.length,
      leftContinuous t steps = some (steps[searchsortedLeft (steps.map Prod.fst) t].2) := by
  induction steps with
  | nil => exact absurd rfl hne
  | cons p steps ih =>
    obtain ⟨t₁, s⟩ := p
    cases steps with
    | nil =>
      simp only [List.map_cons, List.map_nil, List.getLast_singleton] at ht
      have : ¬ t₁ < t := not_lt.2 ht
      simp [searchsortedLeft, this, leftContinuous]
    | cons p rest =>
      by_cases h : t ≤ t₁
      · have : ¬ t₁ < t := not_lt.2 h
        simp [searchsortedLeft, this, leftContinuous, h]
      · have hlt : t₁ < t := not_le.1 h
        have ht' : t ≤ ((p :: rest).map Prod.fst).getLast (by simp) := by
          simpa [List.getLast_cons] using ht
        obtain ⟨h1, h2⟩ := ih (by simp) ht'
        have hs : searchsortedLeft (((t₁, s) :: p :: rest).map Prod.fst) t
            = searchsortedLeft ((p :: rest).map Prod.fst) t + 1 := by
          simp [searchsortedLeft, hlt]
        refine ⟨by rw [hs, List.length_cons]; omega, ?_⟩
        simp only [leftContinuous, h, if_false, h2, hs, List.getElem_cons_succ]

private theorem left_last (t : T) (steps : List (T × K)) (hne : steps ≠ [])
    (h : ∀ p ∈ steps, p.1 < t) : leftContinuous t steps = some (steps.getLast hne).2 := by
  induction steps with
  | nil => exact absurd rfl hne
  | cons p steps ih =>
    obtain ⟨t₁, s⟩ := p
    cases steps with
    | nil => rfl
    | cons p rest =>
      have : ¬ t ≤ t₁ := not_le.2 (h (t₁, s) (by simp))
      simp only [leftContinuous, this, if_false]
      rw [ih (by simp) (fun q hq => h q (List.mem_cons_of_mem _ hq)),
        List.getLast_cons (l := p :: rest) (by simp)]

private theorem left_first (t : T) (steps : List (T × K)) (hne : steps ≠ [])
    (h : ∀ p ∈ steps, t ≤ p.1) : leftContinuous t steps = some (steps.head hne).2 := by
  cases steps with
  | nil => exact absurd rfl hne
  | cons p steps =>
    obtain ⟨t₁, s⟩ := p
    cases steps with
    | nil => rfl
    | cons p rest => simp [leftContinuous, h (t₁, s) (by simp)]

/-- **C08, exact behaviour of the code.**  After calibration with at least one step, evaluation at any `t ≠ t0`
returns the left-continuous step function, at `t = t0` the *last* estimate. -/
theorem piecewise_exact (t0 : T) (steps : List (T × K)) (hne : steps ≠ []) (hasc : Ascending t0 steps) (t : T) :
    ∃ d s, calibrate t0 steps = .ok d ∧ d.call t = .ok s ∧
      some s = if t = t0 then some (steps.getLast hne).2 else leftContinuous t steps := by
  refine ⟨⟨t0, steps.map Prod.fst, steps.map Prod.snd⟩, ?_⟩
  rw [(calibrate_iff t0 steps).1 hasc]
  have hlen : ¬ ((t0 :: steps.map Prod.fst).length ≤ 1) := by
    have := List.length_pos_iff.2 hne
    simp only [List.length_cons, List.length_map]; omega
  have hge : ∀ p ∈ steps, t0 ≤ p.1 := by
    intro p hp
    exact (List.pairwise_cons.1 hasc).1 _ (List.mem_map_of_mem hp)
  have hlast : (t0 :: steps.map Prod.fst).getLast (by simp) = (steps.map Prod.fst).getLast (by simpa using hne) :=
    List.getLast_cons (by simpa using hne)
  have hlastmem : ∀ p ∈ steps, p.1 ≤ (steps.map Prod.fst).getLast (by simpa using hne) := by
    intro p hp
    rw [← hlast]
    exact getLast_ge t0 _ hasc _ (List.mem_cons_of_mem _ (List.mem_map_of_mem hp))
  have hneσ : steps.map Prod.snd ≠ [] := by simpa using hne
  have hlastσ : (steps.map Prod.snd).getLast hneσ = (steps.getLast hne).2 := by
    rw [List.getLast_map]
  simp only [PiecewiseDiffusion.call, PiecewiseDiffusion.locations, hlen, if_false,
    PiecewiseDiffusion.getItem, PiecewiseDiffusion.tmax, hlast]
  by_cases hr : (steps.map Prod.fst).getLast (by simpa using hne) < t
  · -- right of the last location
    refine ⟨(steps.getLast hne).2, trivial, ?_, ?_⟩
    · simp only [hr, if_true]
      rw [npIndex_last _ hneσ, hlastσ]
    · rw [left_last t steps hne (fun p hp => (hlastmem p hp).trans_lt hr)]
      simp
  · have hr' := not_lt.1 hr
    simp only [hr, if_false]
    by_cases hl : t < t0
    · -- left of the first location
      refine ⟨(steps.head hne).2, trivial, ?_, ?_⟩
      · simp only [hl, if_true]
        have h0 : 0 < (steps.map Prod.snd).length := List.length_pos_iff.2 hneσ
        have := npIndex_nat (steps.map Prod.snd) 0 h0
        rw [Nat.cast_zero] at this
        rw [this]
        cases steps with
        | nil => exact absurd rfl hne
        | cons p rest => simp
      · rw [left_first t steps hne (fun p hp => hl.le.trans (hge p hp))]
        simp [hl.ne]
    · simp only [hl, if_false]
      by_cases he : t = t0
      · -- at the first location
        subst he
        refine ⟨(steps.getLast hne).2, trivial, ?_, by simp⟩
        simp only [searchsortedLeft, lt_irrefl, if_false]
        rw [← hlastσ]
        exact npIndex_last _ hneσ
      · have hgt : t0 < t := lt_of_le_of_ne (not_lt.1 hl) (Ne.symm he)
        obtain ⟨h1, h2⟩ := left_index t steps hne hr'
        refine ⟨steps[searchsortedLeft (steps.map Prod.fst) t].2, trivial, ?_, ?_⟩
        rotate_left
        · simp only [he, if_false]
          exact h2.symm
        · simp only [searchsortedLeft, hgt, if_true]
          push_cast
          rw [add_sub_cancel_right, npIndex_nat _ _ (by simpa using h1)]
          simp

private theorem documented_eq_left (t : T) (steps : List (T × K))
    (h : ∀ p ∈ steps.dropLast, t ≠ p.1) : documented t steps = leftContinuous t steps := by
  induction steps with
  | nil => rfl
  | cons p steps ih =>
    obtain ⟨t₁, s⟩ := p
    cases steps with
    | nil => rfl
    | cons p rest =>
      rw [List.dropLast_cons_of_ne_nil (by simp)] at h
      have h1 : t ≠ t₁ := h (t₁, s) (by simp)
      have : t < t₁ ↔ t ≤ t₁ := ⟨le_of_lt, fun h => lt_of_le_of_ne h h1⟩
      simp only [documented, leftContinuous, this]
      rw [ih (fun q hq => h q (List.mem_cons_of_mem _ hq))]

/-- **C08, partial.**  Away from `t0` and from the interior step boundaries the diffusion object is the documented
function; what is missing are exactly those points, see `piecewise_violates_at_start` and
`piecewise_violates_at_boundary`. -/
theorem piecewise_documented_partial (t0 : T) (steps : List (T × K)) (hne : steps ≠ [])
    (hasc : Ascending t0 steps) (t : T) (h0 : t ≠ t0) (hb : ∀ p ∈ steps.dropLast, t ≠ p.1) :
    ∃ d s, calibrate t0 steps = .ok d ∧ d.call t = .ok s ∧ some s = documented t steps := by
  obtain ⟨d, s, h1, h2, h3⟩ := piecewise_exact t0 steps hne hasc t
  exact ⟨d, s, h1, h2, by rw [h3, documented_eq_left t steps hb, if_neg h0]⟩

example : Ascending (0 : ℚ) [(1, (5 : ℚ)), (2, 7), (3, 9)] ∧
    documented (3 / 2 : ℚ) [(1, (5 : ℚ)), (2, 7), (3, 9)] = some 7 ∧
    (∀ p ∈ [((1 : ℚ), (5 : ℚ)), (2, 7), (3, 9)].dropLast, (3 / 2 : ℚ) ≠ p.1) := by
  refine ⟨?_, ?_, ?_⟩
  · simp [Ascending]; norm_num
  · simp only [documented]; norm_num
  · intro p hp; simp at hp; rcases hp with rfl | rfl <;> norm_num

/-- **C08, violated at the initial time.**  With at least two steps the value at `t0` is the last estimate, not the
first one. -/
theorem piecewise_violates_at_start (t0 : T) (steps : List (T × K)) (hne : steps ≠ [])
    (hasc : Ascending t0 steps) :
    ∃ d, calibrate t0 steps = .ok d ∧ d.call t0 = .ok (steps.getLast hne).2 := by
  obtain ⟨d, s, h1, h2, h3⟩ := piecewise_exact t0 steps hne hasc t0
  simp only [if_true, Option.some.injEq] at h3
  exact ⟨d, h1, h3 ▸ h2⟩

/-- Concrete instance: two unit steps with estimates 5, 7.  The object returns 7 at `t0 = 0` where the documentation
says 5, and 5 at `t = 1` where the documentation says 7. -/
theorem piecewise_violates_at_boundary :
    ∃ d : PiecewiseDiffusion ℚ ℚ, calibrate 0 [(1, 5), (2, 7)] = .ok d ∧
      d.call 0 = .ok 7 ∧ documented (0 : ℚ) [(1, (5 : ℚ)), (2, 7)] = some 5 ∧
      d.call 1 = .ok 5 ∧ documented (1 : ℚ) [(1, (5 : ℚ)), (2, 7)] = some 7 := by
  have hasc : Ascending (0 : ℚ) [(1, (5 : ℚ)), (2, 7)] := by simp [Ascending]
  obtain ⟨d, s, h1, h2, h3⟩ := piecewise_exact (0 : ℚ) [(1, (5 : ℚ)), (2, 7)] (by simp) hasc 0
  obtain ⟨d', s', h1', h2', h3'⟩ := piecewise_exact (0 : ℚ) [(1, (5 : ℚ)), (2, 7)] (by simp) hasc 1
  rw [h1] at h1'
  cases h1'
  refine ⟨d, h1, ?_, by simp [documented], ?_, by simp [documented]⟩
  · simp at h3; rw [h2, h3]
  · simp [leftContinuous] at h3'; rw [h2', h3']

end Piecewise

end Probnum.Diffusion
