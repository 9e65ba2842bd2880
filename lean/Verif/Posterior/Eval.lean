import Mathlib.Algebra.Order.Field.Rat
import Mathlib.Tactic.NormNum
import Verif.Posterior.EvalLemmas

/-!
# C10: evaluating a time-series posterior
-/

namespace Probnum.Posterior

variable {T S : Type} [LinearOrder T]

/-- A posterior as it comes out of appends: at least one state, as many states as locations, strictly ascending
locations (cf. `container_invariant`). -/
structure Grid (p : Post T S) : Prop where
  ascending : p.locations.Pairwise (· < ·)
  nonempty : p.locations ≠ []
  sameLength : p.states.length = p.locations.length

/-- Which interpolation call is made for one query time. -/
private def eval1 (interp : T → Option ℤ → Option ℤ → Res S) (p : Post T S) (t0 tmax t : T) : Res S :=
  if t < t0 then interp t none (some 0)
  else if tmax < t then interp t (some (-1)) none
  else interp t (some ((searchsortedLeft p.locations t : ℤ) - 1)) (some (searchsortedLeft p.locations t : ℤ))

private theorem call_ok_iff (interp : T → Option ℤ → Option ℤ → Res S) (p : Post T S) (hg : Grid p)
    (ts : List T) (hs : ts.Pairwise (· ≤ ·)) (vs : List S) :
    call interp p ts = .ok vs ↔
      ts.mapM (eval1 interp p (p.locations.head hg.nonempty) (p.locations.getLast hg.nonempty)) = .ok vs := by
  rcases p with ⟨locs, sts, fr⟩
  obtain ⟨hasc, hne, hlen⟩ := hg
  cases locs with
  | nil => exact absurd rfl hne
  | cons x l =>
    simp only at hasc hne hlen
    simp only [call, (sortedCheck_iff ts).2 hs, not_true_eq_false, if_false, amin_sorted x l hasc,
      amax_sorted x l hasc, List.head_cons, bind, Except.bind]
    set tmax := (x :: l).getLast hne with htmax
    have hab : x ≤ tmax := by
      rcases List.mem_cons.1 (List.getLast_mem hne) with h | h
      · exact h.ge
      · exact ((List.pairwise_cons.1 hasc).1 _ h).le
    rw [mapM_ok_iff]
    have hsplit := sorted_split ts x tmax hab hs
    have hL : (ts.filter fun t => t < x).mapM (fun t => interp t none (some 0))
        = (ts.filter fun t => t < x).mapM (eval1 interp ⟨x :: l, sts, fr⟩ x tmax) := by
      apply mapM_congr'
      intro t ht
      have : t < x := by simpa using (List.mem_filter.1 ht).2
      simp [eval1, this]
    have hM : (ts.filter fun t => x ≤ t ∧ t ≤ tmax).mapM (fun t =>
          interp t (some ((searchsortedLeft (x :: l) t : ℤ) - 1)) (some (searchsortedLeft (x :: l) t : ℤ)))
        = (ts.filter fun t => x ≤ t ∧ t ≤ tmax).mapM (eval1 interp ⟨x :: l, sts, fr⟩ x tmax) := by
      apply mapM_congr'
      intro t ht
      have : x ≤ t ∧ t ≤ tmax := by simpa using (List.mem_filter.1 ht).2
      simp [eval1, not_lt.2 this.1, not_lt.2 this.2]
    have hR : (ts.filter fun t => tmax < t).mapM (fun t => interp t (some (-1)) none)
        = (ts.filter fun t => tmax < t).mapM (eval1 interp ⟨x :: l, sts, fr⟩ x tmax) := by
      apply mapM_congr'
      intro t ht
      have : tmax < t := by simpa using (List.mem_filter.1 ht).2
      simp [eval1, this, not_lt.2 (hab.trans this.le)]
    simp only [pure, Except.pure]
    rw [hM, hL, hR]
    constructor
    · intro h
      cases h1 : (ts.filter fun t => x ≤ t ∧ t ≤ tmax).mapM (eval1 interp ⟨x :: l, sts, fr⟩ x tmax) with
      | error e => rw [h1] at h; cases h
      | ok a =>
        cases h2 : (ts.filter fun t => t < x).mapM (eval1 interp ⟨x :: l, sts, fr⟩ x tmax) with
        | error e => rw [h1, h2] at h; cases h
        | ok b =>
          cases h3 : (ts.filter fun t => tmax < t).mapM (eval1 interp ⟨x :: l, sts, fr⟩ x tmax) with
          | error e => rw [h1, h2, h3] at h; cases h
          | ok c =>
            rw [h1, h2, h3] at h
            simp only [Except.ok.injEq] at h
            rw [mapM_ok_iff] at h1 h2 h3
            rw [← h, hsplit]
            exact List.rel_append (List.rel_append h2 h1) h3
    · intro h
      rw [hsplit] at h
      obtain ⟨u, c, rfl, hu, hc⟩ := forall₂_append_split _ _ _ h
      obtain ⟨b, a, rfl, hb, ha⟩ := forall₂_append_split _ _ _ hu
      rw [(mapM_ok_iff _ _ _).2 ha, (mapM_ok_iff _ _ _).2 hb, (mapM_ok_iff _ _ _).2 hc]

private theorem callScalar_eq (interp : T → Option ℤ → Option ℤ → Res S) (p : Post T S) (hg : Grid p)
    (t : T) (v : S) :
    callScalar interp p t = .ok v ↔
      eval1 interp p (p.locations.head hg.nonempty) (p.locations.getLast hg.nonempty) t = .ok v := by
  have h := call_ok_iff interp p hg [t] (by simp)
  simp only [mapM_ok_iff] at h
  constructor
  · intro hc
    cases hcall : call interp p [t] with
    | error e => simp [callScalar, hcall, bind, Except.bind] at hc
    | ok vs =>
      have := (h vs).1 hcall
      cases this with
      | cons h1 h2 =>
        cases h2
        simp only [callScalar, hcall, bind, Except.bind, pure, Except.pure, Except.ok.injEq] at hc
        rw [← hc]; exact h1
  · intro he
    have := (h [v]).2 (.cons he .nil)
    simp [callScalar, this, bind, Except.bind, pure, Except.pure]

/-- Evaluating a posterior whose interpolation is another one followed by `f`. -/
theorem callScalar_comp {S' : Type} (g : T → Option ℤ → Option ℤ → Res S) (f : S → Res S') (p : Post T S) (hg : Grid p)
    (p' : Post T S') (hl : p'.locations = p.locations) (hs : p'.states.length = p'.locations.length) (t : T) (v : S') :
    callScalar (fun t i j => (g t i j).bind f) p' t = .ok v ↔ ∃ s, callScalar g p t = .ok s ∧ f s = .ok v := by
  rcases p' with ⟨locs, sts, fr⟩
  simp only at hl hs
  subst hl
  have hg' : Grid (⟨p.locations, sts, fr⟩ : Post T S') := ⟨hg.ascending, hg.nonempty, hs⟩
  rw [callScalar_eq _ _ hg']
  simp only [callScalar_eq g p hg]
  have key : eval1 (fun t i j => (g t i j).bind f) (⟨p.locations, sts, fr⟩ : Post T S')
      (p.locations.head hg.nonempty) (p.locations.getLast hg.nonempty) t
      = (eval1 g p (p.locations.head hg.nonempty) (p.locations.getLast hg.nonempty) t).bind f := by
    unfold eval1
    split_ifs <;> rfl
  rw [show eval1 (fun t i j => (g t i j).bind f) (⟨p.locations, sts, fr⟩ : Post T S') (p.locations.head hg'.nonempty)
    (p.locations.getLast hg'.nonempty) t = _ from key]
  cases eval1 g p (p.locations.head hg.nonempty) (p.locations.getLast hg.nonempty) t with
  | error e => exact ⟨fun h => (by cases h), fun ⟨s, h, _⟩ => (by cases h)⟩
  | ok s => exact ⟨fun h => ⟨s, rfl, h⟩, fun ⟨s', h, h'⟩ => by cases h; exact h'⟩

/-- Where a time can be relative to a grid. -/
theorem grid_cases (l : List T) (hne : l ≠ []) (t : T) :
    t < l.head hne ∨ (∃ i, ∃ hi : i < l.length, t = l[i]) ∨
      (∃ i, ∃ hi : i + 1 < l.length, l[i] < t ∧ t < l[i + 1]) ∨ l.getLast hne < t := by
  induction l with
  | nil => exact absurd rfl hne
  | cons x l ih =>
    rcases lt_trichotomy t x with h | h | h
    · exact Or.inl h
    · exact Or.inr (Or.inl ⟨0, by simp, h⟩)
    · cases l with
      | nil => exact Or.inr (Or.inr (Or.inr h))
      | cons y l =>
        rcases ih (by simp) with h' | ⟨i, hi, h'⟩ | ⟨i, hi, h'⟩ | h'
        · exact Or.inr (Or.inr (Or.inl ⟨0, by simp, h, h'⟩))
        · exact Or.inr (Or.inl ⟨i + 1, by simpa using hi, h'⟩)
        · exact Or.inr (Or.inr (Or.inl ⟨i + 1, by simpa using hi, h'⟩))
        · exact Or.inr (Or.inr (Or.inr (by rwa [List.getLast_cons (by simp)])))

/-- **C10 (a).**  For sorted query times, evaluating a posterior on an array returns the list `vs` iff evaluating it at
each time separately returns the entries of `vs`, one per query, in order. -/
theorem array_evaluation_is_pointwise (interp : T → Option ℤ → Option ℤ → Res S) (p : Post T S) (hg : Grid p)
    (ts : List T) (hs : ts.Pairwise (· ≤ ·)) (vs : List S) :
    call interp p ts = .ok vs ↔ List.Forall₂ (fun t v => callScalar interp p t = .ok v) ts vs := by
  rw [call_ok_iff interp p hg ts hs, mapM_ok_iff]
  simp only [callScalar_eq interp p hg]

/-- Consequence: the result has one entry per query. -/
theorem array_evaluation_length (interp : T → Option ℤ → Option ℤ → Res S) (p : Post T S) (hg : Grid p)
    (ts : List T) (hs : ts.Pairwise (· ≤ ·)) (vs : List S) (h : call interp p ts = .ok vs) :
    vs.length = ts.length :=
  ((array_evaluation_is_pointwise interp p hg ts hs vs).1 h).length_eq.symm

/-- **C10 (b).**  Query times that are not sorted raise ValueError. -/
theorem unsorted_query_raises (interp : T → Option ℤ → Option ℤ → Res S) (p : Post T S)
    (ts : List T) (hs : ¬ ts.Pairwise (· ≤ ·)) : call interp p ts = .error .valueError := by
  have : ¬ sortedCheck ts = true := fun h => hs ((sortedCheck_iff ts).1 h)
  simp [call, this, throw, throwThe, MonadExceptOf.throw, bind, Except.bind]

/-- Evaluating an empty posterior raises. -/
theorem empty_posterior_raises (interp : T → Option ℤ → Option ℤ → Res S) (p : Post T S)
    (h : p.locations = []) (ts : List T) : call interp p ts = .error .valueError := by
  by_cases hs : sortedCheck ts = true <;>
    simp [call, hs, h, amin, throw, throwThe, MonadExceptOf.throw, bind, Except.bind, pure, Except.pure]

section Gaussian

variable {T S D : Type} [AddCommGroup T] [LinearOrder T] [IsOrderedAddMonoid T]

/-- The diffusion used on a grid interval: the requested one, or one if no diffusion model was provided. -/
def diffusionOf (dyn : Dynamics T S D) (model : Option (ℤ → Res D)) (i : ℤ) : Res D :=
  match model with
  | none => .ok dyn.one
  | some m => m i

private theorem head_le (p : Post T S) (hg : Grid p) (i : ℕ) (hi : i < p.locations.length) :
    p.locations.head hg.nonempty ≤ p.locations[i] := by
  have h0 : p.locations.head hg.nonempty = p.locations[0]'(List.length_pos_iff.2 hg.nonempty) := by
    rw [List.head_eq_getElem]
  rw [h0]
  rcases Nat.eq_zero_or_pos i with rfl | h
  · exact le_rfl
  · exact (List.pairwise_iff_getElem.1 hg.ascending 0 i _ hi h).le

private theorem le_last (p : Post T S) (hg : Grid p) (i : ℕ) (hi : i < p.locations.length) :
    p.locations[i] ≤ p.locations.getLast hg.nonempty := by
  rw [List.getLast_eq_getElem]
  rcases Nat.lt_or_ge i (p.locations.length - 1) with h | h
  · exact (List.pairwise_iff_getElem.1 hg.ascending i _ hi _ h).le
  · have : i = p.locations.length - 1 := by omega
    subst this
    exact le_rfl

/-- **C10 (c), filtering.**  At a stored location the stored state is returned, unchanged. -/
theorem filtering_on_grid (dyn : Dynamics T S D) (model : Option (ℤ → Res D)) (p : Post T S) (hg : Grid p)
    (i : ℕ) (hi : i < p.locations.length) :
    callScalar (interpolateFiltering dyn model p) p p.locations[i]
      = .ok (p.states[i]'(by rw [hg.sameLength]; exact hi)) := by
  rw [callScalar_eq _ p hg]
  have h1 := head_le p hg i hi
  have h2 := le_last p hg i hi
  simp only [eval1, not_lt.2 h1, not_lt.2 h2, if_false, searchsorted_getElem _ hg.ascending i hi]
  have hs : i < p.states.length := by rw [hg.sameLength]; exact hi
  rcases i with _ | i
  · -- first location: previous index is -1, numpy wraps around
    have hne : p.states ≠ [] := List.length_pos_iff.1 hs
    simp only [Nat.cast_zero, zero_sub]
    have p1 := pyIndex_last p.locations hg.nonempty
    have p2 := pyIndex_nat p.locations 0 hi
    have p3 := pyIndex_last p.states hne
    have p4 := pyIndex_nat p.states 0 hs
    simp only [Nat.cast_zero] at p2 p4
    simp only [interpolateFiltering, optIndex, p1, p2, p3, p4, Except.map, bind, Except.bind, reduceCtorEq,
      false_and, if_false, pure, Except.pure]
    by_cases he : p.locations[0] = p.locations.getLast hg.nonempty
    · simp only [he, if_true]
      rw [List.getLast_eq_getElem] at he
      have : p.locations.length - 1 = 0 := by
        by_contra hc
        exact absurd he (ne_of_lt (List.pairwise_iff_getElem.1 hg.ascending 0 _ hi _ (by omega)))
      have hl : p.states.length - 1 = 0 := by rw [hg.sameLength]; exact this
      simp [List.getLast_eq_getElem, hl]
    · simp [he]
  · have p1 := pyIndex_nat p.locations i (by omega)
    have p2 := pyIndex_nat p.locations (i + 1) hi
    have p3 := pyIndex_nat p.states i (by omega)
    have p4 := pyIndex_nat p.states (i + 1) hs
    have hlt : p.locations[i + 1] ≠ p.locations[i] :=
      (ne_of_lt (List.pairwise_iff_getElem.1 hg.ascending i (i + 1) (by omega) hi (by omega))).symm
    push_cast at p2 p4 ⊢
    simp only [add_sub_cancel_right, interpolateFiltering, optIndex, p1, p2, p3, p4, Except.map, bind, Except.bind,
      reduceCtorEq, false_and, if_false, pure, Except.pure, hlt, if_true]

/-- **C10 (c), smoothing.** -/
theorem smoothing_on_grid (dyn : Dynamics T S D) (model : Option (ℤ → Res D)) (p : Post T S) (hg : Grid p)
    (i : ℕ) (hi : i < p.locations.length) :
    callScalar (interpolateSmoothing dyn model p) p p.locations[i]
      = .ok (p.states[i]'(by rw [hg.sameLength]; exact hi)) := by
  rw [callScalar_eq _ p hg]
  have h1 := head_le p hg i hi
  have h2 := le_last p hg i hi
  simp only [eval1, not_lt.2 h1, not_lt.2 h2, if_false, searchsorted_getElem _ hg.ascending i hi]
  have hs : i < p.states.length := by rw [hg.sameLength]; exact hi
  rcases i with _ | i
  · have hne : p.states ≠ [] := List.length_pos_iff.1 hs
    simp only [Nat.cast_zero, zero_sub]
    have p1 := pyIndex_last p.locations hg.nonempty
    have p2 := pyIndex_nat p.locations 0 hi
    have p3 := pyIndex_last p.states hne
    have p4 := pyIndex_nat p.states 0 hs
    simp only [Nat.cast_zero] at p2 p4
    simp only [interpolateSmoothing, optIndex, p1, p2, p3, p4, Except.map, bind, Except.bind, reduceCtorEq,
      false_and, if_false, pure, Except.pure]
    by_cases he : p.locations[0] = p.locations.getLast hg.nonempty
    · simp only [he, if_true]
      rw [List.getLast_eq_getElem] at he
      have : p.locations.length - 1 = 0 := by
        by_contra hc
        exact absurd he (ne_of_lt (List.pairwise_iff_getElem.1 hg.ascending 0 _ hi _ (by omega)))
      have hl : p.states.length - 1 = 0 := by rw [hg.sameLength]; exact this
      simp [List.getLast_eq_getElem, hl]
    · simp [he]
  · have p1 := pyIndex_nat p.locations i (by omega)
    have p2 := pyIndex_nat p.locations (i + 1) hi
    have p3 := pyIndex_nat p.states i (by omega)
    have p4 := pyIndex_nat p.states (i + 1) hs
    have hlt : p.locations[i + 1] ≠ p.locations[i] :=
      (ne_of_lt (List.pairwise_iff_getElem.1 hg.ascending i (i + 1) (by omega) hi (by omega))).symm
    push_cast at p2 p4 ⊢
    simp only [add_sub_cancel_right, interpolateSmoothing, optIndex, p1, p2, p3, p4, Except.map, bind, Except.bind,
      reduceCtorEq, false_and, if_false, pure, Except.pure, hlt, if_true]

/-- **C10 (d), filtering.**  Strictly between locations `i` and `i+1` the filtering posterior predicts from stored
state `i` over the elapsed time, with the diffusion of interval `i`. -/
theorem filtering_between (dyn : Dynamics T S D) (model : Option (ℤ → Res D)) (p : Post T S) (hg : Grid p)
    (i : ℕ) (hi : i + 1 < p.locations.length) (t : T)
    (h1 : p.locations[i] < t) (h2 : t < p.locations[i + 1]) (d : D)
    (hd : diffusionOf dyn model i = .ok d) :
    callScalar (interpolateFiltering dyn model p) p t
      = .ok (dyn.forward (p.states[i]'(by rw [hg.sameLength]; omega)) p.locations[i] (t - p.locations[i]) d) := by
  rw [callScalar_eq _ p hg]
  have g1 := (head_le p hg i (by omega)).trans h1.le
  have g2 := h2.le.trans (le_last p hg (i + 1) hi)
  simp only [eval1, not_lt.2 g1, not_lt.2 g2, if_false,
    searchsorted_between _ hg.ascending i hi t h1 h2.le]
  have p1 := pyIndex_nat p.locations i (by omega)
  have p2 := pyIndex_nat p.locations (i + 1) hi
  have p3 := pyIndex_nat p.states i (by rw [hg.sameLength]; omega)
  have p4 := pyIndex_nat p.states (i + 1) (by rw [hg.sameLength]; omega)
  have hdd : diffusionAt dyn model p.locations.length (i : ℤ) = .ok d := by
    cases model with
    | none => simpa [diffusionAt, diffusionOf] using hd
    | some m =>
      have : ¬ ((p.locations.length : ℤ) - 1 ≤ i) := by omega
      simpa [diffusionAt, diffusionOf, this] using hd
  push_cast at p2 p4 ⊢
  simp only [add_sub_cancel_right, interpolateFiltering, optIndex, p1, p2, p3, p4, Except.map, bind, Except.bind,
    reduceCtorEq, false_and, if_false, pure, Except.pure, ne_of_gt h1, ne_of_lt h2, hdd, sub_pos, h1,
    not_true_eq_false]

/-- **C10 (d), smoothing: exact behaviour.**  Strictly between locations `i` and `i+1` the smoothing posterior
predicts from *smoothed* state `i` and conditions on smoothed state `i+1`; the diffusion it uses is entry
`i+1` (`-1` for the last interval), not entry `i`. -/
theorem smoothing_between (dyn : Dynamics T S D) (model : Option (ℤ → Res D)) (p : Post T S) (hg : Grid p)
    (i : ℕ) (hi : i + 1 < p.locations.length) (t : T)
    (h1 : p.locations[i] < t) (h2 : t < p.locations[i + 1]) (d : D)
    (hd : diffusionOf dyn model (if i + 2 = p.locations.length then -1 else (i : ℤ) + 1) = .ok d) :
    callScalar (interpolateSmoothing dyn model p) p t
      = .ok (dyn.backward (p.states[i + 1]'(by rw [hg.sameLength]; omega))
          (dyn.forward (p.states[i]'(by rw [hg.sameLength]; omega)) p.locations[i] (t - p.locations[i]) d)
          t (p.locations[i + 1] - t) d) := by
  rw [callScalar_eq _ p hg]
  have g1 := (head_le p hg i (by omega)).trans h1.le
  have g2 := h2.le.trans (le_last p hg (i + 1) hi)
  simp only [eval1, not_lt.2 g1, not_lt.2 g2, if_false,
    searchsorted_between _ hg.ascending i hi t h1 h2.le]
  have p1 := pyIndex_nat p.locations i (by omega)
  have p2 := pyIndex_nat p.locations (i + 1) hi
  have p3 := pyIndex_nat p.states i (by rw [hg.sameLength]; omega)
  have p4 := pyIndex_nat p.states (i + 1) (by rw [hg.sameLength]; omega)
  have hdd : diffusionAt dyn model p.locations.length ((i : ℤ) + 1) = .ok d := by
    cases model with
    | none => simpa [diffusionAt, diffusionOf] using hd
    | some m =>
      by_cases hl : i + 2 = p.locations.length
      · have : (p.locations.length : ℤ) - 1 ≤ (i : ℤ) + 1 := by omega
        simpa [diffusionAt, diffusionOf, this, hl] using hd
      · have : ¬ ((p.locations.length : ℤ) - 1 ≤ (i : ℤ) + 1) := by omega
        simpa [diffusionAt, diffusionOf, this, hl] using hd
  push_cast at p2 p4 ⊢
  have hnat : ¬ 1 < ((i : ℤ) - (i + 1)).natAbs := by omega
  simp only [add_sub_cancel_right, interpolateSmoothing, optIndex, p1, p2, p3, p4, Except.map, bind, Except.bind,
    reduceCtorEq, false_and, if_false, pure, Except.pure, ne_of_gt h1, ne_of_lt h2, hdd, sub_pos, h1, h2,
    not_true_eq_false, hnat]

/-- **C10 (e).**  Right of the last location both posteriors predict from the last state with the last diffusion. -/
theorem right_extrapolation (dyn : Dynamics T S D) (model : Option (ℤ → Res D)) (p : Post T S) (hg : Grid p)
    (t : T) (h : p.locations.getLast hg.nonempty < t) (d : D) (hd : diffusionOf dyn model (-1) = .ok d)
    (hne : p.states ≠ []) :
    callScalar (interpolateFiltering dyn model p) p t
        = .ok (dyn.forward (p.states.getLast hne) (p.locations.getLast hg.nonempty)
            (t - p.locations.getLast hg.nonempty) d) ∧
      callScalar (interpolateSmoothing dyn model p) p t
        = .ok (dyn.forward (p.states.getLast hne) (p.locations.getLast hg.nonempty)
            (t - p.locations.getLast hg.nonempty) d) := by
  rw [callScalar_eq _ p hg, callScalar_eq _ p hg]
  have h0 := head_le p hg (p.locations.length - 1)
    (by have := List.length_pos_iff.2 hg.nonempty; omega)
  rw [← List.getLast_eq_getElem hg.nonempty] at h0
  have g1 : ¬ t < p.locations.head hg.nonempty := not_lt.2 (h0.trans h.le)
  have hlen := List.length_pos_iff.2 hg.nonempty
  have hdd : diffusionAt dyn model p.locations.length (-1) = .ok d := by
    cases model with
    | none => simpa [diffusionAt, diffusionOf] using hd
    | some m =>
      have : ¬ ((p.locations.length : ℤ) - 1 ≤ -1) := by omega
      simpa [diffusionAt, diffusionOf, this] using hd
  simp only [eval1, g1, if_false, h, if_true]
  constructor
  · simp only [interpolateFiltering, optIndex, pyIndex_last p.locations hg.nonempty, pyIndex_last p.states hne,
      Except.map, bind, Except.bind, reduceCtorEq, false_and, if_false, pure, Except.pure, ne_of_gt h, hdd,
      sub_pos, h, not_true_eq_false]
  · simp only [interpolateSmoothing, optIndex, pyIndex_last p.locations hg.nonempty, pyIndex_last p.states hne,
      Except.map, bind, Except.bind, reduceCtorEq, false_and, if_false, pure, Except.pure, ne_of_gt h, hdd,
      sub_pos, h, not_true_eq_false]

/-- **C10 (f).**  Left of the first location neither posterior returns a value. -/
theorem left_extrapolation_raises (dyn : Dynamics T S D) (model : Option (ℤ → Res D)) (p : Post T S) (hg : Grid p)
    (t : T) (h : t < p.locations.head hg.nonempty) (v : S) :
    callScalar (interpolateFiltering dyn model p) p t ≠ .ok v ∧
      callScalar (interpolateSmoothing dyn model p) p t ≠ .ok v := by
  rw [Ne, callScalar_eq _ p hg, Ne, callScalar_eq _ p hg]
  have hlen := List.length_pos_iff.2 hg.nonempty
  have hs : 0 < p.states.length := by rw [hg.sameLength]; exact hlen
  have p2 := pyIndex_nat p.locations 0 hlen
  have p4 := pyIndex_nat p.states 0 hs
  rw [List.head_eq_getElem] at h
  have g1 : t < p.locations.head hg.nonempty := by rw [List.head_eq_getElem]; exact h
  simp only [Nat.cast_zero] at p2 p4
  simp only [eval1, g1, if_true]
  constructor
  · simp [interpolateFiltering, optIndex, p2, p4, Except.map, bind, Except.bind, pure, Except.pure, ne_of_lt h,
      throw, throwThe, MonadExceptOf.throw]
  · cases hd : diffusionAt dyn model p.locations.length 0 <;>
      simp [interpolateSmoothing, optIndex, p2, p4, Except.map, bind, Except.bind, pure, Except.pure, ne_of_lt h,
        throw, throwThe, MonadExceptOf.throw, hd]

/-- A two-point grid with a query on it, between and right of it. -/
example : Grid (⟨[0, 2], ["a", "b"], true⟩ : Post ℚ String) ∧ [(0 : ℚ), 1, 1, 2, 5].Pairwise (· ≤ ·) := by
  refine ⟨⟨by simp, by simp, rfl⟩, by simp; norm_num⟩

end Gaussian

end Probnum.Posterior
