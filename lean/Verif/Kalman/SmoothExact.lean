import Verif.Kalman.SmoothLemmas

/-!
# C65: the smoother computes the exact conditional distributions given all observations
-/

namespace Probnum.Kalman

open MeasureTheory ProbabilityTheory Matrix Probnum.Gauss Probnum.LinGauss Probnum.Posterior

variable {n m : ℕ}

theorem gap_pos_transition (t0 : ℝ) (loc : ℕ → ℝ) (disc : ℝ → Transition n n) (k : ℕ) (h : loc k < loc (k + 1)) :
    transitions t0 loc disc (k + 1) = disc (loc (k + 1) - loc k) := by
  unfold transitions gapTransition stateTime
  rw [if_pos (by linarith)]

theorem pairwise_range (N : ℕ) (loc : ℕ → ℝ) (h : ((List.range N).map loc).Pairwise (· < ·)) (k : ℕ) (hk : k + 1 < N) :
    loc k < loc (k + 1) := by
  rw [List.pairwise_iff_getElem] at h
  have := h k (k + 1) (by simp; omega) (by simp; omega) (by omega)
  simpa using this

/-- The run of the smoother in terms of the moment sequence. -/
theorem isSmoothed_iff (t0 : ℝ) (init : Updated n) (disc : ℝ → Transition n n) (N : ℕ) (loc : ℕ → ℝ)
    (H : ℕ → Transition n m) (y : ℕ → Fin m → ℝ) (hpw : ((List.range N).map loc).Pairwise (· < ·)) (hN : 0 < N)
    (out : List (Updated n)) :
    IsSmoothed (classicPrior t0 init disc) none
        ((List.range N).map fun k => sseq init (transitions t0 loc disc) H (k + 1) fun i => y i)
        ((List.range N).map loc) (List.replicate (N - 1) (1 : ℝ)) out ↔
      (∀ k, 0 < k → k < N → SRegular init (transitions t0 loc disc) H k) ∧
      out = (List.range N).map fun k => rseq init (transitions t0 loc disc) H N y (N - 1 - k) := by
  set A := transitions t0 loc disc with hA
  have hlast : ((List.range N).map fun k => sseq init A H (k + 1) fun i => y i).getLast?
      = some (sseq init A H N fun i => y i) := by
    rw [List.getLast?_eq_getElem?, range_map_getElem?]
    rw [List.length_map, List.length_range]
    refine ⟨by omega, ?_⟩
    have : N - 1 + 1 = N := by omega
    rw [this]
  have hback : ∀ k, k + 1 < N → ∀ s' s, (∃ lin, linAt (T := ℝ) (S := Updated n) none (loc k) = .ok lin ∧
      (classicPrior t0 init disc).backward s' (sseq init A H (k + 1) fun i => y i) (loc k) (loc (k + 1) - loc k) 1 lin
        = .ok s) ↔ SRegular init A H (k + 1) ∧ s = rts (A (k + 1)) s' (sseq init A H (k + 1) fun i => y i) := by
    intro k hk s' s
    have hg := gap_pos_transition t0 loc disc k (pairwise_range N loc hpw k hk)
    rw [← sregular_iff init A H (k + 1) fun i => y i, ← backward_iff, hA, hg]
    constructor
    · rintro ⟨lin, -, h⟩; exact h
    · intro h; exact ⟨none, rfl, h⟩
  constructor
  · rintro ⟨hl, hlast', h⟩
    rw [List.length_map, List.length_range] at hl
    have key : ∀ j, j < N → out[N - 1 - j]? = some (rseq init A H N y j) ∧
        ∀ k, N - j ≤ k → k < N → SRegular init A H k := by
      intro j
      induction j with
      | zero =>
        intro _
        refine ⟨?_, by omega⟩
        rw [hlast, List.getLast?_eq_getElem?, hl] at hlast'
        rw [Nat.sub_zero, hlast']
        rfl
      | succ j ih =>
        intro hj
        obtain ⟨e1, e2⟩ := ih (by omega)
        have hi : N - 1 - (j + 1) < out.length := by omega
        have hs := List.getElem?_eq_getElem hi
        have := h (N - 1 - (j + 1)) _ _ _ _ _ 1 ((range_map_getElem? _ _ _ _).2 ⟨by omega, rfl⟩) hs
          (by rw [show N - 1 - (j + 1) + 1 = N - 1 - j by omega]; exact e1)
          ((range_map_getElem? _ _ _ _).2 ⟨by omega, rfl⟩) ((range_map_getElem? _ _ _ _).2 ⟨by omega, rfl⟩)
          (by rw [List.getElem?_replicate, if_pos (by omega)])
        rw [hback _ (by omega), show N - 1 - (j + 1) + 1 = N - (j + 1) by omega] at this
        refine ⟨?_, ?_⟩
        · rw [hs, this.2]; rfl
        · intro k hk1 hk2
          by_cases hk : N - j ≤ k
          · exact e2 k hk hk2
          · have : k = N - (j + 1) := by omega
            rw [this]
            exact (by assumption : SRegular init A H (N - (j + 1)) ∧ _).1
    refine ⟨?_, ?_⟩
    · intro k hk0 hkN
      exact (key (N - 1) (by omega)).2 k (by omega) hkN
    · apply List.ext_getElem?
      intro i
      by_cases hi : i < N
      · have := (key (N - 1 - i) (by omega)).1
        rw [show N - 1 - (N - 1 - i) = i by omega] at this
        rw [this, eq_comm, range_map_getElem?]
        exact ⟨hi, rfl⟩
      · rw [List.getElem?_eq_none (by omega), List.getElem?_eq_none (by simp; omega)]
  · rintro ⟨hreg, rfl⟩
    refine ⟨by simp, ?_, ?_⟩
    · rw [hlast, List.getLast?_eq_getElem?, range_map_getElem?]
      refine ⟨by simp; omega, ?_⟩
      simp [rseq]
    · intro i rv s s' t t' d e1 e2 e3 e4 e5 e6
      rw [range_map_getElem?] at e1 e2 e3 e4 e5
      obtain ⟨-, rfl⟩ := e1
      obtain ⟨-, rfl⟩ := e2
      obtain ⟨hi, rfl⟩ := e3
      obtain ⟨-, rfl⟩ := e4
      obtain ⟨-, rfl⟩ := e5
      rw [List.getElem?_replicate, if_pos (by omega)] at e6
      injection e6 with e6
      subst e6
      rw [hback i hi]
      refine ⟨hreg _ (by omega) hi, ?_⟩
      rw [show N - 1 - i = (N - 1 - (i + 1)) + 1 by omega, rseq,
        show N - (N - 1 - (i + 1) + 1) = i + 1 by omega]

/-- **C65.**  For a linear Gaussian state-space model (see `kalman_filter_exact`): if `filtsmooth` does not raise on
some data, then it does not raise on any data of the problem, and state `k` of the returned posterior is mean and
covariance of the conditional distribution of `X (k+1)`, the state at location `k`, given *all* observations. -/
theorem kalman_smoother_exact {Ω : Type*} {mΩ : MeasurableSpace Ω} {P : Measure Ω} (t0 : ℝ) (init : Updated n)
    (disc : ℝ → Transition n n) (N : ℕ) (loc : ℕ → ℝ) (H : ℕ → Transition n m) (X : ℕ → Ω → Fin n → ℝ)
    (Y : ℕ → Ω → Fin m → ℝ)
    (hss : StateSpace P N init (fun k => gapTransition disc (stateTime t0 loc (k + 1) - stateTime t0 loc k)) H X Y)
    (hok : ∃ y0 post, filtsmooth (classicPrior t0 init disc) (gaussProblem N loc H y0) none = .ok post) :
    ∃ (f : (k : ℕ) → (Fin N → Fin m → ℝ) → Fin n → ℝ) (C : ℕ → Matrix (Fin n) (Fin n) ℝ),
      (∀ k, k < N → IsConditional P (X (k + 1)) (fun ω (i : Fin N) => Y i ω) (f k) (C k)) ∧
      ∀ y : ℕ → Fin m → ℝ, filtsmooth (classicPrior t0 init disc) (gaussProblem N loc H y) none
        = .ok ⟨(List.range N).map loc, (List.range N).map fun k => ⟨f k fun i => y i, C k⟩, false⟩ := by
  obtain ⟨y0, post, h0⟩ := hok
  unfold filtsmooth at h0
  cases hf0 : filter (classicPrior t0 init disc) (gaussProblem N loc H y0) none with
  | error e => rw [hf0] at h0; simp [bind, Except.bind] at h0
  | ok pf =>
    rw [hf0] at h0
    simp only [bind, Except.bind] at h0
    rw [filter_one_state_per_observation _ _ _ (by simp [gaussProblem]) (by simp [gaussProblem])] at hf0
    obtain ⟨hpw, hloc, hfro, hf⟩ := hf0
    obtain ⟨hreg, hst⟩ := (isFiltered_iff t0 init disc N loc H y0 pf.states).1 hf
    have hN : 0 < N := by
      rcases Nat.eq_zero_or_pos N with rfl | h
      · simp [smooth, hst, smooth_empty_raises, bind, Except.bind] at h0
      · exact h
    have hne : ∀ f : ℕ → Updated n, (List.range N).map f ≠ [] := by
      intro f h
      have := congrArg List.length h
      simp at this
      omega
    rw [smooth_exact _ _ (by rw [hst]; exact hne _) (by rw [hloc, hst]; simp [gaussProblem])] at h0
    obtain ⟨-, -, hsm⟩ := h0
    rw [hst, hloc] at hsm
    have e1 : (gaussProblem N loc H y0).locations = (List.range N).map loc := rfl
    rw [e1] at hsm hpw
    rw [show ((List.range N).map loc).length - 1 = N - 1 by simp] at hsm
    have hsreg := ((isSmoothed_iff t0 init disc N loc H y0 hpw hN _).1 hsm).1
    refine ⟨fun k y => (rseq init (transitions t0 loc disc) H N (extend y) (N - 1 - k)).mean,
      fun k => (rseq init (transitions t0 loc disc) H N (fun _ => 0) (N - 1 - k)).cov, ?_, ?_⟩
    · intro k hk
      have := rseq_conditional hss hreg hsreg (N - 1 - k) (by omega)
      rw [show N - (N - 1 - k) = k + 1 by omega] at this
      exact this
    · intro y
      have hfy : filter (classicPrior t0 init disc) (gaussProblem N loc H y) none
          = .ok ⟨(List.range N).map loc,
            (List.range N).map fun k => sseq init (transitions t0 loc disc) H (k + 1) fun i => y i, false⟩ := by
        rw [filter_one_state_per_observation _ _ _ (by simp [gaussProblem]) (by simp [gaussProblem])]
        exact ⟨hpw, rfl, rfl, (isFiltered_iff t0 init disc N loc H y _).2 ⟨hreg, rfl⟩⟩
      unfold filtsmooth
      rw [hfy]
      simp only [bind, Except.bind]
      rw [smooth_exact _ _ (hne _) (by simp)]
      refine ⟨rfl, rfl, ?_⟩
      simp only
      rw [show ((List.range N).map loc).length - 1 = N - 1 by simp]
      rw [show (classicPrior t0 init disc).one = 1 from rfl, isSmoothed_iff t0 init disc N loc H y hpw hN]
      refine ⟨hsreg, List.map_congr_left fun k _ => ?_⟩
      rw [rseq_extend, rseq_cov init (transitions t0 loc disc) H N (N - 1 - k) (fun _ => 0) y]

/-- Positive definite measurement and process noises are enough for the smoother not to raise. -/
theorem filtsmooth_succeeds_of_posDef (t0 : ℝ) (init : Updated n) (disc : ℝ → Transition n n) (N : ℕ) (loc : ℕ → ℝ)
    (H : ℕ → Transition n m) (hN : 0 < N) (hpw : ((List.range N).map loc).Pairwise (· < ·))
    (hinit : init.cov.PosSemidef) (hdisc : ∀ dt, 0 < dt → (disc dt).noise.cov.PosDef)
    (hH : ∀ k, k < N → (H k).noise.cov.PosDef) (y : ℕ → Fin m → ℝ) :
    filtsmooth (classicPrior t0 init disc) (gaussProblem N loc H y) none
      = .ok ⟨(List.range N).map loc,
          (List.range N).map fun k => rseq init (transitions t0 loc disc) H N y (N - 1 - k), false⟩ := by
  set A := transitions t0 loc disc with hA
  have hall := regular_of_posDef init A H N hinit
    (transitions_psd t0 loc disc fun dt h => (hdisc dt h).posSemidef) hH
  have hsreg : ∀ k, 0 < k → k < N → SRegular init A H k := by
    intro k hk0 hkN
    obtain ⟨k, rfl⟩ : ∃ k', k = k' + 1 := ⟨k - 1, by omega⟩
    have hg := gap_pos_transition t0 loc disc k (pairwise_range N loc hpw k hkN)
    have hpos := pairwise_range N loc hpw k hkN
    unfold SRegular
    have : (predCov (A (k + 1)) 1 (toNormal (sseq init A H (k + 1) fun _ => 0))).PosDef := by
      rw [predCov_eq, one_smul, hA, hg]
      exact Matrix.PosDef.posSemidef_add (psd_conj _ (hall (k + 1) (by omega)).1) (hdisc _ (by linarith))
    exact this.det_pos.ne'
  have hfy : filter (classicPrior t0 init disc) (gaussProblem N loc H y) none
      = .ok ⟨(List.range N).map loc,
        (List.range N).map fun k => sseq init A H (k + 1) fun i => y i, false⟩ := by
    rw [filter_one_state_per_observation _ _ _ (by simp [gaussProblem]) (by simp [gaussProblem])]
    exact ⟨hpw, rfl, rfl, (isFiltered_iff t0 init disc N loc H y _).2 ⟨(hall N le_rfl).2, rfl⟩⟩
  unfold filtsmooth
  rw [hfy]
  simp only [bind, Except.bind]
  rw [smooth_exact _ _ (by intro h; have := congrArg List.length h; simp at this; omega) (by simp)]
  refine ⟨rfl, rfl, ?_⟩
  simp only
  rw [show ((List.range N).map loc).length - 1 = N - 1 by simp]
  rw [show (classicPrior t0 init disc).one = 1 from rfl, isSmoothed_iff t0 init disc N loc H y hpw hN]
  exact ⟨hsreg, rfl⟩

end Probnum.Kalman
