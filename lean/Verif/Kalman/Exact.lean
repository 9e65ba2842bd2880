import Verif.Gauss.Base
import Verif.Kalman.ExactLemmas

/-!
# C64: the Kalman filter computes the exact conditional distributions

Specification: `Verif/Gauss/Spec.lean` (conditional Gaussian distributions) and `StateSpace`
(`Verif/Kalman/StateSpace.lean`).
-/

namespace Probnum.Kalman

open MeasureTheory ProbabilityTheory Matrix Probnum.Gauss Probnum.LinGauss Probnum.Posterior

variable {n m : ℕ}

theorem range_map_getElem? {α : Type*} (f : ℕ → α) (N i : ℕ) (a : α) :
    ((List.range N).map f)[i]? = some a ↔ i < N ∧ f i = a := by
  rw [List.getElem?_map]
  by_cases h : i < N
  · simp [h]
  · simp [h]

theorem cons_range_map_getElem? {α : Type*} (f : ℕ → α) (a0 : α) (N i : ℕ) (a : α) :
    (a0 :: (List.range N).map f)[i]? = some a ↔ i ≤ N ∧ (match i with | 0 => a0 | k + 1 => f k) = a := by
  cases i with
  | zero => simp
  | succ i => rw [List.getElem?_cons_succ, range_map_getElem?]; rfl

/-- The transitions between consecutive states: over the gap between their times. -/
noncomputable def transitions (t0 : ℝ) (loc : ℕ → ℝ) (disc : ℝ → Transition n n) (k : ℕ) : Transition n n :=
  gapTransition disc (stateTime t0 loc (k + 1) - stateTime t0 loc k)

theorem stateTime_cons (t0 : ℝ) (loc : ℕ → ℝ) (i : ℕ) :
    (match i with | 0 => t0 | k + 1 => loc k) = stateTime t0 loc i := by cases i <;> rfl

/-- The run of the filter in terms of the moment sequence. -/
theorem isFiltered_iff (t0 : ℝ) (init : Updated n) (disc : ℝ → Transition n n) (N : ℕ) (loc : ℕ → ℝ)
    (H : ℕ → Transition n m) (y : ℕ → Fin m → ℝ) (states : List (Updated n)) :
    IsFiltered (classicPrior t0 init disc) none ((List.range N).map loc) ((List.range N).map y)
        ((List.range N).map fun k => classicMeas (H k)) states ↔
      (∀ k, k < N → Regular init (transitions t0 loc disc) H k) ∧
      states = (List.range N).map fun k => sseq init (transitions t0 loc disc) H (k + 1) fun i => y i := by
  set A := transitions t0 loc disc with hA
  have hinit : (classicPrior t0 init disc).initrv = init := rfl
  have harg : (classicPrior t0 init disc).initarg = t0 := rfl
  constructor
  · rintro ⟨hl, h⟩
    rw [List.length_map, List.length_range] at hl
    have key : ∀ k, k ≤ N → (init :: states)[k]? = some (sseq init A H k fun i => y i) ∧
        ∀ j, j < k → Regular init A H j := by
      intro k
      induction k with
      | zero => intro _; exact ⟨rfl, by simp⟩
      | succ k ih =>
        intro hk
        obtain ⟨e1, e2⟩ := ih (by omega)
        have hs : ∃ s, states[k]? = some s := ⟨states[k]'(by omega), List.getElem?_eq_getElem _⟩
        obtain ⟨s, hs⟩ := hs
        obtain ⟨s', hp, hu⟩ := h k (stateTime t0 loc k) (loc k) (sseq init A H k fun i => y i) s (y k) (classicMeas (H k))
          ((cons_range_map_getElem? loc _ N k _).2 ⟨by omega, by rw [harg]; exact stateTime_cons t0 loc k⟩)
          ((range_map_getElem? _ _ _ _).2 ⟨by omega, rfl⟩) (by rw [hinit]; exact e1) hs
          ((range_map_getElem? _ _ _ _).2 ⟨by omega, rfl⟩) ((range_map_getElem? _ _ _ _).2 ⟨by omega, rfl⟩)
        rw [predicts_iff] at hp
        rw [updates_iff, hp] at hu
        have hreg := (regular_iff init A H k fun i => y i).1 hu.1
        refine ⟨?_, ?_⟩
        · rw [List.getElem?_cons_succ, hs, hu.2]; rfl
        · intro j hj
          rcases Nat.lt_succ_iff_lt_or_eq.1 hj with hj | rfl
          · exact e2 j hj
          · exact hreg
    refine ⟨(key N le_rfl).2, ?_⟩
    apply List.ext_getElem?
    intro i
    by_cases hi : i < N
    · have := (key (i + 1) (by omega)).1
      rw [List.getElem?_cons_succ] at this
      rw [this, eq_comm, range_map_getElem?]
      exact ⟨hi, rfl⟩
    · rw [List.getElem?_eq_none (by omega), List.getElem?_eq_none (by simp; omega)]
  · rintro ⟨hreg, rfl⟩
    refine ⟨by simp, ?_⟩
    intro i tOld t sOld s y' mm e1 e2 e3 e4 e5 e6
    rw [cons_range_map_getElem?] at e1 e3
    rw [range_map_getElem?] at e2 e4 e5 e6
    obtain ⟨hi, rfl⟩ := e2
    obtain ⟨-, rfl⟩ := e4
    obtain ⟨-, rfl⟩ := e5
    obtain ⟨-, rfl⟩ := e6
    have ht : tOld = stateTime t0 loc i := by rw [← e1.2, harg]; exact stateTime_cons t0 loc i
    have hs : sOld = sseq init A H i fun i => y i := by rw [← e3.2]; cases i <;> rfl
    refine ⟨predS (A i) sOld, ?_, ?_⟩
    · rw [predicts_iff, ht]; rfl
    · rw [updates_iff, hs]
      exact ⟨(regular_iff init A H i _).2 (hreg i hi), rfl⟩

/-- **C64.**  Let `X 0` be the prior state at the initial time, `X (k+1)` the state at location `k` and `Y k` the
observation there, for a time-invariant linear Gaussian prior and linear Gaussian measurement models.  If the filter
does not raise on some data, then it does not raise on any data of the problem, and state `k` of the returned posterior
is mean and covariance of the conditional distribution of `X (k+1)` given `Y 0, …, Y k`.  (`gapTransition` is the
transition over the time between two states, the identity if no time passes; this is also what the code does for a first
location *before* the initial time, see `first_location_before_start_not_predicted`.) -/
theorem kalman_filter_exact {Ω : Type*} {mΩ : MeasurableSpace Ω} {P : Measure Ω} (t0 : ℝ) (init : Updated n)
    (disc : ℝ → Transition n n) (N : ℕ) (loc : ℕ → ℝ) (H : ℕ → Transition n m) (X : ℕ → Ω → Fin n → ℝ)
    (Y : ℕ → Ω → Fin m → ℝ)
    (hss : StateSpace P N init (fun k => gapTransition disc (stateTime t0 loc (k + 1) - stateTime t0 loc k)) H X Y)
    (hok : ∃ y0 post, filter (classicPrior t0 init disc) (gaussProblem N loc H y0) none = .ok post) :
    ∃ (f : (k : ℕ) → (Fin (k + 1) → Fin m → ℝ) → Fin n → ℝ) (C : ℕ → Matrix (Fin n) (Fin n) ℝ),
      (∀ k, k < N → IsConditional P (X (k + 1)) (fun ω (i : Fin (k + 1)) => Y i ω) (f k) (C k)) ∧
      ∀ y : ℕ → Fin m → ℝ, filter (classicPrior t0 init disc) (gaussProblem N loc H y) none
        = .ok ⟨(List.range N).map loc, (List.range N).map fun k => ⟨f k fun i => y i, C k⟩, false⟩ := by
  obtain ⟨y0, post, h0⟩ := hok
  rw [filter_one_state_per_observation _ _ _ (by simp [gaussProblem]) (by simp [gaussProblem])] at h0
  obtain ⟨hpw, -, -, hf⟩ := h0
  obtain ⟨hreg, -⟩ := (isFiltered_iff t0 init disc N loc H y0 post.states).1 hf
  refine ⟨fun k y => (sseq init (transitions t0 loc disc) H (k + 1) y).mean,
    fun k => (sseq init (transitions t0 loc disc) H (k + 1) fun _ => 0).cov, ?_, ?_⟩
  · intro k hk
    exact sseq_conditional hss hreg (k + 1) hk
  · intro y
    rw [filter_one_state_per_observation _ _ _ (by simp [gaussProblem]) (by simp [gaussProblem])]
    refine ⟨hpw, rfl, rfl, (isFiltered_iff t0 init disc N loc H y _).2 ⟨hreg, ?_⟩⟩
    refine List.map_congr_left fun k _ => ?_
    show (⟨(sseq init (transitions t0 loc disc) H (k + 1) fun i => y i).mean,
      (sseq init (transitions t0 loc disc) H (k + 1) fun _ => 0).cov⟩ : Updated n) = _
    rw [sseq_cov init (transitions t0 loc disc) H (k + 1) (fun _ => 0) fun i => y i]

theorem psd_conj {a b : ℕ} (B : Matrix (Fin a) (Fin b) ℝ) {M : Matrix (Fin b) (Fin b) ℝ} (hM : M.PosSemidef) :
    (B * M * Bᵀ).PosSemidef := by
  have := hM.mul_mul_conjTranspose_same B
  rwa [Matrix.conjTranspose_eq_transpose_of_trivial] at this

theorem regular_of_posDef (init : Updated n) (A : ℕ → Transition n n) (H : ℕ → Transition n m) (N : ℕ)
    (hinit : init.cov.PosSemidef) (hAq : ∀ k, (A k).noise.cov.PosSemidef) (hH : ∀ k, k < N → (H k).noise.cov.PosDef) :
    ∀ k, k ≤ N → (sseq init A H k fun _ => 0).cov.PosSemidef ∧ ∀ j, j < k → Regular init A H j := by
  have hpred : ∀ k, (sseq init A H k fun _ => 0).cov.PosSemidef →
      (predS (A k) (sseq init A H k fun _ => 0)).cov.PosSemidef := by
    intro k h
    simp only [predS]
    rw [show (forwardClassic (A k) 1 (toNormal (sseq init A H k fun _ => 0))).cov = _ from predCov_eq _ _ _, one_smul]
    exact (psd_conj _ h).add (hAq k)
  intro k
  induction k with
  | zero => intro _; exact ⟨hinit, by simp⟩
  | succ k ih =>
    intro hk
    obtain ⟨h1, h2⟩ := ih (by omega)
    have hp := hpred k h1
    have hS : (predCov (H k) 1 (toNormal (predS (A k) (sseq init A H k fun _ => 0)))).PosDef := by
      rw [predCov_eq, one_smul]
      exact Matrix.PosDef.posSemidef_add (psd_conj _ hp) (hH k (by omega))
    have hdet : Regular init A H k := hS.det_pos.ne'
    refine ⟨?_, ?_⟩
    · show (updS (H k) (predS (A k) (sseq init A H k fun _ => 0)) 0).cov.PosSemidef
      rw [updS_cov _ _ _ (symm_of_psd hp) (symm_of_psd (hH k (by omega)).posSemidef) hdet]
      exact (psd_conj _ hp).add (psd_conj _ (hH k (by omega)).posSemidef)
    · intro j hj
      rcases Nat.lt_succ_iff_lt_or_eq.1 hj with hj | rfl
      · exact h2 j hj
      · exact hdet

theorem transitions_psd (t0 : ℝ) (loc : ℕ → ℝ) (disc : ℝ → Transition n n)
    (hdisc : ∀ dt, 0 < dt → (disc dt).noise.cov.PosSemidef) (k : ℕ) :
    (transitions t0 loc disc k).noise.cov.PosSemidef := by
  simp only [transitions, gapTransition]
  split_ifs with h
  · exact hdisc _ h
  · exact Matrix.PosSemidef.zero

/-- Positive definite measurement noise is enough for the filter not to raise. -/
theorem filter_succeeds_of_posDef (t0 : ℝ) (init : Updated n) (disc : ℝ → Transition n n) (N : ℕ) (loc : ℕ → ℝ)
    (H : ℕ → Transition n m) (hpw : ((List.range N).map loc).Pairwise (· < ·)) (hinit : init.cov.PosSemidef)
    (hdisc : ∀ dt, 0 < dt → (disc dt).noise.cov.PosSemidef) (hH : ∀ k, k < N → (H k).noise.cov.PosDef)
    (y : ℕ → Fin m → ℝ) :
    ∃ post, filter (classicPrior t0 init disc) (gaussProblem N loc H y) none = .ok post := by
  set A := transitions t0 loc disc with hA
  have hall := regular_of_posDef init A H N hinit (transitions_psd t0 loc disc hdisc) hH
  refine ⟨⟨(List.range N).map loc, (List.range N).map fun k => sseq init A H (k + 1) fun i => y i, false⟩, ?_⟩
  rw [filter_one_state_per_observation _ _ _ (by simp [gaussProblem]) (by simp [gaussProblem])]
  exact ⟨hpw, rfl, rfl, (isFiltered_iff t0 init disc N loc H y _).2 ⟨(hall N le_rfl).2, rfl⟩⟩

/-! ## Existence of state-space models -/

section Existence

variable (N : ℕ) (m0 : Fin n → ℝ) (L0 : Matrix (Fin n) (Fin n) ℝ) (A : ℕ → Transition n n) (H : ℕ → Transition n m)

/-- Base sample: one standard normal vector for the initial state and two per step. -/
abbrev BaseIx (n m N : ℕ) := Fin (N + 1) × (Fin n ⊕ Fin m)

/-- The entries of the base sample for the state noise at step `k`. -/
def baseN (k : Fin (N + 1)) (x : BaseIx n m N → ℝ) : Fin n → ℝ := fun i => x (k, Sum.inl i)

def baseM (k : Fin (N + 1)) (x : BaseIx n m N → ℝ) : Fin m → ℝ := fun i => x (k, Sum.inr i)

def simX : ℕ → (BaseIx n m N → ℝ) → Fin n → ℝ
  | 0, x => L0 *ᵥ baseN N 0 x + m0
  | k + 1, x => (A k).mat *ᵥ simX k x + ((A k).noise.chol *ᵥ baseN N (Fin.ofNat (N + 1) (k + 1)) x + (A k).noise.mean)

def simY (k : ℕ) (x : BaseIx n m N → ℝ) : Fin m → ℝ :=
  (H k).mat *ᵥ simX N m0 L0 A (k + 1) x
    + ((H k).noise.chol *ᵥ baseM N (Fin.ofNat (N + 1) (k + 1)) x + (H k).noise.mean)

/-- Entries used up to step `k`. -/
def usedX (k : ℕ) : Finset (BaseIx n m N) :=
  Finset.univ.filter fun p => p.1.1 ≤ k ∧ (p.2.isRight → p.1.1 < k)

theorem measurable_baseN (k : Fin (N + 1)) : Measurable (baseN (n := n) (m := m) N k) :=
  measurable_pi_iff.2 fun _ => measurable_pi_apply _

theorem measurable_baseM (k : Fin (N + 1)) : Measurable (baseM (n := n) (m := m) N k) :=
  measurable_pi_iff.2 fun _ => measurable_pi_apply _

theorem measurable_simX (k : ℕ) : Measurable (simX (m := m) N m0 L0 A k) := by
  induction k with
  | zero => exact ((measurable_mulVec _).comp (measurable_baseN N 0)).add measurable_const
  | succ k ih =>
    exact ((measurable_mulVec _).comp ih).add
      (((measurable_mulVec _).comp (measurable_baseN N _)).add measurable_const)

theorem measurable_simY (k : ℕ) : Measurable (simY N m0 L0 A H k) :=
  ((measurable_mulVec _).comp (measurable_simX N m0 L0 A (k + 1))).add
    (((measurable_mulVec _).comp (measurable_baseM N _)).add measurable_const)

theorem ofNat_val {k : ℕ} (hk : k < N) : (Fin.ofNat (N + 1) (k + 1)).1 = k + 1 := by
  simp [Fin.ofNat, Nat.mod_eq_of_lt (by omega : k + 1 < N + 1)]

theorem reads_simX (k : ℕ) (hk : k ≤ N) : Reads (simX (m := m) N m0 L0 A k) (usedX N k) := by
  induction k with
  | zero =>
    intro x y h
    have : baseN N 0 x = baseN N 0 y := by
      funext i; exact h _ (by simp [usedX])
    simp [simX, this]
  | succ k ih =>
    have h1 : Reads (simX (m := m) N m0 L0 A k) (usedX N (k + 1)) :=
      (ih (by omega)).mono (by intro p; simp only [usedX, Finset.mem_filter, Finset.mem_univ, true_and]; omega)
    intro x y h
    have h2 : baseN N (Fin.ofNat (N + 1) (k + 1)) x = baseN N (Fin.ofNat (N + 1) (k + 1)) y := by
      funext i
      refine h _ ?_
      simp only [usedX, Finset.mem_filter, Finset.mem_univ, true_and, ofNat_val N (by omega : k < N)]
      simp
    simp only [simX, h1 x y h, h2]

theorem reads_simY (k : ℕ) (hk : k < N) : Reads (simY N m0 L0 A H k) (usedX N (k + 2)) := by
  have h1 : Reads (simX (m := m) N m0 L0 A (k + 1)) (usedX N (k + 2)) :=
    (reads_simX N m0 L0 A (k + 1) hk).mono
      (by intro p; simp only [usedX, Finset.mem_filter, Finset.mem_univ, true_and]; omega)
  intro x y h
  have h2 : baseM N (Fin.ofNat (N + 1) (k + 1)) x = baseM N (Fin.ofNat (N + 1) (k + 1)) y := by
    funext i
    refine h _ ?_
    simp only [usedX, Finset.mem_filter, Finset.mem_univ, true_and, ofNat_val N hk]
    simp
  simp only [simY, h1 x y h, h2]

/-- Entries used by the first `k` observations and states up to `k`: everything of steps `≤ k`. -/
def usedXY (k : ℕ) : Finset (BaseIx n m N) := Finset.univ.filter fun p => p.1.1 ≤ k

end Existence

/-- A state-space model exists for all valid transitions: the hypotheses of `kalman_filter_exact` are met. -/
theorem exists_stateSpace (N : ℕ) (m0 : Fin n → ℝ) (L0 : Matrix (Fin n) (Fin n) ℝ) (A : ℕ → Transition n n)
    (H : ℕ → Transition n m) (hA : ∀ k, (A k).noise.Valid) (hH : ∀ k, (H k).noise.Valid) :
    StateSpace (stdBase (BaseIx n m N)) N ⟨m0, L0 * L0ᵀ⟩ A H (simX N m0 L0 A) (simY N m0 L0 A H) := by
  have mX : ∀ k, Measurable (upTo (simX (m := m) N m0 L0 A) k) := fun k =>
    measurable_pi_iff.2 fun i => measurable_simX N m0 L0 A i
  have mY : ∀ k, Measurable (upTo (simY N m0 L0 A H) k) := fun k =>
    measurable_pi_iff.2 fun i => measurable_simY N m0 L0 A H i
  refine ⟨?_, ?_, ?_⟩
  · exact base_normal (fun i : Fin n => ((0 : Fin (N + 1)), (Sum.inl i : Fin n ⊕ Fin m)))
      (fun a b h => by simpa using h) L0 m0
  · intro k hk
    refine ⟨fun x => (A k).noise.chol *ᵥ baseN N (Fin.ofNat (N + 1) (k + 1)) x + (A k).noise.mean, fun ω => rfl, ?_, ?_⟩
    · have := base_normal (fun i : Fin n => (Fin.ofNat (N + 1) (k + 1), (Sum.inl i : Fin n ⊕ Fin m)))
        (fun a b h => by simpa using h) (A k).noise.chol (A k).noise.mean
      rw [hA k] at this
      exact this
    · refine base_indep (S := Finset.univ.filter fun p : BaseIx n m N => p.1.1 = k + 1)
        (T := Finset.univ.filter fun p : BaseIx n m N => p.1.1 ≤ k) ?_ ?_ ((mX _).prodMk (mY _)) ?_ ?_
      · rw [Finset.disjoint_filter]; intro p _ h1; omega
      · exact ((measurable_mulVec _).comp (measurable_baseN N _)).add measurable_const
      · intro x y h
        have : baseN N (Fin.ofNat (N + 1) (k + 1)) x = baseN N (Fin.ofNat (N + 1) (k + 1)) y := by
          funext i
          exact h _ (by simp only [Finset.mem_filter, Finset.mem_univ, true_and, ofNat_val N hk]; try simp)
        simp only [this]
      · refine Reads.prod (Reads.pi fun i => ?_) (Reads.pi fun i => ?_)
        · refine (reads_simX N m0 L0 A i (by omega)).mono ?_
          intro p; simp only [usedX, Finset.mem_filter, Finset.mem_univ, true_and]; omega
        · intro x y h
          have h1 := reads_simX (m := m) N m0 L0 A (i.1 + 1) (by omega) x y fun p hp => h p (by
            simp only [usedX, Finset.mem_filter, Finset.mem_univ, true_and] at hp ⊢; omega)
          have h2 : baseM N (Fin.ofNat (N + 1) (i.1 + 1)) x = baseM N (Fin.ofNat (N + 1) (i.1 + 1)) y := by
            funext j
            refine h _ ?_
            simp only [Finset.mem_filter, Finset.mem_univ, true_and, ofNat_val N (by omega : i.1 < N)]
            omega
          show simY N m0 L0 A H i x = simY N m0 L0 A H i y
          simp only [simY, h1, h2]
  · intro k hk
    refine ⟨fun x => (H k).noise.chol *ᵥ baseM N (Fin.ofNat (N + 1) (k + 1)) x + (H k).noise.mean, fun ω => rfl, ?_, ?_⟩
    · have := base_normal (fun i : Fin m => (Fin.ofNat (N + 1) (k + 1), (Sum.inr i : Fin n ⊕ Fin m)))
        (fun a b h => by simpa using h) (H k).noise.chol (H k).noise.mean
      rw [hH k] at this
      exact this
    · refine base_indep (S := Finset.univ.filter fun p : BaseIx n m N => p.1.1 = k + 1 ∧ p.2.isRight)
        (T := usedX N (k + 1)) ?_ ?_ ((mX _).prodMk (mY _)) ?_ ?_
      · rw [usedX, Finset.disjoint_filter]
        rintro p _ ⟨h1, h2⟩ ⟨_, h3⟩
        have := h3 h2
        omega
      · exact ((measurable_mulVec _).comp (measurable_baseM N _)).add measurable_const
      · intro x y h
        have : baseM N (Fin.ofNat (N + 1) (k + 1)) x = baseM N (Fin.ofNat (N + 1) (k + 1)) y := by
          funext i
          exact h _ (by simp only [Finset.mem_filter, Finset.mem_univ, true_and, ofNat_val N hk]; try simp)
        simp only [this]
      · refine Reads.prod (Reads.pi fun i => ?_) (Reads.pi fun i => ?_)
        · refine (reads_simX N m0 L0 A i (by omega)).mono ?_
          intro p
          simp only [usedX, Finset.mem_filter, Finset.mem_univ, true_and]
          rintro ⟨h1, h2⟩
          exact ⟨by omega, fun h => by have := h2 h; omega⟩
        · refine Reads.mono (S := usedXY N (i.1 + 1)) ?_ ?_
          · intro x y h
            have h1 := reads_simX (m := m) N m0 L0 A (i.1 + 1) (by omega) x y fun p hp => h p (by
              simp only [usedX, usedXY, Finset.mem_filter, Finset.mem_univ, true_and] at hp ⊢; omega)
            have h2 : baseM N (Fin.ofNat (N + 1) (i.1 + 1)) x = baseM N (Fin.ofNat (N + 1) (i.1 + 1)) y := by
              funext j
              refine h _ ?_
              simp only [usedXY, Finset.mem_filter, Finset.mem_univ, true_and, ofNat_val N (by omega : i.1 < N)]
              omega
            show simY N m0 L0 A H i x = simY N m0 L0 A H i y
            simp only [simY, h1, h2]
          · intro p
            simp only [usedX, usedXY, Finset.mem_filter, Finset.mem_univ, true_and]
            intro h
            exact ⟨by omega, fun _ => by omega⟩

/-- A concrete instance of `kalman_filter_exact`: one-dimensional Brownian motion from 0 with unit initial variance,
observed at times 0, 2 and 5 with unit noise. -/
example : ∃ (init : Updated 1) (disc : ℝ → Transition 1 1) (loc : ℕ → ℝ) (H : ℕ → Transition 1 1)
    (X : ℕ → (BaseIx 1 1 3 → ℝ) → Fin 1 → ℝ) (Y : ℕ → (BaseIx 1 1 3 → ℝ) → Fin 1 → ℝ),
    loc 0 = 0 ∧ loc 1 = 2 ∧ loc 2 = 5 ∧
    StateSpace (stdBase (BaseIx 1 1 3)) 3 init
      (fun k => gapTransition disc (stateTime 0 loc (k + 1) - stateTime 0 loc k)) H X Y ∧
    ∀ y, ∃ post, filter (classicPrior 0 init disc) (gaussProblem 3 loc H y) none = .ok post := by
  let one : Matrix (Fin 1) (Fin 1) ℝ := 1
  let disc : ℝ → Transition 1 1 := fun dt => ⟨1, ⟨0, Real.sqrt dt ^ 2 • one, Real.sqrt dt • one⟩⟩
  let loc : ℕ → ℝ := fun k => if k = 0 then 0 else if k = 1 then 2 else 5
  let H : ℕ → Transition 1 1 := fun _ => ⟨1, ⟨0, 1, 1⟩⟩
  have hval : ∀ k, (gapTransition disc (stateTime 0 loc (k + 1) - stateTime 0 loc k)).noise.Valid := by
    intro k
    unfold gapTransition
    split_ifs
    · simp only [Normal.Valid, disc, one, Matrix.transpose_smul, Matrix.transpose_one, Matrix.smul_mul, Matrix.mul_smul,
        Matrix.one_mul, smul_smul]
      rw [pow_two]
    · simp [Normal.Valid]
  refine ⟨⟨0, 1 * 1ᵀ⟩, disc, loc, H, _, _, by simp [loc], by simp [loc], by simp [loc],
    exists_stateSpace 3 0 1 _ H hval (fun k => by simp [Normal.Valid, H]), ?_⟩
  intro y
  refine filter_succeeds_of_posDef 0 _ disc 3 loc H ?_ ?_ ?_ ?_ y
  · simp [List.range_succ, loc]
    norm_num
  · simp only [Matrix.transpose_one, Matrix.mul_one]; exact Matrix.PosSemidef.one
  · intro dt _
    exact Matrix.PosSemidef.one.smul (sq_nonneg _)
  · intro k _
    exact Matrix.PosDef.one

end Probnum.Kalman
