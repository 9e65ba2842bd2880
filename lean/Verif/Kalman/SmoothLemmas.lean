import Verif.Kalman.Exact

/-!
# Helper lemmas: the smoother
-/

namespace Probnum.Kalman

open MeasureTheory ProbabilityTheory Matrix Probnum.Gauss Probnum.LinGauss Probnum.Posterior

variable {n m : ℕ} {Ω : Type*} {mΩ : MeasurableSpace Ω} {P : Measure Ω}

/-- Entries before `k` replaced by 0. -/
def mask {V : Type*} [Zero V] (k : ℕ) {j : ℕ} (x : Fin j → V) : Fin j → V := fun i => if k ≤ i.1 then x i else 0

theorem measurable_mask {V : Type*} [Zero V] [MeasurableSpace V] (k j : ℕ) :
    Measurable (mask (V := V) k (j := j)) := by
  rw [measurable_pi_iff]
  intro i
  unfold mask
  split_ifs
  · exact measurable_pi_apply i
  · exact measurable_const

theorem mask_succ {V : Type*} [Zero V] (Z : ℕ → Ω → V) (k j : ℕ) (h : k ≤ j) (ω : Ω) :
    mask k (upTo Z (j + 1) ω) = Fin.snoc (α := fun _ => V) (mask k (upTo Z j ω)) (Z j ω) := by
  funext i
  refine Fin.lastCases ?_ (fun i => ?_) i
  · simp [upTo, mask, h]
  · simp [upTo, mask]

section SS

variable {N : ℕ} {init : Updated n} {A : ℕ → Transition n n} {H : ℕ → Transition n m} {X : ℕ → Ω → Fin n → ℝ}
  {Y : ℕ → Ω → Fin m → ℝ}

theorem StateSpace.aeXs (h : StateSpace P N init A H X Y) (k : ℕ) (hk : k ≤ N + 1) : AEMeasurable (upTo X k) P := by
  rw [aemeasurable_pi_iff]
  intro i
  exact h.aeX i (by omega)

/-- The residual of state `k` given the next state and the observations before is independent of the observations
after, too. -/
theorem eps_extend_all (h : StateSpace P N init A H X Y) {k : ℕ} (hk : k < N)
    {g : (Fin k → Fin m → ℝ) × (Fin n → ℝ) → Fin n → ℝ} (hg : Measurable g)
    (hi : IndepFun (fun ω => X k ω - g (upTo Y k ω, X (k + 1) ω)) (fun ω => (upTo Y k ω, X (k + 1) ω)) P) :
    IndepFun (fun ω => X k ω - g (upTo Y k ω, X (k + 1) ω))
      (fun ω => (upTo Y N ω, mask (k + 1) (upTo X (N + 1) ω))) P := by
  have hprob := h.init.isProbabilityMeasure
  set ε := fun ω => X k ω - g (upTo Y k ω, X (k + 1) ω) with hε
  have aeε : AEMeasurable ε P :=
    (h.aeX k (by omega)).sub (hg.comp_aemeasurable ((h.aeYs k (by omega)).prodMk (h.aeX (k + 1) (by omega))))
  -- the pair (ε, history) as a function of the full history
  have hist : ∀ {a b : ℕ} (ha : k + 1 < a) (hb : k ≤ b) {U : Type} [MeasurableSpace U] {V : Ω → U},
      IndepFun V (fun ω => (upTo X a ω, upTo Y b ω)) P →
      IndepFun (fun ω => (ε ω, (upTo Y b ω, mask (k + 1) (upTo X a ω)))) V P := by
    intro a b ha hb U _ V hV
    have hm : Measurable fun p : (Fin a → Fin n → ℝ) × (Fin b → Fin m → ℝ) =>
        (p.1 ⟨k, by omega⟩ - g ((fun i : Fin k => p.2 (Fin.castLE hb i)), p.1 ⟨k + 1, ha⟩),
          (p.2, mask (k + 1) p.1)) := by
      refine Measurable.prodMk ?_ (measurable_snd.prodMk ((measurable_mask _ _).comp measurable_fst))
      refine ((measurable_pi_apply _).comp measurable_fst).sub (hg.comp (Measurable.prodMk ?_ ?_))
      · exact measurable_pi_iff.2 fun i => (measurable_pi_apply _).comp measurable_snd
      · exact (measurable_pi_apply _).comp measurable_fst
    exact (hV.comp (φ := id) measurable_id hm).symm
  have stepV : ∀ j, k ≤ j → j < N → IndepFun ε (fun ω => (upTo Y j ω, mask (k + 1) (upTo X (j + 2) ω))) P →
      IndepFun ε (fun ω => (upTo Y (j + 1) ω, mask (k + 1) (upTo X (j + 2) ω))) P := by
    intro j hj hjN hI
    obtain ⟨V, v1, v2, v3⟩ := h.obs j hjN
    have h2 := hist (a := j + 2) (b := j) (by omega) hj v3
    have aeZ : AEMeasurable (fun ω => (upTo Y j ω, mask (k + 1) (upTo X (j + 2) ω))) P :=
      (h.aeYs j (by omega)).prodMk ((measurable_mask _ _).comp_aemeasurable (h.aeXs _ (by omega)))
    have h3 := indep_triple aeε aeZ v2.gaussian.aemeasurable hI h2
    have hm : Measurable fun p : ((Fin j → Fin m → ℝ) × (Fin (j + 2) → Fin n → ℝ)) × (Fin m → ℝ) =>
        ((Fin.snoc (α := fun _ => Fin m → ℝ) p.1.1 ((H j).mat *ᵥ p.1.2 (Fin.last (j + 1)) + p.2) :
          Fin (j + 1) → Fin m → ℝ), p.1.2) := by
      refine Measurable.prodMk ?_ (measurable_snd.comp measurable_fst)
      refine (measurable_snoc (V := Fin m → ℝ) j).comp
        (Measurable.prodMk (measurable_fst.comp measurable_fst) (Measurable.add ?_ measurable_snd))
      exact (measurable_mulVec _).comp ((measurable_pi_apply _).comp (measurable_snd.comp measurable_fst))
    have h4 := h3.comp (φ := id) measurable_id hm
    have e : ((fun p : ((Fin j → Fin m → ℝ) × (Fin (j + 2) → Fin n → ℝ)) × (Fin m → ℝ) =>
        ((Fin.snoc (α := fun _ => Fin m → ℝ) p.1.1 ((H j).mat *ᵥ p.1.2 (Fin.last (j + 1)) + p.2) :
          Fin (j + 1) → Fin m → ℝ), p.1.2)) ∘ fun ω => ((upTo Y j ω, mask (k + 1) (upTo X (j + 2) ω)), V ω))
        = fun ω => (upTo Y (j + 1) ω, mask (k + 1) (upTo X (j + 2) ω)) := by
      funext ω
      have : mask (k + 1) (upTo X (j + 2) ω) (Fin.last (j + 1)) = X (j + 1) ω := by
        simp [mask, upTo, hj]
      simp only [Function.comp]
      rw [this, ← v1, upTo_succ Y j ω]
    rw [e] at h4
    exact h4
  have stepW : ∀ j, k < j → j < N → IndepFun ε (fun ω => (upTo Y j ω, mask (k + 1) (upTo X (j + 1) ω))) P →
      IndepFun ε (fun ω => (upTo Y j ω, mask (k + 1) (upTo X (j + 2) ω))) P := by
    intro j hj hjN hI
    obtain ⟨W, w1, w2, w3⟩ := h.dyn j hjN
    have h2 := hist (a := j + 1) (b := j) (by omega) (by omega) w3
    have aeZ : AEMeasurable (fun ω => (upTo Y j ω, mask (k + 1) (upTo X (j + 1) ω))) P :=
      (h.aeYs j (by omega)).prodMk ((measurable_mask _ _).comp_aemeasurable (h.aeXs _ (by omega)))
    have h3 := indep_triple aeε aeZ w2.gaussian.aemeasurable hI h2
    have hm : Measurable fun p : ((Fin j → Fin m → ℝ) × (Fin (j + 1) → Fin n → ℝ)) × (Fin n → ℝ) =>
        (p.1.1, (Fin.snoc (α := fun _ => Fin n → ℝ) p.1.2 ((A j).mat *ᵥ p.1.2 (Fin.last j) + p.2) :
          Fin (j + 2) → Fin n → ℝ)) := by
      refine Measurable.prodMk (measurable_fst.comp measurable_fst) ?_
      refine (measurable_snoc (V := Fin n → ℝ) (j + 1)).comp
        (Measurable.prodMk (measurable_snd.comp measurable_fst) (Measurable.add ?_ measurable_snd))
      exact (measurable_mulVec _).comp ((measurable_pi_apply _).comp (measurable_snd.comp measurable_fst))
    have h4 := h3.comp (φ := id) measurable_id hm
    have e : ((fun p : ((Fin j → Fin m → ℝ) × (Fin (j + 1) → Fin n → ℝ)) × (Fin n → ℝ) =>
        (p.1.1, (Fin.snoc (α := fun _ => Fin n → ℝ) p.1.2 ((A j).mat *ᵥ p.1.2 (Fin.last j) + p.2) :
          Fin (j + 2) → Fin n → ℝ))) ∘ fun ω => ((upTo Y j ω, mask (k + 1) (upTo X (j + 1) ω)), W ω))
        = fun ω => (upTo Y j ω, mask (k + 1) (upTo X (j + 2) ω)) := by
      funext ω
      have : mask (k + 1) (upTo X (j + 1) ω) (Fin.last j) = X j ω := by
        simp [mask, upTo]; omega
      simp only [Function.comp]
      rw [this, ← w1, mask_succ X (k + 1) (j + 1) (by omega)]
    rw [e] at h4
    exact h4
  have key : ∀ j, k ≤ j → j < N →
      IndepFun ε (fun ω => (upTo Y (j + 1) ω, mask (k + 1) (upTo X (j + 2) ω))) P := by
    intro j hj
    induction j, hj using Nat.le_induction with
    | base =>
      intro hkN
      refine stepV k le_rfl hkN ?_
      have hm : Measurable fun p : (Fin k → Fin m → ℝ) × (Fin n → ℝ) =>
          (p.1, fun i : Fin (k + 2) => if k + 1 ≤ i.1 then p.2 else 0) := by
        refine measurable_fst.prodMk (measurable_pi_iff.2 fun i => ?_)
        split_ifs
        · exact measurable_snd
        · exact measurable_const
      have h4 := hi.comp (φ := id) measurable_id hm
      have e : ((fun p : (Fin k → Fin m → ℝ) × (Fin n → ℝ) =>
          (p.1, fun i : Fin (k + 2) => if k + 1 ≤ i.1 then p.2 else 0)) ∘ fun ω => (upTo Y k ω, X (k + 1) ω))
          = fun ω => (upTo Y k ω, mask (k + 1) (upTo X (k + 2) ω)) := by
        funext ω
        simp only [Function.comp, Prod.mk.injEq, true_and]
        funext i
        simp only [mask, upTo]
        split_ifs with hle
        · have : i.1 = k + 1 := by omega
          rw [this]
        · rfl
      rw [e] at h4
      exact h4
    | succ j hj ih =>
      intro hjN
      exact stepV (j + 1) (by omega) hjN (stepW (j + 1) (by omega) hjN (ih (by omega)))
  obtain ⟨M, rfl⟩ : ∃ M, N = M + 1 := ⟨N - 1, by omega⟩
  exact key M (by omega) (by omega)

end SS

/-! ## The backward recursion -/

/-- One smoothing step. -/
noncomputable def rts (A : Transition n n) (s' s : Updated n) : Updated n :=
  conditionStateOnRv (toNormal s') (forwardClassic A 1 (toNormal s)).mean (forwardClassic A 1 (toNormal s)).cov
    (toNormal s) (optGain A 1 (toNormal s))

theorem backward_iff (A : Transition n n) (s' s out : Updated n) :
    backwardClassic A 1 (toNormal s') (toNormal s) none = .ok out ↔
      (predCov A 1 (toNormal s)).det ≠ 0 ∧ out = rts A s' s := by
  by_cases hS : (predCov A 1 (toNormal s)).det = 0
  · simp [backwardClassic, gainClassic_singular _ _ _ hS, hS, bind, Except.bind]
  · simp only [backwardClassic, gainClassic_eq _ _ _ hS, bind, Except.bind]
    constructor
    · intro h; injection h with h; exact ⟨hS, h.symm⟩
    · rintro ⟨_, h⟩; rw [h]; rfl

/-- Smoothed moments of state `N - j`. -/
noncomputable def rseq (init : Updated n) (A : ℕ → Transition n n) (H : ℕ → Transition n m) (N : ℕ)
    (y : ℕ → Fin m → ℝ) : ℕ → Updated n
  | 0 => sseq init A H N fun i => y i
  | j + 1 => rts (A (N - (j + 1))) (rseq init A H N y j) (sseq init A H (N - (j + 1)) fun i => y i)

/-- Predicted covariance after state `k` is regular. -/
def SRegular (init : Updated n) (A : ℕ → Transition n n) (H : ℕ → Transition n m) (k : ℕ) : Prop :=
  (predCov (A k) 1 (toNormal (sseq init A H k fun _ => 0))).det ≠ 0

theorem sregular_iff (init : Updated n) (A : ℕ → Transition n n) (H : ℕ → Transition n m) (k : ℕ)
    (y : Fin k → Fin m → ℝ) :
    (predCov (A k) 1 (toNormal (sseq init A H k y))).det ≠ 0 ↔ SRegular init A H k := by
  unfold SRegular
  have h := sseq_cov init A H k y fun _ => 0
  simp only [predCov, forwardClassic, toNormal, h]

theorem optGain_sseq (init : Updated n) (A : ℕ → Transition n n) (H : ℕ → Transition n m) (k : ℕ)
    (y : Fin k → Fin m → ℝ) :
    optGain (A k) 1 (toNormal (sseq init A H k y)) = optGain (A k) 1 (toNormal (sseq init A H k fun _ => 0)) := by
  have h := sseq_cov init A H k y fun _ => 0
  simp only [optGain, predCov, forwardClassic, toNormal, h]

theorem rseq_cov (init : Updated n) (A : ℕ → Transition n n) (H : ℕ → Transition n m) (N : ℕ) (j : ℕ) :
    ∀ y y', (rseq init A H N y j).cov = (rseq init A H N y' j).cov := by
  induction j with
  | zero => intro y y'; exact sseq_cov _ _ _ _ _ _
  | succ j ih =>
    intro y y'
    have h1 := ih y y'
    have h2 := sseq_cov init A H (N - (j + 1)) (fun i => y i) (fun i => y' i)
    simp only [rseq, rts, conditionStateOnRv, toNormal, forwardClassic, optGain, predCov, h1, h2]

/-- Extension of data by zeros. -/
def extend {N : ℕ} (y : Fin N → Fin m → ℝ) : ℕ → Fin m → ℝ := fun i => if h : i < N then y ⟨i, h⟩ else 0

theorem extend_restrict {N k : ℕ} (hk : k ≤ N) (y : Fin N → Fin m → ℝ) :
    (fun i : Fin k => extend y i) = fun i => y (Fin.castLE hk i) := by
  funext i
  have : i.1 < N := by omega
  simp [extend, this]
  rfl

theorem rseq_extend (init : Updated n) (A : ℕ → Transition n n) (H : ℕ → Transition n m) (N : ℕ) (y : ℕ → Fin m → ℝ)
    (j : ℕ) : rseq init A H N (extend fun i : Fin N => y i) j = rseq init A H N y j := by
  have e : ∀ k, k ≤ N → (fun i : Fin k => extend (fun i : Fin N => y i) i) = fun i : Fin k => y i := by
    intro k hk; rw [extend_restrict hk]; rfl
  induction j with
  | zero => simp only [rseq]; rw [e N le_rfl]
  | succ j ih => simp only [rseq]; rw [ih, e _ (by omega)]

section SS

variable {N : ℕ} {init : Updated n} {A : ℕ → Transition n n} {H : ℕ → Transition n m} {X : ℕ → Ω → Fin n → ℝ}
  {Y : ℕ → Ω → Fin m → ℝ}

/-- The gain of the smoothing step from state `k`. -/
noncomputable def sgain (init : Updated n) (A : ℕ → Transition n n) (H : ℕ → Transition n m) (k : ℕ) :
    Matrix (Fin n) (Fin n) ℝ := optGain (A k) 1 (toNormal (sseq init A H k fun _ => 0))

/-- Covariance of state `k` given the next one. -/
noncomputable def scov (init : Updated n) (A : ℕ → Transition n n) (H : ℕ → Transition n m) (k : ℕ) :
    Matrix (Fin n) (Fin n) ℝ :=
  (1 - sgain init A H k * (A k).mat) * (sseq init A H k fun _ => 0).cov * (1 - sgain init A H k * (A k).mat)ᵀ
    + sgain init A H k * (A k).noise.cov * (sgain init A H k)ᵀ

/-- Mean of state `k` given the next one and the data. -/
noncomputable def smean (init : Updated n) (A : ℕ → Transition n n) (H : ℕ → Transition n m) (k : ℕ) {N : ℕ}
    (y : Fin N → Fin m → ℝ) (x : Fin n → ℝ) : Fin n → ℝ :=
  ((sseq init A H k fun i => extend y i).mean
    - sgain init A H k *ᵥ ((A k).mat *ᵥ (sseq init A H k fun i => extend y i).mean + (A k).noise.mean))
    + sgain init A H k *ᵥ x

theorem smooth_step (h : StateSpace P N init A H X Y) (hreg : ∀ k, k < N → Regular init A H k)
    (k : ℕ) (hkN : k < N) (hr : SRegular init A H k) :
    Measurable (fun y : Fin N → Fin m → ℝ => (sseq init A H k fun i => extend y i).mean) ∧
    IsNormal P (fun ω => X k ω - smean init A H k (upTo Y N ω) (X (k + 1) ω)) 0 (scov init A H k) ∧
    IndepFun (fun ω => X k ω - smean init A H k (upTo Y N ω) (X (k + 1) ω))
      (fun ω => (upTo Y N ω, mask (k + 1) (upTo X (N + 1) ω))) P := by
  have hC := sseq_conditional h hreg k (by omega)
  obtain ⟨W, w1, w2, w3⟩ := h.dyn k hkN
  have hW : IndepFun W (fun ω => (X k ω, upTo Y k ω)) P :=
    w3.comp (φ := id) (ψ := fun p : (Fin (k + 1) → Fin n → ℝ) × (Fin k → Fin m → ℝ) => (p.1 (Fin.last k), p.2))
      measurable_id (((measurable_pi_apply _).comp measurable_fst).prodMk measurable_snd)
  have hgain : sgain init A H k * ((A k).mat * (sseq init A H k fun _ => 0).cov * (A k).matᵀ + (A k).noise.cov)
      = (sseq init A H k fun _ => 0).cov * (A k).matᵀ := by
    have := optGain_mul (A k) 1 (toNormal (sseq init A H k fun _ => 0)) hr
    rwa [predCov_eq, one_smul] at this
  have hU := hC.update (h.aeYs k (by omega)) w2 hW (A k).mat (sgain init A H k) hgain
  rw [show (fun ω => (upTo Y k ω, (A k).mat *ᵥ X k ω + W ω)) = fun ω => (upTo Y k ω, X (k + 1) ω) from by
    funext ω; rw [w1]] at hU
  have e : ∀ ω, smean init A H k (upTo Y N ω) (X (k + 1) ω)
      = (sseq init A H k (upTo Y k ω)).mean + sgain init A H k *ᵥ
        (X (k + 1) ω - ((A k).mat *ᵥ (sseq init A H k (upTo Y k ω)).mean + (A k).noise.mean)) := by
    intro ω
    unfold smean
    rw [extend_restrict (by omega : k ≤ N), show (fun i : Fin k => upTo Y N ω (Fin.castLE (by omega) i)) = upTo Y k ω
      from rfl, Matrix.mulVec_sub (sgain init A H k)]
    abel
  refine ⟨?_, ?_, ?_⟩
  · have : (fun y : Fin N → Fin m → ℝ => (sseq init A H k fun i => extend y i).mean)
        = (fun y => (sseq init A H k y).mean) ∘ fun y i => y (Fin.castLE (by omega : k ≤ N) i) := by
      funext y; simp only [Function.comp]; rw [extend_restrict (by omega : k ≤ N)]
    rw [this]
    exact hC.measurable.comp (measurable_pi_iff.2 fun i => measurable_pi_apply _)
  · simp only [e]
    exact hU.residual
  · simp only [e]
    exact eps_extend_all h hkN hU.measurable hU.indep

theorem rts_mean (init : Updated n) (A : ℕ → Transition n n) (H : ℕ → Transition n m) (k : ℕ) {N : ℕ}
    (y : Fin N → Fin m → ℝ) (s : Updated n) :
    (rts (A k) s (sseq init A H k fun i => extend y i)).mean = smean init A H k y s.mean := by
  have hg : optGain (A k) 1 (toNormal (sseq init A H k fun i => extend y i)) = sgain init A H k :=
    optGain_sseq init A H k fun i => extend y i
  simp only [rts, conditionStateOnRv, hg, smean]
  rw [Matrix.mulVec_sub]
  simp only [forwardClassic, toNormal]
  abel

theorem rts_cov (init : Updated n) (A : ℕ → Transition n n) (H : ℕ → Transition n m) (k : ℕ) (y : Fin k → Fin m → ℝ)
    (s : Updated n) (h1 : (sseq init A H k fun _ => 0).covᵀ = (sseq init A H k fun _ => 0).cov)
    (h2 : (A k).noise.covᵀ = (A k).noise.cov) (hr : SRegular init A H k) :
    (rts (A k) s (sseq init A H k y)).cov = scov init A H k + sgain init A H k * s.cov * (sgain init A H k)ᵀ := by
  have hc := sseq_cov init A H k y fun _ => 0
  have hg : optGain (A k) 1 (toNormal (sseq init A H k y)) = sgain init A H k := optGain_sseq init A H k y
  have hj := joseph_eq (A k) 1 (toNormal (sseq init A H k fun _ => 0)) h1 h2 hr
  simp only [one_smul] at hj
  rw [show (toNormal (sseq init A H k fun _ => 0)).cov = (sseq init A H k fun _ => 0).cov from rfl] at hj
  unfold scov
  rw [show optGain (A k) 1 (toNormal (sseq init A H k fun _ => 0)) = sgain init A H k from rfl] at hj
  rw [hj]
  simp only [rts, conditionStateOnRv, hg]
  rw [Matrix.mul_sub, Matrix.sub_mul]
  simp only [predCov, toNormal, hc, forwardClassic]
  abel

theorem StateSpace.symmA (h : StateSpace P N init A H X Y) (k : ℕ) (hk : k < N) :
    (A k).noise.covᵀ = (A k).noise.cov := by
  obtain ⟨W, -, w2, -⟩ := h.dyn k hk
  exact symm_of_psd w2.posSemidef

theorem rseq_conditional (h : StateSpace P N init A H X Y) (hreg : ∀ k, k < N → Regular init A H k)
    (hsreg : ∀ k, 0 < k → k < N → SRegular init A H k) :
    ∀ j, j < N → IsConditional P (X (N - j)) (upTo Y N) (fun y => (rseq init A H N (extend y) j).mean)
      (rseq init A H N (fun _ => 0) j).cov := by
  intro j
  induction j with
  | zero =>
    intro _
    refine (sseq_conditional h hreg N le_rfl).congr (fun y => ?_) rfl
    simp only [rseq]
    rw [extend_restrict le_rfl]
    rfl
  | succ j ih =>
    intro hj
    have hIH := ih (by omega)
    set k := N - (j + 1) with hk
    have hk1 : N - j = k + 1 := by omega
    have hkN : k < N := by omega
    have hk0 : 0 < k := by omega
    rw [hk1] at hIH
    have hr := hsreg k hk0 hkN
    obtain ⟨hm, hn, hind⟩ := smooth_step h hreg k hkN hr
    have hext : IsConditional P (X k) (fun ω => (upTo Y N ω, X (k + 1) ω))
        (fun p => ((sseq init A H k fun i => extend p.1 i).mean
          - sgain init A H k *ᵥ ((A k).mat *ᵥ (sseq init A H k fun i => extend p.1 i).mean + (A k).noise.mean))
            + sgain init A H k *ᵥ p.2) (scov init A H k) := by
      refine ⟨?_, ?_, hn⟩
      · have hm2 : Measurable fun p : (Fin N → Fin m → ℝ) × (Fin n → ℝ) =>
            (sseq init A H k fun i => extend p.1 i).mean := hm.comp measurable_fst
        exact (hm2.sub ((measurable_mulVec _).comp (((measurable_mulVec _).comp hm2).add measurable_const))).add
          ((measurable_mulVec _).comp measurable_snd)
      · have hmm : Measurable fun p : (Fin N → Fin m → ℝ) × (Fin (N + 1) → Fin n → ℝ) =>
          (p.1, p.2 ⟨k + 1, by omega⟩) := measurable_fst.prodMk ((measurable_pi_apply _).comp measurable_snd)
        have h2 := hind.comp (φ := id) measurable_id hmm
        have e : ((fun p : (Fin N → Fin m → ℝ) × (Fin (N + 1) → Fin n → ℝ) => (p.1, p.2 ⟨k + 1, by omega⟩)) ∘
            fun ω => (upTo Y N ω, mask (k + 1) (upTo X (N + 1) ω))) = fun ω => (upTo Y N ω, X (k + 1) ω) := by
          funext ω
          simp [mask, upTo]
        rw [e] at h2
        exact h2
    have hch := IsConditional.chain (h.aeYs N le_rfl)
      (a := fun y => ((sseq init A H k fun i => extend y i).mean
          - sgain init A H k *ᵥ ((A k).mat *ᵥ (sseq init A H k fun i => extend y i).mean + (A k).noise.mean)))
      (hm.sub ((measurable_mulVec _).comp (((measurable_mulVec _).comp hm).add measurable_const))) hext hIH
    refine hch.congr (fun y => ?_) ?_
    · show (rts (A k) (rseq init A H N (extend y) j) (sseq init A H k fun i => extend y i)).mean = _
      rw [rts_mean]
      rfl
    · show (rts (A k) (rseq init A H N (fun _ => 0) j) (sseq init A H k fun _ => 0)).cov = _
      rw [rts_cov init A H k _ _ (symm_of_psd (sseq_conditional h hreg k (by omega)).residual.posSemidef)
        (h.symmA k hkN) hr]

end SS

end Probnum.Kalman
