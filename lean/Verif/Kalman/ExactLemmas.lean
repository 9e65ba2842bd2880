import Verif.Gauss.Conditional
import Verif.LinGauss.Algebra
import Verif.Kalman.Props
import Verif.Kalman.StateSpace

/-!
# Helper lemmas for the exactness of filter and smoother
-/

namespace Probnum.Kalman

open MeasureTheory ProbabilityTheory Matrix Probnum.Gauss Probnum.LinGauss

variable {n m : ℕ}

/-- Predicted moments. -/
noncomputable def predS (A : Transition n n) (s : Updated n) : Updated n :=
  ⟨(forwardClassic A 1 (toNormal s)).mean, (forwardClassic A 1 (toNormal s)).cov⟩

/-- Updated moments. -/
noncomputable def updS (H : Transition n m) (s : Updated n) (y : Fin m → ℝ) : Updated n :=
  conditionStateOnRv (Normal.const y) (forwardClassic H 1 (toNormal s)).mean (forwardClassic H 1 (toNormal s)).cov
    (toNormal s) (optGain H 1 (toNormal s))

theorem predicts_iff (t0 : ℝ) (init : Updated n) (disc : ℝ → Transition n n) (tOld t : ℝ) (s s' : Updated n) :
    Predicts (classicPrior t0 init disc) none tOld t s s' ↔ s' = predS (gapTransition disc (t - tOld)) s := by
  unfold Predicts gapTransition
  by_cases h : 0 < t - tOld
  · simp only [if_pos h, linAt, classicPrior]
    constructor
    · rintro ⟨_, _, h⟩; injection h with h; exact h.symm
    · intro h; exact ⟨none, rfl, by rw [h]; rfl⟩
  · simp only [if_neg h]
    have : predS ⟨1, ⟨0, 0, 0⟩⟩ s = s := by
      cases s; simp [predS, forwardClassic, toNormal]
    rw [this]

theorem updates_iff (t : ℝ) (y : Fin m → ℝ) (H : Transition n m) (s s' : Updated n) :
    Updates none t y (classicMeas H) s s' ↔ (predCov H 1 (toNormal s)).det ≠ 0 ∧ s' = updS H s y := by
  unfold Updates classicMeas
  by_cases hS : (predCov H 1 (toNormal s)).det = 0
  · simp [backwardClassic, gainClassic_singular _ _ _ hS, hS, bind, Except.bind]
  · simp only [backwardClassic, gainClassic_eq _ _ _ hS, bind, Except.bind, linAt]
    constructor
    · rintro ⟨_, _, h⟩; injection h with h; exact ⟨hS, h.symm⟩
    · rintro ⟨_, h⟩; exact ⟨none, rfl, by rw [h]; rfl⟩

/-- The sequence of filtered moments as a function of the data. -/
noncomputable def sseq (init : Updated n) (A : ℕ → Transition n n) (H : ℕ → Transition n m) :
    (k : ℕ) → (Fin k → Fin m → ℝ) → Updated n
  | 0, _ => init
  | k + 1, y => updS (H k) (predS (A k) (sseq init A H k fun i => y i.castSucc)) (y (Fin.last k))

theorem sseq_cov (init : Updated n) (A : ℕ → Transition n n) (H : ℕ → Transition n m) (k : ℕ) :
    ∀ y y', (sseq init A H k y).cov = (sseq init A H k y').cov := by
  induction k with
  | zero => intro y y'; rfl
  | succ k ih =>
    intro y y'
    have h := ih (fun i => y i.castSucc) (fun i => y' i.castSucc)
    simp only [sseq, updS, conditionStateOnRv, predS, forwardClassic, toNormal, optGain, Normal.const, predCov, h]

/-- Innovation covariance at step `k` is regular. -/
def Regular (init : Updated n) (A : ℕ → Transition n n) (H : ℕ → Transition n m) (k : ℕ) : Prop :=
  (predCov (H k) 1 (toNormal (predS (A k) (sseq init A H k fun _ => 0)))).det ≠ 0

theorem regular_iff (init : Updated n) (A : ℕ → Transition n n) (H : ℕ → Transition n m) (k : ℕ)
    (y : Fin k → Fin m → ℝ) :
    (predCov (H k) 1 (toNormal (predS (A k) (sseq init A H k y)))).det ≠ 0 ↔ Regular init A H k := by
  unfold Regular
  have h := sseq_cov init A H k y fun _ => 0
  simp only [predCov, predS, forwardClassic, toNormal, h]

/-! ## Measurability and histories -/

variable {Ω : Type*} {mΩ : MeasurableSpace Ω} {P : Measure Ω}

theorem upTo_succ {V : Type*} (Z : ℕ → Ω → V) (k : ℕ) (ω : Ω) :
    upTo Z (k + 1) ω = Fin.snoc (α := fun _ => V) (upTo Z k ω) (Z k ω) := by
  funext i
  refine Fin.lastCases ?_ (fun i => ?_) i
  · simp [upTo]
  · simp [upTo]

theorem measurable_snoc {V : Type*} [MeasurableSpace V] (k : ℕ) :
    Measurable fun p : (Fin k → V) × V => (Fin.snoc (α := fun _ => V) p.1 p.2 : Fin (k + 1) → V) := by
  rw [measurable_pi_iff]
  intro i
  refine Fin.lastCases ?_ (fun i => ?_) i
  · simpa using measurable_snd
  · have : Measurable ((fun f : Fin k → V => f i) ∘ (Prod.fst : (Fin k → V) × V → Fin k → V)) :=
      (measurable_pi_apply i).comp measurable_fst
    simpa [Function.comp_def] using this

theorem measurable_unsnoc {V : Type*} [MeasurableSpace V] (k : ℕ) :
    Measurable fun y : Fin (k + 1) → V => ((fun i : Fin k => y i.castSucc), y (Fin.last k)) :=
  (measurable_pi_iff.2 fun i => measurable_pi_apply i.castSucc).prodMk (measurable_pi_apply _)

section SS

variable {N : ℕ} {init : Updated n} {A : ℕ → Transition n n} {H : ℕ → Transition n m} {X : ℕ → Ω → Fin n → ℝ}
  {Y : ℕ → Ω → Fin m → ℝ}

theorem StateSpace.aeX (h : StateSpace P N init A H X Y) : ∀ k, k ≤ N → AEMeasurable (X k) P := by
  intro k
  induction k with
  | zero => intro _; exact h.init.gaussian.aemeasurable
  | succ k ih =>
    intro hk
    obtain ⟨W, h1, h2, -⟩ := h.dyn k (by omega)
    have : X (k + 1) = fun ω => (A k).mat *ᵥ X k ω + W ω := funext h1
    rw [this]
    exact ((measurable_mulVec _).comp_aemeasurable (ih (by omega))).add h2.gaussian.aemeasurable

theorem StateSpace.aeY (h : StateSpace P N init A H X Y) (k : ℕ) (hk : k < N) : AEMeasurable (Y k) P := by
  obtain ⟨V, h1, h2, -⟩ := h.obs k hk
  have : Y k = fun ω => (H k).mat *ᵥ X (k + 1) ω + V ω := funext h1
  rw [this]
  exact ((measurable_mulVec _).comp_aemeasurable (h.aeX (k + 1) (by omega))).add h2.gaussian.aemeasurable

theorem StateSpace.aeYs (h : StateSpace P N init A H X Y) (k : ℕ) (hk : k ≤ N) : AEMeasurable (upTo Y k) P := by
  rw [aemeasurable_pi_iff]
  intro i
  exact h.aeY i (by omega)

/-- `cov - K S Kᵀ` form of the update in Joseph form. -/
theorem updS_cov (H : Transition n m) (s : Updated n) (y : Fin m → ℝ) (h1 : s.covᵀ = s.cov)
    (h2 : H.noise.covᵀ = H.noise.cov) (hS : (predCov H 1 (toNormal s)).det ≠ 0) :
    (updS H s y).cov = (1 - optGain H 1 (toNormal s) * H.mat) * s.cov * (1 - optGain H 1 (toNormal s) * H.mat)ᵀ
      + optGain H 1 (toNormal s) * H.noise.cov * (optGain H 1 (toNormal s))ᵀ := by
  have := joseph_eq H 1 (toNormal s) h1 h2 hS
  simp only [one_smul] at this
  have e : (toNormal s).cov = s.cov := rfl
  rw [e] at this
  rw [this]
  simp only [updS, conditionStateOnRv, Normal.const, zero_sub, Matrix.mul_neg, Matrix.neg_mul]
  rw [sub_eq_add_neg]
  rfl

theorem symm_of_psd {k : ℕ} {C : Matrix (Fin k) (Fin k) ℝ} (h : C.PosSemidef) : Cᵀ = C := by
  have := h.isHermitian.eq
  rwa [Matrix.conjTranspose_eq_transpose_of_trivial] at this

/-- Exactness of the moment sequence. -/
theorem sseq_conditional (h : StateSpace P N init A H X Y) (hreg : ∀ k, k < N → Regular init A H k) :
    ∀ k, k ≤ N → IsConditional P (X k) (upTo Y k) (fun y => (sseq init A H k y).mean)
      (sseq init A H k fun _ => 0).cov := by
  intro k
  induction k with
  | zero =>
    intro _
    have := h.init.isProbabilityMeasure
    have hr : IsNormal P (fun ω => X 0 ω - init.mean) 0 init.cov := by
      have h0 := h.init.affine (1 : Matrix (Fin n) (Fin n) ℝ) (-init.mean)
      simpa [sub_eq_add_neg] using h0
    refine ⟨(measurable_const : Measurable fun _ : Fin 0 → Fin m → ℝ => init.mean), ?_, hr⟩
    have : upTo Y 0 = fun _ => (fun i => i.elim0 : Fin 0 → Fin m → ℝ) := by funext ω i; exact i.elim0
    rw [this]
    exact indepFun_const_right _ _
  | succ k ih =>
    intro hk
    have hC := ih (by omega)
    obtain ⟨W, w1, w2, w3⟩ := h.dyn k (by omega)
    obtain ⟨V, v1, v2, v3⟩ := h.obs k (by omega)
    have hW : IndepFun W (fun ω => (X k ω, upTo Y k ω)) P :=
      w3.comp (φ := id) (ψ := fun p : (Fin (k + 1) → Fin n → ℝ) × (Fin k → Fin m → ℝ) => (p.1 (Fin.last k), p.2))
        measurable_id (((measurable_pi_apply _).comp measurable_fst).prodMk measurable_snd)
    have hV : IndepFun V (fun ω => (X (k + 1) ω, upTo Y k ω)) P :=
      v3.comp (φ := id) (ψ := fun p : (Fin (k + 2) → Fin n → ℝ) × (Fin k → Fin m → ℝ) => (p.1 (Fin.last (k + 1)), p.2))
        measurable_id (((measurable_pi_apply _).comp measurable_fst).prodMk measurable_snd)
    have hP := hC.predict (h.aeYs k (by omega)) w2 hW (A k).mat
    rw [← (funext w1 : X (k + 1) = fun ω => (A k).mat *ᵥ X k ω + W ω)] at hP
    set sp := fun y => predS (A k) (sseq init A H k y) with hsp
    have hpc : ∀ y, (sp y).cov = (A k).mat * (sseq init A H k fun _ => 0).cov * (A k).matᵀ + (A k).noise.cov := by
      intro y
      simp only [hsp, predS]
      rw [show (forwardClassic (A k) 1 (toNormal (sseq init A H k y))).cov = _ from predCov_eq _ _ _]
      simp only [toNormal, one_smul, sseq_cov init A H k y fun _ => 0]
    have hPred : IsConditional P (X (k + 1)) (upTo Y k) (fun y => (sp y).mean) (sp fun _ => 0).cov :=
      hP.congr (fun y => rfl) (hpc _)
    have hr := hreg k (by omega)
    have hgain := optGain_mul (H k) 1 (toNormal (sp fun _ => 0)) hr
    rw [predCov_eq, one_smul] at hgain
    have hU := hPred.update (h.aeYs k (by omega)) v2 hV (H k).mat (optGain (H k) 1 (toNormal (sp fun _ => 0))) hgain
    have hYv : (fun ω => (upTo Y k ω, (H k).mat *ᵥ X (k + 1) ω + V ω)) = fun ω => (upTo Y k ω, Y k ω) := by
      funext ω; rw [v1]
    rw [hYv] at hU
    have hU' := hU.change (Z := upTo Y (k + 1)) (fun p => Fin.snoc (α := fun _ => Fin m → ℝ) p.1 p.2)
      (fun y => ((fun i : Fin k => y i.castSucc), y (Fin.last k))) (measurable_snoc k) (measurable_unsnoc k)
      (fun ω => upTo_succ Y k ω) (fun ω => by simp [upTo]; rfl)
    refine hU'.congr (fun y => ?_) ?_
    · have hg : optGain (H k) 1 (toNormal (sp fun i => y i.castSucc))
          = optGain (H k) 1 (toNormal (sp fun _ => 0)) := by
        simp only [optGain, predCov, forwardClassic, toNormal, hpc]
      show (updS (H k) (sp fun i => y i.castSucc) (y (Fin.last k))).mean = _
      simp only [updS, conditionStateOnRv, hg, Normal.const]
      rfl
    · exact updS_cov (H k) (sp fun _ => 0) 0 (symm_of_psd hPred.residual.posSemidef) (symm_of_psd v2.posSemidef) hr

end SS

end Probnum.Kalman
