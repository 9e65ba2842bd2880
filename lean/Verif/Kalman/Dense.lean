import Verif.Posterior.Eval
import Verif.Kalman.SmoothExact

/-!
# C63: dense output of filtering and smoothing posteriors
-/

namespace Probnum.Kalman

open MeasureTheory ProbabilityTheory Matrix Probnum.Gauss Probnum.LinGauss Probnum.Posterior

variable {n m : ℕ}

theorem range_map_getElem {α : Type*} (g : ℕ → α) (N k : ℕ) (h : k < ((List.range N).map g).length) :
    ((List.range N).map g)[k] = g k := by
  rw [List.getElem_map]
  congr
  exact List.getElem_range _

/-- The dynamics used by `KalmanPosterior` objects for a time-invariant linear Gaussian prior (classic
implementations), cf. `classicPrior`.  Simplification: `backward` returns the value of the formulas also where
`np.linalg`/`scipy` would raise for a singular predicted covariance; the theorems below only use it where it is
regular. -/
noncomputable def classicDyn (disc : ℝ → Transition n n) : Dynamics ℝ (Updated n) ℝ where
  forward s _ dt d := ⟨(forwardClassic (disc dt) d (toNormal s)).mean, (forwardClassic (disc dt) d (toNormal s)).cov⟩
  backward s' s _ dt d := conditionStateOnRv (toNormal s') (forwardClassic (disc dt) d (toNormal s)).mean
    (forwardClassic (disc dt) d (toNormal s)).cov (toNormal s) (optGain (disc dt) d (toNormal s))
  one := 1

/-- Where `backward_rv` does not raise, it returns what `classicDyn.backward` returns. -/
theorem classicDyn_backward (t0 : ℝ) (init : Updated n) (disc : ℝ → Transition n n) (s' s out : Updated n) (t dt d : ℝ)
    (h : (classicPrior t0 init disc).backward s' s t dt d none = .ok out) :
    out = (classicDyn disc).backward s' s t dt d := by
  by_cases hS : (predCov (disc dt) d (toNormal s)).det = 0
  · simp [classicPrior, backwardClassic, gainClassic_singular _ _ _ hS, bind, Except.bind] at h
  · simp only [classicPrior, backwardClassic, gainClassic_eq _ _ _ hS, bind, Except.bind] at h
    injection h with h
    exact h.symm

/-- **C63, filtering.**  Let `Z` be the state of the process at a time `t` after location `k` and, if there is one,
before location `k + 1`.  Evaluating the filtering posterior at `t` returns mean and covariance of the conditional
distribution of `Z` given the observations up to location `k`. -/
theorem filtering_dense_output_exact {Ω : Type*} {mΩ : MeasurableSpace Ω} {P : Measure Ω} (t0 : ℝ) (init : Updated n)
    (disc : ℝ → Transition n n) (N : ℕ) (loc : ℕ → ℝ) (H : ℕ → Transition n m) (X : ℕ → Ω → Fin n → ℝ)
    (Y : ℕ → Ω → Fin m → ℝ)
    (hss : StateSpace P N init (fun k => gapTransition disc (stateTime t0 loc (k + 1) - stateTime t0 loc k)) H X Y)
    (hok : ∃ y0 post, filter (classicPrior t0 init disc) (gaussProblem N loc H y0) none = .ok post)
    (k : ℕ) (hk : k < N) (t : ℝ) (ht : loc k < t) (ht' : k + 1 < N → t < loc (k + 1)) (Z W : Ω → Fin n → ℝ)
    (hZ : ∀ ω, Z ω = (disc (t - loc k)).mat *ᵥ X (k + 1) ω + W ω)
    (hW : IsNormal P W (disc (t - loc k)).noise.mean (disc (t - loc k)).noise.cov)
    (hWi : IndepFun W (fun ω => (X (k + 1) ω, upTo Y (k + 1) ω)) P) :
    ∃ (g : (Fin (k + 1) → Fin m → ℝ) → Fin n → ℝ) (C : Matrix (Fin n) (Fin n) ℝ),
      IsConditional P Z (fun ω (i : Fin (k + 1)) => Y i ω) g C ∧
      ∀ y post, filter (classicPrior t0 init disc) (gaussProblem N loc H y) none = .ok post →
        callScalar (interpolateFiltering (classicDyn disc) none post) post t = .ok ⟨g fun i => y i, C⟩ := by
  obtain ⟨f, C, h1, h2⟩ := kalman_filter_exact t0 init disc N loc H X Y hss hok
  have hp := (h1 k hk).predict (hss.aeYs (k + 1) hk) hW hWi (disc (t - loc k)).mat
  rw [← (funext hZ : Z = fun ω => (disc (t - loc k)).mat *ᵥ X (k + 1) ω + W ω)] at hp
  refine ⟨_, _, hp, ?_⟩
  intro y post hy
  have hpost := h2 y
  rw [hy] at hpost
  injection hpost with hpost
  have hpw : ((List.range N).map loc).Pairwise (· < ·) := by
    rw [filter_one_state_per_observation _ _ _ (by simp [gaussProblem]) (by simp [gaussProblem])] at hy
    exact hy.1
  subst hpost
  have hg : Grid (⟨(List.range N).map loc, (List.range N).map fun k => (⟨f k fun i => y i, C k⟩ : Updated n), false⟩ :
      Post ℝ (Updated n)) :=
    ⟨hpw, by intro h; have := congrArg List.length h; simp at this; omega, by simp⟩
  have hfw : ∀ s : ℝ, (classicDyn disc).forward ⟨f k fun i => y i, C k⟩ s (t - loc k) 1
      = ⟨(disc (t - loc k)).mat *ᵥ (f k fun i => y i) + (disc (t - loc k)).noise.mean,
        (disc (t - loc k)).mat * C k * (disc (t - loc k)).matᵀ + (disc (t - loc k)).noise.cov⟩ := by
    intro s
    simp only [classicDyn, Updated.mk.injEq]
    refine ⟨rfl, ?_⟩
    rw [show (forwardClassic (disc (t - loc k)) 1 (toNormal ⟨f k fun i => y i, C k⟩)).cov = _ from predCov_eq _ _ _,
      one_smul]
    rfl
  by_cases hlast : k + 1 < N
  · rw [filtering_between (classicDyn disc) none _ hg k (by simpa using hlast) t (by simpa using ht)
      (by simpa using ht' hlast) 1 rfl]
    simp only [range_map_getElem]
    rw [hfw (loc k)]
  · have hkN : k + 1 = N := by omega
    have hl : (List.range N).map loc ≠ [] := hg.nonempty
    have hll : ((List.range N).map loc).getLast hl = loc k := by
      rw [List.getLast_eq_getElem, range_map_getElem]; simp [← hkN]
    have hne : (List.range N).map (fun k => (⟨f k fun i => y i, C k⟩ : Updated n)) ≠ [] := by
      intro h; have := congrArg List.length h; simp at this; omega
    have hsl : ((List.range N).map fun k => (⟨f k fun i => y i, C k⟩ : Updated n)).getLast hne
        = ⟨f k fun i => y i, C k⟩ := by
      rw [List.getLast_eq_getElem, range_map_getElem]
      have : ((List.range N).map fun k => (⟨f k fun i => y i, C k⟩ : Updated n)).length - 1 = k := by simp; omega
      rw [this]
    rw [(right_extrapolation (classicDyn disc) none _ hg t (by rw [hll]; exact ht) 1 rfl hne).1]
    congr 1
    rw [hll, hsl]
    exact hfw (loc k)

/-! ## The smoothing posterior -/

section Scalar

variable (A : Transition 1 1) (s s' : Updated 1)

theorem inv_one (M : Matrix (Fin 1) (Fin 1) ℝ) : M⁻¹ 0 0 = (M 0 0)⁻¹ := by
  rw [Matrix.inv_subsingleton]
  simp

theorem scalar_fwd (d : ℝ) (rv : Normal 1) :
    (forwardClassic A d rv).cov 0 0 = A.mat 0 0 * A.mat 0 0 * rv.cov 0 0 + d * A.noise.cov 0 0 := by
  simp [forwardClassic, Matrix.mul_apply]
  ring

theorem scalar_gain (d : ℝ) (rv : Normal 1) :
    optGain A d rv 0 0 = rv.cov 0 0 * A.mat 0 0 / (A.mat 0 0 * A.mat 0 0 * rv.cov 0 0 + d * A.noise.cov 0 0) := by
  simp only [optGain, Matrix.mul_apply, Fin.sum_univ_one, Fin.isValue, inv_one, scalar_fwd, predCov]
  simp [div_eq_mul_inv]

theorem scalar_cond (obt : Normal 1) (fm : Fin 1 → ℝ) (fc : Matrix (Fin 1) (Fin 1) ℝ) (rv : Normal 1)
    (G : Matrix (Fin 1) (Fin 1) ℝ) :
    (conditionStateOnRv obt fm fc rv G).cov 0 0 = rv.cov 0 0 + G 0 0 * (obt.cov 0 0 - fc 0 0) * G 0 0 := by
  simp [conditionStateOnRv, Matrix.mul_apply]

end Scalar

/-- One-dimensional Brownian motion. -/
noncomputable def brownian (dt : ℝ) : Transition 1 1 := ⟨1, ⟨0, dt • (1 : Matrix (Fin 1) (Fin 1) ℝ), Real.sqrt dt • 1⟩⟩

/-- Direct observation with unit noise. -/
def unitObs : ℕ → Transition 1 1 := fun _ => ⟨1, ⟨0, 1, 1⟩⟩

/-- Observation times 0 and 2. -/
noncomputable def twoTimes : ℕ → ℝ := fun k => 2 * k

/-- **C63, smoothing: violated.**  Brownian motion with `X(0) ~ N(0,1)`, observed at times 0 and 2 with unit noise.
For all data, the smoothing posterior evaluated at time 1 has variance `1690/2023`.  The variance of `X(1)` given both
observations is `6/7`, in every probability space on which such a process and its observations live. -/
theorem smoothing_dense_output_not_exact :
    (∀ y : ℕ → Fin 1 → ℝ, ∃ post s,
      filtsmooth (classicPrior 0 ⟨0, 1⟩ brownian) (gaussProblem 2 twoTimes unitObs y) none = .ok post ∧
      callScalar (interpolateSmoothing (classicDyn brownian) none post) post 1 = .ok s ∧ s.cov 0 0 = 1690 / 2023) ∧
    ∀ {Ω : Type} {mΩ : MeasurableSpace Ω} {P : Measure Ω} (X0 X1 X2 Y0 Y1 : Ω → Fin 1 → ℝ),
      IsNormal P X0 0 1 →
      IsNormal P (fun ω => Y0 ω - X0 ω) 0 1 → IndepFun (fun ω => Y0 ω - X0 ω) X0 P →
      IsNormal P (fun ω => X1 ω - X0 ω) 0 1 → IndepFun (fun ω => X1 ω - X0 ω) (fun ω => (X0 ω, Y0 ω)) P →
      IsNormal P (fun ω => X2 ω - X1 ω) 0 1 → IndepFun (fun ω => X2 ω - X1 ω) (fun ω => (X1 ω, Y0 ω)) P →
      IsNormal P (fun ω => Y1 ω - X2 ω) 0 1 → IndepFun (fun ω => Y1 ω - X2 ω) (fun ω => (X2 ω, X1 ω, Y0 ω)) P →
      ∀ f C, IsConditional P X1 (fun ω => (Y0 ω, Y1 ω)) f C → C 0 0 = 6 / 7 := by
  constructor
  · intro y
    have hpd : ∀ dt : ℝ, 0 < dt → (dt • (1 : Matrix (Fin 1) (Fin 1) ℝ)).PosDef := fun dt h => Matrix.PosDef.one.smul h
    have hpw : ((List.range 2).map twoTimes).Pairwise (· < ·) := by simp [List.range_succ, twoTimes]
    have hf := filtsmooth_succeeds_of_posDef 0 ⟨0, 1⟩ brownian 2 twoTimes unitObs (by norm_num) hpw
      Matrix.PosSemidef.one hpd (fun _ _ => Matrix.PosDef.one) y
    set A := transitions 0 twoTimes brownian with hA
    have hA0 : A 0 = ⟨1, ⟨0, 0, 0⟩⟩ := by
      simp [hA, transitions, gapTransition, stateTime, twoTimes]
    have hA1 : A 1 = brownian 2 := by
      simp [hA, transitions, gapTransition, stateTime, twoTimes]
    refine ⟨_, (classicDyn brownian).backward (rseq ⟨0, 1⟩ A unitObs 2 y 0)
      ((classicDyn brownian).forward (rseq ⟨0, 1⟩ A unitObs 2 y 1) 0 1 1) 1 1 1, hf, ?_, ?_⟩
    · rw [smoothing_between (classicDyn brownian) none _ ⟨hpw, by simp [List.range_succ], by simp⟩ 0 (by simp) 1
        (by simp [twoTimes]) (by simp [twoTimes]) 1 rfl]
      simp only [range_map_getElem]
      norm_num [twoTimes]
    · have s1 : (sseq ⟨0, 1⟩ A unitObs 1 fun i => y i).cov 0 0 = 1 / 2 := by
        simp only [sseq, updS, predS, scalar_cond, scalar_gain, scalar_fwd, toNormal, hA0, Normal.const, unitObs]
        norm_num
      have s2 : (sseq ⟨0, 1⟩ A unitObs 2 fun i => y i).cov 0 0 = 5 / 7 := by
        have h : sseq ⟨0, 1⟩ A unitObs 2 (fun i => y i)
            = updS (unitObs 1) (predS (A 1) (sseq ⟨0, 1⟩ A unitObs 1 fun i => y i)) (y 1) := rfl
        rw [h]
        simp only [updS, predS, scalar_cond, scalar_gain, scalar_fwd, toNormal, hA1, Normal.const, unitObs, s1, brownian]
        norm_num
      have r1 : (rseq ⟨0, 1⟩ A unitObs 2 y 1).cov 0 0 = 3 / 7 := by
        have h : rseq ⟨0, 1⟩ A unitObs 2 y 1 = rts (A 1) (sseq ⟨0, 1⟩ A unitObs 2 fun i => y i)
          (sseq ⟨0, 1⟩ A unitObs 1 fun i => y i) := rfl
        rw [h]
        simp only [rts, scalar_cond, scalar_gain, scalar_fwd, toNormal, hA1, s1, s2, brownian]
        norm_num
      have r0 : (rseq ⟨0, 1⟩ A unitObs 2 y 0).cov 0 0 = 5 / 7 := s2
      simp only [classicDyn, scalar_cond, scalar_gain, scalar_fwd, toNormal, r0, r1, brownian]
      norm_num
  · intro Ω mΩ P X0 X1 X2 Y0 Y1 hX0 hV0 iV0 hW1 iW1 hW2 iW2 hV1 iV1 f C hC
    have hprob := hX0.isProbabilityMeasure
    have aeY0 : AEMeasurable Y0 P := by
      have := hV0.gaussian.aemeasurable.add hX0.gaussian.aemeasurable
      refine this.congr (Filter.Eventually.of_forall fun ω => ?_); simp
    have aeX1 : AEMeasurable X1 P := by
      have := hW1.gaussian.aemeasurable.add hX0.gaussian.aemeasurable
      refine this.congr (Filter.Eventually.of_forall fun ω => ?_); simp
    have h0 : IsConditional P X0 (fun _ => ()) (fun _ => 0) 1 :=
      ⟨measurable_const, by simpa using indepFun_const_right X0 (), by simpa using hX0⟩
    have k1 : ∀ a b c : ℝ, a * (b + c) = b →
        (a • (1 : Matrix (Fin 1) (Fin 1) ℝ)) * (1 * (b • 1) * 1ᵀ + c • 1) = (b • 1) * 1ᵀ := by
      intro a b c h
      rw [Matrix.transpose_one, Matrix.mul_one, Matrix.one_mul, Matrix.mul_one, ← add_smul, Matrix.smul_mul,
        Matrix.one_mul, smul_smul, h]
    have hU := h0.update aemeasurable_const hV0
      (iV0.comp (φ := id) (ψ := fun x : Fin 1 → ℝ => (x, ())) measurable_id (by fun_prop)) 1
      ((1 / 2 : ℝ) • 1) (by simpa using k1 (1 / 2) 1 1 (by norm_num))
    have hU' := hU.change (Z := Y0) (fun p => p.2) (fun y => ((), y)) measurable_snd (by fun_prop)
      (fun ω => by simp) (fun ω => by simp)
    have hP := hU'.predict aeY0 hW1 iW1 (1 : Matrix (Fin 1) (Fin 1) ℝ)
    rw [show (fun ω => (1 : Matrix (Fin 1) (Fin 1) ℝ) *ᵥ X0 ω + (X1 ω - X0 ω)) = X1 by funext ω; simp] at hP
    have hpair : IndepFun (fun ω => (X2 ω - X1 ω, Y1 ω - X2 ω)) (fun ω => (X1 ω, Y0 ω)) P := by
      refine IndepFun.pair_of hW2.gaussian.aemeasurable hV1.gaussian.aemeasurable (aeX1.prodMk aeY0) iW2 ?_
      exact iV1.comp (φ := id) (ψ := fun p : (Fin 1 → ℝ) × (Fin 1 → ℝ) × (Fin 1 → ℝ) => (p.1 - p.2.1, (p.2.1, p.2.2)))
        measurable_id (by fun_prop)
    have hWV : IndepFun (fun ω => X2 ω - X1 ω) (fun ω => Y1 ω - X2 ω) P :=
      (iV1.comp (φ := id) (ψ := fun p : (Fin 1 → ℝ) × (Fin 1 → ℝ) × (Fin 1 → ℝ) => p.1 - p.2.1)
        measurable_id (by fun_prop)).symm
    have hN := hW2.comb hV1 hWV (1 : Matrix (Fin 1) (Fin 1) ℝ) (1 : Matrix (Fin 1) (Fin 1) ℝ) 0
    have hNi : IndepFun (fun ω => (1 : Matrix (Fin 1) (Fin 1) ℝ) *ᵥ (X2 ω - X1 ω)
        + (1 : Matrix (Fin 1) (Fin 1) ℝ) *ᵥ (Y1 ω - X2 ω) + 0) (fun ω => (X1 ω, Y0 ω)) P :=
      hpair.comp (ψ := id) (measurable_comb 1 1 0) measurable_id
    have hF := hP.update aeY0 hN hNi 1 ((3 / 7 : ℝ) • 1) (by
      have := k1 (3 / 7) (3 / 2) 2 (by norm_num)
      convert this using 1
      · congr 2
        · congr 2
          ext i j; fin_cases i; fin_cases j; simp [Matrix.mul_apply]; norm_num
        · ext i j; fin_cases i; fin_cases j; simp; norm_num
      · congr 1
        ext i j; fin_cases i; fin_cases j; simp [Matrix.mul_apply]; norm_num)
    rw [show (fun ω => (Y0 ω, (1 : Matrix (Fin 1) (Fin 1) ℝ) *ᵥ X1 ω + ((1 : Matrix (Fin 1) (Fin 1) ℝ) *ᵥ (X2 ω - X1 ω)
        + (1 : Matrix (Fin 1) (Fin 1) ℝ) *ᵥ (Y1 ω - X2 ω) + 0))) = fun ω => (Y0 ω, Y1 ω) by funext ω; simp] at hF
    have aeY1 : AEMeasurable Y1 P := by
      have := (aeX1.add hW2.gaussian.aemeasurable).add hV1.gaussian.aemeasurable
      refine this.congr (Filter.Eventually.of_forall fun ω => ?_); simp
    have := hC.cov_unique (aeY0.prodMk aeY1) hF
    rw [this]
    simp [Matrix.mul_apply]
    norm_num

/-- Such a process exists. -/
example : ∃ X0 X1 X2 Y0 Y1 : (Fin 5 → ℝ) → Fin 1 → ℝ,
    IsNormal (stdBase (Fin 5)) X0 0 1 ∧
    IsNormal (stdBase (Fin 5)) (fun ω => Y0 ω - X0 ω) 0 1 ∧ IndepFun (fun ω => Y0 ω - X0 ω) X0 (stdBase (Fin 5)) ∧
    IsNormal (stdBase (Fin 5)) (fun ω => X1 ω - X0 ω) 0 1 ∧
    IndepFun (fun ω => X1 ω - X0 ω) (fun ω => (X0 ω, Y0 ω)) (stdBase (Fin 5)) ∧
    IsNormal (stdBase (Fin 5)) (fun ω => X2 ω - X1 ω) 0 1 ∧
    IndepFun (fun ω => X2 ω - X1 ω) (fun ω => (X1 ω, Y0 ω)) (stdBase (Fin 5)) ∧
    IsNormal (stdBase (Fin 5)) (fun ω => Y1 ω - X2 ω) 0 1 ∧
    IndepFun (fun ω => Y1 ω - X2 ω) (fun ω => (X2 ω, X1 ω, Y0 ω)) (stdBase (Fin 5)) := by
  have hs : ∀ i : Fin 5, IsNormal (stdBase (Fin 5)) (fun x (_ : Fin 1) => x i) 0 1 := fun i =>
    base_select (fun _ => i) (fun a b _ => Subsingleton.elim a b)
  have hm : ∀ i : Fin 5, Measurable fun (x : Fin 5 → ℝ) (_ : Fin 1) => x i := fun i =>
    measurable_pi_iff.2 fun _ => measurable_pi_apply i
  refine ⟨fun x _ => x 0, fun x => (fun _ => x 0) + (fun _ => x 2), fun x => ((fun _ => x 0) + fun _ => x 2) + fun _ => x 3,
    fun x => (fun _ => x 0) + (fun _ => x 1), fun x => (((fun _ => x 0) + fun _ => x 2) + fun _ => x 3) + fun _ => x 4,
    hs 0, ?_, ?_, ?_, ?_, ?_, ?_, ?_, ?_⟩
  · simpa using hs 1
  · simp only [add_sub_cancel_left]
    refine base_indep (S := {1}) (T := {0}) (by decide) (hm _) (hm _) ?_ ?_ <;> intro x y h <;> funext i <;> simp_all
  · simpa using hs 2
  · simp only [add_sub_cancel_left]
    refine base_indep (S := {2}) (T := {0, 1}) (by decide) (hm _) ((hm _).prodMk ((hm _).add (hm _))) ?_ ?_ <;>
      intro x y h <;> simp_all
  · simpa using hs 3
  · simp only [add_sub_cancel_left]
    refine base_indep (S := {3}) (T := {0, 1, 2}) (by decide) (hm _)
      (((hm _).add (hm _)).prodMk ((hm _).add (hm _))) ?_ ?_ <;> intro x y h <;> simp_all
  · simpa using hs 4
  · simp only [add_sub_cancel_left]
    refine base_indep (S := {4}) (T := {0, 1, 2, 3}) (by decide) (hm _)
      ((((hm _).add (hm _)).add (hm _)).prodMk (((hm _).add (hm _)).prodMk ((hm _).add (hm _)))) ?_ ?_ <;>
      intro x y h <;> simp_all

end Probnum.Kalman
