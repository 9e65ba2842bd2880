import Mathlib.LinearAlgebra.Matrix.PosDef
import Verif.LinGauss.Props
import Verif.IWP.Props
import Verif.OdeFilter.Props
import Verif.OdeFilter.Step

/-!
# Lemmas about the step of the ODE filter
-/

namespace Probnum.OdeFilter

open Matrix LinGauss Diffusion

variable {d q : ℕ}

theorem bind_ok {α β : Type*} {x : Res α} {f : α → Res β} {b : β} (h : x.bind f = .ok b) :
    ∃ a, x = .ok a ∧ f a = .ok b := by
  cases x with
  | error e => cases h
  | ok a => exact ⟨a, rfl, h⟩

theorem map_ok {α β : Type*} {x : Res α} {f : α → β} {b : β} (h : x.map f = .ok b) : ∃ a, x = .ok a ∧ f a = b := by
  cases x with
  | error e => cases h
  | ok a => exact ⟨a, rfl, by simpa [Except.map] using h⟩

/-- The mean of the prediction. -/
def predMean (tr : Transition (d * (q + 1)) (d * (q + 1))) (rv : Normal (d * (q + 1))) : Fin (d * (q + 1)) → ℝ :=
  tr.mat *ᵥ rv.mean + tr.noise.mean

/-- Covariance of the measurement when the previous state is exact. -/
def freeCov (tr : Transition (d * (q + 1)) (d * (q + 1))) (lin : Transition (d * (q + 1)) d) : Matrix (Fin d) (Fin d) ℝ :=
  lin.mat * tr.noise.cov * lin.matᵀ

/-- Covariance of the measurement including the covariance of the previous state. -/
def fullCov (tr : Transition (d * (q + 1)) (d * (q + 1))) (lin : Transition (d * (q + 1)) d) (rv : Normal (d * (q + 1))) :
    Matrix (Fin d) (Fin d) ℝ :=
  lin.mat * (tr.mat * rv.cov * tr.matᵀ + tr.noise.cov) * lin.matᵀ

/-- The predicted residual. -/
def predRes (tr : Transition (d * (q + 1)) (d * (q + 1))) (lin : Transition (d * (q + 1)) d) (rv : Normal (d * (q + 1))) :
    Fin d → ℝ :=
  lin.mat *ᵥ predMean tr rv + lin.noise.mean

theorem linearized_ok {s : Strategy} {o : Ode d} {t : Option ℝ} {x0 : Fin (d * (q + 1)) → ℝ}
    {lin : Transition (d * (q + 1)) d} (h : linearized q s o t x0 = .ok lin) :
    ∃ g, measJac q s o t x0 = .ok lin.mat ∧ measFn q o t x0 = .ok g ∧ lin.noise = Normal.const (g - lin.mat *ᵥ x0) := by
  obtain ⟨H, h1, h⟩ := bind_ok h
  obtain ⟨g, h2, h⟩ := map_ok h
  subst h
  exact ⟨g, h1, h2, by simp⟩

theorem le_mul_succ (d q : ℕ) : d ≤ d * (q + 1) := Nat.le_mul_of_pos_right d (Nat.succ_pos q)

theorem choleskyUpdate_smul (Q : QR) {n k₁ k₂ : ℕ} (S₁ : Matrix (Fin n) (Fin k₁) ℝ) (S₂ : Matrix (Fin n) (Fin k₂) ℝ)
    (h : n ≤ k₁) {s : ℝ} (hs : 0 ≤ s) :
    ∃ L, choleskyUpdate Q (Real.sqrt s • S₁) S₂ = .ok L ∧ IsLowerFactor L (s • (S₁ * S₁ᵀ) + S₂ * S₂ᵀ) := by
  obtain ⟨L, h1, h2⟩ := choleskyUpdate_ok Q (Real.sqrt s • S₁) S₂ h
  refine ⟨L, h1, ?_⟩
  rwa [Matrix.transpose_smul, Matrix.smul_mul, Matrix.mul_smul, smul_smul, Real.mul_self_sqrt hs] at h2

/-- The factors computed by a step, before the decision. -/
theorem attempt_core (S : Solver d q) (D : Diff) (t : ℝ) (rv : Normal (d * (q + 1))) (dt : ℝ)
    (tr : Transition (d * (q + 1)) (d * (q + 1))) (lin : Transition (d * (q + 1)) d)
    (hrv : rv.Valid) (htr : IWP.discretise q d S.chol dt = some tr) (hno : tr.noise.Valid)
    (hlin : linearized q S.strategy S.ode (some (t + dt)) (predMean tr rv) = .ok lin) :
    ∃ pL mL full, IsLowerFactor pL tr.noise.cov ∧ IsLowerFactor mL (freeCov tr lin) ∧
      IsLowerFactor full (fullCov tr lin rv) ∧
      attempt S D t rv dt = (D.estimate full mL (predRes tr lin rv) (t + dt)).bind fun est =>
        let errors : Fin d → ℝ := fun i => Real.sqrt est * Real.sqrt (freeCov tr lin i i)
        let reference : Fin d → ℝ := fun i => |(proj d q S.reference *ᵥ rv.mean) i|
        if S.rule.accepted (S.rule.norm errors reference) then
          (finalPredChol S D.perStep est pL (tr.mat * rv.chol)).bind fun predL =>
          (finalMeasChol S D.perStep est mL full (lin.mat * (tr.mat * rv.chol))).bind fun measL =>
          (correct S lin.mat (predMean tr rv) predL measL).map fun filt =>
            ⟨t + dt, some filt, errors, reference, D.update est t⟩
        else .ok ⟨t + dt, none, errors, reference, D⟩ := by
  obtain ⟨g, hJ, hg, hn⟩ := linearized_ok hlin
  obtain ⟨pL, h1, h2⟩ := forwardSqrt_eq S.qr tr 1 (Normal.const rv.mean) zero_le_one (Normal.const_valid _) hno le_rfl
  have e2 : predCov tr 1 (Normal.const rv.mean) = tr.noise.cov := by
    rw [predCov_eq]; simp [Normal.const]
  rw [e2] at h2
  have hv : Normal.Valid (⟨predMean tr rv, tr.noise.cov, pL⟩ : Normal (d * (q + 1))) := h2.gram
  have hlv : lin.noise.Valid := by rw [hn]; exact Normal.const_valid _
  obtain ⟨mL, h3, h4⟩ := forwardSqrt_eq S.qr lin 1 ⟨predMean tr rv, tr.noise.cov, pL⟩ zero_le_one hv hlv
    (le_mul_succ d q)
  have e4 : predCov lin 1 ⟨predMean tr rv, tr.noise.cov, pL⟩ = freeCov tr lin := by
    rw [predCov_eq, hn]; simp [Normal.const, freeCov]
  obtain ⟨full, h5, h6⟩ := choleskyUpdate_ok S.qr mL (lin.mat * (tr.mat * rv.chol)) le_rfl
  have e6 : mL * mLᵀ + lin.mat * (tr.mat * rv.chol) * (lin.mat * (tr.mat * rv.chol))ᵀ = fullCov tr lin rv := by
    rw [h4.gram, e4, freeCov, fullCov, ← hrv]
    simp only [Matrix.transpose_mul, Matrix.mul_assoc, Matrix.mul_add, Matrix.add_mul]
    rw [add_comm]
  rw [e6] at h6
  have e4' := e4
  rw [e4] at h4
  refine ⟨pL, mL, full, h2, h4, h6, ?_⟩
  have m1 : (forwardClassic tr 1 (Normal.const rv.mean)).mean = predMean tr rv := rfl
  have c1 : (forwardClassic tr 1 (Normal.const rv.mean)).cov = tr.noise.cov := e2
  have m2 : (forwardClassic lin 1 ⟨predMean tr rv, tr.noise.cov, pL⟩).mean = predRes tr lin rv := rfl
  have c2 : (forwardClassic lin 1 ⟨predMean tr rv, tr.noise.cov, pL⟩).cov = freeCov tr lin := e4'
  unfold attempt
  rw [htr]
  simp only [h1, Except.bind, m1, c1, hlin, h3, m2, c2, h5]

/-- The quadratic form of the whitened residual. -/
theorem whitened {L C : Matrix (Fin d) (Fin d) ℝ} (h : L * Lᵀ = C) (z : Fin d → ℝ) :
    (L⁻¹ *ᵥ z) ⬝ᵥ (L⁻¹ *ᵥ z) = z ⬝ᵥ (C⁻¹ *ᵥ z) := by
  rw [← h, Matrix.mul_inv_rev, ← Matrix.transpose_nonsing_inv, ← Matrix.mulVec_mulVec, Matrix.dotProduct_mulVec z,
    Matrix.vecMul_transpose]

theorem quasiMle_ok {L C : Matrix (Fin d) (Fin d) ℝ} (h : L * Lᵀ = C) {z : Fin d → ℝ} {est : ℝ}
    (he : quasiMle L z = .ok est) : C.det ≠ 0 ∧ est = z ⬝ᵥ (C⁻¹ *ᵥ z) / (d : ℝ) := by
  unfold quasiMle at he
  split at he
  · cases he
  · rename_i hL
    refine ⟨?_, ?_⟩
    · rw [← h, Matrix.det_mul, Matrix.det_transpose]; exact mul_ne_zero hL hL
    · rw [← whitened h]; simpa using he.symm

theorem quasiMle_of_det {L C : Matrix (Fin d) (Fin d) ℝ} (h : L * Lᵀ = C) (z : Fin d → ℝ) (hC : C.det ≠ 0) :
    quasiMle L z = .ok (z ⬝ᵥ (C⁻¹ *ᵥ z) / (d : ℝ)) := by
  unfold quasiMle
  rw [if_neg (factor_det h hC), whitened h]

theorem quasiMle_nonneg {L : Matrix (Fin d) (Fin d) ℝ} {z : Fin d → ℝ} {est : ℝ} (he : quasiMle L z = .ok est) :
    0 ≤ est := by
  unfold quasiMle at he
  split at he
  · cases he
  · have : est = (L⁻¹ *ᵥ z) ⬝ᵥ (L⁻¹ *ᵥ z) / (d : ℝ) := by simpa using he.symm
    rw [this]
    refine div_nonneg ?_ (Nat.cast_nonneg d)
    exact Finset.sum_nonneg fun i _ => mul_self_nonneg _

/-- The covariance the local diffusion estimate is computed with. -/
def estCov (D : Diff) (tr : Transition (d * (q + 1)) (d * (q + 1))) (lin : Transition (d * (q + 1)) d)
    (rv : Normal (d * (q + 1))) : Matrix (Fin d) (Fin d) ℝ :=
  if D.perStep then freeCov tr lin else fullCov tr lin rv

theorem estimate_ok {D : Diff} {tr : Transition (d * (q + 1)) (d * (q + 1))} {lin : Transition (d * (q + 1)) d}
    {rv : Normal (d * (q + 1))} {full mL : Matrix (Fin d) (Fin d) ℝ} (h1 : mL * mLᵀ = freeCov tr lin)
    (h2 : full * fullᵀ = fullCov tr lin rv) {z : Fin d → ℝ} {t est : ℝ} (he : D.estimate full mL z t = .ok est) :
    (estCov D tr lin rv).det ≠ 0 ∧ est = z ⬝ᵥ ((estCov D tr lin rv)⁻¹ *ᵥ z) / (d : ℝ) ∧ 0 ≤ est := by
  cases D with
  | constant C =>
    have he' : quasiMle full z = .ok est := he
    obtain ⟨a, b⟩ := quasiMle_ok h2 he'
    exact ⟨by simpa [estCov, Diff.perStep] using a, by simpa [estCov, Diff.perStep] using b, quasiMle_nonneg he'⟩
  | piecewise P =>
    obtain ⟨_, _, he'⟩ := bind_ok he
    obtain ⟨a, b⟩ := quasiMle_ok h1 he'
    exact ⟨by simpa [estCov, Diff.perStep] using a, by simpa [estCov, Diff.perStep] using b, quasiMle_nonneg he'⟩

/-- The diffusion with which the prediction of a step is calibrated. -/
noncomputable def stepDiffusion (D : Diff) (est : ℝ) : ℝ := if D.perStep then est else 1

/-- The factors used in the update. -/
theorem final_factors (S : Solver d q) (perStep : Bool) {est : ℝ} (he : 0 ≤ est) {s : ℝ}
    (hs : s = if perStep then est else 1)
    {tr : Transition (d * (q + 1)) (d * (q + 1))} {lin : Transition (d * (q + 1)) d} {rv : Normal (d * (q + 1))}
    (hrv : rv.Valid) {pL : Matrix (Fin (d * (q + 1))) (Fin (d * (q + 1))) ℝ} {mL full : Matrix (Fin d) (Fin d) ℝ}
    (hp : IsLowerFactor pL tr.noise.cov) (hm : IsLowerFactor mL (freeCov tr lin))
    (hf : IsLowerFactor full (fullCov tr lin rv)) :
    ∃ predL measL, finalPredChol S perStep est pL (tr.mat * rv.chol) = .ok predL ∧
      finalMeasChol S perStep est mL full (lin.mat * (tr.mat * rv.chol)) = .ok measL ∧
      IsLowerFactor predL (tr.mat * rv.cov * tr.matᵀ + s • tr.noise.cov) ∧
      IsLowerFactor measL (lin.mat * (tr.mat * rv.cov * tr.matᵀ + s • tr.noise.cov) * lin.matᵀ) := by
  have ep : tr.mat * rv.chol * (tr.mat * rv.chol)ᵀ = tr.mat * rv.cov * tr.matᵀ := by
    rw [← hrv]; simp only [Matrix.transpose_mul, Matrix.mul_assoc]
  have em : lin.mat * (tr.mat * rv.chol) * (lin.mat * (tr.mat * rv.chol))ᵀ
      = lin.mat * (tr.mat * rv.cov * tr.matᵀ) * lin.matᵀ := by
    rw [← ep]; simp only [Matrix.transpose_mul, Matrix.mul_assoc]
  cases perStep with
  | false =>
    obtain ⟨predL, h1, h2⟩ := choleskyUpdate_ok S.qr pL (tr.mat * rv.chol) le_rfl
    rw [hp.gram, ep, add_comm tr.noise.cov] at h2
    have hs1 : s = 1 := hs
    subst hs1
    exact ⟨predL, full, h1, rfl, by rwa [one_smul], by rwa [one_smul]⟩
  | true =>
    have hs1 : s = est := hs
    subst hs1
    obtain ⟨predL, h1, h2⟩ := choleskyUpdate_smul S.qr pL (tr.mat * rv.chol) le_rfl he
    rw [hp.gram, ep, add_comm (s • tr.noise.cov)] at h2
    obtain ⟨measL, h3, h4⟩ := choleskyUpdate_smul S.qr mL (lin.mat * (tr.mat * rv.chol)) le_rfl he
    rw [hm.gram, em, freeCov, add_comm] at h4
    refine ⟨predL, measL, h1, h3, h2, ?_⟩
    simpa only [Matrix.mul_add, Matrix.add_mul, Matrix.mul_smul, Matrix.smul_mul] using h4

/-- The update, when the linearisation without time is the one with time. -/
theorem correct_ok (S : Solver d q) {lin : Transition (d * (q + 1)) d} {mean : Fin (d * (q + 1)) → ℝ} {b : Fin d → ℝ}
    {predL : Matrix (Fin (d * (q + 1))) (Fin (d * (q + 1))) ℝ} {measL : Matrix (Fin d) (Fin d) ℝ}
    (hn : lin.noise = Normal.const b) (hlin : linearized q S.strategy S.ode none mean = .ok lin)
    (hm : measL * measLᵀ = lin.mat * (predL * predLᵀ) * lin.matᵀ) :
    ((lin.mat * (predL * predLᵀ) * lin.matᵀ).det = 0 → correct S lin.mat mean predL measL = .error .linAlgError) ∧
    ((lin.mat * (predL * predLᵀ) * lin.matᵀ).det ≠ 0 →
      ∃ r u, correct S lin.mat mean predL measL = .ok r ∧
        backwardClassic lin 1 (Normal.const 0) ⟨mean, predL * predLᵀ, predL⟩ none = .ok u ∧
        r.mean = u.mean ∧ r.cov = u.cov ∧ r.Valid) := by
  have eS : predCov lin 1 ⟨mean, predL * predLᵀ, predL⟩ = lin.mat * (predL * predLᵀ) * lin.matᵀ := by
    rw [predCov_eq, hn]; simp [Normal.const]
  constructor
  · intro h
    have : measL.det = 0 := by
      have h' := congrArg Matrix.det hm
      rw [Matrix.det_mul, Matrix.det_transpose, h] at h'
      exact mul_self_eq_zero.1 h'
    simp only [correct, choSolveT, if_pos this, Except.bind]
  · intro h
    have hv : Normal.Valid (⟨mean, predL * predLᵀ, predL⟩ : Normal (d * (q + 1))) := rfl
    have hlv : lin.noise.Valid := by rw [hn]; exact Normal.const_valid _
    have hS : (forwardClassic lin 1 ⟨mean, predL * predLᵀ, predL⟩).cov.det ≠ 0 := by
      have : (forwardClassic lin 1 ⟨mean, predL * predLᵀ, predL⟩).cov = _ := eS
      rw [this]; exact h
    have eg : ((measL * measLᵀ)⁻¹ * (predL * predLᵀ * lin.matᵀ)ᵀ)ᵀ = optGain lin 1 ⟨mean, predL * predLᵀ, predL⟩ := by
      have hsymm : (measL * measLᵀ)ᵀ = measL * measLᵀ := by simp [Matrix.transpose_mul]
      rw [Matrix.transpose_mul, Matrix.transpose_nonsing_inv, hsymm, Matrix.transpose_transpose, optGain, eS, hm]
    have hg := gainClassic_eq lin 1 ⟨mean, predL * predLᵀ, predL⟩ hS
    obtain ⟨r, u, h1, h2, h3, h4, h5, -, -⟩ := backward_sqrt_agrees_partial S.qr lin 1 (Normal.const 0)
      ⟨mean, predL * predLᵀ, predL⟩ zero_le_one hv hlv (Normal.const_valid _) hS
      (some (optGain lin 1 ⟨mean, predL * predLᵀ, predL⟩)) hg
    refine ⟨r, u, ?_, h2, h3, h4, h5⟩
    have hL : ¬ measL.det = 0 := factor_det hm h
    simp only [correct, choSolveT, if_neg hL, Except.bind, eg, hlin, h1]

/-- `[E1 - J E0]` has full row rank. -/
theorem proj_full_rank (hq : 0 < q) (J : Matrix (Fin d) (Fin d) ℝ) (v : Fin d → ℝ)
    (h : (proj d q 1 - J * proj d q 0)ᵀ *ᵥ v = 0) : v = 0 := by
  funext i
  have hlt : i.1 * (q + 1) + 1 < d * (q + 1) := by
    have := Nat.mul_le_mul_right (q + 1) (Nat.succ_le_of_lt i.2)
    rw [Nat.succ_mul] at this
    omega
  have h' := congrFun h ⟨i.1 * (q + 1) + 1, hlt⟩
  simp only [Matrix.mulVec, dotProduct, Matrix.transpose_apply, Matrix.sub_apply, Pi.zero_apply, Matrix.mul_apply, proj,
    Matrix.of_apply] at h'
  have z : ∀ x : Fin d, ∀ y : Fin d, ¬ i.1 * (q + 1) + 1 = y.1 * (q + 1) + 0 := by
    intro _ y e
    have := congrArg (· % (q + 1)) e
    simp only [Nat.mul_add_mod_self_right, Nat.add_zero, Nat.mul_mod_left] at this
    rw [Nat.mod_eq_of_lt (by omega)] at this
    omega
  rw [Finset.sum_eq_single i] at h'
  · have hz : ∑ x : Fin d, J i x * (if i.1 * (q + 1) + 1 = x.1 * (q + 1) + 0 then (1 : ℝ) else 0) = 0 :=
      Finset.sum_eq_zero fun x _ => by rw [if_neg (z i x), mul_zero]
    rw [hz] at h'
    simpa using h'
  · intro b _ hb
    have hz : ∑ x : Fin d, J b x * (if i.1 * (q + 1) + 1 = x.1 * (q + 1) + 0 then (1 : ℝ) else 0) = 0 :=
      Finset.sum_eq_zero fun x _ => by rw [if_neg (z i x), mul_zero]
    have : ¬ i.1 * (q + 1) + 1 = b.1 * (q + 1) + 1 := by
      intro e
      have e' : i.1 * (q + 1) = b.1 * (q + 1) := by omega
      exact hb (Fin.ext (Nat.eq_of_mul_eq_mul_right (Nat.succ_pos q) e').symm)
    rw [hz, if_neg this]; simp
  · intro hi; exact absurd (Finset.mem_univ i) hi

end Probnum.OdeFilter
