import Verif.Kalman.Batch
import Verif.SDE.PropsMatern
import Verif.OdeFilter.Model

/-!
# Helper lemmas: positive definite transition noise of integrators; covariances of stationary Matérn chains
-/

namespace Probnum.SDE

open Matrix MeasureTheory ProbabilityTheory LinGauss Kalman Gauss

/-- Specification: the one-dimensional drift of an integrator of order `q`.  All rows but the last say that a coordinate is the
derivative of the one before. -/
def Companion (q : ℕ) (G : Matrix (Fin (q + 1)) (Fin (q + 1)) ℝ) : Prop :=
  ∀ i j : Fin (q + 1), i.1 < q → G i j = if i.1 + 1 = j.1 then 1 else 0

theorem companion_matern (q : ℕ) (ℓ : ℝ) : Companion q (driftMatern q ℓ) := fun i j h => by
  have : ¬i.1 = q := by omega
  simp [driftMatern, this]

theorem companion_ioup (q : ℕ) (v : ℝ) : Companion q (driftIoup q v) := fun i j h => by
  have : ¬i.1 = q := by omega
  simp [driftIoup, this]

theorem mfdQ_symm {q : ℕ} (G : Matrix (Fin (q + 1)) (Fin (q + 1)) ℝ) (h : ℝ) :
    (mfdQ G (dispersion1d q) h)ᵀ = mfdQ G (dispersion1d q) h := by
  ext i j
  rw [Matrix.transpose_apply, mfdQ_entry, mfdQ_entry]
  simp only [mul_comm]

/-- The noise of an integrator reaches all coordinates. -/
theorem drift_noise_posDef {q : ℕ} {G : Matrix (Fin (q + 1)) (Fin (q + 1)) ℝ} (hG : Companion q G) {h : ℝ} (hh : 0 < h) :
    (mfdQ G (dispersion1d q) h).PosDef := by
  refine Matrix.PosDef.of_dotProduct_mulVec_pos ?_ fun x hx => ?_
  · rw [Matrix.IsHermitian, Matrix.conjTranspose_eq_transpose_of_trivial, mfdQ_symm]
  have hd : ∀ i j u, HasDerivAt (fun u : ℝ => NormedSpace.exp (u • G) i j) ((NormedSpace.exp (u • G) * G) i j) u := fun i j u => by
    have := mderiv_exp G u i j
    rw [exp_comm]; exact this
  have hc : ∀ i j, Continuous fun u : ℝ => NormedSpace.exp (u • G) i j := fun i j =>
    continuous_iff_continuousAt.2 fun u => (hd i j u).continuousAt
  let w : Fin (q + 1) → ℝ → ℝ := fun j u => ∑ i, x i * NormedSpace.exp (u • G) i j
  have hw : ∀ j u, HasDerivAt (w j) (∑ k, w k u * G k j) u := fun j u => by
    have := HasDerivAt.fun_sum (u := Finset.univ) fun i _ => (hd i j u).const_mul (x i)
    refine this.congr_deriv ?_
    simp only [w, Matrix.mul_apply, Finset.mul_sum, Finset.sum_mul]
    rw [Finset.sum_comm]
    exact Finset.sum_congr rfl fun _ _ => Finset.sum_congr rfl fun _ _ => by ring
  have hwc : ∀ j, Continuous (w j) := fun j => continuous_iff_continuousAt.2 fun u => (hw j u).continuousAt
  have hint : star x ⬝ᵥ (mfdQ G (dispersion1d q) h *ᵥ x) = ∫ u in (0 : ℝ)..h, w (Fin.last q) u * w (Fin.last q) u := by
    have e1 : ∀ u, w (Fin.last q) u * w (Fin.last q) u = ∑ i, ∑ j, x i * x j
        * (NormedSpace.exp (u • G) i (Fin.last q) * NormedSpace.exp (u • G) j (Fin.last q)) := fun u => by
      simp only [w, Finset.sum_mul, Finset.mul_sum]
      exact Finset.sum_congr rfl fun _ _ => Finset.sum_congr rfl fun _ _ => by ring
    simp only [e1]
    rw [intervalIntegral.integral_finsetSum fun i _ => (Continuous.intervalIntegrable (by
      exact continuous_finsetSum _ fun j _ => continuous_const.mul ((hc _ _).mul (hc _ _))) _ _)]
    simp only [dotProduct, Matrix.mulVec, Pi.star_apply, star_trivial, Finset.mul_sum]
    refine Finset.sum_congr rfl fun i _ => ?_
    rw [intervalIntegral.integral_finsetSum fun j _ => (Continuous.intervalIntegrable (by
      exact continuous_const.mul ((hc _ _).mul (hc _ _))) _ _)]
    refine Finset.sum_congr rfl fun j _ => ?_
    rw [intervalIntegral.integral_const_mul, mfdQ_entry]
    ring
  rw [hint]
  by_cases hz : ∃ c ∈ Set.Icc 0 h, w (Fin.last q) c ≠ 0
  · obtain ⟨c, hc1, hc2⟩ := hz
    exact intervalIntegral.integral_pos hh ((hwc _).mul (hwc _)).continuousOn (fun s _ => mul_self_nonneg _)
      ⟨c, hc1, mul_self_pos.2 hc2⟩
  · exfalso
    push Not at hz
    have key : ∀ s, ∀ hs : s ≤ q, ∀ u ∈ Set.Ioo 0 h, w ⟨q - s, by omega⟩ u = 0 := by
      intro s
      induction s with
      | zero =>
        intro _ u hu
        exact hz u ⟨hu.1.le, hu.2.le⟩
      | succ s ih =>
        intro hs u hu
        have h0 : HasDerivAt (w ⟨q - s, by omega⟩) 0 u := by
          refine (hasDerivAt_const u (0 : ℝ)).congr_of_eventuallyEq ?_
          filter_upwards [Ioo_mem_nhds hu.1 hu.2] with v hv
          exact ih (by omega) v hv
        have h1 := (hw ⟨q - s, by omega⟩ u).unique h0
        rw [Finset.sum_eq_single ⟨q - (s + 1), by omega⟩] at h1
        · rw [hG _ _ (by simp; omega), if_pos (by simp; omega), mul_one] at h1
          exact h1
        · intro k _ hk
          by_cases hkq : k.1 = q
          · have : k = ⟨q, by omega⟩ := Fin.ext hkq
            have hz' := hz u ⟨hu.1.le, hu.2.le⟩
            have hl : (Fin.last q) = ⟨q, by omega⟩ := rfl
            rw [hl] at hz'
            rw [this, hz', zero_mul]
          · have hk2 : ¬k.1 + 1 = q - s := fun h' => hk (Fin.ext (by simp; omega))
            rw [hG _ _ (by omega), if_neg hk2, mul_zero]
        · simp
    have hall : ∀ j : Fin (q + 1), w j (h / 2) = 0 := fun j => by
      have := key (q - j.1) (by omega) (h / 2) ⟨by linarith, by linarith⟩
      rw [← this]
      congr 1
      exact Fin.ext (by simp; omega)
    have hv : Matrix.vecMul x (NormedSpace.exp ((h / 2) • G)) = 0 := funext fun j => hall j
    have := congrArg (fun v => Matrix.vecMul v (NormedSpace.exp ((h / 2) • (-G)))) hv
    simp only [Matrix.vecMul_vecMul, exp_mul_neg, Matrix.vecMul_one, Matrix.zero_vecMul] at this
    exact hx this

theorem integrator_disc (q d : ℕ) (G : Matrix (Fin (q + 1)) (Fin (q + 1)) ℝ) (ch : CovCholesky (d * (q + 1))) (h : ℝ) :
    ((integrator q d G).discretise ch h).noise.cov = IWP.kronEye d (mfdQ G (dispersion1d q) h) :=
  (discretise_eq ch (integrator q d G) h).2.1.trans (mfd_kron q d _ h).2

theorem statCov_posDef (q : ℕ) {ℓ : ℝ} (hℓ : 0 < ℓ) : (statCov q ℓ).PosDef := by
  rw [← statCov_stationary q hℓ 1]
  refine Matrix.PosDef.posSemidef_add ?_ (drift_noise_posDef (companion_matern q ℓ) zero_lt_one)
  have hp : (statCov q ℓ).PosSemidef := by
    refine Matrix.PosSemidef.of_dotProduct_mulVec_nonneg ?_ fun x => ?_
    · rw [Matrix.IsHermitian, Matrix.conjTranspose_eq_transpose_of_trivial, statCov_symm]
    · have ht : Filter.Tendsto (fun h => star x ⬝ᵥ (mfdQ (driftMatern q ℓ) (dispersion1d q) h *ᵥ x)) Filter.atTop
          (nhds (star x ⬝ᵥ (statCov q ℓ *ᵥ x))) := by
        simp only [dotProduct, Matrix.mulVec]
        exact tendsto_finsetSum _ fun r _ => (tendsto_finsetSum _ fun c _ => (mfdQ_tendsto q hℓ r c).mul_const _).const_mul _
      refine ge_of_tendsto ht ?_
      filter_upwards [Filter.eventually_gt_atTop 0] with h hh
      exact (drift_noise_posDef (companion_matern q ℓ) hh).posSemidef.dotProduct_mulVec_nonneg x
  exact psd_conj _ hp

/-! ## Projections -/

theorem proj_entry (d q : ℕ) (c : Fin d) (r : Fin (d * (q + 1))) :
    OdeFilter.proj d q 0 c r = if r = finProdFinEquiv (c, 0) then 1 else 0 := by
  have : (r.1 = c.1 * (q + 1) + 0) ↔ r = finProdFinEquiv (c, 0) := by
    rw [Fin.ext_iff, finProdFinEquiv_apply_val]
    simp [mul_comm]
  simp only [OdeFilter.proj, Matrix.of_apply, this]

theorem proj_mul (d q : ℕ) {κ : Type*} (M : Matrix (Fin (d * (q + 1))) κ ℝ) (c : Fin d) (j : κ) :
    (OdeFilter.proj d q 0 * M) c j = M (finProdFinEquiv (c, 0)) j := by
  rw [Matrix.mul_apply, Finset.sum_eq_single (finProdFinEquiv (c, 0))]
  · rw [proj_entry, if_pos rfl, one_mul]
  · intro b _ hb; rw [proj_entry, if_neg hb, zero_mul]
  · simp

theorem mul_proj (d q : ℕ) {κ : Type*} (M : Matrix κ (Fin (d * (q + 1))) ℝ) (c : Fin d) (j : κ) :
    (M * (OdeFilter.proj d q 0)ᵀ) j c = M j (finProdFinEquiv (c, 0)) := by
  rw [Matrix.mul_apply, Finset.sum_eq_single (finProdFinEquiv (c, 0))]
  · rw [Matrix.transpose_apply, proj_entry, if_pos rfl, mul_one]
  · intro b _ hb; rw [Matrix.transpose_apply, proj_entry, if_neg hb, mul_zero]
  · simp

end Probnum.SDE
