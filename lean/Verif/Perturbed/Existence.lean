import Mathlib.Geometry.Manifold.IntegralCurve.UniformTime
import Mathlib.Geometry.Manifold.VectorBundle.Tangent
import Mathlib.Analysis.ODE.ExistUnique

/-!
# Global solutions of autonomous ODEs with a Lipschitz vector field
-/

namespace Probnum.Perturbed

open Set

/-- A continuously differentiable Lipschitz vector field has a solution for all times through every point. -/
theorem lipschitz_solution {d : ℕ} {g : (Fin d → ℝ) → Fin d → ℝ} (hg : ContDiff ℝ 1 g) {ℓ : ℝ} (hℓ : 0 ≤ ℓ)
    (hlip : ∀ u v, ‖g u - g v‖ ≤ ℓ * ‖u - v‖) (t0 : ℝ) (y0 : Fin d → ℝ) :
    ∃ x : ℝ → Fin d → ℝ, x t0 = y0 ∧ ∀ t, HasDerivAt x (g (x t)) t := by
  have hglob : ∃ γ : ℝ → Fin d → ℝ, γ 0 = y0 ∧
      IsMIntegralCurve (I := modelWithCornersSelf ℝ (Fin d → ℝ)) γ (fun x => (g x : TangentSpace (modelWithCornersSelf ℝ (Fin d → ℝ)) x)) := by
    refine exists_isMIntegralCurve_of_isMIntegralCurveOn (I := modelWithCornersSelf ℝ (Fin d → ℝ)) ?_ (ε := 1 / (ℓ + 1)) (by positivity) ?_ y0
    · exact contMDiff_vectorSpace_iff_contDiff.2 hg
    · intro x0
      set ε := 1 / (ℓ + 1) with hε
      have hε0 : 0 < ε := by positivity
      have hP : IsPicardLindelof (fun _ => g) (tmin := -ε) (tmax := ε) ⟨0, by constructor <;> linarith⟩ x0 ⟨‖g x0‖, norm_nonneg _⟩ 0
          ⟨‖g x0‖ + ℓ * ‖g x0‖, by positivity⟩ ⟨ℓ, hℓ⟩ := by
        refine IsPicardLindelof.of_time_independent (fun z hz => ?_) ?_ ?_
        · have hz' : ‖z - x0‖ ≤ ‖g x0‖ := mem_closedBall_iff_norm.1 hz
          have : g z = g x0 + (g z - g x0) := by abel
          rw [this]
          exact (norm_add_le _ _).trans (add_le_add le_rfl ((hlip _ _).trans (mul_le_mul_of_nonneg_left hz' hℓ)))
        · exact (LipschitzWith.of_dist_le_mul (K := ⟨ℓ, hℓ⟩) fun y z => by
            rw [dist_eq_norm, dist_eq_norm]; exact hlip y z).lipschitzOnWith
        · show (‖g x0‖ + ℓ * ‖g x0‖) * max (ε - 0) (0 - -ε) ≤ ‖g x0‖ - 0
          rw [sub_zero, zero_sub, neg_neg, max_self, sub_zero, hε]
          apply le_of_eq
          field_simp
          ring
      obtain ⟨α, h0, h1⟩ := hP.exists_eq_forall_mem_Icc_hasDerivWithinAt₀
      refine ⟨α, h0, fun t ht => ?_⟩
      have := ((h1 t (Ioo_subset_Icc_self ht)).hasDerivAt (Icc_mem_nhds ht.1 ht.2)).hasFDerivAt
      exact (hasMFDerivAt_iff_hasFDerivAt.2 this).hasMFDerivWithinAt
  obtain ⟨γ, h0, h1⟩ := hglob
  refine ⟨fun t => γ (t - t0), by simpa using h0, fun t => ?_⟩
  have hF : HasFDerivAt γ ((1 : ℝ →L[ℝ] ℝ).smulRight (g (γ (t - t0)))) (t - t0) := hasMFDerivAt_iff_hasFDerivAt.1 (h1 (t - t0))
  have hd := hF.hasDerivAt
  rw [ContinuousLinearMap.smulRight_apply, show (1 : ℝ →L[ℝ] ℝ) 1 = 1 from rfl, one_smul] at hd
  exact HasDerivAt.comp_sub_const t t0 hd

end Probnum.Perturbed
