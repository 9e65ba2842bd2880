import Verif.OdeFilter.PropsGlobal
import Verif.Perturbed.Existence

/-!
# C114: every smooth Lipschitz initial value problem
-/

namespace Probnum.OdeFilter

open Matrix LinGauss Filter Topology Finset Diffusion

variable {d : ℕ}

/-- **C114, every initial value problem.**  A twice continuously differentiable Lipschitz vector field has a solution through every
initial value, it is the only one, and the values of EK0 with one derivative and fixed steps converge to it with order two. -/
theorem ek0_every_problem_converges {g : (Fin d → ℝ) → Fin d → ℝ} (hg : ContDiff ℝ 2 g) {L : NNReal} (hlip : LipschitzWith L g)
    {ivp : Ivp d} (hivp : ∀ t x, ivp.f t x = g x) {T : ℝ} (hT : ivp.t0 < T) (hd : 0 < d) (mode : AutodiffMode) {S : Solver d 1}
    (hS : S.strategy = .ek0) (hfree : S.ode.TimeFree) (hf : FieldIs S g) (hacc : ∀ e, S.rule.accepted e = true)
    (C₀ : ConstantDiffusion ℝ) :
    ∃ y : ℝ → Fin d → ℝ, y ivp.t0 = ivp.y0 ∧ (∀ t, HasDerivAt y (g (y t)) t) ∧
      (∀ z : ℝ → Fin d → ℝ, z ivp.t0 = ivp.y0 → (∀ t, HasDerivAt z (g (z t)) t) → z = y) ∧
      ∃ C, ∀ᶠ N : ℕ in atTop, ∃ r, Run.many S (Run.start ivp.t0 (autodiffState mode ivp 1) (.constant C₀))
          (List.replicate N ((T - ivp.t0) / N)) = .ok r ∧ r.t = T ∧ r.times.length = N + 1 ∧
        ‖proj d 1 0 *ᵥ r.rv.mean - y T‖ ≤ C / (N : ℝ) ^ 2 := by
  have hl : ∀ u v, ‖g u - g v‖ ≤ (L : ℝ) * ‖u - v‖ := fun u v => by
    have := hlip.dist_le_mul u v
    rwa [dist_eq_norm, dist_eq_norm] at this
  obtain ⟨y, h0, hy⟩ := Perturbed.lipschitz_solution (hg.of_le (by norm_num)) L.2 hl ivp.t0 ivp.y0
  refine ⟨y, h0, hy, fun z hz0 hz => ?_, ek0_fixed_steps_converge hg hlip hivp h0 hy hT hd mode hS hfree hf hacc C₀⟩
  exact ODE_solution_unique_univ (v := fun _ => g) (s := fun _ => Set.univ) (K := L) (t₀ := ivp.t0) (fun _ => hlip.lipschitzOnWith)
    (fun t => ⟨hz t, trivial⟩) (fun t => ⟨hy t, trivial⟩) (hz0.trans h0.symm)

/-- The hypotheses are met by the harmonic oscillator. -/
example (ch : Kalman.CovCholesky 2) (qr : QR) (ref : ℕ) (mode : AutodiffMode) :
    ∃ y : ℝ → Fin 2 → ℝ, y 0 = ![0, 1] ∧ ∃ C, ∀ᶠ N : ℕ in atTop, ∃ r,
      Run.many (⟨.ek0, ⟨fun _ x => .ok ![x 1, -x 0], fun _ _ => .error .typeError⟩,
        ⟨fun _ _ => 0, fun _ => true⟩, ch, qr, ref⟩ : Solver 2 1) (Run.start 0 (autodiffState mode oscillator 1) (.constant .init))
        (List.replicate N ((1 - 0) / N)) = .ok r ∧ ‖proj 2 1 0 *ᵥ r.rv.mean - y 1‖ ≤ C / (N : ℝ) ^ 2 := by
  obtain ⟨y, h0, -, -, C, hC⟩ := ek0_every_problem_converges (ivp := oscillator) (T := 1) oscillator_smooth oscillator_lipschitz
    (fun _ _ => rfl) (by norm_num [oscillator]) (by norm_num) mode
    (S := (⟨.ek0, ⟨fun _ x => .ok ![x 1, -x 0], fun _ _ => .error .typeError⟩, ⟨fun _ _ => 0, fun _ => true⟩, ch, qr, ref⟩ : Solver 2 1))
    rfl (fun t x => ⟨rfl, rfl⟩) (fun t x => rfl) (fun _ => rfl) .init
  exact ⟨y, h0, C, hC.mono fun N ⟨r, h1, _, _, h4⟩ => ⟨r, h1, h4⟩⟩

end Probnum.OdeFilter
