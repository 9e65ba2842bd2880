import Mathlib.Analysis.SpecialFunctions.Trigonometric.ArctanDeriv
import Mathlib.Analysis.SpecialFunctions.Trigonometric.Bounds
import Mathlib.Analysis.SpecialFunctions.Trigonometric.Deriv
import Verif.Perturbed.Existence
import Verif.Perturbed.OrderLemmas

/-!
# C115: `RK23` on smooth nonlinear ODEs
-/

namespace Probnum.Perturbed

open Finset MeasureTheory ProbabilityTheory
open OdeFilter (InitialValue StopsFine)

variable {d : ℕ}

/-- **C115 for `RK23` without a hypothesis on the order.**  For every autonomous ODE with a Lipschitz vector field that is three
times continuously differentiable, `perturbsolve_ivp` with `RK23`, constant steps and the uniform perturbation converges with order
5/2 to the solution `x`, for every realisation of the random numbers. -/
theorem perturbsolve_rk23_converges (c : Method → ℕ → ℝ) {g : (Fin d → ℝ) → Fin d → ℝ} (hg : ContDiff ℝ 3 g) {ℓ : ℝ} (hℓ : 0 ≤ ℓ)
    (hlip : ∀ u v, ‖g u - g v‖ ≤ ℓ * ‖u - v‖) {x : ℝ → Fin d → ℝ} (hx : ∀ t, HasDerivAt x (g (x t)) t) (t0 T σ : ℝ) (hσ : 0 ≤ σ) :
    ∃ Q H₁, 0 < H₁ ∧ ∀ (a : Args d) (h : ℝ) (draws : ℕ → ℝ), a.f = (fun _ => g) → a.t0 = t0 → a.tmax = T → a.y0 = .vector (x t0) →
      a.method = "RK23" → a.perturb = "step-uniform" → a.noiseScale = σ → a.adaptive = false → a.step = some h →
      0 < h → h ≤ H₁ → t0 + h ≤ T → StopsFine t0 a.timeStops → (∀ i, 0 ≤ draws i ∧ draws i ≤ 1) →
      ∃ n sol, (∀ k, n ≤ k → perturbsolveIvp (scipyFormulas c) a draws k = some (.ok sol)) ∧
        sol.locs.head? = some t0 ∧ sol.locs.getLast? = some T ∧ sol.states.length = sol.locs.length ∧
        ∀ (i : ℕ) t y, sol.locs[i]? = some t → sol.states[i]? = some y → ‖y - x t‖ ≤ Q * h ^ (5 / 2 : ℝ) := by
  obtain ⟨C, hC, ho⟩ := rk23_localOrder hg hℓ hlip hx t0 T
  have hxc : ContinuousOn x (Set.Icc t0 T) := fun t _ => (hx t).continuousAt.continuousWithinAt
  obtain ⟨Q, H₁, p, r⟩ := perturbsolve_uniform_converges (scipy := scipyFormulas c) (m := .rk23) a23 b23 3 hℓ hlip
    (fun t y h => scipyFormula_autonomous a23 b23 (c .rk23) 3 _ t y h) hxc one_pos hC ho hσ
  refine ⟨Q, H₁, p, ?_⟩
  intro a h draws hf ht0 hT hy hm hpu hns had hs hpos hle hfit hstops hdraws
  have := r a h draws hf ht0 hT hy (by rw [hm]; rfl) hpu hns had hs hpos hle hfit hstops hdraws
  rwa [show ((Method.order .rk23 : ℕ) : ℝ) - 1 / 2 = 5 / 2 by norm_num [Method.order]] at this

/-- **C115 for `RK23` with lognormal perturbations.**  For the same ODEs: if the random numbers are standard normal, the error is
larger than a constant times `(1 + B) step^3` with probability at most `2 N exp(-B^2 / 2)`, where `N` bounds the number of steps. -/
theorem perturbsolve_rk23_lognormal (c : Method → ℕ → ℝ) {g : (Fin d → ℝ) → Fin d → ℝ} (hg : ContDiff ℝ 3 g) {ℓ : ℝ} (hℓ : 0 ≤ ℓ)
    (hlip : ∀ u v, ‖g u - g v‖ ≤ ℓ * ‖u - v‖) {x : ℝ → Fin d → ℝ} (hx : ∀ t, HasDerivAt x (g (x t)) t) (t0 T σ : ℝ) (hσ : 0 ≤ σ) :
    ∃ Q H₁ ε, 0 < H₁ ∧ 0 < ε ∧ ∀ (a : Args d) (h B : ℝ) {Ω : Type} [MeasurableSpace Ω] (P : Measure Ω)
      [IsProbabilityMeasure P] (ζ : ℕ → Ω → ℝ), (∀ i, Measurable (ζ i)) → (∀ i, P.map (ζ i) = gaussianReal 0 1) →
      a.f = (fun _ => g) → a.t0 = t0 → a.tmax = T → a.y0 = .vector (x t0) → a.method = "RK23" → a.perturb = "step-lognormal" →
      a.noiseScale = σ → a.adaptive = false → a.step = some h → 0 < h → h ≤ H₁ → t0 + h ≤ T → StopsFine t0 a.timeStops →
      0 ≤ B → (1 + B) * h ^ 3 ≤ ε →
      P.real {ω | ¬ ∃ n sol, (∀ k, n ≤ k → perturbsolveIvp (scipyFormulas c) a (fun i => ζ i ω) k = some (.ok sol)) ∧
          ∀ (i : ℕ) t y, sol.locs[i]? = some t → sol.states[i]? = some y → ‖y - x t‖ ≤ Q * ((1 + B) * h ^ 3)}
        ≤ 2 * ((T - t0) / h + (a.timeStops.getD []).length + 1) * Real.exp (-B ^ 2 / 2) := by
  obtain ⟨C, hC, ho⟩ := rk23_localOrder hg hℓ hlip hx t0 T
  have hxc : ContinuousOn x (Set.Icc t0 T) := fun t _ => (hx t).continuousAt.continuousWithinAt
  obtain ⟨Q, H₁, ε, p1, p2, r⟩ := perturbsolve_lognormal_probability (scipy := scipyFormulas c) (m := .rk23) a23 b23 3 hℓ hlip
    (fun t y h => scipyFormula_autonomous a23 b23 (c .rk23) 3 _ t y h) hxc one_pos hC ho hσ
  refine ⟨Q, H₁, ε, p1, p2, ?_⟩
  intro a h B Ω _ P _ ζ hmeas hlaw hf ht0 hT hy hm hpu hns had hs hpos hle hfit hstops hB hε
  exact r a h B P ζ hmeas hlaw hf ht0 hT hy (by rw [hm]; rfl) hpu hns had hs hpos hle hfit hstops hB hε

/-- **C115 for `RK23` without noise.**  With noise scale zero the uniform perturbation does not change the steps, and the solver
converges with the order 3 of the formula. -/
theorem perturbsolve_rk23_no_noise (c : Method → ℕ → ℝ) {g : (Fin d → ℝ) → Fin d → ℝ} (hg : ContDiff ℝ 3 g) {ℓ : ℝ} (hℓ : 0 ≤ ℓ)
    (hlip : ∀ u v, ‖g u - g v‖ ≤ ℓ * ‖u - v‖) {x : ℝ → Fin d → ℝ} (hx : ∀ t, HasDerivAt x (g (x t)) t) (t0 T : ℝ) :
    ∃ Q H₁, 0 < H₁ ∧ ∀ (a : Args d) (h : ℝ) (draws : ℕ → ℝ), a.f = (fun _ => g) → a.t0 = t0 → a.tmax = T → a.y0 = .vector (x t0) →
      a.method = "RK23" → a.perturb = "step-uniform" → a.noiseScale = 0 → a.adaptive = false → a.step = some h →
      0 < h → h ≤ H₁ → t0 + h ≤ T → StopsFine t0 a.timeStops →
      ∃ n sol, (∀ k, n ≤ k → perturbsolveIvp (scipyFormulas c) a draws k = some (.ok sol)) ∧
        sol.locs.head? = some t0 ∧ sol.locs.getLast? = some T ∧ sol.states.length = sol.locs.length ∧
        ∀ (i : ℕ) t y, sol.locs[i]? = some t → sol.states[i]? = some y → ‖y - x t‖ ≤ Q * h ^ 3 := by
  obtain ⟨C, hC, ho⟩ := rk23_localOrder hg hℓ hlip hx t0 T
  have hxc : ContinuousOn x (Set.Icc t0 T) := fun t _ => (hx t).continuousAt.continuousWithinAt
  obtain ⟨L, hL, r⟩ := perturbsolve_close_error (scipy := scipyFormulas c) (m := .rk23) a23 b23 3 hℓ hlip
    (fun t y h => scipyFormula_autonomous a23 b23 (c .rk23) 3 _ t y h) hxc hC ho
  refine ⟨Real.exp (2 * L * (T - t0)) * ((T - t0) * C), 1 / 2, by norm_num, ?_⟩
  intro a h draws hf ht0 hT hy hm hpu hns had hs hpos hle hfit hstops
  obtain ⟨n, sol, s1, s2, s3, s4, s5⟩ := r a h draws .uniform hf ht0 hT hy (by rw [hm]; rfl) (by rw [hpu]; rfl)
    (Or.inr ⟨hpu, by linarith⟩) had hs hpos (by linarith) hfit hstops
  refine ⟨n, sol, s1, s2, s3, s4, fun i t y e1 e2 => (s5 0 le_rfl zero_le_one ?_ i t y e1 e2).trans (le_of_eq ?_)⟩
  · intro i dt s _ _ hd hp
    change perturbUniform 3 a.noiseScale dt (draws i) = .ok s at hp
    rw [hns, perturbUniform, if_neg (by linarith)] at hp
    have := Except.ok.inj hp
    rw [← this]
    simp
  · show _ * (_ * (C * h ^ 3 + L * 0)) = _
    ring

/-- **C115 for `RK23`, every initial value problem.**  A Lipschitz vector field that is three times continuously differentiable has a
solution through every initial value, and the solver converges to it with order 5/2. -/
theorem perturbsolve_rk23_every_problem (c : Method → ℕ → ℝ) {g : (Fin d → ℝ) → Fin d → ℝ} (hg : ContDiff ℝ 3 g) {ℓ : ℝ} (hℓ : 0 ≤ ℓ)
    (hlip : ∀ u v, ‖g u - g v‖ ≤ ℓ * ‖u - v‖) (y0 : Fin d → ℝ) (t0 T σ : ℝ) (hσ : 0 ≤ σ) :
    ∃ x : ℝ → Fin d → ℝ, x t0 = y0 ∧ (∀ t, HasDerivAt x (g (x t)) t) ∧
      ∃ Q H₁, 0 < H₁ ∧ ∀ (a : Args d) (h : ℝ) (draws : ℕ → ℝ), a.f = (fun _ => g) → a.t0 = t0 → a.tmax = T → a.y0 = .vector y0 →
        a.method = "RK23" → a.perturb = "step-uniform" → a.noiseScale = σ → a.adaptive = false → a.step = some h →
        0 < h → h ≤ H₁ → t0 + h ≤ T → StopsFine t0 a.timeStops → (∀ i, 0 ≤ draws i ∧ draws i ≤ 1) →
        ∃ n sol, (∀ k, n ≤ k → perturbsolveIvp (scipyFormulas c) a draws k = some (.ok sol)) ∧
          sol.locs.head? = some t0 ∧ sol.locs.getLast? = some T ∧ sol.states.length = sol.locs.length ∧
          ∀ (i : ℕ) t y, sol.locs[i]? = some t → sol.states[i]? = some y → ‖y - x t‖ ≤ Q * h ^ (5 / 2 : ℝ) := by
  obtain ⟨x, rfl, hx⟩ := lipschitz_solution (hg.of_le (by norm_num)) hℓ hlip t0 y0
  exact ⟨x, rfl, hx, perturbsolve_rk23_converges c hg hℓ hlip hx t0 T σ hσ⟩

/-- The vector field of the example. -/
noncomputable def sinField (y : Fin 1 → ℝ) : Fin 1 → ℝ := fun i => Real.sin (y i)

theorem sinField_smooth : ContDiff ℝ 3 sinField :=
  contDiff_pi.2 fun i => Real.contDiff_sin.comp (contDiff_apply ℝ ℝ i)

theorem sinField_lipschitz (u v : Fin 1 → ℝ) : ‖sinField u - sinField v‖ ≤ 1 * ‖u - v‖ := by
  rw [one_mul, pi_norm_le_iff_of_nonneg (norm_nonneg _)]
  intro i
  rw [Pi.sub_apply, Real.norm_eq_abs]
  refine (Real.abs_sin_sub_sin_le _ _).trans ?_
  have := norm_le_pi_norm (u - v) i
  rwa [Pi.sub_apply, Real.norm_eq_abs] at this

theorem sinField_solution (t : ℝ) :
    HasDerivAt (fun t (_ : Fin 1) => 2 * Real.arctan (Real.exp t)) (sinField fun _ => 2 * Real.arctan (Real.exp t)) t := by
  refine hasDerivAt_pi.2 fun i => ?_
  have h := ((Real.hasDerivAt_exp t).arctan).const_mul 2
  have hp : (0 : ℝ) < 1 + Real.exp t ^ 2 := by positivity
  refine h.congr_deriv ?_
  show _ = Real.sin (2 * Real.arctan (Real.exp t))
  rw [Real.sin_two_mul, Real.sin_arctan, Real.cos_arctan]
  have hs : √(1 + Real.exp t ^ 2) * √(1 + Real.exp t ^ 2) = 1 + Real.exp t ^ 2 := Real.mul_self_sqrt hp.le
  have hs0 : √(1 + Real.exp t ^ 2) ≠ 0 := (Real.sqrt_pos.2 hp).ne'
  field_simp
  rw [pow_two (√(1 + Real.exp t ^ 2)), hs]

/-- The hypotheses are met: the nonlinear ODE `y' = sin y` from `π / 2` on `[0, 1]`, whose solution is `2 arctan(exp t)`. -/
example : ∃ Q H₁, 0 < H₁ ∧ ∀ h : ℝ, 0 < h → h ≤ H₁ → h ≤ 1 →
    ∃ n sol, (∀ k, n ≤ k → perturbsolveIvp (scipyFormulas fun _ _ => 0)
        { Args.defaults (fun _ => sinField) 0 1 (.vector (fun _ : Fin 1 => 2 * Real.arctan (Real.exp 0))) with
          method := "RK23", perturb := "step-uniform", adaptive := false, step := some h }
        (fun i => if i % 2 = 0 then 0 else 1) k = some (.ok sol)) ∧
      ∀ (i : ℕ) t y, sol.locs[i]? = some t → sol.states[i]? = some y →
        ‖y - fun _ => 2 * Real.arctan (Real.exp t)‖ ≤ Q * h ^ (5 / 2 : ℝ) := by
  obtain ⟨Q, H₁, hp, hr⟩ := perturbsolve_rk23_converges (fun _ _ => 0) sinField_smooth zero_le_one sinField_lipschitz sinField_solution
    0 1 10 (by norm_num)
  refine ⟨Q, H₁, hp, fun h h0 h1 h2 => ?_⟩
  obtain ⟨n, sol, s1, -, -, -, s5⟩ := hr
    { Args.defaults (fun _ => sinField) 0 1 (.vector (fun _ : Fin 1 => 2 * Real.arctan (Real.exp 0))) with
      method := "RK23", perturb := "step-uniform", adaptive := false, step := some h } h (fun i => if i % 2 = 0 then 0 else 1)
    rfl rfl rfl rfl rfl rfl rfl rfl rfl h0 h1 (by linarith) (by simp [StopsFine, Args.defaults])
    (fun i => by show 0 ≤ (if i % 2 = 0 then (0 : ℝ) else 1) ∧ (if i % 2 = 0 then (0 : ℝ) else 1) ≤ 1; split <;> norm_num)
  exact ⟨n, sol, s1, s5⟩

/-- The hypotheses of the theorem for every problem are met: `y' = sin y` from 3. -/
example : ∃ x : ℝ → Fin 1 → ℝ, x 0 = (fun _ => 3) ∧ (∀ t, HasDerivAt x (sinField (x t)) t) ∧ ∃ Q H₁, 0 < H₁ ∧ ∀ h : ℝ, 0 < h → h ≤ H₁ →
    h ≤ 1 → ∃ n sol, (∀ k, n ≤ k → perturbsolveIvp (scipyFormulas fun _ _ => 0)
        { Args.defaults (fun _ => sinField) 0 1 (.vector (fun _ : Fin 1 => 3)) with
          method := "RK23", perturb := "step-uniform", adaptive := false, step := some h } (fun _ => 1) k = some (.ok sol)) ∧
      ∀ (i : ℕ) t y, sol.locs[i]? = some t → sol.states[i]? = some y → ‖y - x t‖ ≤ Q * h ^ (5 / 2 : ℝ) := by
  obtain ⟨x, h0, hx, Q, H₁, hp, hr⟩ := perturbsolve_rk23_every_problem (fun _ _ => 0) sinField_smooth zero_le_one sinField_lipschitz
    (fun _ => 3) 0 1 10 (by norm_num)
  refine ⟨x, h0, hx, Q, H₁, hp, fun h h0 h1 h2 => ?_⟩
  obtain ⟨n, sol, s1, -, -, -, s5⟩ := hr
    { Args.defaults (fun _ => sinField) 0 1 (.vector (fun _ : Fin 1 => 3)) with
      method := "RK23", perturb := "step-uniform", adaptive := false, step := some h } h (fun _ => 1)
    rfl rfl rfl rfl rfl rfl rfl rfl rfl h0 h1 (by linarith) (by simp [StopsFine, Args.defaults]) (fun _ => by norm_num)
  exact ⟨n, sol, s1, s5⟩

/-- The hypotheses of the lognormal theorem are met by the same ODE and any standard normal random numbers. -/
example {Ω : Type} [MeasurableSpace Ω] (P : Measure Ω) [IsProbabilityMeasure P] (ζ : ℕ → Ω → ℝ) (hm : ∀ i, Measurable (ζ i))
    (hl : ∀ i, P.map (ζ i) = gaussianReal 0 1) : ∃ Q H₁ ε : ℝ, 0 < H₁ ∧ 0 < ε ∧ ∀ h : ℝ, 0 < h → h ≤ H₁ → h ≤ 1 → (1 + 3) * h ^ 3 ≤ ε →
      P.real {ω | ¬ ∃ n sol, (∀ k, n ≤ k → perturbsolveIvp (scipyFormulas fun _ _ => 0)
          { Args.defaults (fun _ => sinField) 0 1 (.vector (fun _ : Fin 1 => 2 * Real.arctan (Real.exp 0))) with
            method := "RK23", perturb := "step-lognormal", adaptive := false, step := some h }
          (fun i => ζ i ω) k = some (.ok sol)) ∧
          ∀ (i : ℕ) t y, sol.locs[i]? = some t → sol.states[i]? = some y →
            ‖y - fun _ => 2 * Real.arctan (Real.exp t)‖ ≤ Q * ((1 + 3) * h ^ 3)}
        ≤ 2 * ((1 - 0) / h + (0 : ℕ) + 1) * Real.exp (-3 ^ 2 / 2) := by
  obtain ⟨Q, H₁, ε, p1, p2, hr⟩ := perturbsolve_rk23_lognormal (fun _ _ => 0) sinField_smooth zero_le_one sinField_lipschitz
    sinField_solution 0 1 10 (by norm_num)
  refine ⟨Q, H₁, ε, p1, p2, fun h h0 h1 h2 h3 => ?_⟩
  exact hr { Args.defaults (fun _ => sinField) 0 1 (.vector (fun _ : Fin 1 => 2 * Real.arctan (Real.exp 0))) with
      method := "RK23", perturb := "step-lognormal", adaptive := false, step := some h } h 3 P ζ hm hl
    rfl rfl rfl rfl rfl rfl rfl rfl rfl h0 h1 (by linarith) (by simp [StopsFine, Args.defaults]) (by norm_num) h3

/-- The hypotheses of the theorem without noise are met by the same ODE. -/
example : ∃ Q H₁, 0 < H₁ ∧ ∀ h : ℝ, 0 < h → h ≤ H₁ → h ≤ 1 →
    ∃ n sol, (∀ k, n ≤ k → perturbsolveIvp (scipyFormulas fun _ _ => 0)
        { Args.defaults (fun _ => sinField) 0 1 (.vector (fun _ : Fin 1 => 2 * Real.arctan (Real.exp 0))) with
          method := "RK23", perturb := "step-uniform", noiseScale := 0, adaptive := false, step := some h }
        (fun _ => 1) k = some (.ok sol)) ∧
      ∀ (i : ℕ) t y, sol.locs[i]? = some t → sol.states[i]? = some y →
        ‖y - fun _ => 2 * Real.arctan (Real.exp t)‖ ≤ Q * h ^ 3 := by
  obtain ⟨Q, H₁, hp, hr⟩ := perturbsolve_rk23_no_noise (fun _ _ => 0) sinField_smooth zero_le_one sinField_lipschitz sinField_solution 0 1
  refine ⟨Q, H₁, hp, fun h h0 h1 h2 => ?_⟩
  obtain ⟨n, sol, s1, -, -, -, s5⟩ := hr
    { Args.defaults (fun _ => sinField) 0 1 (.vector (fun _ : Fin 1 => 2 * Real.arctan (Real.exp 0))) with
      method := "RK23", perturb := "step-uniform", noiseScale := 0, adaptive := false, step := some h } h (fun _ => 1)
    rfl rfl rfl rfl rfl rfl rfl rfl rfl h0 h1 (by linarith) (by simp [StopsFine, Args.defaults])
  exact ⟨n, sol, s1, s5⟩

end Probnum.Perturbed
