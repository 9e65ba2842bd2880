import Verif.Perturbed.PropsOrder

/-!
# C115: `RK45` on systems of linear ODEs
-/

namespace Probnum.Perturbed

open Finset MeasureTheory ProbabilityTheory
open OdeFilter (InitialValue StopsFine)

variable {d : ℕ}

/-- A step of `RK45` on a system of linear ODEs, with `v k = B^k a`. -/
theorem rk45_system (B : (Fin d → ℝ) →L[ℝ] Fin d → ℝ) (h : ℝ) {a v1 v2 v3 v4 v5 v6 : Fin d → ℝ} (h1 : B a = v1) (h2 : B v1 = v2)
    (h3 : B v2 = v3) (h4 : B v3 = v4) (h5 : B v4 = v5) (h6 : B v5 = v6) :
    rkStep a45 b45 6 (fun y => B y) h a = a + h • v1 + (h ^ 2 / 2) • v2 + (h ^ 3 / 6) • v3 + (h ^ 4 / 24) • v4 + (h ^ 5 / 120) • v5
      + (h ^ 6 / 600) • v6 := by
  have s0 : stage a45 (fun y => B y) h a 0 = v1 := by rw [stage]; simp [h1]
  have s1 : stage a45 (fun y => B y) h a 1 = v1 + (h / 5) • v2 := by
    rw [stage]
    simp only [Fin.sum_univ_succ, Fin.sum_univ_zero, Fin.val_zero, Fin.val_succ, zero_add, Nat.reduceAdd, s0, a45, map_add, map_smul,
      map_zero, h1, h2, h3, h4, h5, h6]
    module
  have s2 : stage a45 (fun y => B y) h a 2 = v1 + (3 * h / 10) • v2 + (9 * h ^ 2 / 200) • v3 := by
    rw [stage]
    simp only [Fin.sum_univ_succ, Fin.sum_univ_zero, Fin.val_zero, Fin.val_succ, zero_add, Nat.reduceAdd, s0, s1, a45, map_add, map_smul,
      map_zero, h1, h2, h3, h4, h5, h6]
    module
  have s3 : stage a45 (fun y => B y) h a 3 = v1 + (4 * h / 5) • v2 + (8 * h ^ 2 / 25) • v3 + (4 * h ^ 3 / 25) • v4 := by
    rw [stage]
    simp only [Fin.sum_univ_succ, Fin.sum_univ_zero, Fin.val_zero, Fin.val_succ, zero_add, Nat.reduceAdd, s0, s1, s2, a45, map_add,
      map_smul, map_zero, h1, h2, h3, h4, h5, h6]
    module
  have s4 : stage a45 (fun y => B y) h a 4 = v1 + (8 * h / 9) • v2 + (32 * h ^ 2 / 81) • v3 + (424 * h ^ 3 / 1215) • v4
      - (848 * h ^ 4 / 18225) • v5 := by
    rw [stage]
    simp only [Fin.sum_univ_succ, Fin.sum_univ_zero, Fin.val_zero, Fin.val_succ, zero_add, Nat.reduceAdd, s0, s1, s2, s3, a45, map_add,
      map_smul, map_zero, h1, h2, h3, h4, h5, h6]
    module
  have s5 : stage a45 (fun y => B y) h a 5 = v1 + h • v2 + (h ^ 2 / 2) • v3 + (21 * h ^ 3 / 55) • v4 - (14 * h ^ 4 / 275) • v5
      + (7 * h ^ 5 / 550) • v6 := by
    rw [stage]
    simp only [Fin.sum_univ_succ, Fin.sum_univ_zero, Fin.val_zero, Fin.val_succ, zero_add, Nat.reduceAdd, s0, s1, s2, s3, s4, a45, map_add,
      map_sub, map_smul, map_zero, h1, h2, h3, h4, h5, h6]
    module
  rw [rkStep]
  simp only [Finset.sum_range_succ, Finset.sum_range_zero, zero_add, s0, s1, s2, s3, s4, s5, b45]
  module

/-- The derivatives of a solution of a linear system. -/
theorem linear_derivs (B : (Fin d → ℝ) →L[ℝ] Fin d → ℝ) {x : ℝ → Fin d → ℝ} (hx : ∀ t, HasDerivAt x (B (x t)) t) :
    ∀ k t, iteratedDeriv (k + 1) x t = B (iteratedDeriv k x t)
  | 0, t => by rw [iteratedDeriv_one, iteratedDeriv_zero, (hx t).deriv]
  | k + 1, t => by
    have hfun : iteratedDeriv (k + 1) x = fun t => B (iteratedDeriv k x t) := funext (linear_derivs B hx k)
    have hd : HasDerivAt (iteratedDeriv k x) (iteratedDeriv (k + 1) x t) t :=
      (OdeFilter.solution_smooth (N := k) B.contDiff hx).1 t k (by omega)
    calc iteratedDeriv (k + 1 + 1) x t = deriv (iteratedDeriv (k + 1) x) t := by rw [iteratedDeriv_succ]
      _ = deriv (fun t => B (iteratedDeriv k x t)) t := by rw [hfun]
      _ = B (iteratedDeriv (k + 1) x t) := (B.hasFDerivAt.comp_hasDerivAt t hd).deriv

/-- **`RK45` has order 5 on systems of linear ODEs.** -/
theorem rk45_localOrder (B : (Fin d → ℝ) →L[ℝ] Fin d → ℝ) {x : ℝ → Fin d → ℝ} (hx : ∀ t, HasDerivAt x (B (x t)) t) (t0 T : ℝ) :
    ∃ C, 0 ≤ C ∧ LocalOrder (rkStep a45 b45 6 fun y => B y) x t0 T 1 C 5 := by
  obtain ⟨hder, hcont⟩ := OdeFilter.solution_smooth (N := 5) B.contDiff hx
  obtain ⟨M', hM'⟩ := isCompact_Icc (a := t0) (b := T) |>.exists_bound_of_continuousOn (hcont 6 le_rfl).continuousOn
  obtain ⟨M, hM, m6⟩ : ∃ M, 0 ≤ M ∧ ∀ s ∈ Set.Icc t0 T, ‖iteratedDeriv 6 x s‖ ≤ M :=
    ⟨|M'|, abs_nonneg _, fun s hs => (hM' s hs).trans (le_abs_self _)⟩
  refine ⟨2 * M, by positivity, fun t h ht h0 h1 hT => ?_⟩
  have hin : ∀ s ∈ Set.Icc (0 : ℝ) h, t + s ∈ Set.Icc t0 T := fun s hs => ⟨by linarith [hs.1], by linarith [hs.2]⟩
  have u := OdeFilter.taylor_remainder (q := 5) (y := x) (t₀ := t) (δ := h) (M := M) (fun s _ k hk => hder _ k (by omega))
    (fun s hs => m6 _ (hin s hs)) h ⟨h0.le, le_rfl⟩ 0
  have l := linear_derivs B hx
  rw [rk45_system B h (a := x t) (by rw [l 0 t, iteratedDeriv_zero]) (l 1 t).symm (l 2 t).symm (l 3 t).symm (l 4 t).symm (l 5 t).symm]
  simp only [Fin.sum_univ_succ, Fin.sum_univ_zero, IWP.taylor, Matrix.of_apply, iteratedDeriv_zero, add_zero] at u
  norm_num [Nat.factorial] at u
  rw [← iteratedDeriv_one] at u
  have b6 := norm_smul_le_of_le (c := h ^ 6 / 600) (by positivity) (m6 t ⟨ht, by linarith⟩)
  have e : ∀ w z : Fin d → ℝ, x t + h • iteratedDeriv 1 x t + (h ^ 2 / 2) • iteratedDeriv 2 x t + (h ^ 3 / 6) • iteratedDeriv 3 x t
      + (h ^ 4 / 24) • iteratedDeriv 4 x t + (h ^ 5 / 120) • iteratedDeriv 5 x t + w - z
      = (x t + (h • iteratedDeriv 1 x t + ((h ^ 2 / 2) • iteratedDeriv 2 x t + ((h ^ 3 / 6) • iteratedDeriv 3 x t
      + ((h ^ 4 / 24) • iteratedDeriv 4 x t + (h ^ 5 / 120) • iteratedDeriv 5 x t)))) - z) + w := fun w z => by abel
  rw [e]
  refine (norm_add_le _ _).trans ((add_le_add u b6).trans ?_)
  have : 0 ≤ M * h ^ 6 := by positivity
  show _ ≤ 2 * M * h ^ 6
  linarith

/-- **C115 for `RK45` on linear systems.**  For every matrix and every initial value the system `y' = B y` has a solution, and
`perturbsolve_ivp` with `RK45`, constant steps and the uniform perturbation converges to it with order 9/2, for every realisation of
the random numbers. -/
theorem perturbsolve_system_converges (c : Method → ℕ → ℝ) (B : (Fin d → ℝ) →L[ℝ] Fin d → ℝ) (y0 : Fin d → ℝ) (t0 T σ : ℝ)
    (hσ : 0 ≤ σ) :
    ∃ x : ℝ → Fin d → ℝ, x t0 = y0 ∧ (∀ t, HasDerivAt x (B (x t)) t) ∧
      ∃ Q H₁, 0 < H₁ ∧ ∀ (a : Args d) (h : ℝ) (draws : ℕ → ℝ), a.f = (fun _ y => B y) → a.t0 = t0 → a.tmax = T → a.y0 = .vector y0 →
        a.method = "RK45" → a.perturb = "step-uniform" → a.noiseScale = σ → a.adaptive = false → a.step = some h →
        0 < h → h ≤ H₁ → t0 + h ≤ T → StopsFine t0 a.timeStops → (∀ i, 0 ≤ draws i ∧ draws i ≤ 1) →
        ∃ n sol, (∀ k, n ≤ k → perturbsolveIvp (scipyFormulas c) a draws k = some (.ok sol)) ∧
          sol.locs.head? = some t0 ∧ sol.locs.getLast? = some T ∧ sol.states.length = sol.locs.length ∧
          ∀ (i : ℕ) t y, sol.locs[i]? = some t → sol.states[i]? = some y → ‖y - x t‖ ≤ Q * h ^ (9 / 2 : ℝ) := by
  have hlip : ∀ u v, ‖B u - B v‖ ≤ ‖B‖ * ‖u - v‖ := fun u v => by rw [← map_sub]; exact B.le_opNorm _
  obtain ⟨x, rfl, hx⟩ := lipschitz_solution (g := fun y => B y) B.contDiff (norm_nonneg B) hlip t0 y0
  refine ⟨x, rfl, hx, ?_⟩
  obtain ⟨C, hC, ho⟩ := rk45_localOrder B hx t0 T
  have hxc : ContinuousOn x (Set.Icc t0 T) := fun t _ => (hx t).continuousAt.continuousWithinAt
  obtain ⟨Q, H₁, p, r⟩ := perturbsolve_uniform_converges (scipy := scipyFormulas c) (m := .rk45) a45 b45 6 (norm_nonneg B) hlip
    (fun t y h => scipyFormula_autonomous a45 b45 (c .rk45) 6 _ t y h) hxc one_pos hC ho hσ
  refine ⟨Q, H₁, p, ?_⟩
  intro a h draws hf ht0 hT hy hm hpu hns had hs hpos hle hfit hstops hdraws
  have := r a h draws hf ht0 hT hy (by rw [hm]; rfl) hpu hns had hs hpos hle hfit hstops hdraws
  rwa [show ((Method.order .rk45 : ℕ) : ℝ) - 1 / 2 = 9 / 2 by norm_num [Method.order]] at this

/-- The hypotheses are met: the harmonic oscillator with the default method and noise scale. -/
example : ∃ x : ℝ → Fin 2 → ℝ, x 0 = ![0, 1] ∧
    (∀ t, HasDerivAt x ((Matrix.toLin' !![(0 : ℝ), 1; -1, 0]).toContinuousLinearMap (x t)) t) ∧ ∃ Q H₁, 0 < H₁ ∧ ∀ h : ℝ, 0 < h → h ≤ H₁ →
    h ≤ 1 → ∃ n sol, (∀ k, n ≤ k → perturbsolveIvp (scipyFormulas fun _ _ => 0)
        { Args.defaults (fun _ y => (Matrix.toLin' !![(0 : ℝ), 1; -1, 0]).toContinuousLinearMap y) 0 1 (.vector ![0, 1]) with
          perturb := "step-uniform", adaptive := false, step := some h } (fun _ => 1) k = some (.ok sol)) ∧
      ∀ (i : ℕ) t y, sol.locs[i]? = some t → sol.states[i]? = some y → ‖y - x t‖ ≤ Q * h ^ (9 / 2 : ℝ) := by
  obtain ⟨x, h0, hx, Q, H₁, hp, hr⟩ := perturbsolve_system_converges (fun _ _ => 0)
    (Matrix.toLin' !![(0 : ℝ), 1; -1, 0]).toContinuousLinearMap ![0, 1] 0 1 10 (by norm_num)
  refine ⟨x, h0, hx, Q, H₁, hp, fun h h0 h1 h2 => ?_⟩
  obtain ⟨n, sol, s1, -, -, -, s5⟩ := hr
    { Args.defaults (fun _ y => (Matrix.toLin' !![(0 : ℝ), 1; -1, 0]).toContinuousLinearMap y) 0 1 (.vector ![0, 1]) with
      perturb := "step-uniform", adaptive := false, step := some h } h (fun _ => 1)
    rfl rfl rfl rfl rfl rfl rfl rfl rfl h0 h1 (by linarith) (by simp [StopsFine, Args.defaults]) (fun _ => by norm_num)
  exact ⟨n, sol, s1, s5⟩

/-- **C115 for `RK45` on linear systems with lognormal perturbations.**  If the random numbers are standard normal, the error is
larger than a constant times `(1 + B) step^5` with probability at most `2 N exp(-B^2 / 2)`, where `N` bounds the number of steps. -/
theorem perturbsolve_system_lognormal (c : Method → ℕ → ℝ) (A : (Fin d → ℝ) →L[ℝ] Fin d → ℝ) (y0 : Fin d → ℝ) (t0 T σ : ℝ)
    (hσ : 0 ≤ σ) :
    ∃ x : ℝ → Fin d → ℝ, x t0 = y0 ∧ (∀ t, HasDerivAt x (A (x t)) t) ∧
      ∃ Q H₁ ε, 0 < H₁ ∧ 0 < ε ∧ ∀ (a : Args d) (h B : ℝ) {Ω : Type} [MeasurableSpace Ω] (P : Measure Ω)
        [IsProbabilityMeasure P] (ζ : ℕ → Ω → ℝ), (∀ i, Measurable (ζ i)) → (∀ i, P.map (ζ i) = gaussianReal 0 1) →
        a.f = (fun _ y => A y) → a.t0 = t0 → a.tmax = T → a.y0 = .vector y0 → a.method = "RK45" → a.perturb = "step-lognormal" →
        a.noiseScale = σ → a.adaptive = false → a.step = some h → 0 < h → h ≤ H₁ → t0 + h ≤ T → StopsFine t0 a.timeStops →
        0 ≤ B → (1 + B) * h ^ 5 ≤ ε →
        P.real {ω | ¬ ∃ n sol, (∀ k, n ≤ k → perturbsolveIvp (scipyFormulas c) a (fun i => ζ i ω) k = some (.ok sol)) ∧
            ∀ (i : ℕ) t y, sol.locs[i]? = some t → sol.states[i]? = some y → ‖y - x t‖ ≤ Q * ((1 + B) * h ^ 5)}
          ≤ 2 * ((T - t0) / h + (a.timeStops.getD []).length + 1) * Real.exp (-B ^ 2 / 2) := by
  have hlip : ∀ u v, ‖A u - A v‖ ≤ ‖A‖ * ‖u - v‖ := fun u v => by rw [← map_sub]; exact A.le_opNorm _
  obtain ⟨x, rfl, hx⟩ := lipschitz_solution (g := fun y => A y) A.contDiff (norm_nonneg A) hlip t0 y0
  refine ⟨x, rfl, hx, ?_⟩
  obtain ⟨C, hC, ho⟩ := rk45_localOrder A hx t0 T
  have hxc : ContinuousOn x (Set.Icc t0 T) := fun t _ => (hx t).continuousAt.continuousWithinAt
  obtain ⟨Q, H₁, ε, p1, p2, r⟩ := perturbsolve_lognormal_probability (scipy := scipyFormulas c) (m := .rk45) a45 b45 6 (norm_nonneg A) hlip
    (fun t y h => scipyFormula_autonomous a45 b45 (c .rk45) 6 _ t y h) hxc one_pos hC ho hσ
  refine ⟨Q, H₁, ε, p1, p2, ?_⟩
  intro a h B Ω _ P _ ζ hmeas hlaw hf ht0 hT hy hm hpu hns had hs hpos hle hfit hstops hB hε
  exact r a h B P ζ hmeas hlaw hf ht0 hT hy (by rw [hm]; rfl) hpu hns had hs hpos hle hfit hstops hB hε

/-- The hypotheses of the lognormal theorem are met by the harmonic oscillator and any standard normal random numbers. -/
example {Ω : Type} [MeasurableSpace Ω] (P : Measure Ω) [IsProbabilityMeasure P] (ζ : ℕ → Ω → ℝ) (hm : ∀ i, Measurable (ζ i))
    (hl : ∀ i, P.map (ζ i) = gaussianReal 0 1) : ∃ x : ℝ → Fin 2 → ℝ, x 0 = ![0, 1] ∧
      ∃ Q H₁ ε : ℝ, 0 < H₁ ∧ 0 < ε ∧ ∀ h : ℝ, 0 < h → h ≤ H₁ → h ≤ 1 → (1 + 3) * h ^ 5 ≤ ε →
      P.real {ω | ¬ ∃ n sol, (∀ k, n ≤ k → perturbsolveIvp (scipyFormulas fun _ _ => 0)
          { Args.defaults (fun _ y => (Matrix.toLin' !![(0 : ℝ), 1; -1, 0]).toContinuousLinearMap y) 0 1 (.vector ![0, 1]) with
            perturb := "step-lognormal", adaptive := false, step := some h } (fun i => ζ i ω) k = some (.ok sol)) ∧
          ∀ (i : ℕ) t y, sol.locs[i]? = some t → sol.states[i]? = some y → ‖y - x t‖ ≤ Q * ((1 + 3) * h ^ 5)}
        ≤ 2 * ((1 - 0) / h + (0 : ℕ) + 1) * Real.exp (-3 ^ 2 / 2) := by
  obtain ⟨x, h0, -, Q, H₁, ε, p1, p2, hr⟩ := perturbsolve_system_lognormal (fun _ _ => 0)
    (Matrix.toLin' !![(0 : ℝ), 1; -1, 0]).toContinuousLinearMap ![0, 1] 0 1 10 (by norm_num)
  refine ⟨x, h0, Q, H₁, ε, p1, p2, fun h h0 h1 h2 h3 => ?_⟩
  exact hr { Args.defaults (fun _ y => (Matrix.toLin' !![(0 : ℝ), 1; -1, 0]).toContinuousLinearMap y) 0 1 (.vector ![0, 1]) with
      perturb := "step-lognormal", adaptive := false, step := some h } h 3 P ζ hm hl
    rfl rfl rfl rfl rfl rfl rfl rfl rfl h0 h1 (by linarith) (by simp [StopsFine, Args.defaults]) (by norm_num) h3

end Probnum.Perturbed
