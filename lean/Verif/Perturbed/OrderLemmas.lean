import Verif.OdeFilter.GlobalLemmas
import Verif.Perturbed.PropsConverge

/-!
# The order of RK23

The local error of the formula of Bogacki and Shampine along the solution of a smooth autonomous ODE.
-/

namespace Probnum.Perturbed

open Finset

variable {d : ℕ}

theorem norm_smul_le_of_le {c b : ℝ} {v : Fin d → ℝ} (hc : 0 ≤ c) (hv : ‖v‖ ≤ b) : ‖c • v‖ ≤ c * b := by
  rw [norm_smul, Real.norm_of_nonneg hc]
  exact mul_le_mul_of_nonneg_left hv hc

/-- A step of `RK23`. -/
theorem rk23_step (g : (Fin d → ℝ) → Fin d → ℝ) (h : ℝ) (a : Fin d → ℝ) :
    rkStep a23 b23 3 g h a = a + h • ((2 / 9 : ℝ) • g a + (1 / 3 : ℝ) • g (a + (h / 2) • g a)
      + (4 / 9 : ℝ) • g (a + (3 * h / 4) • g (a + (h / 2) • g a))) := by
  have s0 : stage a23 g h a 0 = g a := by rw [stage]; simp
  have s1 : stage a23 g h a 1 = g (a + (h / 2) • g a) := by
    rw [stage, Fin.sum_univ_succ, Fin.sum_univ_zero]
    simp only [Fin.val_zero, s0, a23, add_zero, smul_smul, mul_one_div]
  have s2 : stage a23 g h a 2 = g (a + (3 * h / 4) • g (a + (h / 2) • g a)) := by
    rw [stage, Fin.sum_univ_succ, Fin.sum_univ_succ, Fin.sum_univ_zero]
    simp only [Fin.val_zero, Fin.val_succ, zero_add, s0, s1, a23, add_zero, zero_smul, smul_smul]
    congr 3
    ring
  rw [rkStep]
  simp only [Finset.sum_range_succ, Finset.sum_range_zero, zero_add, s0, s1, s2, b23]

/-- The second stage. -/
theorem rk23_stage2 {g : (Fin d → ℝ) → Fin d → ℝ} {a k1 D2 x2 : Fin d → ℝ} {J : (Fin d → ℝ) →L[ℝ] Fin d → ℝ}
    {ℓ Λ M h : ℝ} (hℓ : 0 ≤ ℓ) (hΛ : 0 ≤ Λ) (hM : 0 ≤ M) (h0 : 0 < h) (h1 : h ≤ 1) (hk : k1 = g a)
    (hJ : ∀ w, ‖J w‖ ≤ ℓ * ‖w‖) (hlip : ∀ u v, ‖g u - g v‖ ≤ ℓ * ‖u - v‖)
    (hlin : ∀ u v, ‖u - a‖ ≤ M * (1 + ℓ) * h → ‖v - a‖ ≤ M * (1 + ℓ) * h → ‖g u - g v - J (u - v)‖ ≤ Λ * h * ‖u - v‖)
    (b1 : ‖k1‖ ≤ M) (b2 : ‖D2‖ ≤ M) (n2 : ‖x2 - a‖ ≤ M * h)
    (r2 : ‖a + (h / 2) • k1 + (h ^ 2 / 8) • D2 - x2‖ ≤ M * h ^ 3) (s2 : ‖k1 + (h / 2) • D2 - g x2‖ ≤ M * h ^ 2) :
    ‖g (a + (h / 2) • k1) - g x2 + (h ^ 2 / 8) • J D2‖ ≤ (2 * Λ * M + ℓ * M) * h ^ 3 ∧
      ‖g (a + (h / 2) • k1) - k1 - (h / 2) • D2‖ ≤ (2 * ℓ + 1) * M * h ^ 2 ∧ ‖g (a + (h / 2) • k1)‖ ≤ M * (1 + ℓ) := by
  have p3 : h ^ 3 ≤ h ^ 2 := by nlinarith [sq_nonneg h]
  have hMh : 0 ≤ M * h := by positivity
  have hMl : M * h ≤ M * (1 + ℓ) * h := by nlinarith [mul_nonneg (mul_nonneg hM hℓ) h0.le]
  have A2 : ‖a + (h / 2) • k1 - x2‖ ≤ 2 * M * h ^ 2 := by
    have e : a + (h / 2) • k1 - x2 = (a + (h / 2) • k1 + (h ^ 2 / 8) • D2 - x2) - (h ^ 2 / 8) • D2 := by abel
    rw [e]
    refine (norm_sub_le _ _).trans ((add_le_add r2 (norm_smul_le_of_le (by positivity) b2)).trans ?_)
    nlinarith [mul_le_mul_of_nonneg_left p3 hM, mul_nonneg hM (sq_nonneg h)]
  have e' : a + (h / 2) • k1 - a = (h / 2) • k1 := by abel
  have hb := norm_smul_le_of_le (show 0 ≤ h / 2 by positivity) b1
  have B2 : ‖a + (h / 2) • k1 - a‖ ≤ M * (1 + ℓ) * h := by
    rw [e']
    nlinarith
  have E2 := hlin _ x2 B2 (n2.trans hMl)
  refine ⟨?_, ?_, ?_⟩
  · have e : g (a + (h / 2) • k1) - g x2 + (h ^ 2 / 8) • J D2
        = (g (a + (h / 2) • k1) - g x2 - J (a + (h / 2) • k1 - x2)) + J (a + (h / 2) • k1 + (h ^ 2 / 8) • D2 - x2) := by
      rw [show a + (h / 2) • k1 + (h ^ 2 / 8) • D2 - x2 = (a + (h / 2) • k1 - x2) + (h ^ 2 / 8) • D2 by abel, map_add, map_smul]
      abel
    rw [e]
    refine (norm_add_le _ _).trans ((add_le_add (E2.trans (mul_le_mul_of_nonneg_left A2 (by positivity)))
      ((hJ _).trans (mul_le_mul_of_nonneg_left r2 hℓ))).trans (le_of_eq (by ring)))
  · have e : g (a + (h / 2) • k1) - k1 - (h / 2) • D2 = (g (a + (h / 2) • k1) - g x2) - (k1 + (h / 2) • D2 - g x2) := by abel
    rw [e]
    refine (norm_sub_le _ _).trans ((add_le_add ((hlip _ _).trans (mul_le_mul_of_nonneg_left A2 hℓ)) s2).trans (le_of_eq (by ring)))
  · have e : g (a + (h / 2) • k1) = k1 + (g (a + (h / 2) • k1) - g a) := by rw [← hk]; abel
    rw [e]
    refine (norm_add_le _ _).trans ((add_le_add b1 (hlip _ _)).trans ?_)
    rw [e']
    have := mul_le_mul_of_nonneg_left hb hℓ
    nlinarith [mul_nonneg hℓ hM, mul_le_mul_of_nonneg_left h1 (mul_nonneg hℓ hM)]

/-- The third stage. -/
theorem rk23_stage3 {g : (Fin d → ℝ) → Fin d → ℝ} {a k1 k2 D2 x3 : Fin d → ℝ} {J : (Fin d → ℝ) →L[ℝ] Fin d → ℝ}
    {ℓ Λ M h : ℝ} (hℓ : 0 ≤ ℓ) (hΛ : 0 ≤ Λ) (hM : 0 ≤ M) (h0 : 0 < h) (h1 : h ≤ 1) (hJ : ∀ w, ‖J w‖ ≤ ℓ * ‖w‖)
    (hlin : ∀ u v, ‖u - a‖ ≤ M * (1 + ℓ) * h → ‖v - a‖ ≤ M * (1 + ℓ) * h → ‖g u - g v - J (u - v)‖ ≤ Λ * h * ‖u - v‖)
    (b2 : ‖D2‖ ≤ M) (n3 : ‖x3 - a‖ ≤ M * h)
    (r3 : ‖a + (3 * h / 4) • k1 + (9 * h ^ 2 / 32) • D2 - x3‖ ≤ M * h ^ 3)
    (P2 : ‖k2 - k1 - (h / 2) • D2‖ ≤ (2 * ℓ + 1) * M * h ^ 2) (K2 : ‖k2‖ ≤ M * (1 + ℓ)) :
    ‖g (a + (3 * h / 4) • k2) - g x3 - (3 / 32 * h ^ 2) • J D2‖
      ≤ (Λ * (2 * ℓ + 3) * M + ℓ * (2 * ℓ + 2) * M) * h ^ 3 := by
  have p3 : h ^ 3 ≤ h ^ 2 := by nlinarith [sq_nonneg h]
  have hMl : M * h ≤ M * (1 + ℓ) * h := by nlinarith [mul_nonneg (mul_nonneg hM hℓ) h0.le]
  have R3 : ‖a + (3 * h / 4) • k2 - x3 - (3 / 32 * h ^ 2) • D2‖ ≤ (2 * ℓ + 2) * M * h ^ 3 := by
    have e : a + (3 * h / 4) • k2 - x3 - (3 / 32 * h ^ 2) • D2
        = (3 * h / 4) • (k2 - k1 - (h / 2) • D2) + (a + (3 * h / 4) • k1 + (9 * h ^ 2 / 32) • D2 - x3) := by
      module
    rw [e]
    refine (norm_add_le _ _).trans ((add_le_add (norm_smul_le_of_le (by positivity) P2) r3).trans ?_)
    have : 0 ≤ (2 * ℓ + 1) * M * h ^ 3 := by positivity
    nlinarith
  have A3 : ‖a + (3 * h / 4) • k2 - x3‖ ≤ (2 * ℓ + 3) * M * h ^ 2 := by
    have e : a + (3 * h / 4) • k2 - x3 = (a + (3 * h / 4) • k2 - x3 - (3 / 32 * h ^ 2) • D2) + (3 / 32 * h ^ 2) • D2 := by abel
    rw [e]
    refine (norm_add_le _ _).trans ((add_le_add R3 (norm_smul_le_of_le (by positivity) b2)).trans ?_)
    have := mul_le_mul_of_nonneg_left p3 (show 0 ≤ (2 * ℓ + 2) * M by positivity)
    nlinarith [mul_nonneg hM (sq_nonneg h)]
  have B3 : ‖a + (3 * h / 4) • k2 - a‖ ≤ M * (1 + ℓ) * h := by
    have e : a + (3 * h / 4) • k2 - a = (3 * h / 4) • k2 := by abel
    rw [e]
    refine (norm_smul_le_of_le (by positivity) K2).trans ?_
    have : 0 ≤ M * (1 + ℓ) * h := by positivity
    nlinarith
  have E3 := hlin _ x3 B3 (n3.trans hMl)
  have e : g (a + (3 * h / 4) • k2) - g x3 - (3 / 32 * h ^ 2) • J D2
      = (g (a + (3 * h / 4) • k2) - g x3 - J (a + (3 * h / 4) • k2 - x3)) + J (a + (3 * h / 4) • k2 - x3 - (3 / 32 * h ^ 2) • D2) := by
    rw [map_sub J (a + (3 * h / 4) • k2 - x3), map_smul]
    abel
  rw [e]
  refine (norm_add_le _ _).trans ((add_le_add (E3.trans (mul_le_mul_of_nonneg_left A3 (by positivity)))
    ((hJ _).trans (mul_le_mul_of_nonneg_left R3 hℓ))).trans (le_of_eq (by ring)))

/-- The sum of the stages: the terms with the Jacobian cancel, and the quadrature formula is exact for polynomials of degree 2. -/
theorem rk23_sum {a k1 k2 k3 y2 y3 w D2 D3 xe : Fin d → ℝ} {α β M h : ℝ} (hα : 0 ≤ α) (hβ : 0 ≤ β) (hM : 0 ≤ M) (h0 : 0 < h)
    (G2 : ‖k2 - y2 + (h ^ 2 / 8) • w‖ ≤ α * h ^ 3) (G3 : ‖k3 - y3 - (3 / 32 * h ^ 2) • w‖ ≤ β * h ^ 3)
    (f2 : ‖k1 + (h / 2) • D2 + (h ^ 2 / 8) • D3 - y2‖ ≤ M * h ^ 3)
    (f3 : ‖k1 + (3 * h / 4) • D2 + (9 * h ^ 2 / 32) • D3 - y3‖ ≤ M * h ^ 3)
    (re : ‖a + h • k1 + (h ^ 2 / 2) • D2 + (h ^ 3 / 6) • D3 - xe‖ ≤ M * h ^ 4) :
    ‖a + h • ((2 / 9 : ℝ) • k1 + (1 / 3 : ℝ) • k2 + (4 / 9 : ℝ) • k3) - xe‖ ≤ (α + β + 3 * M) * h ^ 4 := by
  have e : a + h • ((2 / 9 : ℝ) • k1 + (1 / 3 : ℝ) • k2 + (4 / 9 : ℝ) • k3) - xe
      = (h / 3) • (k2 - y2 + (h ^ 2 / 8) • w) + (4 * h / 9) • (k3 - y3 - (3 / 32 * h ^ 2) • w)
        - (h / 3) • (k1 + (h / 2) • D2 + (h ^ 2 / 8) • D3 - y2)
        - (4 * h / 9) • (k1 + (3 * h / 4) • D2 + (9 * h ^ 2 / 32) • D3 - y3)
        + (a + h • k1 + (h ^ 2 / 2) • D2 + (h ^ 3 / 6) • D3 - xe) := by
    funext i
    simp only [Pi.add_apply, Pi.smul_apply, Pi.sub_apply, smul_eq_mul]
    ring
  rw [e]
  refine (norm_add_le _ _).trans ((add_le_add ((norm_sub_le _ _).trans (add_le_add ((norm_sub_le _ _).trans (add_le_add
    ((norm_add_le _ _).trans (add_le_add (norm_smul_le_of_le (by positivity) G2) (norm_smul_le_of_le (by positivity) G3)))
    (norm_smul_le_of_le (by positivity) f2))) (norm_smul_le_of_le (by positivity) f3))) re).trans ?_)
  have c2 : 0 ≤ α * h ^ 4 := by positivity
  have c3 : 0 ≤ β * h ^ 4 := by positivity
  have c4 : 0 ≤ M * h ^ 4 := by positivity
  calc _ = (1 / 3) * (α * h ^ 4) + (4 / 9) * (β * h ^ 4) + (1 / 3 + 4 / 9 + 1) * (M * h ^ 4) := by ring
    _ ≤ α * h ^ 4 + β * h ^ 4 + 3 * (M * h ^ 4) := by linarith
    _ = _ := by ring

/-- The Taylor expansions of a solution and of its derivative. -/
theorem solution_taylor {g : (Fin d → ℝ) → Fin d → ℝ} (hg : ContDiff ℝ 3 g) {x : ℝ → Fin d → ℝ} (hx : ∀ t, HasDerivAt x (g (x t)) t)
    {t h M : ℝ} (m1 : ∀ s ∈ Set.Icc (0 : ℝ) h, ‖iteratedDeriv 1 x (t + s)‖ ≤ M)
    (m3 : ∀ s ∈ Set.Icc (0 : ℝ) h, ‖iteratedDeriv 3 x (t + s)‖ ≤ M) (m4 : ∀ s ∈ Set.Icc (0 : ℝ) h, ‖iteratedDeriv 4 x (t + s)‖ ≤ M) :
    ∀ s ∈ Set.Icc (0 : ℝ) h, ‖x (t + s) - x t‖ ≤ M * s ∧
      ‖x t + s • g (x t) + (s ^ 2 / 2) • iteratedDeriv 2 x t - x (t + s)‖ ≤ M * s ^ 3 ∧
      ‖g (x t) + s • iteratedDeriv 2 x t - g (x (t + s))‖ ≤ M * s ^ 2 ∧
      ‖x t + s • g (x t) + (s ^ 2 / 2) • iteratedDeriv 2 x t + (s ^ 3 / 6) • iteratedDeriv 3 x t - x (t + s)‖ ≤ M * s ^ 4 ∧
      ‖g (x t) + s • iteratedDeriv 2 x t + (s ^ 2 / 2) • iteratedDeriv 3 x t - g (x (t + s))‖ ≤ M * s ^ 3 := by
  obtain ⟨hder, -⟩ := OdeFilter.solution_smooth (N := 3) hg hx
  intro s hs
  have i1 : iteratedDeriv 1 x = fun t => g (x t) := by
    funext t
    rw [iteratedDeriv_one, (hx t).deriv]
  have u0 := OdeFilter.taylor_remainder (q := 0) (y := x) (t₀ := t) (δ := h) (M := M) (fun s _ k hk => hder _ k (by omega)) m1 s hs
  have u2 := OdeFilter.taylor_remainder (q := 2) (y := x) (t₀ := t) (δ := h) (M := M) (fun s _ k hk => hder _ k (by omega)) m3 s hs
  have u3 := OdeFilter.taylor_remainder (q := 3) (y := x) (t₀ := t) (δ := h) (M := M) (fun s _ k hk => hder _ k (by omega)) m4 s hs
  have v0 := u0 0
  have v20 := u2 0
  have v21 := u2 1
  have v30 := u3 0
  have v31 := u3 1
  simp only [Fin.sum_univ_succ, Fin.sum_univ_zero, IWP.taylor, Matrix.of_apply, iteratedDeriv_zero, add_zero] at v0 v20 v21 v30 v31
  norm_num [i1, Nat.factorial] at v0 v20 v21 v30 v31
  refine ⟨?_, ?_, ?_, ?_, ?_⟩
  · rw [norm_sub_rev]; exact v0
  · rw [add_assoc]; exact v20
  · exact v21
  · rw [add_assoc, add_assoc]; exact v30
  · rw [add_assoc]; exact v31

/-- **`RK23` has order 3.**  Along a solution of an autonomous ODE with a three times continuously differentiable Lipschitz vector
field, the local error is of the fourth order, uniformly on every bounded interval. -/
theorem rk23_localOrder {g : (Fin d → ℝ) → Fin d → ℝ} (hg : ContDiff ℝ 3 g) {ℓ : ℝ} (hℓ : 0 ≤ ℓ)
    (hlip : ∀ u v, ‖g u - g v‖ ≤ ℓ * ‖u - v‖) {x : ℝ → Fin d → ℝ} (hx : ∀ t, HasDerivAt x (g (x t)) t) (t0 T : ℝ) :
    ∃ C, 0 ≤ C ∧ LocalOrder (rkStep a23 b23 3 g) x t0 T 1 C 3 := by
  obtain ⟨-, hcont⟩ := OdeFilter.solution_smooth (N := 3) hg hx
  have hbound : ∀ k, k ≤ 4 → ∃ M, ∀ s ∈ Set.Icc t0 T, ‖iteratedDeriv k x s‖ ≤ M := fun k hk =>
    isCompact_Icc.exists_bound_of_continuousOn (hcont k (by omega)).continuousOn
  obtain ⟨M0, hM0⟩ := hbound 0 (by norm_num)
  obtain ⟨M1, hM1⟩ := hbound 1 (by norm_num)
  obtain ⟨M2, hM2⟩ := hbound 2 (by norm_num)
  obtain ⟨M3, hM3⟩ := hbound 3 (by norm_num)
  obtain ⟨M4, hM4⟩ := hbound 4 (by norm_num)
  obtain ⟨M, hM, m1, m2, m3, m4⟩ : ∃ M, 0 ≤ M ∧ (∀ s ∈ Set.Icc t0 T, ‖iteratedDeriv 1 x s‖ ≤ M) ∧
      (∀ s ∈ Set.Icc t0 T, ‖iteratedDeriv 2 x s‖ ≤ M) ∧ (∀ s ∈ Set.Icc t0 T, ‖iteratedDeriv 3 x s‖ ≤ M) ∧
      ∀ s ∈ Set.Icc t0 T, ‖iteratedDeriv 4 x s‖ ≤ M := by
    have q1 := abs_nonneg M1
    have q2 := abs_nonneg M2
    have q3 := abs_nonneg M3
    have q4 := abs_nonneg M4
    exact ⟨|M1| + |M2| + |M3| + |M4|, by linarith, fun s hs => (hM1 s hs).trans (by linarith [le_abs_self M1]),
      fun s hs => (hM2 s hs).trans (by linarith [le_abs_self M2]), fun s hs => (hM3 s hs).trans (by linarith [le_abs_self M3]),
      fun s hs => (hM4 s hs).trans (by linarith [le_abs_self M4])⟩
  have hgd : ContDiff ℝ 1 (fderiv ℝ g) := hg.fderiv_right (by norm_num)
  obtain ⟨Λ', hΛ'⟩ := (isCompact_closedBall (0 : Fin d → ℝ) (|M0| + M * (1 + ℓ))).exists_bound_of_continuousOn
    (hgd.continuous_fderiv (by norm_num)).continuousOn
  have hΛ0 : 0 ≤ |Λ'| * (M * (1 + ℓ)) := by positivity
  have hJ : ∀ t w, ‖fderiv ℝ g (x t) w‖ ≤ ℓ * ‖w‖ := fun t w => by
    have : ‖fderiv ℝ g (x t)‖ ≤ (⟨ℓ, hℓ⟩ : NNReal) := norm_fderiv_le_of_lipschitz ℝ (LipschitzWith.of_dist_le_mul fun y z => by
      rw [dist_eq_norm, dist_eq_norm]; exact hlip y z)
    exact (ContinuousLinearMap.le_opNorm _ _).trans (mul_le_mul_of_nonneg_right this (norm_nonneg _))
  have hlin : ∀ t ∈ Set.Icc t0 T, ∀ h, 0 < h → h ≤ 1 → ∀ u v, ‖u - x t‖ ≤ M * (1 + ℓ) * h → ‖v - x t‖ ≤ M * (1 + ℓ) * h →
      ‖g u - g v - fderiv ℝ g (x t) (u - v)‖ ≤ |Λ'| * (M * (1 + ℓ)) * h * ‖u - v‖ := by
    intro t ht h h0 h1 u v hu hv
    have hr : M * (1 + ℓ) * h ≤ M * (1 + ℓ) := mul_le_of_le_one_right (by positivity) h1
    have hsub : ∀ w ∈ Metric.closedBall (x t) (M * (1 + ℓ) * h), w ∈ Metric.closedBall (0 : Fin d → ℝ) (|M0| + M * (1 + ℓ)) := by
      intro w hw
      rw [mem_closedBall_iff_norm] at hw
      rw [mem_closedBall_zero_iff, show w = x t + (w - x t) by abel]
      have h2 : ‖x t‖ ≤ M0 := by simpa using hM0 t ht
      exact (norm_add_le _ _).trans (add_le_add (h2.trans (le_abs_self _)) (hw.trans hr))
    have hxt : x t ∈ Metric.closedBall (x t) (M * (1 + ℓ) * h) := Metric.mem_closedBall_self (by positivity)
    refine (convex_closedBall (x t) (M * (1 + ℓ) * h)).norm_image_sub_le_of_norm_fderiv_le'
      (fun w _ => (hg.differentiable (by norm_num)) w) (fun w hw => ?_) (mem_closedBall_iff_norm.2 hv) (mem_closedBall_iff_norm.2 hu)
    refine ((convex_closedBall (0 : Fin d → ℝ) (|M0| + M * (1 + ℓ))).norm_image_sub_le_of_norm_fderiv_le
      (fun w _ => (hgd.differentiable (by norm_num)) w) (fun w hw => (hΛ' w hw).trans (le_abs_self _)) (hsub _ hxt) (hsub _ hw)).trans ?_
    rw [mul_assoc]
    exact mul_le_mul_of_nonneg_left (mem_closedBall_iff_norm.1 hw) (abs_nonneg _)
  generalize |Λ'| * (M * (1 + ℓ)) = Λ at hΛ0 hlin
  refine ⟨(2 * Λ * M + ℓ * M) + (Λ * (2 * ℓ + 3) * M + ℓ * (2 * ℓ + 2) * M) + 3 * M, by positivity, fun t h ht h0 h1 hT => ?_⟩
  have htI : t ∈ Set.Icc t0 T := ⟨ht, by linarith⟩
  have hin : ∀ s ∈ Set.Icc (0 : ℝ) h, t + s ∈ Set.Icc t0 T := fun s hs => ⟨by linarith [hs.1], by linarith [hs.2]⟩
  have htay := solution_taylor hg hx (t := t) (h := h) (M := M) (fun s hs => m1 _ (hin s hs)) (fun s hs => m3 _ (hin s hs))
    (fun s hs => m4 _ (hin s hs))
  obtain ⟨n2, r2, s2, -, f2⟩ := htay (h / 2) ⟨by linarith, by linarith⟩
  obtain ⟨n3, r3, -, -, f3⟩ := htay (3 * h / 4) ⟨by linarith, by linarith⟩
  obtain ⟨-, -, -, re, -⟩ := htay h ⟨h0.le, le_rfl⟩
  have b1 : ‖g (x t)‖ ≤ M := by
    have := m1 t htI
    rwa [iteratedDeriv_one, (hx t).deriv] at this
  have c2 : (h / 2) ≤ h := by linarith
  have c3 : (3 * h / 4) ≤ h := by linarith
  have z2 : 0 ≤ h / 2 := by linarith
  have z3 : 0 ≤ 3 * h / 4 := by linarith
  rw [show (h / 2) ^ 2 / 2 = h ^ 2 / 8 by ring] at r2 f2
  rw [show (3 * h / 4) ^ 2 / 2 = 9 * h ^ 2 / 32 by ring] at r3 f3
  have hle : ∀ {w s : ℝ} (k : ℕ), 0 ≤ s → s ≤ h → w ≤ M * s ^ k → w ≤ M * h ^ k := fun k l1 l2 l3 =>
    l3.trans (mul_le_mul_of_nonneg_left (pow_le_pow_left₀ l1 l2 k) hM)
  obtain ⟨G2, P2, K2⟩ := rk23_stage2 hℓ hΛ0 hM h0 h1 rfl (hJ t) hlip (hlin t htI h h0 h1) b1 (m2 t htI)
    (n2.trans (mul_le_mul_of_nonneg_left c2 hM)) (hle 3 z2 c2 r2) (hle 2 z2 c2 s2)
  have G3 := rk23_stage3 hℓ hΛ0 hM h0 h1 (hJ t) (hlin t htI h h0 h1) (m2 t htI) (n3.trans (mul_le_mul_of_nonneg_left c3 hM))
    (hle 3 z3 c3 r3) P2 K2
  rw [rk23_step]
  exact rk23_sum (by positivity) (by positivity) hM h0 G2 G3 (hle 3 z2 c2 f2) (hle 3 z3 c3 f3) re

end Probnum.Perturbed
