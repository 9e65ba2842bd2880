import Verif.Perturbed.PropsSolve

/-!
# Specification and lemmas for the convergence of perturbed Runge-Kutta methods

Explicit Runge-Kutta formulas for autonomous vector fields, their order along a solution, and the stability of their steps.
-/

namespace Probnum.Perturbed

open Finset

variable {d : ℕ}

/-! ## Specification -/

/-- Specification: the stages `K_i = g(a + s Σ_{j<i} A_ij K_j)` of an explicit Runge-Kutta formula with the coefficients `A`. -/
noncomputable def stage (A : ℕ → ℕ → ℝ) (g : (Fin d → ℝ) → Fin d → ℝ) (s : ℝ) (a : Fin d → ℝ) (i : ℕ) : Fin d → ℝ :=
  g (a + s • ∑ j : Fin i, A i j • stage A g s a j)
termination_by i
decreasing_by exact j.2

/-- Specification: a step of length `s` from `a` with the explicit Runge-Kutta formula with `n` stages, coefficients `A` and
weights `b`. -/
noncomputable def rkStep (A : ℕ → ℕ → ℝ) (b : ℕ → ℝ) (n : ℕ) (g : (Fin d → ℝ) → Fin d → ℝ) (s : ℝ) (a : Fin d → ℝ) : Fin d → ℝ :=
  a + s • ∑ i ∈ range n, b i • stage A g s a i

/-- Specification: the local error of the step `Φ` along the solution `x` is at most `C h^(p + 1)`. -/
def LocalOrder (Φ : ℝ → (Fin d → ℝ) → Fin d → ℝ) (x : ℝ → Fin d → ℝ) (t0 T H C : ℝ) (p : ℕ) : Prop :=
  ∀ t h, t0 ≤ t → 0 < h → h ≤ H → t + h ≤ T → ‖Φ h (x t) - x (t + h)‖ ≤ C * h ^ (p + 1)

/-! ## Stages -/

variable {A : ℕ → ℕ → ℝ} {b : ℕ → ℝ} {g : (Fin d → ℝ) → Fin d → ℝ}

theorem norm_weighted_le {ι : Type} (S : Finset ι) (w : ι → ℝ) (v : ι → Fin d → ℝ) {c : ι → ℝ} {r : ℝ} (hv : ∀ i ∈ S, ‖v i‖ ≤ c i * r) :
    ‖∑ i ∈ S, w i • v i‖ ≤ (∑ i ∈ S, |w i| * c i) * r := by
  rw [Finset.sum_mul]
  refine (norm_sum_le _ _).trans (Finset.sum_le_sum fun i hi => ?_)
  rw [norm_smul, Real.norm_eq_abs, mul_assoc]
  exact mul_le_mul_of_nonneg_left (hv i hi) (abs_nonneg _)

theorem stage_lipschitz (A : ℕ → ℕ → ℝ) {ℓ S : ℝ} (hℓ : 0 ≤ ℓ) (hg : ∀ a b, ‖g a - g b‖ ≤ ℓ * ‖a - b‖) (i : ℕ) :
    ∃ c, 0 ≤ c ∧ ∀ s a b, 0 ≤ s → s ≤ S → ‖stage A g s a i - stage A g s b i‖ ≤ c * ‖a - b‖ := by
  induction i using Nat.strong_induction_on with
  | _ i ih =>
    choose c hc0 hc using fun j : Fin i => ih j j.2
    refine ⟨ℓ * (1 + |S| * ∑ j : Fin i, |A i j| * c j), ?_, fun s a b h0 h1 => ?_⟩
    · exact mul_nonneg hℓ (add_nonneg zero_le_one (mul_nonneg (abs_nonneg _)
        (Finset.sum_nonneg fun j _ => mul_nonneg (abs_nonneg _) (hc0 j))))
    · rw [stage, stage]
      refine (hg _ _).trans ?_
      rw [mul_assoc]
      refine mul_le_mul_of_nonneg_left ?_ hℓ
      have e : a + s • ∑ j : Fin i, A i j • stage A g s a j - (b + s • ∑ j : Fin i, A i j • stage A g s b j)
          = (a - b) + s • ∑ j : Fin i, A i j • (stage A g s a j - stage A g s b j) := by
        simp only [smul_sub, Finset.sum_sub_distrib]
        abel
      have h2 := norm_weighted_le (Finset.univ : Finset (Fin i)) (fun j => A i j) (fun j => stage A g s a j - stage A g s b j)
        (c := c) (r := ‖a - b‖) fun j _ => hc j s a b h0 h1
      have hsum : 0 ≤ (∑ j : Fin i, |A i j| * c j) * ‖a - b‖ :=
        mul_nonneg (Finset.sum_nonneg fun j _ => mul_nonneg (abs_nonneg _) (hc0 j)) (norm_nonneg _)
      rw [e]
      refine (norm_add_le _ _).trans ?_
      rw [norm_smul, Real.norm_eq_abs, abs_of_nonneg h0, add_mul, one_mul, mul_assoc]
      refine add_le_add le_rfl ((mul_le_mul_of_nonneg_left h2 h0).trans ?_)
      exact mul_le_mul_of_nonneg_right (h1.trans (le_abs_self S)) hsum

theorem stage_bounded (A : ℕ → ℕ → ℝ) {ℓ S : ℝ} (hℓ : 0 ≤ ℓ) (hg : ∀ a b, ‖g a - g b‖ ≤ ℓ * ‖a - b‖) {Z : Set (Fin d → ℝ)}
    {G : ℝ} (hG : ∀ z ∈ Z, ‖g z‖ ≤ G) (i : ℕ) :
    ∃ c, 0 ≤ c ∧ ∀ s a z, z ∈ Z → 0 ≤ s → s ≤ S → ‖stage A g s a i‖ ≤ c * (1 + ‖a - z‖) := by
  induction i using Nat.strong_induction_on with
  | _ i ih =>
    choose c hc0 hc using fun j : Fin i => ih j j.2
    have hs0 : 0 ≤ ∑ j : Fin i, |A i j| * c j := Finset.sum_nonneg fun j _ => mul_nonneg (abs_nonneg _) (hc0 j)
    refine ⟨|G| + ℓ * (1 + |S| * ∑ j : Fin i, |A i j| * c j), ?_, fun s a z hz h0 h1 => ?_⟩
    · exact add_nonneg (abs_nonneg _) (mul_nonneg hℓ (add_nonneg zero_le_one (mul_nonneg (abs_nonneg _) hs0)))
    · rw [stage]
      set w := a + s • ∑ j : Fin i, A i j • stage A g s a j with hw
      have h2 := norm_weighted_le (Finset.univ : Finset (Fin i)) (fun j => A i j) (fun j => stage A g s a j)
        (c := c) (r := 1 + ‖a - z‖) fun j _ => hc j s a z hz h0 h1
      have hn : 0 ≤ ‖a - z‖ := norm_nonneg _
      have hwz : ‖w - z‖ ≤ (1 + |S| * ∑ j : Fin i, |A i j| * c j) * (1 + ‖a - z‖) := by
        have e : w - z = (a - z) + s • ∑ j : Fin i, A i j • stage A g s a j := by rw [hw]; abel
        rw [e]
        refine (norm_add_le _ _).trans ?_
        rw [norm_smul, Real.norm_eq_abs, abs_of_nonneg h0, add_mul, one_mul, mul_assoc]
        refine add_le_add (by linarith) ((mul_le_mul_of_nonneg_left h2 h0).trans ?_)
        exact mul_le_mul_of_nonneg_right (h1.trans (le_abs_self S)) (mul_nonneg hs0 (by linarith))
      have h3 : ‖g w‖ ≤ ‖g z‖ + ‖g w - g z‖ := by
        have := norm_add_le (g z) (g w - g z)
        rwa [add_sub_cancel] at this
      have h4 := (hg w z).trans (mul_le_mul_of_nonneg_left hwz hℓ)
      have h5 := (hG z hz).trans (le_abs_self G)
      have h6 : |G| ≤ |G| * (1 + ‖a - z‖) := le_mul_of_one_le_right (abs_nonneg _) (by linarith)
      rw [add_mul, mul_assoc]
      linarith

theorem stage_step (A : ℕ → ℕ → ℝ) {ℓ S : ℝ} (hℓ : 0 ≤ ℓ) (hg : ∀ a b, ‖g a - g b‖ ≤ ℓ * ‖a - b‖) {Z : Set (Fin d → ℝ)}
    {G : ℝ} (hG : ∀ z ∈ Z, ‖g z‖ ≤ G) (i : ℕ) :
    ∃ c, 0 ≤ c ∧ ∀ s h a z, z ∈ Z → 0 ≤ s → s ≤ S → 0 ≤ h → h ≤ S →
      ‖stage A g s a i - stage A g h a i‖ ≤ c * (|s - h| * (1 + ‖a - z‖)) := by
  induction i using Nat.strong_induction_on with
  | _ i ih =>
    choose c hc0 hc using fun j : Fin i => ih j j.2
    choose c' hc0' hc' using fun j : Fin i => stage_bounded A (S := S) hℓ hg hG j.1
    have hs0 : 0 ≤ ∑ j : Fin i, |A i j| * c j := Finset.sum_nonneg fun j _ => mul_nonneg (abs_nonneg _) (hc0 j)
    have hs0' : 0 ≤ ∑ j : Fin i, |A i j| * c' j := Finset.sum_nonneg fun j _ => mul_nonneg (abs_nonneg _) (hc0' j)
    refine ⟨ℓ * (∑ j : Fin i, |A i j| * c' j + |S| * ∑ j : Fin i, |A i j| * c j), ?_, fun s h a z hz h0 h1 h2 h3 => ?_⟩
    · exact mul_nonneg hℓ (add_nonneg hs0' (mul_nonneg (abs_nonneg _) hs0))
    · rw [stage, stage]
      refine (hg _ _).trans ?_
      rw [mul_assoc]
      refine mul_le_mul_of_nonneg_left ?_ hℓ
      have e : a + s • ∑ j : Fin i, A i j • stage A g s a j - (a + h • ∑ j : Fin i, A i j • stage A g h a j)
          = (s - h) • (∑ j : Fin i, A i j • stage A g s a j)
            + h • ∑ j : Fin i, A i j • (stage A g s a j - stage A g h a j) := by
        simp only [smul_sub, Finset.sum_sub_distrib, sub_smul]
        abel
      have b1 := norm_weighted_le (Finset.univ : Finset (Fin i)) (fun j => A i j) (fun j => stage A g s a j)
        (c := c') (r := 1 + ‖a - z‖) fun j _ => hc' j s a z hz h0 h1
      have b2 := norm_weighted_le (Finset.univ : Finset (Fin i)) (fun j => A i j) (fun j => stage A g s a j - stage A g h a j)
        (c := c) (r := |s - h| * (1 + ‖a - z‖)) fun j _ => hc j s h a z hz h0 h1 h2 h3
      have hn : 0 ≤ |s - h| * (1 + ‖a - z‖) := by positivity
      rw [e]
      refine (norm_add_le _ _).trans ?_
      rw [norm_smul, norm_smul, Real.norm_eq_abs, Real.norm_eq_abs, abs_of_nonneg h2, add_mul, mul_assoc |S|]
      refine add_le_add ((mul_le_mul_of_nonneg_left b1 (abs_nonneg _)).trans (le_of_eq (by ring)))
        ((mul_le_mul_of_nonneg_left b2 h2).trans ?_)
      exact mul_le_mul_of_nonneg_right (h3.trans (le_abs_self S)) (mul_nonneg hs0 hn)

/-- Steps of an explicit Runge-Kutta formula with a Lipschitz vector field: stable, and Lipschitz in the step size. -/
theorem rkStep_stable (A : ℕ → ℕ → ℝ) (b : ℕ → ℝ) (n : ℕ) {ℓ S : ℝ} (hℓ : 0 ≤ ℓ) (hg : ∀ a b, ‖g a - g b‖ ≤ ℓ * ‖a - b‖)
    {Z : Set (Fin d → ℝ)} {G : ℝ} (hG : ∀ z ∈ Z, ‖g z‖ ≤ G) :
    ∃ L, 0 ≤ L ∧ (∀ s a c, 0 ≤ s → s ≤ S → ‖rkStep A b n g s a - rkStep A b n g s c‖ ≤ (1 + L * s) * ‖a - c‖) ∧
      ∀ s h a z, z ∈ Z → 0 ≤ s → s ≤ S → 0 ≤ h → h ≤ S →
        ‖rkStep A b n g s a - rkStep A b n g h a‖ ≤ L * (|s - h| * (1 + ‖a - z‖)) := by
  choose c1 h10 h1 using fun i => stage_lipschitz (g := g) A (S := S) hℓ hg i
  choose c2 h20 h2 using fun i => stage_bounded (g := g) A (S := S) hℓ hg hG i
  choose c3 h30 h3 using fun i => stage_step (g := g) A (S := S) hℓ hg hG i
  have s1 : 0 ≤ ∑ i ∈ range n, |b i| * c1 i := Finset.sum_nonneg fun j _ => mul_nonneg (abs_nonneg _) (h10 j)
  have s2 : 0 ≤ ∑ i ∈ range n, |b i| * c2 i := Finset.sum_nonneg fun j _ => mul_nonneg (abs_nonneg _) (h20 j)
  have s3 : 0 ≤ ∑ i ∈ range n, |b i| * c3 i := Finset.sum_nonneg fun j _ => mul_nonneg (abs_nonneg _) (h30 j)
  refine ⟨∑ i ∈ range n, |b i| * c1 i + (∑ i ∈ range n, |b i| * c2 i + |S| * ∑ i ∈ range n, |b i| * c3 i), ?_, ?_, ?_⟩
  · exact add_nonneg s1 (add_nonneg s2 (mul_nonneg (abs_nonneg _) s3))
  · intro s a c l0 l1
    have e : rkStep A b n g s a - rkStep A b n g s c
        = (a - c) + s • ∑ i ∈ range n, b i • (stage A g s a i - stage A g s c i) := by
      simp only [rkStep, smul_sub, Finset.sum_sub_distrib]
      abel
    have b1 := norm_weighted_le (range n) b (fun i => stage A g s a i - stage A g s c i) (c := c1) (r := ‖a - c‖)
      fun i _ => h1 i s a c l0 l1
    rw [e]
    refine (norm_add_le _ _).trans ?_
    rw [norm_smul, Real.norm_eq_abs, abs_of_nonneg l0, add_mul, one_mul]
    refine add_le_add le_rfl ((mul_le_mul_of_nonneg_left b1 l0).trans ?_)
    rw [← mul_assoc, mul_comm s]
    refine mul_le_mul_of_nonneg_right (mul_le_mul_of_nonneg_right ?_ l0) (norm_nonneg _)
    exact le_add_of_nonneg_right (add_nonneg s2 (mul_nonneg (abs_nonneg _) s3))
  · intro s h a z hz l0 l1 l2 l3
    have e : rkStep A b n g s a - rkStep A b n g h a
        = (s - h) • (∑ i ∈ range n, b i • stage A g s a i) + h • ∑ i ∈ range n, b i • (stage A g s a i - stage A g h a i) := by
      simp only [rkStep, smul_sub, Finset.sum_sub_distrib, sub_smul]
      abel
    have b1 := norm_weighted_le (range n) b (fun i => stage A g s a i) (c := c2) (r := 1 + ‖a - z‖)
      fun i _ => h2 i s a z hz l0 l1
    have b2 := norm_weighted_le (range n) b (fun i => stage A g s a i - stage A g h a i) (c := c3) (r := |s - h| * (1 + ‖a - z‖))
      fun i _ => h3 i s h a z hz l0 l1 l2 l3
    have hn : 0 ≤ |s - h| * (1 + ‖a - z‖) := by positivity
    rw [e]
    refine (norm_add_le _ _).trans ?_
    rw [norm_smul, norm_smul, Real.norm_eq_abs, Real.norm_eq_abs, abs_of_nonneg l2, add_mul, add_mul]
    have b3 := mul_le_mul_of_nonneg_left b1 (abs_nonneg (s - h))
    have b4 := (mul_le_mul_of_nonneg_left b2 l2).trans
      (mul_le_mul_of_nonneg_right (l3.trans (le_abs_self S)) (mul_nonneg s3 hn))
    have b5 : 0 ≤ (∑ i ∈ range n, |b i| * c1 i) * (|s - h| * (1 + ‖a - z‖)) := mul_nonneg s1 hn
    calc _ ≤ |s - h| * ((∑ i ∈ range n, |b i| * c2 i) * (1 + ‖a - z‖))
          + |S| * ((∑ i ∈ range n, |b i| * c3 i) * (|s - h| * (1 + ‖a - z‖))) := add_le_add b3 b4
      _ ≤ _ := by
        rw [← sub_nonneg]
        refine b5.trans (le_of_eq ?_)
        ring

end Probnum.Perturbed
