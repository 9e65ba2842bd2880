import Mathlib.Analysis.MeanInequalities
import Verif.Perturbed.PropsConverge

/-!
# C115: the order of convergence cannot be improved
-/

namespace Probnum.Perturbed

open Finset
open OdeFilter (InitialValue StopsFine)

variable {d : ℕ}

/-- A step that agrees with the exponential series up to the order `p`, with the largest uniform perturbation, overshoots the exact
solution of `y' = y`. -/
theorem step_overshoots {p : ℕ} (hp : 1 ≤ p) {σ dt : ℝ} (hσ : 0 < σ) (h0 : 0 < dt) (h1 : dt ≤ 1 / 3) (h2 : dt ≤ σ ^ 2 / 16) {s : ℝ}
    (hs : s = dt + σ * dt ^ ((p : ℝ) + 1 / 2)) :
    Real.exp dt * (1 + σ / 2 * dt ^ ((p : ℝ) + 1 / 2)) ≤ ∑ k ∈ range (p + 1), s ^ k / k.factorial := by
  have hw : 0 ≤ dt ^ ((p : ℝ) + 1 / 2) := Real.rpow_nonneg h0.le _
  have h4 : dt ^ (p + 1) = √dt * dt ^ ((p : ℝ) + 1 / 2) := by
    rw [Real.sqrt_eq_rpow, ← Real.rpow_add h0, ← Real.rpow_natCast]
    congr 1
    push_cast
    ring
  have hsq : √dt ≤ σ / 4 := by
    rw [show σ / 4 = √((σ / 4) ^ 2) by rw [Real.sqrt_sq (by positivity)]]
    exact Real.sqrt_le_sqrt (by rw [div_pow]; norm_num; linarith)
  have hexp : Real.exp dt ≤ ∑ k ∈ range (p + 1), dt ^ k / k.factorial + dt ^ (p + 1) := by
    refine (Real.exp_bound' h0.le (by linarith) (n := p + 1) (by omega)).trans (add_le_add_right ?_ _)
    have hf : (2 : ℝ) ≤ (p + 1).factorial := by
      exact_mod_cast (Nat.self_le_factorial (p + 1)).trans' (by omega)
    have hp' : (1 : ℝ) ≤ p := by exact_mod_cast hp
    rw [mul_div_assoc]
    refine mul_le_of_le_one_right (by positivity) ?_
    rw [div_le_one (by positivity)]
    push_cast
    nlinarith
  have hexp2 : Real.exp dt ≤ 3 / 2 := by
    have := Real.exp_bound' h0.le (by linarith) (n := 2) (by norm_num)
    norm_num [Finset.sum_range_succ, Nat.factorial] at this
    nlinarith
  have hd4 : dt ^ (p + 1) ≤ σ / 4 * dt ^ ((p : ℝ) + 1 / 2) := by
    rw [h4]
    exact mul_le_mul_of_nonneg_right hsq hw
  generalize dt ^ ((p : ℝ) + 1 / 2) = w at *
  have hsd : dt ≤ s := by rw [hs]; linarith [mul_nonneg hσ.le hw]
  have hsum : ∑ k ∈ range (p + 1), dt ^ k / k.factorial + σ * w ≤ ∑ k ∈ range (p + 1), s ^ k / k.factorial := by
    obtain ⟨q, rfl⟩ : ∃ q, p = q + 1 := ⟨p - 1, by omega⟩
    rw [sum_range_succ', sum_range_succ', sum_range_succ' (fun k => s ^ k / (k.factorial : ℝ)),
      sum_range_succ' (fun k => s ^ (k + 1) / ((k + 1).factorial : ℝ))]
    have : ∑ k ∈ range q, dt ^ (k + 1 + 1) / ((k + 1 + 1).factorial : ℝ) ≤ ∑ k ∈ range q, s ^ (k + 1 + 1) / ((k + 1 + 1).factorial : ℝ) :=
      sum_le_sum fun k _ => div_le_div_of_nonneg_right (pow_le_pow_left₀ h0.le hsd _) (by positivity)
    norm_num at this ⊢
    linarith
  have e4 := mul_le_mul_of_nonneg_right hexp2 (mul_nonneg (half_pos hσ).le hw)
  have e5 : Real.exp dt * (1 + σ / 2 * w) = Real.exp dt + Real.exp dt * (σ / 2 * w) := by ring
  rw [e5]
  linarith

/-- A step of either method on `y' = y` with a nonnegative step. -/
theorem step_expands (c : Method → ℕ → ℝ) (m : Method) (t s : ℝ) (y : Fin d → ℝ) (hs : 0 ≤ s) :
    ∃ R, ∑ k ∈ range (m.order + 1), s ^ k / k.factorial ≤ R ∧
      ((scipyFormulas c m).rk fun _ y => y).stepY t y (((scipyFormulas c m).rk fun _ y => y).rhs t y) s = R • y := by
  cases m
  · have e := scipyFormula_autonomous a45 b45 (c .rk45) 6 (fun y : Fin d → ℝ => (1 : ℝ) • y) t y s
    rw [rk45_linear] at e
    simp only [one_smul, one_mul] at e
    refine ⟨_, ?_, e⟩
    norm_num [Method.order, Finset.sum_range_succ, Nat.factorial]
    positivity
  · have e := scipyFormula_autonomous a23 b23 (c .rk23) 3 (fun y : Fin d → ℝ => (1 : ℝ) • y) t y s
    rw [rk23_linear] at e
    simp only [one_smul, one_mul] at e
    refine ⟨_, ?_, e⟩
    norm_num [Method.order, Finset.sum_range_succ, Nat.factorial]

/-- **C115, sharpness.**  The order `p - 1/2` cannot be improved: on `y' = y` there is for both methods a realisation of the
uniform perturbations (all draws equal to 1) for which the error at the final time is at least a constant times
`step^(order - 1/2)`. -/
theorem perturbsolve_rate_sharp (m : Method) (c : Method → ℕ → ℝ) (t0 T σ : ℝ) (hσ : 0 < σ) (hT : t0 < T) :
    ∃ κ H₁, 0 < κ ∧ 0 < H₁ ∧ ∀ (a : Args d) (h : ℝ), a.f = (fun _ y => y) → a.t0 = t0 → a.tmax = T →
      a.y0 = .vector (fun _ => 1) → chooseMethod a.method = .ok m → a.perturb = "step-uniform" → a.noiseScale = σ → a.adaptive = false →
      a.step = some h → a.timeStops = none → 0 < h → h ≤ H₁ →
      ∃ n sol y, (∀ k, n ≤ k → perturbsolveIvp (scipyFormulas c) a (fun _ => 1) k = some (.ok sol)) ∧
        sol.locs.getLast? = some T ∧ sol.states.getLast? = some y ∧
        ∀ j, κ * h ^ ((m.order : ℝ) - 1 / 2) ≤ y j - Real.exp (T - t0) := by
  have hD : 0 < T - t0 := by linarith
  refine ⟨σ / 2 * ((T - t0) / 2 ^ ((m.order : ℝ) - 1 / 2)), min (1 / 3) (min (σ ^ 2 / 16) (T - t0)), by positivity,
    lt_min (by norm_num) (lt_min (by positivity) hD), ?_⟩
  intro a h hf ht0 htT hy hm hpu hns had hs hstops hpos hle
  have l1 : h ≤ 1 / 3 := hle.trans (min_le_left _ _)
  have l2 : h ≤ σ ^ 2 / 16 := hle.trans ((min_le_right _ _).trans (min_le_left _ _))
  have l3 : h ≤ T - t0 := hle.trans ((min_le_right _ _).trans (min_le_right _ _))
  have hfine : StopsFine a.t0 a.timeStops := by rw [hstops]; simp [StopsFine]
  have hfit : a.t0 + h ≤ a.tmax := by rw [ht0, htT]; linarith
  have hmem : a.method ∈ ["RK45", "RK23"] := by
    unfold chooseMethod at hm
    split at hm
    · rename_i h'; simp [h']
    · split at hm
      · rename_i h'; simp [h']
      · cases hm
  have hp3 : (3 : ℝ) ≤ m.order := by cases m <;> norm_num [Method.order]
  have hp1 : 1 ≤ m.order := by cases m <;> decide
  obtain ⟨n, sol, hsol⟩ := perturbsolve_constant_succeeds (scipyFormulas c) (a := a) (draws := fun _ => 1) ⟨_, hy⟩ had hs hpos hfit hfine
    hmem (Or.inr ⟨hpu, by linarith⟩)
  have hn := hsol n le_rfl
  obtain ⟨m', p, y0, es, hm', hp', hy', hrun, hdt, hdraw, hacc⟩ := perturbsolve_is_run hn (Or.inl hs) hpos hfit hfine
  obtain rfl : m = m' := Except.ok.inj (hm.symm.trans hm')
  obtain rfl : Perturbation.uniform = p :=
    Except.ok.inj ((show choosePerturbation a.perturb = .ok .uniform by rw [hpu]; rfl).symm.trans hp')
  obtain rfl : (fun _ => 1) = y0 := by
    rw [hy] at hy'
    exact InitialValue.vector.inj hy'
  have hcount := perturbsolve_steps_bounded hn had hs hpos hfit hfine
  obtain ⟨g1, g2, g3, -⟩ := perturbsolve_grid_partial hn (Or.inl hs) hpos hfit hfine
  obtain ⟨b1, b2, -, b4, b5, -⟩ := bookkeeping _ _ _ _ _ _ hrun
  have hall : acceptedOf es = es := List.filter_eq_self.2 fun e he => (hacc had e he).1
  rw [hall] at b1 b2
  have hrec := states_recursion _ _ _ _ es sol hrun (fun e he => (hacc had e he).1) (Or.inl fun _ _ _ => by rw [hf]; rfl)
  set δ : ℕ → ℝ := fun i => if hi : i < es.length then es[i].dt else 0 with hδ
  have hδ0 : ∀ i, 0 ≤ δ i := fun i => by
    rw [hδ]
    dsimp only
    split
    · exact (hdt _ (List.getElem_mem _)).le
    · exact le_rfl
  have key : ∀ i, i ≤ es.length → ∃ t y, sol.locs[i]? = some t ∧ sol.states[i]? = some y ∧ t = t0 + ∑ k ∈ range i, δ k ∧
      ∀ j, Real.exp (t - t0) * (1 + σ / 2 * ∑ k ∈ range i, δ k ^ ((m.order : ℝ) + 1 / 2)) ≤ y j := by
    intro i
    induction i with
    | zero =>
      intro _
      exact ⟨t0, _, by rw [b4, ht0], b5, by simp, fun j => by simp⟩
    | succ i ih =>
      intro hi
      obtain ⟨t, y, e1, e2, e3, e4⟩ := ih (by omega)
      obtain ⟨noisy, t', y', r1, r2, r3, r4, r5⟩ := hrec i hi
      obtain rfl := Option.some.inj (e1.symm.trans r2)
      obtain rfl := Option.some.inj (e2.symm.trans r3)
      have hδi : δ i = es[i].dt := by rw [hδ]; exact dif_pos hi
      obtain ⟨-, hdh⟩ := hacc had _ (List.getElem_mem hi)
      have hdp := hdt _ (List.getElem_mem hi)
      rw [hdraw i hi] at r1
      rw [← hδi] at r1 r4 hdh hdp
      have hnoisy : noisy = δ i + σ * δ i ^ ((m.order : ℝ) + 1 / 2) := by
        change perturbUniform m.order a.noiseScale (δ i) 1 = .ok noisy at r1
        rw [perturbUniform, if_neg (by linarith)] at r1
        have := Except.ok.inj r1
        rw [← this, hns]
        norm_num
      have hn0 : 0 ≤ noisy := by
        rw [hnoisy]
        exact add_nonneg hdp.le (mul_nonneg hσ.le (Real.rpow_nonneg hdp.le _))
      obtain ⟨R, hR, hstep⟩ := step_expands c m t noisy y hn0
      rw [hf, hstep] at r5
      refine ⟨_, _, r4, r5, by rw [e3, sum_range_succ]; ring, fun j => ?_⟩
      rw [Pi.smul_apply, smul_eq_mul]
      have ho := (step_overshoots hp1 hσ hdp (by linarith) (by linarith) hnoisy).trans hR
      have hw : 0 ≤ δ i ^ ((m.order : ℝ) + 1 / 2) := Real.rpow_nonneg (hδ0 i) _
      have hS : 0 ≤ ∑ k ∈ range i, δ k ^ ((m.order : ℝ) + 1 / 2) := sum_nonneg fun k _ => Real.rpow_nonneg (hδ0 k) _
      rw [sum_range_succ]
      generalize δ i ^ ((m.order : ℝ) + 1 / 2) = w at *
      generalize ∑ k ∈ range i, δ k ^ ((m.order : ℝ) + 1 / 2) = S at *
      have hpe := (Real.exp_pos (δ i)).le
      have hpt := (Real.exp_pos (t - t0)).le
      calc Real.exp (t + δ i - t0) * (1 + σ / 2 * (S + w))
          ≤ Real.exp (t + δ i - t0) * ((1 + σ / 2 * w) * (1 + σ / 2 * S)) := by
            refine mul_le_mul_of_nonneg_left ?_ (Real.exp_pos _).le
            nlinarith [mul_nonneg (mul_nonneg hσ.le hw) (mul_nonneg hσ.le hS)]
        _ = (Real.exp (δ i) * (1 + σ / 2 * w)) * (Real.exp (t - t0) * (1 + σ / 2 * S)) := by
            rw [show t + δ i - t0 = δ i + (t - t0) by ring, Real.exp_add]; ring
        _ ≤ _ := mul_le_mul ho (e4 j) (by positivity) ((by positivity : (0:ℝ) ≤ Real.exp (δ i) * (1 + σ / 2 * w)).trans ho)
  obtain ⟨t, y, e1, e2, e3, e4⟩ := key es.length le_rfl
  have hlast : t = T := by
    rw [List.getLast?_eq_getElem?, b1, Nat.add_sub_cancel, e1, htT] at g2
    exact Option.some.inj g2
  subst hlast
  refine ⟨n, sol, y, hsol, by rw [g2, htT], by rw [List.getLast?_eq_getElem?, b2, Nat.add_sub_cancel, e2], fun j => ?_⟩
  have hsum : ∑ k ∈ range es.length, δ k = t - t0 := by linarith
  have hpm := Real.rpow_sum_le_const_mul_sum_rpow_of_nonneg (s := range es.length) (f := δ) (p := (m.order : ℝ) + 1 / 2) (by linarith) fun i _ => hδ0 i
  rw [hsum, card_range, show (m.order : ℝ) + 1 / 2 - 1 = (m.order : ℝ) - 1 / 2 by ring] at hpm
  have hN : (es.length : ℝ) ≤ 2 * (t - t0) / h := by
    rw [b1, ht0, htT, hstops] at hcount
    push_cast at hcount
    simp only [Option.getD_none, List.length_nil, Nat.cast_zero, add_zero] at hcount
    have : 1 ≤ (t - t0) / h := by rw [le_div_iff₀ hpos]; linarith
    rw [mul_div_assoc]
    linarith
  have hS0 : 0 ≤ ∑ k ∈ range es.length, δ k ^ ((m.order : ℝ) + 1 / 2) := sum_nonneg fun k _ => Real.rpow_nonneg (hδ0 k) _
  have hej := e4 j
  generalize ∑ k ∈ range es.length, δ k ^ ((m.order : ℝ) + 1 / 2) = S at *
  have hNp : (es.length : ℝ) ^ ((m.order : ℝ) - 1 / 2) ≤ (2 * (t - t0) / h) ^ ((m.order : ℝ) - 1 / 2) := Real.rpow_le_rpow (Nat.cast_nonneg _) hN (by linarith)
  have hlow : (t - t0) / 2 ^ ((m.order : ℝ) - 1 / 2) * h ^ ((m.order : ℝ) - 1 / 2) ≤ S := by
    have h3 := hpm.trans (mul_le_mul_of_nonneg_right hNp hS0)
    rw [Real.div_rpow (by positivity) hpos.le, Real.mul_rpow (by norm_num) hD.le,
      show (m.order : ℝ) + 1 / 2 = 1 + ((m.order : ℝ) - 1 / 2) by ring, Real.rpow_add hD, Real.rpow_one] at h3
    have q1 : 0 < (t - t0) ^ ((m.order : ℝ) - 1 / 2) := by positivity
    have q2 : 0 < h ^ ((m.order : ℝ) - 1 / 2) := by positivity
    have q3 : (0 : ℝ) < 2 ^ ((m.order : ℝ) - 1 / 2) := by positivity
    generalize (t - t0) ^ ((m.order : ℝ) - 1 / 2) = D at *
    generalize h ^ ((m.order : ℝ) - 1 / 2) = E at *
    generalize (2 : ℝ) ^ ((m.order : ℝ) - 1 / 2) = F at *
    rw [div_mul_eq_mul_div, le_div_iff₀ q2] at h3
    rw [div_mul_eq_mul_div, div_le_iff₀ q3]
    exact le_of_mul_le_mul_right (by linarith) q1
  have hone : 1 ≤ Real.exp (t - t0) := Real.one_le_exp hD.le
  have h5 := mul_le_mul_of_nonneg_left hlow (half_pos hσ).le
  have h6 : σ / 2 * S ≤ Real.exp (t - t0) * (σ / 2 * S) := le_mul_of_one_le_left (by positivity) hone
  calc σ / 2 * ((t - t0) / 2 ^ ((m.order : ℝ) - 1 / 2)) * h ^ ((m.order : ℝ) - 1 / 2) = σ / 2 * ((t - t0) / 2 ^ ((m.order : ℝ) - 1 / 2) * h ^ ((m.order : ℝ) - 1 / 2)) := by ring
    _ ≤ Real.exp (t - t0) * (σ / 2 * S) := h5.trans h6
    _ = Real.exp (t - t0) * (1 + σ / 2 * S) - Real.exp (t - t0) := by ring
    _ ≤ y j - Real.exp (t - t0) := by linarith

/-- The hypotheses are met: `y' = y` on `[0, 1]` with the default method `RK45` and the default noise scale. -/
example : ∃ κ H₁, 0 < κ ∧ 0 < H₁ ∧ ∀ h : ℝ, 0 < h → h ≤ H₁ →
    ∃ n sol y, (∀ k, n ≤ k → perturbsolveIvp (scipyFormulas fun _ _ => 0)
        { Args.defaults (fun _ y => y) 0 1 (.vector (fun _ : Fin 1 => 1)) with
          perturb := "step-uniform", adaptive := false, step := some h } (fun _ => 1) k = some (.ok sol)) ∧
      sol.locs.getLast? = some 1 ∧ sol.states.getLast? = some y ∧ ∀ j, κ * h ^ (9 / 2 : ℝ) ≤ y j - Real.exp (1 - 0) := by
  obtain ⟨κ, H₁, p1, p2, r⟩ := perturbsolve_rate_sharp (d := 1) .rk45 (fun _ _ => 0) 0 1 10 (by norm_num) one_pos
  rw [show ((Method.order .rk45 : ℕ) : ℝ) - 1 / 2 = 9 / 2 by norm_num [Method.order]] at r
  exact ⟨κ, H₁, p1, p2, fun h h0 h1 => r
    { Args.defaults (fun _ y => y) 0 1 (.vector (fun _ : Fin 1 => 1)) with
      perturb := "step-uniform", adaptive := false, step := some h } h
    rfl rfl rfl rfl rfl rfl rfl rfl rfl rfl h0 h1⟩

end Probnum.Perturbed
