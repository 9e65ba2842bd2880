import Mathlib.Analysis.SpecialFunctions.Exponential
import Mathlib.Probability.Moments.SubGaussian
import Mathlib.Probability.Distributions.Gaussian.Real
import Verif.Perturbed.Converge
import Verif.Perturbed.PropsSolve

/-!
# C115: convergence of the perturbed Runge-Kutta solver
-/

namespace Probnum.Perturbed

open Finset
open OdeFilter (InitialValue StopsFine)

variable {d : ℕ} {K : Type}

/-- The bound on the error: what the initial error `e` and local errors of `R` per unit of time can grow to. -/
noncomputable def growth (L e R t0 t : ℝ) : ℝ := Real.exp (L * (t - t0)) * (e + (t - t0) * R)

theorem growth_step {L e R t0 t h : ℝ} (hL : 0 ≤ L) (he : 0 ≤ e) (hR : 0 ≤ R) (ht : t0 ≤ t) (hh : 0 ≤ h) :
    (1 + L * h) * growth L e R t0 t + h * R ≤ growth L e R t0 (t + h) := by
  have h1 : growth L e R t0 (t + h) = Real.exp (L * h) * growth L e R t0 t + Real.exp (L * (t + h - t0)) * (h * R) := by
    rw [growth, growth, show L * (t + h - t0) = L * h + L * (t - t0) by ring, Real.exp_add]
    ring
  have h2 : 1 + L * h ≤ Real.exp (L * h) := by linarith [Real.add_one_le_exp (L * h)]
  have h3 : 1 ≤ Real.exp (L * (t + h - t0)) := Real.one_le_exp (mul_nonneg hL (by linarith))
  have h4 : 0 ≤ growth L e R t0 t := mul_nonneg (Real.exp_pos _).le (add_nonneg he (mul_nonneg (by linarith) hR))
  rw [h1]
  exact add_le_add (mul_le_mul_of_nonneg_right h2 h4) (le_mul_of_one_le_left (mul_nonneg hh hR) h3)

/-- The draw of the uniform perturbation moves a step `dt ≤ H` by at most `σ H^(p - 1/2) dt`. -/
theorem uniform_close {p : ℕ} (hp : 1 ≤ p) {σ dt H u s : ℝ} (hσ : 0 ≤ σ) (hdt : 0 < dt) (hH : dt ≤ H) (hu0 : 0 ≤ u) (hu1 : u ≤ 1)
    (h : perturbUniform p σ dt u = .ok s) : |s - dt| ≤ σ * H ^ ((p : ℝ) - 1 / 2) * dt := by
  have hlt : dt < 1 := by
    by_contra hge
    rw [perturbUniform, if_pos (not_lt.1 hge)] at h
    cases h
  obtain ⟨s', e1, e2, -⟩ := (uniform_bounds p σ dt hσ hdt).2.1 hlt u hu0 hu1
  rw [h] at e1
  obtain rfl := Except.ok.inj e1
  refine e2.trans ?_
  have hpow : dt ^ ((p : ℝ) + 1 / 2) = dt ^ ((p : ℝ) - 1 / 2) * dt := by
    rw [← Real.rpow_add_one hdt.ne']; congr 1; ring
  rw [hpow, mul_assoc]
  refine mul_le_mul_of_nonneg_left (mul_le_mul_of_nonneg_right ?_ hdt.le) hσ
  have hp' : (1 : ℝ) ≤ p := by exact_mod_cast hp
  exact Real.rpow_le_rpow hdt.le hH (by linarith)

/-- Steps of any lengths up to `H` with perturbations that move each step by at most the fraction `q`. -/
theorem close_run_error (rk : Rk (Fin d → ℝ) K) {Φ : ℝ → (Fin d → ℝ) → Fin d → ℝ} {x : ℝ → Fin d → ℝ} {t0 T H L C q : ℝ} {p : ℕ}
    {perturb : ℝ → ℝ → Res ℝ} (hL : 0 ≤ L) (hC : 0 ≤ C) (hq0 : 0 ≤ q) (hsmall : q ≤ 1)
    (hrhs : ∀ t t' y, rk.rhs t y = rk.rhs t' y) (hΦ : ∀ t y s, rk.stepY t y (rk.rhs t y) s = Φ s y)
    (hlocal : LocalOrder Φ x t0 T H C p)
    (hstable : ∀ s a c, 0 ≤ s → s ≤ 2 * H → ‖Φ s a - Φ s c‖ ≤ (1 + L * s) * ‖a - c‖)
    (hsmooth : ∀ s h a t, t0 ≤ t → t ≤ T → 0 ≤ s → s ≤ 2 * H → 0 ≤ h → h ≤ 2 * H →
      ‖Φ s a - Φ h a‖ ≤ L * (|s - h| * (1 + ‖a - x t‖)))
    {y0 : Fin d → ℝ} {es : List Event} {s : State (Fin d → ℝ) K} (h : run rk perturb t0 y0 es = .ok s)
    (hacc : ∀ e ∈ es, e.accepted = true ∧ 0 < e.dt ∧ e.dt ≤ H ∧ ∀ s', perturb e.dt e.draw = .ok s' → |s' - e.dt| ≤ q * e.dt) :
    ∀ (i : ℕ) t y, s.locs[i]? = some t → s.states[i]? = some y → t ≤ T →
      t0 ≤ t ∧ ‖y - x t‖ ≤ growth (2 * L) ‖y0 - x t0‖ (C * H ^ p + L * q) t0 t := by
  have hrec := states_recursion rk _ t0 y0 es s h (fun e he => (hacc e he).1) (Or.inl hrhs)
  obtain ⟨b1, -, -, b4, b5, -⟩ := bookkeeping rk _ t0 y0 es s h
  have hlen : s.locs.length = es.length + 1 := by
    rwa [show acceptedOf es = es from List.filter_eq_self.2 fun e he => (hacc e he).1] at b1
  intro i
  induction i with
  | zero =>
    intro t y ht hy hT
    obtain rfl := Option.some.inj (b4.symm.trans ht)
    obtain rfl := Option.some.inj (b5.symm.trans hy)
    exact ⟨le_rfl, by simp [growth]⟩
  | succ i ih =>
    intro t y ht hy hT
    have hi : i < es.length := by
      have := (List.getElem?_eq_some_iff.1 ht).1
      omega
    obtain ⟨-, hdt, hdH, hu⟩ := hacc es[i] (List.getElem_mem hi)
    obtain ⟨noisy, t', y', r1, r2, r3, r4, r5⟩ := hrec i hi
    rw [ht] at r4
    rw [hy] at r5
    obtain rfl := Option.some.inj r4
    obtain rfl := Option.some.inj r5
    set dt := es[i].dt with hdtdef
    obtain ⟨g1, g2⟩ := ih t' y' r2 r3 (by linarith)
    have hH : 0 < H := hdt.trans_le hdH
    have hclose : |noisy - dt| ≤ q * dt := hu noisy r1
    have hclose' : |noisy - dt| ≤ dt := hclose.trans (mul_le_of_le_one_left hdt.le hsmall)
    obtain ⟨c1, c2⟩ := abs_le.1 hclose'
    refine ⟨by linarith, ?_⟩
    rw [hΦ]
    have k1 := hsmooth noisy dt y' t' g1 (by linarith) (by linarith) (by linarith) hdt.le (by linarith)
    have k2 := hstable dt y' (x t') hdt.le (by linarith)
    have k3 := hlocal t' dt g1 hdt hdH hT
    have e : Φ noisy y' - x (t' + dt) = (Φ noisy y' - Φ dt y') + (Φ dt y' - Φ dt (x t')) + (Φ dt (x t') - x (t' + dt)) := by abel
    have hpow : dt ^ (p + 1) ≤ dt * H ^ p := by
      rw [pow_succ, mul_comm]
      exact mul_le_mul_of_nonneg_left (pow_le_pow_left₀ hdt.le hdH p) hdt.le
    have hn := norm_nonneg (y' - x t')
    have k4 : L * (|noisy - dt| * (1 + ‖y' - x t'‖)) ≤ L * (q * dt) + L * (dt * ‖y' - x t'‖) := by
      rw [← mul_add]
      refine mul_le_mul_of_nonneg_left ?_ hL
      rw [mul_add, mul_one]
      exact add_le_add hclose (mul_le_mul_of_nonneg_right hclose' hn)
    have k5 := mul_le_mul_of_nonneg_left hpow hC
    have key : ‖Φ noisy y' - x (t' + dt)‖ ≤ (1 + 2 * L * dt) * ‖y' - x t'‖ + dt * (C * H ^ p + L * q) := by
      rw [e]
      refine (norm_add_le _ _).trans ((add_le_add (norm_add_le _ _) le_rfl).trans ?_)
      nlinarith
    refine key.trans ?_
    have h2L : 0 ≤ 1 + 2 * L * dt := by positivity
    exact (add_le_add (mul_le_mul_of_nonneg_left g2 h2L) le_rfl).trans
      (growth_step (by positivity) (norm_nonneg _) (by positivity) g1 hdt.le)

/-- **C115, for sequences of accepted attempts.**  Steps of any lengths up to `H` with the uniform perturbation: the error at all
reported times, whatever the draws are. -/
theorem uniform_run_error (rk : Rk (Fin d → ℝ) K) {Φ : ℝ → (Fin d → ℝ) → Fin d → ℝ} {x : ℝ → Fin d → ℝ} {t0 T H L C σ : ℝ} {p : ℕ}
    (hp : 1 ≤ p) (hσ : 0 ≤ σ) (hH : 0 ≤ H) (hL : 0 ≤ L) (hC : 0 ≤ C) (hsmall : σ * H ^ ((p : ℝ) - 1 / 2) ≤ 1)
    (hrhs : ∀ t t' y, rk.rhs t y = rk.rhs t' y) (hΦ : ∀ t y s, rk.stepY t y (rk.rhs t y) s = Φ s y)
    (hlocal : LocalOrder Φ x t0 T H C p)
    (hstable : ∀ s a c, 0 ≤ s → s ≤ 2 * H → ‖Φ s a - Φ s c‖ ≤ (1 + L * s) * ‖a - c‖)
    (hsmooth : ∀ s h a t, t0 ≤ t → t ≤ T → 0 ≤ s → s ≤ 2 * H → 0 ≤ h → h ≤ 2 * H →
      ‖Φ s a - Φ h a‖ ≤ L * (|s - h| * (1 + ‖a - x t‖)))
    {y0 : Fin d → ℝ} {es : List Event} {s : State (Fin d → ℝ) K} (h : run rk (perturbUniform p σ) t0 y0 es = .ok s)
    (hacc : ∀ e ∈ es, e.accepted = true ∧ 0 < e.dt ∧ e.dt ≤ H ∧ 0 ≤ e.draw ∧ e.draw ≤ 1) :
    ∀ (i : ℕ) t y, s.locs[i]? = some t → s.states[i]? = some y → t ≤ T →
      t0 ≤ t ∧ ‖y - x t‖ ≤ growth (2 * L) ‖y0 - x t0‖ (C * H ^ p + L * (σ * H ^ ((p : ℝ) - 1 / 2))) t0 t :=
  close_run_error rk hL hC (mul_nonneg hσ (Real.rpow_nonneg hH _)) hsmall hrhs hΦ hlocal hstable hsmooth h fun e he =>
    ⟨(hacc e he).1, (hacc e he).2.1, (hacc e he).2.2.1, fun _ hs' =>
      uniform_close hp hσ (hacc e he).2.1 (hacc e he).2.2.1 (hacc e he).2.2.2.1 (hacc e he).2.2.2.2 hs'⟩

theorem pairwise_le_getLast {l : List ℝ} (hp : l.Pairwise (· < ·)) {hne : l ≠ []} {u : ℝ} (hu : u ∈ l) : u ≤ l.getLast hne := by
  obtain ⟨i, hi, rfl⟩ := List.getElem_of_mem hu
  rw [List.getLast_eq_getElem]
  rcases Nat.lt_or_ge i (l.length - 1) with hlt | hge
  · exact (List.pairwise_iff_getElem.1 hp i _ hi (by omega) hlt).le
  · exact le_of_eq (by congr 1; omega)

/-- A call with constant steps: if the perturbations that it uses move each step by at most the fraction `q`, the error at all
reported times is of the size of the local errors and `q`. -/
theorem perturbsolve_close_error {scipy : Method → Formula d K} {m : Method} (A : ℕ → ℕ → ℝ) (b : ℕ → ℝ) (stages : ℕ)
    {g : (Fin d → ℝ) → Fin d → ℝ} {ℓ : ℝ} (hℓ : 0 ≤ ℓ) (hg : ∀ y z, ‖g y - g z‖ ≤ ℓ * ‖y - z‖)
    (hrk : ∀ t y h, (scipy m).stepY (fun _ => g) t y (g y) h = rkStep A b stages g h y)
    {x : ℝ → Fin d → ℝ} {t0 T H₀ C : ℝ} (hx : ContinuousOn x (Set.Icc t0 T)) (hC : 0 ≤ C)
    (hlocal : LocalOrder (rkStep A b stages g) x t0 T H₀ C m.order) :
    ∃ L, 0 ≤ L ∧ ∀ (a : Args d) (h : ℝ) (draws : ℕ → ℝ) (p : Perturbation), a.f = (fun _ => g) → a.t0 = t0 → a.tmax = T →
      a.y0 = .vector (x t0) → chooseMethod a.method = .ok m → choosePerturbation a.perturb = .ok p →
      (a.perturb = "step-lognormal" ∨ (a.perturb = "step-uniform" ∧ h < 1)) → a.adaptive = false → a.step = some h →
      0 < h → h ≤ H₀ → t0 + h ≤ T → StopsFine t0 a.timeStops →
      ∃ n sol, (∀ k, n ≤ k → perturbsolveIvp scipy a draws k = some (.ok sol)) ∧
        sol.locs.head? = some t0 ∧ sol.locs.getLast? = some T ∧ sol.states.length = sol.locs.length ∧
        ∀ q, 0 ≤ q → q ≤ 1 → (∀ (i : ℕ) dt s, i + 1 < sol.locs.length → 0 < dt → dt ≤ h →
            p.fn m.order a.noiseScale dt (draws i) = .ok s → |s - dt| ≤ q * dt) →
          ∀ (i : ℕ) t y, sol.locs[i]? = some t → sol.states[i]? = some y →
            ‖y - x t‖ ≤ Real.exp (2 * L * (T - t0)) * ((T - t0) * (C * h ^ m.order + L * q)) := by
  obtain ⟨G, hG⟩ : ∃ G, ∀ z ∈ x '' Set.Icc t0 T, ‖g z‖ ≤ G := by
    have hgc : Continuous g := (LipschitzWith.of_dist_le_mul (K := ⟨ℓ, hℓ⟩) fun y z => by
      rw [dist_eq_norm, dist_eq_norm]; exact hg y z).continuous
    obtain ⟨G, hG⟩ := (isCompact_Icc.image_of_continuousOn (hgc.comp_continuousOn hx)).isBounded.exists_norm_le
    refine ⟨G, ?_⟩
    rintro _ ⟨t, ht, rfl⟩
    exact hG _ ⟨t, ht, rfl⟩
  obtain ⟨L, hL, hst, hsm⟩ := rkStep_stable A b stages (S := 2 * H₀) hℓ hg hG
  refine ⟨L, hL, ?_⟩
  intro a h draws p hf ht0 hT hy hm hpu hpl had hs hpos hle0 hfit hstops
  have hmem : a.method ∈ ["RK45", "RK23"] := by
    unfold chooseMethod at hm
    split at hm
    · rename_i h'; simp [h']
    · split at hm
      · rename_i h'; simp [h']
      · cases hm
  obtain ⟨n, sol, hsol⟩ := perturbsolve_constant_succeeds scipy (a := a) (draws := draws) ⟨_, hy⟩ had hs hpos
    (by rw [ht0, hT]; exact hfit) (by rw [ht0]; exact hstops) hmem hpl
  have hn := hsol n le_rfl
  obtain ⟨m', p', y0, es, hm', hp', hy', hrun, hdt, hdraw, hacc⟩ := perturbsolve_is_run hn (Or.inl hs) hpos
    (by rw [ht0, hT]; exact hfit) (by rw [ht0]; exact hstops)
  obtain rfl : m = m' := Except.ok.inj (hm.symm.trans hm')
  obtain rfl : x t0 = y0 := by
    rw [hy] at hy'
    exact InitialValue.vector.inj hy'
  obtain rfl : p = p' := Except.ok.inj (hpu.symm.trans hp')
  obtain ⟨g1, g2, g3, -⟩ := perturbsolve_grid_partial hn (Or.inl hs) hpos (by rw [ht0, hT]; exact hfit) (by rw [ht0]; exact hstops)
  obtain ⟨b1, b2, -⟩ := bookkeeping _ _ _ _ _ _ hrun
  have hlen : sol.locs.length = es.length + 1 := by
    rwa [show acceptedOf es = es from List.filter_eq_self.2 fun e he => (hacc had e he).1] at b1
  rw [ht0] at hrun g1
  rw [hT] at g2
  rw [hf] at hrun
  refine ⟨n, sol, hsol, g1, g2, by rw [b1, b2], fun q hq0 hq1 hclose i t y e1 e2 => ?_⟩
  have htT : t ≤ T := by
    obtain ⟨hi, rfl⟩ := List.getElem?_eq_some_iff.1 e1
    have hne : sol.locs ≠ [] := by intro h0; rw [h0] at hi; simp at hi
    rw [List.getLast?_eq_some_getLast hne] at g2
    rw [← Option.some.inj g2, List.getLast_eq_getElem]
    rcases Nat.lt_or_ge i (sol.locs.length - 1) with hlt | hge
    · exact (List.pairwise_iff_getElem.1 g3 i _ hi (by omega) hlt).le
    · exact le_of_eq (by congr 1; omega)
  obtain ⟨q1, q2⟩ := close_run_error ((scipy m).rk fun _ => g) (Φ := rkStep A b stages g) (x := x) (T := T) (H := h) (L := L) (C := C)
    hL hC hq0 hq1 (fun _ _ _ => rfl) (fun t y s => hrk t y s)
    (fun t h' l1 l2 l3 l4 => hlocal t h' l1 l2 (l3.trans hle0) l4)
    (fun s y z l1 l2 => hst s y z l1 (by linarith))
    (fun s h' y t l1 l2 l3 l4 l5 l6 => hsm s h' y (x t) ⟨t, ⟨l1, l2⟩, rfl⟩ l3 (by linarith) l5 (by linarith))
    hrun (fun e he => by
      obtain ⟨i, hi, rfl⟩ := List.getElem_of_mem he
      refine ⟨((hacc had) _ he).1, hdt _ he, ((hacc had) _ he).2, fun s' hs' => ?_⟩
      rw [hdraw i hi] at hs'
      exact hclose i _ _ (by omega) (hdt _ he) ((hacc had) _ he).2 hs') i t y e1 e2 htT
  refine q2.trans ?_
  rw [growth, sub_self, norm_zero, zero_add]
  have hr : 0 ≤ C * h ^ m.order + L * q := by positivity
  refine mul_le_mul (Real.exp_le_exp.2 (mul_le_mul_of_nonneg_left (by linarith) (by positivity)))
    (mul_le_mul_of_nonneg_right (by linarith) hr) (mul_nonneg (by linarith) hr) (Real.exp_pos _).le

/-- **C115.**  `perturbsolve_ivp` with constant steps and the uniform perturbation, for an autonomous ODE with a Lipschitz vector
field: if the formula of scipy is an explicit Runge-Kutta formula whose local error along the solution `x` has the order that
the formula claims, then there is a constant such that for every realisation of the random numbers, all small steps and all
stop locations the solver returns, and its error is at most the constant times `step^(order - 1/2)` at all reported times. -/
theorem perturbsolve_uniform_converges {scipy : Method → Formula d K} {m : Method} (A : ℕ → ℕ → ℝ) (b : ℕ → ℝ) (stages : ℕ)
    {g : (Fin d → ℝ) → Fin d → ℝ} {ℓ : ℝ} (hℓ : 0 ≤ ℓ) (hg : ∀ y z, ‖g y - g z‖ ≤ ℓ * ‖y - z‖)
    (hrk : ∀ t y h, (scipy m).stepY (fun _ => g) t y (g y) h = rkStep A b stages g h y)
    {x : ℝ → Fin d → ℝ} {t0 T H₀ C σ : ℝ} (hx : ContinuousOn x (Set.Icc t0 T)) (hH₀ : 0 < H₀) (hC : 0 ≤ C)
    (hlocal : LocalOrder (rkStep A b stages g) x t0 T H₀ C m.order) (hσ : 0 ≤ σ) :
    ∃ Q H₁, 0 < H₁ ∧ ∀ (a : Args d) (h : ℝ) (draws : ℕ → ℝ), a.f = (fun _ => g) → a.t0 = t0 → a.tmax = T → a.y0 = .vector (x t0) →
      chooseMethod a.method = .ok m → a.perturb = "step-uniform" → a.noiseScale = σ → a.adaptive = false → a.step = some h →
      0 < h → h ≤ H₁ → t0 + h ≤ T → StopsFine t0 a.timeStops → (∀ i, 0 ≤ draws i ∧ draws i ≤ 1) →
      ∃ n sol, (∀ k, n ≤ k → perturbsolveIvp scipy a draws k = some (.ok sol)) ∧
        sol.locs.head? = some t0 ∧ sol.locs.getLast? = some T ∧ sol.states.length = sol.locs.length ∧
        ∀ (i : ℕ) t y, sol.locs[i]? = some t → sol.states[i]? = some y → ‖y - x t‖ ≤ Q * h ^ ((m.order : ℝ) - 1 / 2) := by
  obtain ⟨L, hL, hcall⟩ := perturbsolve_close_error A b stages hℓ hg hrk hx hC hlocal
  have hp : 1 ≤ m.order := by cases m <;> decide
  have hp3 : (3 : ℝ) ≤ m.order := by cases m <;> norm_num [Method.order]
  refine ⟨Real.exp (2 * L * (T - t0)) * ((T - t0) * (C + L * σ)), min H₀ (min (1 / 2) (1 / (σ + 1))), ?_, ?_⟩
  · exact lt_min hH₀ (lt_min (by norm_num) (by positivity))
  intro a h draws hf ht0 hT hy hm hpu hns had hs hpos hle hfit hstops hdraws
  have hle0 : h ≤ H₀ := hle.trans (min_le_left _ _)
  have hle1 : h ≤ 1 / 2 := hle.trans ((min_le_right _ _).trans (min_le_left _ _))
  have hle2 : h ≤ 1 / (σ + 1) := hle.trans ((min_le_right _ _).trans (min_le_right _ _))
  have hpowh : h ^ ((m.order : ℝ) - 1 / 2) ≤ h := by
    have := Real.rpow_le_rpow_of_exponent_ge hpos (by linarith) (show (1 : ℝ) ≤ (m.order : ℝ) - 1 / 2 by linarith)
    rwa [Real.rpow_one] at this
  have hsmall : σ * h ^ ((m.order : ℝ) - 1 / 2) ≤ 1 := by
    refine (mul_le_mul_of_nonneg_left (hpowh.trans hle2) hσ).trans ?_
    rw [mul_one_div, div_le_one (by positivity)]
    linarith
  obtain ⟨n, sol, r1, r2, r3, r4, r5⟩ := hcall a h draws .uniform hf ht0 hT hy hm (by rw [hpu]; rfl) (Or.inr ⟨hpu, by linarith⟩) had hs
    hpos hle0 hfit hstops
  refine ⟨n, sol, r1, r2, r3, r4, fun i t y e1 e2 => (r5 _ (mul_nonneg hσ (Real.rpow_nonneg hpos.le _)) hsmall
    (fun i dt s _ l1 l2 l3 => ?_) i t y e1 e2).trans ?_⟩
  · rw [hns] at l3
    exact uniform_close hp hσ l1 l2 (hdraws i).1 (hdraws i).2 l3
  have hr : C * h ^ m.order + L * (σ * h ^ ((m.order : ℝ) - 1 / 2)) ≤ (C + L * σ) * h ^ ((m.order : ℝ) - 1 / 2) := by
    have : h ^ m.order ≤ h ^ ((m.order : ℝ) - 1 / 2) := by
      rw [← Real.rpow_natCast]
      exact Real.rpow_le_rpow_of_exponent_ge hpos (by linarith) (by linarith)
    rw [add_mul, mul_assoc]
    exact add_le_add (mul_le_mul_of_nonneg_left this hC) le_rfl
  have htt : 0 ≤ T - t0 := by linarith
  calc _ ≤ Real.exp (2 * L * (T - t0)) * ((T - t0) * ((C + L * σ) * h ^ ((m.order : ℝ) - 1 / 2))) :=
        mul_le_mul_of_nonneg_left (mul_le_mul_of_nonneg_left hr htt) (Real.exp_pos _).le
    _ = _ := by ring

/-- The draw `z` of the lognormal perturbation with `|z| ≤ B` moves a step `dt ≤ H ≤ 1` by at most
`2 (√σ + σ) (1 + B) H^p dt`. -/
theorem lognormal_close {p : ℕ} {σ dt H z B s : ℝ} (hσ : 0 ≤ σ) (hdt : 0 < dt) (hH : dt ≤ H) (hH1 : H ≤ 1) (hz : |z| ≤ B)
    (hsmall : 2 * (√σ + σ) * ((1 + B) * H ^ p) ≤ 1) (h : perturbLognormal p σ dt z = .ok s) :
    |s - dt| ≤ 2 * (√σ + σ) * ((1 + B) * H ^ p) * dt := by
  have hs : s = Real.exp (Real.log dt - 0.5 * Real.log (1 + σ * dt ^ (2 * p)) + √(2 * (0.5 * Real.log (1 + σ * dt ^ (2 * p)))) * z) :=
    (Except.ok.inj h).symm
  set v := Real.log (1 + σ * dt ^ (2 * p)) with hv
  have hB : 0 ≤ B := (abs_nonneg z).trans hz
  have hpow : dt ^ p ≤ H ^ p := pow_le_pow_left₀ hdt.le hH p
  have hp0 : 0 ≤ dt ^ p := by positivity
  have hHp0 : 0 ≤ H ^ p := hp0.trans hpow
  have hHp1 : H ^ p ≤ 1 := pow_le_one₀ (hdt.le.trans hH) hH1
  have hvle : v ≤ σ * (H ^ p) ^ 2 := by
    have h1 : v ≤ σ * dt ^ (2 * p) := by
      have := Real.log_le_sub_one_of_pos (show 0 < 1 + σ * dt ^ (2 * p) by positivity)
      linarith
    refine h1.trans (mul_le_mul_of_nonneg_left ?_ hσ)
    rw [mul_comm 2 p, pow_mul]
    exact pow_le_pow_left₀ hp0 hpow 2
  have hv0 : 0 ≤ v := Real.log_nonneg (by have : 0 ≤ σ * dt ^ (2 * p) := by positivity
                                          linarith)
  have hsq : √v ≤ √σ * H ^ p := by
    rw [← Real.sqrt_sq hHp0, ← Real.sqrt_mul hσ]
    exact Real.sqrt_le_sqrt hvle
  set w := √v * z - v / 2 with hw
  have hexp : s = dt * Real.exp w := by
    rw [hs, show Real.log dt - 0.5 * v + √(2 * (0.5 * v)) * z = Real.log dt + w by
      rw [show (2 : ℝ) * (0.5 * v) = v by ring, hw]; ring, Real.exp_add, Real.exp_log hdt]
  have hwle : |w| ≤ (√σ + σ) * ((1 + B) * H ^ p) := by
    have h1 : |√v * z| ≤ √σ * H ^ p * B := by
      rw [abs_mul, abs_of_nonneg (Real.sqrt_nonneg v)]
      exact mul_le_mul hsq hz (abs_nonneg _) (by positivity)
    have h2 : |v / 2| ≤ σ * H ^ p := by
      rw [abs_of_nonneg (by positivity)]
      have : σ * (H ^ p) ^ 2 ≤ σ * H ^ p := mul_le_mul_of_nonneg_left (by nlinarith) hσ
      linarith
    have h3 := abs_sub (√v * z) (v / 2)
    have h4 : 0 ≤ √σ * H ^ p := by positivity
    have h5 : 0 ≤ σ * H ^ p * B := by positivity
    nlinarith
  have hw1 : |w| ≤ 1 := by linarith [abs_nonneg w]
  have := Real.abs_exp_sub_one_le hw1
  rw [hexp, show dt * Real.exp w - dt = (Real.exp w - 1) * dt by ring, abs_mul, abs_of_pos hdt]
  refine mul_le_mul_of_nonneg_right ?_ hdt.le
  linarith

/-- **C115, the lognormal perturbation.**  Under the same conditions, with the perturbation that is the default: the error is at
most a constant times `(1 + B) step^order` where `B` bounds the absolute values of the standard normal draws that were used, as
soon as `(1 + B) step^order` is small. -/
theorem perturbsolve_lognormal_converges {scipy : Method → Formula d K} {m : Method} (A : ℕ → ℕ → ℝ) (b : ℕ → ℝ) (stages : ℕ)
    {g : (Fin d → ℝ) → Fin d → ℝ} {ℓ : ℝ} (hℓ : 0 ≤ ℓ) (hg : ∀ y z, ‖g y - g z‖ ≤ ℓ * ‖y - z‖)
    (hrk : ∀ t y h, (scipy m).stepY (fun _ => g) t y (g y) h = rkStep A b stages g h y)
    {x : ℝ → Fin d → ℝ} {t0 T H₀ C σ : ℝ} (hx : ContinuousOn x (Set.Icc t0 T)) (hH₀ : 0 < H₀) (hC : 0 ≤ C)
    (hlocal : LocalOrder (rkStep A b stages g) x t0 T H₀ C m.order) (hσ : 0 ≤ σ) :
    ∃ Q H₁ ε, 0 < H₁ ∧ 0 < ε ∧ ∀ (a : Args d) (h : ℝ) (draws : ℕ → ℝ), a.f = (fun _ => g) → a.t0 = t0 → a.tmax = T →
      a.y0 = .vector (x t0) → chooseMethod a.method = .ok m → a.perturb = "step-lognormal" → a.noiseScale = σ →
      a.adaptive = false → a.step = some h → 0 < h → h ≤ H₁ → t0 + h ≤ T → StopsFine t0 a.timeStops →
      ∃ n sol, (∀ k, n ≤ k → perturbsolveIvp scipy a draws k = some (.ok sol)) ∧
        sol.locs.head? = some t0 ∧ sol.locs.getLast? = some T ∧ sol.states.length = sol.locs.length ∧
        ∀ B, (∀ i, i + 1 < sol.locs.length → |draws i| ≤ B) → (1 + B) * h ^ m.order ≤ ε → 0 ≤ B →
          ∀ (i : ℕ) t y, sol.locs[i]? = some t → sol.states[i]? = some y → ‖y - x t‖ ≤ Q * ((1 + B) * h ^ m.order) := by
  obtain ⟨L, hL, hcall⟩ := perturbsolve_close_error A b stages hℓ hg hrk hx hC hlocal
  have hc : 0 ≤ 2 * (√σ + σ) := by positivity
  refine ⟨Real.exp (2 * L * (T - t0)) * ((T - t0) * (C + L * (2 * (√σ + σ)))), min H₀ 1, 1 / (2 * (√σ + σ) + 1),
    lt_min hH₀ one_pos, by positivity, ?_⟩
  intro a h draws hf ht0 hT hy hm hpu hns had hs hpos hle hfit hstops
  obtain ⟨n, sol, r1, r2, r3, r4, r5⟩ := hcall a h draws .lognormal hf ht0 hT hy hm (by rw [hpu]; rfl) (Or.inl hpu) had hs
    hpos (hle.trans (min_le_left _ _)) hfit hstops
  refine ⟨n, sol, r1, r2, r3, r4, fun B hB hε hB0 i t y e1 e2 => ?_⟩
  have hq0 : 0 ≤ (1 + B) * h ^ m.order := by positivity
  have hq1 : 2 * (√σ + σ) * ((1 + B) * h ^ m.order) ≤ 1 := by
    refine (mul_le_mul_of_nonneg_left hε hc).trans ?_
    rw [mul_one_div, div_le_one (by positivity)]
    linarith
  refine (r5 _ (mul_nonneg hc hq0) hq1 (fun i dt s hi l1 l2 l3 => ?_) i t y e1 e2).trans ?_
  · rw [hns] at l3
    exact lognormal_close hσ l1 l2 (hle.trans (min_le_right _ _)) (hB i hi) hq1 l3
  have hr : C * h ^ m.order + L * (2 * (√σ + σ) * ((1 + B) * h ^ m.order))
      ≤ (C + L * (2 * (√σ + σ))) * ((1 + B) * h ^ m.order) := by
    have h1 : h ^ m.order ≤ (1 + B) * h ^ m.order := le_mul_of_one_le_left (by positivity) (by linarith)
    have h2 := mul_le_mul_of_nonneg_left h1 hC
    linarith
  have htt : 0 ≤ T - t0 := by linarith
  calc _ ≤ Real.exp (2 * L * (T - t0)) * ((T - t0) * ((C + L * (2 * (√σ + σ))) * ((1 + B) * h ^ m.order))) :=
        mul_le_mul_of_nonneg_left (mul_le_mul_of_nonneg_left hr htt) (Real.exp_pos _).le
    _ = _ := by ring

open MeasureTheory ProbabilityTheory in
/-- The tail of the standard normal distribution. -/
theorem normal_tail {Ω : Type} [MeasurableSpace Ω] {P : Measure Ω} [IsProbabilityMeasure P] {Z : Ω → ℝ} (hZ : Measurable Z)
    (hlaw : P.map Z = gaussianReal 0 1) {B : ℝ} (hB : 0 ≤ B) : P.real {ω | B < |Z ω|} ≤ 2 * Real.exp (-B ^ 2 / 2) := by
  have hs : HasSubgaussianMGF Z 1 P := by
    refine ⟨fun t => ?_, fun t => ?_⟩
    · have := integrable_exp_mul_gaussianReal (μ := 0) (v := 1) t
      rw [← hlaw] at this
      exact this.comp_measurable hZ
    · rw [mgf_gaussianReal hlaw]; simp
  have h1 := hs.measure_ge_le hB
  have h2 := hs.neg.measure_ge_le hB
  have hsub : {ω | B < |Z ω|} ⊆ {ω | B ≤ Z ω} ∪ {ω | B ≤ (-Z) ω} := by
    intro ω hω
    rcases lt_abs.1 (show B < |Z ω| from hω) with h | h
    · exact Or.inl h.le
    · exact Or.inr h.le
  have h3 := (measureReal_mono (μ := P) hsub).trans (measureReal_union_le _ _)
  simp only [NNReal.coe_one, mul_one] at h1 h2
  linarith

/-- With constant steps the number of reported times is at most `(tmax - t0) / step`, the number of stop locations and two. -/
theorem perturbsolve_steps_bounded {scipy : Method → Formula d K} {a : Args d} {draws : ℕ → ℝ} {n : ℕ}
    {sol : State (Fin d → ℝ) K} (h : perturbsolveIvp scipy a draws n = some (.ok sol)) (had : a.adaptive = false) {h1 : ℝ}
    (hs : a.step = some h1) (hpos : 0 < h1) (hfit : a.t0 + h1 ≤ a.tmax) (hstops : StopsFine a.t0 a.timeStops) :
    (sol.locs.length : ℝ) ≤ (a.tmax - a.t0) / h1 + (a.timeStops.getD []).length + 2 := by
  obtain ⟨g1, g2, g3, -⟩ := perturbsolve_grid_partial h (Or.inl hs) hpos hfit hstops
  obtain ⟨rule, m, p, y0, hp, hy, hfirst, hP, hdone, rfl⟩ := perturbsolve_ok h (Or.inl hs)
  obtain ⟨hr, -, -⟩ := prepare_ok hp
  obtain rfl : OdeFilter.StepRule.constant h1 = rule := by
    unfold createSteprule at hr
    rw [had, if_neg (by simp), hs] at hr
    exact Option.some.inj (Except.ok.inj hr)
  have htk := loop_timeKeeping (scipy m) a.f m (p.fn m.order a.noiseScale) (.constant h1) h1 a.t0 a.tmax y0 draws a.timeStops (hP hpos)
  set env := fullEnv (scipy m) a.f m (p.fn m.order a.noiseScale) (.constant h1) h1 a.t0 a.tmax y0 draws a.timeStops with henv
  have hsug : ∀ dt x h', env.suggest dt x = .ok h' → h1 ≤ h' := by
    intro dt x h' hh
    obtain ⟨y, -, hx⟩ := OdeFilter.bind_ok hh
    exact le_of_eq (Except.ok.inj hx)
  have hlong : ∀ k, (∀ e, (Ode.run env a.timeStops k).status ≠ .failed e) →
      Ode.Long env h1 (a.timeStops.getD []) (Ode.run env a.timeStops k) := by
    intro k
    induction k with
    | zero => exact fun _ => Ode.init_long env h1 le_rfl _ hstops.ne
    | succ k ih =>
      intro hnf
      rw [Ode.run_succ] at hnf ⊢
      refine Ode.step_long htk hsug (ih fun e he => hnf e ?_) hnf
      rw [Ode.step, he]
      exact he
  have hl := (hlong n fun e he => by rw [henv, ← loop_eq_run, hdone] at he; cases he).gaps
  rw [henv, ← loop_eq_run] at hl
  change Ode.Gaps h1 (a.tmax :: a.timeStops.getD [])
    (solutionOf (loop (scipy m) a.f m (p.fn m.order a.noiseScale) (.constant h1) h1 a.t0 a.tmax y0 draws a.timeStops n)).locs at hl
  generalize (solutionOf (loop (scipy m) a.f m (p.fn m.order a.noiseScale) (.constant h1) h1 a.t0 a.tmax y0 draws
    a.timeStops n)).locs = locs at *
  cases locs with
  | nil => cases g1
  | cons t l =>
    obtain rfl := Option.some.inj g1
    have hmax : ∀ u ∈ a.t0 :: l, u ≤ a.tmax := by
      intro u hu
      rw [List.getLast?_eq_some_getLast (by simp)] at g2
      rw [← Option.some.inj g2]
      exact pairwise_le_getLast g3 hu
    have := Ode.Gaps.bounded hpos hl g3 hmax
    simp only [List.length_cons] at this ⊢
    push_cast at this ⊢
    linarith

open MeasureTheory ProbabilityTheory in
/-- **C115, the lognormal perturbation with standard normal draws.**  The probability that the solver does not return, or returns
with an error of more than `Q (1 + B) step^order` at a reported time, is at most `2 N exp(-B²/2)`, where `N` is the largest
possible number of steps, `(tmax - t0) / step`, the number of stop locations and one. -/
theorem perturbsolve_lognormal_probability {scipy : Method → Formula d K} {m : Method} (A : ℕ → ℕ → ℝ) (b : ℕ → ℝ) (stages : ℕ)
    {g : (Fin d → ℝ) → Fin d → ℝ} {ℓ : ℝ} (hℓ : 0 ≤ ℓ) (hg : ∀ y z, ‖g y - g z‖ ≤ ℓ * ‖y - z‖)
    (hrk : ∀ t y h, (scipy m).stepY (fun _ => g) t y (g y) h = rkStep A b stages g h y)
    {x : ℝ → Fin d → ℝ} {t0 T H₀ C σ : ℝ} (hx : ContinuousOn x (Set.Icc t0 T)) (hH₀ : 0 < H₀) (hC : 0 ≤ C)
    (hlocal : LocalOrder (rkStep A b stages g) x t0 T H₀ C m.order) (hσ : 0 ≤ σ) :
    ∃ Q H₁ ε, 0 < H₁ ∧ 0 < ε ∧ ∀ (a : Args d) (h B : ℝ) {Ω : Type} [MeasurableSpace Ω] (P : Measure Ω)
      [IsProbabilityMeasure P] (ζ : ℕ → Ω → ℝ), (∀ i, Measurable (ζ i)) → (∀ i, P.map (ζ i) = gaussianReal 0 1) →
      a.f = (fun _ => g) → a.t0 = t0 → a.tmax = T →
      a.y0 = .vector (x t0) → chooseMethod a.method = .ok m → a.perturb = "step-lognormal" → a.noiseScale = σ →
      a.adaptive = false → a.step = some h → 0 < h → h ≤ H₁ → t0 + h ≤ T → StopsFine t0 a.timeStops →
      0 ≤ B → (1 + B) * h ^ m.order ≤ ε →
      P.real {ω | ¬ ∃ n sol, (∀ k, n ≤ k → perturbsolveIvp scipy a (fun i => ζ i ω) k = some (.ok sol)) ∧
          ∀ (i : ℕ) t y, sol.locs[i]? = some t → sol.states[i]? = some y → ‖y - x t‖ ≤ Q * ((1 + B) * h ^ m.order)}
        ≤ 2 * ((T - t0) / h + (a.timeStops.getD []).length + 1) * Real.exp (-B ^ 2 / 2) := by
  obtain ⟨Q, H₁, ε, p1, p2, hr⟩ := perturbsolve_lognormal_converges A b stages hℓ hg hrk hx hH₀ hC hlocal hσ
  refine ⟨Q, H₁, ε, p1, p2, ?_⟩
  intro a h B Ω _ P _ ζ hmeas hlaw hf ht0 hT hy hm hpu hns had hs hpos hle hfit hstops hB hε
  set X := (T - t0) / h + (a.timeStops.getD []).length + 1 with hX
  have hX0 : 0 ≤ X := add_nonneg (add_nonneg (div_nonneg (by linarith) hpos.le) (Nat.cast_nonneg _)) zero_le_one
  set N := ⌊X⌋₊ with hN
  have hsub : {ω | ¬ ∃ n sol, (∀ k, n ≤ k → perturbsolveIvp scipy a (fun i => ζ i ω) k = some (.ok sol)) ∧
          ∀ (i : ℕ) t y, sol.locs[i]? = some t → sol.states[i]? = some y → ‖y - x t‖ ≤ Q * ((1 + B) * h ^ m.order)} ⊆ ⋃ i ∈ range N, {ω | B < |ζ i ω|} := by
    intro ω hω
    by_contra hno
    apply hω
    obtain ⟨n, sol, r1, -, -, -, r5⟩ := hr a h (fun i => ζ i ω) hf ht0 hT hy hm hpu hns had hs hpos hle hfit hstops
    refine ⟨n, sol, r1, fun i t y e1 e2 => r5 B (fun i hi => ?_) hε hB i t y e1 e2⟩
    by_contra hgt
    apply hno
    simp only [Set.mem_iUnion]
    refine ⟨i, mem_range.2 ?_, not_le.1 hgt⟩
    have hlen := perturbsolve_steps_bounded (r1 n le_rfl) had hs hpos (by rw [ht0, hT]; exact hfit) (by rw [ht0]; exact hstops)
    rw [ht0, hT] at hlen
    have h1 : ((i + 1 : ℕ) : ℝ) ≤ X := by
      have : ((i + 1 + 1 : ℕ) : ℝ) ≤ sol.locs.length := by exact_mod_cast hi
      push_cast at this ⊢
      linarith
    exact Nat.le_floor h1
  calc _ ≤ P.real (⋃ i ∈ range N, {ω | B < |ζ i ω|}) := measureReal_mono hsub (measure_ne_top _ _)
    _ ≤ ∑ i ∈ range N, P.real {ω | B < |ζ i ω|} := measureReal_biUnion_finset_le _ _
    _ ≤ ∑ i ∈ range N, 2 * Real.exp (-B ^ 2 / 2) := Finset.sum_le_sum fun i _ => normal_tail (hmeas i) (hlaw i) hB
    _ = N * (2 * Real.exp (-B ^ 2 / 2)) := by rw [Finset.sum_const, card_range, nsmul_eq_mul]
    _ ≤ X * (2 * Real.exp (-B ^ 2 / 2)) := mul_le_mul_of_nonneg_right (Nat.floor_le hX0) (by positivity)
    _ = _ := by ring

/-! ## The formulas of scipy on linear ODEs -/

/-- The stages of scipy's `rk_step`: the first is the stored value `fy`, the others evaluate `f` at `t + c_i h`. -/
noncomputable def scipyStage (A : ℕ → ℕ → ℝ) (c : ℕ → ℝ) (f : ℝ → (Fin d → ℝ) → Fin d → ℝ) (t : ℝ) (y fy : Fin d → ℝ) (h : ℝ)
    (i : ℕ) : Fin d → ℝ :=
  if i = 0 then fy else f (t + c i * h) (y + h • ∑ j : Fin i, A i j • scipyStage A c f t y fy h j)
termination_by i
decreasing_by exact j.2

/-- scipy's `rk_step` with the coefficients `A`, `b`, `c` (without dense output and error estimates). -/
noncomputable def scipyFormula (A : ℕ → ℕ → ℝ) (b c : ℕ → ℝ) (n : ℕ) : Formula d Unit where
  stepY f t y fy h := y + h • ∑ i ∈ range n, b i • scipyStage A c f t y fy h i
  stages _ _ _ _ _ := ()
  dense y _ _ _ := y
  errors _ _ := 0

theorem scipyStage_autonomous (A : ℕ → ℕ → ℝ) (c : ℕ → ℝ) (g : (Fin d → ℝ) → Fin d → ℝ) (t : ℝ) (y : Fin d → ℝ) (h : ℝ) (i : ℕ) :
    scipyStage A c (fun _ => g) t y (g y) h i = stage A g h y i := by
  induction i using Nat.strong_induction_on with
  | _ i ih =>
    rw [scipyStage, stage]
    by_cases hi : i = 0
    · subst hi; simp
    · rw [if_neg hi, Finset.sum_congr rfl fun (j : Fin i) _ => by rw [ih j j.2]]

theorem scipyFormula_autonomous (A : ℕ → ℕ → ℝ) (b c : ℕ → ℝ) (n : ℕ) (g : (Fin d → ℝ) → Fin d → ℝ) (t : ℝ) (y : Fin d → ℝ) (h : ℝ) :
    (scipyFormula A b c n).stepY (fun _ => g) t y (g y) h = rkStep A b n g h y := by
  show y + h • ∑ i ∈ range n, b i • scipyStage A c (fun _ => g) t y (g y) h i = _
  rw [rkStep]
  simp only [scipyStage_autonomous]

/-- The coefficients of `RK23` (Bogacki and Shampine). -/
noncomputable def a23 : ℕ → ℕ → ℝ
  | 1, 0 => 1 / 2
  | 2, 1 => 3 / 4
  | _, _ => 0

/-- The weights of `RK23`. -/
noncomputable def b23 : ℕ → ℝ
  | 0 => 2 / 9
  | 1 => 1 / 3
  | 2 => 4 / 9
  | _ => 0

/-- The coefficients of `RK45` (Dormand and Prince). -/
noncomputable def a45 : ℕ → ℕ → ℝ
  | 1, 0 => 1 / 5
  | 2, 0 => 3 / 40
  | 2, 1 => 9 / 40
  | 3, 0 => 44 / 45
  | 3, 1 => -56 / 15
  | 3, 2 => 32 / 9
  | 4, 0 => 19372 / 6561
  | 4, 1 => -25360 / 2187
  | 4, 2 => 64448 / 6561
  | 4, 3 => -212 / 729
  | 5, 0 => 9017 / 3168
  | 5, 1 => -355 / 33
  | 5, 2 => 46732 / 5247
  | 5, 3 => 49 / 176
  | 5, 4 => -5103 / 18656
  | _, _ => 0

/-- The weights of `RK45`. -/
noncomputable def b45 : ℕ → ℝ
  | 0 => 35 / 384
  | 2 => 500 / 1113
  | 3 => 125 / 192
  | 4 => -2187 / 6784
  | 5 => 11 / 84
  | _ => 0

theorem stage_linear (A : ℕ → ℕ → ℝ) (l s : ℝ) (a : Fin d → ℝ) (k : ℕ → ℝ) (n : ℕ)
    (hk : ∀ i < n, k i = l * (1 + s * ∑ j ∈ range i, A i j * k j)) :
    ∀ i < n, stage A (fun y => l • y) s a i = k i • a := by
  intro i
  induction i using Nat.strong_induction_on with
  | _ i ih =>
    intro hi
    rw [stage, Finset.sum_congr rfl fun (j : Fin i) _ => by rw [ih j j.2 (j.2.trans hi)], hk i hi,
      ← Fin.sum_univ_eq_sum_range (fun j => A i j * k j)]
    simp only [smul_smul, ← Finset.sum_smul]
    module

/-- The stages of `RK23` for `y' = y`. -/
noncomputable def k23 (z : ℝ) : ℕ → ℝ
  | 0 => 1
  | 1 => 1 + z / 2
  | 2 => 1 + 3 / 4 * z * (1 + z / 2)
  | _ => 0

theorem rk23_linear (l s : ℝ) (a : Fin d → ℝ) :
    rkStep a23 b23 3 (fun y => l • y) s a = (1 + l * s + (l * s) ^ 2 / 2 + (l * s) ^ 3 / 6) • a := by
  have h := stage_linear a23 l s a (fun i => l * k23 (l * s) i) 3 (by
      intro i hi
      interval_cases i <;> simp only [Finset.sum_range_succ, Finset.sum_range_zero, a23, k23] <;> ring)
  rw [rkStep]
  simp only [Finset.sum_range_succ, Finset.sum_range_zero, zero_add]
  rw [h 0 (by norm_num), h 1 (by norm_num), h 2 (by norm_num)]
  simp only [b23, k23, smul_smul, ← add_smul]
  nth_rewrite 1 [← one_smul ℝ a]
  rw [← add_smul]
  congr 1
  ring

/-- The stages of `RK45` for `y' = y`. -/
noncomputable def k45 (z : ℝ) : ℕ → ℝ
  | 0 => 1
  | 1 => 1 + z * (1 / 5)
  | 2 => 1 + z * (3 / 40 + 9 / 40 * (1 + z * (1 / 5)))
  | 3 => 1 + z * (44 / 45 - 56 / 15 * (1 + z * (1 / 5)) + 32 / 9 * k45 z 2)
  | 4 => 1 + z * (19372 / 6561 - 25360 / 2187 * (1 + z * (1 / 5)) + 64448 / 6561 * k45 z 2 - 212 / 729 * k45 z 3)
  | 5 => 1 + z * (9017 / 3168 - 355 / 33 * (1 + z * (1 / 5)) + 46732 / 5247 * k45 z 2 + 49 / 176 * k45 z 3
      - 5103 / 18656 * k45 z 4)
  | _ => 0

theorem rk45_linear (l s : ℝ) (a : Fin d → ℝ) :
    rkStep a45 b45 6 (fun y => l • y) s a =
      (1 + l * s + (l * s) ^ 2 / 2 + (l * s) ^ 3 / 6 + (l * s) ^ 4 / 24 + (l * s) ^ 5 / 120 + (l * s) ^ 6 / 600) • a := by
  have h := stage_linear a45 l s a (fun i => l * k45 (l * s) i) 6 (by
      intro i hi
      interval_cases i <;> simp only [Finset.sum_range_succ, Finset.sum_range_zero, a45, k45] <;> ring)
  rw [rkStep]
  simp only [Finset.sum_range_succ, Finset.sum_range_zero, zero_add]
  rw [h 0 (by norm_num), h 1 (by norm_num), h 2 (by norm_num), h 3 (by norm_num), h 4 (by norm_num), h 5 (by norm_num)]
  simp only [b45, k45, smul_smul, ← add_smul]
  nth_rewrite 1 [← one_smul ℝ a]
  rw [← add_smul]
  congr 1
  ring

/-- Both formulas of scipy with their coefficients. -/
noncomputable def scipyFormulas (c : Method → ℕ → ℝ) : Method → Formula d Unit
  | .rk45 => scipyFormula a45 b45 (c .rk45) 6
  | .rk23 => scipyFormula a23 b23 (c .rk23) 3

/-- Both formulas have their order along the solutions of `y' = l y`. -/
theorem linear_localOrder (l t0 T : ℝ) (y0 : Fin d → ℝ) :
    ∃ C H, 0 ≤ C ∧ 0 < H ∧
      LocalOrder (rkStep a45 b45 6 fun y => l • y) (fun t => Real.exp (l * (t - t0)) • y0) t0 T H C 5 ∧
      LocalOrder (rkStep a23 b23 3 fun y => l • y) (fun t => Real.exp (l * (t - t0)) • y0) t0 T H C 3 := by
  have hC : 0 ≤ Real.exp (|l| * |T - t0|) * ‖y0‖ * (|l| ^ 4 + |l| ^ 6) := by positivity
  have key : ∀ (t h r c : ℝ) (q : ℕ), t0 ≤ t → 0 < h → h ≤ 1 / (|l| + 1) → t + h ≤ T → (q = 4 ∨ q = 6) →
      (|l * h| ≤ 1 → |r - Real.exp (l * h)| ≤ |l * h| ^ q) →
      ‖r • Real.exp (l * (t - t0)) • y0 - Real.exp (l * (t + h - t0)) • y0‖
        ≤ Real.exp (|l| * |T - t0|) * ‖y0‖ * (|l| ^ 4 + |l| ^ 6) * h ^ q := by
    intro t h r c q h1 h2 h3 h4 hq hr
    have hz : |l * h| ≤ 1 := by
      rw [abs_mul, abs_of_pos h2]
      calc |l| * h ≤ |l| * (1 / (|l| + 1)) := mul_le_mul_of_nonneg_left h3 (abs_nonneg _)
        _ ≤ 1 := by rw [mul_one_div, div_le_one (by positivity)]; linarith
    have e : r • Real.exp (l * (t - t0)) • y0 - Real.exp (l * (t + h - t0)) • y0
        = ((r - Real.exp (l * h)) * Real.exp (l * (t - t0))) • y0 := by
      rw [show l * (t + h - t0) = l * h + l * (t - t0) by ring, Real.exp_add, smul_smul, ← sub_smul, sub_mul]
    rw [e, norm_smul, norm_mul, Real.norm_eq_abs, Real.norm_eq_abs, Real.abs_exp]
    have e1 : Real.exp (l * (t - t0)) ≤ Real.exp (|l| * |T - t0|) := by
      apply Real.exp_le_exp.2
      refine (le_abs_self _).trans ?_
      rw [abs_mul]
      refine mul_le_mul_of_nonneg_left ?_ (abs_nonneg _)
      rw [abs_of_nonneg (by linarith), abs_of_nonneg (by linarith)]
      linarith
    have e2 : |l * h| ^ q ≤ (|l| ^ 4 + |l| ^ 6) * h ^ q := by
      rw [abs_mul, abs_of_pos h2, mul_pow]
      refine mul_le_mul_of_nonneg_right ?_ (by positivity)
      rcases hq with rfl | rfl
      · linarith [pow_nonneg (abs_nonneg l) 6]
      · linarith [pow_nonneg (abs_nonneg l) 4]
    calc |r - Real.exp (l * h)| * Real.exp (l * (t - t0)) * ‖y0‖
        ≤ ((|l| ^ 4 + |l| ^ 6) * h ^ q) * Real.exp (|l| * |T - t0|) * ‖y0‖ := by
          refine mul_le_mul_of_nonneg_right (mul_le_mul ((hr hz).trans e2) e1 (Real.exp_pos _).le (by positivity)) (norm_nonneg _)
      _ = _ := by ring
  refine ⟨_, 1 / (|l| + 1), hC, by positivity, fun t h h1 h2 h3 h4 => ?_, fun t h h1 h2 h3 h4 => ?_⟩
  · rw [rk45_linear]
    refine key t h _ 0 6 h1 h2 h3 h4 (Or.inr rfl) fun hz => ?_
    have hb := Real.exp_bound hz (n := 6) (by norm_num)
    simp only [Finset.sum_range_succ, Finset.sum_range_zero, Nat.factorial] at hb
    generalize l * h = z at hb hz ⊢
    norm_num at hb
    have hp : z ^ 6 ≤ |z| ^ 6 := by rw [← abs_pow]; exact le_abs_self _
    have hn : 0 ≤ z ^ 6 := by positivity
    rw [abs_le] at hb ⊢
    constructor <;> linarith
  · rw [rk23_linear]
    refine key t h _ 0 4 h1 h2 h3 h4 (Or.inl rfl) fun hz => ?_
    have hb := Real.exp_bound hz (n := 4) (by norm_num)
    simp only [Finset.sum_range_succ, Finset.sum_range_zero, Nat.factorial] at hb
    generalize l * h = z at hb hz ⊢
    norm_num at hb
    have hn : 0 ≤ |z| ^ 4 := by positivity
    rw [abs_le] at hb ⊢
    constructor <;> linarith

/-- The hypotheses of the theorem on the lognormal perturbation are met: `y' = y` on `[0, 2]` with `RK45`, noise of scale 10 and
draws of size at most 3. -/
example : ∃ Q H₁ ε : ℝ, 0 < H₁ ∧ 0 < ε ∧ ∀ h : ℝ, 0 < h → h ≤ H₁ → h ≤ 2 → (1 + 3) * h ^ 5 ≤ ε →
    ∃ n sol, (∀ k, n ≤ k → perturbsolveIvp (scipyFormulas fun _ _ => 0)
        { Args.defaults (fun _ y => (1 : ℝ) • y) 0 2 (.vector (fun _ : Fin 1 => 1)) with adaptive := false, step := some h }
        (fun i => if i % 2 = 0 then -3 else 3) k = some (.ok sol)) ∧
      ∀ (i : ℕ) t y, sol.locs[i]? = some t → sol.states[i]? = some y →
        ‖y - Real.exp (1 * (t - 0)) • (fun _ : Fin 1 => (1 : ℝ))‖ ≤ Q * ((1 + 3) * h ^ 5) := by
  obtain ⟨C, H, hC, hH, o5, -⟩ := linear_localOrder 1 0 2 (fun _ : Fin 1 => (1 : ℝ))
  obtain ⟨Q, H₁, ε, hp, hε, hr⟩ := perturbsolve_lognormal_converges (scipy := scipyFormulas fun _ _ => 0) (m := .rk45) (ℓ := 1) (σ := 10)
    a45 b45 6 (by norm_num) (fun y z => by rw [one_smul, one_smul, one_mul])
    (fun t y h => scipyFormula_autonomous a45 b45 (fun _ => 0) 6 _ t y h)
    (show ContinuousOn (fun t => Real.exp (1 * (t - 0)) • (fun _ : Fin 1 => (1 : ℝ))) (Set.Icc 0 2) by fun_prop) hH hC o5 (by norm_num)
  refine ⟨Q, H₁, ε, hp, hε, fun h h0 h1 h2 h3 => ?_⟩
  obtain ⟨n, sol, s1, -, -, -, s5⟩ := hr
    { Args.defaults (fun _ y => (1 : ℝ) • y) 0 2 (.vector (fun _ : Fin 1 => 1)) with adaptive := false, step := some h } h
    (fun i => if i % 2 = 0 then -3 else 3) rfl rfl rfl (by simp [Args.defaults]) rfl rfl rfl rfl rfl h0 h1 (by linarith)
    (by simp [StopsFine, Args.defaults])
  exact ⟨n, sol, s1, s5 3 (fun i _ => by
    show |if i % 2 = 0 then (-3 : ℝ) else 3| ≤ 3
    split <;> norm_num) h3 (by norm_num)⟩

open MeasureTheory ProbabilityTheory in
/-- The hypotheses of the theorem on probabilities are met: `y' = y` on `[0, 2]` with `RK45` and noise of scale 10, for any standard
normal random numbers. -/
example {Ω : Type} [MeasurableSpace Ω] (P : Measure Ω) [IsProbabilityMeasure P] (ζ : ℕ → Ω → ℝ) (hm : ∀ i, Measurable (ζ i))
    (hlaw : ∀ i, P.map (ζ i) = gaussianReal 0 1) : ∃ Q H₁ : ℝ, 0 < H₁ ∧ ∀ h : ℝ, 0 < h → h ≤ H₁ →
      P.real {ω | ¬ ∃ n sol, (∀ k, n ≤ k → perturbsolveIvp (scipyFormulas fun _ _ => 0)
          { Args.defaults (fun _ y => (1 : ℝ) • y) 0 2 (.vector (fun _ : Fin 1 => 1)) with adaptive := false, step := some h }
          (fun i => ζ i ω) k = some (.ok sol)) ∧ ∀ (i : ℕ) t y, sol.locs[i]? = some t → sol.states[i]? = some y →
            ‖y - Real.exp (1 * (t - 0)) • (fun _ : Fin 1 => (1 : ℝ))‖ ≤ Q * ((1 + 5) * h ^ 5)}
        ≤ 2 * ((2 - 0) / h + (0 : ℕ) + 1) * Real.exp (-5 ^ 2 / 2) := by
  obtain ⟨C, H, hC, hH, o5, -⟩ := linear_localOrder 1 0 2 (fun _ : Fin 1 => (1 : ℝ))
  obtain ⟨Q, H₁, ε, hp, hε, hr⟩ := perturbsolve_lognormal_probability (scipy := scipyFormulas fun _ _ => 0) (m := .rk45) (ℓ := 1) (σ := 10)
    a45 b45 6 (by norm_num) (fun y z => by rw [one_smul, one_smul, one_mul])
    (fun t y h => scipyFormula_autonomous a45 b45 (fun _ => 0) 6 _ t y h)
    (show ContinuousOn (fun t => Real.exp (1 * (t - 0)) • (fun _ : Fin 1 => (1 : ℝ))) (Set.Icc 0 2) by fun_prop) hH hC o5 (by norm_num)
  refine ⟨Q, min H₁ (min 1 (ε / 6)), lt_min hp (lt_min one_pos (by positivity)), fun h h0 h1 => ?_⟩
  have l1 : h ≤ 1 := h1.trans ((min_le_right _ _).trans (min_le_left _ _))
  have l2 : h ≤ ε / 6 := h1.trans ((min_le_right _ _).trans (min_le_right _ _))
  have l3 : h ^ 5 ≤ h := pow_le_of_le_one h0.le l1 (by norm_num)
  exact hr { Args.defaults (fun _ y => (1 : ℝ) • y) 0 2 (.vector (fun _ : Fin 1 => 1)) with adaptive := false, step := some h } h 5
    P ζ hm hlaw rfl rfl rfl (by simp [Args.defaults]) rfl rfl rfl rfl rfl h0 (h1.trans (min_le_left _ _)) (by linarith)
    (by simp [StopsFine, Args.defaults]) (by norm_num) (by show (1 + 5) * h ^ 5 ≤ ε; linarith)

/-- **C115 for linear ODEs and the formulas of scipy.**  Both methods of `perturbsolve_ivp` with the uniform perturbation converge
on `y' = l y` with the orders 4.5 and 2.5, for every realisation of the random numbers. -/
theorem perturbsolve_linear_converges (c : Method → ℕ → ℝ) (l t0 T σ : ℝ) (hσ : 0 ≤ σ) (y0 : Fin d → ℝ) :
    ∃ Q H₁, 0 < H₁ ∧ ∀ (a : Args d) (h : ℝ) (draws : ℕ → ℝ), a.f = (fun _ y => l • y) → a.t0 = t0 → a.tmax = T → a.y0 = .vector y0 →
      a.method ∈ ["RK45", "RK23"] → a.perturb = "step-uniform" → a.noiseScale = σ → a.adaptive = false → a.step = some h →
      0 < h → h ≤ H₁ → t0 + h ≤ T → StopsFine t0 a.timeStops → (∀ i, 0 ≤ draws i ∧ draws i ≤ 1) →
      ∃ n sol, (∀ k, n ≤ k → perturbsolveIvp (scipyFormulas c) a draws k = some (.ok sol)) ∧
        sol.locs.head? = some t0 ∧ sol.locs.getLast? = some T ∧ sol.states.length = sol.locs.length ∧
        ∀ (i : ℕ) t y, sol.locs[i]? = some t → sol.states[i]? = some y →
          ‖y - Real.exp (l * (t - t0)) • y0‖ ≤ Q * h ^ (if a.method = "RK45" then (9 / 2 : ℝ) else 5 / 2) := by
  obtain ⟨C, H, hC, hH, o5, o3⟩ := linear_localOrder l t0 T y0
  have hlip : ∀ y z : Fin d → ℝ, ‖l • y - l • z‖ ≤ |l| * ‖y - z‖ := fun y z => by
    rw [← smul_sub, norm_smul, Real.norm_eq_abs]
  have hx : ContinuousOn (fun t => Real.exp (l * (t - t0)) • y0) (Set.Icc t0 T) := by fun_prop
  obtain ⟨Q5, H5, p5, r5⟩ := perturbsolve_uniform_converges (scipy := scipyFormulas c) (m := .rk45) a45 b45 6 (abs_nonneg l) hlip
    (fun t y h => scipyFormula_autonomous a45 b45 (c .rk45) 6 _ t y h) hx hH hC o5 hσ
  obtain ⟨Q3, H3, p3, r3⟩ := perturbsolve_uniform_converges (scipy := scipyFormulas c) (m := .rk23) a23 b23 3 (abs_nonneg l) hlip
    (fun t y h => scipyFormula_autonomous a23 b23 (c .rk23) 3 _ t y h) hx hH hC o3 hσ
  refine ⟨max Q5 Q3, min H5 H3, lt_min p5 p3, ?_⟩
  intro a h draws hf ht0 hT hy hm hpu hns had hs hpos hle hfit hstops hdraws
  have hy' : a.y0 = .vector ((fun t => Real.exp (l * (t - t0)) • y0) t0) := by simpa using hy
  simp only [List.mem_cons, List.not_mem_nil, or_false] at hm
  rcases hm with hm | hm
  · obtain ⟨n, sol, s1, s2, s3, s4, s5⟩ := r5 a h draws hf ht0 hT hy' (by rw [hm]; rfl) hpu hns had hs hpos (hle.trans (min_le_left _ _))
      hfit hstops hdraws
    refine ⟨n, sol, s1, s2, s3, s4, fun i t y e1 e2 => (s5 i t y e1 e2).trans ?_⟩
    rw [if_pos hm, show ((Method.order .rk45 : ℕ) : ℝ) - 1 / 2 = 9 / 2 by norm_num [Method.order]]
    exact mul_le_mul_of_nonneg_right (le_max_left _ _) (Real.rpow_nonneg hpos.le _)
  · obtain ⟨n, sol, s1, s2, s3, s4, s5⟩ := r3 a h draws hf ht0 hT hy' (by rw [hm]; rfl) hpu hns had hs hpos (hle.trans (min_le_right _ _))
      hfit hstops hdraws
    refine ⟨n, sol, s1, s2, s3, s4, fun i t y e1 e2 => (s5 i t y e1 e2).trans ?_⟩
    rw [if_neg (by rw [hm]; decide), show ((Method.order .rk23 : ℕ) : ℝ) - 1 / 2 = 5 / 2 by norm_num [Method.order]]
    exact mul_le_mul_of_nonneg_right (le_max_right _ _) (Real.rpow_nonneg hpos.le _)

/-- The hypotheses are met: `y' = -y` from 1 on `[0, 1]` with `RK23`, noise of scale 10 and alternating draws, for all small steps. -/
example : ∃ Q H₁, 0 < H₁ ∧ ∀ h : ℝ, 0 < h → h ≤ H₁ → h ≤ 1 →
    ∃ n sol, (∀ k, n ≤ k → perturbsolveIvp (scipyFormulas fun _ _ => 0)
        { Args.defaults (fun _ y => (-1 : ℝ) • y) 0 1 (.vector (fun _ : Fin 1 => 1)) with
          method := "RK23", perturb := "step-uniform", adaptive := false, step := some h }
        (fun i => if i % 2 = 0 then 0 else 1) k = some (.ok sol)) ∧
      ∀ (i : ℕ) t y, sol.locs[i]? = some t → sol.states[i]? = some y →
        ‖y - Real.exp (-1 * (t - 0)) • (fun _ : Fin 1 => (1 : ℝ))‖ ≤ Q * h ^ (5 / 2 : ℝ) := by
  obtain ⟨Q, H₁, hp, hr⟩ := perturbsolve_linear_converges (fun _ _ => 0) (-1) 0 1 10 (by norm_num) (fun _ : Fin 1 => (1 : ℝ))
  refine ⟨Q, H₁, hp, fun h h0 h1 h2 => ?_⟩
  obtain ⟨n, sol, s1, -, -, -, s5⟩ := hr
    { Args.defaults (fun _ y => (-1 : ℝ) • y) 0 1 (.vector (fun _ : Fin 1 => 1)) with
      method := "RK23", perturb := "step-uniform", adaptive := false, step := some h } h (fun i => if i % 2 = 0 then 0 else 1)
    rfl rfl rfl rfl (by simp) rfl rfl rfl rfl h0 h1 (by linarith) (by simp [StopsFine, Args.defaults])
    (fun i => by show 0 ≤ (if i % 2 = 0 then (0 : ℝ) else 1) ∧ (if i % 2 = 0 then (0 : ℝ) else 1) ≤ 1; split <;> norm_num)
  refine ⟨n, sol, s1, fun i t y e1 e2 => ?_⟩
  have := s5 i t y e1 e2
  rwa [if_neg (show ¬ ("RK23" : String) = "RK45" by decide)] at this

end Probnum.Perturbed
