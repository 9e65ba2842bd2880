import Verif.OdeFilter.AutodiffLemmas
import Mathlib.Analysis.SpecialFunctions.Trigonometric.Deriv

/-!
# Automatic-differentiation initialisation: the initial state holds the derivatives of the solution
-/

namespace Probnum.OdeFilter

open Matrix Filter Topology

variable {d : ℕ}

/-- A solution of the initial value problem near the initial time. -/
structure LocalSolution (ivp : Ivp d) (y : ℝ → Fin d → ℝ) : Prop where
  initial : y ivp.t0 = ivp.y0
  ode : ∀ᶠ t in 𝓝 ivp.t0, HasDerivAt y (ivp.f t (y t)) t

theorem withTime_castSucc (x : Fin d → ℝ) (t : ℝ) (i : Fin d) : withTime x t i.castSucc = x i := by
  simp [withTime]

theorem withTime_last (x : Fin d → ℝ) (t : ℝ) : withTime x t (Fin.last d) = t := by
  simp [withTime]

theorem withTime_contDiffAt {n : WithTop ℕ∞} {E : Type*} [NormedAddCommGroup E] [NormedSpace ℝ E] {x : E → Fin d → ℝ} {t : E → ℝ} {e : E}
    (hx : ContDiffAt ℝ n x e) (ht : ContDiffAt ℝ n t e) : ContDiffAt ℝ n (fun a => withTime (x a) (t a)) e := by
  refine contDiffAt_pi.2 fun i => ?_
  unfold withTime
  by_cases h : i.1 < d
  · simp only [dif_pos h]
    exact contDiffAt_pi.1 hx ⟨i, h⟩
  · simp only [dif_neg h]
    exact ht

/-- The autonomous ODE has the solution `(y(t), t)`. -/
theorem autonomous_solution {ivp : Ivp d} {y : ℝ → Fin d → ℝ} (hy : LocalSolution ivp y) :
    ∀ᶠ t in 𝓝 ivp.t0, HasDerivAt (fun t => withTime (y t) t) (autonomous ivp.f (withTime (y t) t)) t := by
  filter_upwards [hy.ode] with t ht
  refine hasDerivAt_pi.2 fun i => ?_
  have hd : dropTime (withTime (y t) t) = y t := funext fun i => withTime_castSucc _ _ i
  rw [autonomous, withTime_last, hd]
  unfold withTime
  by_cases h : i.1 < d
  · simp only [dif_pos h]
    exact hasDerivAt_pi.1 ht ⟨i, h⟩
  · simp only [dif_neg h]
    exact hasDerivAt_id t

theorem autonomous_contDiffAt {ivp : Ivp d} {n : WithTop ℕ∞}
    (hf : ContDiffAt ℝ n (fun p : ℝ × (Fin d → ℝ) => ivp.f p.1 p.2) (ivp.t0, ivp.y0)) :
    ContDiffAt ℝ n (autonomous ivp.f) (withTime ivp.y0 ivp.t0) := by
  have h1 : ContDiffAt ℝ n (fun y : Fin (d + 1) → ℝ => (y (Fin.last d), dropTime y)) (withTime ivp.y0 ivp.t0) := by
    refine ContDiffAt.prodMk (contDiff_apply ℝ ℝ _).contDiffAt ?_
    refine contDiffAt_pi.2 fun i => ?_
    exact (contDiff_apply ℝ ℝ i.castSucc).contDiffAt
  have h2 : (withTime ivp.y0 ivp.t0 (Fin.last d), dropTime (withTime ivp.y0 ivp.t0)) = (ivp.t0, ivp.y0) := by
    rw [withTime_last]
    exact Prod.ext rfl (funext fun i => withTime_castSucc _ _ i)
  refine withTime_contDiffAt ?_ contDiffAt_const
  exact ContDiffAt.comp (g := fun p : ℝ × (Fin d → ℝ) => ivp.f p.1 p.2) (withTime ivp.y0 ivp.t0) (by rw [h2]; exact hf) h1

theorem iteratedDeriv_apply {n k : ℕ} {z : ℝ → Fin n → ℝ} {t : ℝ} (hz : ContDiffAt ℝ k z t) (i : Fin n) :
    iteratedDeriv k (fun s => z s i) t = iteratedDeriv k z t i := by
  have := (ContinuousLinearMap.proj (R := ℝ) (φ := fun _ : Fin n => ℝ) i).iteratedFDeriv_comp_left hz (i := k) le_rfl
  have h := congrArg (fun M => M fun _ => (1 : ℝ)) this
  exact h

/-- The rows are the derivatives of the solution. -/
theorem odeDerivatives_eq (mode : AutodiffMode) {ivp : Ivp d} {y : ℝ → Fin d → ℝ} {q : ℕ} (hy : LocalSolution ivp y)
    (hf : ContDiffAt ℝ ((q - 1 : ℕ)) (fun p : ℝ × (Fin d → ℝ) => ivp.f p.1 p.2) (ivp.t0, ivp.y0)) :
    odeDerivatives mode (autonomous ivp.f) (withTime ivp.y0 ivp.t0) q =
      (List.range (q + 1)).map fun k i => iteratedDeriv k (fun t => y t i) ivp.t0 := by
  have hz := autonomous_solution hy
  have hF := autonomous_contDiffAt hf
  have hz0 : (fun t => withTime (y t) t) ivp.t0 = withTime ivp.y0 ivp.t0 := by
    show withTime (y ivp.t0) ivp.t0 = _
    rw [hy.initial]
  have hF' : ContDiffAt ℝ ((q - 1 : ℕ)) (autonomous ivp.f) ((fun t => withTime (y t) t) ivp.t0) := by rw [hz0]; exact hF
  have hc : ∀ k ≤ q, ∀ i : Fin d, dropTime (iteratedDeriv k (fun t => withTime (y t) t) ivp.t0) i =
      iteratedDeriv k (fun t => y t i) ivp.t0 := fun k hk i => by
    have hs := solution_contDiffAt hz hF' k (by omega)
    show iteratedDeriv k (fun t => withTime (y t) t) ivp.t0 i.castSucc = _
    rw [← iteratedDeriv_apply hs]
    simp only [withTime_castSucc]
  have hgen : ∀ m : AutodiffMode, ((List.range (q + 1)).map fun k => dropTime (derivGen m (autonomous ivp.f) (withTime ivp.y0 ivp.t0) k
      (withTime ivp.y0 ivp.t0))) = (List.range (q + 1)).map fun k i => iteratedDeriv k (fun t => y t i) ivp.t0 := fun m => by
    refine List.map_congr_left fun k hk => ?_
    have hk' : k ≤ q := by
      have := List.mem_range.1 hk
      omega
    funext i
    rw [← hc k hk' i]
    cases k with
    | zero =>
      rw [iteratedDeriv_zero]
      show dropTime (withTime ivp.y0 ivp.t0) i = _
      rw [← hz0]
    | succ k =>
      rw [derivGen_eq, (iteratedDeriv_solution hz hF' k (by omega)).self_of_nhds, ← hz0]
  cases mode with
  | taylor =>
    show (taylorGen (autonomous ivp.f) (withTime ivp.y0 ivp.t0) q).map dropTime = _
    rw [← hz0, taylorGen_eq hz hF' q (by omega), List.map_map]
    refine List.map_congr_left fun k hk => ?_
    have hk' : k ≤ q := by
      have := List.mem_range.1 hk
      omega
    funext i
    exact hc k hk' i
  | forwardJVP => exact hgen .forwardJVP
  | forward => exact hgen .forward
  | reverse => exact hgen .reverse

/-- **C86**: whatever the routine, the initial state holds the solution and its first `q` derivatives at the initial time (the
projections of the prior process read them off), and it is certain. -/
theorem autodiff_exact (mode : AutodiffMode) {ivp : Ivp d} {y : ℝ → Fin d → ℝ} {q : ℕ} (hy : LocalSolution ivp y)
    (hf : ContDiffAt ℝ ((q - 1 : ℕ)) (fun p : ℝ × (Fin d → ℝ) => ivp.f p.1 p.2) (ivp.t0, ivp.y0)) :
    (∀ k ≤ q, ∀ i, (proj d q k *ᵥ (autodiffInit mode ivp q).mean) i = iteratedDeriv k (fun t => y t i) ivp.t0) ∧
      (autodiffInit mode ivp q).cov = 0 ∧ (autodiffInit mode ivp q).chol * (autodiffInit mode ivp q).cholᵀ = (autodiffInit mode ivp q).cov := by
  refine ⟨fun k hk i => ?_, rfl, by show (0 : Matrix _ _ ℝ) * _ = 0; rw [Matrix.zero_mul]⟩
  have hlt : i.1 * (q + 1) + k < d * (q + 1) := by
    calc i.1 * (q + 1) + k < i.1 * (q + 1) + (q + 1) := by omega
      _ = (i.1 + 1) * (q + 1) := by ring
      _ ≤ d * (q + 1) := Nat.mul_le_mul_right _ i.2
  have h1 : (proj d q k *ᵥ (autodiffInit mode ivp q).mean) i = (autodiffInit mode ivp q).mean ⟨i.1 * (q + 1) + k, hlt⟩ := by
    rw [Matrix.mulVec, dotProduct, Finset.sum_eq_single ⟨i.1 * (q + 1) + k, hlt⟩]
    · simp [proj]
    · intro j _ hj
      have : j.1 ≠ i.1 * (q + 1) + k := fun e => hj (Fin.ext e)
      simp [proj, this]
    · simp
  rw [h1]
  show flattenF (odeDerivatives mode (autonomous ivp.f) (withTime ivp.y0 ivp.t0) q) (i.1 * (q + 1) + k) = _
  rw [odeDerivatives_eq mode hy hf]
  have hdiv : (i.1 * (q + 1) + k) / (q + 1) = i := by
    rw [Nat.add_comm, Nat.add_mul_div_right _ _ (by omega), Nat.div_eq_of_lt (by omega), Nat.zero_add]
  have hmod : (i.1 * (q + 1) + k) % (q + 1) = k := by
    rw [Nat.add_comm, Nat.add_mul_mod_self_right, Nat.mod_eq_of_lt (by omega)]
  unfold flattenF
  simp only [List.length_map, List.length_range, hdiv, hmod]
  rw [dif_pos i.2, List.getD_eq_getElem?_getD, List.getElem?_map, List.getElem?_range (by omega)]
  rfl

/-- The four routines return the same. -/
theorem autodiff_modes_agree (m₁ m₂ : AutodiffMode) {ivp : Ivp d} {y : ℝ → Fin d → ℝ} {q : ℕ} (hy : LocalSolution ivp y)
    (hf : ContDiffAt ℝ ((q - 1 : ℕ)) (fun p : ℝ × (Fin d → ℝ) => ivp.f p.1 p.2) (ivp.t0, ivp.y0)) :
    autodiffInit m₁ ivp q = autodiffInit m₂ ivp q := by
  unfold autodiffInit
  rw [odeDerivatives_eq m₁ hy hf, odeDerivatives_eq m₂ hy hf]

/-- ★ Without JAX, constructing a routine raises NameError, not the ImportError with its installation hint. -/
theorem autodiff_without_jax : autodiffConstruct false = .error .nameError := rfl

section Examples

/-- A time-dependent problem: `y'(t) = cos(t) · y(t)` with `y(0) = 1`, solved by `exp(sin t)`. -/
noncomputable def cosIvp : Ivp 1 := { f := fun t x => Real.cos t • x, t0 := 0, y0 := fun _ => 1, df := none, solution := none }

theorem cosIvp_solution : LocalSolution cosIvp fun t _ => Real.exp (Real.sin t) := by
  refine ⟨by simp [cosIvp], Eventually.of_forall fun t => hasDerivAt_pi.2 fun _ => ?_⟩
  show HasDerivAt (fun t => Real.exp (Real.sin t)) (Real.cos t * Real.exp (Real.sin t)) t
  rw [mul_comm]
  exact (Real.hasDerivAt_sin t).exp

theorem cosIvp_smooth {n : ℕ} (p : ℝ × (Fin 1 → ℝ)) : ContDiffAt ℝ n (fun p : ℝ × (Fin 1 → ℝ) => cosIvp.f p.1 p.2) p := by
  unfold cosIvp
  exact ((Real.contDiff_cos.comp contDiff_fst).smul contDiff_snd).contDiffAt

example (mode : AutodiffMode) (q k : ℕ) (hk : k ≤ q) :
    (proj 1 q k *ᵥ (autodiffInit mode cosIvp q).mean) 0 = iteratedDeriv k (fun t => Real.exp (Real.sin t)) 0 :=
  (autodiff_exact mode cosIvp_solution (cosIvp_smooth _)).1 k hk 0

end Examples

end Probnum.OdeFilter
