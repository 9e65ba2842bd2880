import Verif.OdeFilter.Props

/-!
# C68: initialisation by stacking known derivatives

Specification: the initial state holds, for every coordinate `i` and every derivative `k ≤ q`, the `k`-th derivative at
`t0` of the solution of the ODE with standard deviation zero where the routine claims to know it, and otherwise
mean zero with the given scale.
-/

namespace Probnum.OdeFilter

open Matrix

variable {d q : ℕ}

theorem flattenF_apply (rows : List (Fin d → ℝ)) (i : Fin d) {k : ℕ} (hk : k < rows.length) :
    flattenF rows (i.1 * rows.length + k) = rows.getD k 0 i := by
  have hl : 0 < rows.length := by omega
  have h1 : (i.1 * rows.length + k) / rows.length = i.1 := by
    rw [Nat.mul_comm, Nat.mul_add_div hl, Nat.div_eq_of_lt hk]; rfl
  have h2 : (i.1 * rows.length + k) % rows.length = k := by
    rw [Nat.mul_comm, Nat.mul_add_mod, Nat.mod_eq_of_lt hk]
  unfold flattenF
  simp [h1, h2]

/-- `Stack`: for a prior with at least one derivative the state has `d (q+1)` entries, holds `y0` and `f(t0, y0)` with
certainty and zero with the given scale for all higher derivatives. -/
theorem stack_entries (hq : 1 ≤ q) (ivp : Ivp d) (scale : ℝ) (i : Fin d) :
    (stackInit ivp scale q).size = d * (q + 1) ∧
    (stackInit ivp scale q).mean (i.1 * (q + 1) + 0) = ivp.y0 i ∧ (stackInit ivp scale q).std (i.1 * (q + 1) + 0) = 0 ∧
    (stackInit ivp scale q).mean (i.1 * (q + 1) + 1) = ivp.f ivp.t0 ivp.y0 i ∧
    (stackInit ivp scale q).std (i.1 * (q + 1) + 1) = 0 ∧
    ∀ k, 2 ≤ k → k ≤ q → (stackInit ivp scale q).mean (i.1 * (q + 1) + k) = 0 ∧
      (stackInit ivp scale q).std (i.1 * (q + 1) + k) = scale := by
  have hl1 : (stackRows ivp scale q).1.length = q + 1 := by simp [stackRows]; omega
  have hl2 : (stackRows ivp scale q).2.length = q + 1 := by simp [stackRows]; omega
  have m : ∀ k, k ≤ q → (stackInit ivp scale q).mean (i.1 * (q + 1) + k) = (stackRows ivp scale q).1.getD k 0 i := by
    intro k hk
    have := flattenF_apply (stackRows ivp scale q).1 i (k := k) (by omega)
    rwa [hl1] at this
  have s : ∀ k, k ≤ q → (stackInit ivp scale q).std (i.1 * (q + 1) + k) = (stackRows ivp scale q).2.getD k 0 i := by
    intro k hk
    have := flattenF_apply (stackRows ivp scale q).2 i (k := k) (by omega)
    rwa [hl2] at this
  refine ⟨by simp [stackInit, mkInit, hl1], ?_, ?_, ?_, ?_, fun k hk hkq => ⟨?_, ?_⟩⟩
  · rw [m 0 (by omega)]; simp [stackRows]
  · rw [s 0 (by omega)]; simp [stackRows]
  · rw [m 1 hq]; simp [stackRows]
  · rw [s 1 hq]; simp [stackRows]
  · rw [m k hkq]
    obtain ⟨j, rfl⟩ := Nat.exists_eq_add_of_le' hk
    simp only [stackRows, List.cons_append, List.nil_append, List.getD_cons_succ]
    rw [List.getD_replicate _ (by omega)]; rfl
  · rw [s k hkq]
    obtain ⟨j, rfl⟩ := Nat.exists_eq_add_of_le' hk
    simp only [stackRows, List.cons_append, List.nil_append, List.getD_cons_succ]
    rw [List.getD_replicate _ (by omega)]; simp

/-- So the initial state of `Stack` is right: it satisfies the initial condition and the ODE at `t0`. -/
theorem stack_satisfies_ode (hq : 1 ≤ q) (ivp : Ivp d) (scale : ℝ) (x : Fin (d * (q + 1)) → ℝ)
    (hx : ∀ j, x j = (stackInit ivp scale q).mean j.1) :
    coord x 0 = ivp.y0 ∧ ((Residual.new d q).incorporate ivp).bind (fun R => R.call ivp.t0 x) = .ok 0 := by
  have h0 : coord x 0 = ivp.y0 := by
    funext i
    rw [coord, dif_pos (coord_lt i (Nat.zero_le q)), hx]
    exact (stack_entries hq ivp scale i).2.1
  refine ⟨h0, ?_⟩
  rw [residual_zero_iff hq, h0]
  funext i
  rw [coord, dif_pos (coord_lt i hq), hx]
  exact (stack_entries hq ivp scale i).2.2.2.1

/-- `StackWithJacobian`: for a prior with at least two derivatives it also holds `df(t0, y0) f(t0, y0)` with certainty. -/
theorem stack_jac_entries (hq : 2 ≤ q) (ivp : Ivp d) (df : ℝ → (Fin d → ℝ) → Matrix (Fin d) (Fin d) ℝ)
    (hdf : ivp.df = some df) (scale : ℝ) (i : Fin d) :
    ∃ I, stackJacInit ivp scale q = .ok I ∧ I.size = d * (q + 1) ∧
      I.mean (i.1 * (q + 1) + 0) = ivp.y0 i ∧ I.std (i.1 * (q + 1) + 0) = 0 ∧
      I.mean (i.1 * (q + 1) + 1) = ivp.f ivp.t0 ivp.y0 i ∧ I.std (i.1 * (q + 1) + 1) = 0 ∧
      I.mean (i.1 * (q + 1) + 2) = (df ivp.t0 ivp.y0 *ᵥ ivp.f ivp.t0 ivp.y0) i ∧ I.std (i.1 * (q + 1) + 2) = 0 ∧
      ∀ k, 3 ≤ k → k ≤ q → I.mean (i.1 * (q + 1) + k) = 0 ∧ I.std (i.1 * (q + 1) + k) = scale := by
  set fy := ivp.f ivp.t0 ivp.y0 with hfy
  set dfy := df ivp.t0 ivp.y0 *ᵥ fy with hdfy
  set r1 : List (Fin d → ℝ) := [ivp.y0, fy, dfy] ++ List.replicate (q + 1 - 3) 0 with hr1
  set r2 : List (Fin d → ℝ) := [(0 : ℝ) • ivp.y0, (0 : ℝ) • fy, (0 : ℝ) • dfy] ++ List.replicate (q + 1 - 3) (scale • 1) with hr2
  have hl1 : r1.length = q + 1 := by simp [hr1]; omega
  have hl2 : r2.length = q + 1 := by simp [hr2]; omega
  have m : ∀ k, k ≤ q → flattenF r1 (i.1 * (q + 1) + k) = r1.getD k 0 i := by
    intro k hk
    have := flattenF_apply r1 i (k := k) (by omega)
    rwa [hl1] at this
  have s : ∀ k, k ≤ q → flattenF r2 (i.1 * (q + 1) + k) = r2.getD k 0 i := by
    intro k hk
    have := flattenF_apply r2 i (k := k) (by omega)
    rwa [hl2] at this
  refine ⟨⟨d * r1.length, flattenF r1, flattenF r2⟩, ?_, by rw [hl1], ?_, ?_, ?_, ?_, ?_, ?_, fun k hk hkq => ⟨?_, ?_⟩⟩
  · simp only [stackJacInit, stackJacRows, hdf, Except.map, mkInit, hr1, hr2, hfy, hdfy]
  · simp only [m 0 (by omega)]; simp [hr1]
  · simp only [s 0 (by omega)]; simp [hr2]
  · simp only [m 1 (by omega)]; simp [hr1]
  · simp only [s 1 (by omega)]; simp [hr2]
  · simp only [m 2 (by omega)]; simp [hr1]
  · simp only [s 2 (by omega)]; simp [hr2]
  · simp only [m k hkq]
    obtain ⟨j, rfl⟩ := Nat.exists_eq_add_of_le' hk
    simp only [hr1, List.cons_append, List.nil_append, List.getD_cons_succ]
    rw [List.getD_replicate _ (by omega)]; rfl
  · simp only [s k hkq]
    obtain ⟨j, rfl⟩ := Nat.exists_eq_add_of_le' hk
    simp only [hr2, List.cons_append, List.nil_append, List.getD_cons_succ]
    rw [List.getD_replicate _ (by omega)]; simp

/-- For an autonomous ODE the third block of `StackWithJacobian` is the second derivative of the solution at `t0`. -/
theorem stack_jac_second_derivative_partial (hq : 2 ≤ q) (ivp : Ivp d)
    (df : ℝ → (Fin d → ℝ) → Matrix (Fin d) (Fin d) ℝ) (hdf : ivp.df = some df) (scale : ℝ)
    (haut : ∀ t y, ivp.f t y = ivp.f ivp.t0 y)
    (hder : HasFDerivAt (ivp.f ivp.t0) (clm (df ivp.t0 ivp.y0)) ivp.y0) (y : ℝ → Fin d → ℝ) (h0 : y ivp.t0 = ivp.y0)
    (hy : ∀ t, HasDerivAt y (ivp.f t (y t)) t) (i : Fin d) :
    ∃ I, stackJacInit ivp scale q = .ok I ∧ I.std (i.1 * (q + 1) + 2) = 0 ∧
      I.mean (i.1 * (q + 1) + 2) = deriv (deriv y) ivp.t0 i := by
  obtain ⟨I, h1, _, _, _, _, _, h2, h3, _⟩ := stack_jac_entries hq ivp df hdf scale i
  refine ⟨I, h1, h3, ?_⟩
  have e : deriv y = fun t => ivp.f ivp.t0 (y t) := by
    funext t; rw [(hy t).deriv, haut]
  have hc : HasDerivAt (fun t => ivp.f ivp.t0 (y t)) (clm (df ivp.t0 ivp.y0) (ivp.f ivp.t0 ivp.y0)) ivp.t0 := by
    have hy0 := hy ivp.t0
    rw [h0] at hy0
    have hder' : HasFDerivAt (ivp.f ivp.t0) (clm (df ivp.t0 ivp.y0)) (y ivp.t0) := by rw [h0]; exact hder
    exact hder'.comp_hasDerivAt _ hy0
  rw [h2, e, hc.deriv]
  rfl

/-- The ODE `y' = t`, `y(0) = 0`, with solution `t²/2`. -/
noncomputable def ramp : Ivp 1 :=
  { f := fun t _ _ => t, t0 := 0, y0 := 0, df := some fun _ _ => 0, solution := none }

/-- Violation: for an ODE that depends on time it is not, and the routine claims certainty: `y' = t` has `y'' = 1`, the
initial state says `0` with standard deviation zero. -/
theorem stack_jac_nonautonomous :
    (∀ t y, HasFDerivAt (ramp.f t) (clm (0 : Matrix (Fin 1) (Fin 1) ℝ)) y) ∧
    (∀ t, HasDerivAt (fun t => fun _ : Fin 1 => t ^ 2 / 2) (ramp.f t (fun _ => t ^ 2 / 2)) t) ∧
    deriv (deriv (fun t : ℝ => fun _ : Fin 1 => t ^ 2 / 2)) 0 0 = 1 ∧
    ∃ I, stackJacInit ramp 1000 2 = .ok I ∧ I.std 2 = 0 ∧ I.mean 2 = 0 := by
  have hsol : ∀ t, HasDerivAt (fun t => fun _ : Fin 1 => t ^ 2 / 2) (ramp.f t (fun _ => t ^ 2 / 2)) t := by
    intro t
    rw [hasDerivAt_pi]
    intro i
    have := ((hasDerivAt_id t).pow 2).div_const 2
    simpa [ramp] using this
  refine ⟨fun t y => ?_, hsol, ?_, ?_⟩
  · have e : clm (0 : Matrix (Fin 1) (Fin 1) ℝ) = 0 := by ext z i; simp [clm]
    rw [e]
    exact hasFDerivAt_const (fun _ : Fin 1 => t) y
  · have e : deriv (fun t : ℝ => fun _ : Fin 1 => t ^ 2 / 2) = fun t => fun _ : Fin 1 => t := by
      funext t; exact (hsol t).deriv
    rw [e]
    have : HasDerivAt (fun t : ℝ => fun _ : Fin 1 => t) (fun _ => 1) 0 := by
      rw [hasDerivAt_pi]; intro i; exact hasDerivAt_id 0
    rw [this.deriv]
  · obtain ⟨I, h1, _, _, _, _, _, h2, h3, _⟩ := stack_jac_entries (q := 2) le_rfl ramp (fun _ _ => 0) rfl 1000 0
    refine ⟨I, h1, by simpa using h3, ?_⟩
    simpa [ramp] using h2

/-- The hypotheses of the autonomous case are met by `y' = y`, `y(0) = 1`-type problems; here by the equilibrium of the
logistic equation. -/
example : ∃ (ivp : Ivp 1) (df : ℝ → (Fin 1 → ℝ) → Matrix (Fin 1) (Fin 1) ℝ) (y : ℝ → Fin 1 → ℝ), ivp.df = some df ∧
    (∀ t y, ivp.f t y = ivp.f ivp.t0 y) ∧ HasFDerivAt (ivp.f ivp.t0) (clm (df ivp.t0 ivp.y0)) ivp.y0 ∧
    y ivp.t0 = ivp.y0 ∧ ∀ t, HasDerivAt y (ivp.f t (y t)) t :=
  ⟨{ logistic with y0 := fun _ => 1 }, fun _ y => !![1 - 2 * y 0], fun _ _ => 1, rfl, fun _ _ => rfl, logistic_df 0 _, rfl,
    fun t => by
      have : logistic.f t (fun _ => 1) = 0 := by funext i; simp [logistic]
      show HasDerivAt _ (logistic.f t (fun _ => 1)) t
      rw [this]; exact hasDerivAt_const t _⟩

/-- Without `df` it raises. -/
theorem stack_jac_needs_df (ivp : Ivp d) (h : ivp.df = none) (scale : ℝ) :
    stackJacInit ivp scale q = .error .typeError := by
  simp [stackJacInit, stackJacRows, h, Except.map]

/-- Violation: for priors with too few derivatives the routines return states of the wrong size: `Stack` always at least
`2 d` entries, `StackWithJacobian` at least `3 d`, instead of `d (q + 1)`. -/
theorem stack_size (ivp : Ivp d) (scale : ℝ) (q : ℕ) :
    (stackInit ivp scale q).size = d * max 2 (q + 1) ∧
    ∀ df, ivp.df = some df → ∃ I, stackJacInit ivp scale q = .ok I ∧ I.size = d * max 3 (q + 1) := by
  constructor
  · simp only [stackInit, mkInit, stackRows, List.length_append, List.length_cons, List.length_nil, List.length_replicate]
    congr 1; omega
  · intro df h
    refine ⟨_, by simp only [stackJacInit, stackJacRows, h, Except.map]; rfl, ?_⟩
    simp only [mkInit, List.length_append, List.length_cons, List.length_nil, List.length_replicate]
    congr 1; omega

theorem stack_size_wrong (hd : 0 < d) (ivp : Ivp d) (df : ℝ → (Fin d → ℝ) → Matrix (Fin d) (Fin d) ℝ)
    (hdf : ivp.df = some df) (scale : ℝ) :
    (stackInit ivp scale 0).size ≠ d * (0 + 1) ∧ ∃ I, stackJacInit ivp scale 1 = .ok I ∧ I.size ≠ d * (1 + 1) := by
  refine ⟨by rw [(stack_size ivp scale 0).1]; simp; omega, ?_⟩
  obtain ⟨I, h1, h2⟩ := (stack_size ivp scale 1).2 df hdf
  exact ⟨I, h1, by rw [h2]; simp; omega⟩

end Probnum.OdeFilter
