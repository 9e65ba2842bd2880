import Verif.Iterated.Component
import Verif.Iterated.GaussNewton
import Verif.Iterated.Props
import Verif.Approx.Props
import Mathlib.Analysis.Calculus.Deriv.Basic
import Mathlib.Topology.Order.Compact

/-!
# Iterated extended Kalman updates are Gauss–Newton steps (C107)
-/

namespace Probnum.Iterated

open Matrix LinGauss Approx

variable {n m : ℕ}

/-! ## Specification -/

/-- The negative logarithm, up to an additive constant, of the posterior density of a state `x` that has the normal prior
`rv`, given the observation `y` of `g(x)` with normal noise (whose covariance is scaled by the diffusion `d`). -/
noncomputable def negLogPosterior (M : Nonlinear n m) (d : ℝ) (rv : Normal n) (y : Fin m → ℝ) (x : Fin n → ℝ) : ℝ :=
  ((x - rv.mean) ⬝ᵥ rv.cov⁻¹ *ᵥ (x - rv.mean) +
    (y - (M.g x + M.noise.mean)) ⬝ᵥ (d • M.noise.cov)⁻¹ *ᵥ (y - (M.g x + M.noise.mean))) / 2

/-- The same model with `g` replaced by its first-order expansion at `x0`. -/
def expand (M : Nonlinear n m) (dg : (Fin n → ℝ) → Matrix (Fin m) (Fin n) ℝ) (x0 : Fin n → ℝ) : Nonlinear n m :=
  { g := fun x => M.g x0 + dg x0 *ᵥ (x - x0)
    jac := some fun _ => dg x0
    noise := M.noise }

/-- The given Jacobian is the derivative. -/
def IsJacobian (M : Nonlinear n m) (dg : (Fin n → ℝ) → Matrix (Fin m) (Fin n) ℝ) : Prop :=
  M.jac = some dg ∧ ∀ x, HasFDerivAt M.g (matMap (dg x)) x

/-- Prior and noise have densities. -/
structure Regular (M : Nonlinear n m) (d : ℝ) (rv : Normal n) : Prop where
  prior : rv.cov.PosDef
  noise : (d • M.noise.cov).PosDef

/-- The extended Kalman component of the model. -/
noncomputable abbrev ekf (M : Nonlinear n m) (dg : (Fin n → ℝ) → Matrix (Fin m) (Fin n) ℝ) : Normal n → Transition n m :=
  fun r => ekfLinearize M dg r.mean

theorem ekf_eq {M : Nonlinear n m} {dg : (Fin n → ℝ) → Matrix (Fin m) (Fin n) ℝ} (h : M.jac = some dg) :
    ekfComponent M = .ok (ekf M dg) := by
  rw [ekfComponent, Nonlinear.jacobian, h]

/-! ## One update -/

/-- The update linearised at `x0`. -/
noncomputable def gnUpdate (M : Nonlinear n m) (dg : (Fin n → ℝ) → Matrix (Fin m) (Fin n) ℝ) (d : ℝ) (rv : Normal n)
    (y : Fin m → ℝ) (x0 : Fin n → ℝ) : Updated n :=
  let J := dg x0
  let K := rv.cov * Jᵀ * (J * rv.cov * Jᵀ + d • M.noise.cov)⁻¹
  ⟨rv.mean + K *ᵥ (y - (J *ᵥ rv.mean + ((M.g x0 - J *ᵥ x0) + M.noise.mean))), rv.cov - K * J * rv.cov⟩

theorem backward_eq {M : Nonlinear n m} (dg : (Fin n → ℝ) → Matrix (Fin m) (Fin n) ℝ) {d : ℝ} {rv : Normal n}
    (hr : Regular M d rv) (at? : Option (Normal n)) (y : Fin m → ℝ) :
    Approx.backwardRv (ekf M dg) at? d (Normal.const y) rv none = .ok (gnUpdate M dg d rv y (point at? rv).mean) := by
  have e : predCov (ekf M dg (point at? rv)) d rv = dg (point at? rv).mean * rv.cov * (dg (point at? rv).mean)ᵀ +
      d • M.noise.cov := predCov_eq _ _ _
  have hS := innov_posDef hr.prior hr.noise (dg (point at? rv).mean)
  have hd : (predCov (ekf M dg (point at? rv)) d rv).det ≠ 0 := by rw [e]; exact (posDef_det hS).ne_zero
  rw [Approx.backwardRv, backwardClassic, gainClassic_eq _ _ _ hd]
  show Except.ok (conditionStateOnRv (Normal.const y) _ _ rv _) = _
  congr 1
  rw [conditionStateOnRv, gnUpdate]
  have eK : optGain (ekf M dg (point at? rv)) d rv = rv.cov * (dg (point at? rv).mean)ᵀ *
      (dg (point at? rv).mean * rv.cov * (dg (point at? rv).mean)ᵀ + d • M.noise.cov)⁻¹ := by
    rw [optGain, e]; rfl
  have e' : (forwardClassic (ekf M dg (point at? rv)) d rv).cov = dg (point at? rv).mean * rv.cov *
      (dg (point at? rv).mean)ᵀ + d • M.noise.cov := e
  have em : (forwardClassic (ekf M dg (point at? rv)) d rv).mean = dg (point at? rv).mean *ᵥ rv.mean +
      ((M.g (point at? rv).mean - dg (point at? rv).mean *ᵥ (point at? rv).mean) + M.noise.mean) := rfl
  rw [eK, e', em]
  generalize dg (point at? rv).mean = J at *
  have hsy := posDef_symm hS
  have hsP := posDef_symm hr.prior
  congr 1
  show rv.cov + _ * ((0 : Matrix (Fin m) (Fin m) ℝ) - _) * _ = _
  rw [zero_sub, Matrix.mul_neg, Matrix.neg_mul, ← sub_eq_add_neg]
  congr 1
  rw [Matrix.transpose_mul, Matrix.transpose_mul, Matrix.transpose_transpose, hsP, Matrix.transpose_nonsing_inv, hsy,
    Matrix.mul_assoc _ _ (J * rv.cov * Jᵀ + d • M.noise.cov), Matrix.nonsing_inv_mul _ (posDef_det hS), Matrix.mul_one]
  simp only [Matrix.mul_assoc]

/-- `G (μ - x0) = P⁻¹ (m - x0) + Jᵀ R⁻¹ (y - b - g(x0))`. -/
theorem gn_equation {M : Nonlinear n m} (dg : (Fin n → ℝ) → Matrix (Fin m) (Fin n) ℝ) {d : ℝ} {rv : Normal n}
    (hr : Regular M d rv) (y : Fin m → ℝ) (x0 : Fin n → ℝ) :
    hess rv.cov (d • M.noise.cov) (dg x0) *ᵥ ((gnUpdate M dg d rv y x0).mean - x0) =
      rv.cov⁻¹ *ᵥ (rv.mean - x0) + ((dg x0)ᵀ * (d • M.noise.cov)⁻¹) *ᵥ (y - (M.g x0 + M.noise.mean)) := by
  have e : (gnUpdate M dg d rv y x0).mean - x0 = (rv.mean - x0) + (rv.cov * (dg x0)ᵀ *
      (dg x0 * rv.cov * (dg x0)ᵀ + d • M.noise.cov)⁻¹) *ᵥ
        ((y - (M.g x0 + M.noise.mean)) - dg x0 *ᵥ (rv.mean - x0)) := by
    have z : y - (dg x0 *ᵥ rv.mean + ((M.g x0 - dg x0 *ᵥ x0) + M.noise.mean)) =
        (y - (M.g x0 + M.noise.mean)) - dg x0 *ᵥ (rv.mean - x0) := by rw [Matrix.mulVec_sub]; abel
    rw [← z, gnUpdate]
    exact add_sub_right_comm _ _ _
  rw [e, Matrix.mulVec_add, Matrix.mulVec_mulVec, hess_gain hr.prior hr.noise, Matrix.mulVec_sub _ (y - _),
    Matrix.mulVec_mulVec, hess, Matrix.add_mulVec]
  abel

/-- **C107 (the step).**  The update linearised at any point succeeds, and its mean is the minimiser of the objective of
the linearised model: there the objective grows by half the squared distance in the metric `G = P⁻¹ + Jᵀ R⁻¹ J`, which is
positive definite and the inverse of the returned covariance. -/
theorem update_minimises {M : Nonlinear n m} {dg : (Fin n → ℝ) → Matrix (Fin m) (Fin n) ℝ} (hj : M.jac = some dg) {d : ℝ}
    {rv : Normal n} (hr : Regular M d rv) (at? : Option (Normal n)) (y : Fin m → ℝ) :
    ∃ lin u, ekfComponent M = .ok lin ∧ Approx.backwardRv lin at? d (Normal.const y) rv none = .ok u ∧ u.cov⁻¹.PosDef ∧
      u.cov⁻¹ = rv.cov⁻¹ + (dg (point at? rv).mean)ᵀ * (d • M.noise.cov)⁻¹ * dg (point at? rv).mean ∧
      (∀ x, negLogPosterior (expand M dg (point at? rv).mean) d rv y x =
        negLogPosterior (expand M dg (point at? rv).mean) d rv y u.mean + ((x - u.mean) ⬝ᵥ u.cov⁻¹ *ᵥ (x - u.mean)) / 2) ∧
      ∀ x, x ≠ u.mean → negLogPosterior (expand M dg (point at? rv).mean) d rv y u.mean <
        negLogPosterior (expand M dg (point at? rv).mean) d rv y x := by
  generalize hx0 : (point at? rv).mean = x0
  have hb := backward_eq dg hr at? y
  rw [hx0] at hb
  have hG := hess_posDef hr.prior hr.noise (dg x0)
  have hc : (gnUpdate M dg d rv y x0).cov⁻¹ = hess rv.cov (d • M.noise.cov) (dg x0) :=
    Matrix.inv_eq_left_inv (hess_cov hr.prior hr.noise (dg x0))
  have he := gn_equation dg hr y x0
  have key : ∀ x, negLogPosterior (expand M dg x0) d rv y x =
        negLogPosterior (expand M dg x0) d rv y (gnUpdate M dg d rv y x0).mean +
        ((x - (gnUpdate M dg d rv y x0).mean) ⬝ᵥ (gnUpdate M dg d rv y x0).cov⁻¹ *ᵥ
          (x - (gnUpdate M dg d rv y x0).mean)) / 2 := by
    intro x
    rw [hc]
    generalize (gnUpdate M dg d rv y x0).mean = μ at *
    obtain ⟨h, rfl⟩ : ∃ h, x = μ + h := ⟨x - μ, by abel⟩
    have hPs : (rv.cov⁻¹)ᵀ = rv.cov⁻¹ := posDef_symm hr.prior.inv
    have hRs : ((d • M.noise.cov)⁻¹)ᵀ = (d • M.noise.cov)⁻¹ := posDef_symm hr.noise.inv
    have r : ∀ v, y - ((expand M dg x0).g v + (expand M dg x0).noise.mean) =
        (y - (M.g x0 + M.noise.mean)) - dg x0 *ᵥ (v - x0) := by
      intro v; show y - ((M.g x0 + dg x0 *ᵥ (v - x0)) + M.noise.mean) = _; abel
    have a1 : μ + h - rv.mean = (μ - rv.mean) + h := by abel
    have a2 : (y - (M.g x0 + M.noise.mean)) - dg x0 *ᵥ (μ + h - x0) =
        ((y - (M.g x0 + M.noise.mean)) - dg x0 *ᵥ (μ - x0)) + -(dg x0 *ᵥ h) := by
      rw [show μ + h - x0 = (μ - x0) + h by abel, Matrix.mulVec_add]; abel
    have q1 := quad_add hPs (μ - rv.mean) h
    have q2 := quad_add hRs ((y - (M.g x0 + M.noise.mean)) - dg x0 *ᵥ (μ - x0)) (-(dg x0 *ᵥ h))
    have q3 := quad_hess (P := rv.cov) (R := d • M.noise.cov) (dg x0) h
    have q4 : quad (d • M.noise.cov)⁻¹ (-(dg x0 *ᵥ h)) = quad (d • M.noise.cov)⁻¹ (dg x0 *ᵥ h) := by
      rw [quad, quad, Matrix.mulVec_neg, neg_dotProduct_neg]
    have nrm : h ⬝ᵥ rv.cov⁻¹ *ᵥ (μ - rv.mean) = dg x0 *ᵥ h ⬝ᵥ (d • M.noise.cov)⁻¹ *ᵥ
        ((y - (M.g x0 + M.noise.mean)) - dg x0 *ᵥ (μ - x0)) := by
      rw [dot_mulVec, Matrix.mulVec_mulVec, Matrix.mulVec_sub _ (y - _), Matrix.mulVec_mulVec]
      congr 1
      rw [hess, Matrix.add_mulVec] at he
      have e2 : rv.cov⁻¹ *ᵥ (μ - rv.mean) = rv.cov⁻¹ *ᵥ (μ - x0) - rv.cov⁻¹ *ᵥ (rv.mean - x0) := by
        rw [← Matrix.mulVec_sub]; congr 1; abel
      rw [e2, sub_eq_sub_iff_add_eq_add, he]
      abel
    unfold negLogPosterior
    rw [r, r, a1, a2, show μ + h - μ = h by abel]
    simp only [quad] at q1 q2 q3 q4
    rw [neg_dotProduct] at q2
    show (_ + _ ⬝ᵥ (d • M.noise.cov)⁻¹ *ᵥ _) / 2 = (_ + _ ⬝ᵥ (d • M.noise.cov)⁻¹ *ᵥ _) / 2 + _
    rw [q1, q2, q3, q4, nrm]
    ring
  refine ⟨_, _, ekf_eq hj, hb, hc ▸ hG, hc, key, fun x hx => ?_⟩
  rw [key x, hc]
  have := hG.dotProduct_mulVec_pos (sub_ne_zero.2 hx)
  rw [star_trivial] at this
  linarith

/-- **C107 (the direction).**  The derivative of the negative log posterior at the linearisation point `x0` is
`v ↦ - v · Σ⁻¹ (μ - x0)` for the returned mean `μ` and covariance `Σ`: the update is the Gauss–Newton step
`μ = x0 - Σ ∇V(x0)`. -/
theorem update_gauss_newton {M : Nonlinear n m} {dg : (Fin n → ℝ) → Matrix (Fin m) (Fin n) ℝ} (hj : IsJacobian M dg) {d : ℝ}
    {rv : Normal n} (hr : Regular M d rv) (at? : Option (Normal n)) (y : Fin m → ℝ) :
    ∃ lin u, ∃ D : (Fin n → ℝ) →L[ℝ] ℝ, ekfComponent M = .ok lin ∧ Approx.backwardRv lin at? d (Normal.const y) rv none = .ok u ∧
      u.cov⁻¹.PosDef ∧ HasFDerivAt (negLogPosterior M d rv y) D (point at? rv).mean ∧
      ∀ v, D v = -(v ⬝ᵥ u.cov⁻¹ *ᵥ (u.mean - (point at? rv).mean)) := by
  generalize hx0 : (point at? rv).mean = x0
  have hb := backward_eq dg hr at? y
  rw [hx0] at hb
  have hc : (gnUpdate M dg d rv y x0).cov⁻¹ = hess rv.cov (d • M.noise.cov) (dg x0) :=
    Matrix.inv_eq_left_inv (hess_cov hr.prior hr.noise (dg x0))
  have hPs : (rv.cov⁻¹)ᵀ = rv.cov⁻¹ := posDef_symm hr.prior.inv
  have hRs : ((d • M.noise.cov)⁻¹)ᵀ = (d • M.noise.cov)⁻¹ := posDef_symm hr.noise.inv
  obtain ⟨D1, h1, h1'⟩ := hasFDerivAt_quad ((hasFDerivAt_id x0).sub_const rv.mean) hPs
  obtain ⟨D2, h2, h2'⟩ := hasFDerivAt_quad (((hj.2 x0).add_const M.noise.mean).const_sub y) hRs
  refine ⟨_, _, (2 : ℝ)⁻¹ • (D1 + D2), ekf_eq hj.1, hb, hc ▸ hess_posDef hr.prior hr.noise (dg x0), ?_, fun v => ?_⟩
  · have := (h1.add h2).const_mul (2 : ℝ)⁻¹
    refine this.congr_of_eventuallyEq (Filter.Eventually.of_forall fun x => ?_)
    show _ / 2 = 2⁻¹ * _
    rw [div_eq_inv_mul]
    rfl
  · rw [hc, gn_equation dg hr y x0, ContinuousLinearMap.smul_apply, ContinuousLinearMap.add_apply, h1', h2',
      ContinuousLinearMap.neg_apply, matMap_apply, neg_dotProduct, dot_mulVec, Matrix.mulVec_mulVec, dotProduct_add,
      smul_eq_mul, ContinuousLinearMap.id_apply]
    rw [show rv.mean - x0 = -(id x0 - rv.mean) by simp, Matrix.mulVec_neg, dotProduct_neg]
    ring

/-- **C107 (fixed points).**  The update returns the linearisation point as the new mean exactly if that point is a
stationary point of the negative log posterior. -/
theorem update_fixed_iff {M : Nonlinear n m} {dg : (Fin n → ℝ) → Matrix (Fin m) (Fin n) ℝ} (hj : IsJacobian M dg) {d : ℝ}
    {rv : Normal n} (hr : Regular M d rv) (at? : Option (Normal n)) (y : Fin m → ℝ) :
    ∃ lin u, ekfComponent M = .ok lin ∧ Approx.backwardRv lin at? d (Normal.const y) rv none = .ok u ∧
      (u.mean = (point at? rv).mean ↔
        HasFDerivAt (negLogPosterior M d rv y) (0 : (Fin n → ℝ) →L[ℝ] ℝ) (point at? rv).mean) := by
  obtain ⟨lin, u, D, h1, h2, h3, h4, h5⟩ := update_gauss_newton hj hr at? y
  refine ⟨lin, u, h1, h2, ⟨fun h => ?_, fun h => ?_⟩⟩
  · have : D = 0 := by
      ext v
      rw [h5, h, sub_self, Matrix.mulVec_zero, dotProduct_zero, neg_zero]
      rfl
    rwa [this] at h4
  · have hD : D = 0 := h4.unique h
    by_contra hne
    have h6 := h3.dotProduct_mulVec_pos (sub_ne_zero.2 hne)
    have h7 := h5 (u.mean - (point at? rv).mean)
    rw [star_trivial] at h6
    rw [hD, ContinuousLinearMap.zero_apply] at h7
    linarith

/-- **C107 (descent).**  If the mean changes, the negative log posterior decreases in the direction of the change: along
short enough steps towards the new mean it is smaller than at the linearisation point. -/
theorem update_descends {M : Nonlinear n m} {dg : (Fin n → ℝ) → Matrix (Fin m) (Fin n) ℝ} (hj : IsJacobian M dg) {d : ℝ}
    {rv : Normal n} (hr : Regular M d rv) (at? : Option (Normal n)) (y : Fin m → ℝ) :
    ∃ lin u, ekfComponent M = .ok lin ∧ Approx.backwardRv lin at? d (Normal.const y) rv none = .ok u ∧
      (u.mean ≠ (point at? rv).mean → ∃ ε : ℝ, 0 < ε ∧ ∀ t, 0 < t → t < ε →
        negLogPosterior M d rv y ((point at? rv).mean + t • (u.mean - (point at? rv).mean)) <
          negLogPosterior M d rv y (point at? rv).mean) := by
  obtain ⟨lin, u, D, h1, h2, h3, h4, h5⟩ := update_gauss_newton hj hr at? y
  refine ⟨lin, u, h1, h2, fun hne => ?_⟩
  generalize (point at? rv).mean = x0 at *
  have h6 := h3.dotProduct_mulVec_pos (sub_ne_zero.2 hne)
  rw [star_trivial] at h6
  have h7 : D (u.mean - x0) < 0 := by rw [h5]; linarith
  have hl : HasDerivAt (fun t : ℝ => negLogPosterior M d rv y (x0 + t • (u.mean - x0))) (D (u.mean - x0)) 0 := by
    have hx : HasDerivAt (fun t : ℝ => x0 + t • (u.mean - x0)) (u.mean - x0) 0 := by
      have := ((hasDerivAt_id (0 : ℝ)).smul_const (u.mean - x0)).const_add x0
      simpa using this
    have h4' : HasFDerivAt (negLogPosterior M d rv y) D (x0 + (0 : ℝ) • (u.mean - x0)) := by
      rwa [zero_smul, add_zero]
    exact h4'.comp_hasDerivAt (0 : ℝ) hx
  have h8 := (hasDerivAt_iff_tendsto_slope.1 hl).eventually_lt_const h7
  rw [eventually_nhdsWithin_iff, Metric.eventually_nhds_iff] at h8
  obtain ⟨ε, he, h8⟩ := h8
  refine ⟨ε, he, fun t ht hte => ?_⟩
  have h9 := h8 (show dist t 0 < ε by rw [Real.dist_eq, sub_zero, abs_of_pos ht]; exact hte) ht.ne'
  rw [slope_def_field, sub_zero, zero_smul, add_zero, div_lt_iff₀ ht, zero_mul] at h9
  linarith

/-! ## The iteration -/

theorem diff_ofFn (a b : Fin n → ℝ) : diff (List.ofFn a) (List.ofFn b) = (List.ofFn (a - b)).map some := by
  rw [diff]
  refine List.ext_getElem (by simp) fun i h1 h2 => ?_
  simp

theorem not_big_of_zero {c : Crit} : ∀ l : List ℝ, ¬ (c.evaluateError (diff l l) l).big := by
  intro l
  have h : ∀ l : List ℝ, sumMag (List.zipWith (sqEntry c.atol c.rtol) (diff l l) l) = .fin 0 ∨
      sumMag (List.zipWith (sqEntry c.atol c.rtol) (diff l l) l) = .nan := by
    intro l
    induction l with
    | nil => exact .inl rfl
    | cons x l ih =>
      rw [diff] at ih ⊢
      rw [List.zipWith_cons_cons, List.zipWith_cons_cons, sumMag, sqEntry]
      simp only [sub_self]
      by_cases hz : c.atol + c.rtol * x = 0
      · rw [if_pos hz]
        right
        simp [Mag.add]
      · rw [if_neg hz]
        rcases ih with ih | ih
        · left; rw [ih]; simp [Mag.add]
        · right; rw [ih]; simp [Mag.add]
  rw [Crit.evaluateError, rms]
  by_cases h0 : (List.zipWith (sqEntry c.atol c.rtol) (diff l l) l).length = 0
  · rw [if_pos h0]; exact fun h => h
  · rw [if_neg h0]
    rcases h l with h | h <;> rw [h]
    · show ¬ (1 < Real.sqrt (0 / _))
      simp
    · exact fun h => h

/-- If the second result has the same mean as the first, the iteration stops with it. -/
theorem run_fixed {P : Type} {step : P → Res P} {mean : P → List ℝ} {c : Crit} {p q : P} (hne : mean p ≠ [])
    (hc : c.iterations = 0) (hm : 1 ≤ c.maxit) (hs : step p = .ok q) (hq : mean q = mean p) {fuel : ℕ} (hf : 2 ≤ fuel) :
    run (.ok p) step mean fuel c = some (.ok q, c.withCount 0, 1) := by
  obtain ⟨f, rfl⟩ : ∃ f, fuel = f + 2 := ⟨fuel - 2, by omega⟩
  have h1 := call_moves (old := none) (by omega : c.iterations ≤ c.maxit) (first_moves (mean := mean) (c := c) hne)
  rw [errorOf] at h1
  have h2 := call_stops (mean := mean) (c := c.withCount (c.iterations + 1)) (old := some p) (p := q)
    (show c.iterations + 1 ≤ c.maxit by omega) (by rw [Moves, hq]; exact not_big_of_zero _)
  rw [errorOf] at h2
  rw [run, loop, h1]
  dsimp only
  rw [hs]
  dsimp only
  rw [loop, h2]
  rfl

/-- **C107 (the result).**  When the iterated update returns, the returned variable is the update linearised at the
previous iterate `x`, whose mean differs from the returned one by a normalised difference of at most one, and
`Σ⁻¹ (μ - x)` is the negative gradient of the negative log posterior at `x`. -/
theorem iterated_result {M : Nonlinear n m} {dg : (Fin n → ℝ) → Matrix (Fin m) (Fin n) ℝ} (hj : IsJacobian M dg) {d : ℝ}
    {rv : Normal n} (hr : Regular M d rv) (hn : 0 < n) {c : Crit} (hc : c.iterations = 0) {fuel : ℕ}
    (hf : c.maxit + 2 ≤ fuel) (at? : Option (Normal n)) (y : Fin m → ℝ)
    (given : Option ((Fin m → ℝ) × Matrix (Fin m) (Fin m) ℝ × Matrix (Fin n) (Fin m) ℝ)) :
    ∃ lin r c' k, ekfComponent M = .ok lin ∧ backwardRealization lin at? d y rv given fuel c = some (r, c', k) ∧
      (r = .error .runtimeError ∧ k = c.maxit + 1 ∨
        ∃ u x, ∃ D : (Fin n → ℝ) →L[ℝ] ℝ, r = .ok u ∧ 1 ≤ k ∧ k ≤ c.maxit ∧ c' = c ∧
          Approx.backwardRv lin (some (asNormal x)) d (Normal.const y) rv none = .ok u ∧
          ((∀ i, c.atol + c.rtol * u.mean i ≠ 0) →
            normalisedDifference c.atol c.rtol (List.ofFn (u.mean - x.mean)) (List.ofFn u.mean) ≤ 1) ∧
          HasFDerivAt (negLogPosterior M d rv y) D x.mean ∧
          ∀ v, D v = -(v ⬝ᵥ u.cov⁻¹ *ᵥ (u.mean - x.mean))) := by
  have hne : ∀ u : Updated n, List.ofFn u.mean ≠ [] := fun u h => by
    have := congrArg List.length h
    rw [List.length_ofFn] at this
    simp at this
    omega
  obtain ⟨r, c', k, h1, h2⟩ := iteration_terminates_partial
    (fun u => Approx.backwardRv (ekf M dg) (some (asNormal u)) d (Normal.const y) rv none) (fun u => List.ofFn u.mean) hc
    (gnUpdate M dg d rv y (point at? rv).mean) hf
  rw [← backward_eq dg hr at? y] at h1
  refine ⟨_, r, c', k, ekf_eq hj.1, h1, ?_⟩
  generalize hx : (r, c') = z at h2
  cases h2 with
  | @done q p hp hq hstop hfirst hlim =>
    right
    cases hx
    rcases hq with ⟨rfl, rfl⟩ | ⟨j, x, rfl, rfl, hxs⟩
    · cases hp
      exact absurd (first_moves (hne _)) hstop
    · have hu : Approx.backwardRv (ekf M dg) (some (asNormal x)) d (Normal.const y) rv none = .ok p := by
        cases hp with
        | succ g1 g2 => rw [← hxs.unique g1] at g2; exact g2
      obtain ⟨lin, u, D, g1, g2, _, g4, g5⟩ := update_gauss_newton hj hr (some (asNormal x)) y
      rw [ekf_eq hj.1] at g1
      cases g1
      rw [hu] at g2
      cases g2
      refine ⟨p, x, D, rfl, by omega, by omega, by rw [Crit.withCount, ← hc], hu, fun hnz => ?_, g4, g5⟩
      rw [Moves, diff_ofFn] at hstop
      have hcv := criterion_value (c := c) (by omega) (error := List.ofFn (p.mean - x.mean)) (reference := List.ofFn p.mean)
        (by simp) (hne p) (by intro r hr; obtain ⟨i, rfl⟩ := (List.mem_ofFn' _ _).1 hr; exact hnz i)
      by_contra hgt
      rw [if_neg hgt, Crit.call, if_neg (by omega), if_neg hstop] at hcv
      cases hcv
  | limit hlim hfirst => cases hx; exact .inl ⟨rfl, by omega⟩
  | failed hp hs hlim =>
    exfalso
    rw [backward_eq dg hr] at hs
    cases hs

/-- **C107 (affine models).**  For an affine measurement function the iterated update returns, after one repetition, the
update of the plain component, which is exact conditioning (C51). -/
theorem iterated_affine {M : Nonlinear n m} {A : Matrix (Fin m) (Fin n) ℝ} {b : Fin m → ℝ} (h : Affine M A b) {d : ℝ}
    {rv : Normal n} (hr : Regular M d rv) (hn : 0 < n) {c : Crit} (hc : c.iterations = 0) (hm : 1 ≤ c.maxit) {fuel : ℕ}
    (hf : 2 ≤ fuel) (at? : Option (Normal n)) (y : Fin m → ℝ)
    (given : Option ((Fin m → ℝ) × Matrix (Fin m) (Fin m) ℝ × Matrix (Fin n) (Fin m) ℝ)) :
    ∃ lin u, ekfComponent M = .ok lin ∧ backwardRealization lin at? d y rv given fuel c = some (.ok u, c, 1) ∧
      Approx.backwardRv lin none d (Normal.const y) rv none = .ok u := by
  have hj : M.jac = some fun _ => A := h.jac
  have e : ∀ x0, gnUpdate M (fun _ => A) d rv y x0 = gnUpdate M (fun _ => A) d rv y rv.mean := by
    intro x0
    simp only [gnUpdate, h.fn]
    congr 5
    abel
  refine ⟨_, gnUpdate M (fun _ => A) d rv y rv.mean, ekf_eq hj, ?_, by rw [backward_eq _ hr]; rfl⟩
  rw [backwardRealization, backwardRv, backward_eq _ hr, e]
  have hcc : c.withCount 0 = c := by rw [Crit.withCount, ← hc]
  have := run_fixed (step := fun u => Approx.backwardRv (ekf M fun _ => A) (some (asNormal u)) d (Normal.const y) rv none)
    (mean := fun u => List.ofFn u.mean) (p := gnUpdate M (fun _ => A) d rv y rv.mean)
    (q := gnUpdate M (fun _ => A) d rv y rv.mean) (c := c)
    (fun h => by have := congrArg List.length h; rw [List.length_ofFn] at this; simp at this; omega) hc hm
    (by rw [backward_eq _ hr, e]) rfl hf
  rw [hcc] at this
  exact this

/-- **C107 (stationary points).**  Linearised first at a stationary point of the negative log posterior, the iterated update
returns a variable with this mean, after one repetition. -/
theorem iterated_stationary {M : Nonlinear n m} {dg : (Fin n → ℝ) → Matrix (Fin m) (Fin n) ℝ} (hj : IsJacobian M dg) {d : ℝ}
    {rv : Normal n} (hr : Regular M d rv) (hn : 0 < n) {c : Crit} (hc : c.iterations = 0) (hm : 1 ≤ c.maxit) {fuel : ℕ}
    (hf : 2 ≤ fuel) (at? : Option (Normal n)) (y : Fin m → ℝ)
    (given : Option ((Fin m → ℝ) × Matrix (Fin m) (Fin m) ℝ × Matrix (Fin n) (Fin m) ℝ))
    (hst : HasFDerivAt (negLogPosterior M d rv y) (0 : (Fin n → ℝ) →L[ℝ] ℝ) (point at? rv).mean) :
    ∃ lin u, ekfComponent M = .ok lin ∧ backwardRealization lin at? d y rv given fuel c = some (.ok u, c, 1) ∧
      u.mean = (point at? rv).mean := by
  obtain ⟨lin, u, h1, h2, h3⟩ := update_fixed_iff hj hr at? y
  have hu := h3.2 hst
  have h1' := h1
  rw [ekf_eq hj.1] at h1'
  cases h1'
  refine ⟨_, u, h1, ?_, hu⟩
  have hs : Approx.backwardRv (ekf M dg) (some (asNormal u)) d (Normal.const y) rv none = .ok u := by
    rw [← h2, backward_eq dg hr, backward_eq dg hr]
    show Except.ok (gnUpdate M dg d rv y u.mean) = _
    rw [hu]
  rw [backwardRealization, backwardRv, h2]
  have hcc : c.withCount 0 = c := by rw [Crit.withCount, ← hc]
  have := run_fixed (step := fun u => Approx.backwardRv (ekf M dg) (some (asNormal u)) d (Normal.const y) rv none)
    (mean := fun u => List.ofFn u.mean) (p := u) (q := u) (c := c)
    (fun h => by have := congrArg List.length h; rw [List.length_ofFn] at this; simp at this; omega) hc hm hs rfl hf
  rw [hcc] at this
  exact this

/-! ## The iteration need not converge -/

/-- The measurement function `x - x³ - 2` with its Jacobian and standard normal noise. -/
noncomputable def cyc : Nonlinear 1 1 :=
  { g := fun x _ => x 0 - x 0 ^ 3 - 2
    jac := some fun x => Matrix.of fun _ _ => 1 - 3 * x 0 ^ 2
    noise := ⟨0, 1, 1⟩ }

/-- The standard normal prior. -/
def cycPrior : Normal 1 := ⟨0, 1, 1⟩

theorem cyc_jacobian : IsJacobian cyc fun x => Matrix.of fun _ _ => 1 - 3 * x 0 ^ 2 := by
  refine ⟨rfl, fun x => ?_⟩
  rw [hasFDerivAt_pi']
  intro i
  have h0 : HasFDerivAt (fun x : Fin 1 → ℝ => x 0) (ContinuousLinearMap.proj (R := ℝ) (φ := fun _ : Fin 1 => ℝ) 0) x :=
    (ContinuousLinearMap.proj (R := ℝ) (φ := fun _ : Fin 1 => ℝ) 0).hasFDerivAt
  have h := (h0.sub (h0.pow 3)).sub_const 2
  refine h.congr_fderiv ?_
  ext v
  simp [matMap, Matrix.mulVec, dotProduct]
  ring

theorem cyc_regular : Regular cyc 1 cycPrior :=
  ⟨Matrix.PosDef.one, by rw [one_smul]; exact Matrix.PosDef.one⟩

theorem cyc_objective (x : Fin 1 → ℝ) :
    negLogPosterior cyc 1 cycPrior 0 x = (x 0 ^ 2 + (x 0 - x 0 ^ 3 - 2) ^ 2) / 2 := by
  simp [negLogPosterior, cyc, cycPrior, dotProduct]
  ring

theorem cyc_update (x : Fin 1 → ℝ) : (gnUpdate cyc (fun x => Matrix.of fun _ _ => 1 - 3 * x 0 ^ 2) 1 cycPrior 0 x).mean 0 =
    (1 - 3 * x 0 ^ 2) * (-(x 0 - x 0 ^ 3 - 2) + (1 - 3 * x 0 ^ 2) * x 0) / ((1 - 3 * x 0 ^ 2) ^ 2 + 1) := by
  simp [gnUpdate, cyc, cycPrior, Matrix.mulVec, dotProduct, Matrix.inv_subsingleton, Matrix.mul_apply]
  ring

/-- **The iteration need not reach the posterior mode.**  The negative log posterior of the model `y = x - x³ - 2 + ε` with
standard normal prior and noise, `y = 0`, has a global minimiser; but the iterated update, started as usual at the prior
mean `0`, alternates between `1` and `0` for ever: for all tolerances with `atol + rtol < 1` it raises `RuntimeError`. -/
theorem iterated_cycles :
    (∃ x, ∀ x', negLogPosterior cyc 1 cycPrior 0 x ≤ negLogPosterior cyc 1 cycPrior 0 x') ∧
    ∀ (c : Crit) (fuel : ℕ), c.iterations = 0 → 0 ≤ c.atol → 0 ≤ c.rtol → c.atol + c.rtol < 1 → c.maxit + 2 ≤ fuel →
      ∃ lin c', ekfComponent cyc = .ok lin ∧
        backwardRealization lin none 1 0 cycPrior none fuel c = some (.error .runtimeError, c', c.maxit + 1) := by
  constructor
  · obtain ⟨t, ht, hmin⟩ := isCompact_Icc.exists_isMinOn (s := Set.Icc (-2 : ℝ) 2) ⟨0, by norm_num⟩
      (f := fun t : ℝ => (t ^ 2 + (t - t ^ 3 - 2) ^ 2) / 2) (by fun_prop)
    refine ⟨fun _ => t, fun x' => ?_⟩
    rw [cyc_objective, cyc_objective]
    by_cases hx : x' 0 ∈ Set.Icc (-2 : ℝ) 2
    · exact hmin hx
    · have h0 : (t ^ 2 + (t - t ^ 3 - 2) ^ 2) / 2 ≤ ((0 : ℝ) ^ 2 + (0 - 0 ^ 3 - 2) ^ 2) / 2 :=
        hmin (show (0 : ℝ) ∈ Set.Icc (-2 : ℝ) 2 by norm_num)
      have h1 : 4 ≤ x' 0 ^ 2 := by
        rw [Set.mem_Icc, not_and_or, not_le, not_le] at hx
        rcases hx with hx | hx <;> nlinarith
      have h2 := sq_nonneg (x' 0 - x' 0 ^ 3 - 2)
      norm_num at h0
      show (t ^ 2 + (t - t ^ 3 - 2) ^ 2) / 2 ≤ _
      linarith
  · intro c fuel hc ha hb hab hf
    set dg : (Fin 1 → ℝ) → Matrix (Fin 1) (Fin 1) ℝ := fun x => Matrix.of fun _ _ => 1 - 3 * x 0 ^ 2 with hdg
    set st : Updated 1 → Res (Updated 1) :=
      fun u => Approx.backwardRv (ekf cyc dg) (some (asNormal u)) 1 (Normal.const 0) cycPrior none with hst
    have hstep : ∀ u, st u = .ok (gnUpdate cyc dg 1 cycPrior 0 u.mean) := fun u => backward_eq dg cyc_regular _ _
    have hup0 : ∀ x : Fin 1 → ℝ, x 0 = 0 → (gnUpdate cyc dg 1 cycPrior 0 x).mean 0 = 1 := by
      intro x hx; rw [hdg, cyc_update, hx]; norm_num
    have hup1 : ∀ x : Fin 1 → ℝ, x 0 = 1 → (gnUpdate cyc dg 1 cycPrior 0 x).mean 0 = 0 := by
      intro x hx; rw [hdg, cyc_update, hx]; norm_num
    obtain ⟨r, c', k, h1, h2⟩ := iteration_terminates_partial st (fun u => List.ofFn u.mean) hc
      (gnUpdate cyc dg 1 cycPrior 0 cycPrior.mean) hf
    have hfirst : Approx.backwardRv (ekf cyc dg) none 1 (Normal.const 0) cycPrior none =
        .ok (gnUpdate cyc dg 1 cycPrior 0 cycPrior.mean) := backward_eq dg cyc_regular none 0
    have inv : ∀ j p, Steps st (gnUpdate cyc dg 1 cycPrior 0 cycPrior.mean) j p → p.mean 0 = 0 ∨ p.mean 0 = 1 := by
      intro j p hp
      induction hp with
      | zero => exact .inr (hup0 _ rfl)
      | succ _ g2 ih =>
        rw [hstep] at g2
        cases g2
        rcases ih with ih | ih
        · exact .inr (hup0 _ ih)
        · exact .inl (hup1 _ ih)
    have hmv : ∀ p q : Updated 1, (p.mean 0 = 0 ∧ q.mean 0 = 1 ∨ p.mean 0 = 1 ∧ q.mean 0 = 0) →
        Moves (fun u => List.ofFn u.mean) c (some p) q := by
      intro p q h
      have e : c.evaluateError (diff (List.ofFn q.mean) (List.ofFn p.mean)) (List.ofFn q.mean) =
          rms [sqEntry c.atol c.rtol (some (q.mean 0 - p.mean 0)) (q.mean 0)] := by
        rw [Crit.evaluateError]; simp [diff, List.ofFn_succ]
      show (c.evaluateError (diff (List.ofFn q.mean) (List.ofFn p.mean)) (List.ofFn q.mean)).big
      rw [e]
      have main : ∀ s w : ℝ, s ^ 2 = 1 → 0 ≤ c.atol + c.rtol * w → c.atol + c.rtol * w < 1 →
          (rms [sqEntry c.atol c.rtol (some s) w]).big := by
        intro s w hs h0 hlt
        have hs0 : s ≠ 0 := by rintro rfl; norm_num at hs
        by_cases hz : c.atol + c.rtol * w = 0
        · have : sqEntry c.atol c.rtol (some s) w = .inf := by
            simp only [sqEntry]
            rw [if_pos hz, if_neg hs0]
          rw [this]
          trivial
        · have hv : sqEntry c.atol c.rtol (some s) w = .fin ((s / (c.atol + c.rtol * w)) ^ 2) := by
            simp only [sqEntry]
            rw [if_neg hz]
          rw [hv]
          show 1 < Real.sqrt (((s / (c.atol + c.rtol * w)) ^ 2 + 0) / (1 : ℕ))
          have hp : 0 < c.atol + c.rtol * w := lt_of_le_of_ne h0 (Ne.symm hz)
          rw [Real.lt_sqrt (by norm_num), div_pow, hs, add_zero, Nat.cast_one, div_one, lt_div_iff₀ (by positivity)]
          nlinarith
      rcases h with ⟨h1, h2⟩ | ⟨h1, h2⟩ <;> rw [h1, h2]
      · exact main _ _ (by norm_num) (by linarith) (by linarith)
      · exact main _ _ (by norm_num) (by linarith) (by linarith)
    generalize hx : (r, c') = z at h2
    cases h2 with
    | @done q p hp hq hstop hfirst hlim =>
      exfalso
      rcases hq with ⟨rfl, rfl⟩ | ⟨j, x, rfl, rfl, hxs⟩
      · exact hstop (first_moves (by simp [List.ofFn_succ]))
      · cases hp with
        | succ g1 g2 =>
          rw [← hxs.unique g1, hstep] at g2
          cases g2
          refine hstop (hmv _ _ ?_)
          rcases inv _ _ hxs with h | h
          · exact .inl ⟨h, hup0 _ h⟩
          · exact .inr ⟨h, hup1 _ h⟩
    | limit hlim hfirst' =>
      cases hx
      refine ⟨_, c.withCount (0 + k), ekf_eq rfl, ?_⟩
      rw [show c.maxit + 1 = k by omega]
      rw [backwardRealization, backwardRv, hfirst]
      exact h1
    | failed hp hs hlim =>
      exfalso
      rw [hstep] at hs
      cases hs

/-- The hypotheses are met by the nonlinear model `cyc`, and the affine ones by a model with two states. -/
example : IsJacobian cyc (fun x => Matrix.of fun _ _ => 1 - 3 * x 0 ^ 2) ∧ Regular cyc 1 cycPrior ∧
    Affine demo !![1, 2] ![3] := ⟨cyc_jacobian, cyc_regular, demo_affine⟩

end Probnum.Iterated
