import Verif.OdeFilter.Dense
import Verif.OdeFilter.PropsSolve
import Verif.Posterior.Eval

/-!
# C102: evaluating the solution returned by `probsolve_ivp` at arbitrary times
-/

namespace Probnum.OdeFilter

open Matrix LinGauss IWP Kalman Posterior Gauss MeasureTheory ProbabilityTheory

variable {d q : ℕ}

/-! ## Specification -/

/-- `y` is the law of the ODE solution at time `t` when the state at time `t₀` is distributed as `N(m, C)` and moves on as an
integrated Wiener process with squared diffusion `δ`: the zeroth derivatives of `Φ X + W` with `X ~ N(m, C)` and independent
`W ~ N(0, δ Q)`, where `Φ` and `Q` belong to the time difference `t - t₀`. -/
def PredictedAt (chol : CovCholesky (q + 1)) (δ t₀ : ℝ) (m : Fin (d * (q + 1)) → ℝ)
    (C : Matrix (Fin (d * (q + 1))) (Fin (d * (q + 1))) ℝ) (t : ℝ) (y : Normal d) : Prop :=
  ∃ tr, discretise q d chol (t - t₀) = some tr ∧
    ∀ {Ω : Type} {mΩ : MeasurableSpace Ω} (P : Measure Ω) (X W : Ω → Fin (d * (q + 1)) → ℝ),
      IsNormal P X m C → IsNormal P W 0 (δ • tr.noise.cov) → IndepFun X W P →
      IsNormal P (fun ω i => coord (tr.mat *ᵥ X ω + W ω) 0 i) y.mean y.cov

/-- `y` is the law of the ODE solution at time `t` between `t₀` and `t₁` for given laws `x` at `t₀` and `z` at `t₁`: start
with `x`, move on to `t` and from there to `t₁` as an integrated Wiener process with squared diffusion `δ`, and take the
conditional distribution of the state at `t` given the state at `t₁`, with the latter distributed as `z`. -/
def BridgedAt (chol : CovCholesky (q + 1)) (δ t₀ : ℝ) (x : Rv (d * (q + 1))) (t₁ : ℝ) (z : Rv (d * (q + 1))) (t : ℝ)
    (y : Normal d) : Prop :=
  ∃ tr tr' f C, discretise q d chol (t - t₀) = some tr ∧ discretise q d chol (t₁ - t) = some tr' ∧
    (∀ {Ω : Type} {mΩ : MeasurableSpace Ω} (P : Measure Ω) (X W W' : Ω → Fin (d * (q + 1)) → ℝ),
      IsNormal P X x.mean x.cov → IsNormal P W 0 (δ • tr.noise.cov) → IndepFun X W P →
      IsNormal P W' 0 (δ • tr'.noise.cov) → IndepFun (fun ω => tr.mat *ᵥ X ω + W ω) W' P →
      IsConditional P (fun ω => tr.mat *ᵥ X ω + W ω) (fun ω => tr'.mat *ᵥ (tr.mat *ᵥ X ω + W ω) + W' ω) f C) ∧
    ∀ {Ω : Type} {mΩ : MeasurableSpace Ω} (P : Measure Ω) (Z R : Ω → Fin (d * (q + 1)) → ℝ),
      IsNormal P Z z.mean z.cov → IsNormal P R 0 C → IndepFun Z R P →
      IsNormal P (fun ω i => coord (f (Z ω) + R ω) 0 i) y.mean y.cov

/-- A solution with ascending times, at least one of them, and a state with a Cholesky factor of its covariance for each. -/
structure Solution.Proper (sol : Solution d q) : Prop where
  ascending : sol.times.Pairwise (· < ·)
  nonempty : sol.times ≠ []
  sameLength : sol.posteriorStates.length = sol.times.length
  valid : ∀ x ∈ sol.posteriorStates, x.Valid ∧ x.chol?.isSome

/-! ## Preparations -/

theorem Solution.Proper.grid {sol : Solution d q} (h : sol.Proper) : Grid sol.posterior :=
  ⟨h.ascending, h.nonempty, by simp only [Solution.posterior, List.length_map]; exact h.sameLength⟩

theorem toNormal_valid (E : Numerics d q) {rv : Rv (d * (q + 1))} (hv : rv.Valid) (hs : rv.chol?.isSome) :
    (rv.toNormal E.ch E.damping).Valid := by
  obtain ⟨L, hL⟩ := Option.isSome_iff_exists.1 hs
  simp only [Normal.Valid, Rv.toNormal, cholOf, hL]
  exact hv L hL

theorem projectState_ok (hd : 0 < d) (E : Numerics d q) {k : ℕ} (hk : k ≤ q) {rv : Rv (d * (q + 1))} (hv : rv.Valid)
    (hs : rv.chol?.isSome) :
    ∃ y, projectState E k rv = .ok y ∧ y.Valid ∧ (∀ i, y.mean i = coord rv.mean k i) ∧
      y.cov = proj d q k * rv.cov * (proj d q k)ᵀ ∧
      ∀ {Ω : Type} {mΩ : MeasurableSpace Ω} (P : Measure Ω) (X : Ω → Fin (d * (q + 1)) → ℝ),
        IsNormal P X rv.mean rv.cov → IsNormal P (fun ω i => coord (X ω) k i) y.mean y.cov := by
  obtain ⟨y, h1, h2, h3, h4⟩ := solution_is_marginal hd E.qr (toNormal_valid E hv hs) k hk
  refine ⟨y, h1, h2, h3, ?_, h4⟩
  obtain ⟨L, -, rfl⟩ := map_ok h1
  rfl

theorem mapM_total {α β : Type} (f : α → Res β) (l : List α) (h : ∀ x ∈ l, ∃ y, f x = .ok y) :
    ∃ ys, l.mapM f = .ok ys ∧ ys.length = l.length ∧
      ∀ i (hi : i < l.length) (hi' : i < ys.length), f l[i] = .ok ys[i] := by
  induction l with
  | nil => exact ⟨[], rfl, rfl, fun i hi => absurd hi (by simp)⟩
  | cons x l ih =>
    obtain ⟨y, hy⟩ := h x (by simp)
    obtain ⟨ys, h1, h2, h3⟩ := ih fun z hz => h z (by simp [hz])
    refine ⟨y :: ys, ?_, by simp [h2], ?_⟩
    · rw [List.mapM_cons, hy, h1]; rfl
    · intro i hi hi'
      cases i with
      | zero => exact hy
      | succ i => exact h3 i (by simpa using hi) (by simpa using hi')

theorem eval_iff (hd : 0 < d) (E : Numerics d q) {sol : Solution d q} (hp : sol.Proper) (t : ℝ) (y : Normal d) :
    sol.eval E t = .ok y ↔
      ∃ rv, callScalar (sol.posteriorInterpolate E) sol.posterior t = .ok (.ok rv) ∧ projectState E 0 rv = .ok y := by
  obtain ⟨ys, h1, h2, -⟩ := mapM_total (projectState E 0) sol.posteriorStates fun x hx => by
    obtain ⟨y, hy, -⟩ := projectState_ok hd E (Nat.zero_le q) (hp.valid x hx).1 (hp.valid x hx).2
    exact ⟨y, hy⟩
  simp only [Solution.eval, Solution.projected, h1, Except.bind]
  have := callScalar_comp (sol.posteriorInterpolate E) (fun s => s.bind (projectState E 0)) sol.posterior hp.grid
    ⟨sol.times, ys, false⟩ rfl (by rw [h2]; exact hp.sameLength) t y
  rw [show Solution.interpolate E sol = fun t i j => (sol.posteriorInterpolate E t i j).bind
    fun s => s.bind (projectState E 0) from rfl, this]
  constructor
  · rintro ⟨s, hs1, hs2⟩
    obtain ⟨rv, rfl, hrv⟩ := bind_ok hs2
    exact ⟨rv, hs1, hrv⟩
  · rintro ⟨rv, hs1, hs2⟩
    exact ⟨.ok rv, hs1, hs2⟩

/-- One prediction with the dense dynamics. -/
theorem dense_forward (E : Numerics d q) (hε : 0 ≤ E.damping) {rv : Rv (d * (q + 1))} (hv : rv.Valid) (hs : rv.chol?.isSome)
    {h δ : ℝ} (hh : h ≠ 0) (hδ : 0 ≤ δ) (t₀ : ℝ) :
    ∃ tr out, discretise q d E.chol h = some tr ∧ (denseDyn E).forward (.ok rv) t₀ h δ = .ok out ∧ out.Valid ∧
      out.chol?.isSome ∧ out.mean = tr.mat *ᵥ rv.mean ∧ out.cov = tr.mat * rv.cov * tr.matᵀ + δ • tr.noise.cov ∧
      ∀ {Ω : Type} {mΩ : MeasurableSpace Ω} (P : Measure Ω) (X W : Ω → Fin (d * (q + 1)) → ℝ),
        IsNormal P X rv.mean rv.cov → IsNormal P W 0 (δ • tr.noise.cov) → IndepFun X W P →
        IsNormal P (fun ω => tr.mat *ᵥ X ω + W ω) out.mean out.cov := by
  obtain ⟨tr, out, h1, h2, h3, h4, h5⟩ := IWP.forward_sqrt_agrees q d E.chol E.ch δ E.qr hh hε hδ rv hv hs
  obtain ⟨e1, e2, -⟩ := h5 0
  obtain ⟨-, hm, -, -⟩ := discretise_props E.chol h1
  have e1' : out.rv.mean = tr.mat *ᵥ rv.mean := by rw [e1]; simp [forwardClassic, hm]
  have e2' : out.rv.cov = tr.mat * rv.cov * tr.matᵀ + δ • tr.noise.cov := by rw [e2]; exact predCov_eq tr δ ⟨rv.mean, rv.cov, 0⟩
  refine ⟨tr, out.rv, h1, ?_, h3, h4, e1', e2', ?_⟩
  · simp only [denseDyn, Except.bind, h2, Except.map]
  · intro Ω mΩ P X W hX hW hXW
    have := (forward_classic_is_pushforward tr δ ⟨rv.mean, rv.cov, 0⟩ X W hX (by rw [hm]; exact hW) hXW).1
    rwa [e1, e2]

/-- A state obtained by prediction, projected to the ODE solution. -/
theorem predicted_of_forward (hd : 0 < d) (E : Numerics d q) (hε : 0 ≤ E.damping) {rv : Rv (d * (q + 1))} (hv : rv.Valid)
    (hs : rv.chol?.isSome) {t₀ t δ : ℝ} (ht : t₀ < t) (hδ : 0 ≤ δ) :
    ∃ out y, (denseDyn E).forward (.ok rv) t₀ (t - t₀) δ = .ok out ∧ projectState E 0 out = .ok y ∧ y.Valid ∧
      PredictedAt E.chol δ t₀ rv.mean rv.cov t y := by
  obtain ⟨tr, out, h1, h2, h3, h4, -, -, h7⟩ := dense_forward E hε hv hs (sub_ne_zero.2 ht.ne') hδ t₀
  obtain ⟨y, g1, g2, -, -, g5⟩ := projectState_ok hd E (Nat.zero_le q) h3 h4
  exact ⟨out, y, h2, g1, g2, tr, h1, fun P X W hX hW hXW => g5 P _ (h7 P X W hX hW hXW)⟩

/-- The law in `PredictedAt` is determined: mean `Φ m` and covariance `Φ C Φᵀ + δ Q`, projected. -/
theorem predicted_formula {chol : CovCholesky (q + 1)} {δ t₀ t : ℝ} {m : Fin (d * (q + 1)) → ℝ}
    {C : Matrix (Fin (d * (q + 1))) (Fin (d * (q + 1))) ℝ} (hC : C.PosSemidef) (hδ : 0 ≤ δ) {y : Normal d}
    (h : PredictedAt chol δ t₀ m C t y) :
    ∃ tr, discretise q d chol (t - t₀) = some tr ∧ y.mean = proj d q 0 *ᵥ (tr.mat *ᵥ m) ∧
      y.cov = proj d q 0 * (tr.mat * C * tr.matᵀ + δ • tr.noise.cov) * (proj d q 0)ᵀ := by
  obtain ⟨tr, htr, h⟩ := h
  obtain ⟨-, -, -, hQ⟩ := discretise_props chol htr
  obtain ⟨c, -⟩ := exists_covCholesky (d * (q + 1))
  obtain ⟨Ω, mΩ, P, X, W, hX, hW, hXW⟩ := exists_independent_normals m (c.factor C) 0 (c.factor (δ • tr.noise.cov))
  rw [c.gram C hC] at hX
  rw [c.gram _ (hQ.posSemidef.smul hδ)] at hW
  have h1 := h P X W hX hW hXW
  have h2 := hX.comb hW hXW (proj d q 0 * tr.mat) (proj d q 0) 0
  have e : (fun ω i => coord (tr.mat *ᵥ X ω + W ω) 0 i)
      = fun ω => (proj d q 0 * tr.mat) *ᵥ X ω + proj d q 0 *ᵥ W ω + 0 := by
    funext ω
    rw [add_zero, ← Matrix.mulVec_mulVec, ← Matrix.mulVec_add, proj_mulVec _ (Nat.zero_le q)]
  rw [e] at h1
  refine ⟨tr, htr, ?_, ?_⟩
  · funext i
    rw [← h1.mean i, h2.mean i]
    simp [Matrix.mulVec_mulVec]
  · ext i j
    rw [← h1.cov i j, h2.cov i j]
    simp only [Matrix.mul_add, Matrix.add_mul, Matrix.transpose_mul, Matrix.mul_assoc]

theorem preBackwardSqrt_isSome {E : Numerics d q} {P Pi : Matrix (Fin (d * (q + 1))) (Fin (d * (q + 1))) ℝ}
    {tr : Transition (d * (q + 1)) (d * (q + 1))} {δ : ℝ} {obt rv out : Rv (d * (q + 1))}
    (h : preBackwardSqrt E.qr E.ch E.damping P Pi tr δ obt rv = .ok out) : out.chol?.isSome := by
  obtain ⟨u, -, hu⟩ := bind_ok h
  have := Except.ok.inj hu
  subst this
  rfl

/-- One smoothing update with the dense dynamics. -/
theorem bridged_of_backward (hd : 0 < d) (E : Numerics d q) (hε : 0 ≤ E.damping) {x z : Rv (d * (q + 1))} (hv : x.Valid)
    (hs : x.chol?.isSome) (hvz : z.Valid) (hsz : z.chol?.isSome) {t₀ t t₁ δ : ℝ} (h1 : t₀ < t) (h2 : t < t₁) (hδ : 0 < δ) :
    ∃ out y, (denseDyn E).backward (.ok z) ((denseDyn E).forward (.ok x) t₀ (t - t₀) δ) t (t₁ - t) δ = .ok out ∧
      projectState E 0 out = .ok y ∧ y.Valid ∧ BridgedAt E.chol δ t₀ x t₁ z t y := by
  obtain ⟨tr, mid, g1, g2, g3, g4, -, -, g7⟩ := dense_forward E hε hv hs (sub_ne_zero.2 h1.ne') hδ.le t₀
  obtain ⟨tr', k1, k2⟩ := IWP.backward_sqrt_agrees q d E.chol E.ch δ E.qr (sub_ne_zero.2 h2.ne') hε hδ z mid g3 g4 hvz hsz
  obtain ⟨u, out, e1, e2, e3, e4, e5⟩ := k2 0 0
  obtain ⟨y, p1, p2, -, -, p5⟩ := projectState_ok hd E (Nat.zero_le q) e3 (preBackwardSqrt_isSome e2)
  obtain ⟨-, hm', hno', hpd⟩ := discretise_props E.chol k1
  have hmid : mid.cov.PosSemidef := by
    obtain ⟨L, hL⟩ := Option.isSome_iff_exists.1 g4
    rw [← g3 L hL]
    have := Matrix.posSemidef_self_mul_conjTranspose L
    rwa [Matrix.conjTranspose_eq_transpose_of_trivial] at this
  have hS : (forwardClassic tr' δ ⟨mid.mean, mid.cov, 0⟩).cov.det ≠ 0 := by
    have e : (forwardClassic tr' δ ⟨mid.mean, mid.cov, 0⟩).cov = tr'.mat * mid.cov * tr'.matᵀ + δ • tr'.noise.cov :=
      predCov_eq tr' δ ⟨mid.mean, mid.cov, 0⟩
    rw [e]
    exact (Matrix.PosDef.posSemidef_add (posSemidef_conj hmid _) (Matrix.PosDef.smul hpd hδ)).det_pos.ne'
  set K := optGain tr' δ ⟨mid.mean, mid.cov, 0⟩ with hK
  set f : (Fin (d * (q + 1)) → ℝ) → Fin (d * (q + 1)) → ℝ :=
    fun y => mid.mean + K *ᵥ (y - (tr'.mat *ᵥ mid.mean + tr'.noise.mean)) with hf
  have hval : ∀ y, backwardClassic tr' δ (Normal.const y) ⟨mid.mean, mid.cov, 0⟩ none
      = .ok ⟨f y, mid.cov - K * predCov tr' δ ⟨mid.mean, mid.cov, 0⟩ * Kᵀ⟩ := by
    intro y
    simp only [backwardClassic, gainClassic_eq tr' δ ⟨mid.mean, mid.cov, 0⟩ hS, bind, Except.bind, conditionStateOnRv,
      Normal.const, zero_sub, Matrix.mul_neg, Matrix.neg_mul, ← sub_eq_add_neg]
    rfl
  refine ⟨out, y, ?_, p1, p2, tr, tr', f, mid.cov - K * predCov tr' δ ⟨mid.mean, mid.cov, 0⟩ * Kᵀ, g1, k1, ?_, ?_⟩
  · rw [g2]
    exact e2
  · intro Ω mΩ P X W W' hX hW hXW hW' hind
    obtain ⟨f', C', c1, c2⟩ := backward_realization_is_conditioning tr' δ ⟨mid.mean, mid.cov, 0⟩
      (fun ω => tr.mat *ᵥ X ω + W ω) W' (g7 P X W hX hW hXW) (by rw [hm']; exact hW') hind
      (symm_of_posSemidef hpd.posSemidef) hS
    have hff : f' = f := by
      funext y
      have := c1 y
      rw [hval] at this
      exact (congrArg Updated.mean (Except.ok.inj this)).symm
    have hCC : C' = mid.cov - K * predCov tr' δ ⟨mid.mean, mid.cov, 0⟩ * Kᵀ := by
      have := c1 0
      rw [hval] at this
      exact (congrArg Updated.cov (Except.ok.inj this)).symm
    rw [hff, hCC] at c2
    exact c2
  · intro Ω mΩ P Z R hZ hR hZR
    obtain ⟨u', r1, r2⟩ := backward_rv_is_rts tr' δ ⟨mid.mean, mid.cov, 0⟩ ⟨z.mean, z.cov, 0⟩ Z R hS f _ hval hZ hR hZR
    rw [e1] at r1
    have := Except.ok.inj r1
    subst this
    exact p5 P _ (by rw [e4, e5]; exact r2)

theorem posteriorStates_filtering {sol : Solution d q} (hn : sol.smoothing = none) :
    sol.posteriorStates = sol.filtering.map fun rv => ⟨rv.mean, rv.cov, some rv.chol⟩ := by
  simp only [Solution.posteriorStates, hn]

/-! ## Evaluation of any solution -/

/-- **C102, on the grid.**  At a reported time a solution evaluates to its stored state: the zeroth derivatives of the state
of the posterior there. -/
theorem solution_on_grid (hd : 0 < d) (E : Numerics d q) {sol : Solution d q} (hp : sol.Proper) {k : ℕ}
    (hk : k < sol.times.length) :
    ∃ states y, sol.projected E 0 = .ok states ∧ states[k]? = some y ∧ sol.eval E sol.times[k] = .ok y ∧ y.Valid ∧
      ∀ {Ω : Type} {mΩ : MeasurableSpace Ω} (P : Measure Ω) (X : Ω → Fin (d * (q + 1)) → ℝ),
        IsNormal P X (sol.posteriorStates[k]'(by rw [hp.sameLength]; exact hk)).mean
          (sol.posteriorStates[k]'(by rw [hp.sameLength]; exact hk)).cov →
        IsNormal P (fun ω i => coord (X ω) 0 i) y.mean y.cov := by
  have hk' : k < sol.posteriorStates.length := by rw [hp.sameLength]; exact hk
  obtain ⟨ys, h1, h2, h3⟩ := mapM_total (projectState E 0) sol.posteriorStates fun x hx => by
    obtain ⟨y, hy, -⟩ := projectState_ok hd E (Nat.zero_le q) (hp.valid x hx).1 (hp.valid x hx).2
    exact ⟨y, hy⟩
  obtain ⟨hv, hs⟩ := hp.valid _ (List.getElem_mem hk')
  obtain ⟨y, g1, g2, -, -, g5⟩ := projectState_ok hd E (Nat.zero_le q) hv hs
  have hy : ys[k]? = some y := by
    rw [List.getElem?_eq_getElem (by rw [h2]; exact hk')]
    have := h3 k hk' (by rw [h2]; exact hk')
    rw [g1] at this
    exact congrArg some (Except.ok.inj this).symm
  refine ⟨ys, y, h1, hy, ?_, g2, g5⟩
  rw [eval_iff hd E hp]
  refine ⟨sol.posteriorStates[k], ?_, g1⟩
  have e : ∀ (h : k < (sol.posterior).states.length), (sol.posterior).states[k] = .ok sol.posteriorStates[k] := by
    intro h
    simp only [Solution.posterior, List.getElem_map]
  unfold Solution.posteriorInterpolate
  cases hsm : sol.smoothing with
  | none =>
    have := filtering_on_grid (denseDyn E) (some sol.diffusion.getItem) sol.posterior hp.grid k hk
    rw [e] at this
    exact this
  | some sm =>
    have := smoothing_on_grid (denseDyn E) (some sol.diffusion.getItem) sol.posterior hp.grid k hk
    rw [e] at this
    exact this

/-- **C102, before the start.**  No value is returned for a time before the first one. -/
theorem solution_before_start (hd : 0 < d) (E : Numerics d q) {sol : Solution d q} (hp : sol.Proper) {t : ℝ}
    (ht : t < sol.times.head hp.nonempty) (y : Normal d) : sol.eval E t ≠ .ok y := by
  rw [Ne, eval_iff hd E hp]
  rintro ⟨rv, h, -⟩
  have := left_extrapolation_raises (denseDyn E) (some sol.diffusion.getItem) sol.posterior hp.grid t ht (.ok rv)
  unfold Solution.posteriorInterpolate at h
  cases hsm : sol.smoothing with
  | none => simp only [hsm] at h; exact this.1 h
  | some sm => simp only [hsm] at h; exact this.2 h

/-- **C102, after the end.**  After the last time the last state is predicted with the last diffusion. -/
theorem solution_after_end (hd : 0 < d) (E : Numerics d q) (hε : 0 ≤ E.damping) {sol : Solution d q} (hp : sol.Proper)
    (hne : sol.posteriorStates ≠ []) {t : ℝ} (ht : sol.times.getLast hp.nonempty < t) {δ : ℝ}
    (hδ : sol.diffusion.getItem (-1) = .ok δ) (hδ0 : 0 ≤ δ) :
    ∃ y, sol.eval E t = .ok y ∧ y.Valid ∧ PredictedAt E.chol δ (sol.times.getLast hp.nonempty)
      (sol.posteriorStates.getLast hne).mean (sol.posteriorStates.getLast hne).cov t y := by
  obtain ⟨hv, hs⟩ := hp.valid _ (List.getLast_mem hne)
  obtain ⟨out, y, h1, h2, h3, h4⟩ := predicted_of_forward hd E hε hv hs ht hδ0
  refine ⟨y, (eval_iff hd E hp t y).2 ⟨out, ?_, h2⟩, h3, h4⟩
  have hne' : sol.posterior.states ≠ [] := by simpa [Solution.posterior] using hne
  have e : sol.posterior.states.getLast hne' = .ok (sol.posteriorStates.getLast hne) := by
    simp only [Solution.posterior, List.getLast_map]
  have := right_extrapolation (denseDyn E) (some sol.diffusion.getItem) sol.posterior hp.grid t ht δ hδ hne'
  rw [e] at this
  unfold Solution.posteriorInterpolate
  cases hsm : sol.smoothing with
  | none => simp only; rw [this.1, ← h1]; rfl
  | some sm => simp only; rw [this.2, ← h1]; rfl

/-- **C102, filtering solution between reported times.**  Strictly between two reported times the filtering solution
evaluates to the prediction from the state at the earlier one, with the diffusion of that step. -/
theorem filtering_solution_between (hd : 0 < d) (E : Numerics d q) (hε : 0 ≤ E.damping) {sol : Solution d q}
    (hn : sol.smoothing = none) (hp : sol.Proper) {k : ℕ} (hk : k + 1 < sol.times.length) {t : ℝ}
    (h1 : sol.times[k] < t) (h2 : t < sol.times[k + 1]) {δ : ℝ} (hδ : sol.diffusion.getItem k = .ok δ) (hδ0 : 0 ≤ δ) :
    ∃ x y, sol.filtering[k]? = some x ∧ sol.eval E t = .ok y ∧ y.Valid ∧
      PredictedAt E.chol δ sol.times[k] x.mean x.cov t y := by
  have hk' : k < sol.filtering.length := by
    have := hp.sameLength
    rw [posteriorStates_filtering hn, List.length_map] at this
    omega
  have hk'' : k < sol.posteriorStates.length := by rw [hp.sameLength]; omega
  obtain ⟨hv, hs⟩ := hp.valid _ (List.getElem_mem hk'')
  have ex : sol.posteriorStates[k] = ⟨sol.filtering[k].mean, sol.filtering[k].cov, some sol.filtering[k].chol⟩ := by
    simp only [posteriorStates_filtering hn, List.getElem_map]
  obtain ⟨out, y, g1, g2, g3, g4⟩ := predicted_of_forward hd E hε hv hs h1 hδ0
  refine ⟨sol.filtering[k], y, List.getElem?_eq_getElem hk', (eval_iff hd E hp t y).2 ⟨out, ?_, g2⟩, g3, ?_⟩
  · have := filtering_between (denseDyn E) (some sol.diffusion.getItem) sol.posterior hp.grid k hk t h1 h2 δ hδ
    have e : ∀ (h : k < (sol.posterior).states.length), (sol.posterior).states[k] = .ok sol.posteriorStates[k] := by
      intro h
      simp only [Solution.posterior, List.getElem_map]
    rw [e] at this
    unfold Solution.posteriorInterpolate
    simp only [hn]
    rw [this, ← g1]; rfl
  · rw [ex] at g4
    exact g4

/-- The index of the diffusion that a smoothing solution uses strictly between the times `k` and `k + 1` of `n`. -/
def smoothingIndex (n k : ℕ) : ℤ := if k + 2 = n then -1 else (k : ℤ) + 1

/-- **C102, smoothing solution between reported times.**  Strictly between two reported times the smoothing solution
evaluates to the bridge between the smoothed states at these times — but with the diffusion of the step *after* the one
that contains the time (the last step: its own). -/
theorem smoothing_solution_between_partial (hd : 0 < d) (E : Numerics d q) (hε : 0 ≤ E.damping) {sol : Solution d q}
    {sm : List (Rv (d * (q + 1)))} (hn : sol.smoothing = some sm) (hp : sol.Proper) {k : ℕ} (hk : k + 1 < sol.times.length)
    {t : ℝ} (h1 : sol.times[k] < t) (h2 : t < sol.times[k + 1]) {δ : ℝ}
    (hδ : sol.diffusion.getItem (smoothingIndex sol.times.length k) = .ok δ) (hδ0 : 0 < δ) :
    ∃ x z y, sm[k]? = some x ∧ sm[k + 1]? = some z ∧ sol.eval E t = .ok y ∧ y.Valid ∧
      BridgedAt E.chol δ sol.times[k] x sol.times[k + 1] z t y := by
  have hst : sol.posteriorStates = sm := by simp only [Solution.posteriorStates, hn]
  have hl : sm.length = sol.times.length := by rw [← hst]; exact hp.sameLength
  have hv : ∀ x ∈ sm, x.Valid ∧ x.chol?.isSome := by rw [← hst]; exact hp.valid
  obtain ⟨v1, s1⟩ := hv _ (List.getElem_mem (show k < sm.length by omega))
  obtain ⟨v2, s2⟩ := hv _ (List.getElem_mem (show k + 1 < sm.length by omega))
  obtain ⟨out, y, g1, g2, g3, g4⟩ := bridged_of_backward hd E hε v1 s1 v2 s2 h1 h2 hδ0
  refine ⟨sm[k], sm[k + 1], y, List.getElem?_eq_getElem _, List.getElem?_eq_getElem _,
    (eval_iff hd E hp t y).2 ⟨out, ?_, g2⟩, g3, g4⟩
  have := smoothing_between (denseDyn E) (some sol.diffusion.getItem) sol.posterior hp.grid k hk t h1 h2 δ hδ
  have e : ∀ j (h : j < (sol.posterior).states.length) (h' : j < sm.length), (sol.posterior).states[j] = .ok sm[j] := by
    intro j h h'
    simp only [Solution.posterior, List.getElem_map, hst]
  rw [e k _ (by omega), e (k + 1) _ (by omega)] at this
  unfold Solution.posteriorInterpolate
  simp only [hn]
  rw [this, ← g1]; rfl

/-! ## The solutions of `probsolve_ivp` -/

theorem scale_one {n : ℕ} (rv : Normal n) : scaleRv 1 rv = rv := by
  cases rv
  simp [scaleRv]

theorem getItem_constant {C : Diffusion.ConstantDiffusion ℝ} {s : ℝ} (h : C.diffusion = some s) (i : ℤ) :
    (Diff.constant C).getItem i = .ok s := by
  simp only [Diff.getItem, Diffusion.ConstantDiffusion.getItem, h, mul_one]

theorem getItem_piecewise {P : Diffusion.PiecewiseDiffusion ℝ ℝ} (hP : P.rest ≠ []) {k : ℕ} (hk : k < P.diffusions.length) :
    (Diff.piecewise P).getItem k = .ok P.diffusions[k] := by
  have h1 : ¬ P.locations.length ≤ 1 := by
    have := List.length_pos_iff.2 hP
    simp only [Diffusion.PiecewiseDiffusion.locations, List.length_cons]
    omega
  simp only [Diff.getItem, Diffusion.PiecewiseDiffusion.getItem, if_neg h1, Diffusion.npIndex, Nat.cast_nonneg, if_true,
    Int.toNat_natCast, List.getElem?_eq_getElem hk]

theorem getItem_piecewise_last {P : Diffusion.PiecewiseDiffusion ℝ ℝ} (hP : P.rest ≠ []) (hne : P.diffusions ≠ []) :
    (Diff.piecewise P).getItem (-1) = .ok (P.diffusions.getLast hne) := by
  have h1 : ¬ P.locations.length ≤ 1 := by
    have := List.length_pos_iff.2 hP
    simp only [Diffusion.PiecewiseDiffusion.locations, List.length_cons]
    omega
  have hl := List.length_pos_iff.2 hne
  have h2 : ¬ ((P.diffusions.length : ℤ) + -1 < 0) := by omega
  have h3 : ((P.diffusions.length : ℤ) + -1).toNat = P.diffusions.length - 1 := by omega
  have h4 : ¬ ((0 : ℤ) ≤ -1) := by decide
  simp only [Diff.getItem, Diffusion.PiecewiseDiffusion.getItem, if_neg h1, Diffusion.npIndex, if_neg h4, if_neg h2, h3,
    List.getElem?_eq_getElem (show P.diffusions.length - 1 < P.diffusions.length by omega), List.getLast_eq_getElem]

/-- All states of a run with the piecewise constant diffusion are valid and the estimates are not negative. -/
theorem piecewise_run_props {S : Solver d q} (hfree : S.ode.TimeFree) {t0 : ℝ} {rv0 : Normal (d * (q + 1))} (hv : rv0.Valid)
    {dts : List ℝ} {r : Run d q} (h : Run.many S (Run.start t0 rv0 (.piecewise (.init t0))) dts = .ok r) :
    (∀ x ∈ r.rvs, x.Valid) ∧ ∃ P, r.diffusion = .piecewise P ∧ ∀ s ∈ P.diffusions, 0 ≤ s := by
  have main := many_induct (S := S) (motive := fun r => r.Inv ∧ (∀ x ∈ r.rvs, x.Valid) ∧
    ∃ P : Diffusion.PiecewiseDiffusion ℝ ℝ, r.diffusion = .piecewise P ∧ ∀ s ∈ P.diffusions, 0 ≤ s) ?_ dts _ r ?_ h
  · exact main.2
  · rintro r dt r1 ⟨hi, hx, P, hP, hs⟩ hn
    rcases next_cases hfree hi hn with rfl | ⟨o, x, ho, hox, rfl, hi'⟩
    · exact ⟨hi, hx, P, hP, hs⟩
    · rw [hP] at ho
      obtain ⟨tr, lin, htr, hlin, pL, mL, full, est, h1, h2, h3, h4, -⟩ := attempt_ok hi.valid ho
      obtain ⟨tr', lin', est', predL, u, htr', hlin', hest, -, hd, -, -, -, -, -, hv'⟩ := accepted_ok hi.valid hfree ho hox
      refine ⟨hi', ?_, P.update est' r.t, hd, ?_⟩
      · intro y hy
        rcases List.mem_append.1 hy with hy | hy
        · exact hx y hy
        · rw [List.mem_singleton] at hy; rw [hy]; exact hv'
      · have hpos : 0 ≤ est' := by
          obtain ⟨-, hest2, hp⟩ := estimate_ok h2.gram h3.gram h4
          rw [htr'] at htr
          have := Option.some.inj htr
          subst this
          rw [hlin'] at hlin
          have := Except.ok.inj hlin
          subst this
          rw [hest, ← hest2]
          exact hp
        intro s hs'
        simp only [Diffusion.PiecewiseDiffusion.update] at hs'
        rcases List.mem_append.1 hs' with hs' | hs'
        · exact hs s hs'
        · rw [List.mem_singleton] at hs'; rw [hs']; exact hpos
  · exact ⟨Run.start_inv t0 hv _, by intro x hx; simp [Run.start] at hx; rw [hx]; exact hv, .init t0, rfl,
      fun s h => by cases h⟩

theorem filtering_proper {sol : Solution d q} (hasc : sol.times.Pairwise (· < ·)) (hne : sol.times ≠ [])
    (hlen : sol.filtering.length = sol.times.length) (hv : ∀ x ∈ sol.filtering, x.Valid) : sol.filteringSolution.Proper := by
  refine ⟨hasc, hne, ?_, ?_⟩
  · rw [posteriorStates_filtering rfl, List.length_map]; exact hlen
  · intro x hx
    rw [posteriorStates_filtering rfl] at hx
    obtain ⟨y, hy, rfl⟩ := List.mem_map.1 hx
    exact ⟨fun L hL => by cases hL; exact hv y hy, rfl⟩

/-- **C102, constant diffusion.**  For an autonomous ODE there is one calibrated diffusion `s` such that the filtering
states of the solution returned by `probsolve_ivp` are the Bayesian updates of each other with `s`, and at every time from
`t0` on the filtering solution evaluates to the prediction, with the same `s`, from the last state at or before it: between
the reported times and after the end. -/
theorem probsolve_constant_dense (hd : 0 < d) {E : Numerics d q} (hε : 0 ≤ E.damping) {a : Args d} (hfree : a.ode.TimeFree)
    (hdm : a.diffusionModel.toList.map Char.toLower = "constant".toList)
    {scipy : List ℝ → Res (List ℝ × List (Fin d → ℝ))} (hdata : FitData q a.t0 scipy) {n : ℕ}
    {sol : Solution d q} (h : probsolveIvp E a scipy n = some (.ok sol)) {h1 : ℝ} (hf : FirstStepIs a h1) (hpos : 0 < h1)
    (hfit : a.t0 + h1 ≤ a.tmax) (hstops : StopsFine a.t0 a.timeStops) :
    ∃ rule st s, prepare a = .ok (rule, .constant .init, st) ∧ 0 ≤ s ∧
      (0 < s → Consecutive (fun _ t₀ x₀ t₁ x₁ => BayesStep (makeSolver E a.ode st rule) s t₀ x₀ t₁ x₁) sol.times sol.filtering) ∧
      sol.filteringSolution.Proper ∧
      (∀ k t t₀ t₁ x, sol.times[k]? = some t₀ → sol.times[k + 1]? = some t₁ → sol.filtering[k]? = some x → t₀ < t → t < t₁ →
        ∃ y, sol.filteringSolution.eval E t = .ok y ∧ y.Valid ∧ PredictedAt E.chol s t₀ x.mean x.cov t y) ∧
      (∀ t t₀ x, sol.times.getLast? = some t₀ → sol.filtering.getLast? = some x → t₀ < t →
        ∃ y, sol.filteringSolution.eval E t = .ok y ∧ y.Valid ∧ PredictedAt E.chol s t₀ x.mean x.cov t y) := by
  obtain ⟨g1, -, g3, -⟩ := probsolve_grid_partial h hf hpos hfit hstops
  have hne : sol.times ≠ [] := by intro h0; rw [h0] at g1; cases g1
  obtain ⟨rule, D, st, rv, dts, r, hp, hrv, hm, ht, hfs, hdf⟩ := solution_follows h hf
  have hD := prepare_diffusion hp
  rw [chooseDiffusion, if_pos hdm] at hD
  have := Except.ok.inj hD
  subst this
  obtain ⟨rv', hrv', hv⟩ := fit_valid E hε hdata
  rw [hrv] at hrv'
  have := Except.ok.inj hrv'
  subst this
  obtain ⟨C, hC, -, hlen, -, -, hcal⟩ := constant_posterior_is_calibrated_partial (S := makeSolver E a.ode st rule) hfree hv hm
  obtain ⟨-, C', hC', hnn⟩ := constant_run_props (S := makeSolver E a.ode st rule) hfree hv hm
  rw [hC] at hC'
  cases hC'
  obtain ⟨s, hs, hmap⟩ := map_ok hfs
  have hsC : C.diffusion = some s := by
    rw [hC] at hs
    simp only [Diff.postFactor] at hs
    cases hc : C.diffusion with
    | none => rw [hc] at hs; cases hs
    | some s' => rw [hc] at hs; exact congrArg some (Except.ok.inj hs)
  have hvalid := filtering_states_valid (S := makeSolver E a.ode st rule) hfree hv hm hfs
  have hfl : sol.filtering.length = sol.times.length := by rw [← hmap, List.length_map, ht, hlen]
  have hprop : sol.filteringSolution.Proper := filtering_proper g3 hne hfl fun x hx => (hvalid x hx).symm
  have hget : ∀ i, sol.filteringSolution.diffusion.getItem i = .ok s := by
    intro i
    show sol.diffusion.getItem i = _
    rw [hdf, hC]
    exact getItem_constant hsC i
  refine ⟨rule, st, s, hp, hnn s hsC, fun hpos => ?_, hprop, ?_, ?_⟩
  · obtain ⟨-, -, g⟩ := hcal s _ hfs hsC hpos
    rw [ht]; exact g
  · intro k t t₀ t₁ x e1 e2 e3 l1 l2
    obtain ⟨hk0, rfl⟩ := List.getElem?_eq_some_iff.1 e1
    obtain ⟨hk, rfl⟩ := List.getElem?_eq_some_iff.1 e2
    obtain ⟨x', y, q1, q2, q3, q4⟩ := filtering_solution_between hd E hε (sol := sol.filteringSolution) rfl hprop hk l1 l2
      (hget _) (hnn s hsC)
    have : some x' = some x := q1.symm.trans e3
    cases this
    exact ⟨y, q2, q3, q4⟩
  · intro t t₀ x e1 e2 l1
    rw [List.getLast?_eq_some_getLast hne] at e1
    cases e1
    have hfne : sol.filtering ≠ [] := by
      intro h0; rw [h0] at e2; cases e2
    rw [List.getLast?_eq_some_getLast hfne] at e2
    cases e2
    have hpne : sol.filteringSolution.posteriorStates ≠ [] := by
      rw [posteriorStates_filtering rfl]; exact fun h0 => hfne (List.map_eq_nil_iff.1 h0)
    obtain ⟨y, q1, q2, q3⟩ := solution_after_end hd E hε hprop hpne l1 (hget _) (hnn s hsC)
    refine ⟨y, q1, q2, ?_⟩
    simp only [posteriorStates_filtering (sol := sol.filteringSolution) rfl, List.getLast_map] at q3
    exact q3

/-- **C102, piecewise constant diffusion** (the default).  For an autonomous ODE there is one diffusion per step such that
the filtering states are the Bayesian updates of each other, each step with its own diffusion, and at every time between two
reported times the filtering solution evaluates to the prediction from the earlier of the two with the diffusion of that
step; after the end, to the prediction from the last state with the diffusion of the last step. -/
theorem probsolve_dynamic_dense (hd : 0 < d) {E : Numerics d q} (hε : 0 ≤ E.damping) {a : Args d} (hfree : a.ode.TimeFree)
    (hdm : a.diffusionModel.toList.map Char.toLower = "dynamic".toList)
    {scipy : List ℝ → Res (List ℝ × List (Fin d → ℝ))} (hdata : FitData q a.t0 scipy) {n : ℕ}
    {sol : Solution d q} (h : probsolveIvp E a scipy n = some (.ok sol)) {h1 : ℝ} (hf : FirstStepIs a h1) (hpos : 0 < h1)
    (hfit : a.t0 + h1 ≤ a.tmax) (hstops : StopsFine a.t0 a.timeStops) :
    ∃ rule st, ∃ δs : List ℝ, prepare a = .ok (rule, .piecewise (.init a.t0), st) ∧ δs.length + 1 = sol.times.length ∧
      Consecutive (fun k t₀ x₀ t₁ x₁ => ∃ s, δs[k]? = some s ∧ BayesStep (makeSolver E a.ode st rule) s t₀ x₀ t₁ x₁)
        sol.times sol.filtering ∧
      sol.filteringSolution.Proper ∧
      (∀ k t t₀ t₁ x s, sol.times[k]? = some t₀ → sol.times[k + 1]? = some t₁ → sol.filtering[k]? = some x →
        δs[k]? = some s → t₀ < t → t < t₁ →
        ∃ y, sol.filteringSolution.eval E t = .ok y ∧ y.Valid ∧ PredictedAt E.chol s t₀ x.mean x.cov t y) ∧
      (∀ t t₀ x s, sol.times.getLast? = some t₀ → sol.filtering.getLast? = some x → δs.getLast? = some s → t₀ < t →
        ∃ y, sol.filteringSolution.eval E t = .ok y ∧ y.Valid ∧ PredictedAt E.chol s t₀ x.mean x.cov t y) := by
  obtain ⟨g1, -, g3, -⟩ := probsolve_grid_partial h hf hpos hfit hstops
  have hne : sol.times ≠ [] := by intro h0; rw [h0] at g1; cases g1
  obtain ⟨rule, D, st, rv, dts, r, hp, hrv, hm, ht, hfs, hdf⟩ := solution_follows h hf
  have hD := prepare_diffusion hp
  rw [chooseDiffusion, if_neg (by rw [hdm]; decide), if_pos hdm] at hD
  have := Except.ok.inj hD
  subst this
  obtain ⟨rv', hrv', hv⟩ := fit_valid E hε hdata
  rw [hrv] at hrv'
  have := Except.ok.inj hrv'
  subst this
  obtain ⟨P, hP, -, hPr, hPl, hlen, -, -, hcons, -⟩ :=
    piecewise_posterior_is_calibrated_partial (S := makeSolver E a.ode st rule) hfree hv hm
  obtain ⟨hvr, P', hP', hnn⟩ := piecewise_run_props (S := makeSolver E a.ode st rule) hfree hv hm
  rw [hP] at hP'
  cases hP'
  have hfr : sol.filtering = r.rvs := by
    obtain ⟨s, hs, hmap⟩ := map_ok hfs
    rw [hP] at hs
    cases hs
    rw [← hmap, show (scaleRv (1 : ℝ) : Normal (d * (q + 1)) → _) = id from funext scale_one, List.map_id]
  have hfl : sol.filtering.length = sol.times.length := by rw [hfr, ht, hlen]
  have hprop : sol.filteringSolution.Proper := filtering_proper g3 hne hfl (by rw [hfr]; exact hvr)
  refine ⟨rule, st, P.diffusions, hp, by rw [ht]; exact hPl, ?_, hprop, ?_, ?_⟩
  · rw [ht, hfr]; exact hcons
  · intro k t t₀ t₁ x s e1 e2 e3 e4 l1 l2
    obtain ⟨hk0, rfl⟩ := List.getElem?_eq_some_iff.1 e1
    obtain ⟨hk, rfl⟩ := List.getElem?_eq_some_iff.1 e2
    obtain ⟨hks, rfl⟩ := List.getElem?_eq_some_iff.1 e4
    have hrest : P.rest ≠ [] := by
      rw [hPr, ← ht]
      intro h0
      have := congrArg List.length h0
      rw [List.length_dropLast] at this
      simp only [List.length_nil] at this
      omega
    obtain ⟨x', y, q1, q2, q3, q4⟩ := filtering_solution_between hd E hε (sol := sol.filteringSolution) rfl hprop hk l1 l2
      (δ := P.diffusions[k]) (by show sol.diffusion.getItem k = _; rw [hdf, hP]; exact getItem_piecewise hrest hks)
      (hnn _ (List.getElem_mem hks))
    have : some x' = some x := q1.symm.trans e3
    cases this
    exact ⟨y, q2, q3, q4⟩
  · intro t t₀ x s e1 e2 e4 l1
    rw [List.getLast?_eq_some_getLast hne] at e1
    cases e1
    have hfne : sol.filtering ≠ [] := by
      intro h0; rw [h0] at e2; cases e2
    rw [List.getLast?_eq_some_getLast hfne] at e2
    cases e2
    have hdne : P.diffusions ≠ [] := by
      intro h0; rw [h0] at e4; cases e4
    rw [List.getLast?_eq_some_getLast hdne] at e4
    cases e4
    have hrest : P.rest ≠ [] := by
      rw [hPr]
      intro h0
      have := congrArg List.length h0
      rw [List.length_dropLast] at this
      have := List.length_pos_iff.2 hdne
      simp only [List.length_nil] at *
      omega
    have hpne : sol.filteringSolution.posteriorStates ≠ [] := by
      rw [posteriorStates_filtering rfl]; exact fun h0 => hfne (List.map_eq_nil_iff.1 h0)
    obtain ⟨y, q1, q2, q3⟩ := solution_after_end hd E hε hprop hpne l1 (δ := P.diffusions.getLast hdne)
      (by show sol.diffusion.getItem (-1) = _; rw [hdf, hP]; exact getItem_piecewise_last hrest hdne)
      (hnn _ (List.getLast_mem hdne))
    refine ⟨y, q1, q2, ?_⟩
    simp only [posteriorStates_filtering (sol := sol.filteringSolution) rfl, List.getLast_map] at q3
    exact q3

/-! ## What goes wrong -/

/-- Violation: a smoothing solution with at least two steps never looks at the diffusion of the first step.  Replacing that
estimate by any other number changes no value of the solution, although the filtering solution depends on it
(`probsolve_dynamic_dense`). -/
theorem smoothing_ignores_first_diffusion (hd : 0 < d) (E : Numerics d q) {sol : Solution d q}
    {sm : List (Rv (d * (q + 1)))} (hn : sol.smoothing = some sm) (hp : sol.Proper) {P : Diffusion.PiecewiseDiffusion ℝ ℝ}
    (hP : sol.diffusion = .piecewise P) {δ₀ : ℝ} {δs : List ℝ} (hδ : P.diffusions = δ₀ :: δs) (hne : δs ≠ [])
    (hlen : P.diffusions.length + 1 = sol.times.length) (hrest : P.rest ≠ []) (δ' : ℝ) (t : ℝ) (y : Normal d) :
    { sol with diffusion := .piecewise { P with diffusions := δ' :: δs } }.eval E t = .ok y ↔ sol.eval E t = .ok y := by
  set sol' : Solution d q := { sol with diffusion := .piecewise { P with diffusions := δ' :: δs } } with hsol
  have hp' : sol'.Proper := ⟨hp.ascending, hp.nonempty, hp.sameLength, hp.valid⟩
  have hg := hp.grid
  rw [eval_iff hd E hp, eval_iff hd E hp']
  have hlen' : δs.length + 2 = sol.times.length := by
    rw [hδ] at hlen; simpa using hlen
  have hlast : ∀ δ, ∀ h : δ :: δs ≠ [], (δ :: δs).getLast h = δs.getLast hne := fun δ h => List.getLast_cons hne
  -- every index that is looked up gives the same diffusion
  have hsame : ∀ k : ℕ, k < δs.length → sol'.diffusion.getItem (k + 1 : ℕ) = sol.diffusion.getItem (k + 1 : ℕ) ∧
      ∃ δ, sol.diffusion.getItem (k + 1 : ℕ) = .ok δ := by
    intro k hk
    rw [hP, getItem_piecewise hrest (by rw [hδ]; simpa using hk), hsol]
    refine ⟨?_, _, rfl⟩
    rw [getItem_piecewise (P := { P with diffusions := δ' :: δs }) hrest (by simpa using hk)]
    simp [hδ]
  have hsame' : sol'.diffusion.getItem (-1) = .ok (δs.getLast hne) ∧ sol.diffusion.getItem (-1) = .ok (δs.getLast hne) := by
    constructor
    · rw [hsol, getItem_piecewise_last (P := { P with diffusions := δ' :: δs }) hrest (by simp)]
      simp only [hlast]
    · rw [hP, getItem_piecewise_last hrest (by rw [hδ]; simp)]
      simp only [hδ, hlast]
  have key : callScalar (sol'.posteriorInterpolate E) sol'.posterior t
      = callScalar (sol.posteriorInterpolate E) sol.posterior t ∨
      ∀ v, callScalar (sol'.posteriorInterpolate E) sol'.posterior t ≠ .ok v ∧
        callScalar (sol.posteriorInterpolate E) sol.posterior t ≠ .ok v := by
    have e1 : sol.posteriorInterpolate E = interpolateSmoothing (denseDyn E) (some sol.diffusion.getItem) sol.posterior := by
      funext t i j; simp only [Solution.posteriorInterpolate, hn]
    have e2 : sol'.posteriorInterpolate E = interpolateSmoothing (denseDyn E) (some sol'.diffusion.getItem) sol.posterior := by
      funext t i j
      simp only [Solution.posteriorInterpolate, show sol'.smoothing = some sm from hn]
      rfl
    rw [e1, e2, show sol'.posterior = sol.posterior from rfl]
    rcases grid_cases sol.posterior.locations hg.nonempty t with h | ⟨i, hi, rfl⟩ | ⟨i, hi, h1, h2⟩ | h
    · exact Or.inr fun v => ⟨(left_extrapolation_raises _ _ _ hg t h v).2, (left_extrapolation_raises _ _ _ hg t h v).2⟩
    · exact Or.inl (by rw [smoothing_on_grid _ _ _ hg i hi, smoothing_on_grid _ _ _ hg i hi])
    · left
      have hi' : i + 1 < sol.times.length := hi
      by_cases hl : i + 2 = sol.posterior.locations.length
      · rw [smoothing_between _ _ _ hg i hi t h1 h2 (δs.getLast hne) (by rw [if_pos hl]; exact hsame'.1),
          smoothing_between _ _ _ hg i hi t h1 h2 (δs.getLast hne) (by rw [if_pos hl]; exact hsame'.2)]
      · have hl' : i + 2 ≠ sol.times.length := hl
        obtain ⟨s1, δ, s2⟩ := hsame i (by omega)
        rw [smoothing_between _ _ _ hg i hi t h1 h2 δ (by rw [if_neg hl]; rw [s2] at s1; exact_mod_cast s1),
          smoothing_between _ _ _ hg i hi t h1 h2 δ (by rw [if_neg hl]; exact_mod_cast s2)]
    · left
      have hne' : sol.posterior.states ≠ [] := by
        have := hg.sameLength
        intro h0
        rw [h0] at this
        exact hg.nonempty (List.length_eq_zero_iff.1 this.symm)
      rw [(right_extrapolation (denseDyn E) (some sol'.diffusion.getItem) _ hg t h (δs.getLast hne) hsame'.1 hne').2,
        (right_extrapolation (denseDyn E) (some sol.diffusion.getItem) _ hg t h (δs.getLast hne) hsame'.2 hne').2]
  rcases key with key | key
  · rw [key]
  · constructor
    · rintro ⟨rv, h, -⟩; exact absurd h (key _).1
    · rintro ⟨rv, h, -⟩; exact absurd h (key _).2

theorem searchsorted_dropLast {l : List ℝ} (hasc : l.Pairwise (· < ·)) {k : ℕ} (hk : k + 1 < l.length) :
    searchsortedLeft l.dropLast.dropLast l[k + 1] = min (k + 1) (l.length - 2) := by
  have hd : ∀ j (h : j < l.dropLast.dropLast.length) (h' : j < l.length), l.dropLast.dropLast[j] = l[j] := by
    intro j h h'
    simp
  have hlen : l.dropLast.dropLast.length = l.length - 2 := by simp [Nat.sub_sub]
  have key : ∀ (m : List ℝ) (x : ℝ) (c : ℕ), c ≤ m.length → (∀ j (h : j < m.length), m[j] < x ↔ j < c) →
      searchsortedLeft m x = c := by
    intro m x
    induction m with
    | nil => intro c hc _; simp only [List.length_nil, Nat.le_zero] at hc; rw [hc]; rfl
    | cons z m ih =>
      intro c hc hj
      have h0 := hj 0 (by simp)
      simp only [List.getElem_cons_zero] at h0
      cases c with
      | zero => simp only [searchsortedLeft, if_neg (fun h => absurd (h0.1 h) (lt_irrefl 0))]
      | succ c =>
        simp only [searchsortedLeft, if_pos (h0.2 (Nat.succ_pos c))]
        rw [ih c (by simpa using hc) fun j h => by
          have := hj (j + 1) (by simpa using h)
          simpa using this]
  refine key _ _ _ (by rw [hlen]; exact min_le_right _ _) fun j h => ?_
  rw [hlen] at h
  rw [hd j (by rw [hlen]; exact h) (by omega)]
  constructor
  · intro hlt
    by_contra hc
    have : k + 1 ≤ j := by omega
    rcases Nat.lt_or_ge (k + 1) j with h' | h'
    · exact absurd hlt (not_lt.2 (List.pairwise_iff_getElem.1 hasc (k + 1) j hk (by omega) h').le)
    · have : j = k + 1 := by omega
      subst this
      exact lt_irrefl _ hlt
  · intro hj
    exact List.pairwise_iff_getElem.1 hasc j (k + 1) (by omega) hk (by omega)

/-- Violation: a sample of the solution at its own times uses, for every step, the diffusion of the step after it (and the
last one for the last two steps), so the first estimate is not used either. -/
theorem sample_diffusions_shifted {P : Diffusion.PiecewiseDiffusion ℝ ℝ} {times : List ℝ} (hasc : times.Pairwise (· < ·))
    (hlen : P.diffusions.length + 1 = times.length) (hne : P.diffusions ≠ []) (hrest : P.rest ≠ []) :
    sampleDiffusions (.piecewise P) times times = .ok (P.diffusions.tail ++ [P.diffusions.getLast hne]) := by
  have hl := List.length_pos_iff.2 hne
  unfold sampleDiffusions
  rw [mapM_ok_iff, List.forall₂_iff_get]
  refine ⟨by simp; omega, fun i h1 h2 => ?_⟩
  rw [List.length_tail] at h1
  simp only [List.get_eq_getElem, List.getElem_tail]
  rw [searchsorted_dropLast hasc (by omega), getItem_piecewise hrest (by omega)]
  congr 1
  by_cases hi : i + 1 < P.diffusions.length
  · rw [List.getElem_append_left (by rw [List.length_tail]; omega), List.getElem_tail]
    congr 1
    omega
  · rw [List.getElem_append_right (by rw [List.length_tail]; omega)]
    simp only [List.getElem_singleton, List.getLast_eq_getElem]
    congr 1
    omega

/-- **C102, smoothing solution with the constant diffusion.**  If the call without dense output returns a solution some state
of which has a nonzero covariance, then the call with dense output returns a solution with the same times and the same
filtering solution, and between the reported times it evaluates to the bridge between the smoothed states with the
calibrated diffusion `s`.  What is missing, and false: after the end it should agree with the filtering solution.  The
means agree, but the covariances differ by `s - 1` times the covariance that the last smoothed state contributes: that state is
not calibrated. -/
theorem probsolve_constant_smoothing_partial (hd : 0 < d) {E : Numerics d q} (hε : 0 ≤ E.damping) {a : Args d}
    (hfree : a.ode.TimeFree) (hdm : a.diffusionModel.toList.map Char.toLower = "constant".toList)
    {scipy : List ℝ → Res (List ℝ × List (Fin d → ℝ))} (hdata : FitData q a.t0 scipy) (hdense : a.denseOutput = false)
    {n : ℕ} {sol : Solution d q} (h : probsolveIvp E a scipy n = some (.ok sol)) {h1 : ℝ} (hf : FirstStepIs a h1)
    (hpos : 0 < h1) (hfit : a.t0 + h1 ≤ a.tmax) (hstops : StopsFine a.t0 a.timeStops)
    (hcov : ∃ x ∈ sol.filtering, x.cov ≠ 0) :
    ∃ (dense : Solution d q) (sm : List (Rv (d * (q + 1)))) (s : ℝ) (last : Rv (d * (q + 1))),
      probsolveIvp E { a with denseOutput := true } scipy n = some (.ok dense) ∧
      dense.filteringSolution = sol ∧ dense.times = sol.times ∧ dense.smoothing = some sm ∧ dense.Proper ∧ 0 < s ∧
      sm.getLast? = some last ∧
      (∀ k t t₀ t₁ x z, sol.times[k]? = some t₀ → sol.times[k + 1]? = some t₁ → sm[k]? = some x → sm[k + 1]? = some z →
        t₀ < t → t < t₁ → ∃ y, dense.eval E t = .ok y ∧ y.Valid ∧ BridgedAt E.chol s t₀ x t₁ z t y) ∧
      (∀ t t₀, sol.times.getLast? = some t₀ → t₀ < t → ∃ tr y y', discretise q d E.chol (t - t₀) = some tr ∧
        dense.eval E t = .ok y ∧ sol.eval E t = .ok y' ∧ y'.mean = y.mean ∧
        y'.cov - y.cov = (s - 1) • (proj d q 0 * (tr.mat * last.cov * tr.matᵀ) * (proj d q 0)ᵀ)) := by
  obtain ⟨g1, -, g3, -⟩ := probsolve_grid_partial h hf hpos hfit hstops
  have hne : sol.times ≠ [] := by intro h0; rw [h0] at g1; cases g1
  obtain ⟨hnone, sm, hsl, hsv, hcall, C, s, z, x, hC, hsC, hs0, hz, hx, hmean, hcv⟩ :=
    probsolve_dense_output_partial hε hfree hdm hdata hdense h hf hpos hfit hstops hcov
  obtain ⟨-, -, -, -, -, -, hprop, -⟩ := probsolve_constant_dense hd hε hfree hdm hdata h hf hpos hfit hstops
  have hfs : sol.filteringSolution = sol := by
    obtain ⟨_, _, _, _⟩ := sol
    simp only at hnone
    rw [hnone]
    rfl
  rw [hfs] at hprop
  set dense : Solution d q := ⟨sol.times, sol.filtering, some sm, sol.diffusion⟩ with hdef
  have hpd : dense.Proper := ⟨g3, hne, hsl, hsv⟩
  have hget : ∀ i, sol.diffusion.getItem i = .ok s := fun i => by rw [hC]; exact getItem_constant hsC i
  refine ⟨dense, sm, s, z, hcall, hfs, rfl, rfl, hpd, hs0, hz, ?_, ?_⟩
  · intro k t t₀ t₁ x z e1 e2 e3 e4 l1 l2
    obtain ⟨hk0, rfl⟩ := List.getElem?_eq_some_iff.1 e1
    obtain ⟨hk, rfl⟩ := List.getElem?_eq_some_iff.1 e2
    obtain ⟨x', z', y, q1, q2, q3, q4, q5⟩ := smoothing_solution_between_partial hd E hε (sol := dense) (sm := sm) rfl hpd
      hk l1 l2 (hget _) hs0
    rw [e3] at q1
    rw [e4] at q2
    cases q1
    cases q2
    exact ⟨y, q3, q4, q5⟩
  · intro t t₀ e1 l1
    rw [List.getLast?_eq_some_getLast hne] at e1
    cases e1
    have hsne : sm ≠ [] := by intro h0; rw [h0] at hz; cases hz
    have hfne : sol.filtering ≠ [] := by intro h0; rw [h0] at hx; cases hx
    rw [List.getLast?_eq_some_getLast hsne] at hz
    rw [List.getLast?_eq_some_getLast hfne] at hx
    have hz := Option.some.inj hz
    have hx := Option.some.inj hx
    have hpne : sol.posteriorStates ≠ [] := by
      rw [posteriorStates_filtering hnone]; exact fun h0 => hfne (List.map_eq_nil_iff.1 h0)
    obtain ⟨y, a1, -, a3⟩ := solution_after_end hd E hε hpd (show dense.posteriorStates ≠ [] from hsne) l1 (hget _) hs0.le
    obtain ⟨y', b1, -, b3⟩ := solution_after_end hd E hε hprop hpne l1 (hget _) hs0.le
    have el : sol.posteriorStates.getLast hpne = ⟨x.mean, x.cov, some x.chol⟩ := by
      simp only [posteriorStates_filtering hnone, List.getLast_map, hx]
    have el' : dense.posteriorStates.getLast hsne = z := hz
    rw [el] at b3
    rw [el'] at a3
    obtain ⟨hvz, hsz⟩ := hsv z (by rw [← hz]; exact List.getLast_mem hsne)
    have hzp : z.cov.PosSemidef := by
      obtain ⟨L, hL⟩ := Option.isSome_iff_exists.1 hsz
      rw [← hvz L hL]
      have := Matrix.posSemidef_self_mul_conjTranspose L
      rwa [Matrix.conjTranspose_eq_transpose_of_trivial] at this
    obtain ⟨tr, t1, t2, t3⟩ := predicted_formula hzp hs0.le a3
    obtain ⟨tr', t1', t2', t3'⟩ := predicted_formula (by rw [hcv]; exact hzp.smul hs0.le) hs0.le b3
    have : tr = tr' := Option.some.inj (t1.symm.trans t1')
    subst this
    refine ⟨tr, y, y', t1, a1, b1, by rw [t2, t2', hmean], ?_⟩
    rw [t3, t3', hcv]
    simp only [Matrix.mul_add, Matrix.add_mul, Matrix.mul_smul, Matrix.smul_mul, sub_smul, one_smul]
    abel

/-- **C102, smoothing solution with the piecewise constant diffusion.**  If the call without dense output returns a solution
and all estimated diffusions are positive, then the call with dense output returns a solution with the same times and the
same filtering solution; after the end both evaluate to the same mean and covariance, and between the reported times the
smoothing solution evaluates to the bridge between the smoothed states.  What is missing, and false: the bridge should use the
diffusion of the step that contains the time.  It uses that of the step after it (the last step: its own). -/
theorem probsolve_dynamic_smoothing_partial (hd : 0 < d) {E : Numerics d q} (hε : 0 ≤ E.damping) {a : Args d}
    (hfree : a.ode.TimeFree) (hdm : a.diffusionModel.toList.map Char.toLower = "dynamic".toList)
    {scipy : List ℝ → Res (List ℝ × List (Fin d → ℝ))} (hdata : FitData q a.t0 scipy) (hdense : a.denseOutput = false)
    {n : ℕ} {sol : Solution d q} (h : probsolveIvp E a scipy n = some (.ok sol)) {h1 : ℝ} (hf : FirstStepIs a h1)
    (hpos : 0 < h1) (hfit : a.t0 + h1 ≤ a.tmax) (hstops : StopsFine a.t0 a.timeStops)
    (hdiff : ∀ P, sol.diffusion = .piecewise P → ∀ s ∈ P.diffusions, 0 < s) :
    ∃ (dense : Solution d q) (sm : List (Rv (d * (q + 1)))) (δs : List ℝ) (hne : δs ≠ []),
      probsolveIvp E { a with denseOutput := true } scipy n = some (.ok dense) ∧
      dense.filteringSolution = sol ∧ dense.times = sol.times ∧ dense.smoothing = some sm ∧ dense.Proper ∧
      (∃ P, sol.diffusion = .piecewise P ∧ P.diffusions = δs) ∧ δs.length + 1 = sol.times.length ∧
      (∀ k t t₀ t₁ x z s, sol.times[k]? = some t₀ → sol.times[k + 1]? = some t₁ → sm[k]? = some x → sm[k + 1]? = some z →
        (δs.tail ++ [δs.getLast hne])[k]? = some s →
        t₀ < t → t < t₁ → ∃ y, dense.eval E t = .ok y ∧ y.Valid ∧ BridgedAt E.chol s t₀ x t₁ z t y) ∧
      (∀ t t₀, sol.times.getLast? = some t₀ → t₀ < t → ∃ y y', dense.eval E t = .ok y ∧ sol.eval E t = .ok y' ∧
        y'.mean = y.mean ∧ y'.cov = y.cov) := by
  obtain ⟨g1, -, g3, -⟩ := probsolve_grid_partial h hf hpos hfit hstops
  have hne : sol.times ≠ [] := by intro h0; rw [h0] at g1; cases g1
  obtain ⟨hnone, sm, hsl, hsv, hcall, z, x, hz, hx, hmean, hcv⟩ :=
    probsolve_dense_output_dynamic_partial hε hfree hdm hdata hdense h hf hpos hfit hstops hdiff
  obtain ⟨-, -, -, -, -, -, hprop, -⟩ := probsolve_dynamic_dense hd hε hfree hdm hdata h hf hpos hfit hstops
  obtain ⟨P, hP, hPl, hrest, hdne⟩ : ∃ P, sol.diffusion = .piecewise P ∧ P.diffusions.length + 1 = sol.times.length ∧
      P.rest ≠ [] ∧ P.diffusions ≠ [] := by
    obtain ⟨-, g2, -, -⟩ := probsolve_grid_partial h hf hpos hfit hstops
    obtain ⟨rule, D, st, rv, dts, r, hp, hrv, hm, ht, hfs, hdf⟩ := solution_follows h hf
    have hD := prepare_diffusion hp
    rw [chooseDiffusion, if_neg (by rw [hdm]; decide), if_pos hdm] at hD
    have := Except.ok.inj hD
    subst this
    obtain ⟨rv', hrv', hv⟩ := fit_valid E hε hdata
    rw [hrv] at hrv'
    have := Except.ok.inj hrv'
    subst this
    obtain ⟨P, hP, -, hPr, hPl, hlen, -, -, hcons, -⟩ :=
      piecewise_posterior_is_calibrated_partial (S := makeSolver E a.ode st rule) hfree hv hm
    rw [← ht] at hPl hPr
    have h2 : 2 ≤ sol.times.length := by
      by_contra hlt
      match hrt : sol.times, hlt with
      | [], _ => exact hne hrt
      | [t], _ =>
        rw [hrt] at g1 g2
        have e1 : t = a.t0 := Option.some.inj g1
        have e2 : t = a.tmax := Option.some.inj g2
        linarith
      | _ :: _ :: _, hlt => simp at hlt
    refine ⟨P, by rw [hdf, hP], hPl, fun h0 => ?_, fun h0 => ?_⟩
    · rw [hPr] at h0
      have := congrArg List.length h0
      rw [List.length_dropLast] at this
      simp only [List.length_nil] at this
      omega
    · rw [h0] at hPl
      simp only [List.length_nil] at hPl
      omega
  have hl := List.length_pos_iff.2 hdne
  have hpP := hdiff P hP
  have hfs : sol.filteringSolution = sol := by
    obtain ⟨_, _, _, _⟩ := sol
    simp only at hnone
    rw [hnone]
    rfl
  rw [hfs] at hprop
  set dense : Solution d q := ⟨sol.times, sol.filtering, some sm, sol.diffusion⟩ with hdef
  have hpd : dense.Proper := ⟨g3, hne, hsl, hsv⟩
  have hlast : sol.diffusion.getItem (-1) = .ok (P.diffusions.getLast hdne) := by
    rw [hP]; exact getItem_piecewise_last hrest hdne
  refine ⟨dense, sm, P.diffusions, hdne, hcall, hfs, rfl, rfl, hpd, ⟨P, hP, rfl⟩, hPl, ?_, ?_⟩
  · intro k t t₀ t₁ x z s e1 e2 e3 e4 e5 l1 l2
    obtain ⟨hk0, rfl⟩ := List.getElem?_eq_some_iff.1 e1
    obtain ⟨hk, rfl⟩ := List.getElem?_eq_some_iff.1 e2
    have hs : sol.diffusion.getItem (smoothingIndex sol.times.length k) = .ok s ∧ 0 < s := by
      unfold smoothingIndex
      by_cases hi : k + 2 = sol.times.length
      · rw [if_pos hi, hlast]
        rw [List.getElem?_append_right (by rw [List.length_tail]; omega), List.length_tail,
          show k - (P.diffusions.length - 1) = 0 by omega] at e5
        have := Option.some.inj e5
        exact ⟨by rw [this], by rw [← this]; exact hpP _ (List.getLast_mem hdne)⟩
      · rw [if_neg hi]
        rw [List.getElem?_append_left (by rw [List.length_tail]; omega), List.getElem?_tail] at e5
        obtain ⟨hks, rfl⟩ := List.getElem?_eq_some_iff.1 e5
        have := getItem_piecewise (P := P) hrest hks
        rw [hP]
        exact ⟨by exact_mod_cast this, hpP _ (List.getElem_mem hks)⟩
    obtain ⟨x', z', y, q1, q2, q3, q4, q5⟩ := smoothing_solution_between_partial hd E hε (sol := dense) (sm := sm) rfl hpd
      hk l1 l2 hs.1 hs.2
    rw [e3] at q1
    rw [e4] at q2
    cases q1
    cases q2
    exact ⟨y, q3, q4, q5⟩
  · intro t t₀ e1 l1
    rw [List.getLast?_eq_some_getLast hne] at e1
    cases e1
    have hsne : sm ≠ [] := by intro h0; rw [h0] at hz; cases hz
    have hfne : sol.filtering ≠ [] := by intro h0; rw [h0] at hx; cases hx
    rw [List.getLast?_eq_some_getLast hsne] at hz
    rw [List.getLast?_eq_some_getLast hfne] at hx
    have hz := Option.some.inj hz
    have hx := Option.some.inj hx
    have hpne : sol.posteriorStates ≠ [] := by
      rw [posteriorStates_filtering hnone]; exact fun h0 => hfne (List.map_eq_nil_iff.1 h0)
    have hs0 := (hpP _ (List.getLast_mem hdne)).le
    obtain ⟨y, a1, -, a3⟩ := solution_after_end hd E hε hpd (show dense.posteriorStates ≠ [] from hsne) l1 hlast hs0
    obtain ⟨y', b1, -, b3⟩ := solution_after_end hd E hε hprop hpne l1 hlast hs0
    have el : sol.posteriorStates.getLast hpne = ⟨x.mean, x.cov, some x.chol⟩ := by
      simp only [posteriorStates_filtering hnone, List.getLast_map, hx]
    have el' : dense.posteriorStates.getLast hsne = z := hz
    rw [el] at b3
    rw [el'] at a3
    obtain ⟨hvz, hsz⟩ := hsv z (by rw [← hz]; exact List.getLast_mem hsne)
    have hzp : z.cov.PosSemidef := by
      obtain ⟨L, hL⟩ := Option.isSome_iff_exists.1 hsz
      rw [← hvz L hL]
      have := Matrix.posSemidef_self_mul_conjTranspose L
      rwa [Matrix.conjTranspose_eq_transpose_of_trivial] at this
    obtain ⟨tr, t1, t2, t3⟩ := predicted_formula hzp hs0 a3
    obtain ⟨tr', t1', t2', t3'⟩ := predicted_formula (by rw [hcv]; exact hzp) hs0 b3
    have : tr = tr' := Option.some.inj (t1.symm.trans t1')
    subst this
    exact ⟨y, y', a1, b1, by rw [t2, t2', hmean], by rw [t3, t3', hcv]⟩

/-- An array of times in ascending order is evaluated time by time; one that is not raises ValueError. -/
theorem solution_at_many_times (hd : 0 < d) (E : Numerics d q) {sol : Solution d q} (hp : sol.Proper) (ts : List ℝ) :
    (ts.Pairwise (· ≤ ·) → ∀ ys, sol.evalMany E ts = .ok ys ↔ List.Forall₂ (fun t y => sol.eval E t = .ok y) ts ys) ∧
    (¬ ts.Pairwise (· ≤ ·) → sol.evalMany E ts = .error .valueError) := by
  obtain ⟨ys, h1, h2, -⟩ := mapM_total (projectState E 0) sol.posteriorStates fun x hx => by
    obtain ⟨y, hy, -⟩ := projectState_ok hd E (Nat.zero_le q) (hp.valid x hx).1 (hp.valid x hx).2
    exact ⟨y, hy⟩
  have hg : Grid (⟨sol.times, ys, false⟩ : Post ℝ (Normal d)) :=
    ⟨hp.ascending, hp.nonempty, by rw [h2]; exact hp.sameLength⟩
  simp only [Solution.evalMany, Solution.eval, Solution.projected, h1, Except.bind]
  exact ⟨fun hs v => array_evaluation_is_pointwise _ _ hg ts hs v, fun hs => unsorted_query_raises _ _ ts hs⟩

/-- `solution.derivatives` are the laws of the first derivatives of the states of the posterior, one per reported time. -/
theorem solution_derivatives (hd : 0 < d) (hq : 1 ≤ q) (E : Numerics d q) {sol : Solution d q} (hp : sol.Proper) :
    ∃ ys, sol.projected E 1 = .ok ys ∧ ys.length = sol.times.length ∧
      ∀ (k : ℕ) x y, sol.posteriorStates[k]? = some x → ys[k]? = some y → ∀ {Ω : Type} {mΩ : MeasurableSpace Ω} (P : Measure Ω)
        (X : Ω → Fin (d * (q + 1)) → ℝ), IsNormal P X x.mean x.cov → IsNormal P (fun ω i => coord (X ω) 1 i) y.mean y.cov := by
  obtain ⟨ys, h1, h2, h3⟩ := mapM_total (projectState E 1) sol.posteriorStates fun x hx => by
    obtain ⟨y, hy, -⟩ := projectState_ok hd E hq (hp.valid x hx).1 (hp.valid x hx).2
    exact ⟨y, hy⟩
  refine ⟨ys, h1, by rw [h2]; exact hp.sameLength, ?_⟩
  intro k x y e1 e2 Ω mΩ P X hX
  obtain ⟨hk, rfl⟩ := List.getElem?_eq_some_iff.1 e1
  obtain ⟨hk', rfl⟩ := List.getElem?_eq_some_iff.1 e2
  obtain ⟨hv, hs⟩ := hp.valid _ (List.getElem_mem hk)
  obtain ⟨y, g1, -, -, -, g5⟩ := projectState_ok hd E hq hv hs
  rw [h3 k hk hk'] at g1
  rw [Except.ok.inj g1]
  exact g5 P X hX

/-- A sample of the solution consists of the zeroth derivatives of the sample of the posterior. -/
theorem sampled_solution (samples : List (Fin (d * (q + 1)) → ℝ)) :
    projectSamples samples = samples.map fun x i => coord x 0 i := by
  unfold projectSamples
  refine List.map_congr_left fun x _ => ?_
  rw [proj_mulVec _ (Nat.zero_le q)]

/-! ## The hypotheses are met -/

/-- A call for the logistic equation, evaluated at a time between the reported ones, after the end and before the start. -/
example (E : Numerics 1 3) (hε : 0 ≤ E.damping) (y : ℝ → Fin 1 → ℝ) :
    ∃ n sol s, probsolveIvp E logisticArgs (fun ts => .ok (ts, ts.map y)) n = some (.ok sol) ∧ 0 ≤ s ∧
      sol.filteringSolution.Proper ∧
      (∃ x v, sol.filtering.getLast? = some x ∧ sol.filteringSolution.eval E 3 = .ok v ∧
        PredictedAt E.chol s 2 x.mean x.cov 3 v) ∧
      ∀ v, sol.filteringSolution.eval E (-1) ≠ .ok v := by
  have hf : FirstStepIs logisticArgs (1 / 4) := Or.inl rfl
  have hfit : logisticArgs.t0 + 1 / 4 ≤ logisticArgs.tmax := by
    show (0 : ℝ) + 1 / 4 ≤ 2
    norm_num
  have hfree : logisticArgs.ode.TimeFree := fun t x => ⟨rfl, rfl⟩
  obtain ⟨n, sol, h⟩ := probsolve_constant_succeeds hε (by norm_num) (a := logisticArgs) hfree
    ⟨fun t x => ⟨_, rfl⟩, fun t x => ⟨_, rfl⟩⟩ (fitData_of_evaluations 3 logisticArgs.t0 y) ⟨_, rfl⟩ rfl rfl (by norm_num)
    hfit (by decide) (by decide) logisticArgs_stops rfl
  obtain ⟨g1, g2, -, -⟩ := probsolve_grid_partial h hf (by norm_num) hfit logisticArgs_stops
  obtain ⟨rule, st, s, -, hs, -, hp, -, hafter⟩ := probsolve_constant_dense one_pos hε hfree (by decide)
    (fitData_of_evaluations 3 logisticArgs.t0 y) h hf (by norm_num) hfit logisticArgs_stops
  refine ⟨n, sol, s, h, hs, hp, ?_, ?_⟩
  · have hl := hp.sameLength
    rw [posteriorStates_filtering rfl, List.length_map] at hl
    have hne : sol.filtering ≠ [] := by
      intro h0
      have : sol.times = [] := List.length_eq_zero_iff.1 (by
        have : sol.filtering.length = sol.times.length := hl
        rw [← this, h0]; rfl)
      exact hp.nonempty this
    obtain ⟨v, v1, -, v3⟩ := hafter 3 2 _ g2 (List.getLast?_eq_some_getLast hne) (by norm_num)
    exact ⟨_, v, List.getLast?_eq_some_getLast hne, v1, v3⟩
  · intro v
    refine solution_before_start one_pos E hp ?_ v
    have : sol.times.head hp.nonempty = 0 := by
      have := List.head?_eq_some_head hp.nonempty
      exact Option.some.inj (this.symm.trans g1)
    have e : sol.filteringSolution.times.head hp.nonempty = 0 := this
    rw [e]
    norm_num

/-- A smoothing solution with two steps of different diffusions: the hypotheses of `smoothing_solution_between_partial`,
`smoothing_ignores_first_diffusion` and `solution_on_grid` are met. -/
example (E : Numerics 1 1) (hε : 0 ≤ E.damping) :
    ∃ (sol : Solution 1 1) (sm : List (Rv (1 * (1 + 1)))) (P : Diffusion.PiecewiseDiffusion ℝ ℝ),
      sol.smoothing = some sm ∧ sol.Proper ∧ sol.times = [0, 1, 2] ∧ sol.diffusion = .piecewise P ∧ P.diffusions = [4, 9] ∧
      (∃ x z y, sm[0]? = some x ∧ sm[1]? = some z ∧ sol.eval E (1 / 2) = .ok y ∧ BridgedAt E.chol 9 0 x 1 z (1 / 2) y) ∧
      ∀ y, { sol with diffusion := .piecewise { P with diffusions := [100, 9] } }.eval E (1 / 2) = .ok y
        ↔ sol.eval E (1 / 2) = .ok y := by
  set P : Diffusion.PiecewiseDiffusion ℝ ℝ := ⟨0, [1, 2], [4, 9]⟩ with hP
  set x0 : Rv (1 * (1 + 1)) := ⟨0, 1, some 1⟩ with hx0
  set sol : Solution 1 1 := ⟨[0, 1, 2], [], some [x0, x0, x0], .piecewise P⟩ with hsol
  have hp : sol.Proper := by
    refine ⟨?_, by simp [hsol], rfl, ?_⟩
    · simp only [hsol, List.pairwise_cons, List.mem_cons, List.not_mem_nil, or_false]
      norm_num
    · intro x hx
      have : x = x0 := by
        have : x ∈ [x0, x0, x0] := hx
        simpa using this
      rw [this]
      refine ⟨fun L hL => ?_, rfl⟩
      have := Option.some.inj hL
      rw [← this]
      simp [hx0]
  refine ⟨sol, [x0, x0, x0], P, rfl, hp, rfl, rfl, rfl, ?_, fun y => ?_⟩
  · have hget : sol.diffusion.getItem (smoothingIndex sol.times.length 0) = .ok 9 := by
      have : smoothingIndex sol.times.length 0 = ((1 : ℕ) : ℤ) := by
        simp [smoothingIndex, hsol]
      rw [this]
      exact getItem_piecewise (P := P) (by simp [hP]) (by simp [hP])
    obtain ⟨x, z, y, h1, h2, h3, -, h5⟩ := smoothing_solution_between_partial one_pos E hε (sol := sol) (sm := [x0, x0, x0]) rfl hp
      (k := 0) (by simp [hsol]) (t := 1 / 2) (by norm_num [hsol]) (by norm_num [hsol]) hget (by norm_num)
    exact ⟨x, z, y, h1, h2, h3, h5⟩
  · exact smoothing_ignores_first_diffusion one_pos E (sol := sol) (sm := [x0, x0, x0]) rfl hp (P := P) rfl (δ₀ := 4)
      (δs := [9]) rfl (by simp) (by simp [hP, hsol]) (by simp [hP]) 100 (1 / 2) y

/-- `y' = c` with one step of size one, `diffusion_model="constant"`. -/
noncomputable def constantArgs (c : ℝ) : Args 1 :=
  { Args.defaults ⟨fun _ _ => .ok fun _ => c, fun _ _ => .ok 0⟩ 0 1 (.vector 0) with
    method := "ek1", adaptive := false, step := some 1, diffusionModel := "constant", denseOutput := false }

/-- Calls for which the calibrated states are uncertain: a slope that does not fit the initial state. -/
theorem exists_uncertain_call {q : ℕ} (hq : 0 < q) (E : Numerics 1 q) (hε : 0 ≤ E.damping) (y : ℝ → Fin 1 → ℝ) :
    ∃ c sol, probsolveIvp E (constantArgs c) (fun ts => .ok (ts, ts.map y)) 2 = some (.ok sol) ∧
      ∃ x ∈ sol.filtering, x.cov ≠ 0 := by
  obtain ⟨rv, hrv, hv⟩ := fit_valid E hε (fitData_of_evaluations q 0 y)
  obtain ⟨tr, htr, -⟩ := IWP.discretise_entries q 1 E.chol (h := 1) one_ne_zero
  set c : ℝ := (proj 1 q 1 *ᵥ (tr.mat *ᵥ rv.mean + tr.noise.mean)) 0 + 1 with hc
  have hp : prepare (constantArgs c) = .ok (.constant 1, .constant .init, .ek1) := by
    have hdm : (constantArgs c).diffusionModel.toList.map Char.toLower = "constant".toList := by
      show "constant".toList.map Char.toLower = _
      decide
    have hst : chooseMethod (constantArgs c).method = .ok .ek1 := by
      show chooseMethod "ek1" = _
      rfl
    have had : (constantArgs c).adaptive = false := rfl
    have hs : (constantArgs c).step = some 1 := rfl
    have hy : (constantArgs c).y0 = .vector 0 := rfl
    simp only [prepare, constructSteprule, had, Bool.false_eq_true, if_false, hs, Except.bind, chooseDiffusion,
      if_pos hdm, hy, checkDimension, hst, Except.map]
  have hfree : (constantArgs c).ode.TimeFree := fun t x => ⟨rfl, rfl⟩
  set S := makeSolver E (constantArgs c).ode .ek1 (.constant 1) with hS
  obtain ⟨o, ho, hot, hoa⟩ := step_succeeds_partial (S := S) (D := .constant .init) (t := 0) (dt := 1)
    (rv := rv.toNormal E.ch E.damping) hq hv one_ne_zero hfree ⟨fun x => ⟨_, rfl⟩, fun _ x => ⟨_, rfl⟩⟩ trivial
  obtain ⟨x, hx⟩ := Option.isSome_iff_exists.1 (hoa.2 rfl)
  have hxc := accepted_cov_ne_zero hq one_pos hv hfree ho hx
  obtain ⟨tr', lin, est, -, -, htr', hlin, hest, -, hd, -⟩ := accepted_ok hv hfree ho hx
  have : tr' = tr := Option.some.inj (htr'.symm.trans htr)
  subst this
  obtain ⟨⟨-, v, hv', hz⟩, -⟩ := linearized_residual hlin
  have hvc : v = fun _ => c := (Except.ok.inj hv').symm
  have hz0 : predRes tr' lin (rv.toNormal E.ch E.damping) 0 = -1 := by
    rw [predRes, hz, hvc, Pi.sub_apply]
    show _ - c = _
    rw [hc]
    show (proj 1 q 1 *ᵥ (tr'.mat *ᵥ rv.mean + tr'.noise.mean)) 0 - _ = _
    ring
  have hest0 : est ≠ 0 := by
    obtain ⟨tr'', lin', htr'', hlin', pL, mL, full, est', h1, h2, h3, h4, -⟩ := attempt_ok hv ho
    have : tr'' = tr' := Option.some.inj (htr''.symm.trans htr)
    subst this
    have : lin' = lin := Except.ok.inj (hlin'.symm.trans hlin)
    subst this
    obtain ⟨hdet, -⟩ := estimate_ok h2.gram h3.gram h4
    rw [hest]
    generalize estCov (.constant .init) tr'' lin' (rv.toNormal E.ch E.damping) = C at hdet
    rw [Matrix.det_unique] at hdet
    rw [Matrix.inv_def, Matrix.det_unique, Matrix.adjugate_subsingleton]
    simp only [dotProduct, Matrix.mulVec, Finset.univ_unique, Fin.default_eq_zero, Finset.sum_singleton] at hdet ⊢
    simp only [show predRes tr'' lin' (rv.toNormal E.ch E.damping) 0 = -1 from hz0]
    simpa using hdet
  refine ⟨c, ⟨[0, 1], [scaleRv est (rv.toNormal E.ch E.damping), scaleRv est x], none, o.diffusion⟩, ?_,
    scaleRv est x, ?_, ?_⟩
  · rw [probsolve_eq hp (by simp [constantArgs, Args.defaults]) hq hrv (h1 := 1) rfl]
    have h1 : o.t = 1 := by rw [hot]; norm_num
    have hrun : Ode.run (loopEnv S (.constant 1) 1 0 1 (rv.toNormal E.ch E.damping) (.constant .init)) none 2 = 
      ⟨.done, ⟨1, x, o.diffusion, .ok (S.rule.norm o.errors o.reference)⟩, 0, none, 1, 1,
        [⟨0, rv.toNormal E.ch E.damping, .constant .init, .ok 0⟩, ⟨1, x, o.diffusion, .ok (S.rule.norm o.errors o.reference)⟩],
        [⟨0, rv.toNormal E.ch E.damping, .constant .init, .ok 0⟩],
        [⟨⟨0, rv.toNormal E.ch E.damping, .constant .init, .ok 0⟩, 1, ⟨1, x, o.diffusion, .ok (S.rule.norm o.errors o.reference)⟩, true⟩]⟩ := by
      have hatt : ∀ s, loopAttempt S ⟨0, rv.toNormal E.ch E.damping, .constant .init, s⟩ 1
          = ⟨1, x, o.diffusion, .ok (S.rule.norm o.errors o.reference)⟩ := by
        intro s
        simp only [loopAttempt, ho, h1, hx, Option.getD_some]
      have h01 : (0 : ℝ) < 1 := one_pos
      simp only [Ode.run, Function.iterate_succ, Function.iterate_zero, Function.comp, id, Ode.init, Ode.processStops, Ode.step,
        loopEnv, if_pos h01, Ode.tryStep, hatt]
      have hacc : ∀ z, S.rule.accepted z = true := fun z => rfl
      simp only [Except.bind, hacc, if_true, StepRule.suggest, Ode.applyCallbacks, List.foldl_nil, lt_irrefl, if_false,
        List.nil_append, List.cons_append]
      rw [sub_self, min_eq_right one_pos.le]
    rw [show (constantArgs c).t0 = 0 from rfl, show (constantArgs c).tmax = 1 from rfl,
      show (constantArgs c).timeStops = none from rfl, hrun]
    have hpf : o.diffusion.postFactor = .ok est := by
      rw [hd]
      rfl
    simp only [loopRun, postprocess, filteringStates, hpf, Except.map, Except.bind, List.map_cons, List.map_nil,
      show (constantArgs c).denseOutput = false from rfl, Bool.false_eq_true, if_false]
  · simp
  · simp only [scaleRv]
    exact smul_ne_zero hest0 hxc

/-- The hypotheses of `probsolve_constant_smoothing_partial` are met: after the end the smoothing solution differs from the
filtering solution as stated there. -/
example {q : ℕ} (hq : 0 < q) (E : Numerics 1 q) (hε : 0 ≤ E.damping) (y : ℝ → Fin 1 → ℝ) :
    ∃ (c : ℝ) (sol dense : Solution 1 q) (s : ℝ) (last : Matrix _ _ ℝ) (tr : _) (v v' : Normal 1),
      probsolveIvp E (constantArgs c) (fun ts => .ok (ts, ts.map y)) 2 = some (.ok sol) ∧
      probsolveIvp E { constantArgs c with denseOutput := true } (fun ts => .ok (ts, ts.map y)) 2 = some (.ok dense) ∧
      discretise q 1 E.chol 1 = some tr ∧ dense.eval E 2 = .ok v ∧ sol.eval E 2 = .ok v' ∧
      v'.cov - v.cov = (s - 1) • (proj 1 q 0 * (tr.mat * last * tr.matᵀ) * (proj 1 q 0)ᵀ) := by
  obtain ⟨c, sol, h, hcov⟩ := exists_uncertain_call hq E hε y
  have hf : FirstStepIs (constantArgs c) 1 := Or.inl rfl
  have hfit : (constantArgs c).t0 + 1 ≤ (constantArgs c).tmax := by
    show (0 : ℝ) + 1 ≤ 1
    norm_num
  have hstops : StopsFine (constantArgs c).t0 (constantArgs c).timeStops := Or.inl rfl
  have hdm : (constantArgs c).diffusionModel.toList.map Char.toLower = "constant".toList := by
    show "constant".toList.map Char.toLower = _
    decide
  have hdata : FitData q (constantArgs c).t0 fun ts => .ok (ts, ts.map y) := fitData_of_evaluations q _ y
  obtain ⟨dense, sm, s, last, h1, -, -, -, -, -, -, -, h2⟩ := probsolve_constant_smoothing_partial one_pos hε
    (fun t x => ⟨rfl, rfl⟩) hdm hdata rfl h hf one_pos hfit hstops hcov
  obtain ⟨-, g2, -⟩ := probsolve_grid_partial h hf one_pos hfit hstops
  obtain ⟨tr, v, v', t1, t2, t3, -, t5⟩ := h2 2 1 g2 (by norm_num)
  rw [show (2 : ℝ) - 1 = 1 by norm_num] at t1
  exact ⟨c, sol, dense, s, last.cov, tr, v, v', h, h1, t1, t2, t3, t5⟩

/-- The hypotheses of `probsolve_dynamic_smoothing_partial` are met: for all equations `y' = c` but one, after the end both
solutions agree. -/
example (E : Numerics 1 3) (hε : 0 ≤ E.damping) (y : ℝ → Fin 1 → ℝ) :
    ∃ c₀ : ℝ, ∀ c ≠ c₀, ∃ (sol dense : Solution 1 3) (v v' : Normal 1),
      probsolveIvp E (constArgs c) (fun ts => .ok (ts, ts.map y)) 2 = some (.ok sol) ∧
      probsolveIvp E { constArgs c with denseOutput := true } (fun ts => .ok (ts, ts.map y)) 2 = some (.ok dense) ∧
      dense.eval E 2 = .ok v ∧ sol.eval E 2 = .ok v' ∧ v'.mean = v.mean ∧ v'.cov = v.cov := by
  obtain ⟨c₀, hc₀⟩ := exists_positive_call E hε y
  refine ⟨c₀, fun c hc => ?_⟩
  obtain ⟨sol, h, hdiff⟩ := hc₀ c hc
  have hf : FirstStepIs (constArgs c) (1 / 4) := Or.inl rfl
  have hfit : (constArgs c).t0 + 1 / 4 ≤ (constArgs c).tmax := by
    show (0 : ℝ) + 1 / 4 ≤ 1 / 4
    norm_num
  have hstops : StopsFine (constArgs c).t0 (constArgs c).timeStops := Or.inl rfl
  have hdm : (constArgs c).diffusionModel.toList.map Char.toLower = "dynamic".toList := by
    show "dynamic".toList.map Char.toLower = _
    decide
  have hdata : FitData 3 (constArgs c).t0 fun ts => .ok (ts, ts.map y) := fitData_of_evaluations 3 _ y
  obtain ⟨dense, sm, δs, hne, h1, -, -, -, -, -, -, -, h2⟩ := probsolve_dynamic_smoothing_partial one_pos hε
    (fun t x => ⟨rfl, rfl⟩) hdm hdata rfl h hf (by norm_num) hfit hstops hdiff
  obtain ⟨-, g2, -⟩ := probsolve_grid_partial h hf (by norm_num) hfit hstops
  obtain ⟨v, v', t2, t3, t4, t5⟩ := h2 2 _ g2 (by show (1 / 4 : ℝ) < 2; norm_num)
  exact ⟨sol, dense, v, v', h, h1, t2, t3, t4, t5⟩

end Probnum.OdeFilter
