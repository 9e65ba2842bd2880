import Verif.FiltSmooth.Model
import Verif.Kalman.Exact
import Verif.Kalman.SmoothExact
import Verif.Kalman.SamplingProps
import Verif.SDE.Props

/-!
# C77: `filter_kalman` and `smooth_rts` return the conditional distributions of the documented model

Specification: `Verif/Gauss/Spec.lean` and `DocModel` below.
-/

namespace Probnum.FiltSmooth

open MeasureTheory ProbabilityTheory Matrix Probnum.Gauss Probnum.LinGauss Probnum.Kalman Probnum.Posterior

variable {n s m : ℕ}

/-! ## Specification -/

/-- The model of the documentation for `N` observations: `X 0 ~ N(m0, C0)` is the state at the *first* location,
`X (k+1) | X k ~ N(A k (X k), Q k)` and `Y k | X k ~ N(H (X k), R)`; each noise is independent of all states and
observations before it. -/
structure DocModel {Ω : Type*} {mΩ : MeasurableSpace Ω} (P : Measure Ω) (N : ℕ) (m0 : Fin n → ℝ)
    (C0 : Matrix (Fin n) (Fin n) ℝ) (A Q : ℕ → Matrix (Fin n) (Fin n) ℝ) (H : Matrix (Fin m) (Fin n) ℝ)
    (R : Matrix (Fin m) (Fin m) ℝ) (X : ℕ → Ω → Fin n → ℝ) (Y : ℕ → Ω → Fin m → ℝ) : Prop where
  init : IsNormal P (X 0) m0 C0
  dyn : ∀ k, k + 1 < N → ∃ W, (∀ ω, X (k + 1) ω = A k *ᵥ X k ω + W ω) ∧ IsNormal P W 0 (Q k) ∧
    IndepFun W (fun ω => (fun i : Fin (k + 1) => X i ω, fun i : Fin (k + 1) => Y i ω)) P
  obs : ∀ k, k < N → ∃ V, (∀ ω, Y k ω = H *ᵥ X k ω + V ω) ∧ IsNormal P V 0 R ∧
    IndepFun V (fun ω => (fun i : Fin (k + 1) => X i ω, fun i : Fin k => Y i ω)) P

/-- The law of `X(t + h)` given `X(t)` under `dX = F X dt + L dW`: mean `exp(h F) X(t)`. -/
noncomputable def sdeFlow (F : Matrix (Fin n) (Fin n) ℝ) (h : ℝ) : Matrix (Fin n) (Fin n) ℝ := NormedSpace.exp (h • F)

/-- The law of `X(t + h)` given `X(t)` under `dX = F X dt + L dW`: covariance `∫₀ʰ exp(u F) L Lᵀ exp(u F)ᵀ du`. -/
noncomputable def sdeCov (F : Matrix (Fin n) (Fin n) ℝ) (L : Matrix (Fin n) (Fin s) ℝ) (h : ℝ) :
    Matrix (Fin n) (Fin n) ℝ :=
  Matrix.of fun i j => ∫ u in (0 : ℝ)..h,
    (NormedSpace.exp (u • F) * L * (NormedSpace.exp (u • F) * L)ᵀ) i j

/-- The data `y 0, …, y (N-1)` at the locations `loc 0, …, loc (N-1)`. -/
def listOf {α : Type*} (N : ℕ) (z : ℕ → α) : List α := (List.range N).map z

/-! ## Reduction to the state-space model of the filter -/

theorem isNormal_zero {Ω : Type*} {mΩ : MeasurableSpace Ω} {P : Measure Ω} {X : Ω → Fin n → ℝ} {m0 : Fin n → ℝ}
    {C : Matrix (Fin n) (Fin n) ℝ} (h : IsNormal P X m0 C) : IsNormal P (fun _ => (0 : Fin n → ℝ)) 0 0 := by
  have := h.affine (0 : Matrix (Fin n) (Fin n) ℝ) 0
  simpa using this

theorem stateSpace_of_doc {Ω : Type*} {mΩ : MeasurableSpace Ω} {P : Measure Ω} {N : ℕ} {m0 : Fin n → ℝ}
    {C0 : Matrix (Fin n) (Fin n) ℝ} {A Q : ℕ → Matrix (Fin n) (Fin n) ℝ} {H : Matrix (Fin m) (Fin n) ℝ}
    {R : Matrix (Fin m) (Fin m) ℝ} {X : ℕ → Ω → Fin n → ℝ} {Y : ℕ → Ω → Fin m → ℝ}
    (h : DocModel P N m0 C0 A Q H R X Y) (T : ℕ → Transition n n) (M : ℕ → Transition n m)
    (h0 : T 0 = ⟨1, ⟨0, 0, 0⟩⟩)
    (hT : ∀ k, k + 1 < N → (T (k + 1)).mat = A k ∧ (T (k + 1)).noise.mean = 0 ∧ (T (k + 1)).noise.cov = Q k)
    (hM : ∀ k, (M k).mat = H ∧ (M k).noise.mean = 0 ∧ (M k).noise.cov = R) :
    StateSpace P N ⟨m0, C0⟩ T M (fun k => X (k - 1)) Y := by
  have := h.init.isProbabilityMeasure
  refine ⟨h.init, fun k hk => ?_, fun k hk => ?_⟩
  · cases k with
    | zero =>
      refine ⟨fun _ => 0, fun ω => ?_, ?_, indepFun_const_left _ _⟩
      · simp [h0]
      · rw [h0]; exact isNormal_zero h.init
    | succ k =>
      obtain ⟨W, hW, hN, hI⟩ := h.dyn k hk
      obtain ⟨e1, e2, e3⟩ := hT k hk
      refine ⟨W, fun ω => ?_, ?_, ?_⟩
      · rw [e1]; exact hW ω
      · rw [e2, e3]; exact hN
      · have := hI.comp (φ := id) (ψ := fun p : (Fin (k + 1) → Fin n → ℝ) × (Fin (k + 1) → Fin m → ℝ) =>
          ((fun i : Fin (k + 1 + 1) => p.1 ⟨i.1 - 1, by omega⟩, p.2) :
            (Fin (k + 1 + 1) → Fin n → ℝ) × (Fin (k + 1) → Fin m → ℝ))) measurable_id
          (by fun_prop)
        exact this
  · obtain ⟨V, hV, hN, hI⟩ := h.obs k hk
    obtain ⟨e1, e2, e3⟩ := hM k
    refine ⟨V, fun ω => ?_, ?_, ?_⟩
    · rw [e1]; exact hV ω
    · rw [e2, e3]; exact hN
    · have := hI.comp (φ := id) (ψ := fun p : (Fin (k + 1) → Fin n → ℝ) × (Fin k → Fin m → ℝ) =>
          ((fun i : Fin (k + 2) => p.1 ⟨i.1 - 1, by omega⟩, p.2) :
            (Fin (k + 2) → Fin n → ℝ) × (Fin k → Fin m → ℝ))) measurable_id
          (by fun_prop)
      exact this

theorem setupRegression_ok (a : Args n s m) (N : ℕ) (loc : ℕ → ℝ) (y : ℕ → Fin m → ℝ) :
    setupRegression a (listOf N y) (listOf N loc) = .ok (gaussProblem N loc (fun _ => measModel a) y) := by
  simp [setupRegression, Problem.make, listOf, gaussProblem, List.map_const']

theorem firstLocation_ok {N : ℕ} (hN : 0 < N) (loc : ℕ → ℝ) : firstLocation (listOf N loc) = .ok (loc 0) := by
  obtain ⟨N, rfl⟩ : ∃ k, N = k + 1 := ⟨N - 1, by omega⟩
  simp [firstLocation, listOf, List.range_succ_eq_map]

/-- The transition of the prior for the two values of `prior_model`. -/
noncomputable def priorDisc (ch : CovCholesky n) (F : Matrix (Fin n) (Fin n) ℝ) (L : Matrix (Fin n) (Fin n) ℝ) :
    ℝ → Transition n n := fun _ => ⟨F, ⟨0, L, ch.factor L⟩⟩

theorem filterKalman_eq (ch : CovCholesky n) (a : Args n s m) {N : ℕ} (hN : 0 < N) (loc : ℕ → ℝ)
    (y : ℕ → Fin m → ℝ) (pm : String) (init : Updated n) (disc : ℝ → Transition n n)
    (hp : ∀ t0, setupPrior ch a t0 pm = .ok (classicPrior t0 init disc)) :
    filterKalman ch a (listOf N y) (listOf N loc) pm
      = Kalman.filter (classicPrior (loc 0) init disc) (gaussProblem N loc (fun _ => measModel a) y) none := by
  simp only [filterKalman, setupRegression_ok, firstLocation_ok hN, hp, bind, Except.bind]

theorem smoothRts_eq (ch : CovCholesky n) (a : Args n s m) {N : ℕ} (hN : 0 < N) (loc : ℕ → ℝ)
    (y : ℕ → Fin m → ℝ) (pm : String) (init : Updated n) (disc : ℝ → Transition n n)
    (hp : ∀ t0, setupPrior ch a t0 pm = .ok (classicPrior t0 init disc)) :
    smoothRts ch a (listOf N y) (listOf N loc) pm
      = Kalman.filtsmooth (classicPrior (loc 0) init disc) (gaussProblem N loc (fun _ => measModel a) y) none := by
  simp only [smoothRts, setupRegression_ok, firstLocation_ok hN, hp, bind, Except.bind]

theorem setupPrior_discrete (ch : CovCholesky n) (a : Args n n m) (t0 : ℝ) :
    setupPrior ch a t0 "discrete" = .ok (classicPrior t0 ⟨a.m0, a.C0⟩ (priorDisc ch a.F a.L)) := by
  simp only [setupPrior, if_true, dif_pos]
  rfl

theorem setupPrior_continuous (ch : CovCholesky n) (a : Args n s m) (t0 : ℝ) :
    setupPrior ch a t0 "continuous"
      = .ok (classicPrior t0 ⟨a.m0, a.C0⟩ fun dt => SDE.LTISDE.discretise ch ⟨a.F, 0, a.L⟩ dt) := by
  unfold setupPrior
  rw [if_neg (by decide), if_pos rfl]

theorem discretise_doc (ch : CovCholesky n) (F : Matrix (Fin n) (Fin n) ℝ) (L : Matrix (Fin n) (Fin s) ℝ) (h : ℝ) :
    (SDE.LTISDE.discretise ch ⟨F, 0, L⟩ h).mat = sdeFlow F h ∧
    (SDE.LTISDE.discretise ch ⟨F, 0, L⟩ h).noise.mean = 0 ∧
    (SDE.LTISDE.discretise ch ⟨F, 0, L⟩ h).noise.cov = sdeCov F L h := by
  obtain ⟨h1, h2⟩ := SDE.discretise_integral ch ⟨F, 0, L⟩ h
  refine ⟨h1, ?_, ?_⟩
  · simp [SDE.LTISDE.discretise]
  · ext i j; exact h2 i j

theorem filter_pairwise {T S D Y : Type} [AddCommGroup T] [LinearOrder T] (prior : Prior T S D) (prob : Problem T Y S)
    (h1 : prob.observations.length = prob.locations.length) (h2 : prob.models.length = prob.locations.length)
    (post : Post T S) (h : Kalman.filter prior prob none = .ok post) : prob.locations.Pairwise (· < ·) := by
  by_contra hn
  rw [← increasing_iff] at hn
  simp only [Kalman.filter, generator, Bool.not_eq_true] at h hn
  simp [hn, appendAll] at h

theorem gaps {N : ℕ} {loc : ℕ → ℝ} (h : (listOf N loc).Pairwise (· < ·)) {k : ℕ} (hk : k + 1 < N) :
    loc k < loc (k + 1) := pairwise_range N loc h k hk

theorem docStateSpace {Ω : Type*} {mΩ : MeasurableSpace Ω} {P : Measure Ω} (a : Args n s m) {N : ℕ} (loc : ℕ → ℝ)
    (hpw : (listOf N loc).Pairwise (· < ·)) (disc : ℝ → Transition n n) (A Q : ℕ → Matrix (Fin n) (Fin n) ℝ)
    (hd : ∀ k, k + 1 < N → (disc (loc (k + 1) - loc k)).mat = A k ∧ (disc (loc (k + 1) - loc k)).noise.mean = 0 ∧
      (disc (loc (k + 1) - loc k)).noise.cov = Q k)
    (X : ℕ → Ω → Fin n → ℝ) (Y : ℕ → Ω → Fin m → ℝ) (hX : DocModel P N a.m0 a.C0 A Q a.H a.R X Y) :
    StateSpace P N ⟨a.m0, a.C0⟩
      (fun k => gapTransition disc (stateTime (loc 0) loc (k + 1) - stateTime (loc 0) loc k))
      (fun _ => measModel a) (fun k => X (k - 1)) Y := by
  refine stateSpace_of_doc hX _ _ ?_ ?_ fun k => ⟨rfl, rfl, rfl⟩
  · simp [stateTime, gapTransition]
  · intro k hk
    have := gaps hpw hk
    have e : gapTransition disc (stateTime (loc 0) loc (k + 1 + 1) - stateTime (loc 0) loc (k + 1))
        = disc (loc (k + 1) - loc k) := if_pos (by simpa [stateTime] using this)
    rw [e]
    exact hd k hk

/-- Filtering with any of the two prior models. -/
theorem filter_exact {Ω : Type*} {mΩ : MeasurableSpace Ω} {P : Measure Ω} (ch : CovCholesky n) (a : Args n s m)
    {N : ℕ} (hN : 0 < N) (loc : ℕ → ℝ) (pm : String) (disc : ℝ → Transition n n)
    (hp : ∀ t0, setupPrior ch a t0 pm = .ok (classicPrior t0 ⟨a.m0, a.C0⟩ disc)) (A Q : ℕ → Matrix (Fin n) (Fin n) ℝ)
    (hd : ∀ k, k + 1 < N → (disc (loc (k + 1) - loc k)).mat = A k ∧ (disc (loc (k + 1) - loc k)).noise.mean = 0 ∧
      (disc (loc (k + 1) - loc k)).noise.cov = Q k)
    (X : ℕ → Ω → Fin n → ℝ) (Y : ℕ → Ω → Fin m → ℝ) (hX : DocModel P N a.m0 a.C0 A Q a.H a.R X Y)
    (hok : ∃ y0 post, filterKalman ch a (listOf N y0) (listOf N loc) pm = .ok post) :
    ∃ (f : (k : ℕ) → (Fin (k + 1) → Fin m → ℝ) → Fin n → ℝ) (C : ℕ → Matrix (Fin n) (Fin n) ℝ),
      (∀ k, k < N → IsConditional P (X k) (fun ω (i : Fin (k + 1)) => Y i ω) (f k) (C k)) ∧
      ∀ y : ℕ → Fin m → ℝ, filterKalman ch a (listOf N y) (listOf N loc) pm
        = .ok ⟨listOf N loc, listOf N fun k => ⟨f k fun i => y i, C k⟩, false⟩ := by
  obtain ⟨y0, post, h0⟩ := hok
  rw [filterKalman_eq ch a hN loc y0 pm _ disc hp] at h0
  have hpw := filter_pairwise _ _ (by simp [gaussProblem]) (by simp [gaussProblem]) post h0
  obtain ⟨f, C, hf, hy⟩ := kalman_filter_exact (loc 0) ⟨a.m0, a.C0⟩ disc N loc (fun _ => measModel a) _ Y
    (docStateSpace a loc hpw disc A Q hd X Y hX) ⟨y0, post, h0⟩
  refine ⟨f, C, fun k hk => hf k hk, fun y => ?_⟩
  rw [filterKalman_eq ch a hN loc y pm _ disc hp]
  exact hy y

/-- Smoothing with any of the two prior models. -/
theorem smooth_exact {Ω : Type*} {mΩ : MeasurableSpace Ω} {P : Measure Ω} (ch : CovCholesky n) (a : Args n s m)
    {N : ℕ} (hN : 0 < N) (loc : ℕ → ℝ) (pm : String) (disc : ℝ → Transition n n)
    (hp : ∀ t0, setupPrior ch a t0 pm = .ok (classicPrior t0 ⟨a.m0, a.C0⟩ disc)) (A Q : ℕ → Matrix (Fin n) (Fin n) ℝ)
    (hd : ∀ k, k + 1 < N → (disc (loc (k + 1) - loc k)).mat = A k ∧ (disc (loc (k + 1) - loc k)).noise.mean = 0 ∧
      (disc (loc (k + 1) - loc k)).noise.cov = Q k)
    (X : ℕ → Ω → Fin n → ℝ) (Y : ℕ → Ω → Fin m → ℝ) (hX : DocModel P N a.m0 a.C0 A Q a.H a.R X Y)
    (hok : ∃ y0 post, smoothRts ch a (listOf N y0) (listOf N loc) pm = .ok post) :
    ∃ (f : (k : ℕ) → (Fin N → Fin m → ℝ) → Fin n → ℝ) (C : ℕ → Matrix (Fin n) (Fin n) ℝ),
      (∀ k, k < N → IsConditional P (X k) (fun ω (i : Fin N) => Y i ω) (f k) (C k)) ∧
      ∀ y : ℕ → Fin m → ℝ, smoothRts ch a (listOf N y) (listOf N loc) pm
        = .ok ⟨listOf N loc, listOf N fun k => ⟨f k fun i => y i, C k⟩, false⟩ := by
  obtain ⟨y0, post, h0⟩ := hok
  rw [smoothRts_eq ch a hN loc y0 pm _ disc hp] at h0
  have hpw : (listOf N loc).Pairwise (· < ·) := by
    cases hf : Kalman.filter (classicPrior (loc 0) ⟨a.m0, a.C0⟩ disc)
        (gaussProblem N loc (fun _ => measModel a) y0) none with
    | error e => simp only [filtsmooth, hf, bind, Except.bind] at h0; cases h0
    | ok pf => exact filter_pairwise _ _ (by simp [gaussProblem]) (by simp [gaussProblem]) pf hf
  obtain ⟨f, C, hf, hy⟩ := kalman_smoother_exact (loc 0) ⟨a.m0, a.C0⟩ disc N loc (fun _ => measModel a) _ Y
    (docStateSpace a loc hpw disc A Q hd X Y hX) ⟨y0, post, h0⟩
  refine ⟨f, C, fun k hk => hf k hk, fun y => ?_⟩
  rw [smoothRts_eq ch a hN loc y pm _ disc hp]
  exact hy y

/-! ## The documented contracts -/

/-- **C77.**  `filter_kalman(observations, locations, F, L, H, R, m0, C0, prior_model="discrete")`: for the documented
model `X_{n+1} | X_n ~ N(F X_n, L)`, `Y_n | X_n ~ N(H X_n, R)`, `X_1 ~ N(m0, C0)` at the first location, the returned
states are means and covariances of the conditional distributions of `X_k` given `Y_1, …, Y_k`, for all data, whatever
the (increasing) locations are.  (If the call does not raise on some data, it raises on none.) -/
theorem filter_kalman_discrete {Ω : Type*} {mΩ : MeasurableSpace Ω} {P : Measure Ω} (ch : CovCholesky n)
    (a : Args n n m) {N : ℕ} (hN : 0 < N) (loc : ℕ → ℝ) (X : ℕ → Ω → Fin n → ℝ) (Y : ℕ → Ω → Fin m → ℝ)
    (hX : DocModel P N a.m0 a.C0 (fun _ => a.F) (fun _ => a.L) a.H a.R X Y)
    (hok : ∃ y0 post, filterKalman ch a (listOf N y0) (listOf N loc) "discrete" = .ok post) :
    ∃ (f : (k : ℕ) → (Fin (k + 1) → Fin m → ℝ) → Fin n → ℝ) (C : ℕ → Matrix (Fin n) (Fin n) ℝ),
      (∀ k, k < N → IsConditional P (X k) (fun ω (i : Fin (k + 1)) => Y i ω) (f k) (C k)) ∧
      ∀ y : ℕ → Fin m → ℝ, filterKalman ch a (listOf N y) (listOf N loc) "discrete"
        = .ok ⟨listOf N loc, listOf N fun k => ⟨f k fun i => y i, C k⟩, false⟩ :=
  filter_exact ch a hN loc "discrete" (priorDisc ch a.F a.L) (setupPrior_discrete ch a) _ _
    (fun _ _ => ⟨rfl, rfl, rfl⟩) X Y hX hok

/-- **C77.**  `filter_kalman(…, prior_model="continuous")`: the same for the states at the locations of a solution of
`dX = F X dt + L dW` with `X(t_1) ~ N(m0, C0)` at the first location. -/
theorem filter_kalman_continuous {Ω : Type*} {mΩ : MeasurableSpace Ω} {P : Measure Ω} (ch : CovCholesky n)
    (a : Args n s m) {N : ℕ} (hN : 0 < N) (loc : ℕ → ℝ) (X : ℕ → Ω → Fin n → ℝ) (Y : ℕ → Ω → Fin m → ℝ)
    (hX : DocModel P N a.m0 a.C0 (fun k => sdeFlow a.F (loc (k + 1) - loc k))
      (fun k => sdeCov a.F a.L (loc (k + 1) - loc k)) a.H a.R X Y)
    (hok : ∃ y0 post, filterKalman ch a (listOf N y0) (listOf N loc) "continuous" = .ok post) :
    ∃ (f : (k : ℕ) → (Fin (k + 1) → Fin m → ℝ) → Fin n → ℝ) (C : ℕ → Matrix (Fin n) (Fin n) ℝ),
      (∀ k, k < N → IsConditional P (X k) (fun ω (i : Fin (k + 1)) => Y i ω) (f k) (C k)) ∧
      ∀ y : ℕ → Fin m → ℝ, filterKalman ch a (listOf N y) (listOf N loc) "continuous"
        = .ok ⟨listOf N loc, listOf N fun k => ⟨f k fun i => y i, C k⟩, false⟩ :=
  filter_exact ch a hN loc "continuous" _ (setupPrior_continuous ch a) _ _
    (fun _ _ => discretise_doc ch a.F a.L _) X Y hX hok

/-- **C77.**  `smooth_rts(…, prior_model="discrete")` returns means and covariances of the conditional distributions of
`X_k` given all observations. -/
theorem smooth_rts_discrete {Ω : Type*} {mΩ : MeasurableSpace Ω} {P : Measure Ω} (ch : CovCholesky n)
    (a : Args n n m) {N : ℕ} (hN : 0 < N) (loc : ℕ → ℝ) (X : ℕ → Ω → Fin n → ℝ) (Y : ℕ → Ω → Fin m → ℝ)
    (hX : DocModel P N a.m0 a.C0 (fun _ => a.F) (fun _ => a.L) a.H a.R X Y)
    (hok : ∃ y0 post, smoothRts ch a (listOf N y0) (listOf N loc) "discrete" = .ok post) :
    ∃ (f : (k : ℕ) → (Fin N → Fin m → ℝ) → Fin n → ℝ) (C : ℕ → Matrix (Fin n) (Fin n) ℝ),
      (∀ k, k < N → IsConditional P (X k) (fun ω (i : Fin N) => Y i ω) (f k) (C k)) ∧
      ∀ y : ℕ → Fin m → ℝ, smoothRts ch a (listOf N y) (listOf N loc) "discrete"
        = .ok ⟨listOf N loc, listOf N fun k => ⟨f k fun i => y i, C k⟩, false⟩ :=
  smooth_exact ch a hN loc "discrete" (priorDisc ch a.F a.L) (setupPrior_discrete ch a) _ _
    (fun _ _ => ⟨rfl, rfl, rfl⟩) X Y hX hok

/-- **C77.**  `smooth_rts(…, prior_model="continuous")`: the same for the states of a solution of
`dX = F X dt + L dW`. -/
theorem smooth_rts_continuous {Ω : Type*} {mΩ : MeasurableSpace Ω} {P : Measure Ω} (ch : CovCholesky n)
    (a : Args n s m) {N : ℕ} (hN : 0 < N) (loc : ℕ → ℝ) (X : ℕ → Ω → Fin n → ℝ) (Y : ℕ → Ω → Fin m → ℝ)
    (hX : DocModel P N a.m0 a.C0 (fun k => sdeFlow a.F (loc (k + 1) - loc k))
      (fun k => sdeCov a.F a.L (loc (k + 1) - loc k)) a.H a.R X Y)
    (hok : ∃ y0 post, smoothRts ch a (listOf N y0) (listOf N loc) "continuous" = .ok post) :
    ∃ (f : (k : ℕ) → (Fin N → Fin m → ℝ) → Fin n → ℝ) (C : ℕ → Matrix (Fin n) (Fin n) ℝ),
      (∀ k, k < N → IsConditional P (X k) (fun ω (i : Fin N) => Y i ω) (f k) (C k)) ∧
      ∀ y : ℕ → Fin m → ℝ, smoothRts ch a (listOf N y) (listOf N loc) "continuous"
        = .ok ⟨listOf N loc, listOf N fun k => ⟨f k fun i => y i, C k⟩, false⟩ :=
  smooth_exact ch a hN loc "continuous" _ (setupPrior_continuous ch a) _ _
    (fun _ _ => discretise_doc ch a.F a.L _) X Y hX hok

/-! ## When the calls succeed -/

/-- **C77.**  With increasing locations, positive semidefinite `C0` and positive definite `R` filtering never raises
(discrete: `L` positive semidefinite; continuous: any `L`). -/
theorem filter_kalman_succeeds (ch : CovCholesky n) (a : Args n s m) {N : ℕ} (hN : 0 < N) (loc : ℕ → ℝ)
    (hloc : ∀ i j, i < j → j < N → loc i < loc j) (hC : a.C0.PosSemidef) (hR : a.R.PosDef) (y : ℕ → Fin m → ℝ) :
    (∃ post, filterKalman ch a (listOf N y) (listOf N loc) "continuous" = .ok post) ∧
    ∀ (h : n = s), (a.L.submatrix id (Fin.cast h)).PosSemidef →
      ∃ post, filterKalman ch a (listOf N y) (listOf N loc) "discrete" = .ok post := by
  have hpw : ((List.range N).map loc).Pairwise (· < ·) := by
    rw [List.pairwise_map]
    exact List.pairwise_lt_range.imp_of_mem fun {i j} _ hj hij => hloc i j hij (List.mem_range.1 hj)
  constructor
  · rw [filterKalman_eq ch a hN loc y "continuous" _ _ (setupPrior_continuous ch a)]
    exact filter_succeeds_of_posDef _ _ _ N loc _ hpw hC
      (fun dt h => SDE.discretise_noise_posSemidef ch ⟨a.F, 0, a.L⟩ h.le) (fun _ _ => hR) y
  · rintro rfl hL
    rw [filterKalman_eq ch a hN loc y "discrete" _ _ (setupPrior_discrete ch a)]
    exact filter_succeeds_of_posDef _ _ _ N loc _ hpw hC (fun dt _ => hL) (fun _ _ => hR) y

/-- **C77.**  Smoothing needs nonsingular predictions too: with increasing locations, positive semidefinite `C0` and
positive definite `R` it never raises if `L` (discrete) or the covariance of the transition over every positive time
(continuous) is positive definite. -/
theorem smooth_rts_succeeds (ch : CovCholesky n) (a : Args n s m) {N : ℕ} (hN : 0 < N) (loc : ℕ → ℝ)
    (hloc : ∀ i j, i < j → j < N → loc i < loc j) (hC : a.C0.PosSemidef) (hR : a.R.PosDef) (y : ℕ → Fin m → ℝ) :
    ((∀ h, 0 < h → (sdeCov a.F a.L h).PosDef) →
      ∃ post, smoothRts ch a (listOf N y) (listOf N loc) "continuous" = .ok post) ∧
    ∀ (h : n = s), (a.L.submatrix id (Fin.cast h)).PosDef →
      ∃ post, smoothRts ch a (listOf N y) (listOf N loc) "discrete" = .ok post := by
  have hpw : ((List.range N).map loc).Pairwise (· < ·) := by
    rw [List.pairwise_map]
    exact List.pairwise_lt_range.imp_of_mem fun {i j} _ hj hij => hloc i j hij (List.mem_range.1 hj)
  constructor
  · intro hL
    rw [smoothRts_eq ch a hN loc y "continuous" _ _ (setupPrior_continuous ch a)]
    refine ⟨_, filtsmooth_succeeds_of_posDef _ _ _ N loc _ hN hpw hC (fun dt h => ?_) (fun _ _ => hR) y⟩
    rw [(discretise_doc ch a.F a.L dt).2.2]
    exact hL dt h
  · rintro rfl hL
    rw [smoothRts_eq ch a hN loc y "discrete" _ _ (setupPrior_discrete ch a)]
    exact ⟨_, filtsmooth_succeeds_of_posDef _ _ _ N loc _ hN hpw hC (fun dt _ => hL) (fun _ _ => hR) y⟩

/-! ## Deterministic dynamics -/

theorem sseq_cov_zero (init : Updated n) (T : ℕ → Transition n n) (M : ℕ → Transition n m) (N : ℕ)
    (h0 : init.cov = 0) (hT : ∀ k, (T k).noise.cov = 0) (hM : ∀ k, k < N → (M k).noise.cov.PosDef) (k : ℕ) (hk : k ≤ N)
    (y : Fin k → Fin m → ℝ) : (sseq init T M k y).cov = 0 := by
  have hz : ∀ k, k ≤ N → (sseq init T M k fun _ => 0).cov = 0 := by
    intro k
    induction k with
    | zero => intro _; exact h0
    | succ k ih =>
      intro hk
      have hp : (predS (T k) (sseq init T M k fun _ => 0)).cov = 0 := by
        simp only [predS]
        rw [show (forwardClassic (T k) 1 (toNormal (sseq init T M k fun _ => 0))).cov = _ from predCov_eq _ _ _, hT]
        simp [toNormal, ih (by omega)]
      have hreg := (regular_of_posDef init T M N (by rw [h0]; exact PosSemidef.zero)
        (fun k => by rw [hT]; exact PosSemidef.zero) hM N le_rfl).2 k (by omega)
      show (updS (M k) (predS (T k) (sseq init T M k fun _ => 0)) 0).cov = 0
      rw [updS_cov _ _ _ (by rw [hp]; simp) (symm_of_psd (hM k (by omega)).posSemidef) hreg, hp]
      generalize predS (T k) (sseq init T M k fun _ => 0) = S at hp
      obtain ⟨sm, sc⟩ := S
      simp only at hp
      subst hp
      simp [toNormal, optGain]
  rw [sseq_cov init T M k y fun _ => 0]
  exact hz k hk

theorem backward_singular (ch : CovCholesky n) (hn : 0 < n) (t0 : ℝ) (init S S' : Updated n)
    (F : Matrix (Fin n) (Fin n) ℝ) (hS : S.cov = 0) (t dt d : ℝ) (lin : Option (Updated n)) :
    (classicPrior t0 init (priorDisc ch F 0)).backward S' S t dt d lin = .error .linAlgError := by
  have : Nonempty (Fin n) := ⟨⟨0, hn⟩⟩
  simp [classicPrior, backwardClassic, gainClassic, forwardClassic, toNormal, hS, priorDisc, bind, Except.bind]

/-- **C77**, the exception: for a known initial state and noise-free discrete dynamics (`C0 = 0`, `L = 0`; the state
space then has a perfectly well defined conditional distribution, a point mass) `filter_kalman` succeeds but
`smooth_rts` raises `LinAlgError` as soon as there are two observations. -/
theorem smooth_rts_deterministic_raises (ch : CovCholesky n) (a : Args n n m) (hn : 0 < n) {N : ℕ} (hN : 2 ≤ N)
    (loc : ℕ → ℝ) (hloc : ∀ i j, i < j → j < N → loc i < loc j) (hC : a.C0 = 0) (hL : a.L = 0) (hR : a.R.PosDef)
    (y : ℕ → Fin m → ℝ) :
    (∃ post, filterKalman ch a (listOf N y) (listOf N loc) "discrete" = .ok post) ∧
    smoothRts ch a (listOf N y) (listOf N loc) "discrete" = .error .linAlgError := by
  have hok := (filter_kalman_succeeds ch a (by omega) loc hloc (by rw [hC]; exact PosSemidef.zero) hR y).2 rfl
    (by rw [hL]; exact PosSemidef.zero)
  refine ⟨hok, ?_⟩
  obtain ⟨post, hpost⟩ := hok
  rw [smoothRts_eq ch a (by omega) loc y "discrete" _ _ (setupPrior_discrete ch a)]
  rw [filterKalman_eq ch a (by omega) loc y "discrete" _ _ (setupPrior_discrete ch a)] at hpost
  have hpost' := hpost
  rw [filter_one_state_per_observation _ _ _ (by simp [gaussProblem]) (by simp [gaussProblem])] at hpost
  obtain ⟨-, hl, -, hf⟩ := hpost
  obtain ⟨-, hst⟩ := (isFiltered_iff _ _ _ N loc _ y post.states).1 hf
  simp only [filtsmooth, hpost', bind, Except.bind]
  obtain ⟨M, rfl⟩ : ∃ M, N = M + 2 := ⟨N - 2, by omega⟩
  have hl' : post.locations = (List.range (M + 2)).map loc := hl
  simp only [Kalman.smooth, smoothList, hst, hl', List.range_succ, List.map_append, List.map_cons, List.map_nil]
  rw [List.zip_append (by simp), List.zip_append (by simp)]
  simp only [List.zip_cons_cons, List.zip_nil_left, List.reverse_append, List.reverse_cons, List.reverse_nil, List.nil_append,
    List.singleton_append, List.reverse_replicate, List.length_append, List.length_map, List.length_range, List.length_cons,
    List.length_nil]
  rw [show M + (0 + 1) + (0 + 1) - 1 = M + 1 by omega, List.replicate_succ]
  simp only [List.zip_cons_cons, List.map_cons, smoothFrom, bind, Except.bind, pure, Except.pure]
  have hz : (sseq (⟨a.m0, a.C0⟩ : Updated n) (transitions (loc 0) loc (priorDisc ch a.F a.L)) (fun _ => measModel a) (M + 1)
      fun i => y i).cov = 0 := by
    refine sseq_cov_zero _ _ _ (M + 2) hC (fun k => ?_) (fun _ _ => hR) (M + 1) (by omega) _
    simp only [transitions, gapTransition, priorDisc]
    split_ifs <;> simp [hL]
  rw [hL] at hz ⊢
  rw [backward_singular ch hn _ _ _ _ _ hz]

/-! ## What is rejected -/

/-- **C77.**  Wrong calls: different numbers of observations and locations, no observations, an unknown `prior_model`
(the comparison is case sensitive), a rectangular `L` in a discrete model, locations that do not increase. -/
theorem front_rejects (ch : CovCholesky n) (a : Args n s m) (obs : List (Fin m → ℝ)) (locs : List ℝ) (pm : String) :
    (obs.length ≠ locs.length → filterKalman ch a obs locs pm = .error .valueError ∧
      smoothRts ch a obs locs pm = .error .valueError) ∧
    (filterKalman ch a [] [] pm = .error .indexError ∧ smoothRts ch a [] [] pm = .error .indexError) ∧
    (obs.length = locs.length → locs ≠ [] →
      ((pm ≠ "discrete" ∧ pm ≠ "continuous") ∨ (pm = "discrete" ∧ n ≠ s) ∨ ¬ locs.Pairwise (· < ·)) →
      filterKalman ch a obs locs pm = .error .valueError ∧ smoothRts ch a obs locs pm = .error .valueError) := by
  refine ⟨fun h => ?_, ⟨rfl, rfl⟩, fun hl hne h => ?_⟩
  · simp [filterKalman, smoothRts, setupRegression, Problem.make, h, bind, Except.bind]
  · obtain ⟨t, r, rfl⟩ : ∃ t r, locs = t :: r := by
      cases locs with
      | nil => exact absurd rfl hne
      | cons t r => exact ⟨t, r, rfl⟩
    have hprob : setupRegression a obs (t :: r)
        = .ok ⟨t :: r, obs, List.replicate (t :: r).length (classicMeas (measModel a))⟩ := by
      simp [setupRegression, Problem.make, hl]
    have hfil : ¬ (t :: r).Pairwise (· < ·) → ∀ prior : Prior ℝ (Updated n) ℝ,
        Kalman.filter prior ⟨t :: r, obs, List.replicate (t :: r).length (classicMeas (measModel a))⟩ none
          = .error .valueError := by
      intro hn prior
      rw [← increasing_iff] at hn
      simp only [Bool.not_eq_true] at hn
      simp [Kalman.filter, generator, hn, appendAll]
    simp only [filterKalman, smoothRts, hprob, firstLocation, bind, Except.bind]
    cases hp : setupPrior ch a t pm with
    | error e =>
      have : e = .valueError := by
        unfold setupPrior at hp
        by_cases h1 : pm = "discrete"
        · rw [if_pos h1] at hp
          by_cases h2 : n = s
          · rw [dif_pos h2] at hp; cases hp
          · rw [dif_neg h2] at hp; injection hp with hp; exact hp.symm
        · rw [if_neg h1] at hp
          by_cases h2 : pm = "continuous"
          · rw [if_pos h2] at hp; cases hp
          · rw [if_neg h2] at hp; injection hp with hp; exact hp.symm
      subst this
      exact ⟨rfl, rfl⟩
    | ok prior =>
      have hn : ¬ (t :: r).Pairwise (· < ·) := by
        rcases h with ⟨h1, h2⟩ | ⟨h1, h2⟩ | h
        · simp [setupPrior, h1, h2] at hp
        · simp [setupPrior, h1, h2] at hp
        · exact h
      simp only [filtsmooth, hfil hn prior, bind, Except.bind, and_self]

theorem bind_ok {α : Type} (x : Res α) (f : α → Res Unit) : (x >>= f) = .ok () ↔ ∃ a, x = .ok a ∧ f a = .ok () := by
  cases x with
  | error e => simp [bind, Except.bind]
  | ok a => simp [bind, Except.bind]

theorem checkNormal_ok (mean cov : List ℕ) :
    checkNormal mean cov = .ok () ↔ mean.length ≤ 2 ∧ cov = RandVars.expectedCov mean := by
  unfold checkNormal
  by_cases h1 : 2 < mean.length
  · rw [if_pos h1]; simp; omega
  · by_cases h2 : cov = RandVars.expectedCov mean
    · rw [if_neg h1, if_neg (by simpa using h2)]; simp [h2]; omega
    · rw [if_neg h1, if_pos h2]; simp [h2]

theorem checkLTIGaussian_ok (r : ℕ) (mat : List ℕ) :
    checkLTIGaussian mat [r] = .ok () ↔ ∃ c, mat = [r, c] := by
  unfold checkLTIGaussian
  match mat with
  | [] => simp
  | [_] => simp
  | [a, b] =>
    by_cases h : a = r
    · simp [h]
    · simp [h]
  | _ :: _ :: _ :: _ => simp

theorem checkProcess_ok (m0 : List ℕ) : checkProcess m0 = .ok () ↔ m0.length ≤ 1 := by
  unfold checkProcess
  by_cases h : 1 < m0.length
  · rw [if_pos h]; simp; omega
  · rw [if_neg h]; simp; omega

theorem firstDim_ok (l : List ℕ) (d : ℕ) : firstDim l = .ok d ↔ ∃ r, l = d :: r := by
  cases l with
  | nil => simp [firstDim]
  | cons a r => simp [firstDim]

theorem expectedCov_one (r : ℕ) : RandVars.expectedCov [r] = [r, r] := by simp [RandVars.expectedCov]

/-- **C77.**  The shape checks before the filter runs accept exactly the following.  They do not relate the state
dimension of `F` to that of `H`, `m0` and `C0`, nor the rows of `L` in the continuous model to those of `F`; such
mistakes surface in a matrix product of the filter. -/
theorem setup_accepts_iff (a : ArgShapes) (nObs nLoc : ℕ) (pm : String) :
    setup a nObs nLoc pm = .ok () ↔
      (∃ r c, a.H = [r, c] ∧ a.R = [r, r]) ∧ nObs = nLoc ∧ nLoc ≠ 0 ∧
      ((a.m0 = [] ∧ a.C0 = []) ∨ ∃ d, a.m0 = [d] ∧ a.C0 = [d, d]) ∧
      ((pm = "discrete" ∧ ∃ r c, a.F = [r, c] ∧ a.L = [r, r]) ∨
       (pm = "continuous" ∧ ∃ r b c, a.F = [r, r] ∧ a.L = [b, c])) := by
  have hReg : checkRegression a nObs nLoc = .ok () ↔ (∃ r c, a.H = [r, c] ∧ a.R = [r, r]) ∧ nObs = nLoc := by
    unfold checkRegression
    rw [bind_ok]
    constructor
    · rintro ⟨r, -, h⟩
      rw [bind_ok] at h
      obtain ⟨_, hn, h⟩ := h
      rw [bind_ok] at h
      obtain ⟨_, hl, h⟩ := h
      rw [checkNormal_ok, expectedCov_one] at hn
      obtain ⟨c, hc⟩ := (checkLTIGaussian_ok _ _).1 hl
      refine ⟨⟨r, c, hc, hn.2⟩, ?_⟩
      by_contra hne
      rw [if_neg hne] at h
      cases h
    · rintro ⟨⟨r, c, hH, hR⟩, hn⟩
      refine ⟨r, (firstDim_ok _ _).2 ⟨[c], hH⟩, ?_⟩
      rw [bind_ok]
      refine ⟨(), (checkNormal_ok _ _).2 ⟨by simp, by rw [expectedCov_one, hR]⟩, ?_⟩
      rw [bind_ok]
      exact ⟨(), (checkLTIGaussian_ok _ _).2 ⟨c, hH⟩, if_pos hn⟩
  have hm : (a.m0.length ≤ 2 ∧ a.C0 = RandVars.expectedCov a.m0) ∧ a.m0.length ≤ 1 ↔
      (a.m0 = [] ∧ a.C0 = []) ∨ ∃ d, a.m0 = [d] ∧ a.C0 = [d, d] := by
    generalize a.m0 = l
    generalize a.C0 = c
    match l with
    | [] => simp [RandVars.expectedCov]
    | [d] => simp [RandVars.expectedCov]
    | _ :: _ :: _ => simp
  have hPrior : checkPrior a pm = .ok () ↔ ((a.m0 = [] ∧ a.C0 = []) ∨ ∃ d, a.m0 = [d] ∧ a.C0 = [d, d]) ∧
      ((pm = "discrete" ∧ ∃ r c, a.F = [r, c] ∧ a.L = [r, r]) ∨
       (pm = "continuous" ∧ ∃ r b c, a.F = [r, r] ∧ a.L = [b, c])) := by
    rw [← hm]
    unfold checkPrior
    rw [bind_ok]
    constructor
    · rintro ⟨f, hf, h⟩
      rw [bind_ok] at h
      obtain ⟨_, hn, h⟩ := h
      rw [checkNormal_ok] at hn
      by_cases h1 : pm = "discrete"
      · rw [if_pos h1, bind_ok] at h
        obtain ⟨_, hL, h⟩ := h
        rw [bind_ok] at h
        obtain ⟨_, hF, h⟩ := h
        rw [checkNormal_ok, expectedCov_one] at hL
        obtain ⟨c, hc⟩ := (checkLTIGaussian_ok _ _).1 hF
        exact ⟨⟨hn, (checkProcess_ok _).1 h⟩, Or.inl ⟨h1, f, c, hc, hL.2⟩⟩
      · rw [if_neg h1] at h
        by_cases h2 : pm = "continuous"
        · rw [if_pos h2, bind_ok] at h
          obtain ⟨_, hS, h⟩ := h
          obtain ⟨r, b, c, e1, -, e3⟩ := (SDE.construct_accepts_iff _).1 hS
          exact ⟨⟨hn, (checkProcess_ok _).1 h⟩, Or.inr ⟨h2, r, b, c, e1, e3⟩⟩
        · rw [if_neg h2] at h
          cases h
    · rintro ⟨⟨hn, hp⟩, ⟨h1, r, c, hF, hL⟩ | ⟨h1, r, b, c, hF, hL⟩⟩
      · refine ⟨r, (firstDim_ok _ _).2 ⟨_, hF⟩, ?_⟩
        rw [bind_ok]
        refine ⟨(), (checkNormal_ok _ _).2 hn, ?_⟩
        rw [if_pos h1, bind_ok]
        refine ⟨(), (checkNormal_ok _ _).2 ⟨by simp, by rw [expectedCov_one, hL]⟩, ?_⟩
        rw [bind_ok]
        exact ⟨(), (checkLTIGaussian_ok _ _).2 ⟨c, hF⟩, (checkProcess_ok _).2 hp⟩
      · refine ⟨r, (firstDim_ok _ _).2 ⟨_, hF⟩, ?_⟩
        rw [bind_ok]
        refine ⟨(), (checkNormal_ok _ _).2 hn, ?_⟩
        rw [if_neg (by rw [h1]; decide), if_pos h1, bind_ok]
        exact ⟨(), (SDE.construct_accepts_iff _).2 ⟨r, b, c, hF, rfl, hL⟩, (checkProcess_ok _).2 hp⟩
  unfold setup
  rw [bind_ok]
  constructor
  · rintro ⟨_, h1, h2⟩
    obtain ⟨hH, hn⟩ := hReg.1 h1
    by_cases h0 : nLoc = 0
    · rw [if_pos h0] at h2; cases h2
    · rw [if_neg h0] at h2
      exact ⟨hH, hn, h0, hPrior.1 h2⟩
  · rintro ⟨hH, hn, h0, h2⟩
    refine ⟨(), hReg.2 ⟨hH, hn⟩, ?_⟩
    rw [if_neg h0]
    exact hPrior.2 h2

/-! ## The hypotheses are met -/

/-- The documented model exists for all positive semidefinite covariances. -/
theorem exists_doc (ch : CovCholesky n) (chm : CovCholesky m) (N : ℕ) (m0 : Fin n → ℝ) (C0 : Matrix (Fin n) (Fin n) ℝ)
    (A Q : ℕ → Matrix (Fin n) (Fin n) ℝ) (H : Matrix (Fin m) (Fin n) ℝ) (R : Matrix (Fin m) (Fin m) ℝ)
    (hC : C0.PosSemidef) (hQ : ∀ k, (Q k).PosSemidef) (hR : R.PosSemidef) :
    ∃ X Y, DocModel (stdBase (BaseIx n m N)) N m0 C0 A Q H R X Y := by
  let T : ℕ → Transition n n := fun k => match k with
    | 0 => ⟨1, ⟨0, 0, 0⟩⟩
    | k + 1 => ⟨A k, ⟨0, Q k, ch.factor (Q k)⟩⟩
  let M : ℕ → Transition n m := fun _ => ⟨H, ⟨0, R, chm.factor R⟩⟩
  have hss := exists_stateSpace N m0 (ch.factor C0) T M
    (fun k => by cases k with
      | zero => simp [T, Normal.Valid]
      | succ k => exact ch.gram _ (hQ k))
    (fun k => chm.gram _ hR)
  rw [ch.gram _ hC] at hss
  rcases Nat.eq_zero_or_pos N with rfl | hN
  · exact ⟨_, simY 0 m0 (ch.factor C0) T M, hss.init, fun k hk => absurd hk (by omega), fun k hk => absurd hk (by omega)⟩
  refine ⟨fun k => simX (m := m) N m0 (ch.factor C0) T (k + 1), simY N m0 (ch.factor C0) T M, ?_, fun k hk => ?_,
    fun k hk => ?_⟩
  · obtain ⟨W, hW, hNW, hI⟩ := hss.dyn 0 hN
    have hI' : IndepFun (simX (m := m) N m0 (ch.factor C0) T 0) W (stdBase (BaseIx n m N)) := by
      refine (hI.comp (φ := id) (ψ := fun p : (Fin (0 + 1) → Fin n → ℝ) × (Fin 0 → Fin m → ℝ) => p.1 0) measurable_id
        (by fun_prop)).symm
    have h := IsNormal.comb hss.init hNW hI' (1 : Matrix (Fin n) (Fin n) ℝ) (1 : Matrix (Fin n) (Fin n) ℝ) 0
    simp only [Matrix.one_mulVec, T, add_zero, Matrix.one_mul, Matrix.mul_one, Matrix.transpose_one] at h
    have e : simX (m := m) N m0 (ch.factor C0) T (0 + 1) = fun ω => simX (m := m) N m0 (ch.factor C0) T 0 ω + W ω := by
      funext ω
      rw [hW ω]
      simp [T]
    rw [e]
    exact h
  · obtain ⟨W, hW, hNW, hI⟩ := hss.dyn (k + 1) hk
    refine ⟨W, hW, hNW, ?_⟩
    exact hI.comp (φ := id) (ψ := fun p : (Fin (k + 1 + 1) → Fin n → ℝ) × (Fin (k + 1) → Fin m → ℝ) =>
          ((fun i : Fin (k + 1) => p.1 i.succ, p.2) :
            (Fin (k + 1) → Fin n → ℝ) × (Fin (k + 1) → Fin m → ℝ))) measurable_id (by fun_prop)
  · obtain ⟨V, hV, hNV, hI⟩ := hss.obs k hk
    refine ⟨V, hV, hNV, ?_⟩
    exact hI.comp (φ := id) (ψ := fun p : (Fin (k + 2) → Fin n → ℝ) × (Fin k → Fin m → ℝ) =>
          ((fun i : Fin (k + 1) => p.1 i.succ, p.2) :
            (Fin (k + 1) → Fin n → ℝ) × (Fin k → Fin m → ℝ))) measurable_id (by fun_prop)

/-- A moving point on the line: `F = [[1, 1], [0, 1]]`, position observed with unit noise, at the locations 0, 1, 4. -/
noncomputable def trackArgs : Args 2 2 1 where
  F := !![1, 1; 0, 1]
  L := 1
  H := !![1, 0]
  R := 1
  m0 := ![0, 1]
  C0 := 1

/-- The hypotheses of the four exactness theorems are met. -/
example (ch : CovCholesky 2) (ch1 : CovCholesky 1) : ∃ (loc : ℕ → ℝ), loc 0 = 0 ∧ loc 1 = 1 ∧ loc 2 = 4 ∧
    (∃ X Y, DocModel (stdBase (BaseIx 2 1 3)) 3 trackArgs.m0 trackArgs.C0 (fun _ => trackArgs.F) (fun _ => trackArgs.L)
      trackArgs.H trackArgs.R X Y) ∧
    (∃ X Y, DocModel (stdBase (BaseIx 2 1 3)) 3 trackArgs.m0 trackArgs.C0
      (fun k => sdeFlow trackArgs.F (loc (k + 1) - loc k)) (fun k => sdeCov trackArgs.F trackArgs.L (loc (k + 1) - loc k))
      trackArgs.H trackArgs.R X Y) ∧
    (∀ y, ∃ post, filterKalman ch trackArgs (listOf 3 y) (listOf 3 loc) "continuous" = .ok post) ∧
    (∀ y, ∃ post, filterKalman ch trackArgs (listOf 3 y) (listOf 3 loc) "discrete" = .ok post) ∧
    (∀ y, ∃ post, smoothRts ch trackArgs (listOf 3 y) (listOf 3 loc) "discrete" = .ok post) := by
  let loc : ℕ → ℝ := fun k => (k : ℝ) ^ 2
  have hmono : ∀ i j, i < j → j < 3 → loc i < loc j := fun i j hij _ => by
    have : (i : ℝ) < j := by exact_mod_cast hij
    exact pow_lt_pow_left₀ this (by positivity) (by norm_num)
  have hC : trackArgs.C0.PosSemidef := PosSemidef.one
  have hR : trackArgs.R.PosDef := PosDef.one
  refine ⟨loc, by simp [loc], by simp [loc], by norm_num [loc],
    exists_doc ch ch1 3 _ _ _ _ _ _ hC (fun _ => PosSemidef.one) hR.posSemidef,
    exists_doc ch ch1 3 _ _ _ _ _ _ hC (fun k => ?_) hR.posSemidef,
    fun y => (filter_kalman_succeeds ch trackArgs (by norm_num) loc hmono hC hR y).1,
    fun y => (filter_kalman_succeeds ch trackArgs (by norm_num) loc hmono hC hR y).2 rfl PosSemidef.one,
    fun y => (smooth_rts_succeeds ch trackArgs (by norm_num) loc hmono hC hR y).2 rfl PosDef.one⟩
  rw [← (discretise_doc ch trackArgs.F trackArgs.L (loc (k + 1) - loc k)).2.2]
  refine SDE.discretise_noise_posSemidef ch ⟨trackArgs.F, 0, trackArgs.L⟩ ?_
  have : (0 : ℝ) ≤ (k : ℝ) := Nat.cast_nonneg k
  simp only [loc, Nat.cast_add, Nat.cast_one]
  nlinarith

/-- A shape mistake that the checks do not find: `F` is 3×3 but the initial mean has length 2. -/
example : setup ⟨[3, 3], [3, 3], [1, 2], [1, 1], [2], [2, 2]⟩ 4 4 "discrete" = .ok () := rfl

end Probnum.FiltSmooth
