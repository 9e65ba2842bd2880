import Verif.Iterated.PropsComponent
import Verif.Iterated.Smoother
import Verif.Iterated.SmootherLemmas
import Verif.Posterior.Eval

/-!
# The iterated smoother: specification (`Task`) and helper lemmas for C108
-/

namespace Probnum.Iterated

open Matrix LinGauss Approx Kalman Posterior

variable {n m : ℕ}

/-! ## Specification -/

/-- A state estimation task: a Markov prior with initial law `init` at time `t0` and linear Gaussian transitions `disc dt`
over `dt`, and observations `y k` of `g_k(x_k)` with normal noise at the locations `loc k`, `k = 0, …, K`; `dg k` is the
Jacobian of `g_k`. -/
structure Task (n m : ℕ) where
  t0 : ℝ
  init : Updated n
  disc : ℝ → Transition n n
  K : ℕ
  loc : ℕ → ℝ
  M : ℕ → Nonlinear n m
  dg : ℕ → (Fin n → ℝ) → Matrix (Fin m) (Fin n) ℝ
  y : ℕ → Fin m → ℝ

/-- The law of the state at the first location. -/
noncomputable def Task.first (T : Task n m) : Updated n :=
  if T.t0 < T.loc 0 then
    let A := T.disc (T.loc 0 - T.t0)
    ⟨A.mat *ᵥ T.init.mean + A.noise.mean, A.mat * T.init.cov * A.matᵀ + A.noise.cov⟩
  else T.init

/-- The transition from location `k` to location `k + 1`. -/
def Task.step (T : Task n m) (k : ℕ) : Transition n n := T.disc (T.loc (k + 1) - T.loc k)

/-- The negative logarithm, up to an additive constant, of the joint posterior density of the states at the locations. -/
noncomputable def Task.negLog (T : Task n m) (M : ℕ → Nonlinear n m) (x : Fin (T.K + 1) → Fin n → ℝ) : ℝ :=
  ((x 0 - T.first.mean) ⬝ᵥ T.first.cov⁻¹ *ᵥ (x 0 - T.first.mean) +
    ∑ k : Fin T.K, (x k.succ - ((T.step k).mat *ᵥ x k.castSucc + (T.step k).noise.mean)) ⬝ᵥ (T.step k).noise.cov⁻¹ *ᵥ
      (x k.succ - ((T.step k).mat *ᵥ x k.castSucc + (T.step k).noise.mean)) +
    ∑ k : Fin (T.K + 1), (T.y k - ((M k).g (x k) + (M k).noise.mean)) ⬝ᵥ (M k).noise.cov⁻¹ *ᵥ
      (T.y k - ((M k).g (x k) + (M k).noise.mean))) / 2

/-- The objective of the task. -/
noncomputable abbrev Task.objective (T : Task n m) : (Fin (T.K + 1) → Fin n → ℝ) → ℝ := T.negLog T.M

/-- The objective with every measurement function replaced by its first-order expansion at `x0 k`. -/
noncomputable abbrev Task.objectiveAt (T : Task n m) (x0 x : Fin (T.K + 1) → Fin n → ℝ) : ℝ :=
  T.negLog (fun k => if h : k < T.K + 1 then expand (T.M k) (T.dg k) (x0 ⟨k, h⟩) else T.M k) x

/-- Densities exist, locations increase. -/
structure Task.Regular (T : Task n m) : Prop where
  init : T.init.cov.PosSemidef
  first : T.first.cov.PosDef
  dyn : ∀ dt, 0 < dt → (T.disc dt).noise.cov.PosDef
  noise : ∀ k, k ≤ T.K → (T.M k).noise.cov.PosDef
  increasing : ((List.range (T.K + 1)).map T.loc).Pairwise (· < ·)

/-- The Jacobians are given. -/
def Task.HasJac (T : Task n m) : Prop := ∀ k, k ≤ T.K → (T.M k).jac = some (T.dg k)

/-- The given Jacobians are the derivatives. -/
def Task.Differentiable (T : Task n m) : Prop := ∀ k, k ≤ T.K → IsJacobian (T.M k) (T.dg k)

/-- The prior process and the regression problem of the task. -/
noncomputable abbrev Task.prior (T : Task n m) : Prior ℝ (Updated n) ℝ := classicPrior T.t0 T.init T.disc

noncomputable abbrev Task.problem (T : Task n m) : Problem ℝ (Fin m → ℝ) (Updated n) := ekfProblem (T.K + 1) T.loc T.M T.y

/-- A posterior on the locations of the task with the means `x`. -/
structure Task.Means (T : Task n m) (p : Post ℝ (Updated n)) (x : Fin (T.K + 1) → Fin n → ℝ) : Prop where
  locations : p.locations = (List.range (T.K + 1)).map T.loc
  means : p.states.map Updated.mean = List.ofFn x

/-! ## Reduction to a linear problem -/

theorem Task.Means.length {T : Task n m} {p : Post ℝ (Updated n)} {x : Fin (T.K + 1) → Fin n → ℝ} (h : T.Means p x) :
    p.states.length = T.K + 1 := by
  have := congrArg List.length h.means
  simpa using this

theorem Task.Means.state {T : Task n m} {p : Post ℝ (Updated n)} {x : Fin (T.K + 1) → Fin n → ℝ} (h : T.Means p x)
    (k : Fin (T.K + 1)) : (p.states[k.1]'(by rw [h.length]; exact k.2)).mean = x k := by
  have h1 := h.means
  have h2 : (p.states.map Updated.mean)[k.1]'(by rw [List.length_map, h.length]; exact k.2) = x k := by
    simp only [h1, List.getElem_ofFn]
  rwa [List.getElem_map] at h2

theorem Task.Means.grid {T : Task n m} (hr : T.Regular) {p : Post ℝ (Updated n)} {x : Fin (T.K + 1) → Fin n → ℝ}
    (h : T.Means p x) : Grid p := by
  refine ⟨by rw [h.locations]; exact hr.increasing, ?_, by rw [h.length, h.locations]; simp⟩
  intro h0
  have := congrArg List.length (h0.symm.trans h.locations)
  simp at this

theorem Task.Means.eval {T : Task n m} (hr : T.Regular) {p : Post ℝ (Updated n)} {x : Fin (T.K + 1) → Fin n → ℝ}
    (h : T.Means p x) (dyn : Dynamics ℝ (Updated n) ℝ) (k : Fin (T.K + 1)) :
    ∃ s, evalSmoothing dyn p (T.loc k) = .ok s ∧ s.mean = x k := by
  have hk : k.1 < p.locations.length := by rw [h.locations, List.length_map, List.length_range]; exact k.2
  have := smoothing_on_grid dyn none p (h.grid hr) k hk
  refine ⟨_, ?_, h.state k⟩
  rw [evalSmoothing, ← this]
  congr 1
  simp only [h.locations, List.getElem_map, List.getElem_range]

theorem first_eq (T : Task n m) : predS (transitions T.t0 T.loc T.disc 0) T.init = T.first := by
  rw [Task.first]
  by_cases h : T.t0 < T.loc 0
  · rw [if_pos h, transitions, gapTransition, if_pos (by show 0 < T.loc 0 - T.t0; linarith)]
    have e : ∀ B : Transition n n, predS B T.init = ⟨B.mat *ᵥ T.init.mean + B.noise.mean,
        B.mat * T.init.cov * B.matᵀ + B.noise.cov⟩ := by
      intro B
      rw [← pred_mean, ← pred_cov]
    exact e _
  · rw [if_neg h, transitions, gapTransition, if_neg (by show ¬ 0 < T.loc 0 - T.t0; linarith)]
    cases hi : T.init
    simp [predS, forwardClassic, toNormal]

theorem step_eq {T : Task n m} (hr : T.Regular) (k : ℕ) (hk : k < T.K) :
    transitions T.t0 T.loc T.disc (k + 1) = T.step k :=
  gap_pos_transition _ _ _ _ (pairwise_range _ _ hr.increasing k (by omega))

theorem step_posDef {T : Task n m} (hr : T.Regular) (k : ℕ) (hk : k < T.K) : (T.step k).noise.cov.PosDef :=
  hr.dyn _ (by have := pairwise_range _ _ hr.increasing k (by omega); linarith)

/-- One update of the nonlinear problem is the update of the linearised one. -/
theorem ekfMeas_eq {M : Nonlinear n m} {dg : (Fin n → ℝ) → Matrix (Fin m) (Fin n) ℝ} (hj : M.jac = some dg)
    (y : Fin m → ℝ) (s : Updated n) (lin : Option (Updated n)) :
    ekfMeas M y s lin = classicMeas (ekfLinearize M dg (lin.getD s).mean) y s none := by
  rw [ekfMeas, ekf_eq hj]
  cases lin <;> rfl

/-- A smoothing pass whose updates linearise at points `ξ k` is the pass of the linear problem. -/
theorem filtsmooth_reduce {T : Task n m} (hr : T.Regular) (hj : T.HasJac) (prev : Option (ℝ → Res (Updated n)))
    (ξ : ℕ → Fin n → ℝ) (H : ℕ → Transition n m) (hH : ∀ k, k ≤ T.K → H k = ekfLinearize (T.M k) (T.dg k) (ξ k))
    (hpred : ∀ k, k ≤ T.K → stateTime T.t0 T.loc k < T.loc k → ∃ lin, linAt prev (stateTime T.t0 T.loc k) = .ok lin)
    (hlin : ∀ k, k ≤ T.K → ∃ lin, linAt prev (T.loc k) = .ok lin ∧
      (lin.getD (predS (transitions T.t0 T.loc T.disc k)
        (sseq T.init (transitions T.t0 T.loc T.disc) H k fun i => T.y i))).mean = ξ k) :
    filtsmooth T.prior T.problem prev = .ok ⟨(List.range (T.K + 1)).map T.loc, (List.range (T.K + 1)).map fun k =>
      rseq T.init (transitions T.t0 T.loc T.disc) H (T.K + 1) T.y (T.K - k), false⟩ := by
  have hHR : ∀ k, k < T.K + 1 → (H k).noise.cov.PosDef := fun k hk => by
    rw [hH k (by omega)]; exact hr.noise k (by omega)
  have hlinear := filtsmooth_succeeds_of_posDef T.t0 T.init T.disc (T.K + 1) T.loc H (by omega) hr.increasing hr.init hr.dyn
    hHR T.y
  have hall := regular_of_posDef T.init (transitions T.t0 T.loc T.disc) H (T.K + 1) hr.init
    (transitions_psd T.t0 T.loc T.disc fun dt h => (hr.dyn dt h).posSemidef) hHR
  have hiff := (isFiltered_iff T.t0 T.init T.disc (T.K + 1) T.loc H T.y _).2 ⟨(hall _ le_rfl).2, rfl⟩
  have hpf : filter (classicPrior T.t0 T.init T.disc) (gaussProblem (T.K + 1) T.loc H T.y) none =
      .ok ⟨(List.range (T.K + 1)).map T.loc, (List.range (T.K + 1)).map fun k =>
        sseq T.init (transitions T.t0 T.loc T.disc) H (k + 1) fun i => T.y i, false⟩ := by
    rw [filter_one_state_per_observation _ _ _ (by simp [gaussProblem]) (by simp [gaussProblem])]
    exact ⟨hr.increasing, rfl, rfl, hiff⟩
  have hpn : filter T.prior T.problem prev =
      .ok ⟨(List.range (T.K + 1)).map T.loc, (List.range (T.K + 1)).map fun k =>
        sseq T.init (transitions T.t0 T.loc T.disc) H (k + 1) fun i => T.y i, false⟩ := by
    rw [filter_one_state_per_observation _ _ _ (by simp [ekfProblem]) (by simp [ekfProblem])]
    refine ⟨hr.increasing, rfl, rfl, by simp [ekfProblem], ?_⟩
    intro k tOld t sOld s y mm e1 e2 e3 e4 e5 e6
    have q1 := (cons_range_map_getElem? _ _ _ _ _).1 e1
    have q3 := (cons_range_map_getElem? _ _ _ _ _).1 e3
    obtain ⟨hk, rfl⟩ := (range_map_getElem? _ _ _ _).1 e2
    obtain ⟨-, rfl⟩ := (range_map_getElem? _ _ _ _).1 e4
    obtain ⟨-, rfl⟩ := (range_map_getElem? _ _ _ _).1 e5
    obtain ⟨-, rfl⟩ := (range_map_getElem? _ _ _ _).1 e6
    have hso : sOld = sseq T.init (transitions T.t0 T.loc T.disc) H k fun i => T.y i := by
      rw [← q3.2]; cases k <;> rfl
    have hto : tOld = stateTime T.t0 T.loc k := by rw [← q1.2]; cases k <;> rfl
    refine ⟨predS (transitions T.t0 T.loc T.disc k) sOld, ?_, ?_⟩
    · have hp := (predicts_iff T.t0 T.init T.disc tOld (T.loc k) sOld (predS (transitions T.t0 T.loc T.disc k) sOld)).2
        (by rw [hto]; rfl)
      unfold Predicts at hp ⊢
      by_cases hg : 0 < T.loc k - tOld
      · rw [if_pos hg] at hp ⊢
        obtain ⟨lin, -, hp⟩ := hp
        obtain ⟨lin', hl⟩ := hpred k (by omega) (by rw [← hto]; linarith)
        exact ⟨lin', by rw [hto]; exact hl, hp⟩
      · rwa [if_neg hg] at hp ⊢
    · obtain ⟨lin, hl, hx⟩ := hlin k (by omega)
      refine ⟨lin, hl, ?_⟩
      rw [ekfMeas_eq (hj k (by omega)), hso, hx, ← hH k (by omega)]
      have hu := (updates_iff (T.loc k) (T.y k) (H k) (predS (transitions T.t0 T.loc T.disc k)
        (sseq T.init (transitions T.t0 T.loc T.disc) H k fun i => T.y i)) _).2
        ⟨(regular_iff T.init (transitions T.t0 T.loc T.disc) H k fun i => T.y i).2 ((hall _ le_rfl).2 k hk), rfl⟩
      obtain ⟨lin', hl', hu⟩ := hu
      cases hl'
      exact hu
  rw [filtsmooth, hpn]
  rw [filtsmooth, hpf] at hlinear
  exact hlinear

/-- The linearisation points of a pass with a previous posterior. -/
theorem filtsmooth_prev {T : Task n m} (hr : T.Regular) (hj : T.HasJac) (h0 : T.loc 0 ≤ T.t0) {p : Post ℝ (Updated n)}
    {x0 : Fin (T.K + 1) → Fin n → ℝ} (hp : T.Means p x0) (dyn : Dynamics ℝ (Updated n) ℝ) {H : ℕ → Transition n m}
    (hH : ∀ k : Fin (T.K + 1), H k = ekfLinearize (T.M k) (T.dg k) (x0 k)) :
    filtsmooth T.prior T.problem (some (evalSmoothing dyn p)) = .ok ⟨(List.range (T.K + 1)).map T.loc,
      (List.range (T.K + 1)).map fun k => rseq T.init (transitions T.t0 T.loc T.disc) H (T.K + 1) T.y (T.K - k), false⟩ := by
  refine filtsmooth_reduce hr hj _ (fun k => if h : k < T.K + 1 then x0 ⟨k, h⟩ else 0) H ?_ ?_ ?_
  · intro k hk
    rw [dif_pos (by omega)]
    exact hH ⟨k, by omega⟩
  · intro k hk hlt
    cases k with
    | zero => exact absurd hlt (not_lt.2 h0)
    | succ k =>
      obtain ⟨s, hs, -⟩ := hp.eval hr dyn ⟨k, by omega⟩
      exact ⟨some s, by show (evalSmoothing dyn p (T.loc k)).map some = _; rw [hs]; rfl⟩
  · intro k hk
    obtain ⟨s, hs, hm⟩ := hp.eval hr dyn ⟨k, by omega⟩
    refine ⟨some s, by show (evalSmoothing dyn p (T.loc k)).map some = _; rw [hs]; rfl, ?_⟩
    rw [dif_pos (by omega)]
    exact hm

/-! ## The objective -/

theorem objectiveAt_seq {T : Task n m} (hr : T.Regular) {x0 : Fin (T.K + 1) → Fin n → ℝ} {H : ℕ → Transition n m}
    (hH : ∀ k : Fin (T.K + 1), H k = ekfLinearize (T.M k) (T.dg k) (x0 k)) (z : ℕ → Fin n → ℝ) :
    T.objectiveAt x0 (fun k => z k) = seqObj T.init (transitions T.t0 T.loc T.disc) H T.y T.K z / 2 := by
  rw [Task.objectiveAt, Task.negLog, seqObj, first_eq]
  congr 2
  · congr 1
    rw [Finset.sum_range]
    refine Finset.sum_congr rfl fun k _ => ?_
    rw [step_eq hr k k.2]
    rfl
  · rw [Finset.sum_range]
    refine Finset.sum_congr rfl fun k _ => ?_
    rw [dif_pos k.2, hH k, quad]
    have e : (expand (T.M k) (T.dg k) (x0 ⟨k, k.2⟩)).g (z k) + (expand (T.M k) (T.dg k) (x0 ⟨k, k.2⟩)).noise.mean =
        (ekfLinearize (T.M k) (T.dg k) (x0 k)).mat *ᵥ z k + (ekfLinearize (T.M k) (T.dg k) (x0 k)).noise.mean := by
      show (T.M k).g (x0 k) + T.dg k (x0 k) *ᵥ (z k - x0 k) + (T.M k).noise.mean =
        T.dg k (x0 k) *ᵥ z k + (((T.M k).g (x0 k) - T.dg k (x0 k) *ᵥ x0 k) + (T.M k).noise.mean)
      rw [Matrix.mulVec_sub]
      abel
    rw [e]
    rfl

/-- Along lines through the smoothed means the linearised objective is a parabola with its minimum at the means. -/
theorem objectiveAt_square {T : Task n m} (hr : T.Regular) {x0 : Fin (T.K + 1) → Fin n → ℝ} {H : ℕ → Transition n m}
    (hH : ∀ k : Fin (T.K + 1), H k = ekfLinearize (T.M k) (T.dg k) (x0 k)) (μ : Fin (T.K + 1) → Fin n → ℝ)
    (hμ : ∀ k, μ k = smoothMean T.init (transitions T.t0 T.loc T.disc) H T.y T.K k) (h : Fin (T.K + 1) → Fin n → ℝ) :
    ∃ e : ℝ, (∀ s : ℝ, T.objectiveAt x0 (μ + s • h) = T.objectiveAt x0 μ + s ^ 2 * e) ∧ 0 ≤ e ∧ (e = 0 → h = 0) := by
  set A := transitions T.t0 T.loc T.disc with hA
  have hQ : ∀ k, k < T.K → (A (k + 1)).noise.cov.PosDef := fun k hk => by
    rw [hA, step_eq hr k hk]; exact step_posDef hr k hk
  have hR : ∀ k, k ≤ T.K → (H k).noise.cov.PosDef := fun k hk => by
    rw [hH ⟨k, by omega⟩]; exact hr.noise k hk
  obtain ⟨hf, c, hc⟩ := joint_square (init := T.init) (A := A) (H := H) (y := T.y) (by rw [hA, first_eq]; exact hr.first)
    T.K hQ hR
  let h' : ℕ → Fin n → ℝ := fun k => if hk : k < T.K + 1 then h ⟨k, hk⟩ else 0
  have hx : ∀ s : ℝ, μ + s • h = fun k : Fin (T.K + 1) => (fun k : ℕ => smoothMean T.init A H T.y T.K k + s • h' k) k := by
    intro s
    funext k
    show μ k + s • h k = _ + s • h' k
    rw [hμ k, show h' k = h k from dif_pos k.2]
  have hs := sq_line (init := T.init) (A := A) (H := H) (y := T.y) T.K h'
  have hp := sq_pos (init := T.init) (A := A) (H := H) (y := T.y) hQ hf fun k => smoothMean T.init A H T.y T.K k + h' k
  have hobj : ∀ s : ℝ, T.objectiveAt x0 (μ + s • h) =
      (c + s ^ 2 * seqSq T.init A H T.y T.K fun k => smoothMean T.init A H T.y T.K k + h' k) / 2 := by
    intro s
    rw [hx s, objectiveAt_seq hr hH (fun k : ℕ => smoothMean T.init A H T.y T.K k + s • h' k), ← hA, hc, hs]
  refine ⟨(seqSq T.init A H T.y T.K fun k => smoothMean T.init A H T.y T.K k + h' k) / 2, fun s => ?_, by linarith [hp.1],
    fun h0 => ?_⟩
  · have h0 := hobj 0
    rw [zero_smul, add_zero] at h0
    rw [hobj s, h0]
    ring
  · have := hp.2 (by linarith)
    funext k
    have hk := this k (by omega)
    rw [add_eq_left, show h' k = h k from dif_pos k.2] at hk
    exact hk

/-- The derivative of the objective depends on the measurement functions through values and Jacobians at the point. -/
theorem negLog_deriv {T : Task n m} (hr : T.Regular) (M : ℕ → Nonlinear n m)
    (J : Fin (T.K + 1) → Matrix (Fin m) (Fin n) ℝ) (x : Fin (T.K + 1) → Fin n → ℝ)
    (hR : ∀ k : Fin (T.K + 1), (M k).noise.cov.PosDef) (hJ : ∀ k : Fin (T.K + 1), HasFDerivAt (M k).g (matMap (J k)) (x k)) :
    ∃ D : (Fin (T.K + 1) → Fin n → ℝ) →L[ℝ] ℝ, HasFDerivAt (T.negLog M) D x ∧ ∀ v, D v =
      v 0 ⬝ᵥ T.first.cov⁻¹ *ᵥ (x 0 - T.first.mean) +
      ∑ k : Fin T.K, (v k.succ - (T.step k).mat *ᵥ v k.castSucc) ⬝ᵥ (T.step k).noise.cov⁻¹ *ᵥ
        (x k.succ - ((T.step k).mat *ᵥ x k.castSucc + (T.step k).noise.mean)) -
      ∑ k : Fin (T.K + 1), J k *ᵥ v k ⬝ᵥ (M k).noise.cov⁻¹ *ᵥ (T.y k - ((M k).g (x k) + (M k).noise.mean)) := by
  have hx : ∀ k : Fin (T.K + 1), HasFDerivAt (fun x : Fin (T.K + 1) → Fin n → ℝ => x k)
      (ContinuousLinearMap.proj (R := ℝ) (φ := fun _ : Fin (T.K + 1) => Fin n → ℝ) k) x := fun k =>
    (ContinuousLinearMap.proj (R := ℝ) (φ := fun _ : Fin (T.K + 1) => Fin n → ℝ) k).hasFDerivAt
  have hsym : ∀ {j : ℕ} {C : Matrix (Fin j) (Fin j) ℝ}, C.PosDef → (C⁻¹)ᵀ = C⁻¹ := fun h => posDef_symm h.inv
  obtain ⟨D1, h1, h1'⟩ := hasFDerivAt_quad ((hx 0).sub_const T.first.mean) (hsym hr.first)
  have h2 : ∀ k : Fin T.K, ∃ D : (Fin (T.K + 1) → Fin n → ℝ) →L[ℝ] ℝ, HasFDerivAt (fun x => quad (T.step k).noise.cov⁻¹
      (x k.succ - ((T.step k).mat *ᵥ x k.castSucc + (T.step k).noise.mean))) D x ∧ ∀ v, D v =
        2 * ((v k.succ - (T.step k).mat *ᵥ v k.castSucc) ⬝ᵥ (T.step k).noise.cov⁻¹ *ᵥ
          (x k.succ - ((T.step k).mat *ᵥ x k.castSucc + (T.step k).noise.mean))) := by
    intro k
    have hA : HasFDerivAt (fun x : Fin (T.K + 1) → Fin n → ℝ => (T.step k).mat *ᵥ x k.castSucc)
        ((matMap (T.step k).mat).comp (ContinuousLinearMap.proj (R := ℝ) (φ := fun _ : Fin (T.K + 1) => Fin n → ℝ) k.castSucc))
        x := HasFDerivAt.comp (g := fun z => (T.step k).mat *ᵥ z) x (matMap (T.step k).mat).hasFDerivAt (hx k.castSucc)
    obtain ⟨D, g1, g2⟩ := hasFDerivAt_quad ((hx k.succ).sub (hA.add_const (T.step k).noise.mean)) (hsym (step_posDef hr k k.2))
    exact ⟨D, g1, g2⟩
  have h3 : ∀ k : Fin (T.K + 1), ∃ D : (Fin (T.K + 1) → Fin n → ℝ) →L[ℝ] ℝ, HasFDerivAt (fun x => quad (M k).noise.cov⁻¹
      (T.y k - ((M k).g (x k) + (M k).noise.mean))) D x ∧ ∀ v, D v =
        -(2 * (J k *ᵥ v k ⬝ᵥ (M k).noise.cov⁻¹ *ᵥ (T.y k - ((M k).g (x k) + (M k).noise.mean)))) := by
    intro k
    have hg : HasFDerivAt (fun x : Fin (T.K + 1) → Fin n → ℝ => (M k).g (x k)) _ x := (hJ k).comp x (hx k)
    obtain ⟨D, g1, g2⟩ := hasFDerivAt_quad ((hg.add_const (M k).noise.mean).const_sub (T.y k)) (hsym (hR k))
    refine ⟨D, g1, fun v => ?_⟩
    rw [g2, ContinuousLinearMap.neg_apply, neg_dotProduct, mul_neg]
    rfl
  choose D2 h2 h2' using h2
  choose D3 h3 h3' using h3
  have h4 := ((h1.add (HasFDerivAt.fun_sum (u := Finset.univ) fun k _ => h2 k)).add
    (HasFDerivAt.fun_sum (u := Finset.univ) fun k _ => h3 k)).const_mul (2 : ℝ)⁻¹
  refine ⟨_, h4.congr_of_eventuallyEq (Filter.Eventually.of_forall fun x => ?_), fun v => ?_⟩
  · show _ / 2 = 2⁻¹ * _
    rw [div_eq_inv_mul]
    rfl
  · rw [ContinuousLinearMap.smul_apply, ContinuousLinearMap.add_apply, ContinuousLinearMap.add_apply,
      ContinuousLinearMap.sum_apply, ContinuousLinearMap.sum_apply, h1', smul_eq_mul]
    simp only [h2', h3', Finset.sum_neg_distrib, ← Finset.mul_sum]
    rw [ContinuousLinearMap.proj_apply]
    ring

/-- The objective and its linearisation at a point have the same derivative there. -/
theorem objective_deriv {T : Task n m} (hr : T.Regular) (hd : T.Differentiable) (x : Fin (T.K + 1) → Fin n → ℝ) :
    ∃ D : (Fin (T.K + 1) → Fin n → ℝ) →L[ℝ] ℝ, HasFDerivAt T.objective D x ∧ HasFDerivAt (T.objectiveAt x) D x := by
  obtain ⟨D, h1, h2⟩ := negLog_deriv hr T.M (fun k => T.dg k (x k)) x (fun k => hr.noise k (by omega))
    fun k => (hd k (by omega)).2 (x k)
  obtain ⟨D', h1', h2'⟩ := negLog_deriv hr (fun k => if h : k < T.K + 1 then expand (T.M k) (T.dg k) (x ⟨k, h⟩) else T.M k)
    (fun k => T.dg k (x k)) x
    (fun k => by rw [dif_pos k.2]; exact hr.noise k (by omega))
    (fun k => by
      rw [dif_pos k.2]
      have h0 : HasFDerivAt (fun z : Fin n → ℝ => z - x k) (ContinuousLinearMap.id ℝ (Fin n → ℝ)) (x k) :=
        (hasFDerivAt_id (x k)).sub_const (x k)
      have h1 : HasFDerivAt (fun z : Fin n → ℝ => T.dg k (x k) *ᵥ (z - x k)) (matMap (T.dg k (x k))) (x k) :=
        HasFDerivAt.comp (g := fun z => T.dg k (x k) *ᵥ z) (x k) (matMap (T.dg k (x k))).hasFDerivAt h0
      exact h1.const_add _)
  have e : D = D' := by
    ext1 v
    rw [h2, h2']
    congr 1
    refine Finset.sum_congr rfl fun k _ => ?_
    rw [dif_pos k.2]
    have : (expand (T.M k) (T.dg k) (x ⟨k, k.2⟩)).g (x k) = (T.M k).g (x k) := by
      show (T.M k).g (x k) + T.dg k (x k) *ᵥ (x k - x k) = _
      rw [sub_self, Matrix.mulVec_zero, add_zero]
    rw [this]
    rfl
  exact ⟨D, h1, e ▸ h1'⟩

theorem objectiveAt_self (T : Task n m) (x : Fin (T.K + 1) → Fin n → ℝ) : T.objectiveAt x x = T.objective x := by
  unfold Task.objectiveAt Task.objective Task.negLog
  congr 2
  refine Finset.sum_congr rfl fun k _ => ?_
  dsimp only
  rw [dif_pos k.2]
  have : (expand (T.M k) (T.dg k) (x ⟨k, k.2⟩)).g (x k) = (T.M k).g (x k) := by
    show (T.M k).g (x k) + T.dg k (x k) *ᵥ (x k - x k) = _
    rw [sub_self, Matrix.mulVec_zero, add_zero]
  rw [this]
  rfl

/-- A function with negative derivative in a direction decreases along short steps. -/
theorem descends_of_deriv {E : Type*} [NormedAddCommGroup E] [NormedSpace ℝ E] {F : E → ℝ} {D : E →L[ℝ] ℝ} {x v : E}
    (hF : HasFDerivAt F D x) (hv : D v < 0) : ∃ ε : ℝ, 0 < ε ∧ ∀ t, 0 < t → t < ε → F (x + t • v) < F x := by
  have hl : HasDerivAt (fun t : ℝ => F (x + t • v)) (D v) 0 := by
    have hx : HasDerivAt (fun t : ℝ => x + t • v) v 0 := by
      have := ((hasDerivAt_id (0 : ℝ)).smul_const v).const_add x
      simpa using this
    have hF' : HasFDerivAt F D (x + (0 : ℝ) • v) := by rwa [zero_smul, add_zero]
    exact hF'.comp_hasDerivAt (0 : ℝ) hx
  have h8 := (hasDerivAt_iff_tendsto_slope.1 hl).eventually_lt_const hv
  rw [eventually_nhdsWithin_iff, Metric.eventually_nhds_iff] at h8
  obtain ⟨ε, he, h8⟩ := h8
  refine ⟨ε, he, fun t ht hte => ?_⟩
  have h9 := h8 (show dist t 0 < ε by rw [Real.dist_eq, sub_zero, abs_of_pos ht]; exact hte) ht.ne'
  rw [slope_def_field, sub_zero, zero_smul, add_zero, div_lt_iff₀ ht, zero_mul] at h9
  linarith

/-! ## The first pass -/

/-- The moments of the extended Kalman filter. -/
noncomputable def ekfSeq (T : Task n m) : ℕ → Updated n
  | 0 => T.init
  | k + 1 =>
    let s := predS (transitions T.t0 T.loc T.disc k) (ekfSeq T k)
    updS (ekfLinearize (T.M k) (T.dg k) s.mean) s (T.y k)

/-- The first pass succeeds. -/
theorem filtsmooth_first {T : Task n m} (hr : T.Regular) (hj : T.HasJac) :
    ∃ H : ℕ → Transition n m, (∀ k, ∃ ξ, H k = ekfLinearize (T.M k) (T.dg k) ξ) ∧
      filtsmooth T.prior T.problem none = .ok ⟨(List.range (T.K + 1)).map T.loc, (List.range (T.K + 1)).map fun k =>
        rseq T.init (transitions T.t0 T.loc T.disc) H (T.K + 1) T.y (T.K - k), false⟩ := by
  let ξ : ℕ → Fin n → ℝ := fun k => (predS (transitions T.t0 T.loc T.disc k) (ekfSeq T k)).mean
  let H : ℕ → Transition n m := fun k => ekfLinearize (T.M k) (T.dg k) (ξ k)
  have e : ∀ k, (sseq T.init (transitions T.t0 T.loc T.disc) H k fun i => T.y i) = ekfSeq T k := by
    intro k
    induction k with
    | zero => rfl
    | succ k ih =>
      show updS (H k) (predS _ (sseq _ _ _ k fun i => T.y i)) (T.y k) = _
      rw [ih]
      rfl
  refine ⟨H, fun k => ⟨ξ k, rfl⟩, filtsmooth_reduce hr hj none ξ H (fun k _ => rfl) (fun k _ _ => ⟨none, rfl⟩) fun k _ =>
    ⟨none, rfl, ?_⟩⟩
  rw [e]
  rfl

theorem means_of_rseq (T : Task n m) (H : ℕ → Transition n m) :
    T.Means ⟨(List.range (T.K + 1)).map T.loc, (List.range (T.K + 1)).map fun k =>
      rseq T.init (transitions T.t0 T.loc T.disc) H (T.K + 1) T.y (T.K - k), false⟩
      fun k => smoothMean T.init (transitions T.t0 T.loc T.disc) H T.y T.K k := by
  refine ⟨rfl, List.ext_getElem (by simp) fun i h1 h2 => ?_⟩
  rw [List.getElem_ofFn, List.getElem_map, List.getElem_map, List.getElem_range, smoothMean]

/-! ## Evaluation left of the grid -/

theorem evalSmoothing_left {S D : Type} (dyn : Dynamics ℝ S D) {p : Post ℝ S} (hg : Grid p) {t : ℝ}
    (h : t < p.locations.head hg.nonempty) : evalSmoothing dyn p t = .error .notImplementedError := by
  have hlen := List.length_pos_iff.2 hg.nonempty
  have hs : 0 < p.states.length := by rw [hg.sameLength]; exact hlen
  have p2 := pyIndex_nat p.locations 0 hlen
  have p4 := pyIndex_nat p.states 0 hs
  have h' : t < p.locations[0] := by rwa [List.head_eq_getElem] at h
  simp only [Nat.cast_zero] at p2 p4
  have hi : interpolateSmoothing dyn none p t none (some 0) = .error .notImplementedError := by
    simp [interpolateSmoothing, optIndex, p2, p4, Except.map, bind, Except.bind, pure, Except.pure, ne_of_lt h',
        throw, throwThe, MonadExceptOf.throw, diffusionAt]
  rcases p with ⟨locs, sts, fr⟩
  obtain ⟨hasc, hne, hl⟩ := hg
  cases locs with
  | nil => exact absurd rfl hne
  | cons x l =>
    simp only [List.head_cons] at h hasc
    simp [evalSmoothing, callScalar, call, sortedCheck, amin_sorted x l hasc, amax_sorted x l hasc, bind, Except.bind, pure,
      Except.pure, not_le.2 h, h, hi]

end Probnum.Iterated
