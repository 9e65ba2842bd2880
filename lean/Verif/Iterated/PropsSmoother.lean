import Mathlib.Analysis.Calculus.LocalExtr.Basic
import Verif.Iterated.SmootherReduce

/-!
# The iterated smoother makes Gauss–Newton steps for the joint maximum-a-posteriori estimate (C108)

The specification (`Task`, `Task.objective`, `Task.objectiveAt`, `Task.Means`) is in `Verif/Iterated/SmootherReduce.lean`.
-/

namespace Probnum.Iterated

open Matrix LinGauss Approx Kalman Posterior

variable {n m : ℕ}

/-! ## One pass -/

/-- **C108 (the step).**  If the first location is not after the initial time, a smoothing pass with a previous posterior
succeeds, and the means it returns are the only minimiser of the joint objective whose measurement functions are expanded
at the means of the previous posterior. -/
theorem smoother_minimises {T : Task n m} (hr : T.Regular) (hj : T.HasJac) (h0 : T.loc 0 ≤ T.t0)
    {p : Post ℝ (Updated n)} {x : Fin (T.K + 1) → Fin n → ℝ} (hp : T.Means p x) (dyn : Dynamics ℝ (Updated n) ℝ) :
    ∃ q μ, filtsmooth T.prior T.problem (some (evalSmoothing dyn p)) = .ok q ∧ T.Means q μ ∧
      ∀ z, z ≠ μ → T.objectiveAt x μ < T.objectiveAt x z := by
  let H : ℕ → Transition n m := fun k => ekfLinearize (T.M k) (T.dg k) (if h : k < T.K + 1 then x ⟨k, h⟩ else 0)
  have hH : ∀ k : Fin (T.K + 1), H k = ekfLinearize (T.M k) (T.dg k) (x k) := fun k => by
    show ekfLinearize _ _ (dite _ _ _) = _
    rw [dif_pos k.2]
  refine ⟨_, _, filtsmooth_prev hr hj h0 hp dyn hH, means_of_rseq T H, fun z hz => ?_⟩
  obtain ⟨e, h1, h2, h3⟩ := objectiveAt_square hr hH _ (fun k => rfl) (z - _)
  have := h1 1
  rw [one_smul, add_sub_cancel] at this
  rw [this]
  have : 0 < e := lt_of_le_of_ne h2 fun h => hz (sub_eq_zero.1 (h3 h.symm))
  linarith

/-- **C108 (the direction).**  The derivative of the joint objective at the previous means `x`, in the direction of the
step to the new means `μ`, is minus twice the decrease of the linearised objective. -/
theorem smoother_gauss_newton {T : Task n m} (hr : T.Regular) (hd : T.Differentiable) (h0 : T.loc 0 ≤ T.t0)
    {p : Post ℝ (Updated n)} {x : Fin (T.K + 1) → Fin n → ℝ} (hp : T.Means p x) (dyn : Dynamics ℝ (Updated n) ℝ) :
    ∃ q μ, ∃ D : (Fin (T.K + 1) → Fin n → ℝ) →L[ℝ] ℝ,
      filtsmooth T.prior T.problem (some (evalSmoothing dyn p)) = .ok q ∧ T.Means q μ ∧
      (∀ z, z ≠ μ → T.objectiveAt x μ < T.objectiveAt x z) ∧ HasFDerivAt T.objective D x ∧
      D (μ - x) = -2 * (T.objective x - T.objectiveAt x μ) := by
  have hj : T.HasJac := fun k hk => (hd k hk).1
  let H : ℕ → Transition n m := fun k => ekfLinearize (T.M k) (T.dg k) (if h : k < T.K + 1 then x ⟨k, h⟩ else 0)
  have hH : ∀ k : Fin (T.K + 1), H k = ekfLinearize (T.M k) (T.dg k) (x k) := fun k => by
    show ekfLinearize _ _ (dite _ _ _) = _
    rw [dif_pos k.2]
  obtain ⟨q, μ, h1, h2, h3⟩ := smoother_minimises hr hj h0 hp dyn
  obtain ⟨D, d1, d2⟩ := objective_deriv hr hd x
  refine ⟨q, μ, D, h1, h2, h3, d1, ?_⟩
  have hq := filtsmooth_prev hr hj h0 hp dyn hH
  rw [h1] at hq
  have hμ : μ = fun k : Fin (T.K + 1) => smoothMean T.init (transitions T.t0 T.loc T.disc) H T.y T.K k := by
    have := means_of_rseq T H
    rw [← Except.ok.inj hq] at this
    exact List.ofFn_injective (h2.means.symm.trans this.means)
  obtain ⟨e, e1, -, -⟩ := objectiveAt_square hr hH μ (fun k => by rw [hμ]) (x - μ)
  have h5 := deriv_of_square d2 e1
  have h6 := e1 1
  rw [one_smul, add_sub_cancel, objectiveAt_self] at h6
  rw [← neg_sub x μ, map_neg, h5]
  linarith

/-- **C108 (fixed points).**  A pass returns the means of the previous posterior exactly if they are a stationary point of
the joint objective. -/
theorem smoother_fixed_iff {T : Task n m} (hr : T.Regular) (hd : T.Differentiable) (h0 : T.loc 0 ≤ T.t0)
    {p : Post ℝ (Updated n)} {x : Fin (T.K + 1) → Fin n → ℝ} (hp : T.Means p x) (dyn : Dynamics ℝ (Updated n) ℝ) :
    ∃ q μ, filtsmooth T.prior T.problem (some (evalSmoothing dyn p)) = .ok q ∧ T.Means q μ ∧
      (μ = x ↔ HasFDerivAt T.objective (0 : (Fin (T.K + 1) → Fin n → ℝ) →L[ℝ] ℝ) x) := by
  obtain ⟨q, μ, D, h1, h2, h3, h4, h5⟩ := smoother_gauss_newton hr hd h0 hp dyn
  refine ⟨q, μ, h1, h2, fun h => ?_, fun h => ?_⟩
  · subst h
    obtain ⟨D', d1, d2⟩ := objective_deriv hr hd μ
    have hmin : IsLocalMin (T.objectiveAt μ) μ := Filter.Eventually.of_forall fun z => by
      by_cases hz : z = μ
      · rw [hz]
      · exact (h3 z hz).le
    rwa [hmin.hasFDerivAt_eq_zero d2] at d1
  · rw [h4.unique h, ContinuousLinearMap.zero_apply] at h5
    by_contra hne
    have := h3 x (Ne.symm hne)
    rw [objectiveAt_self] at this
    linarith

/-- **C108 (descent).**  If the means change, the joint objective decreases along short enough steps towards the new
means. -/
theorem smoother_descends {T : Task n m} (hr : T.Regular) (hd : T.Differentiable) (h0 : T.loc 0 ≤ T.t0)
    {p : Post ℝ (Updated n)} {x : Fin (T.K + 1) → Fin n → ℝ} (hp : T.Means p x) (dyn : Dynamics ℝ (Updated n) ℝ) :
    ∃ q μ, filtsmooth T.prior T.problem (some (evalSmoothing dyn p)) = .ok q ∧ T.Means q μ ∧
      (μ ≠ x → ∃ ε : ℝ, 0 < ε ∧ ∀ t, 0 < t → t < ε → T.objective (x + t • (μ - x)) < T.objective x) := by
  obtain ⟨q, μ, D, h1, h2, h3, h4, h5⟩ := smoother_gauss_newton hr hd h0 hp dyn
  refine ⟨q, μ, h1, h2, fun hne => descends_of_deriv h4 ?_⟩
  have := h3 x (Ne.symm hne)
  rw [objectiveAt_self] at this
  linarith

/-! ## The iteration -/

/-- The stacked means of a posterior, as compared by the stopping criterion. -/
noncomputable abbrev stacked (p : Post ℝ (Updated n)) : List ℝ := (p.states.map fun s => List.ofFn s.mean).flatten

theorem Task.Means.stacked_eq {T : Task n m} {p : Post ℝ (Updated n)} {x : Fin (T.K + 1) → Fin n → ℝ} (h : T.Means p x) :
    stacked p = ((List.ofFn x).map List.ofFn).flatten := by
  rw [← h.means, List.map_map]
  rfl

theorem Task.Means.stacked_length {T : Task n m} {p : Post ℝ (Updated n)} {x : Fin (T.K + 1) → Fin n → ℝ}
    (h : T.Means p x) : (stacked p).length = (T.K + 1) * n := by
  rw [stacked, List.length_flatten, List.map_map]
  have : (List.length ∘ fun s : Updated n => List.ofFn s.mean) = fun _ => n := by
    funext s; exact List.length_ofFn
  rw [this, List.map_const', List.sum_replicate, h.length, smul_eq_mul]

theorem Task.Means.stacked_ne {T : Task n m} {p : Post ℝ (Updated n)} {x : Fin (T.K + 1) → Fin n → ℝ}
    (h : T.Means p x) (hn : 0 < n) : stacked p ≠ [] := fun h' => by
  have := h.stacked_length
  rw [h', List.length_nil] at this
  have := Nat.mul_pos (Nat.succ_pos T.K) hn
  simp only [Nat.succ_eq_add_one] at this
  omega

/-- The model of `iterated_filtsmooth` for a task. -/
noncomputable abbrev Task.iterated (T : Task n m) (dyn : Dynamics ℝ (Updated n) ℝ) (initPost : Option (Post ℝ (Updated n)))
    (fuel : ℕ) (c : Crit) : Option (Res (Post ℝ (Updated n)) × Crit × ℕ) :=
  iteratedFiltsmooth (fun s => List.ofFn s.mean) T.prior dyn T.problem initPost fuel c

/-- **C108 (the result).**  The iterated smoother terminates.  Either it exceeds the limit, or the returned posterior `q`
is the pass with the previous posterior `p`: its means `μ` minimise the objective linearised at the means `x` of `p`, the
derivative of the objective at `x` along `μ - x` is minus twice the decrease of the linearised objective, and the
normalised difference of the means is at most one. -/
theorem iterated_smoother_result {T : Task n m} (hr : T.Regular) (hd : T.Differentiable) (h0 : T.loc 0 ≤ T.t0) (hn : 0 < n)
    (dyn : Dynamics ℝ (Updated n) ℝ) {initPost : Option (Post ℝ (Updated n))}
    (hi : ∀ p, initPost = some p → ∃ x, T.Means p x) {c : Crit} (hc : c.iterations = 0) {fuel : ℕ}
    (hf : c.maxit + 2 ≤ fuel) :
    ∃ r c' k, T.iterated dyn initPost fuel c = some (r, c', k) ∧
      (r = .error .runtimeError ∧ k = c.maxit + 1 ∨
        ∃ p q x μ, ∃ D : (Fin (T.K + 1) → Fin n → ℝ) →L[ℝ] ℝ, r = .ok q ∧ 1 ≤ k ∧ k ≤ c.maxit ∧ c' = c ∧
          T.Means p x ∧ T.Means q μ ∧ filtsmooth T.prior T.problem (some (evalSmoothing dyn p)) = .ok q ∧
          (∀ z, z ≠ μ → T.objectiveAt x μ < T.objectiveAt x z) ∧ HasFDerivAt T.objective D x ∧
          D (μ - x) = -2 * (T.objective x - T.objectiveAt x μ) ∧
          ((∀ r ∈ stacked q, c.atol + c.rtol * r ≠ 0) →
            normalisedDifference c.atol c.rtol (List.zipWith (· - ·) (stacked q) (stacked p)) (stacked q) ≤ 1)) := by
  have hj : T.HasJac := fun k hk => (hd k hk).1
  obtain ⟨p0, x0, hp0, hfirst0⟩ : ∃ p0 x0, T.Means p0 x0 ∧ (match initPost with
      | none => filtsmooth T.prior T.problem none
      | some p => .ok p) = .ok p0 := by
    cases initPost with
    | none =>
      obtain ⟨H, -, h⟩ := filtsmooth_first hr hj
      exact ⟨_, _, means_of_rseq T H, h⟩
    | some p =>
      obtain ⟨x, hx⟩ := hi p rfl
      exact ⟨p, x, hx, rfl⟩
  have hsteps : ∀ {k p}, Steps (fun p => filtsmooth T.prior T.problem (some (evalSmoothing dyn p))) p0 k p →
      ∃ x, T.Means p x := by
    intro k p h
    induction h with
    | zero => exact ⟨x0, hp0⟩
    | succ h1 h2 ih =>
      obtain ⟨x, hx⟩ := ih
      obtain ⟨q', μ, g1, g2, -⟩ := smoother_minimises hr hj h0 hx dyn
      rw [g1] at h2
      cases h2
      exact ⟨μ, g2⟩
  obtain ⟨r, c', k, h1, h2⟩ := iteration_terminates_partial
    (fun p => filtsmooth T.prior T.problem (some (evalSmoothing dyn p))) stacked hc p0 hf
  refine ⟨r, c', k, ?_, ?_⟩
  · rw [← h1, ← hfirst0]
    cases initPost <;> rfl
  generalize hx : (r, c') = z at h2
  cases h2 with
  | @done q p hp hq hstop hfirst hlim =>
    right
    cases hx
    rcases hq with ⟨rfl, rfl⟩ | ⟨j, x, rfl, rfl, hxs⟩
    · cases hp
      exact absurd (first_moves (hp0.stacked_ne hn)) hstop
    · obtain ⟨ξ, hξ⟩ := hsteps hxs
      have hu : filtsmooth T.prior T.problem (some (evalSmoothing dyn x)) = .ok p := by
        cases hp with
        | succ g1 g2 => rw [← hxs.unique g1] at g2; exact g2
      obtain ⟨q', μ, D, g1, g2, g3, g4, g5⟩ := smoother_gauss_newton hr hd h0 hξ dyn
      rw [hu] at g1
      cases g1
      refine ⟨x, p, ξ, μ, D, rfl, by omega, by omega, by rw [Crit.withCount, ← hc], hξ, g2, hu, g3, g4, g5, fun hnz => ?_⟩
      have e : diff (stacked p) (stacked x) = (List.zipWith (· - ·) (stacked p) (stacked x)).map some := by
        rw [diff, List.map_zipWith]
      rw [Moves, e] at hstop
      have hcv := criterion_value (c := c) (by omega) (error := List.zipWith (· - ·) (stacked p) (stacked x))
        (reference := stacked p)
        (by rw [List.length_zipWith, hξ.stacked_length, g2.stacked_length, min_self]) (g2.stacked_ne hn) hnz
      by_contra hgt
      rw [if_neg hgt, Crit.call, if_neg (by omega), if_neg hstop] at hcv
      cases hcv
  | limit hlim hfirst => cases hx; exact .inl ⟨rfl, by omega⟩
  | failed hp hs hlim =>
    exfalso
    obtain ⟨ξ, hξ⟩ := hsteps hp
    obtain ⟨q', μ, g1, -, -⟩ := smoother_minimises hr hj h0 hξ dyn
    rw [g1] at hs
    cases hs

/-- All measurement functions are affine. -/
def Task.IsAffine (T : Task n m) : Prop := ∀ k, k ≤ T.K → ∃ A b, Affine (T.M k) A b ∧ T.dg k = fun _ => A

theorem affine_objectiveAt {T : Task n m} (ha : T.IsAffine) (x0 x : Fin (T.K + 1) → Fin n → ℝ) :
    T.objectiveAt x0 x = T.objective x := by
  unfold Task.objectiveAt Task.objective Task.negLog
  congr 2
  refine Finset.sum_congr rfl fun k _ => ?_
  dsimp only
  rw [dif_pos k.2]
  obtain ⟨A, b, h1, h2⟩ := ha k (by omega)
  have : (expand (T.M k) (T.dg k) (x0 ⟨k, k.2⟩)).g (x k) = (T.M k).g (x k) := by
    show (T.M k).g (x0 k) + T.dg k (x0 k) *ᵥ (x k - x0 k) = _
    rw [h1.fn, h1.fn, h2, Matrix.mulVec_sub]
    abel
  rw [this]
  rfl

theorem affine_linearize {M : Nonlinear n m} {A : Matrix (Fin m) (Fin n) ℝ} {b : Fin m → ℝ} (h : Affine M A b)
    (x z : Fin n → ℝ) : ekfLinearize M (fun _ => A) x = ekfLinearize M (fun _ => A) z := by
  unfold ekfLinearize
  rw [h.fn, h.fn, add_sub_cancel_left, add_sub_cancel_left]

theorem Task.IsAffine.hasJac {T : Task n m} (ha : T.IsAffine) : T.HasJac := fun k hk => by
  obtain ⟨A, b, h1, h2⟩ := ha k hk
  rw [h1.jac, h2]

/-- **C108 (affine models).**  If all measurement functions are affine, the iterated smoother without initial posterior
returns the posterior of the plain smoother after one repetition, and its means are the only maximum-a-posteriori estimate
of the states. -/
theorem iterated_smoother_affine {T : Task n m} (hr : T.Regular) (ha : T.IsAffine) (h0 : T.loc 0 ≤ T.t0) (hn : 0 < n)
    (dyn : Dynamics ℝ (Updated n) ℝ) {c : Crit} (hc : c.iterations = 0) (hm : 1 ≤ c.maxit) {fuel : ℕ} (hf : 2 ≤ fuel) :
    ∃ p μ, filtsmooth T.prior T.problem none = .ok p ∧ T.iterated dyn none fuel c = some (.ok p, c, 1) ∧ T.Means p μ ∧
      ∀ z, z ≠ μ → T.objective μ < T.objective z := by
  obtain ⟨H, hH, h1⟩ := filtsmooth_first hr ha.hasJac
  have hm' := means_of_rseq T H
  have hH' : ∀ k : Fin (T.K + 1), H k = ekfLinearize (T.M k) (T.dg k)
      (smoothMean T.init (transitions T.t0 T.loc T.disc) H T.y T.K k) := by
    intro k
    obtain ⟨ξ, h⟩ := hH k
    obtain ⟨A, b, g1, g2⟩ := ha k (by omega)
    rw [h, g2]
    exact affine_linearize g1 _ _
  have h2 := filtsmooth_prev hr ha.hasJac h0 hm' dyn hH'
  refine ⟨_, _, h1, ?_, hm', fun z hz => ?_⟩
  · rw [Task.iterated, iteratedFiltsmooth]
    simp only [h1]
    have hcc : c.withCount 0 = c := by rw [Crit.withCount, ← hc]
    have := run_fixed (step := fun p => filtsmooth T.prior T.problem (some (evalSmoothing dyn p))) (mean := stacked)
      (c := c) (hm'.stacked_ne hn) hc hm h2 rfl hf
    rw [hcc] at this
    exact this
  · obtain ⟨q, μ, g1, g2, g3⟩ := smoother_minimises hr ha.hasJac h0 hm' dyn
    rw [h2] at g1
    cases g1
    have : (fun k : Fin (T.K + 1) => smoothMean T.init (transitions T.t0 T.loc T.disc) H T.y T.K k) = μ :=
      List.ofFn_injective (hm'.means.symm.trans g2.means)
    rw [this] at hz ⊢
    have := g3 z hz
    rwa [affine_objectiveAt ha, affine_objectiveAt ha] at this

/-- **C108 (the plain smoother).**  For affine measurement functions the plain smoother, too, returns the only
maximum-a-posteriori estimate, wherever the first location is. -/
theorem smoother_is_map {T : Task n m} (hr : T.Regular) (ha : T.IsAffine) :
    ∃ p μ, filtsmooth T.prior T.problem none = .ok p ∧ T.Means p μ ∧ ∀ z, z ≠ μ → T.objective μ < T.objective z := by
  obtain ⟨H, hH, h1⟩ := filtsmooth_first hr ha.hasJac
  have hH' : ∀ k : Fin (T.K + 1), H k = ekfLinearize (T.M k) (T.dg k) 0 := by
    intro k
    obtain ⟨ξ, h⟩ := hH k
    obtain ⟨A, b, g1, g2⟩ := ha k (by omega)
    rw [h, g2]
    exact affine_linearize g1 _ _
  refine ⟨_, _, h1, means_of_rseq T H, fun z hz => ?_⟩
  obtain ⟨e, h1, h2, h3⟩ := objectiveAt_square (x0 := fun _ => 0) hr hH' _ (fun k => rfl) (z - _)
  have := h1 1
  rw [one_smul, add_sub_cancel, affine_objectiveAt ha, affine_objectiveAt ha] at this
  rw [this]
  have : 0 < e := lt_of_le_of_ne h2 fun h => hz (sub_eq_zero.1 (h3 h.symm))
  linarith

/-! ## Locations after the initial time -/

/-- A pass with a previous posterior raises when the first location is after the initial time: the previous posterior
cannot be evaluated at the initial time.  This holds for all priors and measurement models. -/
theorem pass_late_start {S D Y : Type} (prior : Prior ℝ S D) (dyn : Dynamics ℝ S D) {t : ℝ} {locs : List ℝ} {y : Y}
    {ys : List Y} {mm : MeasModel Y S} {mms : List (MeasModel Y S)} (ht : prior.initarg < t) {p : Post ℝ S} (hg : Grid p)
    (hl : p.locations = t :: locs) :
    filtsmooth prior ⟨t :: locs, y :: ys, mm :: mms⟩ (some (evalSmoothing dyn p)) = .error .notImplementedError := by
  have hinc : increasing (t :: locs) = true := (increasing_iff _).2 (hl ▸ hg.ascending)
  have he : evalSmoothing dyn p prior.initarg = .error .notImplementedError := by
    refine evalSmoothing_left dyn hg ?_
    simp only [hl, List.head_cons]
    exact ht
  have hp : predict prior (some (evalSmoothing dyn p)) prior.initarg t prior.initrv = .error .notImplementedError := by
    rw [predict, if_pos (by linarith)]
    simp only [he]
    rfl
  rw [filtsmooth, Kalman.filter, generator, if_neg (by simp [hinc])]
  simp only [Problem.triples, List.zip_cons_cons, Kalman.loop, hp, appendAll]
  rfl

/-- **C108 violated.**  If the first location is after the initial time, the iterated smoother raises NotImplementedError
right after its first pass, for every task, linear ones included, and however loose the tolerances. -/
theorem iterated_smoother_late_start {T : Task n m} (hr : T.Regular) (hj : T.HasJac) (h0 : T.t0 < T.loc 0) (hn : 0 < n)
    (dyn : Dynamics ℝ (Updated n) ℝ) {c : Crit} (hc : c.iterations = 0) {fuel : ℕ} (hf : 1 ≤ fuel) :
    ∃ p c', filtsmooth T.prior T.problem none = .ok p ∧
      T.iterated dyn none fuel c = some (.error .notImplementedError, c', 0) := by
  obtain ⟨H, -, h1⟩ := filtsmooth_first hr hj
  have hm := means_of_rseq T H
  obtain ⟨f, rfl⟩ : ∃ f, fuel = f + 1 := ⟨fuel - 1, by omega⟩
  have hcall := call_moves (old := none) (by omega : c.iterations ≤ c.maxit)
    (first_moves (mean := stacked) (c := c) (hm.stacked_ne hn))
  rw [errorOf] at hcall
  refine ⟨_, c.withCount (c.iterations + 1), h1, ?_⟩
  have hg := hm.grid hr
  generalize hp : (⟨(List.range (T.K + 1)).map T.loc, (List.range (T.K + 1)).map fun k =>
        rseq T.init (transitions T.t0 T.loc T.disc) H (T.K + 1) T.y (T.K - k), false⟩ : Post ℝ (Updated n)) = p at *
  have e : ∀ {α : Type} (f : ℕ → α), (List.range (T.K + 1)).map f = f 0 :: (List.range T.K).map fun k => f (k + 1) := by
    intro α f
    rw [List.range_succ_eq_map, List.map_cons, List.map_map]
    rfl
  have hl : p.locations = T.loc 0 :: (List.range T.K).map fun k => T.loc (k + 1) := by
    rw [hm.locations, e]
  have hs : filtsmooth T.prior T.problem (some (evalSmoothing dyn p)) = .error .notImplementedError := by
    have := pass_late_start T.prior dyn (y := T.y 0) (ys := (List.range T.K).map fun k => T.y (k + 1)) (mm := ekfMeas (T.M 0))
      (mms := (List.range T.K).map fun k => ekfMeas (T.M (k + 1))) h0 hg hl
    rw [← this, Task.problem, ekfProblem, e, e, e]
  rw [Task.iterated, iteratedFiltsmooth]
  simp only [h1]
  rw [run]
  rw [Iterated.loop, hcall]
  dsimp only
  rw [hs]

/-! ## Examples -/

/-- Observations 1 and 0 of a Wiener process at the times 0 and 1, with initial time `t0`. -/
noncomputable def demoTask (M : Nonlinear 1 1) (dg : (Fin 1 → ℝ) → Matrix (Fin 1) (Fin 1) ℝ) (t0 : ℝ) : Task 1 1 where
  t0 := t0
  init := ⟨0, 1⟩
  disc := fun dt => ⟨1, ⟨0, dt • 1, 1⟩⟩
  K := 1
  loc := fun k => k
  M := fun _ => M
  dg := fun _ => dg
  y := fun k _ => 1 - k

theorem demoTask_regular {M : Nonlinear 1 1} (hM : M.noise.cov = 1) (dg : (Fin 1 → ℝ) → Matrix (Fin 1) (Fin 1) ℝ) (t0 : ℝ) :
    (demoTask M dg t0).Regular := by
  have hd : ∀ dt : ℝ, 0 < dt → (dt • (1 : Matrix (Fin 1) (Fin 1) ℝ)).PosDef := fun dt h => Matrix.PosDef.one.smul h
  refine ⟨Matrix.PosSemidef.one, ?_, hd, fun k _ => ?_, ?_⟩
  · rw [Task.first]
    by_cases h : (demoTask M dg t0).t0 < (demoTask M dg t0).loc 0
    · rw [if_pos h]
      show ((1 : Matrix (Fin 1) (Fin 1) ℝ) * 1 * (1 : Matrix (Fin 1) (Fin 1) ℝ)ᵀ + _ • 1).PosDef
      rw [Matrix.transpose_one, Matrix.mul_one, Matrix.mul_one]
      exact Matrix.PosDef.one.add (hd _ (by linarith))
    · rw [if_neg h]
      exact Matrix.PosDef.one
  · show M.noise.cov.PosDef
    rw [hM]
    exact Matrix.PosDef.one
  · rw [List.pairwise_map]
    refine List.pairwise_lt_range.imp fun h => ?_
    exact Nat.cast_lt.2 h

/-- A nonlinear task with the first location at the initial time, and one with an earlier initial time. -/
example : (demoTask cyc (fun x => Matrix.of fun _ _ => 1 - 3 * x 0 ^ 2) 0).Regular ∧
    (demoTask cyc (fun x => Matrix.of fun _ _ => 1 - 3 * x 0 ^ 2) 0).Differentiable ∧
    (demoTask cyc (fun x => Matrix.of fun _ _ => 1 - 3 * x 0 ^ 2) 0).loc 0 ≤ 0 ∧
    (demoTask cyc (fun x => Matrix.of fun _ _ => 1 - 3 * x 0 ^ 2) (-1)).Regular ∧
    -1 < (demoTask cyc (fun x => Matrix.of fun _ _ => 1 - 3 * x 0 ^ 2) (-1)).loc 0 ∧
    (demoTask cyc (fun x => Matrix.of fun _ _ => 1 - 3 * x 0 ^ 2) 0).Means ⟨[0, 1], [⟨![2], 1⟩, ⟨![3], 1⟩], false⟩
      ![![2], ![3]] := by
  refine ⟨demoTask_regular rfl _ _, fun k _ => cyc_jacobian, ?_, demoTask_regular rfl _ _, ?_, ?_, ?_⟩
  · show ((0 : ℕ) : ℝ) ≤ 0
    simp
  · show (-1 : ℝ) < ((0 : ℕ) : ℝ)
    norm_num
  · show _ = [((0 : ℕ) : ℝ), ((1 : ℕ) : ℝ)]
    simp
  · rfl

/-- An affine task. -/
example : ∃ M : Nonlinear 1 1, (demoTask M (fun _ => 1) 0).Regular ∧ (demoTask M (fun _ => 1) 0).IsAffine :=
  ⟨⟨fun x => (1 : Matrix (Fin 1) (Fin 1) ℝ) *ᵥ x + ![3], some fun _ => 1, ⟨0, 1, 1⟩⟩, demoTask_regular rfl _ _,
    fun _ _ => ⟨1, ![3], ⟨fun _ => rfl, rfl⟩, rfl⟩⟩

end Probnum.Iterated
