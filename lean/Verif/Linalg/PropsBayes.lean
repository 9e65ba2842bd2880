import Verif.Linalg.Bayes
import Verif.Linalg.PropsUpdates
import Verif.Gauss.Conditional
import Mathlib.LinearAlgebra.Matrix.Trace

/-!
# C106: solution-based solvers do exact Bayesian inference

The specification is `Gauss.IsConditional`: the conditional distribution of the unknown solution given the projections of the
right-hand side is normal with the stated mean and covariance.
-/

namespace Probnum.Linalg.Bayes

open Matrix MeasureTheory ProbabilityTheory Gauss Loop

variable {n : Type} [Fintype n]

theorem projectAll_snoc (A : Matrix n n ℝ) (rhs : n → ℝ) (lam : ℝ) (b : SolBelief n) (ss : List (n → ℝ)) (s : n → ℝ) :
    projectAll A rhs lam b (ss ++ [s]) = projectedUpdate A lam (projectAll A rhs lam b ss) s
      (projectedInfo A rhs (projectAll A rhs lam b ss).mean s) := by
  induction ss generalizing b with
  | nil => rfl
  | cons t ss ih => exact ih _

theorem projectAll_psd (A : Matrix n n ℝ) (rhs : n → ℝ) {lam : ℝ} (hl : 0 ≤ lam) (b : SolBelief n) (hP : IsPsd b.cov)
    (ss : List (n → ℝ)) : IsPsd (projectAll A rhs lam b ss).cov := by
  induction ss generalizing b with
  | nil => exact hP
  | cons t ss ih => exact ih _ (hP.down _ lam hl)

/-- The gain of the update as a matrix with one column. -/
noncomputable def gainM (C : Matrix n n ℝ) (w : n → ℝ) (lam : ℝ) : Matrix n Unit ℝ :=
  replicateCol Unit (gramPinv (w ⬝ᵥ C *ᵥ w + lam) • C *ᵥ w)

theorem gain_eq {C : Matrix n n ℝ} (hC : IsPsd C) (w : n → ℝ) {lam : ℝ} (hl : 0 ≤ lam) :
    gainM C w lam * (replicateRow Unit w * C * (replicateRow Unit w)ᵀ + of fun _ _ => lam) = C * (replicateRow Unit w)ᵀ := by
  have e1 : C * (replicateRow Unit w)ᵀ = replicateCol Unit (C *ᵥ w) := by
    rw [transpose_replicateRow, replicateCol_mulVec]
  have e2 : replicateRow Unit w * C * (replicateRow Unit w)ᵀ + (of fun _ _ => lam)
      = of fun _ _ => w ⬝ᵥ C *ᵥ w + lam := by
    rw [Matrix.mul_assoc, e1]
    ext i j
    simp [mul_apply, dotProduct]
  rw [e1, e2]
  ext i j
  simp only [gainM, mul_apply, replicateCol_apply, of_apply, Finset.univ_unique, Finset.sum_singleton, Pi.smul_apply, smul_eq_mul]
  have h0 := hC.2 w
  rcases (add_nonneg h0 hl).lt_or_eq with h | h
  · rw [gramPinv_pos h]
    field_simp
  · have : C *ᵥ w = 0 := hC.mulVec_eq_zero w (by linarith)
    rw [this]; simp

theorem cov_eq [DecidableEq n] {C : Matrix n n ℝ} (hC : IsPsd C) (w : n → ℝ) {lam : ℝ} (hl : 0 ≤ lam) :
    (1 - gainM C w lam * replicateRow Unit w) * C * (1 - gainM C w lam * replicateRow Unit w)ᵀ
      + gainM C w lam * (of fun _ _ => lam) * (gainM C w lam)ᵀ = down C w lam := by
  have hK := gain_eq hC w hl
  set K := gainM C w lam with hKd
  set H := replicateRow Unit w
  set R : Matrix Unit Unit ℝ := of fun _ _ => lam
  have hKt : K * H * C * Hᵀ * Kᵀ + K * R * Kᵀ = C * Hᵀ * Kᵀ := by
    rw [← hK, Matrix.mul_add, Matrix.add_mul]
    simp only [Matrix.mul_assoc]
  have e : (1 - K * H) * C * (1 - K * H)ᵀ + K * R * Kᵀ = C - K * (H * C) := by
    rw [transpose_sub, transpose_one, transpose_mul, sub_mul, one_mul, mul_sub, mul_one, sub_mul]
    have : K * H * C * (Hᵀ * Kᵀ) = K * H * C * Hᵀ * Kᵀ := by simp only [Matrix.mul_assoc]
    rw [this]
    have h2 : C * (Hᵀ * Kᵀ) = C * Hᵀ * Kᵀ := by simp only [Matrix.mul_assoc]
    rw [h2, ← hKt, Matrix.mul_assoc K H C]
    abel
  rw [e]
  have hHC : H * C = replicateRow Unit (C *ᵥ w) := by
    have hw : w ᵥ* C = C *ᵥ w := by
      conv_lhs => rw [← hC.1]
      rw [vecMul_transpose]
    rw [← hw]
    ext i j
    simp [H, mul_apply, vecMul, dotProduct]
  rw [hHC, hKd, down]
  congr 1
  ext i j
  simp [gainM, mul_apply, vecMulVec]

variable {Ω : Type*} {mΩ : MeasurableSpace Ω} {P : Measure Ω}

/-- **C106 (a), exact inference.**  Let the solution have the prior distribution `N(m, C)` and let the projections of the
right-hand side on the actions be `sᵢᵀ b = sᵢᵀ A x + εᵢ` with independent noise of the variance the update was created with
(`0` included).  Then the belief after `k` updates is the conditional distribution of the solution given the `k` projections:
its mean is the conditional mean, its covariance is the conditional covariance.  Any prior covariance (also a singular one), any
square system (also a singular one), any actions. -/
theorem posterior_law (A : Matrix n n ℝ) (b : SolBelief n) (lam : ℝ) (hl : newProjectedResidual lam = .ok lam)
    {X : Ω → n → ℝ} (hX : IsNormal P X b.mean b.cov) (k : ℕ) (s : ℕ → n → ℝ) (ε : ℕ → Ω → ℝ)
    (hε : ∀ i < k, IsNormal P (fun ω (_ : Unit) => ε i ω) 0 (of fun _ _ => lam))
    (hind : ∀ i < k, IndepFun (fun ω (_ : Unit) => ε i ω) (fun ω => (X ω, fun j : Fin i => ε j ω)) P)
    (rhs : Ω → n → ℝ) (hr : ∀ ω, ∀ i < k, s i ⬝ᵥ rhs ω = s i ⬝ᵥ A *ᵥ X ω + ε i ω) :
    ∃ f C, IsConditional P X (fun ω (i : Fin k) => s i ⬝ᵥ rhs ω) f C ∧
      ∀ ω, projectAll A (rhs ω) lam b ((List.range k).map s) = ⟨f fun i => s i ⬝ᵥ rhs ω, C⟩ := by
  classical
  have hl0 : 0 ≤ lam := by
    by_contra h
    rw [newProjectedResidual, if_pos (not_le.1 h)] at hl
    cases hl
  have hP := hX.posSemidef
  have hPsd : IsPsd b.cov := ⟨by simpa [IsSymm, IsHermitian] using hP.1, fun x => by simpa using hP.dotProduct_mulVec_nonneg x⟩
  have := hX.isProbabilityMeasure
  have key : ∀ j ≤ k, ∃ f C, IsConditional P X (fun ω (i : Fin j) => s i ⬝ᵥ rhs ω) f C ∧ IsPsd C ∧
      ∀ ω, projectAll A (rhs ω) lam b ((List.range j).map s) = ⟨f fun i => s i ⬝ᵥ rhs ω, C⟩ := by
    intro j
    induction j with
    | zero =>
      intro _
      refine ⟨fun _ => b.mean, b.cov, ⟨measurable_const, ?_, ?_⟩, hPsd, fun ω => rfl⟩
      · have : (fun ω (i : Fin 0) => s i ⬝ᵥ rhs ω) = fun _ => (0 : Fin 0 → ℝ) := by
          funext ω i; exact i.elim0
        rw [this]
        exact indepFun_const_right _ _
      · have := hX.affine (1 : Matrix n n ℝ) (-b.mean)
        simpa [sub_eq_add_neg] using this
    | succ j ih =>
      intro hj
      obtain ⟨f, C, hc, hC, hrun⟩ := ih (by omega)
      have hYe : ∀ ω, (fun i : Fin j => s i ⬝ᵥ rhs ω) = fun i : Fin j => s i ⬝ᵥ A *ᵥ X ω + ε i ω := fun ω => by
        funext i; exact hr ω i (by omega)
      have hm1 : ∀ u : n → ℝ, Measurable fun x : n → ℝ => u ⬝ᵥ A *ᵥ x := fun u => by
        simp only [dotProduct, mulVec]; fun_prop
      have hY : AEMeasurable (fun ω (i : Fin j) => s i ⬝ᵥ rhs ω) P := by
        rw [funext hYe]
        refine aemeasurable_pi_lambda _ fun i => ?_
        refine ((hm1 (s i)).comp_aemeasurable hX.gaussian.aemeasurable).add ?_
        exact (measurable_pi_apply ()).comp_aemeasurable (hε i (by omega)).gaussian.aemeasurable
      have hi : IndepFun (fun ω (_ : Unit) => ε j ω) (fun ω => (X ω, fun i : Fin j => s i ⬝ᵥ rhs ω)) P := by
        have h0 := (hind j (by omega)).comp (φ := id)
          (ψ := fun p : (n → ℝ) × (Fin j → ℝ) => (p.1, fun i : Fin j => s i ⬝ᵥ A *ᵥ p.1 + p.2 i)) measurable_id (by
            refine measurable_fst.prodMk (measurable_pi_lambda _ fun i => ?_)
            exact ((hm1 (s i)).comp measurable_fst).add ((measurable_pi_apply i).comp measurable_snd))
        have e : (fun ω => (X ω, fun i : Fin j => s i ⬝ᵥ rhs ω)) =
            fun ω => (X ω, fun i : Fin j => s i ⬝ᵥ A *ᵥ X ω + ε i ω) := funext fun ω => by rw [hYe ω]
        rw [e]
        exact h0
      set w := s j ᵥ* A with hw
      have hup := hc.update hY (hε j (by omega)) hi (replicateRow Unit w) (gainM C w lam) (gain_eq hC w hl0)
      rw [cov_eq hC w hl0] at hup
      have hlast : ∀ ω, replicateRow Unit w *ᵥ X ω + (fun _ => ε j ω) = fun _ : Unit => s j ⬝ᵥ rhs ω := fun ω => by
        funext u
        rw [hr ω j (by omega), dotProduct_mulVec]
        rfl
      have hch := hup.change (Z := fun ω (i : Fin (j + 1)) => s i ⬝ᵥ rhs ω)
        (fun p : (Fin j → ℝ) × (Unit → ℝ) => Fin.snoc (α := fun _ => ℝ) p.1 (p.2 ()))
        (fun z : Fin (j + 1) → ℝ => (fun i => z i.castSucc, fun _ => z (Fin.last j)))
        (by
          refine measurable_pi_lambda _ fun i => ?_
          refine Fin.lastCases ?_ (fun i => ?_) i
          · simp only [Fin.snoc_last]; fun_prop
          · simp only [Fin.snoc_castSucc]; fun_prop)
        (by fun_prop)
        (fun ω => by
          funext i
          refine Fin.lastCases ?_ (fun i => ?_) i
          · simp only [Fin.snoc_last, hlast ω]; rfl
          · simp only [Fin.snoc_castSucc]; rfl)
        (fun ω => by rw [hlast ω]; rfl)
      refine ⟨_, _, hch, hC.down w lam hl0, fun ω => ?_⟩
      rw [List.range_succ, List.map_append, List.map_singleton, projectAll_snoc, hrun ω]
      unfold projectedUpdate
      congr 1
      dsimp only
      congr 1
      have hinfo : projectedInfo A (rhs ω) (f fun i : Fin j => s i ⬝ᵥ rhs ω) (s j)
          = s j ⬝ᵥ rhs ω - w ⬝ᵥ f (fun i : Fin j => s i ⬝ᵥ rhs ω) := by
        rw [projectedInfo, residual, dotProduct_sub, dotProduct_mulVec]
      rw [hinfo]
      funext i
      show f (fun i : Fin j => s i ⬝ᵥ rhs ω) i
          + (s j ⬝ᵥ rhs ω - w ⬝ᵥ f (fun i : Fin j => s i ⬝ᵥ rhs ω)) * ((gramPinv (w ⬝ᵥ C *ᵥ w + lam) • C *ᵥ w) i)
        = f (fun i : Fin j => s i ⬝ᵥ rhs ω) i + ∑ _u : Unit, ((gramPinv (w ⬝ᵥ C *ᵥ w + lam) • C *ᵥ w) i)
          * (s j ⬝ᵥ rhs ω - (w ⬝ᵥ f (fun i : Fin j => s i ⬝ᵥ rhs ω) + 0))
      rw [Finset.univ_unique, Finset.sum_singleton, add_zero, mul_comm]
  obtain ⟨f, C, h1, -, h3⟩ := key k le_rfl
  exact ⟨f, C, h1, h3⟩

/-- **C106 (b).**  The trace of the covariance is the expected squared error of the mean (the quantity the posterior contraction
criterion compares with its tolerances). -/
theorem expected_error (A : Matrix n n ℝ) (b : SolBelief n) (lam : ℝ) (hl : newProjectedResidual lam = .ok lam)
    {X : Ω → n → ℝ} (hX : IsNormal P X b.mean b.cov) (k : ℕ) (s : ℕ → n → ℝ) (ε : ℕ → Ω → ℝ)
    (hε : ∀ i < k, IsNormal P (fun ω (_ : Unit) => ε i ω) 0 (of fun _ _ => lam))
    (hind : ∀ i < k, IndepFun (fun ω (_ : Unit) => ε i ω) (fun ω => (X ω, fun j : Fin i => ε j ω)) P)
    (rhs : Ω → n → ℝ) (hr : ∀ ω, ∀ i < k, s i ⬝ᵥ rhs ω = s i ⬝ᵥ A *ᵥ X ω + ε i ω) (ω₀ : Ω) :
    let post := fun ω => projectAll A (rhs ω) lam b ((List.range k).map s)
    ∫ ω, (X ω - (post ω).mean) ⬝ᵥ (X ω - (post ω).mean) ∂P = (post ω₀).cov.trace := by
  intro post
  obtain ⟨f, C, hc, hrun⟩ := posterior_law A b lam hl hX k s ε hε hind rhs hr
  have hE := hc.residual
  have := hE.isProbabilityMeasure
  have e : ∀ ω, (X ω - (post ω).mean) ⬝ᵥ (X ω - (post ω).mean)
      = ∑ i, (X ω - f fun i => s i ⬝ᵥ rhs ω) i ^ 2 := fun ω => by
    simp only [post, hrun ω, dotProduct, sq]
  simp only [e, post, hrun ω₀, trace, diag]
  rw [integral_finset_sum _ fun i _ => (memLp_coord hE.gaussian i).integrable_sq]
  refine Finset.sum_congr rfl fun i _ => ?_
  rw [← hE.cov i i, covariance_self (memLp_coord hE.gaussian i).aemeasurable,
    variance_eq_sub (memLp_coord hE.gaussian i), hE.mean i]
  simp

/-- The space of corrections reachable with the given actions: the span of `Σ₀ Aᵀ s`. -/
def corrections (A S : Matrix n n ℝ) (ss : List (n → ℝ)) : Submodule ℝ (n → ℝ) :=
  Submodule.span ℝ {v | ∃ s ∈ ss, v = S *ᵥ (Aᵀ *ᵥ s)}

theorem mean_mem (A S : Matrix n n ℝ) (rhs m0 : n → ℝ) (lam : ℝ) (U : Submodule ℝ (n → ℝ)) (ss : List (n → ℝ)) :
    ∀ b : SolBelief n, (∀ v, b.cov *ᵥ v - S *ᵥ v ∈ U) → b.mean - m0 ∈ U → (∀ s ∈ ss, S *ᵥ (Aᵀ *ᵥ s) ∈ U) →
      (projectAll A rhs lam b ss).mean - m0 ∈ U := by
  induction ss with
  | nil => intro b _ h _; exact h
  | cons s ss ih =>
    intro b h1 h2 h3
    have hg : b.cov *ᵥ (s ᵥ* A) ∈ U := by
      have := U.add_mem (h1 (s ᵥ* A)) (h3 s (by simp))
      rwa [mulVec_transpose, sub_add_cancel] at this
    refine ih _ (fun v => ?_) ?_ fun t ht => h3 t (by simp [ht])
    · rw [projectedUpdate]
      dsimp only
      rw [sub_mulVec, vecMulVec_mulVec, smul_smul, sub_right_comm]
      exact U.sub_mem (h1 v) (U.smul_mem _ hg)
    · rw [projectedUpdate]
      dsimp only
      rw [add_sub_right_comm]
      exact U.add_mem h2 (U.smul_mem _ (U.smul_mem _ hg))

/-- Squared distance in the norm of the prior: `vᵀ Σ₀⁻¹ v`. -/
noncomputable def priorSq [DecidableEq n] (S : Matrix n n ℝ) (v : n → ℝ) : ℝ := v ⬝ᵥ S⁻¹ *ᵥ v

theorem isUnit_of_pd [DecidableEq n] {S : Matrix n n ℝ} (hS : IsPd S) : IsUnit S.det := by
  rw [← isUnit_iff_isUnit_det, ← mulVec_injective_iff_isUnit]
  intro x y h
  refine sub_eq_zero.1 (hS.inj _ ?_)
  rw [mulVec_sub, h, sub_self]

/-- **C106 (c), best approximation.**  Without noise, for a nonsingular system and a positive definite prior covariance: the mean
differs from the prior mean by a reachable correction, and among all such points it is the one closest to the exact
solution in the norm of the prior - by Pythagoras, so it is the only one. -/
theorem best_approximation [DecidableEq n] (A : Matrix n n ℝ) (hA : IsUnit A.det) (rhs : n → ℝ) (b : SolBelief n)
    (hS : IsPd b.cov) (ss : List (n → ℝ)) (x : n → ℝ) (hx : A *ᵥ x = rhs) :
    let m := (projectAll A rhs 0 b ss).mean
    m - b.mean ∈ corrections A b.cov ss ∧ ∀ z, z - b.mean ∈ corrections A b.cov ss →
      priorSq b.cov (x - z) = priorSq b.cov (x - m) + priorSq b.cov (m - z) := by
  intro m
  have hm : m - b.mean ∈ corrections A b.cov ss :=
    mean_mem A b.cov rhs b.mean 0 _ ss b (fun v => by rw [sub_self]; exact Submodule.zero_mem _)
      (by rw [sub_self]; exact Submodule.zero_mem _) fun s hs => Submodule.subset_span ⟨s, hs, rfl⟩
  refine ⟨hm, fun z hz => ?_⟩
  have hU := isUnit_of_pd hS
  obtain ⟨-, -, hr⟩ := projections_orthogonal A hA rhs b hS ss
  have horth : ∀ v ∈ corrections A b.cov ss, (x - m) ⬝ᵥ b.cov⁻¹ *ᵥ v = 0 := by
    intro v hv
    induction hv using Submodule.span_induction with
    | mem v hv =>
      obtain ⟨s, hs, rfl⟩ := hv
      rw [mulVec_mulVec, nonsing_inv_mul _ hU, one_mulVec, mulVec_transpose, dotProduct_comm, ← dotProduct_mulVec, mulVec_sub, hx]
      exact (hr s hs).1
    | zero => simp
    | add u v _ _ hu hv => rw [mulVec_add, dotProduct_add, hu, hv, add_zero]
    | smul c v _ hv => rw [mulVec_smul, dotProduct_smul, hv, smul_zero]
  have hmz : m - z ∈ corrections A b.cov ss := by
    have := Submodule.sub_mem _ hm hz
    rwa [sub_sub_sub_cancel_right] at this
  have hinv : (b.cov⁻¹).IsSymm := by rw [IsSymm, transpose_nonsing_inv, hS.1]
  have h0 := horth _ hmz
  have h1 : (m - z) ⬝ᵥ b.cov⁻¹ *ᵥ (x - m) = 0 := by rw [symm_dot hinv, dotProduct_comm]; exact h0
  have e : x - z = (x - m) + (m - z) := by abel
  rw [priorSq, e, mulVec_add, add_dotProduct, dotProduct_add, dotProduct_add, h0, h1, priorSq, priorSq]
  ring

theorem priorSq_nonneg [DecidableEq n] {S : Matrix n n ℝ} (hS : IsPd S) (v : n → ℝ) : 0 ≤ priorSq S v := by
  have hU := isUnit_of_pd hS
  have h := hS.psd.2 (S⁻¹ *ᵥ v)
  rw [mulVec_mulVec, mul_nonsing_inv _ hU, one_mulVec, dotProduct_comm] at h
  exact h

/-- **C106 (d).**  More actions never increase the error in the norm of the prior. -/
theorem error_decreases [DecidableEq n] (A : Matrix n n ℝ) (hA : IsUnit A.det) (rhs : n → ℝ) (b : SolBelief n)
    (hS : IsPd b.cov) (ss ts : List (n → ℝ)) (x : n → ℝ) (hx : A *ᵥ x = rhs) :
    priorSq b.cov (x - (projectAll A rhs 0 b (ss ++ ts)).mean) ≤ priorSq b.cov (x - (projectAll A rhs 0 b ss).mean) := by
  obtain ⟨-, h⟩ := best_approximation A hA rhs b hS (ss ++ ts) x hx
  obtain ⟨h1, -⟩ := best_approximation A hA rhs b hS ss x hx
  have hle : corrections A b.cov ss ≤ corrections A b.cov (ss ++ ts) :=
    Submodule.span_mono fun v ⟨s, hs, e⟩ => ⟨s, List.mem_append_left _ hs, e⟩
  rw [h _ (hle h1)]
  exact le_add_of_nonneg_right (priorSq_nonneg hS _)

/-! ## The loop -/

/-- What the loop keeps. -/
structure Recorded (A : Matrix n n ℝ) (rhs : n → ℝ) (lam : ℝ) (prior : SolBelief n) (st : CG.St n) (ss : List (n → ℝ)) : Prop where
  step : st.step = ss.length
  actions : st.actions = ss.map some ++ [none]
  olen : st.observations.length = ss.length + 1
  obs : st.observations[ss.length]? = some none
  res : st.residuals[ss.length]? = some none ∨ st.residuals[ss.length]? = some (some (CG.resid A rhs st.belief))
  rlen : st.residuals.length = ss.length + 1
  belief : st.belief = projectAll A rhs lam prior ss

theorem Recorded.touch {A : Matrix n n ℝ} {rhs : n → ℝ} {lam : ℝ} {prior : SolBelief n} {st : CG.St n} {ss : List (n → ℝ)}
    (h : Recorded A rhs lam prior st ss) : Recorded A rhs lam prior (st.touch (CG.resid A rhs)) ss ∧
      (st.touch (CG.resid A rhs)).residuals[ss.length]? = some (some (CG.resid A rhs st.belief)) ∧
      (st.touch (CG.resid A rhs)).belief = st.belief ∧ (st.touch (CG.resid A rhs)).actions = st.actions ∧
      (st.touch (CG.resid A rhs)).step = st.step := by
  rcases h.res with h1 | h1
  · have e : st.touch (CG.resid A rhs) =
        { st with residuals := st.residuals.set ss.length (some (CG.resid A rhs st.belief)) } := by
      unfold State.touch
      rw [h.step, h1]
    have hk : (st.residuals.set ss.length (some (CG.resid A rhs st.belief)))[ss.length]?
        = some (some (CG.resid A rhs st.belief)) := by simp [h.rlen]
    rw [e]
    exact ⟨⟨h.step, h.actions, h.olen, h.obs, Or.inr hk, by simp [h.rlen], h.belief⟩, hk, rfl, rfl, rfl⟩
  · have e : st.touch (CG.resid A rhs) = st := by
      unfold State.touch
      rw [h.step, h1]
    rw [e]
    exact ⟨h, h1, rfl, rfl, rfl⟩

theorem Recorded.cache {A : Matrix n n ℝ} {rhs : n → ℝ} {lam : ℝ} {prior : SolBelief n} {st : CG.St n} {ss : List (n → ℝ)}
    (h : Recorded A rhs lam prior st ss) (c : List (n → ℝ)) : Recorded A rhs lam prior { st with cache := c } ss :=
  ⟨h.step, h.actions, h.olen, h.obs, h.res, h.rlen, h.belief⟩

theorem Recorded.benign {A : Matrix n n ℝ} {rhs : n → ℝ} {lam : ℝ} {prior : SolBelief n} {st st' : CG.St n} {ss : List (n → ℝ)}
    (h : Recorded A rhs lam prior st ss) {α : Type} {f : CG.Cmp n α} (hf : Comp.Benign (CG.resid A rhs) f) {a : α}
    (e : f st = .ok (a, st')) : Recorded A rhs lam prior st' ss := by
  obtain ⟨c, rfl | rfl⟩ := hf _ _ _ e
  · exact h.cache c
  · exact h.touch.1.cache c

theorem recorded_iteration {A : Matrix n n ℝ} {rhs : n → ℝ} {lam : ℝ} {prior : SolBelief n} {policy : CG.Cmp n (n → ℝ)}
    {stop : CG.Cmp n Bool} (hp : Comp.Benign (CG.resid A rhs) policy) (hs : Comp.Benign (CG.resid A rhs) stop)
    {st st' : CG.St n} {ss : List (n → ℝ)} (h : Recorded A rhs lam prior st ss) {fl : Bool}
    (hit : (solver A rhs lam policy stop).iteration st = .ok (st', fl)) :
    ∃ ss', Recorded A rhs lam prior st' ss' := by
  unfold Solver.iteration solver at hit
  dsimp only at hit
  cases h1 : stop st with
  | error e => rw [h1] at hit; cases hit
  | ok p =>
    obtain ⟨b, st1⟩ := p
    rw [h1] at hit
    have i1 := h.benign hs h1
    cases b with
    | true =>
      dsimp only at hit
      have := congrArg Prod.fst (Except.ok.inj hit)
      dsimp only at this
      subst this
      exact ⟨ss, i1⟩
    | false =>
      dsimp only at hit
      cases h2 : policy st1 with
      | error e => rw [h2] at hit; cases hit
      | ok p =>
        obtain ⟨a, st2⟩ := p
        rw [h2] at hit
        have i2 := i1.benign hp h2
        dsimp only at hit
        have ha : st2.actions[st2.step]? = some none := by rw [i2.step, i2.actions]; simp
        unfold State.setAction at hit
        rw [ha] at hit
        dsimp only at hit
        have hset : st2.actions.set st2.step (some a) = (ss ++ [a]).map some := by
          rw [i2.step, i2.actions]
          simp
        -- the state with the action
        obtain ⟨T, hT⟩ : ∃ T : CG.St n, T = { st2 with actions := st2.actions.set st2.step (some a) } := ⟨_, rfl⟩
        rw [← hT] at hit
        have hTs : T.step = ss.length := by rw [hT]; exact i2.step
        have hTa : T.actions = (ss ++ [a]).map some := by rw [hT]; exact hset
        have hTget : T.actions[T.step]? = some (some a) := by rw [hTs, hTa]; simp
        have hTo : T.observations = st2.observations := by rw [hT]
        have hTb : T.belief = st2.belief := by rw [hT]
        have hTr : T.residuals = st2.residuals := by rw [hT]
        -- its residual
        obtain ⟨T', hT', hv⟩ : ∃ T', T.residual (CG.resid A rhs) = .ok (CG.resid A rhs st2.belief, T') ∧
            T'.step = T.step ∧ T'.actions = T.actions ∧ T'.observations = T.observations ∧ T'.belief = T.belief ∧
            T'.residuals.length = T.residuals.length := by
          rcases i2.res with hr | hr
          · have et : T.touch (CG.resid A rhs) =
                { T with residuals := T.residuals.set ss.length (some (CG.resid A rhs st2.belief)) } := by
              unfold State.touch
              rw [hTs, hTr, hr, hTb]
            refine ⟨{ T with residuals := T.residuals.set ss.length (some (CG.resid A rhs st2.belief)) }, ?_, ?_⟩
            · unfold State.residual
              rw [et]
              dsimp only
              rw [hTs, hTr, List.getElem?_set_self (by rw [i2.rlen]; omega)]
            · refine ⟨rfl, rfl, rfl, rfl, ?_⟩
              dsimp only
              rw [hTr, List.length_set]
          · have et : T.touch (CG.resid A rhs) = T := by
              unfold State.touch
              rw [hTs, hTr, hr]
            refine ⟨T, ?_, rfl, rfl, rfl, rfl, rfl⟩
            unfold State.residual
            rw [et, hTs, hTr, hr]
        obtain ⟨v1, v2, v3, v4, v5⟩ := hv
        unfold CG.info at hit
        rw [hTget, hT'] at hit
        dsimp only at hit
        unfold State.setObservation at hit
        have ho : T'.observations[T'.step]? = some none := by rw [v1, v3, hTs, hTo]; exact i2.obs
        rw [ho] at hit
        dsimp only at hit
        unfold CG.update at hit
        dsimp only at hit
        have ho2 : (T'.observations.set T'.step (some (a ⬝ᵥ CG.resid A rhs st2.belief)))[T'.step]?
            = some (some (a ⬝ᵥ CG.resid A rhs st2.belief)) :=
          List.getElem?_set_self (by rw [v1, v3, hTs, hTo, i2.olen]; omega)
        rw [ho2, v1, v2, hTget] at hit
        dsimp only at hit
        have := congrArg Prod.fst (Except.ok.inj hit)
        dsimp only at this
        subst this
        refine ⟨ss ++ [a], ?_, ?_, ?_, ?_, Or.inl ?_, ?_, ?_⟩
        · show T.step + 1 = _
          rw [hTs]; simp
        · show T.actions ++ [none] = _
          rw [hTa]
        · show (T'.observations.set T.step _ ++ [none]).length = _
          simp [v3, hTo, i2.olen]
        · show (T'.observations.set T.step _ ++ [none])[_]? = _
          rw [List.getElem?_append_right (by simp [v3, hTo, i2.olen])]
          simp [v3, hTo, i2.olen]
        · show (T'.residuals ++ [none])[_]? = _
          rw [List.getElem?_append_right (by simp [v5, hTr, i2.rlen])]
          simp [v5, hTr, i2.rlen]
        · show (T'.residuals ++ [none]).length = _
          simp [v5, hTr, i2.rlen]
        · show projectedUpdate A lam T'.belief a (a ⬝ᵥ CG.resid A rhs st2.belief) = _
          rw [v4, hTb, projectAll_snoc, ← i2.belief]
          rfl

/-- **C106 (e), the solver.**  Whatever the policy and the stopping criterion (as long as they only read the state and use its
cache, as all of the library do), at any time of a run, finished or not, the belief of the solver state is the one obtained by
projecting the residual onto the recorded actions in order: so (a)-(d) hold of every run. -/
theorem solver_belief (A : Matrix n n ℝ) (rhs : n → ℝ) (lam : ℝ) (prior : SolBelief n) (policy : CG.Cmp n (n → ℝ))
    (stop : CG.Cmp n Bool) (hp : Comp.Benign (CG.resid A rhs) policy) (hs : Comp.Benign (CG.resid A rhs) stop) (k : ℕ)
    (st : CG.St n) (fl : Bool)
    (hrun : (solver A rhs lam policy stop).runFor (State.new (CG.resid A rhs) prior []) k = .ok (st, fl)) :
    ∃ ss : List (n → ℝ), st.step = ss.length ∧ st.actions = ss.map some ++ [none] ∧
      st.belief = projectAll A rhs lam prior ss := by
  have key : ∀ k st fl, (solver A rhs lam policy stop).runFor (State.new (CG.resid A rhs) prior []) k = .ok (st, fl) →
      ∃ ss, Recorded A rhs lam prior st ss := by
    intro k
    induction k with
    | zero =>
      intro st fl h
      rw [Solver.runFor] at h
      have := (congrArg Prod.fst (Except.ok.inj h)).symm
      dsimp only [State.new] at this
      subst this
      exact ⟨[], rfl, rfl, rfl, rfl, Or.inr rfl, rfl, rfl⟩
    | succ k ih =>
      intro st fl h
      rw [Solver.runFor] at h
      cases hr : (solver A rhs lam policy stop).runFor (State.new (CG.resid A rhs) prior []) k with
      | error e => rw [hr] at h; cases h
      | ok p =>
        obtain ⟨st', b⟩ := p
        rw [hr] at h
        obtain ⟨ss, hss⟩ := ih st' b hr
        cases b with
        | true =>
          dsimp only at h
          have := (congrArg Prod.fst (Except.ok.inj h))
          dsimp only at this
          subst this
          exact ⟨ss, hss⟩
        | false => exact recorded_iteration hp hs hss h
  obtain ⟨ss, h⟩ := key k st fl hrun
  exact ⟨ss, h.step, h.actions, h.belief⟩

/-- The conjugate gradient policy only reads the state and writes to the cache. -/
theorem policy_benign (A : Matrix n n ℝ) (rhs : n → ℝ) (S0 : Matrix n n ℝ) (reR reA : Option (CG.Reorth n)) :
    Comp.Benign (CG.resid A rhs) (CG.policy A rhs S0 reR reA) := by
  intro st a st' h
  unfold CG.policy at h
  cases h1 : st.residual (CG.resid A rhs) with
  | error e => rw [h1] at h; cases h
  | ok p =>
    obtain ⟨r, T⟩ := p
    have hT : T = st.touch (CG.resid A rhs) := by
      unfold State.residual at h1
      split at h1
      · exact (congrArg Prod.snd (Except.ok.inj h1)).symm
      · cases h1
      · cases h1
    subst hT
    rw [h1] at h
    dsimp only at h
    split_ifs at h with h2
    · cases reR with
      | none => exact ⟨_, Or.inr (congrArg Prod.snd (Except.ok.inj h)).symm⟩
      | some f => exact ⟨_, Or.inr (congrArg Prod.snd (Except.ok.inj h)).symm⟩
    · split at h
      · cases h
      · split at h
        · cases h
        · cases h
        · split at h
          · cases h
          · split at h
            · cases h
            · exact ⟨_, Or.inr (congrArg Prod.snd (Except.ok.inj h)).symm⟩

/-- **C106 (e'), Bayesian conjugate gradients.**  At any time of any run the mean is the best approximation of the solution
reachable with the recorded actions, for any reorthogonalisation functions. -/
theorem bayescg_best [DecidableEq n] (A : Matrix n n ℝ) (hA : IsUnit A.det) (rhs : n → ℝ) (prior : SolBelief n)
    (hS : IsPd prior.cov) (reR reA : Option (CG.Reorth n)) (stop : CG.Cmp n Bool)
    (hs : Comp.Benign (CG.resid A rhs) stop) (k : ℕ) (st : CG.St n) (fl : Bool)
    (hrun : (CG.bayesCG A rhs prior.cov reR reA stop).runFor (State.new (CG.resid A rhs) prior []) k = .ok (st, fl))
    (x : n → ℝ) (hx : A *ᵥ x = rhs) :
    ∃ ss : List (n → ℝ), st.actions = ss.map some ++ [none] ∧ st.belief.mean - prior.mean ∈ corrections A prior.cov ss ∧
      ∀ z, z - prior.mean ∈ corrections A prior.cov ss →
        priorSq prior.cov (x - st.belief.mean) ≤ priorSq prior.cov (x - z) := by
  obtain ⟨ss, -, h2, h3⟩ := solver_belief A rhs 0 prior _ stop (policy_benign A rhs prior.cov reR reA) hs k st fl hrun
  obtain ⟨h4, h5⟩ := best_approximation A hA rhs prior hS ss x hx
  rw [h3]
  refine ⟨ss, h2, h4, fun z hz => ?_⟩
  rw [h5 z hz]
  exact le_add_of_nonneg_right (priorSq_nonneg hS _)

/-! ## The belief about the inverse -/

theorem updates_x (A : Matrix n n ℝ) (rhs : n → ℝ) (lam : ℝ) (b : Full n) (ss : List (n → ℝ)) :
    (updates A rhs lam b ss).x = projectAll A rhs lam b.x ss := by
  induction ss generalizing b with
  | nil => rfl
  | cons s ss ih => exact ih _

theorem updates_some (A : Matrix n n ℝ) (rhs : n → ℝ) (lam : ℝ) (M : Matrix n n ℝ) (ss : List (n → ℝ)) :
    ∀ x : SolBelief n, (updates A rhs lam ⟨x, some M⟩ ss).ainv = some (M + (x.cov - (projectAll A rhs lam x ss).cov)) := by
  induction ss generalizing M with
  | nil => intro x; show some M = _; rw [projectAll, sub_self, add_zero]
  | cons s ss ih =>
    intro x
    rw [updates, update]
    dsimp only
    rw [ih]
    have : (projectedUpdate A lam x s (projectedInfo A rhs x.mean s)).cov = x.cov - covUpdate A lam x s := rfl
    rw [this, projectAll]
    congr 1
    abel

/-- **C106 (f), the belief about the inverse.**  It is the prior one (zero if there was none) plus the amount by which the
covariance of the solution has decreased. -/
theorem inverse_accumulates (A : Matrix n n ℝ) (rhs : n → ℝ) (lam : ℝ) (b : Full n) (ss : List (n → ℝ)) (hne : ss ≠ []) :
    (updates A rhs lam b ss).ainv = some (b.ainv.getD 0 + (b.x.cov - (projectAll A rhs lam b.x ss).cov)) := by
  obtain ⟨x, M⟩ := b
  cases M with
  | some M => exact updates_some A rhs lam M ss x
  | none =>
    cases ss with
    | nil => exact absurd rfl hne
    | cons s ss =>
      rw [updates, update]
      dsimp only
      rw [updates_some]
      have : (projectedUpdate A lam x s (projectedInfo A rhs x.mean s)).cov = x.cov - covUpdate A lam x s := rfl
      rw [this, projectAll, Option.getD_none]
      congr 1
      abel

/-- **C106 (g).**  After actions that span the space and without a prior belief about the inverse, the belief about the inverse is
the prior covariance of the solution: right exactly if that was the inverse. -/
theorem inverse_without_prior_partial [DecidableEq n] (A : Matrix n n ℝ) (hA : IsUnit A.det) (rhs : n → ℝ) (x : SolBelief n)
    (hS : IsPd x.cov) (ss : List (n → ℝ)) (hne : ss ≠ []) (hspan : Submodule.span ℝ {s | s ∈ ss} = ⊤) :
    ∃ M, (updates A rhs 0 ⟨x, none⟩ ss).ainv = some M ∧ (A * M = 1 ↔ x.cov = A⁻¹) := by
  refine ⟨x.cov, ?_, ?_⟩
  · rw [inverse_accumulates A rhs 0 _ ss hne, (projections_solve A hA rhs x hS ss hspan).2]
    simp
  · constructor
    · intro h; exact (inv_eq_right_inv h).symm
    · intro h; rw [h, mul_nonsing_inv _ hA]

/-- **C106 fails (the inverse).**  A prior belief that has the exact inverse of the system matrix is made wrong: for every
nonsingular system, every positive definite prior covariance and every spanning list of actions the solver ends with the
exact solution and with `A⁻¹ + Σ₀` as its belief about the inverse. -/
theorem exact_inverse_lost [DecidableEq n] [Nonempty n] (A : Matrix n n ℝ) (hA : IsUnit A.det) (rhs : n → ℝ) (x : SolBelief n)
    (hS : IsPd x.cov) (ss : List (n → ℝ)) (hspan : Submodule.span ℝ {s | s ∈ ss} = ⊤) :
    A *ᵥ (updates A rhs 0 ⟨x, some A⁻¹⟩ ss).x.mean = rhs ∧
    (updates A rhs 0 ⟨x, some A⁻¹⟩ ss).ainv = some (A⁻¹ + x.cov) ∧ A * (A⁻¹ + x.cov) ≠ 1 := by
  obtain ⟨h1, h2⟩ := projections_solve A hA rhs x hS ss hspan
  refine ⟨by rw [updates_x]; exact h1, ?_, ?_⟩
  · rw [updates_some, h2, sub_zero]
  · intro h
    rw [mul_add, mul_nonsing_inv _ hA, add_eq_left] at h
    have h0 : x.cov = 0 := by
      have := congrArg (A⁻¹ * ·) h
      simpa [← Matrix.mul_assoc, nonsing_inv_mul _ hA] using this
    obtain ⟨i⟩ := ‹Nonempty n›
    have := hS.2 (Pi.single i 1) (by simp)
    rw [h0, zero_mulVec, dotProduct_zero] at this
    exact lt_irrefl _ this

/-! ## The hypotheses are met -/

/-- A two-dimensional standard normal solution, exact projections. -/
example : ∃ (Ω : Type) (_ : MeasurableSpace Ω) (P : Measure Ω) (X : Ω → Fin 2 → ℝ) (ε : ℕ → Ω → ℝ) (rhs : Ω → Fin 2 → ℝ),
    IsNormal P X (0 : Fin 2 → ℝ) (1 : Matrix (Fin 2) (Fin 2) ℝ) ∧
    (∀ i, IsNormal P (fun ω (_ : Unit) => ε i ω) 0 (of fun _ _ => (0 : ℝ))) ∧
    (∀ i, IndepFun (fun ω (_ : Unit) => ε i ω) (fun ω => (X ω, fun j : Fin i => ε j ω)) P) ∧
    ∀ ω, ∀ s : Fin 2 → ℝ, ∀ i, s ⬝ᵥ rhs ω = s ⬝ᵥ !![2, 1; 0, 3] *ᵥ X ω + ε i ω := by
  obtain ⟨Ω, m, P, X, Y, hX, hY, -⟩ := exists_independent_normals (ι := Fin 2) (κ := Unit) 0 1 0 0
  refine ⟨Ω, m, P, X, fun _ _ => 0, fun ω => !![2, 1; 0, 3] *ᵥ X ω, by simpa using hX, fun i => ?_, fun i => ?_,
    fun ω s i => by rw [add_zero]⟩
  · have := hX.affine (0 : Matrix Unit (Fin 2) ℝ) 0
    have e : (of fun _ _ => (0 : ℝ) : Matrix Unit Unit ℝ) = 0 := rfl
    rw [e]
    simp only [zero_mulVec, zero_add, Matrix.zero_mul] at this
    exact this
  · have := hX.isProbabilityMeasure
    exact indepFun_const_left _ _

/-- The steepest descent policy and the iteration limit are benign. -/
example (A : Matrix (Fin 2) (Fin 2) ℝ) (rhs : Fin 2 → ℝ) :
    Comp.Benign (CG.resid A rhs) (fun st : CG.St (Fin 2) => st.residual (CG.resid A rhs)) ∧
    Comp.Benign (CG.resid A rhs) (maxIterations 2 none : CG.Cmp (Fin 2) Bool) := by
  constructor
  · intro st a st' h
    refine ⟨(st.touch (CG.resid A rhs)).cache, Or.inr ?_⟩
    unfold State.residual at h
    dsimp only at h
    split at h
    · exact (congrArg Prod.snd (Except.ok.inj h)).symm
    · cases h
    · cases h
  · intro st a st' h
    refine ⟨st.cache, Or.inl ?_⟩
    exact (congrArg Prod.snd (Except.ok.inj h)).symm

end Probnum.Linalg.Bayes
