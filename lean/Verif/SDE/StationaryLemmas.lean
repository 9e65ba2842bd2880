import Verif.SDE.MaternLemmas
import Verif.Kalman.SamplingProps
import Verif.Cov.PropsMatern

/-!
# Helper lemmas: stationary covariances and the joint law of Gauss-Markov chains
-/

namespace Probnum.Kalman

open MeasureTheory ProbabilityTheory Matrix Probnum.Gauss Probnum.LinGauss

variable {Ω : Type*} {mΩ : MeasurableSpace Ω} {P : Measure Ω} {n N : ℕ} {init : Updated n} {A : ℕ → Transition n n}
  {X : ℕ → Ω → Fin n → ℝ}

/-- All states of a Gauss-Markov chain are jointly Gaussian. -/
theorem MarkovChain.gaussian (h : MarkovChain P N init A X) : ∀ k, k ≤ N →
    HasGaussianLaw (fun ω (p : Fin (k + 1) × Fin n) => X p.1 ω p.2) P
  | 0, _ => by
    let L : (Fin n → ℝ) →ₗ[ℝ] (Fin (0 + 1) × Fin n → ℝ) :=
      { toFun := fun x p => x p.2
        map_add' := fun _ _ => rfl
        map_smul' := fun _ _ => rfl }
    have g := h.init.gaussian.map_fun (LinearMap.toContinuousLinearMap L)
    have e : (fun ω (p : Fin (0 + 1) × Fin n) => X p.1 ω p.2) = fun ω => LinearMap.toContinuousLinearMap L (X 0 ω) := by
      funext ω p
      have : p.1.1 = 0 := by omega
      rw [this]; rfl
    rw [e]; exact g
  | k + 1, hk => by
    obtain ⟨W, h1, h2, h3⟩ := h.dyn k (by omega)
    have ih := MarkovChain.gaussian h k (by omega)
    have hind : IndepFun (fun ω (p : Fin (k + 1) × Fin n) => X p.1 ω p.2) W P := by
      have := h3.symm.comp (φ := fun (v : Fin (k + 1) → Fin n → ℝ) (p : Fin (k + 1) × Fin n) => v p.1 p.2) (ψ := id)
        (by fun_prop) measurable_id
      exact this
    have g := hind.hasGaussianLaw ih h2.gaussian
    let L : ((Fin (k + 1) × Fin n → ℝ) × (Fin n → ℝ)) →ₗ[ℝ] (Fin (k + 1 + 1) × Fin n → ℝ) :=
      { toFun := fun z p => if hp : p.1.1 < k + 1 then z.1 (⟨p.1.1, hp⟩, p.2)
          else ((A k).mat *ᵥ fun b => z.1 (Fin.last k, b)) p.2 + z.2 p.2
        map_add' := fun z z' => by
          funext p
          simp only [Pi.add_apply, Prod.fst_add, Prod.snd_add]
          by_cases hp : p.1.1 < k + 1
          · simp only [dif_pos hp]
          · simp only [dif_neg hp]
            have := congrFun (Matrix.mulVec_add (A k).mat (fun b => z.1 (Fin.last k, b)) fun b => z'.1 (Fin.last k, b)) p.2
            rw [show (fun b => z.1 (Fin.last k, b) + z'.1 (Fin.last k, b))
              = (fun b => z.1 (Fin.last k, b)) + fun b => z'.1 (Fin.last k, b) from rfl, this, Pi.add_apply]
            ring
        map_smul' := fun c z => by
          funext p
          simp only [Pi.smul_apply, Prod.smul_fst, Prod.smul_snd, smul_eq_mul, RingHom.id_apply]
          by_cases hp : p.1.1 < k + 1
          · simp only [dif_pos hp]
          · simp only [dif_neg hp]
            have := congrFun (Matrix.mulVec_smul (A k).mat c fun b => z.1 (Fin.last k, b)) p.2
            rw [show (fun b => c * z.1 (Fin.last k, b)) = c • fun b => z.1 (Fin.last k, b) from rfl, this, Pi.smul_apply,
              smul_eq_mul]
            ring }
    have g2 := g.map_fun (LinearMap.toContinuousLinearMap L)
    have e : (fun ω (p : Fin (k + 1 + 1) × Fin n) => X p.1 ω p.2)
        = fun ω => LinearMap.toContinuousLinearMap L (fun p : Fin (k + 1) × Fin n => X p.1 ω p.2, W ω) := by
      funext ω p
      show _ = if hp : p.1.1 < k + 1 then _ else _
      by_cases hp : p.1.1 < k + 1
      · rw [dif_pos hp]
      · have : p.1.1 = k + 1 := by omega
        rw [dif_neg hp, this, h1 ω]
        rfl
    rw [e]; exact g2

/-- Every state of a chain that starts in a stationary distribution has this distribution. -/
theorem MarkovChain.stationary (h : MarkovChain P N init A X) (h0 : init.mean = 0)
    (hm : ∀ k, k < N → (A k).noise.mean = 0)
    (hS : ∀ k, k < N → (A k).mat * init.cov * (A k).matᵀ + (A k).noise.cov = init.cov) : ∀ k, k ≤ N →
    IsNormal P (X k) 0 init.cov
  | 0, _ => by simpa [h0] using h.init
  | k + 1, hk => by
    obtain ⟨W, h1, h2, h3⟩ := h.dyn k (by omega)
    have ih := MarkovChain.stationary h h0 hm hS k (by omega)
    have hind : IndepFun (X k) W P := by
      have hφ : Measurable fun v : Fin (k + 1) → Fin n → ℝ => v (Fin.last k) := by fun_prop
      exact h3.symm.comp hφ measurable_id
    have := ih.comb h2 hind (A k).mat 1 0
    rw [hm k (by omega)] at this
    simp only [Matrix.one_mulVec, add_zero, Matrix.mulVec_zero, Matrix.one_mul, Matrix.transpose_one, Matrix.mul_one,
      hS k (by omega)] at this
    have e : X (k + 1) = fun ω => (A k).mat *ᵥ X k ω + W ω := funext h1
    rw [e]; exact this

/-- Covariance between states of a stationary chain. -/
theorem MarkovChain.crossCov (h : MarkovChain P N init A X) (h0 : init.mean = 0)
    (hm : ∀ k, k < N → (A k).noise.mean = 0)
    (hS : ∀ k, k < N → (A k).mat * init.cov * (A k).matᵀ + (A k).noise.cov = init.cov)
    (Φ : ℕ → ℕ → Matrix (Fin n) (Fin n) ℝ) (hΦ0 : ∀ j, Φ j j = 1)
    (hΦ : ∀ j k, j ≤ k → k < N → Φ j (k + 1) = (A k).mat * Φ j k) (j : ℕ) :
    ∀ k, j ≤ k → k ≤ N → CrossCov P (X k) (X j) (Φ j k * init.cov) := by
  intro k hjk
  induction k, hjk using Nat.le_induction with
  | base => intro hj; rw [hΦ0, Matrix.one_mul]; exact (h.stationary h0 hm hS j hj).cov
  | succ k hjk ih =>
    intro hk
    have ih := ih (by omega)
    obtain ⟨W, h1, h2, h3⟩ := h.dyn k (by omega)
    have := h2.isProbabilityMeasure
    have nk := h.stationary h0 hm hS k (by omega)
    have nj := h.stationary h0 hm hS j (by omega)
    have hind : IndepFun W (X j) P := by
      have hψ : Measurable fun v : Fin (k + 1) → Fin n → ℝ => v ⟨j, by omega⟩ := by fun_prop
      exact h3.comp measurable_id hψ
    have hz := cov_zero_of_indep hind (memLp_coord h2.gaussian) (memLp_coord nj.gaussian)
    intro a b
    have e1 : (fun ω => X (k + 1) ω a) = (fun ω => ((A k).mat *ᵥ X k ω) a) + fun ω => W ω a := by
      funext ω; rw [h1 ω]; rfl
    have m1 : MemLp (fun ω => ((A k).mat *ᵥ X k ω) a) 2 P := by
      have := memLp_coord (nk.affine (A k).mat 0).gaussian a
      simpa using this
    rw [e1, covariance_add_left m1 (memLp_coord h2.gaussian a) (memLp_coord nj.gaussian b), hz a b, Matrix.zero_apply,
      add_zero]
    have hc := cov_affine (memLp_coord nk.gaussian) (memLp_coord nj.gaussian) ih (A k).mat 1 0 0 a b
    simp only [add_zero, Matrix.one_mulVec, Matrix.transpose_one, Matrix.mul_one] at hc
    rw [hc, hΦ j k hjk (by omega), Matrix.mul_assoc]

/-- A Gauss-Markov chain as a function of a base sample. -/
def gsamp (ch : CovCholesky n) (init : Updated n) (A : ℕ → Transition n n) (b : ℕ → Fin n → ℝ) : ℕ → Fin n → ℝ
  | 0 => init.mean + ch.factor init.cov *ᵥ b 0
  | k + 1 => (A k).mat *ᵥ gsamp ch init A b k + ((A k).noise.mean + ch.factor (A k).noise.cov *ᵥ b (k + 1))

theorem measurable_gsamp (N : ℕ) (ch : CovCholesky n) (init : Updated n) (A : ℕ → Transition n n) (k : ℕ) :
    Measurable fun x : FBase n N → ℝ => gsamp ch init A (fbase N x) k := by
  induction k with
  | zero => exact measurable_const.add ((measurable_mulVec _).comp (measurable_fbase N 0))
  | succ k ih =>
    exact ((measurable_mulVec _).comp ih).add (measurable_const.add
      ((measurable_mulVec _).comp (measurable_fbase N (k + 1))))

theorem reads_gsamp (N : ℕ) (ch : CovCholesky n) (init : Updated n) (A : ℕ → Transition n n) (k : ℕ) (hk : k ≤ N) :
    Reads (fun x : FBase n N → ℝ => gsamp ch init A (fbase N x) k) (Finset.univ.filter fun p => p.1.1 ≤ k) := by
  have hb : ∀ (j : ℕ) (x y : FBase n N → ℝ), j ≤ N →
      (∀ p ∈ Finset.univ.filter fun p : FBase n N => p.1.1 ≤ j, x p = y p) → fbase N x j = fbase N y j := by
    intro j x y hj h
    funext i
    exact h _ (by simp only [Finset.mem_filter, Finset.mem_univ, true_and, fbase_val hj, le_refl])
  induction k with
  | zero => intro x y h; simp only [gsamp, hb 0 x y hk h]
  | succ k ih =>
    intro x y h
    have h1 := ih (by omega) x y fun p hp => h p (by
      simp only [Finset.mem_filter, Finset.mem_univ, true_and] at hp ⊢; omega)
    simp only [gsamp, h1, hb (k + 1) x y hk h]

/-- Gauss-Markov chains with given initial law and transitions exist. -/
theorem exists_markovChain (ch : CovCholesky n) (N : ℕ) (init : Updated n) (A : ℕ → Transition n n)
    (hC : init.cov.PosSemidef) (hQ : ∀ k, k < N → (A k).noise.cov.PosSemidef) :
    ∃ X : ℕ → (FBase n N → ℝ) → Fin n → ℝ, MarkovChain (stdBase (FBase n N)) N init A X := by
  refine ⟨fun k x => gsamp ch init A (fbase N x) k, fbase_normal N 0 ch _ _ hC, fun k hk => ?_⟩
  refine ⟨fun x => (A k).noise.mean + ch.factor (A k).noise.cov *ᵥ fbase N x (k + 1), fun x => rfl,
    fbase_normal N (k + 1) ch _ _ (hQ k hk), ?_⟩
  refine base_indep (S := Finset.univ.filter fun p : FBase n N => p.1.1 = k + 1)
    (T := Finset.univ.filter fun p : FBase n N => p.1.1 ≤ k) ?_ ?_ ?_ ?_ ?_
  · rw [Finset.disjoint_filter]; intro p _ h1; omega
  · exact measurable_const.add ((measurable_mulVec _).comp (measurable_fbase N (k + 1)))
  · exact measurable_pi_iff.2 fun i => measurable_gsamp N ch init _ i
  · intro x y h
    have : fbase N x (k + 1) = fbase N y (k + 1) := by
      funext i
      exact h _ (by simp only [Finset.mem_filter, Finset.mem_univ, true_and, fbase_val (by omega : k + 1 ≤ N)])
    simp only [this]
  · refine Reads.pi fun i => (reads_gsamp N ch init _ i (by omega)).mono ?_
    intro p
    simp only [Finset.mem_filter, Finset.mem_univ, true_and]
    omega

/-- A chain of coordinates that do not depend on the others. -/
theorem MarkovChain.project {m : ℕ} (h : MarkovChain P N init A X) (E : Matrix (Fin m) (Fin n) ℝ) (B : ℕ → Transition m m)
    (hm : ∀ k, k < N → E * (A k).mat = (B k).mat * E) (hn : ∀ k, k < N → E *ᵥ (A k).noise.mean = (B k).noise.mean)
    (hc : ∀ k, k < N → E * (A k).noise.cov * Eᵀ = (B k).noise.cov) :
    MarkovChain P N ⟨E *ᵥ init.mean, E * init.cov * Eᵀ⟩ B fun k ω => E *ᵥ X k ω := by
  refine ⟨by simpa using h.init.affine E 0, fun k hk => ?_⟩
  obtain ⟨W, h1, h2, h3⟩ := h.dyn k hk
  refine ⟨fun ω => E *ᵥ W ω, fun ω => ?_, ?_, ?_⟩
  · rw [h1 ω, Matrix.mulVec_add, Matrix.mulVec_mulVec, hm k hk, Matrix.mulVec_mulVec]
  · have := h2.affine E 0
    simpa only [add_zero, hn k hk, hc k hk] using this
  · have hψ : Measurable fun (v : Fin (k + 1) → Fin n → ℝ) (i : Fin (k + 1)) => E *ᵥ v i :=
      measurable_pi_iff.2 fun i => (measurable_mulVec E).comp (measurable_pi_apply i)
    exact h3.comp (measurable_mulVec E) hψ

end Probnum.Kalman

namespace Probnum.SDE

open Matrix Filter Topology MeasureTheory Set LinGauss Kalman

section General

variable {ι κ : Type} [Fintype ι] [DecidableEq ι] [Fintype κ]

/-- Chapman-Kolmogorov for the noise covariance. -/
theorem mfdQ_add (G : Matrix ι ι ℝ) (L : Matrix ι κ ℝ) (a b : ℝ) :
    mfdQ G L (a + b) = mfdA G L b * mfdQ G L a * (mfdA G L b)ᵀ + mfdQ G L b := by
  refine lyapunov_unique G (X := fun b => mfdQ G L (a + b))
    (Y := fun b => mfdA G L b * mfdQ G L a * (mfdA G L b)ᵀ + mfdQ G L b) (C := fun _ => L * Lᵀ) (fun t i j => ?_) (fun t => ?_)
    ?_ b
  · exact (mfdQ_deriv G L (a + t) i j).comp_const_add a t
  · refine ((((mfdA_deriv G L t).mul (MDeriv.const _)).mul (mfdA_deriv G L t).transpose).add (mfdQ_deriv G L t)).congr ?_
    have hc : Gᵀ * (mfdA G L t)ᵀ = (mfdA G L t)ᵀ * Gᵀ := by
      rw [← Matrix.transpose_mul, ← Matrix.transpose_mul, (mfdA_eq G L t).1, exp_comm]
    simp only [Matrix.mul_zero, add_zero, Matrix.transpose_mul, Matrix.mul_add, Matrix.add_mul, Matrix.mul_assoc, hc]
    abel
  · simp [mfdA_zero, mfdQ_zero]

end General

/-- The decomposition of a Kronecker product with an identity matrix. -/
theorem mfd_kron (q d : ℕ) (G : Matrix (Fin (q + 1)) (Fin (q + 1)) ℝ) (h : ℝ) :
    mfdA (integrator q d G).drift (integrator q d G).dispersion h = IWP.kronEye d (mfdA G (dispersion1d q) h) ∧
    mfdQ (integrator q d G).drift (integrator q d G).dispersion h = IWP.kronEye d (mfdQ G (dispersion1d q) h) := by
  constructor
  · refine (linear_unique (integrator q d G).drift (X := fun t => IWP.kronEye d (mfdA G (dispersion1d q) t))
      (C := fun _ => 0) (fun t => ?_) (fun t => (mfdA_deriv _ _ t).congr (by simp)) ?_ h).symm
    · refine (kronEye_deriv d (mfdA_deriv G _ t)).congr ?_
      simp [integrator, IWP.kronEye_mul]
    · simp only [mfdA_zero, IWP.kronEye_one]
  · refine (lyapunov_unique (integrator q d G).drift (X := fun t => IWP.kronEye d (mfdQ G (dispersion1d q) t))
      (C := fun _ => (integrator q d G).dispersion * (integrator q d G).dispersionᵀ) (fun t => ?_)
      (fun t => mfdQ_deriv _ _ t) ?_ h).symm
    · refine (kronEye_deriv d (mfdQ_deriv G _ t)).congr ?_
      simp only [integrator, IWP.kronEye_mul, IWP.kronEye_transpose, IWP.kronEye_add]
    · rw [mfdQ_zero, mfdQ_zero]
      ext r c
      simp [IWP.kronEye]

/-- The noise covariance of a one-dimensional integrator. -/
theorem mfdQ_entry (q : ℕ) (G : Matrix (Fin (q + 1)) (Fin (q + 1)) ℝ) (h : ℝ) (i j : Fin (q + 1)) :
    mfdQ G (dispersion1d q) h i j = ∫ u in (0 : ℝ)..h,
      NormedSpace.exp (u • G) i (Fin.last q) * NormedSpace.exp (u • G) j (Fin.last q) := by
  have e : ∀ (u : ℝ) i, (NormedSpace.exp (u • G) * dispersion1d q) i 0 = NormedSpace.exp (u • G) i (Fin.last q) := fun u i => by
    rw [Matrix.mul_apply, Finset.sum_eq_single (Fin.last q)]
    · simp [dispersion1d]
    · intro b _ hb
      simp only [dispersion1d, Matrix.of_apply]
      rw [if_neg fun h => hb (Fin.ext (by simpa using h)), mul_zero]
    · simp
  have hc : ∀ i, Continuous fun u : ℝ => NormedSpace.exp (u • G) i (Fin.last q) := fun i => by
    have : Differentiable ℝ fun u : ℝ => NormedSpace.exp (u • G) i (Fin.last q) := fun u =>
      (mderiv_exp G u i (Fin.last q)).differentiableAt
    exact this.continuous
  have hd : ∀ u, HasDerivAt (fun u => mfdQ G (dispersion1d q) u i j)
      (NormedSpace.exp (u • G) i (Fin.last q) * NormedSpace.exp (u • G) j (Fin.last q)) u := fun u => by
    have := mfdQ_deriv_explicit G (dispersion1d q) u i j
    rw [Matrix.mul_apply, Fin.sum_univ_one, Matrix.transpose_apply, e, e] at this
    exact this
  rw [intervalIntegral.integral_eq_sub_of_hasDerivAt (fun u _ => hd u)
    (((hc i).mul (hc j)).intervalIntegrable _ _), mfdQ_zero]
  simp

/-- The stationary covariance of the one-dimensional Matérn process. -/
noncomputable def statCov (q : ℕ) (ℓ : ℝ) : Matrix (Fin (q + 1)) (Fin (q + 1)) ℝ := Matrix.of fun i j =>
  ∫ u in Ioi (0 : ℝ), NormedSpace.exp (u • driftMatern q ℓ) i (Fin.last q) * NormedSpace.exp (u • driftMatern q ℓ) j (Fin.last q)

theorem mfdQ_tendsto (q : ℕ) {ℓ : ℝ} (hℓ : 0 < ℓ) (i j : Fin (q + 1)) :
    Tendsto (fun h => mfdQ (driftMatern q ℓ) (dispersion1d q) h i j) atTop (𝓝 (statCov q ℓ i j)) := by
  simp only [mfdQ_entry]
  exact intervalIntegral_tendsto_integral_Ioi 0 (exp_matern_integrable q hℓ i _ j _) tendsto_id

theorem statCov_symm (q : ℕ) (ℓ : ℝ) : (statCov q ℓ)ᵀ = statCov q ℓ := by
  ext i j
  simp only [statCov, Matrix.transpose_apply, Matrix.of_apply]
  exact integral_congr_ae (.of_forall fun u => mul_comm _ _)

/-- It is stationary. -/
theorem statCov_stationary (q : ℕ) {ℓ : ℝ} (hℓ : 0 < ℓ) (h : ℝ) :
    mfdA (driftMatern q ℓ) (dispersion1d q) h * statCov q ℓ * (mfdA (driftMatern q ℓ) (dispersion1d q) h)ᵀ
      + mfdQ (driftMatern q ℓ) (dispersion1d q) h = statCov q ℓ := by
  ext i j
  have h1 : Tendsto (fun a => mfdQ (driftMatern q ℓ) (dispersion1d q) (a + h) i j) atTop (𝓝 (statCov q ℓ i j)) :=
    (mfdQ_tendsto q hℓ i j).comp (tendsto_atTop_add_const_right _ h tendsto_id)
  simp only [mfdQ_add] at h1
  refine tendsto_nhds_unique ?_ h1
  simp only [Matrix.add_apply, Matrix.mul_apply, Finset.sum_mul]
  refine Tendsto.add_const _ (tendsto_finsetSum _ fun k _ => tendsto_finsetSum _ fun l _ => ?_)
  exact ((mfdQ_tendsto q hℓ l k).const_mul _).mul_const _

/-- The autocovariance is an integral of impulse responses. -/
theorem autocov_integral (q : ℕ) {ℓ : ℝ} (hℓ : 0 < ℓ) (τ : ℝ) :
    (NormedSpace.exp (τ • driftMatern q ℓ) * statCov q ℓ) 0 0 = ∫ u in Ioi (0 : ℝ),
      NormedSpace.exp ((τ + u) • driftMatern q ℓ) 0 (Fin.last q) * NormedSpace.exp (u • driftMatern q ℓ) 0 (Fin.last q) := by
  have e : ∀ u : ℝ, NormedSpace.exp ((τ + u) • driftMatern q ℓ) 0 (Fin.last q)
      * NormedSpace.exp (u • driftMatern q ℓ) 0 (Fin.last q)
      = ∑ k, NormedSpace.exp (τ • driftMatern q ℓ) 0 k * (NormedSpace.exp (u • driftMatern q ℓ) k (Fin.last q)
        * NormedSpace.exp (u • driftMatern q ℓ) 0 (Fin.last q)) := fun u => by
    have := mfdA_add (driftMatern q ℓ) (dispersion1d q) τ u
    simp only [(mfdA_eq _ _ _).1] at this
    rw [this, Matrix.mul_apply, Finset.sum_mul]
    exact Finset.sum_congr rfl fun k _ => by ring
  simp only [e]
  rw [integral_finsetSum _ fun k _ => (exp_matern_integrable q hℓ k _ 0 _).const_mul _, Matrix.mul_apply]
  exact Finset.sum_congr rfl fun k _ => by rw [integral_const_mul]; rfl

/-- The variance of the stationary Matérn process with unit diffusion. -/
noncomputable def outputScale (q : ℕ) (ℓ : ℝ) : ℝ :=
  ((2 * q).factorial : ℝ) / ((q.factorial : ℝ) ^ 2 * (2 * rate q ℓ) ^ (2 * q + 1))

theorem autocov_eq (q : ℕ) {ℓ : ℝ} (hℓ : 0 < ℓ) {τ : ℝ} :
    (NormedSpace.exp (τ • driftMatern q ℓ) * statCov q ℓ) 0 0 = outputScale q ℓ * Cov.maternValue q (rate q ℓ * τ) := by
  have hr := rate_pos q hℓ
  rw [autocov_integral q hℓ, Cov.matern_value]
  simp only [exp_matern_corner]
  have e : ∀ u : ℝ, (τ + u) ^ q / (q.factorial : ℝ) * Real.exp (-(rate q ℓ * (τ + u)))
      * (u ^ q / (q.factorial : ℝ) * Real.exp (-(rate q ℓ * u)))
      = ∑ i ∈ Finset.range (q + 1), (Real.exp (-(rate q ℓ * τ)) / (q.factorial : ℝ) ^ 2 * τ ^ i * (q.choose i : ℝ))
        * (u ^ (2 * q - i) * Real.exp (-(2 * rate q ℓ * u))) := fun u => by
    rw [add_pow, Finset.sum_div, Finset.sum_mul, Finset.sum_mul]
    refine Finset.sum_congr rfl fun i hi => ?_
    rw [Finset.mem_range] at hi
    rw [show 2 * q - i = (q - i) + q by omega, pow_add, show -(rate q ℓ * (τ + u)) = -(rate q ℓ * τ) + -(rate q ℓ * u) by ring,
      Real.exp_add, show -(2 * rate q ℓ * u) = -(rate q ℓ * u) + -(rate q ℓ * u) by ring, Real.exp_add]
    field_simp
  simp only [e]
  rw [integral_finsetSum _ fun i _ => (integrable_pow_exp (2 * q - i) (by linarith : 0 < 2 * rate q ℓ)).const_mul _]
  rw [mul_comm (∑ i ∈ Finset.range (q + 1), _) (Real.exp _), Finset.mul_sum, Finset.mul_sum]
  refine Finset.sum_congr rfl fun i hi => ?_
  rw [Finset.mem_range] at hi
  rw [integral_const_mul, integral_pow_exp (2 * q - i) (by linarith : 0 < 2 * rate q ℓ), outputScale, Cov.maternCoefficient,
    Nat.choose_eq_factorial_div_factorial (by omega), Nat.cast_div (Nat.factorial_mul_factorial_dvd_factorial (by omega))
      (by exact_mod_cast (Nat.mul_pos i.factorial_pos (q - i).factorial_pos).ne')]
  have f1 : ((q.factorial : ℕ) : ℝ) ≠ 0 := by exact_mod_cast q.factorial_ne_zero
  have f2 : ((i.factorial : ℕ) : ℝ) ≠ 0 := by exact_mod_cast i.factorial_ne_zero
  have f3 : (((q - i).factorial : ℕ) : ℝ) ≠ 0 := by exact_mod_cast (q - i).factorial_ne_zero
  have f4 : (((2 * q).factorial : ℕ) : ℝ) ≠ 0 := by exact_mod_cast (2 * q).factorial_ne_zero
  have f5 := hr.ne'
  have f6 : (2 * rate q ℓ) ^ (2 * q + 1) = (2 * rate q ℓ) ^ (2 * q - i + 1) * (2 * rate q ℓ) ^ i := by
    rw [← pow_add]; congr 1; omega
  rw [f6, mul_pow (rate q ℓ), mul_pow 2 (rate q ℓ) i]
  have f7 : (2 * rate q ℓ) ^ (2 * q - i + 1) ≠ 0 := pow_ne_zero _ (by positivity)
  push_cast
  field_simp

theorem kronEye_pair (d : ℕ) {k l : ℕ} (B : Matrix (Fin k) (Fin l) ℝ) (c c' : Fin d) (i : Fin k) (j : Fin l) :
    IWP.kronEye d B (finProdFinEquiv (c, i)) (finProdFinEquiv (c', j)) = if c = c' then B i j else 0 := by
  have e1 : (finProdFinEquiv (c, i)).divNat = c ∧ (finProdFinEquiv (c, i)).modNat = i := by
    have := finProdFinEquiv.symm_apply_apply (c, i)
    rw [finProdFinEquiv_symm_apply] at this
    exact Prod.mk.inj this
  have e2 : (finProdFinEquiv (c', j)).divNat = c' ∧ (finProdFinEquiv (c', j)).modNat = j := by
    have := finProdFinEquiv.symm_apply_apply (c', j)
    rw [finProdFinEquiv_symm_apply] at this
    exact Prod.mk.inj this
  simp only [IWP.kronEye, Matrix.of_apply, e1.1, e1.2, e2.1, e2.2]
  by_cases h : c = c'
  · simp [h]
  · simp [h]

theorem kronEye_inj {d k l : ℕ} (hd : 0 < d) {B C : Matrix (Fin k) (Fin l) ℝ} (h : IWP.kronEye d B = IWP.kronEye d C) : B = C := by
  ext i j
  have := congrFun (congrFun h (finProdFinEquiv (⟨0, hd⟩, i))) (finProdFinEquiv (⟨0, hd⟩, j))
  rwa [kronEye_pair, kronEye_pair, if_pos rfl, if_pos rfl] at this

theorem kronEye_tendsto (d : ℕ) {k l : ℕ} {B : ℝ → Matrix (Fin k) (Fin l) ℝ} {C : Matrix (Fin k) (Fin l) ℝ}
    (h : ∀ i j, Tendsto (fun t => B t i j) atTop (𝓝 (C i j))) (r : Fin (d * k)) (c : Fin (d * l)) :
    Tendsto (fun t => IWP.kronEye d (B t) r c) atTop (𝓝 (IWP.kronEye d C r c)) := by
  simp only [IWP.kronEye, Matrix.of_apply]
  exact (h _ _).const_mul _

/-- The discretised Matérn process. -/
theorem matern_disc (q d : ℕ) (ℓ : ℝ) (ch : CovCholesky (d * (q + 1))) (h : ℝ) :
    ((integrator q d (driftMatern q ℓ)).discretise ch h).mat = IWP.kronEye d (mfdA (driftMatern q ℓ) (dispersion1d q) h) ∧
    ((integrator q d (driftMatern q ℓ)).discretise ch h).noise.cov = IWP.kronEye d (mfdQ (driftMatern q ℓ) (dispersion1d q) h) ∧
    ((integrator q d (driftMatern q ℓ)).discretise ch h).noise.mean = 0 := by
  obtain ⟨e1, e2, e3⟩ := discretise_eq ch (integrator q d (driftMatern q ℓ)) h
  refine ⟨e1.trans (mfd_kron q d _ h).1, e2.trans (mfd_kron q d _ h).2, ?_⟩
  rw [e3]
  have : (integrator q d (driftMatern q ℓ)).force ∘ Fin.rev = 0 := rfl
  rw [this, Matrix.mulVec_zero]

theorem disc_mat_tendsto (q d : ℕ) {ℓ : ℝ} (hℓ : 0 < ℓ) (ch : CovCholesky (d * (q + 1))) (r c : Fin (d * (q + 1))) :
    Tendsto (fun h => ((integrator q d (driftMatern q ℓ)).discretise ch h).mat r c) atTop (𝓝 0) := by
  simp only [(matern_disc q d ℓ ch _).1]
  have := kronEye_tendsto d (B := fun h => mfdA (driftMatern q ℓ) (dispersion1d q) h) (C := 0)
    (fun i j => by simp only [(mfdA_eq _ _ _).1]; exact exp_matern_tendsto q hℓ i j) r c
  simpa [IWP.kronEye] using this

theorem disc_cov_tendsto (q d : ℕ) {ℓ : ℝ} (hℓ : 0 < ℓ) (ch : CovCholesky (d * (q + 1))) (r c : Fin (d * (q + 1))) :
    Tendsto (fun h => ((integrator q d (driftMatern q ℓ)).discretise ch h).noise.cov r c) atTop
      (𝓝 (IWP.kronEye d (statCov q ℓ) r c)) := by
  simp only [(matern_disc q d ℓ ch _).2.1]
  exact kronEye_tendsto d (mfdQ_tendsto q hℓ) r c

/-- The predicted covariance converges. -/
theorem forward_cov_tendsto (q d : ℕ) {ℓ : ℝ} (hℓ : 0 < ℓ) (ch : CovCholesky (d * (q + 1))) (δ : ℝ)
    (rv : Normal (d * (q + 1))) (r c : Fin (d * (q + 1))) :
    Tendsto (fun h => (forwardClassic ((integrator q d (driftMatern q ℓ)).discretise ch h) δ rv).cov r c) atTop
      (𝓝 ((δ • IWP.kronEye d (statCov q ℓ)) r c)) := by
  simp only [forwardClassic, Matrix.add_apply, Matrix.smul_apply, smul_eq_mul]
  rw [← zero_add (δ * _)]
  refine Tendsto.add ?_ ((disc_cov_tendsto q d hℓ ch r c).const_mul δ)
  simp only [Matrix.mul_apply, Matrix.transpose_apply, Finset.mul_sum]
  have h0 : Tendsto (fun h => ∑ k, ∑ l, ((integrator q d (driftMatern q ℓ)).discretise ch h).mat r k
      * (rv.cov k l * ((integrator q d (driftMatern q ℓ)).discretise ch h).mat c l)) atTop
      (𝓝 (∑ k : Fin (d * (q + 1)), ∑ l : Fin (d * (q + 1)), 0 * (rv.cov k l * 0))) :=
    tendsto_finsetSum _ fun k _ => tendsto_finsetSum _ fun l _ =>
      (disc_mat_tendsto q d hℓ ch r k).mul ((disc_mat_tendsto q d hℓ ch c l).const_mul _)
  simpa using h0

theorem stat_forward (q d : ℕ) {ℓ : ℝ} (hℓ : 0 < ℓ) (ch : CovCholesky (d * (q + 1))) (δ h : ℝ) :
    ((integrator q d (driftMatern q ℓ)).discretise ch h).mat * (δ • IWP.kronEye d (statCov q ℓ))
      * (((integrator q d (driftMatern q ℓ)).discretise ch h).mat)ᵀ
      + δ • ((integrator q d (driftMatern q ℓ)).discretise ch h).noise.cov = δ • IWP.kronEye d (statCov q ℓ) := by
  rw [(matern_disc q d ℓ ch h).1, (matern_disc q d ℓ ch h).2.1, Matrix.mul_smul, Matrix.smul_mul, ← smul_add,
    IWP.kronEye_transpose, IWP.kronEye_mul, IWP.kronEye_mul, IWP.kronEye_add, statCov_stationary q hℓ]

/-- The Lyapunov equation. -/
theorem statCov_lyapunov (q : ℕ) {ℓ : ℝ} (hℓ : 0 < ℓ) :
    driftMatern q ℓ * statCov q ℓ + statCov q ℓ * (driftMatern q ℓ)ᵀ + dispersion1d q * (dispersion1d q)ᵀ = 0 := by
  have h1 := (((mfdA_deriv (driftMatern q ℓ) (dispersion1d q) 0).mul (MDeriv.const (statCov q ℓ))).mul
    (mfdA_deriv (driftMatern q ℓ) (dispersion1d q) 0).transpose).add (mfdQ_deriv (driftMatern q ℓ) (dispersion1d q) 0)
  ext i j
  have h2 := h1 i j
  have e : (fun s => (mfdA (driftMatern q ℓ) (dispersion1d q) s * statCov q ℓ * (mfdA (driftMatern q ℓ) (dispersion1d q) s)ᵀ
      + mfdQ (driftMatern q ℓ) (dispersion1d q) s) i j) = fun _ => statCov q ℓ i j := by
    funext s; rw [statCov_stationary q hℓ s]
  rw [e] at h2
  have h3 := h2.unique (hasDerivAt_const _ _)
  simpa [mfdA_zero, mfdQ_zero] using h3

end Probnum.SDE
