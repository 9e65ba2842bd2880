import Verif.SDE.CovarianceSpec

/-!
# Helper lemmas: covariance functions of Gauss-Markov processes with any initial distribution
-/

namespace Probnum.Kalman

open MeasureTheory ProbabilityTheory Matrix Probnum.Gauss Probnum.LinGauss

variable {Ω : Type*} {mΩ : MeasurableSpace Ω} {P : Measure Ω} {n N : ℕ} {init : Updated n} {A : ℕ → Transition n n}
  {X : ℕ → Ω → Fin n → ℝ}

theorem MarkovChain.marginal (h : MarkovChain P N init A X) (M : ℕ → Fin n → ℝ) (C : ℕ → Matrix (Fin n) (Fin n) ℝ)
    (hM0 : M 0 = init.mean) (hC0 : C 0 = init.cov) (hM : ∀ k, k < N → M (k + 1) = (A k).mat *ᵥ M k + (A k).noise.mean)
    (hC : ∀ k, k < N → C (k + 1) = (A k).mat * C k * (A k).matᵀ + (A k).noise.cov) : ∀ k, k ≤ N → IsNormal P (X k) (M k) (C k)
  | 0, _ => by rw [hM0, hC0]; exact h.init
  | k + 1, hk => by
    obtain ⟨W, h1, h2, h3⟩ := h.dyn k (by omega)
    have ih := MarkovChain.marginal h M C hM0 hC0 hM hC k (by omega)
    have hind : IndepFun (X k) W P := by
      have hφ : Measurable fun v : Fin (k + 1) → Fin n → ℝ => v (Fin.last k) := by fun_prop
      exact h3.symm.comp hφ measurable_id
    have := ih.comb h2 hind (A k).mat 1 0
    simp only [Matrix.one_mulVec, add_zero, Matrix.one_mul, Matrix.transpose_one, Matrix.mul_one] at this
    rw [← hM k (by omega), ← hC k (by omega)] at this
    have e : X (k + 1) = fun ω => (A k).mat *ᵥ X k ω + W ω := funext h1
    rw [e]; exact this

theorem MarkovChain.crossCov' (h : MarkovChain P N init A X) (M : ℕ → Fin n → ℝ) (C : ℕ → Matrix (Fin n) (Fin n) ℝ)
    (hX : ∀ k, k ≤ N → IsNormal P (X k) (M k) (C k)) (Φ : ℕ → ℕ → Matrix (Fin n) (Fin n) ℝ) (hΦ0 : ∀ j, Φ j j = 1)
    (hΦ : ∀ j k, j ≤ k → k < N → Φ j (k + 1) = (A k).mat * Φ j k) (j : ℕ) :
    ∀ k, j ≤ k → k ≤ N → CrossCov P (X k) (X j) (Φ j k * C j) := by
  intro k hjk
  induction k, hjk using Nat.le_induction with
  | base => intro hj; rw [hΦ0, Matrix.one_mul]; exact (hX j hj).cov
  | succ k hjk ih =>
    intro hk
    have ih := ih (by omega)
    obtain ⟨W, h1, h2, h3⟩ := h.dyn k (by omega)
    have := h2.isProbabilityMeasure
    have nk := hX k (by omega)
    have nj := hX j (by omega)
    have hind : IndepFun W (X j) P := by
      have hψ : Measurable fun v : Fin (k + 1) → Fin n → ℝ => v ⟨j, by omega⟩ := by fun_prop
      exact h3.comp measurable_id hψ
    have hz := cov_zero_of_indep hind (memLp_coord h2.gaussian) (memLp_coord nj.gaussian)
    intro a b
    have e1 : (fun ω => X (k + 1) ω a) = (fun ω => ((A k).mat *ᵥ X k ω) a) + fun ω => W ω a := by
      funext ω; rw [h1 ω]; rfl
    have m1 := memLp_mulVec (memLp_coord nk.gaussian) (A k).mat a
    rw [e1, covariance_add_left m1 (memLp_coord h2.gaussian a) (memLp_coord nj.gaussian b), hz a b, Matrix.zero_apply,
      add_zero]
    have hc := cov_affine (memLp_coord nk.gaussian) (memLp_coord nj.gaussian) ih (A k).mat 1 0 0 a b
    simp only [add_zero, Matrix.one_mulVec, Matrix.transpose_one, Matrix.mul_one] at hc
    rw [hc, hΦ j k hjk (by omega), Matrix.mul_assoc]

/-- Transitions over time steps: a semigroup of matrices with matching noise covariances. -/
structure Semigroup (disc : ℝ → Transition n n) (Φ Q : ℝ → Matrix (Fin n) (Fin n) ℝ) : Prop where
  mat : ∀ h, 0 < h → (disc h).mat = Φ h
  cov : ∀ h, 0 < h → (disc h).noise.cov = Q h
  mean : ∀ h, 0 < h → (disc h).noise.mean = 0
  zero : Φ 0 = 1 ∧ Q 0 = 0
  add : ∀ a b, Φ (a + b) = Φ a * Φ b
  noise : ∀ a b, Φ b * Q a * (Φ b)ᵀ + Q b = Q (a + b)
  symm : ∀ a, (Q a)ᵀ = Q a

/-- Mean and covariances of the states at non-decreasing times `τ`. -/
theorem Semigroup.chain {disc : ℝ → Transition n n} {Φ Q : ℝ → Matrix (Fin n) (Fin n) ℝ} (hd : Semigroup disc Φ Q)
    {τ : ℕ → ℝ} (hτ : ∀ k, k < N → τ k ≤ τ (k + 1)) (hs : init.covᵀ = init.cov)
    (h : MarkovChain P N init (fun k => gapTransition disc (τ (k + 1) - τ k)) X)
    (K : ℝ → ℝ → Matrix (Fin n) (Fin n) ℝ)
    (hK : ∀ s t, 0 ≤ t → t ≤ s → K s t = Φ s * init.cov * (Φ t)ᵀ + Φ (s - t) * Q t) (hKs : ∀ s t, (K s t)ᵀ = K t s) :
    (∀ k, k ≤ N → ∀ a, ∫ ω, X k ω a ∂P = (Φ (τ k - τ 0) *ᵥ init.mean) a) ∧
    ∀ j k, j ≤ N → k ≤ N → CrossCov P (X j) (X k) (K (τ j - τ 0) (τ k - τ 0)) := by
  have hmono : ∀ j k, j ≤ k → k ≤ N → τ j ≤ τ k := by
    intro j k hjk
    induction k, hjk using Nat.le_induction with
    | base => intro _; exact le_rfl
    | succ k hjk ih => intro hk; exact (ih (by omega)).trans (hτ k (by omega))
  have hA : ∀ k, k < N → (gapTransition disc (τ (k + 1) - τ k)).mat = Φ (τ (k + 1) - τ k) ∧
      (gapTransition disc (τ (k + 1) - τ k)).noise.cov = Q (τ (k + 1) - τ k) ∧
      (gapTransition disc (τ (k + 1) - τ k)).noise.mean = 0 := fun k hk => by
    simp only [gapTransition]
    split_ifs with hg
    · exact ⟨hd.mat _ hg, hd.cov _ hg, hd.mean _ hg⟩
    · have : τ (k + 1) - τ k = 0 := by have := hτ k hk; linarith
      rw [this]
      exact ⟨hd.zero.1.symm, hd.zero.2.symm, rfl⟩
  let C : ℕ → Matrix (Fin n) (Fin n) ℝ := fun k => Φ (τ k - τ 0) * init.cov * (Φ (τ k - τ 0))ᵀ + Q (τ k - τ 0)
  have hm := h.marginal (fun k => Φ (τ k - τ 0) *ᵥ init.mean) C (by simp [hd.zero.1]) (by simp [C, hd.zero])
    (fun k hk => by
      rw [(hA k hk).1, (hA k hk).2.2, add_zero, Matrix.mulVec_mulVec, ← hd.add, sub_add_sub_cancel])
    (fun k hk => by
      rw [(hA k hk).1, (hA k hk).2.1]
      have e1 := hd.add (τ (k + 1) - τ k) (τ k - τ 0)
      have e2 := hd.noise (τ k - τ 0) (τ (k + 1) - τ k)
      rw [sub_add_sub_cancel] at e1
      rw [show τ k - τ 0 + (τ (k + 1) - τ k) = τ (k + 1) - τ 0 by ring] at e2
      simp only [C]
      rw [e1, ← e2, Matrix.transpose_mul]
      simp only [Matrix.mul_add, Matrix.add_mul, Matrix.mul_assoc, add_assoc])
  have hc : ∀ j k, j ≤ k → k ≤ N → CrossCov P (X k) (X j) (K (τ k - τ 0) (τ j - τ 0)) := fun j k hjk hk => by
    have := h.crossCov' _ C hm (fun j k => Φ (τ k - τ j)) (fun j => by simp [hd.zero.1]) (fun j k _ hk => by
      rw [(hA k hk).1, ← hd.add, sub_add_sub_cancel]) j k hjk hk
    rw [hK _ _ (sub_nonneg.2 (hmono 0 j (by omega) (by omega))) (by linarith [hmono j k hjk hk])]
    convert this using 1
    simp only [C]
    rw [Matrix.mul_add, ← Matrix.mul_assoc, ← Matrix.mul_assoc, ← hd.add, sub_add_sub_cancel, sub_sub_sub_cancel_right]
  refine ⟨fun k hk a => (hm k hk).mean a, fun j k hj hk => ?_⟩
  rcases le_total k j with hkj | hkj
  · exact hc k j hkj hj
  · intro a b
    rw [covariance_comm, hc j k hkj hk b a, ← hKs]
    rfl

/-- Smoothing as regression with the covariance function of the process. -/
theorem Semigroup.regression {m : ℕ} {disc : ℝ → Transition n n} {Φ Q : ℝ → Matrix (Fin n) (Fin n) ℝ} (hd : Semigroup disc Φ Q)
    (hQ : ∀ h, 0 < h → (Q h).PosDef) (t0 : ℝ) (loc : ℕ → ℝ) (hN : 0 < N) (h0 : t0 ≤ loc 0)
    (hloc : ∀ k, k + 1 < N → loc k < loc (k + 1)) (hC : init.cov.PosSemidef) (H : ℕ → Transition n m)
    (hH : ∀ k, k < N → (H k).noise.cov.PosDef) (K : ℝ → ℝ → Matrix (Fin n) (Fin n) ℝ)
    (hK : ∀ s t, 0 ≤ t → t ≤ s → K s t = Φ s * init.cov * (Φ t)ᵀ + Φ (s - t) * Q t) (hKs : ∀ s t, (K s t)ᵀ = K t s)
    (y : ℕ → Fin m → ℝ) (μ : ℕ → Fin n → ℝ) (K' : ℕ → ℕ → Matrix (Fin n) (Fin n) ℝ)
    (hμ : μ = fun k => Φ (stateTime t0 loc k - t0) *ᵥ init.mean)
    (hK' : K' = fun j k => K (stateTime t0 loc j - t0) (stateTime t0 loc k - t0)) :
    filtsmooth (classicPrior t0 init disc) (gaussProblem N loc H y) none
      = .ok ⟨(List.range N).map loc, (List.range N).map fun k =>
          ⟨μ (k + 1) + (stateObsCov N K' H k * (obsCov N K' H)⁻¹) *ᵥ ((fun p => y p.1 p.2) - obsMean N μ H),
            K' (k + 1) (k + 1) - stateObsCov N K' H k * (obsCov N K' H)⁻¹ * (stateObsCov N K' H k)ᵀ⟩, false⟩ := by
  have hstep : ∀ k, k < N → stateTime t0 loc k ≤ stateTime t0 loc (k + 1) := fun k hk => by
    cases k with
    | zero => exact h0
    | succ k => exact (hloc k hk).le
  have hD : ∀ h, 0 < h → (disc h).noise.cov.PosDef := fun h hh => by rw [hd.cov h hh]; exact hQ h hh
  have hmono : ∀ j k, j < k → k < N → loc j < loc k := by
    intro j k hjk
    induction k, hjk using Nat.le_induction with
    | base => intro h; exact hloc j h
    | succ k hjk ih => intro h; exact (ih (by omega)).trans (hloc k h)
  have hpw : ((List.range N).map loc).Pairwise (· < ·) := by
    rw [List.pairwise_iff_getElem]
    intro i j hi hj hij
    simp only [List.getElem_map, List.getElem_range]
    exact hmono i j hij (by simpa using hj)
  have hok := filtsmooth_succeeds_of_posDef t0 init disc N loc H hN hpw hC (fun dt h => hD dt h) hH y
  obtain ⟨X, Y, hss⟩ := exists_stateSpace_psd N init
    (fun k => gapTransition disc (stateTime t0 loc (k + 1) - stateTime t0 loc k)) H hC (fun k => by
      simp only [gapTransition]
      split_ifs with hg
      · exact (hD _ hg).posSemidef
      · exact Matrix.PosSemidef.zero) fun k hk => (hH k hk).posSemidef
  have hs : init.covᵀ = init.cov := by
    have := hC.isHermitian
    rwa [Matrix.IsHermitian, Matrix.conjTranspose_eq_transpose_of_trivial] at this
  obtain ⟨c1, c2⟩ := hd.chain hstep hs hss.chain K hK hKs
  rw [hμ, hK']
  exact filtsmooth_is_regression t0 init disc N loc H X Y hss ⟨y, _, hok⟩ c1 c2 (obsCov_posDef hss c2 hH).det_pos.ne' y

end Probnum.Kalman

namespace Probnum.SDE

open Matrix MeasureTheory ProbabilityTheory LinGauss Kalman Gauss

variable {q d : ℕ} (G : Matrix (Fin (q + 1)) (Fin (q + 1)) ℝ)

theorem integrator_semigroup (d : ℕ) (ch : CovCholesky (d * (q + 1))) :
    Semigroup (fun h => (integrator q d G).discretise ch h) (fun h => IWP.kronEye d (NormedSpace.exp (h • G)))
      fun h => IWP.kronEye d (mfdQ G (dispersion1d q) h) := by
  obtain ⟨e⟩ : Nonempty (∀ h, _) := ⟨fun h => discretise_eq ch (integrator q d G) h⟩
  refine ⟨fun h _ => ?_, fun h _ => integrator_disc q d G ch h, fun h _ => ?_, ⟨?_, ?_⟩, fun a b => ?_, fun a b => ?_, fun a => ?_⟩
  · rw [(e h).1, ← (mfdA_eq G (dispersion1d q) h).1]; exact (mfd_kron q d _ h).1
  · rw [(e h).2.2]
    have : (integrator q d G).force ∘ Fin.rev = 0 := rfl
    rw [this, Matrix.mulVec_zero]
  · simp [IWP.kronEye_one]
  · rw [mfdQ_zero]; ext i j; simp [IWP.kronEye]
  · rw [IWP.kronEye_mul]
    have := mfdA_add G (dispersion1d q) a b
    simp only [(mfdA_eq _ _ _).1] at this
    rw [this]
  · rw [IWP.kronEye_transpose, IWP.kronEye_mul, IWP.kronEye_mul, IWP.kronEye_add, ← (mfdA_eq G (dispersion1d q) b).1, ← mfdQ_add]
  · rw [IWP.kronEye_transpose, mfdQ_symm]

/-- Transported noise covariances as integrals. -/
theorem exp_mfdQ (s t : ℝ) (i j : Fin (q + 1)) :
    (NormedSpace.exp ((s - t) • G) * mfdQ G (dispersion1d q) t) i j = ∫ u in (0 : ℝ)..t,
      NormedSpace.exp ((s - u) • G) i (Fin.last q) * NormedSpace.exp ((t - u) • G) j (Fin.last q) := by
  have hc : ∀ i j, Continuous fun u : ℝ => NormedSpace.exp (u • G) i j := fun i j =>
    continuous_iff_continuousAt.2 fun u => (mderiv_exp G u i j).continuousAt
  have e : ∀ u : ℝ, NormedSpace.exp ((s - u) • G) i (Fin.last q) * NormedSpace.exp ((t - u) • G) j (Fin.last q)
      = ∑ k, NormedSpace.exp ((s - t) • G) i k
        * (NormedSpace.exp ((t - u) • G) k (Fin.last q) * NormedSpace.exp ((t - u) • G) j (Fin.last q)) := fun u => by
    have := mfdA_add G (dispersion1d q) (s - t) (t - u)
    simp only [(mfdA_eq _ _ _).1, sub_add_sub_cancel] at this
    rw [this, Matrix.mul_apply, Finset.sum_mul]
    exact Finset.sum_congr rfl fun k _ => by ring
  simp only [e]
  rw [intervalIntegral.integral_finsetSum fun k _ => (Continuous.intervalIntegrable (by
    exact continuous_const.mul (((hc _ _).comp (continuous_const.sub continuous_id)).mul
      ((hc _ _).comp (continuous_const.sub continuous_id)))) _ _), Matrix.mul_apply]
  refine Finset.sum_congr rfl fun k _ => ?_
  rw [intervalIntegral.integral_const_mul, mfdQ_entry,
    intervalIntegral.integral_comp_sub_left (fun u => NormedSpace.exp (u • G) k (Fin.last q) * NormedSpace.exp (u • G) j (Fin.last q))]
  simp

end Probnum.SDE

namespace Probnum.SDE

open Matrix MeasureTheory ProbabilityTheory LinGauss Kalman Gauss

variable {q d N m : ℕ}

/-! ## Helper facts on the specification -/

theorem procCov_eq (G : Matrix (Fin (q + 1)) (Fin (q + 1)) ℝ) (C0 : Matrix (Fin (d * (q + 1))) (Fin (d * (q + 1))) ℝ) (s t : ℝ)
    (h : t ≤ s) : procCov q d G C0 s t = IWP.kronEye d (NormedSpace.exp (s • G)) * C0 * (IWP.kronEye d (NormedSpace.exp (t • G)))ᵀ
      + IWP.kronEye d (NormedSpace.exp ((s - t) • G)) * IWP.kronEye d (mfdQ G (dispersion1d q) t) := by
  rw [procCov, IWP.kronEye_mul, min_eq_right h]
  congr 2
  ext i j
  rw [exp_mfdQ]; rfl

theorem procCov_symm (G : Matrix (Fin (q + 1)) (Fin (q + 1)) ℝ) {C0 : Matrix (Fin (d * (q + 1))) (Fin (d * (q + 1))) ℝ}
    (hC : C0ᵀ = C0) (s t : ℝ) : (procCov q d G C0 s t)ᵀ = procCov q d G C0 t s := by
  rw [procCov, procCov, Matrix.transpose_add, Matrix.transpose_mul, Matrix.transpose_mul, Matrix.transpose_transpose, hC,
    ← Matrix.mul_assoc, IWP.kronEye_transpose (B := Matrix.of _)]
  congr 2
  ext i j
  rw [Matrix.transpose_apply, Matrix.of_apply, Matrix.of_apply, min_comm]
  simp only [mul_comm]

theorem companion_iwp (q : ℕ) : Companion q (driftIwp q) := fun i j h => by
  simp [driftIwp]

theorem exp_driftIwp (q : ℕ) (h : ℝ) : NormedSpace.exp (h • driftIwp q) = IWP.taylor q h := by
  have := linear_unique (driftIwp q) (X := fun t => IWP.taylor q t) (Y := fun t => NormedSpace.exp (t • driftIwp q))
    (C := fun _ => 0) (fun t => (taylor_deriv q t).congr (by simp)) (fun t => (mderiv_exp (driftIwp q) t).congr (by simp))
    (by simp [IWP.taylor_zero]) h
  exact this.symm

theorem procCov_iwp (C0 : Matrix (Fin (d * (q + 1))) (Fin (d * (q + 1))) ℝ) : procCov q d (driftIwp q) C0 = iwpCov q d C0 := by
  funext s t
  have e : ∀ (u : ℝ) (i : Fin (q + 1)), IWP.taylor q u i (Fin.last q) = u ^ (q - i.1) / ((q - i.1).factorial : ℝ) := fun u i => by
    rw [IWP.taylor, Matrix.of_apply, if_pos (Fin.le_last i)]; rfl
  simp only [procCov, iwpCov, exp_driftIwp, e]

theorem regression_eq {n : ℕ} {t0 : ℝ} {loc : ℕ → ℝ} {H : ℕ → Transition n m} {y : ℕ → Fin m → ℝ} {μ : ℝ → Fin n → ℝ}
    {K : ℝ → ℝ → Matrix (Fin n) (Fin n) ℝ} (k : ℕ) : regression N t0 loc H y μ K k =
    let μ' := fun k => μ (stateTime t0 loc k - t0)
    let K' := fun j k => K (stateTime t0 loc j - t0) (stateTime t0 loc k - t0)
    ⟨μ' (k + 1) + (stateObsCov N K' H k * (obsCov N K' H)⁻¹) *ᵥ ((fun p => y p.1 p.2) - obsMean N μ' H),
      K' (k + 1) (k + 1) - stateObsCov N K' H k * (obsCov N K' H)⁻¹ * (stateObsCov N K' H k)ᵀ⟩ := rfl

theorem iwp_semigroup (q d : ℕ) (chol : CovCholesky (q + 1)) (ch : CovCholesky (d * (q + 1)))
    {disc : ℝ → Transition (d * (q + 1)) (d * (q + 1))} (hdisc : ∀ h, 0 < h → IWP.discretise q d chol h = some (disc h)) :
    Semigroup disc (fun h => IWP.kronEye d (NormedSpace.exp (h • driftIwp q)))
      fun h => IWP.kronEye d (mfdQ (driftIwp q) (dispersion1d q) h) := by
  have hs := integrator_semigroup (driftIwp q) d ch
  have ha : ∀ h, 0 < h → (disc h).mat = ((integrator q d (driftIwp q)).discretise ch h).mat ∧
      (disc h).noise.cov = ((integrator q d (driftIwp q)).discretise ch h).noise.cov ∧
      (disc h).noise.mean = ((integrator q d (driftIwp q)).discretise ch h).noise.mean := fun h hh => by
    obtain ⟨tr, h1, h2⟩ := iwp_discretise_agrees q d chol ch hh
    rw [hdisc h hh] at h1
    rw [Option.some.inj h1]; exact h2
  exact ⟨fun h hh => (ha h hh).1.trans (hs.mat h hh), fun h hh => (ha h hh).2.1.trans (hs.cov h hh),
    fun h hh => (ha h hh).2.2.trans (hs.mean h hh), hs.zero, hs.add, hs.noise, hs.symm⟩

theorem gap_chain {Ω : Type*} {mΩ : MeasurableSpace Ω} {P : Measure Ω} {n : ℕ} {init : Updated n} {disc : ℝ → Transition n n}
    {τ : ℕ → ℝ} {X : ℕ → Ω → Fin n → ℝ} (hτ : ∀ k, k < N → τ k < τ (k + 1))
    (h : MarkovChain P N init (fun k => disc (τ (k + 1) - τ k)) X) :
    MarkovChain P N init (fun k => gapTransition disc (τ (k + 1) - τ k)) X :=
  ⟨h.init, fun k hk => by
    have e : gapTransition disc (τ (k + 1) - τ k) = disc (τ (k + 1) - τ k) := by
      rw [gapTransition, if_pos (sub_pos.2 (hτ k hk))]
    simp only [e]
    exact h.dyn k hk⟩

theorem symm_of_psd {n : ℕ} {C : Matrix (Fin n) (Fin n) ℝ} (h : C.PosSemidef) : Cᵀ = C := by
  have := h.isHermitian
  rwa [Matrix.IsHermitian, Matrix.conjTranspose_eq_transpose_of_trivial] at this

end Probnum.SDE
