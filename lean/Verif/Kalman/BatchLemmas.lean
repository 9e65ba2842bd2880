import Verif.Kalman.SmoothExact
import Verif.SDE.StationaryLemmas

/-!
# Helper lemmas: joint covariances of states and observations; the smoothed mean is affine in the data
-/

namespace Probnum.Kalman

open MeasureTheory ProbabilityTheory Matrix Probnum.Gauss Probnum.LinGauss

variable {Ω : Type*} {mΩ : MeasurableSpace Ω} {P : Measure Ω} {n m N : ℕ} {init : Updated n} {A : ℕ → Transition n n}
  {H : ℕ → Transition n m} {X : ℕ → Ω → Fin n → ℝ} {Y : ℕ → Ω → Fin m → ℝ}

theorem StateSpace.chain (h : StateSpace P N init A H X Y) : MarkovChain P N init A X where
  init := h.init
  dyn := fun k hk => by
    obtain ⟨W, h1, h2, h3⟩ := h.dyn k hk
    exact ⟨W, h1, h2, h3.comp measurable_id measurable_fst⟩

theorem StateSpace.memX (h : StateSpace P N init A H X Y) (k : ℕ) (hk : k ≤ N) (a : Fin n) : MemLp (fun ω => X k ω a) 2 P :=
  memLp_coord (h.chain.gaussian N le_rfl) (⟨k, by omega⟩, a)

theorem StateSpace.memY (h : StateSpace P N init A H X Y) (k : ℕ) (hk : k < N) (a : Fin m) : MemLp (fun ω => Y k ω a) 2 P := by
  obtain ⟨V, h1, h2, -⟩ := h.obs k hk
  have e : (fun ω => Y k ω a) = (fun ω => ∑ b, (H k).mat a b * X (k + 1) ω b) + fun ω => V ω a := by
    funext ω; rw [h1 ω]; rfl
  rw [e]
  exact (memLp_finsetSum _ fun b _ => (h.memX (k + 1) (by omega) b).const_mul _).add (memLp_coord h2.gaussian a)

theorem memLp_mulVec {ι κ : Type*} [Fintype ι] {Z : Ω → ι → ℝ} (hZ : ∀ a, MemLp (fun ω => Z ω a) 2 P) (M : Matrix κ ι ℝ) (b : κ) :
    MemLp (fun ω => (M *ᵥ Z ω) b) 2 P := by
  have : MemLp (fun ω => ∑ a, M b a * Z ω a) 2 P := memLp_finsetSum _ fun a _ => (hZ a).const_mul _
  exact this

/-- Covariance between states and observations. -/
theorem StateSpace.cov_state_obs (h : StateSpace P N init A H X Y) {K : ℕ → ℕ → Matrix (Fin n) (Fin n) ℝ}
    (hK : ∀ j k, j ≤ N → k ≤ N → CrossCov P (X j) (X k) (K j k)) (k : ℕ) (hk : k < N) :
    ∀ j, j ≤ N → CrossCov P (X j) (Y k) (K j (k + 1) * (H k).matᵀ) := by
  have := h.init.isProbabilityMeasure
  have key : ∀ j, j ≤ k + 1 → CrossCov P (X j) (Y k) (K j (k + 1) * (H k).matᵀ) := by
    intro j hj a b
    obtain ⟨V, h1, h2, h3⟩ := h.obs k hk
    have hind : IndepFun (X j) V P := by
      have hψ : Measurable fun v : (Fin (k + 2) → Fin n → ℝ) × (Fin k → Fin m → ℝ) => v.1 ⟨j, by omega⟩ := by fun_prop
      exact (h3.comp measurable_id hψ).symm
    have hz := cov_zero_of_indep hind (h.memX j (by omega)) (memLp_coord h2.gaussian)
    have e1 : (fun ω => Y k ω b) = (fun ω => ((H k).mat *ᵥ X (k + 1) ω) b) + fun ω => V ω b := by
      funext ω; rw [h1 ω]; rfl
    have m1 : MemLp (fun ω => ((H k).mat *ᵥ X (k + 1) ω) b) 2 P :=
      memLp_mulVec (h.memX (k + 1) (by omega)) _ _
    rw [e1, covariance_add_right (h.memX j (by omega) a) m1 (memLp_coord h2.gaussian b), hz a b, Matrix.zero_apply, add_zero]
    have hc := cov_affine (h.memX j (by omega)) (h.memX (k + 1) (by omega)) (hK j (k + 1) (by omega) (by omega)) 1 (H k).mat 0 0 a b
    simpa only [add_zero, Matrix.one_mulVec, Matrix.one_mul] using hc
  intro j
  induction j with
  | zero => intro _; exact key 0 (by omega)
  | succ j ih =>
    intro hj
    rcases Nat.lt_or_ge k j with hkj | hkj
    · intro a b
      obtain ⟨W, h1, h2, h3⟩ := h.dyn j (by omega)
      have hcov : ∀ {l : ℕ} (Z : Ω → Fin l → ℝ) (M : Matrix (Fin n) (Fin l) ℝ), CrossCov P (X j) Z M → IndepFun W Z P →
          (∀ b, MemLp (fun ω => Z ω b) 2 P) → CrossCov P (X (j + 1)) Z ((A j).mat * M) := fun Z M hM hi hZ a b => by
        have hz := cov_zero_of_indep hi (memLp_coord h2.gaussian) hZ
        have e1 : (fun ω => X (j + 1) ω a) = (fun ω => ((A j).mat *ᵥ X j ω) a) + fun ω => W ω a := by
          funext ω; rw [h1 ω]; rfl
        have m1 : MemLp (fun ω => ((A j).mat *ᵥ X j ω) a) 2 P :=
          memLp_mulVec (h.memX j (by omega)) _ _
        rw [e1, covariance_add_left m1 (memLp_coord h2.gaussian a) (hZ b), hz a b, Matrix.zero_apply, add_zero]
        have hc := cov_affine (h.memX j (by omega)) hZ hM (A j).mat 1 0 0 a b
        simpa only [add_zero, Matrix.one_mulVec, Matrix.transpose_one, Matrix.mul_one] using hc
      have hψ : Measurable fun v : (Fin (j + 1) → Fin n → ℝ) × (Fin j → Fin m → ℝ) => v.2 ⟨k, hkj⟩ := by fun_prop
      have hψ' : Measurable fun v : (Fin (j + 1) → Fin n → ℝ) × (Fin j → Fin m → ℝ) => v.1 ⟨k + 1, by omega⟩ := by fun_prop
      have c1 := hcov (Y k) _ (ih (by omega)) (h3.comp measurable_id hψ) (h.memY k hk)
      have c2 := hcov (X (k + 1)) _ (hK j (k + 1) (by omega) (by omega)) (h3.comp measurable_id hψ') (h.memX (k + 1) (by omega))
      have e : (A j).mat * K j (k + 1) = K (j + 1) (k + 1) := by
        ext a' b'
        rw [← c2 a' b', hK (j + 1) (k + 1) hj (by omega) a' b']
      rw [c1 a b, ← Matrix.mul_assoc, e]
    · exact key (j + 1) (by omega)

/-- Covariance between observations. -/
theorem StateSpace.cov_obs_obs (h : StateSpace P N init A H X Y) {K : ℕ → ℕ → Matrix (Fin n) (Fin n) ℝ}
    (hK : ∀ j k, j ≤ N → k ≤ N → CrossCov P (X j) (X k) (K j k)) (l k : ℕ) (hl : l < N) (hk : k < N) :
    CrossCov P (Y l) (Y k) ((H l).mat * K (l + 1) (k + 1) * (H k).matᵀ + if l = k then (H k).noise.cov else 0) := by
  have := h.init.isProbabilityMeasure
  have key : ∀ l k, k ≤ l → l < N →
      CrossCov P (Y l) (Y k) ((H l).mat * K (l + 1) (k + 1) * (H k).matᵀ + if l = k then (H k).noise.cov else 0) := by
    intro l k hkl hl a b
    obtain ⟨V, h1, h2, h3⟩ := h.obs l hl
    have e1 : (fun ω => Y l ω a) = (fun ω => ((H l).mat *ᵥ X (l + 1) ω) a) + fun ω => V ω a := by
      funext ω; rw [h1 ω]; rfl
    have m1 : MemLp (fun ω => ((H l).mat *ᵥ X (l + 1) ω) a) 2 P :=
      memLp_mulVec (h.memX (l + 1) (by omega)) _ _
    rw [e1, covariance_add_left m1 (memLp_coord h2.gaussian a) (h.memY k (by omega) b)]
    have hc := cov_affine (h.memX (l + 1) (by omega)) (h.memY k (by omega)) (h.cov_state_obs hK k (by omega) (l + 1) (by omega))
      (H l).mat 1 0 0 a b
    simp only [add_zero, Matrix.one_mulVec, Matrix.transpose_one, Matrix.mul_one] at hc
    rw [hc, ← Matrix.mul_assoc, Matrix.add_apply]
    congr 1
    rcases Nat.lt_or_ge k l with hlt | hge
    · have hψ : Measurable fun v : (Fin (l + 2) → Fin n → ℝ) × (Fin l → Fin m → ℝ) => v.2 ⟨k, hlt⟩ := by fun_prop
      have hz := cov_zero_of_indep (h3.comp measurable_id hψ) (memLp_coord h2.gaussian) (h.memY k (by omega))
      rw [if_neg (by omega)]
      exact hz a b
    · obtain rfl : l = k := by omega
      have hψ : Measurable fun v : (Fin (l + 2) → Fin n → ℝ) × (Fin l → Fin m → ℝ) => v.1 ⟨l + 1, by omega⟩ := by fun_prop
      have hz := cov_zero_of_indep (h3.comp measurable_id hψ) (memLp_coord h2.gaussian) (h.memX (l + 1) (by omega))
      have hz' := cov_affine (memLp_coord h2.gaussian) (h.memX (l + 1) (by omega)) hz 1 (H l).mat 0 0 a b
      simp only [add_zero, Matrix.one_mulVec, Matrix.mul_zero, Matrix.zero_mul, Matrix.zero_apply] at hz'
      rw [if_pos rfl]
      have e2 : (fun ω => Y l ω b) = (fun ω => ((H l).mat *ᵥ X (l + 1) ω) b) + fun ω => V ω b := by
        funext ω; rw [h1 ω]; rfl
      have m2 : MemLp (fun ω => ((H l).mat *ᵥ X (l + 1) ω) b) 2 P :=
        memLp_mulVec (h.memX (l + 1) (by omega)) _ _
      rw [e2, covariance_add_right (memLp_coord h2.gaussian a) m2 (memLp_coord h2.gaussian b), hz', zero_add]
      exact h2.cov a b
  rcases le_total k l with h' | h'
  · exact key l k h' hl
  · intro a b
    rw [covariance_comm, key k l h' hk b a, Matrix.add_apply, Matrix.add_apply]
    have e : K (k + 1) (l + 1) = (K (l + 1) (k + 1))ᵀ := by
      ext a' b'
      rw [Matrix.transpose_apply, ← hK (k + 1) (l + 1) (by omega) (by omega) a' b', ← hK (l + 1) (k + 1) (by omega) (by omega) b' a',
        covariance_comm]
    have e2 : (H k).mat * K (k + 1) (l + 1) * (H l).matᵀ = ((H l).mat * K (l + 1) (k + 1) * (H k).matᵀ)ᵀ := by
      rw [e, Matrix.transpose_mul, Matrix.transpose_mul, Matrix.transpose_transpose, Matrix.mul_assoc]
    rw [e2, Matrix.transpose_apply]
    congr 1
    by_cases hlk : l = k
    · subst hlk
      obtain ⟨V, h1, h2, h3⟩ := h.obs l hl
      rw [if_pos rfl, ← h2.cov b a, ← h2.cov a b, covariance_comm]
    · rw [if_neg hlk, if_neg fun h => hlk h.symm]; rfl

/-! ## The smoothed mean is affine in the data -/

theorem sseq_affine (init : Updated n) (A : ℕ → Transition n n) (H : ℕ → Transition n m) (k : ℕ) :
    ∃ (L : (ℕ → Fin m → ℝ) →ₗ[ℝ] (Fin n → ℝ)) (c : Fin n → ℝ), ∀ y : ℕ → Fin m → ℝ,
      (sseq init A H k fun i => y i).mean = L y + c := by
  induction k with
  | zero => exact ⟨0, init.mean, fun y => by simp [sseq]⟩
  | succ k ih =>
    obtain ⟨L, c, hL⟩ := ih
    let G := optGain (H k) 1 (toNormal (predS (A k) (sseq init A H k fun _ => 0)))
    refine ⟨(1 - G * (H k).mat).mulVecLin ∘ₗ (A k).mat.mulVecLin ∘ₗ L + G.mulVecLin ∘ₗ LinearMap.proj k,
      (1 - G * (H k).mat) *ᵥ ((A k).mat *ᵥ c + (A k).noise.mean) - G *ᵥ (H k).noise.mean, fun y => ?_⟩
    have h := sseq_cov init A H k (fun i => y i) fun _ => 0
    have hG : optGain (H k) 1 (toNormal (predS (A k) (sseq init A H k fun i => y i))) = G := by
      simp only [G, optGain, predCov, predS, forwardClassic, toNormal, h]
    show (updS (H k) (predS (A k) (sseq init A H k fun i => y i)) (y k)).mean = _
    simp only [updS, conditionStateOnRv, hG]
    simp only [toNormal, predS, forwardClassic, Normal.const, hL, LinearMap.add_apply, LinearMap.comp_apply,
      Matrix.mulVecLin_apply, LinearMap.proj_apply]
    rw [Matrix.mulVec_add (A k).mat]
    generalize (A k).mat *ᵥ L y = u
    generalize (A k).mat *ᵥ c = u'
    simp only [Matrix.sub_mulVec, Matrix.one_mulVec, ← Matrix.mulVec_mulVec, Matrix.mulVec_add, Matrix.mulVec_sub]
    abel

theorem rseq_affine (init : Updated n) (A : ℕ → Transition n n) (H : ℕ → Transition n m) (N j : ℕ) :
    ∃ (L : (ℕ → Fin m → ℝ) →ₗ[ℝ] (Fin n → ℝ)) (c : Fin n → ℝ), ∀ y : ℕ → Fin m → ℝ,
      (rseq init A H N y j).mean = L y + c := by
  induction j with
  | zero => exact sseq_affine init A H N
  | succ j ih =>
    obtain ⟨L, c, hL⟩ := ih
    obtain ⟨L', c', hL'⟩ := sseq_affine init A H (N - (j + 1))
    let G := optGain (A (N - (j + 1))) 1 (toNormal (sseq init A H (N - (j + 1)) fun _ => 0))
    refine ⟨L' + G.mulVecLin ∘ₗ (L - (A (N - (j + 1))).mat.mulVecLin ∘ₗ L'),
      c' + G *ᵥ (c - ((A (N - (j + 1))).mat *ᵥ c' + (A (N - (j + 1))).noise.mean)), fun y => ?_⟩
    have hG := optGain_sseq init A H (N - (j + 1)) fun i => y i
    have hG' : optGain (A (N - (j + 1))) 1 (toNormal (sseq init A H (N - (j + 1)) fun i => y i)) = G := hG
    clear_value G
    simp only [rseq, rts, conditionStateOnRv, hG']
    simp only [toNormal, forwardClassic, hL, hL', LinearMap.add_apply, LinearMap.sub_apply, LinearMap.comp_apply,
      Matrix.mulVecLin_apply, Matrix.mulVec_add, Matrix.mulVec_sub]
    abel

/-- Affine functions of the data as matrices. -/
theorem rseq_matrix (init : Updated n) (A : ℕ → Transition n n) (H : ℕ → Transition n m) (N j : ℕ) :
    ∃ (W : Matrix (Fin n) (Fin N × Fin m) ℝ) (c : Fin n → ℝ), ∀ y : Fin N → Fin m → ℝ,
      (rseq init A H N (extend y) j).mean = W *ᵥ (fun p => y p.1 p.2) + c := by
  obtain ⟨L, c, hL⟩ := rseq_affine init A H N j
  let T : (Fin N × Fin m → ℝ) →ₗ[ℝ] (ℕ → Fin m → ℝ) :=
    { toFun := fun z => extend fun i b => z (i, b)
      map_add' := fun z z' => by
        funext i b
        by_cases hi : i < N
        · simp [extend, hi]
        · simp [extend, hi]
      map_smul' := fun r z => by
        funext i b
        by_cases hi : i < N
        · simp [extend, hi]
        · simp [extend, hi] }
  refine ⟨LinearMap.toMatrix' (L ∘ₗ T), c, fun y => ?_⟩
  rw [hL, LinearMap.toMatrix'_mulVec]
  rfl

/-- The weights and the covariance of an affine conditional mean are determined by the covariances. -/
theorem conditional_regression [IsProbabilityMeasure P] {ι κ β : Type*} [Fintype ι] [Fintype κ] [DecidableEq ι] [DecidableEq κ]
    [MeasurableSpace β] {Z : Ω → ι → ℝ} {U : Ω → κ → ℝ} {U' : Ω → β} {f : β → ι → ℝ} {C : Matrix ι ι ℝ}
    (h : IsConditional P Z U' f C) {g : β → κ → ℝ} (hg : Measurable g) (hU' : ∀ ω, U ω = g (U' ω))
    {W : Matrix ι κ ℝ} {c : ι → ℝ} (hf : ∀ u, f u = W *ᵥ g u + c) (hZ : ∀ a, MemLp (fun ω => Z ω a) 2 P)
    (hU : ∀ a, MemLp (fun ω => U ω a) 2 P) {μ : ι → ℝ} {ν : κ → ℝ} (hμ : ∀ a, ∫ ω, Z ω a ∂P = μ a)
    (hν : ∀ a, ∫ ω, U ω a ∂P = ν a) {C0 : Matrix ι ι ℝ} {B : Matrix ι κ ℝ} {D : Matrix κ κ ℝ} (hC0 : CrossCov P Z Z C0)
    (hB : CrossCov P Z U B) (hD : CrossCov P U U D) (hdet : D.det ≠ 0) :
    (∀ u, f u = μ + (B * D⁻¹) *ᵥ (g u - ν)) ∧ C = C0 - B * D⁻¹ * Bᵀ := by
  have hfU : ∀ ω, f (U' ω) = W *ᵥ U ω + c := fun ω => by rw [hf, hU']
  have mF : ∀ a, MemLp (fun ω => (W *ᵥ U ω + c) a) 2 P := fun a =>
    (memLp_mulVec hU W a).add (memLp_const _)
  have hR : IsNormal P (fun ω => Z ω - (W *ᵥ U ω + c)) 0 C := by
    have := h.residual
    simp only [hfU] at this
    exact this
  have hind : IndepFun (fun ω => Z ω - (W *ᵥ U ω + c)) U P := by
    have := h.indep.comp measurable_id hg
    simp only [Function.comp_def, hfU, id, ← hU'] at this
    exact this
  have hz := cov_zero_of_indep hind (memLp_coord hR.gaussian) hU
  have hWU : CrossCov P (fun ω => W *ᵥ U ω + c) U (W * D) := fun a b => by
    have := cov_affine hU hU hD W 1 c 0 a b
    simpa only [add_zero, Matrix.one_mulVec, Matrix.transpose_one, Matrix.mul_one] using this
  have hBW : B = W * D := by
    ext a b
    have := hz a b
    have e : (fun ω => (Z ω - (W *ᵥ U ω + c)) a) = (fun ω => Z ω a) - fun ω => (W *ᵥ U ω + c) a := rfl
    rw [e, covariance_sub_left (hZ a) (mF a) (hU b), hB a b, hWU a b, Matrix.zero_apply] at this
    linarith
  have hu : IsUnit D.det := isUnit_iff_ne_zero.2 hdet
  have hW : B * D⁻¹ = W := by rw [hBW, Matrix.mul_assoc, Matrix.mul_nonsing_inv _ hu, Matrix.mul_one]
  have hmean : μ = W *ᵥ ν + c := by
    funext a
    have h1 := hR.mean a
    have e : (fun ω => (Z ω - (W *ᵥ U ω + c)) a) = (fun ω => Z ω a - (W *ᵥ U ω + c) a) := rfl
    rw [e, integral_sub ((hZ a).integrable (by norm_num)) ((mF a).integrable (by norm_num)), hμ,
      mean_affine (fun b => (hU b).integrable (by norm_num)) hν W c a] at h1
    simpa [sub_eq_zero] using h1
  refine ⟨fun u => ?_, ?_⟩
  · rw [hW, hf, hmean, Matrix.mulVec_sub]
    abel
  · rw [hW]
    ext a b
    have hzZ : cov[fun ω => (Z ω - (W *ᵥ U ω + c)) a, fun ω => (W *ᵥ U ω + c) b; P] = 0 := by
      have := cov_affine (memLp_coord hR.gaussian) hU hz 1 W 0 c a b
      simpa using this
    have h1 := hR.cov a b
    have e : ∀ a, (fun ω => (Z ω - (W *ᵥ U ω + c)) a) = (fun ω => Z ω a) - fun ω => (W *ᵥ U ω + c) a := fun _ => rfl
    rw [show (fun ω => (Z ω - (W *ᵥ U ω + c)) b) = (fun ω => Z ω b) - fun ω => (W *ᵥ U ω + c) b from rfl,
      covariance_sub_right (memLp_coord hR.gaussian a) (hZ b) (mF b), hzZ, sub_zero, e a,
      covariance_sub_left (hZ a) (mF a) (hZ b), hC0 a b] at h1
    have h2 : cov[fun ω => (W *ᵥ U ω + c) a, fun ω => Z ω b; P] = (W * Bᵀ) a b := by
      have hB' : CrossCov P U Z Bᵀ := fun a b => by rw [covariance_comm, hB b a]; rfl
      have := cov_affine hU hZ hB' W 1 c 0 a b
      simpa only [add_zero, Matrix.one_mulVec, Matrix.transpose_one, Matrix.mul_one] using this
    rw [← h1, h2]; rfl

end Probnum.Kalman
