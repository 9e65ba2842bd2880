import Mathlib.Analysis.Calculus.ContDiff.RCLike
import Mathlib.Analysis.Calculus.MeanValue
import Verif.OdeFilter.PropsStep
import Verif.OdeFilter.PropsAutodiff
import Verif.SDE.StationaryLemmas

/-!
# Helper lemmas for the local order of ODE filter steps
-/

namespace Probnum.OdeFilter

open Matrix LinGauss Filter Topology Finset

variable {d q : ℕ}

/-! ## Coordinates -/

theorem proj_row (k : Fin (q + 1)) (x : Fin (d * (q + 1)) → ℝ) (i : Fin d) :
    (proj d q k.1 *ᵥ x) i = x (finProdFinEquiv (i, k)) := by
  have e : ∀ j : Fin (d * (q + 1)), (j.1 = i.1 * (q + 1) + k.1) ↔ j = finProdFinEquiv (i, k) := fun j => by
    rw [Fin.ext_iff, finProdFinEquiv_apply_val]
    simp only
    constructor <;> intro h <;> rw [h] <;> ring
  simp only [Matrix.mulVec, dotProduct, proj, Matrix.of_apply, e, ite_mul, one_mul, zero_mul, Finset.sum_ite_eq',
    Finset.mem_univ, if_true]

theorem proj_col (k l : Fin (q + 1)) (w : Fin d → ℝ) (i : Fin d) :
    ((proj d q k.1)ᵀ *ᵥ w) (finProdFinEquiv (i, l)) = if l = k then w i else 0 := by
  have e : ∀ j : Fin d, ((finProdFinEquiv (i, l)).1 = j.1 * (q + 1) + k.1) ↔ j = i ∧ l = k := fun j => by
    have h : (finProdFinEquiv (i, l)).1 = j.1 * (q + 1) + k.1 ↔ finProdFinEquiv (i, l) = finProdFinEquiv (j, k) := by
      rw [Fin.ext_iff, finProdFinEquiv_apply_val, finProdFinEquiv_apply_val]
      simp only
      constructor <;> intro h <;> linarith [mul_comm j.1 (q + 1)]
    rw [h, finProdFinEquiv.injective.eq_iff, Prod.mk.injEq, eq_comm (a := i)]
  simp only [Matrix.mulVec, dotProduct, proj, Matrix.transpose_apply, Matrix.of_apply, e, ite_mul, one_mul, zero_mul]
  by_cases h : l = k
  · simp [h]
  · simp [h]

theorem kron_row (B : Matrix (Fin (q + 1)) (Fin (q + 1)) ℝ) (x : Fin (d * (q + 1)) → ℝ) (i : Fin d) (k : Fin (q + 1)) :
    (IWP.kronEye d B *ᵥ x) (finProdFinEquiv (i, k)) = ∑ l, B k l * x (finProdFinEquiv (i, l)) := by
  rw [Matrix.mulVec, dotProduct, ← Equiv.sum_comp finProdFinEquiv, Fintype.sum_prod_type, Finset.sum_eq_single i]
  · simp only [SDE.kronEye_pair, if_true]
  · intro j _ hj
    simp only [SDE.kronEye_pair, if_neg hj.symm, zero_mul, Finset.sum_const_zero]
  · simp

theorem kron_form (B : Matrix (Fin (q + 1)) (Fin (q + 1)) ℝ) (x : Fin (d * (q + 1)) → ℝ) :
    x ⬝ᵥ (IWP.kronEye d B *ᵥ x) = ∑ i, (fun k => x (finProdFinEquiv (i, k))) ⬝ᵥ (B *ᵥ fun k => x (finProdFinEquiv (i, k))) := by
  rw [dotProduct, ← Equiv.sum_comp finProdFinEquiv, Fintype.sum_prod_type]
  refine Finset.sum_congr rfl fun i _ => ?_
  rw [dotProduct]
  exact Finset.sum_congr rfl fun k _ => by rw [kron_row]; rfl

/-! ## What a step from a known state computes -/

/-- The mean after an accepted step from a state without uncertainty. -/
theorem accepted_mean {S : Solver d q} {D : Diff} {t : ℝ} {rv : Normal (d * (q + 1))} {dt : ℝ} {o : Outcome d q}
    {r : Normal (d * (q + 1))} (hrv : rv.Valid) (hcov : rv.cov = 0) (hfree : S.ode.TimeFree) (hdt : 0 < dt)
    (h : attempt S D t rv dt = .ok o) (hr : o.rv = some r) :
    ∃ (J : Matrix (Fin d) (Fin d) ℝ) (v w : Fin d → ℝ),
      (match S.strategy with
        | .ek0 => J = 0
        | .ek1 => S.ode.df (some (t + dt)) (proj d q 0 *ᵥ (IWP.kronEye d (IWP.taylor q dt) *ᵥ rv.mean)) = .ok J) ∧
      S.ode.f (some (t + dt)) (proj d q 0 *ᵥ (IWP.kronEye d (IWP.taylor q dt) *ᵥ rv.mean)) = .ok v ∧
      ((proj d q 1 - J * proj d q 0) * IWP.kronEye d (IWP.noiseCov q dt) * (proj d q 1 - J * proj d q 0)ᵀ) *ᵥ w
        = proj d q 1 *ᵥ (IWP.kronEye d (IWP.taylor q dt) *ᵥ rv.mean) - v ∧
      r.mean = IWP.kronEye d (IWP.taylor q dt) *ᵥ rv.mean
        - (IWP.kronEye d (IWP.noiseCov q dt) * (proj d q 1 - J * proj d q 0)ᵀ) *ᵥ w := by
  obtain ⟨tr, lin, est, predL, u, htr, hlin, -, -, -, hp, hS, hu, hm, -, -⟩ := accepted_ok hrv hfree h hr
  obtain ⟨tr', h1, h2, h3, h4⟩ := IWP.discretise_closed q d S.chol hdt.ne'
  rw [htr] at h1
  cases h1
  rw [abs_of_pos hdt] at h2 h4
  obtain ⟨hres, b, hn⟩ := linearized_residual hlin
  have hpm : predMean tr rv = IWP.kronEye d (IWP.taylor q dt) *ᵥ rv.mean := by rw [predMean, h3, add_zero, h2]
  rw [hpm] at hres hu
  obtain ⟨⟨J, hJ, hst⟩, v, hv, hval⟩ := hres
  rw [hcov, Matrix.mul_zero, Matrix.zero_mul, zero_add, h4] at hp
  have hb : lin.noise.mean = b ∧ lin.noise.cov = 0 := by rw [hn]; exact ⟨rfl, rfl⟩
  rw [hp] at hS hu
  have hu' := hu
  simp only [backwardClassic, gainClassic, forwardClassic, conditionStateOnRv, hb.2, smul_zero, add_zero] at hu'
  rw [← Matrix.mul_assoc, if_neg hS] at hu'
  have hum := congrArg Updated.mean (Except.ok.inj hu')
  set s := stepDiffusion D est
  set N := IWP.kronEye d (IWP.noiseCov q dt) with hN
  set m := IWP.kronEye d (IWP.taylor q dt) *ᵥ rv.mean with hmdef
  set H := lin.mat with hHdef
  set z := proj d q 1 *ᵥ m - v with hz
  have hNs : Nᵀ = N := by
    rw [hN, IWP.kronEye_transpose, IWP.noiseCov_symm]
  have hsym : (H * (s • N) * Hᵀ)ᵀ = H * (s • N) * Hᵀ := by
    rw [Matrix.transpose_mul, Matrix.transpose_mul, Matrix.transpose_transpose, Matrix.transpose_smul, hNs, Matrix.mul_assoc]
  refine ⟨J, v, s • ((H * (s • N) * Hᵀ)⁻¹ *ᵥ z), hst, hv, ?_, ?_⟩
  · rw [← hJ, Matrix.mulVec_smul, ← Matrix.smul_mulVec, ← Matrix.smul_mul, ← Matrix.mul_smul, Matrix.mulVec_mulVec,
      Matrix.mul_nonsing_inv _ (isUnit_iff_ne_zero.2 hS), Matrix.one_mulVec]
  · rw [hm, ← hum, ← hJ]
    have e : H *ᵥ m + lin.noise.mean = z := hval
    show m + _ *ᵥ ((0 : Fin d → ℝ) - _) = _
    rw [e, hsym, Matrix.transpose_mul, Matrix.transpose_transpose, Matrix.transpose_nonsing_inv, hsym, zero_sub,
      Matrix.mulVec_neg, ← sub_eq_add_neg, Matrix.mulVec_smul, ← Matrix.smul_mulVec, ← Matrix.smul_mul, Matrix.mulVec_mulVec]

/-! ## Bounds -/

/-- Lower bound for the noise of the prior. -/
theorem noiseCov_lower (q : ℕ) (k : Fin (q + 1)) : ∃ c, 0 < c ∧ ∀ h, 0 < h → ∀ x : Fin (q + 1) → ℝ,
    c * h ^ (2 * (q - k.1) + 1) * x k ^ 2 ≤ x ⬝ᵥ (IWP.noiseCov q h *ᵥ x) := by
  have hpd := IWP.noiseCov_posDef q zero_lt_one
  set M := IWP.noiseCov q 1 with hM
  have hsymm : Mᵀ = M := IWP.noiseCov_symm q 1
  have hdet : IsUnit M.det := isUnit_iff_ne_zero.2 hpd.det_pos.ne'
  set a : Fin (q + 1) → ℝ := M⁻¹ *ᵥ Pi.single k 1 with ha
  have hMa : M *ᵥ a = Pi.single k 1 := by rw [ha, Matrix.mulVec_mulVec, Matrix.mul_nonsing_inv _ hdet, Matrix.one_mulVec]
  have hak : a ⬝ᵥ (M *ᵥ a) = a k := by rw [hMa]; simp
  have ha0 : a ≠ 0 := by
    intro h0
    rw [h0, Matrix.mulVec_zero] at hMa
    have := congrFun hMa k
    simp at this
  have hκ : 0 < a k := by
    have := hpd.dotProduct_mulVec_pos ha0
    rwa [star_trivial, hak] at this
  have hcs : ∀ x : Fin (q + 1) → ℝ, x k ^ 2 / a k ≤ x ⬝ᵥ (M *ᵥ x) := fun x => by
    have h0 := hpd.posSemidef.dotProduct_mulVec_nonneg (x - (x k / a k) • a)
    have hxa : x ⬝ᵥ (M *ᵥ a) = x k := by rw [hMa]; simp
    have hax : a ⬝ᵥ (M *ᵥ x) = x k := by
      rw [Matrix.dotProduct_mulVec, ← Matrix.mulVec_transpose, hsymm, hMa]; simp
    rw [star_trivial, Matrix.mulVec_sub, Matrix.mulVec_smul, dotProduct_sub, sub_dotProduct, sub_dotProduct, dotProduct_smul,
      dotProduct_smul, smul_dotProduct, smul_dotProduct, hxa, hax, hak] at h0
    simp only [smul_eq_mul] at h0
    have e : x k / a k * (x k / a k * a k) = x k ^ 2 / a k := by field_simp
    have e' : x k / a k * x k = x k ^ 2 / a k := by ring
    rw [e, e'] at h0
    linarith
  refine ⟨1 / a k, by positivity, fun h hh x => ?_⟩
  have hsc : x ⬝ᵥ (IWP.noiseCov q h *ᵥ x) = h * ((fun i => h ^ (q - i.1) * x i) ⬝ᵥ (M *ᵥ fun i => h ^ (q - i.1) * x i)) := by
    simp only [dotProduct, Matrix.mulVec, Finset.mul_sum]
    refine Finset.sum_congr rfl fun i _ => Finset.sum_congr rfl fun j _ => ?_
    have e : h ^ (2 * q + 1 - i.1 - j.1) = h * (h ^ (q - i.1) * h ^ (q - j.1)) := by
      rw [← pow_add, ← pow_succ']; congr 1; have := i.2; have := j.2; omega
    simp only [hM, IWP.noiseCov, Matrix.of_apply, one_pow, e]
    ring
  rw [hsc]
  have := mul_le_mul_of_nonneg_left (hcs fun i => h ^ (q - i.1) * x i) hh.le
  refine le_trans (le_of_eq ?_) this
  rw [pow_succ, pow_mul']
  ring

/-- Taylor's theorem in the form of successive derivatives. -/
theorem taylor_chain {E : Type*} [NormedAddCommGroup E] [NormedSpace ℝ E] {R : ℕ → ℝ → E} {n : ℕ} {δ M : ℝ}
    (hR : ∀ k, k < n → ∀ h ∈ Set.Icc 0 δ, HasDerivAt (R k) (R (k + 1) h) h) (h0 : ∀ k, k < n → R k 0 = 0)
    (hM : ∀ h ∈ Set.Icc 0 δ, ‖R n h‖ ≤ M) : ∀ j, j ≤ n → ∀ h ∈ Set.Icc 0 δ, ‖R (n - j) h‖ ≤ M * h ^ j
  | 0, _, h, hh => by simpa using hM h hh
  | j + 1, hj, h, hh => by
    have ih := taylor_chain hR h0 hM j (by omega)
    have hk : n - (j + 1) + 1 = n - j := by omega
    have hM0 : 0 ≤ M := (norm_nonneg _).trans (hM 0 ⟨le_rfl, hh.1.trans hh.2⟩)
    have := norm_image_sub_le_of_norm_deriv_le_segment' (f := R (n - (j + 1))) (f' := R (n - (j + 1) + 1)) (a := 0) (b := h)
      (C := M * h ^ j) (fun x hx => (hR _ (by omega) x ⟨hx.1, hx.2.trans hh.2⟩).hasDerivWithinAt) (fun x hx => by
        rw [hk]
        refine (ih x ⟨hx.1, hx.2.le.trans hh.2⟩).trans ?_
        exact mul_le_mul_of_nonneg_left (pow_le_pow_left₀ hx.1 hx.2.le j) hM0) h ⟨hh.1, le_rfl⟩
    rw [h0 _ (by omega), sub_zero, sub_zero] at this
    rw [pow_succ, ← mul_assoc]
    exact this

/-- Derivatives of a solution. -/
theorem solution_derivs {g : (Fin d → ℝ) → Fin d → ℝ} {y : ℝ → Fin d → ℝ} {t₀ : ℝ}
    (hy : ∀ᶠ t in 𝓝 t₀, HasDerivAt y (g (y t)) t) (hg : ContDiffAt ℝ q g (y t₀)) :
    (∀ k, k < q + 1 → ∀ᶠ t in 𝓝 t₀, HasDerivAt (iteratedDeriv k y) (iteratedDeriv (k + 1) y t) t) ∧
    ∃ M, ∀ᶠ t in 𝓝 t₀, ‖iteratedDeriv (q + 1) y t‖ ≤ M := by
  have hc : ContinuousAt y t₀ := hy.self_of_nhds.continuousAt
  refine ⟨fun k hk => ?_, ?_⟩
  · have hd : ∀ᶠ t in 𝓝 t₀, DifferentiableAt ℝ (iteratedDeriv k y) t := by
      cases k with
      | zero => simpa [iteratedDeriv_zero] using hy.mono fun t ht => ht.differentiableAt
      | succ k =>
        have h1 := (iteratedDeriv_solution hy hg k (by omega)).eventually_nhds
        have h2 : ∀ᶠ x in 𝓝 (y t₀), DifferentiableAt ℝ (alongField g k) x := by
          have := (alongField_contDiffAt hg k (by omega)).eventually (by simp)
          refine this.mono fun x hx => hx.differentiableAt ?_
          have : q - k ≠ 0 := by omega
          exact_mod_cast this
        filter_upwards [h1, hc.eventually h2, hy] with t a b c
        have : DifferentiableAt ℝ (fun t => alongField g k (y t)) t := b.comp t c.differentiableAt
        exact this.congr_of_eventuallyEq a
    filter_upwards [hd] with t ht
    rw [iteratedDeriv_succ]
    exact ht.hasDerivAt
  · have h1 := iteratedDeriv_solution hy hg q le_rfl
    have h2 : ContinuousAt (fun t => alongField g q (y t)) t₀ :=
      ContinuousAt.comp (f := y) (g := alongField g q) (alongField_contDiffAt hg q le_rfl).continuousAt hc
    have h3 := h2.norm.eventually (gt_mem_nhds (lt_add_one _))
    exact ⟨_, by filter_upwards [h1, h3] with t a b; rw [a]; exact b.le⟩

/-- Taylor remainders of a function and its derivatives. -/
theorem taylor_remainder {y : ℝ → Fin d → ℝ} {t₀ δ M : ℝ}
    (h1 : ∀ h ∈ Set.Icc (0 : ℝ) δ, ∀ k, k < q + 1 → HasDerivAt (iteratedDeriv k y) (iteratedDeriv (k + 1) y (t₀ + h)) (t₀ + h))
    (h2 : ∀ h ∈ Set.Icc (0 : ℝ) δ, ‖iteratedDeriv (q + 1) y (t₀ + h)‖ ≤ M) :
    ∀ h ∈ Set.Icc (0 : ℝ) δ, ∀ k : Fin (q + 1),
      ‖(∑ l, IWP.taylor q h k l • iteratedDeriv l.1 y t₀) - iteratedDeriv k.1 y (t₀ + h)‖ ≤ M * h ^ (q + 1 - k.1) := by
  let T : Fin (q + 1) → ℝ → Fin d → ℝ := fun k h => ∑ l, IWP.taylor q h k l • iteratedDeriv l.1 y t₀
  let R : ℕ → ℝ → Fin d → ℝ := fun k h => if hk : k < q + 1 then iteratedDeriv k y (t₀ + h) - T ⟨k, hk⟩ h else iteratedDeriv k y (t₀ + h)
  have hT : ∀ (k : Fin (q + 1)) h, HasDerivAt (T k) (if hk : k.1 + 1 < q + 1 then T ⟨k.1 + 1, hk⟩ h else 0) h := fun k h => by
    have := HasDerivAt.fun_sum (u := Finset.univ) fun l (_ : l ∈ Finset.univ) =>
      (SDE.taylor_deriv q h k l).smul_const (iteratedDeriv l.1 y t₀)
    refine this.congr_deriv ?_
    simp only [SDE.driftIwp_mul]
    split
    · rfl
    · simp
  have hR : ∀ k, k < q + 1 → ∀ h ∈ Set.Icc (0 : ℝ) δ, HasDerivAt (R k) (R (k + 1) h) h := fun k hk h hh => by
    have a := h1 h hh k hk
    have b : HasDerivAt (fun h => iteratedDeriv k y (t₀ + h)) (iteratedDeriv (k + 1) y (t₀ + h)) h := by
      have := a.comp_const_add t₀ h
      exact this
    have c := b.sub (hT ⟨k, hk⟩ h)
    have e : R k = fun h => iteratedDeriv k y (t₀ + h) - T ⟨k, hk⟩ h := by funext x; simp only [R, dif_pos hk]
    rw [e]
    refine HasDerivAt.congr_deriv (f' := iteratedDeriv (k + 1) y (t₀ + h) - _) c ?_
    simp only [R]
    split
    · rfl
    · rw [sub_zero]
  have h0 : ∀ k, k < q + 1 → R k 0 = 0 := fun k hk => by
    simp only [R, dif_pos hk, T, IWP.taylor_zero, Matrix.one_apply, add_zero]
    rw [Finset.sum_eq_single ⟨k, hk⟩]
    · simp
    · intro b _ hb; rw [if_neg hb.symm, zero_smul]
    · simp
  have hM : ∀ h ∈ Set.Icc (0 : ℝ) δ, ‖R (q + 1) h‖ ≤ M := fun h hh => by
    simp only [R, dif_neg (lt_irrefl (q + 1))]
    exact h2 h hh
  intro h hh k
  have := taylor_chain hR h0 hM (q + 1 - k.1) (by omega) h hh
  rw [show q + 1 - (q + 1 - k.1) = k.1 by have := k.2; omega] at this
  simp only [R, dif_pos k.2] at this
  rw [norm_sub_rev]
  exact this

/-- The Taylor polynomials of the derivatives. -/
theorem taylor_error {g : (Fin d → ℝ) → Fin d → ℝ} {y : ℝ → Fin d → ℝ} {t₀ : ℝ}
    (hy : ∀ᶠ t in 𝓝 t₀, HasDerivAt y (g (y t)) t) (hg : ContDiffAt ℝ q g (y t₀)) :
    ∃ M, 0 ≤ M ∧ ∀ᶠ h in 𝓝[>] (0 : ℝ), ∀ k : Fin (q + 1),
      ‖(∑ l, IWP.taylor q h k l • iteratedDeriv l.1 y t₀) - iteratedDeriv k.1 y (t₀ + h)‖ ≤ M * h ^ (q + 1 - k.1) := by
  obtain ⟨h1, M, h2⟩ := solution_derivs hy hg
  have h3 : ∀ᶠ t in 𝓝 t₀, ∀ k ∈ Finset.range (q + 1), HasDerivAt (iteratedDeriv k y) (iteratedDeriv (k + 1) y t) t :=
    (Finset.eventually_all _).2 fun k hk => h1 k (Finset.mem_range.1 hk)
  obtain ⟨δ, hδ, hball⟩ := Metric.eventually_nhds_iff.1 (h3.and h2)
  have hin : ∀ h ∈ Set.Icc (0 : ℝ) (δ / 2), dist (t₀ + h) t₀ < δ := fun h hh => by
    rw [Real.dist_eq, add_sub_cancel_left, abs_of_nonneg hh.1]; linarith [hh.2]
  have hM0 : 0 ≤ M := (norm_nonneg _).trans (hball (hin 0 ⟨le_rfl, by positivity⟩)).2
  refine ⟨M, hM0, ?_⟩
  filter_upwards [Ioc_mem_nhdsGT (half_pos hδ)] with h hh
  exact taylor_remainder (fun h hh k hk => (hball (hin h hh)).1 k (Finset.mem_range.2 hk)) (fun h hh => (hball (hin h hh)).2) h
    ⟨hh.1.le, hh.2⟩

theorem noiseCov_entry_le (q : ℕ) {h : ℝ} (hh : 0 < h) (k l : Fin (q + 1)) :
    0 ≤ IWP.noiseCov q h k l ∧ IWP.noiseCov q h k l ≤ h ^ (2 * q + 1 - k.1 - l.1) := by
  have h1 : (1 : ℝ) ≤ ((2 * q + 1 - k.1 - l.1 : ℕ) : ℝ) := by
    have := k.2; have := l.2
    exact_mod_cast (by omega : 1 ≤ 2 * q + 1 - k.1 - l.1)
  have h2 : ∀ n : ℕ, (1 : ℝ) ≤ (n.factorial : ℝ) := fun n => by exact_mod_cast Nat.one_le_iff_ne_zero.2 (Nat.factorial_ne_zero n)
  simp only [IWP.noiseCov, Matrix.of_apply]
  refine ⟨by positivity, div_le_self (by positivity) ?_⟩
  have := one_le_mul_of_one_le_of_one_le (one_le_mul_of_one_le_of_one_le h1 (h2 (q - k.1))) (h2 (q - l.1))
  exact this

/-- Size of the correction. -/
theorem correction_le (hq : 0 < q) : ∃ c, 0 < c ∧ ∀ (J : Matrix (Fin d) (Fin d) ℝ) (B h : ℝ) (w z : Fin d → ℝ), 0 < h → h ≤ 1 →
    0 ≤ B → (∀ a b, |J a b| ≤ B) →
    ((proj d q 1 - J * proj d q 0) * IWP.kronEye d (IWP.noiseCov q h) * (proj d q 1 - J * proj d q 0)ᵀ) *ᵥ w = z →
    ∀ k : Fin (q + 1), ‖proj d q k.1 *ᵥ ((IWP.kronEye d (IWP.noiseCov q h) * (proj d q 1 - J * proj d q 0)ᵀ) *ᵥ w)‖ * h ^ (2 * q - 1)
      ≤ c * (1 + d * B) * h ^ (2 * q - k.1) * ‖z‖ := by
  let one : Fin (q + 1) := ⟨1, by omega⟩
  let zero : Fin (q + 1) := ⟨0, by omega⟩
  have hne : one ≠ zero := fun h => by simp [one, zero] at h
  obtain ⟨c, hc, hlow⟩ := noiseCov_lower q one
  refine ⟨(d + 1) / c, by positivity, fun J B h w z hh h1 hB hJ hw k => ?_⟩
  set N := IWP.kronEye d (IWP.noiseCov q h) with hN
  set H := proj d q 1 - J * proj d q 0 with hH
  have hv : ∀ i l, (Hᵀ *ᵥ w) (finProdFinEquiv (i, l)) = (if l = one then w i else 0) - if l = zero then (Jᵀ *ᵥ w) i else 0 :=
    fun i l => by
      rw [hH, Matrix.transpose_sub, Matrix.sub_mulVec, Matrix.transpose_mul, ← Matrix.mulVec_mulVec, Pi.sub_apply]
      congr 1
      · exact proj_col one l w i
      · exact proj_col zero l (Jᵀ *ᵥ w) i
  have hform : w ⬝ᵥ z = (Hᵀ *ᵥ w) ⬝ᵥ (N *ᵥ (Hᵀ *ᵥ w)) := by
    rw [← hw, Matrix.mul_assoc, ← Matrix.mulVec_mulVec, Matrix.dotProduct_mulVec, ← Matrix.mulVec_transpose,
      Matrix.mulVec_mulVec]
  have hquad : ∀ i, c * h ^ (2 * q - 1) * w i ^ 2 ≤ w ⬝ᵥ z := fun i => by
    rw [hform, hN, kron_form]
    have e : 2 * (q - one.1) + 1 = 2 * q - 1 := by simp only [one]; omega
    have hpos : ∀ j, c * h ^ (2 * q - 1) * w j ^ 2 ≤ (fun k => (Hᵀ *ᵥ w) (finProdFinEquiv (j, k))) ⬝ᵥ
        (IWP.noiseCov q h *ᵥ fun k => (Hᵀ *ᵥ w) (finProdFinEquiv (j, k))) := fun j => by
      have := hlow h hh fun k => (Hᵀ *ᵥ w) (finProdFinEquiv (j, k))
      simp only [e] at this
      rw [hv j one, if_pos rfl, if_neg hne, sub_zero] at this
      exact this
    refine (hpos i).trans (Finset.single_le_sum (f := fun j => (fun k => (Hᵀ *ᵥ w) (finProdFinEquiv (j, k))) ⬝ᵥ
        (IWP.noiseCov q h *ᵥ fun k => (Hᵀ *ᵥ w) (finProdFinEquiv (j, k)))) (fun j _ => ?_) (Finset.mem_univ i))
    exact le_trans (by positivity) (hpos j)
  have hwz : w ⬝ᵥ z ≤ d * (‖w‖ * ‖z‖) := by
    rw [dotProduct]
    refine (Finset.sum_le_card_nsmul _ _ (‖w‖ * ‖z‖) fun i _ => ?_).trans (by simp)
    refine (le_abs_self _).trans ?_
    rw [abs_mul]
    exact mul_le_mul (norm_le_pi_norm w i) (norm_le_pi_norm z i) (abs_nonneg _) (norm_nonneg _)
  have hp : 0 < c * h ^ (2 * q - 1) := by positivity
  have hnw : c * h ^ (2 * q - 1) * ‖w‖ ≤ d * ‖z‖ := by
    have hX : 0 ≤ d * (‖w‖ * ‖z‖) / (c * h ^ (2 * q - 1)) := by positivity
    have : ‖w‖ ≤ Real.sqrt (d * (‖w‖ * ‖z‖) / (c * h ^ (2 * q - 1))) := by
      refine (pi_norm_le_iff_of_nonneg (Real.sqrt_nonneg _)).2 fun i => ?_
      rw [Real.norm_eq_abs]
      refine Real.abs_le_sqrt ?_
      rw [le_div_iff₀ hp, mul_comm]
      exact (hquad i).trans hwz
    have h2 := (Real.le_sqrt (norm_nonneg w) hX).1 this
    rw [le_div_iff₀ hp] at h2
    rcases eq_or_lt_of_le (norm_nonneg w) with h0 | h0
    · rw [← h0, mul_zero]; positivity
    · have : ‖w‖ * (c * h ^ (2 * q - 1) * ‖w‖) ≤ ‖w‖ * (d * ‖z‖) := by
        calc _ = ‖w‖ ^ 2 * (c * h ^ (2 * q - 1)) := by ring
          _ ≤ _ := h2
          _ = _ := by ring
      exact le_of_mul_le_mul_left this h0
  have hcorr : ‖proj d q k.1 *ᵥ ((N * Hᵀ) *ᵥ w)‖ ≤ (1 + d * B) * h ^ (2 * q - k.1) * ‖w‖ := by
    refine (pi_norm_le_iff_of_nonneg (by positivity)).2 fun i => ?_
    rw [proj_row, ← Matrix.mulVec_mulVec, hN, kron_row]
    have hsum : ∑ l, IWP.noiseCov q h k l * (Hᵀ *ᵥ w) (finProdFinEquiv (i, l))
        = IWP.noiseCov q h k one * w i - IWP.noiseCov q h k zero * (Jᵀ *ᵥ w) i := by
      simp only [hv, mul_sub, mul_ite, mul_zero, Finset.sum_sub_distrib, Finset.sum_ite_eq', Finset.mem_univ, if_true]
    rw [hsum, Real.norm_eq_abs]
    have hk := k.2
    have b1 := noiseCov_entry_le q hh k one
    have b0 := noiseCov_entry_le q hh k zero
    have e1 : h ^ (2 * q + 1 - k.1 - one.1) = h ^ (2 * q - k.1) := by simp only [one]; congr 1; omega
    have e0 : h ^ (2 * q + 1 - k.1 - zero.1) ≤ h ^ (2 * q - k.1) := by
      simp only [zero]; exact pow_le_pow_of_le_one hh.le h1 (by omega)
    have hJw : |(Jᵀ *ᵥ w) i| ≤ d * B * ‖w‖ := by
      rw [Matrix.mulVec, dotProduct]
      refine (Finset.abs_sum_le_sum_abs _ _).trans ((Finset.sum_le_card_nsmul _ _ (B * ‖w‖) fun j _ => ?_).trans
        (by simp [mul_assoc]))
      rw [abs_mul]
      exact mul_le_mul (hJ j i) (norm_le_pi_norm w j) (abs_nonneg _) hB
    have hwi : |w i| ≤ ‖w‖ := norm_le_pi_norm w i
    have t1 : |IWP.noiseCov q h k one * w i| ≤ h ^ (2 * q - k.1) * ‖w‖ := by
      rw [abs_mul, abs_of_nonneg b1.1]
      exact mul_le_mul (b1.2.trans e1.le) hwi (abs_nonneg _) (by positivity)
    have t0 : |IWP.noiseCov q h k zero * (Jᵀ *ᵥ w) i| ≤ h ^ (2 * q - k.1) * (d * B * ‖w‖) := by
      rw [abs_mul, abs_of_nonneg b0.1]
      exact mul_le_mul (b0.2.trans e0) hJw (abs_nonneg _) (by positivity)
    calc _ ≤ |IWP.noiseCov q h k one * w i| + |IWP.noiseCov q h k zero * (Jᵀ *ᵥ w) i| := abs_sub _ _
      _ ≤ _ := add_le_add t1 t0
      _ = _ := by ring
  have hdz : h ^ (2 * q - 1) * ‖w‖ ≤ (d + 1) / c * ‖z‖ := by
    rw [div_mul_eq_mul_div, le_div_iff₀ hc]
    have : (0 : ℝ) ≤ ‖z‖ := norm_nonneg z
    nlinarith [hnw]
  calc _ ≤ (1 + d * B) * h ^ (2 * q - k.1) * ‖w‖ * h ^ (2 * q - 1) := mul_le_mul_of_nonneg_right hcorr (by positivity)
    _ = (1 + d * B) * h ^ (2 * q - k.1) * (h ^ (2 * q - 1) * ‖w‖) := by ring
    _ ≤ (1 + d * B) * h ^ (2 * q - k.1) * ((d + 1) / c * ‖z‖) := mul_le_mul_of_nonneg_left hdz (by positivity)
    _ = _ := by ring

end Probnum.OdeFilter
