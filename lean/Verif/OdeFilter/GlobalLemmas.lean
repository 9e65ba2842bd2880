import Verif.OdeFilter.PropsRun
import Verif.OdeFilter.GlobalSpec

/-!
# Helper lemmas for the EK0 recursion and its convergence
-/

namespace Probnum.OdeFilter

open Matrix LinGauss Filter Topology Finset

variable {d q : ℕ}

/-! ## Blocks -/

theorem proj_mul_apply {m : ℕ} (k : Fin (q + 1)) (X : Matrix (Fin (d * (q + 1))) (Fin m) ℝ) (i : Fin d) (c : Fin m) :
    (proj d q k.1 * X) i c = X (finProdFinEquiv (i, k)) c := by
  have := proj_row k (fun r => X r c) i
  rw [← this]
  rfl

theorem mul_projT_apply {m : ℕ} (k : Fin (q + 1)) (X : Matrix (Fin m) (Fin (d * (q + 1))) ℝ) (i : Fin d) (r : Fin m) :
    (X * (proj d q k.1)ᵀ) r i = X r (finProdFinEquiv (i, k)) := by
  have := proj_mul_apply k Xᵀ i r
  rw [← Matrix.transpose_transpose (X * (proj d q k.1)ᵀ), Matrix.transpose_mul, Matrix.transpose_transpose, Matrix.transpose_apply,
    this, Matrix.transpose_apply]

theorem extrapolated (m : Fin (d * (q + 1)) → ℝ) (k : Fin (q + 1)) (h : ℝ) :
    proj d q k.1 *ᵥ (IWP.kronEye d (IWP.taylor q h) *ᵥ m) = extrapolate q (fun k => proj d q k *ᵥ m) k.1 h := by
  rw [extrapolate_fin]
  funext i
  rw [proj_row, kron_row, Finset.sum_apply]
  refine sum_congr rfl fun l _ => ?_
  rw [Pi.smul_apply, smul_eq_mul, proj_row]

/-! ## EK0 -/

theorem ek0_step (hd : 0 < d) (hq : 0 < q) {S : Solver d q} {g : (Fin d → ℝ) → Fin d → ℝ} (hS : S.strategy = .ek0)
    (hfree : S.ode.TimeFree) (hf : FieldIs S g) {D : Diff} {t h : ℝ} (hh : 0 < h) {rv r : Normal (d * (q + 1))} (hv : rv.Valid)
    {P : Matrix (Fin (q + 1)) (Fin (q + 1)) ℝ} (hP : rv.cov = IWP.kronEye d P) {o : Outcome d q} (ho : attempt S D t rv h = .ok o)
    (hr : o.rv = some r) :
    ∃ est, o.t = t + h ∧ o.diffusion = D.update est t ∧
      predCov q (stepDiffusion D est) h P ⟨1, by omega⟩ ⟨1, by omega⟩ ≠ 0 ∧ r.Valid ∧
      r.cov = IWP.kronEye d (observeCov (predCov q (stepDiffusion D est) h P) ⟨1, by omega⟩) ∧
      ∀ k : Fin (q + 1), proj d q k.1 *ᵥ r.mean = extrapolate q (fun k => proj d q k *ᵥ rv.mean) k.1 h
        + (predCov q (stepDiffusion D est) h P k ⟨1, by omega⟩ / predCov q (stepDiffusion D est) h P ⟨1, by omega⟩ ⟨1, by omega⟩) •
          (g (extrapolate q (fun k => proj d q k *ᵥ rv.mean) 0 h) - extrapolate q (fun k => proj d q k *ᵥ rv.mean) 1 h) := by
  obtain ⟨tr, lin, est, predL, u, htr, hlin, -, ht, hdiff, hp, hdet, hu, hm, hcov, hrv⟩ := accepted_ok hv hfree ho hr
  obtain ⟨tr', h1, h2, h3, h4⟩ := IWP.discretise_closed q d S.chol hh.ne'
  rw [htr] at h1
  cases h1
  rw [abs_of_pos hh] at h2 h4
  obtain ⟨hres, b, hn⟩ := linearized_residual hlin
  have hpm : predMean tr rv = IWP.kronEye d (IWP.taylor q h) *ᵥ rv.mean := by rw [predMean, h3, add_zero, h2]
  rw [hpm] at hres hu
  obtain ⟨⟨J, hJ, hst⟩, v, hv', hval⟩ := hres
  rw [hS] at hst
  subst hst
  rw [Matrix.zero_mul, sub_zero] at hJ
  let one : Fin (q + 1) := ⟨1, by omega⟩
  set Q := predCov q (stepDiffusion D est) h P with hQ
  have hp' : predL * predLᵀ = IWP.kronEye d Q := by
    rw [hp, hP, h2, h4, IWP.kronEye_transpose, IWP.kronEye_mul, IWP.kronEye_mul, IWP.kronEye_smul, IWP.kronEye_add, hQ, predCov]
  have hb : lin.noise.mean = b ∧ lin.noise.cov = 0 := by rw [hn]; exact ⟨rfl, rfl⟩
  rw [hp', hJ] at hdet
  rw [hp'] at hu
  have hSm : proj d q 1 * IWP.kronEye d Q * (proj d q 1)ᵀ = Q one one • (1 : Matrix (Fin d) (Fin d) ℝ) := by
    ext i j
    have a := mul_projT_apply one (proj d q 1 * IWP.kronEye d Q) j i
    have c := proj_mul_apply one (IWP.kronEye d Q) i (finProdFinEquiv (j, one))
    simp only [one] at a c
    rw [a, c, SDE.kronEye_pair, Matrix.smul_apply, Matrix.one_apply, smul_eq_mul, mul_ite, mul_one, mul_zero]
  have hne : Q one one ≠ 0 := fun h0 => by
    have : Nonempty (Fin d) := Fin.pos_iff_nonempty.1 hd
    rw [hSm, h0, zero_smul, Matrix.det_zero] at hdet
    exact hdet rfl
  simp only [backwardClassic, gainClassic, forwardClassic, conditionStateOnRv, hb.2, smul_zero, add_zero, hJ] at hu
  rw [← Matrix.mul_assoc, if_neg hdet] at hu
  have hum := congrArg Updated.mean (Except.ok.inj hu)
  have huc := congrArg Updated.cov (Except.ok.inj hu)
  simp only at hum huc
  have hinv : ((proj d q 1 * IWP.kronEye d Q * (proj d q 1)ᵀ)ᵀ)⁻¹ = (Q one one)⁻¹ • (1 : Matrix (Fin d) (Fin d) ℝ) := by
    rw [hSm, Matrix.transpose_smul, Matrix.transpose_one]
    refine Matrix.inv_eq_right_inv ?_
    rw [Matrix.smul_mul, Matrix.one_mul, smul_smul, mul_inv_cancel₀ hne, one_smul]
  rw [hinv] at hum huc
  have hgain : ((Q one one)⁻¹ • (1 : Matrix (Fin d) (Fin d) ℝ) * (IWP.kronEye d Q * (proj d q 1)ᵀ)ᵀ)ᵀ
      = (Q one one)⁻¹ • (IWP.kronEye d Q * (proj d q 1)ᵀ) := by
    rw [Matrix.smul_mul, Matrix.one_mul, Matrix.transpose_smul, Matrix.transpose_transpose]
  rw [hgain] at hum huc
  have hent : ∀ c (k : Fin (q + 1)) i, (IWP.kronEye d Q * (proj d q 1)ᵀ) (finProdFinEquiv (c, k)) i = if c = i then Q k one else 0 :=
    fun c k i => by
      have a := mul_projT_apply one (IWP.kronEye d Q) i (finProdFinEquiv (c, k))
      simp only [one] at a
      rw [a, SDE.kronEye_pair]
  refine ⟨est, ht, hdiff, hne, hrv, ?_, fun k => ?_⟩
  · rw [hcov, ← huc]
    ext r c
    obtain ⟨⟨i, k⟩, rfl⟩ := finProdFinEquiv.surjective r
    obtain ⟨⟨j, l⟩, rfl⟩ := finProdFinEquiv.surjective c
    have e0 : (Normal.const (0 : Fin d → ℝ)).cov = 0 := rfl
    rw [e0, zero_sub, hSm, SDE.kronEye_pair, Matrix.add_apply, SDE.kronEye_pair]
    rw [Matrix.mul_neg, Matrix.mul_smul, Matrix.mul_one, Matrix.neg_mul, Matrix.neg_apply, Matrix.smul_mul, Matrix.smul_apply,
      Matrix.smul_mul, Matrix.smul_apply, Matrix.transpose_smul, Matrix.mul_smul, Matrix.smul_apply, Matrix.mul_apply]
    simp only [hent, Matrix.transpose_apply, smul_eq_mul, ite_mul, zero_mul, mul_ite, mul_zero, Finset.sum_ite_eq, Finset.mem_univ,
      if_true]
    by_cases hij : i = j
    · subst hij
      simp only [if_true, observeCov, Matrix.of_apply]
      show _ = Q k l - Q k one * Q l one / Q one one
      field_simp
      ring
    · simp only [if_neg hij, if_neg (Ne.symm hij)]
      ring
  · rw [hm, ← hum]
    have e0 : (Normal.const (0 : Fin d → ℝ)).mean = 0 := rfl
    rw [e0, zero_sub, Matrix.mulVec_add, extrapolated]
    congr 1
    have p0 := extrapolated rv.mean (⟨0, by omega⟩ : Fin (q + 1)) h
    have p1 := extrapolated rv.mean one h
    simp only [one] at p0 p1
    rw [p0, hf] at hv'
    cases hv'
    have hz : proj d q 1 *ᵥ (IWP.kronEye d (IWP.taylor q h) *ᵥ rv.mean) + lin.noise.mean
        = extrapolate q (fun k => proj d q k *ᵥ rv.mean) 1 h - g (extrapolate q (fun k => proj d q k *ᵥ rv.mean) 0 h) := by
      rw [← p1, ← hval, hJ]
    rw [hz, neg_sub]
    funext i
    rw [proj_row, Matrix.mulVec, dotProduct]
    simp only [Matrix.smul_apply, hent, smul_eq_mul, mul_ite, mul_zero, ite_mul, zero_mul, Finset.sum_ite_eq, Finset.mem_univ, if_true,
      Pi.smul_apply]
    show _ = Q k one / Q one one * _
    field_simp

/-! ## One derivative -/

theorem predCov_one (s h p : ℝ) :
    predCov 1 s h !![p, 0; 0, 0] = !![p + s * (h ^ 3 / 3), s * (h ^ 2 / 2); s * (h ^ 2 / 2), s * h] := by
  have e1 : IWP.taylor 1 h = !![1, h; 0, 1] := by
    ext i j; fin_cases i <;> fin_cases j <;> simp [IWP.taylor]
  have e2 : IWP.noiseCov 1 h = !![h ^ 3 / 3, h ^ 2 / 2; h ^ 2 / 2, h] := by
    ext i j; fin_cases i <;> fin_cases j <;> simp [IWP.noiseCov]
  rw [predCov, e1, e2]
  ext i j
  fin_cases i <;> fin_cases j <;> simp [Matrix.vecMul, dotProduct, Fin.sum_univ_two]

theorem observeCov_one {s h : ℝ} (p : ℝ) (hs : s * h ≠ 0) :
    observeCov (predCov 1 s h !![p, 0; 0, 0]) 1 = !![p + s * (h ^ 3 / 12), 0; 0, 0] := by
  have h1 : s ≠ 0 := left_ne_zero_of_mul hs
  have h2 : h ≠ 0 := right_ne_zero_of_mul hs
  rw [predCov_one]
  ext i j
  fin_cases i <;> fin_cases j <;> simp [observeCov] <;> field_simp <;> ring

theorem extrapolate_one (x : ℕ → Fin d → ℝ) (h : ℝ) : extrapolate 1 x 0 h = x 0 + h • x 1 ∧ extrapolate 1 x 1 h = x 1 := by
  constructor <;> simp [extrapolate, sum_range_succ]

/-- With one derivative the gain does not depend on the covariance of the value or the diffusion. -/
theorem ek0_step_one (hd : 0 < d) {S : Solver d 1} {g : (Fin d → ℝ) → Fin d → ℝ} (hS : S.strategy = .ek0)
    (hfree : S.ode.TimeFree) (hf : FieldIs S g) {D : Diff} {t h : ℝ} (hh : 0 < h) {rv r : Normal (d * (1 + 1))} (hv : rv.Valid)
    {p : ℝ} (hP : rv.cov = IWP.kronEye d !![p, 0; 0, 0]) {o : Outcome d 1} (ho : attempt S D t rv h = .ok o)
    (hr : o.rv = some r) :
    ∃ est, o.t = t + h ∧ o.diffusion = D.update est t ∧ r.Valid ∧
      r.cov = IWP.kronEye d !![p + stepDiffusion D est * (h ^ 3 / 12), 0; 0, 0] ∧
      proj d 1 0 *ᵥ r.mean = proj d 1 0 *ᵥ rv.mean
        + (h / 2) • (proj d 1 1 *ᵥ rv.mean + g (proj d 1 0 *ᵥ rv.mean + h • (proj d 1 1 *ᵥ rv.mean))) ∧
      proj d 1 1 *ᵥ r.mean = g (proj d 1 0 *ᵥ rv.mean + h • (proj d 1 1 *ᵥ rv.mean)) := by
  obtain ⟨est, h1, h2, h3, h4, h5, h6⟩ := ek0_step hd one_pos hS hfree hf hh hv hP ho hr
  have hone : (⟨1, by omega⟩ : Fin (1 + 1)) = 1 := rfl
  rw [hone] at h3 h5
  have hs : stepDiffusion D est * h ≠ 0 := by
    rw [predCov_one] at h3
    simpa using h3
  have hs1 : stepDiffusion D est ≠ 0 := left_ne_zero_of_mul hs
  rw [observeCov_one p hs] at h5
  obtain ⟨x0, x1⟩ := extrapolate_one (fun k => proj d 1 k *ᵥ rv.mean) h
  have a := h6 0
  have b := h6 1
  rw [hone, predCov_one] at a b
  simp only [Fin.val_zero, Fin.val_one] at a b
  rw [x0, x1] at a b
  refine ⟨est, h1, h2, h4, h5, ?_, ?_⟩
  · rw [a]
    funext i
    have : (!![p + stepDiffusion D est * (h ^ 3 / 3), stepDiffusion D est * (h ^ 2 / 2); stepDiffusion D est * (h ^ 2 / 2), stepDiffusion D est * h] 0 1
        / !![p + stepDiffusion D est * (h ^ 3 / 3), stepDiffusion D est * (h ^ 2 / 2); stepDiffusion D est * (h ^ 2 / 2), stepDiffusion D est * h] 1 1 : ℝ)
        = h / 2 := by
      simp
      field_simp
    rw [this]
    simp only [Pi.add_apply, Pi.smul_apply, Pi.sub_apply, smul_eq_mul]
    ring
  · rw [b]
    funext i
    have : (!![p + stepDiffusion D est * (h ^ 3 / 3), stepDiffusion D est * (h ^ 2 / 2); stepDiffusion D est * (h ^ 2 / 2), stepDiffusion D est * h] 1 1
        / !![p + stepDiffusion D est * (h ^ 3 / 3), stepDiffusion D est * (h ^ 2 / 2); stepDiffusion D est * (h ^ 2 / 2), stepDiffusion D est * h] 1 1 : ℝ)
        = 1 := div_self (by simpa using hs)
    rw [this]
    simp only [Pi.add_apply, Pi.smul_apply, Pi.sub_apply, smul_eq_mul]
    ring

/-! ## Errors -/

theorem solution_smooth {N : ℕ} {g : (Fin d → ℝ) → Fin d → ℝ} (hg : ContDiff ℝ N g) {y : ℝ → Fin d → ℝ}
    (hy : ∀ t, HasDerivAt y (g (y t)) t) :
    (∀ t k, k < N + 1 → HasDerivAt (iteratedDeriv k y) (iteratedDeriv (k + 1) y t) t) ∧
      ∀ k, k ≤ N + 1 → Continuous (iteratedDeriv k y) := by
  have hev : ∀ t₀, ∀ᶠ t in 𝓝 t₀, HasDerivAt y (g (y t)) t := fun t₀ => Eventually.of_forall hy
  refine ⟨fun t k hk => ((solution_derivs (hev t) hg.contDiffAt).1 k hk).self_of_nhds, fun k hk => ?_⟩
  have : ContDiff ℝ ((N + 1 : ℕ)) y := contDiff_iff_contDiffAt.2 fun t => solution_contDiffAt (hev t) hg.contDiffAt (N + 1) le_rfl
  exact this.continuous_iteratedDeriv k (by exact_mod_cast hk)

/-- The trapezoidal rule with explicit prediction, one step. -/
theorem trapezoid_error {g : (Fin d → ℝ) → Fin d → ℝ} {y : ℝ → Fin d → ℝ} (hy : ∀ t, HasDerivAt y (g (y t)) t) (hg : ContDiff ℝ 2 g)
    {L : ℝ} (hL : 0 ≤ L) (hlip : ∀ a b, ‖g a - g b‖ ≤ L * ‖a - b‖) {t h H M A : ℝ} (hh : 0 < h) (hH : h ≤ H) (hLH : L * H ≤ 1 / 2)
    (hA : 0 ≤ A) (hM2 : ∀ s ∈ Set.Icc t (t + h), ‖iteratedDeriv 2 y s‖ ≤ M) (hM3 : ∀ s ∈ Set.Icc t (t + h), ‖iteratedDeriv 3 y s‖ ≤ M)
    {x v : Fin d → ℝ} (hx : ‖x - y t‖ ≤ A) (hv : ‖v - g (y t)‖ ≤ 2 * L * A + 2 * L * M * H ^ 2) :
    ‖g (x + h • v) - g (y (t + h))‖ ≤ 2 * L * A + 2 * L * M * H ^ 2 ∧
      ‖x + (h / 2) • (v + g (x + h • v)) - y (t + h)‖ ≤ (1 + 2 * L * h) * A + h * ((2 * L + 2) * M * H ^ 2) := by
  obtain ⟨hd2, -⟩ := solution_smooth (N := 2) hg hy
  have hM : 0 ≤ M := (norm_nonneg _).trans (hM2 t ⟨le_rfl, by linarith⟩)
  have hin : ∀ s ∈ Set.Icc (0 : ℝ) h, t + s ∈ Set.Icc t (t + h) := fun s hs => ⟨by linarith [hs.1], by linarith [hs.2]⟩
  have r1 := taylor_remainder (q := 1) (y := y) (t₀ := t) (δ := h) (M := M) (fun s _ k hk => hd2 _ k (by omega)) (fun s hs => hM2 _ (hin s hs)) h
    ⟨hh.le, le_rfl⟩ 0
  have r2 := taylor_remainder (q := 2) (y := y) (t₀ := t) (δ := h) (M := M) (fun s _ k hk => hd2 _ k (by omega)) (fun s hs => hM3 _ (hin s hs)) h
    ⟨hh.le, le_rfl⟩
  have r20 := r2 0
  have r21 := r2 1
  have i1 : iteratedDeriv 1 y = fun t => g (y t) := by
    funext t
    rw [iteratedDeriv_one, (hy t).deriv]
  simp only [Fin.sum_univ_succ, Fin.sum_univ_zero, IWP.taylor, Matrix.of_apply, iteratedDeriv_zero, add_zero] at r1 r20 r21
  norm_num [i1] at r1 r20 r21
  have hH0 : 0 ≤ H := hh.le.trans hH
  have hsq : h ^ 2 ≤ H ^ 2 := pow_le_pow_left₀ hh.le hH 2
  have q1 : ‖x + h • v - y (t + h)‖ ≤ A + h * (2 * L * A + 2 * L * M * H ^ 2) + M * H ^ 2 := by
    have e : x + h • v - y (t + h) = (x - y t) + h • (v - g (y t)) + (y t + h • g (y t) - y (t + h)) := by
      rw [smul_sub]; abel
    rw [e]
    refine (norm_add_le _ _).trans (add_le_add ((norm_add_le _ _).trans (add_le_add hx ?_)) (r1.trans (mul_le_mul_of_nonneg_left hsq hM)))
    rw [norm_smul, Real.norm_of_nonneg hh.le]
    exact mul_le_mul_of_nonneg_left hv hh.le
  have g1 : ‖g (x + h • v) - g (y (t + h))‖ ≤ 2 * L * A + 2 * L * M * H ^ 2 := by
    refine (hlip _ _).trans ((mul_le_mul_of_nonneg_left q1 hL).trans ?_)
    have hLh : L * h ≤ 1 / 2 := (mul_le_mul_of_nonneg_left hH hL).trans hLH
    have hn : 0 ≤ 2 * L * A + 2 * L * M * H ^ 2 := by positivity
    have := mul_le_mul_of_nonneg_right hLh hn
    nlinarith [this]
  refine ⟨g1, ?_⟩
  have e : x + (h / 2) • (v + g (x + h • v)) - y (t + h) = (x - y t) + (h / 2) • (v - g (y t)) + (h / 2) • (g (x + h • v) - g (y (t + h)))
      + ((y t + (h • g (y t) + (h ^ 2 / 2) • iteratedDeriv 2 y t) - y (t + h)) - (h / 2) • (g (y t) + h • iteratedDeriv 2 y t - g (y (t + h)))) := by
    funext i
    simp only [Pi.add_apply, Pi.smul_apply, Pi.sub_apply, smul_eq_mul]
    ring
  rw [e]
  have n1 : ‖(h / 2) • (v - g (y t))‖ ≤ h / 2 * (2 * L * A + 2 * L * M * H ^ 2) := by
    rw [norm_smul, Real.norm_of_nonneg (by positivity)]
    exact mul_le_mul_of_nonneg_left hv (by positivity)
  have n2 : ‖(h / 2) • (g (x + h • v) - g (y (t + h)))‖ ≤ h / 2 * (2 * L * A + 2 * L * M * H ^ 2) := by
    rw [norm_smul, Real.norm_of_nonneg (by positivity)]
    exact mul_le_mul_of_nonneg_left g1 (by positivity)
  have n3 : ‖(h / 2) • (g (y t) + h • iteratedDeriv 2 y t - g (y (t + h)))‖ ≤ h / 2 * (M * h ^ 2) := by
    rw [norm_smul, Real.norm_of_nonneg (by positivity)]
    exact mul_le_mul_of_nonneg_left r21 (by positivity)
  have n4 : M * h ^ 3 + h / 2 * (M * h ^ 2) ≤ h * (2 * M * H ^ 2) := by
    have := mul_le_mul_of_nonneg_left hsq (mul_nonneg hM hh.le)
    nlinarith [this, mul_nonneg (mul_nonneg hM hh.le) (sq_nonneg H)]
  calc _ ≤ ‖x - y t‖ + ‖(h / 2) • (v - g (y t))‖ + ‖(h / 2) • (g (x + h • v) - g (y (t + h)))‖
        + (‖y t + (h • g (y t) + (h ^ 2 / 2) • iteratedDeriv 2 y t) - y (t + h)‖ + ‖(h / 2) • (g (y t) + h • iteratedDeriv 2 y t - g (y (t + h)))‖) :=
      (norm_add_le _ _).trans (add_le_add ((norm_add_le _ _).trans (add_le_add (norm_add_le _ _) le_rfl)) (norm_sub_le _ _))
    _ ≤ A + h / 2 * (2 * L * A + 2 * L * M * H ^ 2) + h / 2 * (2 * L * A + 2 * L * M * H ^ 2) + (M * h ^ 3 + h / 2 * (M * h ^ 2)) :=
      add_le_add (add_le_add (add_le_add hx n1) n2) (add_le_add r20 n3)
    _ ≤ A + h / 2 * (2 * L * A + 2 * L * M * H ^ 2) + h / 2 * (2 * L * A + 2 * L * M * H ^ 2) + h * (2 * M * H ^ 2) :=
      add_le_add le_rfl n4
    _ = _ := by ring

/-- The bound that the errors obey. -/
noncomputable def errorBound (L K t₀ H t : ℝ) : ℝ := Real.exp (2 * L * (t - t₀)) * ((t - t₀) * (K * H ^ 2))

theorem errorBound_step {L K t₀ H t h : ℝ} (hL : 0 ≤ L) (hK : 0 ≤ K) (ht : t₀ ≤ t) (hh : 0 < h) :
    (1 + 2 * L * h) * errorBound L K t₀ H t + h * (K * H ^ 2) ≤ errorBound L K t₀ H (t + h) := by
  have e : errorBound L K t₀ H (t + h) = Real.exp (2 * L * h) * errorBound L K t₀ H t + Real.exp (2 * L * (t + h - t₀)) * (h * (K * H ^ 2)) := by
    rw [errorBound, errorBound, show 2 * L * (t + h - t₀) = 2 * L * h + 2 * L * (t - t₀) by ring, Real.exp_add]
    ring
  have h1 : 1 + 2 * L * h ≤ Real.exp (2 * L * h) := by linarith [Real.add_one_le_exp (2 * L * h)]
  have h2 : 1 ≤ Real.exp (2 * L * (t + h - t₀)) := Real.one_le_exp (mul_nonneg (by positivity) (by linarith))
  have h3 : 0 ≤ errorBound L K t₀ H t := mul_nonneg (Real.exp_pos _).le (mul_nonneg (by linarith) (by positivity))
  have h4 : 0 ≤ h * (K * H ^ 2) := by positivity
  rw [e]
  exact add_le_add (mul_le_mul_of_nonneg_right h1 h3) (le_mul_of_one_le_left h4 h2)

end Probnum.OdeFilter
