import Verif.OdeFilter.OrderLemmas

/-!
# Local order of ODE filter steps

What a step of the ODE filter does when it starts from exact derivatives of the solution, as after the automatic
differentiation initialisation: an explicit formula for EK0 (Heun's method for one derivative), and an error of order
`q + 1 - k` in the `k`-th derivative for EK0 and EK1 and both diffusion models.
-/

namespace Probnum.OdeFilter

open Matrix LinGauss Filter Topology Finset

variable {d q : ℕ}

/-! ## Specification -/

/-- The `k`-th derivative, at time `h`, of the polynomial of degree `q` with derivatives `x 0, …, x q` at time zero. -/
noncomputable def extrapolate (q : ℕ) (x : ℕ → Fin d → ℝ) (k : ℕ) (h : ℝ) : Fin d → ℝ :=
  ∑ j ∈ range (q + 1 - k), (h ^ j / (j.factorial : ℝ)) • x (k + j)

/-- The state knows the numbers `x 0, …, x q` as its derivatives, without uncertainty. -/
structure Knows (q : ℕ) (rv : Normal (d * (q + 1))) (x : ℕ → Fin d → ℝ) : Prop where
  factor : rv.Valid
  certain : rv.cov = 0
  mean : ∀ k ≤ q, proj d q k *ᵥ rv.mean = x k

/-- The vector field of the solver is `g`, at any time. -/
def FieldIs (S : Solver d q) (g : (Fin d → ℝ) → Fin d → ℝ) : Prop := ∀ t x, S.ode.f (some t) x = .ok (g x)

/-- If the solver is EK1, then its Jacobian is a function `J` of the state which is continuous at `x₀`; `J` need not be
the derivative of the vector field. -/
def JacobianAt (S : Solver d q) (x₀ : Fin d → ℝ) : Prop :=
  S.strategy = .ek1 → ∃ J : (Fin d → ℝ) → Matrix (Fin d) (Fin d) ℝ, (∀ t x, S.ode.df (some t) x = .ok (J x)) ∧ ContinuousAt J x₀

/-! ## Prediction -/

theorem extrapolate_fin (x : ℕ → Fin d → ℝ) (k : Fin (q + 1)) (h : ℝ) :
    extrapolate q x k.1 h = ∑ l : Fin (q + 1), IWP.taylor q h k l • x l.1 := by
  have hk := k.2
  have e : ∑ l : Fin (q + 1), IWP.taylor q h k l • x l.1
      = ∑ l ∈ range (q + 1), (if k.1 ≤ l then h ^ (l - k.1) / ((l - k.1).factorial : ℝ) else 0) • x l := by
    rw [← Fin.sum_univ_eq_sum_range (fun l => (if k.1 ≤ l then h ^ (l - k.1) / ((l - k.1).factorial : ℝ) else 0) • x l)]
    rfl
  have s : q + 1 = k.1 + (q + 1 - k.1) := by omega
  have sp := sum_range_add (fun l => (if k.1 ≤ l then h ^ (l - k.1) / ((l - k.1).factorial : ℝ) else 0) • x l) k.1 (q + 1 - k.1)
  rw [← s] at sp
  rw [e, sp, extrapolate, sum_eq_zero (s := range k.1), zero_add]
  · refine sum_congr rfl fun j _ => ?_
    rw [if_pos (Nat.le_add_right _ _), Nat.add_sub_cancel_left]
  · intro l hl
    rw [if_neg (by have := mem_range.1 hl; omega), zero_smul]

theorem predicted {rv : Normal (d * (q + 1))} {x : ℕ → Fin d → ℝ} (hx : Knows q rv x) (k : Fin (q + 1)) (h : ℝ) :
    proj d q k.1 *ᵥ (IWP.kronEye d (IWP.taylor q h) *ᵥ rv.mean) = extrapolate q x k.1 h := by
  rw [extrapolate_fin]
  funext i
  rw [proj_row, kron_row, Finset.sum_apply]
  refine sum_congr rfl fun l _ => ?_
  rw [Pi.smul_apply, smul_eq_mul, ← hx.mean l.1 (by have := l.2; omega), proj_row]

/-! ## EK0 from a certain state -/

/-- **C112, EK0 from certain derivatives.**  The accepted state is the Taylor extrapolation, corrected by a multiple of
the residual of the ODE at the extrapolated value; for `k = 1` the factor is one, so that the new first derivative is the
vector field at the extrapolated value. -/
theorem ek0_first_step (hq : 0 < q) {S : Solver d q} {g : (Fin d → ℝ) → Fin d → ℝ} (hS : S.strategy = .ek0) (hfree : S.ode.TimeFree)
    (hf : FieldIs S g) {D : Diff} {t h : ℝ} (hh : 0 < h) {rv r : Normal (d * (q + 1))} {x : ℕ → Fin d → ℝ} (hx : Knows q rv x)
    {o : Outcome d q} (ho : attempt S D t rv h = .ok o) (hr : o.rv = some r) :
    ∀ k ≤ q, proj d q k *ᵥ r.mean = extrapolate q x k h
      + (h * (2 * q - 1) * ((q - 1).factorial : ℝ) / (h ^ k * (2 * q - k) * ((q - k).factorial : ℝ))) •
        (g (extrapolate q x 0 h) - extrapolate q x 1 h) := by
  obtain ⟨J, v, w, hJ, hv, hw, hm⟩ := accepted_mean hx.factor hx.certain hfree hh ho hr
  rw [hS] at hJ
  subst hJ
  let one : Fin (q + 1) := ⟨1, by omega⟩
  have p0 := predicted hx (⟨0, by omega⟩ : Fin (q + 1)) h
  have p1 := predicted hx one h
  simp only [one] at p0 p1
  rw [p0, hf] at hv
  cases hv
  simp only [Matrix.zero_mul, sub_zero] at hw hm
  rw [p1] at hw
  have hcol : ∀ (k : Fin (q + 1)) i, (proj d q k.1 *ᵥ ((IWP.kronEye d (IWP.noiseCov q h) * (proj d q 1)ᵀ) *ᵥ w)) i
      = IWP.noiseCov q h k one * w i := fun k i => by
    rw [proj_row, ← Matrix.mulVec_mulVec, kron_row, sum_eq_single one]
    · have := proj_col one one w i
      simp only [if_true, one] at this
      simp only [one, this]
    · intro l _ hl
      have := proj_col one l w i
      rw [if_neg hl] at this
      simp only [one] at this
      rw [this, mul_zero]
    · simp
  have hw' : ∀ i, IWP.noiseCov q h one one * w i = (extrapolate q x 1 h - g (extrapolate q x 0 h)) i := fun i => by
    rw [← hw, ← hcol one i, Matrix.mul_assoc, Matrix.mulVec_mulVec]
  intro k hk
  have pk := predicted hx (⟨k, by omega⟩ : Fin (q + 1)) h
  simp only at pk
  rw [hm, Matrix.mulVec_sub, pk]
  funext i
  have hc := hcol ⟨k, by omega⟩ i
  simp only at hc
  rw [Pi.sub_apply, hc, Pi.add_apply, Pi.smul_apply, smul_eq_mul, sub_eq_add_neg]
  congr 1
  have hwi := hw' i
  rw [Pi.sub_apply] at hwi ⊢
  have hz : g (extrapolate q x 0 h) i - extrapolate q x 1 h i = -(IWP.noiseCov q h one one * w i) := by rw [hwi]; ring
  rw [hz]
  obtain ⟨p, rfl⟩ : ∃ p, q = p + 1 := ⟨q - 1, by omega⟩
  obtain ⟨a, ha⟩ : ∃ a, 2 * (p + 1) = k + a + 1 := ⟨2 * (p + 1) - k - 1, by omega⟩
  have e1 : IWP.noiseCov (p + 1) h ⟨k, by omega⟩ one = h ^ (a + 1) / ((a + 1 : ℝ) * ((p + 1 - k).factorial : ℝ) * (p.factorial : ℝ)) := by
    simp only [IWP.noiseCov, Matrix.of_apply, one]
    rw [show 2 * (p + 1) + 1 - k - 1 = a + 1 by omega, show p + 1 - 1 = p by omega]
    push_cast; rfl
  have e2 : IWP.noiseCov (p + 1) h one one = h ^ (k + a) / ((2 * p + 1 : ℝ) * (p.factorial : ℝ) * (p.factorial : ℝ)) := by
    simp only [IWP.noiseCov, Matrix.of_apply, one]
    rw [show 2 * (p + 1) + 1 - 1 - 1 = k + a by omega, show p + 1 - 1 = p by omega, show ((k + a : ℕ) : ℝ) = 2 * p + 1 by
      have : k + a = 2 * p + 1 := by omega
      rw [this]; push_cast; rfl]
  have e3 : (2 * ((p + 1 : ℕ) : ℝ) - k) = a + 1 := by
    have : (2 * ((p + 1 : ℕ) : ℝ)) = k + a + 1 := by exact_mod_cast ha
    rw [this]; ring
  have e4 : (2 * ((p + 1 : ℕ) : ℝ) - 1) = 2 * p + 1 := by push_cast; ring
  rw [e1, e2, e3, e4, show p + 1 - 1 = p by omega, pow_add h k a, pow_succ h a]
  have f1 : (p.factorial : ℝ) ≠ 0 := by positivity
  have f2 : ((p + 1 - k).factorial : ℝ) ≠ 0 := by positivity
  have f3 : (a + 1 : ℝ) ≠ 0 := by positivity
  have f4 : (2 * p + 1 : ℝ) ≠ 0 := by positivity
  have f5 : h ^ k ≠ 0 := by positivity
  field_simp

/-- **C112, Heun's method.**  With one derivative, EK0 makes a step of Heun's method from the initial state. -/
theorem ek0_first_step_heun {S : Solver d 1} {g : (Fin d → ℝ) → Fin d → ℝ} (hS : S.strategy = .ek0) (hfree : S.ode.TimeFree)
    (hf : FieldIs S g) {D : Diff} {t h : ℝ} (hh : 0 < h) {rv r : Normal (d * (1 + 1))} {y₀ : Fin d → ℝ} (hrv : rv.Valid)
    (hcov : rv.cov = 0) (h0 : proj d 1 0 *ᵥ rv.mean = y₀) (h1 : proj d 1 1 *ᵥ rv.mean = g y₀)
    {o : Outcome d 1} (ho : attempt S D t rv h = .ok o) (hr : o.rv = some r) :
    proj d 1 0 *ᵥ r.mean = y₀ + (h / 2) • (g y₀ + g (y₀ + h • g y₀)) ∧ proj d 1 1 *ᵥ r.mean = g (y₀ + h • g y₀) := by
  have hx : Knows 1 rv (fun k => if k = 0 then y₀ else g y₀) := ⟨hrv, hcov, fun k hk => by
    interval_cases k
    · simpa using h0
    · simpa using h1⟩
  have T0 : extrapolate 1 (fun k => if k = 0 then y₀ else g y₀) 0 h = y₀ + h • g y₀ := by
    simp [extrapolate, sum_range_succ]
  have T1 : extrapolate 1 (fun k => if k = 0 then y₀ else g y₀) 1 h = g y₀ := by
    simp [extrapolate, sum_range_succ]
  have a := ek0_first_step one_pos hS hfree hf hh hx ho hr 0 (by norm_num)
  have b := ek0_first_step one_pos hS hfree hf hh hx ho hr 1 le_rfl
  rw [T0, T1] at a
  rw [T0, T1] at b
  constructor
  · rw [a]
    funext i
    simp only [Pi.add_apply, Pi.smul_apply, Pi.sub_apply, smul_eq_mul]
    norm_num
    ring
  · rw [b]
    funext i
    simp only [Pi.add_apply, Pi.smul_apply, Pi.sub_apply, smul_eq_mul]
    norm_num
    field_simp
    ring

/-! ## Order -/

/-- **C112, local order.**  A step from the exact derivatives of the solution of an autonomous ODE with `q` times continuously
differentiable vector field has error `O(h^(q + 1 - k))` in the `k`-th derivative; the constant depends on the solver and the
solution only, not on the diffusion model or its state. -/
theorem local_error (hq : 0 < q) {S : Solver d q} (hfree : S.ode.TimeFree) {g : (Fin d → ℝ) → Fin d → ℝ} (hf : FieldIs S g)
    {y : ℝ → Fin d → ℝ} {t₀ : ℝ} (hJ : JacobianAt S (y t₀)) (hy : ∀ᶠ t in 𝓝 t₀, HasDerivAt y (g (y t)) t)
    (hg : ContDiffAt ℝ q g (y t₀)) :
    ∃ C, ∀ᶠ h in 𝓝[>] (0 : ℝ), ∀ (D : Diff) (rv r : Normal (d * (q + 1))) (o : Outcome d q),
      Knows q rv (fun k => iteratedDeriv k y t₀) → attempt S D t₀ rv h = .ok o → o.rv = some r →
      ∀ k ≤ q, ‖proj d q k *ᵥ r.mean - iteratedDeriv k y (t₀ + h)‖ ≤ C * h ^ (q + 1 - k) := by
  let one : Fin (q + 1) := ⟨1, by omega⟩
  let zero : Fin (q + 1) := ⟨0, by omega⟩
  obtain ⟨M, hM, hT⟩ := taylor_error hy hg
  obtain ⟨c, hc, hcorr⟩ := correction_le (d := d) hq
  obtain ⟨K, s, hs, hLip⟩ := (hg.of_le (by exact_mod_cast hq : (1 : WithTop ℕ∞) ≤ q)).exists_lipschitzOnWith
  have hcy : ContinuousAt y t₀ := hy.self_of_nhds.continuousAt
  -- the solution and its extrapolation stay close to the initial value
  have hyt : Tendsto (fun h => y (t₀ + h)) (𝓝[>] 0) (𝓝 (y t₀)) := by
    have : Tendsto (fun h : ℝ => t₀ + h) (𝓝[>] 0) (𝓝 t₀) := by
      have : Tendsto (fun h : ℝ => t₀ + h) (𝓝 0) (𝓝 (t₀ + 0)) := (continuous_const.add continuous_id).tendsto 0
      rw [add_zero] at this
      exact this.mono_left nhdsWithin_le_nhds
    exact hcy.tendsto.comp this
  have hTt : Tendsto (fun h => extrapolate q (fun k => iteratedDeriv k y t₀) 0 h) (𝓝[>] 0) (𝓝 (y t₀)) := by
    have hcont : Continuous fun h => extrapolate q (fun k => iteratedDeriv k y t₀) 0 h := by
      unfold extrapolate
      fun_prop
    have := hcont.tendsto 0
    have e : extrapolate q (fun k => iteratedDeriv k y t₀) 0 0 = y t₀ := by
      rw [extrapolate, Nat.sub_zero, sum_range_succ', sum_eq_zero]
      · simp
      · intro j _; simp
    rw [e] at this
    exact this.mono_left nhdsWithin_le_nhds
  -- the Jacobian is bounded
  obtain ⟨B, hB, hJB⟩ : ∃ B : ℝ, 0 ≤ B ∧ ∀ᶠ h in 𝓝[>] (0 : ℝ), ∀ J : Matrix (Fin d) (Fin d) ℝ, (match S.strategy with
      | .ek0 => J = 0
      | .ek1 => S.ode.df (some (t₀ + h)) (extrapolate q (fun k => iteratedDeriv k y t₀) 0 h) = .ok J) → ∀ a b, |J a b| ≤ B := by
    cases hst : S.strategy with
    | ek0 => exact ⟨0, le_rfl, Eventually.of_forall fun h J hJ a b => by simp only at hJ; rw [hJ]; simp⟩
    | ek1 =>
      obtain ⟨J, hdf, hcJ⟩ := hJ hst
      refine ⟨∑ a, ∑ b, |J (y t₀) a b| + 1, by positivity, ?_⟩
      have hall : ∀ᶠ z in 𝓝 (y t₀), ∀ a ∈ (univ : Finset (Fin d)), ∀ b ∈ (univ : Finset (Fin d)), |J z a b| < |J (y t₀) a b| + 1 := by
        refine (Finset.eventually_all _).2 fun a _ => (Finset.eventually_all _).2 fun b _ => ?_
        have h1 : ContinuousAt (fun z => J z a b) (y t₀) := continuousAt_pi.1 (continuousAt_pi.1 hcJ a) b
        exact h1.abs.eventually (gt_mem_nhds (lt_add_one _))
      filter_upwards [hTt.eventually hall] with h hh J' hJ' a b
      rw [hdf] at hJ'
      cases hJ'
      refine (hh a (mem_univ _) b (mem_univ _)).le.trans (add_le_add_left ?_ 1)
      exact (single_le_sum (f := fun b => |J (y t₀) a b|) (fun _ _ => abs_nonneg _) (mem_univ b)).trans
        (single_le_sum (f := fun a => ∑ b, |J (y t₀) a b|) (fun _ _ => sum_nonneg fun _ _ => abs_nonneg _) (mem_univ a))
  have hder : ∀ᶠ h in 𝓝[>] (0 : ℝ), HasDerivAt y (g (y (t₀ + h))) (t₀ + h) := by
    have : Tendsto (fun h : ℝ => t₀ + h) (𝓝[>] 0) (𝓝 t₀) := by
      have : Tendsto (fun h : ℝ => t₀ + h) (𝓝 0) (𝓝 (t₀ + 0)) := (continuous_const.add continuous_id).tendsto 0
      rw [add_zero] at this
      exact this.mono_left nhdsWithin_le_nhds
    exact this.eventually hy
  refine ⟨M + c * (1 + d * B) * (M + K * M), ?_⟩
  filter_upwards [hT, hJB, hder, hyt.eventually hs, hTt.eventually hs, Ioc_mem_nhdsGT (one_pos : (0 : ℝ) < 1)]
    with h hT hJB hder hys hTs hh D rv r o hx ho hr k hk
  obtain ⟨J, v, w, hJm, hv, hw, hm⟩ := accepted_mean hx.factor hx.certain hfree hh.1 ho hr
  have p0 := predicted hx zero h
  have p1 := predicted hx one h
  simp only [one, zero] at p0 p1
  rw [p0] at hv hJm
  rw [hf] at hv
  cases hv
  rw [p1] at hw
  set T := fun k => extrapolate q (fun k => iteratedDeriv k y t₀) k h with hTdef
  have hTk : ∀ k, k < q + 1 → ‖T k - iteratedDeriv k y (t₀ + h)‖ ≤ M * h ^ (q + 1 - k) := fun k hk => by
    have := hT ⟨k, hk⟩
    rw [← extrapolate_fin (fun k => iteratedDeriv k y t₀) (⟨k, hk⟩ : Fin (q + 1)) h] at this
    exact this
  have hz : ‖T 1 - g (T 0)‖ ≤ (M + K * M) * h ^ q := by
    have a := hTk 1 (by omega)
    have b := hTk 0 (by omega)
    rw [iteratedDeriv_one, hder.deriv, show q + 1 - 1 = q by omega] at a
    rw [iteratedDeriv_zero, Nat.sub_zero] at b
    have l := hLip.dist_le_mul (T 0) hTs (y (t₀ + h)) hys
    rw [dist_eq_norm, dist_eq_norm] at l
    have hb : M * h ^ (q + 1) ≤ M * h ^ q := by
      refine mul_le_mul_of_nonneg_left ?_ hM
      exact pow_le_pow_of_le_one hh.1.le hh.2 (Nat.le_succ q)
    calc ‖T 1 - g (T 0)‖ = ‖(T 1 - g (y (t₀ + h))) - (g (T 0) - g (y (t₀ + h)))‖ := by rw [sub_sub_sub_cancel_right]
      _ ≤ ‖T 1 - g (y (t₀ + h))‖ + ‖g (T 0) - g (y (t₀ + h))‖ := norm_sub_le _ _
      _ ≤ M * h ^ q + K * (M * h ^ q) := add_le_add a (l.trans (mul_le_mul_of_nonneg_left (b.trans hb) K.2))
      _ = _ := by ring
  have hc' := hcorr J B h w (T 1 - g (T 0)) hh.1 hh.2 hB (hJB J hJm) hw ⟨k, by omega⟩
  simp only at hc'
  have hpk := predicted hx (⟨k, by omega⟩ : Fin (q + 1)) h
  simp only at hpk
  rw [hm, Matrix.mulVec_sub, hpk]
  set cor := proj d q k *ᵥ ((IWP.kronEye d (IWP.noiseCov q h) * (proj d q 1 - J * proj d q 0)ᵀ) *ᵥ w) with hcor
  have hcb : ‖cor‖ ≤ c * (1 + d * B) * (M + K * M) * h ^ (q + 1 - k) := by
    have hp : 0 < h ^ (2 * q - 1) := pow_pos hh.1 _
    refine le_of_mul_le_mul_right (hc'.trans ?_) hp
    calc c * (1 + d * B) * h ^ (2 * q - k) * ‖T 1 - g (T 0)‖
        ≤ c * (1 + d * B) * h ^ (2 * q - k) * ((M + K * M) * h ^ q) := by
          refine mul_le_mul_of_nonneg_left hz ?_
          have := hh.1.le
          positivity
      _ = c * (1 + d * B) * (M + K * M) * (h ^ (2 * q - k) * h ^ q) := by ring
      _ = c * (1 + d * B) * (M + K * M) * (h ^ (q + 1 - k) * h ^ (2 * q - 1)) := by
          rw [← pow_add, ← pow_add]; congr 2; omega
      _ = _ := by ring
  calc ‖T k - cor - iteratedDeriv k y (t₀ + h)‖ = ‖(T k - iteratedDeriv k y (t₀ + h)) - cor‖ := by rw [sub_right_comm]
    _ ≤ ‖T k - iteratedDeriv k y (t₀ + h)‖ + ‖cor‖ := norm_sub_le _ _
    _ ≤ M * h ^ (q + 1 - k) + c * (1 + d * B) * (M + K * M) * h ^ (q + 1 - k) := add_le_add (hTk k (by omega)) hcb
    _ = _ := by ring

/-- The initial state of the automatic differentiation routines, as the first state of the filter. -/
noncomputable def autodiffState (mode : AutodiffMode) (ivp : Ivp d) (q : ℕ) : Normal (d * (q + 1)) :=
  ⟨(autodiffInit mode ivp q).mean, (autodiffInit mode ivp q).cov, (autodiffInit mode ivp q).chol⟩

theorem autodiffState_knows (mode : AutodiffMode) {ivp : Ivp d} {g : (Fin d → ℝ) → Fin d → ℝ} (hivp : ∀ t x, ivp.f t x = g x)
    {y : ℝ → Fin d → ℝ} (hy : LocalSolution ivp y) (hg : ContDiffAt ℝ q g ivp.y0) :
    Knows q (autodiffState mode ivp q) (fun k => iteratedDeriv k y ivp.t0) := by
  have hf : ContDiffAt ℝ ((q - 1 : ℕ)) (fun p : ℝ × (Fin d → ℝ) => ivp.f p.1 p.2) (ivp.t0, ivp.y0) := by
    simp only [hivp]
    refine ContDiffAt.comp (ivp.t0, ivp.y0) (hg.of_le ?_) contDiffAt_snd
    exact_mod_cast Nat.sub_le q 1
  have hy' : ∀ᶠ t in 𝓝 ivp.t0, HasDerivAt y (g (y t)) t := hy.ode.mono fun t ht => by rwa [hivp] at ht
  obtain ⟨h1, h2, h3⟩ := autodiff_exact (q := q) mode hy hf
  refine ⟨h3, h2, fun k hk => ?_⟩
  rw [← hy.initial] at hg
  funext i
  rw [← iteratedDeriv_apply (solution_contDiffAt hy' hg k (by omega))]
  exact h1 k hk i

/-- **C112, the first step.**  Initialise with any of the automatic differentiation routines and make a step of size `h` with the
constant diffusion and a step rule that accepts: for all small `h` the filter returns a state, whose `k`-th derivative has error
`O(h^(q + 1 - k))`; in particular the value has local order `q + 1`. -/
theorem first_step_order (hq : 0 < q) {S : Solver d q} (hfree : S.ode.TimeFree) {g : (Fin d → ℝ) → Fin d → ℝ} (hf : FieldIs S g)
    (hacc : ∀ e, S.rule.accepted e = true) (mode : AutodiffMode) {ivp : Ivp d} (hivp : ∀ t x, ivp.f t x = g x)
    {y : ℝ → Fin d → ℝ} (hy : LocalSolution ivp y) (hJ : JacobianAt S ivp.y0) (hg : ContDiffAt ℝ q g ivp.y0) :
    ∃ C, ∀ᶠ h in 𝓝[>] (0 : ℝ), ∀ D : Diffusion.ConstantDiffusion ℝ, ∃ o r,
      attempt S (.constant D) ivp.t0 (autodiffState mode ivp q) h = .ok o ∧ o.rv = some r ∧ o.t = ivp.t0 + h ∧
      ∀ k ≤ q, ‖proj d q k *ᵥ r.mean - iteratedDeriv k y (ivp.t0 + h)‖ ≤ C * h ^ (q + 1 - k) := by
  have hy' : ∀ᶠ t in 𝓝 ivp.t0, HasDerivAt y (g (y t)) t := hy.ode.mono fun t ht => by rwa [hivp] at ht
  have hk : Knows q (autodiffState mode ivp q) (fun k => iteratedDeriv k y ivp.t0) := autodiffState_knows mode hivp hy hg
  rw [← hy.initial] at hJ hg
  obtain ⟨C, hC⟩ := local_error hq hfree hf hJ hy' hg
  refine ⟨C, ?_⟩
  filter_upwards [hC, self_mem_nhdsWithin] with h hC hh D
  have hpos : 0 < h := hh
  have hev : Evaluates S (ivp.t0 + h) := ⟨fun x => ⟨_, hf _ x⟩, fun h1 x => by
    obtain ⟨J, hJ, -⟩ := hJ h1
    exact ⟨_, hJ _ x⟩⟩
  obtain ⟨o, ho, ht, hs⟩ := step_succeeds_partial hq (S := S) (D := .constant D) hk.factor hpos.ne' hfree hev trivial
  obtain ⟨r, hr⟩ := Option.isSome_iff_exists.1 (hs.2 (hacc _))
  exact ⟨o, r, ho, hr, ht, hC _ _ r o hk ho hr⟩

section Examples

/-- The logistic equation `y' = y (1 - y)` from `y(0) = 1/2`, solved by the logistic function. -/
noncomputable def logisticIvp : Ivp 1 := ⟨fun _ x _ => x 0 * (1 - x 0), 0, fun _ => 1 / 2, none, none⟩

theorem logisticIvp_solution : LocalSolution logisticIvp fun t _ => (1 + Real.exp (-t))⁻¹ := by
  refine ⟨by funext _; norm_num [logisticIvp], Eventually.of_forall fun t => hasDerivAt_pi.2 fun _ => ?_⟩
  have hp : 1 + Real.exp (-t) ≠ 0 := by positivity
  have h := (((hasDerivAt_neg t).exp).const_add 1).inv hp
  refine h.congr_deriv ?_
  show _ = (1 + Real.exp (-t))⁻¹ * (1 - (1 + Real.exp (-t))⁻¹)
  field_simp
  ring

/-- EK1 with three derivatives: the value has local order four, the third
derivative order one. -/
example (ch : Kalman.CovCholesky 4) (qr : QR) (mode : AutodiffMode) (ref : ℕ) :
    ∃ C, ∀ᶠ h in 𝓝[>] (0 : ℝ), ∀ D : Diffusion.ConstantDiffusion ℝ, ∃ o r,
      attempt (⟨.ek1, ⟨fun _ x => .ok fun _ => x 0 * (1 - x 0), fun _ x => .ok fun _ _ => 1 - 2 * x 0⟩, ⟨fun _ _ => 0, fun _ => true⟩,
        ch, qr, ref⟩ : Solver 1 3) (.constant D) 0 (autodiffState mode logisticIvp 3) h = .ok o ∧ o.rv = some r ∧ o.t = 0 + h ∧
      ∀ k ≤ 3, ‖proj 1 3 k *ᵥ r.mean - iteratedDeriv k (fun t _ => (1 + Real.exp (-t))⁻¹) (0 + h)‖ ≤ C * h ^ (3 + 1 - k) := by
  have hg : ContDiff ℝ 3 fun (x : Fin 1 → ℝ) (_ : Fin 1) => x 0 * (1 - x 0) := by fun_prop
  refine first_step_order (by norm_num) (g := fun x _ => x 0 * (1 - x 0)) (fun t x => ⟨rfl, rfl⟩) (fun t x => rfl) (fun _ => rfl) mode
    (fun _ _ => rfl) logisticIvp_solution (fun _ => ⟨fun x _ _ => 1 - 2 * x 0, fun _ _ => rfl, ?_⟩) hg.contDiffAt
  exact continuousAt_pi.2 fun _ => continuousAt_pi.2 fun _ =>
    Continuous.continuousAt (f := fun x : Fin 1 → ℝ => 1 - 2 * x 0) (by fun_prop)

/-- Heun's method for the logistic equation: `1/2 + h/2 (1/4 + 1/4 - h^2/16)`. -/
example (ch : Kalman.CovCholesky 2) (qr : QR) (ref : ℕ) (D : Diffusion.ConstantDiffusion ℝ) {h : ℝ} (hh : 0 < h) :
    ∃ o r, attempt (⟨.ek0, ⟨fun _ x => .ok fun _ => x 0 * (1 - x 0), fun _ _ => .error .typeError⟩, ⟨fun _ _ => 0, fun _ => true⟩,
        ch, qr, ref⟩ : Solver 1 1) (.constant D) 0 ⟨![1 / 2, 1 / 4], 0, 0⟩ h = .ok o ∧ o.rv = some r ∧
      (proj 1 1 0 *ᵥ r.mean) 0 = 1 / 2 + h / 2 * (1 / 4 + (1 / 4 - h ^ 2 / 16)) := by
  set S : Solver 1 1 := ⟨.ek0, ⟨fun _ x => .ok fun _ => x 0 * (1 - x 0), fun _ _ => .error .typeError⟩, ⟨fun _ _ => 0, fun _ => true⟩,
        ch, qr, ref⟩ with hS
  have hv : (⟨![1 / 2, 1 / 4], 0, 0⟩ : Normal (1 * (1 + 1))).Valid := by
    show (0 : Matrix _ _ ℝ) * _ = 0
    rw [Matrix.zero_mul]
  obtain ⟨o, ho, -, hs⟩ := step_succeeds_partial one_pos (S := S) (D := .constant D) (t := 0) hv hh.ne' (fun t x => ⟨rfl, rfl⟩)
    ⟨fun x => ⟨_, rfl⟩, fun h => by simp [hS] at h⟩ trivial
  obtain ⟨r, hr⟩ := Option.isSome_iff_exists.1 (hs.2 rfl)
  refine ⟨o, r, ho, hr, ?_⟩
  have h0 : proj 1 1 0 *ᵥ ![1 / 2, 1 / 4] = fun _ => (1 / 2 : ℝ) := by
    funext i
    fin_cases i
    simp [proj, Matrix.mulVec, dotProduct, Fin.sum_univ_succ]
  have h1 : proj 1 1 1 *ᵥ ![1 / 2, 1 / 4] = fun _ => (1 / 2 : ℝ) * (1 - 1 / 2) := by
    funext i
    fin_cases i
    norm_num [proj, Matrix.mulVec, dotProduct, Fin.sum_univ_succ]
  have := (ek0_first_step_heun (S := S) (g := fun x _ => x 0 * (1 - x 0)) rfl (fun t x => ⟨rfl, rfl⟩) (fun t x => rfl) hh hv rfl h0 h1
    ho hr).1
  rw [this]
  simp only [Pi.add_apply, Pi.smul_apply, smul_eq_mul]
  ring

end Examples

end Probnum.OdeFilter
