import Verif.OdeFilter.GlobalLemmas

/-!
# The EK0 filter: covariances, the recursion for one derivative, and convergence
-/

namespace Probnum.OdeFilter

open Matrix LinGauss Filter Topology Finset Diffusion

variable {d q : ℕ}

/-! ## Covariances -/

theorem covAfter_concat (a : Fin (q + 1)) (t t' : ℝ) : ∀ (ts : List ℝ) (P : Matrix (Fin (q + 1)) (Fin (q + 1)) ℝ),
    covAfter q a P (ts ++ [t, t']) = observeCov (predCov q 1 (t' - t) (covAfter q a P (ts ++ [t]))) a
  | [], P => rfl
  | [s], P => rfl
  | s :: s' :: ts, P => by
    have := covAfter_concat a t t' (s' :: ts) (observeCov (predCov q 1 (s' - s) P) a)
    simpa [covAfter] using this

theorem covAfter_one (p : ℝ) : ∀ ts : List ℝ, covAfter 1 1 !![p, 0; 0, 0] ts = !![p + sumCubes ts / 12, 0; 0, 0]
  | [] => by simp [covAfter, sumCubes]
  | [t] => by simp [covAfter, sumCubes]
  | t :: t' :: ts => by
    have hstep : observeCov (predCov 1 1 (t' - t) !![p, 0; 0, 0]) 1 = !![p + (t' - t) ^ 3 / 12, 0; 0, 0] := by
      by_cases h : t' - t = 0
      · rw [h, predCov_one]
        ext i j
        fin_cases i <;> fin_cases j <;> simp [observeCov]
      · rw [observeCov_one p (by rwa [one_mul]), one_mul]
    rw [covAfter, hstep, covAfter_one _ (t' :: ts), sumCubes]
    congr 3
    ring_nf

theorem many_induct_of {S : Solver d q} {motive : Run d q → Prop} {ok : ℝ → Prop}
    (step : ∀ r dt r', ok dt → motive r → r.next S dt = .ok r' → motive r') :
    ∀ (dts : List ℝ) (r r' : Run d q), (∀ dt ∈ dts, ok dt) → motive r → Run.many S r dts = .ok r' → motive r'
  | [], r, r', _, h, e => by
    have : r = r' := by simpa [Run.many] using e
    exact this ▸ h
  | dt :: dts, r, r', hok, h, e => by
    obtain ⟨r1, h1, h2⟩ := bind_ok e
    exact many_induct_of step dts r1 r' (fun x hx => hok x (List.mem_cons_of_mem _ hx)) (step r dt r1 (hok dt List.mem_cons_self) h h1) h2

/-- **C113, covariances.**  EK0 with the constant diffusion, any number of derivatives, started from a covariance which is the
same in every dimension and independent between dimensions (e.g. a certain state): at every accepted time the covariance is of
this form again, and is given by a recursion in which the ODE and its data do not occur. -/
theorem ek0_covariances (hd : 0 < d) (hq : 0 < q) {S : Solver d q} {g : (Fin d → ℝ) → Fin d → ℝ} (hS : S.strategy = .ek0)
    (hfree : S.ode.TimeFree) (hf : FieldIs S g) {t₀ : ℝ} {rv₀ : Normal (d * (q + 1))} (hv : rv₀.Valid)
    {P : Matrix (Fin (q + 1)) (Fin (q + 1)) ℝ} (hP : rv₀.cov = IWP.kronEye d P) {C : ConstantDiffusion ℝ} {dts : List ℝ}
    (hdts : ∀ h ∈ dts, 0 < h) {r : Run d q} (hr : Run.many S (Run.start t₀ rv₀ (.constant C)) dts = .ok r) :
    ∀ k x, r.rvs[k]? = some x → x.cov = IWP.kronEye d (covAfter q ⟨1, by omega⟩ P (r.times.take (k + 1))) := by
  let one : Fin (q + 1) := ⟨1, by omega⟩
  have main : r.Inv ∧ (∃ C, r.diffusion = .constant C) ∧
      ∀ k x, r.rvs[k]? = some x → x.cov = IWP.kronEye d (covAfter q one P (r.times.take (k + 1))) := by
    refine many_induct_of (motive := fun r => r.Inv ∧ (∃ C, r.diffusion = .constant C) ∧
      ∀ k x, r.rvs[k]? = some x → x.cov = IWP.kronEye d (covAfter q one P (r.times.take (k + 1)))) ?_ dts _ r hdts ?_ hr
    · rintro r h r' hh ⟨hi, ⟨C, hC⟩, hcov⟩ hn
      rcases next_cases hfree hi hn with rfl | ⟨o, x, ho, hox, rfl, hi'⟩
      · exact ⟨hi, ⟨C, hC⟩, hcov⟩
      · have hlen := hi.len
        have hne : r.rvs ≠ [] := fun h0 => by have := hi.lastRv; rw [h0] at this; cases this
        have hpos : 0 < r.rvs.length := List.length_pos_iff.2 hne
        have hlast : r.rvs[r.rvs.length - 1]? = some r.rv := by rw [← List.getLast?_eq_getElem?]; exact hi.lastRv
        have hc := hcov _ _ hlast
        rw [show r.rvs.length - 1 + 1 = r.times.length by omega, List.take_length] at hc
        obtain ⟨est, ht, hdi, -, -, hxc, -⟩ := ek0_step hd hq hS hfree hf hh hi.valid hc ho hox
        rw [hC] at hdi hxc
        refine ⟨hi', ⟨_, hdi⟩, fun k y hy => ?_⟩
        simp only at hy ⊢
        rcases lt_trichotomy k r.rvs.length with hk | hk | hk
        · rw [List.getElem?_append_left hk] at hy
          rw [List.take_append_of_le_length (by omega)]
          exact hcov k y hy
        · rw [hk, List.getElem?_concat_length] at hy
          cases hy
          have htk : (r.times ++ [o.t]).take (k + 1) = r.times ++ [o.t] :=
            List.take_of_length_le (by simp; omega)
          have hsplit := List.dropLast_append_getLast? (l := r.times) r.t hi.lastTime
          rw [htk, ← hsplit, List.append_assoc, List.singleton_append, covAfter_concat, hsplit, hxc, ht, add_sub_cancel_left]
          rfl
        · rw [List.getElem?_eq_none (by simp; omega)] at hy
          cases hy
    · refine ⟨Run.start_inv t₀ hv _, ⟨C, rfl⟩, fun k x hx => ?_⟩
      cases k with
      | zero =>
        simp only [Run.start, List.getElem?_cons_zero, Option.some.injEq] at hx
        subst hx
        rw [hP]; rfl
      | succ k => simp [Run.start] at hx
  exact main.2.2

/-- **C113, independence of the data.**  Two runs of EK0 with the constant diffusion for different ODEs and different initial means,
which accept the same times, have the same covariances. -/
theorem ek0_covariance_ignores_ode (hd : 0 < d) (hq : 0 < q) {S S' : Solver d q} {g g' : (Fin d → ℝ) → Fin d → ℝ}
    (hS : S.strategy = .ek0) (hS' : S'.strategy = .ek0) (hfree : S.ode.TimeFree) (hfree' : S'.ode.TimeFree) (hf : FieldIs S g)
    (hf' : FieldIs S' g') {t₀ : ℝ} {rv₀ rv₀' : Normal (d * (q + 1))} (hv : rv₀.Valid) (hv' : rv₀'.Valid)
    {P : Matrix (Fin (q + 1)) (Fin (q + 1)) ℝ} (hP : rv₀.cov = IWP.kronEye d P) (hP' : rv₀'.cov = rv₀.cov)
    {C C' : ConstantDiffusion ℝ} {dts dts' : List ℝ} (hdts : ∀ h ∈ dts, 0 < h) (hdts' : ∀ h ∈ dts', 0 < h) {r r' : Run d q}
    (hr : Run.many S (Run.start t₀ rv₀ (.constant C)) dts = .ok r) (hr' : Run.many S' (Run.start t₀ rv₀' (.constant C')) dts' = .ok r')
    (ht : r.times = r'.times) {k : ℕ} {x x' : Normal (d * (q + 1))} (hx : r.rvs[k]? = some x) (hx' : r'.rvs[k]? = some x') :
    x.cov = x'.cov := by
  rw [ek0_covariances hd hq hS hfree hf hv hP hdts hr k x hx,
    ek0_covariances hd hq hS' hfree' hf' hv' (hP'.trans hP) hdts' hr' k x' hx', ht]

/-- **C113, one derivative: the variance.**  From a certain state, the value has variance `1/12` of the sum of the third powers of the
accepted step sizes, and the derivative is certain; `postprocess` multiplies this with the calibrated squared diffusion. -/
theorem ek0_variance (hd : 0 < d) {S : Solver d 1} {g : (Fin d → ℝ) → Fin d → ℝ} (hS : S.strategy = .ek0)
    (hfree : S.ode.TimeFree) (hf : FieldIs S g) {t₀ : ℝ} {rv₀ : Normal (d * (1 + 1))} (hv : rv₀.Valid) (h0 : rv₀.cov = 0)
    {C : ConstantDiffusion ℝ} {dts : List ℝ} (hdts : ∀ h ∈ dts, 0 < h) {r : Run d 1}
    (hr : Run.many S (Run.start t₀ rv₀ (.constant C)) dts = .ok r) :
    (∀ k x, r.rvs[k]? = some x → x.cov = IWP.kronEye d !![sumCubes (r.times.take (k + 1)) / 12, 0; 0, 0]) ∧
    ∀ s states, filteringStates r = .ok states → r.diffusion.postFactor = .ok s → ∀ k x, states[k]? = some x →
      x.cov = IWP.kronEye d !![s * (sumCubes (r.times.take (k + 1)) / 12), 0; 0, 0] := by
  have hz : (!![0, 0; 0, 0] : Matrix (Fin (1 + 1)) (Fin (1 + 1)) ℝ) = 0 := by
    ext i j; fin_cases i <;> fin_cases j <;> rfl
  have hP : rv₀.cov = IWP.kronEye d !![0, 0; 0, 0] := by
    rw [h0, hz]
    ext a b
    simp [IWP.kronEye]
  have main : ∀ k x, r.rvs[k]? = some x → x.cov = IWP.kronEye d !![sumCubes (r.times.take (k + 1)) / 12, 0; 0, 0] := fun k x hx => by
    rw [ek0_covariances hd one_pos hS hfree hf hv hP hdts hr k x hx]
    have := covAfter_one 0 (r.times.take (k + 1))
    rw [zero_add] at this
    exact congrArg _ this
  refine ⟨main, fun s states hst hs k x hx => ?_⟩
  simp only [filteringStates, hs, Except.map, Except.ok.injEq] at hst
  subst hst
  rw [List.getElem?_map, Option.map_eq_some_iff] at hx
  obtain ⟨y, hy, rfl⟩ := hx
  simp only [scaleRv, main k y hy, IWP.kronEye_smul]
  congr 1
  ext i j
  fin_cases i <;> fin_cases j <;> simp

/-! ## The recursion for one derivative -/

/-- **C113, one derivative: the means.**  From a certain state, EK0 with either diffusion model, any step rule and any step sizes is the
trapezoidal rule with explicit prediction: the values and derivatives of consecutive accepted states are one step of it apart. -/
theorem ek0_is_trapezoidal_rule (hd : 0 < d) {S : Solver d 1} {g : (Fin d → ℝ) → Fin d → ℝ} (hS : S.strategy = .ek0)
    (hfree : S.ode.TimeFree) (hf : FieldIs S g) {t₀ : ℝ} {rv₀ : Normal (d * (1 + 1))} (hv : rv₀.Valid) (h0 : rv₀.cov = 0)
    {D : Diff} {dts : List ℝ} (hdts : ∀ h ∈ dts, 0 < h) {r : Run d 1} (hr : Run.many S (Run.start t₀ rv₀ D) dts = .ok r) :
    r.rvs.head? = some rv₀ ∧ r.times.head? = some t₀ ∧ r.times.length = r.rvs.length ∧
    Consecutive (fun _ t x t' x' => t < t' ∧ (proj d 1 0 *ᵥ x'.mean, proj d 1 1 *ᵥ x'.mean)
      = trapezoidStep g (t' - t) (proj d 1 0 *ᵥ x.mean) (proj d 1 1 *ᵥ x.mean)) r.times r.rvs := by
  have hz : (!![0, 0; 0, 0] : Matrix (Fin (1 + 1)) (Fin (1 + 1)) ℝ) = 0 := by
    ext i j; fin_cases i <;> fin_cases j <;> rfl
  have hP : rv₀.cov = IWP.kronEye d !![0, 0; 0, 0] := by
    rw [h0, hz]
    ext a b
    simp [IWP.kronEye]
  have main : r.Inv ∧ (∃ p : ℝ, r.rv.cov = IWP.kronEye d !![p, 0; 0, 0]) ∧ r.rvs.head? = some rv₀ ∧ r.times.head? = some t₀ ∧
      Consecutive (fun _ t x t' x' => t < t' ∧ (proj d 1 0 *ᵥ x'.mean, proj d 1 1 *ᵥ x'.mean)
        = trapezoidStep g (t' - t) (proj d 1 0 *ᵥ x.mean) (proj d 1 1 *ᵥ x.mean)) r.times r.rvs := by
    refine many_induct_of (motive := fun r => r.Inv ∧ (∃ p : ℝ, r.rv.cov = IWP.kronEye d !![p, 0; 0, 0]) ∧ r.rvs.head? = some rv₀ ∧
      r.times.head? = some t₀ ∧ Consecutive (fun _ t x t' x' => t < t' ∧ (proj d 1 0 *ᵥ x'.mean, proj d 1 1 *ᵥ x'.mean)
        = trapezoidStep g (t' - t) (proj d 1 0 *ᵥ x.mean) (proj d 1 1 *ᵥ x.mean)) r.times r.rvs) ?_ dts _ r hdts ?_ hr
    · rintro r h r' hh ⟨hi, ⟨p, hp⟩, hx0, ht0, hcons⟩ hn
      rcases next_cases hfree hi hn with rfl | ⟨o, x, ho, hox, rfl, hi'⟩
      · exact ⟨hi, ⟨p, hp⟩, hx0, ht0, hcons⟩
      · obtain ⟨est, ht, -, -, hxc, hm0, hm1⟩ := ek0_step_one hd hS hfree hf hh hi.valid hp ho hox
        refine ⟨hi', ⟨_, hxc⟩, by simp [List.head?_append, hx0], by simp [List.head?_append, ht0], ?_⟩
        refine hcons.append hi.len hi.lastTime hi.lastRv ⟨by rw [ht]; linarith, ?_⟩
        rw [hm0, hm1, ht, add_sub_cancel_left]
        rfl
    · refine ⟨Run.start_inv t₀ hv _, ⟨0, hP⟩, rfl, rfl, ?_⟩
      intro k t₀ x₀ t₁ x₁ _ _ h3 _
      simp [Run.start] at h3
  exact ⟨main.2.2.1, main.2.2.2.1, main.1.len, main.2.2.2.2⟩

/-! ## Convergence -/

/-- **C114, global order two.**  EK0 with one derivative on an autonomous ODE with twice continuously differentiable, globally Lipschitz
vector field, started with the exact value and derivative: there are a constant `C` and a step size `H₀`, depending on the ODE, the
solution and the interval only, so that for all runs with step sizes at most `H ≤ H₀` — any step rule, any diffusion model, any
accepted and rejected attempts — the errors of values and derivatives at all accepted times up to `T` are at most `C H²`. -/
theorem ek0_global_order {g : (Fin d → ℝ) → Fin d → ℝ} (hg : ContDiff ℝ 2 g) {L : NNReal} (hlip : LipschitzWith L g)
    {y : ℝ → Fin d → ℝ} (hy : ∀ t, HasDerivAt y (g (y t)) t) (t₀ T : ℝ) (hd : 0 < d) :
    ∃ C H₀, 0 < H₀ ∧ ∀ (S : Solver d 1) (D : Diff) (rv₀ : Normal (d * (1 + 1))) (dts : List ℝ) (H : ℝ) (r : Run d 1),
      S.strategy = .ek0 → S.ode.TimeFree → FieldIs S g → Knows 1 rv₀ (fun k => iteratedDeriv k y t₀) → H ≤ H₀ →
      (∀ h ∈ dts, 0 < h ∧ h ≤ H) → Run.many S (Run.start t₀ rv₀ D) dts = .ok r →
      ∀ (k : ℕ) (t : ℝ) (x : Normal (d * (1 + 1))), r.times[k]? = some t → r.rvs[k]? = some x → t ≤ T →
        ‖proj d 1 0 *ᵥ x.mean - y t‖ ≤ C * H ^ 2 ∧ ‖proj d 1 1 *ᵥ x.mean - deriv y t‖ ≤ C * H ^ 2 := by
  obtain ⟨-, hcont⟩ := solution_smooth (N := 2) hg hy
  obtain ⟨M2, hM2⟩ := (isCompact_Icc (a := t₀) (b := T)).exists_bound_of_continuousOn (hcont 2 (by norm_num)).continuousOn
  obtain ⟨M3, hM3⟩ := (isCompact_Icc (a := t₀) (b := T)).exists_bound_of_continuousOn (hcont 3 (by norm_num)).continuousOn
  set M := max 0 (max M2 M3) with hM
  have hM0 : 0 ≤ M := le_max_left _ _
  have b2 : ∀ s ∈ Set.Icc t₀ T, ‖iteratedDeriv 2 y s‖ ≤ M := fun s hs => (hM2 s hs).trans ((le_max_left _ _).trans (le_max_right _ _))
  have b3 : ∀ s ∈ Set.Icc t₀ T, ‖iteratedDeriv 3 y s‖ ≤ M := fun s hs => (hM3 s hs).trans ((le_max_right _ _).trans (le_max_right _ _))
  have hl : ∀ a b, ‖g a - g b‖ ≤ (L : ℝ) * ‖a - b‖ := fun a b => by
    have := hlip.dist_le_mul a b
    rwa [dist_eq_norm, dist_eq_norm] at this
  obtain ⟨l, hl0, hl⟩ : ∃ l : ℝ, 0 ≤ l ∧ ∀ a b, ‖g a - g b‖ ≤ l * ‖a - b‖ := ⟨L, L.2, hl⟩
  set K := (2 * l + 2) * M with hK
  have hK0 : 0 ≤ K := by positivity
  set B := Real.exp (2 * l * |T - t₀|) * (|T - t₀| * K) with hB
  have hB0 : 0 ≤ B := by positivity
  refine ⟨B + (2 * l * B + 2 * l * M), 1 / (2 * (l + 1)), by positivity, fun S D rv₀ dts H r hS hfree hf hkn hH hdts hr => ?_⟩
  have hderiv : ∀ t, deriv y t = g (y t) := fun t => (hy t).deriv
  have hz : (!![0, 0; 0, 0] : Matrix (Fin (1 + 1)) (Fin (1 + 1)) ℝ) = 0 := by
    ext i j; fin_cases i <;> fin_cases j <;> rfl
  have hP : rv₀.cov = IWP.kronEye d !![0, 0; 0, 0] := by
    rw [hkn.certain, hz]
    ext a b
    simp [IWP.kronEye]
  -- the invariant
  let Good : ℝ → Normal (d * (1 + 1)) → Prop := fun t x => t ≤ T →
    ‖proj d 1 0 *ᵥ x.mean - y t‖ ≤ errorBound l K t₀ H t ∧
      ‖proj d 1 1 *ᵥ x.mean - g (y t)‖ ≤ 2 * l * errorBound l K t₀ H t + 2 * l * M * H ^ 2
  have main : r.Inv ∧ (∃ p : ℝ, r.rv.cov = IWP.kronEye d !![p, 0; 0, 0]) ∧ t₀ ≤ r.t ∧ Good r.t r.rv ∧
      ∀ (k : ℕ) (t : ℝ) (x : Normal (d * (1 + 1))), r.times[k]? = some t → r.rvs[k]? = some x → t₀ ≤ t ∧ Good t x := by
    refine many_induct_of (motive := fun r => r.Inv ∧ (∃ p : ℝ, r.rv.cov = IWP.kronEye d !![p, 0; 0, 0]) ∧ t₀ ≤ r.t ∧ Good r.t r.rv ∧
      ∀ (k : ℕ) (t : ℝ) (x : Normal (d * (1 + 1))), r.times[k]? = some t → r.rvs[k]? = some x → t₀ ≤ t ∧ Good t x) (ok := fun h => 0 < h ∧ h ≤ H) ?_ dts _ r hdts ?_ hr
    · rintro r h r' ⟨hh, hhH⟩ ⟨hi, ⟨p, hp⟩, ht0, hgood, hall⟩ hn
      rcases next_cases hfree hi hn with rfl | ⟨o, x, ho, hox, rfl, hi'⟩
      · exact ⟨hi, ⟨p, hp⟩, ht0, hgood, hall⟩
      · obtain ⟨est, ht, -, -, hxc, hm0, hm1⟩ := ek0_step_one hd hS hfree hf hh hi.valid hp ho hox
        have hnew : t₀ ≤ o.t := by rw [ht]; linarith
        have hg' : Good o.t x := fun hT => by
          rw [ht] at hT ⊢
          obtain ⟨g1, g2⟩ := hgood (by linarith)
          have hLH : l * H ≤ 1 / 2 := by
            have : l * H ≤ l * (1 / (2 * (l + 1))) := mul_le_mul_of_nonneg_left hH hl0
            refine this.trans ?_
            rw [mul_one_div, div_le_div_iff₀ (by positivity) (by norm_num)]
            linarith
          have hA : 0 ≤ errorBound l K t₀ H r.t := (norm_nonneg _).trans g1
          have hsub : ∀ s ∈ Set.Icc r.t (r.t + h), s ∈ Set.Icc t₀ T := fun s hs => ⟨ht0.trans hs.1, hs.2.trans hT⟩
          obtain ⟨e1, e2⟩ := trapezoid_error hy hg hl0 hl hh hhH hLH hA (fun s hs => b2 s (hsub s hs)) (fun s hs => b3 s (hsub s hs)) g1 g2
          have hstep := errorBound_step (H := H) hl0 hK0 ht0 hh
          rw [hm0, hm1]
          refine ⟨e2.trans hstep, e1.trans ?_⟩
          have hmono : errorBound l K t₀ H r.t ≤ errorBound l K t₀ H (r.t + h) := by
            refine le_trans ?_ hstep
            have : 0 ≤ 2 * l * h * errorBound l K t₀ H r.t := by positivity
            have h2 : 0 ≤ h * (K * H ^ 2) := by positivity
            nlinarith
          have := mul_le_mul_of_nonneg_left hmono (by positivity : 0 ≤ 2 * l)
          linarith
        refine ⟨hi', ⟨_, hxc⟩, hnew, hg', fun k t z hkt hkz => ?_⟩
        simp only at hkt hkz
        have hlen := hi.len
        rcases lt_trichotomy k r.times.length with hk | hk | hk
        · rw [List.getElem?_append_left hk] at hkt
          rw [List.getElem?_append_left (by omega)] at hkz
          exact hall k t z hkt hkz
        · rw [hk, List.getElem?_concat_length] at hkt
          rw [hk, hlen, List.getElem?_concat_length] at hkz
          cases hkt; cases hkz
          exact ⟨hnew, hg'⟩
        · rw [List.getElem?_eq_none (by simp; omega)] at hkt
          cases hkt
    · have hstart : Good t₀ rv₀ := fun _ => by
        have k0 := hkn.mean 0 (by norm_num)
        have k1 := hkn.mean 1 le_rfl
        simp only [iteratedDeriv_zero, iteratedDeriv_one, hderiv] at k0 k1
        rw [k0, k1, sub_self, sub_self, norm_zero, errorBound, sub_self, zero_mul, mul_zero]
        exact ⟨le_rfl, by positivity⟩
      refine ⟨Run.start_inv t₀ hkn.factor _, ⟨0, hP⟩, le_rfl, hstart, fun k t x hkt hkx => ?_⟩
      cases k with
      | zero =>
        simp only [Run.start, List.getElem?_cons_zero, Option.some.injEq] at hkt hkx
        subst hkt; subst hkx
        exact ⟨le_rfl, hstart⟩
      | succ k => simp [Run.start] at hkt
  intro k t x hkt hkx hT
  obtain ⟨ht, hgood⟩ := main.2.2.2.2 k t x hkt hkx
  obtain ⟨g1, g2⟩ := hgood hT
  have hbound : errorBound l K t₀ H t ≤ B * H ^ 2 := by
    have h1 : t - t₀ ≤ |T - t₀| := le_trans (by linarith) (le_abs_self _)
    have h2 : Real.exp (2 * l * (t - t₀)) ≤ Real.exp (2 * l * |T - t₀|) :=
      Real.exp_le_exp.2 (mul_le_mul_of_nonneg_left h1 (by positivity))
    have e : B * H ^ 2 = Real.exp (2 * l * |T - t₀|) * (|T - t₀| * (K * H ^ 2)) := by rw [hB]; ring
    rw [errorBound, e]
    refine mul_le_mul h2 (mul_le_mul_of_nonneg_right h1 (by positivity)) (mul_nonneg (by linarith) (by positivity)) (Real.exp_pos _).le
  have hsq : 0 ≤ H ^ 2 := sq_nonneg H
  have hlM : 0 ≤ 2 * l * B + 2 * l * M := by positivity
  refine ⟨g1.trans (hbound.trans ?_), ?_⟩
  · exact mul_le_mul_of_nonneg_right (by linarith) hsq
  · rw [hderiv]
    refine g2.trans ?_
    have := mul_le_mul_of_nonneg_left hbound (by positivity : 0 ≤ 2 * l)
    have h3 : 0 ≤ B * H ^ 2 := by positivity
    nlinarith

/-- With the constant diffusion and a rule that accepts every step, a run with positive step sizes returns, and its times are the
partial sums of the step sizes. -/
theorem fixed_run_returns (hq : 0 < q) {S : Solver d q} (hfree : S.ode.TimeFree) (hev : ∀ t, Evaluates S t)
    (hacc : ∀ e, S.rule.accepted e = true) : ∀ (dts : List ℝ) (r : Run d q), (∀ h ∈ dts, 0 < h) → r.Inv → (∃ C, r.diffusion = .constant C) →
    ∃ r', Run.many S r dts = .ok r' ∧ r'.Inv ∧ r'.t = r.t + dts.sum ∧ r'.times.length = r.times.length + dts.length
  | [], r, _, hi, _ => ⟨r, rfl, hi, by simp, by simp⟩
  | h :: dts, r, hpos, hi, ⟨C, hC⟩ => by
    have hh : 0 < h := hpos h List.mem_cons_self
    obtain ⟨o, ho, hto, hs⟩ := step_succeeds_partial hq (S := S) (D := .constant C) (t := r.t) hi.valid hh.ne' hfree (hev _) trivial
    obtain ⟨x, hx⟩ := Option.isSome_iff_exists.1 (hs.2 (hacc _))
    rw [← hC] at ho
    have hn : r.next S h = .ok ⟨o.t, x, o.diffusion, r.times ++ [o.t], r.rvs ++ [x]⟩ := by
      simp only [Run.next, ho, Except.map, hx]
    rcases next_cases hfree hi hn with he | ⟨o', x', ho', hx', -, hi'⟩
    · have := congrArg (fun r => r.times.length) he
      simp at this
    · have hdi : ∃ C, o.diffusion = .constant C := by
        rw [hC] at ho
        obtain ⟨est, -, hd, -, -⟩ := accepted_step_is_conditioning_partial hi.valid hfree ho hx
        exact ⟨_, hd⟩
      obtain ⟨r', h1, h2, h3, h4⟩ := fixed_run_returns hq hfree hev hacc dts ⟨o.t, x, o.diffusion, r.times ++ [o.t], r.rvs ++ [x]⟩
        (fun z hz => hpos z (List.mem_cons_of_mem _ hz)) hi' hdi
      refine ⟨r', ?_, h2, ?_, ?_⟩
      · simp only [Run.many, hn, Except.bind]
        exact h1
      · rw [h3, hto, List.sum_cons]; ring
      · rw [h4]; simp; omega

/-- **C114, convergence with fixed steps.**  Initialise EK0 with one derivative by automatic differentiation and make `N` equal steps from
`t₀` to `T`, with the constant diffusion and the constant step rule: the run returns, ends at `T`, and for large `N` the final value is
within `C / N²` of the solution. -/
theorem ek0_fixed_steps_converge {g : (Fin d → ℝ) → Fin d → ℝ} (hg : ContDiff ℝ 2 g) {L : NNReal} (hlip : LipschitzWith L g)
    {ivp : Ivp d} (hivp : ∀ t x, ivp.f t x = g x) {y : ℝ → Fin d → ℝ} (hy0 : y ivp.t0 = ivp.y0) (hy : ∀ t, HasDerivAt y (g (y t)) t)
    {T : ℝ} (hT : ivp.t0 < T) (hd : 0 < d) (mode : AutodiffMode) {S : Solver d 1} (hS : S.strategy = .ek0) (hfree : S.ode.TimeFree)
    (hf : FieldIs S g) (hacc : ∀ e, S.rule.accepted e = true) (C₀ : ConstantDiffusion ℝ) :
    ∃ C, ∀ᶠ N : ℕ in atTop, ∃ r, Run.many S (Run.start ivp.t0 (autodiffState mode ivp 1) (.constant C₀))
        (List.replicate N ((T - ivp.t0) / N)) = .ok r ∧ r.t = T ∧ r.times.length = N + 1 ∧
      ‖proj d 1 0 *ᵥ r.rv.mean - y T‖ ≤ C / (N : ℝ) ^ 2 := by
  obtain ⟨C, H₀, hH₀, hC⟩ := ek0_global_order hg hlip hy ivp.t0 T hd
  have hloc : LocalSolution ivp y := ⟨hy0, Eventually.of_forall fun t => by rw [hivp]; exact hy t⟩
  have hkn : Knows 1 (autodiffState mode ivp 1) (fun k => iteratedDeriv k y ivp.t0) :=
    autodiffState_knows mode hivp hloc (hg.contDiffAt.of_le (by norm_num))
  refine ⟨C * (T - ivp.t0) ^ 2, ?_⟩
  obtain ⟨N₀, hN₀⟩ := exists_nat_gt ((T - ivp.t0) / H₀)
  filter_upwards [eventually_ge_atTop (N₀ + 1)] with N hN
  have hNpos : (0 : ℝ) < N := by exact_mod_cast (by omega : 0 < N)
  have hstep : 0 < (T - ivp.t0) / N := div_pos (by linarith) hNpos
  have hsmall : (T - ivp.t0) / N ≤ H₀ := by
    rw [div_le_iff₀ hNpos]
    have h1 : (N₀ : ℝ) ≤ N := by exact_mod_cast (by omega : N₀ ≤ N)
    have h2 := (div_lt_iff₀ hH₀).1 hN₀
    nlinarith
  have hev : ∀ t, Evaluates S t := fun t => ⟨fun x => ⟨_, hf t x⟩, fun h => by rw [hS] at h; cases h⟩
  have hpos : ∀ h ∈ List.replicate N ((T - ivp.t0) / N), 0 < h := fun h hh => by rw [List.eq_of_mem_replicate hh]; exact hstep
  obtain ⟨r, hr, hi, ht, hlen⟩ := fixed_run_returns one_pos hfree hev hacc _ _ hpos
    (Run.start_inv ivp.t0 hkn.factor (.constant C₀)) ⟨C₀, rfl⟩
  have htT : r.t = T := by
    rw [ht, List.sum_replicate, nsmul_eq_mul, mul_div_cancel₀ _ hNpos.ne']
    simp [Run.start]
  refine ⟨r, hr, htT, by rw [hlen]; simp [Run.start]; omega, ?_⟩
  have hlt : r.times[r.times.length - 1]? = some T := by rw [← List.getLast?_eq_getElem?, hi.lastTime, htT]
  have hlx : r.rvs[r.times.length - 1]? = some r.rv := by rw [hi.len, ← List.getLast?_eq_getElem?]; exact hi.lastRv
  have := (hC S (.constant C₀) _ _ ((T - ivp.t0) / N) r hS hfree hf hkn hsmall (fun h hh => ⟨hpos h hh, (List.eq_of_mem_replicate hh).le⟩)
    hr _ T r.rv hlt hlx le_rfl).1
  refine this.trans (le_of_eq ?_)
  rw [div_pow]
  ring

section Examples

/-- The harmonic oscillator `x' = v, v' = -x` from `(0, 1)`, solved by sine and cosine. -/
noncomputable def oscillator : Ivp 2 := ⟨fun _ x => ![x 1, -x 0], 0, ![0, 1], none, none⟩

theorem oscillator_lipschitz : LipschitzWith 1 fun x : Fin 2 → ℝ => ![x 1, -x 0] := by
  refine LipschitzWith.of_dist_le_mul fun a b => ?_
  rw [NNReal.coe_one, one_mul, dist_pi_le_iff dist_nonneg]
  intro i
  fin_cases i
  · exact dist_le_pi_dist a b 1
  · show dist (-a 0) (-b 0) ≤ _
    rw [dist_neg_neg]
    exact dist_le_pi_dist a b 0

theorem oscillator_solution (t : ℝ) :
    HasDerivAt (fun t => ![Real.sin t, Real.cos t]) ((fun x : Fin 2 → ℝ => ![x 1, -x 0]) ![Real.sin t, Real.cos t]) t := by
  refine hasDerivAt_pi.2 fun i => ?_
  fin_cases i
  · simpa using Real.hasDerivAt_sin t
  · simpa using Real.hasDerivAt_cos t

theorem oscillator_smooth : ContDiff ℝ 2 fun x : Fin 2 → ℝ => ![x 1, -x 0] := by
  refine contDiff_pi.2 fun i => ?_
  fin_cases i
  · exact contDiff_apply ℝ ℝ 1
  · exact (contDiff_apply ℝ ℝ 0).neg

/-- `N` steps of EK0 for the harmonic oscillator up to time one. -/
example (ch : Kalman.CovCholesky 2) (qr : QR) (ref : ℕ) (mode : AutodiffMode) :
    ∃ C, ∀ᶠ N : ℕ in atTop, ∃ r, Run.many (⟨.ek0, ⟨fun _ x => .ok ![x 1, -x 0], fun _ _ => .error .typeError⟩,
        ⟨fun _ _ => 0, fun _ => true⟩, ch, qr, ref⟩ : Solver 2 1) (Run.start 0 (autodiffState mode oscillator 1) (.constant .init))
        (List.replicate N ((1 - 0) / N)) = .ok r ∧ r.t = 1 ∧ r.times.length = N + 1 ∧
      ‖proj 2 1 0 *ᵥ r.rv.mean - ![Real.sin 1, Real.cos 1]‖ ≤ C / (N : ℝ) ^ 2 :=
  ek0_fixed_steps_converge (ivp := oscillator) oscillator_smooth oscillator_lipschitz (fun _ _ => rfl)
    (y := fun t => ![Real.sin t, Real.cos t]) (by simp [oscillator]) oscillator_solution (by norm_num [oscillator]) (by norm_num) mode
    rfl (fun t x => ⟨rfl, rfl⟩) (fun t x => rfl) (fun _ => rfl) .init

/-- After a step of size `1/2` the value has variance `1/96`. -/
example (ch : Kalman.CovCholesky 2) (qr : QR) (ref : ℕ) :
    ∃ r x, Run.many (⟨.ek0, ⟨fun _ x => .ok ![x 1, -x 0], fun _ _ => .error .typeError⟩,
        ⟨fun _ _ => 0, fun _ => true⟩, ch, qr, ref⟩ : Solver 2 1) (Run.start 0 ⟨![0, 1, 1, 0], 0, 0⟩ (.constant .init))
        [1 / 2] = .ok r ∧ r.rvs[1]? = some x ∧ x.cov = IWP.kronEye 2 !![1 / 96, 0; 0, 0] := by
  set S : Solver 2 1 := ⟨.ek0, ⟨fun _ x => .ok ![x 1, -x 0], fun _ _ => .error .typeError⟩, ⟨fun _ _ => 0, fun _ => true⟩, ch, qr, ref⟩
    with hS
  have hv : (⟨![0, 1, 1, 0], 0, 0⟩ : Normal (2 * (1 + 1))).Valid := by
    show (0 : Matrix _ _ ℝ) * _ = 0
    rw [Matrix.zero_mul]
  have hfree : S.ode.TimeFree := fun t x => ⟨rfl, rfl⟩
  have hf : FieldIs S fun x => ![x 1, -x 0] := fun t x => rfl
  have hpos : ∀ h ∈ [(1 / 2 : ℝ)], 0 < h := by simp
  obtain ⟨r, hr, hi, ht, hlen⟩ := fixed_run_returns one_pos (S := S) hfree
    (fun t => ⟨fun x => ⟨_, hf t x⟩, fun h => by simp [hS] at h⟩) (fun _ => rfl) [1 / 2] _ hpos (Run.start_inv 0 hv (.constant .init)) ⟨_, rfl⟩
  obtain ⟨-, h0, hl, -⟩ := ek0_is_trapezoidal_rule (by norm_num) rfl hfree hf hv rfl hpos hr
  have hlen2 : r.times.length = 2 := by rw [hlen]; rfl
  have ht2 : r.t = 1 / 2 := by rw [ht]; simp [Run.start]
  have htimes : r.times = [0, 1 / 2] := by
    have hlast := hi.lastTime
    rw [ht2] at hlast
    generalize r.times = ts at *
    match ts, hlen2 with
    | [a, b], _ =>
      simp only [List.head?_cons, Option.some.injEq, List.getLast?_cons_cons, List.getLast?_singleton] at h0 hlast
      rw [h0, hlast]
  obtain ⟨x, hx⟩ : ∃ x, r.rvs[1]? = some x := by
    have : 1 < r.rvs.length := by omega
    exact ⟨_, List.getElem?_eq_getElem this⟩
  refine ⟨r, x, hr, hx, ?_⟩
  rw [(ek0_variance (by norm_num) rfl hfree hf hv rfl hpos hr).1 1 x hx, htimes]
  norm_num [sumCubes]

end Examples

end Probnum.OdeFilter
