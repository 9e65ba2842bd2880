import Verif.Linalg.LemmasCalibration

/-!
# C98: uncertainty calibration of the symmetric matrix-based solver
-/

namespace Probnum.Linalg.MatrixBased

open Matrix

variable {n : Type} [Fintype n] [DecidableEq n]

/-! ## Specification -/

/-- The Rayleigh quotient of `A` in the direction `s`. -/
noncomputable def rayleigh (A : Matrix n n ℝ) (s : n → ℝ) : ℝ := (s ⬝ᵥ A *ᵥ s) / (s ⬝ᵥ s)

/-- The documented scale `φ` of the uncertainty about `A` outside the search directions `dirs` (oldest first): a given number; the most
recent Rayleigh quotient, used by all methods for the first two iterations; as the code does it, the exponential of the mean of the
discounted logarithms of all quotients; what the regression predicts. -/
def IsScale (gp : List ℝ → Res (List ℝ)) (A : Matrix n n ℝ) (dirs : List (n → ℝ)) (phi : ℝ) : Calibration → Prop
  | .none => False
  | .scale c => 0 < c ∧ phi = c
  | .method m =>
    (∃ s, dirs.getLast? = some s ∧ phi = rayleigh A s) ∧ (dirs.length ≤ 2 ∨ m = .adhoc) ∨
    2 < dirs.length ∧ m = .weightedmean ∧
      phi = Real.exp ((∑ i : Fin dirs.length, 0.9 ^ (i : ℕ) * Real.log (rayleigh A dirs[i])) / dirs.length) ∨
    2 < dirs.length ∧ m = .gpkern ∧
      ∃ l, gp (dirs.map fun s => Real.log (rayleigh A s)) = .ok l ∧ phi = Real.exp (l.sum / l.length)

/-- `W` is certain in the span of `dirs` and has variance `c` in all directions orthogonal to them. -/
def IsCalibrated (W : Matrix n n ℝ) (dirs : List (n → ℝ)) (c : ℝ) : Prop :=
  (∀ s ∈ dirs, W *ᵥ s = 0) ∧ ∀ t, (∀ s ∈ dirs, s ⬝ᵥ t = 0) → W *ᵥ t = c • t

/-- Calibration concerns these attributes only. -/
def SameEstimates (st st' : State n) : Prop :=
  ∃ tr outA outH, st = { st' with
    trSol := tr
    outA := outA
    outH := outH }

/-! ## Runs -/

private theorem step_same {P : Params n} {st st' : State n} (h : SameEstimates st st') : step P st = step P st' := by
  obtain ⟨tr, a, b, rfl⟩ := h
  rfl

private theorem finish_same {P : Params n} {H0 : Matrix n n ℝ} {i : ℕ} {st st' : State n} {sc : Option (ℝ × ℝ)}
    (h : finish P H0 i st sc = .ok st') : SameEstimates st' st := by
  simp only [finish] at h
  split at h
  · exact absurd h (by simp)
  · split at h
    · exact absurd h (by simp)
    · exact ⟨_, _, _, (Except.ok.inj h).symm⟩

private theorem stepCal_ok {gp : List ℝ → Res (List ℝ)} {cal : Calibration} {fixed : Option (ℝ × ℝ)} {P : Params n}
    {H0 : Matrix n n ℝ} {st st' : State n} (h : stepCal gp cal fixed P H0 st = .ok st') :
    ∃ su scales, step P st = .ok su ∧ stepScales gp cal fixed st.iter su = .ok scales ∧
      finish P H0 st.iter su scales = .ok st' := by
  simp only [stepCal] at h
  split at h
  · exact absurd h (by simp)
  · next su h1 =>
    split at h
    · exact absurd h (by simp)
    · next scales h2 => exact ⟨su, scales, h1, h2, h⟩

private theorem stepsCal_same {gp : List ℝ → Res (List ℝ)} {cal : Calibration} {fixed : Option (ℝ × ℝ)} {P : Params n}
    {H0 : Matrix n n ℝ} {st0 st1 : State n} (h0 : SameEstimates st0 st1) (k : ℕ) {st : State n}
    (h : stepsCal gp cal fixed P H0 st0 k = .ok st) : ∃ su, steps P st1 k = .ok su ∧ SameEstimates st su := by
  induction k generalizing st with
  | zero => have := Except.ok.inj h; subst this; exact ⟨st1, rfl, h0⟩
  | succ k ih =>
    rw [stepsCal] at h
    split at h
    · exact absurd h (by simp)
    · next st2 h2 =>
      obtain ⟨su, h3, h4⟩ := ih h2
      obtain ⟨su', sc, h5, -, h6⟩ := stepCal_ok h
      exact ⟨su', by rw [steps, h3]; exact (step_same h4).symm.trans h5, finish_same h6⟩

private theorem runCal_ok {gp : List ℝ → Res (List ℝ)} {A : Matrix n n ℝ} {b : n → ℝ} {prior : Prior n}
    {cal : Calibration} {k : ℕ} {P : Params n} {st : State n} (h : runCal gp A b prior cal k = .ok (P, st)) :
    ∃ st0 fixed, init A b prior = .ok (P, st0) ∧ initScales cal = .ok fixed ∧
      stepsCal gp cal fixed P st0.HMean { st0 with
        trSol := traceSol b P.HCov0 (P.HCov0.trace + (fixed.map Prod.snd).getD 0 * (Fintype.card n : ℝ)) } k = .ok st := by
  simp only [runCal, initCal] at h
  split at h
  · exact absurd h (by simp)
  · next P' fixed st1 h1 =>
    split at h1
    · exact absurd h1 (by simp)
    · next P2 st2 h2 =>
      split at h1
      · exact absurd h1 (by simp)
      · next sc h3 =>
        simp only [Except.ok.injEq, Prod.mk.injEq] at h1
        obtain ⟨rfl, rfl, rfl⟩ := h1
        split at h
        · exact absurd h (by simp)
        · next st3 h4 =>
          simp only [Except.ok.injEq, Prod.mk.injEq] at h
          obtain ⟨rfl, rfl⟩ := h
          exact ⟨st2, _, h2, h3, h4⟩

private theorem sameInit (st : State n) (t : ℝ) : SameEstimates { st with trSol := t } st := ⟨_, _, _, rfl⟩

/-- The last of `k + 1` iterations. -/
private theorem runCal_last {gp : List ℝ → Res (List ℝ)} {A : Matrix n n ℝ} {b : n → ℝ} {prior : Prior n}
    {cal : Calibration} {k : ℕ} {P : Params n} {st : State n} (h : runCal gp A b prior cal (k + 1) = .ok (P, st)) :
    ∃ st0 fixed s1 su scales, init A b prior = .ok (P, st0) ∧ initScales cal = .ok fixed ∧ steps P st0 k = .ok s1 ∧
      steps P st0 (k + 1) = .ok su ∧ stepScales gp cal fixed s1.iter su = .ok scales ∧
      finish P st0.HMean s1.iter su scales = .ok st := by
  obtain ⟨st0, fixed, h1, h2, h3⟩ := runCal_ok h
  rw [stepsCal] at h3
  split at h3
  · exact absurd h3 (by simp)
  · next st2 h4 =>
    obtain ⟨s1, h5, h6⟩ := stepsCal_same (sameInit _ _) k h4
    obtain ⟨su, scales, h7, h8, h9⟩ := stepCal_ok h3
    have hit : st2.iter = s1.iter := by obtain ⟨_, _, _, rfl⟩ := h6; rfl
    rw [hit] at h8 h9
    exact ⟨st0, fixed, s1, su, scales, h1, h2, h5, by rw [steps, h5]; exact (step_same h6).symm.trans h7, h8, h9⟩

/-- **C98: calibration does not change the estimates.**  After any number of iterations with any calibration, the iterate, the means, the
search directions and observations, the residual and the uncalibrated factors are those of the solver without calibration. -/
theorem calibration_keeps_estimates (gp : List ℝ → Res (List ℝ)) {A : Matrix n n ℝ} {b : n → ℝ} {prior : Prior n}
    {cal : Calibration} {k : ℕ} {P : Params n} {st : State n} (h : runCal gp A b prior cal k = .ok (P, st)) :
    ∃ st0 su, init A b prior = .ok (P, st0) ∧ steps P st0 k = .ok su ∧ st.x = su.x ∧ st.AMean = su.AMean ∧
      st.HMean = su.HMean ∧ st.dirs = su.dirs ∧ st.obs = su.obs ∧ st.resid = su.resid ∧ st.iter = su.iter ∧
      st.ACov = su.ACov ∧ st.HCov = su.HCov := by
  obtain ⟨st0, fixed, h1, -, h3⟩ := runCal_ok h
  obtain ⟨su, h5, _, _, _, rfl⟩ := stepsCal_same (sameInit _ _) k h3
  exact ⟨st0, su, h1, h5, rfl, rfl, rfl, rfl, rfl, rfl, rfl, rfl, rfl⟩

/-- **C98: so does the loop.**  Whatever `solve` with calibration returns is an iterate of the solver without calibration: calibration
can only change when it stops, and the covariances. -/
theorem solve_keeps_estimates (gp : List ℝ → Res (List ℝ)) {A : Matrix n n ℝ} {b : n → ℝ} {prior : Prior n}
    {cal : Calibration} {P : Params n} {fixed : Option (ℝ × ℝ)} {st0 st : State n}
    (h0 : initCal A b prior cal = .ok (P, fixed, st0)) {maxiter : ℤ} {atol rtol : ℝ} {fuel : ℕ} {c : Crit}
    (h : solveLoopCal gp cal fixed P st0.HMean maxiter atol rtol fuel st0 = some (.ok (st, c))) :
    ∃ k, runCal gp A b prior cal k = .ok (P, st) ∧ hasConverged P maxiter atol rtol st = some c := by
  have key : ∀ fuel k s, stepsCal gp cal fixed P st0.HMean st0 k = .ok s →
      solveLoopCal gp cal fixed P st0.HMean maxiter atol rtol fuel s = some (.ok (st, c)) →
      ∃ k, stepsCal gp cal fixed P st0.HMean st0 k = .ok st ∧ hasConverged P maxiter atol rtol st = some c := by
    intro fuel
    induction fuel with
    | zero => intro k s _ h2; exact absurd h2 (by simp [solveLoopCal])
    | succ f ih =>
      intro k s h1 h2
      rw [solveLoopCal] at h2
      split at h2
      · next c' hc =>
        simp only [Option.some.injEq, Except.ok.injEq, Prod.mk.injEq] at h2
        obtain ⟨rfl, rfl⟩ := h2
        exact ⟨k, h1, hc⟩
      · split at h2
        · exact absurd h2 (by simp)
        · next s' h3 => exact ih (k + 1) s' (by rw [stepsCal, h1]; exact h3) h2
  obtain ⟨k, h1, h2⟩ := key fuel 0 st0 rfl h
  refine ⟨k, ?_, h2⟩
  rw [runCal, h0]
  simp only [h1]

/-! ## Scales -/

private theorem logR_eq {A : Matrix n n ℝ} (hA : IsPd A) {l : List (n → ℝ)} (h0 : ∀ s ∈ l, s ≠ 0) :
    logR l (l.map (A *ᵥ ·)) = l.map fun s => Real.log (rayleigh A s) := by
  induction l with
  | nil => rfl
  | cons s l ih =>
    have h1 := ih fun t ht => h0 t (List.mem_cons_of_mem _ ht)
    have hs := h0 s List.mem_cons_self
    have hss : s ⬝ᵥ s ≠ 0 := fun h => hs (dotProduct_self_eq_zero.1 h)
    rw [logR] at h1 ⊢
    rw [List.map_cons, List.zipWith_cons_cons, h1, List.map_cons, rayleigh, Real.log_div (hA.2 s hs).ne' hss]

theorem rayleigh_pos {A : Matrix n n ℝ} (hA : IsPd A) {s : n → ℝ} (hs : s ≠ 0) : 0 < rayleigh A s := by
  refine div_pos (hA.2 s hs) (lt_of_le_of_ne (Finset.sum_nonneg fun i _ => mul_self_nonneg (s i)) fun h => hs ?_)
  exact dotProduct_self_eq_zero.1 h.symm

private theorem last_scale {A : Matrix n n ℝ} (hA : IsPd A) {l : List (n → ℝ)} (h0 : ∀ s ∈ l, s ≠ 0) (hl : l ≠ []) :
    ∃ s, l.getLast? = some s ∧ Real.exp ((l.map fun s => Real.log (rayleigh A s)).getLastD 0) = rayleigh A s := by
  refine ⟨l.getLast hl, List.getLast?_eq_some_getLast hl, ?_⟩
  rw [List.getLastD_eq_getLast?, List.getLast?_map, List.getLast?_eq_some_getLast hl, Option.map_some, Option.getD_some,
    Real.exp_log (rayleigh_pos hA (h0 _ (List.getLast_mem hl)))]

private theorem weighted_sum (f : (n → ℝ) → ℝ) (l : List (n → ℝ)) :
    (List.zipWith (fun r (i : ℕ) => r * (0.9 : ℝ) ^ i) (l.map f) (List.range l.length)).sum =
      ∑ i : Fin l.length, 0.9 ^ (i : ℕ) * f l[i] := by
  rw [← List.sum_ofFn]
  congr 1
  refine List.ext_getElem (by simp) fun i h1 h2 => ?_
  simp [mul_comm]

/-- The scales used in an iteration are the documented ones, that of the inverse is the reciprocal of that of the matrix. -/
private theorem scales_spec {gp : List ℝ → Res (List ℝ)} {P : Params n} (hA : IsPd P.A) {cal : Calibration}
    {fixed scales : Option (ℝ × ℝ)} {k : ℕ} {su : State n} (hi : Inv P (k + 1) su) (hf : initScales cal = .ok fixed)
    (h : stepScales gp cal fixed k su = .ok scales) :
    (scales = none ∧ (cal = .none ∨ cal = .scale 0)) ∨
    ∃ phi, 0 < phi ∧ IsScale gp P.A su.dirs phi cal ∧ scales = some (phi, phi⁻¹) := by
  cases cal with
  | none =>
    simp only [initScales, stepScales, Except.ok.injEq] at hf h
    exact Or.inl ⟨by rw [← h, ← hf], Or.inl rfl⟩
  | scale c =>
    simp only [initScales] at hf
    simp only [stepScales, Except.ok.injEq] at h
    subst h
    by_cases h1 : c < 0
    · rw [if_pos h1] at hf; exact absurd hf (by simp)
    · rw [if_neg h1] at hf
      by_cases h2 : c = 0
      · rw [if_pos h2] at hf
        exact Or.inl ⟨(Except.ok.inj hf).symm, Or.inr (by rw [h2])⟩
      · rw [if_neg h2] at hf
        have hc : 0 < c := lt_of_le_of_ne (not_lt.1 h1) (Ne.symm h2)
        exact Or.inr ⟨c, hc, ⟨hc, rfl⟩, by rw [← Except.ok.inj hf, one_div]⟩
  | method m =>
    right
    have hne : su.dirs ≠ [] := by
      intro h0
      have := hi.len
      rw [h0] at this
      exact absurd this (by simp)
    have h0 : ∀ s ∈ su.dirs, s ≠ 0 := fun s hs => (hi.dirs s hs).1
    simp only [stepScales, hi.obs, logR_eq hA h0] at h
    split at h
    · exact absurd h (by simp)
    · next p hp =>
      have hs := Except.ok.inj h
      subst hs
      obtain ⟨s, hs1, hs2⟩ := last_scale hA h0 hne
      simp only [calibrate] at hp
      by_cases hk : 1 < k
      · rw [if_pos hk] at hp
        have hl : 2 < su.dirs.length := by rw [hi.len]; omega
        split at hp
        · exact absurd hp (by simp)
        · next pred hpred =>
          have := Except.ok.inj hp
          subst this
          refine ⟨Real.exp (mean pred), Real.exp_pos _, ?_, by rw [Real.exp_neg]⟩
          cases m with
          | adhoc =>
            have := Except.ok.inj hpred
            subst this
            refine Or.inl ⟨⟨s, hs1, ?_⟩, Or.inr rfl⟩
            rw [← hs2, mean]; simp
          | weightedmean =>
            have := Except.ok.inj hpred
            subst this
            refine Or.inr (Or.inl ⟨hl, rfl, ?_⟩)
            rw [mean, ← hi.len, weighted_sum]
            simp
          | gpkern => exact Or.inr (Or.inr ⟨hl, rfl, pred, hpred, rfl⟩)
          | other => exact absurd hpred (by simp)
      · rw [if_neg hk] at hp
        have := Except.ok.inj hp
        subst this
        refine ⟨_, Real.exp_pos _, Or.inl ⟨⟨s, hs1, hs2⟩, Or.inl (by rw [hi.len]; omega)⟩, by simp only [one_div]⟩

/-! ## Calibrated covariances -/

private theorem init_prior {A : Matrix n n ℝ} {b : n → ℝ} {prior : Prior n} {P : Params n} {st0 : State n}
    (h : init A b prior = .ok (P, st0)) : st0.HMean = P.HCov0 ∧ (∀ A0, prior = .matrix A0 → P.ACov0 = A0) ∧
      ((∀ A0, prior ≠ .matrix A0) → P.ACov0 = A) := by
  simp only [init] at h
  split at h
  · exact absurd h (by simp)
  · next A0 V0 H0 W0 h1 =>
    simp only [Except.ok.injEq, Prod.mk.injEq] at h
    obtain ⟨rfl, rfl⟩ := h
    cases prior with
    | none =>
      simp only [priorParams, Except.ok.injEq, Prod.mk.injEq] at h1
      obtain ⟨rfl, rfl, rfl, rfl⟩ := h1
      exact ⟨rfl, (fun _ h => nomatch h), fun _ => rfl⟩
    | guess x0 =>
      simp only [priorParams] at h1
      split at h1
      · exact absurd h1 (by simp)
      · simp only [Except.ok.injEq, Prod.mk.injEq] at h1
        obtain ⟨rfl, rfl, rfl, rfl⟩ := h1
        exact ⟨rfl, (fun _ h => nomatch h), fun _ => rfl⟩
    | inverse Hi =>
      simp only [priorParams] at h1
      split at h1
      · exact absurd h1 (by simp)
      · simp only [Except.ok.injEq, Prod.mk.injEq] at h1
        obtain ⟨rfl, rfl, rfl, rfl⟩ := h1
        exact ⟨rfl, (fun _ h => nomatch h), fun _ => rfl⟩
    | matrix A1 =>
      simp only [priorParams] at h1
      split at h1
      · exact absurd h1 (by simp)
      · simp only [Except.ok.injEq, Prod.mk.injEq] at h1
        obtain ⟨rfl, rfl, rfl, rfl⟩ := h1
        exact ⟨rfl, (fun _ h => Prior.matrix.inj h), fun h => absurd rfl (h _)⟩

private theorem obs_injective {P : Params n} (hA : IsPd P.A) {k : ℕ} {su : State n} (hi : Inv P k su) :
    ∀ c, cols su.obs *ᵥ c = 0 → c = 0 := by
  have hu := isPd_isUnit_det hA
  have hinv : IsPd P.A⁻¹ := inv_isPd hA (if_pos hu)
  rw [hi.obs]
  refine cols_injective hinv (fun y hy => ?_) ?_
  · obtain ⟨s, hs, rfl⟩ := List.mem_map.1 hy
    exact fun h => (hi.dirs s hs).1 (hA.inj _ h)
  · rw [List.pairwise_map]
    refine hi.conj.imp fun {s t} hst => ?_
    rw [mulVec_mulVec, nonsing_inv_mul _ hu, one_mulVec, ← symm_dot hA.1]
    exact hst

/-- The two first terms of the calibrated factor of the inverse cancel. -/
private theorem h_cancel {P : Params n} (hA : IsPd P.A) (hW : IsPd P.HCov0) {k : ℕ} {su : State n} (hi : Inv P k su)
    (hv : Vanish P su) : hFactor0 P.HCov0 su.obs = .ok su.HUpd ∧
      IsUnit ((cols su.obs)ᵀ * P.HCov0 * cols su.obs).det ∧
      (((cols su.obs)ᵀ * P.HCov0 * cols su.obs)⁻¹ *
        ((cols su.obs)ᵀ * P.HCov0 * P.HCov0 * cols su.obs)).trace = su.trUpd := by
  have hinj := obs_injective hA hi
  have hu := isPd_isUnit_det (gram_isPd hW hinj)
  have hY : ∀ y ∈ su.obs, su.HUpd *ᵥ y = P.HCov0 *ᵥ y := by
    intro y hy
    rw [hi.obs] at hy
    obtain ⟨s, hs, rfl⟩ := List.mem_map.1 hy
    have := (hi.dirs s hs).2
    rw [hi.hUpd, sub_mulVec] at this
    exact (sub_eq_zero.1 this).symm
  have heq : P.HCov0 * cols su.obs * ((cols su.obs)ᵀ * P.HCov0 * cols su.obs)⁻¹ * ((cols su.obs)ᵀ * P.HCov0) =
      su.HUpd := by
    refine eq_of_split hW hinj (fun c => ?_) fun t ht => ?_
    · have h1 : su.HUpd *ᵥ (cols su.obs *ᵥ c) = P.HCov0 *ᵥ (cols su.obs *ᵥ c) := by
        rw [cols_mulVec, mulVec_sum, mulVec_sum]
        exact Finset.sum_congr rfl fun j _ => by rw [mulVec_smul, mulVec_smul, hY su.obs[j] (List.getElem_mem _)]
      rw [h1, mulVec_mulVec, mulVec_mulVec, Matrix.mul_assoc, nonsing_inv_mul_cancel_right _ _ hu]
    · rw [hv.h t (of_cols_transpose ht), ← mulVec_mulVec, ← mulVec_mulVec t, ht, mulVec_zero]
  refine ⟨?_, hu, ?_⟩
  · simp only [hFactor0]
    rw [if_pos hu, heq]
  · rw [hi.tr, ← heq, Matrix.mul_assoc (P.HCov0 * cols su.obs), trace_mul_comm (P.HCov0 * cols su.obs)]
    simp only [Matrix.mul_assoc]

private theorem traceSol_eq (W : Matrix n n ℝ) (b : n → ℝ) : traceSol b W W.trace = (solutionCov W b).trace := by
  rw [traceSol, solutionCov, trace_smul, trace_add, trace_smul, trace_vecMulVec, dotProduct_comm b, smul_eq_mul,
    smul_eq_mul]

private theorem finish_spec {P : Params n} (hA : IsPd P.A) (hW : IsPd P.HCov0) {k : ℕ} {su : State n}
    (hi : Inv P k su) (hv : Vanish P su) {i : ℕ} (hi0 : 0 < i) {phi psi : ℝ} (hpsi : psi ≠ 0) {st : State n}
    (h : finish P P.HCov0 i su (some (phi, psi)) = .ok st) :
    st.outH = nullTerm su.obs psi ∧ st.outA = aFactor0 su.dirs su.obs - su.AUpd + nullTerm su.dirs phi ∧
      st.trSol = (solutionCov st.outH P.b).trace := by
  obtain ⟨h1, h2, h3⟩ := h_cancel hA hW hi hv
  have htr : traceFactor0 P P.HCov0 su.obs (some psi) =
      .ok (su.trUpd + psi * ((Fintype.card n : ℝ) - su.obs.length)) := by
    simp only [traceFactor0, Option.getD_some]
    rw [if_pos hpsi, if_pos h2, h3]
  rw [finish, outFactors, if_pos hi0] at h
  simp only [Option.map_some, htr, h1, sub_self, zero_add] at h
  have := Except.ok.inj h
  subst this
  refine ⟨rfl, rfl, ?_⟩
  rw [← traceSol_eq, (nullTerm_spec (obs_injective hA hi) psi).2.2.1, add_sub_cancel_left]

private theorem run_facts {gp : List ℝ → Res (List ℝ)} {A : Matrix n n ℝ} (hA : IsPd A) {b : n → ℝ} {prior : Prior n}
    (hp : prior.Consistent) {cal : Calibration} {k : ℕ} {P : Params n} {st : State n}
    (h : runCal gp A b prior cal (k + 1) = .ok (P, st)) :
    ∃ st0 fixed su scales, init A b prior = .ok (P, st0) ∧ initScales cal = .ok fixed ∧ P.A = A ∧ P.b = b ∧
      IsPd P.HCov0 ∧ Inv P (k + 1) su ∧ Vanish P su ∧ SameEstimates st su ∧ stepScales gp cal fixed k su = .ok scales ∧
      finish P P.HCov0 k su scales = .ok st := by
  obtain ⟨st0, fixed, s1, su, scales, h1, h2, h3, h4, h5, h6⟩ := runCal_last h
  obtain ⟨hPA, hPb, -, -, -, -, hW, -⟩ := init_spec hA hp h1
  have hs1 := (steps_inv hA hp h1 _ h3).1.iter
  rw [hs1] at h5 h6
  rw [(init_prior h1).1] at h6
  exact ⟨st0, fixed, su, scales, h1, h2, hPA, hPb, hW, (steps_inv hA hp h1 _ h4).1, steps_vanish hA hp h1 _ h4,
    finish_same h6, h5, h6⟩

/-- **C98 (partial): the calibrated belief about the inverse.**  For a symmetric positive definite system, any consistent prior and any
calibration that sets a scale: after two or more iterations the returned covariance factor of the inverse is zero on the span
of the observations and `1/φ` on their orthogonal complement, with `φ > 0` the documented scale; it is positive semi-definite; and
the trace used for stopping is that of the covariance it induces on the solution.  Missing: the first iteration, see
`calibration_first`, and the start, see `initial_trace_wrong`. -/
theorem calibrated_inverse_partial (gp : List ℝ → Res (List ℝ)) {A : Matrix n n ℝ} (hA : IsPd A) {b : n → ℝ}
    {prior : Prior n} (hp : prior.Consistent) {cal : Calibration} (hc : cal ≠ .none) (hc0 : cal ≠ .scale 0) {k : ℕ}
    {P : Params n} {st : State n} (h : runCal gp A b prior cal (k + 2) = .ok (P, st)) :
    ∃ phi, 0 < phi ∧ IsScale gp A st.dirs phi cal ∧ IsCalibrated st.outH st.obs phi⁻¹ ∧ IsPsd st.outH ∧
      st.trSol = (solutionCov st.outH b).trace := by
  obtain ⟨st0, fixed, su, scales, -, h2, rfl, rfl, hW, hi, hv, hs, h5, h6⟩ := run_facts hA hp h
  rcases scales_spec hA hi h2 h5 with ⟨-, h7⟩ | ⟨phi, h7, h8, rfl⟩
  · rcases h7 with h7 | h7
    · exact absurd h7 hc
    · exact absurd h7 hc0
  · obtain ⟨h9, -, h10⟩ := finish_spec hA hW hi hv (Nat.succ_pos k) (inv_ne_zero h7.ne') h6
    obtain ⟨tr, oa, oh, hst⟩ := hs
    have hd : st.dirs = su.dirs := by rw [hst]
    have ho : st.obs = su.obs := by rw [hst]
    obtain ⟨n1, n2, -, n4⟩ := nullTerm_spec (obs_injective hA hi) phi⁻¹
    exact ⟨phi, h7, by rw [hd]; exact h8, by rw [h9, ho]; exact ⟨n1, n2⟩, by rw [h9]; exact n4 (inv_nonneg.2 h7.le), h10⟩

private theorem a_known {P : Params n} {k : ℕ} {su : State n} (hi : Inv P k su) {s : n → ℝ} (hs : s ∈ su.dirs) :
    su.AUpd *ᵥ s = P.ACov0 *ᵥ s := by
  have := (hi.same s).2 (hi.dirs s hs).2
  rw [hi.aUpd, sub_mulVec] at this
  exact (sub_eq_zero.1 this).symm

/-- **C98 (partial): the calibrated belief about the matrix.**  The same for the matrix, its search directions and the scale `φ`, for
all priors other than a matrix `A0`; for those see `matrix_prior_wrong`. -/
theorem calibrated_matrix_partial (gp : List ℝ → Res (List ℝ)) {A : Matrix n n ℝ} (hA : IsPd A) {b : n → ℝ}
    {prior : Prior n} (hp : prior.Consistent) (hm : ∀ A0, prior ≠ .matrix A0) {cal : Calibration} (hc : cal ≠ .none)
    (hc0 : cal ≠ .scale 0) {k : ℕ} {P : Params n} {st : State n} (h : runCal gp A b prior cal (k + 2) = .ok (P, st)) :
    ∃ phi, 0 < phi ∧ IsScale gp A st.dirs phi cal ∧ IsCalibrated st.outA st.dirs phi ∧ IsPsd st.outA := by
  obtain ⟨st0, fixed, su, scales, h1, h2, rfl, rfl, hW, hi, hv, hs, h5, h6⟩ := run_facts hA hp h
  rcases scales_spec hA hi h2 h5 with ⟨-, h7⟩ | ⟨phi, h7, h8, rfl⟩
  · rcases h7 with h7 | h7
    · exact absurd h7 hc
    · exact absurd h7 hc0
  · obtain ⟨-, h9, -⟩ := finish_spec hA hW hi hv (Nat.succ_pos k) (inv_ne_zero h7.ne') h6
    have hV : P.ACov0 = P.A := (init_prior h1).2.2 hm
    obtain ⟨tr, oa, oh, hst⟩ := hs
    have hd : st.dirs = su.dirs := by rw [hst]
    have hne : ∀ s ∈ su.dirs, s ≠ 0 := fun s hs => (hi.dirs s hs).1
    have hinj : ∀ c, cols su.dirs *ᵥ c = 0 → c = 0 := cols_injective hA hne hi.conj
    obtain ⟨a1, a2⟩ := aFactor0_spec hA hne hi.conj
    rw [← hi.obs] at a1 a2
    have heq : aFactor0 su.dirs su.obs = su.AUpd := by
      refine eq_of_split hA hinj (fun c => ?_) fun t ht => ?_
      · rw [cols_mulVec, mulVec_sum, mulVec_sum]
        refine Finset.sum_congr rfl fun j _ => ?_
        have hj : su.dirs[j] ∈ su.dirs := List.getElem_mem _
        rw [mulVec_smul, mulVec_smul, a1 _ hj, a_known hi hj, hV]
      · have ht' := of_cols_transpose ht
        rw [a2 t ht', hv.a t (by rw [hV]; exact ht')]
    rw [heq, sub_self, zero_add] at h9
    obtain ⟨n1, n2, -, n4⟩ := nullTerm_spec hinj phi
    exact ⟨phi, h7, by rw [hd]; exact h8, by rw [h9, hd]; exact ⟨n1, n2⟩, by rw [h9]; exact n4 h7.le⟩

/-- **C98 fails for a prior `A0` on the matrix.**  After two or more iterations with a calibration that sets a scale, the returned covariance
factor of the matrix maps each search direction `s` to `A s - A0 s`: there is uncertainty about what has been observed exactly
wherever `A0` was wrong. -/
theorem matrix_prior_wrong (gp : List ℝ → Res (List ℝ)) {A A0 : Matrix n n ℝ} (hA : IsPd A) {b : n → ℝ}
    (hp : (Prior.matrix A0).Consistent) {cal : Calibration} (hc : cal ≠ .none) (hc0 : cal ≠ .scale 0) {k : ℕ}
    {P : Params n} {st : State n} (h : runCal gp A b (.matrix A0) cal (k + 2) = .ok (P, st)) (s : n → ℝ) (hs : s ∈ st.dirs) :
    st.AMean *ᵥ s = A *ᵥ s ∧ st.outA *ᵥ s = A *ᵥ s - A0 *ᵥ s := by
  obtain ⟨st0, fixed, su, scales, h1, h2, rfl, rfl, hW, hi, hv, hst, h5, h6⟩ := run_facts hA hp h
  rcases scales_spec hA hi h2 h5 with ⟨-, h7⟩ | ⟨phi, h7, h8, rfl⟩
  · rcases h7 with h7 | h7
    · exact absurd h7 hc
    · exact absurd h7 hc0
  · obtain ⟨-, h9, -⟩ := finish_spec hA hW hi hv (Nat.succ_pos k) (inv_ne_zero h7.ne') h6
    have hV : P.ACov0 = A0 := (init_prior h1).2.1 _ rfl
    obtain ⟨tr, oa, oh, hst⟩ := hst
    have hd : st.dirs = su.dirs := by rw [hst]
    have hM : st.AMean = su.AMean := by rw [hst]
    rw [hd] at hs
    have hne : ∀ s ∈ su.dirs, s ≠ 0 := fun s hs => (hi.dirs s hs).1
    have hinj : ∀ c, cols su.dirs *ᵥ c = 0 → c = 0 := cols_injective hA hne hi.conj
    obtain ⟨a1, -⟩ := aFactor0_spec hA hne hi.conj
    rw [← hi.obs] at a1
    refine ⟨by rw [hM]; exact hi.aKnown s ((hi.same s).2 (hi.dirs s hs).2), ?_⟩
    rw [h9, add_mulVec, sub_mulVec, (nullTerm_spec hinj phi).1 s hs, a1 s hs, a_known hi hs, hV, add_zero]

/-- **C98 fails for the first iteration.**  After one iteration the returned factors are those of the prior, whatever the calibration:
they are not zero in the direction observed. -/
theorem calibration_first (gp : List ℝ → Res (List ℝ)) {A : Matrix n n ℝ} (hA : IsPd A) {b : n → ℝ}
    {prior : Prior n} (hp : prior.Consistent) {cal : Calibration} {P : Params n} {st : State n}
    (h : runCal gp A b prior cal 1 = .ok (P, st)) :
    st.outA = P.ACov0 ∧ st.outH = P.HCov0 ∧ (∀ s ∈ st.dirs, st.outA *ᵥ s ≠ 0) ∧ ∀ y ∈ st.obs, st.outH *ᵥ y ≠ 0 := by
  obtain ⟨st0, fixed, su, scales, h1, h2, rfl, rfl, hW, hi, hv, hst, h5, h6⟩ := run_facts hA hp h
  have hV : IsPd P.ACov0 := (init_spec hA hp h1).2.2.2.2.2.2.2.1
  have hout : st.outA = P.ACov0 ∧ st.outH = P.HCov0 := by
    simp only [finish, outFactors, lt_irrefl, if_false] at h6
    split at h6
    · exact absurd h6 (by simp)
    · have := Except.ok.inj h6
      subst this
      exact ⟨rfl, rfl⟩
  obtain ⟨tr, oa, oh, hst⟩ := hst
  have hd : st.dirs = su.dirs := by rw [hst]
  have ho : st.obs = su.obs := by rw [hst]
  refine ⟨hout.1, hout.2, fun s hs h0 => ?_, fun y hy h0 => ?_⟩
  · rw [hout.1] at h0
    rw [hd] at hs
    exact (hi.dirs s hs).1 (hV.inj s h0)
  · rw [hout.2] at h0
    rw [ho, hi.obs] at hy
    obtain ⟨s, hs, rfl⟩ := List.mem_map.1 hy
    exact (hi.dirs s hs).1 (hA.inj _ (hW.inj _ h0))

/-- **C98 fails before the first iteration.**  With a given scale `c > 0` and a right-hand side `b ≠ 0`, the trace the solver compares with
the tolerances is too large: it adds `n/c` to the trace of the factor, while the belief it returns is the prior. -/
theorem initial_trace_wrong (gp : List ℝ → Res (List ℝ)) {A : Matrix n n ℝ} (hA : IsPd A) {b : n → ℝ} (hb : b ≠ 0)
    {prior : Prior n} (hp : prior.Consistent) {c : ℝ} (hc : 0 < c) {P : Params n} {st : State n}
    (h : runCal gp A b prior (.scale c) 0 = .ok (P, st)) :
    st.outH = P.HCov0 ∧ (solutionCov st.outH b).trace < st.trSol := by
  obtain ⟨st0, fixed, h1, h2, h3⟩ := runCal_ok h
  have hst := Except.ok.inj h3
  subst hst
  obtain ⟨-, hPb, -, -, -, -, hW, -⟩ := init_spec hA hp h1
  have hout : st0.outH = P.HCov0 := by
    simp only [init] at h1
    split at h1
    · exact absurd h1 (by simp)
    · simp only [Except.ok.injEq, Prod.mk.injEq] at h1
      obtain ⟨rfl, rfl⟩ := h1
      rfl
  simp only [initScales] at h2
  rw [if_neg hc.not_gt, if_neg hc.ne'] at h2
  have hf := Except.ok.inj h2
  subst hf
  refine ⟨hout, ?_⟩
  show (solutionCov st0.outH b).trace < traceSol b P.HCov0 (P.HCov0.trace + 1 / c * (Fintype.card n : ℝ))
  rw [hout, ← traceSol_eq, traceSol, traceSol]
  have hbb := hW.2 b hb
  rw [dotProduct_comm] at hbb
  have hn : 0 < (Fintype.card n : ℝ) := by
    obtain ⟨i, -⟩ := Function.ne_iff.1 hb
    exact_mod_cast Fintype.card_pos_iff.2 ⟨i⟩
  have : 0 < (P.HCov0 *ᵥ b ⬝ᵥ b) * (1 / c * (Fintype.card n : ℝ)) := by positivity
  nlinarith

/-! ## When calibration fails -/

/-- **C98: negative scales are rejected**, with any system and prior that can be set up. -/
theorem negative_scale (gp : List ℝ → Res (List ℝ)) {A : Matrix n n ℝ} {b : n → ℝ} {prior : Prior n} {c : ℝ} (hc : c < 0)
    {P : Params n} {st0 : State n} (h : init A b prior = .ok (P, st0)) (k : ℕ) :
    runCal gp A b prior (.scale c) k = .error .valueError := by
  simp only [runCal, initCal, h, initScales, if_pos hc]

private theorem finish_ok {P : Params n} (hA : IsPd P.A) (hW : IsPd P.HCov0) {k : ℕ} {su : State n} (hi : Inv P k su)
    (hv : Vanish P su) (i : ℕ) (sc : Option (ℝ × ℝ)) : ∃ st, finish P P.HCov0 i su sc = .ok st := by
  obtain ⟨h1, h2, h3⟩ := h_cancel hA hW hi hv
  obtain ⟨t, ht⟩ : ∃ t, traceFactor0 P P.HCov0 su.obs (sc.map Prod.snd) = .ok t := by
    simp only [traceFactor0]
    by_cases h4 : (sc.map Prod.snd).getD 0 ≠ 0
    · rw [if_pos h4, if_pos h2]; exact ⟨_, rfl⟩
    · rw [if_neg h4]; exact ⟨_, rfl⟩
  obtain ⟨p, hp⟩ : ∃ p, outFactors P P.HCov0 i su sc = .ok p := by
    simp only [outFactors]
    by_cases h4 : 0 < i
    · rw [if_pos h4]
      cases sc with
      | none => exact ⟨_, rfl⟩
      | some q => simp only [h1]; exact ⟨_, rfl⟩
    · rw [if_neg h4]; exact ⟨_, rfl⟩
  rw [finish]
  simp only [ht, hp]
  exact ⟨_, rfl⟩

/-- With a calibration that succeeds on all lists of Rayleigh quotients, calibration never fails. -/
private theorem run_ok_of {gp : List ℝ → Res (List ℝ)} {A : Matrix n n ℝ} (hA : IsPd A) {b : n → ℝ} {prior : Prior n}
    (hp : prior.Consistent) {cal : Calibration} {fixed : Option (ℝ × ℝ)} (hf : initScales cal = .ok fixed)
    {P : Params n} {st0 : State n} (h0 : init A b prior = .ok (P, st0)) (k : ℕ)
    (hsc : ∀ j, j < k → ∀ su : State n, ∃ sc, stepScales gp cal fixed j su = .ok sc) {su : State n}
    (h : steps P st0 k = .ok su) : ∃ st, runCal gp A b prior cal k = .ok (P, st) := by
  obtain ⟨t0, ht0⟩ : ∃ t0 : State n, t0 = { st0 with
      trSol := traceSol b P.HCov0 (P.HCov0.trace + (fixed.map Prod.snd).getD 0 * (Fintype.card n : ℝ)) } := ⟨_, rfl⟩
  obtain ⟨hPA, -, -, -, -, -, hW, -⟩ := init_spec hA hp h0
  have hH0 : t0.HMean = P.HCov0 := by rw [ht0]; exact (init_prior h0).1
  have key : ∃ st, stepsCal gp cal fixed P t0.HMean t0 k = .ok st := by
    clear hf
    induction k generalizing su with
    | zero => exact ⟨_, rfl⟩
    | succ k ih =>
      have hsu := h
      rw [steps] at h
      split at h
      · exact absurd h (by simp)
      · next s1 h1 =>
        obtain ⟨st1, h2⟩ := ih (fun j hj => hsc j (by omega)) h1
        have hsame := stepsCal_same (st1 := st0) (by rw [ht0]; exact sameInit _ _) k h2
        obtain ⟨s1', h3, h4⟩ := hsame
        have := Except.ok.inj (h3.symm.trans h1)
        subst this
        have hit : st1.iter = k := by
          obtain ⟨_, _, _, rfl⟩ := h4
          exact (steps_inv hA hp h0 _ h1).1.iter
        obtain ⟨sc, h5⟩ := hsc k (by omega) su
        obtain ⟨st, h6⟩ := finish_ok (by rw [hPA]; exact hA) hW (steps_inv hA hp h0 _ hsu).1
          (steps_vanish hA hp h0 _ hsu) k sc
        refine ⟨st, ?_⟩
        rw [stepsCal, h2]
        simp only [stepCal, step_same h4, h, hit, h5]
        rw [hH0]; exact h6
  obtain ⟨st, hst⟩ := key
  refine ⟨st, ?_⟩
  rw [runCal, initCal, h0]
  simp only [hf]
  rw [ht0] at hst
  simp only [hst]

/-- **C98: calibration does not fail.**  Whenever the solver without calibration completes `k` iterations, so does the solver with the
calibrations `None`, a nonnegative number, `"adhoc"` or `"weightedmean"`. -/
theorem calibration_never_fails (gp : List ℝ → Res (List ℝ)) {A : Matrix n n ℝ} (hA : IsPd A) {b : n → ℝ}
    {prior : Prior n} (hp : prior.Consistent) {cal : Calibration}
    (hc : cal = .none ∨ (∃ c, 0 ≤ c ∧ cal = .scale c) ∨ cal = .method .adhoc ∨ cal = .method .weightedmean)
    {P : Params n} {st0 : State n} (h0 : init A b prior = .ok (P, st0)) (k : ℕ) {su : State n}
    (h : steps P st0 k = .ok su) : ∃ st, runCal gp A b prior cal k = .ok (P, st) := by
  rcases hc with rfl | ⟨c, hc, rfl⟩ | rfl | rfl
  · exact run_ok_of hA hp rfl h0 k (fun j _ su => ⟨_, rfl⟩) h
  · have : ∃ fixed, initScales (.scale c) = .ok fixed := by
      simp only [initScales]
      rw [if_neg hc.not_gt]
      by_cases h1 : c = 0
      · rw [if_pos h1]; exact ⟨_, rfl⟩
      · rw [if_neg h1]; exact ⟨_, rfl⟩
    obtain ⟨fixed, hf⟩ := this
    exact run_ok_of hA hp hf h0 k (fun j _ su => ⟨_, rfl⟩) h
  · refine run_ok_of hA hp rfl h0 k (fun j _ su => ?_) h
    simp only [stepScales, calibrate]
    by_cases h1 : 1 < j
    · simp only [if_pos h1]; exact ⟨_, rfl⟩
    · simp only [if_neg h1]; exact ⟨_, rfl⟩
  · refine run_ok_of hA hp rfl h0 k (fun j _ su => ?_) h
    simp only [stepScales, calibrate]
    by_cases h1 : 1 < j
    · simp only [if_pos h1]; exact ⟨_, rfl⟩
    · simp only [if_neg h1]; exact ⟨_, rfl⟩

/-- **C98 fails for unknown methods.**  A misspelt calibration method is accepted as long as no third iteration is made (then the most
recent Rayleigh quotient is used); only the third iteration raises `ValueError`. -/
theorem unknown_method_late (gp : List ℝ → Res (List ℝ)) {A : Matrix n n ℝ} (hA : IsPd A) {b : n → ℝ}
    {prior : Prior n} (hp : prior.Consistent) {P : Params n} {st0 : State n} (h0 : init A b prior = .ok (P, st0)) (k : ℕ)
    {su : State n} (h : steps P st0 k = .ok su) :
    (k ≤ 2 → ∃ st, runCal gp A b prior (.method .other) k = .ok (P, st)) ∧
    (k = 3 → runCal gp A b prior (.method .other) k = .error .valueError) := by
  have hle : ∀ k, k ≤ 2 → ∀ su, steps P st0 k = .ok su → ∃ st, runCal gp A b prior (.method .other) k = .ok (P, st) := by
    intro k hk su hsu
    refine run_ok_of hA hp rfl h0 k (fun j hj su => ?_) hsu
    simp only [stepScales, calibrate, if_neg (show ¬ 1 < j by omega)]
    exact ⟨_, rfl⟩
  refine ⟨fun hk => hle k hk su h, ?_⟩
  rintro rfl
  rw [steps] at h
  split at h
  · exact absurd h (by simp)
  · next s2 h2 =>
    obtain ⟨st2, h3⟩ := hle 2 le_rfl s2 h2
    obtain ⟨st0', fixed, h4, h5, h6⟩ := runCal_ok h3
    obtain ⟨s2', h7, h8⟩ := stepsCal_same (sameInit _ _) 2 h6
    have h9 := Except.ok.inj (h4.symm.trans h0)
    simp only [Prod.mk.injEq, true_and] at h9
    subst h9
    have h10 := Except.ok.inj (h7.symm.trans h2)
    subst h10
    have hit : st2.iter = 2 := by
      obtain ⟨_, _, _, rfl⟩ := h8
      exact (steps_inv hA hp h0 _ h2).1.iter
    rw [runCal, initCal, h0]
    simp only [h5]
    rw [stepsCal, h6]
    simp only [stepCal, step_same h8, h, hit, stepScales, calibrate, if_pos (show 1 < 2 by omega)]

/-! ## The weighted mean -/

private theorem geom_lt (k : ℕ) : (∑ i ∈ Finset.range (k + 2), (0.9 : ℝ) ^ i) < k + 2 := by
  have h : ∀ m, (∑ i ∈ Finset.range m, (0.9 : ℝ) ^ i) ≤ m := by
    intro m
    have : (∑ i ∈ Finset.range m, (0.9 : ℝ) ^ i) ≤ ∑ i ∈ Finset.range m, (1 : ℝ) :=
      Finset.sum_le_sum fun i _ => pow_le_one₀ (by norm_num) (by norm_num)
    simpa using this
  have h2 := h (k + 1)
  rw [Finset.sum_range_succ]
  have h3 : (0.9 : ℝ) ^ (k + 1) < 1 := pow_lt_one₀ (by norm_num) (by norm_num) (by omega)
  push_cast at h2
  linarith

/-- **C98 fails for `"weightedmean"`.**  The running mean is not a mean: when all Rayleigh quotients seen so far are the same number
`R > 1`, the scale is smaller than `R`, when they are the same number `R < 1`, it is larger. -/
theorem weightedmean_wrong (gp : List ℝ → Res (List ℝ)) (R : ℝ) (hR : 0 < R) (iter : ℕ) (hi : 1 < iter) :
    ∃ phi psi, calibrate gp .weightedmean iter (List.replicate (iter + 1) (Real.log R)) = .ok (phi, psi) ∧
      (1 < R → phi < R) ∧ (R < 1 → R < phi) := by
  obtain ⟨k, rfl⟩ : ∃ k, iter = k + 2 := ⟨iter - 2, by omega⟩
  refine ⟨_, _, by rw [calibrate, if_pos hi], ?_⟩
  have hsum : mean (List.zipWith (fun r (i : ℕ) => r * (0.9 : ℝ) ^ i) (List.replicate (k + 2 + 1) (Real.log R))
      (List.range (k + 2 + 1))) = Real.log R * ((∑ i ∈ Finset.range (k + 1 + 2), (0.9 : ℝ) ^ i) / ((k + 1 : ℕ) + 2)) := by
    have h1 : List.zipWith (fun r (i : ℕ) => r * (0.9 : ℝ) ^ i) (List.replicate (k + 2 + 1) (Real.log R))
        (List.range (k + 2 + 1)) = (List.range (k + 2 + 1)).map fun i : ℕ => Real.log R * (0.9 : ℝ) ^ i := by
      refine List.ext_getElem (by simp) fun i h1 h2 => by simp
    rw [mean, h1, List.length_map, List.length_range, ← List.sum_toFinset _ (List.nodup_range), List.toFinset_range, ← Finset.mul_sum]
    push_cast
    rw [mul_div_assoc]
    congr 2
    ring
  rw [hsum]
  have hq := geom_lt (k + 1)
  have hpos : (0 : ℝ) < (k + 1 : ℕ) + 2 := by positivity
  have hlt : (∑ i ∈ Finset.range (k + 1 + 2), (0.9 : ℝ) ^ i) / ((k + 1 : ℕ) + 2) < 1 := (div_lt_one hpos).2 hq
  constructor
  · intro h1
    have hl := Real.log_pos h1
    calc _ < Real.exp (Real.log R) := Real.exp_lt_exp.2 (by nlinarith)
      _ = R := Real.exp_log hR
  · intro h1
    have hl := Real.log_neg hR h1
    calc R = Real.exp (Real.log R) := (Real.exp_log hR).symm
      _ < _ := Real.exp_lt_exp.2 (by nlinarith)

/-! ## An example -/

/-- A positive definite system. -/
noncomputable def exA : Matrix (Fin 2) (Fin 2) ℝ := !![2, 0; 0, 4]

/-- Its right-hand side. -/
noncomputable def exB : Fin 2 → ℝ := ![1, 1 / 3]

theorem exA_isPd : IsPd exA := by
  refine ⟨?_, fun x hx => ?_⟩
  · ext i j; fin_cases i <;> fin_cases j <;> simp [exA]
  · have : x ⬝ᵥ exA *ᵥ x = 2 * x 0 ^ 2 + 4 * x 1 ^ 2 := by
      simp [exA, dotProduct, mulVec, Fin.sum_univ_two]; ring
    rw [this]
    have h : x 0 ≠ 0 ∨ x 1 ≠ 0 := by
      by_contra hc
      push Not at hc
      apply hx
      ext i; fin_cases i
      · exact hc.1
      · exact hc.2
    rcases h with h | h <;> positivity

private theorem ex_step {P : Params (Fin 2)} {st0 : State (Fin 2)} (hA : P.A = exA) (hi : Inv P 0 st0)
    (hz : st0.HUpd = 0 ∧ st0.AUpd = 0) (hH : st0.HMean = 1) (hW : st0.HCov = 1) (hr : st0.resid = ![1, 1]) :
    ∃ st1 st2, steps P st0 1 = .ok st1 ∧ steps P st0 2 = .ok st2 := by
  have hPA : IsPd P.A := by rw [hA]; exact exA_isPd
  obtain ⟨st1, h1, hi1⟩ := hi.step hPA (fun _ => hz) (by
    rw [hH, hr, one_mulVec]; intro h; simpa using congrFun h 0)
  have hs : -(st0.HMean *ᵥ st0.resid) = ![-1, -1] := by
    rw [hH, hr, one_mulVec]; ext i; fin_cases i <;> simp
  have hy : exA *ᵥ ![-1, -1] = ![-2, -4] := by
    ext i; fin_cases i <;> simp [exA, mulVec, dotProduct, Fin.sum_univ_two]
  have hst : st1.HMean = !![47 / 50, -(11 / 50); -(11 / 50), 9 / 25] ∧ st1.resid = ![1 / 3, -(1 / 3)] := by
    have h2 := h1
    simp only [step, hs, hA, hy] at h2
    split at h2
    · exact absurd h2 (by simp)
    · next q hq =>
      split at h2
      · exact absurd h2 (by simp)
      · split at h2
        · exact absurd h2 (by simp)
        · next HM HU h3 =>
          have := Except.ok.inj h2
          subst this
          have e1 : (![-1, -1] : Fin 2 → ℝ) ⬝ᵥ ![-2, -4] = 6 := by simp [dotProduct, Fin.sum_univ_two]; norm_num
          have e2 : (![-1, -1] : Fin 2 → ℝ) ⬝ᵥ st0.resid = -2 := by
            rw [hr]; simp [dotProduct, Fin.sum_univ_two]; norm_num
          have e3 : (![-2, -4] : Fin 2 → ℝ) ⬝ᵥ ![-2, -4] = 20 := by simp [dotProduct, Fin.sum_univ_two]; norm_num
          rw [e1, e2, fdiv_ok (by norm_num)] at hq
          have hq' := Except.ok.inj hq
          subst hq'
          simp only [symUpdate, hH, hW, one_mulVec, e3, fdiv_ok (show (20 : ℝ) ≠ 0 by norm_num), Except.ok.injEq,
            Prod.mk.injEq] at h3
          refine ⟨?_, ?_⟩
          · show HM = _
            rw [← h3.1]
            ext i j
            fin_cases i <;> fin_cases j <;>
              simp [meanUpdate, vecMulVec_apply, dotProduct, Fin.sum_univ_two] <;> norm_num
          · show st0.resid + _ = _
            rw [hr]
            ext i
            fin_cases i <;> simp <;> norm_num
  obtain ⟨st2, h2, -⟩ := hi1.step hPA (fun h => absurd (hi1.iter.symm.trans h) (by omega)) (by
    rw [hst.1, hst.2]
    intro h
    have := congrFun h 0
    simp [mulVec, dotProduct, Fin.sum_univ_two] at this
    norm_num at this)
  have hs1 : steps P st0 1 = .ok st1 := by rw [steps, steps]; exact h1
  exact ⟨st1, st2, hs1, by rw [steps, hs1]; exact h2⟩

private theorem ex_runs (prior : Prior (Fin 2)) (hp : prior = .none ∨ prior = .matrix 1) :
    ∃ P st0 st2, init exA exB prior = .ok (P, st0) ∧ steps P st0 2 = .ok st2 := by
  have hr : exA *ᵥ exB - exB = ![1, 1] := by
    ext i; fin_cases i <;> simp [exA, exB, mulVec, dotProduct, Fin.sum_univ_two] <;> norm_num
  rcases hp with rfl | rfl
  · have h0 : init exA exB .none = .ok (⟨exA, exB, exA, 1⟩,
        ⟨1, exA, 0, 1, 1, 0, exB, ![1, 1], 0, [], [], 0, traceSol exB 1 (1 : Matrix (Fin 2) (Fin 2) ℝ).trace, exA, 1⟩) := by
      simp only [init, priorParams, initX, one_mulVec, hr]
    have hi := (init_spec exA_isPd (prior := .none) trivial h0).2.2.1
    obtain ⟨-, st2, -, h2⟩ := ex_step rfl hi ⟨rfl, rfl⟩ rfl rfl rfl
    exact ⟨_, _, st2, h0, h2⟩
  · have h0 : init exA exB (.matrix 1) = .ok (⟨exA, exB, 1, 1⟩,
        ⟨1, 1, 0, 1, 1, 0, exB, ![1, 1], 0, [], [], 0, traceSol exB 1 (1 : Matrix (Fin 2) (Fin 2) ℝ).trace, 1, 1⟩) := by
      simp only [init, priorParams, inv, det_one, isUnit_one, if_true, inv_one, initX, one_mulVec, hr]
    have hi := (init_spec exA_isPd (prior := .matrix 1) isPd_one h0).2.2.1
    obtain ⟨-, st2, -, h2⟩ := ex_step rfl hi ⟨rfl, rfl⟩ rfl rfl rfl
    exact ⟨_, _, st2, h0, h2⟩

/-- The hypotheses of the theorems above are met: two iterations go through for this system, with every calibration named there. -/
example (gp : List ℝ → Res (List ℝ)) : ∃ P st phi, runCal gp exA exB .none (.method .adhoc) 2 = .ok (P, st) ∧
    st.dirs.length = 2 ∧ 0 < phi ∧ IsCalibrated st.outA st.dirs phi := by
  obtain ⟨P, st0, su, h0, h⟩ := ex_runs .none (Or.inl rfl)
  obtain ⟨st, h1⟩ := calibration_never_fails gp exA_isPd (prior := .none) trivial (cal := .method .adhoc)
    (Or.inr (Or.inr (Or.inl rfl))) h0 2 h
  obtain ⟨phi, h2, -, h3, -⟩ := calibrated_matrix_partial gp exA_isPd (prior := .none) trivial (fun _ h => nomatch h)
    (cal := .method .adhoc) (fun h => nomatch h) (fun h => nomatch h) (k := 0) h1
  obtain ⟨st0', su', h4, h5, -, -, -, h6, -⟩ := calibration_keeps_estimates gp h1
  have h7 := (conjugate_secant_partial exA_isPd (prior := .none) trivial h4 2 h5).2.2.1
  exact ⟨P, st, phi, h1, by rw [h6]; exact h7, h2, h3⟩

/-- **C98 fails: a concrete case.**  For `A = diag(2, 4)`, prior `A0 = I` and the scale `1` the solver has found `A` exactly after two
iterations, but the belief it returns about it still has a nonzero covariance. -/
theorem matrix_prior_wrong_example (gp : List ℝ → Res (List ℝ)) : ∃ P st,
    runCal gp exA exB (.matrix 1) (.scale 1) 2 = .ok (P, st) ∧ st.AMean = exA ∧ st.outA = exA - 1 ∧ st.outA ≠ 0 := by
  obtain ⟨P, st0, su, h0, h⟩ := ex_runs (.matrix 1) (Or.inr rfl)
  have hp : (Prior.matrix (1 : Matrix (Fin 2) (Fin 2) ℝ)).Consistent := isPd_one
  obtain ⟨st, h1⟩ := calibration_never_fails gp exA_isPd hp (cal := .scale 1)
    (Or.inr (Or.inl ⟨1, zero_le_one, rfl⟩)) h0 2 h
  have hw := matrix_prior_wrong gp exA_isPd hp (cal := .scale 1) (fun h => nomatch h)
    (fun h => one_ne_zero (Calibration.scale.inj h)) (k := 0) h1
  obtain ⟨st0', su', h4, h5, -, hM, -, h6, -⟩ := calibration_keeps_estimates gp h1
  have hfull := solved_after_n_partial exA_isPd hp h4 h5
  have hi := (steps_inv exA_isPd hp h4 _ h5).1
  have hPA := (init_spec exA_isPd hp h4).1
  have hinj : ∀ c, cols st.dirs *ᵥ c = 0 → c = 0 := by
    rw [h6]
    exact cols_injective exA_isPd (fun s hs => (hi.dirs s hs).1) (by rw [← hPA]; exact hi.conj)
  have hout : st.outA = exA - 1 := by
    refine eq_of_split isPd_one hinj (fun c => ?_) fun t ht => ?_
    · rw [cols_mulVec, mulVec_sum, mulVec_sum]
      refine Finset.sum_congr rfl fun j _ => ?_
      rw [mulVec_smul, mulVec_smul, (hw st.dirs[j] (List.getElem_mem _)).2, sub_mulVec]
    · have ht0 : t = 0 := by
        rw [one_mulVec] at ht
        have hlen : st.dirs.length = 2 := by rw [h6]; exact hi.len
        have hsq : ∃ c, cols st.dirs *ᵥ c = t := by
          have h9 : Function.Injective (cols st.dirs).mulVecLin := by
            rw [← LinearMap.ker_eq_bot, LinearMap.ker_eq_bot']
            exact hinj
          exact (LinearMap.injective_iff_surjective_of_finrank_eq_finrank (by simp [hlen])).1 h9 t
        obtain ⟨c, rfl⟩ := hsq
        have h8 : (cols st.dirs *ᵥ c) ⬝ᵥ (cols st.dirs *ᵥ c) = 0 := by
          conv_lhs => enter [1]; rw [cols_mulVec]
          rw [sum_dotProduct]
          exact Finset.sum_eq_zero fun j _ => by
            rw [smul_dotProduct, of_cols_transpose ht st.dirs[j] (List.getElem_mem _), smul_zero]
        exact dotProduct_self_eq_zero.1 h8
      rw [ht0, mulVec_zero, mulVec_zero]
  refine ⟨P, st, h1, by rw [hM]; exact hfull.2.2.2.1, hout, fun h0 => ?_⟩
  rw [hout] at h0
  have := congrFun (congrFun h0 0) 0
  simp [exA] at this
  norm_num at this

end Probnum.Linalg.MatrixBased
