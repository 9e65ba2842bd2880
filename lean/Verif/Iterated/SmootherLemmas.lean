import Verif.Iterated.GaussNewton
import Verif.Kalman.SmoothExact

/-!
# Helper lemmas: the smoother completes squares
-/

namespace Probnum.Iterated

open Matrix LinGauss Kalman

variable {n m : ℕ}

theorem upd_gain (H : Transition n m) (s : Updated n) : optGain H 1 (toNormal s) =
    s.cov * H.matᵀ * (H.mat * s.cov * H.matᵀ + H.noise.cov)⁻¹ := by
  rw [optGain, predCov_eq, one_smul]; rfl

theorem upd_mean (H : Transition n m) (s : Updated n) (y : Fin m → ℝ) : (updS H s y).mean = s.mean +
    (s.cov * H.matᵀ * (H.mat * s.cov * H.matᵀ + H.noise.cov)⁻¹) *ᵥ (y - (H.mat *ᵥ s.mean + H.noise.mean)) := by
  rw [← upd_gain]; rfl

theorem upd_cov {H : Transition n m} {s : Updated n} (hs : s.cov.PosDef) (hR : H.noise.cov.PosDef) (y : Fin m → ℝ) :
    hess s.cov H.noise.cov H.mat * (updS H s y).cov = 1 := by
  have hS := innov_posDef hs hR H.mat
  have e : (updS H s y).cov = s.cov - s.cov * H.matᵀ * (H.mat * s.cov * H.matᵀ + H.noise.cov)⁻¹ * H.mat * s.cov := by
    have e' : (forwardClassic H 1 (toNormal s)).cov = H.mat * s.cov * H.matᵀ + H.noise.cov := by
      have := predCov_eq H 1 (toNormal s)
      rw [one_smul] at this
      exact this
    rw [updS, conditionStateOnRv, upd_gain, e']
    have hsy := posDef_symm hS
    have hsP := posDef_symm hs
    show s.cov + _ * ((0 : Matrix (Fin m) (Fin m) ℝ) - _) * _ = _
    rw [zero_sub, Matrix.mul_neg, Matrix.neg_mul, ← sub_eq_add_neg]
    congr 1
    rw [Matrix.transpose_mul, Matrix.transpose_mul, Matrix.transpose_transpose, hsP, Matrix.transpose_nonsing_inv, hsy,
      Matrix.mul_assoc _ _ (H.mat * s.cov * H.matᵀ + H.noise.cov), Matrix.nonsing_inv_mul _ (posDef_det hS), Matrix.mul_one]
    simp only [Matrix.mul_assoc]
  rw [e, hess_cov hs hR]

theorem upd_inv {H : Transition n m} {s : Updated n} (hs : s.cov.PosDef) (hR : H.noise.cov.PosDef) (y : Fin m → ℝ) :
    (updS H s y).cov⁻¹ = hess s.cov H.noise.cov H.mat := Matrix.inv_eq_left_inv (upd_cov hs hR y)

theorem upd_posDef {H : Transition n m} {s : Updated n} (hs : s.cov.PosDef) (hR : H.noise.cov.PosDef) (y : Fin m → ℝ) :
    (updS H s y).cov.PosDef := by
  rw [← Matrix.inv_eq_right_inv (upd_cov hs hR y)]
  exact (hess_posDef hs hR H.mat).inv

theorem pred_cov (A : Transition n n) (s : Updated n) : (predS A s).cov = A.mat * s.cov * A.matᵀ + A.noise.cov := by
  have := predCov_eq A 1 (toNormal s)
  rw [one_smul] at this
  exact this

theorem pred_mean (A : Transition n n) (s : Updated n) : (predS A s).mean = A.mat *ᵥ s.mean + A.noise.mean := rfl

/-- The update completes the square. -/
theorem upd_square {H : Transition n m} {s : Updated n} (hs : s.cov.PosDef) (hR : H.noise.cov.PosDef) (y : Fin m → ℝ)
    (x : Fin n → ℝ) : quad s.cov⁻¹ (x - s.mean) + quad H.noise.cov⁻¹ (y - (H.mat *ᵥ x + H.noise.mean)) =
      quad (H.mat * s.cov * H.matᵀ + H.noise.cov)⁻¹ (y - (H.mat *ᵥ s.mean + H.noise.mean)) +
        quad (updS H s y).cov⁻¹ (x - (updS H s y).mean) := by
  have h := square_completion hs hR H.mat (x - s.mean) (y - (H.mat *ᵥ s.mean + H.noise.mean))
  rw [upd_inv hs hR, upd_mean, ← sub_sub x, ← h]
  congr 2
  rw [Matrix.mulVec_sub]
  abel

/-- The mean of the smoothing step from a state `z` at the next location. -/
noncomputable def backMean (A : Transition n n) (s : Updated n) (z : Fin n → ℝ) : Fin n → ℝ :=
  s.mean + optGain A 1 (toNormal s) *ᵥ (z - (predS A s).mean)

theorem rts_mean (A : Transition n n) (s' s : Updated n) : (rts A s' s).mean = backMean A s s'.mean := rfl

/-- The prediction completes the square. -/
theorem pred_square {A : Transition n n} {s : Updated n} (hs : s.cov.PosDef) (hQ : A.noise.cov.PosDef)
    (x z : Fin n → ℝ) : quad s.cov⁻¹ (x - s.mean) + quad A.noise.cov⁻¹ (z - (A.mat *ᵥ x + A.noise.mean)) =
      quad (predS A s).cov⁻¹ (z - (predS A s).mean) + quad (hess s.cov A.noise.cov A.mat) (x - backMean A s z) := by
  have h := square_completion hs hQ A.mat (x - s.mean) (z - (predS A s).mean)
  rw [pred_cov, backMean, upd_gain, ← sub_sub x, ← h, pred_mean]
  congr 2
  rw [Matrix.mulVec_sub]
  abel

theorem pred_posDef {A : Transition n n} {s : Updated n} (hs : s.cov.PosDef) (hQ : A.noise.cov.PosDef) :
    (predS A s).cov.PosDef := by
  rw [pred_cov]; exact innov_posDef hs hQ A.mat

section Seq

variable (init : Updated n) (A : ℕ → Transition n n) (H : ℕ → Transition n m) (y : ℕ → Fin m → ℝ)

/-- The filtered moments at location `k`. -/
noncomputable def filt (k : ℕ) : Updated n := sseq init A H (k + 1) fun i => y i

theorem filt_zero : filt init A H y 0 = updS (H 0) (predS (A 0) init) (y 0) := rfl

theorem filt_succ (k : ℕ) : filt init A H y (k + 1) = updS (H (k + 1)) (predS (A (k + 1)) (filt init A H y k)) (y (k + 1)) :=
  rfl

/-- The objective in terms of sequences. -/
noncomputable def seqObj (K : ℕ) (x : ℕ → Fin n → ℝ) : ℝ :=
  quad (predS (A 0) init).cov⁻¹ (x 0 - (predS (A 0) init).mean) +
    ∑ k ∈ Finset.range K, quad (A (k + 1)).noise.cov⁻¹ (x (k + 1) - ((A (k + 1)).mat *ᵥ x k + (A (k + 1)).noise.mean)) +
    ∑ k ∈ Finset.range (K + 1), quad (H k).noise.cov⁻¹ (y k - ((H k).mat *ᵥ x k + (H k).noise.mean))

/-- The completed squares. -/
noncomputable def seqSq (K : ℕ) (x : ℕ → Fin n → ℝ) : ℝ :=
  quad (filt init A H y K).cov⁻¹ (x K - (filt init A H y K).mean) +
    ∑ k ∈ Finset.range K, quad (hess (filt init A H y k).cov (A (k + 1)).noise.cov (A (k + 1)).mat)
      (x k - backMean (A (k + 1)) (filt init A H y k) (x (k + 1)))

variable {init A H y}

theorem joint_square (h0 : (predS (A 0) init).cov.PosDef) :
    ∀ K, (∀ k, k < K → (A (k + 1)).noise.cov.PosDef) → (∀ k, k ≤ K → (H k).noise.cov.PosDef) →
      (∀ k, k ≤ K → (filt init A H y k).cov.PosDef) ∧
      ∃ c, ∀ x, seqObj init A H y K x = c + seqSq init A H y K x := by
  intro K
  induction K with
  | zero =>
    intro _ hR
    refine ⟨fun k hk => ?_, quad ((H 0).mat * (predS (A 0) init).cov * (H 0).matᵀ + (H 0).noise.cov)⁻¹ (y 0 - ((H 0).mat *ᵥ (predS (A 0) init).mean + (H 0).noise.mean)), fun x => ?_⟩
    · obtain rfl : k = 0 := by omega
      exact upd_posDef h0 (hR 0 le_rfl) _
    · have := upd_square h0 (hR 0 le_rfl) (y 0) (x 0)
      simp only [seqObj, seqSq, Finset.range_zero, Finset.sum_empty, add_zero, zero_add, Finset.range_one,
        Finset.sum_singleton]
      exact this
  | succ K ih =>
    intro hQ hR
    obtain ⟨h1, c, h2⟩ := ih (fun k hk => hQ k (by omega)) fun k hk => hR k (by omega)
    have hp := pred_posDef (h1 K le_rfl) (hQ K (by omega))
    refine ⟨fun k hk => ?_, c +
      quad ((H (K + 1)).mat * (predS (A (K + 1)) (filt init A H y K)).cov * (H (K + 1)).matᵀ + (H (K + 1)).noise.cov)⁻¹ (y (K + 1) - ((H (K + 1)).mat *ᵥ (predS (A (K + 1)) (filt init A H y K)).mean + (H (K + 1)).noise.mean)), fun x => ?_⟩
    · rcases Nat.lt_or_ge k (K + 1) with h | h
      · exact h1 k (by omega)
      · obtain rfl : k = K + 1 := by omega
        exact upd_posDef hp (hR _ le_rfl) _
    · have e1 := pred_square (h1 K le_rfl) (hQ K (by omega)) (x K) (x (K + 1))
      have e2 := upd_square hp (hR (K + 1) le_rfl) (y (K + 1)) (x (K + 1))
      have e3 := h2 x
      rw [← filt_succ] at e2
      unfold seqObj seqSq at *
      conv_rhs => rw [Finset.sum_range_succ]
      rw [Finset.sum_range_succ, Finset.sum_range_succ _ (K + 1)]
      linarith

/-- The smoothed mean at location `k`. -/
noncomputable def smoothMean (init : Updated n) (A : ℕ → Transition n n) (H : ℕ → Transition n m) (y : ℕ → Fin m → ℝ) (K k : ℕ) :
    Fin n → ℝ := (rseq init A H (K + 1) y (K - k)).mean

theorem smoothMean_last (K : ℕ) : smoothMean init A H y K K = (filt init A H y K).mean := by
  rw [smoothMean, Nat.sub_self]; rfl

theorem smoothMean_back {K k : ℕ} (hk : k < K) :
    smoothMean init A H y K k = backMean (A (k + 1)) (filt init A H y k) (smoothMean init A H y K (k + 1)) := by
  rw [smoothMean, show K - k = (K - (k + 1)) + 1 by omega, rseq, rts_mean,
    show K + 1 - (K - (k + 1) + 1) = k + 1 by omega]
  rfl

theorem quad_smul {k : ℕ} (C : Matrix (Fin k) (Fin k) ℝ) (s : ℝ) (v : Fin k → ℝ) : quad C (s • v) = s ^ 2 * quad C v := by
  rw [quad, quad, Matrix.mulVec_smul, smul_dotProduct, dotProduct_smul, smul_eq_mul, smul_eq_mul]
  ring

theorem backMean_line (T : Transition n n) (f : Updated n) (a h : Fin n → ℝ) (s : ℝ) :
    backMean T f (a + s • h) = backMean T f a + s • (optGain T 1 (toNormal f) *ᵥ h) := by
  rw [backMean, backMean, add_sub_right_comm, Matrix.mulVec_add, Matrix.mulVec_smul, add_assoc]

theorem sq_line (K : ℕ) (h : ℕ → Fin n → ℝ) (s : ℝ) :
    seqSq init A H y K (fun k => smoothMean init A H y K k + s • h k) =
      s ^ 2 * seqSq init A H y K (fun k => smoothMean init A H y K k + h k) := by
  have e : ∀ (s : ℝ) k, k < K → smoothMean init A H y K k + s • h k - backMean (A (k + 1)) (filt init A H y k)
      (smoothMean init A H y K (k + 1) + s • h (k + 1)) =
        s • (h k - optGain (A (k + 1)) 1 (toNormal (filt init A H y k)) *ᵥ h (k + 1)) := by
    intro s k hk
    rw [backMean_line, ← smoothMean_back hk, smul_sub]
    abel
  have e1 : ∀ k, k < K → smoothMean init A H y K k + h k - backMean (A (k + 1)) (filt init A H y k)
      (smoothMean init A H y K (k + 1) + h (k + 1)) = h k - optGain (A (k + 1)) 1 (toNormal (filt init A H y k)) *ᵥ h (k + 1) := by
    intro k hk
    have := e 1 k hk
    simpa only [one_smul] using this
  unfold seqSq
  dsimp only
  rw [smoothMean_last, add_sub_cancel_left, add_sub_cancel_left, quad_smul, mul_add, Finset.mul_sum]
  congr 1
  refine Finset.sum_congr rfl fun k hk => ?_
  rw [e s k (Finset.mem_range.1 hk), e1 k (Finset.mem_range.1 hk), quad_smul]

theorem quad_nonneg {k : ℕ} {C : Matrix (Fin k) (Fin k) ℝ} (h : C.PosDef) (v : Fin k → ℝ) : 0 ≤ quad C v := by
  have := h.posSemidef.dotProduct_mulVec_nonneg v
  rwa [star_trivial] at this

theorem quad_eq_zero {k : ℕ} {C : Matrix (Fin k) (Fin k) ℝ} (h : C.PosDef) {v : Fin k → ℝ} (hv : quad C v = 0) : v = 0 := by
  by_contra hne
  have := h.dotProduct_mulVec_pos hne
  rw [star_trivial] at this
  exact this.ne' hv

/-- The squares vanish only at the smoothed means. -/
theorem sq_pos {K : ℕ} (hQ : ∀ k, k < K → (A (k + 1)).noise.cov.PosDef)
    (hf : ∀ k, k ≤ K → (filt init A H y k).cov.PosDef) (x : ℕ → Fin n → ℝ) :
    0 ≤ seqSq init A H y K x ∧ (seqSq init A H y K x = 0 → ∀ k, k ≤ K → x k = smoothMean init A H y K k) := by
  have hg : ∀ k ∈ Finset.range K, 0 ≤ quad (hess (filt init A H y k).cov (A (k + 1)).noise.cov (A (k + 1)).mat)
      (x k - backMean (A (k + 1)) (filt init A H y k) (x (k + 1))) := fun k hk =>
    quad_nonneg (hess_posDef (hf k (Finset.mem_range.1 hk).le) (hQ k (Finset.mem_range.1 hk)) _) _
  have ha := quad_nonneg (hf K le_rfl).inv (x K - (filt init A H y K).mean)
  have hb := Finset.sum_nonneg hg
  refine ⟨add_nonneg ha hb, fun h0 => ?_⟩
  unfold seqSq at h0
  have h1 := quad_eq_zero (hf K le_rfl).inv (le_antisymm (by linarith) ha)
  have h2 := (Finset.sum_eq_zero_iff_of_nonneg hg).1 (by linarith)
  have key : ∀ j, j ≤ K → x (K - j) = smoothMean init A H y K (K - j) := by
    intro j
    induction j with
    | zero => intro _; rw [Nat.sub_zero, smoothMean_last]; exact sub_eq_zero.1 h1
    | succ j ih =>
      intro hj
      have hk : K - (j + 1) < K := by omega
      have h3 := quad_eq_zero (hess_posDef (hf _ hk.le) (hQ _ hk) _) (h2 _ (Finset.mem_range.2 hk))
      rw [sub_eq_zero] at h3
      rw [h3, smoothMean_back hk, show K - (j + 1) + 1 = K - j by omega, ih (by omega)]
  intro k hk
  have := key (K - k) (by omega)
  rwa [show K - (K - k) = k by omega] at this

end Seq

end Probnum.Iterated
