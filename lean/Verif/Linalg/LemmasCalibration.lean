import Verif.Linalg.Calibration
import Verif.Linalg.PropsMatrixBased

/-!
# The algebra of uncertainty calibration
-/

namespace Probnum.Linalg.MatrixBased

open Matrix

variable {n : Type} [Fintype n] [DecidableEq n]

/-! ## Columns -/

theorem cols_mulVec (l : List (n → ℝ)) (c : Fin l.length → ℝ) : cols l *ᵥ c = ∑ j, c j • l[j] := by
  ext i
  rw [mulVec, dotProduct, Finset.sum_apply]
  exact Finset.sum_congr rfl fun j _ => by simp [cols, mul_comm]

theorem cols_transpose_mulVec (l : List (n → ℝ)) (t : n → ℝ) : (cols l)ᵀ *ᵥ t = fun j => l[j] ⬝ᵥ t := rfl

/-- Conjugate directions are independent. -/
theorem cols_injective {A : Matrix n n ℝ} (hA : IsPd A) {l : List (n → ℝ)} (h0 : ∀ s ∈ l, s ≠ 0)
    (hc : l.Pairwise fun s t => s ⬝ᵥ A *ᵥ t = 0) (c : Fin l.length → ℝ) (h : cols l *ᵥ c = 0) : c = 0 := by
  have hij : ∀ i j : Fin l.length, i ≠ j → l[i] ⬝ᵥ A *ᵥ l[j] = 0 := by
    intro i j hne
    rcases lt_or_gt_of_ne hne with h1 | h1
    · exact List.pairwise_iff_getElem.1 hc i j i.2 j.2 h1
    · rw [symm_dot hA.1, dotProduct_comm]
      exact List.pairwise_iff_getElem.1 hc j i j.2 i.2 h1
  funext i
  have h1 : l[i] ⬝ᵥ A *ᵥ (cols l *ᵥ c) = 0 := by rw [h]; simp
  rw [cols_mulVec, mulVec_sum, dotProduct_sum, Finset.sum_eq_single i] at h1
  · rw [mulVec_smul, dotProduct_smul, smul_eq_mul] at h1
    rcases mul_eq_zero.1 h1 with h2 | h2
    · exact h2
    · exact absurd h2 (hA.2 _ (h0 _ (List.getElem_mem _))).ne'
  · intro j _ hj
    rw [mulVec_smul, dotProduct_smul, hij i j (Ne.symm hj), smul_zero]
  · intro hi; exact absurd (Finset.mem_univ i) hi

theorem cols_transpose_zero (l : List (n → ℝ)) (t : n → ℝ) (h : ∀ s ∈ l, s ⬝ᵥ t = 0) :
    (cols l)ᵀ *ᵥ t = 0 := by
  rw [cols_transpose_mulVec]
  funext j
  exact h _ (List.getElem_mem _)

theorem of_cols_transpose {l : List (n → ℝ)} {t : n → ℝ} (h : (cols l)ᵀ *ᵥ t = 0) : ∀ s ∈ l, s ⬝ᵥ t = 0 := by
  intro s hs
  obtain ⟨j, hj, rfl⟩ := List.getElem_of_mem hs
  exact congrFun h ⟨j, hj⟩

theorem mem_cols {l : List (n → ℝ)} {s : n → ℝ} (hs : s ∈ l) : ∃ c, cols l *ᵥ c = s := by
  obtain ⟨j, hj, rfl⟩ := List.getElem_of_mem hs
  refine ⟨Pi.single ⟨j, hj⟩ 1, ?_⟩
  rw [mulVec_single_one]
  rfl

/-! ## Projections -/

theorem gram_isPd {κ : Type} [Fintype κ] {W : Matrix n n ℝ} (hW : IsPd W) {V : Matrix n κ ℝ}
    (hV : ∀ c, V *ᵥ c = 0 → c = 0) : IsPd (Vᵀ * W * V) := by
  refine ⟨?_, fun c hc => ?_⟩
  · show (Vᵀ * W * V)ᵀ = _
    rw [transpose_mul, transpose_mul, transpose_transpose, hW.1.eq, Matrix.mul_assoc]
  · have h := hW.2 (V *ᵥ c) fun h0 => hc (hV c h0)
    have h2 : c ⬝ᵥ (Vᵀ * W * V) *ᵥ c = V *ᵥ c ⬝ᵥ W *ᵥ (V *ᵥ c) := by
      rw [← mulVec_mulVec, ← mulVec_mulVec, mulVec_transpose, dotProduct_comm, ← dotProduct_mulVec, dotProduct_comm]
    rw [h2]; exact h

/-- Every vector is a combination of the columns plus a vector conjugate to them. -/
theorem split {κ : Type} [Fintype κ] [DecidableEq κ] {W : Matrix n n ℝ} (hW : IsPd W) {V : Matrix n κ ℝ}
    (hV : ∀ c, V *ᵥ c = 0 → c = 0) (x : n → ℝ) : ∃ c t, x = V *ᵥ c + t ∧ Vᵀ *ᵥ (W *ᵥ t) = 0 := by
  have hu := isPd_isUnit_det (gram_isPd hW hV)
  refine ⟨(Vᵀ * W * V)⁻¹ *ᵥ (Vᵀ *ᵥ (W *ᵥ x)), x - V *ᵥ ((Vᵀ * W * V)⁻¹ *ᵥ (Vᵀ *ᵥ (W *ᵥ x))), by simp, ?_⟩
  rw [mulVec_sub, mulVec_sub]
  have : Vᵀ *ᵥ (W *ᵥ (V *ᵥ ((Vᵀ * W * V)⁻¹ *ᵥ (Vᵀ *ᵥ (W *ᵥ x))))) =
      ((Vᵀ * W * V) * (Vᵀ * W * V)⁻¹) *ᵥ (Vᵀ *ᵥ (W *ᵥ x)) := by
    simp only [mulVec_mulVec, Matrix.mul_assoc]
  rw [this, mul_nonsing_inv _ hu, one_mulVec, sub_self]

/-- Matrices that agree on the columns and on all vectors conjugate to them are equal. -/
theorem eq_of_split {κ : Type} [Fintype κ] [DecidableEq κ] {W : Matrix n n ℝ} (hW : IsPd W) {V : Matrix n κ ℝ}
    (hV : ∀ c, V *ᵥ c = 0 → c = 0) {M N : Matrix n n ℝ} (h1 : ∀ c, M *ᵥ (V *ᵥ c) = N *ᵥ (V *ᵥ c))
    (h2 : ∀ t, Vᵀ *ᵥ (W *ᵥ t) = 0 → M *ᵥ t = N *ᵥ t) : M = N := by
  have h : ∀ x, M *ᵥ x = N *ᵥ x := by
    intro x
    obtain ⟨c, t, rfl, ht⟩ := split hW hV x
    rw [mulVec_add, mulVec_add, h1, h2 t ht]
  ext i j
  have := congrFun (h (Pi.single j 1)) i
  rwa [mulVec_single_one, mulVec_single_one] at this

/-- What the calibration term does: nothing in the given directions, scaling in their orthogonal complement. -/
theorem nullTerm_spec {l : List (n → ℝ)} (hl : ∀ c, cols l *ᵥ c = 0 → c = 0) (a : ℝ) :
    (∀ s ∈ l, nullTerm l a *ᵥ s = 0) ∧ (∀ t, (∀ s ∈ l, s ⬝ᵥ t = 0) → nullTerm l a *ᵥ t = a • t) ∧
    (nullTerm l a).trace = a * ((Fintype.card n : ℝ) - l.length) ∧ (0 ≤ a → IsPsd (nullTerm l a)) := by
  have hg : IsPd ((cols l)ᵀ * cols l) := by
    have := gram_isPd isPd_one hl
    rwa [Matrix.mul_one] at this
  have hu := isPd_isUnit_det hg
  rw [nullTerm, if_pos hu]
  generalize hG : (cols l)ᵀ * cols l = G at hg hu
  have hk : ∀ s ∈ l, (a • (1 - cols l * G⁻¹ * (cols l)ᵀ)) *ᵥ s = 0 := by
    intro s hs
    obtain ⟨c, rfl⟩ := mem_cols hs
    rw [smul_mulVec, sub_mulVec, one_mulVec, mulVec_mulVec, Matrix.mul_assoc, hG, Matrix.mul_assoc,
      nonsing_inv_mul _ hu, Matrix.mul_one, sub_self, smul_zero]
  have ht : ∀ t, (∀ s ∈ l, s ⬝ᵥ t = 0) → (a • (1 - cols l * G⁻¹ * (cols l)ᵀ)) *ᵥ t = a • t := by
    intro t ht
    rw [smul_mulVec, sub_mulVec, one_mulVec, ← mulVec_mulVec, cols_transpose_zero l t ht, mulVec_zero, sub_zero]
  refine ⟨hk, ht, ?_, fun ha => ⟨?_, fun x => ?_⟩⟩
  · rw [trace_smul, trace_sub, trace_one, Matrix.mul_assoc, trace_mul_comm, Matrix.mul_assoc, hG,
      nonsing_inv_mul _ hu, trace_one, Fintype.card_fin, smul_eq_mul]
  · show (a • (1 - cols l * G⁻¹ * (cols l)ᵀ))ᵀ = _
    rw [transpose_smul, transpose_sub, transpose_one, transpose_mul, transpose_mul, transpose_transpose,
      transpose_nonsing_inv, hg.1.eq, Matrix.mul_assoc]
  · have hV : ∀ c, cols l *ᵥ c = 0 → c = 0 := hl
    obtain ⟨c, t, rfl, h⟩ := split isPd_one hV x
    rw [one_mulVec] at h
    have ht' := of_cols_transpose h
    have h1 : (a • (1 - cols l * G⁻¹ * (cols l)ᵀ)) *ᵥ (cols l *ᵥ c) = 0 := by
      rw [cols_mulVec, mulVec_sum]
      refine Finset.sum_eq_zero fun j _ => ?_
      rw [mulVec_smul, hk l[j] (List.getElem_mem _), smul_zero]
    rw [mulVec_add, h1, zero_add, ht t ht', dotProduct_smul, add_dotProduct, cols_mulVec, sum_dotProduct]
    have h2 : ∑ j : Fin l.length, (c j • l[j]) ⬝ᵥ t = 0 := Finset.sum_eq_zero fun j _ => by
      rw [smul_dotProduct, ht' l[j] (List.getElem_mem _), smul_zero]
    rw [h2, zero_add, smul_eq_mul]
    exact mul_nonneg ha (Finset.sum_nonneg fun i _ => mul_self_nonneg (t i))

/-! ## The terms of the update -/

/-- The update terms vanish on vectors conjugate to what was observed. -/
structure Vanish (P : Params n) (st : State n) : Prop where
  h : ∀ t, (∀ y ∈ st.obs, y ⬝ᵥ P.HCov0 *ᵥ t = 0) → st.HUpd *ᵥ t = 0
  a : ∀ t, (∀ s ∈ st.dirs, s ⬝ᵥ P.ACov0 *ᵥ t = 0) → st.AUpd *ᵥ t = 0

private theorem sym_vanish {M W W0 U M' U' : Matrix n n ℝ} {s y : n → ℝ} (h : symUpdate M W s y = .ok (M', U'))
    (hW : W.IsSymm) (hU : W = W0 - U) {t : n → ℝ} (h0 : U *ᵥ t = 0) (hs : s ⬝ᵥ W0 *ᵥ t = 0) : U' *ᵥ t = 0 := by
  simp only [symUpdate] at h
  split at h
  · exact absurd h (by simp)
  · simp only [Except.ok.injEq, Prod.mk.injEq] at h
    rw [← h.2, covUpdate, vecMulVec_mulVec, smul_dotProduct, ← symm_dot hW, hU, sub_mulVec, h0, sub_zero, hs]
    simp

theorem Vanish.step {P : Params n} {k : ℕ} {st st' : State n} (hi : Inv P k st) (hv : Vanish P st)
    (h : MatrixBased.step P st = .ok st') : Vanish P st' := by
  simp only [MatrixBased.step] at h
  split at h
  · exact absurd h (by simp)
  · split at h
    · exact absurd h (by simp)
    · next AM AU h1 =>
      split at h
      · exact absurd h (by simp)
      · next HM HU h2 =>
        have := Except.ok.inj h
        subst this
        constructor
        · intro t ht
          have ht0 : st.HUpd *ᵥ t = 0 := hv.h t fun y hy => ht y (List.mem_append_left _ hy)
          have h3 := sym_vanish h2 hi.hPsd.1 hi.hUpd ht0 (ht _ (List.mem_append_right _ (List.mem_singleton.2 rfl)))
          show (if st.iter = 0 then HU else st.HUpd + HU) *ᵥ t = 0
          split
          · exact h3
          · rw [add_mulVec, ht0, h3, add_zero]
        · intro t ht
          have ht0 : st.AUpd *ᵥ t = 0 := hv.a t fun y hy => ht y (List.mem_append_left _ hy)
          have h3 := sym_vanish h1 hi.aPsd.1 hi.aUpd ht0 (ht _ (List.mem_append_right _ (List.mem_singleton.2 rfl)))
          show (if st.iter = 0 then AU else st.AUpd + AU) *ᵥ t = 0
          split
          · exact h3
          · rw [add_mulVec, ht0, h3, add_zero]

theorem steps_vanish {A : Matrix n n ℝ} (hA : IsPd A) {b : n → ℝ} {prior : Prior n} (hp : prior.Consistent)
    {P : Params n} {st0 : State n} (h0 : init A b prior = .ok (P, st0)) (k : ℕ) {st : State n}
    (h : steps P st0 k = .ok st) : Vanish P st := by
  induction k generalizing st with
  | zero =>
    have := Except.ok.inj h
    subst this
    obtain ⟨-, -, -, hu, ha, -⟩ := init_spec hA hp h0
    exact ⟨fun t _ => by rw [hu, zero_mulVec], fun t _ => by rw [ha, zero_mulVec]⟩
  | succ k ih =>
    have hst := h
    rw [steps] at h
    split at h
    · exact absurd h (by simp)
    · next st1 h1 => exact (ih h1).step (steps_inv hA hp h0 k h1).1 h

/-- The first term of the calibrated factor of the matrix: it acts like `A` in the search directions. -/
theorem aFactor0_spec {A : Matrix n n ℝ} (hA : IsPd A) {l : List (n → ℝ)} (h0 : ∀ s ∈ l, s ≠ 0)
    (hc : l.Pairwise fun s t => s ⬝ᵥ A *ᵥ t = 0) :
    (∀ s ∈ l, aFactor0 l (l.map (A *ᵥ ·)) *ᵥ s = A *ᵥ s) ∧
    (∀ t, (∀ s ∈ l, s ⬝ᵥ A *ᵥ t = 0) → aFactor0 l (l.map (A *ᵥ ·)) *ᵥ t = 0) := by
  induction l with
  | nil => exact ⟨by simp, fun t _ => by simp [aFactor0]⟩
  | cons u l ih =>
    rw [List.pairwise_cons] at hc
    obtain ⟨ih1, ih2⟩ := ih (fun s hs => h0 s (List.mem_cons_of_mem _ hs)) hc.2
    have hcons : aFactor0 (u :: l) ((u :: l).map (A *ᵥ ·)) =
        (u ⬝ᵥ A *ᵥ u)⁻¹ • vecMulVec (A *ᵥ u) (A *ᵥ u) + aFactor0 l (l.map (A *ᵥ ·)) := by
      simp [aFactor0]
    have hmul : ∀ t, aFactor0 (u :: l) ((u :: l).map (A *ᵥ ·)) *ᵥ t =
        ((u ⬝ᵥ A *ᵥ u)⁻¹ * (u ⬝ᵥ A *ᵥ t)) • A *ᵥ u + aFactor0 l (l.map (A *ᵥ ·)) *ᵥ t := by
      intro t
      rw [hcons, add_mulVec, smul_mulVec, vecMulVec_mulVec, ← symm_dot hA.1]
      congr 1
      ext i
      simp [mul_assoc, mul_comm]
    constructor
    · intro s hs
      rw [hmul]
      rcases List.mem_cons.1 hs with rfl | hs'
      · rw [inv_mul_cancel₀ (hA.2 s (h0 s (List.mem_cons_self))).ne', one_smul, ih2, add_zero]
        intro t ht
        rw [symm_dot hA.1, dotProduct_comm]
        exact hc.1 t ht
      · rw [hc.1 s hs', mul_zero, zero_smul, zero_add, ih1 s hs']
    · intro t ht
      rw [hmul, ht u List.mem_cons_self, mul_zero, zero_smul, zero_add,
        ih2 t fun s hs => ht s (List.mem_cons_of_mem _ hs)]

end Probnum.Linalg.MatrixBased
