import Verif.Linops.CondLemmas

/-! # Condition numbers of Kronecker products and diagonal matrices -/

namespace Probnum.Linops.Cond

open Finset Matrix
open scoped Kronecker

variable {ι κ : Type} [Fintype ι] [Fintype κ] [DecidableEq ι] [DecidableEq κ]

/-- The norms that are given by the entries of the matrix. -/
noncomputable def nv (p : NormOrd) (M : Matrix ι ι ℝ) : ℝ :=
  match p with
  | .one => ⨆ j, ∑ i, |M i j|
  | .inf => ⨆ i, ∑ j, |M i j|
  | .negOne => ⨅ j, ∑ i, |M i j|
  | .negInf => ⨅ i, ∑ j, |M i j|
  | _ => √(∑ i, ∑ j, M i j ^ 2)

/-- The condition number of a regular matrix. -/
noncomputable def cv (p : NormOrd) (M : Matrix ι ι ℝ) : ℝ :=
  match p with
  | .none | .two => sMax M / sMin M
  | .negTwo => sMin M / sMax M
  | p => nv p M * nv p M⁻¹

/-- The orders for which Kronecker products multiply condition numbers. -/
def Good (p : NormOrd) : Prop := p.plain ∨ p = .fro

theorem npCond_eq [Nonempty ι] {p : NormOrd} (hp : Good p) (M : Matrix ι ι ℝ) (h : p = .negTwo → M.det ≠ 0) :
    npCond p M = .ok (if M.det = 0 then ⊤ else ENNReal.ofReal (cv p M)) := by
  have two : (if sMin M = 0 then .ok ⊤ else .ok (ENNReal.ofReal (sMax M / sMin M)) : Res ENNReal) =
      .ok (if M.det = 0 then ⊤ else ENNReal.ofReal (sMax M / sMin M)) := by
    by_cases hd : M.det = 0
    · rw [if_pos hd, if_pos ((sMin_eq_zero M).2 hd)]
    · rw [if_neg hd, if_neg fun e => hd ((sMin_eq_zero M).1 e)]
  have rest : ∀ a b : ℝ, (if M.det = 0 then .ok ⊤ else .ok (ENNReal.ofReal (a * b)) : Res ENNReal) =
      .ok (if M.det = 0 then ⊤ else ENNReal.ofReal (a * b)) := fun a b => by
    by_cases hd : M.det = 0
    · rw [if_pos hd, if_pos hd]
    · rw [if_neg hd, if_neg hd]
  cases p with
  | none => exact two
  | two => exact two
  | one => exact rest _ _
  | inf => exact rest _ _
  | fro => exact rest _ _
  | nuc => rcases hp with hp | hp <;> cases hp
  | negTwo =>
    have hd := h rfl
    have h0 : sMax M ≠ 0 := fun e => hd (by
      rw [(sMax_eq_zero M).1 e]
      exact det_zero)
    show (if sMax M = 0 then _ else _) = _
    rw [if_neg h0, if_neg hd]
    rfl
  | negOne => exact rest _ _
  | negInf => exact rest _ _
  | other => rcases hp with hp | hp <;> cases hp

/-! ## Positivity -/

theorem col_pos {M : Matrix ι ι ℝ} (h : M.det ≠ 0) (j : ι) : 0 < ∑ i, |M i j| := by
  refine lt_of_le_of_ne (sum_nonneg fun _ _ => abs_nonneg _) fun e => h ?_
  refine det_eq_zero_of_column_eq_zero j fun i => ?_
  exact abs_eq_zero.1 ((sum_eq_zero_iff_of_nonneg fun _ _ => abs_nonneg _).1 e.symm i (mem_univ i))

theorem row_pos {M : Matrix ι ι ℝ} (h : M.det ≠ 0) (i : ι) : 0 < ∑ j, |M i j| := by
  refine lt_of_le_of_ne (sum_nonneg fun _ _ => abs_nonneg _) fun e => h ?_
  refine det_eq_zero_of_row_eq_zero i fun j => ?_
  exact abs_eq_zero.1 ((sum_eq_zero_iff_of_nonneg fun _ _ => abs_nonneg _).1 e.symm j (mem_univ j))

theorem nv_pos [Nonempty ι] (p : NormOrd) {M : Matrix ι ι ℝ} (h : M.det ≠ 0) : 0 < nv p M := by
  have fro : 0 < √(∑ i, ∑ j, M i j ^ 2) := by
    refine Real.sqrt_pos.2 (lt_of_le_of_ne (sum_nonneg fun _ _ => sum_nonneg fun _ _ => sq_nonneg _) fun e => h ?_)
    have i : ι := Classical.arbitrary ι
    refine det_eq_zero_of_row_eq_zero i fun j => ?_
    have h1 := (sum_eq_zero_iff_of_nonneg fun _ _ => sum_nonneg fun _ _ => sq_nonneg _).1 e.symm i (mem_univ i)
    exact pow_eq_zero_iff two_ne_zero |>.1 ((sum_eq_zero_iff_of_nonneg fun _ _ => sq_nonneg _).1 h1 j (mem_univ j))
  cases p with
  | one => exact (col_pos h (Classical.arbitrary ι)).trans_le ((sup_ex fun j => ∑ i, |M i j|).1 _)
  | inf => exact (row_pos h (Classical.arbitrary ι)).trans_le ((sup_ex fun i => ∑ j, |M i j|).1 _)
  | negOne =>
    obtain ⟨j, hj⟩ := (inf_ex fun j => ∑ i, |M i j|).2
    exact (col_pos h j).trans_eq hj
  | negInf =>
    obtain ⟨j, hj⟩ := (inf_ex fun i => ∑ j, |M i j|).2
    exact (row_pos h j).trans_eq hj
  | _ => exact fro

theorem inv_det_ne {M : Matrix ι ι ℝ} (h : M.det ≠ 0) : M⁻¹.det ≠ 0 := by
  rw [det_nonsing_inv, Ring.inverse_eq_inv]
  exact inv_ne_zero h

theorem cv_pos [Nonempty ι] (p : NormOrd) {M : Matrix ι ι ℝ} (h : M.det ≠ 0) : 0 < cv p M := by
  have h0 : 0 < sMin M := lt_of_le_of_ne (sMin_nonneg M) fun e => h ((sMin_eq_zero M).1 e.symm)
  have h1 : 0 < sMax M := h0.trans_le (sMin_le_sMax M)
  have rest : ∀ q, 0 < nv q M * nv q M⁻¹ := fun q => mul_pos (nv_pos q h) (nv_pos q (inv_det_ne h))
  cases p with
  | none => exact div_pos h1 h0
  | two => exact div_pos h1 h0
  | negTwo => exact div_pos h0 h1
  | one => exact rest _
  | inf => exact rest _
  | fro => exact rest _
  | nuc => exact rest _
  | negOne => exact rest _
  | negInf => exact rest _
  | other => exact rest _

/-! ## Kronecker products -/

theorem col_kron (A : Matrix ι ι ℝ) (B : Matrix κ κ ℝ) (q : ι × κ) :
    ∑ p, |(A ⊗ₖ B) p q| = (∑ i, |A i q.1|) * ∑ k, |B k q.2| := by
  rw [Fintype.sum_prod_type, sum_mul_sum]
  exact sum_congr rfl fun i _ => sum_congr rfl fun k _ => abs_mul _ _

theorem row_kron (A : Matrix ι ι ℝ) (B : Matrix κ κ ℝ) (q : ι × κ) :
    ∑ p, |(A ⊗ₖ B) q p| = (∑ i, |A q.1 i|) * ∑ k, |B q.2 k| := by
  rw [Fintype.sum_prod_type, sum_mul_sum]
  exact sum_congr rfl fun i _ => sum_congr rfl fun k _ => abs_mul _ _

theorem fro_kron (A : Matrix ι ι ℝ) (B : Matrix κ κ ℝ) :
    √(∑ p, ∑ q, (A ⊗ₖ B) p q ^ 2) = √(∑ i, ∑ j, A i j ^ 2) * √(∑ i, ∑ j, B i j ^ 2) := by
  have h : 0 ≤ ∑ i, ∑ j, A i j ^ 2 := sum_nonneg fun _ _ => sum_nonneg fun _ _ => sq_nonneg _
  rw [← Real.sqrt_mul h]
  congr 1
  rw [Fintype.sum_prod_type, sum_mul_sum]
  refine sum_congr rfl fun i _ => sum_congr rfl fun k _ => ?_
  rw [Fintype.sum_prod_type, sum_mul_sum]
  exact sum_congr rfl fun j _ => sum_congr rfl fun l _ => mul_pow _ _ _

theorem nv_kron [Nonempty ι] [Nonempty κ] (p : NormOrd) (A : Matrix ι ι ℝ) (B : Matrix κ κ ℝ) :
    nv p (A ⊗ₖ B) = nv p A * nv p B := by
  have n1 : ∀ (M : Matrix ι ι ℝ) j, 0 ≤ ∑ i, |M i j| := fun M j => sum_nonneg fun _ _ => abs_nonneg _
  have n2 : ∀ (M : Matrix κ κ ℝ) j, 0 ≤ ∑ i, |M i j| := fun M j => sum_nonneg fun _ _ => abs_nonneg _
  have n3 : ∀ (M : Matrix ι ι ℝ) i, 0 ≤ ∑ j, |M i j| := fun M j => sum_nonneg fun _ _ => abs_nonneg _
  have n4 : ∀ (M : Matrix κ κ ℝ) i, 0 ≤ ∑ j, |M i j| := fun M j => sum_nonneg fun _ _ => abs_nonneg _
  cases p with
  | one =>
    show ⨆ q, ∑ p, |(A ⊗ₖ B) p q| = _
    simp only [col_kron]
    exact sup_kron (n1 A) (n2 B)
  | inf =>
    show ⨆ q, ∑ p, |(A ⊗ₖ B) q p| = _
    simp only [row_kron]
    exact sup_kron (n3 A) (n4 B)
  | negOne =>
    show ⨅ q, ∑ p, |(A ⊗ₖ B) p q| = _
    simp only [col_kron]
    exact inf_kron (n1 A) (n2 B)
  | negInf =>
    show ⨅ q, ∑ p, |(A ⊗ₖ B) q p| = _
    simp only [row_kron]
    exact inf_kron (n3 A) (n4 B)
  | _ => exact fro_kron A B

theorem cv_kron [Nonempty ι] [Nonempty κ] (p : NormOrd) (A : Matrix ι ι ℝ) (B : Matrix κ κ ℝ) :
    cv p (A ⊗ₖ B) = cv p A * cv p B := by
  have h1 : sMax (A ⊗ₖ B) = sMax A * sMax B := ((isMax_sMax A).kron (isMax_sMax B)).eq
  have h2 : sMin (A ⊗ₖ B) = sMin A * sMin B := ((isMin_sMin A).kron (isMin_sMin B)).eq
  have rest : ∀ q, nv q (A ⊗ₖ B) * nv q (A ⊗ₖ B)⁻¹ = nv q A * nv q A⁻¹ * (nv q B * nv q B⁻¹) := fun q => by
    rw [inv_kronecker, nv_kron, nv_kron]
    ring
  have two : sMax (A ⊗ₖ B) / sMin (A ⊗ₖ B) = sMax A / sMin A * (sMax B / sMin B) := by
    rw [h1, h2, div_mul_div_comm]
  cases p with
  | none => exact two
  | two => exact two
  | negTwo =>
    show sMin (A ⊗ₖ B) / sMax (A ⊗ₖ B) = sMin A / sMax A * (sMin B / sMax B)
    rw [h1, h2, div_mul_div_comm]
  | one => exact rest _
  | inf => exact rest _
  | fro => exact rest _
  | nuc => exact rest _
  | negOne => exact rest _
  | negInf => exact rest _
  | other => exact rest _

theorem det_kron_eq_zero [Nonempty ι] [Nonempty κ] (A : Matrix ι ι ℝ) (B : Matrix κ κ ℝ) :
    (A ⊗ₖ B).det = 0 ↔ A.det = 0 ∨ B.det = 0 := by
  rw [det_kronecker, mul_eq_zero, pow_eq_zero_iff Fintype.card_ne_zero, pow_eq_zero_iff Fintype.card_ne_zero]

/-- The condition number as an extended real. -/
noncomputable def ce (p : NormOrd) (M : Matrix ι ι ℝ) : ENNReal := if M.det = 0 then ⊤ else ENNReal.ofReal (cv p M)

theorem ce_ne_zero [Nonempty ι] (p : NormOrd) (M : Matrix ι ι ℝ) : ce p M ≠ 0 := by
  rw [ce]
  split
  · exact ENNReal.top_ne_zero
  · next h => exact (ENNReal.ofReal_pos.2 (cv_pos p h)).ne'

theorem ce_kron [Nonempty ι] [Nonempty κ] (p : NormOrd) (A : Matrix ι ι ℝ) (B : Matrix κ κ ℝ) :
    fmul (some (ce p A)) (some (ce p B)) = some (ce p (A ⊗ₖ B)) := by
  have hA := ce_ne_zero p A
  have hB := ce_ne_zero p B
  rw [fmul, if_neg (by rintro (h | h); exacts [hA h.1, hB h.2])]
  congr 1
  by_cases h1 : A.det = 0
  · have e : ce p A = ⊤ := if_pos h1
    have e' : ce p (A ⊗ₖ B) = ⊤ := if_pos ((det_kron_eq_zero A B).2 (.inl h1))
    rw [e, e', ENNReal.top_mul hB]
  · by_cases h2 : B.det = 0
    · have e : ce p B = ⊤ := if_pos h2
      have e' : ce p (A ⊗ₖ B) = ⊤ := if_pos ((det_kron_eq_zero A B).2 (.inr h2))
      rw [e, e', ENNReal.mul_top hA]
    · have h3 : (A ⊗ₖ B).det ≠ 0 := fun h => ((det_kron_eq_zero A B).1 h).elim h1 h2
      rw [ce, ce, ce, if_neg h1, if_neg h2, if_neg h3, cv_kron, ENNReal.ofReal_mul (cv_pos p h1).le]

/-! ## Reindexing -/

theorem sup_equiv (e : κ ≃ ι) (f : ι → ℝ) : ⨆ k, f (e k) = ⨆ i, f i := e.iSup_comp
theorem inf_equiv (e : κ ≃ ι) (f : ι → ℝ) : ⨅ k, f (e k) = ⨅ i, f i := e.iInf_comp

theorem nv_reindex (p : NormOrd) (M : Matrix ι ι ℝ) (e : κ ≃ ι) : nv p (M.submatrix e e) = nv p M := by
  have c : ∀ k, ∑ i, |M (e i) (e k)| = ∑ i, |M i (e k)| := fun k => e.sum_comp fun i => |M i (e k)|
  have r : ∀ k, ∑ i, |M (e k) (e i)| = ∑ i, |M (e k) i| := fun k => e.sum_comp fun i => |M (e k) i|
  have fro : √(∑ i, ∑ j, M (e i) (e j) ^ 2) = √(∑ i, ∑ j, M i j ^ 2) := by
    congr 1
    rw [← e.sum_comp]
    exact sum_congr rfl fun i _ => e.sum_comp fun j => M (e i) j ^ 2
  cases p with
  | one =>
    show ⨆ k, ∑ i, |M (e i) (e k)| = _
    simp only [c]
    exact sup_equiv e fun j => ∑ i, |M i j|
  | inf =>
    show ⨆ k, ∑ i, |M (e k) (e i)| = _
    simp only [r]
    exact sup_equiv e fun i => ∑ j, |M i j|
  | negOne =>
    show ⨅ k, ∑ i, |M (e i) (e k)| = _
    simp only [c]
    exact inf_equiv e fun j => ∑ i, |M i j|
  | negInf =>
    show ⨅ k, ∑ i, |M (e k) (e i)| = _
    simp only [r]
    exact inf_equiv e fun i => ∑ j, |M i j|
  | _ => exact fro

theorem ce_reindex [Nonempty ι] (p : NormOrd) (M : Matrix ι ι ℝ) (e : κ ≃ ι) : ce p (M.submatrix e e) = ce p M := by
  have h1 : sMax (M.submatrix e e) = sMax M := ((isMax_sMax M).reindex e).eq
  have h2 : sMin (M.submatrix e e) = sMin M := ((isMin_sMin M).reindex e).eq
  have h3 : cv p (M.submatrix e e) = cv p M := by
    cases p <;> simp only [cv, h1, h2, inv_submatrix_equiv, nv_reindex]
  rw [ce, ce, det_submatrix_equiv_self, h3]

/-! ## Diagonal matrices -/

theorem det_diag_eq_zero [Nonempty ι] (f : ι → ℝ) : (Matrix.diagonal f).det = 0 ↔ ⨅ i, |f i| = 0 := by
  rw [← sMin_eq_zero, (isMin_diagonal f).eq]

theorem diag_ne [Nonempty ι] {f : ι → ℝ} (h : ⨅ i, |f i| ≠ 0) (i : ι) : f i ≠ 0 := fun e => h (by
  refine inf_eq (fun i => abs_nonneg _) ⟨i, by rw [e, abs_zero]⟩)

theorem inv_diag [Nonempty ι] {f : ι → ℝ} (h : ⨅ i, |f i| ≠ 0) :
    (Matrix.diagonal f)⁻¹ = Matrix.diagonal fun i => (f i)⁻¹ := by
  refine inv_eq_right_inv ?_
  rw [diagonal_mul_diagonal, ← diagonal_one]
  congr 1
  ext i
  exact mul_inv_cancel₀ (diag_ne h i)

theorem col_diag (f : ι → ℝ) (j : ι) : ∑ i, |Matrix.diagonal f i j| = |f j| := by
  rw [sum_eq_single j]
  · rw [diagonal_apply_eq]
  · intro i _ h
    rw [diagonal_apply_ne _ h, abs_zero]
  · simp

theorem row_diag (f : ι → ℝ) (i : ι) : ∑ j, |Matrix.diagonal f i j| = |f i| := by
  rw [sum_eq_single i]
  · rw [diagonal_apply_eq]
  · intro j _ h
    rw [diagonal_apply_ne _ h.symm, abs_zero]
  · simp

theorem fro_diag (f : ι → ℝ) : √(∑ i, ∑ j, Matrix.diagonal f i j ^ 2) = √(∑ i, f i ^ 2) := by
  congr 1
  refine sum_congr rfl fun i _ => ?_
  rw [sum_eq_single i]
  · rw [diagonal_apply_eq]
  · intro j _ h
    rw [diagonal_apply_ne _ h.symm]
    norm_num
  · simp

theorem sup_inv [Nonempty ι] {f : ι → ℝ} (h : ⨅ i, |f i| ≠ 0) : ⨆ i, |(f i)⁻¹| = (⨅ i, |f i|)⁻¹ := by
  obtain ⟨h1, i, hi⟩ := inf_ex fun i => |f i|
  have h0 : 0 < ⨅ i, |f i| := lt_of_le_of_ne (le_ciInf fun i => abs_nonneg _) h.symm
  refine sup_eq (fun j => ?_) ⟨i, ?_⟩
  · rw [abs_inv]
    exact inv_anti₀ h0 (h1 j)
  · rw [abs_inv]
    exact congrArg _ hi

theorem inf_inv [Nonempty ι] {f : ι → ℝ} (h : ⨅ i, |f i| ≠ 0) : ⨅ i, |(f i)⁻¹| = (⨆ i, |f i|)⁻¹ := by
  obtain ⟨h1, i, hi⟩ := sup_ex fun i => |f i|
  refine inf_eq (fun j => ?_) ⟨i, ?_⟩
  · rw [abs_inv]
    exact inv_anti₀ (abs_pos.2 (diag_ne h j)) (h1 j)
  · rw [abs_inv]
    exact congrArg _ hi

theorem cv_diag_pos [Nonempty ι] {f : ι → ℝ} (h : ⨅ i, |f i| ≠ 0) {p : NormOrd}
    (hp : p = .none ∨ p = .two ∨ p = .one ∨ p = .inf) : cv p (Matrix.diagonal f) = (⨆ i, |f i|) / ⨅ i, |f i| := by
  have two : sMax (Matrix.diagonal f) / sMin (Matrix.diagonal f) = (⨆ i, |f i|) / ⨅ i, |f i| := by
    rw [(isMax_diagonal f).eq, (isMin_diagonal f).eq]
  rcases hp with rfl | rfl | rfl | rfl
  · exact two
  · exact two
  · show (⨆ j, ∑ i, |Matrix.diagonal f i j|) * (⨆ j, ∑ i, |(Matrix.diagonal f)⁻¹ i j|) = _
    rw [inv_diag h]
    simp only [col_diag]
    rw [sup_inv h, div_eq_mul_inv]
  · show (⨆ i, ∑ j, |Matrix.diagonal f i j|) * (⨆ i, ∑ j, |(Matrix.diagonal f)⁻¹ i j|) = _
    rw [inv_diag h]
    simp only [row_diag]
    rw [sup_inv h, div_eq_mul_inv]

theorem cv_diag_neg [Nonempty ι] {f : ι → ℝ} (h : ⨅ i, |f i| ≠ 0) {p : NormOrd}
    (hp : p = .negTwo ∨ p = .negOne ∨ p = .negInf) : cv p (Matrix.diagonal f) = (⨅ i, |f i|) / ⨆ i, |f i| := by
  rcases hp with rfl | rfl | rfl
  · show sMin (Matrix.diagonal f) / sMax (Matrix.diagonal f) = _
    rw [(isMax_diagonal f).eq, (isMin_diagonal f).eq]
  · show (⨅ j, ∑ i, |Matrix.diagonal f i j|) * (⨅ j, ∑ i, |(Matrix.diagonal f)⁻¹ i j|) = _
    rw [inv_diag h]
    simp only [col_diag]
    rw [inf_inv h, div_eq_mul_inv]
  · show (⨅ i, ∑ j, |Matrix.diagonal f i j|) * (⨅ i, ∑ j, |(Matrix.diagonal f)⁻¹ i j|) = _
    rw [inv_diag h]
    simp only [row_diag]
    rw [inf_inv h, div_eq_mul_inv]

theorem cv_diag_fro [Nonempty ι] {f : ι → ℝ} (h : ⨅ i, |f i| ≠ 0) :
    cv .fro (Matrix.diagonal f) = √(∑ i, f i ^ 2) * √(∑ i, (1 / f i) ^ 2) := by
  show √(∑ i, ∑ j, Matrix.diagonal f i j ^ 2) * √(∑ i, ∑ j, (Matrix.diagonal f)⁻¹ i j ^ 2) = _
  rw [inv_diag h, fro_diag, fro_diag]
  simp only [one_div]

end Probnum.Linops.Cond
