import Verif.Linops.DiagLemmas
import Verif.Linops.FlagState

/-!
# Property C28: `det`, `logabsdet`, `trace`, `diagonal` and `rank` are those of the dense matrix

The operators take shortcuts (products of determinants of the factors, sums of traces, …); the statements compare them
with Mathlib's determinant, trace and rank of the matrix that `todense` returns.
-/

namespace Probnum.Linops

open Finset

/-- `logabsdet` of a matrix: `-∞` for a singular matrix. -/
noncomputable def logAbsDet {n : ℕ} (M : Matrix (Fin n) (Fin n) ℝ) : EReal :=
  if M.det = 0 then ⊥ else ((Real.log |M.det| : ℝ) : EReal)

/-- Determinant and log-determinant of a square operator equal those of its dense matrix.  The full statement has no
hypothesis `SquareFactors`: `det_nonsquare_factors` shows that the code fails without it. -/
theorem det_eq_dense_partial {a : Op} (ha : Valid False a) (hc : Calm a) (hS : SquareFactors a)
    (hsq : a.rows = a.cols) : ∃ N, ∀ n ≥ N, ∃ D, todense n a = .ok D ∧ det n a = .ok (toM a.rows a.rows D).det ∧
      logabsdet n a = .ok (logAbsDet (toM a.rows a.rows D)) := by
  refine ⟨4 * depth a + 7, fun n hn => ?_⟩
  obtain ⟨D, h1, h2⟩ := dense_returns ha hc (n := n) (by omega)
  rw [← hsq] at h2
  refine ⟨D, h1, ?_, ?_⟩
  · rw [det_eq n ha ⟨le_refl _, hc⟩ hS hsq hn, h2]
    rfl
  · rw [logabsdet_eq n ha ⟨le_refl _, hc⟩ hS hsq hn, h2]
    rfl

/-- Trace of a square operator, and rank and diagonal of any operator, equal those of the dense matrix. -/
theorem trace_rank_eq_dense {a : Op} (ha : Valid False a) (hc : Calm a) : ∃ N, ∀ n ≥ N, ∃ D, todense n a = .ok D ∧
    (a.rows = a.cols → trace n a = .ok (toM a.rows a.rows D).trace) ∧
    rank n a = .ok (toM a.rows a.cols D).rank ∧
    ∃ d, diagonal n a = .ok d ∧ ∀ i, (h1 : i < a.rows) → (h2 : i < a.cols) → d i = toM a.rows a.cols D ⟨i, h1⟩ ⟨i, h2⟩ := by
  refine ⟨4 * depth a + 7, fun n hn => ?_⟩
  obtain ⟨D, h1, h2⟩ := dense_returns ha hc (n := n) (by omega)
  refine ⟨D, h1, fun hsq => ?_, ?_, ?_⟩
  · rw [← hsq] at h2
    rw [trace_eq n ha ⟨le_refl _, hc⟩ hsq hn, h2, traceM_eq]
  · rw [rank_eq n ha ⟨le_refl _, hc⟩ hn, h2]
    rfl
  · obtain ⟨d, e1, e2⟩ := diagonal_eq n ha ⟨le_refl _, hc⟩ (by omega)
    refine ⟨d, e1, fun i hr hcl => ?_⟩
    rw [h2, e2 i (lt_min hr hcl)]
    rfl

/-- `det`, `logabsdet` and `trace` of an operator that is not square raise LinAlgError. -/
theorem det_trace_reject {a : Op} (hsq : a.rows ≠ a.cols) {n : ℕ} (hn : 0 < n) :
    det n a = .error .linAlgError ∧ logabsdet n a = .error .linAlgError ∧ trace n a = .error .linAlgError := by
  obtain ⟨n, rfl⟩ : ∃ k, n = k + 1 := ⟨n - 1, by omega⟩
  refine ⟨?_, ?_, ?_⟩
  · rw [det.eq_def]; exact if_pos hsq
  · rw [logabsdet.eq_def]; exact if_pos hsq
  · rw [trace.eq_def]; exact if_pos hsq

/-- A Kronecker product and a block-diagonal operator meet the hypotheses. -/
example : ∃ N, ∀ n ≥ N, ∃ D, todense n exK = .ok D ∧ det n exK = .ok (toM 4 4 D).det ∧
      logabsdet n exK = .ok (logAbsDet (toM 4 4 D)) :=
  det_eq_dense_partial built_exK.valid calm_exK (by simp [exK, exA, exS, mkMatrix, mkScalingAniso, SquareFactors]) rfl

example : ∃ N, ∀ n ≥ N, ∃ D, todense n exI = .ok D ∧ (4 = 4 → trace n exI = .ok (toM 4 4 D).trace) ∧
    rank n exI = .ok (toM 4 4 D).rank ∧
    ∃ d, diagonal n exI = .ok d ∧ ∀ i, (h1 : i < 4) → (h2 : i < 4) → d i = toM 4 4 D ⟨i, h1⟩ ⟨i, h2⟩ :=
  trace_rank_eq_dense built_exI.valid calm_exI

/-- The product of a 1×2 and a 2×1 matrix operator. -/
def exRow : Op := mkMatrix 1 2 fun _ _ => 1
def exCol : Op := mkMatrix 2 1 fun _ _ => 1
def exInner : Op := .prod (base 1 1) [exRow, exCol]

/-- A violation: the square product of non-square factors has the dense matrix `[[2]]`, but `det` and `logabsdet` ask
the factors for their determinants and raise LinAlgError. -/
theorem det_nonsquare_factors : mkProd [exRow, exCol] = .ok exInner ∧ Valid False exInner ∧ ∀ n ≥ 14,
    (∃ D, todense n exInner = .ok D ∧ (toM 1 1 D).det = 2) ∧ det n exInner = .error .linAlgError ∧
    logabsdet n exInner = .error .linAlgError := by
  have hV : Valid False exInner := by
    have h1 : Valid False exRow := valid_matrix (by norm_num) (by norm_num) _
    have h2 : Valid False exCol := valid_matrix (by norm_num) (by norm_num) _
    have h3 := Meets.of_ok (a := exInner) (mkProd_two h1 h2 rfl) rfl
    exact h3.1
  refine ⟨rfl, hV, fun n hn => ⟨?_, ?_, ?_⟩⟩
  · obtain ⟨D, h1, h2⟩ := dense_returns hV (by simp [exInner, exRow, exCol, mkMatrix, Calm, CalmL]) (n := n)
      (by simp [exInner, exRow, exCol, mkMatrix, depth, depthL]; omega)
    refine ⟨D, h1, ?_⟩
    have : toM 1 1 D = toM 1 1 (den exInner) := h2
    rw [this, Matrix.det_fin_one]
    simp [toM, exInner, exRow, exCol, mkMatrix, den, denProd, mmul, Op.cols, Op.hdr, base]

    rfl
  · obtain ⟨n, rfl⟩ : ∃ k, n = k + 2 := ⟨n - 2, by omega⟩
    rw [det.eq_def]
    have : det (n + 1) exRow = .error .linAlgError := (det_trace_reject (by decide) (by omega)).1
    refine (if_neg (not_not.2 rfl)).trans ?_
    show (List.mapM _ [exRow, exCol] >>= _) = _
    rw [List.mapM_cons, this]
    rfl
  · obtain ⟨n, rfl⟩ : ∃ k, n = k + 2 := ⟨n - 2, by omega⟩
    rw [logabsdet.eq_def]
    have : logabsdet (n + 1) exRow = .error .linAlgError := (det_trace_reject (by decide) (by omega)).2.1
    refine (if_neg (not_not.2 rfl)).trans ?_
    show (List.mapM _ [exRow, exCol] >>= _) = _
    rw [List.mapM_cons, this]
    rfl

/-- A violation outside the domain of `Valid`: the determinant of the 0×0 zero operator is 0, while the determinant of
the empty matrix, which `Identity(0).det()` returns, is 1. -/
theorem zero_det_empty (n : ℕ) (D : Mat) : det (n + 1) (mkZero 0 0) = .ok 0 ∧ det (n + 1) (mkIdentity 0) = .ok 1 ∧
    (toM 0 0 D).det = 1 := by
  refine ⟨?_, ?_, Matrix.det_fin_zero⟩
  · rw [det.eq_def]
    exact if_neg (not_not.2 rfl)
  · rw [det.eq_def]
    exact if_neg (not_not.2 rfl)

end Probnum.Linops
