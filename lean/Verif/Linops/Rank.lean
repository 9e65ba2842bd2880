import Verif.Linops.SoundLemmas
import Mathlib.LinearAlgebra.Matrix.Rank
import Mathlib.LinearAlgebra.Matrix.Kronecker
import Mathlib.LinearAlgebra.Matrix.SchurComplement

/-! # Determinants, ranks and traces of Kronecker products and block-diagonal matrices -/

namespace Probnum.Linops

open Finset Matrix
open scoped Kronecker

/-! ## Rank factorisations -/

theorem rank_of_factor {m n k : Type} [Fintype m] [Fintype n] [Fintype k] [DecidableEq m] [DecidableEq n]
    [DecidableEq k] {U : Matrix m k ℝ} {V : Matrix k n ℝ} {L : Matrix k m ℝ} {R : Matrix n k ℝ} (hL : L * U = 1)
    (hR : V * R = 1) : (U * V).rank = Fintype.card k := by
  refine le_antisymm ((rank_mul_le_left U V).trans (rank_le_card_width U)) ?_
  have h : L * (U * V) * R = 1 := by
    rw [← Matrix.mul_assoc L, hL, Matrix.one_mul, hR]
  calc Fintype.card k = (1 : Matrix k k ℝ).rank := (rank_one).symm
    _ = (L * (U * V) * R).rank := by rw [h]
    _ ≤ (L * (U * V)).rank := rank_mul_le_left _ _
    _ ≤ (U * V).rank := rank_mul_le_right _ _

theorem rank_factor {m n : Type} [Fintype m] [Fintype n] [DecidableEq m] [DecidableEq n] (A : Matrix m n ℝ) :
    ∃ (U : Matrix m (Fin A.rank) ℝ) (V : Matrix (Fin A.rank) n ℝ) (L : Matrix (Fin A.rank) m ℝ)
      (R : Matrix n (Fin A.rank) ℝ), A = U * V ∧ L * U = 1 ∧ V * R = 1 := by
  let f := A.mulVecLin
  have hd : Module.finrank ℝ (LinearMap.range f) = Module.finrank ℝ (Fin A.rank → ℝ) := by
    rw [Module.finrank_fin_fun]
    rfl
  let e : LinearMap.range f ≃ₗ[ℝ] (Fin A.rank → ℝ) := LinearEquiv.ofFinrankEq _ _ hd
  let u : (Fin A.rank → ℝ) →ₗ[ℝ] (m → ℝ) := (LinearMap.range f).subtype ∘ₗ e.symm.toLinearMap
  let v : (n → ℝ) →ₗ[ℝ] (Fin A.rank → ℝ) := e.toLinearMap ∘ₗ f.rangeRestrict
  have huv : u ∘ₗ v = f := by
    ext x
    simp [u, v]
  have hu : LinearMap.ker u = ⊥ := by
    rw [LinearMap.ker_eq_bot]
    exact Subtype.val_injective.comp e.symm.injective
  have hv : LinearMap.range v = ⊤ := by
    rw [LinearMap.range_eq_top]
    exact e.surjective.comp f.surjective_rangeRestrict
  obtain ⟨l, hl⟩ := u.exists_leftInverse_of_injective hu
  obtain ⟨r, hr⟩ := v.exists_rightInverse_of_surjective hv
  refine ⟨LinearMap.toMatrix' u, LinearMap.toMatrix' v, LinearMap.toMatrix' l, LinearMap.toMatrix' r, ?_, ?_, ?_⟩
  · rw [← LinearMap.toMatrix'_comp, huv]
    exact (LinearMap.toMatrix'_toLin' A).symm
  · rw [← LinearMap.toMatrix'_comp, hl, LinearMap.toMatrix'_id]
  · rw [← LinearMap.toMatrix'_comp, hr, LinearMap.toMatrix'_id]

theorem rank_kron {m n p q : Type} [Fintype m] [Fintype n] [Fintype p] [Fintype q] [DecidableEq m] [DecidableEq n]
    [DecidableEq p] [DecidableEq q] (A : Matrix m n ℝ) (B : Matrix p q ℝ) : (A ⊗ₖ B).rank = A.rank * B.rank := by
  obtain ⟨U, V, L, R, h1, h2, h3⟩ := rank_factor A
  obtain ⟨U', V', L', R', h1', h2', h3'⟩ := rank_factor B
  have h : A ⊗ₖ B = (U ⊗ₖ U') * (V ⊗ₖ V') := by
    rw [← mul_kronecker_mul, ← h1, ← h1']
  rw [h, rank_of_factor (L := L ⊗ₖ L') (R := R ⊗ₖ R'), Fintype.card_prod, Fintype.card_fin, Fintype.card_fin]
  · rw [← mul_kronecker_mul, h2, h2', one_kronecker_one]
  · rw [← mul_kronecker_mul, h3, h3', one_kronecker_one]

theorem rank_blocks {m n p q : Type} [Fintype m] [Fintype n] [Fintype p] [Fintype q] [DecidableEq m] [DecidableEq n]
    [DecidableEq p] [DecidableEq q] (A : Matrix m n ℝ) (B : Matrix p q ℝ) :
    (fromBlocks A 0 0 B).rank = A.rank + B.rank := by
  obtain ⟨U, V, L, R, h1, h2, h3⟩ := rank_factor A
  obtain ⟨U', V', L', R', h1', h2', h3'⟩ := rank_factor B
  have h : fromBlocks A 0 0 B = fromBlocks U 0 0 U' * fromBlocks V 0 0 V' := by
    rw [fromBlocks_multiply]
    simp [← h1, ← h1']
  rw [h, rank_of_factor (L := fromBlocks L 0 0 L') (R := fromBlocks R 0 0 R'), Fintype.card_sum, Fintype.card_fin,
    Fintype.card_fin]
  · rw [fromBlocks_multiply]
    simp [h2, h2']
  · rw [fromBlocks_multiply]
    simp [h3, h3']

/-! ## Kronecker products -/

theorem toM_kronM (r₁ c₁ r₂ c₂ : ℕ) (A B : Mat) : toM (r₁ * r₂) (c₁ * c₂) (kronM r₂ c₂ A B) =
    (toM r₁ c₁ A ⊗ₖ toM r₂ c₂ B).submatrix finProdFinEquiv.symm finProdFinEquiv.symm := rfl

theorem detM_kronM (n m : ℕ) (A B : Mat) :
    detM (n * m) (kronM m m A B) = detM n A ^ m * detM m B ^ n := by
  rw [detM, toM_kronM, det_submatrix_equiv_self, det_kronecker, Fintype.card_fin, Fintype.card_fin]
  rfl

/-- Rank of the matrix. -/
noncomputable def rankM (r c : ℕ) (M : Mat) : ℕ := (toM r c M).rank

theorem rankM_congr {r c : ℕ} {M N : Mat} (h : Eqv r c M N) : rankM r c M = rankM r c N := by
  rw [rankM, h.toM, rankM]

theorem rankM_kronM (r₁ c₁ r₂ c₂ : ℕ) (A B : Mat) :
    rankM (r₁ * r₂) (c₁ * c₂) (kronM r₂ c₂ A B) = rankM r₁ c₁ A * rankM r₂ c₂ B := by
  rw [rankM, toM_kronM, rank_submatrix, rank_kron]
  rfl

theorem rankM_trn (r c : ℕ) (A : Mat) : rankM c r (trn A) = rankM r c A := by
  rw [rankM, toM_trn, rank_transpose, rankM]

/-- Trace of the matrix. -/
noncomputable def traceM (n : ℕ) (M : Mat) : ℝ := ∑ i ∈ range n, M i i

theorem traceM_eq (n : ℕ) (M : Mat) : traceM n M = (toM n n M).trace := by
  rw [traceM, Finset.sum_range]
  rfl

theorem traceM_congr {n : ℕ} {M N : Mat} (h : Eqv n n M N) : traceM n M = traceM n N :=
  Finset.sum_congr rfl fun i hi => h i (mem_range.1 hi) i (mem_range.1 hi)

theorem traceM_kronM (n m : ℕ) (A B : Mat) : traceM (n * m) (kronM m m A B) = traceM n A * traceM m B := by
  rw [traceM_eq, toM_kronM, traceM_eq, traceM_eq, ← trace_kronecker, Matrix.trace, Matrix.trace]
  exact Equiv.sum_comp finProdFinEquiv.symm fun x => (toM n n A ⊗ₖ toM m m B) x x

/-! ## Block-diagonal matrices -/

theorem toM_block (a : Op) (l : List Op) (R C : ℕ) :
    (toM (a.rows + R) (a.cols + C) (denBlock (a :: l))).submatrix finSumFinEquiv finSumFinEquiv =
      fromBlocks (toM a.rows a.cols (den a)) 0 0 (toM R C (denBlock l)) := by
  ext i j
  rcases i with i | i <;> rcases j with j | j <;> simp [denBlock_cons]

theorem detM_denBlock {l : List Op} (hsq : ∀ a ∈ l, a.rows = a.cols) :
    detM (l.map Op.rows).sum (denBlock l) = (l.map fun a => detM a.rows (den a)).prod := by
  induction l with
  | nil =>
    rw [List.map_nil, List.map_nil, List.sum_nil, List.prod_nil, detM]
    exact Matrix.det_isEmpty
  | cons a l ih =>
    rw [List.map_cons, List.map_cons, List.sum_cons, List.prod_cons, ← ih fun b hb => hsq b (List.mem_cons_of_mem _ hb)]
    have h := toM_block a l (l.map Op.rows).sum (l.map Op.rows).sum
    rw [← hsq a (by simp)] at h
    rw [detM, ← det_submatrix_equiv_self finSumFinEquiv, h, det_fromBlocks_zero₂₁]
    rfl

theorem rankM_denBlock (l : List Op) :
    rankM (l.map Op.rows).sum (l.map Op.cols).sum (denBlock l) =
      (l.map fun a => rankM a.rows a.cols (den a)).sum := by
  induction l with
  | nil =>
    rw [List.map_nil, List.map_nil, List.map_nil, List.sum_nil, rankM]
    exact Nat.le_zero.1 ((rank_le_card_width _).trans (by simp))
  | cons a l ih =>
    rw [List.map_cons, List.map_cons, List.map_cons, List.sum_cons, List.sum_cons, List.sum_cons, ← ih]
    have h := toM_block a l (l.map Op.rows).sum (l.map Op.cols).sum
    rw [rankM, ← rank_submatrix _ finSumFinEquiv finSumFinEquiv, h, rank_blocks]
    rfl

theorem traceM_denBlock {l : List Op} (hsq : ∀ a ∈ l, a.rows = a.cols) :
    traceM (l.map Op.rows).sum (denBlock l) = (l.map fun a => traceM a.rows (den a)).sum := by
  induction l with
  | nil => simp [traceM]
  | cons a l ih =>
    rw [List.map_cons, List.map_cons, List.sum_cons, List.sum_cons, ← ih fun b hb => hsq b (List.mem_cons_of_mem _ hb)]
    rw [traceM, Finset.sum_range_add]
    have e := hsq a (by simp)
    congr 1
    · refine Finset.sum_congr rfl fun i hi => ?_
      have := mem_range.1 hi
      rw [denBlock_cons, if_pos this, if_pos (by omega)]
    · refine Finset.sum_congr rfl fun i _ => ?_
      rw [denBlock_cons, if_neg (by omega), if_neg (by omega), Nat.add_sub_cancel_left, e, Nat.add_sub_cancel_left]

/-! ## Products and diagonal matrices -/

theorem detM_denProd {r : ℕ} {l : List Op} (hr : ∀ b ∈ l, b.rows = r ∧ b.cols = r) :
    detM r (denProd l) = (l.map fun a => detM r (den a)).prod := by
  induction l with
  | nil => rw [denProd, detM_eye, List.map_nil, List.prod_nil]
  | cons a l ih =>
    rw [denProd, (hr a (by simp)).2, detM_mmul, ih fun b hb => hr b (List.mem_cons_of_mem _ hb), List.map_cons,
      List.prod_cons]

theorem toM_diag (n : ℕ) (f : ℕ → ℝ) :
    toM n n (fun i j => if i = j then f i else 0) = Matrix.diagonal fun i : Fin n => f i := by
  ext i j
  rw [toM_apply, Matrix.diagonal_apply]
  by_cases h : i = j
  · rw [if_pos h, if_pos (congrArg _ h)]
  · rw [if_neg h, if_neg (fun e => h (Fin.ext e))]

theorem detM_diag (n : ℕ) (f : ℕ → ℝ) :
    detM n (fun i j => if i = j then f i else 0) = ∏ i ∈ range n, f i := by
  rw [detM, toM_diag, det_diagonal, Finset.prod_range]

theorem rankM_diag (n : ℕ) (f : ℕ → ℝ) :
    rankM n n (fun i j => if i = j then f i else 0) = ((range n).filter fun i => f i ≠ 0).card := by
  classical
  rw [rankM, toM_diag, Matrix.rank_diagonal, Fintype.card_subtype, ← Finset.card_map Fin.valEmbedding]
  congr 1
  ext i
  simp only [mem_map, mem_filter, mem_univ, true_and, Fin.valEmbedding_apply, mem_range]
  constructor
  · rintro ⟨x, h, rfl⟩
    exact ⟨x.2, h⟩
  · rintro ⟨h1, h2⟩
    exact ⟨⟨i, h1⟩, h2, rfl⟩

end Probnum.Linops
