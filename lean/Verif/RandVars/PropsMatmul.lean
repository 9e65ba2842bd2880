import Verif.RandVars.MatmulLemmas
import Verif.RandVars.Props

/-!
# C30: matrix products with constants

`X @ A` and `A @ X` for vector- and matrix-variate `X`; `Law` and `Root` as in `Verif/RandVars/Props.lean`.
-/

namespace Probnum.RandVars

open MeasureTheory ProbabilityTheory Finset Gauss LinGauss Linops

variable {Ω : Type*} {mΩ : MeasurableSpace Ω} {P : Measure Ω} {X Y : Ω → Arr} {N M N' : Normal}

/-- `X @ A`: whenever the operator returns, it returns a normal random variable describing the products of the values. -/
theorem matmul_constant (Q : QR) (hN : N.WF) (hX : Law P X N) {c : Arr} {R : RV}
    (h : matmul Q (.normal N) (.const c) = .ok R) :
    ∃ S, R = .normal S ∧ S.WF ∧ (∃ Z : Ω → Arr, (∀ ω, (X ω).matmul c = .ok (Z ω)) ∧ Law P Z S) ∧ (N.Root → S.Root) := by
  have h : matmulNormalConst Q N c = .ok R := h
  unfold matmulNormalConst at h
  split at h
  · rename_i hr
    rcases isRow_cases hr with ⟨n, hs⟩ | ⟨n, hs⟩
    · exact matmulVector_law hN hX (Or.inl hs) h
    · exact matmulVector_law hN hX (Or.inr hs) h
  · rename_i hr
    have hd := hN.ndim
    rcases hs : N.mean.shape with _ | ⟨m, _ | ⟨n, _ | ⟨_, _⟩⟩⟩
    · rw [matmulMatrix] at h; simp only [hs] at h; cases h
    · rw [hs] at hr; simp [isRow] at hr
    · obtain ⟨S, h1, h2, h3, h4⟩ := matmulMatrix_law hN hX hs h
      exact ⟨S, h1, h2, h3, fun _ => h4⟩
    · rw [Arr.ndim, hs] at hd; simp at hd

/-- `A @ X`: whenever the operator returns, it returns a normal random variable describing the products of the values. -/
theorem constant_matmul (Q : QR) (hN : N.WF) (hX : Law P X N) {c : Arr} {R : RV}
    (h : matmul Q (.const c) (.normal N) = .ok R) :
    ∃ S, R = .normal S ∧ S.WF ∧ (∃ Z : Ω → Arr, (∀ ω, c.matmul (X ω) = .ok (Z ω)) ∧ Law P Z S) ∧ (N.Root → S.Root) := by
  have h : matmulConstNormal Q c N = .ok R := h
  unfold matmulConstNormal at h
  split at h
  · rename_i hr
    rcases isCol_cases hr with ⟨n, hs⟩ | ⟨n, hs⟩
    · exact matmulVectorLeft_law hN hX (Or.inl hs) h
    · exact matmulVectorLeft_law hN hX (Or.inr hs) h
  · rename_i hr
    have hd := hN.ndim
    rcases hs : N.mean.shape with _ | ⟨m, _ | ⟨n, _ | ⟨_, _⟩⟩⟩
    · rw [matmulMatrixLeft] at h; simp only [hs] at h; cases h
    · rw [hs] at hr; simp [isCol] at hr
    · obtain ⟨S, h1, h2, h3, h4⟩ := matmulMatrixLeft_law hN hX hs h
      exact ⟨S, h1, h2, h3, fun _ => h4⟩
    · rw [Arr.ndim, hs] at hd; simp at hd

/-- `X @ A` is accepted exactly if numpy accepts `mean @ A` (no Cholesky factor available). -/
theorem matmul_constant_accepts (Q : QR) (hN : N.WF) (h0 : N.chol = none) (c : Arr) (hd : N.mean.shape ≠ []) :
    (∃ R, matmul Q (.normal N) (.const c) = .ok R) ↔ ∃ y, N.mean.matmul c = .ok y := by
  constructor
  · rintro ⟨R, h⟩
    have h : matmulNormalConst Q N c = .ok R := h
    unfold matmulNormalConst at h
    split at h
    · unfold matmulVector at h
      obtain ⟨_, _, h⟩ := bind_ok h
      obtain ⟨m, hm, _⟩ := bind_ok h
      exact ⟨m, hm⟩
    · unfold matmulMatrix at h
      split at h
      · cases h
      · split at h
        · cases h
        · obtain ⟨m, hm, _⟩ := bind_ok h
          exact ⟨m, hm⟩
  · rintro ⟨y, hy⟩
    show ∃ R, matmulNormalConst Q N c = .ok R
    unfold matmulNormalConst
    split
    · rename_i hr
      have key : ∀ n, N.mean.shape = [n] ∨ N.mean.shape = [1, n] → ∃ R, matmulVector Q N c = .ok R := by
        intro n hs
        have hcov : N.cov.shape = [n, n] := by
          rw [hN.cov]; rcases hs with h | h <;> rw [h] <;> simp [expectedCov]
        have hshape : c.shape = [n] ∨ ∃ p, c.shape = [n, p] := by
          rcases Arr.matmul_shapes hy with ⟨k, h1, h2⟩ | ⟨k, p, h1, h2⟩ | ⟨r, k, h1, h2⟩ | ⟨r, k, p, h1, h2⟩ <;>
            rcases hs with h3 | h3 <;> rw [h3] at h1 <;> simp at h1
          · left; rw [h2, ← h1]
          · right; exact ⟨p, by rw [h2, ← h1]⟩
          · left; rw [h2, ← h1.2]
          · right; exact ⟨p, by rw [h2, ← h1.2]⟩
        unfold matmulVector
        rw [h0, hy]
        rcases hshape with hc | ⟨p, hc⟩
        · have hms := affine_shape (affine_row_vec (s := N.mean.shape) hs hc) rfl hy
          rw [Arr.matmul_mv_eq hcov hc]
          show ∃ R, (Except.bind (c.t.matmul _) _) = _
          rw [Arr.matmul_vv_eq (show c.t.shape = [n] by rw [Arr.t, hc]; rfl) rfl]
          have : ∀ C' : Arr, C'.shape = [] → (fixScalar y C').shape = expectedCov y.shape := by
            intro C' h
            unfold fixScalar
            rw [hms]
            split <;> simp [h, expectedCov, Arr.withShape]
          show ∃ R, Except.map RV.normal (mkNormal y (fixScalar y _) none) = _
          rw [mkNormal_eq (by rw [Arr.ndim, hms]; split <;> simp) (this _ rfl)]
          exact ⟨_, rfl⟩
        · have hms := affine_shape (affine_row (s := N.mean.shape) hs hc) rfl hy
          rw [Arr.matmul_mm_eq hcov hc]
          show ∃ R, (Except.bind (c.t.matmul _) _) = _
          rw [Arr.matmul_mm_eq (show c.t.shape = [p, n] by rw [Arr.t, hc]; rfl) rfl]
          have : ∀ C' : Arr, C'.shape = [p, p] → (fixScalar y C').shape = expectedCov y.shape := by
            intro C' h
            unfold fixScalar
            rw [hms]
            split <;> simp [h, expectedCov]
          show ∃ R, Except.map RV.normal (mkNormal y (fixScalar y _) none) = _
          rw [mkNormal_eq (by rw [Arr.ndim, hms]; split <;> simp) (this _ rfl)]
          exact ⟨_, rfl⟩
      rcases isRow_cases hr with ⟨n, hs⟩ | ⟨n, hs⟩
      · exact key n (Or.inl hs)
      · exact key n (Or.inr hs)
    · rename_i hr
      have hdim := hN.ndim
      rcases hs : N.mean.shape with _ | ⟨m, _ | ⟨n, _ | ⟨_, _⟩⟩⟩
      · exact absurd hs hd
      · rw [hs] at hr; simp [isRow] at hr
      · obtain ⟨hcov, _⟩ := WF_mat hN hs
        unfold matmulMatrix
        simp only [hs]
        rcases Arr.matmul_shapes hy with ⟨k, h1, h2⟩ | ⟨k, p, h1, h2⟩ | ⟨r, k, h1, h2⟩ | ⟨r, k, p, h1, h2⟩ <;>
          rw [hs] at h1 <;> simp at h1
        · obtain ⟨rfl, rfl⟩ := h1
          have e : asMatrixRight c = c.asColumn := by rw [asMatrixRight, if_pos (by rw [Arr.ndim, h2]; rfl)]
          have hc' : c.asColumn.shape = [n, 1] := by rw [Arr.asColumn, h2]; rfl
          have hms := affine_shape (affine_right_vec h2) hs hy
          obtain ⟨C, hC⟩ := conjugate_two_eq (kron_right_shape (m := m) hc').1 hcov
          rw [e, if_neg (by rw [Arr.ndim, hc']; simp), hy]
          show ∃ R, (conjugate _ N.cov).bind _ = _
          rw [hC]
          show ∃ R, Except.map RV.normal (mkNormal y C none) = _
          rw [mkNormal_eq (by rw [Arr.ndim, hms]; simp)
            (by rw [hms, (conjugate_two (kron_right_shape (m := m) hc').1 hcov hC).2.1]; simp [expectedCov])]
          exact ⟨_, rfl⟩
        · obtain ⟨rfl, rfl⟩ := h1
          have e : asMatrixRight c = c := by rw [asMatrixRight, if_neg (by rw [Arr.ndim, h2]; simp)]
          have hms := affine_shape (affine_right h2) hs hy
          obtain ⟨C, hC⟩ := conjugate_two_eq (kron_right_shape (m := m) h2).1 hcov
          rw [e, if_neg (by rw [Arr.ndim, h2]; simp), hy]
          show ∃ R, (conjugate _ N.cov).bind _ = _
          rw [hC]
          show ∃ R, Except.map RV.normal (mkNormal y C none) = _
          rw [mkNormal_eq (by rw [Arr.ndim, hms]; simp)
            (by rw [hms, (conjugate_two (kron_right_shape (m := m) h2).1 hcov hC).2.1]; simp [expectedCov])]
          exact ⟨_, rfl⟩
      · rw [Arr.ndim, hs] at hdim; simp at hdim

/-- `A @ X` for a matrix `A` that fits is accepted (no Cholesky factor available). -/
theorem constant_matmul_ok (Q : QR) (hN : N.WF) (h0 : N.chol = none) (c : Arr) {p n : ℕ} {r : List ℕ} (hc : c.shape = [p, n])
    (hs : N.mean.shape = n :: r) : ∃ R, matmul Q (.const c) (.normal N) = .ok R := by
  show ∃ R, matmulConstNormal Q c N = .ok R
  have hdim := hN.ndim
  rw [Arr.ndim, hs] at hdim
  have hr : r = [] ∨ ∃ q, r = [q] := by
    rcases r with _ | ⟨q, _ | ⟨_, _⟩⟩
    · exact Or.inl rfl
    · exact Or.inr ⟨q, rfl⟩
    · simp at hdim
  have hy : ∃ y, c.matmul N.mean = .ok y ∧ y.shape = p :: r := by
    rcases hr with rfl | ⟨q, rfl⟩
    · exact ⟨_, Arr.matmul_mv_eq hc hs, rfl⟩
    · exact ⟨_, Arr.matmul_mm_eq hc hs, rfl⟩
  obtain ⟨y, hy, hys⟩ := hy
  have hyd : y.ndim ≤ 2 := by rw [Arr.ndim, hys]; exact hdim
  unfold matmulConstNormal
  split
  · rename_i h
    have hcov : N.cov.shape = [n, n] ∧ expectedCov y.shape = [p, p] := by
      rw [hN.cov, hs, hys]
      rcases hr with rfl | ⟨q, rfl⟩
      · simp [expectedCov]
      · rw [hs] at h; simp [isCol] at h; subst h; simp [expectedCov]
    obtain ⟨C, hC⟩ := conjugate_two_eq hc hcov.1
    unfold matmulVectorLeft
    rw [h0, hy]
    show ∃ R, (conjugate c N.cov).bind _ = _
    rw [hC]
    show ∃ R, Except.map RV.normal (mkNormal y C none) = _
    rw [mkNormal_eq hyd ((conjugate_two hc hcov.1 hC).2.1.trans hcov.2.symm)]
    exact ⟨_, rfl⟩
  · rename_i h
    rcases hr with rfl | ⟨q, rfl⟩
    · rw [hs] at h; simp [isCol] at h
    · obtain ⟨hcov, _⟩ := WF_mat hN hs
      obtain ⟨C, hC⟩ := conjugate_two_eq (kron_left_shape (n := q) hc).1 hcov
      have e : asMatrixLeft c = c := by rw [asMatrixLeft, if_neg (by rw [Arr.ndim, hc]; simp)]
      unfold matmulMatrixLeft
      simp only [hs]
      rw [e, if_neg (by rw [Arr.ndim, hc]; simp), hy]
      show ∃ R, (conjugate _ N.cov).bind _ = _
      rw [hC]
      show ∃ R, Except.map RV.normal (mkNormal y C none) = _
      rw [mkNormal_eq hyd (by rw [hys, (conjugate_two (kron_left_shape (n := q) hc).1 hcov hC).2.1]; simp [expectedCov])]
      exact ⟨_, rfl⟩

/-- Violation: a vector times a random column, `a @ X` with `X` of shape `(n, 1)` and `a` of shape `(n,)`, raises
`ValueError` although the product of the values exists (it has shape `(1,)`). -/
theorem vector_column_raises (Q : QR) (hN : N.WF) (h0 : N.chol = none) (c : Arr) {n : ℕ} (hc : c.shape = [n])
    (hs : N.mean.shape = [n, 1]) :
    (∃ y, c.matmul N.mean = .ok y ∧ y.shape = [1]) ∧ matmul Q (.const c) (.normal N) = .error .valueError := by
  refine ⟨⟨_, Arr.matmul_vm_eq hc hs, rfl⟩, ?_⟩
  obtain ⟨hcov, _⟩ := WF_mat hN hs
  rw [Nat.mul_one] at hcov
  show matmulConstNormal Q c N = _
  rw [matmulConstNormal, hs, if_pos (by simp [isCol]), matmulVectorLeft, h0, Arr.matmul_vm_eq hc hs]
  show (conjugate c N.cov).bind _ = _
  rw [conjugate, Arr.matmul_mv_eq hcov (show c.t.shape = [n] by rw [Arr.t, hc]; rfl)]
  show (c.matmul _).bind _ = _
  rw [Arr.matmul_vv_eq hc rfl]
  simp only [Except.bind]
  rw [mkNormal, if_neg (by simp [Arr.ndim]), if_pos (by simp [expectedCov])]
  rfl

/-- Violation: matrix products with scalar normal random variables raise `IndexError` (numpy: `ValueError`). -/
theorem scalar_matmul_index_error (Q : QR) (N : Normal) (c : Arr) (hs : N.mean.shape = []) :
    matmul Q (.normal N) (.const c) = .error .indexError ∧ matmul Q (.const c) (.normal N) = .error .indexError := by
  constructor
  · show matmulNormalConst Q N c = _
    rw [matmulNormalConst, hs, if_neg (by simp [isRow]), matmulMatrix]
    simp only [hs]
  · show matmulConstNormal Q c N = _
    rw [matmulConstNormal, hs, if_neg (by simp [isCol]), matmulMatrixLeft]
    simp only [hs]

/-! ### The hypotheses can be met -/

/-- For every mean (a scalar, vector or matrix) and every covariance with a square root there is a random array with
the law described by the object, and the object passes the checks. -/
theorem law_exists (m : Arr) (hd : m.ndim ≤ 2) (L : Matrix (Fin m.size) (Fin m.size) ℝ) :
    ∃ N : Normal, N.WF ∧ N.mean = m ∧ N.chol = none ∧ (∀ i j : Fin m.size, N.covAt i j = (L * L.transpose) i j) ∧
      ∃ (Ω : Type) (_ : MeasurableSpace Ω) (P : Measure Ω) (X : Ω → Arr), Law P X N := by
  let C : Arr := ⟨expectedCov m.shape, fun idx =>
    let k := ravel (expectedCov m.shape) idx
    if h : k / m.size < m.size ∧ k % m.size < m.size then (L * L.transpose) ⟨_, h.1⟩ ⟨_, h.2⟩ else 0⟩
  have hC : ∀ i j : Fin m.size, C.flat (i * m.size + j) = (L * L.transpose) i j := by
    intro i j
    have hm : 0 < m.size := Nat.lt_of_le_of_lt (Nat.zero_le _) i.2
    have e1 : (i.1 * m.size + j.1) / m.size = i.1 := by
      rw [Nat.add_comm, Nat.add_mul_div_right _ _ hm, Nat.div_eq_of_lt j.2, Nat.zero_add]
    have e2 : (i.1 * m.size + j.1) % m.size = j.1 := by
      rw [Nat.add_comm, Nat.add_mul_mod_self_right, Nat.mod_eq_of_lt j.2]
    have e3 : ravel (expectedCov m.shape) (unravel (expectedCov m.shape) (i.1 * m.size + j.1)) = i.1 * m.size + j.1 :=
      ravel_unravel (by rw [expectedCov_prod]; exact mul_add_lt i.2 j.2)
    show (if h : ravel (expectedCov m.shape) (unravel (expectedCov m.shape) (i.1 * m.size + j.1)) / m.size < m.size ∧
        ravel (expectedCov m.shape) (unravel (expectedCov m.shape) (i.1 * m.size + j.1)) % m.size < m.size
      then (L * L.transpose) ⟨_, h.1⟩ ⟨_, h.2⟩ else 0) = _
    simp only [e3, e1, e2, i.2, j.2, and_self, dite_true]
  refine ⟨⟨m, C, none⟩, mkNormal_eq hd rfl, rfl, rfl, hC, ?_⟩
  obtain ⟨Ω, mΩ, P, X, _, hX, _, _⟩ := exists_independent_normals (fun i : Fin m.size => m.flat i) L
    (fun i : Fin 0 => 0) 0
  refine ⟨Ω, mΩ, P, fun ω => ⟨m.shape, fun idx => if h : ravel m.shape idx < m.size then X ω ⟨_, h⟩ else 0⟩,
    fun _ => rfl, ?_⟩
  convert hX using 1
  · funext ω i
    show (if h : ravel m.shape (unravel m.shape i) < m.size then X ω ⟨_, h⟩ else 0) = X ω i
    have : ravel m.shape (unravel m.shape i) = i.1 := ravel_unravel i.2
    simp only [this, i.2, dite_true]
  · ext i j
    exact hC i j

/-- The hypotheses of the theorems of C30 hold, for example, for a random `2 × 3` matrix multiplied by a `3 × 2` matrix. -/
example (Q : QR) : ∃ (N : Normal) (Ω : Type) (_ : MeasurableSpace Ω) (P : Measure Ω) (X : Ω → Arr),
    N.WF ∧ Law P X N ∧ N.Root ∧ N.mean.shape = [2, 3] ∧
      ∃ R, matmul Q (.normal N) (.const ⟨[3, 2], fun _ => 1⟩) = .ok R := by
  obtain ⟨N, h1, h2, h3, _, Ω, _, P, X, h4⟩ := law_exists ⟨[2, 3], fun _ => 1⟩ (by simp [Arr.ndim]) 1
  have hs : N.mean.shape = [2, 3] := by rw [h2]
  refine ⟨N, Ω, _, P, X, h1, h4, ?_, hs, ?_⟩
  · simp [Normal.Root, h3]
  exact (matmul_constant_accepts Q h1 h3 _ (by rw [hs]; simp)).2 ⟨_, Arr.matmul_mm_eq hs rfl⟩

end Probnum.RandVars
