import Verif.Linops.PropsSolve
import Verif.Linops.Rank

/-!
# Property C29: Kronecker products

`A ⊗ B` is Mathlib's Kronecker product, its rows and columns numbered in row-major order.
-/

namespace Probnum.Linops

open Finset Matrix
open scoped Kronecker

/-- The Kronecker product with row-major numbering: row `i * r₂ + j` and column `k * c₂ + l` hold `A i k * B j l`. -/
def kr {r₁ c₁ r₂ c₂ : ℕ} (A : Matrix (Fin r₁) (Fin c₁) ℝ) (B : Matrix (Fin r₂) (Fin c₂) ℝ) :
    Matrix (Fin (r₁ * r₂)) (Fin (c₁ * c₂)) ℝ :=
  (A ⊗ₖ B).submatrix finProdFinEquiv.symm finProdFinEquiv.symm

/-- `vec(X)` in row-major order. -/
def vec {r c : ℕ} (X : Matrix (Fin r) (Fin c) ℝ) : ℕ → ℝ := fun t => ofM X (t / c) (t % c)

/-- `a` has shape `(r, c)` and `a.todense()` returns `M` (for every sufficiently large recursion limit). -/
def HasDense (r c : ℕ) (a : Op) (M : Matrix (Fin r) (Fin c) ℝ) : Prop :=
  a.rows = r ∧ a.cols = c ∧ ∃ N, ∀ n ≥ N, ∃ D, todense n a = .ok D ∧ toM r c D = M

/-- `a @ x` returns the array `y` of length `r` for the array `x` of length `c`. -/
def Acts (r c : ℕ) (a : Op) (x y : ℕ → ℝ) : Prop :=
  ∃ N, ∀ n ≥ N, ∃ z, matVec n a c x = .ok z ∧ ∀ i < r, z i = y i

/-! ## Helper lemmas -/

theorem hasDense_den {a : Op} (ha : Valid False a) (hc : Calm a) : HasDense a.rows a.cols a (toM a.rows a.cols (den a)) :=
  ⟨rfl, rfl, _, fun n hn => dense_returns ha hc (n := n) hn⟩

theorem HasDense.eq {r c : ℕ} {a : Op} {M : Matrix (Fin r) (Fin c) ℝ} (h : HasDense r c a M) (ha : Valid False a)
    (hc : Calm a) : M = toM r c (den a) := by
  obtain ⟨rfl, rfl, N, h⟩ := h
  obtain ⟨D, h1, h2⟩ := h (N + (4 * depth a + 6)) (by omega)
  obtain ⟨D', h3, h4⟩ := dense_returns ha hc (n := N + (4 * depth a + 6)) (by omega)
  rw [h1] at h3
  cases h3
  rw [← h2, h4]

theorem HasDense.of {r c : ℕ} {a : Op} {M : Mat} (ha : Valid False a) (hc : Calm a) (hr : a.rows = r) (hcl : a.cols = c)
    (e : Eqv r c (den a) M) : HasDense r c a (toM r c M) := by
  subst hr hcl
  rw [← e.toM]
  exact hasDense_den ha hc

theorem acts_den {a : Op} (ha : Valid False a) (hc : Calm a) (x : ℕ → ℝ) :
    Acts a.rows a.cols a x fun i => mmul a.cols (den a) (fun j _ => x j) i 0 := by
  refine ⟨4 * depth a + 5, fun n hn => ?_⟩
  obtain ⟨Y, h1, h2, -⟩ := ((level False n).mat ha (β := Unit) 1 fun _ j _ => x j).returns
    ((swift False n).mat ha (fine_self hc) hn _ _ _)
  exact ⟨fun i => Y () i 0, by rw [matVec, h1]; rfl, fun i hi => h2 () i hi 0 (by omega)⟩

theorem Acts.congr {r c : ℕ} {a : Op} {x y z : ℕ → ℝ} (h : Acts r c a x y) (e : ∀ i < r, y i = z i) : Acts r c a x z := by
  obtain ⟨N, h⟩ := h
  refine ⟨N, fun n hn => ?_⟩
  obtain ⟨w, h1, h2⟩ := h n hn
  exact ⟨w, h1, fun i hi => (h2 i hi).trans (e i hi)⟩

theorem vec_ofM {r c : ℕ} (X : Matrix (Fin r) (Fin c) ℝ) {i j : ℕ} (hj : j < c) : vec X (i * c + j) = ofM X i j := by
  have hc : 0 < c := by omega
  rw [vec, Nat.mul_comm, Nat.mul_add_div hc, Nat.div_eq_of_lt hj, Nat.add_zero, Nat.mul_add_mod, Nat.mod_eq_of_lt hj]

theorem ofM_sum {r c : ℕ} (X : Matrix (Fin r) (Fin c) ℝ) {i : ℕ} (hi : i < r * c) :
    ∃ (h1 : i / c < r) (h2 : i % c < c), vec X i = X ⟨i / c, h1⟩ ⟨i % c, h2⟩ := by
  have hc : 0 < c := Nat.pos_of_mul_pos_left (Nat.zero_lt_of_lt hi)
  have h1 : i / c < r := Nat.div_lt_of_lt_mul (by rwa [mul_comm])
  have h2 := Nat.mod_lt i hc
  refine ⟨h1, h2, ?_⟩
  rw [vec, ofM, dif_pos ⟨h1, h2⟩]

/-- `(A ⊗ B) vec(X) = vec(A X Bᵀ)` for arrays. -/
theorem kronM_vec {rA cA rB cB : ℕ} (A B : Mat) (X : Matrix (Fin cA) (Fin cB) ℝ) {i : ℕ} (hi : i < rA * rB) :
    mmul (cA * cB) (kronM rB cB A B) (fun j _ => vec X j) i 0 = vec (toM rA cA A * X * (toM rB cB B)ᵀ) i := by
  obtain ⟨h1, h2, e⟩ := ofM_sum (toM rA cA A * X * (toM rB cB B)ᵀ) hi
  rw [kronM_apply, e, Matrix.mul_apply]
  rw [sum_comm, Finset.sum_range]
  refine Finset.sum_congr rfl fun b _ => ?_
  rw [Matrix.mul_apply, Finset.sum_mul, Finset.sum_range]
  refine Finset.sum_congr rfl fun a _ => ?_
  rw [vec_ofM X b.2, ofM, dif_pos ⟨a.2, b.2⟩]
  simp only [toM, Matrix.of_apply, Matrix.transpose_apply]
  ring

theorem mkKron_facts {A B K : Op} (hA : Valid False A) (hB : Valid False B) (cA : Calm A) (cB : Calm B)
    (e : mkKron A B = .ok K) : Valid False K ∧ Calm K ∧ K.rows = A.rows * B.rows ∧ K.cols = A.cols * B.cols ∧
      den K = kronM B.rows B.cols (den A) (den B) ∧ ∃ h, K = .kron h A B := by
  rw [mkKron_eq hA.coh hB.coh A.fl] at e
  cases e
  refine ⟨valid_kron hA hB _, ?_, rows_build _, cols_build _, ?_, ?_⟩
  · exact (fine_kron (h := (build (.kron ⟨A.rows * B.rows, A.cols * B.cols, A.fl⟩ A B)).hdr) ((fine_self cA).mono (le_max_left _ _))
      ((fine_self cB).mono (le_max_right _ _))).calm
  · rw [den_build, den]
  · exact ⟨_, rfl⟩

theorem mkSymkron_facts {same : Bool} {A B K : Op} (hA : Valid False A) (hB : Valid False B) (cA : Calm A) (cB : Calm B)
    (hs : same = true → B = A) (e : mkSymkron same A B = .ok K) : A.rows = A.cols ∧ B.rows = A.rows ∧ B.cols = A.cols ∧
      Valid False K ∧ Calm K ∧ K.rows = A.rows * A.rows ∧ K.cols = A.rows * A.rows ∧
      den K = (1 / 2 : ℝ) • (kronM B.rows B.cols (den A) (den B) + kronM A.rows A.cols (den B) (den A)) := by
  have h1 : A.rows = A.cols := by
    by_contra h
    rw [mkSymkron, if_pos h] at e
    cases e
  have h2 : B.rows = A.rows ∧ B.cols = A.cols := by
    by_contra h
    rw [mkSymkron, if_neg (not_not.2 h1), if_pos (by tauto)] at e
    cases e
  rw [mkSymkron_eq h1 h2.1 h2.2 A.fl] at e
  cases e
  refine ⟨h1, h2.1, h2.2, valid_symkron hA hB hs h1 h2.1 h2.2 _, ?_, rows_build _, cols_build _, ?_⟩
  · exact (fine_symkron (h := (build (.symkron ⟨A.rows * A.rows, A.rows * A.rows, A.fl⟩ same A B)).hdr) (s := same)
      ((fine_self cA).mono (le_max_left _ _)) ((fine_self cB).mono (le_max_right _ _))).calm
  · rw [den_build, den]

/-! ## C29 -/

variable {A B C D K L : Op} {rA cA rB cB rC cC rD cD : ℕ} {MA : Matrix (Fin rA) (Fin cA) ℝ}
  {MB : Matrix (Fin rB) (Fin cB) ℝ} {MC : Matrix (Fin rC) (Fin cC) ℝ} {MD : Matrix (Fin rD) (Fin cD) ℝ}

/-- `Kronecker(A, B)` denotes `A ⊗ B` and maps `vec(X)` to `vec(A X Bᵀ)` for every matrix `X`. -/
theorem kronecker_vec (vA : Valid False A) (vB : Valid False B) (lA : Calm A) (lB : Calm B) (hA : HasDense rA cA A MA)
    (hB : HasDense rB cB B MB) (e : mkKron A B = .ok K) : HasDense (rA * rB) (cA * cB) K (kr MA MB) ∧
      ∀ X : Matrix (Fin cA) (Fin cB) ℝ, Acts (rA * rB) (cA * cB) K (vec X) (vec (MA * X * MBᵀ)) := by
  obtain ⟨vK, lK, r, c, d, -⟩ := mkKron_facts vA vB lA lB e
  have eA := hA.eq vA lA
  have eB := hB.eq vB lB
  obtain ⟨rfl, rfl, -⟩ := hA
  obtain ⟨rfl, rfl, -⟩ := hB
  subst eA eB
  refine ⟨?_, fun X => ?_⟩
  · exact HasDense.of vK lK r c (by rw [d]; exact Eqv.refl _)
  · have := acts_den vK lK (vec X)
    rw [r, c, d] at this
    exact this.congr fun i hi => kronM_vec _ _ _ hi

/-- `Kronecker(A, B).T` denotes `Aᵀ ⊗ Bᵀ`. -/
theorem kronecker_transpose (vA : Valid False A) (vB : Valid False B) (lA : Calm A) (lB : Calm B)
    (hA : HasDense rA cA A MA) (hB : HasDense rB cB B MB) (e : mkKron A B = .ok K) : ∃ N, ∀ n ≥ N, ∃ t, T n K = .ok t ∧
      HasDense (cA * cB) (rA * rB) t (kr MAᵀ MBᵀ) := by
  obtain ⟨vK, lK, r, c, d, -⟩ := mkKron_facts vA vB lA lB e
  have eA := hA.eq vA lA
  have eB := hB.eq vB lB
  obtain ⟨rfl, rfl, -⟩ := hA
  obtain ⟨rfl, rfl, -⟩ := hB
  subst eA eB
  refine ⟨4 * depth K + 14, fun n hn => ?_⟩
  obtain ⟨t, ht, pt, ft⟩ := (T_meets n vK).returns (T_quick n (fine_self lK) (by omega))
  refine ⟨t, ht, ?_⟩
  have h := pt.den
  rw [r, c, d] at h
  exact HasDense.of pt.valid ft.calm (pt.rows.trans c) (pt.cols.trans r) h

/-- `Kronecker(A, B) @ Kronecker(C, D)` denotes `(A C) ⊗ (B D)`. -/
theorem kronecker_mixed_product {env : Env} (vA : Valid False A) (vB : Valid False B) (vC : Valid False C)
    (vD : Valid False D) (lA : Calm A) (lB : Calm B) (lC : Calm C) (lD : Calm D) (hA : HasDense rA cA A MA)
    (hB : HasDense rB cB B MB) {MC : Matrix (Fin cA) (Fin cC) ℝ} {MD : Matrix (Fin cB) (Fin cD) ℝ}
    (hC : HasDense cA cC C MC) (hD : HasDense cB cD D MD) (e : mkKron A B = .ok K) (e' : mkKron C D = .ok L) :
    ∃ N, ∀ n ≥ N, ∃ t, matmulOp env n K L = .ok t ∧ HasDense (rA * rB) (cC * cD) t (kr (MA * MC) (MB * MD)) := by
  obtain ⟨vK, lK, r, c, d, -⟩ := mkKron_facts vA vB lA lB e
  obtain ⟨vL, lL, r', c', d', -⟩ := mkKron_facts vC vD lC lD e'
  have eA := hA.eq vA lA
  have eB := hB.eq vB lB
  have eC := hC.eq vC lC
  have eD := hD.eq vD lD
  obtain ⟨rfl, rfl, -⟩ := hA
  obtain ⟨rfl, rfl, -⟩ := hB
  obtain ⟨h1, rfl, -⟩ := hC
  obtain ⟨h2, rfl, -⟩ := hD
  subst eA eB eC eD
  refine ⟨4 * (depth K + depth L) + 10, fun n hn => ?_⟩
  have hKL : K.cols = L.rows := by rw [c, r', h1, h2]
  obtain ⟨t, ht, pt, ft⟩ := (matmulOp_meets (env := env) n vK vL hKL).returns
    (matmulOp_quick n vK vL (fine_self lK) (fine_self lL) hn)
  refine ⟨t, ht, ?_⟩
  have h := pt.den
  rw [r, c', d, d', c, h2, kronM_mmul] at h
  have := HasDense.of pt.valid ft.calm (pt.rows.trans r) (pt.cols.trans c') h
  rw [← toM_mmul, ← toM_mmul]
  exact this

/-- `Kronecker(A, B).inv()` of nonsingular operators denotes `A⁻¹ ⊗ B⁻¹`. -/
theorem kronecker_inverse (vA : Valid False A) (vB : Valid False B) (gA : Regular A) (gB : Regular B) (lA : Calm A)
    (lB : Calm B) {MA : Matrix (Fin rA) (Fin rA) ℝ} {MB : Matrix (Fin rB) (Fin rB) ℝ} (hA : HasDense rA rA A MA)
    (hB : HasDense rB rB B MB) (dA : MA.det ≠ 0) (dB : MB.det ≠ 0) (e : mkKron A B = .ok K) :
    ∃ N, ∀ n ≥ N, ∃ t, inv n K = .ok t ∧ HasDense (rA * rB) (rA * rB) t (kr MA⁻¹ MB⁻¹) := by
  obtain ⟨vK, lK, r, c, d, h, hK⟩ := mkKron_facts vA vB lA lB e
  have eA := hA.eq vA lA
  have eB := hB.eq vB lB
  obtain ⟨rfl, hcA, -⟩ := hA
  obtain ⟨rfl, hcB, -⟩ := hB
  subst eA eB
  have gK : Regular K := by
    rw [hK]
    exact .kron gA gB hcA.symm hcB.symm
  rw [hcA, hcB] at c
  rw [hcB] at d
  have hdet : detM K.rows (den K) ≠ 0 := by
    rw [r, d, detM_kronM]
    exact mul_ne_zero (pow_ne_zero _ dA) (pow_ne_zero _ dB)
  refine ⟨4 * depth K + 14, fun n hn => ?_⟩
  obtain ⟨t, ht, pt, ft⟩ := (inv_meets n vK gK (r.trans c.symm) hdet).returns (inv_quick n (fine_self lK) (by omega))
  refine ⟨t, ht, ?_⟩
  have hd := pt.den
  rw [r, d] at hd
  have key := HasDense.of pt.valid ft.calm (pt.rows.trans r) (pt.cols.trans r) hd
  have hinv : toM (A.rows * B.rows) (A.rows * B.rows) (invM (A.rows * B.rows) (kronM B.rows B.rows (den A) (den B))) =
      kr (toM A.rows A.rows (den A))⁻¹ (toM B.rows B.rows (den B))⁻¹ := by
    rw [toM_invM, toM_kronM, kr, Matrix.inv_submatrix_equiv, Matrix.inv_kronecker]
  rw [← hinv]
  exact key

/-- `SymmetricKronecker(A, B)` maps `vec(X)` to `vec(½ (A X Bᵀ + B X Aᵀ))`. -/
theorem symmetric_kronecker_vec {same : Bool} (hs : same = true → B = A) (vA : Valid False A) (vB : Valid False B)
    (lA : Calm A) (lB : Calm B) {MA MB : Matrix (Fin rA) (Fin rA) ℝ} (hA : HasDense rA rA A MA)
    (hB : HasDense rA rA B MB) (e : mkSymkron same A B = .ok K) :
    HasDense (rA * rA) (rA * rA) K ((1 / 2 : ℝ) • (kr MA MB + kr MB MA)) ∧ ∀ X : Matrix (Fin rA) (Fin rA) ℝ,
      Acts (rA * rA) (rA * rA) K (vec X) (vec ((1 / 2 : ℝ) • (MA * X * MBᵀ + MB * X * MAᵀ))) := by
  obtain ⟨h1, h2, h3, vK, lK, r, c, d⟩ := mkSymkron_facts vA vB lA lB hs e
  have eA := hA.eq vA lA
  have eB := hB.eq vB lB
  obtain ⟨rfl, -, -⟩ := hA
  subst eA eB
  rw [h2, h3, ← h1] at d
  refine ⟨?_, fun X => ?_⟩
  · exact HasDense.of vK lK r c (by rw [d]; exact Eqv.refl _)
  · have := acts_den vK lK (vec X)
    rw [r, c, d] at this
    refine this.congr fun i hi => ?_
    obtain ⟨i1, i2, e1⟩ := ofM_sum ((1 / 2 : ℝ) • (toM A.rows A.rows (den A) * X * (toM A.rows A.rows (den B))ᵀ +
      toM A.rows A.rows (den B) * X * (toM A.rows A.rows (den A))ᵀ)) hi
    obtain ⟨_, _, e2⟩ := ofM_sum (toM A.rows A.rows (den A) * X * (toM A.rows A.rows (den B))ᵀ) hi
    obtain ⟨_, _, e3⟩ := ofM_sum (toM A.rows A.rows (den B) * X * (toM A.rows A.rows (den A))ᵀ) hi
    rw [e1, Matrix.smul_apply, Matrix.add_apply, ← e2, ← e3, ← kronM_vec _ _ _ hi, ← kronM_vec _ _ _ hi]
    simp only [mmul, Pi.smul_apply, Pi.add_apply, smul_eq_mul]
    rw [← sum_add_distrib, mul_sum]
    exact Finset.sum_congr rfl fun t _ => by ring

/-- `Symmetrize(n)` maps `vec(X)` to `vec(½ (X + Xᵀ))`, and its dense matrix is symmetric and idempotent, i.e. an
orthogonal projection. -/
theorem symmetrize_projection {n : ℕ} (hn : 0 < n) : ∃ P : Matrix (Fin (n * n)) (Fin (n * n)) ℝ,
    HasDense (n * n) (n * n) (mkSymmetrize n) P ∧ P * P = P ∧ Pᵀ = P ∧
    ∀ X : Matrix (Fin n) (Fin n) ℝ, Acts (n * n) (n * n) (mkSymmetrize n) (vec X) (vec ((1 / 2 : ℝ) • (X + Xᵀ))) := by
  have vK : Valid False (mkSymmetrize n) := valid_symmetrize hn
  have lK : Calm (mkSymmetrize n) := by simp [mkSymmetrize, Calm]
  have hd : den (mkSymmetrize n) = fun i j =>
      ((if i = j then (1 : ℝ) else 0) + (if i / n = j % n ∧ i % n = j / n then 1 else 0)) / 2 := by
    rw [mkSymmetrize, den]
  have act : ∀ (x : ℕ → ℝ) {i : ℕ}, i < n * n → mmul (n * n) (den (mkSymmetrize n)) (fun j _ => x j) i 0 =
      (x i + x (i % n * n + i / n)) / 2 := fun x i hi => by
    rw [hd]
    refine (isProd_symmetrize (β := Unit) 1 (fun _ j _ => x j) () i hi 0 (by omega)).symm.trans ?_
    show (0.5 : ℝ) * (x (i / n * n + i % n) + x (i % n * n + i / n)) = _
    rw [Nat.div_add_mod']
    ring
  have swap1 : ∀ {i : ℕ}, i < n * n → (i % n * n + i / n) / n = i % n ∧ (i % n * n + i / n) % n = i / n := fun {i} hi => by
    have h1 : i / n < n := Nat.div_lt_of_lt_mul hi
    constructor
    · rw [Nat.mul_comm, Nat.mul_add_div hn, Nat.div_eq_of_lt h1, Nat.add_zero]
    · rw [Nat.mul_comm, Nat.mul_add_mod, Nat.mod_eq_of_lt h1]
  have pair : ∀ i j : ℕ, i = j ↔ i / n = j / n ∧ i % n = j % n := fun i j =>
    ⟨fun h => by rw [h]; exact ⟨rfl, rfl⟩, fun h => by rw [← Nat.div_add_mod i n, ← Nat.div_add_mod j n, h.1, h.2]⟩
  have inv : ∀ {i : ℕ}, i < n * n → ∀ j, den (mkSymmetrize n) (i % n * n + i / n) j = den (mkSymmetrize n) i j :=
    fun {i} hi j => by
    obtain ⟨h1, h2⟩ := swap1 hi
    rw [hd]
    dsimp only
    rw [h1, h2, add_comm (if i = j then (1 : ℝ) else 0)]
    congr 2
    · exact if_congr (by rw [pair, h1, h2]; tauto) rfl rfl
    · exact if_congr (by rw [pair i j]; tauto) rfl rfl
  refine ⟨toM (n * n) (n * n) (den (mkSymmetrize n)), HasDense.of vK lK rfl rfl (Eqv.refl _), ?_, ?_, fun X => ?_⟩
  · rw [← toM_mmul]
    ext i j
    have := act (fun t => den (mkSymmetrize n) t j) i.2
    rw [inv i.2] at this
    refine Eq.trans this ?_
    rw [toM, Matrix.of_apply]
    ring
  · ext i j
    rw [Matrix.transpose_apply, toM, Matrix.of_apply, Matrix.of_apply, hd]
    dsimp only
    congr 2
    · exact if_congr eq_comm rfl rfl
    · exact if_congr (by constructor <;> rintro ⟨h1, h2⟩ <;> exact ⟨h2.symm, h1.symm⟩) rfl rfl
  · refine (acts_den vK lK (vec X)).congr fun i hi => ?_
    have hi : i < n * n := hi
    refine (act (vec X) hi).trans ?_
    obtain ⟨h1, h2, e⟩ := ofM_sum ((1 / 2 : ℝ) • (X + Xᵀ)) hi
    obtain ⟨_, _, e1⟩ := ofM_sum X hi
    rw [e, Matrix.smul_apply, Matrix.add_apply, Matrix.transpose_apply, ← e1, vec_ofM X h1, ofM, dif_pos ⟨h2, h1⟩,
      smul_eq_mul]
    ring

/-- The hypotheses are met: the Kronecker product of a matrix and a scaling, the symmetric Kronecker product of two
matrices. -/
example (X : Matrix (Fin 2) (Fin 2) ℝ) : Acts (2 * 2) (2 * 2) exK (vec X)
    (vec (toM 2 2 (den exA) * X * (toM 2 2 (den exS))ᵀ)) :=
  (kronecker_vec valid_exA valid_exS (by simp [exA, mkMatrix, Calm]) (by simp [exS, mkScalingAniso, Calm])
    (hasDense_den valid_exA (by simp [exA, mkMatrix, Calm])) (hasDense_den valid_exS (by simp [exS, mkScalingAniso, Calm]))
    (show mkKron exA exS = .ok exK from rfl)).2 X

example (X : Matrix (Fin 2) (Fin 2) ℝ) : ∃ K, mkSymkron false exA exS = .ok K ∧ Acts (2 * 2) (2 * 2) K (vec X)
    (vec ((1 / 2 : ℝ) • (toM 2 2 (den exA) * X * (toM 2 2 (den exS))ᵀ + toM 2 2 (den exS) * X * (toM 2 2 (den exA))ᵀ))) :=
  ⟨_, rfl, (symmetric_kronecker_vec (fun h => by cases h) valid_exA valid_exS (by simp [exA, mkMatrix, Calm])
    (by simp [exS, mkScalingAniso, Calm]) (hasDense_den valid_exA (by simp [exA, mkMatrix, Calm]))
    (hasDense_den valid_exS (by simp [exS, mkScalingAniso, Calm])) (show mkSymkron false exA exS = .ok _ from rfl)).2 X⟩

end Probnum.Linops
