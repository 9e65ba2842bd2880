import Mathlib.LinearAlgebra.Matrix.NonsingularInverse
import Mathlib.LinearAlgebra.Matrix.PosDef
import Mathlib.Data.Real.Basic

/-!
# Two-dimensional arrays as entry functions

A dense array of shape `(r, c)` is the function giving its entries; only the entries with `i < r` and `j < c` mean
anything.  `Eqv r c` compares two arrays of that shape.  `toM` reads an array as a Mathlib matrix; `ofM` writes one.
-/

namespace Probnum.Linops

open Finset

/-- Entries of a dense two-dimensional array (numpy `A[i, j]`). -/
abbrev Mat := ℕ → ℕ → ℝ

/-- Equality of arrays of shape `(r, c)`. -/
def Eqv (r c : ℕ) (M N : Mat) : Prop := ∀ i < r, ∀ j < c, M i j = N i j

/-- `A @ B` with inner dimension `k`. -/
def mmul (k : ℕ) (M N : Mat) : Mat := fun i j => ∑ t ∈ range k, M i t * N t j

/-- `np.eye`. -/
def eye : Mat := fun i j => if i = j then 1 else 0

/-- `A.T`. -/
def trn (M : Mat) : Mat := fun i j => M j i

/-- `np.kron(A, B)` where `B` has shape `(r₂, c₂)`. -/
def kronM (r₂ c₂ : ℕ) (M N : Mat) : Mat := fun i j => M (i / r₂) (j / c₂) * N (i % r₂) (j % c₂)

/-- The array as a Mathlib matrix. -/
def toM (r c : ℕ) (M : Mat) : Matrix (Fin r) (Fin c) ℝ := Matrix.of fun i j => M i j

/-- A Mathlib matrix as an array (zero outside of its range). -/
def ofM {r c : ℕ} (A : Matrix (Fin r) (Fin c) ℝ) : Mat :=
  fun i j => if h : i < r ∧ j < c then A ⟨i, h.1⟩ ⟨j, h.2⟩ else 0

/-- The inverse of an `n × n` array (Mathlib's, zero if singular). -/
noncomputable def invM (n : ℕ) (M : Mat) : Mat := ofM (toM n n M)⁻¹

/-- The determinant of an `n × n` array. -/
noncomputable def detM (n : ℕ) (M : Mat) : ℝ := (toM n n M).det

theorem Eqv.refl {r c : ℕ} (M : Mat) : Eqv r c M M := fun _ _ _ _ => rfl
theorem Eqv.of_eq {r c : ℕ} {M N : Mat} (h : M = N) : Eqv r c M N := h ▸ Eqv.refl M
theorem Eqv.symm {r c : ℕ} {M N : Mat} (h : Eqv r c M N) : Eqv r c N M := fun i hi j hj => (h i hi j hj).symm
theorem Eqv.trans {r c : ℕ} {M N P : Mat} (h : Eqv r c M N) (h' : Eqv r c N P) : Eqv r c M P :=
  fun i hi j hj => (h i hi j hj).trans (h' i hi j hj)

theorem eqv_iff_toM {r c : ℕ} {M N : Mat} : Eqv r c M N ↔ toM r c M = toM r c N := by
  constructor
  · intro h
    ext i j
    exact h i i.2 j j.2
  · intro h i hi j hj
    have := congrFun (congrFun h ⟨i, hi⟩) ⟨j, hj⟩
    exact this

theorem Eqv.toM {r c : ℕ} {M N : Mat} (h : Eqv r c M N) : toM r c M = toM r c N := eqv_iff_toM.1 h

theorem mmul_congr {r k c : ℕ} {M M' N N' : Mat} (h : Eqv r k M M') (h' : Eqv k c N N') :
    Eqv r c (mmul k M N) (mmul k M' N') := by
  intro i hi j hj
  exact sum_congr rfl fun t ht => by rw [h i hi t (mem_range.1 ht), h' t (mem_range.1 ht) j hj]

theorem mmul_assoc (k l : ℕ) (A B C : Mat) : mmul k (mmul l A B) C = mmul l A (mmul k B C) := by
  funext i j
  simp only [mmul, sum_mul, mul_sum]
  rw [sum_comm]
  exact sum_congr rfl fun _ _ => sum_congr rfl fun _ _ => by ring

theorem mmul_add (k : ℕ) (A B C : Mat) : mmul k A (B + C) = mmul k A B + mmul k A C := by
  funext i j
  simp [mmul, mul_add, sum_add_distrib]

theorem add_mmul (k : ℕ) (A B C : Mat) : mmul k (A + B) C = mmul k A C + mmul k B C := by
  funext i j
  simp [mmul, add_mul, sum_add_distrib]

theorem smul_mmul (k : ℕ) (s : ℝ) (A B : Mat) : mmul k (s • A) B = s • mmul k A B := by
  funext i j
  simp [mmul, mul_sum, mul_assoc]

theorem mmul_smul (k : ℕ) (s : ℝ) (A B : Mat) : mmul k A (s • B) = s • mmul k A B := by
  funext i j
  simp only [mmul, mul_sum, Pi.smul_apply, smul_eq_mul]
  exact sum_congr rfl fun _ _ => by ring

theorem zero_mmul (k : ℕ) (B : Mat) : mmul k 0 B = 0 := by
  funext i j
  simp [mmul]

theorem mmul_zero (k : ℕ) (A : Mat) : mmul k A 0 = 0 := by
  funext i j
  simp [mmul]

theorem trn_mmul (k : ℕ) (A B : Mat) : trn (mmul k A B) = mmul k (trn B) (trn A) := by
  funext i j
  simp only [trn, mmul]
  exact sum_congr rfl fun _ _ => mul_comm _ _

@[simp] theorem trn_trn (A : Mat) : trn (trn A) = A := rfl
@[simp] theorem trn_add (A B : Mat) : trn (A + B) = trn A + trn B := rfl
@[simp] theorem trn_smul (s : ℝ) (A : Mat) : trn (s • A) = s • trn A := rfl
@[simp] theorem trn_zero : trn 0 = 0 := rfl
@[simp] theorem trn_eye : trn eye = eye := by
  funext i j
  simp [trn, eye, eq_comm]

theorem trn_congr {r c : ℕ} {M N : Mat} (h : Eqv r c M N) : Eqv c r (trn M) (trn N) :=
  fun i hi j hj => h j hj i hi

theorem eye_mmul {n : ℕ} (c : ℕ) (A : Mat) : Eqv n c (mmul n eye A) A := by
  intro i hi j _
  simp only [mmul, eye, ite_mul, one_mul, zero_mul, sum_ite_eq, mem_range, hi, if_true]

theorem mmul_eye {n : ℕ} (r : ℕ) (A : Mat) : Eqv r n (mmul n A eye) A := by
  intro i _ j hj
  simp only [mmul, eye, mul_ite, mul_one, mul_zero, sum_ite_eq', mem_range, hj, if_true]

theorem diag_mmul {n : ℕ} (c : ℕ) (f : ℕ → ℝ) (A : Mat) :
    Eqv n c (mmul n (fun i j => if i = j then f i else 0) A) (fun i j => f i * A i j) := by
  intro i hi j _
  simp only [mmul, ite_mul, zero_mul, sum_ite_eq, mem_range, hi, if_true]

theorem mmul_diag {n : ℕ} (r : ℕ) (f : ℕ → ℝ) (A : Mat) :
    Eqv r n (mmul n A (fun i j => if i = j then f i else 0)) (fun i j => A i j * f j) := by
  intro i _ j hj
  simp only [mmul, mul_ite, mul_zero, sum_ite_eq', mem_range, hj, if_true]

theorem add_congr {r c : ℕ} {M M' N N' : Mat} (h : Eqv r c M M') (h' : Eqv r c N N') : Eqv r c (M + N) (M' + N') :=
  fun i hi j hj => by simp only [Pi.add_apply, h i hi j hj, h' i hi j hj]

theorem smul_congr {r c : ℕ} {M M' : Mat} (s : ℝ) (h : Eqv r c M M') : Eqv r c (s • M) (s • M') :=
  fun i hi j hj => by simp only [Pi.smul_apply, h i hi j hj]

/-! ### Kronecker products -/

theorem sum_range_mul (a b : ℕ) (f : ℕ → ℕ → ℝ) :
    ∑ t ∈ range (a * b), f (t / b) (t % b) = ∑ i ∈ range a, ∑ j ∈ range b, f i j := by
  rcases Nat.eq_zero_or_pos b with rfl | hb
  · simp
  rw [← sum_product']
  refine sum_bij' (fun t _ => (t / b, t % b)) (fun p _ => p.1 * b + p.2) ?_ ?_ ?_ ?_ ?_
  · intro t ht
    simp only [mem_range, mem_product] at ht ⊢
    exact ⟨(Nat.div_lt_iff_lt_mul hb).2 ht, Nat.mod_lt _ hb⟩
  · rintro ⟨i, j⟩ hp
    simp only [mem_range, mem_product] at hp ⊢
    calc i * b + j < i * b + b := by omega
      _ = (i + 1) * b := by ring
      _ ≤ a * b := Nat.mul_le_mul_right b hp.1
  · intro t _
    simp only
    rw [Nat.mul_comm, Nat.div_add_mod]
  · rintro ⟨i, j⟩ hp
    simp only [mem_range, mem_product] at hp
    ext
    · simp only
      rw [Nat.mul_comm, Nat.mul_add_div hb, Nat.div_eq_of_lt hp.2, Nat.add_zero]
    · simp only
      rw [Nat.mul_comm, Nat.mul_add_mod, Nat.mod_eq_of_lt hp.2]
  · intro t _
    rfl

theorem trn_kronM (r c : ℕ) (A B : Mat) : trn (kronM r c A B) = kronM c r (trn A) (trn B) := rfl

theorem kronM_congr {r₁ c₁ r₂ c₂ : ℕ} {A A' B B' : Mat} (h : Eqv r₁ c₁ A A') (h' : Eqv r₂ c₂ B B') :
    Eqv (r₁ * r₂) (c₁ * c₂) (kronM r₂ c₂ A B) (kronM r₂ c₂ A' B') := by
  intro i hi j hj
  have hr : 0 < r₂ := Nat.pos_of_ne_zero (by rintro rfl; simp at hi)
  have hc : 0 < c₂ := Nat.pos_of_ne_zero (by rintro rfl; simp at hj)
  simp only [kronM]
  rw [h _ ((Nat.div_lt_iff_lt_mul hr).2 hi) _ ((Nat.div_lt_iff_lt_mul hc).2 hj),
    h' _ (Nat.mod_lt _ hr) _ (Nat.mod_lt _ hc)]

theorem kronM_mmul (k₁ k₂ r₂ c₂ : ℕ) (A B C D : Mat) :
    mmul (k₁ * k₂) (kronM r₂ k₂ A B) (kronM k₂ c₂ C D) = kronM r₂ c₂ (mmul k₁ A C) (mmul k₂ B D) := by
  funext i j
  simp only [mmul, kronM]
  rw [sum_range_mul k₁ k₂ (fun s t => A (i / r₂) s * B (i % r₂) t * (C s (j / c₂) * D t (j % c₂))), sum_mul_sum]
  exact sum_congr rfl fun _ _ => sum_congr rfl fun _ _ => by ring

theorem kronM_apply (cA cB rB : ℕ) (A B x : Mat) (i j : ℕ) :
    mmul (cA * cB) (kronM rB cB A B) x i j
      = ∑ a ∈ range cA, ∑ b ∈ range cB, A (i / rB) a * B (i % rB) b * x (a * cB + b) j := by
  simp only [mmul, kronM]
  rw [← sum_range_mul cA cB (fun a b => A (i / rB) a * B (i % rB) b * x (a * cB + b) j)]
  refine sum_congr rfl fun t _ => ?_
  rw [Nat.div_add_mod' t cB]

theorem kronM_add_left (r c : ℕ) (A A' B : Mat) : kronM r c (A + A') B = kronM r c A B + kronM r c A' B := by
  funext i j
  simp [kronM, add_mul]

theorem kronM_add_right (r c : ℕ) (A B B' : Mat) : kronM r c A (B + B') = kronM r c A B + kronM r c A B' := by
  funext i j
  simp [kronM, mul_add]

theorem kronM_smul_left (r c : ℕ) (s : ℝ) (A B : Mat) : kronM r c (s • A) B = s • kronM r c A B := by
  funext i j
  simp [kronM, mul_assoc]

theorem kronM_smul_right (r c : ℕ) (s : ℝ) (A B : Mat) : kronM r c A (s • B) = s • kronM r c A B := by
  funext i j
  simp only [kronM, Pi.smul_apply, smul_eq_mul]
  ring

theorem kronM_eye (m n : ℕ) : Eqv (m * n) (m * n) (kronM n n eye eye) eye := by
  intro i _ j _
  simp only [kronM, eye]
  by_cases h : i = j
  · simp [h]
  · by_cases h1 : i / n = j / n
    · have h2 : i % n ≠ j % n := by
        intro h2
        exact h (by rw [← Nat.div_add_mod i n, ← Nat.div_add_mod j n, h1, h2])
      simp [h2, h]
    · simp [h1, h]

/-! ### Mathlib matrices -/

@[simp] theorem toM_apply (r c : ℕ) (M : Mat) (i : Fin r) (j : Fin c) : toM r c M i j = M i j := rfl

theorem toM_mmul (r k c : ℕ) (A B : Mat) : toM r c (mmul k A B) = toM r k A * toM k c B := by
  ext i j
  simp only [toM_apply, mmul, Matrix.mul_apply]
  exact (Fin.sum_univ_eq_sum_range (fun t => A i t * B t j) k).symm

theorem toM_eye (n : ℕ) : toM n n eye = 1 := by
  ext i j
  simp [eye, Matrix.one_apply, Fin.ext_iff]

theorem toM_trn (r c : ℕ) (A : Mat) : toM c r (trn A) = (toM r c A).transpose := rfl
theorem toM_add (r c : ℕ) (A B : Mat) : toM r c (A + B) = toM r c A + toM r c B := rfl
theorem toM_smul (r c : ℕ) (s : ℝ) (A : Mat) : toM r c (s • A) = s • toM r c A := rfl

@[simp] theorem toM_ofM {r c : ℕ} (A : Matrix (Fin r) (Fin c) ℝ) : toM r c (ofM A) = A := by
  ext i j
  simp [ofM]

theorem toM_invM (n : ℕ) (M : Mat) : toM n n (invM n M) = (toM n n M)⁻¹ := toM_ofM _

theorem detM_congr {n : ℕ} {M N : Mat} (h : Eqv n n M N) : detM n M = detM n N := by
  simp only [detM, h.toM]

theorem invM_congr {n : ℕ} {M N : Mat} (h : Eqv n n M N) : invM n M = invM n N := by
  simp only [invM, h.toM]

theorem detM_mmul (n : ℕ) (A B : Mat) : detM n (mmul n A B) = detM n A * detM n B := by
  simp only [detM, toM_mmul, Matrix.det_mul]

theorem detM_trn (n : ℕ) (A : Mat) : detM n (trn A) = detM n A := by
  simp only [detM, toM_trn, Matrix.det_transpose]

theorem detM_eye (n : ℕ) : detM n eye = 1 := by
  simp only [detM, toM_eye, Matrix.det_one]

theorem invM_mmul {n : ℕ} {A : Mat} (h : detM n A ≠ 0) : Eqv n n (mmul n (invM n A) A) eye := by
  rw [eqv_iff_toM, toM_mmul, toM_invM, toM_eye, Matrix.nonsing_inv_mul _ (Ne.isUnit h)]

theorem mmul_invM {n : ℕ} {A : Mat} (h : detM n A ≠ 0) : Eqv n n (mmul n A (invM n A)) eye := by
  rw [eqv_iff_toM, toM_mmul, toM_invM, toM_eye, Matrix.mul_nonsing_inv _ (Ne.isUnit h)]

theorem detM_invM {n : ℕ} (A : Mat) : detM n (invM n A) = (detM n A)⁻¹ := by
  simp only [detM, toM_invM, Matrix.det_nonsing_inv, Ring.inverse_eq_inv]

theorem trn_invM (n : ℕ) (A : Mat) : Eqv n n (trn (invM n A)) (invM n (trn A)) := by
  rw [eqv_iff_toM, toM_trn, toM_invM, toM_invM, toM_trn, Matrix.transpose_nonsing_inv]

/-- A left inverse is the inverse. -/
theorem eqv_invM_of_left {n : ℕ} {A B : Mat} (h : Eqv n n (mmul n B A) eye) : Eqv n n B (invM n A) := by
  rw [eqv_iff_toM, toM_mmul, toM_eye] at h
  rw [eqv_iff_toM, toM_invM, Matrix.inv_eq_left_inv h]

/-- A right inverse is the inverse. -/
theorem eqv_invM_of_right {n : ℕ} {A B : Mat} (h : Eqv n n (mmul n A B) eye) : Eqv n n B (invM n A) := by
  rw [eqv_iff_toM, toM_mmul, toM_eye] at h
  rw [eqv_iff_toM, toM_invM, Matrix.inv_eq_right_inv h]

theorem detM_ne_zero_of_left {n : ℕ} {A B : Mat} (h : Eqv n n (mmul n B A) eye) : detM n A ≠ 0 := by
  have := detM_congr h
  rw [detM_mmul, detM_eye] at this
  exact right_ne_zero_of_mul (by rw [this]; exact one_ne_zero)

end Probnum.Linops
