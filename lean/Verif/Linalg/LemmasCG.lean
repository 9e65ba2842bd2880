import Verif.Linalg.CG
import Verif.Linalg.LemmasUpdates
import Mathlib.Tactic.FieldSimp
import Mathlib.Tactic.LinearCombination

/-!
# The algebra of the conjugate gradient recursion
-/

namespace Probnum.Linalg.CG

open Matrix

variable {n : Type} [Fintype n]

/-- What holds after `k` steps: actions `s 0 … s (k-1)`, residuals `r 0 … r k`, current covariance `P`. -/
structure CgInv (A S0 : Matrix n n ℝ) (r s : ℕ → n → ℝ) (P : Matrix n n ℝ) (k : ℕ) : Prop where
  conj : ∀ i j, i < j → j < k → s i ⬝ᵥ (A * S0 * Aᵀ) *ᵥ s j = 0
  orth : ∀ i j, i < j → j ≤ k → r i ⬝ᵥ r j = 0
  rs : ∀ i j, i < j → j ≤ k → s i ⬝ᵥ r j = 0
  ss : ∀ i < k, s i ⬝ᵥ r i = r i ⬝ᵥ r i
  move : ∀ i < k, r (i + 1) = r i -
    ((r i ⬝ᵥ r i) * gramPinv (s i ⬝ᵥ (A * S0 * Aᵀ) *ᵥ s i)) • ((A * S0 * Aᵀ) *ᵥ s i)
  first : 0 < k → s 0 = r 0
  span : ∀ i, i + 1 < k → s (i + 1) = r (i + 1) + ((r (i + 1) ⬝ᵥ r (i + 1)) / (r i ⬝ᵥ r i)) • s i
  nz : ∀ i, i + 1 < k → r i ≠ 0
  cov : ∀ v, (∀ i < k, s i ⬝ᵥ (A * S0 * Aᵀ) *ᵥ v = 0) → P *ᵥ (v ᵥ* A) = S0 *ᵥ (v ᵥ* A)

theorem CgInv.congr {A S0 : Matrix n n ℝ} {r s r' s' : ℕ → n → ℝ} {P : Matrix n n ℝ} {k : ℕ}
    (h : CgInv A S0 r s P k) (hr : ∀ i ≤ k, r' i = r i) (hs : ∀ i < k, s' i = s i) : CgInv A S0 r' s' P k where
  conj i j hij hj := by rw [hs i (by omega), hs j hj]; exact h.conj i j hij hj
  orth i j hij hj := by rw [hr i (by omega), hr j hj]; exact h.orth i j hij hj
  rs i j hij hj := by rw [hs i (by omega), hr j hj]; exact h.rs i j hij hj
  ss i hi := by rw [hs i hi, hr i hi.le]; exact h.ss i hi
  move i hi := by rw [hs i hi, hr i hi.le, hr (i + 1) hi]; exact h.move i hi
  first hk := by rw [hs 0 hk, hr 0 hk.le]; exact h.first hk
  span i hi := by rw [hs (i + 1) hi, hr (i + 1) hi.le, hr i (by omega), hs i (by omega)]; exact h.span i hi
  nz i hi := by rw [hr i (by omega)]; exact h.nz i hi
  cov v hv := h.cov v fun i hi => by rw [← hs i hi]; exact hv i hi

theorem CgInv.zero (A S0 : Matrix n n ℝ) (r s : ℕ → n → ℝ) : CgInv A S0 r s S0 0 where
  conj := fun _ _ _ h => by omega
  orth := fun _ _ _ h => by omega
  rs := fun _ _ _ h => by omega
  ss := fun _ h => by omega
  move := fun _ h => by omega
  first := fun h => by omega
  span := fun _ h => by omega
  nz := fun _ h => by omega
  cov := fun _ _ => rfl

theorem gram_mulVec (A S0 : Matrix n n ℝ) (v : n → ℝ) : (A * S0 * Aᵀ) *ᵥ v = A *ᵥ (S0 *ᵥ (v ᵥ* A)) := by
  rw [← mulVec_mulVec, ← mulVec_mulVec, mulVec_transpose]

theorem gram_symm (A : Matrix n n ℝ) {S0 : Matrix n n ℝ} (h : S0.IsSymm) : (A * S0 * Aᵀ).IsSymm := by
  unfold IsSymm
  rw [transpose_mul, transpose_mul, transpose_transpose, h.eq, Matrix.mul_assoc]

theorem gram_dot (A : Matrix n n ℝ) (S0 : Matrix n n ℝ) (u v : n → ℝ) :
    u ⬝ᵥ (A * S0 * Aᵀ) *ᵥ v = (u ᵥ* A) ⬝ᵥ S0 *ᵥ (v ᵥ* A) := by
  rw [gram_mulVec, dotProduct_mulVec]

/-- One step. -/
theorem CgInv.step {A S0 : Matrix n n ℝ} (hS : IsPsd S0) {r s : ℕ → n → ℝ} {P : Matrix n n ℝ} {k : ℕ}
    (h : CgInv A S0 r s P k)
    (hG : ∀ v, v ⬝ᵥ (A * S0 * Aᵀ) *ᵥ v = 0 → v = 0)
    (hs0 : k = 0 → s 0 = r 0)
    (hsk : ∀ j, k = j + 1 → r j ≠ 0 ∧ s k = r k + ((r k ⬝ᵥ r k) / (r j ⬝ᵥ r j)) • s j)
    (hr : r (k + 1) = r k - ((s k ⬝ᵥ r k) * gramPinv ((s k ᵥ* A) ⬝ᵥ P *ᵥ (s k ᵥ* A))) • (A *ᵥ (P *ᵥ (s k ᵥ* A)))) :
    CgInv A S0 r s (down P (s k ᵥ* A) 0) (k + 1) := by
  set G := A * S0 * Aᵀ with hGdef
  have hGs : G.IsSymm := gram_symm A hS.1
  have hpsd : ∀ v, 0 ≤ v ⬝ᵥ G *ᵥ v := fun v => by rw [hGdef, gram_dot]; exact hS.2 _
  have hnz : ∀ i, i < k → r i ≠ 0 := by
    intro i hi
    rcases Nat.lt_or_ge (i + 1) k with h1 | h1
    · exact h.nz i h1
    · exact (hsk i (by omega)).1
  have hpos : ∀ i, i < k → 0 < r i ⬝ᵥ r i := by
    intro i hi
    rcases (dotProduct_self_star_nonneg (v := r i)).lt_or_eq with h1 | h1
    · simpa using h1
    · exact absurd (dotProduct_self_eq_zero.1 (by simpa using h1.symm)) (hnz i hi)
  have hg : ∀ i, i < k → 0 < s i ⬝ᵥ G *ᵥ s i := by
    intro i hi
    rcases (hpsd (s i)).lt_or_eq with h1 | h1
    · exact h1
    · have := hG _ h1.symm
      have h2 := h.ss i hi
      rw [this, zero_dotProduct] at h2
      exact absurd h2 (hpos i hi).ne
  -- `G s_i` from the residuals
  have hGs' : ∀ i, i < k → ∀ v, v ⬝ᵥ G *ᵥ s i = (s i ⬝ᵥ G *ᵥ s i) / (r i ⬝ᵥ r i) * (v ⬝ᵥ r i - v ⬝ᵥ r (i + 1)) := by
    intro i hi v
    have h1 := hg i hi
    have h2 := hpos i hi
    have h3 := h.move i hi
    rw [gramPinv_pos h1] at h3
    rw [h3, dotProduct_sub, dotProduct_smul, smul_eq_mul]
    have h1' := h1.ne'
    have h2' := h2.ne'
    field_simp
    ring
  -- the new action is conjugate to the old ones
  have hconj : ∀ i, i < k → s k ⬝ᵥ G *ᵥ s i = 0 := by
    intro i hi
    obtain ⟨j, rfl⟩ : ∃ j, k = j + 1 := ⟨k - 1, by omega⟩
    obtain ⟨hj, hsj⟩ := hsk j rfl
    rw [hsj, add_dotProduct, smul_dotProduct, smul_eq_mul, hGs' i hi (r (j + 1))]
    rcases Nat.lt_or_ge i j with hij | hij
    · rw [dotProduct_comm (r (j + 1)) (r i), dotProduct_comm (r (j + 1)) (r (i + 1)), h.orth i (j + 1) (by omega) le_rfl,
        h.orth (i + 1) (j + 1) (by omega) le_rfl, symm_dot hGs (s j) (s i),
        dotProduct_comm (G *ᵥ s j) (s i), h.conj i j hij (by omega)]
      ring
    · obtain rfl : i = j := by omega
      rw [dotProduct_comm (r (i + 1)) (r i), h.orth i (i + 1) (by omega) le_rfl]
      have h2 := (hpos i (by omega)).ne'
      field_simp
      ring
  have hconj' : ∀ i, i < k → s i ⬝ᵥ G *ᵥ s k = 0 := fun i hi => by
    rw [symm_dot hGs, dotProduct_comm]; exact hconj i hi
  have hP : P *ᵥ (s k ᵥ* A) = S0 *ᵥ (s k ᵥ* A) := h.cov _ hconj'
  -- the projected residual
  have hss : s k ⬝ᵥ r k = r k ⬝ᵥ r k := by
    rcases Nat.eq_zero_or_pos k with hk | hk
    · subst hk; rw [hs0 rfl]
    · obtain ⟨j, rfl⟩ : ∃ j, k = j + 1 := ⟨k - 1, by omega⟩
      obtain ⟨-, hsj⟩ := hsk j rfl
      rw [hsj, add_dotProduct, smul_dotProduct, h.rs j (j + 1) (by omega) le_rfl, smul_zero, add_zero]
  have hmove : r (k + 1) = r k - ((r k ⬝ᵥ r k) * gramPinv (s k ⬝ᵥ G *ᵥ s k)) • (G *ᵥ s k) := by
    rw [hr, hss, hP, hGdef, gram_dot, gram_mulVec]
  have hrs : ∀ i ≤ k, s i ⬝ᵥ r (k + 1) = 0 := by
    intro i hi
    rw [hmove, dotProduct_sub, dotProduct_smul, smul_eq_mul]
    rcases Nat.lt_or_ge i k with h1 | h1
    · rw [hconj' i h1, h.rs i k h1 le_rfl]; ring
    · obtain rfl : i = k := by omega
      rcases (hpsd (s i)).lt_or_eq with h2 | h2
      · rw [gramPinv_pos h2, hss]
        have := h2.ne'
        field_simp
        ring
      · rw [← h2, hG _ h2.symm, zero_dotProduct]; ring
  have hspan : ∀ i, i + 1 < k + 1 → s (i + 1) = r (i + 1) + ((r (i + 1) ⬝ᵥ r (i + 1)) / (r i ⬝ᵥ r i)) • s i := by
    intro i hi
    rcases Nat.lt_or_ge (i + 1) k with h1 | h1
    · exact h.span i h1
    · obtain rfl : k = i + 1 := by omega
      exact (hsk i rfl).2
  have hfirst : s 0 = r 0 := by
    rcases Nat.eq_zero_or_pos k with hk | hk
    · exact hs0 hk
    · exact h.first hk
  refine ⟨?_, ?_, ?_, ?_, ?_, fun _ => hfirst, hspan, ?_, ?_⟩
  · intro i j hij hj
    rcases Nat.lt_or_ge j k with h1 | h1
    · exact h.conj i j hij h1
    · obtain rfl : j = k := by omega
      exact hconj' i hij
  · intro i j hij hj
    rcases Nat.lt_or_ge j (k + 1) with h1 | h1
    · exact h.orth i j hij (by omega)
    · obtain rfl : j = k + 1 := by omega
      rcases Nat.eq_zero_or_pos i with hi | hi
      · subst hi; rw [← hfirst]; exact hrs 0 (by omega)
      · obtain ⟨l, rfl⟩ : ∃ l, i = l + 1 := ⟨i - 1, by omega⟩
        have hc := hspan l (by omega)
        have : r (l + 1) = s (l + 1) - ((r (l + 1) ⬝ᵥ r (l + 1)) / (r l ⬝ᵥ r l)) • s l := by
          rw [hc]; simp
        rw [this, sub_dotProduct, smul_dotProduct, hrs _ (by omega), hrs _ (by omega)]; simp
  · intro i j hij hj
    rcases Nat.lt_or_ge j (k + 1) with h1 | h1
    · exact h.rs i j hij (by omega)
    · obtain rfl : j = k + 1 := by omega
      exact hrs i (by omega)
  · intro i hi
    rcases Nat.lt_or_ge i k with h1 | h1
    · exact h.ss i h1
    · obtain rfl : i = k := by omega
      exact hss
  · intro i hi
    rcases Nat.lt_or_ge i k with h1 | h1
    · exact h.move i h1
    · obtain rfl : i = k := by omega
      exact hmove
  · intro i hi
    exact hnz i (by omega)
  · intro v hv
    have h1 := h.cov v fun i hi => hv i (by omega)
    rw [down_mulVec, h1, hP]
    have h2 := hv k (by omega)
    rw [gram_dot, symm_dot hS.1] at h2
    rw [h2, mul_zero, zero_smul, sub_zero]

/-- Mutually orthogonal vectors, more than the dimension, contain the zero vector. -/
theorem exists_zero_of_orthogonal (r : ℕ → n → ℝ) (h : ∀ i j, i < j → j ≤ Fintype.card n → r i ⬝ᵥ r j = 0) :
    ∃ i ≤ Fintype.card n, r i = 0 := by
  by_contra hc
  push Not at hc
  have hli : LinearIndependent ℝ (fun i : Fin (Fintype.card n + 1) => r i) := by
    rw [linearIndependent_iff']
    intro t g hg i hi
    have h1 := congrArg (fun v => v ⬝ᵥ r i) hg
    simp only [zero_dotProduct] at h1
    rw [sum_dotProduct, Finset.sum_eq_single i] at h1
    · rw [smul_dotProduct, smul_eq_mul] at h1
      rcases mul_eq_zero.1 h1 with h2 | h2
      · exact h2
      · exact absurd (dotProduct_self_eq_zero.1 h2) (hc i (by omega))
    · intro j _ hj
      rw [smul_dotProduct]
      have hne : (j : ℕ) ≠ i := fun h => hj (Fin.ext h)
      rcases Nat.lt_or_ge j i with h2 | h2
      · rw [h j i h2 (by omega), smul_zero]
      · rw [dotProduct_comm, h i j (by omega) (by omega), smul_zero]
    · intro h2; exact absurd hi h2
  have := hli.fintype_card_le_finrank
  simp at this

end Probnum.Linalg.CG
