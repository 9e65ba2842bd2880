import Verif.Linalg.Updates
import Mathlib.Analysis.Matrix.PosDef
import Mathlib.Algebra.Order.Star.Real
import Mathlib.Tactic.Linarith
import Mathlib.Tactic.FieldSimp
import Mathlib.Tactic.Ring
import Mathlib.Tactic.Module

/-!
# Lemmas on rank-one downdates of covariance factors
-/

namespace Probnum.Linalg

open Matrix

variable {n : Type} [Fintype n]

/-- The downdate shared by all belief updates. -/
noncomputable def down (W : Matrix n n ℝ) (s : n → ℝ) (lam : ℝ) : Matrix n n ℝ :=
  W - vecMulVec (gramPinv (s ⬝ᵥ W *ᵥ s + lam) • (W *ᵥ s)) (W *ᵥ s)

theorem gramPinv_nonneg (g : ℝ) : 0 ≤ gramPinv g := by
  unfold gramPinv
  split
  · positivity
  · exact le_rfl

theorem gramPinv_pos {g : ℝ} (h : 0 < g) : gramPinv g = 1 / g := if_pos h

theorem gramPinv_nonpos {g : ℝ} (h : ¬ 0 < g) : gramPinv g = 0 := if_neg h

theorem vecMulVec_mulVec (u v x : n → ℝ) : vecMulVec u v *ᵥ x = (v ⬝ᵥ x) • u := by
  ext i
  simp only [mulVec, dotProduct, vecMulVec_apply, Pi.smul_apply, smul_eq_mul, Finset.sum_mul]
  exact Finset.sum_congr rfl fun j _ => by ring

theorem symm_dot {W : Matrix n n ℝ} (h : W.IsSymm) (x y : n → ℝ) : x ⬝ᵥ W *ᵥ y = W *ᵥ x ⬝ᵥ y := by
  rw [dotProduct_mulVec, ← mulVec_transpose, h.eq]

theorem down_mulVec (W : Matrix n n ℝ) (s x : n → ℝ) (lam : ℝ) :
    down W s lam *ᵥ x = W *ᵥ x - (gramPinv (s ⬝ᵥ W *ᵥ s + lam) * (W *ᵥ s ⬝ᵥ x)) • (W *ᵥ s) := by
  rw [down, sub_mulVec, vecMulVec_mulVec, smul_smul, mul_comm]

theorem down_symm {W : Matrix n n ℝ} (h : W.IsSymm) (s : n → ℝ) (lam : ℝ) : (down W s lam).IsSymm := by
  ext i j
  have := congrFun (congrFun h i) j
  simp only [transpose_apply] at this
  simp only [down, transpose_apply, Matrix.sub_apply, vecMulVec_apply, Pi.smul_apply, smul_eq_mul, this]
  ring

theorem down_dot (W : Matrix n n ℝ) (h : W.IsSymm) (s x : n → ℝ) (lam : ℝ) :
    x ⬝ᵥ down W s lam *ᵥ x = x ⬝ᵥ W *ᵥ x - gramPinv (s ⬝ᵥ W *ᵥ s + lam) * (W *ᵥ s ⬝ᵥ x) ^ 2 := by
  rw [down_mulVec, dotProduct_sub, dotProduct_smul, smul_eq_mul, dotProduct_comm x (W *ᵥ s)]
  ring

/-- Symmetric positive semi-definite, in elementary terms. -/
def IsPsd (W : Matrix n n ℝ) : Prop := W.IsSymm ∧ ∀ x, 0 ≤ x ⬝ᵥ W *ᵥ x

/-- Symmetric positive definite, in elementary terms. -/
def IsPd (W : Matrix n n ℝ) : Prop := W.IsSymm ∧ ∀ x, x ≠ 0 → 0 < x ⬝ᵥ W *ᵥ x

theorem IsPd.psd {W : Matrix n n ℝ} (h : IsPd W) : IsPsd W := by
  refine ⟨h.1, fun x => ?_⟩
  by_cases hx : x = 0
  · simp [hx]
  · exact (h.2 x hx).le

theorem IsPd.inj {W : Matrix n n ℝ} (h : IsPd W) (x : n → ℝ) (hx : W *ᵥ x = 0) : x = 0 := by
  by_contra hc
  have := h.2 x hc
  rw [hx, dotProduct_zero] at this
  exact lt_irrefl _ this

/-- Cauchy–Schwarz for a semi-definite form. -/
theorem IsPsd.cauchy {W : Matrix n n ℝ} (h : IsPsd W) (x y : n → ℝ) :
    (x ⬝ᵥ W *ᵥ y) ^ 2 ≤ (x ⬝ᵥ W *ᵥ x) * (y ⬝ᵥ W *ᵥ y) := by
  have hsym : y ⬝ᵥ W *ᵥ x = x ⬝ᵥ W *ᵥ y := by rw [symm_dot h.1, dotProduct_comm]
  have key : ∀ t : ℝ, 0 ≤ (y ⬝ᵥ W *ᵥ y) * (t * t) + (2 * (x ⬝ᵥ W *ᵥ y)) * t + (x ⬝ᵥ W *ᵥ x) := by
    intro t
    have := h.2 (x + t • y)
    simp only [mulVec_add, mulVec_smul, dotProduct_add, add_dotProduct, smul_dotProduct, dotProduct_smul, smul_eq_mul,
      hsym] at this
    nlinarith
  have hd := discrim_le_zero key
  unfold discrim at hd
  nlinarith

/-- A semi-definite form vanishes at `s` only if the matrix does. -/
theorem IsPsd.mulVec_eq_zero {W : Matrix n n ℝ} (h : IsPsd W) (s : n → ℝ) (hs : s ⬝ᵥ W *ᵥ s = 0) : W *ᵥ s = 0 := by
  have hc := h.cauchy (W *ᵥ s) s
  rw [hs, mul_zero] at hc
  have h0 : W *ᵥ s ⬝ᵥ W *ᵥ s = 0 := by
    have := sq_nonneg (W *ᵥ s ⬝ᵥ W *ᵥ s)
    nlinarith [pow_eq_zero_iff (n := 2) two_ne_zero (a := W *ᵥ s ⬝ᵥ W *ᵥ s)]
  exact dotProduct_self_eq_zero.1 h0

theorem IsPsd.gram_cases {W : Matrix n n ℝ} (h : IsPsd W) (s : n → ℝ) : 0 < s ⬝ᵥ W *ᵥ s ∨ W *ᵥ s = 0 := by
  rcases (h.2 s).lt_or_eq with h' | h'
  · exact Or.inl h'
  · exact Or.inr (h.mulVec_eq_zero s h'.symm)

theorem IsPsd.down {W : Matrix n n ℝ} (h : IsPsd W) (s : n → ℝ) (lam : ℝ) (hl : 0 ≤ lam) : IsPsd (down W s lam) := by
  refine ⟨down_symm h.1 s lam, fun x => ?_⟩
  rw [down_dot W h.1]
  by_cases hg : 0 < s ⬝ᵥ W *ᵥ s + lam
  · rw [gramPinv_pos hg]
    have hc := h.cauchy s x
    rw [symm_dot h.1] at hc
    have hx := h.2 x
    have : (W *ᵥ s ⬝ᵥ x) ^ 2 / (s ⬝ᵥ W *ᵥ s + lam) ≤ x ⬝ᵥ W *ᵥ x := by
      rw [div_le_iff₀ hg]
      nlinarith [mul_nonneg hl hx]
    rw [one_div, inv_mul_eq_div]
    linarith
  · rw [gramPinv_nonpos hg, zero_mul, sub_zero]
    exact h.2 x

theorem down_le {W : Matrix n n ℝ} (h : W.IsSymm) (s x : n → ℝ) (lam : ℝ) :
    x ⬝ᵥ down W s lam *ᵥ x ≤ x ⬝ᵥ W *ᵥ x := by
  rw [down_dot W h]
  have := mul_nonneg (gramPinv_nonneg (s ⬝ᵥ W *ᵥ s + lam)) (sq_nonneg (W *ᵥ s ⬝ᵥ x))
  linarith

theorem down_self {W : Matrix n n ℝ} (h : IsPsd W) (s : n → ℝ) : down W s 0 *ᵥ s = 0 := by
  rw [down_mulVec, add_zero]
  rcases h.gram_cases s with hg | hg
  · rw [gramPinv_pos hg, dotProduct_comm (W *ᵥ s), one_div, inv_mul_cancel₀ hg.ne', one_smul, sub_self]
  · rw [hg]; simp

theorem down_keeps {W : Matrix n n ℝ} (h : W.IsSymm) (s t : n → ℝ) (lam : ℝ) (ht : W *ᵥ t = 0) :
    down W s lam *ᵥ t = 0 := by
  rw [down_mulVec, ht, ← symm_dot h, ht]; simp

theorem gain_dot_kernel {W : Matrix n n ℝ} (h : W.IsSymm) (s t : n → ℝ) (ht : W *ᵥ t = 0) : W *ᵥ s ⬝ᵥ t = 0 := by
  rw [← symm_dot h, ht, dotProduct_zero]

/-- Vectors annihilated after the downdate are a multiple of `s` away from vectors annihilated before. -/
theorem down_kernel {W : Matrix n n ℝ} (h : IsPsd W) (s v : n → ℝ) (hv : down W s 0 *ᵥ v = 0) :
    ∃ a : ℝ, W *ᵥ (v - a • s) = 0 ∧ (W *ᵥ s = 0 → a = 0) := by
  rw [down_mulVec] at hv
  rcases h.gram_cases s with hg | hg
  · refine ⟨gramPinv (s ⬝ᵥ W *ᵥ s + 0) * (W *ᵥ s ⬝ᵥ v), ?_, fun h0 => ?_⟩
    · rw [mulVec_sub, mulVec_smul]; exact hv
    · rw [h0] at hg; simp at hg
  · refine ⟨0, ?_, fun _ => rfl⟩
    rw [hg] at hv
    simpa using hv

end Probnum.Linalg
