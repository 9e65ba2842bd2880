import Verif.Linalg.LemmasMatrixBased
import Mathlib.Tactic.NormNum
import Mathlib.Tactic.FinCases
import Mathlib.LinearAlgebra.Matrix.Notation
import Mathlib.Data.Matrix.Mul

/-!
# C34, C35: the symmetric matrix-based solver
-/

namespace Probnum.Linalg.MatrixBased

open Matrix

variable {n : Type} [Fintype n] [DecidableEq n]

/-! ## C35: prior means from an initial guess -/

private theorem core_prior (x0 b : n → ℝ) (h : 0 < b ⬝ᵥ x0) :
    ∃ A0 H0 : Matrix n n ℝ,
      meansFrom b x0 (b ⬝ᵥ x0) = .ok (A0, H0) ∧
      IsPd H0 ∧ H0 *ᵥ b = x0 ∧ A0.IsSymm ∧ A0 * H0 = 1 ∧ H0 * A0 = 1 := by
  have hb : b ≠ 0 := by rintro rfl; simp at h
  have hbb : 0 < b ⬝ᵥ b :=
    lt_of_le_of_ne (Finset.sum_nonneg fun i _ => mul_self_nonneg (b i)) fun h0 => hb (dotProduct_self_eq_zero.1 h0.symm)
  obtain ⟨al, hal⟩ : ∃ al, al = 0.5 * (b ⬝ᵥ x0) / (b ⬝ᵥ b) := ⟨_, rfl⟩
  have halpos : 0 < al := by rw [hal]; positivity
  have halb : al * (b ⬝ᵥ b) = 0.5 * (b ⬝ᵥ x0) := by rw [hal, div_mul_cancel₀ _ hbb.ne']
  obtain ⟨v, hv⟩ : ∃ v, v = x0 - al • b := ⟨_, rfl⟩
  have hvb : v ⬝ᵥ b = 0.5 * (b ⬝ᵥ x0) := by
    rw [hv, sub_dotProduct, smul_dotProduct, smul_eq_mul, halb, dotProduct_comm x0 b]; ring
  have hvv : 0 ≤ v ⬝ᵥ v := Finset.sum_nonneg fun i _ => mul_self_nonneg (v i)
  have hvx : v ⬝ᵥ x0 = v ⬝ᵥ v + al * (0.5 * (b ⬝ᵥ x0)) := by
    have : x0 = v + al • b := by rw [hv]; abel
    conv_lhs => rw [this]
    rw [dotProduct_add, dotProduct_smul, hvb, smul_eq_mul]
  have hvxpos : 0 < v ⬝ᵥ x0 := by rw [hvx]; have := mul_pos halpos h; linarith
  have hsymm : ∀ c d : ℝ, (c • (1 : Matrix n n ℝ) + d • vecMulVec v v).IsSymm := by
    intro c d
    ext i j
    simp only [transpose_apply, Matrix.add_apply, Matrix.smul_apply, vecMulVec_apply, smul_eq_mul, Matrix.one_apply]
    rw [mul_comm (v j) (v i)]
    simp only [eq_comm (a := i) (b := j)]
  have hprod : ∀ a c d e : ℝ, (a • (1 : Matrix n n ℝ) + c • vecMulVec v v) * (d • 1 + e • vecMulVec v v)
      = (a * d) • 1 + (a * e + c * d + c * e * (v ⬝ᵥ v)) • vecMulVec v v := by
    intro a c d e
    have hvm : vecMulVec v v * vecMulVec v v = (v ⬝ᵥ v) • vecMulVec v v := by
      rw [vecMulVec_mul_vecMulVec]
      ext i j
      simp only [Matrix.smul_apply, vecMulVec_apply, Pi.smul_apply, smul_eq_mul]
      try ring
    rw [add_mul, mul_add, mul_add]
    simp only [smul_mul_assoc, mul_smul_comm, Matrix.mul_one, Matrix.one_mul, hvm, smul_smul]
    module
  refine ⟨(1 / al) • 1 - (1 / (al * (v ⬝ᵥ x0))) • vecMulVec v v, al • 1 + (2 / (b ⬝ᵥ x0)) • vecMulVec v v, ?_, ?_, ?_, ?_,
    ?_, ?_⟩
  · simp only [meansFrom, fdiv_ok hbb.ne', ← hal, ← hv, fdiv_ok h.ne', fdiv_ok halpos.ne', fdiv_ok (mul_pos halpos hvxpos).ne']
  · refine ⟨hsymm _ _, fun x hx => ?_⟩
    rw [add_mulVec, smul_mulVec, smul_mulVec, one_mulVec, vecMulVec_mulVec, dotProduct_add, dotProduct_smul,
      dotProduct_smul, dotProduct_smul, dotProduct_comm x v]
    simp only [smul_eq_mul]
    have hxx : 0 < x ⬝ᵥ x :=
      lt_of_le_of_ne (Finset.sum_nonneg fun i _ => mul_self_nonneg (x i)) fun h0 =>
        hx (dotProduct_self_eq_zero.1 h0.symm)
    have h1 := mul_pos halpos hxx
    have h2 : 0 ≤ 2 / (b ⬝ᵥ x0) * (v ⬝ᵥ x * (v ⬝ᵥ x)) := mul_nonneg (by positivity) (mul_self_nonneg _)
    linarith
  · rw [add_mulVec, smul_mulVec, smul_mulVec, one_mulVec, vecMulVec_mulVec, hvb, smul_smul]
    have : 2 / (b ⬝ᵥ x0) * (0.5 * (b ⬝ᵥ x0)) = 1 := by field_simp; norm_num
    rw [this, one_smul, hv]; abel
  · have := hsymm (1 / al) (-(1 / (al * (v ⬝ᵥ x0))))
    rwa [neg_smul, ← sub_eq_add_neg] at this
  · rw [sub_eq_add_neg, ← neg_smul, hprod, one_div_mul_cancel halpos.ne', one_smul]
    have : 1 / al * (2 / (b ⬝ᵥ x0)) + -(1 / (al * (v ⬝ᵥ x0))) * al
        + -(1 / (al * (v ⬝ᵥ x0))) * (2 / (b ⬝ᵥ x0)) * (v ⬝ᵥ v) = 0 := by
      have hvv' : v ⬝ᵥ v = v ⬝ᵥ x0 - al * (0.5 * (b ⬝ᵥ x0)) := by rw [hvx]; ring
      rw [hvv']
      field_simp
      ring
    rw [this, zero_smul, add_zero]
  · rw [sub_eq_add_neg, ← neg_smul, hprod, mul_one_div_cancel halpos.ne', one_smul]
    have : al * -(1 / (al * (v ⬝ᵥ x0))) + 2 / (b ⬝ᵥ x0) * (1 / al)
        + 2 / (b ⬝ᵥ x0) * -(1 / (al * (v ⬝ᵥ x0))) * (v ⬝ᵥ v) = 0 := by
      have hvv' : v ⬝ᵥ v = v ⬝ᵥ x0 - al * (0.5 * (b ⬝ᵥ x0)) := by rw [hvx]; ring
      rw [hvv']
      field_simp
      ring
    rw [this, zero_smul, add_zero]

/-- **C35 (partial).**  For a guess with `bᵀx₀ > 0` the prior mean `H0` of the inverse is symmetric positive definite,
`H0 b = x0`, and the prior mean `A0` of the matrix is its inverse.  Missing: guesses with `bᵀx₀ ≤ 0`, for which no positive definite
`H0` with `H0 b = x0` exists; see `prior_means_negative`, `prior_means_orthogonal`, `prior_means_zero`. -/
theorem prior_means_partial (A : Matrix n n ℝ) (x0 b : n → ℝ) (h : 0 < b ⬝ᵥ x0) :
    ∃ A0 H0, priorMeans A x0 b = .ok (A0, H0) ∧ IsPd H0 ∧ H0 *ᵥ b = x0 ∧ A0.IsSymm ∧ A0 * H0 = 1 ∧ H0 * A0 = 1 := by
  obtain ⟨A0, H0, h1, h2⟩ := core_prior x0 b h
  refine ⟨A0, H0, ?_, h2⟩
  rw [priorMeans, improveGuess, if_neg h.le.not_gt, if_neg h.ne']
  exact h1

/-- **C35, guess pointing away.**  For `bᵀx₀ < 0` the prior is built for `-x0`: `H0 b = -x0`. -/
theorem prior_means_negative (A : Matrix n n ℝ) (x0 b : n → ℝ) (h : b ⬝ᵥ x0 < 0) :
    ∃ A0 H0, priorMeans A x0 b = .ok (A0, H0) ∧ IsPd H0 ∧ H0 *ᵥ b = -x0 ∧ A0.IsSymm ∧ A0 * H0 = 1 ∧ H0 * A0 = 1 := by
  have hneg : b ⬝ᵥ (-x0) = -(b ⬝ᵥ x0) := dotProduct_neg b x0
  obtain ⟨A0, H0, h1, h2⟩ := core_prior (-x0) b (by rw [hneg]; linarith)
  refine ⟨A0, H0, ?_, h2⟩
  rw [priorMeans, improveGuess, if_pos h, ← hneg]
  exact h1

/-- **C35, orthogonal guess.**  For `bᵀx₀ = 0`, `b ≠ 0` and `bᵀAb > 0` the prior is built for the steepest-descent point:
`H0 b = (bᵀb / bᵀAb) b`. -/
theorem prior_means_orthogonal (A : Matrix n n ℝ) (x0 b : n → ℝ) (h : b ⬝ᵥ x0 = 0) (hb : b ≠ 0) (hA : 0 < b ⬝ᵥ A *ᵥ b) :
    ∃ A0 H0, priorMeans A x0 b = .ok (A0, H0) ∧ IsPd H0 ∧ H0 *ᵥ b = ((b ⬝ᵥ b) / (b ⬝ᵥ A *ᵥ b)) • b ∧ A0.IsSymm ∧
      A0 * H0 = 1 ∧ H0 * A0 = 1 := by
  have hbb : 0 < b ⬝ᵥ b :=
    lt_of_le_of_ne (Finset.sum_nonneg fun i _ => mul_self_nonneg (b i)) fun h0 => hb (dotProduct_self_eq_zero.1 h0.symm)
  have hq : b ⬝ᵥ (((b ⬝ᵥ b) / (b ⬝ᵥ A *ᵥ b)) • b) = (b ⬝ᵥ b) ^ 2 / (b ⬝ᵥ A *ᵥ b) := by
    rw [dotProduct_smul, smul_eq_mul]; ring
  obtain ⟨A0, H0, h1, h2⟩ := core_prior (((b ⬝ᵥ b) / (b ⬝ᵥ A *ᵥ b)) • b) b (by rw [hq]; positivity)
  refine ⟨A0, H0, ?_, h2⟩
  rw [priorMeans, improveGuess, if_neg (by rw [h]; exact lt_irrefl _), if_pos h, if_neg hb]
  simp only [fdiv_ok hA.ne']
  rw [hq] at h1
  exact h1

/-- **C35, zero right-hand side.**  For `b = 0` the prior means are `nan`, although the printed message promises the solution
`x0 = 0`. -/
theorem prior_means_zero (A : Matrix n n ℝ) (x0 : n → ℝ) : priorMeans A x0 0 = .error .zeroDivisionError := by
  rw [priorMeans, improveGuess, if_neg (by simp), if_pos (by simp), if_pos rfl]
  simp [meansFrom, fdiv_zero]

/-- **C35 fails for `bᵀx₀ ≤ 0`**, necessarily so: a positive definite `H0` with `H0 b = x0` needs `bᵀx₀ > 0`. -/
theorem prior_means_impossible (H0 : Matrix n n ℝ) (hH : IsPd H0) (x0 b : n → ℝ) (hb : b ≠ 0) (h : H0 *ᵥ b = x0) :
    0 < b ⬝ᵥ x0 := by
  rw [← h]; exact hH.2 b hb

/-- **C35 fails, inconsistent start.**  Although the prior is built for `-x0` when `bᵀx₀ < 0`, the iteration starts at `x0`, which
is not the mean `H0 b` the prior assigns to the solution. -/
theorem guess_inconsistent (A : Matrix n n ℝ) (x0 b : n → ℝ) (h : b ⬝ᵥ x0 < 0) :
    ∃ P st, init A b (.guess x0) = .ok (P, st) ∧ st.x = x0 ∧ st.HMean *ᵥ b = -x0 ∧ st.x ≠ st.HMean *ᵥ b := by
  obtain ⟨A0, H0, h1, -, h2, -⟩ := prior_means_negative A x0 b h
  have hi : init A b (.guess x0) = .ok (⟨A, b, A, H0⟩,
      ⟨A0, A, 0, H0, H0, 0, x0, A *ᵥ x0 - b, 0, [], [], 0, traceSol b H0 H0.trace, A, H0⟩) := by
    simp only [init, priorParams, h1, initX]
  refine ⟨_, _, hi, rfl, h2, ?_⟩
  · show x0 ≠ H0 *ᵥ b
    rw [h2]
    intro hx
    have : x0 = 0 := self_eq_neg.1 hx
    rw [this] at h
    simp at h

example : ∃ A0 H0, priorMeans (1 : Matrix (Fin 2) (Fin 2) ℝ) ![1, 2] ![3, 1] = .ok (A0, H0) ∧ H0 *ᵥ ![3, 1] = ![1, 2] := by
  obtain ⟨A0, H0, h1, -, h2, -⟩ := prior_means_partial (1 : Matrix (Fin 2) (Fin 2) ℝ) ![1, 2] ![3, 1]
    (by simp [dotProduct, Fin.sum_univ_two]; norm_num)
  exact ⟨A0, H0, h1, h2⟩

/-! ## C34: the iteration -/

/-- Specification: priors that are consistent with a positive definite system. -/
def Prior.Consistent : Prior n → Prop
  | .none => True
  | .guess _ => True
  | .inverse H0 => IsPd H0
  | .matrix A0 => IsPd A0

theorem isPd_one : IsPd (1 : Matrix n n ℝ) :=
  ⟨isSymm_one, fun x hx => by
    rw [one_mulVec]
    exact lt_of_le_of_ne (Finset.sum_nonneg fun i _ => mul_self_nonneg (x i))
      (fun h => hx (dotProduct_self_eq_zero.1 h.symm))⟩

theorem isPd_isUnit_det {M : Matrix n n ℝ} (h : IsPd M) : IsUnit M.det := by
  rw [← isUnit_iff_isUnit_det, ← mulVec_injective_iff_isUnit]
  intro x y hxy
  have : M *ᵥ (x - y) = 0 := by rw [mulVec_sub]; exact sub_eq_zero.2 hxy
  exact sub_eq_zero.1 (h.inj _ this)

private theorem priorMeans_spec {A : Matrix n n ℝ} (hA : IsPd A) {x0 b : n → ℝ} {A0 H0 : Matrix n n ℝ}
    (h : priorMeans A x0 b = .ok (A0, H0)) : IsPd H0 ∧ A0.IsSymm := by
  by_cases hb : b = 0
  · rw [hb, prior_means_zero] at h
    exact absurd h (by simp)
  · have key : ∀ A0' H0', priorMeans A x0 b = .ok (A0', H0') → IsPd H0' → A0'.IsSymm → IsPd H0 ∧ A0.IsSymm := by
      intro A0' H0' h1 h2 h3
      have := Except.ok.inj (h1.symm.trans h)
      rw [Prod.mk.injEq] at this
      rw [← this.1, ← this.2]
      exact ⟨h2, h3⟩
    rcases lt_trichotomy (b ⬝ᵥ x0) 0 with h0 | h0 | h0
    · obtain ⟨A0', H0', h1, h2, -, h3, -⟩ := prior_means_negative A x0 b h0
      exact key _ _ h1 h2 h3
    · obtain ⟨A0', H0', h1, h2, -, h3, -⟩ := prior_means_orthogonal A x0 b h0 hb (hA.2 b hb)
      exact key _ _ h1 h2 h3
    · obtain ⟨A0', H0', h1, h2, -, h3, -⟩ := prior_means_partial A x0 b h0
      exact key _ _ h1 h2 h3

theorem inv_isPd {M N : Matrix n n ℝ} (hM : IsPd M) (h : inv M = .ok N) : IsPd N := by
  have hu := isPd_isUnit_det hM
  rw [inv, if_pos hu] at h
  have hN := Except.ok.inj h
  subst hN
  have hs : (M⁻¹).IsSymm := by
    show (M⁻¹)ᵀ = M⁻¹
    rw [transpose_nonsing_inv, hM.1.eq]
  refine ⟨hs, fun x hx => ?_⟩
  have hx' : M⁻¹ *ᵥ x ≠ 0 := by
    intro h0
    apply hx
    have : M *ᵥ (M⁻¹ *ᵥ x) = x := by rw [mulVec_mulVec, mul_nonsing_inv _ hu, one_mulVec]
    rw [← this, h0, mulVec_zero]
  have := hM.2 _ hx'
  rwa [mulVec_mulVec, mul_nonsing_inv _ hu, one_mulVec, dotProduct_comm] at this

theorem priorParams_spec {A : Matrix n n ℝ} (hA : IsPd A) (b : n → ℝ) {prior : Prior n}
    (hp : prior.Consistent) {A0 V0 H0 W0 : Matrix n n ℝ} (h : priorParams A b prior = .ok (A0, V0, H0, W0)) :
    A0.IsSymm ∧ IsPd V0 ∧ IsPd H0 ∧ IsPd W0 := by
  cases prior with
  | none =>
    simp only [priorParams, Except.ok.injEq, Prod.mk.injEq] at h
    obtain ⟨rfl, rfl, rfl, rfl⟩ := h
    exact ⟨isSymm_one, hA, isPd_one, isPd_one⟩
  | guess x0 =>
    simp only [priorParams] at h
    split at h
    · exact absurd h (by simp)
    · next A0' H0' h1 =>
      simp only [Except.ok.injEq, Prod.mk.injEq] at h
      obtain ⟨rfl, rfl, rfl, rfl⟩ := h
      obtain ⟨h2, h3⟩ := priorMeans_spec hA h1
      exact ⟨h3, hA, h2, h2⟩
  | inverse Hi =>
    simp only [priorParams] at h
    split at h
    · exact absurd h (by simp)
    · next A0' h1 =>
      simp only [Except.ok.injEq, Prod.mk.injEq] at h
      obtain ⟨rfl, rfl, rfl, rfl⟩ := h
      exact ⟨(inv_isPd hp h1).1, hA, hp, hp⟩
  | matrix A1 =>
    simp only [priorParams] at h
    split at h
    · exact absurd h (by simp)
    · next A0' h1 =>
      simp only [Except.ok.injEq, Prod.mk.injEq] at h
      obtain ⟨rfl, rfl, rfl, rfl⟩ := h
      exact ⟨IsPd.psd hp |>.1, hp, inv_isPd hp h1, inv_isPd hp h1⟩

theorem init_spec {A : Matrix n n ℝ} (hA : IsPd A) {b : n → ℝ} {prior : Prior n} (hp : prior.Consistent)
    {P : Params n} {st : State n} (h : init A b prior = .ok (P, st)) :
    P.A = A ∧ P.b = b ∧ Inv P 0 st ∧ st.HUpd = 0 ∧ st.AUpd = 0 ∧ IsPd st.HMean ∧ IsPd P.HCov0 ∧ IsPd P.ACov0 ∧
      st.trSol = traceSol b P.HCov0 P.HCov0.trace := by
  simp only [init] at h
  split at h
  · exact absurd h (by simp)
  · next A0 V0 H0 W0 h1 =>
    obtain ⟨h2, h3, h4, h5⟩ := priorParams_spec hA b hp h1
    simp only [Except.ok.injEq, Prod.mk.injEq] at h
    obtain ⟨rfl, rfl⟩ := h
    refine ⟨rfl, rfl, ?_, rfl, rfl, h4, h5, h3, rfl⟩
    have hk : ∀ v, W0 *ᵥ (A *ᵥ v) = 0 → v = 0 := fun v hv => hA.inj _ (h5.inj _ hv)
    constructor
    · rfl
    · rfl
    · exact h4.1
    · exact h2
    · exact h5.psd
    · exact h3.psd
    · exact (sub_zero _).symm
    · exact (sub_zero _).symm
    · intro v hv; rw [hk v hv]; simp
    · intro v hv; rw [h3.inj v hv]; simp
    · intro v hv; rw [hk v hv]; simp
    · intro v
      constructor
      · intro hv; rw [h3.inj v hv]; simp
      · intro hv; rw [hk v hv]; simp
    · intro s hs; exact absurd hs (by simp)
    · rfl
    · rfl
    · exact List.Pairwise.nil
    · exact Nat.zero_le _
    · simp

/-- After any number of iterations: the invariant. -/
theorem steps_inv {A : Matrix n n ℝ} (hA : IsPd A) {b : n → ℝ} {prior : Prior n} (hp : prior.Consistent)
    {P : Params n} {st0 : State n} (h0 : init A b prior = .ok (P, st0)) (k : ℕ) {st : State n}
    (h : steps P st0 k = .ok st) : Inv P k st ∧ (k = 0 → st = st0) := by
  obtain ⟨rfl, -, hi, hu, ha, -⟩ := init_spec hA hp h0
  induction k generalizing st with
  | zero => have := Except.ok.inj h; subst this; exact ⟨hi, fun _ => rfl⟩
  | succ k ih =>
    rw [steps] at h
    split at h
    · exact absurd h (by simp)
    · next st1 h1 =>
      obtain ⟨hi1, hz1⟩ := ih h1
      refine ⟨?_, fun hk => absurd hk (by omega)⟩
      by_cases hs : st1.HMean *ᵥ st1.resid = 0
      · rw [Inv.step_zero hs] at h
        exact absurd h (by simp)
      · obtain ⟨st', h2, h3⟩ := hi1.step hA (fun hz => by
          rw [hi1.iter] at hz
          rw [hz1 hz]; exact ⟨hu, ha⟩) hs
        rw [h2] at h
        have := Except.ok.inj h
        subst this
        exact h3

/-- **C34 (partial): conjugacy, residual, secant equations.**  For a symmetric positive definite system and any consistent
prior, after any number `k` of iterations that did not divide by zero: the maintained residual is `A x - b`; there are `k`
search directions, none zero, pairwise conjugate with respect to `A`, with observations `A s`; the means of the inverse and of the
matrix are symmetric and satisfy every secant equation; both covariance factors are positive semi-definite and vanish in the
observed directions; the residual is orthogonal to all search directions; and `k` is at most the number of unknowns.
Missing from C34: an iteration may divide by zero before the residual vanishes, see `breakdown`. -/
theorem conjugate_secant_partial {A : Matrix n n ℝ} (hA : IsPd A) {b : n → ℝ} {prior : Prior n} (hp : prior.Consistent)
    {P : Params n} {st0 : State n} (h0 : init A b prior = .ok (P, st0)) (k : ℕ) {st : State n}
    (h : steps P st0 k = .ok st) :
    st.iter = k ∧ st.resid = A *ᵥ st.x - b ∧ st.dirs.length = k ∧ st.obs = st.dirs.map (A *ᵥ ·) ∧
    st.dirs.Pairwise (fun s t => s ⬝ᵥ A *ᵥ t = 0) ∧
    (∀ s ∈ st.dirs, s ≠ 0 ∧ st.HMean *ᵥ (A *ᵥ s) = s ∧ st.AMean *ᵥ s = A *ᵥ s ∧ st.HCov *ᵥ (A *ᵥ s) = 0 ∧
      st.ACov *ᵥ s = 0 ∧ s ⬝ᵥ st.resid = 0) ∧
    st.HMean.IsSymm ∧ st.AMean.IsSymm ∧ IsPsd st.HCov ∧ IsPsd st.ACov ∧ k ≤ Fintype.card n := by
  obtain ⟨hPA, hPb, -⟩ := init_spec hA hp h0
  obtain ⟨hi, -⟩ := steps_inv hA hp h0 k h
  subst hPA hPb
  exact ⟨hi.iter, hi.resid, hi.len, hi.obs, hi.conj, fun s hs =>
    ⟨(hi.dirs s hs).1, hi.hKnown s (hi.dirs s hs).2, hi.aKnown s ((hi.same s).2 (hi.dirs s hs).2), (hi.dirs s hs).2,
      (hi.same s).2 (hi.dirs s hs).2, hi.orth s (hi.dirs s hs).2⟩, hi.hSymm, hi.aSymm, hi.hPsd, hi.aPsd, hi.le⟩

/-- **C34 (partial): exact after `n` iterations.**  If `n` iterations go through, the iterate solves the system, and the means
are the inverse and the matrix, known with certainty. -/
theorem solved_after_n_partial {A : Matrix n n ℝ} (hA : IsPd A) {b : n → ℝ} {prior : Prior n} (hp : prior.Consistent)
    {P : Params n} {st0 : State n} (h0 : init A b prior = .ok (P, st0)) {st : State n}
    (h : steps P st0 (Fintype.card n) = .ok st) :
    A *ᵥ st.x = b ∧ st.resid = 0 ∧ st.HMean = A⁻¹ ∧ st.AMean = A ∧ st.HCov = 0 ∧ st.ACov = 0 := by
  obtain ⟨hPA, hPb, -⟩ := init_spec hA hp h0
  obtain ⟨hi, -⟩ := steps_inv hA hp h0 _ h
  subst hPA hPb
  have hf := hi.full le_rfl
  have hr : st.resid = 0 := by
    have := hi.orth st.resid (hf _)
    exact dotProduct_self_eq_zero.1 this
  have hext : ∀ M N : Matrix n n ℝ, (∀ v, M *ᵥ v = N *ᵥ v) → M = N := fun M N hMN => by
    ext i j
    have := congrFun (hMN (Pi.single j 1)) i
    simpa using this
  have hu := isPd_isUnit_det hA
  refine ⟨?_, hr, ?_, ?_, ?_, ?_⟩
  · rw [hi.resid] at hr; exact sub_eq_zero.1 hr
  · have : st.HMean * P.A = 1 := hext _ _ fun v => by rw [← mulVec_mulVec, hi.hKnown v (hf v), one_mulVec]
    exact (inv_eq_left_inv this).symm
  · exact hext _ _ fun v => hi.aKnown v ((hi.same v).2 (hf v))
  · refine hext _ _ fun v => ?_
    have := hf (P.A⁻¹ *ᵥ v)
    rw [mulVec_mulVec v P.A P.A⁻¹, mul_nonsing_inv _ hu, one_mulVec] at this
    rw [this, zero_mulVec]
  · exact hext _ _ fun v => by rw [(hi.same v).2 (hf v), zero_mulVec]

/-- **C34: when an iteration fails.**  An iteration fails (with a division by zero, `nan` in the code) exactly when the mean of the
inverse maps the residual to zero; this includes the solved case, and never happens at the first iteration of an unsolved
system. -/
theorem step_fails_iff {A : Matrix n n ℝ} (hA : IsPd A) {b : n → ℝ} {prior : Prior n} (hp : prior.Consistent)
    {P : Params n} {st0 : State n} (h0 : init A b prior = .ok (P, st0)) (k : ℕ) {st : State n}
    (h : steps P st0 k = .ok st) :
    (step P st = .error .zeroDivisionError ↔ st.HMean *ᵥ st.resid = 0) ∧
    (st.HMean *ᵥ st.resid ≠ 0 → ∃ st', step P st = .ok st') ∧
    (k = 0 → A *ᵥ st.x ≠ b → st.HMean *ᵥ st.resid ≠ 0) := by
  obtain ⟨hPA, hPb, -, hu, ha, hH, -⟩ := init_spec hA hp h0
  obtain ⟨hi, hz⟩ := steps_inv hA hp h0 _ h
  subst hPA hPb
  have hok : st.HMean *ᵥ st.resid ≠ 0 → ∃ st', step P st = .ok st' := fun hs => by
    obtain ⟨st', h2, -⟩ := hi.step hA (fun hz' => by
      rw [hi.iter] at hz'
      rw [hz hz']; exact ⟨hu, ha⟩) hs
    exact ⟨st', h2⟩
  refine ⟨⟨fun he => ?_, Inv.step_zero⟩, hok, fun hk hx => ?_⟩
  · by_contra hs
    obtain ⟨st', h2⟩ := hok hs
    rw [h2] at he
    exact absurd he (by simp)
  · intro hs
    apply hx
    rw [hz hk] at hs hi ⊢
    have := hH.inj _ hs
    rw [hi.resid] at this
    exact sub_eq_zero.1 this

/-- **C34 (partial): termination.**  With a non-negative absolute tolerance the loop of `solve` ends within `n + 1` passes, for
every `maxiter` and `rtol`.  If it returns, then after at most `maxiter` (when non-negative) and at most `n` iterations, for the
reported reason, which is true of the returned solution.  If it fails, then because the mean of the inverse maps the nonzero
residual to zero. -/
theorem solve_partial {A : Matrix n n ℝ} (hA : IsPd A) {b : n → ℝ} {prior : Prior n} (hp : prior.Consistent)
    {P : Params n} {st0 : State n} (h0 : init A b prior = .ok (P, st0)) (maxiter : ℤ) (atol rtol : ℝ) (hatol : 0 ≤ atol) :
    ∃ r, solveLoop P maxiter atol rtol (Fintype.card n + 1) st0 = some r ∧
      (∀ st c, r = .ok (st, c) → steps P st0 st.iter = .ok st ∧ st.iter ≤ Fintype.card n ∧
        (0 ≤ maxiter → st.iter ≤ maxiter) ∧ (c = .maxiter → maxiter ≤ st.iter) ∧
        (c = .residAtol → norm2 (A *ᵥ st.x - b) ≤ atol) ∧
        (c = .residRtol → norm2 (A *ᵥ st.x - b) ≤ rtol * norm2 b) ∧
        (c = .tracecovAtol → Real.sqrt st.trSol ≤ atol) ∧
        (c = .tracecovRtol → Real.sqrt st.trSol ≤ rtol * norm2 b)) ∧
      (∀ e, r = .error e → e = .zeroDivisionError ∧
        ∃ k st, steps P st0 k = .ok st ∧ A *ᵥ st.x ≠ b ∧ st.HMean *ᵥ (A *ᵥ st.x - b) = 0) := by
  obtain ⟨hPA, hPb, -⟩ := init_spec hA hp h0
  have key : ∀ (fuel k : ℕ) (st : State n), steps P st0 k = .ok st → fuel + k = Fintype.card n + 1 →
      (0 ≤ maxiter → (k : ℤ) ≤ maxiter) →
      ∃ r, solveLoop P maxiter atol rtol fuel st = some r ∧
      (∀ st c, r = .ok (st, c) → steps P st0 st.iter = .ok st ∧ st.iter ≤ Fintype.card n ∧
        (0 ≤ maxiter → st.iter ≤ maxiter) ∧ (c = .maxiter → maxiter ≤ st.iter) ∧
        (c = .residAtol → norm2 (A *ᵥ st.x - b) ≤ atol) ∧
        (c = .residRtol → norm2 (A *ᵥ st.x - b) ≤ rtol * norm2 b) ∧
        (c = .tracecovAtol → Real.sqrt st.trSol ≤ atol) ∧
        (c = .tracecovRtol → Real.sqrt st.trSol ≤ rtol * norm2 b)) ∧
      (∀ e, r = .error e → e = .zeroDivisionError ∧
        ∃ k st, steps P st0 k = .ok st ∧ A *ᵥ st.x ≠ b ∧ st.HMean *ᵥ (A *ᵥ st.x - b) = 0) := by
    intro fuel
    induction fuel with
    | zero =>
      intro k st hk hf _
      have := (steps_inv hA hp h0 k hk).1.le
      omega
    | succ fuel ih =>
      intro k st hk hf hm
      have hi := (steps_inv hA hp h0 k hk).1
      have hres : st.resid = A *ᵥ st.x - b := by rw [hi.resid, hPA, hPb]
      rw [solveLoop]
      cases hc : hasConverged P maxiter atol rtol st with
      | some c =>
        refine ⟨_, rfl, fun st' c' hr => ?_, fun e he => absurd he (by simp)⟩
        have h2 := Except.ok.inj hr
        rw [Prod.mk.injEq] at h2
        obtain ⟨rfl, rfl⟩ := h2
        rw [hi.iter]
        refine ⟨hk, hi.le, hm, ?_⟩
        rw [hasConverged, hi.iter, hres, hPb] at hc
        split at hc
        · next h3 =>
          have := Option.some.inj hc
          subst this
          exact ⟨fun _ => h3, fun h => by simp at h, fun h => by simp at h, fun h => by simp at h, fun h => by simp at h⟩
        · split at hc
          · next h3 =>
            have := Option.some.inj hc
            subst this
            exact ⟨fun h => by simp at h, fun _ => h3, fun h => by simp at h, fun h => by simp at h, fun h => by simp at h⟩
          · split at hc
            · next h3 =>
              have := Option.some.inj hc
              subst this
              exact ⟨fun h => by simp at h, fun h => by simp at h, fun _ => h3, fun h => by simp at h,
                fun h => by simp at h⟩
            · split at hc
              · next h3 =>
                have := Option.some.inj hc
                subst this
                exact ⟨fun h => by simp at h, fun h => by simp at h, fun h => by simp at h, fun _ => h3.2,
                  fun h => by simp at h⟩
              · split at hc
                · next h3 =>
                  have := Option.some.inj hc
                  subst this
                  exact ⟨fun h => by simp at h, fun h => by simp at h, fun h => by simp at h, fun h => by simp at h,
                    fun _ => h3.2⟩
                · exact absurd hc (by simp)
      | none =>
        have hnm : ¬ maxiter ≤ st.iter ∧ ¬ norm2 st.resid ≤ atol := by
          rw [hasConverged] at hc
          split at hc
          · exact absurd hc (by simp)
          · split at hc
            · exact absurd hc (by simp)
            · exact ⟨‹_›, ‹_›⟩
        have hx : A *ᵥ st.x ≠ b := by
          intro hx
          apply hnm.2
          rw [hres, hx, sub_self, norm2]
          simpa using hatol
        obtain ⟨h1, h2, -⟩ := step_fails_iff hA hp h0 k hk
        by_cases hs : st.HMean *ᵥ st.resid = 0
        · simp only [h1.2 hs]
          refine ⟨_, rfl, fun st' c' hr => absurd hr (by simp), fun e he => ?_⟩
          have := Except.error.inj he
          subst this
          exact ⟨rfl, k, st, hk, hx, by rw [← hres]; exact hs⟩
        · obtain ⟨st', h3⟩ := h2 hs
          simp only [h3]
          refine ih (k + 1) st' (by rw [steps, hk]; exact h3) (by omega) fun _ => ?_
          have := hnm.1
          rw [hi.iter] at this
          push_cast
          omega
  exact key _ 0 st0 rfl (by omega) (by intro h; exact_mod_cast h)

theorem step_out {P : Params n} {st st' : State n} (h : step P st = .ok st') :
    st'.iter = st.iter + 1 ∧ st'.ACov = P.ACov0 - st'.AUpd ∧ st'.HCov = P.HCov0 - st'.HUpd ∧
    st'.outA = (if 0 < st.iter then st'.ACov else P.ACov0) ∧ st'.outH = (if 0 < st.iter then st'.HCov else P.HCov0) ∧
    st'.trSol = traceSol P.b st'.outH (P.HCov0.trace - st'.trUpd) := by
  simp only [step] at h
  split at h
  · exact absurd h (by simp)
  · split at h
    · exact absurd h (by simp)
    · split at h
      · exact absurd h (by simp)
      · have := Except.ok.inj h
        subst this
        exact ⟨rfl, rfl, rfl, rfl, rfl, rfl⟩

/-- Specification: the covariance `½ (bᵀWb W + Wb (Wb)ᵀ)` of `H b` when `H` has covariance `W ⊗ₛ W`. -/
noncomputable def solutionCov (W : Matrix n n ℝ) (b : n → ℝ) : Matrix n n ℝ :=
  (0.5 : ℝ) • ((b ⬝ᵥ W *ᵥ b) • W + vecMulVec (W *ᵥ b) (W *ᵥ b))

/-- **C34: uncertainty of the result.**  After two or more iterations the returned beliefs about the matrix and its inverse carry
the current covariance factors, and the trace used for stopping is that of the covariance they induce on the solution. -/
theorem output_covariances {A : Matrix n n ℝ} (hA : IsPd A) {b : n → ℝ} {prior : Prior n} (hp : prior.Consistent)
    {P : Params n} {st0 : State n} (h0 : init A b prior = .ok (P, st0)) (k : ℕ) {st : State n}
    (h : steps P st0 (k + 2) = .ok st) :
    st.outA = st.ACov ∧ st.outH = st.HCov ∧ st.trSol = (solutionCov st.HCov b).trace := by
  have hi := (steps_inv hA hp h0 _ h).1
  obtain ⟨-, hPb, -⟩ := init_spec hA hp h0
  rw [steps] at h
  split at h
  · exact absurd h (by simp)
  · next st1 h1 =>
    have hi1 := (steps_inv hA hp h0 _ h1).1
    obtain ⟨-, -, h3, h4, h5, h6⟩ := step_out h
    rw [hi1.iter, if_pos (by omega)] at h4 h5
    refine ⟨h4, h5, ?_⟩
    rw [h6, h5, hi.tr, ← trace_sub, ← h3, hPb, traceSol, solutionCov, trace_smul, trace_add, trace_smul,
      trace_vecMulVec, dotProduct_comm b, smul_eq_mul, smul_eq_mul]

/-- **C34 fails for the returned uncertainty after exactly one iteration**: the beliefs carry the covariance factors of the
prior, although the current ones vanish in the observed direction. -/
theorem output_after_one {A : Matrix n n ℝ} (hA : IsPd A) {b : n → ℝ} {prior : Prior n} (hp : prior.Consistent)
    {P : Params n} {st0 : State n} (h0 : init A b prior = .ok (P, st0)) {st : State n} (h : steps P st0 1 = .ok st) :
    st.outA = P.ACov0 ∧ st.outH = P.HCov0 ∧ st.outA ≠ st.ACov ∧ st.outH ≠ st.HCov := by
  have hi := (steps_inv hA hp h0 _ h).1
  have hi0 := (steps_inv hA hp h0 0 rfl).1
  obtain ⟨hPA, -, -, -, -, -, hW, hV, -⟩ := init_spec hA hp h0
  rw [steps, steps] at h
  obtain ⟨-, -, -, h4, h5, -⟩ := step_out h
  rw [hi0.iter, if_neg (lt_irrefl _)] at h4 h5
  obtain ⟨s, hs⟩ := List.exists_mem_of_length_pos (l := st.dirs) (by rw [hi.len]; omega)
  obtain ⟨h6, h7⟩ := hi.dirs s hs
  refine ⟨h4, h5, fun hc => ?_, fun hc => ?_⟩
  · rw [h4] at hc
    have := (hi.same s).2 h7
    rw [← hc] at this
    exact h6 (hV.inj _ this)
  · rw [h5] at hc
    rw [← hc] at h7
    rw [hPA] at h7
    exact h6 (hA.inj _ (hW.inj _ h7))

/-- **C34 fails when `solve` is called again.**  After `solve` is called a second time and does one iteration, the covariance factor
of the inverse has forgotten all that was observed before: in those directions it is the prior's. -/
theorem resume_forgets {A : Matrix n n ℝ} (hA : IsPd A) {b : n → ℝ} {prior : Prior n} (hp : prior.Consistent)
    {P : Params n} {st0 : State n} (h0 : init A b prior = .ok (P, st0)) (k : ℕ) {st st' : State n}
    (h : steps P st0 k = .ok st) (h' : step P (resume P st) = .ok st') (s : n → ℝ) (hs : s ∈ st.dirs) :
    st'.HCov *ᵥ (A *ᵥ s) = P.HCov0 *ᵥ (A *ᵥ s) ∧ st'.HCov *ᵥ (A *ᵥ s) ≠ 0 := by
  have hi := (steps_inv hA hp h0 _ h).1
  obtain ⟨hPA, -, -, -, -, -, hW, -⟩ := init_spec hA hp h0
  have hr : (resume P st).resid = st.resid := hi.resid.symm
  have hsz : st.HMean *ᵥ st.resid ≠ 0 := by
    intro hz
    have : step P (resume P st) = .error .zeroDivisionError := Inv.step_zero (by rw [hr]; exact hz)
    rw [this] at h'
    exact absurd h' (by simp)
  obtain ⟨t, ht⟩ : ∃ t, t = -(st.HMean *ᵥ st.resid) := ⟨_, rfl⟩
  have ht0 : t ≠ 0 := by rw [ht]; exact neg_ne_zero.2 hsz
  have hPApd : IsPd P.A := by rw [hPA]; exact hA
  have hH : 0 < P.A *ᵥ t ⬝ᵥ st.HCov *ᵥ (P.A *ᵥ t) := by
    rcases hi.hPsd.gram_cases (P.A *ᵥ t) with h1 | h1
    · exact h1
    · have := hi.conj_new hPApd t h1
      rw [← ht] at this
      exact absurd this (hPApd.2 t ht0).ne'
  obtain ⟨H', U', hh1, -, -, -, -, hh6, -⟩ := symUpdate_spec hi.hSymm hi.hPsd (P.A *ᵥ t) t hH
  have hU : st'.HCov = P.HCov0 - U' := by
    rw [step, hr] at h'
    have h1 : (resume P st).HMean = st.HMean := rfl
    have h2 : (resume P st).HCov = st.HCov := rfl
    have h3 : (resume P st).iter = 0 := rfl
    rw [h1, ← ht] at h'
    simp only [h2, h3, hh1, if_true] at h'
    split at h'
    · exact absurd h' (by simp)
    · split at h'
      · exact absurd h' (by simp)
      · have := Except.ok.inj h'
        subst this
        rfl
  have h7 := (hi.dirs s hs).2
  rw [hPA] at h7
  have h8 : st'.HCov *ᵥ (A *ᵥ s) = P.HCov0 *ᵥ (A *ᵥ s) := by rw [hU, sub_mulVec, hh6 _ h7, sub_zero]
  refine ⟨h8, fun hc => ?_⟩
  rw [h8] at hc
  exact (hi.dirs s hs).1 (hA.inj _ (hW.inj _ hc))

/-! ### Breakdown -/

/-- A positive definite system on which the default prior breaks down. -/
noncomputable def badA : Matrix (Fin 2) (Fin 2) ℝ := !![2 / 15, 0; 0, 1 / 15]

/-- Its right-hand side. -/
noncomputable def badB : Fin 2 → ℝ := ![-(15 / 13), -(15 / 14)]

theorem badA_isPd : IsPd badA := by
  refine ⟨?_, fun x hx => ?_⟩
  · ext i j; fin_cases i <;> fin_cases j <;> simp [badA]
  · have : x ⬝ᵥ badA *ᵥ x = 2 / 15 * x 0 ^ 2 + 1 / 15 * x 1 ^ 2 := by
      simp [badA, dotProduct, mulVec, Fin.sum_univ_two]; ring
    rw [this]
    have h : x 0 ≠ 0 ∨ x 1 ≠ 0 := by
      by_contra hc
      push Not at hc
      apply hx
      ext i; fin_cases i
      · exact hc.1
      · exact hc.2
    rcases h with h | h
    · have := pow_pos (abs_pos.2 h) 2
      rw [sq_abs] at this
      nlinarith [sq_nonneg (x 1)]
    · have := pow_pos (abs_pos.2 h) 2
      rw [sq_abs] at this
      nlinarith [sq_nonneg (x 0)]

private noncomputable def badP : Params (Fin 2) := ⟨badA, badB, badA, 1⟩

private noncomputable def bad0 : State (Fin 2) :=
  ⟨1, badA, 0, 1, 1, 0, badB, ![1, 1], 0, [], [], 0, traceSol badB 1 2, badA, 1⟩

private theorem bad_init : init badA badB .none = .ok (badP, bad0) := by
  have h1 : badA *ᵥ badB - badB = ![1, 1] := by
    ext i; fin_cases i <;> simp [badA, badB, mulVec, dotProduct, Fin.sum_univ_two] <;> norm_num
  simp only [init, priorParams, initX, one_mulVec, h1, badP, bad0, trace_one]
  norm_num

private theorem bad_step : ∃ st1, step badP bad0 = .ok st1 ∧ st1.HMean = !![5, 5; 5, 5] ∧ st1.resid = ![-(1 / 3), 1 / 3] ∧
    st1.iter = 1 ∧ st1.trSol = badB ⬝ᵥ badB := by
  have hs : -(bad0.HMean *ᵥ bad0.resid) = ![-1, -1] := by
    ext i; fin_cases i <;> simp [bad0]
  have hy : badP.A *ᵥ ![-1, -1] = ![-(2 / 15), -(1 / 15)] := by
    ext i; fin_cases i <;> simp [badP, badA, mulVec, dotProduct, Fin.sum_univ_two]
  have h1 : (![-1, -1] : Fin 2 → ℝ) ⬝ᵥ ![-(2 / 15), -(1 / 15)] = 1 / 5 := by
    simp [dotProduct, Fin.sum_univ_two]; norm_num
  have h2 : (![-1, -1] : Fin 2 → ℝ) ⬝ᵥ bad0.resid = -2 := by
    simp [bad0, dotProduct, Fin.sum_univ_two]; norm_num
  have hV : bad0.ACov *ᵥ ![-1, -1] = ![-(2 / 15), -(1 / 15)] := hy
  have hW : bad0.HCov *ᵥ ![-(2 / 15), -(1 / 15)] = ![-(2 / 15), -(1 / 15)] := by
    show (1 : Matrix (Fin 2) (Fin 2) ℝ) *ᵥ _ = _
    rw [one_mulVec]
  have h3 : (![-(2 / 15), -(1 / 15)] : Fin 2 → ℝ) ⬝ᵥ ![-(2 / 15), -(1 / 15)] = 1 / 45 := by
    simp [dotProduct, Fin.sum_univ_two]; norm_num
  have hit : bad0.iter = 0 := rfl
  have htr : bad0.trUpd = 0 := rfl
  rw [step, hs, hy]
  simp only [h1, h2, symUpdate, hV, hW, h3, fdiv_ok (show (1 / 5 : ℝ) ≠ 0 by norm_num),
    fdiv_ok (show (1 / 45 : ℝ) ≠ 0 by norm_num), hit, htr, lt_irrefl, if_false, if_true]
  refine ⟨_, rfl, ?_, ?_, rfl, ?_⟩
  · ext i j
    fin_cases i <;> fin_cases j <;>
      simp [bad0, meanUpdate, vecMulVec_apply, dotProduct, Fin.sum_univ_two] <;> norm_num
  · ext i
    fin_cases i <;> simp [bad0] <;> norm_num
  · simp only [traceSol, badP, one_mulVec, trace_one, Fintype.card_fin]
    norm_num
    ring

private theorem not_converged {P : Params n} {maxiter : ℤ} {atol rtol : ℝ} {st : State n} (h1 : ¬ maxiter ≤ st.iter)
    (h2 : ¬ norm2 st.resid ≤ atol) (h3 : ¬ norm2 st.resid ≤ rtol * norm2 P.b) (h4 : ¬ Real.sqrt st.trSol ≤ atol)
    (h5 : ¬ Real.sqrt st.trSol ≤ rtol * norm2 P.b) : hasConverged P maxiter atol rtol st = none := by
  rw [hasConverged, if_neg h1, if_neg h2, if_neg h3, if_neg fun h => h4 h.2, if_neg fun h => h5 h.2]

/-- **C34 fails: breakdown.**  For the positive definite system `badA x = badB` and the default prior, the second iteration divides by
zero although the system is not solved: the mean of the inverse maps the nonzero residual to zero.  For all tolerances up to
`1/10` and every `maxiter ≥ 2`, `solve` fails (in the code: returns `nan`). -/
theorem breakdown : IsPd badA ∧ ∃ P st0 st1, init badA badB .none = .ok (P, st0) ∧ steps P st0 1 = .ok st1 ∧
    badA *ᵥ st1.x ≠ badB ∧ st1.HMean *ᵥ st1.resid = 0 ∧ step P st1 = .error .zeroDivisionError ∧
    ∀ (maxiter : ℤ) (atol rtol : ℝ), 2 ≤ maxiter → atol ≤ 1 / 10 → rtol ≤ 1 / 10 →
      solveLoop P maxiter atol rtol 3 st0 = some (.error .zeroDivisionError) := by
  obtain ⟨st1, h1, h2, h3, h4, h5⟩ := bad_step
  have hr : st1.HMean *ᵥ st1.resid = 0 := by
    rw [h2, h3]; ext i; fin_cases i <;> simp [mulVec, dotProduct, Fin.sum_univ_two]
  have hs1 : steps badP bad0 1 = .ok st1 := by rw [steps, steps]; exact h1
  have hx := (conjugate_secant_partial badA_isPd (prior := .none) trivial bad_init 1 hs1).2.1
  have hstep : step badP st1 = .error .zeroDivisionError := Inv.step_zero hr
  refine ⟨badA_isPd, badP, bad0, st1, bad_init, hs1, ?_, hr, hstep, ?_⟩
  · intro hc
    rw [hc, sub_self, h3] at hx
    have := congrFun hx 1
    norm_num at this
  · intro maxiter atol rtol hm ha hrt
    have hb : badB ⬝ᵥ badB = (15 / 13) ^ 2 + (15 / 14) ^ 2 := by
      simp [badB, dotProduct, Fin.sum_univ_two]; ring
    have hnb : norm2 badB ≤ 2 := by
      rw [norm2, hb, Real.sqrt_le_left (by norm_num)]; norm_num
    have hnb0 : 0 ≤ norm2 badB := Real.sqrt_nonneg _
    have hrb : rtol * norm2 badB ≤ 1 / 5 := by
      calc rtol * norm2 badB ≤ 1 / 10 * norm2 badB := mul_le_mul_of_nonneg_right hrt hnb0
        _ ≤ 1 / 5 := by linarith
    have hnr0 : 2 / 5 < norm2 (![1, 1] : Fin 2 → ℝ) := by
      rw [norm2]; apply Real.lt_sqrt_of_sq_lt; simp [dotProduct, Fin.sum_univ_two]; norm_num
    have hnr1 : 2 / 5 < norm2 (![-(1 / 3), 1 / 3] : Fin 2 → ℝ) := by
      rw [norm2]; apply Real.lt_sqrt_of_sq_lt; simp [dotProduct, Fin.sum_univ_two]; norm_num
    have ht0 : 1 < Real.sqrt (traceSol badB 1 2) := by
      apply Real.lt_sqrt_of_sq_lt
      rw [traceSol, one_mulVec, hb]; norm_num
    have ht1 : 1 < Real.sqrt st1.trSol := by
      apply Real.lt_sqrt_of_sq_lt
      rw [h5, hb]; norm_num
    have hc0 : hasConverged badP maxiter atol rtol bad0 = none := by
      have hz : (bad0.iter : ℤ) = 0 := rfl
      refine not_converged (by omega) ?_ ?_ ?_ ?_
      · show ¬ norm2 ![1, 1] ≤ atol; linarith
      · show ¬ norm2 ![1, 1] ≤ rtol * norm2 badB; linarith
      · show ¬ Real.sqrt (traceSol badB 1 2) ≤ atol; linarith
      · show ¬ Real.sqrt (traceSol badB 1 2) ≤ rtol * norm2 badB; linarith
    have hc1 : hasConverged badP maxiter atol rtol st1 = none := by
      refine not_converged (by omega) ?_ ?_ ?_ ?_
      · rw [h3]; linarith
      · rw [h3]; show ¬ _ ≤ rtol * norm2 badB; linarith
      · linarith
      · show ¬ _ ≤ rtol * norm2 badB; linarith
    rw [solveLoop, hc0]
    simp only [h1]
    rw [solveLoop, hc1]
    simp only [hstep]

/-- The hypotheses of the theorems above are met, for example by the system `badA x = badB` after one iteration. -/
example : ∃ P st0 st1, init badA badB .none = .ok (P, st0) ∧ steps P st0 1 = .ok st1 ∧
    st1.resid = badA *ᵥ st1.x - badB ∧ st1.dirs.length = 1 := by
  obtain ⟨st1, h1, -⟩ := bad_step
  have hs1 : steps badP bad0 1 = .ok st1 := by rw [steps, steps]; exact h1
  obtain ⟨-, h2, h3, -⟩ := conjugate_secant_partial badA_isPd (prior := .none) trivial bad_init 1 hs1
  exact ⟨_, _, st1, bad_init, hs1, h2, h3⟩

/-- In one dimension `n = 1` iterations always go through. -/
example (a b : ℝ) (ha : 0 < a) (hb : a * b ≠ b) : ∃ P st0 st, init (n := Fin 1) !![a] ![b] .none = .ok (P, st0) ∧
    steps P st0 1 = .ok st ∧ !![a] *ᵥ st.x = ![b] := by
  have hA : IsPd !![a] := ⟨by ext i j; fin_cases i; fin_cases j; rfl, fun x hx => by
    have h0 : x 0 ≠ 0 := fun h => hx (by ext i; fin_cases i; exact h)
    have : x ⬝ᵥ !![a] *ᵥ x = a * x 0 ^ 2 := by simp [dotProduct, mulVec]; ring
    rw [this]; positivity⟩
  have hi : ∃ P st0, init (n := Fin 1) !![a] ![b] .none = .ok (P, st0) ∧ st0.x = ![b] := by
    refine ⟨_, _, rfl, ?_⟩
    simp [initX]
  obtain ⟨P, st0, h0, hx⟩ := hi
  obtain ⟨-, h2, h3⟩ := step_fails_iff hA (prior := .none) trivial h0 0 (st := st0) rfl
  obtain ⟨st, h4⟩ := h2 (h3 rfl (by
    rw [hx]
    intro h
    have := congrFun h 0
    have h5 : a * b = b := by
      rw [mulVec, dotProduct, Fin.sum_univ_one] at this
      exact this
    exact hb h5))
  have hs : steps P st0 1 = .ok st := by rw [steps, steps]; exact h4
  exact ⟨P, st0, st, h0, hs, (solved_after_n_partial hA (prior := .none) trivial h0 hs).1⟩

end Probnum.Linalg.MatrixBased
