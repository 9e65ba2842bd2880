import Verif.Linalg.LemmasUpdates
import Mathlib.LinearAlgebra.Matrix.NonsingularInverse
import Mathlib.LinearAlgebra.Matrix.Kronecker
import Mathlib.Tactic.Abel
import Mathlib.Tactic.NormNum

/-!
# C33, C37: belief updates of probabilistic linear solvers
-/

namespace Probnum.Linalg

open Matrix

variable {n : Type} [Fintype n]

/-! ## C33 -/

/-- The linear update in one formula. -/
private theorem matrixUpdate_eq (b : MatBelief n) (hk : b.kind = .kronecker) (s y : n → ℝ) :
    matrixUpdate b s y = .ok ⟨b.mean + vecMulVec (y - b.mean *ᵥ s) (gramPinv (s ⬝ᵥ b.factor *ᵥ s) • (b.factor *ᵥ s)),
      .kronecker, b.left, down b.factor s 0⟩ := by
  rw [matrixUpdate, if_pos hk, down, add_zero]

private theorem symmetricUpdate_eq (b : MatBelief n) (hk : b.kind = .symmetricKronecker) (s y : n → ℝ) :
    symmetricUpdate b s y =
      .ok ⟨b.mean + vecMulVec (y - b.mean *ᵥ s) (gramPinv (s ⬝ᵥ b.factor *ᵥ s) • (b.factor *ᵥ s))
          + (vecMulVec (y - b.mean *ᵥ s) (gramPinv (s ⬝ᵥ b.factor *ᵥ s) • (b.factor *ᵥ s)))ᵀ
          - vecMulVec (gramPinv (s ⬝ᵥ b.factor *ᵥ s) • (b.factor *ᵥ s))
            (s ᵥ* vecMulVec (y - b.mean *ᵥ s) (gramPinv (s ⬝ᵥ b.factor *ᵥ s) • (b.factor *ᵥ s))),
      .symmetricKronecker, b.left, down b.factor s 0⟩ := by
  rw [symmetricUpdate, if_pos hk, down, add_zero]

private theorem gain_self {W : Matrix n n ℝ} {s : n → ℝ} (hg : 0 < s ⬝ᵥ W *ᵥ s) :
    (gramPinv (s ⬝ᵥ W *ᵥ s) • (W *ᵥ s)) ⬝ᵥ s = 1 := by
  rw [smul_dotProduct, dotProduct_comm (W *ᵥ s) s, gramPinv_pos hg, smul_eq_mul, one_div, inv_mul_cancel₀ hg.ne']

private theorem sym_mean_mulVec (M : Matrix n n ℝ) (r g s t : n → ℝ) :
    (M + vecMulVec r g + (vecMulVec r g)ᵀ - vecMulVec g (s ᵥ* vecMulVec r g)) *ᵥ t
      = M *ᵥ t + (g ⬝ᵥ t) • r + (r ⬝ᵥ t) • g - ((s ⬝ᵥ r) * (g ⬝ᵥ t)) • g := by
  have h1 : (vecMulVec r g)ᵀ = vecMulVec g r := by
    ext i j; simp [vecMulVec_apply, mul_comm]
  have h2 : s ᵥ* vecMulVec r g = (s ⬝ᵥ r) • g := by
    ext i
    simp only [vecMul, dotProduct, vecMulVec_apply, Pi.smul_apply, smul_eq_mul, Finset.sum_mul]
    exact Finset.sum_congr rfl fun j _ => by ring
  rw [h1, h2, sub_mulVec, add_mulVec, add_mulVec, vecMulVec_mulVec, vecMulVec_mulVec, vecMulVec_mulVec, smul_dotProduct,
    smul_eq_mul]

private theorem sym_mean_isSymm {M : Matrix n n ℝ} (hM : M.IsSymm) (r g s : n → ℝ) :
    (M + vecMulVec r g + (vecMulVec r g)ᵀ - vecMulVec g (s ᵥ* vecMulVec r g)).IsSymm := by
  have h2 : s ᵥ* vecMulVec r g = (s ⬝ᵥ r) • g := by
    ext i
    simp only [vecMul, dotProduct, vecMulVec_apply, Pi.smul_apply, smul_eq_mul, Finset.sum_mul]
    exact Finset.sum_congr rfl fun j _ => by ring
  ext i j
  have := congrFun (congrFun hM i) j
  simp only [transpose_apply] at this
  simp only [h2, transpose_apply, Matrix.sub_apply, Matrix.add_apply, vecMulVec_apply, Pi.smul_apply, smul_eq_mul, this]
  ring

/-- **C33 (a), linear update.**  For a belief with Kronecker covariance and positive semi-definite factor `W`: the new factor
is symmetric positive semi-definite and annihilates the action; if the action carries information (`sᵀWs > 0`) the new mean
reproduces the observation exactly; if it carries none (`Ws = 0`) nothing changes; and every direction that was already known
(`Wt = 0`) stays known with the same value.  (Partial: the observation is *not* reproduced for an action without
information; see `no_information_ignored`.) -/
theorem linear_update_partial (b : MatBelief n) (hk : b.kind = .kronecker) (hW : IsPsd b.factor) (s y : n → ℝ) :
    ∃ b', matrixUpdate b s y = .ok b' ∧ b'.kind = .kronecker ∧ b'.left = b.left ∧
      IsPsd b'.factor ∧ b'.factor *ᵥ s = 0 ∧
      (0 < s ⬝ᵥ b.factor *ᵥ s → b'.mean *ᵥ s = y) ∧
      (s ⬝ᵥ b.factor *ᵥ s = 0 → b' = b) ∧
      (∀ t, b.factor *ᵥ t = 0 → b'.factor *ᵥ t = 0 ∧ b'.mean *ᵥ t = b.mean *ᵥ t) := by
  refine ⟨_, matrixUpdate_eq b hk s y, rfl, rfl, hW.down s 0 le_rfl, down_self hW s, fun hg => ?_, fun hg => ?_,
    fun t ht => ⟨down_keeps hW.1 s t 0 ht, ?_⟩⟩
  · rw [add_mulVec, vecMulVec_mulVec, gain_self hg, one_smul]; abel
  · have h0 := hW.mulVec_eq_zero s hg
    cases b with
    | mk M k L W =>
      simp only at hk hg h0 ⊢
      subst hk
      simp only [down, h0, smul_zero, MatBelief.mk.injEq, true_and]
      refine ⟨?_, ?_⟩
      · ext i j; simp [vecMulVec_apply]
      · ext i j; simp [vecMulVec_apply]
  · rw [add_mulVec, vecMulVec_mulVec, smul_dotProduct, gain_dot_kernel hW.1 s t ht, smul_zero, zero_smul, add_zero]

/-- **C33 (b), symmetric update.**  The same with the symmetric update, which moreover keeps a symmetric mean symmetric.  A
known direction `t` keeps its value if the two observations are those of one symmetric matrix
(`yᵀt = sᵀ(Mt)`). -/
theorem symmetric_update_partial (b : MatBelief n) (hk : b.kind = .symmetricKronecker) (hW : IsPsd b.factor)
    (s y : n → ℝ) :
    ∃ b', symmetricUpdate b s y = .ok b' ∧ b'.kind = .symmetricKronecker ∧
      IsPsd b'.factor ∧ b'.factor *ᵥ s = 0 ∧
      (b.mean.IsSymm → b'.mean.IsSymm) ∧
      (0 < s ⬝ᵥ b.factor *ᵥ s → b'.mean *ᵥ s = y) ∧
      (s ⬝ᵥ b.factor *ᵥ s = 0 → b' = b) ∧
      (b.mean.IsSymm → ∀ t, b.factor *ᵥ t = 0 → b'.factor *ᵥ t = 0 ∧
        (y ⬝ᵥ t = s ⬝ᵥ b.mean *ᵥ t → b'.mean *ᵥ t = b.mean *ᵥ t)) := by
  refine ⟨_, symmetricUpdate_eq b hk s y, rfl, hW.down s 0 le_rfl, down_self hW s,
    fun hM => sym_mean_isSymm hM _ _ _, fun hg => ?_, fun hg => ?_,
    fun hM t ht => ⟨down_keeps hW.1 s t 0 ht, fun hc => ?_⟩⟩
  · rw [sym_mean_mulVec, gain_self hg, one_smul, mul_one, dotProduct_comm s (y - b.mean *ᵥ s)]; abel
  · have h0 := hW.mulVec_eq_zero s hg
    cases b with
    | mk M k L W =>
      simp only at hk hg h0 ⊢
      subst hk
      simp only [down, h0, smul_zero, MatBelief.mk.injEq, true_and]
      refine ⟨?_, ?_⟩
      · ext i j; simp [vecMulVec_apply]
      · ext i j; simp [vecMulVec_apply]
  · have hr : (y - b.mean *ᵥ s) ⬝ᵥ t = 0 := by
      rw [sub_dotProduct, hc, symm_dot hM, sub_self]
    rw [sym_mean_mulVec, smul_dotProduct, gain_dot_kernel hW.1 s t ht, hr]
    simp

/-- **C33 (c).**  A covariance without the required structure is rejected. -/
theorem update_rejects (b : MatBelief n) (s y : n → ℝ) :
    (b.kind ≠ .kronecker → matrixUpdate b s y = .error .valueError) ∧
    (b.kind ≠ .symmetricKronecker → symmetricUpdate b s y = .error .valueError) :=
  ⟨fun h => by rw [matrixUpdate, if_neg h], fun h => by rw [symmetricUpdate, if_neg h]⟩

/-- Belief after observing `A s` for every action of a list, in order. -/
noncomputable def updateAll (update : MatBelief n → (n → ℝ) → (n → ℝ) → Res (MatBelief n)) (A : Matrix n n ℝ) :
    MatBelief n → List (n → ℝ) → Res (MatBelief n)
  | b, [] => .ok b
  | b, s :: ss =>
    match update b s (matvecInfo A s) with
    | .error e => .error e
    | .ok b' => updateAll update A b' ss

/-- **C33 (d), whole runs of the linear update.**  Starting from any mean and any positive definite factor, after any finite
sequence of actions (repeated, dependent or zero ones included) the updates have succeeded, the mean agrees with `A` on
every action so far, the factor annihilates every action so far and is positive semi-definite. -/
theorem linear_updates_interpolate (A : Matrix n n ℝ) (b : MatBelief n) (hk : b.kind = .kronecker) (hW : IsPd b.factor)
    (ss : List (n → ℝ)) :
    ∃ b', updateAll matrixUpdate A b ss = .ok b' ∧ IsPsd b'.factor ∧ b'.left = b.left ∧
      ∀ s ∈ ss, b'.mean *ᵥ s = A *ᵥ s ∧ b'.factor *ᵥ s = 0 := by
  have key : ∀ (ss : List (n → ℝ)) (b : MatBelief n), b.kind = .kronecker → IsPsd b.factor →
      (∀ v, b.factor *ᵥ v = 0 → b.mean *ᵥ v = A *ᵥ v) →
      ∃ b', updateAll matrixUpdate A b ss = .ok b' ∧ IsPsd b'.factor ∧ b'.left = b.left ∧
        (∀ v, b'.factor *ᵥ v = 0 → b'.mean *ᵥ v = A *ᵥ v) ∧ (∀ v, b.factor *ᵥ v = 0 → b'.factor *ᵥ v = 0) ∧
        ∀ s ∈ ss, b'.factor *ᵥ s = 0 := by
    intro ss
    induction ss with
    | nil => intro b _ hP hI; exact ⟨b, rfl, hP, rfl, hI, fun _ h => h, by simp⟩
    | cons s ss ih =>
      intro b hk hP hI
      obtain ⟨b1, h1, hk1, hl1, hP1, hs1, hobs, hno, hkeep⟩ := linear_update_partial b hk hP s (matvecInfo A s)
      have hI1 : ∀ v, b1.factor *ᵥ v = 0 → b1.mean *ᵥ v = A *ᵥ v := by
        rcases hP.gram_cases s with hg | hg
        · intro v hv
          have hfac : b1.factor = down b.factor s 0 := by
            have := (matrixUpdate_eq b hk s (matvecInfo A s)).symm.trans h1
            rw [← Except.ok.inj this]
          rw [hfac] at hv
          obtain ⟨a, ha, -⟩ := down_kernel hP s v hv
          have e1 := (hkeep _ ha).2
          have e2 := hI _ ha
          have e3 := hobs hg
          have : v = (v - a • s) + a • s := by abel
          rw [this, mulVec_add, mulVec_smul, e1, e2, e3, mulVec_add, mulVec_smul, matvecInfo]
        · have : b1 = b := hno (by rw [hg, dotProduct_zero])
          rw [this]; exact hI
      obtain ⟨b', h', hP', hl', hI', hkeep', hss⟩ := ih b1 hk1 hP1 hI1
      refine ⟨b', by rw [updateAll, h1]; exact h', hP', hl'.trans hl1, hI', fun v hv => hkeep' v (hkeep v hv).1, ?_⟩
      intro t ht
      rcases List.mem_cons.1 ht with rfl | ht
      · exact hkeep' _ hs1
      · exact hss t ht
  obtain ⟨b', h1, h2, h3, h4, -, h6⟩ := key ss b hk hW.psd (fun v hv => by rw [hW.inj v hv]; simp)
  exact ⟨b', h1, h2, h3, fun s hs => ⟨h4 s (h6 s hs), h6 s hs⟩⟩

/-- **C33 (e), whole runs of the symmetric update.**  For a symmetric matrix `A` and a symmetric prior mean: as
`linear_updates_interpolate`, and the mean stays symmetric. -/
theorem symmetric_updates_interpolate (A : Matrix n n ℝ) (hA : A.IsSymm) (b : MatBelief n)
    (hk : b.kind = .symmetricKronecker) (hM : b.mean.IsSymm) (hW : IsPd b.factor) (ss : List (n → ℝ)) :
    ∃ b', updateAll symmetricUpdate A b ss = .ok b' ∧ b'.mean.IsSymm ∧ IsPsd b'.factor ∧
      ∀ s ∈ ss, b'.mean *ᵥ s = A *ᵥ s ∧ b'.factor *ᵥ s = 0 := by
  have key : ∀ (ss : List (n → ℝ)) (b : MatBelief n), b.kind = .symmetricKronecker → b.mean.IsSymm → IsPsd b.factor →
      (∀ v, b.factor *ᵥ v = 0 → b.mean *ᵥ v = A *ᵥ v) →
      ∃ b', updateAll symmetricUpdate A b ss = .ok b' ∧ b'.mean.IsSymm ∧ IsPsd b'.factor ∧
        (∀ v, b'.factor *ᵥ v = 0 → b'.mean *ᵥ v = A *ᵥ v) ∧ (∀ v, b.factor *ᵥ v = 0 → b'.factor *ᵥ v = 0) ∧
        ∀ s ∈ ss, b'.factor *ᵥ s = 0 := by
    intro ss
    induction ss with
    | nil => intro b _ hM hP hI; exact ⟨b, rfl, hM, hP, hI, fun _ h => h, by simp⟩
    | cons s ss ih =>
      intro b hk hM hP hI
      obtain ⟨b1, h1, hk1, hP1, hs1, hM1, hobs, hno, hkeep⟩ := symmetric_update_partial b hk hP s (matvecInfo A s)
      have hI1 : ∀ v, b1.factor *ᵥ v = 0 → b1.mean *ᵥ v = A *ᵥ v := by
        rcases hP.gram_cases s with hg | hg
        · intro v hv
          have hfac : b1.factor = down b.factor s 0 := by
            have := (symmetricUpdate_eq b hk s (matvecInfo A s)).symm.trans h1
            rw [← Except.ok.inj this]
          rw [hfac] at hv
          obtain ⟨a, ha, -⟩ := down_kernel hP s v hv
          have e2 := hI _ ha
          have e1 := (hkeep hM _ ha).2 (by rw [e2, matvecInfo, ← symm_dot hA])
          have e3 := hobs hg
          have : v = (v - a • s) + a • s := by abel
          rw [this, mulVec_add, mulVec_smul, e1, e2, e3, mulVec_add, mulVec_smul, matvecInfo]
        · have : b1 = b := hno (by rw [hg, dotProduct_zero])
          rw [this]; exact hI
      obtain ⟨b', h', hM', hP', hI', hkeep', hss⟩ := ih b1 hk1 (hM1 hM) hP1 hI1
      refine ⟨b', by rw [updateAll, h1]; exact h', hM', hP', hI', fun v hv => hkeep' v (hkeep hM v hv).1, ?_⟩
      intro t ht
      rcases List.mem_cons.1 ht with rfl | ht
      · exact hkeep' _ hs1
      · exact hss t ht
  obtain ⟨b', h1, h2, h3, h4, -, h6⟩ := key ss b hk hM hW.psd (fun v hv => by rw [hW.inj v hv]; simp)
  exact ⟨b', h1, h2, h3, fun s hs => ⟨h4 s (h6 s hs), h6 s hs⟩⟩

/-- **C33 (f).**  Once the actions span the space, the mean of either update is the system matrix and the factor is zero. -/
theorem updates_recover [DecidableEq n] (A M W : Matrix n n ℝ) (ss : List (n → ℝ))
    (hspan : Submodule.span ℝ {s | s ∈ ss} = ⊤) (h : ∀ s ∈ ss, M *ᵥ s = A *ᵥ s ∧ W *ᵥ s = 0) : M = A ∧ W = 0 := by
  have key : ∀ P Q : Matrix n n ℝ, (∀ s ∈ ss, P *ᵥ s = Q *ᵥ s) → P = Q := by
    intro P Q hPQ
    have : ∀ v, P *ᵥ v = Q *ᵥ v := by
      intro v
      have hv : v ∈ Submodule.span ℝ {s | s ∈ ss} := by rw [hspan]; trivial
      induction hv using Submodule.span_induction with
      | mem x hx => exact hPQ x hx
      | zero => simp
      | add x y _ _ hx hy => rw [mulVec_add, mulVec_add, hx, hy]
      | smul a x _ hx => rw [mulVec_smul, mulVec_smul, hx]
    ext i j
    have hij := congrFun (this (Pi.single j 1)) i
    simpa using hij
  exact ⟨key M A fun s hs => (h s hs).1, key W 0 fun s hs => by rw [(h s hs).2]; simp⟩

/-- **C33 (g), the belief about the inverse.**  With action and observation swapped, the mean of the belief about the inverse
maps every observation `A s` back to the action `s`. -/
theorem inverse_belief_interpolates [DecidableEq n] (A : Matrix n n ℝ) (hA : IsUnit A.det) (hsym : A.IsSymm)
    (b : MatBelief n) (hk : b.kind = .symmetricKronecker) (hM : b.mean.IsSymm) (hW : IsPd b.factor) (ss : List (n → ℝ)) :
    ∃ b', updateAll symmetricUpdate A⁻¹ b (ss.map (matvecInfo A)) = .ok b' ∧
      ∀ s ∈ ss, b'.mean *ᵥ (A *ᵥ s) = s := by
  have hsi : (A⁻¹).IsSymm := by
    have : (A⁻¹)ᵀ = A⁻¹ := by rw [transpose_nonsing_inv, hsym.eq]
    exact this
  obtain ⟨b', h1, -, -, h4⟩ := symmetric_updates_interpolate A⁻¹ hsi b hk hM hW (ss.map (matvecInfo A))
  refine ⟨b', h1, fun s hs => ?_⟩
  have := (h4 (matvecInfo A s) (List.mem_map_of_mem hs)).1
  rw [matvecInfo] at this
  rw [this, mulVec_mulVec, nonsing_inv_mul _ hA, one_mulVec]

/-- The observation fed to the inverse belief, `A⁻¹ (A s)`, is the action itself. -/
theorem inverse_observation [DecidableEq n] (A : Matrix n n ℝ) (hA : IsUnit A.det) (s : n → ℝ) :
    matvecInfo A⁻¹ (matvecInfo A s) = s := by
  rw [matvecInfo, matvecInfo, mulVec_mulVec, nonsing_inv_mul _ hA, one_mulVec]

/-- Both beliefs after observing `A s` for every action of a list, in order. -/
noncomputable def updateBothAll (update : MatBelief n → (n → ℝ) → (n → ℝ) → Res (MatBelief n)) (A : Matrix n n ℝ) :
    MatBelief n → MatBelief n → List (n → ℝ) → Res (MatBelief n × MatBelief n)
  | b, bi, [] => .ok (b, bi)
  | b, bi, s :: ss =>
    match updateBoth update b bi s (matvecInfo A s) with
    | .error e => .error e
    | .ok (b', bi') => updateBothAll update A b' bi' ss

private theorem updateBothAll_ok [DecidableEq n] (update : MatBelief n → (n → ℝ) → (n → ℝ) → Res (MatBelief n))
    (A : Matrix n n ℝ) (hA : IsUnit A.det) : ∀ (ss : List (n → ℝ)) (b bi b' bi' : MatBelief n),
    updateAll update A b ss = .ok b' → updateAll update A⁻¹ bi (ss.map (matvecInfo A)) = .ok bi' →
    updateBothAll update A b bi ss = .ok (b', bi')
  | [], b, bi, b', bi', h, hi => by
    cases h; cases hi; rfl
  | s :: ss, b, bi, b', bi', h, hi => by
    simp only [List.map_cons, updateAll] at h hi
    rw [inverse_observation A hA] at hi
    cases h1 : update b s (matvecInfo A s) with
    | error e => simp only [h1] at h; cases h
    | ok c =>
      cases h2 : update bi (matvecInfo A s) s with
      | error e => simp only [h2] at hi; cases hi
      | ok ci =>
        simp only [h1] at h
        simp only [h2] at hi
        simp only [updateBothAll, updateBoth, h1, h2]
        exact updateBothAll_ok update A hA ss c ci b' bi' h hi

/-- **C33 (g'), both beliefs together.**  For a symmetric nonsingular matrix and any list of actions the update of the pair
of beliefs succeeds; the belief about the matrix then maps every action `s` to `A s`, and the belief about the inverse maps
`A s` back to `s`. -/
theorem update_both_interpolates [DecidableEq n] (A : Matrix n n ℝ) (hA : IsUnit A.det) (ss : List (n → ℝ))
    (b bi : MatBelief n) (hW : IsPd b.factor) (hWi : IsPd bi.factor) :
    (b.kind = .kronecker → bi.kind = .kronecker →
      ∃ b' bi', updateBothAll matrixUpdate A b bi ss = .ok (b', bi') ∧
        ∀ s ∈ ss, b'.mean *ᵥ s = A *ᵥ s ∧ bi'.mean *ᵥ (A *ᵥ s) = s) ∧
    (A.IsSymm → b.kind = .symmetricKronecker → bi.kind = .symmetricKronecker → b.mean.IsSymm → bi.mean.IsSymm →
      ∃ b' bi', updateBothAll symmetricUpdate A b bi ss = .ok (b', bi') ∧
        ∀ s ∈ ss, b'.mean *ᵥ s = A *ᵥ s ∧ bi'.mean *ᵥ (A *ᵥ s) = s) := by
  refine ⟨fun hk hki => ?_, fun hsym hk hki hM hMi => ?_⟩
  · obtain ⟨b', h1, -, -, h2⟩ := linear_updates_interpolate A b hk hW ss
    obtain ⟨bi', h3, -, -, h4⟩ := linear_updates_interpolate A⁻¹ bi hki hWi (ss.map (matvecInfo A))
    refine ⟨b', bi', updateBothAll_ok _ A hA ss _ _ _ _ h1 h3, fun s hs => ⟨(h2 s hs).1, ?_⟩⟩
    have := (h4 (matvecInfo A s) (List.mem_map_of_mem hs)).1
    rw [matvecInfo] at this
    rw [this, mulVec_mulVec, nonsing_inv_mul _ hA, one_mulVec]
  · obtain ⟨b', h1, -, -, h2⟩ := symmetric_updates_interpolate A hsym b hk hM hW ss
    obtain ⟨bi', h3, h4⟩ := inverse_belief_interpolates A hA hsym bi hki hMi hWi ss
    exact ⟨b', bi', updateBothAll_ok _ A hA ss _ _ _ _ h1 h3, fun s hs => ⟨(h2 s hs).1, h4 s hs⟩⟩

example : IsUnit (!![2, 1; 1, 3] : Matrix (Fin 2) (Fin 2) ℝ).det ∧ (!![2, 1; 1, 3] : Matrix (Fin 2) (Fin 2) ℝ).IsSymm :=
  ⟨by rw [det_fin_two_of]; norm_num, by ext i j; fin_cases i <;> fin_cases j <;> rfl⟩

/-- **C33 (h), the linear update is exact conditioning.**  Read the matrix as a vector with covariance `V ⊗ W`.  The new
covariance `V ⊗ W'` and mean are those of the Gaussian conditional given `(I ⊗ sᵀ) vec M = y`: the correction `K` solves the
normal equations `K S = C` with the cross-covariance `C = V ⊗ Ws` and the observation covariance `S = (sᵀWs) V`, the mean
moves by `K (y - Ms)` and the covariance drops by `K Cᵀ`. -/
theorem linear_update_is_conditional [DecidableEq n] (b : MatBelief n) (hk : b.kind = .kronecker) (hV : b.left.IsSymm)
    (s y : n → ℝ) (hg : 0 < s ⬝ᵥ b.factor *ᵥ s) :
    ∃ b' : MatBelief n, matrixUpdate b s y = .ok b' ∧
      let C : Matrix (n × n) n ℝ := Matrix.of fun p o => b.left p.1 o * (b.factor *ᵥ s) p.2
      let S : Matrix n n ℝ := (s ⬝ᵥ b.factor *ᵥ s) • b.left
      ∃ K : Matrix (n × n) n ℝ, K * S = C ∧
        (fun p : n × n => b'.mean p.1 p.2) = (fun p : n × n => b.mean p.1 p.2) + K *ᵥ (y - b.mean *ᵥ s) ∧
        Matrix.kronecker b'.left b'.factor = Matrix.kronecker b.left b.factor - K * Cᵀ := by
  refine ⟨_, matrixUpdate_eq b hk s y, ?_⟩
  intro C S
  refine ⟨Matrix.of fun p o => if p.1 = o then gramPinv (s ⬝ᵥ b.factor *ᵥ s) * (b.factor *ᵥ s) p.2 else 0, ?_, ?_, ?_⟩
  · ext p o
    simp only [mul_apply, of_apply, ite_mul, zero_mul, Finset.sum_ite_eq, Finset.mem_univ, if_true, S, C, Matrix.smul_apply,
      smul_eq_mul, gramPinv_pos hg]
    field_simp
  · ext p
    simp only [Matrix.add_apply, vecMulVec_apply, Pi.add_apply, mulVec, dotProduct, of_apply, ite_mul, zero_mul,
      Finset.sum_ite_eq, Finset.mem_univ, if_true, Pi.smul_apply, smul_eq_mul]
    ring
  · ext p q
    have hVs := congrFun (congrFun hV p.1) q.1
    simp only [transpose_apply] at hVs
    simp only [down, Matrix.kronecker, kroneckerMap_apply, Matrix.sub_apply, vecMulVec_apply, Pi.smul_apply, smul_eq_mul,
      mul_apply, of_apply, ite_mul, zero_mul, Finset.sum_ite_eq, Finset.mem_univ, if_true, transpose_apply, C, add_zero, hVs]
    ring

/-- A `1 × 1` belief that is sure of the wrong value. -/
def sureWrong : MatBelief (Fin 1) := ⟨0, .kronecker, 1, 0⟩

/-- **C33 fails (no information).**  If the action carries no information (`sᵀWs = 0`) the observation is ignored even when it
contradicts the mean. -/
theorem no_information_ignored :
    IsPsd sureWrong.factor ∧ ∃ b', matrixUpdate sureWrong 1 1 = .ok b' ∧ b'.mean *ᵥ 1 ≠ 1 := by
  have hP : IsPsd sureWrong.factor := ⟨by simp [sureWrong], fun x => by simp [sureWrong]⟩
  refine ⟨hP, sureWrong, ?_, ?_⟩
  · obtain ⟨b', h1, -, -, -, -, -, h2, -⟩ := linear_update_partial sureWrong rfl hP 1 1
    rw [h1, h2 (by simp [sureWrong])]
  · simp [sureWrong]

/-- A `2 × 2` belief with identity factor. -/
def unitBelief (k : CovKind) : MatBelief (Fin 2) := ⟨0, k, 1, 1⟩

theorem one_isPd : IsPd (1 : Matrix (Fin 2) (Fin 2) ℝ) :=
  ⟨isSymm_one, fun x hx => by
    rw [one_mulVec]
    exact lt_of_le_of_ne (Finset.sum_nonneg fun i _ => mul_self_nonneg (x i))
      (fun h => hx (dotProduct_self_eq_zero.1 h.symm))⟩

example : ∃ b', updateAll symmetricUpdate !![2, 1; 1, 3] (unitBelief .symmetricKronecker) [![1, 0], ![0, 1]] = .ok b' ∧
    b'.mean *ᵥ ![1, 0] = ![2, 1] := by
  obtain ⟨b', h1, -, -, h⟩ := symmetric_updates_interpolate !![2, 1; 1, 3]
    (by ext i j; fin_cases i <;> fin_cases j <;> simp)
    (unitBelief .symmetricKronecker) rfl (by simp [unitBelief, IsSymm]) one_isPd [![1, 0], ![0, 1]]
  refine ⟨b', h1, ?_⟩
  rw [(h ![1, 0] (by simp)).1]
  ext i; fin_cases i <;> simp

example : ∃ b', updateAll matrixUpdate !![2, 1; 0, 3] (unitBelief .kronecker) [![1, 0], ![1, 0], 0] = .ok b' ∧
    b'.mean *ᵥ ![1, 0] = ![2, 0] := by
  obtain ⟨b', h1, -, -, h⟩ := linear_updates_interpolate !![2, 1; 0, 3] (unitBelief .kronecker) rfl one_isPd
    [![1, 0], ![1, 0], 0]
  refine ⟨b', h1, ?_⟩
  rw [(h ![1, 0] (by simp)).1]
  ext i; fin_cases i <;> simp

/-! ## C37 -/

private theorem projectedUpdate_cov (A : Matrix n n ℝ) (lam : ℝ) (b : SolBelief n) (s : n → ℝ) (y : ℝ) :
    (projectedUpdate A lam b s y).cov = down b.cov (s ᵥ* A) lam := rfl

private theorem projectedUpdate_mean (A : Matrix n n ℝ) (lam : ℝ) (b : SolBelief n) (s : n → ℝ) (y : ℝ) :
    (projectedUpdate A lam b s y).mean
      = b.mean + y • (gramPinv ((s ᵥ* A) ⬝ᵥ b.cov *ᵥ (s ᵥ* A) + lam) • (b.cov *ᵥ (s ᵥ* A))) := rfl

private theorem residual_after (A : Matrix n n ℝ) (rhs : n → ℝ) (lam : ℝ) (b : SolBelief n) (s t : n → ℝ) (y : ℝ) :
    t ⬝ᵥ residual A rhs (projectedUpdate A lam b s y).mean
      = t ⬝ᵥ residual A rhs b.mean
        - y * gramPinv ((s ᵥ* A) ⬝ᵥ b.cov *ᵥ (s ᵥ* A) + lam) * ((t ᵥ* A) ⬝ᵥ b.cov *ᵥ (s ᵥ* A)) := by
  rw [projectedUpdate_mean, residual, residual, mulVec_add, dotProduct_sub, dotProduct_add, dotProduct_sub,
    mulVec_smul, mulVec_smul, dotProduct_smul, dotProduct_smul, dotProduct_mulVec t A (b.cov *ᵥ (s ᵥ* A)), smul_eq_mul,
    smul_eq_mul]
  ring

/-- **C37 (a).**  One noise-free update of a belief with positive semi-definite covariance: the new covariance annihilates
`Aᵀs`, is symmetric positive semi-definite and below the old one; the residual becomes orthogonal to the action whenever the
projection carries information; directions with `Σ Aᵀt = 0` and `t ⟂ residual` keep both properties.  (Partial: an action
without information leaves the residual as it is, orthogonal or not; see `projection_without_information`.) -/
theorem projected_update_partial (A : Matrix n n ℝ) (rhs : n → ℝ) (b : SolBelief n) (hP : IsPsd b.cov) (s : n → ℝ) :
    let b' := projectedUpdate A 0 b s (projectedInfo A rhs b.mean s)
    IsPsd b'.cov ∧ b'.cov *ᵥ (s ᵥ* A) = 0 ∧ (∀ x, x ⬝ᵥ b'.cov *ᵥ x ≤ x ⬝ᵥ b.cov *ᵥ x) ∧
    (b.cov *ᵥ (s ᵥ* A) ≠ 0 → s ⬝ᵥ (rhs - A *ᵥ b'.mean) = 0) ∧
    (∀ t, b.cov *ᵥ (t ᵥ* A) = 0 → b'.cov *ᵥ (t ᵥ* A) = 0 ∧
      t ⬝ᵥ (rhs - A *ᵥ b'.mean) = t ⬝ᵥ (rhs - A *ᵥ b.mean)) := by
  intro b'
  refine ⟨hP.down _ 0 le_rfl, down_self hP _, fun x => down_le hP.1 _ x 0, fun hne => ?_, fun t ht => ?_⟩
  · have hg : 0 < (s ᵥ* A) ⬝ᵥ b.cov *ᵥ (s ᵥ* A) := (hP.gram_cases _).resolve_right hne
    have := residual_after A rhs 0 b s s (projectedInfo A rhs b.mean s)
    rw [add_zero, gramPinv_pos hg, projectedInfo, mul_assoc, one_div, inv_mul_cancel₀ hg.ne', mul_one, sub_self] at this
    exact this
  · refine ⟨down_keeps hP.1 _ _ 0 ht, ?_⟩
    have := residual_after A rhs 0 b s t (projectedInfo A rhs b.mean s)
    rw [symm_dot hP.1 (t ᵥ* A), ht, zero_dotProduct, mul_zero, sub_zero] at this
    exact this

/-- Belief after projecting the residual onto every action of a list, in order. -/
noncomputable def projectAll (A : Matrix n n ℝ) (rhs : n → ℝ) (lam : ℝ) : SolBelief n → List (n → ℝ) → SolBelief n
  | b, [] => b
  | b, s :: ss => projectAll A rhs lam (projectedUpdate A lam b s (projectedInfo A rhs b.mean s)) ss

/-- **C37 (b), whole runs.**  For a nonsingular system and a positive definite prior covariance, after any finite sequence of
actions the residual is orthogonal to *all* of them, the covariance annihilates `Aᵀs` for all of them, is positive
semi-definite and below the prior covariance. -/
theorem projections_orthogonal [DecidableEq n] (A : Matrix n n ℝ) (hA : IsUnit A.det) (rhs : n → ℝ) (b : SolBelief n)
    (hS : IsPd b.cov) (ss : List (n → ℝ)) :
    let b' := projectAll A rhs 0 b ss
    IsPsd b'.cov ∧ (∀ x, x ⬝ᵥ b'.cov *ᵥ x ≤ x ⬝ᵥ b.cov *ᵥ x) ∧
      ∀ s ∈ ss, s ⬝ᵥ (rhs - A *ᵥ b'.mean) = 0 ∧ b'.cov *ᵥ (Aᵀ *ᵥ s) = 0 := by
  have key : ∀ (ss : List (n → ℝ)) (b : SolBelief n), IsPsd b.cov →
      (∀ v, b.cov *ᵥ (v ᵥ* A) = 0 → v ⬝ᵥ (rhs - A *ᵥ b.mean) = 0) →
      IsPsd (projectAll A rhs 0 b ss).cov ∧ (∀ x, x ⬝ᵥ (projectAll A rhs 0 b ss).cov *ᵥ x ≤ x ⬝ᵥ b.cov *ᵥ x) ∧
        (∀ v, (projectAll A rhs 0 b ss).cov *ᵥ (v ᵥ* A) = 0 → v ⬝ᵥ (rhs - A *ᵥ (projectAll A rhs 0 b ss).mean) = 0) ∧
        (∀ v, b.cov *ᵥ (v ᵥ* A) = 0 → (projectAll A rhs 0 b ss).cov *ᵥ (v ᵥ* A) = 0) ∧
        ∀ s ∈ ss, (projectAll A rhs 0 b ss).cov *ᵥ (s ᵥ* A) = 0 := by
    intro ss
    induction ss with
    | nil => intro b hP hI; exact ⟨hP, fun _ => le_rfl, hI, fun _ h => h, by simp⟩
    | cons s ss ih =>
      intro b hP hI
      obtain ⟨hP1, hs1, hle, hobs, hkeep⟩ := projected_update_partial A rhs b hP s
      have hI1 : ∀ v, (projectedUpdate A 0 b s (projectedInfo A rhs b.mean s)).cov *ᵥ (v ᵥ* A) = 0 →
          v ⬝ᵥ (rhs - A *ᵥ (projectedUpdate A 0 b s (projectedInfo A rhs b.mean s)).mean) = 0 := by
        intro v hv
        rw [projectedUpdate_cov] at hv
        obtain ⟨a, ha, ha0⟩ := down_kernel hP _ _ hv
        have ha' : b.cov *ᵥ ((v - a • s) ᵥ* A) = 0 := by rw [sub_vecMul, smul_vecMul]; exact ha
        have e1 := (hkeep _ ha').2
        rw [hI _ ha', sub_dotProduct, smul_dotProduct] at e1
        by_cases hz : b.cov *ᵥ (s ᵥ* A) = 0
        · rw [ha0 hz, zero_smul, sub_zero] at e1; exact e1
        · rw [hobs hz, smul_zero, sub_zero] at e1; exact e1
      obtain ⟨hP', hle', hI', hkeep', hss⟩ := ih _ hP1 hI1
      refine ⟨hP', fun x => (hle' x).trans (hle x), hI', fun v hv => hkeep' v (hkeep v hv).1, fun t ht => ?_⟩
      rcases List.mem_cons.1 ht with rfl | ht
      · exact hkeep' _ hs1
      · exact hss t ht
  intro b'
  have hinit : ∀ v, b.cov *ᵥ (v ᵥ* A) = 0 → v ⬝ᵥ (rhs - A *ᵥ b.mean) = 0 := by
    intro v hv
    have h0 := hS.inj _ hv
    have : v = 0 := by
      have h1 := congrArg (fun w => w ᵥ* A⁻¹) h0
      simp only [vecMul_vecMul, mul_nonsing_inv _ hA, vecMul_one, zero_vecMul] at h1
      exact h1
    rw [this, zero_dotProduct]
  obtain ⟨h1, h2, h3, -, h5⟩ := key ss b hS.psd hinit
  refine ⟨h1, h2, fun s hs => ⟨h3 s (h5 s hs), ?_⟩⟩
  rw [mulVec_transpose]
  exact h5 s hs

/-- **C37 (c).**  If the actions span the space, the mean solves the system and the covariance vanishes. -/
theorem projections_solve [DecidableEq n] (A : Matrix n n ℝ) (hA : IsUnit A.det) (rhs : n → ℝ) (b : SolBelief n)
    (hS : IsPd b.cov) (ss : List (n → ℝ)) (hspan : Submodule.span ℝ {s | s ∈ ss} = ⊤) :
    A *ᵥ (projectAll A rhs 0 b ss).mean = rhs ∧ (projectAll A rhs 0 b ss).cov = 0 := by
  obtain ⟨-, -, h⟩ := projections_orthogonal A hA rhs b hS ss
  have hall : ∀ v : n → ℝ, v ⬝ᵥ (rhs - A *ᵥ (projectAll A rhs 0 b ss).mean) = 0 ∧
      (projectAll A rhs 0 b ss).cov *ᵥ (Aᵀ *ᵥ v) = 0 := by
    intro v
    have hv : v ∈ Submodule.span ℝ {s | s ∈ ss} := by rw [hspan]; trivial
    induction hv using Submodule.span_induction with
    | mem x hx => exact h x hx
    | zero => simp
    | add x y _ _ hx hy =>
      rw [add_dotProduct, mulVec_add, mulVec_add, hx.1, hx.2, hy.1, hy.2]; simp
    | smul a x _ hx =>
      rw [smul_dotProduct, mulVec_smul, mulVec_smul, hx.1, hx.2]; simp
  constructor
  · have := dotProduct_self_eq_zero.1 (hall (rhs - A *ᵥ (projectAll A rhs 0 b ss).mean)).1
    exact (sub_eq_zero.1 this).symm
  · have hAT : IsUnit (Aᵀ).det := by rwa [det_transpose]
    have hm : (projectAll A rhs 0 b ss).cov * Aᵀ = 0 := by
      ext i j
      have hij := congrFun (hall (Pi.single j 1)).2 i
      rw [mulVec_mulVec] at hij
      simpa using hij
    have := congrArg (fun B => B * (Aᵀ)⁻¹) hm
    simp only [Matrix.mul_assoc, mul_nonsing_inv _ hAT, Matrix.mul_one, Matrix.zero_mul] at this
    exact this

/-- **C37 (d).**  With any admissible noise variance the covariance stays symmetric positive semi-definite and below the old
one; a negative noise variance is rejected on construction. -/
theorem noisy_projection (A : Matrix n n ℝ) (lam : ℝ) (b : SolBelief n) (hP : IsPsd b.cov) (s : n → ℝ) (y : ℝ) :
    (newProjectedResidual lam = .ok lam → IsPsd (projectedUpdate A lam b s y).cov ∧
      ∀ x, x ⬝ᵥ (projectedUpdate A lam b s y).cov *ᵥ x ≤ x ⬝ᵥ b.cov *ᵥ x) ∧
    (lam < 0 → newProjectedResidual lam = .error .valueError) := by
  refine ⟨fun h => ?_, fun h => by rw [newProjectedResidual, if_pos h]⟩
  have hl : 0 ≤ lam := by
    unfold newProjectedResidual at h
    by_contra hc
    rw [if_pos (not_le.1 hc)] at h
    cases h
  exact ⟨hP.down _ lam hl, fun x => down_le hP.1 _ x lam⟩

example : newProjectedResidual 1 = .ok 1 := by
  rw [newProjectedResidual, if_neg (by norm_num)]

example : IsPd (1 : Matrix (Fin 2) (Fin 2) ℝ) ∧ IsUnit (!![2, 1; 0, 3] : Matrix (Fin 2) (Fin 2) ℝ).det :=
  ⟨one_isPd, by rw [det_fin_two_of]; norm_num⟩

/-- **C37 fails (no information).**  With a singular covariance the projection may carry no information; then the residual is
not made orthogonal to the action. -/
theorem projection_without_information :
    ∃ (b : SolBelief (Fin 1)), IsPsd b.cov ∧
      let b' := projectedUpdate 1 0 b 1 (projectedInfo 1 1 b.mean 1)
      (1 : Fin 1 → ℝ) ⬝ᵥ (1 - (1 : Matrix (Fin 1) (Fin 1) ℝ) *ᵥ b'.mean) ≠ 0 := by
  refine ⟨⟨0, 0⟩, ⟨by simp [IsSymm], fun x => by simp⟩, ?_⟩
  simp [projectedUpdate, dotProduct]

end Probnum.Linalg
