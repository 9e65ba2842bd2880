import Verif.Linalg.MatrixBased
import Verif.Linalg.PropsUpdates
import Mathlib.LinearAlgebra.Dimension.Finite
import Mathlib.LinearAlgebra.FiniteDimensional.Basic
import Mathlib.LinearAlgebra.Matrix.ToLin
import Mathlib.Tactic.LinearCombination

/-!
# The algebra of the symmetric matrix-based solver
-/

namespace Probnum.Linalg.MatrixBased

open Matrix

variable {n : Type} [Fintype n] [DecidableEq n]

theorem fdiv_ok {x y : ℝ} (h : y ≠ 0) : fdiv x y = .ok (x / y) := if_neg h

theorem fdiv_zero (x : ℝ) : fdiv x 0 = .error .zeroDivisionError := if_pos rfl

/-- The solver's rank-two update is the symmetric belief update of `Verif.Linalg.Updates`. -/
theorem symUpdate_eq (M W : Matrix n n ℝ) (s y : n → ℝ) (hg : 0 < s ⬝ᵥ W *ᵥ s) :
    ∃ b', symmetricUpdate ⟨M, .symmetricKronecker, 1, W⟩ s y = .ok b' ∧
      symUpdate M W s y = .ok (b'.mean, W - b'.factor) ∧ b'.factor = down W s 0 := by
  refine ⟨_, rfl, ?_, ?_⟩
  · simp only [symUpdate, fdiv_ok hg.ne', meanUpdate, covUpdate]
    refine congrArg Except.ok (Prod.ext ?_ ?_)
    · simp only [gramPinv_pos hg]
      generalize (1 / (s ⬝ᵥ W *ᵥ s)) • W *ᵥ s = u
      generalize y - M *ᵥ s = d
      have h2 : s ᵥ* vecMulVec d u = (s ⬝ᵥ d) • u := by
        ext i
        simp only [vecMul, dotProduct, vecMulVec_apply, Pi.smul_apply, smul_eq_mul, Finset.sum_mul]
        exact Finset.sum_congr rfl fun j _ => by ring
      rw [h2]
      ext i j
      simp only [Matrix.add_apply, Matrix.sub_apply, vecMulVec_apply, transpose_apply, Pi.sub_apply, Pi.smul_apply,
        smul_eq_mul]
      ring
    · simp only [gramPinv_pos hg, sub_sub_cancel]
      ext i j
      simp only [vecMulVec_apply, Pi.smul_apply, smul_eq_mul]
      ring
  · rw [down, add_zero]

/-- What one update does. -/
theorem symUpdate_spec {M W : Matrix n n ℝ} (hM : M.IsSymm) (hW : IsPsd W) (s y : n → ℝ) (hg : 0 < s ⬝ᵥ W *ᵥ s) :
    ∃ M' U, symUpdate M W s y = .ok (M', U) ∧ W - U = down W s 0 ∧ M'.IsSymm ∧ M' *ᵥ s = y ∧
      (∀ t, W *ᵥ t = 0 → y ⬝ᵥ t = s ⬝ᵥ M *ᵥ t → M' *ᵥ t = M *ᵥ t) ∧
      (∀ t, W *ᵥ t = 0 → U *ᵥ t = 0) ∧
      U.trace = 1 / (s ⬝ᵥ W *ᵥ s) * (W *ᵥ s ⬝ᵥ W *ᵥ s) := by
  obtain ⟨b', h1, h2, h3⟩ := symUpdate_eq M W s y hg
  obtain ⟨b'', h4, -, -, -, h5, h6, -, h7⟩ := symmetric_update_partial ⟨M, .symmetricKronecker, 1, W⟩ rfl hW s y
  have hb : b'' = b' := Except.ok.inj (h4.symm.trans h1)
  subst hb
  refine ⟨_, _, h2, by rw [sub_sub_cancel, h3], h5 hM, h6 hg, fun t ht hc => (h7 hM t ht).2 hc, fun t ht => ?_, ?_⟩
  · rw [sub_mulVec, ht, h3, down_keeps hW.1 s t 0 ht, sub_zero]
  · rw [h3, down, sub_sub_cancel, add_zero, trace_vecMulVec, gramPinv_pos hg, smul_dotProduct, smul_eq_mul]

/-- What holds of the solver's state after `k` iterations. -/
structure Inv (P : Params n) (k : ℕ) (st : State n) : Prop where
  iter : st.iter = k
  resid : st.resid = P.A *ᵥ st.x - P.b
  hSymm : st.HMean.IsSymm
  aSymm : st.AMean.IsSymm
  hPsd : IsPsd st.HCov
  aPsd : IsPsd st.ACov
  hUpd : st.HCov = P.HCov0 - st.HUpd
  aUpd : st.ACov = P.ACov0 - st.AUpd
  hKnown : ∀ v, st.HCov *ᵥ (P.A *ᵥ v) = 0 → st.HMean *ᵥ (P.A *ᵥ v) = v
  aKnown : ∀ v, st.ACov *ᵥ v = 0 → st.AMean *ᵥ v = P.A *ᵥ v
  orth : ∀ v, st.HCov *ᵥ (P.A *ᵥ v) = 0 → v ⬝ᵥ st.resid = 0
  same : ∀ v, st.ACov *ᵥ v = 0 ↔ st.HCov *ᵥ (P.A *ᵥ v) = 0
  dirs : ∀ s ∈ st.dirs, s ≠ 0 ∧ st.HCov *ᵥ (P.A *ᵥ s) = 0
  len : st.dirs.length = k
  obs : st.obs = st.dirs.map (P.A *ᵥ ·)
  conj : st.dirs.Pairwise fun s t => s ⬝ᵥ P.A *ᵥ t = 0
  rank : k ≤ Module.finrank ℝ (LinearMap.ker (st.HCov * P.A).mulVecLin)
  tr : st.trUpd = st.HUpd.trace

theorem mem_ker_iff (W A : Matrix n n ℝ) (v : n → ℝ) :
    v ∈ LinearMap.ker (W * A).mulVecLin ↔ W *ᵥ (A *ᵥ v) = 0 := by
  rw [LinearMap.mem_ker, mulVecLin_apply, mulVec_mulVec]

theorem Inv.conj_new {P : Params n} (hA : IsPd P.A) {k : ℕ} {st : State n} (h : Inv P k st) (v : n → ℝ)
    (hv : st.HCov *ᵥ (P.A *ᵥ v) = 0) : v ⬝ᵥ P.A *ᵥ (-(st.HMean *ᵥ st.resid)) = 0 := by
  rw [mulVec_neg, dotProduct_neg, neg_eq_zero, symm_dot hA.1, symm_dot h.hSymm, h.hKnown v hv, h.orth v hv]

/-- One iteration, when the search direction is not zero. -/
theorem Inv.step {P : Params n} (hA : IsPd P.A) {k : ℕ} {st : State n} (h : Inv P k st)
    (hz : st.iter = 0 → st.HUpd = 0 ∧ st.AUpd = 0)
    (hs : st.HMean *ᵥ st.resid ≠ 0) : ∃ st', step P st = .ok st' ∧ Inv P (k + 1) st' := by
  obtain ⟨s, hsdef⟩ : ∃ s, s = -(st.HMean *ᵥ st.resid) := ⟨_, rfl⟩
  have hs0 : s ≠ 0 := by rw [hsdef]; exact neg_ne_zero.2 hs
  have hc : ∀ v, st.HCov *ᵥ (P.A *ᵥ v) = 0 → v ⬝ᵥ P.A *ᵥ s = 0 := fun v hv => by
    rw [hsdef]; exact h.conj_new hA v hv
  have hsy : 0 < s ⬝ᵥ P.A *ᵥ s := hA.2 s hs0
  have hH : 0 < P.A *ᵥ s ⬝ᵥ st.HCov *ᵥ (P.A *ᵥ s) := by
    rcases h.hPsd.gram_cases (P.A *ᵥ s) with h1 | h1
    · exact h1
    · exact absurd (hc s h1) hsy.ne'
  have hV : 0 < s ⬝ᵥ st.ACov *ᵥ s := by
    rcases h.aPsd.gram_cases s with h1 | h1
    · exact h1
    · exact absurd (hc s ((h.same s).1 h1)) hsy.ne'
  obtain ⟨M', U, ha1, ha2, ha3, ha4, ha5, ha6, -⟩ := symUpdate_spec h.aSymm h.aPsd s (P.A *ᵥ s) hV
  obtain ⟨H', U', hh1, hh2, hh3, hh4, hh5, hh6, hh7⟩ := symUpdate_spec h.hSymm h.hPsd (P.A *ᵥ s) s hH
  have hAU : (P.ACov0 - if st.iter = 0 then U else st.AUpd + U) = down st.ACov s 0 := by
    rw [← ha2, h.aUpd]
    split
    · rw [(hz ‹_›).2, sub_zero]
    · rw [sub_sub]
  have hHU : (P.HCov0 - if st.iter = 0 then U' else st.HUpd + U') = down st.HCov (P.A *ᵥ s) 0 := by
    rw [← hh2, h.hUpd]
    split
    · rw [(hz ‹_›).1, sub_zero]
    · rw [sub_sub]
  have hker : ∀ v, down st.HCov (P.A *ᵥ s) 0 *ᵥ (P.A *ᵥ v) = 0 →
      ∃ a : ℝ, st.HCov *ᵥ (P.A *ᵥ (v - a • s)) = 0 := by
    intro v hv
    obtain ⟨a, h1, -⟩ := down_kernel h.hPsd _ _ hv
    exact ⟨a, by rw [mulVec_sub, mulVec_smul]; exact h1⟩
  have hkerA : ∀ v, down st.ACov s 0 *ᵥ v = 0 → ∃ a : ℝ, st.ACov *ᵥ (v - a • s) = 0 := by
    intro v hv
    obtain ⟨a, h1, -⟩ := down_kernel h.aPsd _ _ hv
    exact ⟨a, h1⟩
  have hkeepH : ∀ v, st.HCov *ᵥ (P.A *ᵥ v) = 0 → H' *ᵥ (P.A *ᵥ v) = v := by
    intro v hv
    rw [hh5 _ hv, h.hKnown v hv]
    rw [h.hKnown v hv, symm_dot hA.1]
  have hkeepA : ∀ v, st.ACov *ᵥ v = 0 → M' *ᵥ v = P.A *ᵥ v := by
    intro v hv
    rw [ha5 _ hv, h.aKnown v hv]
    rw [h.aKnown v hv, symm_dot hA.1]
  have hsplit : ∀ (v : n → ℝ) (a : ℝ), v = (v - a • s) + a • s := fun v a => by simp
  have hstep : MatrixBased.step P st = .ok
      ⟨M', down st.ACov s 0, if st.iter = 0 then U else st.AUpd + U, H', down st.HCov (P.A *ᵥ s) 0,
        if st.iter = 0 then U' else st.HUpd + U', st.x + (-(s ⬝ᵥ st.resid / s ⬝ᵥ P.A *ᵥ s)) • s,
        st.resid + (-(s ⬝ᵥ st.resid / s ⬝ᵥ P.A *ᵥ s)) • (P.A *ᵥ s), st.iter + 1, st.dirs ++ [s],
        st.obs ++ [P.A *ᵥ s],
        st.trUpd + 1 / (P.A *ᵥ s ⬝ᵥ st.HCov *ᵥ (P.A *ᵥ s)) * (st.HCov *ᵥ (P.A *ᵥ s) ⬝ᵥ st.HCov *ᵥ (P.A *ᵥ s)),
        traceSol P.b (if 0 < st.iter then down st.HCov (P.A *ᵥ s) 0 else P.HCov0)
          (P.HCov0.trace - (st.trUpd + 1 / (P.A *ᵥ s ⬝ᵥ st.HCov *ᵥ (P.A *ᵥ s)) *
            (st.HCov *ᵥ (P.A *ᵥ s) ⬝ᵥ st.HCov *ᵥ (P.A *ᵥ s)))),
        if 0 < st.iter then down st.ACov s 0 else P.ACov0,
        if 0 < st.iter then down st.HCov (P.A *ᵥ s) 0 else P.HCov0⟩ := by
    rw [MatrixBased.step, ← hsdef]
    simp only [fdiv_ok hsy.ne', ha1, hh1, hAU, hHU]
  refine ⟨_, hstep, ?_⟩
  · clear hstep
    have hr' : ∀ w, st.HCov *ᵥ (P.A *ᵥ w) = 0 →
        w ⬝ᵥ (st.resid + (-(s ⬝ᵥ st.resid / s ⬝ᵥ P.A *ᵥ s)) • (P.A *ᵥ s)) = 0 := by
      intro w hw
      rw [dotProduct_add, dotProduct_smul, hc w hw, h.orth w hw]; simp
    have hrs : s ⬝ᵥ (st.resid + (-(s ⬝ᵥ st.resid / s ⬝ᵥ P.A *ᵥ s)) • (P.A *ᵥ s)) = 0 := by
      rw [dotProduct_add, dotProduct_smul, smul_eq_mul, neg_mul, div_mul_cancel₀ _ hsy.ne', add_neg_cancel]
    constructor
    · exact congrArg (· + 1) h.iter
    · show st.resid + _ = P.A *ᵥ (st.x + _) - P.b
      rw [mulVec_add, mulVec_smul, h.resid]; abel
    · exact hh3
    · exact ha3
    · exact h.hPsd.down _ 0 le_rfl
    · exact h.aPsd.down _ 0 le_rfl
    · exact hHU.symm
    · exact hAU.symm
    · intro v hv
      obtain ⟨a, ha⟩ := hker v hv
      show H' *ᵥ (P.A *ᵥ v) = v
      have := hkeepH _ ha
      rw [mulVec_sub, mulVec_smul, mulVec_sub, mulVec_smul, hh4] at this
      exact sub_left_injective this
    · intro v hv
      obtain ⟨a, ha⟩ := hkerA v hv
      show M' *ᵥ v = P.A *ᵥ v
      have := hkeepA _ ha
      rw [mulVec_sub, mulVec_smul, mulVec_sub, mulVec_smul, ha4] at this
      exact sub_left_injective this
    · intro v hv
      obtain ⟨a, ha⟩ := hker v hv
      show v ⬝ᵥ (st.resid + _) = 0
      rw [hsplit v a, add_dotProduct, hr' _ ha, smul_dotProduct, hrs, smul_zero, add_zero]
    · intro v
      constructor
      · intro hv
        obtain ⟨a, ha⟩ := hkerA v hv
        show down st.HCov (P.A *ᵥ s) 0 *ᵥ (P.A *ᵥ v) = 0
        rw [hsplit v a, mulVec_add, mulVec_add, mulVec_smul, mulVec_smul, down_self h.hPsd,
          down_keeps h.hPsd.1 _ _ 0 ((h.same _).1 ha)]
        simp
      · intro hv
        obtain ⟨a, ha⟩ := hker v hv
        show down st.ACov s 0 *ᵥ v = 0
        rw [hsplit v a, mulVec_add, mulVec_smul, down_self h.aPsd, down_keeps h.aPsd.1 _ _ 0 ((h.same _).2 ha)]
        simp
    · intro t ht
      rcases List.mem_append.1 ht with ht | ht
      · exact ⟨(h.dirs t ht).1, down_keeps h.hPsd.1 _ _ 0 (h.dirs t ht).2⟩
      · rw [List.mem_singleton] at ht
        subst ht
        exact ⟨hs0, down_self h.hPsd _⟩
    · show (st.dirs ++ [s]).length = k + 1
      rw [List.length_append, h.len]; rfl
    · show st.obs ++ [P.A *ᵥ s] = (st.dirs ++ [s]).map _
      rw [List.map_append, h.obs]; rfl
    · show (st.dirs ++ [s]).Pairwise _
      rw [List.pairwise_append]
      refine ⟨h.conj, List.pairwise_singleton _ _, fun t ht u hu => ?_⟩
      rw [List.mem_singleton] at hu
      subst hu
      exact hc t (h.dirs t ht).2
    · show k + 1 ≤ Module.finrank ℝ (LinearMap.ker (down st.HCov (P.A *ᵥ s) 0 * P.A).mulVecLin)
      refine lt_of_le_of_lt h.rank (Submodule.finrank_lt_finrank_of_lt (SetLike.lt_iff_le_and_exists.2 ⟨?_, s, ?_, ?_⟩))
      · intro v hv
        rw [mem_ker_iff] at hv ⊢
        exact down_keeps h.hPsd.1 _ _ 0 hv
      · rw [mem_ker_iff]; exact down_self h.hPsd _
      · rw [mem_ker_iff]
        intro hk
        exact hsy.ne' (hc s hk)
    · show st.trUpd + _ = Matrix.trace (if st.iter = 0 then U' else st.HUpd + U')
      rw [h.tr, ← hh7]
      split
      · rw [(hz ‹_›).1]; simp
      · rw [trace_add]

theorem Inv.step_zero {P : Params n} {st : State n} (hs : st.HMean *ᵥ st.resid = 0) :
    MatrixBased.step P st = .error .zeroDivisionError := by
  rw [MatrixBased.step]
  simp only [hs, neg_zero, mulVec_zero, dotProduct_zero, fdiv_zero]

/-- After as many iterations as unknowns everything is known. -/
theorem Inv.full {P : Params n} {k : ℕ} {st : State n} (h : Inv P k st) (hk : Fintype.card n ≤ k) (v : n → ℝ) :
    st.HCov *ᵥ (P.A *ᵥ v) = 0 := by
  have htop : LinearMap.ker (st.HCov * P.A).mulVecLin = ⊤ := by
    refine Submodule.eq_top_of_finrank_eq (le_antisymm (Submodule.finrank_le _) ?_)
    rw [Module.finrank_fintype_fun_eq_card]
    exact hk.trans h.rank
  rw [← mem_ker_iff, htop]; trivial

theorem Inv.le {P : Params n} {k : ℕ} {st : State n} (h : Inv P k st) : k ≤ Fintype.card n := by
  have := h.rank.trans (Submodule.finrank_le _)
  rwa [Module.finrank_fintype_fun_eq_card] at this

end Probnum.Linalg.MatrixBased
