import Verif.Linops.CondEq
import Verif.Linops.PropsDerived

/-!
# Property C103: condition numbers and eigenvalues are those of the dense matrix

`cond(p)` of a `Scaling`, an `Identity` and a Kronecker product, and `eigvals()` of a diagonal or block-diagonal operator,
take shortcuts.  The condition numbers are compared with the textbook definition through the norm of the matrix that
`todense` returns and of its inverse, the eigenvalues with the roots of its characteristic polynomial.
-/

namespace Probnum.Linops.Cond

open Finset Matrix

/-! ## Specification -/

/-- The vector norm that belongs to an order of a matrix norm: 1-norm, maximum norm, Euclidean norm. -/
noncomputable def vecNorm {n : ℕ} (p : NormOrd) (x : Fin n → ℝ) : ℝ :=
  match p with
  | .one => ∑ i, |x i|
  | .inf => ⨆ i, |x i|
  | _ => √(∑ i, x i ^ 2)

/-- `c` is the norm of `M` of the order `p`: the Frobenius norm, or else the smallest `c` with `‖M x‖ ≤ c ‖x‖`. -/
def IsMatNorm {n : ℕ} (p : NormOrd) (M : Matrix (Fin n) (Fin n) ℝ) (c : ℝ) : Prop :=
  match p with
  | .fro => c = √(∑ i, ∑ j, M i j ^ 2)
  | p => IsLeast {c : ℝ | 0 ≤ c ∧ ∀ x, vecNorm p (M *ᵥ x) ≤ c * vecNorm p x} c

/-- `c` is the condition number of `M`: `∞` for a singular matrix, or else `‖M‖ ‖M⁻¹‖`. -/
def IsCondNumber {n : ℕ} (p : NormOrd) (M : Matrix (Fin n) (Fin n) ℝ) (c : ENNReal) : Prop :=
  (M.det = 0 ∧ c = ⊤) ∨ (M.det ≠ 0 ∧ ∃ u v, IsMatNorm p M u ∧ IsMatNorm p M⁻¹ v ∧ c = ENNReal.ofReal (u * v))

/-- The orders that `cond` documents. -/
def Documented (p : NormOrd) : Prop := p = .none ∨ p = .one ∨ p = .two ∨ p = .inf ∨ p = .fro

theorem Documented.good {p : NormOrd} (h : Documented p) : Good p := by
  rcases h with rfl | rfl | rfl | rfl | rfl
  · exact .inl rfl
  · exact .inl rfl
  · exact .inl rfl
  · exact .inl rfl
  · exact .inr rfl

theorem isMatNorm_two {n : ℕ} (hn : 0 < n) (M : Matrix (Fin n) (Fin n) ℝ) :
    IsLeast {c : ℝ | 0 ≤ c ∧ ∀ x, len (M *ᵥ x) ≤ c * len x} (sMax M) := by
  haveI : Nonempty (Fin n) := ⟨⟨0, hn⟩⟩
  refine ⟨⟨sMax_nonneg M, (isMax_sMax M).bound⟩, fun c hc => ?_⟩
  obtain ⟨x, h1, h2⟩ := (isMax_sMax M).attained
  have := hc.2 x
  rwa [h1, h2, mul_one] at this

theorem isMatNorm_one {n : ℕ} (hn : 0 < n) (M : Matrix (Fin n) (Fin n) ℝ) : IsMatNorm .one M (nv .one M) := by
  haveI : Nonempty (Fin n) := ⟨⟨0, hn⟩⟩
  obtain ⟨h1, j, hj⟩ := sup_ex fun j => ∑ i, |M i j|
  have h0 : 0 ≤ nv .one M := (sum_nonneg fun _ _ => abs_nonneg _).trans (h1 j)
  refine ⟨⟨h0, fun x => ?_⟩, fun c hc => ?_⟩
  · show ∑ i, |(M *ᵥ x) i| ≤ nv .one M * ∑ j, |x j|
    calc ∑ i, |(M *ᵥ x) i| ≤ ∑ i, ∑ j, |M i j| * |x j| := sum_le_sum fun i _ => by
          rw [mulVec, dotProduct]
          exact (abs_sum_le_sum_abs _ _).trans (sum_le_sum fun j _ => (abs_mul _ _).le)
      _ = ∑ j, (∑ i, |M i j|) * |x j| := by
          rw [sum_comm]
          exact sum_congr rfl fun j _ => (sum_mul _ _ _).symm
      _ ≤ ∑ j, nv .one M * |x j| := sum_le_sum fun j _ => mul_le_mul_of_nonneg_right (h1 j) (abs_nonneg _)
      _ = _ := (mul_sum _ _ _).symm
  · have h2 := hc.2 (Pi.single j 1)
    have h3 : vecNorm .one (Pi.single j 1 : Fin n → ℝ) = 1 := by
      show ∑ i, |(Pi.single j 1 : Fin n → ℝ) i| = 1
      rw [sum_eq_single j]
      · simp
      · intro i _ hi
        simp [hi]
      · simp
    have h4 : vecNorm .one (M *ᵥ Pi.single j 1) = ∑ i, |M i j| := by
      rw [mulVec_single_one]
      rfl
    rw [h3, h4, mul_one] at h2
    exact hj.symm.le.trans h2

theorem isMatNorm_inf {n : ℕ} (hn : 0 < n) (M : Matrix (Fin n) (Fin n) ℝ) : IsMatNorm .inf M (nv .inf M) := by
  haveI : Nonempty (Fin n) := ⟨⟨0, hn⟩⟩
  obtain ⟨h1, i, hi⟩ := sup_ex fun i => ∑ j, |M i j|
  have h0 : 0 ≤ nv .inf M := (sum_nonneg fun _ _ => abs_nonneg _).trans (h1 i)
  refine ⟨⟨h0, fun x => ?_⟩, fun c hc => ?_⟩
  · show ⨆ i, |(M *ᵥ x) i| ≤ nv .inf M * ⨆ j, |x j|
    have hx := (sup_ex fun j => |x j|).1
    have hx0 : 0 ≤ ⨆ j, |x j| := (abs_nonneg (x i)).trans (hx i)
    refine ciSup_le fun k => ?_
    calc |(M *ᵥ x) k| ≤ ∑ j, |M k j| * |x j| := by
          rw [mulVec, dotProduct]
          exact (abs_sum_le_sum_abs _ _).trans (sum_le_sum fun j _ => (abs_mul _ _).le)
      _ ≤ ∑ j, |M k j| * ⨆ j, |x j| := sum_le_sum fun j _ => mul_le_mul_of_nonneg_left (hx j) (abs_nonneg _)
      _ = (∑ j, |M k j|) * ⨆ j, |x j| := (sum_mul _ _ _).symm
      _ ≤ _ := mul_le_mul_of_nonneg_right (h1 k) hx0
  · let x : Fin n → ℝ := fun j => if 0 ≤ M i j then 1 else -1
    have hx : ∀ j, |x j| = 1 := fun j => by
      show |if 0 ≤ M i j then (1 : ℝ) else -1| = 1
      split <;> simp
    have h2 := hc.2 x
    have h3 : vecNorm .inf x = 1 := by
      show ⨆ j, |x j| = 1
      simp only [hx]
      exact ciSup_const
    have h4 : ∑ j, |M i j| ≤ vecNorm .inf (M *ᵥ x) := by
      have e : (M *ᵥ x) i = ∑ j, |M i j| := by
        rw [mulVec, dotProduct]
        refine sum_congr rfl fun j _ => ?_
        show M i j * (if 0 ≤ M i j then (1 : ℝ) else -1) = _
        split
        · next h => rw [mul_one, abs_of_nonneg h]
        · next h => rw [abs_of_neg (not_le.1 h), mul_neg, mul_one]
      rw [← e]
      exact (le_abs_self _).trans ((sup_ex fun k => |(M *ᵥ x) k|).1 i)
    rw [h3, mul_one] at h2
    exact hi.symm.le.trans (h4.trans h2)

/-- The condition number of the specification is the one that `np.linalg.cond` computes. -/
theorem isCondNumber_ce {n : ℕ} (hn : 0 < n) {p : NormOrd} (hp : Documented p) (M : Matrix (Fin n) (Fin n) ℝ) :
    IsCondNumber p M (ce p M) := by
  haveI : Nonempty (Fin n) := ⟨⟨0, hn⟩⟩
  by_cases h : M.det = 0
  · exact .inl ⟨h, if_pos h⟩
  refine .inr ⟨h, ?_⟩
  have e : ce p M = ENNReal.ofReal (cv p M) := if_neg h
  have two : sMax M / sMin M = sMax M * sMax M⁻¹ := by rw [sMax_inv h, div_eq_mul_inv]
  rcases hp with rfl | rfl | rfl | rfl | rfl
  · exact ⟨sMax M, sMax M⁻¹, isMatNorm_two hn M, isMatNorm_two hn M⁻¹, e.trans (congrArg _ two)⟩
  · exact ⟨_, _, isMatNorm_one hn M, isMatNorm_one hn M⁻¹, e⟩
  · exact ⟨sMax M, sMax M⁻¹, isMatNorm_two hn M, isMatNorm_two hn M⁻¹, e.trans (congrArg _ two)⟩
  · exact ⟨_, _, isMatNorm_inf hn M, isMatNorm_inf hn M⁻¹, e⟩
  · exact ⟨_, _, rfl, rfl, e⟩

/-! ## Theorems -/

/-- For every documented order, `cond(p)` of a square operator is the condition number of its dense matrix, `inf` if that
is singular. -/
theorem cond_is_condition_number {a : Op} (ha : Valid False a) (hc : Calm a) (hsq : a.rows = a.cols) {p : NormOrd}
    (hp : Documented p) : ∃ N, ∀ n ≥ N, ∃ D c, todense n a = .ok D ∧ cond n a p = .ok (some c) ∧
      IsCondNumber p (toM a.rows a.rows D) c := by
  refine ⟨4 * depth a + 7, fun n hn => ?_⟩
  obtain ⟨D, h1, h2⟩ := dense_returns ha hc (n := n) (by omega)
  rw [← hsq] at h2
  refine ⟨D, _, h1, cond_eq n ha ⟨le_refl _, hc⟩ hsq hp.good (fun e => ?_) hn, ?_⟩
  · subst e
    rcases hp with h | h | h | h | h <;> cases h
  · rw [h2]
    exact isCondNumber_ce ha.node.rows hp _

/-- The Kronecker product of a matrix and a scaling meets the hypotheses, with the Frobenius norm. -/
example : ∃ N, ∀ n ≥ N, ∃ D c, todense n exK = .ok D ∧ cond n exK .fro = .ok (some c) ∧ IsCondNumber .fro (toM 4 4 D) c :=
  cond_is_condition_number built_exK.valid calm_exK rfl (by simp [Documented])

/-- What the documentation says about the condition number: if the right-hand side of a regular linear system changes
from `b` to `b'`, the relative change of the solution is at most `cond(p)` times the relative change of the right-hand
side, in the vector norm of the order. -/
theorem cond_bounds_error {a : Op} (ha : Valid False a) (hc : Calm a) (hsq : a.rows = a.cols) {p : NormOrd}
    (hp : Documented p) (hfro : p ≠ .fro) : ∃ N, ∀ n ≥ N, ∃ D, todense n a = .ok D ∧
      ((toM a.rows a.rows D).det ≠ 0 → ∃ c : ℝ, cond n a p = .ok (some (ENNReal.ofReal c)) ∧
        ∀ x x' b b' : Fin a.rows → ℝ, toM a.rows a.rows D *ᵥ x = b → toM a.rows a.rows D *ᵥ x' = b' →
          vecNorm p (x' - x) * vecNorm p b ≤ c * vecNorm p (b' - b) * vecNorm p x) := by
  obtain ⟨N, h⟩ := cond_is_condition_number ha hc hsq hp
  refine ⟨N, fun n hn => ?_⟩
  obtain ⟨D, c, h1, h2, h3⟩ := h n hn
  refine ⟨D, h1, fun hd => ?_⟩
  rcases h3 with h3 | ⟨-, u, v, hu, hv, rfl⟩
  · exact absurd h3.1 hd
  refine ⟨u * v, h2, fun x x' b b' hx hx' => ?_⟩
  have get : ∀ {M : Matrix (Fin a.rows) (Fin a.rows) ℝ} {w : ℝ}, IsMatNorm p M w →
      0 ≤ w ∧ ∀ x, vecNorm p (M *ᵥ x) ≤ w * vecNorm p x := fun {M w} hw => by
    cases p with
    | fro => exact absurd rfl hfro
    | none => exact hw.1
    | one => exact hw.1
    | two => exact hw.1
    | inf => exact hw.1
    | _ => exact hw.1
  have nn : ∀ y : Fin a.rows → ℝ, 0 ≤ vecNorm p y := fun y => by
    haveI : Nonempty (Fin a.rows) := ⟨⟨0, ha.node.rows⟩⟩
    have hs : 0 ≤ √(∑ i, y i ^ 2) := Real.sqrt_nonneg _
    cases p with
    | one => exact sum_nonneg fun _ _ => abs_nonneg _
    | inf =>
      exact (abs_nonneg (y ⟨0, ha.node.rows⟩)).trans ((sup_ex fun i => |y i|).1 ⟨0, ha.node.rows⟩)
    | _ => exact hs
  have e : x' - x = (toM a.rows a.rows D)⁻¹ *ᵥ (b' - b) := by
    rw [← hx, ← hx', ← mulVec_sub, mulVec_mulVec, nonsing_inv_mul _ (Ne.isUnit hd), one_mulVec]
  have e1 := (get hv).2 (b' - b)
  rw [← e] at e1
  have e2 := (get hu).2 x
  rw [hx] at e2
  calc vecNorm p (x' - x) * vecNorm p b ≤ (v * vecNorm p (b' - b)) * (u * vecNorm p x) :=
        mul_le_mul e1 e2 (nn _) (mul_nonneg (get hv).1 (nn _))
    _ = _ := by ring

example : ∃ N, ∀ n ≥ N, ∃ D, todense n exK = .ok D ∧
      ((toM 4 4 D).det ≠ 0 → ∃ c : ℝ, cond n exK .inf = .ok (some (ENNReal.ofReal c)) ∧
        ∀ x x' b b' : Fin 4 → ℝ, toM 4 4 D *ᵥ x = b → toM 4 4 D *ᵥ x' = b' →
          vecNorm .inf (x' - x) * vecNorm .inf b ≤ c * vecNorm .inf (b' - b) * vecNorm .inf x) :=
  cond_bounds_error built_exK.valid calm_exK rfl (by simp [Documented]) (by decide)

/-- For the orders -1, -2 and `-inf`, that are not documented, `cond` agrees with `np.linalg.cond` of the dense matrix
as well, and for the nuclear norm unless the operator is an `Identity`.  The full statement has neither this exception
nor the hypothesis that the matrix is regular for the order -2: `singular_scaling_negative`, `kronecker_negative` and
`identity_nuclear` show that the code fails without them. -/
theorem cond_eq_dense_partial {a : Op} (ha : Valid False a) (hc : Calm a) (hsq : a.rows = a.cols) {p : NormOrd}
    (hp : p ≠ .other) (hnuc : p = .nuc → ∀ h, a ≠ .identity h) : ∃ N, ∀ n ≥ N, ∃ D, todense n a = .ok D ∧
      ((p = .negTwo → (toM a.rows a.rows D).det ≠ 0) →
        ∃ c, npCond p (toM a.rows a.rows D) = .ok c ∧ cond n a p = .ok (some c)) := by
  refine ⟨4 * depth a + 7, fun n hn => ?_⟩
  obtain ⟨D, h1, h2⟩ := dense_returns ha hc (n := n) (by omega)
  rw [← hsq] at h2
  refine ⟨D, h1, fun hneg => ?_⟩
  rw [h2] at hneg ⊢
  haveI : Nonempty (Fin a.rows) := ⟨⟨0, ha.node.rows⟩⟩
  by_cases hg : Good p
  · exact ⟨_, npCond_eq hg _ hneg, cond_eq n ha ⟨le_refl _, hc⟩ hsq hg hneg hn⟩
  have hp : p = .nuc := by
    cases p with
    | nuc => rfl
    | fro => exact absurd (.inr rfl) hg
    | other => exact absurd rfl hp
    | _ => exact absurd (.inl rfl) hg
  subst hp
  obtain ⟨n, rfl⟩ : ∃ k, n = k + 1 := ⟨n - 1, by omega⟩
  have gen := denseCond_eq ha ⟨le_refl _, hc⟩ (n := n) (by omega) hsq .nuc
  have val : ∃ c, npCond .nuc (toM a.rows a.rows (den a)) = .ok c ∧ ((toM a.rows a.rows (den a)).det = 0 → c = ⊤) := by
    by_cases hd : (toM a.rows a.rows (den a)).det = 0
    · exact ⟨⊤, if_pos hd, fun _ => rfl⟩
    · exact ⟨_, if_neg hd, fun e => absurd e hd⟩
  obtain ⟨c, hc1, hc2⟩ := val
  rw [hc1] at gen
  have gen : denseCond n a .nuc = .ok (some c) := gen
  refine ⟨c, hc1, ?_⟩
  rw [cond.eq_def]
  refine (if_neg (not_not.2 hsq)).trans ?_
  cases ha with
  | @identity h _ _ => exact absurd rfl (hnuc rfl h)
  | @scaling h iso f e hi nd =>
    have hd : den (.scaling h iso f) = fun i j => if i = j then f i else 0 := by rw [den]
    have hr : (Op.scaling h iso f).rows = h.rows := rfl
    have hpos : 0 < h.rows := nd.rows
    haveI : Nonempty (Fin h.rows) := ⟨⟨0, hpos⟩⟩
    have hdet : ⨅ i : Fin h.rows, |f i| = 0 → c = ⊤ := fun h0 => hc2 (by
      rw [hd, hr, toM_diag]
      exact (det_diag_eq_zero _).2 h0)
    dsimp only
    split
    · next hiso =>
      rw [condIso]
      by_cases hs : f 0 = 0
      · rw [if_pos hs, hdet]
        refine inf_eq (fun i => abs_nonneg _) ⟨⟨0, hpos⟩, ?_⟩
        rw [hi hiso, hs, abs_zero]
      · rw [if_neg hs]
        exact gen
    · rw [condAniso, if_neg hpos.ne']
      dsimp only
      by_cases h0 : ⨅ i : Fin h.rows, |f i| = 0
      · rw [if_pos h0, hdet h0]
      · rw [if_neg h0]
        exact gen
  | kron _ _ _ _ _ => exact (if_neg (by rintro ⟨-, h | h⟩ <;> cases h)).trans gen
  | idkron _ _ _ _ => exact (if_neg (by rintro ⟨-, h | h⟩ <;> cases h)).trans gen
  | symkron _ _ _ _ _ _ _ _ _ => exact (if_neg (by rintro ⟨-, h | h⟩ <;> cases h)).trans gen
  | matrix _ => exact gen
  | lam _ => exact gen
  | zero _ => exact gen
  | symmetrize _ _ _ => exact gen
  | scaled _ _ _ _ _ _ => exact gen
  | sum _ _ _ _ => exact gen
  | prod _ _ _ _ _ => exact gen
  | transposed _ _ _ _ => exact gen
  | inverse _ _ _ _ _ _ _ => exact gen
  | selection _ _ _ _ _ => exact gen
  | embedding _ _ _ _ _ => exact gen
  | block _ _ _ _ _ _ => exact gen

example : ∃ N, ∀ n ≥ N, ∃ D, todense n exK = .ok D ∧ ((NormOrd.negOne = .negTwo → (toM 4 4 D).det ≠ 0) →
    ∃ c, npCond .negOne (toM 4 4 D) = .ok c ∧ cond n exK .negOne = .ok (some c)) :=
  cond_eq_dense_partial built_exK.valid calm_exK rfl (by decide) (fun h => by cases h)

/-- `cond` and `eigvals` of an operator that is not square raise LinAlgError. -/
theorem cond_eigvals_reject {a : Op} (hsq : a.rows ≠ a.cols) {n : ℕ} (hn : 0 < n) (p : NormOrd) :
    cond n a p = .error .linAlgError ∧ eigvals n a = .error .linAlgError := by
  obtain ⟨n, rfl⟩ : ∃ k, n = k + 1 := ⟨n - 1, by omega⟩
  constructor
  · rw [cond.eq_def]; exact if_pos hsq
  · rw [eigvals.eq_def]; exact if_pos hsq

example : cond 3 exRow .two = .error .linAlgError ∧ eigvals 3 exRow = .error .linAlgError :=
  cond_eigvals_reject (by decide) (by decide) _

/-- The cache is invisible: every call of any sequence of calls of `cond` returns what a call on a new object returns. -/
theorem cond_cached (n : ℕ) (op : Op) (ps : List NormOrd) :
    CondObj.calls n ⟨op, []⟩ ps = ps.map (cond n op) := by
  have key : ∀ (ps : List NormOrd) (s : CondObj), (∀ p c, s.cache.lookup p = some c → cond n s.op p = .ok c) →
      s.calls n ps = ps.map (cond n s.op) := by
    intro ps
    induction ps with
    | nil => intro s _; rfl
    | cons p ps ih =>
      intro s hs
      rw [CondObj.calls, List.map_cons]
      cases hl : s.cache.lookup p with
      | some c =>
        have e : s.call n p = (s, .ok c) := by rw [CondObj.call, hl]
        rw [e, ih s hs, hs p c hl]
      | none =>
        cases hc : cond n s.op p with
        | error er =>
          have e : s.call n p = (s, .error er) := by
            rw [CondObj.call, hl]
            simp only [hc]
          rw [e, ih s hs]
        | ok c =>
          have e : s.call n p = ({ s with cache := (p, c) :: s.cache }, .ok c) := by
            rw [CondObj.call, hl]
            simp only [hc]
          rw [e]
          refine congrArg _ (ih _ fun q d hq => ?_)
          rw [List.lookup_cons] at hq
          by_cases hqp : q = p
          · subst hqp
            rw [beq_self_eq_true] at hq
            cases hq
            exact hc
          · rw [beq_eq_false_iff_ne.2 hqp] at hq
            exact hs q d hq
  exact key ps _ fun p c h => by cases h

example : CondObj.calls 5 ⟨mkIdentity 3, []⟩ [.fro, .nuc, .fro] = [.ok (some 3), .error .recursionError, .ok (some 3)] := by
  rw [cond_cached]
  rfl

/-- `eigvals()` of a square operator lists the eigenvalues of its dense matrix: the complex roots of the characteristic
polynomial with their multiplicities. -/
theorem eigvals_eq_dense {a : Op} (ha : Valid False a) (hc : Calm a) (hsq : a.rows = a.cols) : ∃ N, ∀ n ≥ N, ∃ D es,
    todense n a = .ok D ∧ eigvals n a = .ok es ∧
      (es : Multiset ℂ) = ((toM a.rows a.rows D).map (fun x : ℝ => (x : ℂ))).charpoly.roots := by
  refine ⟨4 * depth a + 7, fun n hn => ?_⟩
  obtain ⟨D, h1, h2⟩ := dense_returns ha hc (n := n) (by omega)
  rw [← hsq] at h2
  obtain ⟨es, e1, e2⟩ := eigvals_eq n ha ⟨le_refl _, hc⟩ hsq hn
  refine ⟨D, es, h1, e1, e2.trans ?_⟩
  rw [eigM, h2]

example : ∃ N, ∀ n ≥ N, ∃ D es, todense n exI = .ok D ∧ eigvals n exI = .ok es ∧
      (es : Multiset ℂ) = ((toM 4 4 D).map (fun x : ℝ => (x : ℂ))).charpoly.roots :=
  eigvals_eq_dense built_exI.valid calm_exI rfl

/-- There are as many eigenvalues as rows; their sum is what `trace()` returns, and their product is what `det()` returns
for operators whose `det()` does not fail on non-square factors (see `det_nonsquare_factors`). -/
theorem eigvals_det_trace {a : Op} (ha : Valid False a) (hc : Calm a) (hsq : a.rows = a.cols) : ∃ N, ∀ n ≥ N, ∃ es t,
    eigvals n a = .ok es ∧ es.length = a.rows ∧ trace n a = .ok t ∧ es.sum = t ∧
      (SquareFactors a → ∃ d, det n a = .ok d ∧ es.prod = d) := by
  obtain ⟨N₁, H1⟩ := eigvals_eq_dense ha hc hsq
  obtain ⟨N₂, H2⟩ := trace_rank_eq_dense ha hc
  refine ⟨max (max N₁ N₂) (4 * depth a + 7), fun n hn => ?_⟩
  obtain ⟨D, es, h1, h2, h3⟩ := H1 n (by omega)
  obtain ⟨D', h1', h4, -⟩ := H2 n (by omega)
  obtain rfl : D = D' := Except.ok.inj (h1.symm.trans h1')
  have hmap : (toM a.rows a.rows D).map (fun x : ℝ => (x : ℂ)) = (toM a.rows a.rows D).map (algebraMap ℝ ℂ) := rfl
  refine ⟨es, _, h2, ?_, h4 hsq, ?_, fun hS => ⟨detM a.rows (den a), ?_, ?_⟩⟩
  · rw [← Multiset.coe_card, h3, ← (IsAlgClosed.splits _).natDegree_eq_card_roots, charpoly_natDegree_eq_dim,
      Fintype.card_fin]
  · rw [← Multiset.sum_coe, h3, ← trace_eq_sum_roots_charpoly, hmap]
    exact (AddMonoidHom.map_trace (algebraMap ℝ ℂ).toAddMonoidHom _).symm
  · have := det_eq n ha ⟨le_refl _, hc⟩ hS hsq (by omega)
    exact this
  · obtain ⟨D'', k1, k2⟩ := dense_returns ha hc (n := n) (by omega)
    obtain rfl : D = D'' := Except.ok.inj (h1.symm.trans k1)
    rw [← hsq] at k2
    rw [← Multiset.prod_coe, h3, ← det_eq_prod_roots_charpoly, hmap, k2]
    exact (RingHom.map_det (algebraMap ℝ ℂ) _).symm

example : ∃ N, ∀ n ≥ N, ∃ es t, eigvals n exI = .ok es ∧ es.length = 4 ∧ trace n exI = .ok t ∧ es.sum = t ∧
    (SquareFactors exI → ∃ d, det n exI = .ok d ∧ es.prod = d) :=
  eigvals_det_trace built_exI.valid calm_exI rfl

/-! ## Violations -/

/-- A violation: for a singular diagonal matrix that is not 0 and the order -2, `np.linalg.cond` returns 0 (the smallest
singular value divided by the largest one), but `Scaling.cond` returns `inf`. -/
theorem singular_scaling_negative (n : ℕ) : cond (n + 1) (mkScalingAniso 2 fun i => i) .negTwo = .ok (some ⊤) ∧
    npCond .negTwo (toM 2 2 fun i j => if i = j then (i : ℝ) else 0) = .ok 0 := by
  have h0 : ⨅ i : Fin 2, |((i : ℕ) : ℝ)| = 0 := inf_eq (fun i => abs_nonneg _) ⟨0, by simp⟩
  have h1 : ⨆ i : Fin 2, |((i : ℕ) : ℝ)| = 1 := sup_eq (fun i => by fin_cases i <;> simp) ⟨1, by simp⟩
  constructor
  · rw [cond.eq_def]
    refine (if_neg (not_not.2 rfl)).trans ?_
    show condAniso 2 (fun i => (i : ℝ)) .negTwo (denseCond n (mkScalingAniso 2 fun i => i) .negTwo) = _
    rw [condAniso, if_neg (by decide)]
    exact if_pos h0
  · rw [toM_diag 2 fun i => (i : ℝ)]
    show (if sMax _ = 0 then _ else _) = _
    rw [(isMax_diagonal fun i : Fin 2 => ((i : ℕ) : ℝ)).eq, (isMin_diagonal fun i : Fin 2 => ((i : ℕ) : ℝ)).eq, h0, h1,
      if_neg one_ne_zero, zero_div, ENNReal.ofReal_zero]

/-- The 1×1 matrix 0 and the matrix `diag(0, 1)`. -/
def exNull : Op := mkMatrix 1 1 0
def exHalf : Op := mkMatrix 2 2 fun i j => if i = j then (i : ℝ) else 0
/-- Their Kronecker product. -/
def exNan : Op := .kron (base 2 2) exNull exHalf

/-- A violation: for the order -2 the Kronecker product of a zero matrix and a singular matrix has the condition number
`inf * 0 = nan`. -/
theorem kronecker_negative (n : ℕ) (hn : 20 ≤ n) : mkKron exNull exHalf = .ok exNan ∧
    cond n exNan .negTwo = .ok none := by
  have hA : Valid False exNull := valid_matrix (by norm_num) (by norm_num) _
  have hB : Valid False exHalf := valid_matrix (by norm_num) (by norm_num) _
  have cA : Calm exNull := by simp [exNull, mkMatrix, Calm]
  have cB : Calm exHalf := by simp [exHalf, mkMatrix, Calm]
  have dA : depth exNull ≤ 1 := by simp [exNull, mkMatrix, depth]
  have dB : depth exHalf ≤ 1 := by simp [exHalf, mkMatrix, depth]
  refine ⟨rfl, ?_⟩
  obtain ⟨n, rfl⟩ : ∃ k, n = k + 2 := ⟨n - 2, by omega⟩
  have e1 : cond (n + 1) exNull .negTwo = .ok (some ⊤) := by
    rw [cond.eq_def]
    refine (if_neg (not_not.2 rfl)).trans ?_
    show denseCond n exNull .negTwo = _
    rw [denseCond_eq hA ⟨dA, cA⟩ (by omega) rfl]
    have : npCond .negTwo (toM exNull.rows exNull.rows (den exNull)) = .ok ⊤ := by
      haveI : Nonempty (Fin exNull.rows) := ⟨⟨0, hA.node.rows⟩⟩
      have : toM exNull.rows exNull.rows (den exNull) = 0 := by
        rw [exNull, mkMatrix, den]
        rfl
      exact if_pos ((sMax_eq_zero _).2 this)
    rw [this]
    rfl
  have e2 : cond (n + 1) exHalf .negTwo = .ok (some 0) := by
    rw [cond.eq_def]
    refine (if_neg (not_not.2 rfl)).trans ?_
    show denseCond n exHalf .negTwo = _
    rw [denseCond_eq hB ⟨dB, cB⟩ (by omega) rfl]
    have : npCond .negTwo (toM exHalf.rows exHalf.rows (den exHalf)) = .ok 0 := by
      rw [exHalf, mkMatrix, den]
      exact (singular_scaling_negative 0).2
    rw [this]
    rfl
  rw [cond.eq_def]
  refine (if_neg (not_not.2 rfl)).trans ?_
  refine (if_pos ⟨⟨rfl, rfl⟩, .inl rfl⟩).trans ?_
  rw [e1, e2]
  show Except.ok (fmul (some ⊤) (some 0)) = _
  rw [fmul, if_pos (.inr ⟨rfl, rfl⟩)]

/-- A violation: the condition number of an `Identity` with respect to the nuclear norm is `n²`, but `cond("nuc")` never
returns: it exceeds any recursion limit. -/
theorem identity_nuclear (n k : ℕ) : cond n (mkIdentity k) .nuc = .error .recursionError := by
  cases n with
  | zero => rfl
  | succ n =>
    rw [cond.eq_def]
    exact if_neg (not_not.2 rfl)

end Probnum.Linops.Cond
