import Verif.GramSchmidt.Model
import Mathlib.LinearAlgebra.Span.Basic
import Mathlib.Data.Real.StarOrdered
import Mathlib.LinearAlgebra.Matrix.PosDef
import Mathlib.Tactic.FinCases
import Mathlib.Tactic.NormNum
import Mathlib.Tactic.Linarith
import Mathlib.Tactic.FieldSimp

/-!
# Gram–Schmidt orthogonalisation (C38)
-/

namespace Probnum.GramSchmidt

variable {n : ℕ}

/-! ## Specification -/

/-- A bilinear form that is symmetric and positive definite. -/
structure IsInner (f : Vec n → Vec n → ℝ) : Prop where
  add : ∀ u v w, f u (v + w) = f u v + f u w
  smul : ∀ (c : ℝ) u v, f u (c • v) = c * f u v
  symm : ∀ u v, f u v = f v u
  pos : ∀ u, u ≠ 0 → 0 < f u u

/-- `w` is the component of `v` orthogonal to the vectors `us` with respect to `f`. -/
def IsOrthogonalPart (f : Vec n → Vec n → ℝ) (us : List (Vec n)) (v w : Vec n) : Prop :=
  v - w ∈ Submodule.span ℝ {u | u ∈ us} ∧ ∀ u ∈ us, f u w = 0

/-- Mutually orthogonal non-zero vectors. -/
def IsOrthogonalBasis (f : Vec n → Vec n → ℝ) (us : List (Vec n)) : Prop :=
  (∀ u ∈ us, u ≠ 0) ∧ us.Pairwise fun u w => f u w = 0

theorem IsInner.zero {f : Vec n → Vec n → ℝ} (h : IsInner f) (u : Vec n) : f u 0 = 0 := by
  simpa using h.smul 0 u 0

theorem IsInner.sub {f : Vec n → Vec n → ℝ} (h : IsInner f) (u v w : Vec n) : f u (v - w) = f u v - f u w := by
  have e : v - w = v + (-1 : ℝ) • w := by rw [neg_one_smul, sub_eq_add_neg]
  rw [e, h.add, h.smul]
  ring

/-- The orthogonal part is unique. -/
theorem orthogonal_part_unique {f : Vec n → Vec n → ℝ} (hf : IsInner f) {us : List (Vec n)} {v w w' : Vec n}
    (h : IsOrthogonalPart f us v w) (h' : IsOrthogonalPart f us v w') : w = w' := by
  have hm : w - w' ∈ Submodule.span ℝ {u | u ∈ us} := by
    have := Submodule.sub_mem _ h'.1 h.1
    simpa using this
  have ho : ∀ x ∈ Submodule.span ℝ {u | u ∈ us}, f (w - w') x = 0 := by
    intro x hx
    induction hx using Submodule.span_induction with
    | mem u hu => rw [hf.symm, hf.sub, h.2 u hu, h'.2 u hu, sub_zero]
    | zero => exact hf.zero _
    | add a b _ _ ha hb => rw [hf.add, ha, hb, add_zero]
    | smul c a _ ha => rw [hf.smul, ha, mul_zero]
  by_contra hne
  exact (hf.pos (w - w') (sub_ne_zero.2 hne)).ne' (ho _ hm)

/-- The Euclidean inner product and those of symmetric positive definite matrices are inner products. -/
theorem isInner_euclidean : IsInner (Inner.prod (.euclidean : Inner n)) where
  add u v w := dotProduct_add u v w
  smul c u v := dotProduct_smul c u v
  symm u v := dotProduct_comm u v
  pos u hu := by
    have : 0 < u ⬝ᵥ u := by
      have := Matrix.dotProduct_star_self_pos_iff (v := u)
      simpa using this.2 hu
    exact this

theorem isInner_matrix {A : Matrix (Fin n) (Fin n) ℝ} (hA : A.PosDef) : IsInner (Inner.prod (.matrix A)) where
  add u v w := by simp only [Inner.prod, innerProduct, Matrix.mulVec_add, dotProduct_add]
  smul c u v := by simp only [Inner.prod, innerProduct, Matrix.mulVec_smul, dotProduct_smul, smul_eq_mul]
  symm u v := by
    simp only [Inner.prod, innerProduct]
    have hs : A.transpose = A := by
      have h : A.IsSymm := by simpa using hA.isHermitian
      exact h
    rw [Matrix.dotProduct_mulVec, ← Matrix.mulVec_transpose, hs, dotProduct_comm]
  pos u hu := by simpa [Inner.prod, innerProduct] using hA.dotProduct_mulVec_pos hu

/-! ## Lemmas about the loops -/

theorem norm_eq (ip : Inner n) (h : IsInner ip.prod) (v : Vec n) : ip.norm v = some (Real.sqrt (ip.prod v v)) := by
  have h0 : 0 ≤ ip.prod v v := by
    by_cases hv : v = 0
    · rw [hv, h.zero]
    · exact (h.pos v hv).le
  cases ip with
  | euclidean =>
    rw [Inner.norm, inducedNorm, Inner.prod, innerProduct, dotProduct]
    simp only [sq]
  | matrix A =>
    have e : ∑ i, v i * A.mulVec v i = (Inner.matrix A).prod v v := rfl
    rw [Inner.norm, inducedNorm, e, if_neg (not_lt.2 h0)]
  | fn f =>
    have h0 : 0 ≤ f v v := h0
    rw [Inner.norm, if_neg (not_lt.2 h0)]
    rfl

theorem classicalLoop_spec {ip : Inner n} (hf : IsInner ip.prod) (v : Vec n) :
    ∀ (us done : List (Vec n)) (w : Vec n), IsOrthogonalBasis ip.prod (done ++ us) → IsOrthogonalPart ip.prod done v w →
      ∃ w', classicalLoop ip v us w = some w' ∧ IsOrthogonalPart ip.prod (done ++ us) v w'
  | [], done, w, _, hw => ⟨w, rfl, by rwa [List.append_nil]⟩
  | u :: us, done, w, hb, hw => by
    have hu : u ≠ 0 := hb.1 u (by simp)
    have huu := (hf.pos u hu).ne'
    obtain ⟨hp1, hp2, hp3⟩ := List.pairwise_append.1 hb.2
    -- the vector so far differs from `v` by something orthogonal to `u`
    have hvw : ip.prod u (v - w) = 0 := by
      refine Submodule.span_induction (p := fun x _ => ip.prod u x = 0) ?_ (hf.zero u) ?_ ?_ hw.1
      · intro x hx
        rw [hf.symm]
        exact hp3 x hx u (by simp)
      · intro a b _ _ ha hb; rw [hf.add, ha, hb, add_zero]
      · intro c a _ ha; rw [hf.smul, ha, mul_zero]
    have hvw' : ip.prod u v = ip.prod u w := by rw [hf.sub] at hvw; linarith
    have hnew : IsOrthogonalPart ip.prod (done ++ [u]) v (w - (ip.prod u v / ip.prod u u) • u) := by
      refine ⟨?_, fun x hx => ?_⟩
      · have e : v - (w - (ip.prod u v / ip.prod u u) • u) = (v - w) + (ip.prod u v / ip.prod u u) • u := by abel
        rw [e]
        refine Submodule.add_mem _ (Submodule.span_mono ?_ hw.1) (Submodule.smul_mem _ _ (Submodule.subset_span ?_))
        · intro x hx; exact List.mem_append_left _ hx
        · simp
      · rcases List.mem_append.1 hx with hx | hx
        · rw [hf.sub, hf.smul, hw.2 x hx, hp3 x hx u (by simp)]; ring
        · rw [List.mem_singleton] at hx
          subst hx
          rw [hf.sub, hf.smul, ← hvw']
          field_simp
          ring
    obtain ⟨w', h1, h2⟩ := classicalLoop_spec hf v us (done ++ [u]) _ (by simpa using hb) hnew
    refine ⟨w', ?_, by simpa using h2⟩
    rw [classicalLoop, projectOut, if_neg huu]
    exact h1

theorem loops_agree {ip : Inner n} (hf : IsInner ip.prod) (v : Vec n) :
    ∀ (us : List (Vec n)) (w : Vec n), IsOrthogonalBasis ip.prod us → (∀ u ∈ us, ip.prod u v = ip.prod u w) →
      modifiedLoop ip us w = classicalLoop ip v us w
  | [], w, _, _ => rfl
  | u :: us, w, hb, hw => by
    have hu : u ≠ 0 := hb.1 u (by simp)
    have huu := (hf.pos u hu).ne'
    obtain ⟨hp1, hp2⟩ := List.pairwise_cons.1 hb.2
    rw [modifiedLoop, classicalLoop, projectOut, projectOut, if_neg huu, if_neg huu, hw u (by simp)]
    refine loops_agree hf v us _ ⟨fun x hx => hb.1 x (by simp [hx]), hp2⟩ fun x hx => ?_
    rw [hf.sub, hf.smul, hf.symm x u, hp1 x hx, hw x (by simp [hx])]
    ring

theorem rowsOf_ne {us : List (Vec n)} (h : us ≠ []) : rowsOf us = .ok us := by
  cases us with
  | nil => exact absurd rfl h
  | cons u us => rfl

/-! ## The properties -/

/-- **C38.** Without normalisation all variants return the component of `v` orthogonal to the basis vectors. -/
theorem gram_schmidt_orthogonal {ip : Inner n} (hf : IsInner ip.prod) {us : List (Vec n)} (hus : us ≠ [])
    (hb : IsOrthogonalBasis ip.prod us) (v : Vec n) : ∃ w, IsOrthogonalPart ip.prod us v w ∧
      gramSchmidt v us ip false = .ok (some w) ∧ modifiedGramSchmidt v us ip false = .ok (some w) ∧
      ∀ modified, doubleGramSchmidt v us ip false modified = .ok (some w) := by
  have key : ∀ v : Vec n, ∃ w, IsOrthogonalPart ip.prod us v w ∧
      gramSchmidt v us ip false = .ok (some w) ∧ modifiedGramSchmidt v us ip false = .ok (some w) := by
    intro v
    obtain ⟨w, h1, h2⟩ := classicalLoop_spec hf v us [] v hb ⟨by simp, by simp⟩
    refine ⟨w, h2, ?_, ?_⟩
    · rw [gramSchmidt, rowsOf_ne hus]
      dsimp only
      rw [h1]
      rfl
    · rw [modifiedGramSchmidt, rowsOf_ne hus]
      dsimp only
      rw [loops_agree hf v us v hb fun _ _ => rfl, h1]
      rfl
  obtain ⟨w, h1, h2, h3⟩ := key v
  refine ⟨w, h1, h2, h3, fun modified => ?_⟩
  obtain ⟨w', g1, g2, g3⟩ := key w
  have e : w' = w := orthogonal_part_unique hf g1 ⟨by simp, h1.2⟩
  subst e
  rw [doubleGramSchmidt]
  dsimp only
  cases modified
  · rw [if_neg (by simp), h2]
    exact g2
  · rw [if_pos rfl, h3]
    exact g3

/-- **C38.** With normalisation all variants return the orthogonal component divided by its norm, provided that `v` is not
in the span of the basis. -/
theorem gram_schmidt_normalized {ip : Inner n} (hf : IsInner ip.prod) {us : List (Vec n)} (hus : us ≠ [])
    (hb : IsOrthogonalBasis ip.prod us) {v : Vec n} (hv : v ∉ Submodule.span ℝ {u | u ∈ us}) :
    ∃ w w', IsOrthogonalPart ip.prod us v w ∧ w' = (Real.sqrt (ip.prod w w))⁻¹ • w ∧ ip.prod w' w' = 1 ∧
      gramSchmidt v us ip true = .ok (some w') ∧ modifiedGramSchmidt v us ip true = .ok (some w') ∧
      ∀ modified, doubleGramSchmidt v us ip true modified = .ok (some w') := by
  have key : ∀ v : Vec n, v ∉ Submodule.span ℝ {u | u ∈ us} → ∃ w w', IsOrthogonalPart ip.prod us v w ∧
      w' = (Real.sqrt (ip.prod w w))⁻¹ • w ∧ ip.prod w' w' = 1 ∧
      gramSchmidt v us ip true = .ok (some w') ∧ modifiedGramSchmidt v us ip true = .ok (some w') := by
    intro v hv
    obtain ⟨w, h1, h2⟩ := classicalLoop_spec hf v us [] v hb ⟨by simp, by simp⟩
    rw [List.nil_append] at h2
    have hw : w ≠ 0 := by
      rintro rfl
      exact hv (by simpa using h2.1)
    have hp := hf.pos w hw
    have hs : Real.sqrt (ip.prod w w) ≠ 0 := (Real.sqrt_pos.2 hp).ne'
    have hfin : finish ip true w = some ((Real.sqrt (ip.prod w w))⁻¹ • w) := by
      rw [finish, if_pos rfl, norm_eq ip hf, Option.bind_some, divVec, if_neg hs]
      congr 1
      funext i
      rw [Pi.smul_apply, smul_eq_mul, div_eq_inv_mul]
    refine ⟨w, _, h2, rfl, ?_, ?_, ?_⟩
    · rw [hf.smul, hf.symm ((Real.sqrt (ip.prod w w))⁻¹ • w) w, hf.smul]
      have := Real.mul_self_sqrt hp.le
      field_simp
      rw [sq, this]
    · rw [gramSchmidt, rowsOf_ne hus]
      dsimp only
      rw [h1, Option.bind_some, hfin]
    · rw [modifiedGramSchmidt, rowsOf_ne hus]
      dsimp only
      rw [loops_agree hf v us v hb fun _ _ => rfl, h1, Option.bind_some, hfin]
  obtain ⟨w, w', h1, h2, h3, h4, h5⟩ := key v hv
  have hort : ∀ u ∈ us, ip.prod u w' = 0 := fun u hu => by rw [h2, hf.smul, h1.2 u hu, mul_zero]
  have hnot : w' ∉ Submodule.span ℝ {u | u ∈ us} := by
    intro hin
    have : IsOrthogonalPart ip.prod us w' 0 := ⟨by simpa using hin, fun u _ => hf.zero u⟩
    have e := orthogonal_part_unique hf this ⟨by simp, hort⟩
    rw [← e, hf.zero] at h3
    exact zero_ne_one h3
  obtain ⟨x, x', g1, g2, g3, g4, g5⟩ := key w' hnot
  have e : x = w' := orthogonal_part_unique hf g1 ⟨by simp, hort⟩
  subst e
  rw [h3, Real.sqrt_one, inv_one, one_smul] at g2
  subst g2
  refine ⟨w, _, h1, h2, h3, h4, h5, fun modified => ?_⟩
  rw [doubleGramSchmidt]
  dsimp only
  cases modified
  · rw [if_neg (by simp), h4]
    exact g4
  · rw [if_pos rfl, h5]
    exact g5

/-- Normalising a vector in the span of the basis divides by zero (the result is `nan`). -/
theorem gram_schmidt_in_span {ip : Inner n} (hf : IsInner ip.prod) {us : List (Vec n)} (hus : us ≠ [])
    (hb : IsOrthogonalBasis ip.prod us) {v : Vec n} (hv : v ∈ Submodule.span ℝ {u | u ∈ us}) :
    gramSchmidt v us ip true = .ok none ∧ modifiedGramSchmidt v us ip true = .ok none := by
  obtain ⟨w, h1, h2⟩ := classicalLoop_spec hf v us [] v hb ⟨by simp, by simp⟩
  have hw : w = 0 := orthogonal_part_unique hf h2 ⟨by simpa using hv, fun u _ => hf.zero u⟩
  have hfin : finish ip true w = none := by
    rw [finish, if_pos rfl, norm_eq ip hf, hw, hf.zero, Real.sqrt_zero, Option.bind_some, divVec, if_pos rfl]
  refine ⟨?_, ?_⟩
  · rw [gramSchmidt, rowsOf_ne hus]
    dsimp only
    rw [h1, Option.bind_some, hfin]
  · rw [modifiedGramSchmidt, rowsOf_ne hus]
    dsimp only
    rw [loops_agree hf v us v hb fun _ _ => rfl, h1, Option.bind_some, hfin]

/-- The property fails for the empty basis (for which the orthogonal component is `v` itself): `ValueError`. -/
theorem gram_schmidt_empty_basis (v : Vec n) (hn : n ≠ 0) (ip : Inner n) (normalize modified : Bool) :
    gramSchmidt v [] ip normalize = .error .valueError ∧ modifiedGramSchmidt v [] ip normalize = .error .valueError ∧
    doubleGramSchmidt v [] ip normalize modified = .error .valueError := by
  have h1 : gramSchmidt v [] ip normalize = .error .valueError := by rw [gramSchmidt, rowsOf, if_neg hn]
  have h2 : modifiedGramSchmidt v [] ip normalize = .error .valueError := by rw [modifiedGramSchmidt, rowsOf, if_neg hn]
  refine ⟨h1, h2, ?_⟩
  rw [doubleGramSchmidt]
  dsimp only
  cases modified
  · rw [if_neg (by simp), h1]
  · rw [if_pos rfl, h2]

/-- A concrete case: two orthogonal vectors in three dimensions and a vector outside their span. -/
example : IsOrthogonalBasis (Inner.prod (.euclidean : Inner 3)) [![1, 1, 0], ![1, -1, 0]] ∧
    (![1, 2, 3] : Vec 3) ∉ Submodule.span ℝ {u | u ∈ [![1, 1, 0], ![1, -1, 0]]} := by
  refine ⟨⟨?_, ?_⟩, fun h => ?_⟩
  · intro u hu h
    have h0 := congrFun h 0
    simp only [List.mem_cons, List.not_mem_nil, or_false] at hu
    rcases hu with rfl | rfl <;> simp at h0
  · simp [Inner.prod, innerProduct, dotProduct, Fin.sum_univ_three]
  · have : ∀ x ∈ Submodule.span ℝ {u : Vec 3 | u ∈ [![1, 1, 0], ![1, -1, 0]]}, x 2 = 0 := by
      intro x hx
      induction hx using Submodule.span_induction with
      | mem u hu =>
        simp only [List.mem_cons, List.not_mem_nil, or_false, Set.mem_setOf_eq] at hu
        rcases hu with rfl | rfl <;> simp
      | zero => rfl
      | add a b _ _ ha hb => rw [Pi.add_apply, ha, hb, add_zero]
      | smul c a _ ha => rw [Pi.smul_apply, ha, smul_zero]
    have := this _ h
    simp at this

end Probnum.GramSchmidt
