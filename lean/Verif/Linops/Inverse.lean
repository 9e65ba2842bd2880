import Mathlib.LinearAlgebra.Matrix.ToLinearEquiv
import Verif.Linops.Transpose

/-! # Inverses are right -/

namespace Probnum.Linops

open Finset

/-! ## Singular matrices -/

/-- A vector that the first `r` rows of `M` map to zero. -/
def Null (r c : ℕ) (M : Mat) : Prop := ∃ v : ℕ → ℝ, (∃ j < c, v j ≠ 0) ∧ ∀ i < r, ∑ j ∈ range c, M i j * v j = 0

theorem detM_eq_zero_iff {n : ℕ} {M : Mat} : detM n M = 0 ↔ Null n n M := by
  rw [detM, ← Matrix.exists_mulVec_eq_zero_iff]
  constructor
  · rintro ⟨v, hv, h⟩
    let w : ℕ → ℝ := fun i => if hi : i < n then v ⟨i, hi⟩ else 0
    have hw : ∀ i : Fin n, w i = v i := fun i => by simp [w]
    refine ⟨w, ?_, fun i hi => ?_⟩
    · by_contra hall
      push Not at hall
      exact hv (funext fun i => by rw [← hw i]; exact hall i i.2)
    · have := congrFun h ⟨i, hi⟩
      simp only [Matrix.mulVec, dotProduct, toM_apply, Pi.zero_apply] at this
      rw [Finset.sum_range, ← this]
      exact Finset.sum_congr rfl fun j _ => by rw [hw j]
  · rintro ⟨v, ⟨j, hj, hv⟩, h⟩
    refine ⟨fun i => v i, fun h0 => hv (congrFun h0 ⟨j, hj⟩), funext fun i => ?_⟩
    have := h i i.2
    rw [Finset.sum_range] at this
    simpa [Matrix.mulVec, dotProduct] using this

/-- A matrix with fewer rows than columns has a null vector. -/
theorem null_of_wide {r c : ℕ} (h : r < c) (M : Mat) : Null r c M := by
  have hd : detM c (fun i j => if i < r then M i j else 0) = 0 := by
    rw [detM]
    refine Matrix.det_eq_zero_of_row_eq_zero ⟨r, h⟩ fun j => ?_
    simp
  obtain ⟨v, hv, hM⟩ := detM_eq_zero_iff.1 hd
  refine ⟨v, hv, fun i hi => ?_⟩
  have := hM i (by omega)
  simpa [hi] using this

theorem null_kron_left {r₁ c₁ r₂ c₂ : ℕ} {A B : Mat} (hc : 0 < c₂) (h : Null r₁ c₁ A) :
    Null (r₁ * r₂) (c₁ * c₂) (kronM r₂ c₂ A B) := by
  obtain ⟨v, ⟨j, hj, hv⟩, hA⟩ := h
  refine ⟨fun t => v (t / c₂), ⟨j * c₂, Nat.mul_lt_mul_of_pos_right hj hc, ?_⟩, fun i hi => ?_⟩
  · show v (j * c₂ / c₂) ≠ 0
    rw [Nat.mul_div_cancel _ hc]; exact hv
  · have hr : i / r₂ < r₁ := Nat.div_lt_of_lt_mul (by rwa [Nat.mul_comm r₂ r₁])
    have e : ∑ t ∈ range (c₁ * c₂), kronM r₂ c₂ A B i t * v (t / c₂) =
        ∑ a ∈ range c₁, ∑ b ∈ range c₂, (A (i / r₂) a * v a) * B (i % r₂) b := by
      rw [← sum_range_mul c₁ c₂ fun a b => (A (i / r₂) a * v a) * B (i % r₂) b]
      refine Finset.sum_congr rfl fun t _ => ?_
      simp only [kronM]
      ring
    show ∑ t ∈ range (c₁ * c₂), kronM r₂ c₂ A B i t * v (t / c₂) = 0
    rw [e, Finset.sum_comm]
    refine Finset.sum_eq_zero fun b _ => ?_
    rw [← Finset.sum_mul, hA _ hr, zero_mul]

theorem null_kron_right {r₁ c₁ r₂ c₂ : ℕ} {A B : Mat} (hc : 0 < c₁) (h : Null r₂ c₂ B) :
    Null (r₁ * r₂) (c₁ * c₂) (kronM r₂ c₂ A B) := by
  obtain ⟨v, ⟨j, hj, hv⟩, hB⟩ := h
  have hc₂ : 0 < c₂ := by omega
  refine ⟨fun t => v (t % c₂), ⟨j, lt_of_lt_of_le hj (Nat.le_mul_of_pos_left _ hc), ?_⟩, fun i hi => ?_⟩
  · show v (j % c₂) ≠ 0
    rw [Nat.mod_eq_of_lt hj]; exact hv
  · have hr2 : 0 < r₂ := by
      rcases Nat.eq_zero_or_pos r₂ with h | h
      · rw [h, Nat.mul_zero] at hi; omega
      · exact h
    have e : ∑ t ∈ range (c₁ * c₂), kronM r₂ c₂ A B i t * v (t % c₂) =
        ∑ a ∈ range c₁, ∑ b ∈ range c₂, A (i / r₂) a * (B (i % r₂) b * v b) := by
      rw [← sum_range_mul c₁ c₂ fun a b => A (i / r₂) a * (B (i % r₂) b * v b)]
      refine Finset.sum_congr rfl fun t _ => ?_
      simp only [kronM]
      ring
    show ∑ t ∈ range (c₁ * c₂), kronM r₂ c₂ A B i t * v (t % c₂) = 0
    rw [e]
    refine Finset.sum_eq_zero fun a _ => ?_
    rw [← Finset.mul_sum, hB _ (Nat.mod_lt _ hr2), mul_zero]

theorem null_rows {r r' c : ℕ} {M : Mat} (h : r' ≤ r) (hN : Null r c M) : Null r' c M := by
  obtain ⟨v, hv, hM⟩ := hN
  exact ⟨v, hv, fun i hi => hM i (by omega)⟩

/-- If a square Kronecker product is nonsingular, the factors are square and nonsingular. -/
theorem kron_nonsing {r₁ c₁ r₂ c₂ : ℕ} {A B : Mat} (hr₁ : 0 < r₁) (hc₁ : 0 < c₁) (hr₂ : 0 < r₂) (hc₂ : 0 < c₂)
    (hsq : r₁ * r₂ = c₁ * c₂) (h : detM (r₁ * r₂) (kronM r₂ c₂ A B) ≠ 0) :
    r₁ = c₁ ∧ r₂ = c₂ ∧ detM r₁ A ≠ 0 ∧ detM r₂ B ≠ 0 := by
  have hL : ¬ Null r₁ c₁ A := fun hN => h (detM_eq_zero_iff.2 (by
    have := null_kron_left (r₂ := r₂) (B := B) hc₂ hN
    rwa [← hsq] at this))
  have hR : ¬ Null r₂ c₂ B := fun hN => h (detM_eq_zero_iff.2 (by
    have := null_kron_right (r₁ := r₁) (A := A) hc₁ hN
    rwa [← hsq] at this))
  have h1 : ¬ r₁ < c₁ := fun hlt => hL (null_of_wide hlt A)
  have h2 : ¬ r₂ < c₂ := fun hlt => hR (null_of_wide hlt B)
  have e1 : r₁ = c₁ := by
    by_contra hne
    have : c₁ * c₂ < r₁ * r₂ := Nat.mul_lt_mul_of_lt_of_le (by omega) (by omega) hr₂
    omega
  subst e1
  have e2 : r₂ = c₂ := Nat.eq_of_mul_eq_mul_left hr₁ hsq
  subst e2
  exact ⟨rfl, rfl, fun h => hL (detM_eq_zero_iff.1 h), fun h => hR (detM_eq_zero_iff.1 h)⟩

theorem kron_inv {n m : ℕ} {A B A' B' : Mat} (hA : Eqv n n (mmul n A' A) eye) (hB : Eqv m m (mmul m B' B) eye) :
    Eqv (n * m) (n * m) (kronM m m A' B') (invM (n * m) (kronM m m A B)) := by
  refine eqv_invM_of_left ?_
  rw [kronM_mmul]
  exact (kronM_congr hA hB).trans (kronM_eye n m)

theorem kron_nonsing_of {n m : ℕ} {A B : Mat} (hA : detM n A ≠ 0) (hB : detM m B ≠ 0) :
    detM (n * m) (kronM m m A B) ≠ 0 := by
  refine detM_ne_zero_of_left (B := kronM m m (invM n A) (invM m B)) ?_
  rw [kronM_mmul]
  exact (kronM_congr (invM_mmul hA) (invM_mmul hB)).trans (kronM_eye n m)

/-! ## Block-diagonal matrices -/

theorem null_block_mem {l : List Op} {b : Op} (hb : b ∈ l) (h : Null b.rows b.cols (den b)) :
    Null (l.map Op.rows).sum (l.map Op.cols).sum (denBlock l) := by
  induction l with
  | nil => simp at hb
  | cons a l ih =>
    simp only [List.map_cons, List.sum_cons]
    rcases List.mem_cons.1 hb with rfl | hb
    · obtain ⟨v, ⟨j, hj, hv⟩, hM⟩ := h
      refine ⟨fun t => if t < b.cols then v t else 0, ⟨j, by omega, by simpa [hj] using hv⟩, fun i hi => ?_⟩
      rw [Finset.sum_range_add, Finset.sum_eq_zero (s := range (l.map Op.cols).sum), add_zero]
      · by_cases hir : i < b.rows
        · refine Eq.trans (Finset.sum_congr rfl fun t ht => ?_) (hM i hir)
          rw [Finset.mem_range] at ht
          rw [denBlock_head hir ht]
          simp only [if_pos ht]
        · refine Finset.sum_eq_zero fun t ht => ?_
          rw [Finset.mem_range] at ht
          rw [denBlock_off (.inr ⟨by omega, ht⟩), zero_mul]
      · intro t _
        simp
    · obtain ⟨v, ⟨j, hj, hv⟩, hM⟩ := ih hb
      refine ⟨fun t => if t < a.cols then 0 else v (t - a.cols), ⟨a.cols + j, by omega, by simpa using hv⟩,
        fun i hi => ?_⟩
      rw [Finset.sum_range_add, Finset.sum_eq_zero (s := range a.cols), zero_add]
      · by_cases hir : i < a.rows
        · refine Finset.sum_eq_zero fun t ht => ?_
          rw [denBlock_off (.inl ⟨hir, by omega⟩), zero_mul]
        · rw [← hM (i - a.rows) (by omega)]
          refine Finset.sum_congr rfl fun t ht => ?_
          have := denBlock_tail a l (i - a.rows) t
          rw [show a.rows + (i - a.rows) = i by omega] at this
          rw [this]
          simp
      · intro t ht
        rw [Finset.mem_range] at ht
        simp [ht]

theorem block_nonsing {l : List Op} (hsq : (l.map Op.rows).sum = (l.map Op.cols).sum)
    (h : detM (l.map Op.rows).sum (denBlock l) ≠ 0) : ∀ b ∈ l, b.rows = b.cols ∧ detM b.rows (den b) ≠ 0 := by
  have hN : ∀ b ∈ l, ¬ Null b.rows b.cols (den b) := fun b hb hn => h (detM_eq_zero_iff.2 (by
    have := null_block_mem hb hn
    rwa [← hsq] at this))
  have hge : ∀ b ∈ l, b.cols ≤ b.rows := fun b hb => by
    by_contra hlt
    exact hN b hb (null_of_wide (by omega) _)
  have heq : ∀ b ∈ l, b.rows = b.cols := by
    clear hN h
    induction l with
    | nil => simp
    | cons a l ih =>
      have hle : (l.map Op.cols).sum ≤ (l.map Op.rows).sum :=
        List.sum_le_sum fun b hb => hge b (List.mem_cons_of_mem _ hb)
      have ha := hge a (by simp)
      simp only [List.map_cons, List.sum_cons] at hsq
      intro b hb
      rcases List.mem_cons.1 hb with rfl | hb
      · omega
      · exact ih (by omega) (fun b hb => hge b (List.mem_cons_of_mem _ hb)) b hb
  intro b hb
  refine ⟨heq b hb, fun hd => hN b hb ?_⟩
  rw [← heq b hb]
  exact detM_eq_zero_iff.1 hd

/-! ## `inv` -/

/-- Operators all of whose products, Kronecker products and block matrices have square components, as far as `inv` looks at them.
(`TransposedLinearOperator` is only built around operators without a transpose of their own.) -/
inductive Regular : Op → Prop
  | dense {op : Op} : InvBase op → Regular op
  | identity {h : Hdr} : Regular (.identity h)
  | scaling {h : Hdr} {iso : Bool} {f : ℕ → ℝ} : Regular (.scaling h iso f)
  | inverse {h : Hdr} {A : Op} : Regular (.inverse h A)
  | kron {h : Hdr} {A B : Op} : Regular A → Regular B → A.rows = A.cols → B.rows = B.cols → Regular (.kron h A B)
  | idkron {h : Hdr} {k : ℕ} {B : Op} : Regular B → Regular (.idkron h k B)
  | symkron {h : Hdr} {A B : Op} : Regular A → Regular (.symkron h true A B)
  | scaled {h : Hdr} {neg : Bool} {s : ℝ} {A : Op} : Regular A → Regular (.scaled h neg s A)
  | prod {h : Hdr} {l : List Op} : (∀ a ∈ l, Regular a) → (∀ a ∈ l, a.rows = a.cols) → Regular (.prod h l)
  | transposed {h : Hdr} {A : Op} : InvBase A → Regular (.transposed h A)
  | transposedInverse {h g : Hdr} {A : Op} : Regular (.transposed h (.inverse g A))
  | block {h : Hdr} {l : List Op} : (∀ a ∈ l, Regular a) → (∀ a ∈ l, a.rows = a.cols) → Regular (.block h l)

/-- What the inverse `t` of `op` must satisfy. -/
structure InvPost (full : Prop) (op t : Op) : Prop where
  valid : Valid full t
  rows : t.rows = op.rows
  cols : t.cols = op.rows
  den : Eqv op.rows op.rows (den t) (invM op.rows (den op))

theorem InvPost.left {full : Prop} {op t : Op} (h : InvPost full op t) (hd : detM op.rows (Linops.den op) ≠ 0) :
    Eqv op.rows op.rows (mmul op.rows (Linops.den t) (Linops.den op)) eye :=
  (mmul_congr h.den (Eqv.refl _)).trans (invM_mmul hd)

theorem mkInverse_meets {full : Prop} {op : Op} (hV : Valid full op) (hsq : op.rows = op.cols) (hi : InvBase op)
    (hd : detM op.rows (den op) ≠ 0) : Meets (mkInverse op) (InvPost full op) := by
  rw [mkInverse_eq hV.coh hsq op.fl]
  refine Meets.ok ⟨valid_inverse hV hsq hi hd _, rfl, rfl, ?_⟩
  rw [den_build, den]
  exact Eqv.refl _

/-- The factors of a nonsingular product of square factors. -/
theorem prod_square {a : Op} {l : List Op} (hch : chained (a :: l)) (hsq : ∀ b ∈ a :: l, b.rows = b.cols) :
    (∀ b ∈ a :: l, b.rows = a.rows) ∧ lastCols a.cols l = a.rows := by
  induction l generalizing a with
  | nil => exact ⟨by simp, (hsq a (by simp)).symm⟩
  | cons c l ih =>
    obtain ⟨h1, h2⟩ := ih hch.2 fun b hb => hsq b (List.mem_cons_of_mem _ hb)
    have hc : c.rows = a.rows := hch.1.symm.trans (hsq a (by simp)).symm
    refine ⟨fun b hb => ?_, h2.trans hc⟩
    rcases List.mem_cons.1 hb with rfl | hb
    · rfl
    · exact (h1 b hb).trans hc

theorem prod_nonsing {r : ℕ} {l : List Op} (hr : ∀ b ∈ l, b.rows = r ∧ b.cols = r) (hd : detM r (denProd l) ≠ 0) :
    ∀ b ∈ l, detM r (den b) ≠ 0 := by
  induction l with
  | nil => simp
  | cons a l ih =>
    rw [denProd, (hr a (by simp)).2, detM_mmul] at hd
    intro b hb
    rcases List.mem_cons.1 hb with rfl | hb
    · exact left_ne_zero_of_mul hd
    · exact ih (fun b hb => hr b (List.mem_cons_of_mem _ hb)) (right_ne_zero_of_mul hd) b hb

theorem denProd_append {r : ℕ} {l m : List Op} (hr : ∀ b ∈ l, b.rows = r ∧ b.cols = r) :
    Eqv r r (denProd (l ++ m)) (mmul r (denProd l) (denProd m)) := by
  induction l with
  | nil =>
    simp only [List.nil_append, denProd]
    exact (eye_mmul r _).symm
  | cons a l ih =>
    simp only [List.cons_append, denProd, (hr a (by simp)).2]
    rw [mmul_assoc]
    exact mmul_congr (Eqv.refl _) (ih fun b hb => hr b (List.mem_cons_of_mem _ hb))

theorem prod_inv {full : Prop} {r : ℕ} {l l' : List Op} (h : List.Forall₂ (InvPost full) l l')
    (hr : ∀ b ∈ l, b.rows = r ∧ b.cols = r) (hd : ∀ b ∈ l, detM r (den b) ≠ 0) :
    Eqv r r (mmul r (denProd l'.reverse) (denProd l)) eye := by
  induction h with
  | nil =>
    simp only [List.reverse_nil, denProd]
    exact eye_mmul r _
  | @cons a a' l l' ha h ih =>
    have hra := hr a (by simp)
    have hr' : ∀ b ∈ l'.reverse, b.rows = r ∧ b.cols = r := fun b hb => by
      obtain ⟨x, hx, hxb⟩ := forall₂_mem_right h b (List.mem_reverse.1 hb)
      have := hr x (List.mem_cons_of_mem _ hx)
      exact ⟨hxb.rows.trans this.1, hxb.cols.trans this.1⟩
    rw [List.reverse_cons]
    refine (mmul_congr (denProd_append hr') (Eqv.refl _)).trans ?_
    have e : Eqv r r (denProd [a']) (den a') := by
      simp only [denProd, ha.cols, hra.1]
      exact mmul_eye _ _
    have hleft := ha.left (by rw [hra.1]; exact hd a (by simp))
    rw [hra.1] at hleft
    simp only [denProd] at e ⊢
    rw [hra.2, mmul_assoc, ← mmul_assoc r r _ (den a)]
    refine Eqv.trans (mmul_congr (Eqv.refl _) (?_ : Eqv r r _ (denProd l)))
      (ih (fun b hb => hr b (List.mem_cons_of_mem _ hb)) fun b hb => hd b (List.mem_cons_of_mem _ hb))
    exact (mmul_congr ((mmul_congr e (Eqv.refl _)).trans hleft) (Eqv.refl _)).trans (eye_mmul r _)

theorem block_inv {full : Prop} {l l' : List Op} (h : List.Forall₂ (InvPost full) l l')
    (hr : ∀ b ∈ l, b.rows = b.cols ∧ detM b.rows (den b) ≠ 0) :
    Eqv (dimB l) (dimB l) (mmul (dimB l) (denBlock l') (denBlock l)) eye := by
  induction h with
  | nil => intro i hi; simp [dimB] at hi
  | @cons a a' l l' ha h ih =>
    have hra := hr a (by simp)
    have hleft := ha.left hra.2
    have ih := ih fun b hb => hr b (List.mem_cons_of_mem _ hb)
    have hd : dimB (a :: l) = a.rows + dimB l := by simp [dimB]
    rw [hd]
    intro i hi j hj
    simp only [mmul]
    rw [Finset.sum_range_add]
    have c1 : a'.rows = a.rows := ha.rows
    have c2 : a'.cols = a.rows := ha.cols
    have c3 : a.cols = a.rows := hra.1.symm
    by_cases h1 : i < a.rows <;> by_cases h2 : j < a.rows
    · rw [Finset.sum_eq_zero (s := range (dimB l)), add_zero]
      · rw [← hleft i h1 j h2]
        refine Finset.sum_congr rfl fun t ht => ?_
        rw [Finset.mem_range] at ht
        rw [denBlock_head (by omega) (by omega), denBlock_head ht (by omega)]
      · intro t _
        rw [denBlock_off (a := a') (.inl ⟨by omega, by omega⟩), zero_mul]
    · rw [Finset.sum_eq_zero (s := range (dimB l)), Finset.sum_eq_zero (s := range a.rows)]
      · simp only [eye]
        rw [if_neg (by omega), add_zero]
      · intro t ht
        rw [Finset.mem_range] at ht
        rw [denBlock_off (a := a) (.inl ⟨by omega, by omega⟩), mul_zero]
      · intro t _
        rw [denBlock_off (a := a') (.inl ⟨by omega, by omega⟩), zero_mul]
    · rw [Finset.sum_eq_zero (s := range (dimB l)), Finset.sum_eq_zero (s := range a.rows)]
      · simp only [eye]
        rw [if_neg (by omega), add_zero]
      · intro t ht
        rw [Finset.mem_range] at ht
        rw [denBlock_off (a := a') (.inr ⟨by omega, by omega⟩), zero_mul]
      · intro t _
        rw [denBlock_off (a := a) (.inr ⟨by omega, by omega⟩), mul_zero]
    · rw [Finset.sum_eq_zero (s := range a.rows), zero_add]
      · have := ih (i - a.rows) (by omega) (j - a.rows) (by omega)
        have e : eye i j = eye (i - a.rows) (j - a.rows) := by
          simp only [eye]
          congr 1
          rw [eq_iff_iff]
          omega
        rw [e, ← this]
        simp only [mmul]
        refine Finset.sum_congr rfl fun t _ => ?_
        have t1 := denBlock_tail a' l' (i - a.rows) t
        have t2 := denBlock_tail a l t (j - a.rows)
        rw [c1, c2, show a.rows + (i - a.rows) = i by omega] at t1
        rw [c3, show a.rows + (j - a.rows) = j by omega] at t2
        rw [t1, t2]
      · intro t ht
        rw [Finset.mem_range] at ht
        rw [denBlock_off (a := a') (.inr ⟨by omega, by omega⟩), zero_mul]

theorem rows_of_forall₂ {full : Prop} {l l' : List Op} (h : List.Forall₂ (InvPost full) l l') :
    l'.map Op.rows = l.map Op.rows := by
  induction h with
  | nil => rfl
  | cons h _ ih => rw [List.map_cons, List.map_cons, h.rows, ih]

theorem den_symkron_same {h : Hdr} {A : Op} : den (.symkron h true A A) = kronM A.rows A.cols (den A) (den A) := by
  rw [den]
  funext i j
  simp only [Pi.smul_apply, Pi.add_apply, smul_eq_mul]
  ring

theorem inv_meets {full : Prop} : ∀ (n : ℕ) {op : Op}, Valid full op → Regular op → op.rows = op.cols →
    detM op.rows (den op) ≠ 0 → Meets (inv n op) (InvPost full op)
  | 0, _, _, _, _, _ => Meets.fuel
  | n + 1, op, hV, hR, hsq, hd => by
    have ih := fun {op : Op} => @inv_meets full n op
    have hN := hV.node
    have base := mkInverse_meets hV hsq
    simp only [inv]
    rw [if_neg (by simpa using hsq)]
    cases hV with
    | matrix _ => exact base trivial hd
    | lam _ => exact base trivial hd
    | zero _ => exact base trivial hd
    | symmetrize _ _ _ => exact base trivial hd
    | sum _ _ _ _ => exact base trivial hd
    | selection _ _ _ _ _ => exact base trivial hd
    | embedding _ _ _ _ _ => exact base trivial hd
    | @identity h h1 hN =>
      refine Meets.ok ⟨.identity h1 hN, rfl, h1.symm, ?_⟩
      simp only [den]
      exact eqv_invM_of_left (eye_mmul _ _)
    | @scaling h iso f h1 hiso hN' =>
      have hr : 0 < h.rows := hN.rows
      have hdiag : ∀ g : ℕ → ℝ, (∀ i < h.rows, g i * f i = 1) → Eqv h.rows h.rows (fun i j => if i = j then g i else 0)
          (invM h.rows (fun i j => if i = j then f i else 0)) := by
        intro g hg
        refine eqv_invM_of_left ((diag_mmul h.rows g _).trans ?_)
        intro i hi j hj
        simp only [eye]
        split
        · exact hg i hi
        · exact mul_zero _
      have hnz : ∀ i < h.rows, f i ≠ 0 := by
        intro i hi h0
        refine hd (detM_eq_zero_iff.2 ⟨fun t => if t = i then 1 else 0, ⟨i, hi, by simp⟩, fun t ht => ?_⟩)
        simp only [den]
        refine Finset.sum_eq_zero fun j _ => ?_
        by_cases e1 : t = j
        · by_cases e2 : j = i
          · simp [e1, e2, h0]
          · simp [e2]
        · simp [e1]
      simp only
      by_cases hi : iso = true
      · rw [if_pos hi]
        by_cases h1' : f 0 = 1
        · rw [if_pos h1']
          refine Meets.ok ⟨.scaling h1 hiso hN', rfl, h1.symm, ?_⟩
          simp only [den]
          exact hdiag f fun i _ => by rw [hiso hi i, h1', one_mul]
        · rw [if_neg h1', if_neg (fun h0 => hnz 0 hr h0.1)]
          refine Meets.ok ⟨valid_scalingIso hr _, rfl, rfl, ?_⟩
          simp only [mkScalingIso, den]
          exact hdiag (fun _ => 1 / f 0) fun i _ => by
            rw [hiso hi i]
            exact one_div_mul_cancel (hnz 0 hr)
      · rw [if_neg hi, if_neg (by push Not; exact hnz)]
        refine Meets.ok ⟨valid_scalingAniso hr _, rfl, rfl, ?_⟩
        simp only [mkScalingAniso, den]
        exact hdiag (fun i => 1 / f i) fun i hi => one_div_mul_cancel (hnz i hi)
    | @kron h A B hA hB h1 h2 _ =>
      have hsq' : A.rows * B.rows = A.cols * B.cols := by rw [← h1, ← h2]; exact hsq
      have hd' : detM (A.rows * B.rows) (kronM B.rows B.cols (den A) (den B)) ≠ 0 := by
        have e : den (Op.kron h A B) = kronM B.rows B.cols (den A) (den B) := by rw [den]
        rw [← h1, ← e]; exact hd
      obtain ⟨e1, e2, d1, d2⟩ := kron_nonsing hA.node.rows hA.node.cols hB.node.rows hB.node.cols hsq' hd'
      have hRAB : Regular A ∧ Regular B := by
        cases hR with
        | dense h => exact h.elim
        | kron a b _ _ => exact ⟨a, b⟩
      simp only
      rw [if_pos ⟨e1, e2⟩]
      refine Meets.bind (ih hA hRAB.1 e1 d1) fun A' hA' => Meets.bind (ih hB hRAB.2 e2 d2) fun B' hB' => ?_
      rw [mkKron_eq hA'.valid.coh hB'.valid.coh h.fl]
      refine Meets.ok ⟨valid_kron hA'.valid hB'.valid _, ?_, ?_, ?_⟩
      · rw [rows_build]
        show A'.rows * B'.rows = h.rows
        rw [hA'.rows, hB'.rows, h1]
      · rw [cols_build]
        show A'.cols * B'.cols = h.rows
        rw [hA'.cols, hB'.cols, h1]
      · rw [den_build, den, den, hB'.rows, hB'.cols, ← e2]
        have : (Op.kron h A B).rows = A.rows * B.rows := h1
        rw [this]
        exact kron_inv (hA'.left d1) (hB'.left d2)
    | @idkron h k B hB h1 h2 _ =>
      have hk : 0 < k := by
        rcases Nat.eq_zero_or_pos k with rfl | hk
        · have : 0 < h.rows := hN.rows
          omega
        · exact hk
      have hsq' : k * B.rows = k * B.cols := by rw [← h1, ← h2]; exact hsq
      have hd' : detM (k * B.rows) (kronM B.rows B.cols eye (den B)) ≠ 0 := by
        have e : den (Op.idkron h k B) = kronM B.rows B.cols eye (den B) := by rw [den]
        rw [← h1, ← e]; exact hd
      obtain ⟨e1, e2, d1, d2⟩ := kron_nonsing hk hk hB.node.rows hB.node.cols hsq' hd'
      have hRB : Regular B := by
        cases hR with
        | dense h => exact h.elim
        | idkron b => exact b
      refine Meets.bind (ih hB hRB e2 d2) fun B' hB' => ?_
      rw [mkIdkron_eq hB'.valid.coh h.fl]
      refine Meets.ok ⟨valid_idkron hk hB'.valid _, ?_, ?_, ?_⟩
      · rw [rows_build]
        show k * B'.rows = h.rows
        rw [hB'.rows, h1]
      · rw [cols_build]
        show k * B'.cols = h.rows
        rw [hB'.cols, h1]
      · rw [den_build, den, den, hB'.rows, hB'.cols, ← e2]
        have : (Op.idkron h k B).rows = k * B.rows := h1
        rw [this]
        exact kron_inv (eye_mmul _ _) (hB'.left d2)
    | @symkron h same A B hA hB hsame h1 h2 h3 h4 h5 _ =>
      cases same with
      | false => exact base rfl hd
      | true =>
        obtain rfl := hsame rfl
        have hr : (Op.symkron h true B B).rows = B.rows * B.rows := h4
        have hd' : detM (B.rows * B.rows) (kronM B.rows B.cols (den B) (den B)) ≠ 0 := by
          rw [← hr, ← den_symkron_same (h := h)]; exact hd
        have d1 := (kron_nonsing hA.node.rows hA.node.cols hA.node.rows hA.node.cols (by rw [h1]) hd').2.2.1
        have hRA : Regular B := by
          cases hR with
          | dense h => simp [InvBase] at h
          | symkron b => exact b
        simp only [if_true]
        refine Meets.bind (ih hA hRA h1 d1) fun A' hA' => ?_
        have hsqA : A'.rows = A'.cols := by rw [hA'.rows, hA'.cols]
        rw [mkSymkron_eq hsqA rfl rfl h.fl]
        refine Meets.ok ⟨valid_symkron hA'.valid hA'.valid (fun _ => rfl) hsqA rfl rfl _, ?_, ?_, ?_⟩
        · rw [rows_build, hr]
          show A'.rows * A'.rows = _
          rw [hA'.rows]
        · rw [cols_build, hr]
          show A'.rows * A'.rows = _
          rw [hA'.rows]
        · rw [den_build, den_symkron_same, den_symkron_same, hA'.rows, hA'.cols, hr, ← h1]
          exact kron_inv (hA'.left d1) (hA'.left d1)
    | @scaled h neg s A hA h1 h2 hs hneg _ =>
      have hr : (Op.scaled h neg s A).rows = A.rows := h1
      have hsA : A.rows = A.cols := by rw [← h1, ← h2]; exact hsq
      rw [hr, den] at hd
      have hs0 : s ≠ 0 := by
        rintro rfl
        rw [zero_smul] at hd
        refine hd (detM_eq_zero_iff.2 ⟨fun _ => 1, ⟨0, hA.node.rows, one_ne_zero⟩, fun i _ => ?_⟩)
        simp
      have dA : detM A.rows (den A) ≠ 0 := by
        intro h0
        obtain ⟨v, hv, hM⟩ := detM_eq_zero_iff.1 h0
        refine hd (detM_eq_zero_iff.2 ⟨v, hv, fun i hi => ?_⟩)
        have := hM i hi
        simp only [Pi.smul_apply, smul_eq_mul, mul_assoc]
        rw [← Finset.mul_sum, this, mul_zero]
      have hRA : Regular A := by
        cases hR with
        | dense h => exact h.elim
        | scaled b => exact b
      simp only
      rw [if_neg hs0]
      refine Meets.bind (ih hA hRA hsA dA) fun A' hA' => ?_
      rw [mkScaled_eq hA'.valid.coh h.fl]
      have hP := mulPost_scaled (neg := false) (s := 1 / s) hA'.valid (fun _ => one_div_ne_zero hs0)
        (fun h => by cases h) h.fl
      refine Meets.ok ⟨hP.valid, by rw [hP.rows, hA'.rows, hr], by rw [hP.cols, hA'.cols, hr], ?_⟩
      have hden : den (Op.scaled h neg s A) = s • den A := by rw [den]
      rw [hr, hden]
      refine eqv_invM_of_left ?_
      have := hP.den
      rw [hA'.rows, hA'.cols] at this
      refine (mmul_congr this (Eqv.refl _)).trans ?_
      rw [mmul_smul, smul_mmul, smul_smul, mul_one_div_cancel hs0, one_smul]
      exact hA'.left dA
    | @prod h a l hv hch h1 h2 _ =>
      have hRl : ∀ b ∈ a :: l, Regular b ∧ b.rows = b.cols := by
        cases hR with
        | dense h => exact h.elim
        | prod b c => exact fun a ha => ⟨b a ha, c a ha⟩
      obtain ⟨hrows, hlast⟩ := prod_square hch fun b hb => (hRl b hb).2
      have hrc : ∀ b ∈ a :: l, b.rows = a.rows ∧ b.cols = a.rows := fun b hb =>
        ⟨hrows b hb, (hRl b hb).2.symm.trans (hrows b hb)⟩
      have hr : (Op.prod h (a :: l)).rows = a.rows := h1
      rw [hr, den] at hd
      have dets := prod_nonsing hrc hd
      refine Meets.bind (Meets.mapM fun b hb => ih (hv b (List.mem_reverse.1 hb)) (hRl b (List.mem_reverse.1 hb)).1
        (hRl b (List.mem_reverse.1 hb)).2 (by
          rw [(hrc b (List.mem_reverse.1 hb)).1]; exact dets b (List.mem_reverse.1 hb))) fun l' hl' => ?_
      have hl'' := List.forall₂_reverse_iff.2 hl'
      rw [List.reverse_reverse] at hl''
      have hprops : ∀ b ∈ l', Valid full b ∧ b.rows = a.rows ∧ b.cols = a.rows := fun b hb => by
        obtain ⟨x, hx, hxb⟩ := forall₂_mem_right hl' b hb
        have := hrc x (List.mem_reverse.1 hx)
        exact ⟨hxb.valid, hxb.rows.trans this.1, hxb.cols.trans this.1⟩
      cases hm : l' with
      | nil =>
        rw [hm] at hl'
        have := List.forall₂_nil_right_iff.1 hl'
        simp at this
      | cons d e =>
        rw [hm] at hprops
        have hchain : ∀ (d : Op) (e : List Op), (∀ b ∈ d :: e, b.rows = a.rows ∧ b.cols = a.rows) →
            chained (d :: e) ∧ lastCols d.cols e = a.rows := by
          intro d e
          induction e generalizing d with
          | nil => exact fun h => ⟨trivial, (h d (by simp)).2⟩
          | cons c e ihc =>
            intro h
            obtain ⟨i1, i2⟩ := ihc c fun b hb => h b (List.mem_cons_of_mem _ hb)
            exact ⟨⟨by rw [(h d (by simp)).2, (h c (by simp)).1], i1⟩, i2⟩
        obtain ⟨c1, c2⟩ := hchain d e fun b hb => (hprops b hb).2
        obtain ⟨p, e1, e2, e3, e4, e5, e6, e7⟩ := mkProd_valid (fun b hb => (hprops b hb).1) c1
        have r1 : p.rows = a.rows := by rw [e3]; exact (hprops d (by simp)).2.1
        have r2 : p.cols = a.rows := by rw [e4, c2]
        rw [e1]
        rw [r1, r2] at e7
        refine Meets.ok ⟨e2, by rw [r1, hr], by rw [r2, hr], ?_⟩
        have hden : den (Op.prod h (a :: l)) = denProd (a :: l) := by rw [den]
        rw [hr, hden]
        refine e7.trans (eqv_invM_of_left ?_)
        have := prod_inv hl'' hrc dets
        rwa [List.reverse_reverse, hm] at this
    | @transposed h A hA h1 h2 _ =>
      have hr : (Op.transposed h A).rows = A.cols := h1
      have hsA : A.rows = A.cols := by rw [← h1, ← h2]; exact hsq.symm
      rw [hr, den, ← hsA, detM_trn] at hd
      have hRA : Regular A := by
        cases hR with
        | dense h => exact h.elim
        | transposed b => exact .dense b
        | transposedInverse => exact .inverse
      refine Meets.bind (ih hA hRA hsA hd) fun A' hA' => ?_
      refine (T_meets n hA'.valid).mono fun t ht => ⟨ht.valid, ?_, ?_, ?_⟩
      · rw [ht.rows, hA'.cols, hr, hsA]
      · rw [ht.cols, hA'.rows, hr, hsA]
      · rw [hr, ← hsA, den]
        have := ht.den
        rw [hA'.rows, hA'.cols] at this
        exact this.trans ((trn_congr hA'.den).trans (trn_invM _ _))
    | @inverse h A hA h1 h2 h3 h4 h5 _ =>
      have hr : (Op.inverse h A).rows = A.rows := h2
      refine Meets.ok ⟨hA, hr.symm, by rw [hr]; exact h1.symm, ?_⟩
      rw [hr, den, h2]
      exact (invM_invM h5).symm
    | @block h l hne hv hsqb h1 h2 _ =>
      have hsum : (l.map Op.rows).sum = (l.map Op.cols).sum := by rw [← h1, ← h2]; exact hsq
      have hr : (Op.block h l).rows = (l.map Op.rows).sum := h1
      rw [hr, den] at hd
      have hns := block_nonsing hsum hd
      have hRl : ∀ b ∈ l, Regular b := by
        cases hR with
        | dense h => exact h.elim
        | block b _ => exact b
      simp only
      rw [if_pos fun b hb => (hns b hb).1]
      refine Meets.bind (Meets.mapM fun b hb => ih (hv b hb) (hRl b hb) (hns b hb).1 (hns b hb).2) fun l' hl' => ?_
      have hprops : ∀ b ∈ l', Valid full b ∧ b.rows = b.cols := fun b hb => by
        obtain ⟨x, hx, hxb⟩ := forall₂_mem_right hl' b hb
        exact ⟨hxb.valid, by rw [hxb.rows, hxb.cols]⟩
      have hne' : l' ≠ [] := by
        rintro rfl
        cases hl'
        exact hne rfl
      have hrows : l'.map Op.rows = l.map Op.rows := by
        exact rows_of_forall₂ hl'
      have hcols : l'.map Op.cols = l'.map Op.rows := List.map_congr_left fun b hb => (hprops b hb).2.symm
      rw [mkBlock_eq hne' (fun b hb => (hprops b hb).1.coh) h.fl]
      refine Meets.ok ⟨valid_block hne' (fun b hb => (hprops b hb).1) (fun b hb => (hprops b hb).2) _, ?_, ?_, ?_⟩
      · rw [rows_build, hr]
        show (l'.map Op.rows).sum = _
        rw [hrows]
      · rw [cols_build, hr]
        show (l'.map Op.cols).sum = _
        rw [hcols, hrows]
      · rw [den_build, den, den, hr]
        exact eqv_invM_of_left (block_inv hl' hns)

end Probnum.Linops
