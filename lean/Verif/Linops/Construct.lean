import Verif.Linops.SoundLemmas

/-! # The constructors return well-formed operators -/

namespace Probnum.Linops

open Finset

@[simp] theorem rows_build (a : Op) : (build a).rows = a.rows := rows_withFl a _
@[simp] theorem cols_build (a : Op) : (build a).cols = a.cols := cols_withFl a _
@[simp] theorem fl_build (a : Op) : (build a).fl = derived a := fl_withFl a _
@[simp] theorem den_build (a : Op) : den (build a) = den a := den_withFl a _
@[simp] theorem derived_build (a : Op) : derived (build a) = derived a := derived_withFl a _

theorem zeroLike_withFl (a : Op) (fl : Flags) : zeroLike (a.withFl fl) ↔ zeroLike a := by
  cases a <;> simp [Op.withFl, Op.withHdr, zeroLike]

theorem Valid.coh {full : Prop} {a : Op} (h : Valid full a) : Coh a := h.node.coh

theorem node_build {full : Prop} {a : Op} (hr : 0 < a.rows) (hc : 0 < a.cols)
    (hn : a.rows ≠ a.cols → (derived a).sym = some false) (hp : (derived a).pd = some true → (derived a).sym = some true)
    (hb : (derived a).sym = some true → (derived a).low = (derived a).up)
    (hs : Sound full a.rows a.cols (derived a) (den a))
    (hz : zeroLike a → a.rows ≠ a.cols → (derived a).pd = none) : Node full (build a) := by
  refine ⟨?_, ?_, ?_, ?_, ?_, ?_, ?_, ?_⟩
  · rwa [rows_build]
  · rwa [cols_build]
  · rwa [rows_build, cols_build, fl_build]
  · rwa [fl_build]
  · rwa [fl_build]
  · rw [derived_build, fl_build]; exact Flags.Le.refl _
  · rwa [rows_build, cols_build, fl_build, den_build]
  · rw [rows_build, cols_build, fl_build]
    intro h
    exact hz (by rwa [build, zeroLike_withFl] at h)

theorem node_base {full : Prop} {a : Op} (hr : 0 < a.rows) (hc : 0 < a.cols) (h : derived a = (base a.rows a.cols).fl)
    : Node full (build a) := by
  refine node_build hr hc ?_ ?_ ?_ ?_ (fun _ _ => by rw [h]; rfl)
  · intro hne
    rw [h]
    simp [base, hne]
  · intro hp
    rw [h] at hp
    simp [base] at hp
  · intro _
    rw [h]
    rfl
  · rw [h]
    exact sound_base

theorem node_symFlag {full : Prop} {a : Op} {P : Prop} [Decidable P] (hr : 0 < a.rows) (hc : 0 < a.cols)
    (h : derived a = { (base a.rows a.cols).fl with sym := if P then some true else (base a.rows a.cols).fl.sym })
    (hP : P → IsSym a.rows a.cols (den a)) : Node full (build a) := by
  refine node_build hr hc ?_ ?_ ?_ ?_ (fun _ _ => by rw [h]; rfl)
  · intro hne
    rw [h]
    have : ¬ P := fun hp => hne (hP hp).1
    simp [base, hne, this]
  · intro hp
    rw [h] at hp
    simp [base] at hp
  · intro _
    rw [h]
    rfl
  · rw [h]
    exact sound_symFlag hP

theorem valid_matrix {full : Prop} {r c : ℕ} (hr : 0 < r) (hc : 0 < c) (A : Mat) : Valid full (mkMatrix r c A) :=
  .matrix (node_base (a := .matrix ⟨r, c, (base r c).fl⟩ A) hr hc rfl)

theorem valid_identity {full : Prop} {n : ℕ} (hn : 0 < n) : Valid full (mkIdentity n) :=
  .identity rfl (node_build (a := mkIdentity n) hn hn (fun h => absurd rfl h) (fun _ => rfl) (fun _ => rfl)
    (sound_identity n) (fun h => h.elim))

theorem valid_scalingIso {full : Prop} {n : ℕ} (hn : 0 < n) (s : ℝ) : Valid full (mkScalingIso n s) :=
  .scaling rfl (fun _ _ => rfl) (node_build (a := mkScalingIso n s) hn hn (fun h => absurd rfl h) (fun _ => rfl)
    (fun _ => rfl) (sound_scalingIso hn s) (fun h => h.elim))

theorem valid_scalingAniso {full : Prop} {n : ℕ} (hn : 0 < n) (f : ℕ → ℝ) : Valid full (mkScalingAniso n f) :=
  .scaling rfl (fun h => by cases h) (node_build (a := mkScalingAniso n f) hn hn (fun h => absurd rfl h) (fun _ => rfl)
    (fun _ => rfl) (sound_scalingAniso f) (fun h => h.elim))

theorem mkZero_rows (r c : ℕ) : (mkZero r c).rows = r := by
  simp only [mkZero, Op.rows, Op.hdr]
  split <;> rfl

theorem mkZero_cols (r c : ℕ) : (mkZero r c).cols = c := by
  simp only [mkZero, Op.cols, Op.hdr]
  split <;> rfl

theorem mkZero_eq (r c : ℕ) (fl : Flags) : mkZero r c = build (.zero ⟨r, c, fl⟩) := by
  simp only [build, derived, Op.withFl, Op.withHdr, Op.rows, Op.cols, Op.hdr, mkZero]
  split <;> rfl

theorem node_zero {full : Prop} {r c : ℕ} (hr : 0 < r) (hc : 0 < c) : Node full (mkZero r c) := by
  rw [mkZero_eq r c ⟨none, none, none, none⟩]
  refine node_build hr hc ?_ ?_ ?_ ?_ ?_
  · intro h
    simp only [Op.rows, Op.cols, Op.hdr] at h
    simp [derived, mkZero, h, base, Op.fl, Op.hdr]
  · intro hp
    simp only [derived, mkZero, Op.fl, Op.hdr] at hp ⊢
    split at hp
    · simp at hp
    · simp [base] at hp
  · intro _
    simp only [derived, mkZero, Op.fl, Op.hdr]
    split <;> rfl
  · exact sound_zero hr
  · intro _ h
    simp only [Op.rows, Op.cols, Op.hdr] at h
    simp [derived, mkZero, h, base, Op.fl, Op.hdr]

theorem valid_zero {full : Prop} {r c : ℕ} (hr : 0 < r) (hc : 0 < c) : Valid full (mkZero r c) :=
  .zero (node_zero hr hc)

theorem valid_kron {full : Prop} {A B : Op} (hA : Valid full A) (hB : Valid full B) (fl : Flags) :
    Valid full (build (.kron ⟨A.rows * B.rows, A.cols * B.cols, fl⟩ A B)) :=
  .kron hA hB rfl rfl (node_symFlag (a := .kron ⟨A.rows * B.rows, A.cols * B.cols, fl⟩ A B)
    (Nat.mul_pos hA.node.rows hB.node.rows) (Nat.mul_pos hA.node.cols hB.node.cols) rfl fun h => by
      simp only [den]
      exact isSym_kronM (hA.node.sound.sym.1 h.1) (hB.node.sound.sym.1 h.2))

theorem valid_idkron {full : Prop} {k : ℕ} {B : Op} (hk : 0 < k) (hB : Valid full B) (fl : Flags) :
    Valid full (build (.idkron ⟨k * B.rows, k * B.cols, fl⟩ k B)) :=
  .idkron hB rfl rfl (node_symFlag (a := .idkron ⟨k * B.rows, k * B.cols, fl⟩ k B)
    (Nat.mul_pos hk hB.node.rows) (Nat.mul_pos hk hB.node.cols) rfl fun h => by
      simp only [den]
      exact isSym_kronM (isSym_eye k) (hB.node.sound.sym.1 h))

theorem valid_symkron {full : Prop} {same : Bool} {A B : Op} (hA : Valid full A) (hB : Valid full B)
    (hs : same = true → B = A) (h1 : A.rows = A.cols) (h2 : B.rows = A.rows) (h3 : B.cols = A.cols) (fl : Flags) :
    Valid full (build (.symkron ⟨A.rows * A.rows, A.rows * A.rows, fl⟩ same A B)) :=
  .symkron hA hB hs h1 h2 h3 rfl rfl (node_symFlag (a := .symkron ⟨A.rows * A.rows, A.rows * A.rows, fl⟩ same A B)
    (Nat.mul_pos hA.node.rows hA.node.rows) (Nat.mul_pos hA.node.rows hA.node.rows) rfl fun h => by
      simp only [den]
      have e1 := hA.node.sound.sym.1 h.1
      have e2 := hB.node.sound.sym.1 h.2
      refine isSym_smul _ (isSym_add ?_ ?_)
      · have := isSym_kronM e1 e2
        rwa [h2, h3, ← h1] at this ⊢
      · have := isSym_kronM e2 e1
        rw [h2, h3, ← h1] at this
        rw [← h1]
        exact this)

theorem valid_symmetrize {full : Prop} {n : ℕ} (hn : 0 < n) : Valid full (mkSymmetrize n) :=
  .symmetrize rfl rfl (node_base (a := mkSymmetrize n) (Nat.mul_pos hn hn) (Nat.mul_pos hn hn) rfl)

theorem valid_scaled {full : Prop} {neg : Bool} {s : ℝ} {A : Op} (hA : Valid full A) (hs : full → s ≠ 0)
    (hneg : neg = true → s = -1) (fl : Flags) : Valid full (build (.scaled ⟨A.rows, A.cols, fl⟩ neg s A)) := by
  refine .scaled hA rfl rfl hs hneg (node_build (a := .scaled ⟨A.rows, A.cols, fl⟩ neg s A) hA.node.rows hA.node.cols
    hA.node.nonsquare ?_ hA.node.balanced ?_ ?_)
  · intro h
    simp only [derived] at h ⊢
    split at h
    · next hp => exact hA.node.pdsym hp
    · cases h
  · simp only [derived, den]
    exact sound_scaled hA.node.rows hs hA.node.sound
  · intro hz hne
    simp only [derived]
    rw [if_neg]
    rw [hA.node.zpd hz hne]
    simp

theorem valid_inverse {full : Prop} {A : Op} (hA : Valid full A) (h1 : A.rows = A.cols) (hi : InvBase A)
    (hd : detM A.rows (den A) ≠ 0) (fl : Flags) : Valid full (build (.inverse ⟨A.rows, A.rows, fl⟩ A)) := by
  refine .inverse hA h1 rfl rfl hi hd (node_build (a := .inverse ⟨A.rows, A.rows, fl⟩ A) hA.node.rows hA.node.rows
    (fun h => absurd rfl h) hA.node.pdsym (fun _ => rfl) ?_ (fun h => h.elim))
  have h := hA.node.sound
  rw [← h1] at h
  simp only [derived, den]
  exact sound_inverse hd h

/-! ## Sums -/

theorem denSum_append (l m : List Op) : denSum (l ++ m) = denSum l + denSum m := by
  induction l with
  | nil => simp [denSum]
  | cons a l ih => simp [denSum, ih, add_assoc]

theorem denSum_expand : ∀ l : List Op, denSum (expandSum l) = denSum l
  | [] => rfl
  | a :: t => by
    have ih := denSum_expand t
    cases a <;> simp [expandSum, denSum, denSum_append, ih, den]

theorem expandSum_ne_nil {full : Prop} {l : List Op} (hne : l ≠ []) (hv : ∀ a ∈ l, Valid full a) :
    expandSum l ≠ [] := by
  obtain ⟨a, t, rfl⟩ := List.exists_cons_of_ne_nil hne
  cases a
  case sum h m =>
    have := hv (.sum h m) (by simp)
    cases this with
    | sum hm _ _ _ => simp [expandSum, hm]
  all_goals simp [expandSum]

theorem valid_expandSum {full : Prop} {l : List Op} {r c : ℕ} (hv : ∀ a ∈ l, Valid full a)
    (hs : ∀ a ∈ l, a.rows = r ∧ a.cols = c) : ∀ b ∈ expandSum l, Valid full b ∧ b.rows = r ∧ b.cols = c := by
  intro b hb
  rcases mem_expandSum hb with h | ⟨h, m, hm, hbm⟩
  · exact ⟨hv b h, hs b h⟩
  · have hV := hv _ hm
    have hS := hs _ hm
    cases hV with
    | sum _ h1 h2 _ => exact ⟨h1 b hbm, (h2 b hbm).1.trans hS.1, (h2 b hbm).2.trans hS.2⟩

theorem valid_sum {full : Prop} {l : List Op} {r c : ℕ} (hne : l ≠ []) (hv : ∀ a ∈ l, Valid full a)
    (hs : ∀ a ∈ l, a.rows = r ∧ a.cols = c) (fl : Flags) : Valid full (build (.sum ⟨r, c, fl⟩ l)) := by
  have hmem := List.exists_mem_of_ne_nil _ hne
  obtain ⟨b, hb⟩ := hmem
  refine .sum hne hv hs (node_build (a := .sum ⟨r, c, fl⟩ l) ?_ ?_ ?_ ?_ ?_ ?_ (fun h => h.elim))
  · show 0 < r
    rw [← (hs b hb).1]; exact (hv b hb).node.rows
  · show 0 < c
    rw [← (hs b hb).2]; exact (hv b hb).node.cols
  · intro hrc
    have hrc : r ≠ c := hrc
    simp only [derived]
    rw [if_neg]
    · simp [base, hrc]
    · intro h
      have := (hv b hb).coh.square (h b hb)
      exact hrc (by rw [← (hs b hb).1, this, (hs b hb).2])
  · intro h
    simp only [derived] at h ⊢
    split at h
    · next hp => rw [if_pos fun b hb => (hv b hb).node.pdsym (hp b hb)]
    · cases h
  · intro h
    simp only [derived] at h ⊢
    split at h
    · next hp =>
      have e : ∀ b ∈ l, b.fl.low = b.fl.up := fun b hb => (hv b hb).node.balanced (hp b hb)
      have : (∀ b ∈ l, b.fl.low = some true) ↔ ∀ b ∈ l, b.fl.up = some true :=
        ⟨fun h b hb => (e b hb) ▸ h b hb, fun h b hb => (e b hb).symm ▸ h b hb⟩
      simp only [this]
    · simp only [base] at h
      split at h <;> cases h
  · simp only [derived, den]
    refine sound_sum hne fun b hb => ?_
    have := (hv b hb).node.sound
    rwa [(hs b hb).1, (hs b hb).2] at this

/-- `SumLinearOperator(*l)` for operators of one shape. -/
theorem mkSum_valid {full : Prop} {l : List Op} {r c : ℕ} (hne : l ≠ []) (hv : ∀ a ∈ l, Valid full a)
    (hs : ∀ a ∈ l, a.rows = r ∧ a.cols = c) (fl : Flags) : mkSum l = .ok (build (.sum ⟨r, c, fl⟩ (expandSum l))) ∧
      Valid full (build (.sum ⟨r, c, fl⟩ (expandSum l))) := by
  have hE := valid_expandSum hv hs
  have hN := expandSum_ne_nil hne hv
  refine ⟨?_, valid_sum hN (fun b hb => (hE b hb).1) (fun b hb => (hE b hb).2) fl⟩
  obtain ⟨a, t, rfl⟩ := List.exists_cons_of_ne_nil hne
  obtain ⟨rfl, rfl⟩ := hs a (by simp)
  exact mkSum_eq hs (fun b hb => ⟨(hE b hb).1.coh, (hE b hb).2⟩) hN fl

/-! ## Products -/

theorem chained_append {a : Op} {l : List Op} {b : Op} {m : List Op} (h1 : chained (a :: l)) (h2 : chained (b :: m))
    (h : lastCols a.cols l = b.rows) : chained (a :: l ++ b :: m) := by
  induction l generalizing a with
  | nil => exact ⟨h, h2⟩
  | cons c l ih => exact ⟨h1.1, ih h1.2 h⟩

theorem lastCols_append (d : ℕ) (l : List Op) (b : Op) (m : List Op) :
    lastCols d (l ++ b :: m) = lastCols b.cols m := by
  induction l generalizing d with
  | nil => rfl
  | cons c l ih => exact ih c.cols

theorem mmul_denProd {a : Op} {l : List Op} {b : Op} {m : List Op} (h1 : chained (a :: l))
    (h : lastCols a.cols l = b.rows) (r c : ℕ) :
    Eqv r c (mmul b.rows (denProd (a :: l)) (denProd (b :: m))) (denProd (a :: l ++ b :: m)) := by
  induction l generalizing a r with
  | nil =>
    have h : a.cols = b.rows := h
    simp only [denProd, List.cons_append, List.nil_append]
    rw [mmul_assoc, h]
    exact mmul_congr (Eqv.refl _) (eye_mmul c _)
  | cons d l ih =>
    rw [List.cons_append, denProd, denProd, mmul_assoc]
    exact mmul_congr (Eqv.refl _) (ih h1.2 h a.cols)

/-- The expansion of the first factor. -/
theorem expandProd_head {full : Prop} {a : Op} (t : List Op) (hva : Valid full a) :
    ∃ d e, expandProd (a :: t) = d :: e ++ expandProd t ∧ d.rows = a.rows ∧ lastCols d.cols e = a.cols ∧
      chained (d :: e) ∧ (∀ x ∈ d :: e, Valid full x) ∧ Eqv a.rows a.cols (denProd (d :: e)) (den a) := by
  have plain : Eqv a.rows a.cols (denProd [a]) (den a) := by
    simp only [denProd]
    exact mmul_eye _ _
  cases a
  case prod h l =>
    cases hva with
    | @prod _ d e h1 h2 h3 h4 _ =>
      exact ⟨d, e, rfl, h3.symm, h4.symm, h2, h1, Eqv.of_eq (by rw [den])⟩
  all_goals exact ⟨_, [], rfl, rfl, rfl, trivial, by simpa using hva, plain⟩

theorem rows_expandProd {full : Prop} {a : Op} {t : List Op} (hv : ∀ x ∈ a :: t, Valid full x)
    (hc : chained (a :: t)) :
    ∃ b m, expandProd (a :: t) = b :: m ∧ b.rows = a.rows ∧ lastCols b.cols m = lastCols a.cols t ∧
      chained (b :: m) ∧ (∀ x ∈ b :: m, Valid full x) ∧
      Eqv b.rows (lastCols b.cols m) (denProd (b :: m)) (denProd (a :: t)) := by
  induction t generalizing a with
  | nil =>
    obtain ⟨d, e, he, hr, hl, hch, hval, hden⟩ := expandProd_head [] (hv a (by simp))
    refine ⟨d, e, by simpa [expandProd] using he, hr, hl, hch, hval, ?_⟩
    rw [hr, hl]
    refine hden.trans ?_
    simp only [denProd]
    exact (mmul_eye _ _).symm
  | cons b m ih =>
    obtain ⟨d, e, he, hr, hl, hch, hval, hden⟩ := expandProd_head (b :: m) (hv a (by simp))
    obtain ⟨b', m', h1, h2, h3, h4, h5, h6⟩ := ih (fun x hx => hv x (List.mem_cons_of_mem _ hx)) hc.2
    have hb : a.cols = b'.rows := hc.1.trans h2.symm
    have hlast : lastCols d.cols (e ++ b' :: m') = lastCols b'.cols m' := lastCols_append _ _ _ _
    refine ⟨d, e ++ b' :: m', by rw [he, h1]; rfl, hr, ?_, ?_, ?_, ?_⟩
    · rw [hlast, h3]; rfl
    · exact chained_append hch h4 (hl.trans hb)
    · intro x hx
      rw [← List.cons_append, List.mem_append] at hx
      exact hx.elim (hval x) (h5 x)
    · rw [← List.cons_append, hlast]
      refine (mmul_denProd hch (hl.trans hb) _ _).symm.trans ?_
      rw [denProd, hr, ← hb]
      refine mmul_congr hden ?_
      rw [hb]
      exact h6

theorem valid_prod {full : Prop} {a : Op} {l : List Op} (hv : ∀ b ∈ a :: l, Valid full b) (hc : chained (a :: l))
    (fl : Flags) : Valid full (build (.prod ⟨a.rows, lastCols a.cols l, fl⟩ (a :: l))) := by
  have hlast : 0 < lastCols a.cols l := by
    clear hc
    induction l generalizing a with
    | nil => exact (hv a (by simp)).node.cols
    | cons b l ih => exact ih fun x hx => hv x (List.mem_cons_of_mem _ hx)
  exact .prod hv hc rfl rfl (node_base (a := .prod ⟨a.rows, lastCols a.cols l, fl⟩ (a :: l))
    (hv a (by simp)).node.rows hlast rfl)

/-- `ProductLinearOperator(*l)` for operators that can be multiplied. -/
theorem mkProd_valid {full : Prop} {a : Op} {l : List Op} (hv : ∀ b ∈ a :: l, Valid full b) (hc : chained (a :: l)) :
    ∃ p, mkProd (a :: l) = .ok p ∧ Valid full p ∧ p.rows = a.rows ∧ p.cols = lastCols a.cols l ∧
      p.fl = (base p.rows p.cols).fl ∧ derived p = (base p.rows p.cols).fl ∧
      Eqv p.rows p.cols (den p) (denProd (a :: l)) := by
  obtain ⟨b, m, h1, h2, h3, h4, h5, h6⟩ := rows_expandProd hv hc
  refine ⟨.prod (base b.rows (lastCols b.cols m)) (b :: m), ?_, valid_prod h5 h4 ⟨none, none, none, none⟩, h2, h3,
    rfl, rfl, ?_⟩
  · simp only [mkProd]
    rw [if_neg (by simpa using hc), h1]
  · rw [den]
    exact h6

/-! ## Blocks -/

theorem valid_block {full : Prop} {l : List Op} (hne : l ≠ []) (hv : ∀ a ∈ l, Valid full a)
    (hsq : ∀ a ∈ l, a.rows = a.cols) (fl : Flags) :
    Valid full (build (.block ⟨(l.map Op.rows).sum, (l.map Op.cols).sum, fl⟩ l)) := by
  have e : (l.map Op.cols).sum = (l.map Op.rows).sum := by
    rw [List.map_congr_left fun a ha => (hsq a ha).symm]
  obtain ⟨a, t, rfl⟩ := List.exists_cons_of_ne_nil hne
  have hpos : 0 < ((a :: t).map Op.rows).sum := by
    rw [List.map_cons, List.sum_cons]
    have := (hv a (by simp)).node.rows
    omega
  refine .block hne hv (fun _ => hsq) rfl rfl (node_build (a := .block ⟨_, _, fl⟩ (a :: t)) hpos (by
    show 0 < ((a :: t).map Op.cols).sum
    rw [e]; exact hpos) (fun h => absurd e.symm h) ?_ ?_ ?_ (fun h => h.elim))
  · intro h
    simp only [derived] at h ⊢
    rw [inferProp_true] at h ⊢
    exact fun b hb => (hv b hb).node.pdsym (h b hb)
  · intro h
    simp only [derived] at h ⊢
    rw [inferProp_true] at h
    have : ∀ b ∈ a :: t, b.fl.low = b.fl.up := fun b hb => (hv b hb).node.balanced (h b hb)
    unfold inferProp
    have e1 : (∀ b ∈ a :: t, b.fl.low = some true) ↔ ∀ b ∈ a :: t, b.fl.up = some true :=
      ⟨fun h b hb => (this b hb) ▸ h b hb, fun h b hb => (this b hb).symm ▸ h b hb⟩
    have e2 : (∃ b ∈ a :: t, b.fl.low = some false) ↔ ∃ b ∈ a :: t, b.fl.up = some false :=
      ⟨fun ⟨b, hb, h⟩ => ⟨b, hb, (this b hb) ▸ h⟩, fun ⟨b, hb, h⟩ => ⟨b, hb, (this b hb).symm ▸ h⟩⟩
    simp only [e1, e2]
  · have := sound_block (full := full) hsq fun b hb => (hv b hb).node.sound
    simp only [derived, den]
    show Sound full ((a :: t).map Op.rows).sum ((a :: t).map Op.cols).sum _ _
    rw [e]
    exact this

end Probnum.Linops
