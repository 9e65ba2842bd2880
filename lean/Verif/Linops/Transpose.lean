import Verif.Linops.Construct

/-! # Scalar multiples and transposes are right -/

namespace Probnum.Linops

open Finset

/-! ## Scalar multiples -/

/-- What a scalar multiple `t` of `A` must satisfy. -/
structure MulPost (full : Prop) (s : ℝ) (A t : Op) : Prop where
  valid : Valid full t
  rows : t.rows = A.rows
  cols : t.cols = A.cols
  den : Eqv A.rows A.cols (den t) (s • den A)
  sym : t.fl.sym = some true → A.fl.sym = some true
  le : A.fl.sym ≠ some true → t.fl.Le { A.fl with pd := none }
  zero : zeroLike t → zeroLike A

theorem mulPost_scaled {full : Prop} {neg : Bool} {s : ℝ} {A : Op} (hA : Valid full A) (hs : full → s ≠ 0)
    (hneg : neg = true → s = -1) (fl : Flags) :
    MulPost full s A (build (.scaled ⟨A.rows, A.cols, fl⟩ neg s A)) := by
  refine ⟨valid_scaled hA hs hneg fl, rfl, rfl, ?_, ?_, ?_, fun h => h⟩
  · rw [den_build, Probnum.Linops.den]
    exact Eqv.refl _
  · intro h
    rw [fl_build] at h
    exact h
  · intro h
    rw [fl_build]
    have : A.fl.pd ≠ some true := fun hp => h (hA.node.pdsym hp)
    simp only [derived, if_neg this]
    exact Flags.Le.refl _

theorem mkScaled_meets {full : Prop} {s : ℝ} {A : Op} (hA : Valid full A) (hs : full → s ≠ 0) :
    Meets (mkScaled false s A) (MulPost full s A) := by
  rw [mkScaled_eq hA.coh A.fl]
  exact Meets.ok (mulPost_scaled hA hs (fun h => by cases h) _)

theorem base_le_of_node {full : Prop} {a : Op} (h : Node full a) : (base a.rows a.cols).fl.Le { a.fl with pd := none } := by
  refine ⟨?_, .inl rfl, .inl rfl, .inl rfl⟩
  exact base_sym_le h.nonsquare

theorem mulScalar_meets {full : Prop} : ∀ (n : ℕ) {s : ℝ} {A : Op}, Valid full A → (full → s ≠ 0) →
    Meets (mulScalar n s A) (MulPost full s A)
  | 0, _, _, _, _ => Meets.fuel
  | n + 1, s, A, hA, hs => by
    have ih := fun {s : ℝ} {A : Op} => @mulScalar_meets full n s A
    cases hA with
    | @matrix h M hN =>
      refine Meets.ok ⟨valid_matrix hN.rows hN.cols _, rfl, rfl, ?_, ?_, ?_, fun h => h.elim⟩
      · exact Eqv.of_eq (by simp only [mkMatrix, den])
      · intro h'
        simp only [mkMatrix, base, Op.fl, Op.hdr] at h'
        split at h' <;> cases h'
      · intro _
        exact base_le_of_node hN
    | @scaling h iso f hsq hiso hN =>
      have hsym : h.fl.sym = some true := hN.settled.sym.elim (fun e => by cases e) (fun e => e.symm)
      have hr : 0 < h.rows := hN.rows
      have iso_case : ∀ v, (∀ i < h.rows, f i = v) → MulPost full s (.scaling h iso f) (mkScalingIso h.rows (s * v)) := by
        intro v hv
        refine ⟨valid_scalingIso hr _, rfl, hsq, ?_, fun _ => hsym, fun h' => absurd hsym h', fun h => h.elim⟩
        intro i hi j hj
        simp only [mkScalingIso, den, Pi.smul_apply, smul_eq_mul]
        split
        · rw [hv i hi]
        · rw [mul_zero]
      simp only [mulScalar, isIsotropic]
      by_cases hi : iso = true
      · rw [if_pos hi, ok_bind, if_pos rfl]
        exact Meets.ok (iso_case _ fun i _ => hiso hi i)
      · rw [if_neg hi, if_neg (by omega), ok_bind]
        by_cases hall : ∀ i < h.rows, f i = f 0
        · rw [if_pos (by simpa using hall)]
          exact Meets.ok (iso_case _ hall)
        · rw [if_neg (by simpa using hall)]
          refine Meets.ok ⟨valid_scalingAniso hr _, rfl, hsq, ?_, fun _ => hsym, fun h' => absurd hsym h', fun h => h.elim⟩
          intro i hi j hj
          simp only [mkScalingAniso, den, Pi.smul_apply, smul_eq_mul]
          split <;> simp
    | @zero h hN =>
      refine Meets.ok ⟨.zero hN, rfl, rfl, ?_, fun h => h, fun hns => ?_, fun h => h⟩
      · exact Eqv.of_eq (by simp [den])
      · have : h.rows ≠ h.cols := by
          intro e
          apply hns
          have := hN.settled.sym
          simp only [derived, mkZero, if_pos e, Op.fl, Op.hdr] at this
          exact this.elim (fun e => by cases e) (fun e => e.symm)
        exact ⟨.inr rfl, .inr rfl, .inr rfl, .inl (hN.zpd trivial this)⟩
    | @kron h A B hA hB h1 h2 hN =>
      simp only [mulScalar]
      by_cases hneg : s < 0
      · rw [if_pos hneg]
        exact mkScaled_meets (.kron hA hB h1 h2 hN) hs
      · rw [if_neg hneg]
        have hs' : full → Real.sqrt s ≠ 0 := fun hf =>
          (Real.sqrt_pos.2 (lt_of_le_of_ne (not_lt.1 hneg) (hs hf).symm)).ne'
        refine Meets.bind (ih hA hs') fun A' hA' => Meets.bind (ih hB hs') fun B' hB' => ?_
        rw [mkKron_eq hA'.valid.coh hB'.valid.coh h.fl]
        have hr : A'.rows * B'.rows = (Op.kron h A B).rows := by rw [hA'.rows, hB'.rows]; exact h1.symm
        have hc : A'.cols * B'.cols = (Op.kron h A B).cols := by rw [hA'.cols, hB'.cols]; exact h2.symm
        refine Meets.ok ⟨valid_kron hA'.valid hB'.valid _, hr, hc, ?_, ?_, ?_, fun h => h.elim⟩
        · rw [den_build]
          simp only [den]
          rw [hB'.rows, hB'.cols]
          have e1 : (Op.kron h A B).rows = A.rows * B.rows := h1
          have e2 : (Op.kron h A B).cols = A.cols * B.cols := h2
          rw [e1, e2]
          refine (kronM_congr hA'.den hB'.den).trans (Eqv.of_eq ?_)
          rw [kronM_smul_left, kronM_smul_right, smul_smul, Real.mul_self_sqrt (not_lt.1 hneg)]
        · intro hsym
          rw [fl_build] at hsym
          simp only [derived] at hsym
          split at hsym
          · next hb =>
            have := hN.settled.sym
            simp only [derived, if_pos (And.intro (hA'.sym hb.1) (hB'.sym hb.2))] at this
            exact this.elim (fun e => by cases e) (fun e => e.symm)
          · simp only [base] at hsym
            split at hsym <;> cases hsym
        · intro hns
          rw [fl_build]
          have hnb : ¬ (A'.fl.sym = some true ∧ B'.fl.sym = some true) := by
            intro hb
            have := hN.settled.sym
            simp only [derived, if_pos (And.intro (hA'.sym hb.1) (hB'.sym hb.2))] at this
            exact hns (this.elim (fun e => by cases e) (fun e => e.symm))
          simp only [derived, if_neg hnb]
          rw [hr, hc]
          exact base_le_of_node hN
    | @idkron h k B hB h1 h2 hN =>
      simp only [mulScalar]
      have hk : 0 < k := by
        rcases Nat.eq_zero_or_pos k with rfl | hk
        · have := hN.rows
          simp only [Op.rows, Op.hdr] at this
          omega
        · exact hk
      refine Meets.bind (ih hB hs) fun B' hB' => ?_
      rw [mkIdkron_eq hB'.valid.coh h.fl]
      have hr : k * B'.rows = (Op.idkron h k B).rows := by rw [hB'.rows]; exact h1.symm
      have hc : k * B'.cols = (Op.idkron h k B).cols := by rw [hB'.cols]; exact h2.symm
      refine Meets.ok ⟨valid_idkron hk hB'.valid _, hr, hc, ?_, ?_, ?_, fun h => h.elim⟩
      · rw [den_build]
        simp only [den]
        rw [hB'.rows, hB'.cols]
        have e1 : (Op.idkron h k B).rows = k * B.rows := h1
        have e2 : (Op.idkron h k B).cols = k * B.cols := h2
        rw [e1, e2]
        refine (kronM_congr (Eqv.refl _) hB'.den).trans (Eqv.of_eq ?_)
        rw [kronM_smul_right]
      · intro hsym
        rw [fl_build] at hsym
        simp only [derived] at hsym
        split at hsym
        · next hb =>
          have := hN.settled.sym
          simp only [derived, if_pos (hB'.sym hb)] at this
          exact this.elim (fun e => by cases e) (fun e => e.symm)
        · simp only [base] at hsym
          split at hsym <;> cases hsym
      · intro hns
        rw [fl_build]
        have hnb : ¬ (B'.fl.sym = some true) := by
          intro hb
          have := hN.settled.sym
          simp only [derived, if_pos (hB'.sym hb)] at this
          exact hns (this.elim (fun e => by cases e) (fun e => e.symm))
        simp only [derived, if_neg hnb]
        rw [hr, hc]
        exact base_le_of_node hN
    | lam hN => exact mkScaled_meets (.lam hN) hs
    | identity h1 hN => exact mkScaled_meets (.identity h1 hN) hs
    | symkron h1 h2 h3 h4 h5 h6 h7 h8 hN => exact mkScaled_meets (.symkron h1 h2 h3 h4 h5 h6 h7 h8 hN) hs
    | symmetrize h1 h2 hN => exact mkScaled_meets (.symmetrize h1 h2 hN) hs
    | scaled h1 h2 h3 h4 h5 hN => exact mkScaled_meets (.scaled h1 h2 h3 h4 h5 hN) hs
    | sum h1 h2 h3 hN => exact mkScaled_meets (.sum h1 h2 h3 hN) hs
    | prod h1 h2 h3 h4 hN => exact mkScaled_meets (.prod h1 h2 h3 h4 hN) hs
    | transposed h1 h2 h3 hN => exact mkScaled_meets (.transposed h1 h2 h3 hN) hs
    | inverse h1 h2 h3 h4 h5 h6 hN => exact mkScaled_meets (.inverse h1 h2 h3 h4 h5 h6 hN) hs
    | selection h1 h2 h3 h4 hN => exact mkScaled_meets (.selection h1 h2 h3 h4 hN) hs
    | embedding h1 h2 h3 h4 hN => exact mkScaled_meets (.embedding h1 h2 h3 h4 hN) hs
    | block h1 h2 h3 h4 h5 hN => exact mkScaled_meets (.block h1 h2 h3 h4 h5 hN) hs

/-! ## Transposes -/

/-- What the transpose `t` of `op` must satisfy. -/
structure TPost (full : Prop) (op t : Op) : Prop where
  valid : Valid full t
  rows : t.rows = op.cols
  cols : t.cols = op.rows
  fl : t.fl = op.fl.swap
  den : Eqv op.cols op.rows (den t) (trn (den op))
  zero : zeroLike t → zeroLike op

/-- Larger flags. -/
theorem Valid.withFl {full : Prop} {a : Op} {fl : Flags} (h : Valid full a) (hN : Node full (a.withFl fl)) :
    Valid full (a.withFl fl) := by
  cases h with
  | matrix _ => exact .matrix hN
  | lam _ => exact .lam hN
  | identity h1 _ => exact .identity h1 hN
  | scaling h1 h2 _ => exact .scaling h1 h2 hN
  | zero _ => exact .zero hN
  | kron h1 h2 h3 h4 _ => exact .kron h1 h2 h3 h4 hN
  | idkron h1 h2 h3 _ => exact .idkron h1 h2 h3 hN
  | symkron h1 h2 h3 h4 h5 h6 h7 h8 _ => exact .symkron h1 h2 h3 h4 h5 h6 h7 h8 hN
  | symmetrize h1 h2 _ => exact .symmetrize h1 h2 hN
  | scaled h1 h2 h3 h4 h5 _ => exact .scaled h1 h2 h3 h4 h5 hN
  | sum h1 h2 h3 _ => exact .sum h1 h2 h3 hN
  | prod h1 h2 h3 h4 _ => exact .prod h1 h2 h3 h4 hN
  | transposed h1 h2 h3 _ => exact .transposed h1 h2 h3 hN
  | inverse h1 h2 h3 h4 h5 h6 _ => exact .inverse h1 h2 h3 h4 h5 h6 hN
  | selection h1 h2 h3 h4 _ => exact .selection h1 h2 h3 h4 hN
  | embedding h1 h2 h3 h4 _ => exact .embedding h1 h2 h3 h4 hN
  | block h1 h2 h3 h4 h5 _ => exact .block h1 h2 h3 h4 h5 hN

theorem node_transpose {full : Prop} {op t : Op} (hN : Node full op) (hr : t.rows = op.cols) (hc : t.cols = op.rows)
    (hd : Eqv op.cols op.rows (den t) (trn (den op))) (hle : (derived t).Le op.fl.swap)
    (hz : zeroLike t → zeroLike op) : Node full (t.withFl op.fl.swap) := by
  refine ⟨?_, ?_, ?_, ?_, ?_, ?_, ?_, ?_⟩
  · rw [rows_withFl, hr]; exact hN.cols
  · rw [cols_withFl, hc]; exact hN.rows
  · rw [rows_withFl, cols_withFl, fl_withFl, hr, hc]; exact fun h => hN.nonsquare h.symm
  · rw [fl_withFl]; exact hN.pdsym
  · rw [fl_withFl]; exact fun h => (hN.balanced h).symm
  · rw [fl_withFl, derived_withFl]; exact hle
  · rw [rows_withFl, cols_withFl, fl_withFl, den_withFl, hr, hc]
    exact hN.sound.trn.congr hd.symm
  · rw [rows_withFl, cols_withFl, fl_withFl, zeroLike_withFl, hr, hc]
    exact fun h hne => hN.zpd (hz h) hne.symm

/-- The last lines of `T`. -/
theorem copyFlags_meets {full : Prop} {op t : Op} (hN : Node full op) (hns : op.fl.sym ≠ some true)
    (hr : t.rows = op.cols) (hc : t.cols = op.rows) (hd : Eqv op.cols op.rows (den t) (trn (den op)))
    (hle : t.fl.Le op.fl.swap) (hle' : (derived t).Le op.fl.swap)
    (hz : zeroLike t → zeroLike op) (hV : Node full (t.withFl op.fl.swap) → Valid full (t.withFl op.fl.swap)) :
    Meets (copyFlags op t) (TPost full op) := by
  rw [copyFlags_eq hle (fun h => absurd h hns) hN.pdsym]
  refine Meets.ok ⟨hV (node_transpose hN hr hc hd hle' hz), ?_, ?_, ?_, ?_, ?_⟩
  · rw [rows_withFl, hr]
  · rw [cols_withFl, hc]
  · rw [fl_withFl]
  · rw [den_withFl]; exact hd
  · rw [zeroLike_withFl]; exact hz

theorem base_le_swap {full : Prop} {op : Op} (hN : Node full op) : (base op.cols op.rows).fl.Le op.fl.swap :=
  ⟨base_sym_le fun h => hN.nonsquare fun e => h e.symm, .inl rfl, .inl rfl, .inl rfl⟩

theorem settled_sym {full : Prop} {op : Op} (hN : Node full op) (h : (derived op).sym = some true) :
    op.fl.sym = some true :=
  hN.settled.sym.elim (fun e => by rw [e] at h; cases h) (fun e => e ▸ h)

theorem settled_low {full : Prop} {op : Op} (hN : Node full op) (h : (derived op).low = some true) :
    op.fl.low = some true :=
  hN.settled.low.elim (fun e => by rw [e] at h; cases h) (fun e => e ▸ h)

theorem settled_up {full : Prop} {op : Op} (hN : Node full op) (h : (derived op).up = some true) :
    op.fl.up = some true :=
  hN.settled.up.elim (fun e => by rw [e] at h; cases h) (fun e => e ▸ h)

theorem settled_pd {full : Prop} {op : Op} (hN : Node full op) (h : (derived op).pd = some true) :
    op.fl.pd = some true :=
  hN.settled.pd.elim (fun e => by rw [e] at h; cases h) (fun e => e ▸ h)

/-- If the parts of the expanded sum have a flag, so have the summands. -/
theorem flag_of_expand {full : Prop} {l : List Op} (hv : ∀ a ∈ l, Valid full a) (p : Flags → Option Bool)
    (hp : ∀ h m, Valid full (.sum h m) → (∀ b ∈ m, p b.fl = some true) → p h.fl = some true)
    (h : ∀ b ∈ expandSum l, p b.fl = some true) : ∀ a ∈ l, p a.fl = some true := by
  intro a ha
  rcases subset_expandSum ha with ⟨hd, m, rfl, hm⟩ | hmem
  · exact hp hd m (hv _ ha) fun b hb => h b (hm hb)
  · exact h a hmem

theorem TPost.square {full : Prop} {op t : Op} (h : TPost full op t) (hs : op.rows = op.cols) : t.rows = t.cols := by
  rw [h.rows, h.cols, hs]

theorem denSum_trn {full : Prop} {r c : ℕ} : ∀ {l l' : List Op}, List.Forall₂ (TPost full) l l' →
    (∀ a ∈ l, a.rows = r ∧ a.cols = c) → Eqv c r (denSum l') (trn (denSum l))
  | _, _, .nil, _ => Eqv.refl _
  | _, _, .cons (a := a) (b := b) h ht, hs => by
    simp only [denSum, trn_add]
    have h1 := h.den
    rw [(hs a (by simp)).1, (hs a (by simp)).2] at h1
    exact add_congr h1 (denSum_trn ht fun x hx => hs x (List.mem_cons_of_mem _ hx))

theorem forall₂_mem_right {α γ : Type _} {R : α → γ → Prop} : ∀ {l : List α} {m : List γ}, List.Forall₂ R l m →
    ∀ b ∈ m, ∃ a ∈ l, R a b
  | _, _, .nil, b, hb => by simp at hb
  | _, _, .cons (a := a) h ht, b, hb => by
    rcases List.mem_cons.1 hb with rfl | hb
    · exact ⟨a, by simp, h⟩
    · obtain ⟨x, hx, hr⟩ := forall₂_mem_right ht b hb
      exact ⟨x, List.mem_cons_of_mem _ hx, hr⟩

theorem forall₂_mem_left {α γ : Type _} {R : α → γ → Prop} : ∀ {l : List α} {m : List γ}, List.Forall₂ R l m →
    ∀ a ∈ l, ∃ b ∈ m, R a b
  | _, _, .nil, b, hb => by simp at hb
  | _, _, .cons (b := b) h ht, a, ha => by
    rcases List.mem_cons.1 ha with rfl | ha
    · exact ⟨b, by simp, h⟩
    · obtain ⟨x, hx, hr⟩ := forall₂_mem_left ht a ha
      exact ⟨x, List.mem_cons_of_mem _ hx, hr⟩

theorem lastCols_snoc {full : Prop} : ∀ {a : Op} {l : List Op} {a' : Op} {m : List Op},
    List.Forall₂ (TPost full) (a :: l) (a' :: m) → chained (a :: l) →
    ∃ d e, (a' :: m).reverse = d :: e ∧ d.rows = lastCols a.cols l ∧ lastCols d.cols e = a.rows ∧ chained (d :: e) ∧
      (∀ x ∈ d :: e, Valid full x) ∧ Eqv (lastCols a.cols l) a.rows (denProd (d :: e)) (trn (denProd (a :: l)))
  | a, [], a', m, .cons h hnil, _ => by
    cases hnil
    refine ⟨a', [], rfl, h.rows, h.cols, trivial, by simpa using h.valid, ?_⟩
    simp only [denProd, lastCols]
    have h1 : Eqv a.cols a.rows (mmul a'.cols (den a') eye) (den a') := by
      rw [h.cols]; exact mmul_eye _ _
    exact h1.trans (h.den.trans (trn_congr (mmul_eye _ _)).symm)
  | a, b :: l, a', m, .cons h ht, hc => by
    cases m with
    | nil => cases ht
    | cons b' m =>
      obtain ⟨d, e, h1, h2, h3, h4, h5, h6⟩ := lastCols_snoc ht hc.2
      have hab : lastCols d.cols e = a'.rows := by rw [h3, h.rows]; exact hc.1.symm
      refine ⟨d, e ++ [a'], ?_, h2, ?_, ?_, ?_, ?_⟩
      · rw [List.reverse_cons, h1]; rfl
      · rw [lastCols_append]; exact h.cols
      · exact chained_append h4 (m := []) trivial hab
      · intro x hx
        rw [← List.cons_append, List.mem_append] at hx
        rcases hx with hx | hx
        · exact h5 x hx
        · rw [List.mem_singleton.1 hx]; exact h.valid
      · rw [← List.cons_append]
        refine (mmul_denProd h4 hab _ _).symm.trans ?_
        rw [show denProd (a :: b :: l) = mmul a.cols (den a) (denProd (b :: l)) by rw [denProd], trn_mmul, h.rows]
        have hb : lastCols a.cols (b :: l) = lastCols b.cols l := rfl
        rw [hb]
        refine mmul_congr ?_ ?_
        · have := h6
          rw [← hc.1] at this
          exact this
        · simp only [denProd]
          have h1 : Eqv a.cols a.rows (mmul a'.cols (den a') eye) (den a') := by
            rw [h.cols]; exact mmul_eye _ _
          exact h1.trans h.den

theorem infer_forall₂ {full : Prop} {p q : Flags → Option Bool} (hpq : ∀ f : Flags, q f.swap = p f) {l l' : List Op}
    (h : List.Forall₂ (TPost full) l l') :
    inferProp (fun b => q b.fl) l' = inferProp (fun b => p b.fl) l := by
  have e1 : (∀ b ∈ l', q b.fl = some true) ↔ ∀ b ∈ l, p b.fl = some true := by
    constructor
    · intro hq a ha
      obtain ⟨b, hb, hr⟩ := forall₂_mem_left h a ha
      have := hq b hb
      rwa [hr.fl, hpq] at this
    · intro hq b hb
      obtain ⟨a, ha, hr⟩ := forall₂_mem_right h b hb
      rw [hr.fl, hpq]
      exact hq a ha
  have e2 : (∃ b ∈ l', q b.fl = some false) ↔ ∃ b ∈ l, p b.fl = some false := by
    constructor
    · rintro ⟨b, hb, hq⟩
      obtain ⟨a, ha, hr⟩ := forall₂_mem_right h b hb
      rw [hr.fl, hpq] at hq
      exact ⟨a, ha, hq⟩
    · rintro ⟨a, ha, hq⟩
      obtain ⟨b, hb, hr⟩ := forall₂_mem_left h a ha
      exact ⟨b, hb, by rw [hr.fl, hpq]; exact hq⟩
  unfold inferProp
  simp only [e1, e2]

theorem rows_forall₂ {full : Prop} {l l' : List Op} (h : List.Forall₂ (TPost full) l l') :
    l'.map Op.rows = l.map Op.cols ∧ l'.map Op.cols = l.map Op.rows := by
  induction h with
  | nil => exact ⟨rfl, rfl⟩
  | cons h _ ih => exact ⟨by rw [List.map_cons, List.map_cons, h.rows, ih.1],
      by rw [List.map_cons, List.map_cons, h.cols, ih.2]⟩

theorem denBlock_trn {full : Prop} {l l' : List Op} (h : List.Forall₂ (TPost full) l l') (i j : ℕ) :
    denBlock l' i j = trn (denBlock l) i j := by
  induction h generalizing i j with
  | nil => rfl
  | @cons a b l l' h _ ih =>
    simp only [trn, denBlock_cons, h.rows, h.cols]
    by_cases h1 : i < a.cols <;> by_cases h2 : j < a.rows
    · rw [if_pos h1, if_pos h2, if_pos h2, if_pos h1]
      exact h.den i h1 j h2
    · rw [if_pos h1, if_neg h2, if_neg h2, if_pos h1]
    · rw [if_neg h1, if_pos h2, if_pos h2, if_neg h1]
    · rw [if_neg h1, if_neg h2, if_neg h2, if_neg h1]
      exact ih _ _

theorem den_symmetric_self {full : Prop} {op : Op} (hN : Node full op) (h : op.fl.sym = some true) :
    op.rows = op.cols ∧ Eqv op.cols op.rows (den op) (trn (den op)) := by
  obtain ⟨h1, h2⟩ := hN.sound.sym.1 h
  refine ⟨h1, ?_⟩
  rw [← h1]
  exact h2.symm

theorem swap_of_sym {full : Prop} {op : Op} (hN : Node full op) (h : op.fl.sym = some true) : op.fl = op.fl.swap := by
  have := hN.balanced h
  have e : op.fl = ⟨op.fl.sym, op.fl.low, op.fl.up, op.fl.pd⟩ := rfl
  rw [Flags.swap, this]
  rw [this] at e
  exact e

theorem T_meets {full : Prop} : ∀ (n : ℕ) {op : Op}, Valid full op → Meets (T n op) (TPost full op)
  | 0, _, _ => Meets.fuel
  | n + 1, op, hV => by
    have ih := fun {op : Op} => @T_meets full n op
    have hN := hV.node
    by_cases hs : op.fl.sym = some true
    · simp only [T, if_pos hs]
      obtain ⟨h1, h2⟩ := den_symmetric_self hN hs
      exact Meets.ok ⟨hV, h1, h1.symm, swap_of_sym hN hs, h2, fun h => h⟩
    · simp only [T, if_neg hs]
      cases hV with
      | @matrix h M _ =>
        exact copyFlags_meets (t := mkMatrix h.cols h.rows (trn M)) hN hs rfl rfl
          (Eqv.of_eq (by simp only [mkMatrix, den])) (base_le_swap hN) (base_le_swap hN) (fun h => h.elim) .matrix
      | @lam h M hN =>
        exact copyFlags_meets (t := mkTransposed (.lam h M)) hN hs rfl rfl
          (Eqv.of_eq (by simp only [mkTransposed, den])) (base_le_swap hN) (Flags.Le.refl _) (fun h => h.elim)
          (.transposed (.lam hN) rfl rfl)
      | identity _ _ => exact absurd (settled_sym hN rfl) hs
      | scaling _ _ _ => exact absurd (settled_sym hN rfl) hs
      | @zero h _ =>
        have hne : h.rows ≠ h.cols := by
          intro e
          refine hs (settled_sym hN ?_)
          simp only [derived, mkZero, if_pos e, Op.fl, Op.hdr]
        have hfl : (mkZero h.cols h.rows).fl = (base h.cols h.rows).fl := by
          simp only [mkZero, if_neg (Ne.symm hne), Op.fl, Op.hdr]
        have hd : derived (mkZero h.cols h.rows) = (base h.cols h.rows).fl := by
          have e1 := mkZero_rows h.cols h.rows
          have e2 := mkZero_cols h.cols h.rows
          rw [mkZero_eq _ _ ⟨none, none, none, none⟩, derived_build]
          exact hfl
        refine copyFlags_meets (t := mkZero h.cols h.rows) hN hs (mkZero_rows _ _) (mkZero_cols _ _)
          (Eqv.of_eq (by simp only [mkZero, den, trn_zero])) ?_ ?_ (fun _ => trivial) .zero
        · rw [hfl]; exact base_le_swap hN
        · rw [hd]; exact base_le_swap hN
      | @kron h A B hA hB h1 h2 _ =>
        refine Meets.bind (P := fun t => ∃ A' B', TPost full A A' ∧ TPost full B B' ∧
          t = build (.kron ⟨A'.rows * B'.rows, A'.cols * B'.cols, h.fl⟩ A' B')) ?_ ?_
        · refine Meets.bind (ih hA) fun A' hA' => Meets.bind (ih hB) fun B' hB' => ?_
          rw [mkKron_eq hA'.valid.coh hB'.valid.coh h.fl]
          exact Meets.ok ⟨A', B', hA', hB', rfl⟩
        · rintro t ⟨A', B', hA', hB', rfl⟩
          have hr : A'.rows * B'.rows = (Op.kron h A B).cols := by rw [hA'.rows, hB'.rows]; exact h2.symm
          have hc : A'.cols * B'.cols = (Op.kron h A B).rows := by rw [hA'.cols, hB'.cols]; exact h1.symm
          have hle : (derived (.kron ⟨A'.rows * B'.rows, A'.cols * B'.cols, h.fl⟩ A' B')).Le (Op.kron h A B).fl.swap := by
            have : ¬ (A'.fl.sym = some true ∧ B'.fl.sym = some true) := by
              rw [hA'.fl, hB'.fl]
              intro hb
              refine hs (settled_sym hN ?_)
              simp only [derived]
              exact if_pos hb
            simp only [derived, if_neg this]
            rw [hr, hc]
            exact base_le_swap hN
          refine copyFlags_meets hN hs hr hc ?_ (by rwa [fl_build]) (by rwa [derived_build]) (fun h => h.elim)
            (.kron hA'.valid hB'.valid rfl rfl)
          rw [den_build, den, den, trn_kronM, hB'.rows, hB'.cols, ← hr, ← hc, hA'.rows, hA'.cols, hB'.rows, hB'.cols]
          exact kronM_congr hA'.den hB'.den
      | @idkron h k B hB h1 h2 _ =>
        refine Meets.bind (P := fun t => ∃ B', TPost full B B' ∧
          t = build (.idkron ⟨k * B'.rows, k * B'.cols, h.fl⟩ k B')) ?_ ?_
        · refine Meets.bind (ih hB) fun B' hB' => ?_
          rw [mkIdkron_eq hB'.valid.coh h.fl]
          exact Meets.ok ⟨B', hB', rfl⟩
        · rintro t ⟨B', hB', rfl⟩
          have hr : k * B'.rows = (Op.idkron h k B).cols := by rw [hB'.rows]; exact h2.symm
          have hc : k * B'.cols = (Op.idkron h k B).rows := by rw [hB'.cols]; exact h1.symm
          have hle : (derived (.idkron ⟨k * B'.rows, k * B'.cols, h.fl⟩ k B')).Le (Op.idkron h k B).fl.swap := by
            have : ¬ (B'.fl.sym = some true) := by
              rw [hB'.fl]
              intro hb
              refine hs (settled_sym hN ?_)
              simp only [derived]
              exact if_pos hb
            simp only [derived, if_neg this]
            rw [hr, hc]
            exact base_le_swap hN
          refine copyFlags_meets hN hs hr hc ?_ (by rwa [fl_build]) (by rwa [derived_build]) (fun h => h.elim)
            (.idkron hB'.valid rfl rfl)
          rw [den_build, den, den, trn_kronM, hB'.rows, hB'.cols, ← hr, ← hc, hB'.rows, hB'.cols, trn_eye]
          exact kronM_congr (Eqv.refl _) hB'.den
      | @symkron h same A B hA hB hsame h1 h2 h3 h4 h5 _ =>
        refine Meets.bind (P := fun t => ∃ A' B', TPost full A A' ∧ TPost full B B' ∧ (same = true → B' = A') ∧
          t = build (.symkron ⟨A'.rows * A'.rows, A'.rows * A'.rows, h.fl⟩ same A' B')) ?_ ?_
        · refine Meets.bind (ih hA) fun A' hA' => ?_
          have sqA := hA'.square h1
          cases hsm : same with
          | true =>
            obtain rfl := hsame hsm
            simp only [if_true]
            rw [mkSymkron_eq sqA rfl rfl h.fl]
            exact Meets.ok ⟨A', A', hA', hA', fun _ => rfl, rfl⟩
          | false =>
            simp only [Bool.false_eq_true, if_false]
            refine Meets.bind (ih hB) fun B' hB' => ?_
            rw [mkSymkron_eq sqA (by rw [hA'.rows, hB'.rows, h3]) (by rw [hA'.cols, hB'.cols, h2]) h.fl]
            exact Meets.ok ⟨A', B', hA', hB', fun h => (by cases h), rfl⟩
        · rintro t ⟨A', B', hA', hB', hsame', rfl⟩
          have hr : A'.rows * A'.rows = (Op.symkron h same A B).cols := by rw [hA'.rows, ← h1]; exact h5.symm
          have hc : A'.rows * A'.rows = (Op.symkron h same A B).rows := by rw [hA'.rows, ← h1]; exact h4.symm
          have hle : (derived (.symkron ⟨A'.rows * A'.rows, A'.rows * A'.rows, h.fl⟩ same A' B')).Le
              (Op.symkron h same A B).fl.swap := by
            have : ¬ (A'.fl.sym = some true ∧ B'.fl.sym = some true) := by
              rw [hA'.fl, hB'.fl]
              intro hb
              refine hs (settled_sym hN ?_)
              simp only [derived]
              exact if_pos hb
            simp only [derived, if_neg this]
            have := base_le_swap hN
            rwa [← hr, ← hc] at this
          refine copyFlags_meets hN hs hr hc ?_ (by rwa [fl_build]) (by rwa [derived_build]) (fun h => h.elim)
            (.symkron hA'.valid hB'.valid hsame' (hA'.square h1) (by rw [hA'.rows, hB'.rows, h3])
              (by rw [hA'.cols, hB'.cols, h2]) rfl rfl)
          rw [den_build, den, den, trn_smul, trn_add, trn_kronM, trn_kronM, hB'.rows, hB'.cols, ← hr, ← hc, hA'.rows,
            hA'.cols, h2, h3, ← h1]
          have dA := hA'.den
          have dB := hB'.den
          rw [h2, h3] at dB
          rw [← h1] at dA dB
          exact smul_congr _ (add_congr (kronM_congr dA dB) (kronM_congr dB dA))
      | @symmetrize h m h1 h2 hN =>
        exact copyFlags_meets (t := mkTransposed (.symmetrize h m)) hN hs rfl rfl
          (Eqv.of_eq (by simp only [mkTransposed, den])) (base_le_swap hN) (Flags.Le.refl _) (fun h => h.elim)
          (.transposed (.symmetrize h1 h2 hN) rfl rfl)
      | @scaled h neg s A hA h1 h2 hs0 hneg _ =>
        have hsA : A.fl.sym ≠ some true := fun e => hs (settled_sym hN e)
        refine Meets.bind (P := fun t => ∃ A', TPost full A A' ∧ MulPost full s A' t) ?_ ?_
        · refine Meets.bind (ih hA) fun A' hA' => ?_
          exact (mulScalar_meets n hA'.valid hs0).mono fun t ht => ⟨A', hA', ht⟩
        · rintro t ⟨A', hA', ht⟩
          have hsA' : A'.fl.sym ≠ some true := by rw [hA'.fl]; exact hsA
          have hle : t.fl.Le (Op.scaled h neg s A).fl.swap := by
            refine (ht.le hsA').trans ?_
            rw [hA'.fl]
            exact ⟨hN.settled.sym, hN.settled.up, hN.settled.low, .inl rfl⟩
          have hr : t.rows = (Op.scaled h neg s A).cols := by rw [ht.rows, hA'.rows]; exact h2.symm
          have hc : t.cols = (Op.scaled h neg s A).rows := by rw [ht.cols, hA'.cols]; exact h1.symm
          refine copyFlags_meets hN hs hr hc ?_ hle (ht.valid.node.settled.trans hle)
            (fun h => hA'.zero (ht.zero h)) ht.valid.withFl
          rw [den, trn_smul, ← hr, ← hc, ht.rows, ht.cols]
          refine ht.den.trans (smul_congr s ?_)
          rw [hA'.rows, hA'.cols]
          exact hA'.den
      | @sum h l hne hv hsh _ =>
        refine Meets.bind (P := fun t => ∃ l', List.Forall₂ (TPost full) l l' ∧
          t = build (.sum ⟨h.cols, h.rows, h.fl⟩ (expandSum l')) ∧ Valid full t) ?_ ?_
        · refine Meets.bind (Meets.mapM fun a ha => ih (hv a ha)) fun l' hl' => ?_
          have hv' : ∀ b ∈ l', Valid full b := fun b hb => by
            obtain ⟨a, _, hr⟩ := forall₂_mem_right hl' b hb
            exact hr.valid
          have hs' : ∀ b ∈ l', b.rows = h.cols ∧ b.cols = h.rows := fun b hb => by
            obtain ⟨a, ha, hr⟩ := forall₂_mem_right hl' b hb
            exact ⟨by rw [hr.rows, (hsh a ha).2], by rw [hr.cols, (hsh a ha).1]⟩
          have hne' : l' ≠ [] := by
            rintro rfl
            cases hl'
            exact hne rfl
          obtain ⟨e, hval⟩ := mkSum_valid hne' hv' hs' h.fl
          rw [e]
          exact Meets.ok ⟨l', hl', rfl, hval⟩
        · rintro t ⟨l', hl', rfl, hval⟩
          have hv' : ∀ b ∈ l', Valid full b := fun b hb => by
            obtain ⟨a, _, hr⟩ := forall₂_mem_right hl' b hb
            exact hr.valid
          have back : ∀ (p q : Flags → Option Bool), (∀ f : Flags, q f.swap = p f) →
              (∀ h m, Valid full (.sum h m) → (∀ b ∈ m, q b.fl = some true) → q h.fl = some true) →
              (∀ b ∈ expandSum l', q b.fl = some true) → ∀ a ∈ l, p a.fl = some true := by
            intro p q hpq hq hall a ha
            obtain ⟨b, hb, hr⟩ := forall₂_mem_left hl' a ha
            have := flag_of_expand hv' q hq hall b hb
            rwa [hr.fl, hpq] at this
          have hle : (derived (.sum ⟨h.cols, h.rows, h.fl⟩ (expandSum l'))).Le (Op.sum h l).fl.swap := by
            have e1 : ¬ ∀ b ∈ expandSum l', b.fl.sym = some true := by
              intro hall
              refine hs (settled_sym hN ?_)
              simp only [derived]
              rw [if_pos]
              refine back (fun f => f.sym) (fun f => f.sym) (fun _ => rfl) (fun h m hv hm => ?_) hall
              refine settled_sym hv.node ?_
              simp only [derived]
              rw [if_pos hm]
            have e4 : ¬ ∀ b ∈ expandSum l', b.fl.pd = some true := fun hall => e1 fun b hb =>
              (valid_expandSum (r := h.cols) (c := h.rows) hv' (fun b hb => by
                obtain ⟨a, ha, hr⟩ := forall₂_mem_right hl' b hb
                exact ⟨by rw [hr.rows, (hsh a ha).2], by rw [hr.cols, (hsh a ha).1]⟩) b hb).1.node.pdsym (hall b hb)
            simp only [derived, if_neg e1, if_neg e4]
            refine ⟨(base_le_swap hN).sym, ?_, ?_, .inl rfl⟩
            · by_cases e2 : ∀ b ∈ expandSum l', b.fl.low = some true
              · rw [if_pos e2]
                right
                refine (settled_up hN ?_).symm
                simp only [derived]
                rw [if_pos]
                refine back (fun f => f.up) (fun f => f.low) (fun _ => rfl) (fun h m hv hm => ?_) e2
                refine settled_low hv.node ?_
                simp only [derived]
                rw [if_pos hm]
              · rw [if_neg e2]
                exact .inl rfl
            · by_cases e2 : ∀ b ∈ expandSum l', b.fl.up = some true
              · rw [if_pos e2]
                right
                refine (settled_low hN ?_).symm
                simp only [derived]
                rw [if_pos]
                refine back (fun f => f.low) (fun f => f.up) (fun _ => rfl) (fun h m hv hm => ?_) e2
                refine settled_up hv.node ?_
                simp only [derived]
                rw [if_pos hm]
              · rw [if_neg e2]
                exact .inl rfl
          refine copyFlags_meets hN hs rfl rfl ?_ (by rwa [fl_build]) (by rwa [derived_build]) (fun h => h.elim) hval.withFl
          rw [den_build, den, den, denSum_expand]
          exact denSum_trn hl' hsh
      | @prod h a l hv hch h1 h2 _ =>
        refine Meets.bind (P := fun t => Valid full t ∧ t.rows = h.cols ∧ t.cols = h.rows ∧ t.fl = (base h.cols h.rows).fl ∧
          derived t = (base h.cols h.rows).fl ∧ Eqv h.cols h.rows (den t) (trn (denProd (a :: l))) ∧
          ¬ zeroLike t) ?_ ?_
        · refine Meets.bind (Meets.mapM fun b hb => ih (hv b (List.mem_reverse.1 hb))) fun l' hl' => ?_
          have hl'' := List.forall₂_reverse_iff.2 hl'
          rw [List.reverse_reverse] at hl''
          cases hm : l'.reverse with
          | nil =>
            rw [hm] at hl''
            cases hl''
          | cons a' m =>
            rw [hm] at hl''
            obtain ⟨d, e, g1, g2, g3, g4, g5, g6⟩ := lastCols_snoc hl'' hch
            have : l' = d :: e := by rw [← g1, ← hm, List.reverse_reverse]
            rw [this]
            obtain ⟨p, e1, e2, e3, e4, e5, e6, e7⟩ := mkProd_valid g5 g4
            have r1 : p.rows = h.cols := by rw [e3, g2, h2]
            have r2 : p.cols = h.rows := by rw [e4, g3, h1]
            rw [e1]
            rw [r1, r2] at e5 e6 e7
            refine Meets.ok ⟨e2, r1, r2, e5, e6, ?_, ?_⟩
            · rw [h1, h2] at *
              exact e7.trans g6
            · simp only [mkProd] at e1
              split at e1
              · cases e1
              · split at e1 <;> cases e1
                exact fun h => h
        · rintro t ⟨e1, e2, e3, e4, e5, e6, e7⟩
          refine copyFlags_meets hN hs e2 e3 ?_ ?_ ?_ (fun h => absurd h e7) e1.withFl
          · rw [show den (Op.prod h (a :: l)) = denProd (a :: l) by rw [den]]
            exact e6
          · rw [e4]; exact base_le_swap hN
          · rw [e5]; exact base_le_swap hN
      | @transposed h A hA h1 h2 _ =>
        have hle : A.fl.Le (Op.transposed h A).fl.swap := hN.settled.swap
        refine copyFlags_meets (t := A) hN hs h2.symm h1.symm ?_ hle (hA.node.settled.trans hle) (fun h => h)
          hA.withFl
        rw [den, trn_trn]
        exact Eqv.refl _
      | @inverse h A hA h1 h2 h3 h4 h5 hN =>
        exact copyFlags_meets (t := mkTransposed (.inverse h A)) hN hs rfl rfl
          (Eqv.of_eq (by simp only [mkTransposed, den])) (base_le_swap hN) (Flags.Le.refl _) (fun h => h.elim)
          (.transposed (.inverse hA h1 h2 h3 h4 h5 hN) rfl rfl)
      | @selection h idx h1 h2 h3 h4 hN =>
        have e : mkEmbedding (List.range idx.length) idx 0 h.cols h.rows =
            .ok (.embedding (base h.cols h.rows) (List.range h.rows) idx 0) := by
          rw [mkEmbedding, if_neg (by omega), h1]
        simp only [transposeOf]
        rw [e, ok_bind]
        refine copyFlags_meets (t := .embedding (base h.cols h.rows) (List.range h.rows) idx 0) hN hs rfl rfl ?_
          (base_le_swap hN) (base_le_swap hN) (fun h => h.elim) (fun h' => .embedding (h := ⟨h.cols, h.rows, _⟩) h1 h2 h3 h4 h')
        intro i hi j hj
        have hj : j < h.rows := hj
        simp only [den, trn]
        rw [Finset.sum_eq_single j]
        · simp [hj]
        · intro p hp hpj
          rw [Finset.mem_range, h1] at hp
          simp [hp, hpj]
        · intro hn
          exact absurd (Finset.mem_range.2 (by omega)) hn
      | @embedding h put h1 h2 h3 h4 hN =>
        have e : mkSelection put h.cols h.rows = .ok (.selection (base h.cols h.rows) put) := by
          rw [mkSelection, if_neg (by omega), if_neg (by omega)]
        simp only [transposeOf]
        rw [e, ok_bind]
        refine copyFlags_meets (t := .selection (base h.cols h.rows) put) hN hs rfl rfl ?_
          (base_le_swap hN) (base_le_swap hN) (fun h => h.elim) (fun h' => .selection (h := ⟨h.cols, h.rows, _⟩) h1 h2 h3 h4 h')
        intro i hi j hj
        have hi : i < h.cols := hi
        simp only [den, trn]
        rw [Finset.sum_eq_single i]
        · simp [hi]
        · intro p hp hpj
          rw [Finset.mem_range, h1] at hp
          simp [hp, hpj]
        · intro hn
          exact absurd (Finset.mem_range.2 (by omega)) hn
      | @block h l hne hv hsq h1 h2 _ =>
        refine Meets.bind (P := fun t => ∃ l', List.Forall₂ (TPost full) l l' ∧ l' ≠ [] ∧
          t = build (.block ⟨(l'.map Op.rows).sum, (l'.map Op.cols).sum, h.fl⟩ l')) ?_ ?_
        · refine Meets.bind (Meets.mapM fun a ha => ih (hv a ha)) fun l' hl' => ?_
          have hne' : l' ≠ [] := by
            rintro rfl
            cases hl'
            exact hne rfl
          rw [mkBlock_eq hne' (fun b hb => by
            obtain ⟨a, _, hr⟩ := forall₂_mem_right hl' b hb
            exact hr.valid.coh) h.fl]
          exact Meets.ok ⟨l', hl', hne', rfl⟩
        · rintro t ⟨l', hl', hne', rfl⟩
          obtain ⟨r1, r2⟩ := rows_forall₂ hl'
          have hle : (derived (.block ⟨(l'.map Op.rows).sum, (l'.map Op.cols).sum, h.fl⟩ l')).Le (Op.block h l).fl.swap := by
            have := hN.settled.swap
            simp only [derived, Flags.swap] at this ⊢
            rw [infer_forall₂ (p := fun f => f.sym) (q := fun f => f.sym) (fun _ => rfl) hl',
              infer_forall₂ (p := fun f => f.up) (q := fun f => f.low) (fun _ => rfl) hl',
              infer_forall₂ (p := fun f => f.low) (q := fun f => f.up) (fun _ => rfl) hl',
              infer_forall₂ (p := fun f => f.pd) (q := fun f => f.pd) (fun _ => rfl) hl']
            exact this
          refine copyFlags_meets hN hs (by rw [rows_build]; show (l'.map Op.rows).sum = h.cols; rw [r1, h2])
            (by rw [cols_build]; show (l'.map Op.cols).sum = h.rows; rw [r2, h1]) ?_
            (by rwa [fl_build]) (by rwa [derived_build]) (fun h => h.elim) (fun h' => .block hne' (fun b hb => by
              obtain ⟨a, _, hr⟩ := forall₂_mem_right hl' b hb
              exact hr.valid) (fun hf b hb => by
              obtain ⟨a, ha, hr⟩ := forall₂_mem_right hl' b hb
              exact hr.square (hsq hf a ha)) rfl rfl h')
          rw [den_build, den, den]
          exact fun i _ j _ => denBlock_trn hl' i j

end Probnum.Linops
