import Verif.Linops.CholLemmas

/-!
# Property C78: `cholesky` returns Cholesky factors

`IsFactor n lower M L` (in `CholLemmas.lean`) is the textbook definition: `L` is triangular with a positive diagonal and
`L Lᵀ = M` (for `lower=False`: `Lᵀ L = M`).
-/

namespace Probnum.Linops

open Finset

/-- What a user reads off a factor: its shape, its dense matrix, and its products with arrays. -/
structure FactorOp (r : ℕ) (lower : Bool) (M : Mat) (c : Op) : Prop where
  rows : c.rows = r
  cols : c.cols = r
  factor : IsFactor r lower M (den c)
  dense : ∀ m D, todense m c = .ok D → Eqv r r D (den c)
  mat : ∀ m {β : Type} (k : ℕ) (x y : β → Mat), matArr m c r k x = .ok y → ∀ b, Eqv r k (y b) (mmul r (den c) (x b))

theorem Meets.elim {α : Type _} {r : Res α} {P : α → Prop} (h : Meets r P) {a : α} (e : r = .ok a) : P a := by
  subst e; exact h

theorem CholRes.factorOp {r : ℕ} {lower : Bool} {M : Mat} {c : Op} (h : CholRes r lower M c) : FactorOp r lower M c :=
  ⟨h.rows, h.cols, h.factor, fun m _ e => (h.acts.dense m).elim e,
    fun m _ k x _ e => (h.acts.mat m k x).elim e⟩

/-- The part of `cholesky` that is common to all operators without a method of their own. -/
theorem dense_res {n : ℕ} {op : Op} {full : Prop} (hV : Valid full op) (lower : Bool) (hs : op.fl.sym = some true) {c : Op}
    (h : ((do
        let D ← todense n op
        let L ← chol op.rows lower D
        (.ok (mkMatrix op.rows op.cols L) : Res Op)) >>= fun c : Op =>
      if lower then c.assign setLow (some true) else c.assign setUp (some true)) = .ok c) :
    CholRes op.rows lower (den op) c := by
  obtain ⟨hsq, hsym⟩ := sound_sym hV.node hs
  have hD := (level full n).dense hV
  cases hd : todense n op with
  | error e => rw [hd] at h; cases h
  | ok D =>
    rw [hd] at hD h
    have hD : Eqv op.rows op.cols D (den op) := hD
    rw [ok_bind] at h
    rw [← hsq] at hD h
    by_cases hex : ∃ L, IsChol op.rows lower D L
    · rw [Probnum.Linops.chol, dif_pos hex, ok_bind, ok_bind, assign_own (by left; cases lower <;> simp [mkMatrix, base, own, Op.fl, Op.hdr])] at h
      have hf := (isChol_iff hD hsym).1 hex.choose_spec
      have := cholRes_matrix hf
      cases h
      convert this using 1
      simp [mkMatrix, base, Op.withFl, Op.withHdr, Op.fl, Op.hdr]
      exact ⟨rfl, rfl⟩
    · rw [Probnum.Linops.chol, dif_neg hex] at h
      cases h

theorem bind_ok {α γ : Type _} {r : Res α} {f : α → Res γ} {b : γ} (h : (r >>= f) = .ok b) :
    ∃ a, r = .ok a ∧ f a = .ok b := by
  cases r with
  | ok a => exact ⟨a, rfl, h⟩
  | error e => cases h

theorem mapM_ok {α γ : Type} {f : α → Res γ} : ∀ {l : List α} {ys : List γ}, l.mapM f = .ok ys →
    List.Forall₂ (fun a b => f a = .ok b) l ys
  | [], ys, h => by
    rw [List.mapM_nil] at h
    cases h
    exact .nil
  | a :: l, ys, h => by
    rw [List.mapM_cons] at h
    obtain ⟨b, hb, h⟩ := bind_ok h
    obtain ⟨bs, hbs, h⟩ := bind_ok h
    cases h
    exact .cons hb (mapM_ok hbs)

theorem forall₂_mem {α γ : Type _} {R : α → γ → Prop} {l : List α} {m : List γ} (h : List.Forall₂ R l m) :
    List.Forall₂ (fun a b => a ∈ l ∧ R a b) l m := by
  induction h with
  | nil => exact .nil
  | cons h _ ih =>
    exact .cons ⟨by simp, h⟩ (ih.imp fun a b h => ⟨List.mem_cons_of_mem _ h.1, h.2⟩)

/-- Everything `cholesky` returns is the Cholesky factor asked for. -/
theorem cholesky_res {full : Prop} : ∀ (n : ℕ) {op c : Op} {lower : Bool}, Valid full op → cholesky n op lower = .ok c →
    CholRes op.rows lower (den op) c
  | 0, _, _, _, _, h => by rw [cholesky] at h; cases h
  | n + 1, op, c, lower, hV, h => by
    rw [cholesky] at h
    by_cases hs : op.fl.sym = some true
    swap
    · rw [if_pos hs] at h; cases h
    rw [if_neg (by simpa using hs)] at h
    by_cases hp : op.fl.pd = some false
    · rw [if_pos hp] at h; cases h
    rw [if_neg hp] at h
    have hN := hV.node
    have gen := fun h => dense_res (n := n) (c := c) hV lower hs h
    cases hV with
    | matrix _ => exact gen h
    | lam _ => exact gen h
    | zero _ => exact gen h
    | symmetrize _ _ _ => exact gen h
    | scaled _ _ _ _ _ _ => exact gen h
    | sum _ _ _ _ => exact gen h
    | prod _ _ _ _ _ => exact gen h
    | inverse _ _ _ _ _ _ _ => exact gen h
    | selection _ _ _ _ _ => exact gen h
    | embedding _ _ _ _ _ => exact gen h
    | @transposed hd A hA h1 h2 _ =>
      dsimp only at h
      rcases cholesky_transposed hd A lower n with e | e <;> rw [e] at h <;> cases h
    | @identity hd h1 _ =>
      have hset := hN.settled
      have e1 := hset.sym
      have e2 := hset.low
      have e3 := hset.up
      have e4 := hset.pd
      simp only [derived, reduceCtorEq, false_or] at e1 e2 e3 e4
      have hfl : hd.fl = ⟨some true, some true, some true, some true⟩ := by
        have : hd.fl = ⟨hd.fl.sym, hd.fl.low, hd.fl.up, hd.fl.pd⟩ := rfl
        rw [this, show hd.fl.sym = some true from e1.symm, show hd.fl.low = some true from e2.symm,
          show hd.fl.up = some true from e3.symm, show hd.fl.pd = some true from e4.symm]
      have h : (if lower then (Op.identity hd).assign setLow (some true) else (Op.identity hd).assign setUp (some true)) = .ok c := h
      have hfl' : (Op.identity hd).fl = ⟨some true, some true, some true, some true⟩ := hfl
      rw [assign_own (by right; rw [hfl']; cases lower <;> rfl)] at h
      have e : (Op.identity hd).withFl ((Op.identity hd).fl.setOwn lower) = .identity hd := by
        rw [hfl', show Flags.setOwn lower ⟨some true, some true, some true, some true⟩ =
          ⟨some true, some true, some true, some true⟩ by cases lower <;> rfl, ← hfl', withFl_self]
      rw [e] at h
      cases h
      rw [den]
      exact cholRes_identity h1 hfl
    | @scaling hd iso f h1 h2 _ =>
      dsimp only at h
      by_cases hex : ∃ i < hd.rows, f i ≤ 0
      · rw [if_pos hex] at h; cases h
      rw [if_neg hex] at h
      push Not at hex
      have pos : 0 < hd.rows := hN.rows
      have hfac : IsFactor hd.rows lower (den (.scaling hd iso f)) (fun i j => if i = j then Real.sqrt (f i) else 0) := by
        rw [den]
        exact isFactor_diag lower fun i hi => ⟨Real.sqrt_pos.2 (hex i hi), Real.mul_self_sqrt (hex i hi).le⟩
      cases iso with
      | true =>
        have h : (if lower then (mkScalingIso hd.rows (Real.sqrt (f 0))).assign setLow (some true) else
          (mkScalingIso hd.rows (Real.sqrt (f 0))).assign setUp (some true)) = .ok c := h
        have p0 : 0 < Real.sqrt (f 0) := Real.sqrt_pos.2 (hex 0 pos)
        have hfl : (mkScalingIso hd.rows (Real.sqrt (f 0))).fl = ⟨some true, some true, some true, some true⟩ := by
          simp [mkScalingIso, Op.fl, Op.hdr, hex 0 pos]
        rw [assign_own (by right; rw [hfl]; cases lower <;> rfl)] at h
        have e : (mkScalingIso hd.rows (Real.sqrt (f 0))).fl.setOwn lower = (mkScalingIso hd.rows (Real.sqrt (f 0))).fl := by
          rw [hfl]; cases lower <;> rfl
        rw [e, withFl_self] at h
        cases h
        refine cholRes_scaling (h := (mkScalingIso hd.rows (Real.sqrt (f 0))).hdr) rfl ?_ ?_ ?_ ?_ ?_
        · exact congrArg Flags.sym hfl
        · exact congrArg Flags.low hfl
        · exact congrArg Flags.up hfl
        · show (mkScalingIso hd.rows (Real.sqrt (f 0))).fl.pd ≠ some false
          rw [hfl]; simp
        · refine hfac.congr_left fun i hi j hj => ?_
          dsimp only
          rw [h2 rfl i]
      | false =>
        have h : (if lower then (mkScalingAniso hd.rows fun i => Real.sqrt (f i)).assign setLow (some true) else
          (mkScalingAniso hd.rows fun i => Real.sqrt (f i)).assign setUp (some true)) = .ok c := h
        have hfl : (mkScalingAniso hd.rows fun i => Real.sqrt (f i)).fl = ⟨some true, some true, some true, none⟩ := by
          simp [mkScalingAniso, Op.fl, Op.hdr]
        rw [assign_own (by right; rw [hfl]; cases lower <;> rfl)] at h
        have e : (mkScalingAniso hd.rows fun i => Real.sqrt (f i)).fl.setOwn lower =
            (mkScalingAniso hd.rows fun i => Real.sqrt (f i)).fl := by
          rw [hfl]; cases lower <;> rfl
        rw [e, withFl_self] at h
        cases h
        refine cholRes_scaling (h := (mkScalingAniso hd.rows fun i => Real.sqrt (f i)).hdr) rfl ?_ ?_ ?_ ?_ hfac
        · exact congrArg Flags.sym hfl
        · exact congrArg Flags.low hfl
        · exact congrArg Flags.up hfl
        · show (mkScalingAniso hd.rows fun i => Real.sqrt (f i)).fl.pd ≠ some false
          rw [hfl]; simp
    | @kron hd A B hA hB h1 h2 _ =>
      dsimp only at h
      by_cases hab : ¬ (A.fl.sym = some true ∧ B.fl.sym = some true)
      · rw [if_pos hab] at h; cases h
      rw [if_neg hab] at h
      push Not at hab
      obtain ⟨c0, hc0, h⟩ := bind_ok h
      obtain ⟨A', hA', hc0⟩ := bind_ok hc0
      obtain ⟨B', hB', hc0⟩ := bind_ok hc0
      have rA := cholesky_res n hA hA'
      have rB := cholesky_res n hB hB'
      rw [mkKron_eq rA.coh rB.coh ⟨none, none, none, none⟩] at hc0
      cases hc0
      have sqB := hB.node.coh.square hab.2
      have r : (Op.kron hd A B).rows = A.rows * B.rows := h1
      rw [r, den, ← sqB]
      have key := cholRes_kron rA rB
      have hb : (base (A'.rows * B'.rows) (A'.cols * B'.cols)).fl = ⟨none, none, none, none⟩ := by
        simp [base, rA.rows, rA.cols, rB.rows, rB.cols]
      have hfl : (build (.kron ⟨A'.rows * B'.rows, A'.cols * B'.cols, ⟨none, none, none, none⟩⟩ A' B')).fl =
          ⟨if A'.fl.sym = some true ∧ B'.fl.sym = some true then some true else none, none, none, none⟩ := by
        rw [build, fl_withFl, derived, hb]
      rw [assign_own (by left; rw [hfl]; cases lower <;> rfl), hfl, build, withFl_withFl, rA.rows, rA.cols, rB.rows, rB.cols] at h
      cases h
      exact key
    | @idkron hd k B hB h1 h2 _ =>
      dsimp only at h
      obtain ⟨c0, hc0, h⟩ := bind_ok h
      obtain ⟨B', hB', hc0⟩ := bind_ok hc0
      have rB := cholesky_res n hB hB'
      rw [mkIdkron_eq rB.coh ⟨none, none, none, none⟩] at hc0
      cases hc0
      have sq : (Op.idkron hd k B).rows = (Op.idkron hd k B).cols := hN.coh.square hs
      have pos : 0 < k * B.rows := by
        have : 0 < hd.rows := hN.rows
        omega
      have hk : 0 < k := Nat.pos_of_mul_pos_right pos
      have sqB : B.rows = B.cols := by
        have : hd.rows = hd.cols := sq
        rw [h1, h2] at this
        exact Nat.eq_of_mul_eq_mul_left hk this
      have r : (Op.idkron hd k B).rows = k * B.rows := h1
      rw [r, den, ← sqB]
      have key := cholRes_idkron (k := k) rB
      have hb : (base (k * B'.rows) (k * B'.cols)).fl = ⟨none, none, none, none⟩ := by
        simp [base, rB.rows, rB.cols]
      have hfl : (build (.idkron ⟨k * B'.rows, k * B'.cols, ⟨none, none, none, none⟩⟩ k B')).fl =
          ⟨if B'.fl.sym = some true then some true else none, none, none, none⟩ := by
        rw [build, fl_withFl, derived, hb]
      rw [assign_own (by left; rw [hfl]; cases lower <;> rfl), hfl, build, withFl_withFl, rB.rows, rB.cols] at h
      cases h
      exact key
    | @symkron hd same A B hA hB hsame h1 h2 h3 h4 h5 _ =>
      cases same with
      | false => exact gen h
      | true =>
        obtain rfl := hsame rfl
        dsimp only at h
        rw [if_pos rfl] at h
        obtain ⟨c0, hc0, h⟩ := bind_ok h
        obtain ⟨A', hA', hc0⟩ := bind_ok hc0
        have rA := cholesky_res n hA hA'
        rw [mkSymkron_eq (rA.rows.trans rA.cols.symm) rfl rfl ⟨none, none, none, none⟩] at hc0
        cases hc0
        have r : (Op.symkron hd true B B).rows = B.rows * B.rows := h4
        rw [r, den_symkron_same, ← h1]
        have key := cholRes_symkron rA
        have hb : (base (A'.rows * A'.rows) (A'.rows * A'.rows)).fl = ⟨none, none, none, none⟩ := by simp [base]
        have hfl : (build (.symkron ⟨A'.rows * A'.rows, A'.rows * A'.rows, ⟨none, none, none, none⟩⟩ true A' A')).fl =
            ⟨if A'.fl.sym = some true then some true else none, none, none, none⟩ := by
          rw [build, fl_withFl, derived, hb]
          simp only [and_self]
        rw [assign_own (by left; rw [hfl]; cases lower <;> rfl), hfl, build, withFl_withFl, rA.rows] at h
        cases h
        exact key
    | @block hd l hne hv _ h1 h2 _ =>
      dsimp only at h
      by_cases hsq : ∀ b ∈ l, b.rows = b.cols
      · rw [if_pos hsq] at h
        obtain ⟨c0, hc0, h⟩ := bind_ok h
        obtain ⟨l', hl', hc0⟩ := bind_ok hc0
        have rl : List.Forall₂ (fun a c : Op => a.rows = a.cols ∧ CholRes a.rows lower (den a) c) l l' :=
          (forall₂_mem (mapM_ok hl')).imp fun a c h => ⟨hsq a h.1, cholesky_res n (hv a h.1) h.2⟩
        have hne' : l' ≠ [] := by
          rintro rfl
          cases rl
          exact hne rfl
        have hm := forall₂_right rl
        rw [mkBlock_eq hne' (fun b hb => by obtain ⟨a, _, _, hb'⟩ := hm b hb; exact hb'.coh) ⟨none, none, none, none⟩] at hc0
        cases hc0
        have r : (Op.block hd l).rows = (l.map Op.rows).sum := h1
        rw [r, den]
        have mrows : (l'.map Op.rows).sum = (l.map Op.rows).sum :=
          (forall₂_sum (rl.imp fun a b h => (h.2.rows.symm : a.rows = b.rows))).symm
        have mcols : (l'.map Op.cols).sum = (l.map Op.rows).sum :=
          (forall₂_sum (rl.imp fun a b h => (h.2.cols.symm : a.rows = b.cols))).symm
        have key := cholRes_block ⟨(l.map Op.rows).sum, (l.map Op.rows).sum, ⟨none, none, none, none⟩⟩ hne' rl
        rw [mrows, mcols, assign_own, build, withFl_withFl, fl_withFl] at h
        · cases h
          exact key
        · right
          rw [build, fl_withFl, own_block, inferProp_true]
          intro b hb
          obtain ⟨a, _, _, hb'⟩ := hm b hb
          exact hb'.own
      · rw [if_neg hsq] at h
        exact gen h

/-- **Soundness.**  Whatever operator `cholesky(lower)` is called on, if it returns, it returns an operator for the
Cholesky factor that was asked for, marked as triangular, and the operator was positive definite. -/
theorem cholesky_factor {full : Prop} (n : ℕ) {op c : Op} {lower : Bool} (hV : Valid full op)
    (h : cholesky n op lower = .ok c) :
    FactorOp op.rows lower (den op) c ∧ (if lower then c.fl.low else c.fl.up) = some true ∧
      IsPd op.rows op.rows (den op) :=
  have := cholesky_res n hV h
  ⟨this.factorOp, this.own, this.factor.isPd⟩

/-! ## Completeness -/

mutual

/-- Operators for which the methods of the subclasses find a factor whenever there is one: the components are marked
symmetric, no Kronecker factor is negative definite, and nothing is a wrapped transpose. -/
def Ready : Op → Prop
  | .kron _ A B => A.fl.sym = some true ∧ B.fl.sym = some true ∧ ¬ IsPd A.rows A.rows (-den A) ∧ Ready A ∧ Ready B
  | .idkron _ _ B => B.fl.sym = some true ∧ Ready B
  | .symkron _ same A _ => same = true → A.fl.sym = some true ∧ ¬ IsPd A.rows A.rows (-den A) ∧ Ready A
  | .block _ l => ReadyL l
  | .transposed _ _ => False
  | _ => True

def ReadyL : List Op → Prop
  | [] => True
  | a :: l => a.fl.sym = some true ∧ Ready a ∧ ReadyL l

end

theorem ReadyL.mem : ∀ {l : List Op}, ReadyL l → ∀ a ∈ l, a.fl.sym = some true ∧ Ready a
  | b :: l, h, a, ha => by
    rw [ReadyL] at h
    rcases List.mem_cons.1 ha with rfl | ha
    · exact ⟨h.1, h.2.1⟩
    · exact h.2.2.mem a ha

/-- The call returns if `P` holds and raises LinAlgError otherwise. -/
def Decides (r : Res Op) (P : Prop) : Prop := (P → ∃ c, r = .ok c) ∧ (¬ P → r = .error .linAlgError)

theorem Decides.cases {r : Res Op} {P : Prop} (h : Decides r P) :
    (P ∧ ∃ c, r = .ok c) ∨ (¬ P ∧ r = .error .linAlgError) := by
  by_cases hP : P
  · exact .inl ⟨hP, h.1 hP⟩
  · exact .inr ⟨hP, h.2 hP⟩

theorem Decides.ok {c : Op} {P : Prop} (h : P) : Decides (.ok c) P := ⟨fun _ => ⟨c, rfl⟩, fun hn => absurd h hn⟩

theorem Decides.error {P : Prop} (h : ¬ P) : Decides (.error .linAlgError) P := ⟨fun hP => absurd hP h, fun _ => rfl⟩

theorem assign_own_ok {c : Op} {lower : Bool} (h : own lower c.fl = none ∨ own lower c.fl = some true) {P : Prop} (hP : P) :
    Decides (if lower then c.assign setLow (some true) else c.assign setUp (some true)) P := by
  rw [assign_own h]; exact Decides.ok hP

theorem dense_decides {n m : ℕ} {op : Op} (hV : Valid True op) (lower : Bool) (hs : op.fl.sym = some true)
    (hf : Fine m op) (hn : 4 * m + 6 ≤ n) :
    Decides ((do
        let D ← todense n op
        let L ← chol op.rows lower D
        (.ok (mkMatrix op.rows op.cols L) : Res Op)) >>= fun c : Op =>
      if lower then c.assign setLow (some true) else c.assign setUp (some true)) (IsPd op.rows op.rows (den op)) := by
  obtain ⟨hsq, hsym⟩ := sound_sym hV.node hs
  obtain ⟨D, e, hD, _⟩ := ((level True n).dense hV).returns ((swift True n).dense hV hf hn)
  rw [e, ok_bind]
  rw [← hsq] at hD ⊢
  by_cases hP : IsPd op.rows op.rows (den op)
  · have hex : ∃ L, IsChol op.rows lower D L := by
      obtain ⟨L, hL⟩ := exists_factor lower hP
      exact ⟨L, (isChol_iff hD hsym).2 hL⟩
    rw [Probnum.Linops.chol, dif_pos hex, ok_bind, ok_bind]
    exact assign_own_ok (by left; cases lower <;> simp [mkMatrix, base, own, Op.fl, Op.hdr]) hP
  · have hex : ¬ ∃ L, IsChol op.rows lower D L := by
      rintro ⟨L, hL⟩
      exact hP ((isChol_iff hD hsym).1 hL).isPd
    rw [Probnum.Linops.chol, dif_neg hex]
    exact Decides.error hP

theorem mapM_decides {f : Op → Res Op} {P : Op → Prop} : ∀ {l : List Op}, (∀ a ∈ l, Decides (f a) (P a)) →
    ((∀ a ∈ l, P a) → ∃ l', l.mapM f = .ok l') ∧ ((¬ ∀ a ∈ l, P a) → l.mapM f = .error .linAlgError)
  | [], _ => by
    rw [List.mapM_nil]
    exact ⟨fun _ => ⟨[], rfl⟩, fun h => absurd (by simp) h⟩
  | a :: l, h => by
    rw [List.mapM_cons]
    have ih := mapM_decides fun b hb => h b (List.mem_cons_of_mem _ hb)
    rcases (h a (by simp)).cases with ⟨ha, b, hb⟩ | ⟨ha, hb⟩
    · rw [hb]
      simp only [List.forall_mem_cons, ok_bind, ha, true_and]
      refine ⟨fun hl => ?_, fun hl => ?_⟩
      · obtain ⟨l', e⟩ := ih.1 hl
        exact ⟨b :: l', by rw [e]; rfl⟩
      · rw [ih.2 hl]; rfl
    · rw [hb]
      exact ⟨fun hl => absurd (hl a (by simp)) ha, fun _ => rfl⟩

theorem cholesky_decides_aux : ∀ (n : ℕ) {m : ℕ} {op : Op} (lower : Bool), Valid True op → op.fl.sym = some true →
    Ready op → Fine m op → 4 * m + 7 ≤ n → Decides (cholesky n op lower) (IsPd op.rows op.rows (den op))
  | 0, _, _, _, _, _, _, _, h => by omega
  | n + 1, m, op, lower, hV, hs, hR, hf, hn => by
    have hsq := hV.node.coh.square hs
    rw [cholesky, if_neg (by simpa using hs)]
    by_cases hp : op.fl.pd = some false
    · rw [if_pos hp]
      refine Decides.error ?_
      have := hV.node.sound.pd.2 trivial hp
      rwa [← hsq] at this
    rw [if_neg hp]
    have hN := hV.node
    have gen := dense_decides (n := n) hV lower hs hf (by omega)
    have hV0 := hV
    cases hV with
    | matrix _ => exact gen
    | lam _ => exact gen
    | zero _ => exact gen
    | symmetrize _ _ _ => exact gen
    | scaled _ _ _ _ _ _ => exact gen
    | sum _ _ _ _ => exact gen
    | prod _ _ _ _ _ => exact gen
    | inverse _ _ _ _ _ _ _ => exact gen
    | selection _ _ _ _ _ => exact gen
    | embedding _ _ _ _ _ => exact gen
    | transposed _ _ _ _ => rw [Ready] at hR; exact hR.elim
    | @identity hd h1 _ =>
      have hset := hN.settled
      rw [den]
      refine assign_own_ok (c := .identity hd) (.inr ?_) (isFactor_eye _ true).isPd
      cases lower
      · have := hset.up
        simp only [derived, reduceCtorEq, false_or] at this
        exact this.symm
      · have := hset.low
        simp only [derived, reduceCtorEq, false_or] at this
        exact this.symm
    | @scaling hd iso f h1 h2 _ =>
      dsimp only
      have r : (Op.scaling hd iso f).rows = hd.rows := rfl
      rw [den, r]
      by_cases hex : ∃ i < hd.rows, f i ≤ 0
      · rw [if_pos hex]
        refine Decides.error fun h => ?_
        obtain ⟨i, hi, h'⟩ := hex
        exact absurd (isPd_diag.1 h i hi) (not_lt.2 h')
      · rw [if_neg hex]
        push Not at hex
        have hP := isPd_diag.2 hex
        cases iso
        · refine assign_own_ok (c := mkScalingAniso hd.rows fun i => Real.sqrt (f i)) (.inr ?_) hP
          cases lower <;> simp [mkScalingAniso, own, Op.fl, Op.hdr]
        · refine assign_own_ok (c := mkScalingIso hd.rows (Real.sqrt (f 0))) (.inr ?_) hP
          cases lower <;> simp [mkScalingIso, own, Op.fl, Op.hdr]
    | @kron hd A B hA hB h1 h2 _ =>
      rw [Ready] at hR
      obtain ⟨sA, sB, hng, rA, rB⟩ := hR
      obtain ⟨hd1, hd2⟩ := hf
      rw [depth] at hd1
      rw [Calm] at hd2
      obtain ⟨k, rfl⟩ : ∃ k, m = k + 1 := ⟨m - 1, by omega⟩
      have dA := cholesky_decides_aux n lower hA sA rA (m := k) ⟨by omega, hd2.1⟩ (by omega)
      have dB := cholesky_decides_aux n lower hB sB rB (m := k) ⟨by omega, hd2.2⟩ (by omega)
      have sqB := hB.node.coh.square sB
      have r : (Op.kron hd A B).rows = A.rows * B.rows := h1
      rw [r, den, ← sqB, isPd_kron hA.node.rows hB.node.rows hng]
      dsimp only
      rw [if_neg (by simp [sA, sB])]
      rcases dA.cases with ⟨pA, A', eA⟩ | ⟨pA, eA⟩
      · rw [eA, ok_bind]
        rcases dB.cases with ⟨pB, B', eB⟩ | ⟨pB, eB⟩
        · rw [eB, ok_bind]
          have qA := cholesky_res n hA eA
          have qB := cholesky_res n hB eB
          rw [mkKron_eq qA.coh qB.coh ⟨none, none, none, none⟩, ok_bind]
          refine assign_own_ok (.inl ?_) ⟨pA, pB⟩
          rw [build, fl_withFl, derived]
          cases lower <;> simp [own, base]
        · rw [eB]
          exact Decides.error fun h => pB h.2
      · rw [eA]
        exact Decides.error fun h => pA h.1
    | @idkron hd k B hB h1 h2 _ =>
      rw [Ready] at hR
      obtain ⟨sB, rB⟩ := hR
      obtain ⟨hd1, hd2⟩ := hf
      rw [depth] at hd1
      rw [Calm] at hd2
      obtain ⟨k', rfl⟩ : ∃ k, m = k + 1 := ⟨m - 1, by omega⟩
      have dB := cholesky_decides_aux n lower hB sB rB (m := k') ⟨by omega, hd2⟩ (by omega)
      have sqB := hB.node.coh.square sB
      have r : (Op.idkron hd k B).rows = k * B.rows := h1
      have hk : 0 < k := by
        have : 0 < hd.rows := hN.rows
        rw [h1] at this
        exact Nat.pos_of_mul_pos_right this
      rw [r, den, ← sqB, isPd_idkron hk hB.node.rows]
      dsimp only
      rcases dB.cases with ⟨pB, B', eB⟩ | ⟨pB, eB⟩
      · rw [eB, ok_bind]
        have qB := cholesky_res n hB eB
        rw [mkIdkron_eq qB.coh ⟨none, none, none, none⟩, ok_bind]
        refine assign_own_ok (.inl ?_) pB
        rw [build, fl_withFl, derived]
        cases lower <;> simp [own, base]
      · rw [eB]
        exact Decides.error pB
    | @symkron hd same A B hA hB hsame h1 h2 h3 h4 h5 _ =>
      cases same with
      | false => exact gen
      | true =>
        obtain rfl := hsame rfl
        rw [Ready] at hR
        obtain ⟨sA, hng, rA⟩ := hR rfl
        obtain ⟨hd1, hd2⟩ := hf
        rw [depth] at hd1
        rw [Calm] at hd2
        obtain ⟨k, rfl⟩ : ∃ k, m = k + 1 := ⟨m - 1, by omega⟩
        have dA := cholesky_decides_aux n lower hA sA rA (m := k) ⟨by omega, hd2.1⟩ (by omega)
        have r : (Op.symkron hd true B B).rows = B.rows * B.rows := h4
        rw [r, den_symkron_same, ← h1, isPd_kron hA.node.rows hA.node.rows hng, and_self]
        dsimp only
        rw [if_pos rfl]
        rcases dA.cases with ⟨pA, A', eA⟩ | ⟨pA, eA⟩
        · rw [eA, ok_bind]
          have qA := cholesky_res n hA eA
          rw [mkSymkron_eq (qA.rows.trans qA.cols.symm) rfl rfl ⟨none, none, none, none⟩, ok_bind]
          refine assign_own_ok (.inl ?_) pA
          rw [build, fl_withFl, derived]
          cases lower <;> simp [own, base]
        · rw [eA]
          exact Decides.error pA
    | @block hd l hne hv hfull h1 h2 _ =>
      rw [Ready] at hR
      have hsq' := hfull trivial
      obtain ⟨hd1, hd2⟩ := hf
      rw [depth] at hd1
      rw [Calm] at hd2
      obtain ⟨k, rfl⟩ : ∃ k, m = k + 1 := ⟨m - 1, by omega⟩
      have hl := mapM_decides (f := fun b => cholesky n b lower) (P := fun b => IsPd b.rows b.cols (den b)) (l := l)
        fun b hb => by
          have h := cholesky_decides_aux n lower (hv b hb) (hR.mem b hb).1 (hR.mem b hb).2 (m := k)
            ⟨by have := depth_le_depthL hb; omega, hd2.mem b hb⟩ (by omega)
          rwa [← hsq' b hb]
      have r : (Op.block hd l).rows = dimB l := h1
      rw [r, den, isPd_block hsq']
      dsimp only
      rw [if_pos hsq']
      by_cases hP : ∀ b ∈ l, IsPd b.rows b.cols (den b)
      · obtain ⟨l', e⟩ := hl.1 hP
        rw [e, ok_bind]
        have rl : List.Forall₂ (fun a c : Op => CholRes a.rows lower (den a) c) l l' :=
          (forall₂_mem (mapM_ok e)).imp fun a c h => cholesky_res n (hv a h.1) h.2
        have hm := forall₂_right rl
        have hne' : l' ≠ [] := by
          rintro rfl
          cases rl
          exact hne rfl
        rw [mkBlock_eq hne' (fun b hb => by obtain ⟨a, _, hb'⟩ := hm b hb; exact hb'.coh) ⟨none, none, none, none⟩, ok_bind]
        refine assign_own_ok (.inr ?_) hP
        rw [build, fl_withFl, own_block, inferProp_true]
        intro b hb
        obtain ⟨a, _, hb'⟩ := hm b hb
        exact hb'.own
      · rw [hl.2 hP]
        exact Decides.error hP

/-- **Completeness.**  An operator marked symmetric (with sound flags and components marked symmetric) has its factor
computed if it is positive definite, and `LinAlgError` is raised if it is not. -/
theorem cholesky_decides {n m : ℕ} {op : Op} (lower : Bool) (hV : Valid True op) (hs : op.fl.sym = some true)
    (hR : Ready op) (hf : Fine m op) (hn : 4 * m + 7 ≤ n) :
    (IsPd op.rows op.rows (den op) → ∃ c, cholesky n op lower = .ok c ∧ FactorOp op.rows lower (den op) c) ∧
      (¬ IsPd op.rows op.rows (den op) → cholesky n op lower = .error .linAlgError) := by
  have := cholesky_decides_aux n lower hV hs hR hf hn
  refine ⟨fun h => ?_, this.2⟩
  obtain ⟨c, e⟩ := this.1 h
  exact ⟨c, e, (cholesky_factor n hV e).1⟩

/-- An operator that is not marked symmetric is refused, whatever its matrix. -/
theorem cholesky_unmarked (n : ℕ) {op : Op} (lower : Bool) (h : op.fl.sym ≠ some true) :
    cholesky (n + 1) op lower = .error .linAlgError := by
  rw [cholesky, if_pos h]

/-- The Cholesky factor is unique, so it does not matter how it was computed. -/
theorem factor_unique {n : ℕ} {lower : Bool} {M L K : Mat} (hL : IsFactor n lower M L) (hK : IsFactor n lower M K) :
    Eqv n n L K := by
  have low : ∀ {L K : Mat}, IsFactor n true M L → IsFactor n true M K → Eqv n n L K := by
    intro L K hL hK
    have key : ∀ j < n, ∀ i < n, L i j = K i j := by
      intro j
      induction j using Nat.strong_induction_on with
      | _ j ih =>
        intro hj
        have expand : ∀ {P : Mat}, IsFactor n true M P → ∀ i < n, M i j = ∑ k ∈ range j, P i k * P j k + P i j * P j j := by
          intro P hP i hi
          rw [← hP.gram i hi j hj]
          simp only [if_true, mmul, Linops.trn]
          rw [← Finset.sum_subset (s₁ := range (j + 1)) (fun k hk => by simp at hk ⊢; omega), Finset.sum_range_succ]
          intro k hk hk'
          have : P j k = 0 := hP.tri j hj k (by simpa using hk) (by simp at hk'; omega)
          rw [this, mul_zero]
        have head : ∀ i < n, ∑ k ∈ range j, L i k * L j k = ∑ k ∈ range j, K i k * K j k := fun i hi =>
          Finset.sum_congr rfl fun k hk => by
            have hk := Finset.mem_range.1 hk
            rw [ih k hk (by omega) i hi, ih k hk (by omega) j hj]
        have eq : ∀ i < n, L i j * L j j = K i j * K j j := fun i hi => by
          have h1 := expand hL i hi
          have h2 := expand hK i hi
          rw [head i hi] at h1
          linarith
        have diag : L j j = K j j := by
          have h1 := eq j hj
          have hl := hL.diag j hj
          have hk := hK.diag j hj
          nlinarith
        intro i hi
        have h1 := eq i hi
        rw [diag] at h1
        exact mul_right_cancel₀ (hK.diag j hj).ne' h1
    exact fun i hi j hj => key j hj i hi
  cases lower
  · have := low hL.trn hK.trn
    exact fun i hi j hj => this j hj i hi
  · exact low hL hK

end Probnum.Linops
