import Verif.Linops.ArithLemmas

/-! # Sums, differences and products of operators whose shapes do not match (lemmas) -/

namespace Probnum.Linops

/-- The call raised ValueError, or the recursion limit was exceeded. -/
def Fails {α : Type} (r : Res α) : Prop := r = .error .valueError ∨ r = .error .recursionError

theorem Fails.bind {α γ : Type} {r : Res α} {f : α → Res γ} (h : Fails r) : Fails (r >>= f) := by
  rcases h with rfl | rfl
  · exact .inl rfl
  · exact .inr rfl

theorem Meets.fails {α γ : Type} {r : Res α} {P : α → Prop} {f : α → Res γ} (h : Meets r P)
    (hf : ∀ a, P a → Fails (f a)) : Fails (r >>= f) := by
  cases r with
  | ok a => exact hf a h
  | error e => cases h; exact .inr rfl

/-- A `Matrix` in the tree, reached through Kronecker factors, has no axis of length one. -/
def WideMatrices : Op → Prop
  | .matrix h _ => h.rows ≠ 1 ∧ h.cols ≠ 1
  | .kron _ A B => WideMatrices A ∧ WideMatrices B
  | .idkron _ _ B => WideMatrices B
  | _ => True

/-- The operator, stripped of its scalar factors, is not a `Matrix` with an axis of length one, a `1 × 1` `Scaling`
or an `Embedding`. -/
def NotBroadcast : Op → Prop
  | .matrix h _ => h.rows ≠ 1 ∧ h.cols ≠ 1
  | .scaling h _ _ => h.rows ≠ 1
  | .scaled _ _ _ A => NotBroadcast A
  | .embedding _ _ _ _ => False
  | _ => True

/-- The shapes differ. -/
def Differ (a b : Op) : Prop := a.rows ≠ b.rows ∨ a.cols ≠ b.cols

theorem mkSum_fails {a b : Op} (h : Differ a b) : mkSum [a, b] = .error .valueError := by
  simp only [mkSum]
  rw [if_pos]
  intro hall
  have := hall b (by simp)
  rcases h with h | h
  · exact h this.1.symm
  · exact h this.2.symm

theorem mkProd_fails {a b : Op} (h : a.cols ≠ b.rows) : mkProd [a, b] = .error .valueError := by
  simp only [mkProd]
  rw [if_pos]
  intro hc
  exact h hc.1

theorem bdim_none {a b : ℕ} (h : a ≠ b) (ha : a ≠ 1) (hb : b ≠ 1) : bdim a b = none := by
  simp [bdim, h, ha, hb]

theorem broadcast_fails {f : ℝ → ℝ → ℝ} {r c s d : ℕ} {A B : Mat} (h : bdim r s = none ∨ bdim c d = none) :
    broadcast f r c A s d B = .error .valueError := by
  unfold broadcast
  rcases h with h | h
  · rw [h]
  · rw [h]
    split
    · next h => cases h
    · rfl

theorem fallback_fails {x : Res (Option Op)} {y : Res Op} (hy : Fails y)
    (hx : Fails x ∨ Meets x fun o => o = none) :
    Fails (x >>= fun o => match o with | some t => .ok t | none => y) := by
  rcases hx with hx | hx
  · exact hx.bind
  · exact Meets.fails hx fun o ho => by rw [ho]; exact hy

theorem matrices_fail {f : ℝ → ℝ → ℝ} {g h : Hdr} {A B : Mat} (hw : WideMatrices (.matrix g A))
    (hw' : WideMatrices (.matrix h B)) (hd : Differ (.matrix g A) (.matrix h B)) :
    Fails (broadcast f g.rows g.cols A h.rows h.cols B) := by
  refine .inl (broadcast_fails ?_)
  rcases hd with hd | hd
  · exact .inl (bdim_none hd hw.1 hw'.1)
  · exact .inr (bdim_none hd hw.2 hw'.2)

theorem kron_fails {full : Prop} {env : Env} {rec : Op → Op → Res Op} {g h : Hdr} {A B C D : Op}
    (hsane : Sane env (.kron g A B) (.kron h C D)) (ha : Valid full (.kron g A B)) (hb : Valid full (.kron h C D))
    (hwa : WideMatrices (.kron g A B)) (hwb : WideMatrices (.kron h C D)) (hd : Differ (.kron g A B) (.kron h C D))
    (hrec : ∀ x y, Sane env x y → Valid full x → Valid full y → WideMatrices x → WideMatrices y → Differ x y →
      Fails (rec x y)) :
    ∀ y : Res Op, Fails y → Fails ((do
      let p ← isOrEq env A C
      if p then do
        let S ← rec B D
        let r ← mkKron A S
        .ok (some r)
      else do
        let q ← isOrEq env B D
        if q then do
          let S ← rec A C
          let r ← mkKron S D
          .ok (some r)
        else .ok none : Res (Option Op)) >>= fun o => match o with | some t => .ok t | none => y) := by
  intro y hy
  cases ha with
  | kron hA hB a1 a2 _ =>
  cases hb with
  | kron hC hD b1 b2 _ =>
  have hd : g.rows ≠ h.rows ∨ g.cols ≠ h.cols := hd
  have sl := hsane.lam
  have sAC : env.lambdaClass = true → kind A ≠ .lam ∧ kind C ≠ .lam := fun e => ⟨(sl e).1.1, (sl e).2.1⟩
  have sBD : env.lambdaClass = true → kind B ≠ .lam ∧ kind D ≠ .lam := fun e => ⟨(sl e).1.2.1, (sl e).2.2.1⟩
  have mA := isOrEq_meets hsane.same sAC hA hC
  have mB := isOrEq_meets hsane.same sBD hB hD
  cases e1 : isOrEq env A C with
  | error e => rw [e1] at mA; cases mA; exact .inr rfl
  | ok p =>
    rw [e1] at mA
    rw [ok_bind]
    split
    · next hp =>
      obtain ⟨f1, f2, -⟩ := mA hp
      refine Fails.bind (Fails.bind (hrec B D ⟨hsane.same, fun e => ⟨(sl e).1.2.2.2, (sl e).2.2.2.2⟩⟩ hB hD hwa.2 hwb.2 ?_))
      rcases hd with hd | hd
      · exact .inl fun e => hd (by rw [a1, b1, f1, e])
      · exact .inr fun e => hd (by rw [a2, b2, f2, e])
    · cases e2 : isOrEq env B D with
      | error e => rw [e2] at mB; cases mB; exact .inr rfl
      | ok q =>
        rw [e2] at mB
        rw [ok_bind]
        split
        · next hq =>
          obtain ⟨f1, f2, -⟩ := mB hq
          refine Fails.bind (Fails.bind (hrec A C ⟨hsane.same, fun e => ⟨(sl e).1.2.2.1, (sl e).2.2.2.1⟩⟩ hA hC hwa.1 hwb.1 ?_))
          rcases hd with hd | hd
          · exact .inl fun e => hd (by rw [a1, b1, f1, e])
          · exact .inr fun e => hd (by rw [a2, b2, f2, e])
        · rw [ok_bind]
          exact hy

theorem idkron_fails {full : Prop} {env : Env} {rec : Op → Op → Res Op} {g h : Hdr} {k l : ℕ} {B D : Op}
    (hsane : Sane env (.idkron g k B) (.idkron h l D)) (ha : Valid full (.idkron g k B))
    (hb : Valid full (.idkron h l D)) (hwa : WideMatrices (.idkron g k B)) (hwb : WideMatrices (.idkron h l D))
    (hd : Differ (.idkron g k B) (.idkron h l D))
    (hrec : ∀ x y, Sane env x y → Valid full x → Valid full y → WideMatrices x → WideMatrices y → Differ x y →
      Fails (rec x y)) :
    ∀ y : Res Op, Fails y → Fails ((if k = l then do
        let S ← rec B D
        let r ← mkIdkron k S
        .ok (some r)
      else .ok none : Res (Option Op)) >>= fun o => match o with | some t => .ok t | none => y) := by
  intro y hy
  cases ha with
  | idkron hB a1 a2 _ =>
  cases hb with
  | idkron hD b1 b2 _ =>
  have hd' : g.rows ≠ h.rows ∨ g.cols ≠ h.cols := hd
  split
  · next hk =>
    subst hk
    refine Fails.bind (Fails.bind (hrec B D ⟨hsane.same, hsane.lam⟩ hB hD hwa hwb ?_))
    rcases hd' with hd | hd
    · exact .inl fun e => hd (by rw [a1, b1, e])
    · exact .inr fun e => hd (by rw [a2, b2, e])
  · rw [ok_bind]
    exact hy

theorem addOp_fails {full : Prop} {env : Env} : ∀ (n : ℕ) {a b : Op}, Sane env a b → Valid full a → Valid full b →
    WideMatrices a → WideMatrices b → Differ a b → Fails (addOp env n a b)
  | 0, _, _, _, _, _, _, _, _ => .inr rfl
  | n + 1, a, b, hsane, ha, hb, hwa, hwb, hd => by
    have ih : ∀ x y, Sane env x y → Valid full x → Valid full y → WideMatrices x → WideMatrices y → Differ x y →
      Fails (addOp env n x y) := fun x y h1 h2 h3 h4 h5 h6 => addOp_fails n h1 h2 h3 h4 h5 h6
    have fb : Fails (mkSum [a, b]) := .inl (mkSum_fails hd)
    rw [addOp]
    split
    · exact fb
    · next r hl =>
      have hf := addReg_fits _ (lookup_mem hl)
      cases r <;> simp only [addFits, decide_eq_true_eq, Prod.mk.injEq] at hf
      · obtain ⟨g, i, f, rfl⟩ := kind_scaling hf.1
        obtain ⟨h, j, e, rfl⟩ := kind_scaling hf.2
        have hd : g.rows ≠ h.rows ∨ g.cols ≠ h.cols := hd
        simp only [runAdd]
        rw [if_pos (hd.imp Ne.symm Ne.symm)]
        exact .inl rfl
      · obtain ⟨g, A, B, rfl⟩ := kind_kron hf.1
        obtain ⟨h, C, D, rfl⟩ := kind_kron hf.2
        exact kron_fails hsane ha hb hwa hwb hd ih _ fb
      · obtain ⟨g, k, B, rfl⟩ := kind_idkron hf.1
        obtain ⟨h, l, D, rfl⟩ := kind_idkron hf.2
        exact idkron_fails hsane ha hb hwa hwb hd ih _ fb
      · obtain ⟨g, A, rfl⟩ := kind_matrix hf.1
        obtain ⟨h, B, rfl⟩ := kind_matrix hf.2
        exact ((matrices_fail hwa hwb hd).bind).bind
      · obtain ⟨g, rfl⟩ := kind_zero hf
        have hd' : (Op.zero g).rows ≠ b.rows ∨ (Op.zero g).cols ≠ b.cols := hd
        cases b <;> simp only [runAdd] <;> rw [if_pos hd'] <;> exact .inl rfl
      · obtain ⟨g, rfl⟩ := kind_zero hf
        have hd' : (Op.zero g).rows ≠ a.rows ∨ (Op.zero g).cols ≠ a.cols := hd.imp Ne.symm Ne.symm
        cases a <;> simp only [runAdd] <;> rw [if_pos hd'] <;> exact .inl rfl

theorem subOp_fails {full : Prop} {env : Env} : ∀ (n : ℕ) {a b : Op}, Sane env a b → Valid full a → Valid full b →
    WideMatrices a → WideMatrices b → Differ a b → Fails (subOp env n a b)
  | 0, _, _, _, _, _, _, _, _ => .inr rfl
  | n + 1, a, b, hsane, ha, hb, hwa, hwb, hd => by
    have ih : ∀ x y, Sane env x y → Valid full x → Valid full y → WideMatrices x → WideMatrices y → Differ x y →
      Fails (subOp env n x y) := fun x y h1 h2 h3 h4 h5 h6 => subOp_fails n h1 h2 h3 h4 h5 h6
    have fb : Fails (negOp n b >>= fun m => mkSum [a, m]) :=
      Meets.fails (negOp_meets n hb) fun m hm => .inl (mkSum_fails (by
        unfold Differ
        rw [hm.rows, hm.cols]
        exact hd))
    rw [subOp]
    split
    · exact fb
    · next r hl =>
      have hf := addReg_fits _ (lookup_mem hl)
      cases r <;> simp only [addFits, decide_eq_true_eq, Prod.mk.injEq] at hf
      · obtain ⟨g, i, f, rfl⟩ := kind_scaling hf.1
        obtain ⟨h, j, e, rfl⟩ := kind_scaling hf.2
        have hd : g.rows ≠ h.rows ∨ g.cols ≠ h.cols := hd
        simp only [runSub]
        rw [if_pos (hd.imp Ne.symm Ne.symm)]
        exact .inl rfl
      · obtain ⟨g, A, B, rfl⟩ := kind_kron hf.1
        obtain ⟨h, C, D, rfl⟩ := kind_kron hf.2
        exact kron_fails hsane ha hb hwa hwb hd ih _ fb
      · obtain ⟨g, k, B, rfl⟩ := kind_idkron hf.1
        obtain ⟨h, l, D, rfl⟩ := kind_idkron hf.2
        exact idkron_fails hsane ha hb hwa hwb hd ih _ fb
      · obtain ⟨g, A, rfl⟩ := kind_matrix hf.1
        obtain ⟨h, B, rfl⟩ := kind_matrix hf.2
        exact ((matrices_fail hwa hwb hd).bind).bind
      · obtain ⟨g, rfl⟩ := kind_zero hf
        have hd' : (Op.zero g).rows ≠ b.rows ∨ (Op.zero g).cols ≠ b.cols := hd
        cases b <;> simp only [runSub] <;> rw [if_pos hd'] <;> exact .inl rfl
      · obtain ⟨g, rfl⟩ := kind_zero hf
        have hd' : (Op.zero g).rows ≠ a.rows ∨ (Op.zero g).cols ≠ a.cols := hd.imp Ne.symm Ne.symm
        cases a <;> simp only [runSub] <;> rw [if_pos hd'] <;> exact .inl rfl

/-! ## Products -/

theorem matArr_fails {β : Type} (n : ℕ) {a : Op} {r k : ℕ} (x : β → Mat) (h : r ≠ a.cols) : Fails (matArr n a r k x) := by
  cases n with
  | zero => rw [matArr]; exact .inr rfl
  | succ n => rw [matArr.eq_def]; dsimp only; rw [if_pos h]; exact .inl rfl

theorem rmatArr_fails {β : Type} (n : ℕ) {b : Op} {c : ℕ} (x : β → ℕ → ℝ) (h : c ≠ b.rows) : Fails (rmatArr n b c x) := by
  unfold rmatArr
  rw [if_pos h]
  exact .inl rfl

theorem matmulOp_fails {env : Env} : ∀ (n : ℕ) {a b : Op}, Valid False a → Valid False b → NotBroadcast a →
    NotBroadcast b → a.cols ≠ b.rows → Fails (matmulOp env n a b)
  | 0, _, _, _, _, _, _, _ => .inr rfl
  | n + 1, a, b, ha, hb, hwa, hwb, hab => by
    have fb : Fails (mkProd [a, b]) := .inl (mkProd_fails hab)
    rw [matmulOp]
    split
    · exact fb
    · next r hl =>
      refine fallback_fails fb ?_
      have hf := matmulReg_fits _ (lookup_mem hl)
      clear fb hl
      cases r <;> simp only [matmulFits, decide_eq_true_eq, Prod.mk.injEq] at hf
      case scaling =>
        obtain ⟨g, i, f, rfl⟩ := kind_scaling hf.1
        obtain ⟨h, j, e, rfl⟩ := kind_scaling hf.2
        have s1 : g.rows = g.cols := by cases ha; assumption
        have hab : g.cols ≠ h.rows := hab
        simp only [runMatmul]
        rw [if_pos (.inl fun e => hab (by omega))]
        exact .inl (.inl rfl)
      case scaledLeft =>
        obtain ⟨g, neg, s, A, rfl⟩ := kind_scaled hf
        cases ha with
        | scaled hA h1 h2 _ _ _ =>
          have key := matmulOp_fails n hA hb hwa hwb (env := env) fun e => hab (Eq.trans h2 e)
          cases b <;> exact .inl key.bind
      case scaledRight =>
        obtain ⟨g, neg, s, B, rfl⟩ := kind_scaled hf
        cases hb with
        | scaled hB h1 h2 _ _ _ =>
          have key := matmulOp_fails n ha hB hwa hwb (env := env) fun e => hab (Eq.trans e h1.symm)
          cases a <;> exact .inl key.bind
      case kron => cases a <;> cases b <;> simp only [runMatmul] <;> rw [if_pos hab] <;> exact .inl (.inl rfl)
      case kronScaling =>
        obtain ⟨h, j, e, rfl⟩ := kind_scaling hf.2
        have hab : a.cols ≠ h.rows := hab
        cases a <;> simp only [runMatmul, runMatmul.mulIso] <;> rw [if_pos hab] <;> exact .inl (.inl rfl)
      case idkronScaling =>
        obtain ⟨h, j, e, rfl⟩ := kind_scaling hf.2
        have hab : a.cols ≠ h.rows := hab
        cases a <;> simp only [runMatmul, runMatmul.mulIso] <;> rw [if_pos hab] <;> exact .inl (.inl rfl)
      case scalingKron =>
        obtain ⟨h, j, e, rfl⟩ := kind_scaling hf.1
        have hab : h.cols ≠ b.rows := hab
        cases b <;> simp only [runMatmul, runMatmul.mulIso] <;> rw [if_pos hab] <;> exact .inl (.inl rfl)
      case scalingIdkron =>
        obtain ⟨h, j, e, rfl⟩ := kind_scaling hf.1
        have hab : h.cols ≠ b.rows := hab
        cases b <;> simp only [runMatmul, runMatmul.mulIso] <;> rw [if_pos hab] <;> exact .inl (.inl rfl)
      case idkron =>
        obtain ⟨g, k, B, rfl⟩ := kind_idkron hf.1
        obtain ⟨h, l, D, rfl⟩ := kind_idkron hf.2
        have hab : g.cols ≠ h.rows := hab
        simp only [runMatmul]
        rw [if_pos hab]
        exact .inl (.inl rfl)
      case matrix =>
        obtain ⟨g, A, rfl⟩ := kind_matrix hf.1
        obtain ⟨h, B, rfl⟩ := kind_matrix hf.2
        simp only [runMatmul]
        split
        · exact .inr (Meets.ok rfl)
        · have hab : g.cols ≠ h.rows := hab
          rw [if_pos hab]
          exact .inl (.inl rfl)
      case scalingMatrix =>
        obtain ⟨h, j, e, rfl⟩ := kind_scaling hf.1
        obtain ⟨g, A, rfl⟩ := kind_matrix hf.2
        have s1 : h.rows = h.cols := by cases ha; assumption
        have hab : h.cols ≠ g.rows := hab
        simp only [runMatmul]
        rw [broadcast_fails (.inl (bdim_none (by omega) hwa hwb.1))]
        exact .inl (.inl rfl)
      case matrixScaling =>
        obtain ⟨g, A, rfl⟩ := kind_matrix hf.1
        obtain ⟨h, j, e, rfl⟩ := kind_scaling hf.2
        have hab : g.cols ≠ h.rows := hab
        simp only [runMatmul]
        rw [broadcast_fails (.inr (bdim_none hab hwa.2 hwb))]
        exact .inl (.inl rfl)
      case opMatrix =>
        obtain ⟨g, A, rfl⟩ := kind_matrix hf
        have key := matArr_fails (β := Unit) n (a := a) (k := g.cols) (fun _ => A) (Ne.symm hab)
        cases a <;> exact .inl key.bind
      case matrixOp =>
        obtain ⟨g, A, rfl⟩ := kind_matrix hf
        have key := rmatArr_fails n (b := b) A hab
        cases b <;> exact .inl key.bind
      case matrixWrapped =>
        obtain ⟨g, A, rfl⟩ := kind_matrix hf
        have key := rmatArr_fails n (b := b) A hab
        cases b <;> simp only [runMatmul] <;> split <;> first | exact .inr (Meets.ok rfl) | exact .inl key.bind
      case wrappedMatrix =>
        obtain ⟨g, A, rfl⟩ := kind_matrix hf
        have key := matArr_fails (β := Unit) n (a := a) (k := g.cols) (fun _ => A) (Ne.symm hab)
        cases a <;> simp only [runMatmul] <;> split <;> first | exact .inr (Meets.ok rfl) | exact .inl key.bind
      case idLeft =>
        obtain ⟨g, rfl⟩ := kind_identity hf
        cases b <;> simp only [runMatmul] <;> rw [if_pos hab] <;> exact .inl (.inl rfl)
      case idRight =>
        obtain ⟨g, rfl⟩ := kind_identity hf
        cases a <;> simp only [runMatmul] <;> rw [if_pos hab] <;> exact .inl (.inl rfl)
      case selectionEmbedding =>
        obtain ⟨h, tk, put, fill, rfl⟩ := kind_embedding hf.2
        exact hwb.elim
      case zeroLeft =>
        obtain ⟨g, rfl⟩ := kind_zero hf
        cases b <;> simp only [runMatmul] <;> rw [if_pos hab] <;> exact .inl (.inl rfl)
      case zeroRight =>
        obtain ⟨g, rfl⟩ := kind_zero hf
        cases a <;> simp only [runMatmul] <;> rw [if_pos hab] <;> exact .inl (.inl rfl)

end Probnum.Linops
