import Verif.Linops.ApplyLemmas

/-! # Products with arrays, dense matrices and solves are right -/

namespace Probnum.Linops

open Finset

/-- Operators whose Cholesky factorisation is computed from the dense matrix (or does not terminate). -/
def DenseC : Op → Prop
  | .transposed _ _ => True
  | .inverse _ _ => True
  | op => InvBase op

theorem cholesky_transposed (h : Hdr) (A : Op) (lower : Bool) : ∀ n, cholesky n (.transposed h A) lower =
    .error .linAlgError ∨ cholesky n (.transposed h A) lower = .error .recursionError
  | 0 => .inr (by rw [cholesky])
  | n + 1 => by
    rw [cholesky]
    split
    · exact .inl rfl
    · split
      · exact .inl rfl
      · dsimp only
        rcases cholesky_transposed h A lower n with e | e <;> rw [e]
        · exact .inl rfl
        · exact .inr rfl

theorem assign_matrix (r : ℕ) (U : Mat) :
    (mkMatrix r r U).assign setUp (some true) = .ok (.matrix ⟨r, r, ⟨none, none, some true, none⟩⟩ U) := by
  simp [mkMatrix, base, Op.assign, Op.hdr, Op.withHdr, setUp, setProp, bind, Except.bind]

/-- What one level of fuel guarantees. -/
structure Level (full : Prop) (n : ℕ) : Prop where
  mat : ∀ {op : Op}, Valid full op → ∀ {β : Type} (k : ℕ) (x : β → Mat),
    Meets (matArr n op op.cols k x) (IsProd op.rows op.cols k (den op) x)
  dense : ∀ {op : Op}, Valid full op → Meets (todense n op) fun D => Eqv op.rows op.cols D (den op)
  solve : ∀ {op : Op}, Valid full op → Regular op → op.rows = op.cols → detM op.rows (den op) ≠ 0 →
    ∀ {β : Type} (k : ℕ) (x : β → Mat),
    Meets (solveArr n op op.rows k x) (IsProd op.rows op.rows k (invM op.rows (den op)) x)
  chol : ∀ {op : Op}, Valid full op → DenseC op →
    CholOk op.rows (den op) (cholesky n op false >>= fun U => todense n U)

theorem level_zero (full : Prop) : Level full 0 where
  mat _ _ _ _ := by rw [matArr]; exact Meets.fuel
  dense _ := by rw [todense]; exact Meets.fuel
  solve _ _ _ _ _ _ _ := by rw [solveArr]; exact Meets.fuel
  chol _ _ := by rw [cholesky]; exact .inr rfl

theorem sound_sym {full : Prop} {op : Op} (hN : Node full op) (h : op.fl.sym = some true) :
    op.rows = op.cols ∧ IsSym op.rows op.rows (den op) := by
  have := hN.sound.sym.1 h
  exact ⟨this.1, rfl, this.2⟩

theorem cholOk_dense {full : Prop} {n : ℕ} {op : Op} (hL : Level full n) (hV : Valid full op)
    (hs : op.fl.sym = some true) :
    CholOk op.rows (den op) (((todense n op >>= fun D => chol op.rows false D >>= fun L =>
      .ok (mkMatrix op.rows op.cols L)) >>= fun c : Op => c.assign setUp (some true)) >>= fun U => todense (n + 1) U) := by
  obtain ⟨hsq, hsym⟩ := sound_sym hV.node hs
  have hD := hL.dense hV
  cases hd : todense n op with
  | error e =>
    rw [hd] at hD
    exact .inr hD
  | ok D =>
    rw [hd] at hD
    have hD : Eqv op.rows op.cols D (den op) := hD
    rw [ok_bind]
    rw [← hsq] at hD
    by_cases hex : ∃ L, IsChol op.rows false D L
    · rw [Probnum.Linops.chol, dif_pos hex, ok_bind, ok_bind, ← hsq, assign_matrix, ok_bind, todense]
      have := chol_ok hD hsym hex.choose_spec
      exact ⟨⟨hsym, this.1⟩, this.2⟩
    · rw [Probnum.Linops.chol, dif_neg hex]
      exact .inl rfl

theorem level_chol {full : Prop} {n : ℕ} (hL : Level full n) {op : Op} (hV : Valid full op) (hC : DenseC op) :
    CholOk op.rows (den op) (cholesky (n + 1) op false >>= fun U => todense (n + 1) U) := by
  by_cases hs : op.fl.sym = some true
  swap
  · rw [cholesky, if_pos hs]; exact .inl rfl
  by_cases hp : op.fl.pd = some false
  · rw [cholesky, if_neg (by simpa using hs), if_pos hp]; exact .inl rfl
  have key := cholOk_dense hL hV hs
  rw [cholesky, if_neg (by simpa using hs), if_neg hp]
  cases op with
  | matrix _ _ => exact key
  | lam _ _ => exact key
  | zero _ => exact key
  | symmetrize _ _ => exact key
  | sum _ _ => exact key
  | selection _ _ => exact key
  | embedding _ _ _ _ => exact key
  | inverse _ _ => exact key
  | symkron _ same _ _ =>
    have hC : same = false := hC
    subst hC
    exact key
  | transposed h A =>
    dsimp only
    rcases cholesky_transposed h A false n with e | e <;> rw [e]
    · exact .inl rfl
    · exact .inr rfl
  | identity _ => exact hC.elim
  | scaling _ _ _ => exact hC.elim
  | kron _ _ _ => exact hC.elim
  | idkron _ _ _ => exact hC.elim
  | scaled _ _ _ _ => exact hC.elim
  | prod _ _ => exact hC.elim
  | block _ _ => exact hC.elim

theorem half_smul (M N : Mat) : (0.5 : ℝ) • (M + N) = (1 / 2 : ℝ) • (M + N) := by norm_num

theorem level_mat {full : Prop} {n : ℕ} (hL : Level full n) {op : Op} (hV : Valid full op) {β : Type} (k : ℕ)
    (x : β → Mat) : Meets (matArr (n + 1) op op.cols k x) (IsProd op.rows op.cols k (den op) x) := by
  have hN := hV.node
  rw [matArr.eq_def]
  dsimp only
  rw [if_neg (by simp)]
  cases hV with
  | matrix _ => exact Meets.ok fun b => by rw [den]; exact Eqv.refl _
  | lam _ => exact Meets.ok fun b => by rw [den]; exact Eqv.refl _
  | @identity h h1 _ =>
    refine Meets.ok fun b => ?_
    rw [den]
    have : (Op.identity h).rows = (Op.identity h).cols := h1
    rw [this]
    exact (eye_mmul _ _).symm
  | @scaling h iso f h1 _ _ =>
    refine Meets.ok fun b => ?_
    rw [den]
    have : (Op.scaling h iso f).rows = (Op.scaling h iso f).cols := h1
    rw [this]
    exact (diag_mmul _ _ _).symm
  | zero _ => exact Meets.ok fun b => by rw [den, zero_mmul]; exact Eqv.refl _
  | @kron h A B hA hB h1 h2 _ =>
    refine Meets.bind (hL.mat hB A.cols (swap (unvec B.cols x))) fun y hy =>
      Meets.bind (hL.mat hA B.rows (swap y)) fun z hz => Meets.ok ?_
    have r : (Op.kron h A B).rows = A.rows * B.rows := h1
    have c : (Op.kron h A B).cols = A.cols * B.cols := h2
    rw [r, c, den]
    exact isProd_kron k hy hz
  | @idkron h m B hB h1 h2 _ =>
    have hm : 0 < m := by
      rcases Nat.eq_zero_or_pos m with rfl | hm
      · have : 0 < h.rows := hN.rows
        omega
      · exact hm
    have hI : den (mkIdentity m) = eye := by rw [mkIdentity, den]
    refine Meets.bind (hL.mat hB m (swap (unvec B.cols x))) fun y hy =>
      Meets.bind (hL.mat (valid_identity (full := full) hm) B.rows (swap y)) fun z hz => Meets.ok ?_
    have r : (Op.idkron h m B).rows = m * B.rows := h1
    have c : (Op.idkron h m B).cols = m * B.cols := h2
    rw [r, c, den]
    rw [hI] at hz
    exact isProd_kron (cA := m) (rA := m) k hy hz
  | @symkron h same A B hA hB hsame h1 h2 h3 h4 h5 _ =>
    have r : (Op.symkron h same A B).rows = A.rows * A.rows := h4
    have c : (Op.symkron h same A B).cols = A.rows * A.rows := h5
    cases same with
    | true =>
      obtain rfl := hsame rfl
      simp only [if_true]
      refine Meets.bind (hL.mat hA B.cols (swap (unvec B.cols x))) fun y hy =>
        Meets.bind (hL.mat hA B.rows (swap y)) fun z hz => Meets.ok ?_
      rw [r, c, den_symkron_same]
      have := isProd_kron k hy hz
      rwa [← h1] at this ⊢
    | false =>
      simp only [Bool.false_eq_true, if_false]
      have mA := fun {γ : Type} (k : ℕ) (x : γ → Mat) => hL.mat hA k x
      have mB := fun {γ : Type} (k : ℕ) (x : γ → Mat) => hL.mat hB k x
      rw [← h1] at mA
      rw [h3, h2, ← h1] at mB
      refine Meets.bind (mB A.rows _) fun y1 hy1 => Meets.bind (mA A.rows _) fun z1 hz1 =>
        Meets.bind (mA A.rows _) fun y2 hy2 => Meets.bind (mB A.rows _) fun z2 hz2 => Meets.ok ?_
      rw [r, c, den, h3, h2, ← h1]
      have p1 := isProd_kron k hy1 hz1
      have p2 := isProd_kron k hy2 hz2
      intro b
      rw [smul_mmul, add_mmul]
      refine Eqv.trans ?_ (smul_congr _ (add_congr (p1 b) (p2 b)))
      rw [← half_smul]
      exact Eqv.refl _
  | @symmetrize h m h1 h2 _ =>
    have r : (Op.symmetrize h m).rows = m * m := h1
    have c : (Op.symmetrize h m).cols = m * m := h2
    rw [r, c, den]
    exact Meets.ok (isProd_symmetrize k x)
  | @scaled h neg s A hA h1 h2 _ _ _ =>
    have r : (Op.scaled h neg s A).rows = A.rows := h1
    have c : (Op.scaled h neg s A).cols = A.cols := h2
    rw [r, c, den]
    refine Meets.bind (hL.mat hA k x) fun y hy => Meets.ok fun b => ?_
    rw [smul_mmul]
    exact smul_congr s (hy b)
  | @sum h l hne hv hsh _ =>
    have r : (Op.sum h l).rows = h.rows := rfl
    have c : (Op.sum h l).cols = h.cols := rfl
    rw [r, c, den]
    refine Meets.bind (Meets.mapM (P := fun o y => IsProd h.rows h.cols k (den o) x y) fun a ha => ?_) fun ys hys =>
      reduceAdd_meets (R := fun y M => IsProd h.rows h.cols k M x y) ?_ hne hys
    · have := hL.mat (hv a ha) k x
      rwa [(hsh a ha).1, (hsh a ha).2] at this
    · intro y z M N hy hz b
      rw [add_mmul]
      exact add_congr (hy b) (hz b)
  | @prod h a l hv hch h1 h2 _ =>
    have r : (Op.prod h (a :: l)).rows = a.rows := h1
    have c : (Op.prod h (a :: l)).cols = lastCols a.cols l := h2
    rw [r, c, den]
    refine Meets.bind (prodApply_meets (k := k) (fun b hb y => hL.mat (hv b hb) k y) ?_) fun p hp => Meets.ok hp.2
    rintro b t e
    cases e
    exact ⟨hch, rfl⟩
  | @transposed h A hA h1 h2 _ =>
    have r : (Op.transposed h A).rows = A.cols := h1
    have c : (Op.transposed h A).cols = A.rows := h2
    have c' : h.cols = A.rows := h2
    have gen : ∀ A : Op, Valid full A → h.cols = A.rows → Meets (do
          let D ← todense n A
          (.ok fun b => mmul h.cols (trn D) (x b) : Res (β → Mat))) (IsProd A.cols A.rows k (trn (den A)) x) := by
      intro A hA hc
      refine Meets.bind (hL.dense hA) fun D hD => Meets.ok fun b => ?_
      rw [hc]
      exact mmul_congr (trn_congr hD) (Eqv.refl _)
    rw [r, c, den]
    cases A with
    | inverse g C =>
      cases hA with
      | @inverse _ _ hC g1 g2 g3 g4 g5 _ =>
        have r' : (Op.inverse g C).rows = C.rows := g2
        have c'' : (Op.inverse g C).cols = C.rows := g3
        rw [r', c'', den, g2]
        have hlu : Meets (do
            let D ← todense n C
            luSolve C.rows (trn D) x) (IsProd C.rows C.rows k (trn (invM C.rows (den C))) x) := by
          refine Meets.bind (hL.dense hC) fun D hD => ?_
          rw [← g1] at hD
          refine (luSolve_meets (k := k) (trn_congr hD) (by rwa [detM_trn]) x).mono fun y hy b => (hy b).trans ?_
          exact mmul_congr (trn_invM _ _).symm (Eqv.refl _)
        dsimp only
        split
        · refine cholSolve_meets (hL.chol hC ?_) g5 (fun hs => ?_) hlu
          · cases C <;> first | exact g4 | exact g4.elim
          · refine (trn_invM _ _).trans ?_
            rw [invM_congr hs.2]
            exact Eqv.refl _
        · exact hlu
    | matrix _ _ => exact gen _ hA c'
    | lam _ _ => exact gen _ hA c'
    | identity _ => exact gen _ hA c'
    | scaling _ _ _ => exact gen _ hA c'
    | zero _ => exact gen _ hA c'
    | kron _ _ _ => exact gen _ hA c'
    | idkron _ _ _ => exact gen _ hA c'
    | symkron _ _ _ _ => exact gen _ hA c'
    | symmetrize _ _ => exact gen _ hA c'
    | scaled _ _ _ _ => exact gen _ hA c'
    | sum _ _ => exact gen _ hA c'
    | prod _ _ => exact gen _ hA c'
    | transposed _ _ => exact gen _ hA c'
    | selection _ _ => exact gen _ hA c'
    | embedding _ _ _ _ => exact gen _ hA c'
    | block _ _ => exact gen _ hA c'
  | @inverse h A hA h1 h2 h3 h4 h5 _ =>
    have r : (Op.inverse h A).rows = A.rows := h2
    have c : (Op.inverse h A).cols = A.rows := h3
    rw [r, c, den, h2]
    exact hL.solve hA (.dense h4) h1 h5 k x
  | @selection h idx h1 h2 h3 h4 _ =>
    have r : (Op.selection h idx).rows = h.rows := rfl
    have c : (Op.selection h idx).cols = h.cols := rfl
    rw [r, c, den]
    dsimp only
    rw [if_neg (by push Not; exact h3)]
    exact Meets.ok (isProd_selection h1 h3 x)
  | @embedding h put h1 h2 h3 h4 _ =>
    have r : (Op.embedding h (List.range h.cols) put 0).rows = h.rows := rfl
    have c : (Op.embedding h (List.range h.cols) put 0).cols = h.cols := rfl
    rw [r, c, den]
    exact embedding_meets h1 h3 h4 x
  | @block h l hne hv _ h1 h2 _ =>
    have r : (Op.block h l).rows = (l.map Op.rows).sum := h1
    have c : (Op.block h l).cols = (l.map Op.cols).sum := h2
    rw [r, c, den, denBlock_eq]
    refine Meets.bind (Meets.mapM (P := fun p y => IsProd p.1.rows p.1.cols k (den p.1) p.2 y) fun p hp =>
      hL.mat (hv p.1 (List.of_mem_zip hp).1) k p.2) fun ys hys => Meets.ok ?_
    exact isProd_block Op.rows Op.cols den hys

theorem level_dense {full : Prop} {n : ℕ} (hL : Level full n) {op : Op} (hV : Valid full op) :
    Meets (todense (n + 1) op) fun D => Eqv op.rows op.cols D (den op) := by
  have hN := hV.node
  have viaMat : Meets (do
      let y ← matArr n op (β := Unit) op.cols op.cols fun _ => eye
      (.ok (y ()) : Res Mat)) fun D => Eqv op.rows op.cols D (den op) :=
    Meets.bind (hL.mat hV op.cols fun _ => eye) fun y hy => Meets.ok ((hy ()).trans (mmul_eye _ _))
  rw [todense.eq_def]
  dsimp only
  cases hV with
  | lam _ => exact viaMat
  | symmetrize _ _ _ => exact viaMat
  | inverse _ _ _ _ _ _ _ => exact viaMat
  | matrix _ => exact Meets.ok (by rw [den]; exact Eqv.refl _)
  | identity _ _ => exact Meets.ok (by rw [den]; exact Eqv.refl _)
  | scaling _ _ _ => exact Meets.ok (by rw [den]; exact Eqv.refl _)
  | zero _ => exact Meets.ok (by rw [den]; exact Eqv.refl _)
  | @kron h A B hA hB h1 h2 _ =>
    have r : (Op.kron h A B).rows = A.rows * B.rows := h1
    have c : (Op.kron h A B).cols = A.cols * B.cols := h2
    refine Meets.bind (hL.dense hA) fun a ha => Meets.bind (hL.dense hB) fun b hb => Meets.ok ?_
    rw [r, c, den]
    exact kronM_congr ha hb
  | @idkron h m B hB h1 h2 _ =>
    have hm : 0 < m := by
      rcases Nat.eq_zero_or_pos m with rfl | hm
      · have : 0 < h.rows := hN.rows
        omega
      · exact hm
    have r : (Op.idkron h m B).rows = m * B.rows := h1
    have c : (Op.idkron h m B).cols = m * B.cols := h2
    have hI : den (mkIdentity m) = eye := by rw [mkIdentity, den]
    refine Meets.bind (hL.dense (valid_identity (full := full) hm)) fun a ha =>
      Meets.bind (hL.dense hB) fun b hb => Meets.ok ?_
    rw [r, c, den]
    rw [hI] at ha
    exact kronM_congr (r₁ := m) (c₁ := m) ha hb
  | @symkron h same A B hA hB hsame h1 h2 h3 h4 h5 _ =>
    have r : (Op.symkron h same A B).rows = A.rows * A.rows := h4
    have c : (Op.symkron h same A B).cols = A.rows * A.rows := h5
    cases same with
    | true =>
      obtain rfl := hsame rfl
      simp only [if_true]
      refine Meets.bind (hL.dense hA) fun a ha => Meets.ok ?_
      rw [r, c, den_symkron_same]
      have := kronM_congr ha ha
      rwa [← h1] at this ⊢
    | false =>
      simp only [Bool.false_eq_true, if_false]
      refine Meets.bind (hL.dense hA) fun a ha => Meets.bind (hL.dense hB) fun b hb => Meets.ok ?_
      rw [r, c, den]
      rw [half_smul]
      have e1 := kronM_congr ha hb
      have e2 := kronM_congr hb ha
      rw [h3, h2, ← h1] at e1 e2 ⊢
      exact smul_congr _ (add_congr e1 e2)
  | @scaled h neg s A hA h1 h2 _ _ _ =>
    have r : (Op.scaled h neg s A).rows = A.rows := h1
    have c : (Op.scaled h neg s A).cols = A.cols := h2
    rw [r, c, den]
    exact Meets.bind (hL.dense hA) fun a ha => Meets.ok (smul_congr s ha)
  | @sum h l hne hv hsh _ =>
    have r : (Op.sum h l).rows = h.rows := rfl
    have c : (Op.sum h l).cols = h.cols := rfl
    rw [r, c, den]
    refine Meets.bind (Meets.mapM (P := fun o y => Eqv h.rows h.cols y (den o)) fun a ha => ?_) fun ys hys =>
      reduceAdd_meets (R := fun y M => Eqv h.rows h.cols y M) (fun _ _ _ _ => add_congr) hne hys
    have := hL.dense (hv a ha)
    rwa [(hsh a ha).1, (hsh a ha).2] at this
  | @prod h a l hv hch h1 h2 _ =>
    have r : (Op.prod h (a :: l)).rows = a.rows := h1
    have c : (Op.prod h (a :: l)).cols = lastCols a.cols l := h2
    rw [r, c, den]
    exact Meets.bind (Meets.mapM fun b hb => hL.dense (hv b hb)) fun ms hms => reduceMatmul_meets hch hms
  | @transposed h A hA h1 h2 _ =>
    have r : (Op.transposed h A).rows = A.cols := h1
    have c : (Op.transposed h A).cols = A.rows := h2
    rw [r, c, den]
    exact Meets.bind (hL.dense hA) fun a ha => Meets.ok (trn_congr ha)
  | @selection h idx h1 h2 h3 h4 _ =>
    dsimp only
    rw [if_neg (by push Not; exact h3)]
    exact Meets.ok (by rw [den]; exact Eqv.refl _)
  | @embedding h put h1 h2 h3 h4 hN' =>
    refine Meets.bind (T_meets n (Valid.embedding h1 h2 h3 h4 hN')) fun t ht =>
      Meets.bind (hL.dense ht.valid) fun d hd => Meets.ok ?_
    have := trn_congr (hd.trans (by rw [ht.rows, ht.cols]; exact ht.den))
    rw [ht.rows, ht.cols, trn_trn] at this
    exact this
  | @block h l hne hv _ h1 h2 _ =>
    have r : (Op.block h l).rows = (l.map Op.rows).sum := h1
    have c : (Op.block h l).cols = (l.map Op.cols).sum := h2
    rw [r, c, den]
    exact Meets.bind (Meets.mapM fun b hb => hL.dense (hv b hb)) fun ms hms => Meets.ok (blockM_congr hms)

theorem triangle_low {n : ℕ} {M : Mat} (h : IsLow n n M) {D : Mat} (hD : Eqv n n D M) : Eqv n n (triangle true D) M := by
  intro i hi j hj
  simp only [triangle, if_true]
  split
  · exact hD i hi j hj
  · exact (h i hi j hj (by omega)).symm

theorem triangle_up {n : ℕ} {M : Mat} (h : IsUp n n M) {D : Mat} (hD : Eqv n n D M) : Eqv n n (triangle false D) M := by
  intro i hi j hj
  simp only [triangle, Bool.false_eq_true, if_false]
  split
  · exact hD i hi j hj
  · exact (h i hi j hj (by omega)).symm

theorem inverses_post {full : Prop} {l : List Op} (hv : ∀ a ∈ l, Valid full a) :
    List.Forall₂ (InvPost full) l (l.map fun a => mkMatrix a.rows a.rows (invM a.rows (den a))) := by
  induction l with
  | nil => exact .nil
  | cons a l ih =>
    have hav := hv a (by simp)
    refine .cons ⟨valid_matrix hav.node.rows hav.node.rows _, rfl, rfl, ?_⟩
      (ih fun b hb => hv b (List.mem_cons_of_mem _ hb))
    simp only [mkMatrix, den]
    exact Eqv.refl _

theorem level_solve {full : Prop} {n : ℕ} (hL : Level full n) {op : Op} (hV : Valid full op) (hR : Regular op)
    (hsq : op.rows = op.cols) (hd : detM op.rows (den op) ≠ 0) {β : Type} (k : ℕ) (x : β → Mat) :
    Meets (solveArr (n + 1) op op.rows k x) (IsProd op.rows op.rows k (invM op.rows (den op)) x) := by
  have hN := hV.node
  rw [solveArr, if_neg (by simpa using hsq), if_neg (by simp)]
  have viaInv : Meets (do
      let i ← inv n op
      matArr n i op.rows k x) (IsProd op.rows op.rows k (invM op.rows (den op)) x) := by
    refine Meets.bind (inv_meets n hV hR hsq hd) fun t ht => ?_
    have := hL.mat ht.valid k x
    rw [ht.rows, ht.cols] at this
    exact this.mono fun y hy b => (hy b).trans (mmul_congr ht.den (Eqv.refl _))
  have lu : Meets (do
      let D ← todense n op
      luSolve op.rows D x) (IsProd op.rows op.rows k (invM op.rows (den op)) x) := by
    refine Meets.bind (hL.dense hV) fun D hD => ?_
    rw [← hsq] at hD
    exact luSolve_meets hD hd x
  have dense : DenseC op → Meets (if op.fl.low = some true ∨ op.fl.up = some true then do
          let D ← todense n op
          luSolve op.rows (triangle (op.fl.low = some true) D) x
        else if op.fl.sym = some true ∧ op.fl.pd ≠ some false then
          match (cholesky n op false >>= fun U => todense n U) with
          | .ok U => luSolve op.rows (mmul op.rows (trn (triangle false U)) (triangle false U)) x
          | .error .linAlgError => do
            let D ← todense n op
            luSolve op.rows D x
          | .error e => .error e
        else do
          let D ← todense n op
          luSolve op.rows D x) (IsProd op.rows op.rows k (invM op.rows (den op)) x) := by
    intro hC
    split
    · rename_i htri
      refine Meets.bind (hL.dense hV) fun D hD => ?_
      rw [← hsq] at hD
      have sl := hN.sound.low.1
      have su := hN.sound.up.1
      rw [← hsq] at sl su
      by_cases hlow : op.fl.low = some true
      · rw [decide_eq_true hlow]
        exact luSolve_meets (triangle_low (sl hlow) hD) hd x
      · rw [decide_eq_false hlow]
        exact luSolve_meets (triangle_up (su (htri.resolve_left hlow)) hD) hd x
    · split
      · exact cholSolve_meets (hL.chol hV hC) hd (fun _ => Eqv.refl _) lu
      · exact lu
  cases hV with
  | matrix _ => exact dense trivial
  | lam _ => exact dense trivial
  | zero _ => exact dense trivial
  | symmetrize _ _ _ => exact dense trivial
  | sum _ _ _ _ => exact dense trivial
  | selection _ _ _ _ _ => exact dense trivial
  | embedding _ _ _ _ _ => exact dense trivial
  | transposed _ _ _ _ => exact dense trivial
  | inverse _ _ _ _ _ _ _ => exact dense trivial
  | identity h1 hN' =>
    refine Meets.ok fun b => ?_
    rw [den]
    exact ((mmul_congr (invM_eye _) (Eqv.refl _)).trans (eye_mmul _ _)).symm
  | scaling _ _ _ => exact viaInv
  | scaled _ _ _ _ _ _ => exact viaInv
  | @kron h A B hA hB h1 h2 _ =>
    have hsq' : A.rows * B.rows = A.cols * B.cols := by rw [← h1, ← h2]; exact hsq
    have hd' : detM (A.rows * B.rows) (kronM B.rows B.cols (den A) (den B)) ≠ 0 := by
      have e : den (Op.kron h A B) = kronM B.rows B.cols (den A) (den B) := by rw [den]
      rw [← h1, ← e]; exact hd
    obtain ⟨e1, e2, _, _⟩ := kron_nonsing hA.node.rows hA.node.cols hB.node.rows hB.node.cols hsq' hd'
    dsimp only
    rw [if_pos ⟨e1, e2⟩]
    exact viaInv
  | @idkron h m B hB h1 h2 _ =>
    have hm : 0 < m := by
      rcases Nat.eq_zero_or_pos m with rfl | hm
      · have : 0 < h.rows := hN.rows
        omega
      · exact hm
    have e : m * B.rows = m * B.cols := by rw [← h1, ← h2]; exact hsq
    dsimp only
    rw [if_pos (Nat.eq_of_mul_eq_mul_left hm e)]
    exact viaInv
  | @symkron h same A B hA hB hsame h1 h2 h3 h4 h5 _ =>
    cases same with
    | true => exact viaInv
    | false => exact dense rfl
  | @prod h a l hv hch h1 h2 _ =>
    have hRl : ∀ b ∈ a :: l, Regular b ∧ b.rows = b.cols := by
      cases hR with
      | dense h => exact h.elim
      | prod b c => exact fun a ha => ⟨b a ha, c a ha⟩
    obtain ⟨hrows, hlast⟩ := prod_square hch fun b hb => (hRl b hb).2
    have hrc : ∀ b ∈ a :: l, b.rows = a.rows ∧ b.cols = a.rows := fun b hb =>
      ⟨hrows b hb, (hRl b hb).2.symm.trans (hrows b hb)⟩
    have hr : (Op.prod h (a :: l)).rows = a.rows := h1
    rw [hr, den] at hd
    rw [hr, den]
    have dets := prod_nonsing hrc hd
    refine prodSolve_meets (fun b hb y => ?_) fun b hb => (hrc b hb).2
    have := hL.solve (hv b hb) (hRl b hb).1 (hRl b hb).2 (by rw [(hrc b hb).1]; exact dets b hb) k y
    rwa [(hrc b hb).1] at this
  | @block h l hne hv hsqb h1 h2 _ =>
    have hsum : (l.map Op.rows).sum = (l.map Op.cols).sum := by rw [← h1, ← h2]; exact hsq
    have hr : (Op.block h l).rows = (l.map Op.rows).sum := h1
    rw [hr, den] at hd
    have hns := block_nonsing hsum hd
    have hRl : ∀ b ∈ l, Regular b := by
      cases hR with
      | dense h => exact h.elim
      | block b _ => exact b
    rw [hr, den]
    have hrows : l.map Op.cols = l.map Op.rows := List.map_congr_left fun b hb => (hns b hb).1.symm
    dsimp only
    rw [hrows]
    refine Meets.bind (Meets.mapM (P := fun p y => IsProd p.1.rows p.1.rows k (invM p.1.rows (den p.1)) p.2 y)
      fun p hp => ?_) fun ys hys => Meets.ok ?_
    · have hm := (List.of_mem_zip hp).1
      rw [← (hns p.1 hm).1]
      exact hL.solve (hv p.1 hm) (hRl p.1 hm) (hns p.1 hm).1 (hns p.1 hm).2 k p.2
    · have := isProd_block Op.rows Op.rows (fun a => invM a.rows (den a)) hys
      refine fun b => (this b).trans (mmul_congr (eqv_invM_of_left ?_) (Eqv.refl _))
      have e := block_inv (inverses_post hv) hns
      rw [denBlock_eq (l.map _), List.map_map] at e
      exact e

theorem level (full : Prop) : ∀ n, Level full n
  | 0 => level_zero full
  | n + 1 =>
    let hL := level full n
    ⟨fun hV _ k x => level_mat hL hV k x, level_dense hL, fun hV hR hs hd _ k x => level_solve hL hV hR hs hd k x,
      level_chol hL⟩

end Probnum.Linops
