import Verif.Linops.ArithLemmas
import Verif.Linops.Depth

/-! # The recursion depth of products with arrays, dense conversion and operator products (lemmas) -/

namespace Probnum.Linops

theorem reduceAdd_quick {α : Type} [Add α] (l : List α) : Quick (reduceAdd l) fun _ => True := by
  cases l
  · simp [reduceAdd, Quick]
  · exact trivial

theorem reduceMatmul_quick (l : List (ℕ × Mat)) : Quick (reduceMatmul l) fun _ => True := by
  cases l
  · simp [reduceMatmul, Quick]
  · exact trivial

theorem luSolve_quick {β : Type} (n : ℕ) (D : Mat) (B : β → Mat) : Quick (luSolve n D B) fun _ => True := by
  unfold luSolve
  split
  · simp [Quick]
  · exact trivial

theorem chol_quick (n : ℕ) (lower : Bool) (D : Mat) : Quick (chol n lower D) fun _ => True := by
  unfold chol
  split
  · exact trivial
  · simp [Quick]

theorem embeddingMatmul_quick {β : Type} (take put : List ℕ) (fill : ℝ) (r rx : ℕ) (x : β → Mat) :
    Quick (embeddingMatmul take put fill r rx x) fun _ => True := by
  unfold embeddingMatmul
  split
  · simp [Quick]
  · split
    · simp [Quick]
    · split
      · simp [Quick]
      · exact trivial

theorem mapM_quick {α γ : Type} {f : α → Res γ} {l : List α} (hf : ∀ a ∈ l, Quick (f a) fun _ => True) :
    Quick (l.mapM f) fun _ => True := (Quick.mapM (P := fun _ _ => True) hf).mono fun _ _ => trivial

theorem prodApply_quick {β : Type} {f : Op → ℕ → (β → Mat) → Res (β → Mat)} :
    ∀ {l : List Op}, (∀ a ∈ l, ∀ r x, Quick (f a r x) fun _ => True) → ∀ (r : ℕ) (x : β → Mat),
    Quick (prodApply f l r x) fun _ => True
  | [], _, _, _ => trivial
  | a :: l, h, r, x => by
    rw [prodApply]
    exact Quick.bind (prodApply_quick (fun b hb => h b (List.mem_cons_of_mem _ hb)) r x) fun p _ =>
      Quick.bind (h a (by simp) _ _) fun z _ => trivial

theorem cholMatch_quick {α : Type _} {U : Res Mat} {f : Mat → Res α} {g : Res α} (hU : Quick U fun _ => True)
    (hf : ∀ M, Quick (f M) fun _ => True) (hg : Quick g fun _ => True) :
    Quick (match U with | .ok M => f M | .error .linAlgError => g | .error e => .error e) fun _ => True := by
  split
  · exact hf _
  · exact hg
  · exact hU

/-- Within the depth bounds no call exceeds the recursion limit. -/
structure Swift (full : Prop) (n : ℕ) : Prop where
  mat : ∀ {m : ℕ} {op : Op}, Valid full op → Fine m op → 4 * m + 5 ≤ n → ∀ {β : Type} (rx k : ℕ) (x : β → Mat),
    Quick (matArr n op rx k x) fun _ => True
  dense : ∀ {m : ℕ} {op : Op}, Valid full op → Fine m op → 4 * m + 6 ≤ n → Quick (todense n op) fun _ => True
  chol : ∀ {m : ℕ} {op : Op}, Valid full op → InvBase op → Fine m op → 4 * m + 7 ≤ n →
    Quick (cholesky n op false) fun U => ∃ h A, U = .matrix h A
  solve : ∀ {m : ℕ} {op : Op}, Valid full op → InvBase op → Fine m op → 4 * m + 8 ≤ n →
    ∀ {β : Type} (rb k : ℕ) (B : β → Mat), Quick (solveArr n op rb k B) fun _ => True

theorem todense_matrix_quick {n : ℕ} (hn : 0 < n) {h : Hdr} {A : Mat} : Quick (todense n (.matrix h A)) fun _ => True := by
  obtain ⟨k, rfl⟩ : ∃ k, n = k + 1 := ⟨n - 1, by omega⟩
  rw [todense]
  exact trivial

theorem matArr_identity_quick {n : ℕ} (hn : 0 < n) (i : ℕ) {β : Type} (r k : ℕ) (x : β → Mat) :
    Quick (matArr n (mkIdentity i) r k x) fun _ => True := by
  obtain ⟨k, rfl⟩ : ∃ k, n = k + 1 := ⟨n - 1, by omega⟩
  rw [matArr.eq_def]
  dsimp only
  split
  · simp [Quick]
  · exact trivial

theorem assign_quick {f : Hdr → Option Bool → Res Hdr} (hf : ∀ h v, Quick (f h v) fun _ => True) (v : Option Bool)
    (h : Hdr) (A : Mat) : Quick ((Op.matrix h A).assign f v) fun U => ∃ h A, U = .matrix h A :=
  Quick.bind (hf _ _) fun g _ => Quick.ok ⟨g, A, rfl⟩

theorem swift_mat {full : Prop} {n : ℕ} (hL : Swift full n) {m : ℕ} {op : Op} (hV : Valid full op) (hf : Fine m op)
    (hn : 4 * m + 5 ≤ n + 1) {β : Type} (rx k : ℕ) (x : β → Mat) :
    Quick (matArr (n + 1) op rx k x) fun _ => True := by
  obtain ⟨h1, h2⟩ := hf
  rw [matArr.eq_def]
  dsimp only
  split
  · simp [Quick]
  · cases hV with
    | matrix _ => exact trivial
    | lam _ => exact trivial
    | identity _ _ => exact trivial
    | scaling _ _ _ => exact trivial
    | zero _ => exact trivial
    | symmetrize _ _ _ => exact trivial
    | kron hA hB _ _ _ =>
      rw [depth] at h1
      rw [Calm] at h2
      obtain ⟨m, rfl⟩ : ∃ k, m = k + 1 := ⟨m - 1, by omega⟩
      exact Quick.bind (hL.mat hB (m := m) ⟨by omega, h2.2⟩ (by omega) _ _ _) fun y _ =>
        Quick.bind (hL.mat hA (m := m) ⟨by omega, h2.1⟩ (by omega) _ _ _) fun z _ => trivial
    | idkron hB _ _ _ =>
      rw [depth] at h1
      rw [Calm] at h2
      obtain ⟨m, rfl⟩ : ∃ k, m = k + 1 := ⟨m - 1, by omega⟩
      exact Quick.bind (hL.mat hB (m := m) ⟨by omega, h2⟩ (by omega) _ _ _) fun y _ =>
        Quick.bind (matArr_identity_quick (by omega) _ _ _ _) fun z _ => trivial
    | @symkron _ same A B hA hB _ _ _ _ _ _ _ =>
      rw [depth] at h1
      rw [Calm] at h2
      obtain ⟨m, rfl⟩ : ∃ k, m = k + 1 := ⟨m - 1, by omega⟩
      have qA := fun {β : Type} (r k : ℕ) (x : β → Mat) => hL.mat hA (m := m) ⟨by omega, h2.1⟩ (by omega) r k x
      have qB := fun {β : Type} (r k : ℕ) (x : β → Mat) => hL.mat hB (m := m) ⟨by omega, h2.2⟩ (by omega) r k x
      dsimp only
      split
      · exact Quick.bind (qA _ _ _) fun y _ => Quick.bind (qA _ _ _) fun z _ => trivial
      · exact Quick.bind (qB _ _ _) fun y _ => Quick.bind (qA _ _ _) fun z _ => Quick.bind (qA _ _ _) fun y _ =>
          Quick.bind (qB _ _ _) fun z _ => trivial
    | scaled hA _ _ _ _ _ =>
      rw [depth] at h1
      rw [Calm] at h2
      obtain ⟨m, rfl⟩ : ∃ k, m = k + 1 := ⟨m - 1, by omega⟩
      exact Quick.bind (hL.mat hA (m := m) ⟨by omega, h2⟩ (by omega) _ _ _) fun y _ => trivial
    | sum _ hl _ _ =>
      rw [depth] at h1
      rw [Calm] at h2
      obtain ⟨m, rfl⟩ : ∃ k, m = k + 1 := ⟨m - 1, by omega⟩
      exact Quick.bind (mapM_quick fun a ha => hL.mat (hl a ha) (Fine.list h1 h2 a ha) (by omega) _ _ _) fun ys _ =>
        reduceAdd_quick ys
    | prod hl _ _ _ _ =>
      rw [depth] at h1
      rw [Calm] at h2
      obtain ⟨m, rfl⟩ : ∃ k, m = k + 1 := ⟨m - 1, by omega⟩
      exact Quick.bind (prodApply_quick (fun a ha r x => hL.mat (hl a ha) (Fine.list h1 h2 a ha) (by omega) _ _ _) _ _)
        fun ys _ => trivial
    | @transposed g A hA _ _ _ =>
      rw [depth] at h1
      rw [Calm] at h2
      obtain ⟨m, rfl⟩ : ∃ k, m = k + 1 := ⟨m - 1, by omega⟩
      have hA' : Fine m A := ⟨by omega, h2⟩
      have gen : Quick (do
          let D ← todense n A
          (.ok fun b => mmul g.cols (trn D) (x b) : Res (β → Mat))) fun _ => True :=
        Quick.bind (hL.dense hA hA' (by omega)) fun D _ => trivial
      cases hA with
      | @inverse g' C hC h1' _ _ hi _ _ =>
        obtain ⟨h1, h2⟩ := hA'
        rw [depth] at h1
        rw [Calm] at h2
        obtain ⟨m, rfl⟩ : ∃ k, m = k + 1 := ⟨m - 1, by omega⟩
        have hC' : Fine m C := ⟨by omega, h2⟩
        have lu : Quick (do
          let D ← todense n C
          luSolve C.rows (trn D) x) fun _ => True :=
          Quick.bind (hL.dense hC hC' (by omega)) fun D _ => luSolve_quick _ _ _
        dsimp only
        split
        · refine cholMatch_quick ?_ (fun M => luSolve_quick _ _ _) lu
          exact Quick.bind (hL.chol hC hi hC' (by omega)) fun U ⟨h, A, e⟩ => by
            rw [e]
            exact todense_matrix_quick (by omega)
        · exact lu
      | _ => exact gen
    | inverse hA _ _ _ hi _ _ =>
      rw [depth] at h1
      rw [Calm] at h2
      obtain ⟨m, rfl⟩ : ∃ k, m = k + 1 := ⟨m - 1, by omega⟩
      exact hL.solve hA hi (m := m) ⟨by omega, h2⟩ (by omega) _ _ _
    | selection _ _ _ _ _ =>
      dsimp only
      split
      · simp [Quick]
      · exact trivial
    | embedding _ _ _ _ _ => exact embeddingMatmul_quick _ _ _ _ _ _
    | @block g l _ hl _ _ _ _ =>
      rw [depth] at h1
      rw [Calm] at h2
      obtain ⟨m, rfl⟩ : ∃ k, m = k + 1 := ⟨m - 1, by omega⟩
      refine Quick.bind (mapM_quick fun p hp => ?_) fun ys _ => trivial
      have ha : p.1 ∈ l := (List.of_mem_zip (show (p.1, p.2) ∈ _ from hp)).1
      exact hL.mat (hl _ ha) (Fine.list h1 h2 _ ha) (by omega) _ _ _

theorem swift_dense {full : Prop} {n : ℕ} (hL : Swift full n) {m : ℕ} {op : Op} (hV : Valid full op) (hf : Fine m op)
    (hn : 4 * m + 6 ≤ n + 1) : Quick (todense (n + 1) op) fun _ => True := by
  have viaMat : Quick (do
      let y ← matArr n op (β := Unit) op.cols op.cols fun _ => eye
      (.ok (y ()) : Res Mat)) fun _ => True :=
    Quick.bind (hL.mat hV hf (by omega) _ _ _) fun y _ => trivial
  have hV' := hV
  have hf' := hf
  obtain ⟨h1, h2⟩ := hf
  rw [todense.eq_def]
  dsimp only
  cases hV with
  | matrix _ => exact trivial
  | lam _ => exact viaMat
  | identity _ _ => exact trivial
  | scaling _ _ _ => exact trivial
  | zero _ => exact trivial
  | symmetrize _ _ _ => exact viaMat
  | inverse _ _ _ _ _ _ _ => exact viaMat
  | kron hA hB _ _ _ =>
    rw [depth] at h1
    rw [Calm] at h2
    obtain ⟨m, rfl⟩ : ∃ k, m = k + 1 := ⟨m - 1, by omega⟩
    exact Quick.bind (hL.dense hA (m := m) ⟨by omega, h2.1⟩ (by omega)) fun y _ =>
      Quick.bind (hL.dense hB (m := m) ⟨by omega, h2.2⟩ (by omega)) fun z _ => trivial
  | @idkron _ j B hB _ _ hN =>
    rw [depth] at h1
    rw [Calm] at h2
    obtain ⟨m, rfl⟩ : ∃ k, m = k + 1 := ⟨m - 1, by omega⟩
    refine Quick.bind (P := fun _ => True) ?_ fun y _ =>
      Quick.bind (hL.dense hB (m := m) ⟨by omega, h2⟩ (by omega)) fun z _ => trivial
    obtain ⟨n, rfl⟩ : ∃ k, n = k + 1 := ⟨n - 1, by omega⟩
    rw [mkIdentity, todense]
    exact trivial
  | @symkron _ same A B hA hB _ _ _ _ _ _ _ =>
    rw [depth] at h1
    rw [Calm] at h2
    obtain ⟨m, rfl⟩ : ∃ k, m = k + 1 := ⟨m - 1, by omega⟩
    have qA := hL.dense hA (m := m) ⟨by omega, h2.1⟩ (by omega)
    have qB := hL.dense hB (m := m) ⟨by omega, h2.2⟩ (by omega)
    dsimp only
    split
    · exact Quick.bind qA fun y _ => trivial
    · exact Quick.bind qA fun y _ => Quick.bind qB fun z _ => trivial
  | scaled hA _ _ _ _ _ =>
    rw [depth] at h1
    rw [Calm] at h2
    obtain ⟨m, rfl⟩ : ∃ k, m = k + 1 := ⟨m - 1, by omega⟩
    exact Quick.bind (hL.dense hA (m := m) ⟨by omega, h2⟩ (by omega)) fun y _ => trivial
  | sum _ hl _ _ =>
    rw [depth] at h1
    rw [Calm] at h2
    obtain ⟨m, rfl⟩ : ∃ k, m = k + 1 := ⟨m - 1, by omega⟩
    exact Quick.bind (mapM_quick fun a ha => hL.dense (hl a ha) (Fine.list h1 h2 a ha) (by omega)) fun ys _ =>
      reduceAdd_quick ys
  | prod hl _ _ _ _ =>
    rw [depth] at h1
    rw [Calm] at h2
    obtain ⟨m, rfl⟩ : ∃ k, m = k + 1 := ⟨m - 1, by omega⟩
    exact Quick.bind (mapM_quick fun a ha => hL.dense (hl a ha) (Fine.list h1 h2 a ha) (by omega)) fun ys _ =>
      reduceMatmul_quick _
  | transposed hA _ _ _ =>
    rw [depth] at h1
    rw [Calm] at h2
    obtain ⟨m, rfl⟩ : ∃ k, m = k + 1 := ⟨m - 1, by omega⟩
    exact Quick.bind (hL.dense hA (m := m) ⟨by omega, h2⟩ (by omega)) fun y _ => trivial
  | selection _ _ _ _ _ =>
    dsimp only
    split
    · simp [Quick]
    · exact trivial
  | @embedding g put _ _ _ _ _ =>
    rw [Calm] at h2
    dsimp only
    have key : Quick (T n (.embedding g (List.range g.cols) put 0)) fun t => ∃ h i, t = .selection h i := by
      obtain ⟨n, rfl⟩ : ∃ k, n = k + 1 := ⟨n - 1, by omega⟩
      have h2' : (Op.embedding g (List.range g.cols) put 0).fl.sym ≠ some true := h2
      rw [T, if_neg h2', transposeOf]
      refine Quick.bind (P := fun t => ∃ h i, t = .selection h i) ?_ fun t ⟨h, i, e⟩ =>
        (copyFlags_quick _ _).mono fun t' ⟨h', e', _⟩ => ⟨h', i, by rw [e', e]; rfl⟩
      unfold mkSelection
      split
      · simp [Quick]
      · split
        · simp [Quick]
        · exact Quick.ok ⟨_, _, rfl⟩
    refine Quick.bind key fun t ⟨h, i, e⟩ => Quick.bind (P := fun _ => True) ?_ fun d _ => trivial
    obtain ⟨n, rfl⟩ : ∃ k, n = k + 1 := ⟨n - 1, by omega⟩
    rw [e, todense]
    split
    · simp [Quick]
    · exact trivial
  | block _ hl _ _ _ _ =>
    rw [depth] at h1
    rw [Calm] at h2
    obtain ⟨m, rfl⟩ : ∃ k, m = k + 1 := ⟨m - 1, by omega⟩
    exact Quick.bind (mapM_quick fun a ha => hL.dense (hl a ha) (Fine.list h1 h2 a ha) (by omega)) fun ys _ => trivial

theorem swift_chol {full : Prop} {n : ℕ} (hL : Swift full n) {m : ℕ} {op : Op} (hV : Valid full op) (hi : InvBase op)
    (hf : Fine m op) (hn : 4 * m + 7 ≤ n + 1) : Quick (cholesky (n + 1) op false) fun U => ∃ h A, U = .matrix h A := by
  have key : Quick (do
        let D ← todense n op
        let L ← chol op.rows false D
        (.ok (mkMatrix op.rows op.cols L) : Res Op)) fun U => ∃ h A, U = .matrix h A :=
    Quick.bind (hL.dense hV hf (by omega)) fun D _ => Quick.bind (chol_quick _ _ _) fun L _ => Quick.ok ⟨_, _, rfl⟩
  rw [cholesky]
  split
  · simp [Quick]
  · split
    · simp [Quick]
    · have wrap : ∀ r : Res Op, Quick r (fun U => ∃ h A, U = .matrix h A) →
          Quick (r >>= fun c : Op => if false = true then c.assign setLow (some true) else c.assign setUp (some true))
            fun U => ∃ h A, U = .matrix h A := fun r hr => Quick.bind hr fun c ⟨h, A, e⟩ => by
        rw [e]
        exact assign_quick setUp_quick _ _ _
      refine wrap _ ?_
      cases op <;> first | exact key | exact hi.elim | skip
      next _ same _ _ _ _ =>
        have hs : same = false := hi
        subst hs
        exact key

theorem swift_solve {full : Prop} {n : ℕ} (hL : Swift full n) {m : ℕ} {op : Op} (hV : Valid full op) (hi : InvBase op)
    (hf : Fine m op) (hn : 4 * m + 8 ≤ n + 1) {β : Type} (rb k : ℕ) (B : β → Mat) :
    Quick (solveArr (n + 1) op rb k B) fun _ => True := by
  have lu : Quick (do
        let D ← todense n op
        luSolve op.rows D B) fun _ => True :=
    Quick.bind (hL.dense hV hf (by omega)) fun D _ => luSolve_quick _ _ _
  have key : Quick (
        if op.fl.low = some true ∨ op.fl.up = some true then do
          let D ← todense n op
          luSolve op.rows (triangle (op.fl.low = some true) D) B
        else if op.fl.sym = some true ∧ op.fl.pd ≠ some false then
          match (cholesky n op false >>= fun U => todense n U) with
          | .ok U => luSolve op.rows (mmul op.rows (trn (triangle false U)) (triangle false U)) B
          | .error .linAlgError => (do
            let D ← todense n op
            luSolve op.rows D B)
          | .error e => .error e
        else do
          let D ← todense n op
          luSolve op.rows D B) fun _ => True := by
    split
    · exact Quick.bind (hL.dense hV hf (by omega)) fun D _ => luSolve_quick _ _ _
    · split
      · refine cholMatch_quick ?_ (fun M => luSolve_quick _ _ _) lu
        exact Quick.bind (hL.chol hV hi hf (by omega)) fun U ⟨h, A, e⟩ => by
          rw [e]
          exact todense_matrix_quick (by omega)
      · exact lu
  rw [solveArr]
  split
  · simp [Quick]
  · split
    · simp [Quick]
    · cases op <;> first | exact key | exact hi.elim | skip
      next _ same _ _ _ _ =>
        have hs : same = false := hi
        subst hs
        exact key

theorem swift (full : Prop) : ∀ n, Swift full n
  | 0 => ⟨fun _ _ h => by omega, fun _ _ h => by omega, fun _ _ _ h => by omega, fun _ _ _ h => by omega⟩
  | n + 1 =>
    let hL := swift full n
    ⟨fun hV hf hn _ rx k x => swift_mat hL hV hf hn rx k x, swift_dense hL, swift_chol hL,
      fun hV hi hf hn _ rb k B => swift_solve hL hV hi hf hn rb k B⟩

theorem rmatArr_quick {full : Prop} {β : Type} (n : ℕ) {m : ℕ} {op : Op} (hV : Valid full op) (hf : Fine m op)
    (hn : 4 * m + 9 ≤ n) (c : ℕ) (x : β → ℕ → ℝ) : Quick (rmatArr n op c x) fun _ => True := by
  unfold rmatArr
  split
  · simp [Quick]
  · obtain ⟨t, e, ht, hq⟩ := (T_meets n hV).returns (T_quick n hf (by omega))
    rw [e, ok_bind]
    exact Quick.bind ((swift full n).mat ht.valid hq (by omega) _ _ _) fun y _ => trivial

/-! ## Operator products -/

theorem mulIso_quick {n : ℕ} {h : Hdr} {iso : Bool} {f : ℕ → ℝ} {op : Op} {c r m : ℕ} (hf : Fine m op) (hn : m < n) :
    Quick (runMatmul.mulIso n c r h iso f op) fun o => ∀ t, o = some t → Fine (m + 1) t := by
  unfold runMatmul.mulIso
  split
  · simp [Quick]
  · refine Quick.bind (isIsotropic_quick _ _ _) fun i _ => ?_
    split
    · exact option_quick (mulScalar_quick n _ hf hn)
    · exact none_quick

theorem fine_identity (m k : ℕ) : Fine m (mkIdentity k) := ⟨by simp [mkIdentity, depth], by simp [mkIdentity, Calm]⟩

theorem kronParts_quick {a A B : Op} {m : ℕ} (h : kronParts a = some (A, B)) (ha : Valid False a) (hf : Fine m a) :
    ∃ k, m = k + 1 ∧ Valid False A ∧ Valid False B ∧ Fine k A ∧ Fine k B := by
  cases ha <;> simp only [kronParts, Option.some.injEq, Prod.mk.injEq, reduceCtorEq] at h
  · next hA hB _ _ _ =>
    obtain ⟨rfl, rfl⟩ := h
    obtain ⟨k, e, h1, h2⟩ := fine_pred_kron hf
    exact ⟨k, e, hA, hB, h1, h2⟩
  · next g k' B' hB e1 e2 hN =>
    obtain ⟨rfl, rfl⟩ := h
    obtain ⟨k, e, h2⟩ := fine_pred_idkron hf
    have hk : 0 < k' := Nat.pos_of_ne_zero fun hk => by
      subst hk
      have := hN.rows
      have e1 : g.rows = 0 * B'.rows := e1
      have : 0 < g.rows := this
      omega
    exact ⟨k, e, valid_identity hk, hB, fine_identity _ _, h2⟩

theorem matmulOp_quick {env : Env} : ∀ (n : ℕ) {p q : ℕ} {a b : Op}, Valid False a → Valid False b →
    Fine p a → Fine q b → 4 * (p + q) + 10 ≤ n → Quick (matmulOp env n a b) (Fine (p + q + 1))
  | 0, _, _, _, _, _, _, _, _, h => by omega
  | n + 1, p, q, a, b, ha, hb, hfa, hfb, hn => by
    have fb : Quick (mkProd [a, b]) (Fine (p + q + 1)) := mkProd_quick fun x hx => by
      simp only [List.mem_cons, List.not_mem_nil, or_false] at hx
      rcases hx with rfl | rfl
      · exact hfa.mono (by omega)
      · exact hfb.mono (by omega)
    rw [matmulOp]
    split
    · exact fb
    · next r _ =>
      refine fallback_quick ?_ fb
      clear fb
      have zero : ∀ r c, Fine (p + q + 1) (mkZero r c) := fun r c => ⟨by simp [mkZero, depth], by simp [mkZero, Calm]⟩
      unfold runMatmul
      split
      · split
        · simp [Quick]
        · exact Quick.ok fun t e => by cases e; exact ⟨by simp [mkScalingAniso, depth], by simp [mkScalingAniso, Calm]⟩
      · obtain ⟨k, rfl, hA⟩ := fine_pred_scaled hfa
        cases ha with
        | scaled hVA _ _ _ _ _ =>
        exact Quick.bind (matmulOp_quick n hVA hb hA hfb (by omega)) fun t ht =>
          option_quick ((mulScalar_quick n _ ht (by omega)).mono fun t ht => ht.mono (by omega))
      · obtain ⟨k, rfl, hB⟩ := fine_pred_scaled hfb
        cases hb with
        | scaled hVB _ _ _ _ _ =>
        exact Quick.bind (matmulOp_quick n ha hVB hfa hB (by omega)) fun t ht =>
          option_quick ((mulScalar_quick n _ ht (by omega)).mono fun t ht => ht.mono (by omega))
      · split
        · simp [Quick]
        · split
          · next A B C D e1 e2 =>
            obtain ⟨k, rfl, vA, vB, fA, fB⟩ := kronParts_quick e1 ha hfa
            obtain ⟨l, rfl, vC, vD, fC, fD⟩ := kronParts_quick e2 hb hfb
            split
            · exact none_quick
            · exact Quick.bind (matmulOp_quick n vA vC fA fC (by omega)) fun P hP =>
                Quick.bind (matmulOp_quick n vB vD fB fD (by omega)) fun Q hQ =>
                option_quick ((mkKron_quick hP hQ).mono fun t ht => ht.mono (by omega))
          · simp [Quick]
      · exact (mulIso_quick hfa (by omega)).mono fun o ho t e => (ho t e).mono (by omega)
      · exact (mulIso_quick hfb (by omega)).mono fun o ho t e => (ho t e).mono (by omega)
      · obtain ⟨k, rfl, fB⟩ := fine_pred_idkron hfa
        obtain ⟨l, rfl, fD⟩ := fine_pred_idkron hfb
        cases ha with
        | idkron vB _ _ _ =>
        cases hb with
        | idkron vD _ _ _ =>
        split
        · simp [Quick]
        · split
          · exact none_quick
          · exact Quick.bind (matmulOp_quick n vB vD fB fD (by omega)) fun Q hQ =>
              option_quick ((mkIdkron_quick _ hQ).mono fun t ht => ht.mono (by omega))
      · exact (mulIso_quick hfa (by omega)).mono fun o ho t e => (ho t e).mono (by omega)
      · exact (mulIso_quick hfb (by omega)).mono fun o ho t e => (ho t e).mono (by omega)
      · split
        · exact none_quick
        · split
          · simp [Quick]
          · exact Quick.ok fun t e => by cases e; exact fine_matrix
      · exact option_quick (broadcast_quick _ _ _ _ _ _ _ _)
      · exact option_quick (broadcast_quick _ _ _ _ _ _ _ _)
      · exact Quick.bind ((swift False n).mat ha hfa (by omega) _ _ _) fun y _ => Quick.ok fun t e => by
          cases e; exact fine_matrix
      · exact Quick.bind (rmatArr_quick n hb hfb (by omega) _ _) fun y _ => Quick.ok fun t e => by
          cases e; exact fine_matrix
      · split
        · exact none_quick
        · exact Quick.bind (rmatArr_quick n hb hfb (by omega) _ _) fun y _ => Quick.ok fun t e => by
            cases e; exact fine_matrix
      · split
        · exact none_quick
        · exact Quick.bind ((swift False n).mat ha hfa (by omega) _ _ _) fun y _ => Quick.ok fun t e => by
            cases e; exact fine_matrix
      · split
        · simp [Quick]
        · exact Quick.ok fun t e => by cases e; exact hfb.mono (by omega)
      · split
        · simp [Quick]
        · exact Quick.ok fun t e => by cases e; exact hfa.mono (by omega)
      · split
        · exact Quick.ok fun t e => by cases e; exact fine_identity _ _
        · exact none_quick
      · split
        · simp [Quick]
        · exact Quick.ok fun t e => by cases e; exact zero _ _
      · split
        · simp [Quick]
        · exact Quick.ok fun t e => by cases e; exact zero _ _
      · simp [Quick]

end Probnum.Linops
