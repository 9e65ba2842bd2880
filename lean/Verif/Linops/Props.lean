import Verif.Linops.Expr
import Verif.Linops.Built
import Verif.Linops.DepthSolve
import Verif.Linops.Vec

/-!
# Properties C21-C25 and C27: operators denote matrices

`toM r c (den a)` is the matrix that the operator `a` denotes.  Every statement "the call returns" holds for all
sufficiently large recursion limits `n`.
-/

namespace Probnum.Linops

open Finset

/-! ## Concrete operators for the examples -/

/-- The environment of a program: default configuration, no operator is an instance of `LambdaLinearOperator` itself. -/
def env₀ : Env := ⟨false, fun _ _ => false, false⟩

/-- A matrix, a scaling, a Kronecker product and an identity-Kronecker product. -/
def exA : Op := mkMatrix 2 2 fun i j => i + 2 * j
def exS : Op := mkScalingAniso 2 fun i => i + 1
def exK : Op := .kron (base 4 4) exA exS
def exI : Op := .idkron (base 4 4) 2 exA

theorem valid_exA {full : Prop} : Valid full exA := valid_matrix (by norm_num) (by norm_num) _
theorem valid_exS {full : Prop} : Valid full exS := valid_scalingAniso (by norm_num) _
theorem built_exK {full : Prop} : Built full exK :=
  .kron (.matrix _ (by norm_num) (by norm_num)) (.scalingAniso _ (by norm_num)) (A := exA) (B := exS) rfl
theorem built_exI {full : Prop} : Built full exI :=
  .idkron (k := 2) (by norm_num) (.matrix _ (by norm_num) (by norm_num)) (B := exA) rfl

theorem calm_exK : Calm exK := by simp [exK, exA, exS, mkMatrix, mkScalingAniso, Calm]
theorem calm_exI : Calm exI := by simp [exI, exA, mkMatrix, Calm]

/-! ## C21 -/

/-- Every expression that python code forms from operators by `+`, `-`, unary `-`, scalar multiples, `@` and `.T` is
evaluated without error to an operator of the matrix shape whose dense form is the matrix expression.  Not covered:
instances of `LambdaLinearOperator` itself (`lambda_equals_identity` shows that the claim fails for them), operators
with an axis of length 0, selections that repeat an index, operators whose flags were assigned after they became
components of others. -/
theorem expression_denotes_partial {env : Env} (hs : ∀ x y, env.same x y = true → x = y)
    (hl : env.lambdaClass = false) {r c : ℕ} (e : Expr r c) (he : e.Leaves fun a => Valid False a ∧ Calm a) :
    ∃ N, ∀ n ≥ N, ∃ t D, e.eval env n = .ok t ∧ t.rows = r ∧ t.cols = c ∧ todense n t = .ok D ∧
      toM r c D = e.value := by
  obtain ⟨N, m, h⟩ := eval_good hs hl e he
  refine ⟨N + 4 * m + 6, fun n hn => ?_⟩
  obtain ⟨t, ht, g⟩ := h n (by omega)
  obtain ⟨D, hD, hM⟩ := g.todense (n := n) (by omega)
  exact ⟨t, D, ht, g.rows, g.cols, hD, hM⟩

/-- The hypotheses are met by `2 * (K @ I.T) - (-K) + K` for a Kronecker product and an identity-Kronecker product. -/
example : ∃ N, ∀ n ≥ N, ∃ t D,
    (Expr.add (.sub (.smul 2 (.matmul (.leaf exK) (.T (.leaf exI)))) (.neg (.leaf exK))) (.leaf exK)).eval env₀ n
      = .ok t ∧ t.rows = 4 ∧ t.cols = 4 ∧ todense n t = .ok D ∧
    toM 4 4 D = (2 : ℝ) • (toM 4 4 (den exK) * (toM 4 4 (den exI)).transpose) - -toM 4 4 (den exK) +
      toM 4 4 (den exK) :=
  expression_denotes_partial (fun _ _ h => by cases h) rfl
    (Expr.add (.sub (.smul 2 (.matmul (.leaf exK) (.T (.leaf exI)))) (.neg (.leaf exK))) (.leaf exK))
    ⟨⟨⟨⟨built_exK.valid, calm_exK⟩, built_exI.valid, calm_exI⟩, built_exK.valid, calm_exK⟩, built_exK.valid, calm_exK⟩

/-- The same without a hypothesis on the recursion limit: whatever an operation of the library returns for two
operators is the sum, difference or product of their matrices. -/
theorem arithmetic_denotes_partial {env : Env} {a b t : Op} (hsane : Sane env a b) (ha : Valid False a)
    (hb : Valid False b) (n : ℕ) :
    (a.rows = b.rows → a.cols = b.cols → addOp env n a b = .ok t →
      toM a.rows a.cols (den t) = toM a.rows a.cols (den a) + toM a.rows a.cols (den b)) ∧
    (a.rows = b.rows → a.cols = b.cols → subOp env n a b = .ok t →
      toM a.rows a.cols (den t) = toM a.rows a.cols (den a) - toM a.rows a.cols (den b)) ∧
    (a.cols = b.rows → matmulOp env n a b = .ok t →
      toM a.rows b.cols (den t) = toM a.rows a.cols (den a) * toM a.cols b.cols (den b)) :=
  ⟨fun hr hc e => ((addOp_meets n hsane ha hb hr hc).of_ok e).den.toM,
    fun hr hc e => ((subOp_meets n hsane ha hb hr hc).of_ok e).den.toM,
    fun h e => ((matmulOp_meets n ha hb h).of_ok e).den.toM.trans (toM_mmul _ _ _ _ _)⟩

example : ∃ t, matmulOp env₀ 40 exK exI = .ok t := by
  have := ((matmulOp_meets (env := env₀) 40 built_exK.valid built_exI.valid rfl).returns
    (matmulOp_quick 40 (p := 1) (q := 1) built_exK.valid built_exI.valid
      ⟨by simp [exK, exA, exS, mkMatrix, mkScalingAniso, depth], calm_exK⟩
      ⟨by simp [exI, exA, mkMatrix, depth], calm_exI⟩ (by norm_num)))
  exact ⟨this.choose, this.choose_spec.1⟩

/-- `Identity(n) == L` is True for every `LambdaLinearOperator` `L` of the same shape and dtype. -/
theorem lambda_equals_identity {n : ℕ} (A : Mat) :
    eqOp ⟨false, fun _ _ => false, true⟩ (mkIdentity n) (.lam (base n n) A) = .ok true := by
  simp [eqOp, mkIdentity, base]

/-- Therefore `Kronecker(Identity(1), [[1]]) + Kronecker(L, [[2]])` with `L = [[5]]` is `[[3]]` instead of `[[11]]`. -/
theorem kronecker_sum_wrong : ∃ t D, addOp ⟨false, fun _ _ => false, true⟩ 10
      (.kron (base 1 1) (mkIdentity 1) (mkMatrix 1 1 fun _ _ => 1))
      (.kron (base 1 1) (.lam (base 1 1) fun _ _ => 5) (mkMatrix 1 1 fun _ _ => 2)) = .ok t ∧
    todense 10 t = .ok D ∧ D 0 0 = 3 ∧
    (den (.kron (base 1 1) (mkIdentity 1) (mkMatrix 1 1 fun _ _ => 1)) +
      den (.kron (base 1 1) (.lam (base 1 1) fun _ _ => 5) (mkMatrix 1 1 fun _ _ => 2))) 0 0 = 11 := by
  refine ⟨.kron (base 1 1) (mkIdentity 1) (mkMatrix 1 1 fun _ _ => 1 + 2), _, ?_, rfl, ?_, ?_⟩
  · have e : isOrEq ⟨false, fun _ _ => false, true⟩ (mkIdentity 1) (.lam (base 1 1) fun _ _ => 5) = .ok true := by
      rw [isOrEq, if_neg (by simp)]
      exact lambda_equals_identity _
    have l : lookup addReg (.kron, .kron) = some .kron := by decide
    have l2 : lookup addReg (.matrix, .matrix) = some .matrix := by decide
    rw [addOp]
    simp only [kind, l]
    rw [runAdd, e]
    simp only [bind, Except.bind, if_true, addOp, mkMatrix, kind, l2, runAdd, broadcast, base, bdim]
    rfl
  · simp [kronM, mkMatrix, eye, Op.rows, Op.cols, Op.hdr, base]
    norm_num
  · simp [den, kronM, mkMatrix, mkIdentity, eye, Op.rows, Op.cols, Op.hdr, base]
    norm_num

/-! ## C22 -/

theorem Fails.valueError {α : Type} {r : Res α} {P : α → Prop} (h : Fails r) (hq : Quick r P) :
    r = .error .valueError := by
  rcases h with h | h
  · exact h
  · rw [h] at hq
    exact absurd rfl hq

/-- `a + b` raises ValueError exactly when the shapes differ and returns an operator otherwise.  Not covered: `Matrix`
operands (also as Kronecker factors) with an axis of length 1, which numpy broadcasts (`matrix_sum_broadcasts`). -/
theorem add_rejects_partial {env : Env} {a b : Op} (hsane : Sane env a b) (ha : Valid False a) (hb : Valid False b)
    (hca : Calm a) (hcb : Calm b) (hwa : WideMatrices a) (hwb : WideMatrices b) : ∃ N, ∀ n ≥ N,
    ((a.rows, a.cols) ≠ (b.rows, b.cols) → addOp env n a b = .error .valueError) ∧
    ((a.rows, a.cols) = (b.rows, b.cols) → ∃ t, addOp env n a b = .ok t) := by
  refine ⟨depth a + depth b + 1, fun n hn => ?_⟩
  have hq := addOp_quick (env := env) n (m := depth a + depth b) ((fine_self hca).mono (by omega))
    ((fine_self hcb).mono (by omega)) (by omega)
  refine ⟨fun h => (addOp_fails n hsane ha hb hwa hwb ?_).valueError hq, fun h => ?_⟩
  · by_contra hd
    refine h (Prod.ext ?_ ?_)
    · exact not_not.1 fun e => hd (.inl e)
    · exact not_not.1 fun e => hd (.inr e)
  · obtain ⟨t, e, -⟩ := (addOp_meets n hsane ha hb (Prod.mk.inj h).1 (Prod.mk.inj h).2).returns hq
    exact ⟨t, e⟩

/-- `a - b` likewise. -/
theorem sub_rejects_partial {env : Env} {a b : Op} (hsane : Sane env a b) (ha : Valid False a) (hb : Valid False b)
    (hca : Calm a) (hcb : Calm b) (hwa : WideMatrices a) (hwb : WideMatrices b) : ∃ N, ∀ n ≥ N,
    ((a.rows, a.cols) ≠ (b.rows, b.cols) → subOp env n a b = .error .valueError) ∧
    ((a.rows, a.cols) = (b.rows, b.cols) → ∃ t, subOp env n a b = .ok t) := by
  refine ⟨depth a + depth b + 2, fun n hn => ?_⟩
  have hq := subOp_quick (env := env) n (m := depth a + depth b) ((fine_self hca).mono (by omega))
    ((fine_self hcb).mono (by omega)) (by omega)
  refine ⟨fun h => (subOp_fails n hsane ha hb hwa hwb ?_).valueError hq, fun h => ?_⟩
  · by_contra hd
    refine h (Prod.ext ?_ ?_)
    · exact not_not.1 fun e => hd (.inl e)
    · exact not_not.1 fun e => hd (.inr e)
  · obtain ⟨t, e, -⟩ := (subOp_meets n hsane ha hb (Prod.mk.inj h).1 (Prod.mk.inj h).2).returns hq
    exact ⟨t, e⟩

/-- `a @ b` raises ValueError exactly when the inner dimensions differ and returns an operator otherwise.  Not covered:
a `Matrix` with an axis of length 1 or a `Scaling` of size 1, which numpy broadcasts (`scaling_matrix_broadcasts`), and
embeddings (`selection_embedding_accepted`). -/
theorem matmul_rejects_partial {env : Env} {a b : Op} (ha : Valid False a) (hb : Valid False b)
    (hca : Calm a) (hcb : Calm b) (hwa : NotBroadcast a) (hwb : NotBroadcast b) : ∃ N, ∀ n ≥ N,
    (a.cols ≠ b.rows → matmulOp env n a b = .error .valueError) ∧
    (a.cols = b.rows → ∃ t, matmulOp env n a b = .ok t) := by
  refine ⟨4 * (depth a + depth b) + 10, fun n hn => ?_⟩
  have hq := matmulOp_quick (env := env) n ha hb (fine_self hca) (fine_self hcb) hn
  refine ⟨fun h => (matmulOp_fails n ha hb hwa hwb h).valueError hq, fun h => ?_⟩
  obtain ⟨t, e, -⟩ := (matmulOp_meets n ha hb h).returns hq
  exact ⟨t, e⟩

/-- The hypotheses are met by a Kronecker product (4 × 4) and a scaling (2 × 2). -/
example : ∃ N, ∀ n ≥ N, addOp env₀ n exK exS = .error .valueError ∧ subOp env₀ n exK exS = .error .valueError ∧
    matmulOp env₀ n exK exS = .error .valueError := by
  have hc : Calm exS := by simp [exS, mkScalingAniso, Calm]
  have hsane : Sane env₀ exK exS :=
    { same := fun x y h => by cases h
      lam := fun h => by cases h }
  have hw : WideMatrices exK := by simp [exK, exA, exS, mkMatrix, mkScalingAniso, WideMatrices, base]
  have hw' : WideMatrices exS := by simp [exS, mkScalingAniso, WideMatrices]
  obtain ⟨N1, h1⟩ := add_rejects_partial hsane built_exK.valid valid_exS calm_exK hc hw hw'
  obtain ⟨N2, h2⟩ := sub_rejects_partial hsane built_exK.valid valid_exS calm_exK hc hw hw'
  obtain ⟨N3, h3⟩ := matmul_rejects_partial (env := env₀) built_exK.valid valid_exS calm_exK hc
    (by simp [exK, NotBroadcast]) (by simp [exS, mkScalingAniso, NotBroadcast])
  have hne : exK.rows ≠ exS.rows := by simp [exK, exS, mkScalingAniso, Op.rows, Op.hdr, base]
  have hne' : exK.cols ≠ exS.rows := by simp [exK, exS, mkScalingAniso, Op.rows, Op.cols, Op.hdr, base]
  exact ⟨N1 + N2 + N3, fun n hn => ⟨(h1 n (by omega)).1 (fun h => hne (Prod.mk.inj h).1),
    (h2 n (by omega)).1 (fun h => hne (Prod.mk.inj h).1), (h3 n (by omega)).1 hne'⟩⟩

/-- ValueError is not raised: a `1 × 2` matrix and a `2 × 2` matrix are added by broadcasting. -/
theorem matrix_sum_broadcasts (env : Env) (n : ℕ) (A B : Mat) :
    addOp env (n + 1) (mkMatrix 1 2 A) (mkMatrix 2 2 B) = .ok (mkMatrix 2 2 fun i j => A 0 j + B i j) := by
  have l : lookup addReg (.matrix, .matrix) = some .matrix := by decide
  rw [addOp]
  simp only [mkMatrix, kind, l, runAdd, broadcast, base, bdim, bind, Except.bind]
  rfl

/-- ValueError is not raised: a `1 × 1` scaling times a `2 × 2` matrix. -/
theorem scaling_matrix_broadcasts (env : Env) (n : ℕ) (s : ℝ) (A : Mat) :
    matmulOp env (n + 1) (mkScalingIso 1 s) (mkMatrix 2 2 A) = .ok (mkMatrix 2 2 fun i j => s * A i j) := by
  have l : lookup matmulReg (.scaling, .matrix) = some .scalingMatrix := by decide
  rw [matmulOp]
  simp only [mkMatrix, mkScalingIso, kind, l, runMatmul, broadcast, base, bdim, bind, Except.bind]
  rfl

/-- ValueError is not raised: a `1 × 2` selection times a `3 × 1` embedding. -/
theorem selection_embedding_accepted (env : Env) (n : ℕ) :
    matmulOp env (n + 1) (.selection (base 1 2) [0]) (.embedding (base 3 1) [0] [0] 0) = .ok (mkIdentity 1) := by
  have l : lookup matmulReg (.selection, .embedding) = some .selectionEmbedding := by decide
  rw [matmulOp]
  simp only [kind, l, runMatmul, base, bind, Except.bind, indicesEqual]
  rfl

/-- Another error than ValueError: a scalar plus a non-square operator. -/
theorem scalar_sum_nonsquare (env : Env) (n : ℕ) (a : Op) (h : a.rows ≠ a.cols) (s : ℝ) :
    add env n (.op a) (.scalar s) = .error .linAlgError ∧ add env n (.scalar s) (.op a) = .error .linAlgError := by
  constructor <;> simp only [add, toLinops, toLinop, if_pos h, bind, Except.bind]

/-! ## C23 -/

theorem dense_returns {full : Prop} {a : Op} (ha : Valid full a) (hc : Calm a) {n : ℕ} (hn : 4 * depth a + 6 ≤ n) :
    ∃ D, todense n a = .ok D ∧ toM a.rows a.cols D = toM a.rows a.cols (den a) := by
  obtain ⟨D, h1, h2, -⟩ := ((level full n).dense ha).returns ((swift full n).dense ha (fine_self hc) hn)
  exact ⟨D, h1, h2.toM⟩

/-- `A @ X` for (stacks of) matrices and `A @ x` for vectors return the product with the dense matrix; an operand with
the wrong number of rows raises ValueError. -/
theorem matmul_eq_dense {a : Op} (ha : Valid False a) (hc : Calm a) : ∃ N, ∀ n ≥ N, ∃ D, todense n a = .ok D ∧
    (∀ {β : Type} (k : ℕ) (X : β → Mat), ∃ Y, matArr n a a.cols k X = .ok Y ∧
      ∀ b, toM a.rows k (Y b) = toM a.rows a.cols D * toM a.cols k (X b)) ∧
    (∀ x : ℕ → ℝ, ∃ y, matVec n a a.cols x = .ok y ∧
      (fun i : Fin a.rows => y i) = (toM a.rows a.cols D).mulVec fun j : Fin a.cols => x j) ∧
    (∀ {β : Type} (r k : ℕ) (X : β → Mat), r ≠ a.cols → matArr n a r k X = .error .valueError) ∧
    (∀ (r : ℕ) (x : ℕ → ℝ), r ≠ a.cols → matVec n a r x = .error .valueError) := by
  refine ⟨4 * depth a + 6, fun n hn => ?_⟩
  obtain ⟨D, hD, eD⟩ := dense_returns ha hc hn
  have mat : ∀ {β : Type} (k : ℕ) (X : β → Mat), ∃ Y, matArr n a a.cols k X = .ok Y ∧
      ∀ b, toM a.rows k (Y b) = toM a.rows a.cols D * toM a.cols k (X b) := fun k X => by
    obtain ⟨Y, h1, h2, -⟩ := ((level False n).mat ha k X).returns ((swift False n).mat ha (fine_self hc) (by omega) _ k X)
    exact ⟨Y, h1, fun b => by rw [(h2 b).toM, toM_mmul, eD]⟩
  have wrong : ∀ {β : Type} (r k : ℕ) (X : β → Mat), r ≠ a.cols → matArr n a r k X = .error .valueError :=
    fun r k X h => (matArr_fails n X h).valueError ((swift False n).mat ha (fine_self hc) (by omega) r k X)
  refine ⟨D, hD, mat, fun x => ?_, wrong, fun r x h => ?_⟩
  · obtain ⟨Y, h1, h2⟩ := mat (β := Unit) 1 fun _ i _ => x i
    refine ⟨fun i => Y () i 0, by rw [matVec, h1]; rfl, ?_⟩
    ext i
    exact congrFun (congrFun (h2 ()) i) (0 : Fin 1)
  · rw [matVec, wrong r 1 _ h]
    rfl

/-- `x @ A` for vectors and (stacks of) row vectors returns the product with the dense matrix; an operand with the wrong
number of columns raises ValueError. -/
theorem rmatmul_eq_dense {a : Op} (ha : Valid False a) (hc : Calm a) : ∃ N, ∀ n ≥ N, ∃ D, todense n a = .ok D ∧
    (∀ {β : Type} (X : β → ℕ → ℝ), ∃ Y, rmatArr n a a.rows X = .ok Y ∧
      ∀ b, (fun j : Fin a.cols => Y b j) = Matrix.vecMul (fun i : Fin a.rows => X b i) (toM a.rows a.cols D)) ∧
    (∀ x : ℕ → ℝ, ∃ y, vecMat n a a.rows x = .ok y ∧
      (fun j : Fin a.cols => y j) = Matrix.vecMul (fun i : Fin a.rows => x i) (toM a.rows a.cols D)) ∧
    (∀ {β : Type} (r : ℕ) (X : β → ℕ → ℝ), r ≠ a.rows → rmatArr n a r X = .error .valueError) := by
  refine ⟨4 * depth a + 9, fun n hn => ?_⟩
  obtain ⟨D, hD, eD⟩ := dense_returns ha hc (n := n) (by omega)
  have mat : ∀ {β : Type} (X : β → ℕ → ℝ), ∃ Y, rmatArr n a a.rows X = .ok Y ∧
      ∀ b, (fun j : Fin a.cols => Y b j) = Matrix.vecMul (fun i : Fin a.rows => X b i) (toM a.rows a.cols D) :=
    fun X => by
    obtain ⟨Y, h1, h2, -⟩ := (rmatArr_meets n ha X).returns (rmatArr_quick n ha (fine_self hc) hn _ X)
    refine ⟨Y, h1, fun b => ?_⟩
    ext j
    rw [h2 b j j.2, eD, Matrix.vecMul, dotProduct, Finset.sum_range]
    rfl
  refine ⟨D, hD, mat, fun x => ?_, fun r X h => ?_⟩
  · obtain ⟨Y, h1, h2⟩ := mat (β := Unit) fun _ => x
    exact ⟨Y (), by rw [vecMat, h1]; rfl, h2 ()⟩
  · rw [rmatArr, if_pos h]

example : ∃ N, ∀ n ≥ N, ∃ D, todense n exK = .ok D ∧ ∀ x : ℕ → ℝ, ∃ y, matVec n exK 4 x = .ok y ∧
    (fun i : Fin 4 => y i) = (toM 4 4 D).mulVec fun j : Fin 4 => x j := by
  obtain ⟨N, h⟩ := matmul_eq_dense built_exK.valid calm_exK
  refine ⟨N, fun n hn => ?_⟩
  obtain ⟨D, h1, -, h2, -⟩ := h n hn
  exact ⟨D, h1, h2⟩

/-- An embedding of a full-size vector into itself, declared symmetric (which it is): `todense()` never returns. -/
theorem embedding_todense_diverges (n k : ℕ) (take put : List ℕ) (fill : ℝ) (l u p : Option Bool) :
    todense n (.embedding ⟨k, k, ⟨some true, l, u, p⟩⟩ take put fill) = .error .recursionError := by
  induction n with
  | zero => rfl
  | succ n ih =>
    rw [todense]
    cases n with
    | zero => rfl
    | succ n =>
      rw [T]
      exact (congrArg (fun r : Res Mat => r >>= fun d => Except.ok (trn d)) ih)

/-- The embedding `[[1]]` is symmetric, so that the flag in `embedding_todense_diverges` may be true. -/
example : Valid True (.embedding ⟨1, 1, ⟨some true, none, none, none⟩⟩ [0] [0] 0) := by
  have hd : derived (.embedding ⟨1, 1, ⟨some true, none, none, none⟩⟩ [0] [0] 0) = (base 1 1).fl := rfl
  have node : Node True (.embedding ⟨1, 1, ⟨some true, none, none, none⟩⟩ [0] [0] 0) :=
    { rows := one_pos
      cols := one_pos
      nonsquare := fun h => absurd rfl h
      pdsym := fun h => by cases h
      balanced := fun _ => rfl
      settled := ⟨.inl rfl, .inl rfl, .inl rfl, .inl rfl⟩
      sound :=
        { sym := ⟨fun _ => ⟨rfl, fun i hi j hj => by
            have hi' : i < 1 := hi
            have hj' : j < 1 := hj
            have : i = j := by omega
            rw [this]
            rfl⟩, fun _ h => by cases h⟩
          low := ⟨fun h => (by cases h), fun _ h => by cases h⟩
          up := ⟨fun h => (by cases h), fun _ h => by cases h⟩
          pd := ⟨fun h => (by cases h), fun _ h => by cases h⟩ }
      zpd := fun h => h.elim }
  exact .embedding (h := ⟨1, 1, ⟨some true, none, none, none⟩⟩) (put := [0]) rfl le_rfl (by simp) (by simp) node

end Probnum.Linops
