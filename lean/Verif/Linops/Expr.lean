import Verif.Linops.ArithShape
import Verif.Linops.DepthApply

/-!
# Matrix expressions over operators

`Expr r c` are the expressions of shape `r × c` that python code can form from operators with `+`, `-`, unary `-`,
`s * a`, `a @ b` and `a.T`.  `value` is the matrix expression, `eval` what the library computes.
-/

namespace Probnum.Linops

/-- Expressions of operators whose shapes fit. -/
inductive Expr : ℕ → ℕ → Type
  | leaf (a : Op) : Expr a.rows a.cols
  | add {r c : ℕ} (x y : Expr r c) : Expr r c
  | sub {r c : ℕ} (x y : Expr r c) : Expr r c
  | neg {r c : ℕ} (x : Expr r c) : Expr r c
  | smul {r c : ℕ} (s : ℝ) (x : Expr r c) : Expr r c
  | matmul {r k c : ℕ} (x : Expr r k) (y : Expr k c) : Expr r c
  | T {r c : ℕ} (x : Expr r c) : Expr c r
  /-- `x + s` and `s + x` for a scalar `s`, which stands for `s` times the identity. -/
  | addScalar {n : ℕ} (x : Expr n n) (s : ℝ) : Expr n n
  | scalarSub {n : ℕ} (s : ℝ) (x : Expr n n) : Expr n n

/-- The matrix expression. -/
noncomputable def Expr.value : {r c : ℕ} → Expr r c → Matrix (Fin r) (Fin c) ℝ
  | _, _, .leaf a => toM a.rows a.cols (den a)
  | _, _, .add x y => x.value + y.value
  | _, _, .sub x y => x.value - y.value
  | _, _, .neg x => - x.value
  | _, _, .smul s x => s • x.value
  | _, _, .matmul x y => x.value * y.value
  | _, _, .T x => x.value.transpose
  | _, _, .addScalar x s => x.value + s • 1
  | _, _, .scalarSub s x => s • 1 - x.value

/-- What the library computes (`__add__`, `__sub__`, `__neg__`, `__mul__`, `__matmul__`, `T`:
`_linear_operator.py` 916-951, 1109-1254, with `_arithmetic.py` 56-78). -/
noncomputable def Expr.eval (env : Env) (n : ℕ) : {r c : ℕ} → Expr r c → Res Op
  | _, _, .leaf a => .ok a
  | _, _, .add x y => do
    let a ← x.eval env n
    let b ← y.eval env n
    Linops.add env n (.op a) (.op b)
  | _, _, .sub x y => do
    let a ← x.eval env n
    let b ← y.eval env n
    Linops.sub env n (.op a) (.op b)
  | _, _, .neg x => do
    let a ← x.eval env n
    negOp n a
  | _, _, .smul s x => do
    let a ← x.eval env n
    mulScalar n s a
  | _, _, .matmul x y => do
    let a ← x.eval env n
    let b ← y.eval env n
    matmulOp env n a b
  | _, _, .T x => do
    let a ← x.eval env n
    Linops.T n a
  | _, _, .addScalar x s => do
    let a ← x.eval env n
    Linops.add env n (.op a) (.scalar s)
  | _, _, .scalarSub s x => do
    let a ← x.eval env n
    Linops.sub env n (.scalar s) (.op a)

/-- Every operator in the expression satisfies `P`. -/
def Expr.Leaves (P : Op → Prop) : {r c : ℕ} → Expr r c → Prop
  | _, _, .leaf a => P a
  | _, _, .add x y => x.Leaves P ∧ y.Leaves P
  | _, _, .sub x y => x.Leaves P ∧ y.Leaves P
  | _, _, .neg x => x.Leaves P
  | _, _, .smul _ x => x.Leaves P
  | _, _, .matmul x y => x.Leaves P ∧ y.Leaves P
  | _, _, .T x => x.Leaves P
  | _, _, .addScalar x _ => x.Leaves P
  | _, _, .scalarSub _ x => x.Leaves P

/-- A well-formed operator of bounded depth that denotes `M`. -/
structure Good (m : ℕ) {r c : ℕ} (M : Matrix (Fin r) (Fin c) ℝ) (t : Op) : Prop where
  valid : Valid False t
  rows : t.rows = r
  cols : t.cols = c
  den : toM r c (den t) = M
  fine : Fine m t

theorem good_of_post {m : ℕ} {r c : ℕ} {M : Matrix (Fin r) (Fin c) ℝ} {t : Op} {N : Mat} (h : Post False r c N t)
    (hf : Fine m t) (e : toM r c N = M) : Good m M t := ⟨h.valid, h.rows, h.cols, h.den.toM.trans e, hf⟩

theorem Meets.good {m : ℕ} {r c r' c' : ℕ} {M : Matrix (Fin r) (Fin c) ℝ} {x : Res Op} {N : Mat}
    (h : Meets x (Post False r' c' N)) (hf : Quick x (Fine m)) (hr : r' = r) (hc : c' = c) (e : toM r c N = M) :
    ∃ t, x = .ok t ∧ Good m M t := by
  subst hr hc
  obtain ⟨t, ht, h1, h2⟩ := h.returns hf
  exact ⟨t, ht, good_of_post h1 h2 e⟩

theorem toM_sub (r c : ℕ) (A B : Mat) : toM r c (A - B) = toM r c A - toM r c B := rfl
theorem toM_neg (r c : ℕ) (A : Mat) : toM r c (-A) = - toM r c A := rfl

theorem good_scaling {n : ℕ} (hn : 0 < n) (s : ℝ) (m : ℕ) :
    Good m (s • (1 : Matrix (Fin n) (Fin n) ℝ)) (mkScalingIso n s) := by
  refine ⟨valid_scalingIso hn s, rfl, rfl, ?_, ⟨by simp [mkScalingIso, depth], by simp [mkScalingIso, Calm]⟩⟩
  ext i j
  simp only [mkScalingIso, Linops.den, toM_apply, Matrix.smul_apply, Matrix.one_apply, smul_eq_mul, mul_ite, mul_one,
    mul_zero, Fin.val_inj]

/-- Library calls with operands given as operators. -/
theorem add_op (env : Env) (n : ℕ) (a b : Op) : add env n (.op a) (.op b) = addOp env n a b := rfl
theorem sub_op (env : Env) (n : ℕ) (a b : Op) : sub env n (.op a) (.op b) = subOp env n a b := rfl

theorem add_scalar (env : Env) (n : ℕ) (a : Op) (h : a.rows = a.cols) (s : ℝ) :
    add env n (.op a) (.scalar s) = addOp env n a (mkScalingIso a.rows s) := by
  simp only [add, toLinops, toLinop, if_neg (not_not.2 h), bind, Except.bind]

theorem scalar_sub (env : Env) (n : ℕ) (a : Op) (h : a.rows = a.cols) (s : ℝ) :
    sub env n (.scalar s) (.op a) = subOp env n (mkScalingIso a.rows s) a := by
  simp only [sub, toLinops, toLinop, if_neg (not_not.2 h), bind, Except.bind]

theorem sane_of {env : Env} (hs : ∀ x y, env.same x y = true → x = y) (hl : env.lambdaClass = false) (a b : Op) :
    Sane env a b := ⟨hs, fun h => by rw [hl] at h; cases h⟩

/-- Every call returns for a sufficiently large recursion limit. -/
theorem eval_good {env : Env} (hs : ∀ x y, env.same x y = true → x = y) (hl : env.lambdaClass = false) :
    ∀ {r c : ℕ} (e : Expr r c), (e.Leaves fun a => Valid False a ∧ Calm a) →
      ∃ N m, ∀ n ≥ N, ∃ t, e.eval env n = .ok t ∧ Good m e.value t
  | _, _, .leaf a, h => ⟨0, depth a, fun n _ => ⟨a, rfl, h.1, rfl, rfl, rfl, fine_self h.2⟩⟩
  | _, _, .add (r := r) (c := c) x y, h => by
    obtain ⟨N, m, hx⟩ := eval_good hs hl x h.1
    obtain ⟨N', m', hy⟩ := eval_good hs hl y h.2
    refine ⟨N + N' + m + m' + 1, m + m' + 1, fun n hn => ?_⟩
    obtain ⟨a, ea, ga⟩ := hx n (by omega)
    obtain ⟨b, eb, gb⟩ := hy n (by omega)
    rw [Expr.eval, ea, ok_bind, eb, ok_bind, add_op]
    refine (addOp_meets n (sane_of hs hl a b) ga.valid gb.valid (ga.rows.trans gb.rows.symm)
      (ga.cols.trans gb.cols.symm)).good (addOp_quick n (m := m + m') (ga.fine.mono (by omega))
      (gb.fine.mono (by omega)) (by omega)) ga.rows ga.cols ?_
    rw [toM_add, ga.den, gb.den, Expr.value]
  | _, _, .sub (r := r) (c := c) x y, h => by
    obtain ⟨N, m, hx⟩ := eval_good hs hl x h.1
    obtain ⟨N', m', hy⟩ := eval_good hs hl y h.2
    refine ⟨N + N' + m + m' + 2, m + m' + 2, fun n hn => ?_⟩
    obtain ⟨a, ea, ga⟩ := hx n (by omega)
    obtain ⟨b, eb, gb⟩ := hy n (by omega)
    rw [Expr.eval, ea, ok_bind, eb, ok_bind, sub_op]
    refine (subOp_meets n (sane_of hs hl a b) ga.valid gb.valid (ga.rows.trans gb.rows.symm)
      (ga.cols.trans gb.cols.symm)).good (subOp_quick n (m := m + m') (ga.fine.mono (by omega))
      (gb.fine.mono (by omega)) (by omega)) ga.rows ga.cols ?_
    rw [toM_sub, ga.den, gb.den, Expr.value]
  | _, _, .neg x, h => by
    obtain ⟨N, m, hx⟩ := eval_good hs hl x h
    refine ⟨N + m + 1, m + 1, fun n hn => ?_⟩
    obtain ⟨a, ea, ga⟩ := hx n (by omega)
    rw [Expr.eval, ea, ok_bind]
    refine (negOp_meets n ga.valid).good (negOp_quick n ga.fine (by omega)) ga.rows ga.cols ?_
    rw [toM_neg, ga.den, Expr.value]
  | _, _, .smul s x, h => by
    obtain ⟨N, m, hx⟩ := eval_good hs hl x h
    refine ⟨N + m + 1, m + 1, fun n hn => ?_⟩
    obtain ⟨a, ea, ga⟩ := hx n (by omega)
    rw [Expr.eval, ea, ok_bind]
    refine ((mulScalar_meets n ga.valid fun f => f.elim).mono fun t => MulPost.post).good
      (mulScalar_quick n s ga.fine (by omega)) ga.rows ga.cols ?_
    rw [toM_smul, ga.den, Expr.value]
  | _, _, .matmul x y, h => by
    obtain ⟨N, m, hx⟩ := eval_good hs hl x h.1
    obtain ⟨N', m', hy⟩ := eval_good hs hl y h.2
    refine ⟨N + N' + 4 * (m + m') + 10, m + m' + 1, fun n hn => ?_⟩
    obtain ⟨a, ea, ga⟩ := hx n (by omega)
    obtain ⟨b, eb, gb⟩ := hy n (by omega)
    rw [Expr.eval, ea, ok_bind, eb, ok_bind]
    refine (matmulOp_meets n ga.valid gb.valid (ga.cols.trans gb.rows.symm)).good
      (matmulOp_quick n ga.valid gb.valid ga.fine gb.fine (by omega)) ga.rows gb.cols ?_
    rw [ga.cols, toM_mmul, ga.den, gb.den, Expr.value]
  | _, _, .T (r := r) (c := c) x, h => by
    obtain ⟨N, m, hx⟩ := eval_good hs hl x h
    refine ⟨N + m + 2, m + 1, fun n hn => ?_⟩
    obtain ⟨a, ea, ga⟩ := hx n (by omega)
    rw [Expr.eval, ea, ok_bind]
    refine ((T_meets n ga.valid).mono fun t ht => (⟨ht.valid, ht.rows, ht.cols, ht.den⟩ :
      Post False a.cols a.rows (trn (Linops.den a)) t)).good (T_quick n ga.fine (by omega)) ga.cols ga.rows ?_
    rw [toM_trn, ga.den, Expr.value]
  | _, _, .addScalar (n := k) x s, h => by
    obtain ⟨N, m, hx⟩ := eval_good hs hl x h
    refine ⟨N + m + 1, m + 1, fun n hn => ?_⟩
    obtain ⟨a, ea, ga⟩ := hx n (by omega)
    have hk : 0 < k := ga.rows ▸ ga.valid.node.rows
    have gb := good_scaling hk s m
    rw [Expr.eval, ea, ok_bind, add_scalar env n a (ga.rows.trans ga.cols.symm), ga.rows]
    refine (addOp_meets n (sane_of hs hl a _) ga.valid gb.valid (ga.rows.trans gb.rows.symm)
      (ga.cols.trans gb.cols.symm)).good (addOp_quick n ga.fine gb.fine (by omega)) ga.rows ga.cols ?_
    rw [toM_add, ga.den, gb.den, Expr.value]
  | _, _, .scalarSub (n := k) s x, h => by
    obtain ⟨N, m, hx⟩ := eval_good hs hl x h
    refine ⟨N + m + 2, m + 2, fun n hn => ?_⟩
    obtain ⟨a, ea, ga⟩ := hx n (by omega)
    have hk : 0 < k := ga.rows ▸ ga.valid.node.rows
    have gb := good_scaling hk s m
    rw [Expr.eval, ea, ok_bind, scalar_sub env n a (ga.rows.trans ga.cols.symm), ga.rows]
    refine (subOp_meets n (sane_of hs hl _ a) gb.valid ga.valid (gb.rows.trans ga.rows.symm)
      (gb.cols.trans ga.cols.symm)).good (subOp_quick n gb.fine ga.fine (by omega)) gb.rows gb.cols ?_
    rw [toM_sub, ga.den, gb.den, Expr.value]

/-- `todense()` of a well-formed operator. -/
theorem Good.todense {m : ℕ} {r c : ℕ} {M : Matrix (Fin r) (Fin c) ℝ} {t : Op} (h : Good m M t) {n : ℕ}
    (hn : 4 * m + 6 ≤ n) : ∃ D, todense n t = .ok D ∧ toM r c D = M := by
  obtain ⟨D, h1, h2, -⟩ := ((level False n).dense h.valid).returns ((swift False n).dense h.valid h.fine hn)
  rw [h.rows, h.cols] at h2
  exact ⟨D, h1, h2.toM.trans h.den⟩

end Probnum.Linops
