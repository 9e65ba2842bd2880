import Verif.Linops.Model

/-!
# Model of `linops/_arithmetic.py`: `+`, `-`, unary `-`, `@` of operators

The registries are built as in the source, one entry per assignment and in the same order; a key that is assigned
twice keeps the later entry.  `Matrix` operands hold dense arrays.
-/

namespace Probnum.Linops

/-! ## Classes and registries -/

/-- The class of an operator, the key of the registries (`_arithmetic.py` 415-425: `type(op)`). -/
inductive Kind where
  | matrix | lam | identity | scaling | zero | kron | idkron | symkron | symmetrize | scaled | negated | sum | prod
  | transposed | inverse | selection | embedding | block | typecast
  deriving DecidableEq

/-- `type(op)`. -/
def kind : Op → Kind
  | .matrix _ _ => .matrix
  | .lam _ _ => .lam
  | .identity _ => .identity
  | .scaling _ _ _ => .scaling
  | .zero _ => .zero
  | .kron _ _ _ => .kron
  | .idkron _ _ _ => .idkron
  | .symkron _ _ _ _ => .symkron
  | .symmetrize _ _ => .symmetrize
  | .scaled _ neg _ _ => if neg then .negated else .scaled
  | .sum _ _ => .sum
  | .prod _ _ => .prod
  | .transposed _ _ => .transposed
  | .inverse _ _ => .inverse
  | .selection _ _ => .selection
  | .embedding _ _ _ _ => .embedding
  | .block _ _ => .block

/-- `_AnyLinOp` (`_arithmetic.py` 32-50). -/
def anyLinOp : List Kind :=
  [.negated, .prod, .scaled, .sum, .identity, .idkron, .matrix, .transposed, .symkron, .symmetrize, .inverse,
    .typecast, .scaling, .selection, .embedding, .zero, .kron]

/-- The functions registered in `_add_fns` and (with the same names but for `add`/`sub`) in `_sub_fns`. -/
inductive AddRule where
  | scaling | kron | idkron | matrix | zeroLeft | zeroRight
  deriving DecidableEq

/-- The functions registered in `_matmul_fns`. -/
inductive MatmulRule where
  | scaling | scaledLeft | scaledRight | kron | kronScaling | scalingKron | idkron | idkronScaling | scalingIdkron
  | matrix | scalingMatrix | matrixScaling | opMatrix | matrixOp | matrixWrapped | wrappedMatrix | idLeft | idRight
  | selectionEmbedding | zeroLeft | zeroRight
  deriving DecidableEq

/-- `_add_fns` and `_sub_fns`: the assignments of `_arithmetic.py` 117-118, 178-179, 239-240, 271-272, 393-396. -/
def addReg : List ((Kind × Kind) × AddRule) :=
  [((.scaling, .scaling), .scaling), ((.kron, .kron), .kron), ((.idkron, .idkron), .idkron),
    ((.matrix, .matrix), .matrix)] ++
  anyLinOp.flatMap fun t => [((.zero, t), .zeroLeft), ((t, .zero), .zeroRight)]

/-- `_matmul_fns`: the assignments of `_arithmetic.py` 120, 131-135, 177, 183-184, 236-238, 244-248, 261-269, 291-294,
312-314, 330, 390-392. -/
def matmulReg : List ((Kind × Kind) × MatmulRule) :=
  [((.scaling, .scaling), .scaling)] ++
  (anyLinOp.flatMap fun t => [((.scaled, t), .scaledLeft), ((t, .scaled), .scaledRight),
    ((.negated, t), .scaledLeft), ((t, .negated), .scaledRight)]) ++
  [((.kron, .kron), .kron), ((.kron, .scaling), .kronScaling), ((.scaling, .kron), .scalingKron),
    ((.idkron, .idkron), .idkron), ((.idkron, .scaling), .idkronScaling), ((.scaling, .idkron), .scalingIdkron),
    ((.kron, .idkron), .kron), ((.idkron, .kron), .kron),
    ((.matrix, .matrix), .matrix), ((.scaling, .matrix), .scalingMatrix), ((.matrix, .scaling), .matrixScaling),
    ((.selection, .matrix), .opMatrix), ((.embedding, .matrix), .opMatrix), ((.matrix, .selection), .matrixOp),
    ((.matrix, .embedding), .matrixOp),
    ((.matrix, .inverse), .matrixWrapped), ((.inverse, .matrix), .wrappedMatrix),
    ((.matrix, .transposed), .matrixWrapped), ((.transposed, .matrix), .wrappedMatrix)] ++
  (anyLinOp.flatMap fun t => [((.identity, t), .idLeft), ((t, .identity), .idRight)]) ++
  [((.selection, .embedding), .selectionEmbedding)] ++
  anyLinOp.flatMap fun t => [((.zero, t), .zeroLeft), ((t, .zero), .zeroRight)]

/-- Lookup in a dictionary given by its assignments: the last one counts (`_apply`, `_arithmetic.py` 428-431). -/
def lookup {R : Type} (reg : List ((Kind × Kind) × R)) (key : Kind × Kind) : Option R :=
  (reg.reverse.find? fun e => e.1 = key).map Prod.snd

/-! ## Environment and comparison of operators -/

/-- What a call depends on beyond its operands: the configuration entry `lazy_matrix_matrix_matmul`, python's
identity of objects, and whether a `lam` node is an instance of `LambdaLinearOperator` itself (as opposed to a
user-defined subclass of `LinearOperator`). -/
structure Env where
  lazy : Bool
  same : Op → Op → Bool
  lambdaClass : Bool

/-- `a == b`: `__eq__` of `Matrix` (`_linear_operator.py` 1664-1668), `Identity` (1755-1756) and `Scaling`
(`_scaling.py` 196-206); object identity for the other classes.  All three classes test
`isinstance(self, type(other))` (`_is_type_shape_dtype_equal`, 1139-1144).  They derive from `LambdaLinearOperator`, so
that this test succeeds if the other operand is an instance of that class itself, which has no attribute `A`,
`is_isotropic`; python asks them first (reflected `__eq__` of a subclass) if they are on the right. -/
noncomputable def eqOp (env : Env) (a b : Op) : Res Bool :=
  open Classical in
  match a, b with
  | .matrix h A, .matrix g B => .ok (decide (h.rows = g.rows ∧ h.cols = g.cols ∧ Eqv h.rows h.cols A B))
  | .identity h, .identity g => .ok (decide (h.rows = g.rows ∧ h.cols = g.cols))
  | .scaling h iso f, .scaling g jso e =>
    if ¬ (h.rows = g.rows ∧ h.cols = g.cols) then .ok false
    else (isIsotropic h.rows iso f) >>= fun i => (if i then isIsotropic g.rows jso e else .ok false) >>= fun j =>
      if i ∧ j then .ok (decide (f 0 = e 0))
      else if ¬ i then .ok (decide (∀ t < h.rows, f t = e t))
      else .ok false
  | .identity h, .lam g _ => .ok (env.lambdaClass && decide (h.rows = g.rows ∧ h.cols = g.cols))
  | .lam g _, .identity h => .ok (env.lambdaClass && decide (h.rows = g.rows ∧ h.cols = g.cols))
  | .matrix h _, .lam g _ =>
    if env.lambdaClass ∧ h.rows = g.rows ∧ h.cols = g.cols then .error .attributeError else .ok false
  | .lam g _, .matrix h _ =>
    if env.lambdaClass ∧ h.rows = g.rows ∧ h.cols = g.cols then .error .attributeError else .ok false
  | .scaling h _ _, .lam g _ =>
    if env.lambdaClass ∧ h.rows = g.rows ∧ h.cols = g.cols then .error .attributeError else .ok false
  | .lam g _, .scaling h _ _ =>
    if env.lambdaClass ∧ h.rows = g.rows ∧ h.cols = g.cols then .error .attributeError else .ok false
  | _, _ => .ok (env.same a b)

/-- `a is b or a == b` (`_kronecker.py` 208, 211, 219, 222). -/
noncomputable def isOrEq (env : Env) (a b : Op) : Res Bool :=
  if env.same a b then .ok true else eqOp env a b

/-! ## numpy broadcasting of two-dimensional arrays -/

/-- Length of a broadcast axis. -/
def bdim (a b : ℕ) : Option ℕ :=
  if a = b then some a else if a = 1 then some b else if b = 1 then some a else none

/-- Index into an axis of length `a` that is being broadcast. -/
def bidx (a i : ℕ) : ℕ := if a = 1 then 0 else i

/-- Elementwise operation on arrays of shapes `(r, c)` and `(s, d)`; incompatible shapes raise ValueError. -/
def broadcast (f : ℝ → ℝ → ℝ) (r c : ℕ) (A : Mat) (s d : ℕ) (B : Mat) : Res Op :=
  match bdim r s, bdim c d with
  | some m, some n => .ok (mkMatrix m n fun i j => f (A (bidx r i) (bidx c j)) (B (bidx s i) (bidx d j)))
  | _, _ => .error .valueError

/-! ## Unary minus -/

/-- `-a`: `__neg__` of `LinearOperator` (`_linear_operator.py` 916-920), `Matrix` (1670-1671),
`NegatedLinearOperator` and `SumLinearOperator` (`_arithmetic_fallbacks.py` 82-83, 139-140). -/
noncomputable def negOp : ℕ → Op → Res Op
  | 0, _ => .error .recursionError
  | n + 1, op =>
    match op with
    | .matrix h A => .ok (mkMatrix h.rows h.cols fun i j => - A i j)
    | .scaled _ true _ A => .ok A
    | .sum _ l => do
      let l' ← l.mapM (negOp n)
      mkSum l'
    | _ => mkScaled true (-1) op

/-! ## Sums and differences -/

/-- The two factors of a `Kronecker` or `IdentityKronecker` (`_kronecker.py` 100-101, 498). -/
def kronParts : Op → Option (Op × Op)
  | .kron _ A B => some (A, B)
  | .idkron _ k B => some (mkIdentity k, B)
  | _ => none

/-- The functions of `_add_fns`; `none` stands for `NotImplemented`.  `_scaling.py` 208-217, `_kronecker.py` 205-214,
540-546, `_arithmetic.py` 271, 348-359.  `rec` is `+` on the components. -/
noncomputable def runAdd (env : Env) (rec : Op → Op → Res Op) : AddRule → Op → Op → Res (Option Op)
  | .scaling, .scaling h _ f, .scaling g _ e =>
    if g.rows ≠ h.rows ∨ g.cols ≠ h.cols then .error .valueError
    else .ok (some (mkScalingAniso h.rows fun i => f i + e i))
  | .kron, .kron _ A B, .kron _ C D => do
    let p ← isOrEq env A C
    if p then do
      let S ← rec B D
      let r ← mkKron A S
      .ok (some r)
    else do
      let q ← isOrEq env B D
      if q then do
        let S ← rec A C
        let r ← mkKron S D
        .ok (some r)
      else .ok none
  | .idkron, .idkron _ k B, .idkron _ l D =>
    if k = l then do
      let S ← rec B D
      let r ← mkIdkron k S
      .ok (some r)
    else .ok none
  | .matrix, .matrix h A, .matrix g B => do
    let r ← broadcast (fun x y => x + y) h.rows h.cols A g.rows g.cols B
    .ok (some r)
  | .zeroLeft, z, op => if z.rows ≠ op.rows ∨ z.cols ≠ op.cols then .error .valueError else .ok (some op)
  | .zeroRight, op, z => if z.rows ≠ op.rows ∨ z.cols ≠ op.cols then .error .valueError else .ok (some op)
  | _, _, _ => .error .typeError

/-- `a + b` for operators (`add` with `_apply` and the fallback `SumLinearOperator`, `_arithmetic.py` 56-59,
404-437). -/
noncomputable def addOp (env : Env) : ℕ → Op → Op → Res Op
  | 0, _, _ => .error .recursionError
  | n + 1, a, b =>
    match lookup addReg (kind a, kind b) with
    | none => mkSum [a, b]
    | some r => (runAdd env (addOp env n) r a b) >>= fun o =>
      match o with
      | some c => .ok c
      | none => mkSum [a, b]

/-- The functions of `_sub_fns`: `_scaling.py` 219-228, `_kronecker.py` 216-225, 548-554, `_arithmetic.py` 272,
362-373.  `rec` is binary `-`, `neg` unary `-`. -/
noncomputable def runSub (env : Env) (rec : Op → Op → Res Op) (neg : Op → Res Op) :
    AddRule → Op → Op → Res (Option Op)
  | .scaling, .scaling h _ f, .scaling g _ e =>
    if g.rows ≠ h.rows ∨ g.cols ≠ h.cols then .error .valueError
    else .ok (some (mkScalingAniso h.rows fun i => f i - e i))
  | .kron, .kron _ A B, .kron _ C D => do
    let p ← isOrEq env A C
    if p then do
      let S ← rec B D
      let r ← mkKron A S
      .ok (some r)
    else do
      let q ← isOrEq env B D
      if q then do
        let S ← rec A C
        let r ← mkKron S D
        .ok (some r)
      else .ok none
  | .idkron, .idkron _ k B, .idkron _ l D =>
    if k = l then do
      let S ← rec B D
      let r ← mkIdkron k S
      .ok (some r)
    else .ok none
  | .matrix, .matrix h A, .matrix g B => do
    let r ← broadcast (fun x y => x - y) h.rows h.cols A g.rows g.cols B
    .ok (some r)
  | .zeroLeft, z, op =>
    if z.rows ≠ op.rows ∨ z.cols ≠ op.cols then .error .valueError
    else do
      let r ← neg op
      .ok (some r)
  | .zeroRight, op, z => if z.rows ≠ op.rows ∨ z.cols ≠ op.cols then .error .valueError else .ok (some op)
  | _, _, _ => .error .typeError

/-- `a - b` for operators (`sub`, `_arithmetic.py` 62-70; the fallback is `SumLinearOperator(a, -b)`). -/
noncomputable def subOp (env : Env) : ℕ → Op → Op → Res Op
  | 0, _, _ => .error .recursionError
  | n + 1, a, b =>
    let fallback : Res Op := do
      let m ← negOp n b
      mkSum [a, m]
    match lookup addReg (kind a, kind b) with
    | none => fallback
    | some r => (runSub env (subOp env n) (negOp n) r a b) >>= fun o =>
      match o with
      | some c => .ok c
      | none => fallback

/-! ## Products -/

/-- `np.all(selection.indices == embedding._put_indices)` (`_arithmetic.py` 322-323): elementwise comparison with
broadcasting; numpy yields False for shapes that do not broadcast. -/
def indicesEqual (p q : List ℕ) : Bool :=
  if p.length = q.length then p = q
  else if p.length = 1 then q.all fun j => p.getD 0 0 = j
  else if q.length = 1 then p.all fun i => i = q.getD 0 0
  else false

/-- The functions of `_matmul_fns`; `none` stands for `NotImplemented`.  `_scaling.py` 230-242, `_arithmetic.py`
123-128, 141-160, 190-215, 251-269, 275-288, 298-309, 318-327, 334-345; `_kronecker.py` 191-203, 526-538;
`_linear_operator.py` 1655-1662.  `rec` is `@` on the components, `n` the remaining depth. -/
noncomputable def runMatmul (env : Env) (n : ℕ) (rec : Op → Op → Res Op) : MatmulRule → Op → Op → Res (Option Op)
  | .scaling, .scaling h _ f, .scaling g _ e =>
    if g.rows ≠ h.rows ∨ g.cols ≠ h.cols then .error .valueError
    else .ok (some (mkScalingAniso h.rows fun i => f i * e i))
  | .scaledLeft, .scaled _ _ s A, b => do
    let p ← rec A b
    let r ← mulScalar n s p
    .ok (some r)
  | .scaledRight, a, .scaled _ _ s B => do
    let p ← rec a B
    let r ← mulScalar n s p
    .ok (some r)
  | .kron, a, b =>
    if a.cols ≠ b.rows then .error .valueError
    else match kronParts a, kronParts b with
      | some (A, B), some (C, D) =>
        if ¬ (A.cols = C.rows ∧ B.cols = D.rows) then .ok none
        else do
          let P ← rec A C
          let Q ← rec B D
          let r ← mkKron P Q
          .ok (some r)
      | _, _ => .error .typeError
  | .kronScaling, a, .scaling h iso f => mulIso a.cols h.rows h iso f a
  | .scalingKron, .scaling h iso f, b => mulIso h.cols b.rows h iso f b
  | .idkron, .idkron g k B, .idkron h l D =>
    if g.cols ≠ h.rows then .error .valueError
    else if ¬ (k = l ∧ B.cols = D.rows) then .ok none
    else do
      let Q ← rec B D
      let r ← mkIdkron k Q
      .ok (some r)
  | .idkronScaling, a, .scaling h iso f => mulIso a.cols h.rows h iso f a
  | .scalingIdkron, .scaling h iso f, b => mulIso h.cols b.rows h iso f b
  | .matrix, .matrix h A, .matrix g B =>
    if env.lazy then .ok none
    else if h.cols ≠ g.rows then .error .valueError
    else .ok (some (mkMatrix h.rows g.cols (mmul h.cols A B)))
  | .scalingMatrix, .scaling h _ f, .matrix g A => do
    let r ← broadcast (fun x y => x * y) h.rows 1 (fun i _ => f i) g.rows g.cols A
    .ok (some r)
  | .matrixScaling, .matrix g A, .scaling h _ f => do
    let r ← broadcast (fun x y => x * y) g.rows g.cols A 1 h.rows (fun _ j => f j)
    .ok (some r)
  | .opMatrix, a, .matrix g A => do
    let y ← matArr n a (β := Unit) g.rows g.cols fun _ => A
    .ok (some (mkMatrix a.rows g.cols (y ())))
  | .matrixOp, .matrix h A, b => do
    let y ← rmatArr n b h.cols A
    .ok (some (mkMatrix h.rows b.cols y))
  | .matrixWrapped, .matrix h A, b =>
    if env.lazy then .ok none
    else do
      let y ← rmatArr n b h.cols A
      .ok (some (mkMatrix h.rows b.cols y))
  | .wrappedMatrix, a, .matrix g A =>
    if env.lazy then .ok none
    else do
      let y ← matArr n a (β := Unit) g.rows g.cols fun _ => A
      .ok (some (mkMatrix a.rows g.cols (y ())))
  | .idLeft, a, b => if a.cols ≠ b.rows then .error .valueError else .ok (some b)
  | .idRight, a, b => if a.cols ≠ b.rows then .error .valueError else .ok (some a)
  | .selectionEmbedding, .selection h idx, .embedding g _ put _ =>
    if g.cols = h.rows ∧ indicesEqual idx put then .ok (some (mkIdentity h.rows)) else .ok none
  | .zeroLeft, a, b => if a.cols ≠ b.rows then .error .valueError else .ok (some (mkZero a.rows b.cols))
  | .zeroRight, a, b => if a.cols ≠ b.rows then .error .valueError else .ok (some (mkZero a.rows b.cols))
  | _, _, _ => .error .typeError
where
  /-- Product of a `Kronecker` or `IdentityKronecker` `op` and a scaling (`_arithmetic.py` 141-160, 190-215). -/
  mulIso (c r : ℕ) (h : Hdr) (iso : Bool) (f : ℕ → ℝ) (op : Op) : Res (Option Op) :=
    if c ≠ r then .error .valueError
    else (isIsotropic h.rows iso f) >>= fun i =>
      if i then do
        let p ← mulScalar n (f 0) op
        .ok (some p)
      else .ok none

/-- `a @ b` for operators (`matmul` with the fallback `ProductLinearOperator`, `_arithmetic.py` 77-78,
`_arithmetic_fallbacks.py` 244-252). -/
noncomputable def matmulOp (env : Env) : ℕ → Op → Op → Res Op
  | 0, _, _ => .error .recursionError
  | n + 1, a, b =>
    match lookup matmulReg (kind a, kind b) with
    | none => mkProd [a, b]
    | some r => (runMatmul env n (matmulOp env n) r a b) >>= fun o =>
      match o with
      | some c => .ok c
      | none => mkProd [a, b]

/-! ## Scalars and arrays as operands -/

/-- An operand of `+` or `-`. -/
inductive Operand where
  | op (a : Op)
  | scalar (s : ℝ)
  | array (r c : ℕ) (A : Mat)

/-- `_operand_to_linop` (`_arithmetic.py` 445-455); `Scaling(s, shape)` raises LinAlgError for a non-square shape
(`_scaling.py` 71-72). -/
noncomputable def toLinop (r c : ℕ) : Operand → Res Op
  | .op a => .ok a
  | .scalar s => if r ≠ c then .error .linAlgError else .ok (mkScalingIso r s)
  | .array m n A => .ok (mkMatrix m n A)

/-- `_operands_to_compatible_linops` (`_arithmetic.py` 458-472). -/
noncomputable def toLinops : Operand → Operand → Res (Op × Op)
  | .op a, y => do
    let b ← toLinop a.rows a.cols y
    .ok (a, b)
  | x, .op b => do
    let a ← toLinop b.rows b.cols x
    .ok (a, b)
  | _, _ => .error .typeError

/-- `x + y`, at least one of them an operator (`add`, `_arithmetic.py` 56-59). -/
noncomputable def add (env : Env) (n : ℕ) (x y : Operand) : Res Op := do
  let p ← toLinops x y
  addOp env n p.1 p.2

/-- `x - y` (`sub`, 62-70). -/
noncomputable def sub (env : Env) (n : ℕ) (x y : Operand) : Res Op := do
  let p ← toLinops x y
  subOp env n p.1 p.2

end Probnum.Linops
