import Mathlib.Data.Real.Sqrt
import Verif.Linops.Mat
import Verif.Py

/-!
# Model of `linops/`: operators, constructors, transposition, inversion, products and solves

An operator is a tree with one constructor per class.  Every node carries what the python object stores: its shape
and its four structure flags (`None`/`True`/`False`).  Since trees are built with arbitrary flags, a tree also
represents the operators whose flags were assigned after their construction.

Exact real entries; every operator has the same floating dtype (`Verif/Linops/Cast.lean` treats dtypes).  Results
that the python objects cache are recomputed: an operator is immutable but for its flags.  Every python call that can
recurse takes the remaining recursion depth as its first argument and raises RecursionError at depth 0.

Arrays `x` of shape `(…, N, K)` are families `β → Mat`, `β` being the index set of the leading axes.
-/

namespace Probnum.Linops

open Finset

/-! ## Objects -/

/-- The flags `_is_symmetric`, `_is_lower_triangular`, `_is_upper_triangular`, `_is_positive_definite`
(`_linear_operator.py` 96-101). -/
structure Flags where
  sym : Option Bool
  low : Option Bool
  up : Option Bool
  pd : Option Bool
  deriving DecidableEq

/-- Shape and flags of an operator object (`_linear_operator.py` 80-119). -/
structure Hdr where
  rows : ℕ
  cols : ℕ
  fl : Flags

/-- The operator classes of `linops/`. -/
inductive Op where
  /-- `Matrix` (`_linear_operator.py` 1602-1674), dense or sparse. -/
  | matrix (h : Hdr) (A : Mat)
  /-- A `LambdaLinearOperator` given only by its `matmul` callable (1264-1452), or an instance of a user-defined
  subclass that overrides only `_matmul`; the callable multiplies by `A`. -/
  | lam (h : Hdr) (A : Mat)
  /-- `Identity` (1677-1759). -/
  | identity (h : Hdr)
  /-- `Scaling` (`_scaling.py` 16-330); `iso` iff constructed from a scalar, then `f` is constant. -/
  | scaling (h : Hdr) (iso : Bool) (f : ℕ → ℝ)
  /-- `Zero` (`_scaling.py` 333-379). -/
  | zero (h : Hdr)
  /-- `Kronecker` (`_kronecker.py` 64-247). -/
  | kron (h : Hdr) (A B : Op)
  /-- `IdentityKronecker` (480-554). -/
  | idkron (h : Hdr) (k : ℕ) (B : Op)
  /-- `SymmetricKronecker` (279-477); `same` is `identical_factors`. -/
  | symkron (h : Hdr) (same : Bool) (A B : Op)
  /-- `Symmetrize` (13-60). -/
  | symmetrize (h : Hdr) (n : ℕ)
  /-- `ScaledLinearOperator` (`_arithmetic_fallbacks.py` 20-73); `NegatedLinearOperator` (76-86) if `neg`. -/
  | scaled (h : Hdr) (neg : Bool) (s : ℝ) (A : Op)
  /-- `SumLinearOperator` (89-161). -/
  | sum (h : Hdr) (l : List Op)
  /-- `ProductLinearOperator` (178-241). -/
  | prod (h : Hdr) (l : List Op)
  /-- `TransposedLinearOperator` (`_linear_operator.py` 1455-1494). -/
  | transposed (h : Hdr) (A : Op)
  /-- `_InverseLinearOperator` (1497-1544). -/
  | inverse (h : Hdr) (A : Op)
  /-- `Selection` (1762-1815). -/
  | selection (h : Hdr) (idx : List ℕ)
  /-- `Embedding` (1818-1870). -/
  | embedding (h : Hdr) (take put : List ℕ) (fill : ℝ)
  /-- `BlockDiagonalMatrix` (`_block.py` 15-155). -/
  | block (h : Hdr) (l : List Op)

/-- Shape and flags of the object. -/
def Op.hdr : Op → Hdr
  | .matrix h _ => h
  | .lam h _ => h
  | .identity h => h
  | .scaling h _ _ => h
  | .zero h => h
  | .kron h _ _ => h
  | .idkron h _ _ => h
  | .symkron h _ _ _ => h
  | .symmetrize h _ => h
  | .scaled h _ _ _ => h
  | .sum h _ => h
  | .prod h _ => h
  | .transposed h _ => h
  | .inverse h _ => h
  | .selection h _ => h
  | .embedding h _ _ _ => h
  | .block h _ => h

/-- The same object after an assignment to its flags. -/
def Op.withHdr (h : Hdr) : Op → Op
  | .matrix _ A => .matrix h A
  | .lam _ A => .lam h A
  | .identity _ => .identity h
  | .scaling _ i f => .scaling h i f
  | .zero _ => .zero h
  | .kron _ A B => .kron h A B
  | .idkron _ k B => .idkron h k B
  | .symkron _ s A B => .symkron h s A B
  | .symmetrize _ n => .symmetrize h n
  | .scaled _ g s A => .scaled h g s A
  | .sum _ l => .sum h l
  | .prod _ l => .prod h l
  | .transposed _ A => .transposed h A
  | .inverse _ A => .inverse h A
  | .selection _ i => .selection h i
  | .embedding _ t p f => .embedding h t p f
  | .block _ l => .block h l

abbrev Op.rows (a : Op) : ℕ := a.hdr.rows
abbrev Op.cols (a : Op) : ℕ := a.hdr.cols
abbrev Op.fl (a : Op) : Flags := a.hdr.fl

/-- The object with flags `fl`. -/
def Op.withFl (a : Op) (fl : Flags) : Op := a.withHdr ⟨a.rows, a.cols, fl⟩

/-- `is_square` (`_linear_operator.py` 417-420). -/
abbrev Op.isSquare (a : Op) : Prop := a.rows = a.cols

/-! ## Flags -/

/-- `_set_property` (495-519). -/
def setProp (cur v : Option Bool) : Res (Option Bool) :=
  if cur = v then .ok cur
  else match cur with
    | some _ => .error .valueError
    | none => .ok v

/-- `is_symmetric` setter (437-442). -/
def setSym (h : Hdr) (v : Option Bool) : Res Hdr :=
  if v = some true ∧ h.rows ≠ h.cols then .error .valueError
  else do
    let x ← setProp h.fl.sym v
    .ok { h with fl := { h.fl with sym := x } }

/-- `is_lower_triangular` setter (453-455). -/
def setLow (h : Hdr) (v : Option Bool) : Res Hdr := do
  let x ← setProp h.fl.low v
  .ok { h with fl := { h.fl with low := x } }

/-- `is_upper_triangular` setter (466-468). -/
def setUp (h : Hdr) (v : Option Bool) : Res Hdr := do
  let x ← setProp h.fl.up v
  .ok { h with fl := { h.fl with up := x } }

/-- `is_positive_definite` setter (488-493). -/
def setPd (h : Hdr) (v : Option Bool) : Res Hdr :=
  if v = some true ∧ h.fl.sym ≠ some true then .error .valueError
  else do
    let x ← setProp h.fl.pd v
    .ok { h with fl := { h.fl with pd := x } }

/-- `LinearOperator.__init__` (80-119): all flags unknown, except that a non-square operator is not symmetric. -/
def base (r c : ℕ) : Hdr := ⟨r, c, ⟨if r = c then none else some false, none, none, none⟩⟩

/-! ## Constructors -/

/-- `Matrix(A)` (1611-1635). -/
def mkMatrix (r c : ℕ) (A : Mat) : Op := .matrix (base r c) A

/-- `Identity(n)` (1686-1729). -/
def mkIdentity (n : ℕ) : Op := .identity ⟨n, n, ⟨some true, some true, some true, some true⟩⟩

/-- `Scaling(scalar, shape=(n, n))` (`_scaling.py` 41-171). -/
noncomputable def mkScalingIso (n : ℕ) (s : ℝ) : Op :=
  .scaling ⟨n, n, ⟨some true, some true, some true, some (decide (0 < s))⟩⟩ true fun _ => s

/-- `Scaling(factors)` (`_scaling.py` 119-171). -/
def mkScalingAniso (n : ℕ) (f : ℕ → ℝ) : Op :=
  .scaling ⟨n, n, ⟨some true, some true, some true, none⟩⟩ false f

/-- `Zero(shape)` (`_scaling.py` 346-379). -/
def mkZero (r c : ℕ) : Op :=
  .zero (if r = c then ⟨r, c, ⟨some true, some true, some true, some false⟩⟩ else base r c)

/-- `Kronecker(A, B)` (`_kronecker.py` 104-117). -/
def mkKron (A B : Op) : Res Op := do
  let h := base (A.rows * B.rows) (A.cols * B.cols)
  let h ← if A.fl.sym = some true ∧ B.fl.sym = some true then setSym h (some true) else .ok h
  .ok (.kron h A B)

/-- `IdentityKronecker(num_blocks, B)` (`_kronecker.py` 491-497). -/
def mkIdkron (k : ℕ) (B : Op) : Res Op := do
  let h := base (k * B.rows) (k * B.cols)
  let h ← if B.fl.sym = some true then setSym h (some true) else .ok h
  let h ← if B.fl.sym = some true then setSym h (some true) else .ok h
  .ok (.idkron h k B)

/-- `SymmetricKronecker(A, B)` (`_kronecker.py` 315-346); `same` if `B is None`, then the caller passes `A`. -/
def mkSymkron (same : Bool) (A B : Op) : Res Op :=
  if A.rows ≠ A.cols then .error .valueError
  else if B.rows ≠ A.rows ∨ B.cols ≠ A.cols then .error .valueError
  else do
    let h := base (A.rows * A.rows) (A.rows * A.rows)
    let h ← if A.fl.sym = some true ∧ B.fl.sym = some true then setSym h (some true) else .ok h
    .ok (.symkron h same A B)

/-- `Symmetrize(n)` (`_kronecker.py` 28-31). -/
def mkSymmetrize (n : ℕ) : Op := .symmetrize (base (n * n) (n * n)) n

/-- `ScaledLinearOperator(A, s)` (`_arithmetic_fallbacks.py` 23-56), `NegatedLinearOperator` (79-80). -/
noncomputable def mkScaled (neg : Bool) (s : ℝ) (A : Op) : Res Op := do
  let h ← setSym (base A.rows A.cols) A.fl.sym
  let h ← setLow h A.fl.low
  let h ← setUp h A.fl.up
  let h ←
    if A.fl.pd = some true then (if 0 < s then setPd h (some true) else setPd h (some false)) else .ok h
  .ok (.scaled h neg s A)

/-- `_expand_sum_ops` (`_arithmetic_fallbacks.py` 148-158). -/
def expandSum : List Op → List Op
  | [] => []
  | .sum _ l :: t => l ++ expandSum t
  | a :: t => a :: expandSum t

/-- `SumLinearOperator(*l)` (`_arithmetic_fallbacks.py` 92-132). -/
def mkSum (l : List Op) : Res Op :=
  match l with
  | [] => .error .indexError
  | a :: _ =>
    if ¬ ∀ b ∈ l, b.rows = a.rows ∧ b.cols = a.cols then .error .valueError
    else do
      let s := expandSum l
      let h := base a.rows a.cols
      let h ← if ∀ b ∈ s, b.fl.sym = some true then setSym h (some true) else .ok h
      let h ← if ∀ b ∈ s, b.fl.low = some true then setLow h (some true) else .ok h
      let h ← if ∀ b ∈ s, b.fl.up = some true then setUp h (some true) else .ok h
      let h ← if ∀ b ∈ s, b.fl.pd = some true then setPd h (some true) else .ok h
      .ok (.sum h s)

/-- `_expand_prod_ops` (`_arithmetic_fallbacks.py` 222-232). -/
def expandProd : List Op → List Op
  | [] => []
  | .prod _ l :: t => l ++ expandProd t
  | a :: t => a :: expandProd t

/-- The consecutive factors of a product match (`_arithmetic_fallbacks.py` 182-185). -/
def chained : List Op → Prop
  | [] => True
  | [_] => True
  | a :: b :: t => a.cols = b.rows ∧ chained (b :: t)

instance : DecidablePred chained := fun l => by
  induction l with
  | nil => exact .isTrue trivial
  | cons a t ih =>
    cases t with
    | nil => exact .isTrue trivial
    | cons b t => exact instDecidableAnd (dp := inferInstance) (dq := ih)

/-- `shape[1]` of the last factor. -/
def lastCols : ℕ → List Op → ℕ
  | d, [] => d
  | _, a :: t => lastCols a.cols t

/-- `ProductLinearOperator(*l)` (`_arithmetic_fallbacks.py` 181-215). -/
def mkProd (l : List Op) : Res Op :=
  if ¬ chained l then .error .valueError
  else match expandProd l with
    | [] => .error .indexError
    | a :: t => .ok (.prod (base a.rows (lastCols a.cols t)) (a :: t))

/-- `TransposedLinearOperator(A)` (`_linear_operator.py` 1458-1483). -/
def mkTransposed (A : Op) : Op := .transposed (base A.cols A.rows) A

/-- `_InverseLinearOperator(A)` (1498-1519). -/
def mkInverse (A : Op) : Res Op :=
  if A.rows ≠ A.cols then .error .linAlgError
  else do
    let h ← setSym (base A.rows A.cols) A.fl.sym
    let h ← setPd h A.fl.pd
    .ok (.inverse h A)

/-- `Selection(indices, (r, c))` (1776-1801). -/
def mkSelection (idx : List ℕ) (r c : ℕ) : Res Op :=
  if c < r then .error .valueError
  else if idx.length ≠ r then .error .assertionError
  else .ok (.selection (base r c) idx)

/-- `Embedding(take_indices, put_indices, (r, c), fill_value)` (1822-1857). -/
def mkEmbedding (take put : List ℕ) (fill : ℝ) (r c : ℕ) : Res Op :=
  if r < c then .error .valueError
  else .ok (.embedding (base r c) take put fill)

/-- `BlockDiagonalMatrix._infer_property` (`_block.py` 69-76). -/
def inferProp (p : Op → Option Bool) (l : List Op) : Option Bool :=
  if ∀ b ∈ l, p b = some true then some true
  else if ∃ b ∈ l, p b = some false then some false
  else none

/-- `BlockDiagonalMatrix(*l)` (`_block.py` 33-61). -/
def mkBlock (l : List Op) : Res Op :=
  if l = [] then .error .valueError
  else do
    let h := base (l.map Op.rows).sum (l.map Op.cols).sum
    let h ← setSym h (inferProp (fun b => b.fl.sym) l)
    let h ← setPd h (inferProp (fun b => b.fl.pd) l)
    let h ← setUp h (inferProp (fun b => b.fl.up) l)
    let h ← setLow h (inferProp (fun b => b.fl.low) l)
    .ok (.block h l)

/-! ## Scalar multiples and transposition -/

/-- `Scaling.is_isotropic` (`_scaling.py` 189-194); `factors[0]` of an empty array raises IndexError. -/
noncomputable def isIsotropic (n : ℕ) (iso : Bool) (f : ℕ → ℝ) : Res Bool :=
  if iso then .ok true
  else if n = 0 then .error .indexError
  else .ok (decide (∀ i < n, f i = f 0))

/-- `s * a` and `a * s` for a scalar `s` (`mul` with `_mul_fns`, `_arithmetic.py` 101-116, 163-182, 218-243,
258-259, 376-387, and `_mul_fallback`).  The functions registered for `(np.number, X)` and `(X, np.number)` compute
the same. -/
noncomputable def mulScalar : ℕ → ℝ → Op → Res Op
  | 0, _, _ => .error .recursionError
  | n + 1, s, op =>
    match op with
    | .scaling h iso f => do
      let i ← isIsotropic h.rows iso f
      if i then .ok (mkScalingIso h.rows (s * f 0)) else .ok (mkScalingAniso h.rows fun i => s * f i)
    | .kron _ A B =>
      if s < 0 then mkScaled false s op
      else do
        let A' ← mulScalar n (Real.sqrt s) A
        let B' ← mulScalar n (Real.sqrt s) B
        mkKron A' B'
    | .idkron _ k B => do
      let B' ← mulScalar n s B
      mkIdkron k B'
    | .matrix h A => .ok (mkMatrix h.rows h.cols (s • A))
    | .zero h => .ok (.zero h)
    | _ => mkScaled false s op

/-- The flag assignments at the end of `T` (`_linear_operator.py` 946-949). -/
def copyFlags (op t : Op) : Res Op := do
  let h ← setUp t.hdr op.fl.low
  let h ← setLow h op.fl.up
  let h ← setSym h op.fl.sym
  let h ← setPd h op.fl.pd
  .ok (t.withHdr h)

/-- `_transpose` of all classes: `_linear_operator.py` 922-936, 1476, 1508-1511, 1637-1638, 1709, 1796-1800, 1854-1856;
`_scaling.py` 155, 365; `_kronecker.py` 131-133, 423-427, 504-506; `_arithmetic_fallbacks.py` 40, 110-112, 203-205;
`_block.py` 90-91.  `rec` is `T` of the components, `n` the remaining depth for scalar multiples. -/
noncomputable def transposeOf (n : ℕ) (rec : Op → Res Op) : Op → Res Op
  | .matrix h A => .ok (mkMatrix h.cols h.rows (trn A))
  | .lam h A => .ok (mkTransposed (.lam h A))
  | .identity h => .ok (.identity h)
  | .scaling h iso f => .ok (.scaling h iso f)
  | .zero h => .ok (mkZero h.cols h.rows)
  | .kron _ A B => do
    let A' ← rec A
    let B' ← rec B
    mkKron A' B'
  | .idkron _ k B => do
    let B' ← rec B
    mkIdkron k B'
  | .symkron _ same A B => do
    let A' ← rec A
    if same then mkSymkron true A' A'
    else do
      let B' ← rec B
      mkSymkron false A' B'
  | .symmetrize h n => .ok (mkTransposed (.symmetrize h n))
  | .scaled _ _ s A => do
    let A' ← rec A
    mulScalar n s A'
  | .sum _ l => do
    let l' ← l.mapM rec
    mkSum l'
  | .prod _ l => do
    let l' ← l.reverse.mapM rec
    mkProd l'
  | .transposed _ A => .ok A
  | .inverse h A => .ok (mkTransposed (.inverse h A))
  | .selection h idx => mkEmbedding (List.range idx.length) idx 0 h.cols h.rows
  | .embedding h _ put _ => mkSelection put h.cols h.rows
  | .block _ l => do
    let l' ← l.mapM rec
    mkBlock l'

/-- `T` (`_linear_operator.py` 938-951).  `T` of a `TransposedLinearOperator` is the wrapped operator itself; the flag
assignments made on it are part of the result here. -/
noncomputable def T : ℕ → Op → Res Op
  | 0, _ => .error .recursionError
  | n + 1, op =>
    if op.fl.sym = some true then .ok op
    else do
      let t ← transposeOf n (T n) op
      copyFlags op t

/-! ## Inverses -/

/-- `inv()` (`_linear_operator.py` 1023-1042) with the `_inverse` methods: 1005-1021, 1477, 1512, 1710;
`_scaling.py` 86, 102, 135, 258-268; `_kronecker.py` 135-140, 429-434, 508-510; `_arithmetic_fallbacks.py` 60-64,
206-208; `_block.py` 102-105. -/
noncomputable def inv : ℕ → Op → Res Op
  | 0, _ => .error .recursionError
  | n + 1, op =>
    if op.rows ≠ op.cols then .error .linAlgError
    else match op with
      | .identity _ => .ok op
      | .scaling h iso f =>
        if iso then
          if f 0 = 1 then .ok op
          else if f 0 = 0 ∧ 0 < h.rows then .error .linAlgError
          else .ok (mkScalingIso h.rows (1 / f 0))
        else if ∃ i < h.rows, f i = 0 then .error .linAlgError
        else .ok (mkScalingAniso h.rows fun i => 1 / f i)
      | .kron _ A B =>
        if A.rows = A.cols ∧ B.rows = B.cols then do
          let A' ← inv n A
          let B' ← inv n B
          mkKron A' B'
        else mkInverse op
      | .idkron _ k B => do
        let B' ← inv n B
        mkIdkron k B'
      | .symkron _ same A _ =>
        if same then do
          let A' ← inv n A
          mkSymkron true A' A'
        else mkInverse op
      | .scaled _ _ s A =>
        if s = 0 then .error .linAlgError
        else do
          let A' ← inv n A
          mkScaled false (1 / s) A'
      | .prod _ l => do
        let l' ← l.reverse.mapM (inv n)
        mkProd l'
      | .transposed _ A => do
        let A' ← inv n A
        T n A'
      | .inverse _ A => .ok A
      | .block _ l =>
        if ∀ b ∈ l, b.rows = b.cols then do
          let l' ← l.mapM (inv n)
          mkBlock l'
        else mkInverse op
      | _ => mkInverse op

/-! ## Dense linear algebra (numpy / scipy), by contract -/

/-- `scipy.linalg.lu_solve` with `_lu_factor` (881-910), which raises on an exactly singular matrix. -/
noncomputable def luSolve {β : Type} (n : ℕ) (D : Mat) (B : β → Mat) : Res (β → Mat) :=
  if detM n D = 0 then .error .linAlgError else .ok fun b => mmul n (invM n D) (B b)

/-- The triangle of `D` that `solve_triangular` / `cho_solve` read. -/
def triangle (lower : Bool) (D : Mat) : Mat :=
  fun i j => if lower then (if j ≤ i then D i j else 0) else (if i ≤ j then D i j else 0)

/-- `L` is the Cholesky factor of the symmetric matrix whose `lower` triangle is that of `D`. -/
def IsChol (n : ℕ) (lower : Bool) (D L : Mat) : Prop :=
  (∀ i < n, ∀ j < n, (if lower then i < j else j < i) → L i j = 0) ∧ (∀ i < n, 0 < L i i) ∧
    ∀ i < n, ∀ j < n, (if lower then j ≤ i else i ≤ j) →
      (if lower then mmul n L (trn L) else mmul n (trn L) L) i j = D i j

open Classical in
/-- `scipy.linalg.cholesky(D, lower)`: the factor, or LinAlgError if there is none. -/
noncomputable def chol (n : ℕ) (lower : Bool) (D : Mat) : Res Mat :=
  if h : ∃ L, IsChol n lower D L then .ok h.choose else .error .linAlgError

/-! ## Products with arrays, dense matrices, solves, Cholesky factors -/

/-- `functools.reduce(operator.add, …)`. -/
def reduceAdd {α : Type} [Add α] : List α → Res α
  | [] => .error .typeError
  | a :: l => .ok (l.foldl (· + ·) a)

/-- `functools.reduce(lambda vec, op: op @ vec, reversed(factors), x)` (`_arithmetic_fallbacks.py` 196-198); `rx` is
the number of rows of `x`. -/
def prodApply {β : Type} (f : Op → ℕ → (β → Mat) → Res (β → Mat)) : List Op → ℕ → (β → Mat) → Res (ℕ × (β → Mat))
  | [], rx, x => .ok (rx, x)
  | op :: l, rx, x => do
    let p ← prodApply f l rx x
    let z ← f op p.1 p.2
    .ok (op.rows, z)

/-- `functools.reduce(lambda b, op: op.solve(b), factors, B)` (`_arithmetic_fallbacks.py` 240-241). -/
def prodSolve {β : Type} (f : Op → ℕ → (β → Mat) → Res (β → Mat)) : List Op → ℕ → (β → Mat) → Res (β → Mat)
  | [], _, b => .ok b
  | op :: l, rb, b => do
    let x ← f op rb b
    prodSolve f l op.cols x

/-- `functools.reduce(operator.matmul, …)` on dense matrices with the given numbers of columns
(`_arithmetic_fallbacks.py` 199-202). -/
def reduceMatmul : List (ℕ × Mat) → Res Mat
  | [] => .error .typeError
  | (c, M) :: l => .ok (l.foldl (fun (p : ℕ × Mat) q => (q.1, mmul p.1 p.2 q.2)) (c, M)).2

/-- `np.split(x, split_indices, axis=-2)` (`_block.py` 78-79), the pieces having the given numbers of rows. -/
def splitRows {β : Type} : List ℕ → (β → Mat) → List (β → Mat)
  | [], _ => []
  | c :: cs, x => x :: splitRows cs fun b i j => x b (i + c) j

/-- `np.concatenate(…, axis=-2)` (`_block.py` 81-88), with the number of rows of every piece. -/
def concatRows {β : Type} : List (ℕ × (β → Mat)) → β → Mat
  | [], _, _, _ => 0
  | (r, y) :: l, b, i, j => if i < r then y b i j else concatRows l b (i - r) j

/-- `scipy.linalg.block_diag` (`_block.py` 107-108), the blocks with their shapes. -/
def blockM : List (ℕ × ℕ × Mat) → Mat
  | [], _, _ => 0
  | (r, c, M) :: l, i, j =>
    if i < r then (if j < c then M i j else 0) else (if j < c then 0 else blockM l (i - r) (j - c))

/-- Last position at which `put` lists `i`: the assignment `res[..., put, :] = …` with repeated indices keeps the last
value. -/
def lastPos (put : List ℕ) (i : ℕ) : Option ℕ := ((List.range put.length).filter fun p => put.getD p 0 = i).getLast?

/-- `_embedding_matmul` (`_linear_operator.py` 1863-1870): numpy index checks and broadcasting of the assigned value,
then the assignment. -/
def embeddingMatmul {β : Type} (take put : List ℕ) (fill : ℝ) (r rx : ℕ) (x : β → Mat) : Res (β → Mat) :=
  if ∃ t ∈ take, rx ≤ t then .error .indexError
  else if ∃ p ∈ put, r ≤ p then .error .indexError
  else if take.length ≠ put.length ∧ take.length ≠ 1 then .error .valueError
  else .ok fun b i j => match lastPos put i with
    | none => fill
    | some p => x b (take.getD (if take.length = put.length then p else 0) 0) j

/-- The reshaping in `_kronecker_matmul` (`_kronecker.py` 258-267): `vec(X) ↦ X`, one matrix of shape `(·, cB)` for
every column of `x`. -/
def unvec {β : Type} (cB : ℕ) (x : β → Mat) : β × ℕ → Mat := fun p i j => x p.1 (i * cB + j) p.2

/-- `np.swapaxes(·, -1, -2)` on a stack. -/
def swap {β : Type} (x : β → Mat) : β → Mat := fun b => trn (x b)

/-- Reshaping back (`_kronecker.py` 272-274): row-major `vec` of matrices with `c` columns. -/
def revec {β : Type} (c : ℕ) (y : β × ℕ → Mat) : β → Mat := fun b i k => y (b, k) (i / c) (i % c)

/-- Assignment of one flag of a returned object. -/
def Op.assign (f : Hdr → Option Bool → Res Hdr) (v : Option Bool) (c : Op) : Res Op := do
  let h ← f c.hdr v
  .ok (c.withHdr h)

mutual

/-- `self @ x` for an array `x` of shape `(…, rx, k)` (`__matmul__`, 1170-1227) with the `_matmul` methods of all
classes: 1377-1378, 1465-1474, 1507 with 1524-1544, 1623, 1704, 1794, 1852; `_scaling.py` 76-78, 96, 127, 355-358;
`_kronecker.py` 42-61, 119-120, 375-405; `_arithmetic_fallbacks.py` 38, 103-105, 196-198; `_block.py` 81-88. -/
noncomputable def matArr : ℕ → Op → {β : Type} → ℕ → ℕ → (β → Mat) → Res (β → Mat)
  | 0, _, _, _, _, _ => .error .recursionError
  | n + 1, op, β, rx, k, x =>
    if rx ≠ op.cols then .error .valueError
    else match op with
      | .matrix h A => .ok fun b => mmul h.cols A (x b)
      | .lam h A => .ok fun b => mmul h.cols A (x b)
      | .identity _ => .ok x
      | .scaling _ _ f => .ok fun b i j => f i * x b i j
      | .zero _ => .ok fun _ => 0
      | .kron _ A B => do
        let y ← matArr n B B.cols A.cols (swap (unvec B.cols x))
        let z ← matArr n A A.cols B.rows (swap y)
        .ok (revec B.rows z)
      | .idkron _ m B => do
        let y ← matArr n B B.cols m (swap (unvec B.cols x))
        let z ← matArr n (mkIdentity m) m B.rows (swap y)
        .ok (revec B.rows z)
      | .symkron _ same A B =>
        if same then do
          let y ← matArr n A A.cols A.cols (swap (unvec A.cols x))
          let z ← matArr n A A.cols A.rows (swap y)
          .ok (revec A.rows z)
        else do
          let y := unvec A.rows x
          let y1 ← matArr n B A.rows A.rows (swap y)
          let y1 ← matArr n A A.rows A.rows (swap y1)
          let y2 ← matArr n A A.rows A.rows (swap y)
          let y2 ← matArr n B A.rows A.rows (swap y2)
          .ok (revec A.rows fun p => (0.5 : ℝ) • (y1 p + y2 p))
      | .symmetrize _ m => .ok (revec m fun p => (0.5 : ℝ) • (unvec m x p + swap (unvec m x) p))
      | .scaled _ _ s A => do
        let y ← matArr n A rx k x
        .ok fun b => s • y b
      | .sum _ l => do
        let ys ← l.mapM fun a => matArr n a rx k x
        reduceAdd ys
      | .prod _ l => do
        let p ← prodApply (fun a ry y => matArr n a ry k y) l rx x
        .ok p.2
      | .transposed h A =>
        match A with
        | .inverse g C =>
          if g.fl.sym = some true ∧ g.fl.pd ≠ some false then
            match (cholesky n C false >>= fun U => todense n U) with
            | .ok U => luSolve C.rows (mmul C.rows (trn (triangle false U)) (triangle false U)) x
            | .error .linAlgError => do
              let D ← todense n C
              luSolve C.rows (trn D) x
            | .error e => .error e
          else do
            let D ← todense n C
            luSolve C.rows (trn D) x
        | _ => do
          let D ← todense n A
          .ok fun b => mmul h.cols (trn D) (x b)
      | .inverse _ A => solveArr n A rx k x
      | .selection _ idx =>
        if ∃ i ∈ idx, rx ≤ i then .error .indexError
        else .ok fun b i j => x b (idx.getD i 0) j
      | .embedding h take put fill => embeddingMatmul take put fill h.rows rx x
      | .block _ l => do
        let ys ← (l.zip (splitRows (l.map Op.cols) x)).mapM fun p => matArr n p.1 p.1.cols k p.2
        .ok (concatRows ((l.map Op.rows).zip ys))

/-- `todense()` (373-411) with the `_todense` methods: 373-383, 1475, 1624, 1708, 1809-1811, 1859-1860;
`_scaling.py` 84, 100, 133, 253-256, 347; `_kronecker.py` 128-129, 413-421; `_arithmetic_fallbacks.py` 39, 106-109,
199-202; `_block.py` 107-108. -/
noncomputable def todense : ℕ → Op → Res Mat
  | 0, _ => .error .recursionError
  | n + 1, op =>
    match op with
    | .matrix _ A => .ok A
    | .identity _ => .ok eye
    | .scaling _ _ f => .ok fun i j => if i = j then f i else 0
    | .zero _ => .ok 0
    | .kron _ A B => do
      let a ← todense n A
      let b ← todense n B
      .ok (kronM B.rows B.cols a b)
    | .idkron _ m B => do
      let a ← todense n (mkIdentity m)
      let b ← todense n B
      .ok (kronM B.rows B.cols a b)
    | .symkron _ same A B =>
      if same then do
        let a ← todense n A
        .ok (kronM A.rows A.cols a a)
      else do
        let a ← todense n A
        let b ← todense n B
        .ok ((0.5 : ℝ) • (kronM B.rows B.cols a b + kronM A.rows A.cols b a))
    | .scaled _ _ s A => do
      let a ← todense n A
      .ok (s • a)
    | .sum _ l => do
      let ms ← l.mapM (todense n)
      reduceAdd ms
    | .prod _ l => do
      let ms ← l.mapM (todense n)
      reduceMatmul ((l.map Op.cols).zip ms)
    | .transposed _ A => do
      let a ← todense n A
      .ok (trn a)
    | .selection h idx =>
      if ∃ i ∈ idx, h.cols ≤ i then .error .indexError
      else .ok fun i j => eye (idx.getD i 0) j
    | .embedding _ _ _ _ => do
      let t ← T n op
      let d ← todense n t
      .ok (trn d)
    | .block _ l => do
      let ms ← l.mapM (todense n)
      .ok (blockM (List.zipWith (fun (a : Op) m => (a.rows, a.cols, m)) l ms))
    | _ => do
      let y ← matArr n op (β := Unit) op.cols op.cols fun _ => eye
      .ok (y ())

/-- `solve(b)` for an array of shape `(…, rb, k)` (222-266) with the `_solve` methods: 268-316, 1386-1390, 1731-1732;
`_scaling.py` 153; `_kronecker.py` 122-126, 407-411; `_arithmetic_fallbacks.py` 57-58, 240-241; `_block.py` 93-100. -/
noncomputable def solveArr : ℕ → Op → {β : Type} → ℕ → ℕ → (β → Mat) → Res (β → Mat)
  | 0, _, _, _, _, _ => .error .recursionError
  | n + 1, op, β, rb, k, B =>
    if op.rows ≠ op.cols then .error .linAlgError
    else if rb ≠ op.rows then .error .valueError
    else
      let viaInv : Res (β → Mat) := do
        let i ← inv n op
        matArr n i rb k B
      let lu : Res (β → Mat) := do
        let D ← todense n op
        luSolve op.rows D B
      let dense : Res (β → Mat) :=
        if op.fl.low = some true ∨ op.fl.up = some true then do
          let D ← todense n op
          luSolve op.rows (triangle (op.fl.low = some true) D) B
        else if op.fl.sym = some true ∧ op.fl.pd ≠ some false then
          match (cholesky n op false >>= fun U => todense n U) with
          | .ok U => luSolve op.rows (mmul op.rows (trn (triangle false U)) (triangle false U)) B
          | .error .linAlgError => lu
          | .error e => .error e
        else lu
      match op with
      | .identity _ => .ok B
      | .scaling _ _ _ => viaInv
      | .kron _ A C => if A.rows = A.cols ∧ C.rows = C.cols then viaInv else dense
      | .idkron _ _ C => if C.rows = C.cols then viaInv else dense
      | .symkron _ same _ _ => if same then viaInv else dense
      | .scaled _ _ _ _ => viaInv
      | .prod _ l => prodSolve (fun a r b => solveArr n a r k b) l rb B
      | .block _ l => do
        let ys ← (l.zip (splitRows (l.map Op.cols) B)).mapM fun p => solveArr n p.1 p.1.cols k p.2
        .ok (concatRows ((l.map Op.cols).zip ys))
      | _ => dense

/-- `cholesky(lower)` (798-872) with the `_cholesky` methods: 874-879, 1493-1494, 1758-1759; `_scaling.py` 318-330;
`_kronecker.py` 227-235, 443-447, 512-516; `_block.py` 140-145.  The factor is recomputed instead of cached; the
assignment of `is_positive_definite` on `self` is modelled in `Verif/Linops/FlagState.lean`. -/
noncomputable def cholesky : ℕ → Op → Bool → Res Op
  | 0, _, _ => .error .recursionError
  | n + 1, op, lower =>
    if op.fl.sym ≠ some true then .error .linAlgError
    else if op.fl.pd = some false then .error .linAlgError
    else
      let dense : Res Op := do
        let D ← todense n op
        let L ← chol op.rows lower D
        .ok (mkMatrix op.rows op.cols L)
      (match op with
        | .identity _ => .ok op
        | .scaling h iso f =>
          if ∃ i < h.rows, f i ≤ 0 then .error .linAlgError
          else if iso then .ok (mkScalingIso h.rows (Real.sqrt (f 0)))
          else .ok (mkScalingAniso h.rows fun i => Real.sqrt (f i))
        | .kron _ A B =>
          if ¬ (A.fl.sym = some true ∧ B.fl.sym = some true) then .error .assertionError
          else do
            let A' ← cholesky n A lower
            let B' ← cholesky n B lower
            mkKron A' B'
        | .idkron _ m B => do
          let B' ← cholesky n B lower
          mkIdkron m B'
        | .symkron _ same A _ =>
          if same then do
            let A' ← cholesky n A lower
            mkSymkron true A' A'
          else dense
        | .block _ l =>
          if ∀ b ∈ l, b.rows = b.cols then do
            let l' ← l.mapM fun b => cholesky n b lower
            mkBlock l'
          else dense
        | .transposed _ _ => cholesky n op lower
        | _ => dense) >>= fun c : Op =>
      if lower then c.assign setLow (some true) else c.assign setUp (some true)

end

/-- `x @ self` for an array of shape `(…, cx)`, a family of vectors (`__rmatmul__`, 1229-1254, with `__call__`,
167-220, for the last axis). -/
noncomputable def rmatArr {β : Type} (n : ℕ) (op : Op) (cx : ℕ) (x : β → ℕ → ℝ) : Res (β → ℕ → ℝ) :=
  if cx ≠ op.rows then .error .valueError
  else do
    let t ← T n op
    let y ← matArr n t cx 1 fun b i _ => x b i
    .ok fun b i => y b i 0

end Probnum.Linops
