import Verif.Linops.Vec
import Verif.Linops.Rank
import Mathlib.Data.EReal.Operations
import Mathlib.Analysis.SpecialFunctions.Log.Basic

/-! # Model of `linops/`: determinant, log-determinant, trace, diagonal, rank -/

namespace Probnum.Linops

open Finset

/-- `functools.reduce(operator.mul, …)`. -/
def reduceMul : List ℝ → Res ℝ
  | [] => .error .typeError
  | x :: l => .ok (l.foldl (· * ·) x)

/-- `np.log(np.abs(x))`, `-inf` for 0 (the second value of `np.linalg.slogdet`). -/
noncomputable def logAbs (x : ℝ) : EReal := if x = 0 then ⊥ else ((Real.log |x| : ℝ) : EReal)

/-- `det()` (`_linear_operator.py` 649-685) with the `_det` methods: 661-662, 1430-1434, 1479, 1513, 1714;
`_scaling.py` 91, 109-111, 140, 350; `_kronecker.py` 152-157, 464-468; `_arithmetic_fallbacks.py` 209-211; `_block.py`
110-113.  `1 / 0.0` is `inf` in numpy; here it is an error. -/
noncomputable def det : ℕ → Op → Res ℝ
  | 0, _ => .error .recursionError
  | n + 1, op =>
    if op.rows ≠ op.cols then .error .linAlgError
    else
      let generic : Res ℝ := do
        let D ← todense n op
        .ok (detM op.rows D)
      match op with
      | .identity _ => .ok 1
      | .scaling h iso f =>
        if iso then (if f 0 = 1 then .ok (f 0) else .ok (f 0 ^ h.rows)) else .ok (∏ i ∈ range h.rows, f i)
      | .zero _ => .ok 0
      | .kron _ A B =>
        if A.rows = A.cols ∧ B.rows = B.cols then do
          let a ← det n A
          let b ← det n B
          .ok (a ^ B.rows * b ^ A.rows)
        else generic
      | .idkron _ k B =>
        if B.rows = B.cols then do
          let a ← det n (mkIdentity k)
          let b ← det n B
          .ok (a ^ B.rows * b ^ k)
        else generic
      | .symkron _ same A _ =>
        if same then do
          let a ← det n A
          .ok (a ^ (2 * A.rows))
        else generic
      | .prod _ l => do
        let ds ← l.mapM (det n)
        reduceMul ds
      | .transposed _ A => det n A
      | .inverse _ A => do
        let a ← det n A
        if a = 0 then .error .zeroDivisionError else .ok (1 / a)
      | .block _ l =>
        if ∀ b ∈ l, b.rows = b.cols then do
          let ds ← l.mapM (det n)
          .ok ds.prod
        else generic
      | _ => generic

/-- `logabsdet()` (687-724) with the `_logabsdet` methods: 699-700, 1436-1440, 1480, 1514, 1715; `_scaling.py` 92-94,
112-116, 141; `_kronecker.py` 159-167, 470-474; `_arithmetic_fallbacks.py` 212-214; `_block.py` 115-118. -/
noncomputable def logabsdet : ℕ → Op → Res EReal
  | 0, _ => .error .recursionError
  | n + 1, op =>
    if op.rows ≠ op.cols then .error .linAlgError
    else
      let generic : Res EReal := do
        let D ← todense n op
        .ok (logAbs (detM op.rows D))
      match op with
      | .identity _ => .ok 0
      | .scaling h iso f =>
        if iso then
          if f 0 = 1 then .ok ((0 * f 0 : ℝ) : EReal)
          else if f 0 = 0 then .ok ⊥
          else .ok (((h.rows : ℝ) * Real.log |f 0| : ℝ) : EReal)
        else generic
      | .kron _ A B =>
        if A.rows = A.cols ∧ B.rows = B.cols then do
          let a ← logabsdet n A
          let b ← logabsdet n B
          .ok (((B.rows : ℝ) : EReal) * a + ((A.rows : ℝ) : EReal) * b)
        else generic
      | .idkron _ k B =>
        if B.rows = B.cols then do
          let a ← logabsdet n (mkIdentity k)
          let b ← logabsdet n B
          .ok (((B.rows : ℝ) : EReal) * a + ((k : ℝ) : EReal) * b)
        else generic
      | .symkron _ same A _ =>
        if same then do
          let a ← logabsdet n A
          .ok (((2 * A.rows : ℝ) : EReal) * a)
        else generic
      | .prod _ l => do
        let ds ← l.mapM (logabsdet n)
        reduceAdd ds
      | .transposed _ A => logabsdet n A
      | .inverse _ A => do
        let a ← logabsdet n A
        .ok (-a)
      | .block _ l =>
        if ∀ b ∈ l, b.rows = b.cols then do
          let ds ← l.mapM (logabsdet n)
          .ok ds.sum
        else generic
      | _ => generic

/-- `np.concatenate` of arrays with the given lengths. -/
def concatV : List (ℕ × (ℕ → ℝ)) → ℕ → ℝ
  | [], _ => 0
  | (n, x) :: l, i => if i < n then x i else concatV l (i - n)

/-- Length of the diagonal. -/
def diagLen (op : Op) : ℕ := min op.rows op.cols

/-- `diagonal()` (769-792), an array of length `diagLen`, with the `_diagonal` methods: 769-783, 1448-1452, 1482, 1634,
1721; `_scaling.py` 315-316, 353; `_kronecker.py` 175-178; `_arithmetic_fallbacks.py` 43, 116-118; `_block.py`
135-138. -/
noncomputable def diagonal : ℕ → Op → Res (ℕ → ℝ)
  | 0, _ => .error .recursionError
  | n + 1, op =>
    let generic : Res (ℕ → ℝ) := do
      let ds ← (List.range (diagLen op)).mapM fun i => do
        let y ← matVec n op op.cols fun j => if j = i then 1 else 0
        .ok (y i)
      .ok fun i => ds.getD i 0
    match op with
    | .matrix _ A => .ok fun i => A i i
    | .identity _ => .ok fun _ => 1
    | .scaling _ _ f => .ok f
    | .zero _ => .ok fun _ => 0
    | .kron _ A B =>
      if B.rows = B.cols then do
        let a ← diagonal n A
        let b ← diagonal n B
        .ok fun i => a (i / diagLen B) * b (i % diagLen B)
      else generic
    | .idkron _ k B =>
      if B.rows = B.cols then do
        let a ← diagonal n (mkIdentity k)
        let b ← diagonal n B
        .ok fun i => a (i / diagLen B) * b (i % diagLen B)
      else generic
    | .scaled _ _ s A => do
      let a ← diagonal n A
      .ok fun i => s * a i
    | .sum _ l => do
      let ds ← l.mapM (diagonal n)
      reduceAdd ds
    | .transposed _ A => diagonal n A
    | .block _ l =>
      if ∀ b ∈ l, b.rows = b.cols then do
        let ds ← l.mapM (diagonal n)
        .ok (concatV (List.zipWith (fun (a : Op) d => (diagLen a, d)) l ds))
      else generic
    | _ => generic

/-- `trace()` (726-767) with the `_trace` methods: 741, 1442-1446, 1481, 1633, 1718; `_scaling.py` 118, 142, 352;
`_kronecker.py` 169-173, 476-477; `_arithmetic_fallbacks.py` 42, 113-115; `_block.py` 120-123. -/
noncomputable def trace : ℕ → Op → Res ℝ
  | 0, _ => .error .recursionError
  | n + 1, op =>
    if op.rows ≠ op.cols then .error .linAlgError
    else
      let generic : Res ℝ := do
        let d ← diagonal n op
        .ok (∑ i ∈ range (diagLen op), d i)
      match op with
      | .matrix h A => .ok (∑ i ∈ range h.rows, A i i)
      | .identity h => .ok h.rows
      | .scaling h iso f => if iso then .ok (h.rows * f 0) else .ok (∑ i ∈ range h.rows, f i)
      | .zero _ => .ok 0
      | .kron _ A B =>
        if A.rows = A.cols ∧ B.rows = B.cols then do
          let a ← trace n A
          let b ← trace n B
          .ok (a * b)
        else generic
      | .idkron _ k B =>
        if B.rows = B.cols then do
          let a ← trace n (mkIdentity k)
          let b ← trace n B
          .ok (a * b)
        else generic
      | .symkron _ _ A B => do
        let a ← trace n A
        let b ← trace n B
        .ok (a * b)
      | .scaled _ _ s A => do
        let a ← trace n A
        .ok (s * a)
      | .sum _ l => do
        let ds ← l.mapM (trace n)
        reduceAdd ds
      | .transposed _ A => trace n A
      | .block _ l =>
        if ∀ b ∈ l, b.rows = b.cols then do
          let ds ← l.mapM (trace n)
          .ok ds.sum
        else generic
      | _ => generic

/-- `rank()` (525-537) with the `_rank` methods: 530, 1410-1414, 1478, 1711; `_scaling.py` 88, 104, 137, 348;
`_kronecker.py` 142-143, 458-462; `_block.py` 130-133.  `np.linalg.matrix_rank` is taken to be exact. -/
noncomputable def rank : ℕ → Op → Res ℕ
  | 0, _ => .error .recursionError
  | n + 1, op =>
    let generic : Res ℕ := do
      let D ← todense n op
      .ok (rankM op.rows op.cols D)
    match op with
    | .identity h => .ok h.rows
    | .scaling h iso f =>
      if iso then (if f 0 = 1 then .ok h.rows else if f 0 = 0 then .ok 0 else .ok h.rows)
      else .ok ((range h.rows).filter fun i => f i ≠ 0).card
    | .zero _ => .ok 0
    | .kron _ A B => do
      let a ← rank n A
      let b ← rank n B
      .ok (a * b)
    | .idkron _ k B => do
      let a ← rank n (mkIdentity k)
      let b ← rank n B
      .ok (a * b)
    | .symkron _ same A _ =>
      if same then do
        let a ← rank n A
        .ok (a ^ 2)
      else generic
    | .transposed _ A => rank n A
    | .block _ l =>
      if ∀ b ∈ l, b.rows = b.cols then do
        let ds ← l.mapM (rank n)
        .ok ds.sum
      else generic
    | _ => generic

end Probnum.Linops
