import Verif.Linops.Arith

/-! # Model of `linops/`: vectors as operands, `transpose(*axes)`, `symmetrize()` -/

namespace Probnum.Linops

/-- `self @ x` for a vector of length `cx` (`_linear_operator.py` 1206-1210). -/
noncomputable def matVec (n : ℕ) (op : Op) (cx : ℕ) (x : ℕ → ℝ) : Res (ℕ → ℝ) := do
  let y ← matArr n op (β := Unit) cx 1 fun _ i _ => x i
  .ok fun i => y () i 0

/-- `x @ self` for a vector of length `cx` (1229-1254). -/
noncomputable def vecMat (n : ℕ) (op : Op) (cx : ℕ) (x : ℕ → ℝ) : Res (ℕ → ℝ) := do
  let y ← rmatArr n op (β := Unit) cx fun _ => x
  .ok (y ())

/-- One axis argument of `transpose` (982-991).  `numpy.AxisError` is a ValueError. -/
def normAxis (a : ℤ) : Res ℕ :=
  if ¬ (-2 ≤ a ∧ a ≤ 1) then .error .valueError
  else if a < 0 then .ok (a + 2).toNat
  else .ok a.toNat

/-- `transpose(*axes)` (953-1003), the axes being given one by one or as a tuple. -/
noncomputable def transposeAxes (n : ℕ) (op : Op) (axes : List ℤ) : Res Op :=
  match axes with
  | [] => T n op
  | [a, b] => do
    let i ← normAxis a
    let j ← normAxis b
    if (i, j) = (0, 1) then .ok op
    else if (i, j) = (1, 0) then T n op
    else .error .valueError
  | _ => .error .valueError

/-- `symmetrize()` (1044-1095) with the `_symmetrize` methods: 1094-1095, 1673-1674; `_kronecker.py` 237-247, 449-456,
518-524; `_arithmetic_fallbacks.py` 69-73, 160-161. -/
noncomputable def symmetrizeOp (env : Env) : ℕ → Op → Res Op
  | 0, _ => .error .recursionError
  | n + 1, op =>
    if op.rows ≠ op.cols then .error .linAlgError
    else if op.fl.sym = some true then .ok op
    else
      let generic : Res Op := do
        let t ← T n op
        let s ← addOp env n op t
        mulScalar n 0.5 s
      (match op with
        | .matrix h A => .ok (mkMatrix h.rows h.cols ((0.5 : ℝ) • (A + trn A)))
        | .kron _ A B =>
          if A.rows = A.cols ∧ B.rows = B.cols then do
            let A' ← symmetrizeOp env n A
            let B' ← symmetrizeOp env n B
            mkKron A' B'
          else generic
        | .idkron _ k B => do
          let B' ← symmetrizeOp env n B
          mkIdkron k B'
        | .symkron _ same A B =>
          if same then do
            let A' ← symmetrizeOp env n A
            mkSymkron true A' A'
          else do
            let A' ← symmetrizeOp env n A
            let B' ← symmetrizeOp env n B
            mkSymkron false A' B'
        | .scaled _ _ s A => do
          let A' ← symmetrizeOp env n A
          mkScaled false s A'
        | .sum _ l => do
          let l' ← l.mapM (symmetrizeOp env n)
          mkSum l'
        | _ => generic) >>= fun c : Op => c.assign setSym (some true)

end Probnum.Linops
