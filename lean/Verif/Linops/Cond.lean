import Verif.Linops.Derived
import Mathlib.LinearAlgebra.Matrix.Charpoly.Eigs
import Mathlib.Analysis.Complex.Polynomial.Basic
import Mathlib.Data.ENNReal.Real

/-!
# Model of `linops/`: condition numbers and eigenvalues

`np.linalg.cond`, `np.linalg.norm`, `np.linalg.svd` and `np.linalg.eigvals` are exact: the largest and the smallest
singular value are the extreme lengths of the images of unit vectors, a matrix is singular iff its determinant is 0,
and the eigenvalues of a matrix are the roots of its characteristic polynomial, in an unspecified order.  A floating
point number that is not negative is an `Option ENNReal`, `none` being `nan`.
-/

namespace Probnum.Linops.Cond

open Finset

/-- The orders `p` of a matrix norm that `np.linalg.cond` knows; `other` is any other value. -/
inductive NormOrd
  | none | two | one | inf | fro | nuc | negTwo | negOne | negInf | other
  deriving DecidableEq

/-- `p is None or p in (2, 1, np.inf, -2, -1, -np.inf)`. -/
def NormOrd.plain : NormOrd → Bool
  | .none | .two | .one | .inf | .negTwo | .negOne | .negInf => true
  | _ => false

section
variable {ι : Type} [Fintype ι]

/-- Euclidean length of a vector. -/
noncomputable def len (x : ι → ℝ) : ℝ := √(∑ i, x i ^ 2)

/-- The largest singular value (`np.linalg.svd`). -/
noncomputable def sMax (M : Matrix ι ι ℝ) : ℝ := ⨆ x : {x : ι → ℝ // len x = 1}, len (M.mulVec x)

/-- The smallest singular value of a square matrix. -/
noncomputable def sMin (M : Matrix ι ι ℝ) : ℝ := ⨅ x : {x : ι → ℝ // len x = 1}, len (M.mulVec x)

/-- `np.linalg.norm(M, ord)` of a matrix; the nuclear norm is the largest value of `tr(Qᵀ M)` for orthogonal `Q`. -/
noncomputable def matNorm [DecidableEq ι] (p : NormOrd) (M : Matrix ι ι ℝ) : Res ℝ :=
  match p with
  | .none => .ok √(∑ i, ∑ j, M i j ^ 2)
  | .two => .ok (sMax M)
  | .one => .ok (⨆ j, ∑ i, |M i j|)
  | .inf => .ok (⨆ i, ∑ j, |M i j|)
  | .fro => .ok √(∑ i, ∑ j, M i j ^ 2)
  | .nuc => .ok (⨆ Q : {Q : Matrix ι ι ℝ // Q.transpose * Q = 1}, (Q.1.transpose * M).trace)
  | .negTwo => .ok (sMin M)
  | .negOne => .ok (⨅ j, ∑ i, |M i j|)
  | .negInf => .ok (⨅ i, ∑ j, |M i j|)
  | .other => .error .valueError

/-- `np.linalg.cond(M, p)` of a square matrix with at least one row.  `x / 0` is `inf`; `0 / 0` and the norm of the
inverse of a singular matrix are `nan`, which `cond` replaces by `inf`. -/
noncomputable def npCond [DecidableEq ι] (p : NormOrd) (M : Matrix ι ι ℝ) : Res ENNReal :=
  match p with
  | .none | .two => if sMin M = 0 then .ok ⊤ else .ok (ENNReal.ofReal (sMax M / sMin M))
  | .negTwo => if sMax M = 0 then .ok ⊤ else .ok (ENNReal.ofReal (sMin M / sMax M))
  | p => do
    let a ← matNorm p M
    if M.det = 0 then .ok ⊤
    else
      let b ← matNorm p M⁻¹
      .ok (ENNReal.ofReal (a * b))

end

/-- Product of two floating point numbers that are not negative: `0 * inf` is `nan`. -/
noncomputable def fmul : Option ENNReal → Option ENNReal → Option ENNReal
  | some a, some b => if a = 0 ∧ b = ⊤ ∨ a = ⊤ ∧ b = 0 then none else some (a * b)
  | _, _ => none

/-- `np.linalg.cond(self.todense(cache=False), p=p)` (`_linear_operator.py` 601). -/
noncomputable def denseCond (n : ℕ) (op : Op) (p : NormOrd) : Res (Option ENNReal) := do
  let D ← todense n op
  if op.rows = 0 then .error .linAlgError
  else
    let c ← npCond p (toM op.rows op.rows D)
    .ok (some c)

/-- `_cond_anisotropic` (`_scaling.py` 270-299), `dense` being the call of `np.linalg.cond`.  `np.min` of an empty array
raises ValueError. -/
noncomputable def condAniso (n : ℕ) (f : ℕ → ℝ) (p : NormOrd) (dense : Res (Option ENNReal)) : Res (Option ENNReal) :=
  if n = 0 then .error .valueError
  else
    let absMin := ⨅ i : Fin n, |f i|
    let absMax := ⨆ i : Fin n, |f i|
    if absMin = 0 then .ok (some ⊤)
    else
      match p with
      | .none | .two | .one | .inf => .ok (some (ENNReal.ofReal (absMax / absMin)))
      | .negTwo | .negOne | .negInf =>
        if absMax > 0 then .ok (some (ENNReal.ofReal (absMin / absMax))) else .ok (some ⊤)
      | .fro => .ok (some (ENNReal.ofReal (√(∑ i ∈ range n, f i ^ 2) * √(∑ i ∈ range n, (1 / f i) ^ 2))))
      | _ => dense

/-- `_cond_isotropic` (`_scaling.py` 301-313). -/
noncomputable def condIso (n : ℕ) (s : ℝ) (p : NormOrd) (dense : Res (Option ENNReal)) : Res (Option ENNReal) :=
  if s = 0 then .ok (some ⊤)
  else if p.plain then .ok (some 1)
  else if p = .fro then .ok (some n)
  else dense

/-- `cond(p)` (`_linear_operator.py` 603-643) without its cache, with the `_cond` methods: 566-601, 1422-1428, 1734-1745;
`_scaling.py` 270-313; `_kronecker.py` 145-150, 436-441.  The `_cond` of an `Identity` calls itself through
`LambdaLinearOperator._cond` (1428), as its constructor passes `self._cond` (1713), if `p` is none of its cases. -/
noncomputable def cond : ℕ → Op → NormOrd → Res (Option ENNReal)
  | 0, _, _ => .error .recursionError
  | n + 1, op, p =>
    if op.rows ≠ op.cols then .error .linAlgError
    else
      match op with
      | .identity h =>
        if p.plain then .ok (some 1) else if p = .fro then .ok (some h.rows) else .error .recursionError
      | .scaling h iso f =>
        if iso then condIso h.rows (f 0) p (denseCond n op p) else condAniso h.rows f p (denseCond n op p)
      | .kron _ A B =>
        if (A.rows = A.cols ∧ B.rows = B.cols) ∧ (p.plain ∨ p = .fro) then do
          let a ← cond n A p
          let b ← cond n B p
          .ok (fmul a b)
        else denseCond n op p
      | .idkron _ k B =>
        if B.rows = B.cols ∧ (p.plain ∨ p = .fro) then do
          let a ← cond n (mkIdentity k) p
          let b ← cond n B p
          .ok (fmul a b)
        else denseCond n op p
      | .symkron _ same A B =>
        if same ∧ (p.plain ∨ p = .fro) then do
          let a ← cond n A p
          let b ← cond n B p
          .ok (fmul a b)
        else denseCond n op p
      | _ => denseCond n op p

/-! ## Cache -/

/-- An operator with `_cond_cache` (`_linear_operator.py` 108, 634-643). -/
structure CondObj where
  op : Op
  cache : List (NormOrd × Option ENNReal)

/-- `cond(p)` (634-643). -/
noncomputable def CondObj.call (n : ℕ) (s : CondObj) (p : NormOrd) : CondObj × Res (Option ENNReal) :=
  match s.cache.lookup p with
  | some c => (s, .ok c)
  | none =>
    match cond n s.op p with
    | .ok c => ({ s with cache := (p, c) :: s.cache }, .ok c)
    | .error e => (s, .error e)

/-- The results of a sequence of calls. -/
noncomputable def CondObj.calls (n : ℕ) : CondObj → List NormOrd → List (Res (Option ENNReal))
  | _, [] => []
  | s, p :: ps => (s.call n p).2 :: (s.call n p).1.calls n ps

/-! ## Eigenvalues -/

/-- `np.linalg.eigvals`: the roots of the characteristic polynomial in some order. -/
noncomputable def npEigvals (n : ℕ) (D : Mat) : List ℂ := ((toM n n D).map (fun x : ℝ => (x : ℂ))).charpoly.roots.toList

/-- `eigvals()` (`_linear_operator.py` 539-564) with the `_eigvals` methods: 544, 1416-1420, 1712; `_scaling.py` 90,
106-108, 138, 349; `_block.py` 125-128. -/
noncomputable def eigvals : ℕ → Op → Res (List ℂ)
  | 0, _ => .error .recursionError
  | n + 1, op =>
    if op.rows ≠ op.cols then .error .linAlgError
    else
      let generic : Res (List ℂ) := do
        let D ← todense n op
        .ok (npEigvals op.rows D)
      match op with
      | .identity h => .ok (List.replicate h.rows 1)
      | .scaling h iso f =>
        if iso then .ok (List.replicate h.rows ((f 0 : ℝ) : ℂ)) else .ok ((List.range h.rows).map fun i => ((f i : ℝ) : ℂ))
      | .zero h => .ok (List.replicate h.rows 0)
      | .block _ l =>
        if ∀ b ∈ l, b.rows = b.cols then do
          let es ← l.mapM (eigvals n)
          .ok es.flatten
        else generic
      | _ => generic

end Probnum.Linops.Cond
