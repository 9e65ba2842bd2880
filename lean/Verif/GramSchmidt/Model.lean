import Verif.Py
import Mathlib.Data.Matrix.Mul
import Mathlib.Data.Real.Sqrt

/-!
# Orthogonalization of vectors

Models `src/probnum/utils/linalg/_orthogonalize.py` and `src/probnum/utils/linalg/_inner_product.py`.

Vectors are functions on `Fin n` with exact real entries. Stacks of vectors are treated row by row, as the code does by
broadcasting. A result that contains `nan` or `inf` because of a division by zero is `none`. Arrays of integers (for which
the in-place subtraction raises an exception) are not modelled.
-/

namespace Probnum.GramSchmidt

/-- A vector. -/
abbrev Vec (n : ℕ) := Fin n → ℝ

/-- The argument `inner_product`: `None`, an array or linear operator (as a matrix), or a function. -/
inductive Inner (n : ℕ) where
  | euclidean
  | matrix (A : Matrix (Fin n) (Fin n) ℝ)
  | fn (f : Vec n → Vec n → ℝ)

/-- `inner_product`: `src/probnum/utils/linalg/_inner_product.py:12-50`. -/
def innerProduct {n : ℕ} (v w : Vec n) : Option (Matrix (Fin n) (Fin n) ℝ) → ℝ
  | none => v ⬝ᵥ w
  | some A => v ⬝ᵥ (A.mulVec w)

/-- `induced_norm`: `_inner_product.py:53-83`. The root of a negative number is `nan` (`none`). -/
noncomputable def inducedNorm {n : ℕ} (v : Vec n) : Option (Matrix (Fin n) (Fin n) ℝ) → Option ℝ
  | none => some (Real.sqrt (∑ i, v i ^ 2))
  | some A => if ∑ i, v i * A.mulVec v i < 0 then none else some (Real.sqrt (∑ i, v i * A.mulVec v i))

/-- `inprod_fn`: `src/probnum/utils/linalg/_orthogonalize.py:50-58`. -/
def Inner.prod {n : ℕ} : Inner n → Vec n → Vec n → ℝ
  | .euclidean, v, w => innerProduct v w none
  | .matrix A, v, w => innerProduct v w (some A)
  | .fn f, v, w => f v w

/-- `norm_fn`: `_orthogonalize.py:50-58`. -/
noncomputable def Inner.norm {n : ℕ} : Inner n → Vec n → Option ℝ
  | .euclidean, v => inducedNorm v none
  | .matrix A, v => inducedNorm v (some A)
  | .fn f, v => if f v v < 0 then none else some (Real.sqrt (f v v))

/-- Elementwise division by a number: `none` for `nan`. -/
noncomputable def divVec {n : ℕ} (v : Vec n) (c : ℝ) : Option (Vec n) := if c = 0 then none else some fun i => v i / c

/-- One turn of the loops, 62-63 and 121-122: `arg` is the vector whose product with `u` is taken. -/
noncomputable def projectOut {n : ℕ} (ip : Inner n) (u arg vOrth : Vec n) : Option (Vec n) :=
  if ip.prod u u = 0 then none else some (vOrth - (ip.prod u arg / ip.prod u u) • u)

/-- The loop of `gram_schmidt`: `_orthogonalize.py:62-63`. -/
noncomputable def classicalLoop {n : ℕ} (ip : Inner n) (v : Vec n) : List (Vec n) → Vec n → Option (Vec n)
  | [], w => some w
  | u :: us, w => (projectOut ip u v w).bind (classicalLoop ip v us)

/-- The loop of `modified_gram_schmidt`: `_orthogonalize.py:121-122`. -/
noncomputable def modifiedLoop {n : ℕ} (ip : Inner n) : List (Vec n) → Vec n → Option (Vec n)
  | [], w => some w
  | u :: us, w => (projectOut ip u w w).bind (modifiedLoop ip us)

/-- `if normalize: …`: `_orthogonalize.py:65-66`. -/
noncomputable def finish {n : ℕ} (ip : Inner n) (normalize : Bool) (w : Vec n) : Option (Vec n) :=
  if normalize then (ip.norm w).bind (divVec w) else some w

/-- An empty basis: `np.atleast_2d([])` has one row of length 0, which cannot be multiplied with a vector of length `n`
(`ValueError`), unless `n = 0` (then the row is the zero vector). A function would be called with vectors of lengths 0 and
`n`; what it does is unknown, it is assumed to fail alike. `_orthogonalize.py:48`. -/
def rowsOf {n : ℕ} : List (Vec n) → Res (List (Vec n))
  | [] => if n = 0 then .ok [0] else .error .valueError
  | us => .ok us

/-- `gram_schmidt`: `_orthogonalize.py:13-68`. -/
noncomputable def gramSchmidt {n : ℕ} (v : Vec n) (basis : List (Vec n)) (ip : Inner n) (normalize : Bool) :
    Res (Option (Vec n)) :=
  match rowsOf basis with
  | .error e => .error e
  | .ok us => .ok ((classicalLoop ip v us v).bind (finish ip normalize))

/-- `modified_gram_schmidt`: `_orthogonalize.py:71-127`. -/
noncomputable def modifiedGramSchmidt {n : ℕ} (v : Vec n) (basis : List (Vec n)) (ip : Inner n) (normalize : Bool) :
    Res (Option (Vec n)) :=
  match rowsOf basis with
  | .error e => .error e
  | .ok us => .ok ((modifiedLoop ip us v).bind (finish ip normalize))

/-- `double_gram_schmidt` with one of the two functions as `gram_schmidt_fn`: `_orthogonalize.py:130-190`. (A vector of
`nan`s stays a vector of `nan`s.) -/
noncomputable def doubleGramSchmidt {n : ℕ} (v : Vec n) (basis : List (Vec n)) (ip : Inner n) (normalize : Bool)
    (modified : Bool) : Res (Option (Vec n)) :=
  let gs := fun v => if modified then modifiedGramSchmidt v basis ip normalize else gramSchmidt v basis ip normalize
  match gs v with
  | .error e => .error e
  | .ok none => .ok none
  | .ok (some w) => gs w

end Probnum.GramSchmidt
