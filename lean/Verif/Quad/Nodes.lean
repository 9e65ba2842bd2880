import Verif.Py
import Mathlib.Algebra.Order.Field.Basic
import Mathlib.Tactic.Ring
import Mathlib.Tactic.Linarith
import Mathlib.Tactic.NormNum

/-! # Model of integration domains and of the van der Corput policy

`quad/_utils.py`, `quad/solvers/policies/_van_der_corput_policy.py`, `quad/solvers/policies/_policy.py`.

A numeric argument (scalar, sequence or array) is its shape with the flattened values.  The values are of an arbitrary
type with a decidable `<`, so infinite bounds and NaN are covered. -/

namespace Probnum.Quad

open Probnum

/-- A scalar or array. -/
structure Arr (α : Type) where
  /-- `np.shape`. -/
  shape : List ℕ
  /-- The values in C order. -/
  data : List α
  /-- numpy's invariant. -/
  size_eq : data.length = shape.prod

/-- `np.size`. -/
def Arr.size {α : Type} (A : Arr α) : ℕ := A.shape.prod

/-- `np.atleast_1d(A).ndim`. -/
def Arr.ndim1 {α : Type} (A : Arr α) : ℕ := max A.shape.length 1

/-- `np.full((d,), A)` for an array of size 1 (numpy drops leading axes of length one). -/
def full {α : Type} (d : ℕ) (A : Arr α) : List α := A.data.flatMap fun x => List.replicate d x

/-- The test of `as_domain`, 48: an input dimension is given and it is not positive. -/
def badDim : Option ℤ → Bool
  | some d => d < 1
  | none => false

/-- `as_domain`: `quad/_utils.py` 14-111.  The domain is a sequence of bounds; the result is the pair of one-dimensional
arrays and the input dimension. -/
def asDomain {α : Type} [LT α] [DecidableRel (α := α) (· < ·)] (domain : List (Arr α)) (inputDim : Option ℤ) :
    Res ((List α × List α) × ℤ) :=
  if badDim inputDim = true then .error .valueError
  else match domain with
  | [A, B] =>
    if A.size ≠ B.size then .error .valueError
    else
      let check (a b : List α) (ndimA ndimB : ℕ) (d : ℤ) : Res ((List α × List α) × ℤ) :=
        if 1 < ndimA ∨ 1 < ndimB then .error .valueError
        else if ¬ ∀ p ∈ a.zip b, p.1 < p.2 then .error .valueError
        else .ok ((a, b), d)
      match inputDim with
      | none => check A.data B.data A.ndim1 B.ndim1 A.size
      | some d =>
        if A.size = 1 then check (full d.toNat A) (full d.toNat B) 1 1 d
        else if d ≠ A.size then .error .valueError
        else check A.data B.data A.ndim1 B.ndim1 d
  | _ => .error .valueError

/-! ## Van der Corput sequence -/

variable {K : Type} [Field K]

/-- The `while` loop of `van_der_corput_sequence`: `_van_der_corput_policy.py` 105-113. -/
def vdcLoop (n : ℕ) (q baseInv : K) : K :=
  if n = 0 then q else vdcLoop (n / 2) (q + (n % 2 : ℕ) * baseInv) (baseInv / 2)
termination_by n
decreasing_by omega

/-- `van_der_corput_sequence(n_start, n_end)`: `_van_der_corput_policy.py` 74-115. -/
def vdcSequence (nStart : ℕ) (nEnd : Option ℕ) : List K :=
  let nEnd := match nEnd with | none => nStart + 1 | some e => e
  (List.range' nStart (nEnd - nStart)).map fun m => vdcLoop m 0 (1 / 2)

/-- A bound of the domain of a one-dimensional measure. -/
inductive Bound (K : Type)
  /-- `-np.inf`. -/
  | negInf
  /-- A number. -/
  | fin (x : K)
  /-- `np.inf`. -/
  | posInf

/-- The attributes of a `VanDerCorputPolicy`. -/
structure VdC (K : Type) where
  /-- `batch_size`. -/
  batchSize : ℕ
  /-- `domain_a`. -/
  a : K
  /-- `domain_b`. -/
  b : K

/-- `VanDerCorputPolicy.__init__`: 45-58, for a measure with the given dimension and the bounds of its axes. -/
def VdC.mk? (batchSize inputDim : ℕ) (a b : List (Bound K)) : Res (VdC K) :=
  if 1 < inputDim then .error .valueError
  else match a, b with
  | [.fin a], [.fin b] => .ok ⟨batchSize, a, b⟩
  | _, _ => .error .valueError

/-- `VanDerCorputPolicy.__call__`: 64-72; `bq_state.nodes` enters only with its length. -/
def VdC.call (p : VdC K) (nNodes : ℕ) : List K :=
  (vdcSequence (nNodes + 1) (some (nNodes + 1 + p.batchSize))).map fun v => v * (p.b - p.a) + p.a

/-- The nodes of the state after the calls of policies with the given batch sizes, the new nodes appended after each
call (`_bayesian_quadrature.py` 331-344, `_standard_update.py` 46). -/
def runVdC (a b : K) (nodes : List K) : List ℕ → List K
  | [] => nodes
  | m :: ms => runVdC a b (nodes ++ (VdC.mk m a b).call nodes.length) ms

end Probnum.Quad
