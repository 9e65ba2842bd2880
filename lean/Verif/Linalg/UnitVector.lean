import Mathlib.Data.Real.Basic
import Mathlib.Algebra.BigOperators.Fin
import Mathlib.Data.Fintype.BigOperators
import Mathlib.LinearAlgebra.Matrix.Defs
import Verif.Py

/-!
# Model of the policy that draws unit vectors

`probnum/linalg/solvers/policies/_random_unit_vector.py`.

The random generator is represented by the uniform numbers in `[0, 1)` it produces.  The system matrix is an array
(`A**2` is the elementwise square).
-/

namespace Probnum.Linalg.UnitVector

open Finset

/-- The options accepted by the constructor (28-34). -/
inductive Probs where
  | uniform
  | rownorm
  deriving DecidableEq

/-- `RandomUnitVectorPolicy.__init__` (28-34). -/
def newPolicy (probabilities : String) : Res Probs :=
  if probabilities = "uniform" then .ok .uniform
  else if probabilities = "rownorm" then .ok .rownorm
  else .error .valueError

/-- Weights held in `cache["row_sample_probs"]`; `none` is an array of `nan`s (the result of `0 / 0`). -/
abbrev Weights (n : ℕ) := Option (Fin n → ℝ)

open Classical in
/-- `w / w.sum()` for weights of the same sign; a vanishing sum gives `nan`s. -/
noncomputable def normalise {n : ℕ} (w : Fin n → ℝ) : Weights n :=
  if ∑ i, w i = 0 then none else some fun i => w i / ∑ j, w j

/-- The initial weights (45-55): `(A**2).T @ np.ones(nrows)` for `rownorm`. -/
noncomputable def initialWeights {n : ℕ} (p : Probs) (A : Matrix (Fin n) (Fin n) ℝ) : Weights n :=
  match p with
  | .uniform => some fun _ => 1 / (n : ℝ)
  | .rownorm => normalise fun j => ∑ i, A i j ^ 2

/-- `p.cumsum()[k - 1]` (`0` for `k = 0`). -/
noncomputable def cum {n : ℕ} (p : Fin n → ℝ) (k : ℕ) : ℝ := ∑ i with i.val < k, p i

open Classical in
/-- `rng.choice(a=n, size=1, p=p)`: numpy raises a `ValueError` for `n = 0`, for `nan`s, for negative weights and for weights
that do not sum to one (up to a tolerance, ignored here), and else takes the number of cumulative sums that are at most the uniform
number `u` (`searchsorted(cdf, u, side="right")`). -/
noncomputable def choice {n : ℕ} (p : Weights n) (u : ℝ) : Res (Fin n) :=
  match p with
  | none => .error .valueError
  | some p =>
    if (∃ i, p i < 0) ∨ ∑ i, p i ≠ 1 then .error .valueError
    else
      let idx := #{i : Fin n | cum p (i + 1) ≤ u}
      if h : idx < n then .ok ⟨idx, h⟩ else .error .indexError

/-- `RandomUnitVectorPolicy.__call__` (36-71): index drawn, action, new cache. -/
noncomputable def draw {n : ℕ} (p : Probs) (replace : Bool) (A : Matrix (Fin n) (Fin n) ℝ) (cache : Option (Weights n))
    (u : ℝ) : Res (Fin n × (Fin n → ℝ) × Weights n) :=
  let w := cache.getD (initialWeights p A)
  match choice w u with
  | .error e => .error e
  | .ok idx =>
    let action : Fin n → ℝ := fun i => if i = idx then 1 else 0
    if replace then .ok (idx, action, w)
    else .ok (idx, action, w.bind fun w => normalise fun i => if i = idx then 0 else w i)

/-- Successive calls in one run of the solver, with the uniform numbers `us`: the indices drawn, the actions, and the cache. -/
noncomputable def draws {n : ℕ} (p : Probs) (replace : Bool) (A : Matrix (Fin n) (Fin n) ℝ) :
    Option (Weights n) → List ℝ → Res (List (Fin n) × List (Fin n → ℝ) × Option (Weights n))
  | cache, [] => .ok ([], [], cache)
  | cache, u :: us =>
    match draw p replace A cache u with
    | .error e => .error e
    | .ok (idx, action, w) =>
      match draws p replace A (some w) us with
      | .error e => .error e
      | .ok (is, as, c) => .ok (idx :: is, action :: as, c)

end Probnum.Linalg.UnitVector
