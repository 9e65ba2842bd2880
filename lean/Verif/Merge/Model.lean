import Verif.Py
import Mathlib.Data.List.Sort

/-!
# Merging time-series regression problems

Models `src/probnum/filtsmooth/utils/_merge_regression_problems.py` and the class `TimeSeriesRegressionProblem` of
`src/probnum/problems/_problems.py`. Times are elements of a linear order; observations, measurement models and solution
values are opaque.
-/

namespace Probnum.Merge

/-- A sequence of values: a numpy array with the shape of its entries (its `shape[1:]`), or a list (which has no attribute
`shape`). -/
structure Values (α : Type) where
  isArray : Bool
  shape : List ℕ
  rows : List α

/-- `TimeSeriesRegressionProblem`: `src/probnum/problems/_problems.py:67-77`. -/
structure Problem (T O M S : Type) where
  locations : List T
  observations : Values O
  models : List M
  solution : Option (Values S)

/-- `TimeSeriesRegressionProblem.__post_init__` for a list of measurement models: `_problems.py:79-105`. The length of the
solution is not checked. -/
def Problem.mk? {T O M S : Type} (locations : List T) (observations : Values O) (models : List M)
    (solution : Option (Values S)) : Res (Problem T O M S) :=
  if observations.rows.length = locations.length ∧ locations.length = models.length then
    .ok ⟨locations, observations, models, solution⟩
  else .error .valueError

/-- `np.searchsorted(sorted, x)`: the number of entries smaller than `x`. -/
def searchsorted {T : Type} [LinearOrder T] (sorted : List T) (x : T) : ℕ := sorted.countP fun y => y < x

/-- Assignments `array[i] = v`, one after the other. -/
def setAll {α : Type} : List α → List (ℕ × α) → List α
  | as, [] => as
  | as, (i, v) :: ps => setAll (as.set i v) ps

/-- `array[index] = values` with an array of indices: the number of values must be the number of indices, or one (then it is
repeated); with repeated indices the last assignment remains. -/
def assign {α : Type} (array : List α) (index : List ℕ) (values : List α) : Res (List α) :=
  if values.length = index.length then .ok (setAll array (index.zip values))
  else match values with
    | [v] => .ok (setAll array (index.map fun i => (i, v)))
    | _ => .error .valueError

/-- The two assignments into an array of `n` zeros: 117-119, 127-129, 134-136. -/
def fill {α : Type} (zero : α) (n : ℕ) (index1 index2 : List ℕ) (values1 values2 : List α) : Res (List α) :=
  match assign (List.replicate n zero) index1 values1 with
  | .error e => .error e
  | .ok a => assign a index2 values2

/-- Merging the solutions: 123-131. -/
def mergeSolutions {S : Type} (zero : S) (n : ℕ) (index1 index2 : List ℕ) : Option (Values S) → Option (Values S) →
    Res (Option (Values S))
  | some s1, some s2 =>
    if s1.isArray = false ∨ s2.isArray = false then .error .attributeError
    else if s1.shape ≠ s2.shape then .error .valueError
    else match fill zero n index1 index2 s1.rows s2.rows with
    | .error e => .error e
    | .ok rows => .ok (some ⟨true, s1.shape, rows⟩)
  | _, _ => .ok none

/-- `merge_regression_problems`: `src/probnum/filtsmooth/utils/_merge_regression_problems.py:90-145`. The arguments `zo`,
`zm` and `zs` are the zeros with which the new arrays are filled. -/
def merge {T O M S : Type} [LinearOrder T] (zo : O) (zm : M) (zs : S) (p1 p2 : Problem T O M S) : Res (Problem T O M S) :=
  if p1.locations.any fun t => t ∈ p2.locations then .error .valueError
  else
    let locs := (p1.locations ++ p2.locations).insertionSort (· ≤ ·)
    let index1 := p1.locations.map (searchsorted locs)
    let index2 := p2.locations.map (searchsorted locs)
    let n := p1.observations.rows.length + p2.observations.rows.length
    if p1.observations.isArray = false ∨ p2.observations.isArray = false then .error .attributeError
    else if p1.observations.shape ≠ p2.observations.shape then .error .valueError
    else match fill zo n index1 index2 p1.observations.rows p2.observations.rows with
    | .error e => .error e
    | .ok rows => match mergeSolutions zs n index1 index2 p1.solution p2.solution with
      | .error e => .error e
      | .ok sol => match fill zm n index1 index2 p1.models p2.models with
        | .error e => .error e
        | .ok models => Problem.mk? locs ⟨true, p1.observations.shape, rows⟩ models sol

end Probnum.Merge
