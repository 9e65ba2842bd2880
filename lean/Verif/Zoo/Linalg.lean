import Verif.Py
import Mathlib.LinearAlgebra.Matrix.ToLin
import Mathlib.Data.List.Sort
import Mathlib.Data.Real.Archimedean
import Mathlib.Algebra.Order.Floor.Semiring

/-!
# Random matrices and random linear systems

Models `src/probnum/problems/zoo/linalg/_random_spd_matrix.py` and `_random_linear_system.py`. Arithmetic is real and exact.
What scipy's random functions return is an argument: the gamma variates, the rotation (or the exception that
`special_ortho_group.rvs` raises, e.g. for dimension 0) and the sparse matrix of `scipy.sparse.rand`. In
`random_linear_system` the random generator is a state that is passed from one draw to the next.
-/

namespace Probnum.Zoo

open Probnum Matrix

/-- `spectrum` of `random_spd_matrix`: `_random_spd_matrix.py:62-80`. The gamma variates are sorted in descending order; given
eigenvalues have to be positive. The spectrum is a sequence of numbers. -/
noncomputable def spdSpectrum (gamma : List ℝ) (spectrum : Option (List ℝ)) : Res (List ℝ) :=
  match spectrum with
  | none => .ok (gamma.insertionSort (· ≤ ·)).reverse
  | some s => if ∀ x ∈ s, 0 < x then .ok s else .error .valueError

/-- `random_spd_matrix(rng, dim, spectrum)`: `_random_spd_matrix.py:12-92`. `np.diag` of a spectrum with another length than `dim`
has the wrong shape for the product, which raises ValueError, as does `reshape((1, 1))`. -/
noncomputable def randomSpd {n : ℕ} (gamma : List ℝ) (rotation : Res (Matrix (Fin n) (Fin n) ℝ)) (spectrum : Option (List ℝ)) :
    Res (Matrix (Fin n) (Fin n) ℝ) :=
  match spdSpectrum gamma spectrum with
  | .error e => .error e
  | .ok spec =>
    if n = 1 then
      if spec.length = 1 then .ok (fun _ _ => spec.getD 0 0) else .error .valueError
    else
      match rotation with
      | .error e => .error e
      | .ok Q =>
        if spec.length = n then
          let A := Q * diagonal (fun i : Fin n => spec.getD i 0) * Qᵀ
          .ok ((1 / 2 : ℝ) • (A + Aᵀ))
        else .error .valueError

/-- A sparse matrix: the stored entries. -/
abbrev Sparse (n : ℕ) := Fin n → Fin n → Option ℝ

/-- `_random_spd_matrix.py:164-166`: `data *= chol_entry_max - chol_entry_min; data += chol_entry_min` changes the stored entries. -/
noncomputable def rescale {n : ℕ} (lo hi : ℝ) (S : Sparse n) : Sparse n := fun i j => (S i j).map fun x => x * (hi - lo) + lo

/-- `scipy.sparse.tril(A, k=-1)`: `_random_spd_matrix.py:169`. -/
def strictTril {n : ℕ} (S : Sparse n) : Matrix (Fin n) (Fin n) ℝ := fun i j => if j < i then (S i j).getD 0 else 0

/-- The Cholesky factor `chol` of `random_sparse_spd_matrix`: `_random_spd_matrix.py:151-169`; `S` is what `scipy.sparse.rand` returns. -/
noncomputable def sparseChol {n : ℕ} (density lo hi : ℝ) (S : Sparse n) : Matrix (Fin n) (Fin n) ℝ :=
  let numOffDiag : ℕ := n * (n - 1) / 2
  let numNonzero : ℕ := ⌊numOffDiag * density⌋₊
  if 0 < numNonzero then 1 + strictTril (rescale lo hi S) else 1

/-- `random_sparse_spd_matrix(rng, dim, density, chol_entry_min, chol_entry_max)`: `_random_spd_matrix.py:95-171`. -/
noncomputable def randomSparseSpd {n : ℕ} (density lo hi : ℝ) (S : Sparse n) : Res (Matrix (Fin n) (Fin n) ℝ) :=
  if ¬ (0 ≤ density ∧ density ≤ 1) then .error .valueError
  else .ok (sparseChol density lo hi S * (sparseChol density lo hi S)ᵀ)

/-- An array by its shape and its entries in C order. -/
structure Flat where
  shape : List ℕ
  entry : ℕ → ℝ

/-- `A @ x` for a matrix `A` and an array `x` (`_random_linear_system.py:103`): numpy's rules for vectors, matrices and stacks of
matrices. -/
def matmulFlat {m n : ℕ} (A : Matrix (Fin m) (Fin n) ℝ) (x : Flat) : Res Flat :=
  match x.shape.reverse with
  | [] => .error .valueError
  | [k] => if k = n then .ok ⟨[m], fun p => if h : p < m then ∑ j : Fin n, A ⟨p, h⟩ j * x.entry j else 0⟩ else .error .valueError
  | l :: k :: batch =>
    if k = n then
      .ok ⟨batch.reverse ++ [m, l], fun p =>
        if h : p / l % m < m then ∑ j : Fin n, A ⟨p / l % m, h⟩ j * x.entry ((p / l / m * n + j) * l + p % l) else 0⟩
    else .error .valueError

/-- The argument `matrix` of `random_linear_system`: a matrix or a callable (`_random_linear_system.py:15-21`). -/
inductive MatrixArg (ρ : Type) (m n : ℕ) where
  | given (A : Matrix (Fin m) (Fin n) ℝ)
  | callable (g : ρ → Matrix (Fin m) (Fin n) ℝ × ρ)

/-- The argument `solution_rv`: shape and sampling function (`_random_linear_system.py:22`). -/
structure SolutionRV (ρ : Type) where
  shape : List ℕ
  sample : ρ → (ℕ → ℝ) × ρ

/-- `problems.LinearSystem`: `src/probnum/problems/_problems.py:182-219`. -/
structure LinearSystem (m n : ℕ) where
  A : Matrix (Fin m) (Fin n) ℝ
  b : Flat
  solution : Flat

/-- `random_linear_system(rng, matrix, solution_rv)`: `_random_linear_system.py:13-103`; `std n` draws `n` numbers from a standard
normal distribution. Returns the system and the generator. -/
def randomLinearSystem {ρ : Type} {m n : ℕ} (std : ℕ → ρ → (ℕ → ℝ) × ρ) (rng : ρ) (matrix : MatrixArg ρ m n)
    (solutionRV : Option (SolutionRV ρ)) : Res (LinearSystem m n × ρ) :=
  let (A, rng) := match matrix with
    | .given A => (A, rng)
    | .callable g => g rng
  let draw : Res (Flat × ρ) :=
    match solutionRV with
    | none => .ok (⟨[n], (std n rng).1⟩, (std n rng).2)
    | some rv =>
      match rv.shape with
      | [] => .error .indexError
      | k :: _ => if n ≠ k then .error .valueError else .ok (⟨rv.shape, (rv.sample rng).1⟩, (rv.sample rng).2)
  match draw with
  | .error e => .error e
  | .ok (x, rng) =>
    match matmulFlat A x with
    | .error e => .error e
    | .ok b => .ok (⟨A, b, x⟩, rng)

end Probnum.Zoo
