import Verif.Py
import Mathlib.Analysis.SpecialFunctions.Trigonometric.Basic
import Mathlib.Analysis.SpecialFunctions.Exp
import Mathlib.Analysis.SpecialFunctions.Pow.NNReal
import Mathlib.LinearAlgebra.Matrix.Notation

/-!
# The toy integrands from Emukit

Models `src/probnum/problems/zoo/quad/_emukit_problems.py`.  Arithmetic is real and exact.  Points are arrays with two axes.
-/

namespace Probnum.Zoo

open Probnum

/-- An array of points with two axes: the number of rows and columns, and the entries. -/
structure Rows where
  n : ℕ
  d : ℕ
  entry : ℕ → ℕ → ℝ

/-- `QuadratureProblem` with `LebesgueMeasure(input_dim, domain)`, whose density is 1. -/
structure ToyProblem where
  fn : Rows → Res (List ℝ)
  lower : List ℝ
  upper : List ℝ
  solution : Option ℝ

/-- `np.sum(x**2, axis=1)` at row `i`. -/
noncomputable def Rows.sq (x : Rows) (i : ℕ) : ℝ := ∑ j ∈ Finset.range x.d, x.entry i j * x.entry i j

/-- `hennig1d` (`_emukit_problems.py` 16-41). -/
noncomputable def hennig1d : Res ToyProblem :=
  .ok ⟨fun x => if x.d = 0 then .error .indexError
      else .ok ((List.range x.n).map fun i => Real.exp (-x.entry i 0 ^ 2 - Real.sin (3 * x.entry i 0) ^ 2)),
    [-3], [3], some 1.1433287777179366⟩

/-- An array for the parameter `c`: its shape, and its entries (only read if the shape is `(2, 2)`). -/
structure CParam where
  shape : List ℕ
  entry : Matrix (Fin 2) (Fin 2) ℝ

/-- `eigvals <= 0` for one eigenvalue: numpy orders complex numbers by real part, then imaginary part. -/
def leZero (z : ℂ) : Prop := z.re < 0 ∨ z.re = 0 ∧ z.im ≤ 0

/-- The eigenvalues of a 2 × 2 matrix are the complex roots of its characteristic polynomial. -/
def IsEigval (c : Matrix (Fin 2) (Fin 2) ℝ) (z : ℂ) : Prop :=
  (z - c 0 0) * (z - c 1 1) - c 0 1 * c 1 0 = 0

open Classical in
/-- `hennig2d` (`_emukit_problems.py` 44-89). -/
noncomputable def hennig2d (c : Option CParam) : Res ToyProblem :=
  let p : CParam × Option ℝ := match c with
    | none => (⟨[2, 2], !![1, 0.5; 0.5, 1]⟩, some 3.525721820076955)
    | some c => (c, none)
  if p.1.shape ≠ [2, 2] then .error .valueError
  else if ∃ z, IsEigval p.1.entry z ∧ leZero z then .error .valueError
  else .ok ⟨fun x => if x.d ≠ 2 then .error .valueError
      else .ok ((List.range x.n).map fun i => Real.exp (-∑ j : Fin 2, (∑ k : Fin 2, x.entry i k * p.1.entry k j) * x.entry i j
        - Real.sin (3 * x.sq i))),
    [-3, -3], [3, 3], p.2⟩

open Classical in
/-- `np.sin(r) / r` with `nan` (division by zero) replaced by 1 (`_emukit_problems.py` 132-134). -/
noncomputable def sinOver (r : ℝ) : ℝ := if r = 0 then 1 else Real.sin r / r

open Classical in
/-- `sombrero2d` (`_emukit_problems.py` 92-138). -/
noncomputable def sombrero2d (w : Option ℝ) : Res ToyProblem :=
  let p : ℝ × Option ℝ := match w with
    | none => (1, some 0.85225026427372)
    | some w => (w, none)
  if p.1 ≤ 0 then .error .valueError
  else .ok ⟨fun x => .ok ((List.range x.n).map fun i => sinOver (Real.pi * p.1 * Real.sqrt (x.sq i))),
    [-3, -3], [3, 3], p.2⟩

open Classical in
/-- `circulargaussian2d` (`_emukit_problems.py` 141-197). -/
noncomputable def circulargaussian2d (m v : Option ℝ) : Res ToyProblem :=
  let solution : Option ℝ := match m, v with
    | none, none => some 4.853275495632483
    | _, _ => none
  let m := m.getD 0
  let v := v.getD 1
  if m < 0 then .error .valueError
  else if v ≤ 0 then .error .valueError
  else .ok ⟨fun x => .ok ((List.range x.n).map fun i =>
      let r := Real.sqrt (x.sq i)
      r ^ 2 * Real.exp (-((r - m) ^ 2 / (2 * v))) / Real.sqrt (2 * Real.pi * v)),
    [-3, -3], [3, 3], solution⟩

end Probnum.Zoo
