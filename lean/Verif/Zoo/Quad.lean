import Verif.Quad.Nodes
import Verif.Quad.ExpQuad
import Mathlib.Data.Nat.Choose.Basic
import Mathlib.Data.List.Sublists
import Mathlib.Analysis.SpecialFunctions.Trigonometric.Arctan
import Mathlib.Analysis.SpecialFunctions.Integrals.Basic

/-!
# The quadrature test problems

Models `src/probnum/problems/zoo/quad/_quadproblems_uniform.py`. Arithmetic is real and
exact; a number that numpy evaluates to `nan` or `inf` because of a division by zero is `none`.
-/

namespace Probnum.Zoo

open Probnum

/-! ## Arguments -/

/-- An array passed as a parameter `a` or `u`: its shape, and its entries along the first axis (only read if the shape is
`(dim,)`). -/
structure Param where
  shape : List ℕ
  entry : ℕ → ℝ

/-- An array of points passed to an integrand: its shape, and its entries by row and column (only read if the shape is
`(n, dim)`). -/
structure Points where
  shape : List ℕ
  entry : ℕ → ℕ → ℝ

/-- `QuadratureProblem` on a box: the integrand, the bounds of the Lebesgue measure (which is not normalized: its density
is 1) and the solution. `src/probnum/problems/_problems.py:222-270`. -/
structure Problem where
  fn : Points → Res (List (Option ℝ))
  lower : List ℝ
  upper : List ℝ
  solution : Option ℝ

/-- `np.broadcast_to(value, dim)`: a negative length raises `ValueError`. -/
def broadcast (value : ℝ) (dim : ℤ) : Res Param :=
  if dim < 0 then .error .valueError else .ok ⟨[dim.toNat], fun _ => value⟩

/-- The default of a parameter. `_quadproblems_uniform.py:62-66` (and alike in every Genz function). -/
def orDefault (p : Option Param) (value : ℝ) (dim : ℤ) : Res Param :=
  match p with
  | some p => .ok p
  | none => broadcast value dim

open Classical in
/-- The defaults and the checks of the parameters that all Genz functions begin with.
`_quadproblems_uniform.py:62-80`, `138-156`, `226-244`, `305-323`, `387-405`, `486-504`. -/
noncomputable def genzParams (dim : ℤ) (a u : Option Param) : Res (Param × Param) :=
  (orDefault a 5 dim).bind fun a => (orDefault u 0.5 dim).bind fun u =>
    if a.shape.map (Nat.cast : ℕ → ℤ) ≠ [dim] then .error .valueError
    else if u.shape.map (Nat.cast : ℕ → ℤ) ≠ [dim] then .error .valueError
    else if (∃ i < dim.toNat, u.entry i < 0) ∨ ∃ i < dim.toNat, 1 < u.entry i then .error .valueError
    else .ok (a, u)

open Classical in
/-- The frame of every integrand: the number of points is read, the points are checked, and `row` gives the value at one
point. `_quadproblems_uniform.py:84-93` and `101`, and alike in every test function. -/
noncomputable def integrand (dim : ℕ) (row : (Fin dim → ℝ) → Option ℝ) (x : Points) : Res (List (Option ℝ)) :=
  match x.shape with
  | [] => .error .indexError
  | n :: _ =>
    if x.shape ≠ [n, dim] then .error .valueError
    else if (∃ i < n, ∃ j < dim, x.entry i j < 0) ∨ ∃ i < n, ∃ j < dim, 1 < x.entry i j then .error .valueError
    else .ok ((List.range n).map fun i => row fun j => x.entry i j)

/-- The array with `dim` copies of a number. -/
def constArr (value : ℝ) (dim : ℕ) : Quad.Arr ℝ := ⟨[dim], List.replicate dim value, by simp⟩

open Classical in
/-- The bounds, the measure and the problem: `_quadproblems_uniform.py:104-111` (and alike in every test function).
`np.broadcast_to` with a negative length raises `ValueError`. -/
noncomputable def uniformProblem (dim : ℤ) (fn : Points → Res (List (Option ℝ))) (solution : Option ℝ) : Res Problem :=
  if dim < 0 then .error .valueError
  else (Quad.asDomain [constArr 0 dim.toNat, constArr 1 dim.toNat] (some dim)).map fun d =>
    ⟨fn, d.1.1, d.1.2, solution⟩

/-! ## Genz functions -/

open Classical in
/-- A quotient by the entries of `a`: not a number if one of them is zero. -/
noncomputable def overParams {dim : ℕ} (a : Fin dim → ℝ) (v : ℝ) : Option ℝ := if ∃ i, a i = 0 then none else some v

/-- `genz_continuous`: `_quadproblems_uniform.py:27-111`. -/
noncomputable def genzContinuous (dim : ℤ) (a u : Option Param) : Res Problem :=
  (genzParams dim a u).bind fun p =>
    let a : Fin dim.toNat → ℝ := fun i => p.1.entry i
    let u : Fin dim.toNat → ℝ := fun i => p.2.entry i
    uniformProblem dim (integrand dim.toNat fun x => some (Real.exp (-∑ i, a i * |x i - u i|)))
      (overParams a (∏ i, (2 - Real.exp (-1 * a i * u i) - Real.exp (a i * (u i - 1))) / a i))

/-- `itertools.combinations(range(dim), k)`. -/
def combinations (dim k : ℕ) : List (List (Fin dim)) := (List.finRange dim).sublistsLen k

/-- The two nested loops that add up a term for every subset: `_quadproblems_uniform.py:177-184` and `440-447`. -/
noncomputable def subsetLoop (dim : ℕ) (term : ℕ → List (Fin dim) → ℝ) : ℝ :=
  (List.range (dim + 1)).foldl (fun s k => (combinations dim k).foldl (fun s c => s + term k c) s) 0

open Classical in
/-- `genz_cornerpeak`: `_quadproblems_uniform.py:114-194`. The powers are `none` if the base is zero. -/
noncomputable def genzCornerpeak (dim : ℤ) (a u : Option Param) : Res Problem :=
  (genzParams dim a u).bind fun p =>
    let a : Fin dim.toNat → ℝ := fun i => p.1.entry i
    let solution := subsetLoop dim.toNat fun k subset =>
      (-1) ^ (k + dim.toNat) * (1 + ∑ i, a i - (subset.map a).sum)⁻¹
    uniformProblem dim
      (integrand dim.toNat fun x =>
        if 1 + ∑ i, a i * x i = 0 then none else some ((1 + ∑ i, a i * x i) ^ (-(dim.toNat : ℤ) - 1)))
      (if ∃ k ≤ dim.toNat, ∃ subset ∈ combinations dim.toNat k, 1 + ∑ i, a i - (subset.map a).sum = 0 then none
        else overParams a (solution / ((∏ i, a i) * (dim.toNat.factorial : ℝ))))

open Classical in
/-- `genz_discontinuous`: `_quadproblems_uniform.py:197-278`. (If `dim` is zero the variable `solution` is not bound, but
the construction of the measure fails before it is read.) -/
noncomputable def genzDiscontinuous (dim : ℤ) (a u : Option Param) : Res Problem :=
  (genzParams dim a u).bind fun p =>
    let a : Fin dim.toNat → ℝ := fun i => p.1.entry i
    let u : Fin dim.toNat → ℝ := fun i => p.2.entry i
    uniformProblem dim
      (integrand dim.toNat fun x => some (if ∃ i, 0 < x i - u i then 0 else Real.exp (∑ i, a i * x i)))
      (if dim = 1 then overParams a (∏ i, (Real.exp (a i * u i) - 1) / a i)
        else overParams a (∏ i, (Real.exp (a i * min (u i) 1) - 1) / a i))

/-- `scipy.stats.norm.cdf`, called at `_quadproblems_uniform.py:347`: the distribution function of the standard normal
distribution. -/
noncomputable def normCdf (x : ℝ) : ℝ :=
  ∫ t in Set.Iic x, (Real.sqrt (2 * Real.pi))⁻¹ * Real.exp (-t ^ 2 / 2)

/-- `genz_gaussian`: `_quadproblems_uniform.py:281-357`. -/
noncomputable def genzGaussian (dim : ℤ) (a u : Option Param) : Res Problem :=
  (genzParams dim a u).bind fun p =>
    let a : Fin dim.toNat → ℝ := fun i => p.1.entry i
    let u : Fin dim.toNat → ℝ := fun i => p.2.entry i
    uniformProblem dim (integrand dim.toNat fun x => some (Real.exp (-∑ i, (a i * (x i - u i)) ^ 2)))
      (overParams a (Real.pi ^ ((dim.toNat : ℝ) / 2)
        * ∏ i, (normCdf (Real.sqrt 2 * a i * (1 - u i)) - normCdf (-Real.sqrt 2 * a i * u i)) / a i))

/-- `hfunc` of `genz_oscillatory`: `_quadproblems_uniform.py:426-438`. -/
noncomputable def hfunc (dim : ℕ) (x : ℝ) : ℝ :=
  if dim % 4 = 1 then Real.sin x
  else if dim % 4 = 2 then -Real.cos x
  else if dim % 4 = 3 then -Real.sin x
  else Real.cos x

/-- `genz_oscillatory`: `_quadproblems_uniform.py:360-458`. In dimension zero `u[0]` raises `IndexError`. -/
noncomputable def genzOscillatory (dim : ℤ) (a u : Option Param) : Res Problem :=
  (genzParams dim a u).bind fun p =>
    let a : Fin dim.toNat → ℝ := fun i => p.1.entry i
    if dim.toNat = 0 then .error .indexError else
    let solution := subsetLoop dim.toNat fun k subset =>
      (-1) ^ k * hfunc dim.toNat (2 * Real.pi * p.2.entry 0 + ∑ i, a i - (subset.map a).sum)
    uniformProblem dim
      (integrand dim.toNat fun x => some (Real.cos (2 * Real.pi * p.2.entry 0 + ∑ i, a i * x i)))
      (overParams a (solution / ∏ i, a i))

open Classical in
/-- One factor of the product peak. For a zero parameter numpy evaluates `1 / 0 ** 2` to `inf` and the quotient to zero.
`_quadproblems_uniform.py:523`. -/
noncomputable def peak (a x u : ℝ) : ℝ := if a = 0 then 0 else 1 / (1 / a ^ 2 + (x - u) ^ 2)

/-- `genz_productpeak`: `_quadproblems_uniform.py:461-536`. -/
noncomputable def genzProductpeak (dim : ℤ) (a u : Option Param) : Res Problem :=
  (genzParams dim a u).bind fun p =>
    let a : Fin dim.toNat → ℝ := fun i => p.1.entry i
    let u : Fin dim.toNat → ℝ := fun i => p.2.entry i
    uniformProblem dim (integrand dim.toNat fun x => some (∏ i, peak (a i) (x i) (u i)))
      (some (∏ i, a i * (Real.arctan (a i * (1 - u i)) - Real.arctan (-1 * a i * u i))))

/-! ## Other functions -/

/-- `bratley1992`: `_quadproblems_uniform.py:539-588`. The `i`-th entry of `np.cumprod` is the product of the entries up to
`i`. -/
noncomputable def bratley1992 (dim : ℤ) : Res Problem :=
  uniformProblem dim
    (integrand dim.toNat fun x =>
      some (∑ i : Fin dim.toNat, (-1 : ℝ) ^ (i.val + 1) * ∏ j ∈ Finset.univ.filter (· ≤ i), x j))
    (some (-(1 / 3) * (1 - (-0.5) ^ dim)))

/-- `roos_arnold`: `_quadproblems_uniform.py:591-636`. -/
noncomputable def roosArnold (dim : ℤ) : Res Problem :=
  uniformProblem dim (integrand dim.toNat fun x => some (∏ i, |4 * x i - 2|)) (some 1)

/-- `gfunction`: `_quadproblems_uniform.py:639-686`. -/
noncomputable def gfunction (dim : ℤ) : Res Problem :=
  uniformProblem dim
    (integrand dim.toNat fun x =>
      let a : Fin dim.toNat → ℝ := fun i => ((i.val : ℝ) + 1 - 2) / 2
      some (∏ i, (|4 * x i - 2| + a i) / (1 + a i)))
    (some 1)

/-- `morokoff_caflisch_1`: `_quadproblems_uniform.py:689-736`. -/
noncomputable def morokoffCaflisch1 (dim : ℤ) : Res Problem :=
  uniformProblem dim
    (integrand dim.toNat fun x =>
      some ((1 + 1 / (dim.toNat : ℝ)) ^ dim.toNat * ∏ i, (x i) ^ (1 / (dim.toNat : ℝ))))
    (some 1)

/-- `morokoff_caflisch_2`: `_quadproblems_uniform.py:739-784`. -/
noncomputable def morokoffCaflisch2 (dim : ℤ) : Res Problem :=
  uniformProblem dim
    (integrand dim.toNat fun x =>
      some (1 / ((dim.toNat : ℝ) - 0.5) ^ dim.toNat * ∏ i, ((dim.toNat : ℝ) - x i)))
    (some 1)

end Probnum.Zoo
