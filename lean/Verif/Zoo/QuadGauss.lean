import Verif.Zoo.Quad
import Mathlib.Data.Nat.Factorial.DoubleFactorial

/-!
# The quadrature test problems with a Gaussian measure

Models `src/probnum/problems/zoo/quad/_quadproblems_gaussian.py`. Arithmetic is real and exact. The arguments `mean` and
`std` are scalars or arrays with one axis; arrays with another number of axes are not modelled.
-/

namespace Probnum.Zoo

open Probnum Matrix

/-- `QuadratureProblem` with a Gaussian measure: `src/probnum/problems/_problems.py:222-270`. The integrand is applied to an
array of points; `none` stands for an outcome that is not modelled. -/
structure GaussProblem where
  dim : ℕ
  measure : Quad.GaussMeasure dim
  fn : Points → Option (Res (List (Option ℝ)))
  solution : Option ℝ

/-! ## Problems on the unit cube, transformed -/

/-- numpy's rule for the length of an axis of the result when two axes meet. -/
def bcastLen (k l : ℕ) : Option ℕ := if k = l then some k else if k = 1 then some l else if l = 1 then some k else none

/-- The length with which an argument takes part in broadcasting: a scalar fits everything. -/
def argLen : Quad.MeanArg → ℕ
  | .scalar _ => 1
  | .vec n _ => n

/-- The entry of an argument that meets column `j`. -/
def argAt : Quad.MeanArg → ℕ → ℝ
  | .scalar m, _ => m
  | .vec n v, j => if n = 1 then (if h : 0 < n then v ⟨0, h⟩ else 0) else if h : j < n then v ⟨j, h⟩ else 0

/-- The shape of `norm.cdf(x, loc=mean, scale=std)`. -/
def cdfShape (mean std : Quad.MeanArg) : List ℕ → Option (List ℕ)
  | [] =>
    match mean, std with
    | .scalar _, .scalar _ => some []
    | _, _ => (bcastLen (argLen mean) (argLen std)).map fun l => [l]
  | n :: ns =>
    ((bcastLen ((n :: ns).getLast (by simp)) (argLen mean)).bind fun l => bcastLen l (argLen std)).map fun l =>
      (n :: ns).dropLast ++ [l]

/-- `norm.cdf(x, loc=mean, scale=std)` for positive `std`: `_quadproblems_gaussian.py:39`. -/
noncomputable def cdfPoints (mean std : Quad.MeanArg) (x : Points) : Res Points :=
  match cdfShape mean std x.shape with
  | none => .error .valueError
  | some s => .ok ⟨s, fun i j =>
      normCdf ((x.entry i (if x.shape.getLast? = some 1 then 0 else j) - argAt mean j) / argAt std j)⟩

open Classical in
/-- `uniform_to_gaussian_integrand`: `_quadproblems_gaussian.py:20-41`. If an entry of `std` is not positive, `norm.cdf`
returns `nan` there; what the integrand does with `nan` is not modelled. -/
noncomputable def toGaussianIntegrand (fn : Points → Res (List (Option ℝ))) (mean std : Quad.MeanArg) (x : Points) :
    Option (Res (List (Option ℝ))) :=
  if ∃ j < argLen std, argAt std j ≤ 0 then none else some ((cdfPoints mean std x).bind fn)

/-- `cov = std**2`, and `np.eye(dim) * cov` for an array: `_quadproblems_gaussian.py:119-121`. An array of another length
than `dim` and one is a ValueError, raised by numpy or (if `dim` is one) by the constructor of the measure. -/
def covOf (dim : ℕ) : Quad.MeanArg → Res Quad.CovArg
  | .scalar s => .ok (.scalar (s ^ 2))
  | .vec n v =>
    if n = dim ∨ n = 1 then .ok (.mat dim (diagonal fun j : Fin dim => argAt (.vec n v) j ^ 2))
    else .error .valueError

open Classical in
/-- `uniform_to_gaussian_quadprob`: `_quadproblems_gaussian.py:44-127`. `ndim` is the number of axes of the solution (zero
for all problems of the zoo). -/
noncomputable def uniformToGaussian (p : Problem) (ndim : ℕ) (mean std : Quad.MeanArg) : Res GaussProblem :=
  if ∃ x ∈ p.lower, x ≠ 0 then .error .valueError
  else if ∃ x ∈ p.upper, x ≠ 1 then .error .valueError
  else if ndim ≠ 0 then .error .valueError
  else (covOf p.lower.length std).bind fun cov =>
    (Quad.gaussInit mean cov (some (p.lower.length : ℤ))).map fun g =>
      ⟨g.1, g.2, toGaussianIntegrand p.fn mean std, p.solution⟩

/-! ## Sums of polynomials -/

/-- The array passed as the parameter `b`: its shape, and its entries by row and column, integers. -/
structure IntArray where
  shape : List ℕ
  entry : ℕ → ℕ → ℤ

/-- `special.factorial2(n)` for an integer (`_quadproblems_gaussian.py:220`): the double factorial; at `-1` old versions of
scipy give 1, those since 1.11 give 0, hence the argument `f2`. -/
def factorial2 (f2 : ℝ) (n : ℤ) : ℝ := if n < 0 then f2 else (n.toNat.doubleFactorial : ℝ)

/-- The defaults: `_quadproblems_gaussian.py:172-175`. -/
def polyDefaults (dim : ℤ) (a : Option Points) (b : Option IntArray) : Res (Points × IntArray) :=
  if dim < 0 ∧ (a = none ∨ b = none) then .error .valueError
  else .ok (a.getD ⟨[1, dim.toNat], fun _ _ => 1⟩, b.getD ⟨[1, dim.toNat], fun _ _ => 1⟩)

/-- Entry `(r, c)` of an array with `p` rows and `q` columns, broadcast. -/
def bAt {α : Type} (p q : ℕ) (e : ℕ → ℕ → α) (r c : ℕ) : α := e (if p = 1 then 0 else r) (if q = 1 then 0 else c)

/-- The integrand of `sum_polynomials`: `_quadproblems_gaussian.py:203-216`. Arrays with more than two axes are not
modelled. -/
noncomputable def polyIntegrand (pa pb p d : ℕ) (a : ℕ → ℕ → ℝ) (b : ℕ → ℕ → ℤ) (x : Points) :
    Option (Res (List (Option ℝ))) :=
  match x.shape with
  | [] => some (.error .indexError)
  | [_] => some (.error .indexError)
  | [n, k] =>
    match bcastLen k d with
    | none => some (.error .valueError)
    | some c => some (.ok ((List.range n).map fun i => some (∑ r ∈ Finset.range p, ∏ j ∈ Finset.range c,
        bAt pa d a r j * (x.entry i (if k = 1 then 0 else j)) ^ (bAt pb d b r j).toNat)))
  | _ => none

open Classical in
/-- `sum_polynomials`: `_quadproblems_gaussian.py:130-232`. `float` says whether `var` is a `float`. -/
noncomputable def sumPolynomials (f2 : ℝ) (dim : ℤ) (a : Option Points) (b : Option IntArray) (float : Bool) (var : ℝ) :
    Res GaussProblem :=
  (polyDefaults dim a b).bind fun ab =>
    match ab.1.shape, ab.2.shape with
    | [pa, da], [pb, db] =>
      if (da : ℤ) ≠ dim then .error .valueError
      else if (db : ℤ) ≠ dim then .error .valueError
      else if ∃ r < pb, ∃ c < db, ab.2.entry r c < 0 then .error .valueError
      else match bcastLen pa pb with
        | none => .error .valueError
        | some p =>
          let solution := ∑ r ∈ Finset.range p, ∏ c ∈ Finset.range da,
            bAt pa da ab.1.entry r c * (((bAt pb da ab.2.entry r c % 2 - 1) ^ 2 : ℤ) : ℝ)
              * var ^ (bAt pb da ab.2.entry r c).toNat * factorial2 f2 (bAt pb da ab.2.entry r c - 1)
          let mean : Quad.MeanArg := if float then .scalar 0 else .vec dim.toNat fun _ => 0
          (Quad.gaussInit mean (.scalar var) (some dim)).map fun g =>
            ⟨g.1, g.2, polyIntegrand pa pb p da ab.1.entry ab.2.entry, some solution⟩
    | _, _ => .error .valueError

end Probnum.Zoo
