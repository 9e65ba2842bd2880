import Verif.Cov.Spec

/-!
# Specification of the library's covariance functions

The documented formulas, at two points.  A point of shape `i` is its entries as a function of the multi-index.
-/

namespace Probnum.Cov

open Finset RandVars

/-- The entries of one input point. -/
abbrev Point := List ℕ → ℝ

/-- `x[batch_idx]` after broadcasting: the point of shape `i` that the batch `a` has at the index `idx`. -/
def pointAt (i : List ℕ) (a : Arr) (idx : List ℕ) : Point :=
  fun k => a.get ((bir (a.shape.take (a.shape.length - i.length)).reverse idx.reverse).reverse ++ k)

/-- Entry `j` of a point, in C order. -/
def Point.at (i : List ℕ) (x : Point) (j : ℕ) : ℝ := x (unravel i j)

/-- The lengthscale along entry `j`. -/
def scaleAt (i : List ℕ) (ls : Arr) (j : ℕ) : ℝ := ls.bget (unravel i j)

/-- Squared distance with the entries scaled by lengthscales. -/
noncomputable def scaledSq (i : List ℕ) (ls : Arr) (x y : Point) : ℝ :=
  ∑ j ∈ range i.prod, ((x.at i j - y.at i j) / scaleAt i ls j) ^ 2

/-- The documented Matérn covariance function; but if the smoothness is not a half-integer, distances below machine
precision are replaced by it. -/
noncomputable def maternSpec (ν u : ℝ) : ℝ :=
  if ν - 1 / 2 = (⌊ν - 1 / 2⌋₊ : ℕ) then maternDoc ν u else maternDoc ν (max u machineEps)

open Classical in
/-- The documented formulas (`_linear.py` 20-21, `_polynomial.py` 18-19, `_exponentiated_quadratic.py` 24-25,
`_rational_quadratic.py` 18-27, `_white_noise.py` 18-19, `_matern.py` 24-39, `_product_matern.py`
17-20). -/
noncomputable def Kernel.value (i : List ℕ) : Kernel → Point → Point → ℝ
  | .linear c, x, y => (∑ j ∈ range i.prod, x.at i j * y.at i j) + c
  | .polynomial c q, x, y => ((∑ j ∈ range i.prod, x.at i j * y.at i j) + c) ^ q
  | .expQuad ls, x, y => Real.exp (-(scaledSq i ls x y / 2))
  | .ratQuad l α, x, y => (1 + (∑ j ∈ range i.prod, (x.at i j - y.at i j) ^ 2) / (2 * α * l ^ 2)) ^ (-α)
  | .whiteNoise σ2, x, y => if ∀ j < i.prod, x.at i j = y.at i j then σ2 else 0
  | .matern ν ls, x, y => maternSpec ν (Real.sqrt (2 * ν) * Real.sqrt (scaledSq i ls x y))
  | .productMatern ms, x, y =>
    ∏ j ∈ range i.prod, maternSpec (ms.getD j (1, 1)).1
      (Real.sqrt (2 * (ms.getD j (1, 1)).1) * (|x.at i j - y.at i j| / (ms.getD j (1, 1)).2))

/-- Input shapes the class supports (it raises for others); for lengthscale 0 `RatQuad` returns `inf` or `nan`. -/
def Kernel.Supports (i : List ℕ) : Kernel → Prop
  | .linear _ => i.length ≤ 1
  | .polynomial _ _ => i.length ≤ 1
  | .expQuad _ => True
  | .ratQuad l _ => l ≠ 0
  | .whiteNoise _ => i.length ≤ 1
  | .matern _ _ => True
  | .productMatern _ => i.length ≤ 1 ∧ i ≠ [0]

/-- The value of an expression at two points: sums, products and multiples of the documented formulas. -/
noncomputable def KExpr.value : KExpr → Point → Point → ℝ
  | .kernel i k, x, y => k.value i x y
  | .add a b, x, y => a.value x y + b.value x y
  | .mul a b, x, y => a.value x y * b.value x y
  | .scale c a, x, y => c * a.value x y

/-- All covariance functions in the expression have input shape `i`, support it, and got parameters their constructors
accept. -/
def KExpr.Admits (i : List ℕ) : KExpr → Prop
  | .kernel j k => j = i ∧ k.check i = .ok () ∧ k.Supports i
  | .add a b => a.Admits i ∧ b.Admits i
  | .mul a b => a.Admits i ∧ b.Admits i
  | .scale _ a => a.Admits i

end Probnum.Cov
