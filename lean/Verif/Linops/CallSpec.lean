import Verif.Linops.Mat
import Verif.RandVars.Arr

/-!
# A matrix applied along one axis of an array: specification
-/

namespace Probnum.Linops.Call

open RandVars (Arr)
open Finset

/-- `y` is the `r × c` matrix `D` applied to `x` along the axis between the axes `s` and the axes `q`: that axis has now the
length `r`, and `y[l, i, l'] = ∑ j, D[i, j] x[l, j, l']`. -/
def Along (D : Mat) (r c : ℕ) (s q : List ℕ) (x y : Arr) : Prop :=
  y.shape = s ++ r :: q ∧ ∀ l l' : List ℕ, ∀ i : ℕ, RandVars.Valid s l → RandVars.Valid q l' → i < r →
    y.get (l ++ i :: l') = ∑ j ∈ range c, D i j * x.get (l ++ j :: l')

/-- `y` is `x @ D` for the `r × c` matrix `D`: `y[l, j] = ∑ i, x[l, i] D[i, j]`. -/
def FromRight (D : Mat) (r c : ℕ) (s : List ℕ) (x y : Arr) : Prop :=
  y.shape = s ++ [c] ∧ ∀ l : List ℕ, ∀ j : ℕ, RandVars.Valid s l → j < c →
    y.get (l ++ [j]) = ∑ i ∈ range r, x.get (l ++ [i]) * D i j

/-- Two arrays are equal: same shape and same entries. -/
def Same (x y : Arr) : Prop := x.shape = y.shape ∧ ∀ idx, RandVars.Valid x.shape idx → x.get idx = y.get idx

end Probnum.Linops.Call
