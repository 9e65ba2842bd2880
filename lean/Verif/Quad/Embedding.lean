import Verif.Cov.Matern
import Verif.Py

/-!
# Kernel embeddings of Matérn kernels against the Lebesgue measure

Models `src/probnum/quad/kernel_embeddings/_matern_lebesgue.py` with the `ProductMatern` kernel of
`src/probnum/randprocs/covfuncs/_product_matern.py` and the normalization of
`src/probnum/quad/integration_measures/_lebesgue_measure.py`. Arithmetic is real and exact. Arrays of locations are treated
row by row (the code is elementwise in `x`).
-/

namespace Probnum.Quad

open Probnum.Cov

/-- A scalar Matérn kernel: smoothness and lengthscale. -/
structure Matern1 where
  nu : ℚ
  ell : ℝ

/-- `Matern.__init__`, the checks of the parameters.
`src/probnum/randprocs/covfuncs/_matern.py:99-129`. -/
noncomputable def Matern1.mk? (nu : ℚ) (ell : ℝ) : Res Matern1 :=
  if nu ≤ 0 then .error .valueError
  else if ell ≤ 0 then .error .valueError
  else .ok ⟨nu, ell⟩

/-- `Matern.p`: `_matern.py:136-151`. -/
def Matern1.p (m : Matern1) : Option ℕ :=
  if m.nu - 1 / 2 = ((m.nu - 1 / 2).num.toNat : ℚ) then some (m.nu - 1 / 2).num.toNat else none

/-- `Matern.__call__` for scalar inputs and half-integer smoothness: `_matern.py:175-193`. The Bessel-function branch is not
modelled (`none`). -/
noncomputable def Matern1.value (m : Matern1) (x0 x1 : ℝ) : Option ℝ :=
  m.p.map fun p => matern1 p m.ell x0 x1

/-- `_kernel_mean_matern_1d_lebesgue` at one location.
`src/probnum/quad/kernel_embeddings/_matern_lebesgue.py:175-240`. -/
noncomputable def kernelMean1 (x : ℝ) (m : Matern1) (a b : ℝ) : Res ℝ :=
  let ell := m.ell
  if m.nu = 1 / 2 then
    .ok (ell * (2 - Real.exp ((a - x) / ell) - Real.exp ((x - b) / ell)))
  else if m.nu = 3 / 2 then
    .ok (4 * ell / Real.sqrt 3
      - Real.exp (Real.sqrt 3 * (x - b) / ell) / 3 * (3 * b + 2 * Real.sqrt 3 * ell - 3 * x)
      - Real.exp (Real.sqrt 3 * (a - x) / ell) / 3 * (3 * x + 2 * Real.sqrt 3 * ell - 3 * a))
  else if m.nu = 5 / 2 then
    .ok (16 * ell / (3 * Real.sqrt 5)
      - Real.exp (Real.sqrt 5 * (x - b) / ell) / (15 * ell)
        * (8 * Real.sqrt 5 * ell ^ 2 + 25 * ell * (b - x) + 5 * Real.sqrt 5 * (b - x) ^ 2)
      - Real.exp (Real.sqrt 5 * (a - x) / ell) / (15 * ell)
        * (8 * Real.sqrt 5 * ell ^ 2 + 25 * ell * (x - a) + 5 * Real.sqrt 5 * (a - x) ^ 2))
  else if m.nu = 7 / 2 then
    .ok (1 / (105 * ell ^ 2)
      * (96 * Real.sqrt 7 * ell ^ 3
        - Real.exp (Real.sqrt 7 * (x - b) / ell)
          * (48 * Real.sqrt 7 * ell ^ 3 - 231 * ell ^ 2 * (x - b) + 63 * Real.sqrt 7 * ell * (x - b) ^ 2
            - 49 * (x - b) ^ 3)
        - Real.exp (Real.sqrt 7 * (a - x) / ell)
          * (48 * Real.sqrt 7 * ell ^ 3 + 231 * ell ^ 2 * (x - a) + 63 * Real.sqrt 7 * ell * (x - a) ^ 2
            + 49 * (x - a) ^ 3)))
  else .error .notImplementedError

/-- `_kernel_variance_matern_1d_lebesgue`: `_matern_lebesgue.py:243-305`. -/
noncomputable def kernelVariance1 (m : Matern1) (a b : ℝ) : Res ℝ :=
  let r := b - a
  let ell := m.ell
  if m.nu = 1 / 2 then
    .ok (2 * ell * (r + ell * (Real.exp (-r / ell) - 1)))
  else if m.nu = 3 / 2 then
    let c := Real.sqrt 3 * r
    .ok (2 * ell / 3 * (2 * c - 3 * ell + Real.exp (-c / ell) * (c + 3 * ell)))
  else if m.nu = 5 / 2 then
    let c := Real.sqrt 5 * r
    .ok (1 / 15 * (2 * ell * (8 * c - 15 * ell)
      + 2 * Real.exp (-c / ell) * (5 * a ^ 2 - 10 * a * b + 5 * b ^ 2 + 7 * c * ell + 15 * ell ^ 2)))
  else if m.nu = 7 / 2 then
    let c := Real.sqrt 7 * r
    .ok (1 / (105 * ell)
      * (2 * Real.exp (-c / ell)
          * (7 * Real.sqrt 7 * (b ^ 3 - a ^ 3) + 84 * b ^ 2 * ell + 57 * Real.sqrt 7 * b * ell ^ 2 + 105 * ell ^ 3
            + 21 * a ^ 2 * (Real.sqrt 7 * b + 4 * ell)
            - 3 * a * (7 * Real.sqrt 7 * b ^ 2 + 56 * b * ell + 19 * Real.sqrt 7 * ell ^ 2))
        - 6 * ell ^ 2 * (35 * ell - 16 * c)))
  else .error .notImplementedError

/-- The kernels accepted by the embedding, with input shape `(dim,)`: `matern lengthscales nu` is a `Matern` kernel whose
lengthscales are a scalar (`.inl`) or an array (`.inr`); `product` is a `ProductMatern`. -/
inductive MKernel (dim : ℕ) where
  | matern (lengthscales : ℝ ⊕ List ℝ) (nu : ℚ)
  | product (ms : Fin dim → Matern1)

/-- `_convert_to_product_matern`, 158-172, with the constructor of `ProductMatern` for scalar parameters.
`kernel.lengthscale` raises `ValueError` for arrays (`_matern.py:163-169`). The result is the tuple of the univariate
kernels. -/
noncomputable def convertToProduct {dim : ℕ} : MKernel dim → Res (Fin dim → Matern1)
  | .matern ls nu =>
    if dim > 1 then .error .notImplementedError
    else match ls with
      | .inr _ => .error .valueError
      | .inl l => .ok fun _ => ⟨nu, l⟩
  | .product ms => .ok ms

/-- The loop `for dim in range(input_dim): acc *= f(dim)`. -/
noncomputable def prodLoop {dim : ℕ} (f : Fin dim → Res ℝ) : List (Fin dim) → ℝ → Res ℝ
  | [], acc => .ok acc
  | i :: is, acc => match f i with
    | .error e => .error e
    | .ok v => prodLoop f is (acc * v)

/-- `_kernel_mean_matern_lebesgue` at one location, for a converted kernel and a measure with the given domain and
normalization constant: `_matern_lebesgue.py:73-86`. -/
noncomputable def kernelMeanProduct {dim : ℕ} (ms : Fin dim → Matern1) (a b : Fin dim → ℝ) (c : ℝ) (x : Fin dim → ℝ) :
    Res ℝ :=
  match prodLoop (fun i => kernelMean1 (x i) (ms i) (a i) (b i)) (List.finRange dim) 1 with
  | .error e => .error e
  | .ok v => .ok (c * v)

/-- `_kernel_variance_matern_lebesgue` for a converted kernel: `_matern_lebesgue.py:143-155`. -/
noncomputable def kernelVarianceProduct {dim : ℕ} (ms : Fin dim → Matern1) (a b : Fin dim → ℝ) (c : ℝ) : Res ℝ :=
  match prodLoop (fun i => kernelVariance1 (ms i) (a i) (b i)) (List.finRange dim) 1 with
  | .error e => .error e
  | .ok v => .ok (c ^ 2 * v)

/-- `ProductMatern._evaluate` for vector inputs: `_product_matern.py:103-122`. -/
noncomputable def productValue {dim : ℕ} (ms : Fin dim → Matern1) (x0 x1 : Fin dim → ℝ) : Option ℝ :=
  (List.finRange dim).foldl (fun acc i => acc.bind fun u => ((ms i).value (x0 i) (x1 i)).map fun v => u * v) (some 1)

/-- `LebesgueMeasure.__init__`: the normalization constant (a division by zero gives `inf`, hence `ValueError`).
`src/probnum/quad/integration_measures/_lebesgue_measure.py:40-53`. -/
noncomputable def lebesgueConstant {dim : ℕ} (a b : Fin dim → ℝ) (normalized : Bool) : Res ℝ :=
  if normalized then
    let v := (List.finRange dim).foldl (fun acc i => acc * (b i - a i)) 1
    if v = 0 then .error .valueError else .ok (1 / v)
  else .ok 1

/-- `KernelEmbedding(kernel, measure).kernel_mean` for a Matérn kernel and a Lebesgue measure, at one location: the check
of the dimensions, the conversion and the product.
`src/probnum/quad/kernel_embeddings/_kernel_embedding.py:48-82`, `_matern_lebesgue.py:73-86`. -/
noncomputable def kernelMean {dim dim' : ℕ} (k : MKernel dim) (a b : Fin dim' → ℝ) (c : ℝ) (x : Fin dim → ℝ) : Res ℝ :=
  if h : dim = dim' then match convertToProduct k with
    | .error e => .error e
    | .ok ms => kernelMeanProduct ms (fun i => a (Fin.cast h i)) (fun i => b (Fin.cast h i)) c x
  else .error .valueError

/-- `KernelEmbedding(kernel, measure).kernel_variance`: `_kernel_embedding.py:48-92`, `_matern_lebesgue.py:143-155`. -/
noncomputable def kernelVariance {dim dim' : ℕ} (k : MKernel dim) (a b : Fin dim' → ℝ) (c : ℝ) : Res ℝ :=
  if h : dim = dim' then match convertToProduct k with
    | .error e => .error e
    | .ok ms => kernelVarianceProduct ms (fun i => a (Fin.cast h i)) (fun i => b (Fin.cast h i)) c
  else .error .valueError

end Probnum.Quad
