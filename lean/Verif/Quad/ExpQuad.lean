import Verif.Quad.Embedding
import Mathlib.MeasureTheory.Integral.IntervalIntegral.Basic
import Mathlib.LinearAlgebra.Matrix.NonsingularInverse
import Mathlib.Analysis.SpecialFunctions.Pow.Real
import Mathlib.Analysis.Real.Pi.Bounds

/-!
# Kernel embeddings of exponentiated quadratic kernels, and the choice of the embedding

Models `src/probnum/quad/kernel_embeddings/_expquad_lebesgue.py`, `_expquad_gauss.py`, the dispatch of
`_kernel_embedding.py`, and the construction of Gaussian measures in
`src/probnum/quad/integration_measures/_gaussian_measure.py`. Arithmetic is real and exact. Arrays of locations are treated
row by row (the code is elementwise in the rows of `x`).
-/

namespace Probnum.Quad

open Matrix

/-- `scipy.special.erf`, imported at `_expquad_lebesgue.py:6`: the error function. -/
noncomputable def erf (x : ℝ) : ℝ := 2 / Real.sqrt Real.pi * ∫ t in (0 : ℝ)..x, Real.exp (-t ^ 2)

/-- `ExpQuad.lengthscale`: the lengthscales are a scalar (`.inl`) or an array (`.inr`).
`src/probnum/randprocs/covfuncs/_exponentiated_quadratic.py:77-83`. -/
def lengthscale : ℝ ⊕ List ℝ → Res ℝ
  | .inl l => .ok l
  | .inr _ => .error .valueError

/-! ## Lebesgue measure -/

/-- `_kernel_mean_expquad_lebesgue` at one location: `_expquad_lebesgue.py:50-60`. -/
noncomputable def expquadLebesgueMean {D : ℕ} (ls : ℝ ⊕ List ℝ) (a b : Fin D → ℝ) (c : ℝ) (x : Fin D → ℝ) : Res ℝ :=
  (lengthscale ls).map fun ell =>
    c * (Real.pi * ell ^ 2 / 2) ^ ((D : ℝ) / 2)
      * ∏ i, (erf ((b i - x i) / (ell * Real.sqrt 2)) - erf ((a i - x i) / (ell * Real.sqrt 2)))

/-- `_kernel_variance_expquad_lebesgue`: `_expquad_lebesgue.py:97-108`. -/
noncomputable def expquadLebesgueVariance {D : ℕ} (ls : ℝ ⊕ List ℝ) (a b : Fin D → ℝ) (c : ℝ) : Res ℝ :=
  (lengthscale ls).map fun ell =>
    c ^ 2 * (2 * Real.pi * ell ^ 2) ^ ((D : ℝ) / 2)
      * ∏ i, (ell * Real.sqrt (2 / Real.pi) * (Real.exp (-(b i - a i) ^ 2 / (2 * ell ^ 2)) - 1)
        + (b i - a i) * erf ((b i - a i) / (ell * Real.sqrt 2)))

/-! ## Gaussian measure -/

/-- What a `GaussianMeasure` holds: `_gaussian_measure.py:64-76`. -/
structure GaussMeasure (D : ℕ) where
  mean : Fin D → ℝ
  cov : Matrix (Fin D) (Fin D) ℝ
  diagonal : Bool

/-- The argument `mean`: a scalar, or an array of shape `(n,)`. -/
inductive MeanArg
  | scalar (m : ℝ)
  | vec (n : ℕ) (v : Fin n → ℝ)

/-- The argument `cov`: a scalar, or an array of shape `(n, n)`. -/
inductive CovArg
  | scalar (c : ℝ)
  | mat (n : ℕ) (C : Matrix (Fin n) (Fin n) ℝ)

/-- `np.isscalar(mean) or mean.size == 1`, with the number: `_gaussian_measure.py:44`. -/
def MeanArg.one? : MeanArg → Option ℝ
  | .scalar m => some m
  | .vec n v => if h : n = 1 then some (v ⟨0, by omega⟩) else none

/-- `np.isscalar(cov) or cov.size == 1`, with the number: `_gaussian_measure.py:45`. -/
def CovArg.one? : CovArg → Option ℝ
  | .scalar c => some c
  | .mat n C => if h : n = 1 then some (C ⟨0, by omega⟩ ⟨0, by omega⟩) else none

/-- Scalars are extended if `input_dim` is given (`np.full` with a negative length raises `ValueError`):
`_gaussian_measure.py:41-49`. -/
def extend (mean : MeanArg) (cov : CovArg) (inputDim : Option ℤ) : Res (MeanArg × CovArg) :=
  match mean.one?, cov.one?, inputDim with
  | some m, some c, some d =>
    if d < 0 then .error .valueError else .ok (.vec d.toNat fun _ => m, .mat d.toNat (c • (1 : Matrix _ _ ℝ)))
  | _, _, _ => .ok (mean, cov)

open Classical in
/-- The flag `diagonal_covariance`: `_gaussian_measure.py:70-76`. -/
noncomputable def diagonalFlag {D : ℕ} (C : Matrix (Fin D) (Fin D) ℝ) : Bool :=
  if D = 1 then true else decide (∀ i j, C i j - (Matrix.diagonal fun k => C k k) i j = 0)

/-- `Normal(mean=np.squeeze(mean), cov=np.squeeze(cov))` with the reshapes and the flag, for a mean with `D ≥ 1` entries:
the shape of the covariance must fit (`ValueError` otherwise, `src/probnum/randvars/_normal.py:101-107`).
`_gaussian_measure.py:61-76`. -/
noncomputable def gaussNormal (D : ℕ) (mean : Fin D → ℝ) (cov : CovArg) : Res (Σ D, GaussMeasure D) :=
  if D = 1 then
    match cov.one? with
    | some c => .ok ⟨D, mean, Matrix.of fun _ _ => c, diagonalFlag (D := D) (Matrix.of fun _ _ => c)⟩
    | none => .error .valueError
  else
    match cov with
    | .scalar _ => .error .valueError
    | .mat n C => if h : n = D then .ok ⟨D, mean, h ▸ C, diagonalFlag (h ▸ C)⟩ else .error .valueError

/-- `GaussianMeasure.__init__` after the extension: the dimension is the size of the mean and `as_domain` rejects dimension
zero. `_gaussian_measure.py:51-76`, `src/probnum/quad/_utils.py:54-57`. -/
noncomputable def gaussInitCore : MeanArg → CovArg → Res (Σ D, GaussMeasure D)
  | .scalar m, cov => gaussNormal 1 (fun _ => m) cov
  | .vec n v, cov => if n < 1 then .error .valueError else gaussNormal n v cov

/-- `GaussianMeasure.__init__`: `_gaussian_measure.py:34-76`. -/
noncomputable def gaussInit (mean : MeanArg) (cov : CovArg) (inputDim : Option ℤ) : Res (Σ D, GaussMeasure D) :=
  (extend mean cov inputDim).bind fun mc => gaussInitCore mc.1 mc.2

/-- The symmetric matrix that routines reading the lower triangle see. -/
def lowerSym {D : ℕ} (A : Matrix (Fin D) (Fin D) ℝ) : Matrix (Fin D) (Fin D) ℝ :=
  Matrix.of fun i j => if j ≤ i then A i j else A j i

/-- `L` is the Cholesky factor of `A`. -/
def IsCholesky {D : ℕ} (A L : Matrix (Fin D) (Fin D) ℝ) : Prop :=
  (∀ i j, i < j → L i j = 0) ∧ (∀ i, 0 < L i i) ∧ L * Lᵀ = A

open Classical in
/-- `scipy.linalg.cho_factor(A, lower=True)`, called at `_expquad_gauss.py:56-59`: the Cholesky factor, or `LinAlgError` if
there is none. Only the lower triangle of `A` is read. (The array scipy returns has other numbers above the diagonal; they
are not used.) -/
noncomputable def scipyChoFactor {D : ℕ} (A : Matrix (Fin D) (Fin D) ℝ) : Res (Matrix (Fin D) (Fin D) ℝ) :=
  if h : ∃ L, IsCholesky (lowerSym A) L then .ok h.choose else .error .linAlgError

/-- `scipy.linalg.cho_solve((L, True), v)`, called at `_expquad_gauss.py:60`. -/
noncomputable def scipyChoSolve {D : ℕ} (L : Matrix (Fin D) (Fin D) ℝ) (v : Fin D → ℝ) : Fin D → ℝ := (L * Lᵀ)⁻¹ *ᵥ v

/-- `_kernel_mean_expquad_gauss` at one location: `_expquad_gauss.py:46-64`. -/
noncomputable def expquadGaussMean {D : ℕ} (ls : ℝ ⊕ List ℝ) (g : GaussMeasure D) (x : Fin D → ℝ) : Res ℝ :=
  (lengthscale ls).bind fun ell =>
    if g.diagonal = true then
      let cholInvX := fun i => (x i - g.mean i) / Real.sqrt (ell ^ 2 + g.cov i i)
      let detFactor := ell ^ D / Real.sqrt (∏ i, (ell ^ 2 + g.cov i i))
      let expFactor := Real.exp (-0.5 * ∑ i, cholInvX i ^ 2)
      .ok (detFactor * expFactor)
    else
      (scipyChoFactor (ell ^ 2 • (1 : Matrix (Fin D) (Fin D) ℝ) + g.cov)).map fun chol =>
        let cholInvX := scipyChoSolve chol fun i => x i - g.mean i
        let expFactor := Real.exp (-0.5 * ∑ i, (x i - g.mean i) * cholInvX i)
        let detFactor := ell ^ D / ∏ i, chol i i
        detFactor * expFactor

/-- The determinant factor of the variance: `_expquad_gauss.py:96-102`. -/
noncomputable def gaussDenom {D : ℕ} (ell : ℝ) (g : GaussMeasure D) : ℝ :=
  if g.diagonal = true then ∏ i, (ell ^ 2 + 2 * g.cov i i)
  else (ell ^ 2 • (1 : Matrix (Fin D) (Fin D) ℝ) + 2 • g.cov).det

/-- `_kernel_variance_expquad_gauss`: `_expquad_gauss.py:94-104`. -/
noncomputable def expquadGaussVariance {D : ℕ} (ls : ℝ ⊕ List ℝ) (g : GaussMeasure D) : Res ℝ :=
  (lengthscale ls).map fun ell => ell ^ D / Real.sqrt (gaussDenom ell g)

/-! ## The choice of the embedding -/

/-- A kernel: exponentiated quadratic, Matérn or product Matérn with input shape `(dim,)`, or of another class. (A Matérn
kernel with another input shape fails the first check like every other kernel.) -/
inductive AnyKernel
  | expQuad (shape : List ℕ) (lengthscales : ℝ ⊕ List ℝ)
  | matern (dim : ℕ) (k : MKernel dim)
  | other (shape : List ℕ)

/-- `kernel.input_shape`. `src/probnum/randprocs/covfuncs/_covariance_function.py:197-212`. -/
def AnyKernel.shape : AnyKernel → List ℕ
  | .expQuad s _ => s
  | .matern dim _ => [dim]
  | .other s => s

/-- An integration measure on `D`-dimensional space: Gaussian, Lebesgue with bounds and normalization constant, or of another
class. -/
inductive AnyMeasure (D : ℕ)
  | gaussian (g : GaussMeasure D)
  | lebesgue (a b : Fin D → ℝ) (c : ℝ)
  | other

/-- A `KernelEmbedding`: the functions `_kmean` and `_kvar` with kernel and measure filled in.
`_kernel_embedding.py:62-92`. -/
structure Embedding (D : ℕ) where
  mean : (Fin D → ℝ) → Res ℝ
  variance : Res ℝ

/-- `_get_kernel_embedding`: `_kernel_embedding.py:122-138`. (The inner test of the dimensions repeats the one made before
the call.) -/
noncomputable def getEmbedding {D : ℕ} : AnyKernel → AnyMeasure D → Res (Embedding D)
  | .expQuad _ ls, .gaussian g => .ok ⟨expquadGaussMean ls g, expquadGaussVariance ls g⟩
  | .expQuad _ ls, .lebesgue a b c => .ok ⟨expquadLebesgueMean ls a b c, expquadLebesgueVariance ls a b c⟩
  | .matern dim k, .lebesgue a b c =>
    if h : dim = D then .ok ⟨fun x => kernelMean k a b c fun i => x (Fin.cast h i), kernelVariance k a b c⟩
    else .error .valueError
  | _, _ => .error .notImplementedError

/-- `KernelEmbedding.__init__`: `_kernel_embedding.py:51-65`. -/
noncomputable def kernelEmbedding {D : ℕ} (k : AnyKernel) (m : AnyMeasure D) : Res (Embedding D) :=
  if k.shape ≠ [D] then .error .valueError else getEmbedding k m

end Probnum.Quad
