import Verif.OdeFilter.Model
import Mathlib.Analysis.Calculus.IteratedDeriv.Defs

/-!
# Model of the automatic-differentiation initialisation of ODE filters

`diffeq/odefilter/init_routines/_autodiff.py`.  Automatic differentiation computes derivatives: `jax.jvp` and `jax.jacfwd`,
`jax.jacrev` are modelled by the Fréchet derivative, `jax.experimental.jet` by the derivatives along a polynomial curve (its
documented meaning).  Exact arithmetic.  Initial values are vectors.
-/

namespace Probnum.OdeFilter

open Matrix

variable {d : ℕ}

/-- `jnp.concatenate([x, jnp.array([t])])`. -/
def withTime (x : Fin d → ℝ) (t : ℝ) : Fin (d + 1) → ℝ := fun i => if h : i.1 < d then x ⟨i, h⟩ else t

/-- `y[:-1]`. -/
def dropTime (y : Fin (d + 1) → ℝ) : Fin d → ℝ := fun i => y i.castSucc

/-- `f_autonomous` (`_autodiff.py` 73-76). -/
def autonomous (f : ℝ → (Fin d → ℝ) → Fin d → ℝ) (y : Fin (d + 1) → ℝ) : Fin (d + 1) → ℝ :=
  withTime (f (y (Fin.last d)) (dropTime y)) 1

/-- The four routines (`_autodiff.py` 103-124, 127). -/
inductive AutodiffMode
  | forwardJVP
  | forward
  | reverse
  | taylor

/-- `jax.jvp(fun, (x,), (v,))[1]` (`_autodiff.py` 107). -/
noncomputable def jvp {n : ℕ} (g : (Fin n → ℝ) → Fin n → ℝ) (x v : Fin n → ℝ) : Fin n → ℝ := fderiv ℝ g x v

/-- `jax.jacfwd(fun)(x)`, `jax.jacrev(fun)(x)` (`_autodiff.py` 115, 122). -/
noncomputable def jac {n : ℕ} (g : (Fin n → ℝ) → Fin n → ℝ) (x : Fin n → ℝ) : Matrix (Fin n) (Fin n) ℝ :=
  Matrix.of fun i j => fderiv ℝ g x (Pi.single j 1) i

/-- `_jvp_or_vjp` (`_autodiff.py` 99-100, 106-108, 114-115, 121-122); not used by `TaylorMode`. -/
noncomputable def directional {n : ℕ} (mode : AutodiffMode) (g : (Fin n → ℝ) → Fin n → ℝ) (x v : Fin n → ℝ) : Fin n → ℝ :=
  match mode with
  | .forward => jac g x *ᵥ v
  | .reverse => jac g x *ᵥ v
  | _ => jvp g x v

/-- What `_initial_derivative_generator` yields (`_autodiff.py` 80-97). -/
noncomputable def derivGen {n : ℕ} (mode : AutodiffMode) (f : (Fin n → ℝ) → Fin n → ℝ) (y₀ : Fin n → ℝ) :
    ℕ → (Fin n → ℝ) → Fin n → ℝ
  | 0 => fun _ => y₀
  | 1 => f
  | k + 2 => fun x => directional mode (derivGen mode f y₀ (k + 1)) x (f x)

/-- The curve with the given derivatives at zero. -/
noncomputable def curve {n : ℕ} (c : List (Fin n → ℝ)) (s : ℝ) : Fin n → ℝ :=
  ∑ i ∈ Finset.range c.length, (s ^ i / (i.factorial : ℝ)) • c.getD i 0

/-- `jax.experimental.jet.jet(fun, (x,), (series,))`: value and derivatives of the function along the curve (`_autodiff.py` 249). -/
noncomputable def jet {n : ℕ} (f : (Fin n → ℝ) → Fin n → ℝ) (x : Fin n → ℝ) (series : List (Fin n → ℝ)) :
    (Fin n → ℝ) × List (Fin n → ℝ) :=
  (f x, (List.range series.length).map fun j => iteratedDeriv (j + 1) (fun s => f (curve (x :: series) s)) 0)

/-- What `_taylor_coefficient_generator` yields (`_autodiff.py` 225-258). -/
noncomputable def taylorGen {n : ℕ} (f : (Fin n → ℝ) → Fin n → ℝ) (y₀ : Fin n → ℝ) : ℕ → List (Fin n → ℝ)
  | 0 => [y₀]
  | 1 => [y₀, f y₀]
  | k + 2 => y₀ :: (jet f y₀ (taylorGen f y₀ (k + 1)).tail).1 :: (jet f y₀ (taylorGen f y₀ (k + 1)).tail).2

/-- `_compute_ode_derivatives` (`_autodiff.py` 58-63, 194-207): the rows of the matrix of derivatives. -/
noncomputable def odeDerivatives (mode : AutodiffMode) (f : (Fin (d + 1) → ℝ) → Fin (d + 1) → ℝ) (y₀ : Fin (d + 1) → ℝ) (q : ℕ) :
    List (Fin d → ℝ) :=
  match mode with
  | .taylor => (taylorGen f y₀ q).map dropTime
  | m => (List.range (q + 1)).map fun k => dropTime (derivGen m f y₀ k y₀)

/-- Mean, covariance and Cholesky factor of a normal random variable. -/
structure InitRV (n : ℕ) where
  mean : Fin n → ℝ
  cov : Matrix (Fin n) (Fin n) ℝ
  chol : Matrix (Fin n) (Fin n) ℝ

/-- `_AutoDiffBase.__call__` (`_autodiff.py` 37-56, 65-78) for a prior with `q` derivatives; `flattenF` is
`mean_matrix.reshape((-1,), order="F")`. -/
noncomputable def autodiffInit (mode : AutodiffMode) (ivp : Ivp d) (q : ℕ) : InitRV (d * (q + 1)) :=
  { mean := fun j => flattenF (odeDerivatives mode (autonomous ivp.f) (withTime ivp.y0 ivp.t0) q) j.1
    cov := 0
    chol := 0 }

/-- What constructing a routine can raise. -/
inductive ConstructErr
  | importError
  | nameError

/-- Whether a module-level name is bound: `except ImportError as JAX_IMPORT_ERROR` unbinds the name at the end of the clause. -/
def jaxImportErrorBound (_jaxIsAvailable : Bool) : Bool := false

/-- `_AutoDiffBase.__init__` (`_autodiff.py` 12-27, 31-35): `raise ImportError(...) from JAX_IMPORT_ERROR` looks the name up. -/
def autodiffConstruct (jaxIsAvailable : Bool) : Except ConstructErr Unit :=
  if jaxIsAvailable then .ok ()
  else if jaxImportErrorBound jaxIsAvailable then .error .importError
  else .error .nameError

end Probnum.OdeFilter
