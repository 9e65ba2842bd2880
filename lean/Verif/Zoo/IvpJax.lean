import Verif.Zoo.Ivp
import Mathlib.Analysis.Calculus.FDeriv.Pi
import Mathlib.LinearAlgebra.Matrix.Defs

/-!
# The example initial value problems that use jax

Models `src/probnum/problems/zoo/diffeq/_ivp_examples_jax.py`. Arithmetic is real and exact. Automatic differentiation is
modelled by Fréchet derivatives; where the right-hand side divides by zero nothing is said about the derivatives, which is
written `none`. States are arrays with one axis and at least one entry. That jax is installed is assumed.
-/

namespace Probnum.Zoo

open Probnum

/-- `Y[k]` for a jax array: an index beyond the end is replaced by the last one (jax documents this; it does not raise).
Used at `_ivp_examples_jax.py:64-68`, `160`. -/
def jaxGet {n : ℕ} (y : Fin (n + 1) → ℝ) (k : ℕ) : ℝ := y ⟨min k n, by omega⟩

/-- `jax.jacfwd(f)`: `_ivp_examples_jax.py:70`, `162`. -/
noncomputable def jacfwd {n m : ℕ} (g : (Fin n → ℝ) → Fin m → ℝ) (y : Fin n → ℝ) : Matrix (Fin m) (Fin n) ℝ :=
  Matrix.of fun i j => fderiv ℝ g y (Pi.single j 1) i

/-- `jax.jacrev(df)`, where `df` returns a matrix; the last axis is the direction of the derivative:
`_ivp_examples_jax.py:71`, `163`. -/
noncomputable def jacrevMatrix {n m : ℕ} (df : (Fin n → ℝ) → Matrix (Fin m) (Fin n) ℝ) (y : Fin n → ℝ) :
    Fin m → Fin n → Fin n → ℝ :=
  fun i j k => fderiv ℝ (fun z => df z i j) y (Pi.single k 1)

/-- The `InitialValueProblem`s of this file (`src/probnum/problems/_problems.py:163-179`), with derivatives that have
`m` rows. -/
structure JaxIvp (m : ℕ) where
  f : ∀ {n : ℕ}, ℝ → (Fin (n + 1) → ℝ) → Fin m → Option ℝ
  t0 : ℝ
  tmax : ℝ
  y0 : List ℝ
  df : ∀ {n : ℕ}, ℝ → (Fin (n + 1) → ℝ) → Option (Matrix (Fin m) (Fin (n + 1)) ℝ)
  ddf : ∀ {n : ℕ}, ℝ → (Fin (n + 1) → ℝ) → Option (Fin m → Fin (n + 1) → Fin (n + 1) → ℝ)

/-- `mu`: `_ivp_examples_jax.py:62`. -/
noncomputable def jaxMu : ℝ := 0.012277471

/-- `mp`: `_ivp_examples_jax.py:63`. -/
noncomputable def jaxMp : ℝ := 1 - jaxMu

/-- `D1`: `_ivp_examples_jax.py:64`. -/
noncomputable def jaxD1 {n : ℕ} (y : Fin (n + 1) → ℝ) : ℝ := ((jaxGet y 0 + jaxMu) ^ 2 + jaxGet y 1 ^ 2) ^ (3 / 2 : ℝ)

/-- `D2`: `_ivp_examples_jax.py:65`. -/
noncomputable def jaxD2 {n : ℕ} (y : Fin (n + 1) → ℝ) : ℝ := ((jaxGet y 0 - jaxMp) ^ 2 + jaxGet y 1 ^ 2) ^ (3 / 2 : ℝ)

/-- `threebody_rhs` where it does not divide by zero: `_ivp_examples_jax.py:59-68`. -/
noncomputable def threebodyJaxRhs {n : ℕ} (y : Fin (n + 1) → ℝ) : Fin 4 → ℝ :=
  let y1p := jaxGet y 0 + 2 * jaxGet y 3 - jaxMp * (jaxGet y 0 + jaxMu) / jaxD1 y - jaxMu * (jaxGet y 0 - jaxMp) / jaxD2 y
  let y2p := jaxGet y 1 - 2 * jaxGet y 2 - jaxMp * jaxGet y 1 / jaxD1 y - jaxMu * jaxGet y 1 / jaxD2 y
  ![jaxGet y 2, jaxGet y 3, y1p, y2p]

open Classical in
/-- `threebody_jax`: `_ivp_examples_jax.py:11-87`. -/
noncomputable def threebodyJax (tmax : ℝ) : JaxIvp 4 where
  f := fun _t y i =>
    if 2 ≤ i.val ∧ (jaxD1 y = 0 ∨ jaxD2 y = 0) then none else some (threebodyJaxRhs y i)
  t0 := 0
  tmax := tmax
  y0 := [0.994, 0, 0, -2.00158510637908252240537862224]
  df := fun _t y => if jaxD1 y = 0 ∨ jaxD2 y = 0 then none else some (jacfwd threebodyJaxRhs y)
  ddf := fun _t y => if jaxD1 y = 0 ∨ jaxD2 y = 0 then none else some (jacrevMatrix (jacfwd threebodyJaxRhs) y)

/-- `vanderpol_rhs`: `_ivp_examples_jax.py:159-160`. -/
def vanderpolJaxRhs (mu : ℝ) {n : ℕ} (y : Fin (n + 1) → ℝ) : Fin 2 → ℝ :=
  ![jaxGet y 1, mu * (1 - jaxGet y 0 ^ 2) * jaxGet y 1 - jaxGet y 0]

/-- `vanderpol_jax`: `_ivp_examples_jax.py:109-177`. Unlike in `vanderpol` the parameter is unpacked when the problem is made
(lines 151-154). -/
noncomputable def vanderpolJax (t0 tmax : ℝ) (y0 : Option (List ℝ)) (params : VdpParams) : Res (JaxIvp 2) :=
  params.mu.map fun mu =>
    { f := fun _t y i => some (vanderpolJaxRhs mu y i)
      t0 := t0
      tmax := tmax
      y0 := y0.getD [2, 0]
      df := fun _t y => some (jacfwd (vanderpolJaxRhs mu) y)
      ddf := fun _t y => some (jacrevMatrix (jacfwd (vanderpolJaxRhs mu)) y) }

/-- `vanderpol_jax()` with the default arguments: `_ivp_examples_jax.py:109`. -/
noncomputable def vanderpolJaxDefault : Res (JaxIvp 2) := vanderpolJax 0 30 none (.float 10)

end Probnum.Zoo
