import Mathlib.LinearAlgebra.Matrix.PosDef
import Mathlib.LinearAlgebra.Matrix.NonsingularInverse
import Mathlib.Analysis.Real.Sqrt
import Verif.Py

/-!
# Model of the symmetric matrix-based solver behind `problinsolve`

`src/probnum/linalg/solvers/matrixbased.py`, called `matrixbased.py` here: `MatrixBasedSolver`, `SymmetricMatrixBasedSolver`.

Exact real arithmetic; linear operators are the matrices they denote; a single right-hand side.  Divisions `0 / 0` and
`x / 0` give `nan` or `inf` in numpy; here they are the error `zeroDivisionError`.  Without calibration
(`calibration=None`).
-/

namespace Probnum.Linalg.MatrixBased

open Matrix

variable {n : Type} [Fintype n] [DecidableEq n]

open Classical in
/-- `x / y` of numbers. -/
noncomputable def fdiv (x y : ℝ) : Res ℝ := if y = 0 then .error .zeroDivisionError else .ok (x / y)

open Classical in
/-- The guess that enters the prior means (`matrixbased.py` 86-100). -/
noncomputable def improveGuess (A : Matrix n n ℝ) (x0 b : n → ℝ) : Res ((n → ℝ) × ℝ) :=
  let bx0 := b ⬝ᵥ x0
  let bb := b ⬝ᵥ b
  if bx0 < 0 then .ok (-x0, -bx0)
  else if bx0 = 0 then
    if b = 0 then .ok (b, bx0)
    else
      let bAb := b ⬝ᵥ A *ᵥ b
      match fdiv bb bAb with
      | .error e => .error e
      | .ok q => .ok (q • b, bb ^ 2 / bAb)
  else .ok (x0, bx0)

/-- The prior means for the improved guess (`matrixbased.py` 102-124): of `A` and of its inverse. -/
noncomputable def meansFrom (b x0 : n → ℝ) (bx0 : ℝ) : Res (Matrix n n ℝ × Matrix n n ℝ) :=
  match fdiv (0.5 * bx0) (b ⬝ᵥ b) with
  | .error e => .error e
  | .ok alpha =>
    let v := x0 - alpha • b
    match fdiv 2 bx0 with
    | .error e => .error e
    | .ok c =>
      match fdiv 1 alpha with
      | .error e => .error e
      | .ok a =>
        match fdiv 1 (alpha * (v ⬝ᵥ x0)) with
        | .error e => .error e
        | .ok d => .ok (a • 1 - d • vecMulVec v v, alpha • 1 + c • vecMulVec v v)

/-- `_construct_symmetric_matrix_prior_means` (`matrixbased.py` 60-124): prior means of `A` and of its inverse. -/
noncomputable def priorMeans (A : Matrix n n ℝ) (x0 b : n → ℝ) : Res (Matrix n n ℝ × Matrix n n ℝ) :=
  match improveGuess A x0 b with
  | .error e => .error e
  | .ok (x0, bx0) => meansFrom b x0 bx0

/-- The attributes that stay fixed (`matrixbased.py` 233-268): the system and the prior covariance factors. -/
structure Params (n : Type) where
  A : Matrix n n ℝ
  b : n → ℝ
  ACov0 : Matrix n n ℝ
  HCov0 : Matrix n n ℝ

/-- The attributes of a `SymmetricMatrixBasedSolver` that `solve` changes, with the residual of its loop.  `AUpd` and `HUpd` are
`_A_covfactor_update_term` and `_Ainv_covfactor_update_term`; `outA` and `outH` are the covariance factors of the random
variables `A` and `Ainv` created last. -/
structure State (n : Type) where
  AMean : Matrix n n ℝ
  ACov : Matrix n n ℝ
  AUpd : Matrix n n ℝ
  HMean : Matrix n n ℝ
  HCov : Matrix n n ℝ
  HUpd : Matrix n n ℝ
  x : n → ℝ
  resid : n → ℝ
  iter : ℕ
  dirs : List (n → ℝ)
  obs : List (n → ℝ)
  trUpd : ℝ
  trSol : ℝ
  outA : Matrix n n ℝ
  outH : Matrix n n ℝ

/-- The ways to specify a prior without random variables (`matrixbased.py` 305-380): none, an initial guess, a linear operator
`Ainv0`, a linear operator `A0`.  (Inversion of operators without `inv` is not modelled.) -/
inductive Prior (n : Type) where
  | none
  | guess (x0 : n → ℝ)
  | inverse (Ainv0 : Matrix n n ℝ)
  | matrix (A0 : Matrix n n ℝ)

open Classical in
/-- `inv()` of a linear operator: `LinAlgError` when singular. -/
noncomputable def inv (M : Matrix n n ℝ) : Res (Matrix n n ℝ) :=
  if IsUnit M.det then .ok M⁻¹ else .error .linAlgError

/-- `_get_prior_params` (`matrixbased.py` 270-404): means and covariance factors of `A` and of its inverse. -/
noncomputable def priorParams (A : Matrix n n ℝ) (b : n → ℝ) :
    Prior n → Res (Matrix n n ℝ × Matrix n n ℝ × Matrix n n ℝ × Matrix n n ℝ)
  | .none => .ok (1, A, 1, 1)
  | .guess x0 =>
    match priorMeans A x0 b with
    | .error e => .error e
    | .ok (A0, H0) => .ok (A0, A, H0, H0)
  | .inverse H0 =>
    match inv H0 with
    | .error e => .error e
    | .ok A0 => .ok (A0, A, H0, H0)
  | .matrix A0 =>
    match inv A0 with
    | .error e => .error e
    | .ok H0 => .ok (A0, A0, H0, H0)

/-- `self.x_mean` after `__init__` (`matrixbased.py` 255-260). -/
def initX (b : n → ℝ) (H0 : Matrix n n ℝ) : Prior n → n → ℝ
  | .guess x0 => x0
  | _ => H0 *ᵥ b

/-- `tr(Cov(x)) = (bWb tr(W) + ‖Wb‖²) / 2` (`matrixbased.py` 455-473, 730-747): `W` is the factor of the output random variable,
`tr` is `self.trace_Ainv_covfactor`. -/
noncomputable def traceSol (b : n → ℝ) (W : Matrix n n ℝ) (tr : ℝ) : ℝ :=
  0.5 * ((W *ᵥ b ⬝ᵥ b) * tr + W *ᵥ b ⬝ᵥ W *ᵥ b)

/-- `__init__` (`matrixbased.py` 233-268) and `solve` up to the loop (822-856). -/
noncomputable def init (A : Matrix n n ℝ) (b : n → ℝ) (prior : Prior n) : Res (Params n × State n) :=
  match priorParams A b prior with
  | .error e => .error e
  | .ok (A0, V0, H0, W0) =>
    let x := initX b H0 prior
    .ok (⟨A, b, V0, W0⟩,
      ⟨A0, V0, 0, H0, W0, 0, x, A *ᵥ x - b, 0, [], [], 0, traceSol b W0 W0.trace, V0, W0⟩)

/-- `_mean_update` (`matrixbased.py` 751-762). -/
def meanUpdate (u v : n → ℝ) : Matrix n n ℝ := vecMulVec u v + vecMulVec v u

/-- `_covariance_update` (`matrixbased.py` 764-775). -/
def covUpdate (u Ws : n → ℝ) : Matrix n n ℝ := vecMulVec Ws u

/-- Update of one mean for the observation `M s = y` and the new term of the covariance factor
(`matrixbased.py` 885-888, 897 and 904, for the inverse 890-900 and 905-907). -/
noncomputable def symUpdate (M W : Matrix n n ℝ) (s y : n → ℝ) : Res (Matrix n n ℝ × Matrix n n ℝ) :=
  let Ws := W *ᵥ s
  let delta := y - M *ᵥ s
  match fdiv 1 (s ⬝ᵥ Ws) with
  | .error e => .error e
  | .ok q =>
    let u := q • Ws
    let v := delta - (0.5 * (s ⬝ᵥ delta)) • u
    .ok (M + meanUpdate u v, covUpdate u Ws)

/-- The body of the loop of `solve` after the convergence check (`matrixbased.py` 867-959), without calibration and
callback.  The output random variables are created while `iter_` still has its old value (659, 942-944). -/
noncomputable def step (P : Params n) (st : State n) : Res (State n) :=
  let s := -(st.HMean *ᵥ st.resid)
  let y := P.A *ᵥ s
  match fdiv (s ⬝ᵥ st.resid) (s ⬝ᵥ y) with
  | .error e => .error e
  | .ok q =>
    let stepSize := -q
    match symUpdate st.AMean st.ACov s y with
    | .error e => .error e
    | .ok (AMean, AUpd) =>
      match symUpdate st.HMean st.HCov y s with
      | .error e => .error e
      | .ok (HMean, HUpd) =>
        let AUpd := if st.iter = 0 then AUpd else st.AUpd + AUpd
        let HUpd := if st.iter = 0 then HUpd else st.HUpd + HUpd
        let ACov := P.ACov0 - AUpd
        let HCov := P.HCov0 - HUpd
        let Wy := st.HCov *ᵥ y
        let trUpd := st.trUpd + 1 / (y ⬝ᵥ Wy) * (Wy ⬝ᵥ Wy)
        let outA := if 0 < st.iter then ACov else P.ACov0
        let outH := if 0 < st.iter then HCov else P.HCov0
        .ok ⟨AMean, ACov, AUpd, HMean, HCov, HUpd, st.x + stepSize • s, st.resid + stepSize • y, st.iter + 1,
          st.dirs ++ [s], st.obs ++ [y], trUpd, traceSol P.b outH (P.HCov0.trace - trUpd), outA, outH⟩

/-- `k` iterations. -/
noncomputable def steps (P : Params n) (st : State n) : ℕ → Res (State n)
  | 0 => .ok st
  | k + 1 =>
    match steps P st k with
    | .error e => .error e
    | .ok st' => step P st'

/-- `info["conv_crit"]` (`matrixbased.py` 504-523). -/
inductive Crit where
  | maxiter
  | residAtol
  | residRtol
  | tracecovAtol
  | tracecovRtol
  deriving DecidableEq

/-- `np.linalg.norm`. -/
noncomputable def norm2 (v : n → ℝ) : ℝ := Real.sqrt (v ⬝ᵥ v)

open Classical in
/-- `has_converged` (`matrixbased.py` 475-523).  The square root of a negative number is `nan`, comparisons with `nan` are
false. -/
noncomputable def hasConverged (P : Params n) (maxiter : ℤ) (atol rtol : ℝ) (st : State n) : Option Crit :=
  if maxiter ≤ st.iter then some .maxiter
  else if norm2 st.resid ≤ atol then some .residAtol
  else if norm2 st.resid ≤ rtol * norm2 P.b then some .residRtol
  else if 0 ≤ st.trSol ∧ Real.sqrt st.trSol ≤ atol then some .tracecovAtol
  else if 0 ≤ st.trSol ∧ Real.sqrt st.trSol ≤ rtol * norm2 P.b then some .tracecovRtol
  else none

/-- The loop of `solve` (`matrixbased.py` 859-959), `fuel` passes at most; `none` if more are needed. -/
noncomputable def solveLoop (P : Params n) (maxiter : ℤ) (atol rtol : ℝ) : ℕ → State n → Option (Res (State n × Crit))
  | 0, _ => none
  | fuel + 1, st =>
    match hasConverged P maxiter atol rtol st with
    | some c => some (.ok (st, c))
    | none =>
      match step P st with
      | .error e => some (.error e)
      | .ok st' => solveLoop P maxiter atol rtol fuel st'

/-- `solve` called again on the same solver (`matrixbased.py` 821-856): the counter, the trace and the residual start anew,
everything else is kept. -/
noncomputable def resume (P : Params n) (st : State n) : State n :=
  { st with
    iter := 0
    resid := P.A *ᵥ st.x - P.b
    trUpd := 0
    trSol := traceSol P.b P.HCov0 P.HCov0.trace
    outA := P.ACov0
    outH := P.HCov0 }

end Probnum.Linalg.MatrixBased
