import Verif.Kalman.SamplingModel
import Verif.OdeFilter.Model
import Verif.SDE.Model
import Mathlib.Analysis.SpecialFunctions.Trigonometric.Basic
import Mathlib.LinearAlgebra.Matrix.Notation
import Mathlib.Algebra.Order.Floor.Ring

/-!
# Model: the filtering and smoothing problems of the problem zoo

Models `src/probnum/problems/zoo/filtsmooth/_filtsmooth_problems.py` and
`src/probnum/randprocs/markov/utils/_generate_measurements.py`, exact real arithmetic, classic implementations.

The random number generator is two sequences of standard normal vectors: `base` for the call of
`prior_process.sample`, which draws first, and `noise` for the draws of the observations.  `Normal.sample` multiplies a
standard normal vector by a square root of the covariance (`RandVars/Dist.lean`).
-/

namespace Probnum.FiltZoo

open Matrix LinGauss Kalman

/-- `np.arange(start, stop, step)`: `ceil((stop - start) / step)` entries, none if that is negative; a step of zero raises
ZeroDivisionError. -/
noncomputable def arange (start stop step : ℝ) : Res (List ℝ) :=
  open Classical in
  if step = 0 then .error .zeroDivisionError
  else .ok ((List.range ⌈(stop - start) / step⌉.toNat).map fun i : ℕ => start + (i : ℝ) * step)

/-- `time_grid[0]`. -/
def firstTime : List ℝ → Res ℝ
  | [] => .error .indexError
  | t :: _ => .ok t

/-- `np.eye(m, n)`. -/
def eye (m n : ℕ) : Matrix (Fin m) (Fin n) ℝ := Matrix.of fun i j => if i.1 = j.1 then 1 else 0

/-! ## `generate_artificial_measurements` -/

variable {n m : ℕ}

/-- The loop (`_generate_measurements.py` 39-41) from index `idx` on; `fwd state t` is `measmod.forward_realization`. -/
def observeLoop (ch : CovCholesky m) (fwd : (Fin n → ℝ) → ℝ → Updated m) (noise : ℕ → Fin m → ℝ) :
    ℕ → List ((Fin n → ℝ) × ℝ) → List (Fin m → ℝ) → List (Fin m → ℝ)
  | _, [], obs => obs
  | idx, (x, t) :: rest, obs =>
    observeLoop ch fwd noise (idx + 1) rest (obs.set idx (transformBase ch (fwd x t) (noise idx)))

/-- `generate_artificial_measurements` (`_generate_measurements.py` 8-42); `sample times` is
`prior_process.sample(rng, args=times)`. -/
def generate (ch : CovCholesky m) (sample : List ℝ → Res (List (Fin n → ℝ))) (fwd : (Fin n → ℝ) → ℝ → Updated m)
    (noise : ℕ → Fin m → ℝ) (times : List ℝ) : Res (List (Fin n → ℝ) × List (Fin m → ℝ)) := do
  let obs := List.replicate times.length (0 : Fin m → ℝ)
  let states ← sample times
  .ok (states, observeLoop ch fwd noise 0 (states.zip times) obs)

/-- `prior_process.sample(rng, args=times)` (`_markov.py` 49-73): the locations are those given, and the first sample is
one of the initial random variable, so there has to be a location. -/
noncomputable def sampleAt (prior : Prior ℝ (Updated n) ℝ) (ch : CovCholesky n) (base : ℕ → Fin n → ℝ) (times : List ℝ) :
    Res (List (Fin n → ℝ)) :=
  if times = [] then .error .indexError else
  sampleForward prior ch (times.length - 1) base (fun k => times.getD k 0) prior.initrv

/-- `LinearGaussian.forward_realization` (`_linear_gaussian.py` 105-107, `_transition.py` 490-492): `forward_rv` of a constant. -/
noncomputable def linearForward (H : Transition n m) (x : Fin n → ℝ) (_t : ℝ) : Updated m :=
  ⟨(forwardClassic H 1 (Normal.const x)).mean, (forwardClassic H 1 (Normal.const x)).cov⟩

/-- A returned problem: the transition of the prior process as a function of the time increment, the measurement model, the
initial random variable and location, and the regression problem's locations, solution and observations. -/
structure Setup (n m : ℕ) where
  dynamics : ℝ → Transition n n
  meas : Transition n m
  initrv : Updated n
  initarg : ℝ
  locations : List ℝ
  states : List (Fin n → ℝ)
  observations : List (Fin m → ℝ)

/-! ## `car_tracking` -/

/-- `measurement_model` of `car_tracking` (`_filtsmooth_problems.py` 109-116). -/
noncomputable def carMeas (q : ℕ) (variance : ℝ) : Transition (2 * (q + 1)) 2 :=
  ⟨eye 2 (2 * (q + 1)), ⟨0, variance • 1, Real.sqrt variance • 1⟩⟩

/-- The default initial random variable (`_filtsmooth_problems.py` 118-123). -/
def carInit (q : ℕ) (variance : ℝ) : Updated (2 * (q + 1)) := ⟨0, variance • 1⟩

/-- `car_tracking` (`_filtsmooth_problems.py` 20-146).  For `step = 0` the discretisation consists of `nan`s, and `np.arange`
raises afterwards. -/
noncomputable def carTracking (q : ℕ) (chol : CovCholesky (q + 1)) (ch : CovCholesky (2 * (q + 1))) (ch2 : CovCholesky 2)
    (base : ℕ → Fin (2 * (q + 1)) → ℝ) (noise : ℕ → Fin 2 → ℝ) (variance _diffusion t0 t1 step : ℝ)
    (initrv : Option (Updated (2 * (q + 1)))) : Res (Setup (2 * (q + 1)) 2) := do
  let dyn ← match IWP.discretise q 2 chol step with
    | none => .error .zeroDivisionError
    | some tr => .ok tr
  let meas := carMeas q variance
  let init := initrv.getD (carInit q variance)
  let grid ← arange t0 t1 step
  let initarg ← firstTime grid
  let data ← generate ch2 (sampleAt (classicPrior initarg init fun _ => dyn) ch base) (linearForward meas) noise grid
  .ok ⟨fun _ => dyn, meas, init, initarg, grid, data.1, data.2⟩

/-! ## `ornstein_uhlenbeck` -/

/-- `dynamics_model` of `ornstein_uhlenbeck` (`_filtsmooth_problems.py` 211-217). -/
def ouSde (speed : ℝ) : SDE.LTISDE (1 * (0 + 1)) (1 * 1) := SDE.integrator 0 1 (SDE.driftIoup 0 speed)

/-- `ornstein_uhlenbeck` (`_filtsmooth_problems.py` 149-248).  The transition over an increment is the discretisation of the
SDE (`SDE.integrator_forward_exact`: up to the damping of `cov_cholesky`); an increment of zero would give `nan`s. -/
noncomputable def ornsteinUhlenbeck (ch : CovCholesky (1 * (0 + 1))) (ch1 : CovCholesky 1)
    (base : ℕ → Fin (1 * (0 + 1)) → ℝ) (noise : ℕ → Fin 1 → ℝ) (variance speed _diffusion : ℝ)
    (timeGrid : Option (List ℝ)) (initrv : Option (Updated (1 * (0 + 1)))) : Res (Setup (1 * (0 + 1)) 1) := do
  let disc := (ouSde speed).discretise ch
  let meas : Transition (1 * (0 + 1)) 1 := ⟨eye 1 1, ⟨0, variance • 1, Real.sqrt variance • 1⟩⟩
  let init := initrv.getD ⟨fun _ => 10, 1⟩
  let grid ← match timeGrid with
    | none => arange 0 20 (1 / 5)
    | some g => .ok g
  let initarg ← firstTime grid
  let data ← generate ch1 (sampleAt (classicPrior initarg init disc) ch base) (linearForward meas) noise grid
  .ok ⟨disc, meas, init, initarg, grid, data.1, data.2⟩

/-! ## `pendulum` -/

/-- `g = 9.81` (`_filtsmooth_problems.py` 325). -/
noncomputable def gravity : ℝ := 981 / 100

/-- `f` (`_filtsmooth_problems.py` 328-332). -/
noncomputable def pendulumF (step _t : ℝ) (x : Fin 2 → ℝ) : Fin 2 → ℝ :=
  ![x 0 + x 1 * step, x 1 - gravity * Real.sin (x 0) * step]

/-- `df` (`_filtsmooth_problems.py` 334-338). -/
noncomputable def pendulumDf (step _t : ℝ) (x : Fin 2 → ℝ) : Matrix (Fin 2) (Fin 2) ℝ :=
  !![1, step; -gravity * Real.cos (x 0) * step, 1]

/-- `h` (`_filtsmooth_problems.py` 340-342). -/
noncomputable def pendulumH (_t : ℝ) (x : Fin 2 → ℝ) : Fin 1 → ℝ := ![Real.sin (x 0)]

/-- `dh` (`_filtsmooth_problems.py` 344-346). -/
noncomputable def pendulumDh (_t : ℝ) (x : Fin 2 → ℝ) : Matrix (Fin 1) (Fin 2) ℝ := !![Real.cos (x 0), 0]

/-- `np.diag(v, k)` for vectors of length one and `k = ±1`, and of length two for `k = 0`. -/
def npDiag2 (a b : ℝ) : Matrix (Fin 2) (Fin 2) ℝ := !![a, 0; 0, b]

/-- See `npDiag2`. -/
def npDiagUp (a : ℝ) : Matrix (Fin 2) (Fin 2) ℝ := !![0, a; 0, 0]

/-- See `npDiag2`. -/
def npDiagDown (a : ℝ) : Matrix (Fin 2) (Fin 2) ℝ := !![0, 0; a, 0]

/-- `noise_cov` (`_filtsmooth_problems.py` 348-352). -/
noncomputable def pendulumCov (step : ℝ) : Matrix (Fin 2) (Fin 2) ℝ :=
  npDiag2 (step ^ 3 / 3) step + npDiagUp (step ^ 2 / 2) + npDiagDown (step ^ 2 / 2)

/-- A `NonlinearGaussian` (`discrete/_nonlinear_gaussian.py` 19-60). -/
structure Nonlinear (n m : ℕ) where
  fn : ℝ → (Fin n → ℝ) → Fin m → ℝ
  jac : ℝ → (Fin n → ℝ) → Matrix (Fin m) (Fin n) ℝ
  noise : ℝ → Updated m

/-- `NonlinearGaussian.forward_realization` (`_nonlinear_gaussian.py` 64-69): the random variable `noise` is multiplied by the
diffusion and shifted. -/
def Nonlinear.forwardRealization (M : Nonlinear n m) (x : Fin n → ℝ) (t diffusion : ℝ) : Updated m :=
  ⟨M.fn t x + diffusion • (M.noise t).mean, (diffusion ^ 2) • (M.noise t).cov⟩

/-- The sampling side of a `MarkovSequence` with a nonlinear transition: `forward` is called for realizations only. -/
def Nonlinear.prior (M : Nonlinear n n) (initarg : ℝ) (init : Updated n) : Prior ℝ (Updated n) ℝ where
  initarg := initarg
  initrv := init
  forward s t _ _ := .ok (M.forwardRealization s.mean t 1)
  backward _ _ _ _ _ _ := .error .notImplementedError
  one := 1

/-- A returned problem with nonlinear models. -/
structure NonlinearSetup (n m : ℕ) where
  dynamics : Nonlinear n n
  meas : Nonlinear n m
  initrv : Updated n
  initarg : ℝ
  locations : List ℝ
  states : List (Fin n → ℝ)
  observations : List (Fin m → ℝ)

/-- `pendulum` (`_filtsmooth_problems.py` 251-398). -/
noncomputable def pendulum (ch : CovCholesky 2) (ch1 : CovCholesky 1) (base : ℕ → Fin 2 → ℝ) (noise : ℕ → Fin 1 → ℝ)
    (variance t0 t1 step : ℝ) (initrv : Option (Updated 2)) (initarg : Option ℝ) : Res (NonlinearSetup 2 1) := do
  let dyn : Nonlinear 2 2 := ⟨pendulumF step, pendulumDf step, fun _ => ⟨0, pendulumCov step⟩⟩
  let meas : Nonlinear 2 1 := ⟨pendulumH, pendulumDh, fun _ => ⟨0, variance • 1⟩⟩
  let init := initrv.getD ⟨fun _ => 1, variance • 1⟩
  let grid ← arange t0 t1 step
  let initarg ← match initarg with
    | none => firstTime grid
    | some t => .ok t
  let data ← generate ch1 (sampleAt (dyn.prior initarg init) ch base) (fun x t => meas.forwardRealization x t 1) noise grid
  .ok ⟨dyn, meas, init, initarg, grid, data.1, data.2⟩

/-! ## `benes_daum` -/

/-- `f` (`_filtsmooth_problems.py` 451-452). -/
noncomputable def benesF (_t : ℝ) (x : Fin 1 → ℝ) : Fin 1 → ℝ := fun i => Real.tanh (x i)

/-- `df` (`_filtsmooth_problems.py` 454-455): an array of the shape of `x`, not a matrix; with one coordinate it broadcasts
like the `1 × 1` matrix. -/
noncomputable def benesDf (_t : ℝ) (x : Fin 1 → ℝ) : Fin 1 → ℝ := fun i => 1 - Real.tanh (x i) ^ 2

/-- `l` (`_filtsmooth_problems.py` 457-458). -/
def benesL (diffusion _t : ℝ) (_x : Fin 1 → ℝ) : Matrix (Fin 1) (Fin 1) ℝ := diffusion • Matrix.of fun _ _ => 1

/-! ## `logistic_ode` -/

/-- `diffeq_zoo.logistic(t0, tmax, y0, params)` (`problems/zoo/diffeq/_ivp_examples.py` 200-260) for one initial value and
`params = (l0, l1)` with `l1 ≠ 0`; see `logisticIvp_zoo`. -/
noncomputable def logisticIvp (t0 y0 l0 l1 : ℝ) : OdeFilter.Ivp 1 where
  f _ y := fun i => l0 * y i * (1 - y i / l1)
  t0 := t0
  y0 := fun _ => y0
  df := some fun _ y => Matrix.of fun _ j => l0 - l0 / l1 * 2 * y j
  solution := some fun t _ => l1 * y0 * Real.exp (l0 * t) / (l1 + y0 * (Real.exp (l0 * t) - 1))

/-- What `logistic_ode` returns: the regression problem, the IVP and the prior process.  The dimension of the initial random
variable is not compared with that of the transition (`_markov.py` 130-146). -/
structure LogisticSetup (q : ℕ) where
  problem : OdeFilter.Problem 1 q
  ivp : OdeFilter.Ivp 1
  dynamics : SDE.LTISDE (1 * (q + 1)) (1 * 1)
  initrv : Σ n, Updated n
  initarg : ℝ

/-- The default initial random variable (`_filtsmooth_problems.py` 596-599). -/
noncomputable def logisticInit : Σ n, Updated n := ⟨4, ![1 / 10, 0, 0, 0], Matrix.diagonal ![0, 1, 1, 1]⟩

/-- `logistic_ode` (`_filtsmooth_problems.py` 508-616). -/
noncomputable def logisticOde (q : ℕ) (y0 : Option ℝ) (t0 t1 step l0 l1 : ℝ) (initrv : Option (Σ n, Updated n))
    (evlvar : Option ℝ) (ek : ℤ) (excludeInit : Bool) : Res (LogisticSetup q) := do
  let ivp := logisticIvp t0 (y0.getD (1 / 10)) l0 l1
  let grid ← arange t0 t1 step
  let strategy := if ek = 0 then OdeFilter.Strategy.ek0 else OdeFilter.Strategy.ek1
  let (problem, _) ← OdeFilter.toRegression ivp grid (OdeFilter.Residual.new 1 q) (some strategy) (evlvar.getD 0) excludeInit
  let initarg ← firstTime grid
  .ok ⟨problem, ivp, SDE.integrator q 1 (SDE.driftIwp q), initrv.getD logisticInit, initarg⟩

end Probnum.FiltZoo
