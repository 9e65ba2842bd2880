import Verif.Linalg.MatrixBased
import Mathlib.Analysis.SpecialFunctions.Log.Basic

/-!
# Model of the uncertainty calibration of the symmetric matrix-based solver

`src/probnum/linalg/solvers/matrixbased.py`, called `matrixbased.py` here: the argument `calibration` of `solve`.

As in `Verif.Linalg.MatrixBased`; all its priors have the calibration covariance class (`is_calib_covclass`, lines 305-368).
-/

namespace Probnum.Linalg.MatrixBased

open Matrix

variable {n : Type} [Fintype n] [DecidableEq n]

/-- The names of calibration methods (`matrixbased.py` 562-598); `other` is every other string. -/
inductive Method where
  | adhoc
  | weightedmean
  | gpkern
  | other
  deriving DecidableEq

/-- The argument `calibration` of `solve` (`matrixbased.py` 777-819). -/
inductive Calibration where
  | none
  | scale (c : ℝ)
  | method (m : Method)

open Classical in
/-- The scales `phi`, `psi` before the loop (`matrixbased.py` 825-845); `none` is Python's `None`. -/
noncomputable def initScales : Calibration → Res (Option (ℝ × ℝ))
  | .none => .ok none
  | .method _ => .ok none
  | .scale c => if c < 0 then .error .valueError else if c = 0 then .ok none else .ok (some (c, 1 / c))

/-- `np.mean`. -/
noncomputable def mean (l : List ℝ) : ℝ := l.sum / l.length

/-- The logarithms of the Rayleigh quotients (`matrixbased.py` 558). -/
noncomputable def logR (dirs obs : List (n → ℝ)) : List ℝ :=
  List.zipWith (fun s y => Real.log (s ⬝ᵥ y) - Real.log (s ⬝ᵥ s)) dirs obs

/-- `_calibrate_uncertainty` (`matrixbased.py` 525-608).  `gp` stands for the regression by the optional package GPy (569-596): from
the logarithms of the quotients seen so far to the predicted ones, or an error. -/
noncomputable def calibrate (gp : List ℝ → Res (List ℝ)) (m : Method) (iter : ℕ) (logR : List ℝ) : Res (ℝ × ℝ) :=
  if 1 < iter then
    match (match m with
      | .adhoc => .ok [logR.getLastD 0]
      | .weightedmean => .ok (List.zipWith (fun r (i : ℕ) => r * 0.9 ^ i) logR (List.range (iter + 1)))
      | .gpkern => gp logR
      | .other => .error .valueError : Res (List ℝ)) with
    | .error e => .error e
    | .ok pred => .ok (Real.exp (mean pred), Real.exp (-mean pred))
  else
    let phi := Real.exp (logR.getLastD 0)
    .ok (phi, 1 / phi)

/-- `np.hstack` of column vectors. -/
def cols (l : List (n → ℝ)) : Matrix n (Fin l.length) ℝ := Matrix.of fun i j => l[j] i

open Classical in
/-- `_compute_trace_Ainv_covfactor0` (`matrixbased.py` 406-453) for a nonempty list of observations.  (For isotropic scalings the code
uses the value `scalar * k` of the same expression.) -/
noncomputable def traceFactor0 (P : Params n) (H0 : Matrix n n ℝ) (obs : List (n → ℝ)) (psi : Option ℝ) : Res ℝ :=
  let Y := cols obs
  let scale := psi.getD 0
  match (if scale ≠ 0 then
      (if IsUnit (Yᵀ * H0 * Y).det then .ok ((Yᵀ * H0 * Y)⁻¹ * (Yᵀ * H0 * H0 * Y)).trace else .error .linAlgError)
    else .ok P.HCov0.trace : Res ℝ) with
  | .error e => .error e
  | .ok t => .ok (t + scale * ((Fintype.card n : ℝ) - obs.length))

open Classical in
/-- `get_null_space_map` (`matrixbased.py` 618-631). -/
noncomputable def nullTerm (V : List (n → ℝ)) (scale : ℝ) : Matrix n n ℝ :=
  scale • (if IsUnit ((cols V)ᵀ * cols V).det then 1 - cols V * ((cols V)ᵀ * cols V)⁻¹ * (cols V)ᵀ else 0)

/-- `AS(S'AS)⁻¹S'A` (`matrixbased.py` 667-676). -/
noncomputable def aFactor0 (dirs obs : List (n → ℝ)) : Matrix n n ℝ :=
  (List.zipWith (fun s y => (s ⬝ᵥ y)⁻¹ • vecMulVec y y) dirs obs).sum

open Classical in
/-- `A_0⁻¹Y(Y'A_0⁻¹Y)⁻¹Y'A_0⁻¹` (`matrixbased.py` 678-693). -/
noncomputable def hFactor0 (H0 : Matrix n n ℝ) (obs : List (n → ℝ)) : Res (Matrix n n ℝ) :=
  let Y := cols obs
  if IsUnit (Yᵀ * H0 * Y).det then .ok (H0 * Y * (Yᵀ * H0 * Y)⁻¹ * (Yᵀ * H0)) else .error .linAlgError

/-- The covariance factors of the returned random variables (`matrixbased.py` 610-717). -/
noncomputable def outFactors (P : Params n) (H0 : Matrix n n ℝ) (iter : ℕ) (st : State n) (scales : Option (ℝ × ℝ)) :
    Res (Matrix n n ℝ × Matrix n n ℝ) :=
  if 0 < iter then
    match scales with
    | some (phi, psi) =>
      match hFactor0 H0 st.obs with
      | .error e => .error e
      | .ok W => .ok (aFactor0 st.dirs st.obs - st.AUpd + nullTerm st.dirs phi, W - st.HUpd + nullTerm st.obs psi)
    | none => .ok (st.ACov, st.HCov)
  else .ok (P.ACov0, P.HCov0)

/-- The part of the loop of `solve` after the calibration (`matrixbased.py` 932-944). -/
noncomputable def finish (P : Params n) (H0 : Matrix n n ℝ) (iter : ℕ) (st : State n) (scales : Option (ℝ × ℝ)) :
    Res (State n) :=
  match traceFactor0 P H0 st.obs (scales.map Prod.snd) with
  | .error e => .error e
  | .ok tr0 =>
    match outFactors P H0 iter st scales with
    | .error e => .error e
    | .ok (outA, outH) =>
      .ok { st with
        trSol := traceSol P.b outH (tr0 - st.trUpd)
        outA := outA
        outH := outH }

/-- The scales after the updates of an iteration (`matrixbased.py` 924-930). -/
noncomputable def stepScales (gp : List ℝ → Res (List ℝ)) (cal : Calibration) (fixed : Option (ℝ × ℝ)) (iter : ℕ)
    (st : State n) : Res (Option (ℝ × ℝ)) :=
  match cal with
  | .method m =>
    match calibrate gp m iter (logR st.dirs st.obs) with
    | .error e => .error e
    | .ok p => .ok (some p)
  | _ => .ok fixed

/-- The body of the loop of `solve` with calibration (`matrixbased.py` 867-959).  `fixed` are the scales computed before the loop, `H0` is
the prior mean of the inverse. -/
noncomputable def stepCal (gp : List ℝ → Res (List ℝ)) (cal : Calibration) (fixed : Option (ℝ × ℝ)) (P : Params n)
    (H0 : Matrix n n ℝ) (st : State n) : Res (State n) :=
  match step P st with
  | .error e => .error e
  | .ok st' =>
    match stepScales gp cal fixed st.iter st' with
    | .error e => .error e
    | .ok scales => finish P H0 st.iter st' scales

/-- `k` iterations with calibration. -/
noncomputable def stepsCal (gp : List ℝ → Res (List ℝ)) (cal : Calibration) (fixed : Option (ℝ × ℝ)) (P : Params n)
    (H0 : Matrix n n ℝ) (st : State n) : ℕ → Res (State n)
  | 0 => .ok st
  | k + 1 =>
    match stepsCal gp cal fixed P H0 st k with
    | .error e => .error e
    | .ok st' => stepCal gp cal fixed P H0 st'

/-- `__init__` and `solve` up to the loop (`matrixbased.py` 233-268, 821-856): parameters, fixed scales and initial state. -/
noncomputable def initCal (A : Matrix n n ℝ) (b : n → ℝ) (prior : Prior n) (cal : Calibration) :
    Res (Params n × Option (ℝ × ℝ) × State n) :=
  match init A b prior with
  | .error e => .error e
  | .ok (P, st) =>
    match initScales cal with
    | .error e => .error e
    | .ok scales =>
      .ok (P, scales, { st with
        trSol := traceSol b P.HCov0 (P.HCov0.trace + (scales.map Prod.snd).getD 0 * (Fintype.card n : ℝ)) })

/-- `__init__` followed by `k` iterations of `solve`. -/
noncomputable def runCal (gp : List ℝ → Res (List ℝ)) (A : Matrix n n ℝ) (b : n → ℝ) (prior : Prior n)
    (cal : Calibration) (k : ℕ) : Res (Params n × State n) :=
  match initCal A b prior cal with
  | .error e => .error e
  | .ok (P, fixed, st) =>
    match stepsCal gp cal fixed P st.HMean st k with
    | .error e => .error e
    | .ok st' => .ok (P, st')

/-- The loop of `solve` with calibration (`matrixbased.py` 859-959), `fuel` passes at most; `none` if more are needed. -/
noncomputable def solveLoopCal (gp : List ℝ → Res (List ℝ)) (cal : Calibration) (fixed : Option (ℝ × ℝ)) (P : Params n)
    (H0 : Matrix n n ℝ) (maxiter : ℤ) (atol rtol : ℝ) : ℕ → State n → Option (Res (State n × Crit))
  | 0, _ => none
  | fuel + 1, st =>
    match hasConverged P maxiter atol rtol st with
    | some c => some (.ok (st, c))
    | none =>
      match stepCal gp cal fixed P H0 st with
      | .error e => some (.error e)
      | .ok st' => solveLoopCal gp cal fixed P H0 maxiter atol rtol fuel st'

end Probnum.Linalg.MatrixBased
