import Verif.GP.Model
import Verif.RandVars.Dist
import Verif.Kalman.SamplingModel

/-!
# Model of `randprocs/markov/_markov.py` and of `RandomProcess.sample`

The transition is that of `Verif/Kalman/Model.lean` (state vectors of length `n`; `cov_cholesky` is an exact square root),
arrays are those of `Verif/RandVars/Arr.lean`.  `z 0, z 1, …` are the numbers the random generator returns next.
Not modelled: data types, and sampling from processes with scalar states, for which `cov_cholesky @ …` raises.
-/

namespace Probnum.Markov

open RandVars Kalman LinGauss

/-! ## Construction and evaluation -/

/-- The class of the argument `transition`. -/
inductive Kind
  | sde
  | nonlinearGaussian
  | other
  deriving DecidableEq

/-- `_MarkovBase.__call__` (`_markov.py` 46-47). -/
def evaluate (_args : Arr) : Res Normal := .error .notImplementedError

/-- `_MarkovBase.Kernel._evaluate` (`_markov.py` 98-102). -/
def kernelEval (x0 : Cov.Inp) (x1 : Option Cov.Inp) : Res Arr :=
  match x1 with
  | none => (evaluate x0.arr).map (·.cov)
  | some _ => .error .notImplementedError

/-- `_MarkovBase.Kernel` (`_markov.py` 84-102) with `CovarianceFunction.__call__`. -/
def kernel (inS outS : List ℕ) : Cov.Core :=
  ⟨inS, inS, outS, outS, Cov.covCall inS inS outS outS kernelEval⟩

/-- `_MarkovBase.__init__` (`_markov.py` 18-44). -/
def mkBase (inS outS : List ℕ) : Res GP.Process :=
  GP.mkProcess inS outS (.given (Functions.mkLambda (fun x => (evaluate x).map (·.mean)) inS outS).core)
    (.given (kernel inS outS))

/-- `MarkovProcess.__init__` (`_markov.py` 130-146); the arguments are shapes. -/
def mkMarkovProcess (transition : Kind) (initarg initrv : List ℕ) : Res GP.Process :=
  if transition ≠ .sde then .error .typeError else mkBase initarg initrv

/-- `MarkovSequence.__init__` (`_markov.py` 152-168). -/
def mkMarkovSequence (transition : Kind) (initarg initrv : List ℕ) : Res GP.Process :=
  if transition ≠ .nonlinearGaussian then .error .typeError else mkBase initarg initrv

/-! ## Sampling -/

variable {n : ℕ}

/-- `a[i]` for `i ≥ 0`. -/
def entry (a : Arr) (i : ℕ) : Res Arr :=
  match a.shape with
  | [] => .error .indexError
  | d :: s => if i < d then .ok ⟨s, fun idx => a.get (i :: idx)⟩ else .error .indexError

/-- `rv.mean + rv.cov_cholesky @ base[i].reshape((-1,))` (`_transition.py` 449-451, 470-474): `@` raises ValueError if the
lengths differ. -/
def drawFrom (ch : CovCholesky n) (rv : Updated n) (base : Arr) (i : ℕ) : Res (Fin n → ℝ) := do
  let b ← entry base i
  if b.size = n then .ok (transformBase ch rv fun j => b.flat j) else .error .valueError

/-- The loop of `jointly_transform_base_measure_realization_list_forward` (`_transition.py` 454-475) with unit diffusions;
`i = idx - 1`. -/
def pathFrom (prior : Prior ℝ (Updated n) ℝ) (ch : CovCholesky n) (base : Arr) :
    ℕ → (Fin n → ℝ) → ℝ → List ℝ → Res (List (Fin n → ℝ))
  | _, _, _, [] => .ok []
  | i, x, t, t' :: rest => do
    let c ← prior.forward ⟨x, 0⟩ t (t' - t) none
    let y ← drawFrom ch c base i
    let more ← pathFrom prior ch base (i + 1) y t' rest
    .ok (y :: more)

/-- `jointly_transform_base_measure_realization_list_forward` (`_transition.py` 416-475): the first sample is drawn from
`initrv`, whatever the first location is. -/
def path (prior : Prior ℝ (Updated n) ℝ) (ch : CovCholesky n) (base : Arr) (t : List ℝ) : Res (List (Fin n → ℝ)) := do
  let x ← drawFrom ch prior.initrv base 0
  let more ← pathFrom prior ch base 0 x (t.getD 0 0) t.tail
  .ok (x :: more)

/-- `np.array` of a list of vectors. -/
def rows (l : List (Fin n → ℝ)) : Arr :=
  ⟨[l.length, n], fun idx => if h : idx.getD 1 0 < n then (l.getD (idx.getD 0 0) 0) ⟨idx.getD 1 0, h⟩ else 0⟩

/-- `np.stack` of a list of lists of vectors: ValueError if there is nothing to stack or the lengths differ. -/
def stack (l : List (List (Fin n → ℝ))) : Res Arr :=
  match l with
  | [] => .error .valueError
  | p :: ps =>
    if ps.all (fun q => q.length = p.length) then
      .ok ⟨[l.length, p.length, n], fun idx => (rows (l.getD (idx.getD 0 0) [])).get idx.tail⟩
    else .error .valueError

/-- `scipy.stats.norm.rvs(size)`: the next numbers of the generator in C order. -/
def rvs (z : ℕ → ℝ) (size : List ℕ) : Arr := ⟨size, fun idx => z (ravel size idx)⟩

/-- `np.atleast_1d`. -/
def atleast1d (a : Arr) : Arr := if a.shape = [] then ⟨[1], fun _ => a.get []⟩ else a

/-- `_MarkovBase._sample_at_input` (`_markov.py` 49-82). -/
def sampleAtInput (prior : Prior ℝ (Updated n) ℝ) (ch : CovCholesky n) (z : ℕ → ℝ) (args : Arr) (size : List ℕ) : Res Arr :=
  let a := atleast1d args
  if 1 < a.ndim then .error .valueError
  else
    let base := rvs z (size ++ a.shape ++ [n])
    let t := (List.range a.size).map a.flat
    if size = [] then (path prior ch base t).map rows
    else do
      let paths ← (List.range (size.getD 0 0)).mapM fun i => (entry base i).bind fun b => path prior ch b t
      stack paths

/-- `RandomProcess.sample` (`_random_process.py` 296-328) of a Markov process. -/
def sample (prior : Prior ℝ (Updated n) ℝ) (ch : CovCholesky n) (z : ℕ → ℝ) (args : Option Arr) (size : List ℕ) : Res Arr :=
  match args with
  | none => .error .notImplementedError
  | some a => sampleAtInput prior ch z a size

/-- `RandomProcess.sample` (`_random_process.py` 296-353) of a Gaussian process: `self(args).sample(rng, size)`. -/
noncomputable def gpSample (P : GP.Process) (d : Dtype) (args : Option Cov.Inp) (size : List ℕ) (raw : ℕ → ℝ) : Res FArr :=
  match args with
  | none => .error .notImplementedError
  | some x => (P.call x).bind fun N => N.sample d size raw

end Probnum.Markov
