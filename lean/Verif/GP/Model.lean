import Verif.Cov.Model
import Verif.RandVars.Model

/-!
# Model of `randprocs/_random_process.py` and `randprocs/_gaussian_process.py`

Mean functions are those of `Verif/Functions/Model.lean`, covariance functions those of `Verif/Cov/Model.lean`.  The data
type of the process, `marginal` and `push_forward` (which only raise NotImplementedError) are not modelled.
-/

namespace Probnum.GP

open RandVars

/-- What the constructors get for `mean` and `cov`: nothing, an object of the right class, or something else. -/
inductive Arg (α : Type)
  | missing
  | given (a : α)
  | wrong

/-- A random process: shapes, mean function and covariance function (`_random_process.py` 54-121). -/
structure Process where
  inS : List ℕ
  outS : List ℕ
  mean : Option Functions.Core
  cov : Option Cov.Core

/-- The checks on the mean function (`_random_process.py` 77-92). -/
def checkMean (inS outS : List ℕ) : Arg Functions.Core → Res (Option Functions.Core)
  | .missing => .ok none
  | .wrong => .error .typeError
  | .given f => if f.inS ≠ inS then .error .valueError else if f.outS ≠ outS then .error .valueError else .ok (some f)

/-- The checks on the covariance function (`_random_process.py` 97-121); reading `input_shape` may raise ValueError. -/
def checkCov (inS outS : List ℕ) : Arg Cov.Core → Res (Option Cov.Core)
  | .missing => .ok none
  | .wrong => .error .typeError
  | .given k => k.inputShape.bind fun i =>
      if i ≠ inS then .error .valueError
      else if ¬(k.out0 = outS ∧ k.out1 = outS) then .error .valueError
      else .ok (some k)

/-- `RandomProcess.__init__` (`_random_process.py` 54-121). -/
def mkProcess (inS outS : List ℕ) (mean : Arg Functions.Core) (cov : Arg Cov.Core) : Res Process :=
  if 1 < outS.length then .error .valueError
  else (checkMean inS outS mean).bind fun f => (checkCov inS outS cov).map fun k => ⟨inS, outS, f, k⟩

/-- `GaussianProcess.__init__` (`_gaussian_process.py` 59-73). -/
def mkGP (mean : Arg Functions.Core) (cov : Arg Cov.Core) : Res Process :=
  match mean with
  | .missing => .error .typeError
  | .wrong => .error .typeError
  | .given f => mkProcess f.inS f.outS (.given f) cov

/-- The property `mean` (`_random_process.py` 185-196). -/
def Process.getMean (P : Process) : Res Functions.Core :=
  match P.mean with
  | none => .error .notImplementedError
  | some f => .ok f

/-- The property `cov` (`_random_process.py` 199-221). -/
def Process.getCov (P : Process) : Res Cov.Core :=
  match P.cov with
  | none => .error .notImplementedError
  | some k => .ok k

/-- `GaussianProcess.__call__` (`_gaussian_process.py` 75-79). -/
def Process.call (P : Process) (x : Cov.Inp) : Res Normal :=
  P.getMean.bind fun f => (f.call x.arr).bind fun m => P.getCov.bind fun k => (Cov.matrix k x none).bind fun c => mkNormal m c none

/-- `np.diagonal(a, axis1=-2, axis2=-1)` of an array whose last two axes have the same length. -/
def diagLast (a : Arr) : Arr := ⟨a.shape.dropLast, fun idx => a.get (idx ++ [idx.getLastD 0])⟩

/-- `var` (`_random_process.py` 223-253). -/
def Process.var (P : Process) (x : Cov.Inp) : Res Arr :=
  P.getCov.bind fun k => (k.call x none).bind fun c =>
    if c.shape ≠ Functions.sliceTo x.arr.shape ((x.arr.shape.length : ℤ) - P.inS.length) ++ (P.outS ++ P.outS) then .error .assertionError
    else if P.outS.length = 0 then .ok c
    else if P.outS.length ≠ 1 then .error .assertionError
    else .ok (diagLast c)

/-- `std` (`_random_process.py` 255-270), for nonnegative variances. -/
noncomputable def Process.std (P : Process) (x : Cov.Inp) : Res Arr := (P.var x).map (Arr.map Real.sqrt)

end Probnum.GP
