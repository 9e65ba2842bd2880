import Mathlib.Algebra.Field.Defs
import Mathlib.Algebra.Order.Field.Rat
import Verif.Py

/-!
# Model of `probnum/randprocs/markov/continuous/_diffusions.py`

Times and diffusion estimates are elements of (possibly different) exact fields; floating-point rounding is not
modelled.  The local estimate (`_compute_local_quasi_mle`) enters as an argument, as it does in `update_in_place`.
-/

namespace Probnum.Diffusion

/-- State of a `ConstantDiffusion` (`_diffusions.py` 52-54). -/
structure ConstantDiffusion (K : Type) where
  diffusion : Option K
  seen : ℕ

namespace ConstantDiffusion

variable {K : Type} [Field K]

/-- `ConstantDiffusion.__init__` (`_diffusions.py` 52-54). -/
def init : ConstantDiffusion K := ⟨none, 0⟩

/-- `ConstantDiffusion.update_in_place` (`_diffusions.py` 85-93). -/
def update (d : ConstantDiffusion K) (est : K) : ConstantDiffusion K :=
  match d.diffusion with
  | none => ⟨some est, d.seen + 1⟩
  | some old =>
    let a : K := 1 / (d.seen : K)
    let b : K := 1 - a
    ⟨some (a * est + b * old), d.seen + 1⟩

/-- `ConstantDiffusion.__call__` at a scalar (`_diffusions.py` 59-65). -/
def call {T : Type} (d : ConstantDiffusion K) (_t : T) : Res K :=
  match d.diffusion with
  | none => .error .notImplementedError
  | some s => .ok (s * 1)

/-- `ConstantDiffusion.__getitem__` at a scalar index (`_diffusions.py` 67-74). -/
def getItem (d : ConstantDiffusion K) (_idx : ℤ) : Res K :=
  match d.diffusion with
  | none => .error .notImplementedError
  | some s => .ok (s * 1)

end ConstantDiffusion

/-- `np.searchsorted(a, t)` with `side="left"` on a list: the number of leading entries `< t`.  For the ascending
lists it is used with, this is the insertion point. -/
def searchsortedLeft {T : Type} [LT T] [DecidableLT T] : List T → T → ℕ
  | [], _ => 0
  | x :: xs, t => if x < t then searchsortedLeft xs t + 1 else 0

/-- numpy integer indexing `a[idx]` with wrap-around of negative indices. -/
def npIndex {α : Type} (a : List α) (idx : ℤ) : Res α :=
  if 0 ≤ idx then
    match a[idx.toNat]? with
    | some x => .ok x
    | none => .error .indexError
  else if (a.length : ℤ) + idx < 0 then .error .indexError
  else
    match a[((a.length : ℤ) + idx).toNat]? with
    | some x => .ok x
    | none => .error .indexError

/-- State of a `PiecewiseConstantDiffusion` (`_diffusions.py` 123-125).  `_locations = t0 :: rest`; the head is
stored apart because the list is never empty. -/
structure PiecewiseDiffusion (T K : Type) where
  t0 : T
  rest : List T
  diffusions : List K

namespace PiecewiseDiffusion

variable {T K : Type} [LinearOrder T]

/-- `self._locations`. -/
def locations (d : PiecewiseDiffusion T K) : List T := d.t0 :: d.rest

/-- `tmax` (`_diffusions.py` 191-193): the last location. -/
def tmax (d : PiecewiseDiffusion T K) : T := d.locations.getLast (by simp [locations])

/-- `PiecewiseConstantDiffusion.__init__` (`_diffusions.py` 123-125). -/
def init (t0 : T) : PiecewiseDiffusion T K := ⟨t0, [], []⟩

/-- The guard of `estimate_locally` (`_diffusions.py` 167-170). -/
def estimateLocallyGuard (d : PiecewiseDiffusion T K) (t : T) : Res Unit :=
  if ¬ d.tmax ≤ t then .error .valueError else .ok ()

/-- `update_in_place` (`_diffusions.py` 174-177). -/
def update (d : PiecewiseDiffusion T K) (est : K) (t : T) : PiecewiseDiffusion T K :=
  ⟨d.t0, d.rest ++ [t], d.diffusions ++ [est]⟩

/-- `__getitem__` at a scalar index (`_diffusions.py` 153-159). -/
def getItem (d : PiecewiseDiffusion T K) (idx : ℤ) : Res K :=
  if d.locations.length ≤ 1 then .error .notImplementedError else npIndex d.diffusions idx

/-- `__call__` at a scalar (`_diffusions.py` 130-151): the two masked assignments are applied in order. -/
def call (d : PiecewiseDiffusion T K) (t : T) : Res K :=
  if d.locations.length ≤ 1 then .error .notImplementedError else
    let i₀ : ℤ := (searchsortedLeft d.locations t : ℤ) - 1
    let i₁ : ℤ := if t < d.t0 then 0 else i₀
    let i₂ : ℤ := if d.tmax < t then -1 else i₁
    d.getItem i₂

/-- What an ODE filter does per accepted step: estimate (guard) then update. -/
def estimateAndUpdate (d : PiecewiseDiffusion T K) (est : K) (t : T) : Res (PiecewiseDiffusion T K) :=
  match d.estimateLocallyGuard t with
  | .error e => .error e
  | .ok _ => .ok (d.update est t)

end PiecewiseDiffusion

end Probnum.Diffusion
