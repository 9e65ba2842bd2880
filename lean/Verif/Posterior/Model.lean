import Mathlib.Algebra.Order.Group.Defs
import Mathlib.Order.Lattice
import Verif.Py

/-!
# Model of `probnum/filtsmooth/_timeseriesposterior.py` and of `interpolate` in
`probnum/filtsmooth/gaussian/_kalmanposterior.py`

Random variables are an arbitrary type `S`; times an ordered additive group `T`; the prior dynamics enter as two
functions (`forward_rv`, `backward_rv`), diffusions as an arbitrary type `D`.
-/

namespace Probnum.Posterior

/-- Fields of `TimeSeriesPosterior` (`_timeseriesposterior.py` 33-40). -/
structure Post (T S : Type) where
  locations : List T
  states : List S
  frozen : Bool
  deriving DecidableEq

namespace Post

variable {T S : Type}

/-- `TimeSeriesPosterior.__init__` (`_timeseriesposterior.py` 34-41); no arguments means empty lists. -/
def init (locations : List T := []) (states : List S := []) : Post T S := ⟨locations, states, false⟩

/-- `TimeSeriesPosterior.append` with `_check_location` (`_timeseriesposterior.py` 43-60). -/
def append [LE T] [DecidableLE T] (p : Post T S) (loc : T) (s : S) : Res Unit × Post T S :=
  if p.frozen then (.error .valueError, p)
  else
    match p.locations.getLast? with
    | none => (.ok (), { p with locations := p.locations ++ [loc], states := p.states ++ [s] })
    | some last =>
      if loc ≤ last then (.error .valueError, p)
      else (.ok (), { p with locations := p.locations ++ [loc], states := p.states ++ [s] })

/-- `TimeSeriesPosterior.freeze` (`_timeseriesposterior.py` 62-64). -/
def freeze (p : Post T S) : Post T S := { p with frozen := true }

end Post

/-- numpy/list indexing `a[idx]` with an integer index (negative indices count from the end). -/
def pyIndex {α : Type} (a : List α) (idx : ℤ) : Res α :=
  if 0 ≤ idx then
    match a[idx.toNat]? with
    | some x => .ok x
    | none => .error .indexError
  else if (a.length : ℤ) + idx < 0 then .error .indexError
  else
    match a[((a.length : ℤ) + idx).toNat]? with
    | some x => .ok x
    | none => .error .indexError

/-- `np.searchsorted(a, t, side="left")` on an ascending list. -/
def searchsortedLeft {T : Type} [LT T] [DecidableLT T] : List T → T → ℕ
  | [], _ => 0
  | x :: xs, t => if x < t then searchsortedLeft xs t + 1 else 0

/-- `np.all(np.diff(t) >= 0)`. -/
def sortedCheck {T : Type} [LE T] [DecidableLE T] : List T → Bool
  | [] => true
  | [_] => true
  | x :: y :: r => decide (x ≤ y) && sortedCheck (y :: r)

/-- `np.amin` of a list; ValueError on an empty array. -/
def amin {T : Type} [LinearOrder T] : List T → Res T
  | [] => .error .valueError
  | x :: xs => .ok (xs.foldl min x)

/-- `np.amax` of a list; ValueError on an empty array. -/
def amax {T : Type} [LinearOrder T] : List T → Res T
  | [] => .error .valueError
  | x :: xs => .ok (xs.foldl max x)

section Call

variable {T S : Type} [LinearOrder T]

/-- `TimeSeriesPosterior.__call__` on an array of times (`_timeseriesposterior.py` 92-160).
`interp t previous_index next_index` is the abstract method `interpolate`.  The three python lists are evaluated
in the order: interpolation, left, right; the first exception wins. -/
def call (interp : T → Option ℤ → Option ℤ → Res S) (p : Post T S) (ts : List T) : Res (List S) := do
  if ¬ sortedCheck ts then throw .valueError
  let t0 ← amin p.locations
  let tmax ← amax p.locations
  let inter ← (ts.filter fun t => t0 ≤ t ∧ t ≤ tmax).mapM fun t =>
    let idx := searchsortedLeft p.locations t
    interp t (some ((idx : ℤ) - 1)) (some (idx : ℤ))
  let left ← (ts.filter fun t => t < t0).mapM fun t => interp t none (some 0)
  let right ← (ts.filter fun t => tmax < t).mapM fun t => interp t (some (-1)) none
  return left ++ inter ++ right

/-- `TimeSeriesPosterior.__call__` on a scalar (`_timeseriesposterior.py` 112-121, 157-158): promote to a
one-element array and return element 0. -/
def callScalar (interp : T → Option ℤ → Option ℤ → Res S) (p : Post T S) (t : T) : Res S := do
  match ← call interp p [t] with
  | [] => throw .indexError
  | s :: _ => return s

end Call

/-- The dynamics as used by the posterior: `forward_rv(rv, t, dt, _diffusion)` and
`backward_rv(rv_obtained, rv, t, dt, _diffusion)` (return value only). -/
structure Dynamics (T S D : Type) where
  forward : S → T → T → D → S
  backward : S → S → T → T → D → S
  one : D

section Interpolate

variable {T S D : Type} [AddCommGroup T] [LinearOrder T]

/-- Optional indexing: `a[i] if i is not None else None`. -/
def optIndex {α : Type} (a : List α) : Option ℤ → Res (Option α)
  | none => .ok none
  | some i => (pyIndex a i).map some

/-- `if diffusion_index >= len(self.locations) - 1: diffusion_index = -1`, then `diffusion_model[diffusion_index]`
or `1.0` if no diffusion model was provided. -/
def diffusionAt (dyn : Dynamics T S D) (model : Option (ℤ → Res D)) (nloc : ℕ) (idx : ℤ) : Res D :=
  match model with
  | none => .ok dyn.one
  | some m => m (if (nloc : ℤ) - 1 ≤ idx then -1 else idx)

/-- `FilteringPosterior.interpolate` (`_kalmanposterior.py` 369-429). -/
def interpolateFiltering (dyn : Dynamics T S D) (model : Option (ℤ → Res D)) (p : Post T S)
    (t : T) (prev next : Option ℤ) : Res S := do
  if prev = none ∧ next = none then throw .valueError
  let ploc ← optIndex p.locations prev
  let nloc ← optIndex p.locations next
  let pst ← optIndex p.states prev
  let nst ← optIndex p.states next
  match ploc, pst, prev with
  | some pl, some ps, some pi =>
    if t = pl then return ps
    match nloc, nst with
    | some nl, some ns =>
      if t = nl then return ns
    | _, _ => pure ()
    let d ← diffusionAt dyn model p.locations.length pi
    if ¬ 0 < t - pl then throw .assertionError
    return dyn.forward ps pl (t - pl) d
  | _, _, _ =>
    match nloc, nst with
    | some nl, some ns => if t = nl then return ns else throw .notImplementedError
    | _, _ => throw .notImplementedError

/-- `SmoothingPosterior.interpolate` (`_kalmanposterior.py` 169-260).  Note `previous_state` is the *smoothed* state
(`self.states`), and the diffusion index is the next index. -/
def interpolateSmoothing (dyn : Dynamics T S D) (model : Option (ℤ → Res D)) (p : Post T S)
    (t : T) (prev next : Option ℤ) : Res S := do
  if prev = none ∧ next = none then throw .valueError
  let ploc ← optIndex p.locations prev
  let nloc ← optIndex p.locations next
  let pst ← optIndex p.states prev
  let nst ← optIndex p.states next
  -- corner case 1: on the grid
  match ploc, pst with
  | some pl, some ps => if t = pl then return ps
  | _, _ => pure ()
  match nloc, nst with
  | some nl, some ns => if t = nl then return ns
  | _, _ => pure ()
  let dIdx : ℤ := match next, prev with
    | some i, _ => i
    | none, some i => i
    | none, none => 0
  let d ← diffusionAt dyn model p.locations.length dIdx
  match ploc, pst, nloc, nst with
  | some pl, some ps, none, _ =>
    -- corner case 3: right of the grid
    if ¬ 0 < t - pl then throw .assertionError
    return dyn.forward ps pl (t - pl) d
  | some pl, some ps, some nl, some ns =>
    match prev, next with
    | some pi, some ni => if 1 < (pi - ni).natAbs then throw .valueError
    | _, _ => pure ()
    if ¬ 0 < t - pl then throw .assertionError
    if ¬ 0 < nl - t then throw .assertionError
    return dyn.backward ns (dyn.forward ps pl (t - pl) d) t (nl - t) d
  | _, _, _, _ => throw .notImplementedError  -- corner case 2: left of the grid

end Interpolate

end Probnum.Posterior
