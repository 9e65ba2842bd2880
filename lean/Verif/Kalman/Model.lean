import Verif.Posterior.Model

/-!
# Model of `probnum/filtsmooth/gaussian/_kalman.py`, `Transition.smooth_list`
(`randprocs/markov/_transition.py`) and `problems.TimeSeriesRegressionProblem`

Times are an ordered additive group `T`, random variables a type `S`, data a type `Y`.  The prior transition and the
measurement models enter through the methods the filter calls.  `Verif/Kalman/Exact.lean` instantiates them with the
linear Gaussian transitions of `Verif/LinGauss/Model.lean`.
-/

namespace Probnum.Kalman

open Probnum.Posterior

/-- A `MarkovProcess`/`MarkovSequence` as used by `Kalman` (`_kalman.py` 254-275): start, initial random variable,
`transition.forward_rv(rv, t, dt=dt, _linearise_at=...)` and
`transition.backward_rv(rv_obtained, rv, t=t, dt=dt, _diffusion=..., _linearise_at=...)`
(return value without the info dictionary). -/
structure Prior (T S D : Type) where
  initarg : T
  initrv : S
  forward : S → T → T → Option S → Res S
  backward : S → S → T → T → D → Option S → Res S
  /-- `1.0` as a diffusion (`np.ones_like`). -/
  one : D

/-- A measurement model: `backward_realization(realization_obtained, rv, _linearise_at)`. -/
abbrev MeasModel (Y S : Type) := Y → S → Option S → Res S

/-- `TimeSeriesRegressionProblem` (`_problems.py` 16-80). -/
structure Problem (T Y S : Type) where
  locations : List T
  observations : List Y
  models : List (MeasModel Y S)

/-- The `measurement_models` argument: one model or a sequence of models. -/
inductive Models (Y S : Type) where
  | single (m : MeasModel Y S)
  | many (ms : List (MeasModel Y S))

/-- `TimeSeriesRegressionProblem.__post_init__` (`_problems.py` 79-105): replicate a single model, then check that
the three lengths agree. -/
def Problem.make {T Y S : Type} (locations : List T) (observations : List Y) (models : Models Y S) :
    Res (Problem T Y S) :=
  let ms := match models with
    | .single m => List.replicate locations.length m
    | .many ms => ms
  if observations.length = locations.length ∧ locations.length = ms.length then
    .ok ⟨locations, observations, ms⟩
  else .error .valueError

/-- Iteration over a regression problem (`__getitem__`, `_problems.py` 110-115): triples until an index is out of
range. -/
def Problem.triples {T Y S : Type} (p : Problem T Y S) : List (T × Y × MeasModel Y S) :=
  p.locations.zip (p.observations.zip p.models)

/-- `np.all(np.diff(locations) > 0)` (`_kalman.py` 249). -/
def increasing {T : Type} [LT T] [DecidableLT T] : List T → Bool
  | [] => true
  | [_] => true
  | x :: y :: r => decide (x < y) && increasing (y :: r)

section Filter

variable {T S D Y : Type} [AddCommGroup T] [LinearOrder T]

/-- One state produced by the filter, with the random variable predicted before the update
(`info_dict["predict_info"]` is present iff there was a prediction). -/
structure Filtered (T S : Type) where
  loc : T
  state : S
  predicted : Bool

/-- The predict step (`_kalman.py` 262-273): only if the time increment is positive; note that `forward_rv` is
called with the *end* time `t`. -/
def predict (prior : Prior T S D) (prev : Option (T → Res S)) (tOld t : T) (rv : S) : Res S :=
  if 0 < t - tOld then do
    let lin ← match prev with
      | none => pure none
      | some f => (f tOld).map some
    prior.forward rv t (t - tOld) lin
  else .ok rv

/-- The update step (`_kalman.py` 275-281). -/
def update (prev : Option (T → Res S)) (t : T) (data : Y) (mm : MeasModel Y S) (rv : S) : Res S := do
  let lin ← match prev with
    | none => pure none
    | some f => (f t).map some
  mm data rv lin

/-- The loop of `filtered_states_generator` (`_kalman.py` 258-284): the states yielded before the generator ends, and
how it ends. -/
def loop (prior : Prior T S D) (prev : Option (T → Res S)) :
    T → S → List (T × Y × MeasModel Y S) → List (Filtered T S) × Res Unit
  | _, _, [] => ([], .ok ())
  | tOld, rv, (t, data, mm) :: rest =>
    match predict prior prev tOld t rv with
    | .error e => ([], .error e)
    | .ok rv1 =>
      match update prev t data mm rv1 with
      | .error e => ([], .error e)
      | .ok rv2 =>
        let r := loop prior prev t rv2 rest
        (⟨t, rv2, decide (0 < t - tOld)⟩ :: r.1, r.2)

/-- `filtered_states_generator` (`_kalman.py` 218-284). -/
def generator (prior : Prior T S D) (prob : Problem T Y S) (prev : Option (T → Res S)) :
    List (Filtered T S) × Res Unit :=
  if ¬ increasing prob.locations then ([], .error .valueError)
  else loop prior prev prior.initarg prior.initrv prob.triples

/-- Appending the yielded states to a `FilteringPosterior` (`_kalman.py` 208-213). -/
def appendAll (p : Post T S) : List (Filtered T S) → Res (Post T S)
  | [] => .ok p
  | f :: r =>
    match p.append f.loc f.state with
    | (.ok _, p') => appendAll p' r
    | (.error e, _) => .error e

/-- `Kalman.filter` (`_kalman.py` 176-216).  An exception of the generator reaches the caller (after the appends of
the states yielded before). -/
def filter (prior : Prior T S D) (prob : Problem T Y S) (prev : Option (T → Res S)) : Res (Post T S) :=
  let g := generator prior prob prev
  match appendAll Post.init g.1 with
  | .error e => .error e
  | .ok p =>
    match g.2 with
    | .error e => .error e
    | .ok () => .ok p

/-- The loop of `smooth_list` (`_transition.py` 326-345) run from the back: `smoothFrom (s, t) l` where `l` lists
`(unsmoothed state, location, diffusion)` of the earlier points in *descending* order.  The result is in descending
order too, without the last state. -/
def smoothFrom (prior : Prior T S D) (prev : Option (T → Res S)) : S → T → List (S × T × D) → Res (List S)
  | _, _, [] => .ok []
  | curr, t, (rv, t', d) :: rest => do
    let lin ← match prev with
      | none => pure none
      | some f => (f t').map some
    let curr' ← prior.backward curr rv t' (t - t') d lin
    let more ← smoothFrom prior prev curr' t' rest
    .ok (curr' :: more)

/-- `Transition.smooth_list(rv_list, locations, _diffusion_list)` (`_transition.py` 293-345) for lists of equal length
(`diffusions` one shorter); an empty `rv_list` raises IndexError (`rv_list[-1]`). -/
def smoothList (prior : Prior T S D) (prev : Option (T → Res S)) (states : List S) (locs : List T) (ds : List D) :
    Res (List S) :=
  match (states.zip locs).reverse with
  | [] => .error .indexError
  | (last, tl) :: earlier => do
    let out ← smoothFrom prior prev last tl
      ((earlier.zip ds.reverse).map fun p => (p.1.1, p.1.2, p.2))
    .ok (out.reverse ++ [last])

/-- `Kalman.smooth` (`_kalman.py` 289-318): unit diffusions. -/
def smooth (prior : Prior T S D) (post : Post T S) : Res (Post T S) := do
  let states ← smoothList prior none post.states post.locations (List.replicate (post.locations.length - 1) prior.one)
  .ok (Post.init post.locations states)

/-- `Kalman.filtsmooth` (`_kalman.py` 140-174). -/
def filtsmooth (prior : Prior T S D) (prob : Problem T Y S) (prev : Option (T → Res S)) : Res (Post T S) := do
  let p ← filter prior prob prev
  smooth prior p

end Filter

end Probnum.Kalman
