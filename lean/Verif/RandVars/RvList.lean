import Verif.RandVars.Generic
import Verif.Posterior.Model

/-!
# Model: lists of random variables

Models `src/probnum/randvars/_randomvariablelist.py`, with the methods of `list` it inherits, and the property `states` of
`src/probnum/filtsmooth/_timeseriesposterior.py`.  Elements are objects of any type; what their attributes return is given.
-/

namespace Probnum.RvList

open RandVars Posterior

/-- The attributes stacked by the list. -/
inductive Field
  | mean
  | cov
  | var
  | std
  | mode
  | support
  | probabilities
  deriving DecidableEq

/-- Objects that can be put into a list: whether they are random variables, the attributes (an exception where there is none), and the
method `resample`. -/
structure Objects (E ρ : Type) where
  isRv : E → Bool
  attr : Field → E → Res Arr
  resample : E → ρ → Res (E × ρ)

/-- A list of random variables: its elements, and the values kept by `cached_property`. -/
structure RvList (E : Type) where
  items : List E
  cache : Field → Option Arr := fun _ => none

/-- The argument of the constructor: a list, or something else. -/
inductive Arg (E : Type)
  | list (l : List E)
  | other

variable {E ρ : Type}

/-- `_RandomVariableList.__init__` (`_randomvariablelist.py` 20-33). -/
def create (O : Objects E ρ) : Arg E → Res (RvList E)
  | .other => .error .typeError
  | .list [] => .ok { items := [] }
  | .list (e :: l) => if O.isRv e then .ok { items := e :: l } else .error .typeError

/-- `np.stack(arrays)`. -/
def stack : List Arr → Res Arr
  | [] => .error .valueError
  | a :: l =>
    if l.all fun b => b.shape == a.shape then
      .ok ⟨(l.length + 1) :: a.shape, fun idx => ((a :: l).getD (idx.headD 0) a).get idx.tail⟩
    else .error .valueError

/-- The body of the properties `mean`, `cov`, `var`, `std`, `mode`, `support`, `probabilities` (43-65, 72-90); `np.array([])` for the empty
list. -/
def compute (O : Objects E ρ) (f : Field) (items : List E) : Res Arr :=
  match items with
  | [] => .ok ⟨[0], fun _ => 0⟩
  | e :: l => ((e :: l).mapM (O.attr f)).bind stack

/-- Reading such a property: `cached_property` keeps the value of the first successful computation. -/
def RvList.read (O : Objects E ρ) (f : Field) (L : RvList E) : Res Arr × RvList E :=
  match L.cache f with
  | some a => (.ok a, L)
  | none =>
    match compute O f L.items with
    | .ok a => (.ok a, { L with cache := fun g => if g = f then some a else L.cache g })
    | .error e => (.error e, L)

/-- `l[i]` (35-41) for an integer. -/
def RvList.item (L : RvList E) (i : ℤ) : Res E := pyIndex L.items i

/-- The elements `list.__getitem__` takes for a slice. -/
def pick (items : List E) (r : ℤ × ℕ × ℤ) : List E := (List.range r.2.1).filterMap fun k : ℕ => items[(r.1 + (k : ℤ) * r.2.2).toNat]?

/-- `l[start:stop:step]` (35-41). -/
def RvList.slice (O : Objects E ρ) (L : RvList E) (start stop step : Option ℤ) : Res (RvList E) :=
  (sliceIndices L.items.length start stop step).bind fun r => create O (.list (pick L.items r))

/-- `l.shape` (67-70). -/
def RvList.shape (O : Objects E ρ) (L : RvList E) : Res (List ℕ) :=
  (L.item 0).bind fun e => (O.attr .mean e).map fun a => L.items.length :: a.shape

/-- The loop of `resample`: the generator is used by one element after the other. -/
def resampleAll (O : Objects E ρ) : List E → ρ → Res (List E × ρ)
  | [], r => .ok ([], r)
  | e :: l, r => (O.resample e r).bind fun p => (resampleAll O l p.2).map fun q => (p.1 :: q.1, q.2)

/-- `l.resample(rng)` (93-96). -/
def RvList.resample (O : Objects E ρ) (L : RvList E) (r : ρ) : Res (RvList E × ρ) :=
  (resampleAll O L.items r).bind fun p => (create O (.list p.1)).map fun L' => (L', p.2)

/-- What can be done to a list: read a property, or call one of the methods inherited from `list` that change it. -/
inductive Op (E : Type)
  | read (f : Field)
  | append (e : E)
  | extend (l : List E)
  | setItem (i : ℕ) (e : E)
  | delItem (i : ℕ)
  | clear

/-- Whether the operation changes the list. -/
def Op.mutates : Op E → Bool
  | .read _ => false
  | _ => true

/-- One operation; the value is that of a property. `list` knows nothing of the cached values.  Positions are not negative. -/
def step (O : Objects E ρ) (L : RvList E) : Op E → Res (Option Arr) × RvList E
  | .read f => ((L.read O f).1.map some, (L.read O f).2)
  | .append e => (.ok none, { L with items := L.items ++ [e] })
  | .extend l => (.ok none, { L with items := L.items ++ l })
  | .setItem i e => if i < L.items.length then (.ok none, { L with items := L.items.set i e }) else (.error .indexError, L)
  | .delItem i => if i < L.items.length then (.ok none, { L with items := L.items.eraseIdx i }) else (.error .indexError, L)
  | .clear => (.ok none, { L with items := [] })

/-- The list after a sequence of operations; exceptions are caught. -/
def run (O : Objects E ρ) (L : RvList E) (ops : List (Op E)) : RvList E := ops.foldl (fun L op => (step O L op).2) L

/-- `posterior.states` (`_timeseriesposterior.py` 76-79). -/
def states {T : Type} (O : Objects E ρ) (p : Post T E) : Res (RvList E) := create O (.list p.states)

end Probnum.RvList
