import Mathlib.Data.Real.Basic
import Mathlib.Algebra.Order.BigOperators.Group.Finset
import Mathlib.Algebra.BigOperators.Ring.Finset
import Mathlib.Data.List.Forall2
import Mathlib.Tactic.Ring
import Mathlib.Tactic.Linarith
import Verif.Py

/-!
# numpy arrays, as far as `randvars/` uses them

An array is a shape and a function from multi-indices to reals (only the entries at valid multi-indices mean
anything).  Memory order is C order: the last index moves fastest.  Modelled from numpy's documentation: reshape,
broadcasting, `matmul` of arrays with at most two axes, transposition, indexing.
-/

namespace Probnum.RandVars

open Finset

/-- A numpy array of floats. -/
structure Arr where
  shape : List ℕ
  get : List ℕ → ℝ

/-- `a.size`. -/
def Arr.size (a : Arr) : ℕ := a.shape.prod

/-- `a.ndim`. -/
def Arr.ndim (a : Arr) : ℕ := a.shape.length

/-- Multi-indices of an array of the given shape. -/
def Valid (s idx : List ℕ) : Prop := List.Forall₂ (fun d i => i < d) s idx

/-- Position of a multi-index, fastest axis first. -/
def rav : List ℕ → List ℕ → ℕ
  | d :: s, i :: l => i + d * rav s l
  | _, _ => 0

/-- Multi-index of a position, fastest axis first. -/
def unr : List ℕ → ℕ → List ℕ
  | [], _ => []
  | d :: s, k => (k % d) :: unr s (k / d)

/-- `np.ravel_multi_index` (C order). -/
def ravel (s idx : List ℕ) : ℕ := rav s.reverse idx.reverse

/-- `np.unravel_index` (C order). -/
def unravel (s : List ℕ) (k : ℕ) : List ℕ := (unr s.reverse k).reverse

/-- `a.ravel()[k]`. -/
def Arr.flat (a : Arr) (k : ℕ) : ℝ := a.get (unravel a.shape k)

/-- The product of the sizes given explicitly in `newshape`. -/
def knownSize (newshape : List ℤ) : ℕ := (newshape.filterMap fun d => if d < 0 then none else some d.toNat).prod

/-- The shape meant by the argument of `a.reshape(newshape)`: one size may be `-1`; `ValueError` if the sizes do not
fit. -/
def newShape (size : ℕ) (newshape : List ℤ) : Res (List ℕ) :=
  if newshape.any (· < -1) || 1 < newshape.countP (· = -1) then .error .valueError
  else if newshape.countP (· = -1) = 1 then
    if knownSize newshape = 0 ∨ size % knownSize newshape ≠ 0 then .error .valueError
    else .ok (newshape.map fun d => if d = -1 then size / knownSize newshape else d.toNat)
  else if knownSize newshape = size then .ok (newshape.map Int.toNat)
  else .error .valueError

/-- The same entries in C order, with another shape. -/
def Arr.withShape (a : Arr) (s : List ℕ) : Arr := ⟨s, fun idx => a.flat (ravel s idx)⟩

/-- `a.reshape(s)` for a shape without `-1`. -/
def Arr.reshapeTo (a : Arr) (s : List ℕ) : Res Arr :=
  if s.prod = a.size then .ok (a.withShape s) else .error .valueError

/-- `a.reshape(newshape)`. -/
def Arr.reshape (a : Arr) (newshape : List ℤ) : Res Arr := (newShape a.size newshape).map a.withShape

/-! ## Broadcasting -/

/-- Two sizes broadcast together. -/
def bdim (a b : ℕ) : Option ℕ := if a = b then some a else if a = 1 then some b else if b = 1 then some a else none

/-- Put a size in front, if both exist. -/
def consOpt (d : Option ℕ) (l : Option (List ℕ)) : Option (List ℕ) := d.bind fun d => l.map (d :: ·)

/-- Broadcast shape, last axis first. -/
def brev : List ℕ → List ℕ → Option (List ℕ)
  | [], t => some t
  | a :: s, [] => some (a :: s)
  | a :: s, b :: t => consOpt (bdim a b) (brev s t)

/-- The index read from an operand of the given shape, last axis first. -/
def bir : List ℕ → List ℕ → List ℕ
  | a :: s, i :: l => (if a = 1 then 0 else i) :: bir s l
  | _, _ => []

/-- `np.broadcast_shapes(s, t)`; `ValueError` if impossible. -/
def bshape (s t : List ℕ) : Res (List ℕ) :=
  match brev s.reverse t.reverse with
  | some u => .ok u.reverse
  | none => .error .valueError

/-- Entry of an operand at an index of the broadcast shape. -/
def Arr.bget (a : Arr) (idx : List ℕ) : ℝ := a.get (bir a.shape.reverse idx.reverse).reverse

/-- An entrywise binary operation with broadcasting. -/
def Arr.bin (f : ℝ → ℝ → ℝ) (a b : Arr) : Res Arr :=
  (bshape a.shape b.shape).map fun u => ⟨u, fun idx => f (a.bget idx) (b.bget idx)⟩

/-- `a + b`. -/
noncomputable def Arr.add : Arr → Arr → Res Arr := Arr.bin (· + ·)
/-- `a - b`. -/
noncomputable def Arr.sub : Arr → Arr → Res Arr := Arr.bin (· - ·)
/-- `a * b`. -/
noncomputable def Arr.mul : Arr → Arr → Res Arr := Arr.bin (· * ·)
/-- `a / b`, for `b` without zeros. -/
noncomputable def Arr.div : Arr → Arr → Res Arr := Arr.bin (· / ·)

/-- An entrywise function. -/
def Arr.map (f : ℝ → ℝ) (a : Arr) : Arr := ⟨a.shape, fun idx => f (a.get idx)⟩

/-- `-a`. -/
noncomputable def Arr.neg : Arr → Arr := Arr.map fun x => -x

/-! ## Matrix products -/

/-- `a @ b` for arrays with at most two axes; `ValueError` for scalars and shapes that do not fit.  (Stacks of
matrices are not modelled and raise `ValueError` here.) -/
noncomputable def Arr.matmul (a b : Arr) : Res Arr :=
  match a.shape, b.shape with
  | [n], [m] => if n = m then .ok ⟨[], fun _ => ∑ k ∈ range n, a.get [k] * b.get [k]⟩ else .error .valueError
  | [n], [m, p] =>
    if n = m then .ok ⟨[p], fun idx => ∑ k ∈ range n, a.get [k] * b.get [k, idx.getD 0 0]⟩ else .error .valueError
  | [r, n], [m] =>
    if n = m then .ok ⟨[r], fun idx => ∑ k ∈ range n, a.get [idx.getD 0 0, k] * b.get [k]⟩ else .error .valueError
  | [r, n], [m, p] =>
    if n = m then .ok ⟨[r, p], fun idx => ∑ k ∈ range n, a.get [idx.getD 0 0, k] * b.get [k, idx.getD 1 0]⟩
    else .error .valueError
  | _, _ => .error .valueError

/-- `a.T`. -/
def Arr.t (a : Arr) : Arr := ⟨a.shape.reverse, fun idx => a.get idx.reverse⟩

/-- `a[:, None]`. -/
def Arr.asColumn (a : Arr) : Arr := ⟨a.shape ++ [1], fun idx => a.get idx.dropLast⟩

/-- `a[None, :]`. -/
def Arr.asRow (a : Arr) : Arr := ⟨1 :: a.shape, fun idx => a.get idx.tail⟩

/-! ## Transposition -/

/-- A possibly negative axis (or index) of something with `n` entries. -/
def normAxis (n : ℕ) (a : ℤ) : Option ℕ :=
  if 0 ≤ a ∧ a < n then some a.toNat else if a < 0 ∧ -(n : ℤ) ≤ a then some (a + n).toNat else none

/-- The multi-index read by a transposition: axis `axes[k]` of the operand is axis `k` of the result. -/
def scatter (n : ℕ) (axes idx : List ℕ) : List ℕ := (List.range n).map fun d => idx.getD (axes.idxOf d) 0

/-- All axes, normalised, or nothing if one is out of bounds. -/
def normAxes (n : ℕ) (axes : List ℤ) : Option (List ℕ) := axes.mapM (normAxis n)

/-- Transposition by normalised axes; `ValueError` unless they are a permutation of all axes. -/
def Arr.permute (a : Arr) (axes : List ℕ) : Res Arr :=
  if axes.length = a.ndim ∧ axes.Nodup then
    .ok ⟨axes.map fun d => a.shape.getD d 0, fun idx => a.get (scatter a.ndim axes idx)⟩
  else .error .valueError

/-- `a.transpose(*axes)` with explicit axes; axes out of bounds raise `AxisError`, which is a `ValueError`. -/
def Arr.transpose (a : Arr) (axes : List ℤ) : Res Arr :=
  match normAxes a.ndim axes with
  | none => .error .valueError
  | some l => a.permute l

/-! ## Indexing -/

/-- One entry of an index expression: an integer, a slice, a list of integers, a boolean mask over one axis, or
`...`.  `np.newaxis` and multi-dimensional index arrays are not modelled. -/
inductive KeyEl where
  | int (i : ℤ)
  | slice (start stop step : Option ℤ)
  | arr (l : List ℤ)
  | mask (l : List Bool)
  | ellipsis

/-- Clip an explicit bound of a slice. -/
def clipBound (n : ℕ) (lo hi : ℤ) (b : ℤ) : ℤ :=
  let b := if b < 0 then b + n else b
  if b < lo then lo else if hi < b then hi else b

/-- `slice.indices(n)`: first position, number of positions and step; `ValueError` for step 0. -/
def sliceIndices (n : ℕ) (start stop step : Option ℤ) : Res (ℤ × ℕ × ℤ) :=
  let st := step.getD 1
  if st = 0 then .error .valueError
  else if 0 < st then
    let a := (start.map (clipBound n 0 n)).getD 0
    let b := (stop.map (clipBound n 0 n)).getD n
    .ok (a, ((b - a + st - 1) / st).toNat, st)
  else
    let a := (start.map (clipBound n (-1) (n - 1))).getD (n - 1)
    let b := (stop.map (clipBound n (-1) (n - 1))).getD (-1)
    .ok (a, ((a - b - st - 1) / (-st)).toNat, st)

/-- What is selected along one axis: one position (the axis disappears) or a list of positions. -/
inductive Sel where
  | one (i : ℕ)
  | many (len : ℕ) (pos : ℕ → ℕ)

/-- Positions of a list of integers; `IndexError` out of bounds. -/
def listSel (d : ℕ) (l : List ℤ) : Res (List ℕ) :=
  match l.mapM (normAxis d) with
  | some l => .ok l
  | none => .error .indexError

/-- Positions at which a mask is true. -/
def maskPos (l : List Bool) : List ℕ := (List.range l.length).filter fun i => l.getD i false

/-- Selection of a list of positions. -/
def Sel.ofList (l : List ℕ) : Sel := .many l.length fun k => l.getD k 0

/-- Selection along one axis of size `d`; `IndexError` for positions out of bounds and masks of the wrong length. -/
def axisSel (d : ℕ) : KeyEl → Res Sel
  | .int i =>
    match normAxis d i with
    | some k => .ok (.one k)
    | none => .error .indexError
  | .slice start stop step => (sliceIndices d start stop step).map fun r => .many r.2.1 fun k => (r.1 + (k : ℤ) * r.2.2).toNat
  | .arr l => (listSel d l).map .ofList
  | .mask l => if l.length = d then .ok (.ofList (maskPos l)) else .error .indexError
  | .ellipsis => .error .indexError

/-- Whether the entry is an index array. -/
def KeyEl.isArr : KeyEl → Bool
  | .arr _ => true
  | .mask _ => true
  | _ => false

/-- What an index expression selects: the shape of the result and, for each index of the result, an index of the
operand. -/
structure Gather where
  shape : List ℕ
  src : List ℕ → List ℕ

/-- Independent selection along every axis. -/
def gatherOuter : List Sel → Gather
  | [] => ⟨[], fun _ => []⟩
  | .one i :: r => ⟨(gatherOuter r).shape, fun idx => i :: (gatherOuter r).src idx⟩
  | .many n f :: r => ⟨n :: (gatherOuter r).shape, fun idx => f (idx.headD 0) :: (gatherOuter r).src idx.tail⟩

/-- Two index arrays are broadcast against each other; `IndexError` if their lengths do not fit. -/
def gatherZip : Sel → Sel → Res Gather
  | .many n f, .many m g =>
    match bdim n m with
    | some k => .ok ⟨[k], fun idx => [f (if n = 1 then 0 else idx.headD 0), g (if m = 1 then 0 else idx.headD 0)]⟩
    | none => .error .indexError
  | _, _ => .error .indexError

/-- The selections along the axes covered by an index expression. -/
def sels : List KeyEl → List ℕ → Res (List Sel)
  | e :: key, d :: s => (axisSel d e).bind fun x => (sels key s).map (x :: ·)
  | _, _ => .ok []

/-- Combination of the selections (index expressions with at most two entries). -/
def combine (key : List KeyEl) (l : List Sel) : Res Gather :=
  match key, l with
  | [e, e'], [x, y] => if e.isArr && e'.isArr then gatherZip x y else .ok (gatherOuter [x, y])
  | _, l => .ok (gatherOuter l)

/-- What the index expression selects from axes of the given sizes. -/
def gather (key : List KeyEl) (s : List ℕ) : Res Gather := (sels key s).bind (combine key)

/-- Gather along the first axes. -/
def Arr.gatherFirst (a : Arr) (g : Gather) (k : ℕ) : Arr :=
  ⟨g.shape ++ a.shape.drop k, fun idx => a.get (g.src (idx.take g.shape.length) ++ idx.drop g.shape.length)⟩

/-- Gather along the last axes. -/
def Arr.gatherLast (a : Arr) (g : Gather) (k : ℕ) : Arr :=
  ⟨a.shape.take (a.ndim - k) ++ g.shape, fun idx => a.get (idx.take (a.ndim - k) ++ g.src (idx.drop (a.ndim - k)))⟩

/-- `a[key]` for a tuple `key` without `...`; `IndexError` if there are more entries than axes. -/
def Arr.index (a : Arr) (key : List KeyEl) : Res Arr :=
  if key.length ≤ a.ndim then (gather key (a.shape.take key.length)).map fun g => a.gatherFirst g key.length
  else .error .indexError

/-- `a[(...,) + key]`; a second `...` in `key` raises `IndexError`. -/
def Arr.indexLast (a : Arr) (key : List KeyEl) : Res Arr :=
  if key.length ≤ a.ndim then
    (gather key (a.shape.drop (a.ndim - key.length))).map fun g => a.gatherLast g key.length
  else .error .indexError

end Probnum.RandVars
