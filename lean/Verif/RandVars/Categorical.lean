import Verif.RandVars.Arr

/-!
# Model of `randvars/_categorical.py` and of the point mass `randvars/_constant.py`

A point of the support is the list of its components (in C order); scalars have one component.  The type of components
and the dtypes are arbitrary.  `rng.choice` is not modelled: the sampled indices are an argument.
-/

namespace Probnum.RandVars

variable {α δ : Type}

/-- `Categorical` (`_categorical.py` 22-84). -/
structure Categorical (α δ : Type) where
  probs : List ℝ
  support : List (List α)
  dtype : δ

/-- `Categorical(probabilities, support)`: `self._support[0]` raises `IndexError` for an empty support; the lengths are
not compared (`_categorical.py` 22-84). -/
def Categorical.make (probs : List ℝ) (support : List (List α)) (dtype : δ) : Res (Categorical α δ) :=
  if support = [] then .error .indexError else .ok ⟨probs, support, dtype⟩

/-- The default support `np.arange(num_categories)` (`_categorical.py` 34). -/
def arangeSupport (n : ℕ) : List (List ℤ) := (List.range n).map fun (k : ℕ) => [(k : ℤ)]

/-- `Categorical(probabilities)` with the default support. -/
def Categorical.default (probs : List ℝ) (dtype : δ) : Res (Categorical ℤ δ) :=
  Categorical.make probs (arangeSupport probs.length) dtype

/-- Row `k` once for every component of `x` that agrees with the component of the point at the same place. -/
def rowMask [DecidableEq α] (x p : List α) (k : ℕ) : List ℕ :=
  (x.zip p).filterMap fun c => if c.1 = c.2 then some k else none

/-- `(x == support).nonzero()[0]` for an `x` of the shape of the support points (`_categorical.py` 70). -/
def maskFrom [DecidableEq α] (x : List α) : List (List α) → ℕ → List ℕ
  | [], _ => []
  | p :: s, k => rowMask x p k ++ maskFrom x s (k + 1)

/-- `probabilities[mask][0] if len(mask) > 0 else 0.0`; numpy checks every index of the mask (`_categorical.py` 71). -/
def pickFirst (probs : List ℝ) (mask : List ℕ) : Res ℝ :=
  match mask with
  | [] => .ok 0
  | k :: r => if (k :: r).all (· < probs.length) then .ok (probs.getD k 0) else .error .indexError

/-- `rv.pmf(x)`: `ValueError` if the dtypes differ (`_categorical.py` 58-71). -/
noncomputable def Categorical.pmf [DecidableEq α] [DecidableEq δ] (c : Categorical α δ) (x : List α) (dtype : δ) : Res ℝ :=
  if dtype ≠ c.dtype then .error .valueError else pickFirst c.probs (maskFrom x c.support 0)

/-- `np.argmax`: position of the first maximum, given the best position so far. -/
noncomputable def argmaxFrom : List ℝ → ℕ → ℕ → ℝ → ℕ
  | [], _, best, _ => best
  | p :: l, k, best, m => if m < p then argmaxFrom l (k + 1) k p else argmaxFrom l (k + 1) best m

/-- `np.argmax(probabilities)`; `ValueError` if empty. -/
noncomputable def argmax : List ℝ → Res ℕ
  | [] => .error .valueError
  | p :: l => .ok (argmaxFrom l 1 0 p)

/-- `support[k]`; `IndexError` out of bounds. -/
def pointAt (support : List (List α)) (k : ℕ) : Res (List α) :=
  match support[k]? with
  | some p => .ok p
  | none => .error .indexError

/-- `rv.mode` (`_categorical.py` 73-75). -/
noncomputable def Categorical.mode (c : Categorical α δ) : Res (List α) := (argmax c.probs).bind (pointAt c.support)

/-- `rv.sample(rng, size)`, in C order, for the indices drawn by `rng.choice(np.arange(len(support)), size, p)`, which
raises `ValueError` if the lengths of support and probabilities differ (`_categorical.py` 42-56). -/
def Categorical.sample (c : Categorical α δ) (draws : List ℕ) : Res (List (List α)) :=
  if c.probs.length ≠ c.support.length then .error .valueError else .ok (draws.map fun k => c.support.getD k [])

/-- `rv.resample(rng)` (`_categorical.py` 96-121); the draws are as many as support points. -/
noncomputable def Categorical.resample (c : Categorical α δ) (draws : List ℕ) : Res (Categorical α δ) :=
  (c.sample draws).bind fun s => Categorical.make (c.probs.map fun _ => 1 / (c.support.length : ℝ)) s c.dtype

/-! ## Point masses -/

/-- A value returned by the function `in_support` of a random variable: a Python `bool` or a numpy `bool_`. -/
inductive PyBool where
  | py (b : Bool)
  | np (b : Bool)

/-- `RandomVariable.in_support(x)`: anything but a Python `bool` raises `ValueError` (`_random_variable.py` 395-406). -/
def checkedInSupport : PyBool → Res Bool
  | .py b => .ok b
  | .np _ => .error .valueError

open Classical in
/-- `Constant.in_support(x)`: `np.all` returns a numpy `bool_` (`_constant.py` 97). -/
noncomputable def constInSupport (s x : List ℝ) : Res Bool := checkedInSupport (.np (decide (x = s)))

/-- `Normal.in_support(x)`: `np.isfinite` and `np.all` return a numpy `bool_` (`_normal.py` 431-433, 499-501); every
real number is finite. -/
def normalInSupport (_x : List ℝ) : Res Bool := checkedInSupport (.np true)

open Classical in
/-- `Constant.pmf(x)` for an `x` of the shape of the support (`_constant.py` 98). -/
noncomputable def constPmf (s x : List ℝ) : ℝ := if x = s then 1 else 0

open Classical in
/-- `Constant.cdf(x)` for an `x` of the shape of the support (`_constant.py` 99). -/
noncomputable def constCdf (s x : List ℝ) : ℝ := if List.Forall₂ (fun a b => b ≤ a) x s then 1 else 0

/-- `Constant.sample(rng, size)`: the support itself, or `np.tile(support, size + (1,) * ndim)` (`_constant.py`
144-150), as an array of shape `size + shape`. -/
def constSample (s : Arr) (size : List ℕ) : Arr := ⟨size ++ s.shape, fun idx => s.get (idx.drop size.length)⟩

end Probnum.RandVars
