import Verif.RandVars.Model
import Mathlib.Analysis.Real.Sqrt

/-!
# Model of the generic `RandomVariable`

`randvars/_random_variable.py` 102-425, 526-633 (constructor, properties with their shape checks, `sample`, slicing, reshaping,
transposition, unary arithmetic) and the fallbacks of binary arithmetic in `randvars/_arithmetic.py` 112-177.  A random variable
is what the constructor is given: optional functions for samples and properties.  A random number generator is a state; `ρ` is the
type of states.  Data types and `as_value_type` are not modelled (all values are double precision).
-/

namespace Probnum.RandVars

/-- The arguments of `RandomVariable.__init__` (`_random_variable.py` 104-158).  Property functions take no arguments, so they are
values (or the exception they raise). -/
structure Generic (ρ : Type) where
  shape : List ℕ
  sample : Option (List ℕ → ρ → Res (Arr × ρ)) := none
  inSupport : Option (Arr → Bool) := none
  mode : Option (Res Arr) := none
  median : Option (Res Arr) := none
  mean : Option (Res Arr) := none
  cov : Option (Res Arr) := none
  var : Option (Res Arr) := none
  std : Option (Res Arr) := none
  entropy : Option (Res ℝ) := none

variable {ρ : Type}

/-- `_check_property_value`, shapes (`_random_variable.py` 790-800). -/
def checkShape (want : List ℕ) (a : Arr) : Res Arr := if a.shape = want then .ok a else .error .valueError

/-- A property given to the constructor, or NotImplementedError. -/
def property (v : Option (Res Arr)) (want : List ℕ) : Res Arr :=
  match v with
  | none => .error .notImplementedError
  | some r => r.bind (checkShape want)

namespace Generic

/-- `rv.mode` (219-238). -/
def modeP (g : Generic ρ) : Res Arr := property g.mode g.shape

/-- `rv.mean` (268-290). -/
def meanP (g : Generic ρ) : Res Arr := property g.mean g.shape

/-- `rv.cov` (292-314). -/
def covP (g : Generic ρ) : Res Arr := property g.cov (expectedCov g.shape)

/-- `rv.median` (240-266): a missing median function is called anyway, which raises TypeError. -/
def medianP (g : Generic ρ) : Res Arr :=
  if g.shape ≠ [] then .error .notImplementedError
  else match g.median with
    | none => .error .typeError
    | some r => r.bind (checkShape g.shape)

/-- `rv.var` (316-342): without a function, `np.diag(self.cov).reshape(self.__shape)`; `np.diag` of a scalar raises ValueError. -/
def varP (g : Generic ρ) : Res Arr :=
  match g.var with
  | none => g.covP.bind fun C =>
      match C.shape with
      | [n, _] => ((⟨[n], fun idx => C.get [idx.headD 0, idx.headD 0]⟩ : Arr).reshapeTo g.shape).bind (checkShape g.shape)
      | _ => .error .valueError
  | some r => r.bind (checkShape g.shape)

/-- `rv.std` (344-370). -/
noncomputable def stdP (g : Generic ρ) : Res Arr :=
  match g.std with
  | none => g.varP.bind fun v => checkShape g.shape (v.map Real.sqrt)
  | some r => r.bind (checkShape g.shape)

/-- `rv.entropy` (372-384). -/
def entropyP (g : Generic ρ) : Res ℝ :=
  match g.entropy with
  | none => .error .notImplementedError
  | some r => r

/-- `rv.in_support(x)` (386-406). -/
def inSupportP (g : Generic ρ) (x : Arr) : Res Bool :=
  match g.inSupport with
  | none => .error .notImplementedError
  | some f => .ok (f x)

/-- `rv.sample(rng, size)` (408-425). -/
def sampleP (g : Generic ρ) (size : List ℕ) (r : ρ) : Res (Arr × ρ) :=
  match g.sample with
  | none => .error .notImplementedError
  | some f => f size r

/-- Apply a function to a sample. -/
def onSample (f : List ℕ → Arr → Res Arr) (g : Generic ρ) : List ℕ → ρ → Res (Arr × ρ) :=
  fun size r => (g.sampleP size r).bind fun p => (f size p.1).map fun a => (a, p.2)

/-- `rv[key]` (526-537), for a tuple `key` without `...`. -/
noncomputable def getitem (g : Generic ρ) (key : List KeyEl) : Res (Generic ρ) :=
  ((⟨g.shape, fun _ => 0⟩ : Arr).index key).map fun e =>
    { shape := e.shape
      sample := some (onSample (fun _ a => a.index key) g)
      mode := some (g.modeP.bind fun a => a.index key)
      mean := some (g.meanP.bind fun a => a.index key)
      var := some (g.varP.bind fun a => a.index key)
      std := some (g.stdP.bind fun a => a.index key)
      entropy := some g.entropyP }

/-- `rv.reshape(newshape)` (539-563), for a shape without `-1`. -/
noncomputable def reshape (g : Generic ρ) (s : List ℕ) : Generic ρ :=
  { shape := s
    sample := some (onSample (fun size a => a.reshapeTo (size ++ s)) g)
    mode := some (g.modeP.bind fun a => a.reshapeTo s)
    median := some (g.medianP.bind fun a => a.reshapeTo s)
    mean := some (g.meanP.bind fun a => a.reshapeTo s)
    cov := some g.covP
    var := some (g.varP.bind fun a => a.reshapeTo s)
    std := some (g.stdP.bind fun a => a.reshapeTo s)
    entropy := some g.entropyP }

/-- `a.transpose(*axes)`; without axes their order is reversed. -/
def transposeArr (axes : Option (List ℤ)) (a : Arr) : Res Arr := a.transpose (resolveAxes a.ndim axes)

/-- `rv.transpose(*axes)` (565-588). -/
noncomputable def transpose (g : Generic ρ) (axes : Option (List ℤ)) : Res (Generic ρ) :=
  (transposeArr axes (⟨g.shape, fun _ => 0⟩ : Arr)).map fun e =>
    { shape := e.shape
      sample := some (onSample (fun _ => transposeArr axes) g)
      mode := some (g.modeP.bind (transposeArr axes))
      median := some (g.medianP.bind (transposeArr axes))
      mean := some (g.meanP.bind (transposeArr axes))
      cov := some g.covP
      var := some (g.varP.bind (transposeArr axes))
      std := some (g.stdP.bind (transposeArr axes))
      entropy := some g.entropyP }

/-- `-rv` (594-607). -/
noncomputable def neg (g : Generic ρ) : Generic ρ :=
  { shape := g.shape
    sample := some (onSample (fun _ a => .ok a.neg) g)
    inSupport := g.inSupport.map fun f x => f x.neg
    mode := some (g.modeP.map Arr.neg)
    median := some (g.medianP.map Arr.neg)
    mean := some (g.meanP.map Arr.neg)
    cov := some g.covP
    var := some g.varP
    std := some g.stdP }

/-- `+rv` (609-622). -/
noncomputable def pos (g : Generic ρ) : Generic ρ :=
  { shape := g.shape
    sample := some (onSample (fun _ a => .ok a) g)
    inSupport := g.inSupport
    mode := some g.modeP
    median := some g.medianP
    mean := some g.meanP
    cov := some g.covP
    var := some g.varP
    std := some g.stdP }

/-- `abs(rv)` (624-629). -/
noncomputable def abs (g : Generic ρ) : Generic ρ :=
  { shape := g.shape
    sample := some (onSample (fun _ a => .ok (a.map fun x => |x|)) g) }

/-- `sample_fn` of a binary operation (`_arithmetic.py` 128-131). -/
def binSample (op : Arr → Arr → Res Arr) (g h : Generic ρ) (size : List ℕ) (r : ρ) : Res (Arr × ρ) :=
  (g.sampleP size r).bind fun p => (h.sampleP size p.2).bind fun q => (op p.1 q.1).map fun a => (a, q.2)

/-- `_default_rv_binary_op_factory` (`_arithmetic.py` 112-139): the shape is that of a sample drawn with the fixed seed, `r₀`. -/
def binOp (op : Arr → Arr → Res Arr) (r₀ : ρ) (g h : Generic ρ) : Res (Generic ρ) :=
  (binSample op g h [] r₀).map fun p => { shape := p.1.shape, sample := some (binSample op g h) }

/-- `_generic_rv_add` (`_arithmetic.py` 142-152). -/
noncomputable def add (r₀ : ρ) (g h : Generic ρ) : Res (Generic ρ) :=
  (binSample Arr.add g h [] r₀).map fun p =>
    { shape := p.1.shape
      sample := some (binSample Arr.add g h)
      mean := some (g.meanP.bind fun a => h.meanP.bind fun b => a.add b) }

end Generic

end Probnum.RandVars
