import Verif.RandVars.Model

/-!
# Model: beliefs about linear systems

Models `src/probnum/linalg/solvers/beliefs/_linear_system_belief.py` and `asrandvar` (`src/probnum/randvars/_utils.py` 12-73) for
random variables and arrays.  Random variables and their products are those of `Verif/RandVars/Model.lean`.
-/

namespace Probnum.SysBelief

open RandVars
open LinGauss (QR)

/-- An argument of the constructor: a random variable, or an array, which has the attributes `ndim` and `shape`, too. -/
inductive Arg
  | rv (R : RV)
  | array (a : Arr)

/-- `arg.shape`. -/
def Arg.shape : Arg → List ℕ
  | .rv R => R.shape
  | .array a => a.shape

/-- `arg.shape[i]`. -/
def axis (s : List ℕ) (i : ℕ) : Res ℕ :=
  match s[i]? with
  | some d => .ok d
  | none => .error .indexError

/-- `if p != q: raise dim_mismatch_error(...)` for two lengths, the left one evaluated first. -/
def requireEq (p q : Res ℕ) : Res Unit :=
  p.bind fun a => q.bind fun b => if a = b then .ok () else .error .valueError

/-- `if arg is not None: ...`. -/
def given (s : Option (List ℕ)) (check : List ℕ → Res Unit) : Res Unit :=
  match s with
  | none => .ok ()
  | some s => check s

/-- The checks of `x` (`_linear_system_belief.py` 64-80). -/
def checkX (x : List ℕ) (A b : Option (List ℕ)) : Res Unit :=
  if 2 < x.length ∨ x.length < 1 then .error .valueError
  else (given A fun A => requireEq (axis A 1) (axis x 0)).bind fun _ => given b fun b =>
    if 1 < x.length then requireEq (axis x 1) (axis b 1)
    else if 1 < b.length then .error .valueError
    else .ok ()

/-- The checks of `Ainv` (82-91). -/
def checkAinv (Ainv : List ℕ) (A : Option (List ℕ)) : Res Unit :=
  if Ainv.length ≠ 2 then .error .valueError
  else given A fun A => if A ≠ Ainv then .error .valueError else .ok ()

/-- The checks of `A` (93-102). -/
def checkA (A : List ℕ) (b : Option (List ℕ)) : Res Unit :=
  if A.length ≠ 2 then .error .valueError
  else given b fun b => requireEq (axis A 0) (axis b 0)

/-- The checks of `b` (104-110). -/
def checkB (b : List ℕ) : Res Unit :=
  if 2 < b.length ∨ b.length < 1 then .error .valueError else .ok ()

/-- `if arg is not None and not isinstance(arg, randvars.RandomVariable): raise TypeError` (112-135). -/
def asRv : Option Arg → Res (Option RV)
  | none => .ok none
  | some (.rv R) => .ok (some R)
  | some (.array _) => .error .typeError

/-- A belief; the hyperparameters are a dictionary. -/
structure Belief where
  px : Option RV
  pAinv : Option RV
  pA : Option RV
  pb : Option RV
  hyper : List (String × RV)

/-- `LinearSystemBelief(x, Ainv, A, b, hyperparams)` (40-143). -/
def create (x Ainv A b : Option Arg) (hyper : Option (List (String × RV))) : Res Belief :=
  if x.isNone && Ainv.isNone then .error .typeError
  else
    let sx := x.map Arg.shape
    let sI := Ainv.map Arg.shape
    let sA := A.map Arg.shape
    let sb := b.map Arg.shape
    (given sx fun s => checkX s sA sb).bind fun _ =>
    (given sI fun s => checkAinv s sA).bind fun _ =>
    (given sA fun s => checkA s sb).bind fun _ =>
    (given sb checkB).bind fun _ =>
    (asRv x).bind fun x => (asRv A).bind fun A => (asRv Ainv).bind fun Ainv => (asRv b).bind fun b =>
    .ok ⟨x, Ainv, A, b, hyper.getD []⟩

/-- `hyperparameter(key)` (145-153). -/
def Belief.hyperparameter (β : Belief) (key : String) : Res RV :=
  match β.hyper.lookup key with
  | some R => .ok R
  | none => .error .keyError

/-- `_induced_x()` (178-185): `None` cannot be converted to a random variable, and has no product with another. -/
noncomputable def Belief.inducedX (Q : QR) (β : Belief) : Res RV :=
  match β.pAinv, β.pb with
  | some H, some b => matmul Q H b
  | some _, none => .error .valueError
  | none, some _ => .error .valueError
  | none, none => .error .typeError

/-- The property `x` (155-161). -/
noncomputable def Belief.x (Q : QR) (β : Belief) : Res RV :=
  match β.px with
  | none => β.inducedX Q
  | some R => .ok R

/-- The property `A` (163-166). -/
def Belief.A (β : Belief) : Option RV := β.pA

/-- The property `Ainv` (168-171). -/
def Belief.Ainv (β : Belief) : Option RV := β.pAinv

/-- The property `b` (173-176). -/
def Belief.b (β : Belief) : Option RV := β.pb

end Probnum.SysBelief
