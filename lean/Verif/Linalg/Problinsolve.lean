import Verif.Py

/-!
# Model of the input handling of `problinsolve`

`src/probnum/linalg/_problinsolve.py`: `_check_linear_system`, the check of `assume_A`, `_preprocess_linear_system`,
`_init_solver`; `src/probnum/utils/arrayutils.py`: `as_colvec`.

Arguments are represented by their type and shape.  Strings are lists of characters; `str.lower` is `Char.toLower` per character
(characters outside ASCII are left as they are; no such character lowers to a text made of the letters of the options).
-/

namespace Probnum.Linalg.Problinsolve

/-- Types of arguments, as told apart by `isinstance` (`_problinsolve.py` 264-271). -/
inductive Kind where
  | ndarray
  | sparse
  | scipyLinop
  | linop
  | randvar (symmetricKroneckerCov : Bool)
  | other
  deriving DecidableEq

/-- An argument. -/
structure Arg where
  kind : Kind
  shape : List Nat
  deriving DecidableEq

/-- `isinstance(·, linop_types)` (`_problinsolve.py` 265-271). -/
def Kind.isLinop : Kind → Bool
  | .other => false
  | _ => true

/-- `isinstance(·, vector_types)` (`_problinsolve.py` 271). -/
def Kind.isVector : Kind → Bool
  | .ndarray | .sparse | .randvar _ => true
  | _ => false

/-- `isinstance(·, randvars.RandomVariable)`. -/
def Kind.isRv : Kind → Bool
  | .randvar _ => true
  | _ => false

/-- The same for an optional argument (`None` is no random variable). -/
def isRv? (a : Option Arg) : Bool :=
  match a with
  | some a => a.kind.isRv
  | none => false

/-- `shape[i]`. -/
def at_ (s : List Nat) (i : Nat) : Res Nat :=
  match s[i]? with
  | some d => .ok d
  | none => .error .indexError

/-- `raise ValueError` if the condition holds. -/
def rejectIf (c : Bool) : Res Unit := if c then .error .valueError else .ok ()

/-- The type checks (`_problinsolve.py` 272-298). -/
def checkTypes (A b : Arg) (A0 Ainv0 x0 : Option Arg) : Res Unit := do
  rejectIf (!A.kind.isLinop)
  rejectIf (!b.kind.isVector)
  rejectIf (match A0 with | some a => !a.kind.isRv | none => false)
  rejectIf (match Ainv0 with | some a => !a.kind.isLinop | none => false)
  rejectIf (match x0 with | some a => !a.kind.isVector | none => false)
  rejectIf ((isRv? A0 || isRv? Ainv0) && isRv? x0)

/-- An equality check between two entries of shapes: `if s[i] != t[j]: raise ValueError`. -/
def entriesAgree (s : List Nat) (i : Nat) (t : List Nat) (j : Nat) : Res Unit := do
  let d ← at_ s i
  let e ← at_ t j
  rejectIf (d != e)

/-- `M is not None and A.shape != M.shape` (`_problinsolve.py` 303-308). -/
def shapeDiffers (s : List Nat) : Option Arg → Bool
  | some a => s != a.shape
  | none => false

/-- `if x0 is not None and A.shape[1] != x0.shape[0]: raise ValueError` (`_problinsolve.py` 309-310). -/
def guessAgrees (s : List Nat) : Option Arg → Res Unit
  | some a => entriesAgree s 1 a.shape 0
  | none => .ok ()

/-- `if M is not None and M.shape[0] != M.shape[1]: raise ValueError` (`_problinsolve.py` 315-318). -/
def optSquare : Option Arg → Res Unit
  | some a => entriesAgree a.shape 0 a.shape 1
  | none => .ok ()

/-- The shape checks (`_problinsolve.py` 300-318). -/
def checkShapes (A b : Arg) (A0 Ainv0 x0 : Option Arg) : Res Unit := do
  entriesAgree A.shape 0 b.shape 0
  rejectIf (shapeDiffers A.shape Ainv0)
  rejectIf (shapeDiffers A.shape A0)
  guessAgrees A.shape x0
  entriesAgree A.shape 0 A.shape 1
  optSquare A0
  optSquare Ainv0

/-- `_check_linear_system` (`_problinsolve.py` 235-318). -/
def check (A b : Arg) (A0 Ainv0 x0 : Option Arg) : Res Unit := do
  checkTypes A b A0 Ainv0 x0
  checkShapes A b A0 Ainv0 x0

/-- `s.replace(p + ps, "")`: removes the non-overlapping occurrences from left to right. -/
def erase (p : Char) (ps : List Char) : List Char → List Char
  | [] => []
  | c :: cs => if (p :: ps).isPrefixOf (c :: cs) then erase p ps (cs.drop ps.length) else c :: erase p ps cs
  termination_by l => l.length
  decreasing_by all_goals (simp only [List.length_cons, List.length_drop]; omega)

/-- `pattern in s`. -/
def contains (pat : List Char) : List Char → Bool
  | [] => pat.isEmpty
  | c :: cs => pat.isPrefixOf (c :: cs) || contains pat cs

/-- `str.lower`. -/
def lower (s : List Char) : List Char := s.map Char.toLower

/-- What is left of `assume_A` after removing the options (`_problinsolve.py` 171-174). -/
def leftover (s : List Char) : List Char :=
  erase 'n' ['o', 'i', 's', 'e'] (erase 'p' ['o', 's'] (erase 's' ['y', 'm'] (erase 'g' ['e', 'n'] s)))

/-- `utils.as_colvec` (`arrayutils.py` 50-67): the shape of the result.  The reshaped random variable is discarded; only the
errors of `reshape` matter. -/
def asColvec (a : Arg) : Res Arg :=
  if a.kind.isRv then
    match a.shape with
    | [] => .error .indexError
    | d :: _ => if a.shape != [d, 1] && a.shape.prod != d then .error .valueError else .ok a
  else
    match a.shape with
    | [d] => .ok ⟨a.kind, [d, 1]⟩
    | _ => .ok a

/-- `if x0 is not None: x0 = utils.as_colvec(x0)` (`_problinsolve.py` 348-349). -/
def optColvec : Option Arg → Res (Option Arg)
  | some a => (asColvec a).map some
  | none => .ok none

/-- What a solver is created with. -/
structure Setup where
  b : Arg
  nrhs : Nat
  x0 : Option Arg
  deriving DecidableEq

/-- `assume_A += "sym"` if the prior has a symmetric Kronecker covariance and the option is missing
(`_problinsolve.py` 401-407). -/
def addSym (prior : Option Arg) (s : List Char) : List Char :=
  match prior with
  | some ⟨.randvar true, _⟩ => if contains ['s', 'y', 'm'] s then s else s ++ ['s', 'y', 'm']
  | _ => s

/-- The mean of the initial guess replaces it if there is a prior on the matrix or its inverse (`_problinsolve.py` 391-399). -/
def guessOf (A0 Ainv0 x0 : Option Arg) : Option Arg :=
  if (Ainv0.isSome || A0.isSome) && isRv? x0 then x0.map fun a => ⟨.ndarray, a.shape⟩ else x0

/-- `_init_solver` (`_problinsolve.py` 391-432): the guess handed to `SymmetricMatrixBasedSolver`, or the exception. -/
def initSolver (A0 Ainv0 x0 : Option Arg) (assumeA : List Char) : Res (Option Arg) :=
  let x0 := guessOf A0 Ainv0 x0
  let s := addSym Ainv0 (addSym A0 assumeA)
  if isRv? x0 then .error .notImplementedError
  else if contains ['s', 'y', 'm'] s && contains ['p', 'o', 's'] s then
    if contains ['n', 'o', 'i', 's', 'e'] s then .error .notImplementedError else .ok x0
  else .error .notImplementedError

/-- `problinsolve` up to the creation of the (first) solver (`_problinsolve.py` 167-222). -/
def front (A b : Arg) (A0 Ainv0 x0 : Option Arg) (assumeA : List Char) : Res Setup := do
  check A b A0 Ainv0 x0
  rejectIf (leftover (lower assumeA) != [])
  let b' ← if b.kind.isRv then .ok b else asColvec b
  let x0' ← optColvec x0
  let nrhs ← at_ b'.shape 1
  let guess ← initSolver A0 Ainv0 x0' (lower assumeA)
  .ok ⟨b', nrhs, guess⟩

end Probnum.Linalg.Problinsolve
