import Verif.Py

/-!
# Model of `probnum/_config.py`

The configuration object is a dictionary from option names to values.  Only the `value` field of an option is
observable through `config.<key>`, so `name`, `default_value` and `description` are not modelled.
A python method that mutates the object and may raise becomes a function
`Registry V → Except PyErr α × Registry V`: the state survives an exception, as it does in python.
-/

namespace Probnum.Config

/-- `_options_registry` (`_config.py` 53-57): a python dict in insertion order. -/
abbrev Registry (V : Type) := List (String × V)

variable {V : Type}

/-- `dict.get`: lookup of the value of an option. -/
def Registry.get? : Registry V → String → Option V
  | [], _ => none
  | (k', v) :: r, k => if k' = k then some v else Registry.get? r k

/-- `self._options_registry[key].value = value` for an existing key; keeps the dict order. -/
def Registry.set : Registry V → String → V → Registry V
  | [], _, _ => []
  | (k', v') :: r, k, v => if k' = k then (k', v) :: r else (k', v') :: Registry.set r k v

/-- Result of a state-changing python call. -/
abbrev Step (V α : Type) := Except PyErr α × Registry V

/-- `Configuration.__getattr__` (`_config.py` 59-62). -/
def getAttr (r : Registry V) (k : String) : Step V V :=
  match r.get? k with
  | none => (.error .attributeError, r)
  | some v => (.ok v, r)

/-- `Configuration.__setattr__` (`_config.py` 64-68). -/
def setAttr (r : Registry V) (k : String) (v : V) : Step V Unit :=
  match r.get? k with
  | none => (.error .attributeError, r)
  | some _ => (.ok (), r.set k v)

/-- `Configuration.register` (`_config.py` 92-121). -/
def register (r : Registry V) (k : String) (v : V) : Step V Unit :=
  match r.get? k with
  | some _ => (.error .keyError, r)
  | none => (.ok (), r ++ [(k, v)])

/-- The loop at the start of the context manager (`_config.py` 73-84).  `old` is the dict `old_options`
collected so far.  Python's keyword arguments are a list of pairs with distinct names; the loop is modelled
for any list.  The exception is raised *outside* the `try`, so the assignments already made stay. -/
def enter : List (String × V) → List (String × V) → Registry V → Step V (List (String × V))
  | [], old, r => (.ok old, r)
  | (k, v) :: kw, old, r =>
    match r.get? k with
    | none => (.error .attributeError, r)
    | some o => enter kw (old ++ [(k, o)]) (r.set k v)

/-- The `finally` block (`_config.py` 87-89). -/
def restore : List (String × V) → Registry V → Registry V
  | [], r => r
  | (k, o) :: old, r => restore old (r.set k o)

/-- Programs that use the configuration object: what may happen inside a `with` block.  `attempt p` is
`try: p except Exception: pass`. -/
inductive Prog (V : Type) where
  | skip
  | read (k : String)
  | assign (k : String) (v : V)
  | register (k : String) (v : V)
  | raise (e : PyErr)
  | seq (p q : Prog V)
  | attempt (p : Prog V)
  | withConfig (kw : List (String × V)) (body : Prog V)

/-- Execution of a program.  The `withConfig` case is the context manager of `_config.py` 73-90:
enter, run the body, and in any case (`finally`) restore the old values. -/
def exec : Prog V → Registry V → Step V Unit
  | .skip, r => (.ok (), r)
  | .read k, r =>
    match getAttr r k with
    | (.ok _, r') => (.ok (), r')
    | (.error e, r') => (.error e, r')
  | .assign k v, r => setAttr r k v
  | .register k v, r => Config.register r k v
  | .raise e, r => (.error e, r)
  | .seq p q, r =>
    match exec p r with
    | (.ok _, r') => exec q r'
    | (.error e, r') => (.error e, r')
  | .attempt p, r => (.ok (), (exec p r).2)
  | .withConfig kw body, r =>
    match enter kw [] r with
    | (.error e, r') => (.error e, r')
    | (.ok old, r') =>
      let (res, r'') := exec body r'
      (res, restore old r'')

/-- The registry after importing probnum (`_config.py` 124-171), values written as strings. -/
def defaults : Registry String :=
  [("covariance_inversion_damping", "1e-12"), ("matrix_free", "False"),
   ("lazy_matrix_matrix_matmul", "True")]

end Probnum.Config
