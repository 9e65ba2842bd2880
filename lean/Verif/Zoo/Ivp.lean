import Verif.Py
import Mathlib.Analysis.SpecialFunctions.Exp
import Mathlib.Analysis.SpecialFunctions.Pow.Real
import Mathlib.Data.List.Rotate

/-!
# The example initial value problems

Models `src/probnum/problems/zoo/diffeq/_ivp_examples.py`. Arithmetic is real and exact; an entry `none` stands for the `inf`
or `nan` that numpy returns when it divides by zero. States are arrays with one axis; parameters are sequences of Python
floats, which raise when they are divided by zero.
-/

namespace Probnum.Zoo

open Probnum

/-- `InitialValueProblem`: `src/probnum/problems/_problems.py:163-179`. -/
structure Ivp where
  f : ℝ → List ℝ → Res (List (Option ℝ))
  t0 : ℝ
  tmax : ℝ
  y0 : List ℝ
  df : Option (ℝ → List ℝ → Res (List (List (Option ℝ))))
  ddf : Option (ℝ → List ℝ → Res (List (List (Option ℝ))))
  solution : Option (ℝ → Res (List (Option ℝ)))

/-- `InitialValueProblem.dimension`: `src/probnum/problems/_problems.py:175-179`. -/
def Ivp.dimension (p : Ivp) : ℕ := p.y0.length

/-- Division of numpy floats. -/
noncomputable def npDiv (x y : ℝ) : Option ℝ := if y = 0 then none else some (x / y)

/-- The right-hand side of `threebody`: `_ivp_examples.py:70-77`. -/
noncomputable def threebodyRhs (_t : ℝ) : List ℝ → Res (List (Option ℝ))
  | y0 :: y1 :: y2 :: y3 :: _ =>
    let mu : ℝ := 0.012277471
    let mp := 1 - mu
    let D1 := ((y0 + mu) ^ 2 + y1 ^ 2) ^ (3 / 2 : ℝ)
    let D2 := ((y0 - mp) ^ 2 + y1 ^ 2) ^ (3 / 2 : ℝ)
    let y1p := (npDiv (mp * (y0 + mu)) D1).bind fun a => (npDiv (mu * (y0 - mp)) D2).map fun b => y0 + 2 * y3 - a - b
    let y2p := (npDiv (mp * y1) D1).bind fun a => (npDiv (mu * y1) D2).map fun b => y1 - 2 * y2 - a - b
    .ok [some y2, some y3, y1p, y2p]
  | _ => .error .indexError

/-- `threebody`: `_ivp_examples.py:18-82`. -/
noncomputable def threebody (t0 tmax : ℝ) (y0 : Option (List ℝ)) : Ivp :=
  ⟨threebodyRhs, t0, tmax, y0.getD [0.994, 0, 0, -2.00158510637908252240537862224], none, none, none⟩

/-- The parameter of `vanderpol`: a `float`, another number, or a sequence. -/
inductive VdpParams
  | float (mu : ℝ)
  | otherNumber (mu : ℝ)
  | seq (l : List ℝ)

/-- Unpacking the parameter: `_ivp_examples.py:128-131`. -/
def VdpParams.mu : VdpParams → Res ℝ
  | .float mu => .ok mu
  | .otherNumber _ => .error .typeError
  | .seq [mu] => .ok mu
  | .seq _ => .error .valueError

/-- `_ivp_examples.py:126-133`. -/
def vanderpolRhs (params : VdpParams) (_t : ℝ) : List ℝ → Res (List (Option ℝ))
  | [y1, y2] => params.mu.map fun mu => [some y2, some (mu * (1 - y1 ^ 2) * y2 - y1)]
  | _ => .error .valueError

/-- `_ivp_examples.py:135-142`. -/
def vanderpolJac (params : VdpParams) (_t : ℝ) : List ℝ → Res (List (List (Option ℝ)))
  | [y1, y2] => params.mu.map fun mu => [[some 0, some 1], [some (-2 * mu * y2 * y1 - 1), some (mu * (1 - y1 ^ 2))]]
  | _ => .error .valueError

/-- `vanderpol`: `_ivp_examples.py:85-144`. -/
def vanderpol (t0 tmax : ℝ) (y0 : Option (List ℝ)) (params : VdpParams) : Ivp :=
  ⟨vanderpolRhs params, t0, tmax, y0.getD [2, 0], some (vanderpolJac params), none, none⟩

/-- `_ivp_examples.py:184-187`. -/
def rigidbodyRhs (params : List ℝ) (_t : ℝ) (y : List ℝ) : Res (List (Option ℝ)) :=
  match params, y with
  | [p1, p2, p3], [y1, y2, y3] => .ok [some (p1 * y2 * y3), some (p2 * y1 * y3), some (p3 * y1 * y2)]
  | _, _ => .error .valueError

/-- `_ivp_examples.py:189-195`. -/
def rigidbodyJac (params : List ℝ) (_t : ℝ) (y : List ℝ) : Res (List (List (Option ℝ))) :=
  match params, y with
  | [p1, p2, p3], [y1, y2, y3] =>
    .ok [[some 0, some (p1 * y3), some (p1 * y2)], [some (p2 * y3), some 0, some (p2 * y1)],
      [some (p3 * y2), some (p3 * y1), some 0]]
  | _, _ => .error .valueError

/-- `rigidbody`: `_ivp_examples.py:147-197`. -/
noncomputable def rigidbody (t0 tmax : ℝ) (y0 : Option (List ℝ)) (params : List ℝ) : Ivp :=
  ⟨rigidbodyRhs params, t0, tmax, y0.getD [1, 0, 0.9], some (rigidbodyJac params), none, none⟩

/-- `_ivp_examples.py:240-242`: elementwise. -/
noncomputable def logisticRhs (params : List ℝ) (_t : ℝ) (y : List ℝ) : Res (List (Option ℝ)) :=
  match params with
  | [l0, l1] => .ok (y.map fun y => (npDiv y l1).map fun q => l0 * y * (1 - q))
  | _ => .error .valueError

/-- `_ivp_examples.py:244-246`. -/
noncomputable def logisticJac (params : List ℝ) (_t : ℝ) (y : List ℝ) : Res (List (List (Option ℝ))) :=
  match params with
  | [l0, l1] => if l1 = 0 then .error .zeroDivisionError else .ok [y.map fun y => some (l0 - l0 / l1 * 2 * y)]
  | _ => .error .valueError

/-- `_ivp_examples.py:248-250`. -/
noncomputable def logisticHess (params : List ℝ) (_t : ℝ) (_y : List ℝ) : Res (List (List (Option ℝ))) :=
  match params with
  | [l0, l1] => if l1 = 0 then .error .zeroDivisionError else .ok [[some (-2 * l0 / l1)]]
  | _ => .error .valueError

/-- `_ivp_examples.py:252-256`. -/
noncomputable def logisticSol (params y0 : List ℝ) (t : ℝ) : Res (List (Option ℝ)) :=
  match params with
  | [l0, l1] => .ok (y0.map fun y0 => npDiv (l1 * y0 * Real.exp (l0 * t)) (l1 + y0 * (Real.exp (l0 * t) - 1)))
  | _ => .error .valueError

/-- `logistic`: `_ivp_examples.py:200-260`. -/
noncomputable def logistic (t0 tmax : ℝ) (y0 : Option (List ℝ)) (params : List ℝ) : Ivp :=
  ⟨logisticRhs params, t0, tmax, y0.getD [0.1], some (logisticJac params), some (logisticHess params),
    some (logisticSol params (y0.getD [0.1]))⟩

/-- `_ivp_examples.py:300-303`. -/
noncomputable def fitzhughnagumoRhs (params : List ℝ) (_t : ℝ) (y : List ℝ) : Res (List (Option ℝ)) :=
  match params, y with
  | [a, b, c, d], [y1, y2] => .ok [some (y1 - y1 ^ 3 / 3 - y2 + a), npDiv (y1 + b - c * y2) d]
  | _, _ => .error .valueError

/-- `_ivp_examples.py:305-308`. -/
noncomputable def fitzhughnagumoJac (params : List ℝ) (_t : ℝ) (y : List ℝ) : Res (List (List (Option ℝ))) :=
  match params, y with
  | [_a, _b, c, d], [y1, _y2] =>
    if d = 0 then .error .zeroDivisionError
    else .ok [[some (1 - y1 ^ 2), some (-1)], [some (1 / d), some (-c / d)]]
  | _, _ => .error .valueError

/-- `fitzhughnagumo`: `_ivp_examples.py:263-310`. -/
noncomputable def fitzhughnagumo (t0 tmax : ℝ) (y0 : Option (List ℝ)) (params : List ℝ) : Ivp :=
  ⟨fitzhughnagumoRhs params, t0, tmax, y0.getD [1, -1], some (fitzhughnagumoJac params), none, none⟩

/-- `_ivp_examples.py:350-353`. -/
def lotkavolterraRhs (params : List ℝ) (_t : ℝ) (y : List ℝ) : Res (List (Option ℝ)) :=
  match params, y with
  | [a, b, c, d], [y1, y2] => .ok [some (a * y1 - b * y1 * y2), some (-c * y2 + d * y1 * y2)]
  | _, _ => .error .valueError

/-- `_ivp_examples.py:355-358`. -/
def lotkavolterraJac (params : List ℝ) (_t : ℝ) (y : List ℝ) : Res (List (List (Option ℝ))) :=
  match params, y with
  | [a, b, c, d], [y1, y2] => .ok [[some (a - b * y2), some (-b * y1)], [some (d * y2), some (-c + d * y1)]]
  | _, _ => .error .valueError

/-- `lotkavolterra`: `_ivp_examples.py:313-360`. -/
def lotkavolterra (t0 tmax : ℝ) (y0 : Option (List ℝ)) (params : List ℝ) : Ivp :=
  ⟨lotkavolterraRhs params, t0, tmax, y0.getD [20, 20], some (lotkavolterraJac params), none, none⟩

/-- `_ivp_examples.py:414-421`. -/
noncomputable def seirRhs (params : List ℝ) (_t : ℝ) (y : List ℝ) : Res (List (Option ℝ)) :=
  match params, y with
  | [alpha, beta, gamma, population], [y1, y2, y3, _y4] =>
    .ok [npDiv (-beta * y1 * y3) population, (npDiv (beta * y1 * y3) population).map fun q => q - alpha * y2,
      some (alpha * y2 - gamma * y3), some (gamma * y3)]
  | _, _ => .error .valueError

/-- `_ivp_examples.py:423-435`. -/
noncomputable def seirJac (params : List ℝ) (_t : ℝ) (y : List ℝ) : Res (List (List (Option ℝ))) :=
  match params, y with
  | [alpha, beta, gamma, population], [y1, _y2, y3, _y4] =>
    .ok [[npDiv (-beta * y3) population, some 0, npDiv (-beta * y1) population, some 0],
      [npDiv (beta * y3) population, some (-alpha), npDiv (beta * y1) population, some 0],
      [some 0, some alpha, some (-gamma), some 0], [some 0, some 0, some gamma, some 0]]
  | _, _ => .error .valueError

/-- `seir`: `_ivp_examples.py:363-437`. The parameters are a tuple. -/
noncomputable def seir (t0 tmax : ℝ) (y0 : Option (List ℝ)) (params : List ℝ) : Ivp :=
  let y0' := y0.getD [998, 1, 1, 0]
  let params' := params ++ [y0'.sum]
  ⟨seirRhs params', t0, tmax, y0', some (seirJac params'), none, none⟩

/-- `_ivp_examples.py:478-481`. -/
def lorenz63Rhs (params : List ℝ) (_t : ℝ) (y : List ℝ) : Res (List (Option ℝ)) :=
  match params, y with
  | [a, b, c], [y1, y2, y3] => .ok [some (a * (y2 - y1)), some (y1 * (b - y3) - y2), some (y1 * y2 - c * y3)]
  | _, _ => .error .valueError

/-- `_ivp_examples.py:483-486`. -/
def lorenz63Jac (params : List ℝ) (_t : ℝ) (y : List ℝ) : Res (List (List (Option ℝ))) :=
  match params, y with
  | [a, b, c], [y1, y2, y3] =>
    .ok [[some (-a), some a, some 0], [some (b - y3), some (-1), some (-y1)], [some y2, some y1, some (-c)]]
  | _, _ => .error .valueError

/-- `lorenz63`: `_ivp_examples.py:440-488`. -/
noncomputable def lorenz63 (t0 tmax : ℝ) (y0 : Option (List ℝ)) (params : List ℝ) : Ivp :=
  ⟨lorenz63Rhs params, t0, tmax, y0.getD [0, 1, 1.05], some (lorenz63Jac params), none, none⟩

/-- `np.roll` on an array with one axis: a positive shift moves entries to the right. -/
def npRoll (shift : ℤ) (l : List ℝ) : List ℝ := l.rotate ((-shift) % l.length).toNat

/-- `lorenz96_f_vec`: `_ivp_examples.py:537-544`. -/
def lorenz96Rhs (c : ℝ) (_t : ℝ) (y : List ℝ) : Res (List (Option ℝ)) :=
  let A := npRoll (-1) y
  let B := npRoll 2 y
  let C := npRoll 1 y
  .ok ((((A.zip B).zip C).zip y).map fun p => some ((p.1.1.1 - p.1.1.2) * p.1.2 - p.2 + c))

/-- `lorenz96`: `_ivp_examples.py:491-546`. -/
def lorenz96 (t0 tmax : ℝ) (y0 : Option (List ℝ)) (numVariables : ℤ) (params : List ℝ) : Res Ivp :=
  match params with
  | [forcing] =>
    match y0 with
    | none =>
      if numVariables < 4 then .error .valueError
      else .ok ⟨lorenz96Rhs forcing, t0, tmax, List.replicate numVariables.toNat (1 * forcing), none, none, none⟩
    | some y0 =>
      if y0.length < 4 then .error .valueError else .ok ⟨lorenz96Rhs forcing, t0, tmax, y0, none, none, none⟩
  | _ => .error .valueError

end Probnum.Zoo
