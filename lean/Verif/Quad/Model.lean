import Verif.Py
import Verif.Linops.Mat
import Mathlib.Analysis.SpecialFunctions.Log.Basic
import Mathlib.Data.EReal.Basic

/-! # Model of Bayesian quadrature

`quad/solvers/_bayesian_quadrature.py`, `quad/solvers/_bq_state.py`, `quad/solvers/belief_updates/*.py`,
`quad/solvers/stopping_criteria/*.py`, `quad/solvers/acquisition_functions/*.py`.

Nodes are of an arbitrary type `X`.  The kernel and its embeddings (kernel mean and kernel variance with respect to the
measure) are parameters.  A matrix is its entries with its size.  `scipy.linalg.cho_factor` is modelled by the matrix
that was factorised; it raises LinAlgError if that matrix is not positive definite; `cho_solve` solves the system. -/

namespace Probnum.Quad

open Probnum Probnum.Linops Finset

/-- The kernel `k(x, y)`, the kernel mean `∫ k(x, y) dμ(y)` and the kernel variance `∫∫ k dμ dμ`:
`kernel_embeddings/_kernel_embedding.py` 20-60. -/
structure Problem (X : Type) where
  /-- `kernel(x, y)`. -/
  k : X → X → ℝ
  /-- `KernelEmbedding(kernel, measure).kernel_mean`. -/
  mean : X → ℝ
  /-- `KernelEmbedding(kernel, measure).kernel_variance()`. -/
  var : ℝ
  /-- The density of the measure, `measure(x)`. -/
  density : X → ℝ

/-- `BQState`: `_bq_state.py` 19-80.  `belief` is the mean and the variance of `integral_belief`; `factor` is the matrix
whose Cholesky factor is `gram_cho_factor`. -/
structure State (X : Type) where
  scaleSq : ℝ
  belief : ℝ × ℝ
  previous : List (ℝ × ℝ)
  nodes : List X
  evals : List ℝ
  gram : Mat
  factor : Mat
  kernelMeans : List ℝ

/-- `kernel.matrix(xs, ys)`; entries outside of the matrix are 0. -/
def kernelMatrix {X : Type} (k : X → X → ℝ) (xs ys : List X) : Mat := fun i j =>
  match xs[i]?, ys[j]? with
  | some x, some y => k x y
  | _, _ => 0

/-- The entries of a vector. -/
def vec (l : List ℝ) : ℕ → ℝ := fun i => l.getD i 0

/-- `np.hstack((np.vstack((gram, c)), np.vstack((c.T, d))))` for `gram` with `n` rows: `_standard_update.py` 63-68. -/
def blocks (n : ℕ) (gram c d : Mat) : Mat := fun i j =>
  if j < n then (if i < n then gram i j else c (i - n) j)
  else (if i < n then trn c i (j - n) else d (i - n) (j - n))

/-- `scipy.linalg.cho_solve(factor, z)`. -/
noncomputable def choSolve (n : ℕ) (M : Mat) (z : ℕ → ℝ) : ℕ → ℝ := fun i => ∑ j ∈ range n, invM n M i j * z j

/-- `a @ b`. -/
def dot (n : ℕ) (a b : ℕ → ℝ) : ℝ := ∑ i ∈ range n, a i * b i

open Classical in
/-- `compute_gram_cho_factor`: `_belief_update.py` 61-81. -/
noncomputable def choFactor (n : ℕ) (jitter : ℝ) (gram : Mat) : Res Mat :=
  if (toM n n (gram + jitter • eye)).PosDef then .ok (gram + jitter • eye) else .error .linAlgError

/-- `scale_estimation`. -/
inductive ScaleEst
  /-- `None`. -/
  | keep
  /-- `"mle"`. -/
  | mle
  /-- Any other string. -/
  | other
deriving DecidableEq

/-- The attributes of a `BQStandardBeliefUpdate`. -/
structure Update where
  jitter : ℝ
  scale : ScaleEst

open Classical in
/-- `BQStandardBeliefUpdate.__init__`: `_standard_update.py` 31-33, `_belief_update.py` 26-29. -/
noncomputable def Update.mk? (jitter : ℝ) (scale : ScaleEst) : Res Update :=
  if jitter < 0 then .error .valueError else .ok ⟨jitter, scale⟩

/-- `_estimate_scale`: `_standard_update.py` 111-128.  The division of numpy by a length of zero gives nan; here it is
an error. -/
noncomputable def estimateScale (est : ScaleEst) (n : ℕ) (factor : Mat) (evals : List ℝ) (old : ℝ) : Res ℝ :=
  match est with
  | .keep => .ok old
  | .mle =>
    if evals.length ≠ n then .error .valueError
    else if n = 0 then .error .zeroDivisionError
    else .ok (dot n (vec evals) (choSolve n factor (vec evals)) / n)
  | .other => .error .valueError

/-- `BQStandardBeliefUpdate.__call__`: `_standard_update.py` 36-101, `_bq_state.py` 82-135. -/
noncomputable def Update.call {X : Type} (u : Update) (P : Problem X) (s : State X) (newNodes : List X)
    (newEvals : List ℝ) : Res (State X) :=
  let nodes := s.nodes ++ newNodes
  let evals := s.evals ++ newEvals
  let gram := if s.nodes.length = 0 then kernelMatrix P.k nodes nodes
    else blocks s.nodes.length s.gram (kernelMatrix P.k newNodes s.nodes) (kernelMatrix P.k newNodes newNodes)
  let kernelMeans := if s.nodes.length = 0 then nodes.map P.mean else s.kernelMeans ++ newNodes.map P.mean
  let n := nodes.length
  match choFactor n u.jitter gram with
  | .error e => .error e
  | .ok factor =>
    match estimateScale u.scale n factor evals s.scaleSq with
    | .error e => .error e
    | .ok scale =>
      let weights := choSolve n factor (vec kernelMeans)
      if evals.length ≠ n then .error .valueError
      else .ok {
        scaleSq := scale
        belief := (dot n weights (vec evals), scale * (P.var - dot n weights (vec kernelMeans)))
        previous := s.previous ++ [s.belief]
        nodes := nodes
        evals := evals
        gram := gram
        factor := factor
        kernelMeans := kernelMeans }

/-- The state before any data: `_bayesian_quadrature.py` 506-512, `_bq_state.py` 47-61 (`scale_sq=1.0`). -/
def State.initial {X : Type} (P : Problem X) : State X :=
  { scaleSq := 1, belief := (0, P.var), previous := [], nodes := [], evals := [], gram := 0, factor := 0,
    kernelMeans := [] }

/-! ## Predictions and acquisition functions -/

/-- `k(X, x)` for the nodes `X` and one location. -/
def crossCov {X : Type} (P : Problem X) (s : State X) (x : X) : ℕ → ℝ := fun i => kernelMatrix P.k s.nodes [x] i 0

/-- `predict_integrand`, 129-151: mean and variance at one location. -/
noncomputable def predict {X : Type} (P : Problem X) (s : State X) (x : X) : ℝ × ℝ :=
  let n := s.evals.length
  if n ≠ 0 then
    let w := choSolve n s.factor (crossCov P s x)
    (dot n w (vec s.evals), s.scaleSq * (P.k x x - dot n w (crossCov P s x)))
  else (0, s.scaleSq * P.k x x)

open Classical in
/-- `IntegralVarianceReduction.__call__`: `_integral_variance_reduction.py` 50-75, for one location.  `none` stands for
numpy's nan or inf. -/
noncomputable def ivr {X : Type} (P : Problem X) (s : State X) (x : X) : Option ℝ :=
  let emb := if 0 < s.evals.length then
      P.mean x - dot s.evals.length (vec s.kernelMeans) (choSolve s.evals.length s.factor (crossCov P s x))
    else P.mean x
  let den := s.belief.2 * (predict P s x).2
  if den = 0 then none else some ((s.scaleSq * emb) ^ 2 / den)

open Classical in
/-- `MutualInformation.__call__`: `_mutual_information.py` 44-52.  `log 0` is numpy's `-inf`; the logarithm of a negative
number is nan (`none`). -/
noncomputable def mutualInformation {X : Type} (P : Problem X) (s : State X) (x : X) : Option EReal :=
  match ivr P s x with
  | none => none
  | some rho2 =>
    if 1 - rho2 < 0 then none
    else if 1 - rho2 = 0 then some ⊤
    else some ((-(1 / 2) * Real.log (1 - rho2) : ℝ) : EReal)

open Classical in
/-- `WeightedPredictiveVariance.__call__`: `_predictive_variance.py` 39-49. -/
noncomputable def weightedVariance {X : Type} (P : Problem X) (s : State X) (x : X) : Option ℝ :=
  if s.scaleSq = 0 then none else some ((predict P s x).2 * (1 / s.scaleSq) * P.density x ^ 2)

/-! ## Stopping criteria -/

/-- `BQIterInfo`: `_bq_state.py` 139-218. -/
structure Info where
  iteration : ℕ
  nevals : ℕ
  hasConverged : Bool

/-- The stopping criteria of the quadrature loop, and their disjunction and conjunction (`_stopping_criterion.py`). -/
inductive Crit (X : Type)
  /-- `ImmediateStop`. -/
  | immediate
  /-- `MaxNevals`. -/
  | maxNevals (n : ℕ)
  /-- `IntegralVarianceTolerance`. -/
  | varTol (t : ℝ)
  /-- `RelativeMeanChange`. -/
  | relTol (t : ℝ)
  /-- Any other criterion. -/
  | other (p : State X → Info → Prop)
  /-- `a | b`. -/
  | or (a b : Crit X)
  /-- `a & b`. -/
  | and (a b : Crit X)

/-- The decision of a criterion: `_immediate_stop.py` 15-16, `_max_nevals.py` 24-25, `_integral_variance_tol.py` 24-25,
`_rel_mean_change.py` 34-45 (a division by a mean of zero gives nan or inf, which is not below the tolerance). -/
def Crit.holds {X : Type} : Crit X → State X → Info → Prop
  | .immediate, _, _ => True
  | .maxNevals n, _, i => n ≤ i.nevals
  | .varTol t, s, _ => s.belief.2 ≤ t
  | .relTol t, s, _ =>
    match s.previous.getLast? with
    | none => False
    | some p => s.belief.1 ≠ 0 ∧ |(s.belief.1 - p.1) / s.belief.1| ≤ t
  | .other p, s, i => p s i
  | .or a b, s, i => a.holds s i ∨ b.holds s i
  | .and a b, s, i => a.holds s i ∧ b.holds s i

/-- The stopping criterion of `from_problem`: `_bayesian_quadrature.py` 265-293; the default tolerance is `1e-6`. -/
noncomputable def fromProblemCrit {X : Type} (inputDim : ℕ) (maxEvals : Option ℕ) (varTol relTol : Option ℝ)
    (hasPolicy : Bool) : Crit X :=
  let orElse : Option (Crit X) → Crit X → Crit X := fun c d => match c with | none => d | some c => .or c d
  let c0 : Option (Crit X) := none
  let c1 := match maxEvals with | none => c0 | some n => some (orElse c0 (.maxNevals n))
  let c2 := match varTol with | none => c1 | some t => some (orElse c1 (.varTol t))
  let c3 := match relTol with | none => c2 | some t => some (orElse c2 (.relTol t))
  let c := match c3 with | none => .or (.varTol 1e-6) (.maxNevals (inputDim * 25)) | some c => c
  if hasPolicy then c else .immediate

/-! ## The loop -/

/-- A policy: its batch size, whether it needs a random number generator, and the nodes it chooses (which may depend on
the state of the generator). -/
structure Policy (X ρ : Type) where
  batchSize : ℕ
  requiresRng : Bool
  call : State X → ρ → Res (List X × ρ)

/-- What is observed of a run: the nodes passed to the integrand, in order. -/
abbrev Log (X : Type) := List X

open Classical in
/-- `bq_iterator` run to its end: `_bayesian_quadrature.py` 297-357.  `none`: the loop is still running after `fuel`
iterations.  A state that has not converged without a policy raises TypeError (`None(bq_state, rng)`). -/
noncomputable def bqLoop {X ρ : Type} (P : Problem X) (u : Update) (crit : Crit X) (policy : Option (Policy X ρ))
    (f : List X → List ℝ) : ℕ → State X → Info → ρ → Log X → Option (Res (State X × Info × Log X))
  | 0, _, _, _, _ => none
  | fuel + 1, s, info, r, log =>
    let info : Info := { info with hasConverged := decide (crit.holds s info) }
    if info.hasConverged then some (.ok (s, info, log))
    else match policy with
    | none => some (.error .typeError)
    | some p =>
      match p.call s r with
      | .error e => some (.error e)
      | .ok (newNodes, r) =>
        match u.call P s newNodes (f newNodes) with
        | .error e => some (.error e)
        | .ok s =>
          bqLoop P u crit policy f fuel s
            { iteration := info.iteration + 1, nevals := info.nevals + p.batchSize, hasConverged := info.hasConverged }
            r (log ++ newNodes)

/-- An array argument of `integrate`: its number of axes and its rows. -/
structure Rows (α : Type) where
  ndim : ℕ
  rows : List α

/-- The attributes of a `BayesianQuadrature`, and whether the initial design needs a random number generator. -/
structure Solver (X ρ : Type) where
  problem : Problem X
  policy : Option (Policy X ρ)
  update : Update
  crit : Crit X
  /-- `initial_design`: whether it requires a generator, and the nodes it returns. -/
  design : Option (Bool × (ρ → List X × ρ))

/-- `BayesianQuadrature.__init__`: 81-101. -/
def Solver.mk? {X ρ : Type} (problem : Problem X) (policy : Option (Policy X ρ)) (update : Update) (crit : Crit X)
    (design : Option (Bool × (ρ → List X × ρ))) : Res (Solver X ρ) :=
  if policy.isNone ∧ design.isSome then .error .valueError else .ok ⟨problem, policy, update, crit, design⟩

/-- The values at the fixed nodes, and the nodes at which the integrand is evaluated for them: 436-437. -/
def fixedEvals {X : Type} (f : Option (List X → Rows ℝ)) : Option (Rows X) → Option (Rows ℝ) →
    Res (Option (Rows ℝ) × Log X)
  | some x, none => match f with
    | some g => .ok (some (g x.rows), x.rows)
    | none => .error .typeError
  | _, e => .ok (e, [])

/-- The checks of the shapes: 440-455. -/
def badShapes {X : Type} : Option (Rows X) → Option (Rows ℝ) → Bool
  | none, none => false
  | none, some e => e.ndim ≠ 1
  | some x, none => x.ndim ≠ 2
  | some x, some e => e.ndim ≠ 1 || x.ndim ≠ 2 || x.rows.length ≠ e.rows.length

/-- The checks of the policy: 458-477. -/
def badPolicy {X ρ : Type} (policy : Option (Policy X ρ)) (f : Option (List X → Rows ℝ)) (nodes : Option (Rows X))
    (hasRng : Bool) : Bool :=
  match policy with
  | some p => f.isNone || (p.requiresRng && !hasRng)
  | none => nodes.isNone

/-- The checks of `integrate`, 429-484, and the fixed data: the nodes with their evaluations (if any), and the nodes at
which the integrand was evaluated. -/
def Solver.prepare {X ρ : Type} (S : Solver X ρ) (f : Option (List X → Rows ℝ)) (nodes : Option (Rows X))
    (evals : Option (Rows ℝ)) (hasRng : Bool) : Res (Option (List X) × List ℝ × Log X) :=
  if f.isNone ∧ evals.isNone then .error .valueError
  else match fixedEvals f nodes evals with
  | .error e => .error e
  | .ok (evals, log) =>
    if badShapes nodes evals then .error .valueError
    else if badPolicy S.policy f nodes hasRng then .error .valueError
    else .ok (nodes.map Rows.rows, (evals.map Rows.rows).getD [], log)

/-- The integrand as a function of lists of nodes. -/
def integrand {X : Type} : Option (List X → Rows ℝ) → List X → List ℝ
  | some f, x => (f x).rows
  | none, _ => []

/-- The initial design: 487-503. -/
def Solver.start {X ρ : Type} (S : Solver X ρ) (g : List X → List ℝ) (nodes : Option (List X)) (evals : List ℝ)
    (log : Log X) (hasRng : Bool) (r : ρ) : Res (Option (List X) × List ℝ × Log X × ρ) :=
  match S.design with
  | none => .ok (nodes, evals, log, r)
  | some (needs, design) =>
    if needs ∧ hasRng = false then .error .valueError
    else match nodes with
    | some x => .ok (some (x ++ (design r).1), evals ++ g (design r).1, log ++ (design r).1, (design r).2)
    | none => .ok (some (design r).1, g (design r).1, log ++ (design r).1, (design r).2)

/-- `integrate`: 378-529.  The stopping criterion is replaced by `ImmediateStop` if there is no policy (484). -/
noncomputable def Solver.integrate {X ρ : Type} (S : Solver X ρ) (fuel : ℕ) (f : Option (List X → Rows ℝ))
    (nodes : Option (Rows X)) (evals : Option (Rows ℝ)) (hasRng : Bool) (r : ρ) :
    Option (Res (State X × Info × Log X)) :=
  match S.prepare f nodes evals hasRng with
  | .error e => some (.error e)
  | .ok (nodes, evals, log) =>
    match S.start (integrand f) nodes evals log hasRng r with
    | .error e => some (.error e)
    | .ok (nodes, evals, log, r) =>
      let s0 : Res (State X) := match nodes with
        | none => .ok (State.initial S.problem)
        | some x => S.update.call S.problem (State.initial S.problem) x evals
      match s0 with
      | .error e => some (.error e)
      | .ok s =>
        bqLoop S.problem S.update (if S.policy.isSome then S.crit else .immediate) S.policy (integrand f) fuel s
          ⟨0, s.evals.length, false⟩ r log

end Probnum.Quad
