import Verif.Quad.ExpQuad
import Verif.Quad.ExpQuadLemmas
import Verif.Quad.Model
import Verif.Quad.Nodes
import Verif.Gauss.Density

/-! # Model of the front ends of Bayesian quadrature

`quad/_bayesquad.py`, `BayesianQuadrature.from_problem` (`quad/solvers/_bayesian_quadrature.py`), the policies
(`quad/solvers/policies/*.py`) and the initial designs (`quad/solvers/initial_designs/*.py`). -/

namespace Probnum.Quad

open Probnum Probnum.Gauss

/-! ## Measures and kernels -/

/-- An integration measure with its dimension. -/
abbrev SomeMeasure := Σ D : ℕ, AnyMeasure D

open Classical in
/-- `LebesgueMeasure.__init__`: `integration_measures/_lebesgue_measure.py` 32-59, `_integration_measure.py` 33-34. -/
noncomputable def lebesgueMeasure (domain : List (Arr ℝ)) (inputDim : Option ℤ) (normalized : Bool) : Res SomeMeasure :=
  match asDomain domain inputDim with
  | .error e => .error e
  | .ok ((a, b), d) =>
    match lebesgueConstant (dim := d.toNat) (fun i => a.getD i 0) (fun i => b.getD i 0) normalized with
    | .error e => .error e
    | .ok c => .ok ⟨d.toNat, .lebesgue (fun i => a.getD i 0) (fun i => b.getD i 0) c⟩

/-- `_check_domain_measure_compatibility`: `_bayesquad.py` 458-484.  The result is the measure, and whether the warning
is given. -/
noncomputable def checkCompat (inputDim : ℤ) (domain : Option (List (Arr ℝ))) (measure : Option SomeMeasure) :
    Res (SomeMeasure × Bool) :=
  match domain, measure with
  | none, none => .error .valueError
  | some _, some m => .ok (m, true)
  | none, some m => .ok (m, false)
  | some d, none => match lebesgueMeasure d (some inputDim) false with
    | .error e => .error e
    | .ok m => .ok (m, false)

/-- `kernel(x, y)`.  (For the kernels without an embedding the value does not matter.) -/
noncomputable def kernelValue {D : ℕ} : AnyKernel → (Fin D → ℝ) → (Fin D → ℝ) → ℝ
  | .expQuad _ (.inl l), x, y => expquad l x y
  | .matern dim k, x, y => if h : dim = D then match convertToProduct k with
      | .ok ms => (productValue ms (fun i => x (Fin.cast h i)) fun i => y (Fin.cast h i)).getD 0
      | .error _ => 0
    else 0
  | _, _, _ => 0

/-- `measure(x)`: `_lebesgue_measure.py` 61-63, `_gaussian_measure.py` 86-89. -/
noncomputable def densityOf {D : ℕ} : AnyMeasure D → (Fin D → ℝ) → ℝ
  | .lebesgue _ _ c, _ => c
  | .gaussian g, x => normalPdf g.mean g.cov x
  | .other, _ => 0

/-- `measure.domain`: the bounds of a Lebesgue measure, the whole space otherwise. -/
def boundsOf {D : ℕ} : AnyMeasure D → List (Bound ℝ) × List (Bound ℝ)
  | .lebesgue a b _ => ((List.finRange D).map fun i => .fin (a i), (List.finRange D).map fun i => .fin (b i))
  | _ => (List.replicate D .negInf, List.replicate D .posInf)

/-- `KernelEmbedding(kernel, measure)` and its `kernel_variance()`, the first thing that is asked of it
(`_bayesian_quadrature.py` 506-512), for nodes of dimension `D`.  Nodes of another dimension than the measure cannot be
appended to the empty array of nodes (`_standard_update.py` 46: ValueError).  The kernel mean does not fail if the kernel
variance has not (`problem_mean`; covariances that are not positive semidefinite are left out). -/
noncomputable def problemOf {D : ℕ} (k : AnyKernel) (m : SomeMeasure) : Res (Problem (Fin D → ℝ)) :=
  match kernelEmbedding k m.2 with
  | .error e => .error e
  | .ok emb => match emb.variance with
    | .error e => .error e
    | .ok v => if h : D = m.1 then
        .ok { k := kernelValue k
              mean := fun x => match emb.mean fun i => x (Fin.cast h.symm i) with | .ok z => z | .error _ => 0
              var := v
              density := fun x => densityOf m.2 fun i => x (Fin.cast h.symm i) }
      else .error .valueError

/-- `ExpQuad(input_shape=(input_dim,))`, the default: `_bayesian_quadrature.py` 210-211, `covfuncs/_exponentiated_quadratic.py`
(lengthscale 1). -/
def defaultKernel (inputDim : ℤ) : AnyKernel := .expQuad [inputDim.toNat] (.inl 1)

/-! ## Policies and initial designs -/

/-- What is taken from numpy and scipy, for nodes of dimension `D` and a generator with states in `ρ`:
`measure.sample(n, rng)`, scaled samples of `qmc.LatinHypercube`, and `scipy_minimize` from a starting point: whether it
succeeded, the value (nan: `none`) and the location. -/
structure Oracle (D : ℕ) (ρ : Type) where
  sample : ℕ → ρ → List (Fin D → ℝ) × ρ
  latin : ℕ → ρ → List (Fin D → ℝ) × ρ
  minimize : ((Fin D → ℝ) → Option EReal) → (Fin D → ℝ) → Bool × Option EReal × (Fin D → ℝ)

/-- `RandomPolicy`: `_random_policy.py` 33-49. -/
def randomPolicy {D : ℕ} {ρ : Type} (O : Oracle D ρ) (batch : ℕ) : Policy (Fin D → ℝ) ρ :=
  ⟨batch, true, fun _ r => .ok (O.sample batch r)⟩

/-- `VanDerCorputPolicy`: `_van_der_corput_policy.py` 45-72. -/
noncomputable def vdcPolicy {D : ℕ} {ρ : Type} (m : AnyMeasure D) (batch : ℕ) : Res (Policy (Fin D → ℝ) ρ) :=
  match VdC.mk? batch D (boundsOf m).1 (boundsOf m).2 with
  | .error e => .error e
  | .ok p => .ok ⟨batch, false, fun s r => .ok ((p.call s.nodes.length).map fun v _ => v, r)⟩

open Classical in
/-- `np.argmax(values)`: the first nan if there is one, and the first largest value otherwise. -/
noncomputable def argmax (values : List (Option EReal)) : ℕ :=
  if none ∈ values then values.findIdx fun v => decide (v = none)
  else values.findIdx fun v => decide (∀ w ∈ values, w.getD ⊥ ≤ v.getD ⊥)

/-- `RandomMaxAcquisitionPolicy`: `_max_aquisition_policy.py` 43-76.  (`np.argmax` of an empty array raises
ValueError.) -/
noncomputable def randMaxPolicy {D : ℕ} {ρ : Type} (O : Oracle D ρ) (acq : State (Fin D → ℝ) → (Fin D → ℝ) → Option EReal)
    (nCandidates : ℤ) : Res (Policy (Fin D → ℝ) ρ) :=
  if nCandidates < 1 then .error .valueError
  else .ok ⟨1, true, fun s r =>
    let nodes := O.sample nCandidates.toNat r
    match nodes.1[argmax (nodes.1.map (acq s))]? with
    | some x => .ok ([x], nodes.2)
    | none => .error .valueError⟩

open Classical in
/-- The loop over the starting points: `_max_aquisition_policy.py` 141-149.  The comparison with nan is false. -/
noncomputable def restarts {X : Type} (run : X → Bool × Option EReal × X) : List X → EReal → Option X → Option X
  | [], _, best => best
  | x0 :: rest, fMin, best =>
    match run x0 with
    | (true, some v, x) => if v < fMin then restarts run rest v (some x) else restarts run rest fMin best
    | _ => restarts run rest fMin best

/-- `MaxAcquisitionPolicy`: `_max_aquisition_policy.py` 105-157.  The objective is minus the acquisition function. -/
noncomputable def maxPolicy {D : ℕ} {ρ : Type} (O : Oracle D ρ) (acq : State (Fin D → ℝ) → (Fin D → ℝ) → Option EReal)
    (nRestarts : ℤ) : Res (Policy (Fin D → ℝ) ρ) :=
  if nRestarts < 1 then .error .valueError
  else .ok ⟨1, true, fun s r =>
    let points := O.sample nRestarts.toNat r
    match restarts (O.minimize fun x => (acq s x).map fun v => -v) points.1 ⊤ none with
    | some x => .ok ([x], points.2)
    | none => .error .runtimeError⟩

/-- The `options` of the front ends; `none`: the key is missing. -/
structure Options where
  maxEvals : Option ℕ := none
  varTol : Option ℝ := none
  relTol : Option ℝ := none
  scale : Option ScaleEst := none
  jitter : Option ℝ := none
  batchSize : Option ℕ := none
  nInitial : Option ℕ := none
  nCandidates : Option ℤ := none
  nRestarts : Option ℤ := none

/-- The acquisition functions by name: `_bayesian_quadrature.py` 214-218. -/
noncomputable def acquisition {X : Type} (P : Problem X) : String → State X → X → Option EReal
  | "mi", s, x => mutualInformation P s x
  | "ivr", s, x => (ivr P s x).map fun v => (v : EReal)
  | "us", s, x => (weightedVariance P s x).map fun v => (v : EReal)
  | _, _, _ => none

/-- `policy[:-5]` for the names of the policies with random candidates. -/
def stem : String → String
  | "us_rand" => "us"
  | "mi_rand" => "mi"
  | "ivr_rand" => "ivr"
  | s => s

/-- The choice of the policy: `_bayesian_quadrature.py` 219-245. -/
noncomputable def choosePolicy {D : ℕ} {ρ : Type} (O : Oracle D ρ) (m : AnyMeasure D) (P : Problem (Fin D → ℝ)) (o : Options) :
    Option String → Res (Option (Policy (Fin D → ℝ) ρ))
  | none => .ok none
  | some name =>
    if name = "bmc" then .ok (some (randomPolicy O (o.batchSize.getD 1)))
    else if name = "vdc" then (vdcPolicy m (o.batchSize.getD 1)).map some
    else if name ∈ ["us_rand", "mi_rand", "ivr_rand"] then
      (randMaxPolicy O (acquisition P (stem name)) (o.nCandidates.getD 100)).map some
    else if name ∈ ["us", "mi", "ivr"] then (maxPolicy O (acquisition P name) (o.nRestarts.getD 10)).map some
    else .error .notImplementedError

/-- The choice of the initial design: `_bayesian_quadrature.py` 282-293, `_mc_design.py` 30-38, `_latin_design.py` 36-53
(an unbounded domain raises ValueError).  All designs need a generator. -/
def chooseDesign {D : ℕ} {ρ : Type} (O : Oracle D ρ) (m : AnyMeasure D) (n : ℕ) :
    Option String → Res (Option (Bool × (ρ → List (Fin D → ℝ) × ρ)))
  | none => .ok none
  | some name =>
    if name = "mc" then .ok (some (true, O.sample n))
    else if name = "latin" then match m with
      | .lebesgue _ _ _ => .ok (some (true, O.latin n))
      | _ => .error .valueError
    else .error .notImplementedError

/-- `BayesianQuadrature.from_problem`: `_bayesian_quadrature.py` 168-302, for a measure that has been constructed, the
problem that kernel and measure define, and the choices of policy and initial design. -/
noncomputable def fromProblem {X ρ : Type} (inputDim : ℤ) (policy : Problem X → Res (Option (Policy X ρ))) (hasPolicy : Bool)
    (design : Res (Option (Bool × (ρ → List X × ρ)))) (o : Options) (P : Problem X) : Res (Solver X ρ) :=
  match policy P with
  | .error e => .error e
  | .ok pol => match Update.mk? (o.jitter.getD 1e-8) (o.scale.getD .mle) with
    | .error e => .error e
    | .ok upd => match design with
      | .error e => .error e
      | .ok des => Solver.mk? P pol upd (fromProblemCrit inputDim.toNat o.maxEvals o.varTol o.relTol hasPolicy) des

/-- `integrate` of a solver whose kernel and measure define the problem `prob`.  The embedding is asked for after the
checks of the arguments and the initial design. -/
noncomputable def runSolver {X ρ : Type} (make : Problem X → Res (Solver X ρ)) (prob : Res (Problem X)) (fuel : ℕ)
    (f : Option (List X → Rows ℝ)) (nodes : Option (Rows X)) (evals : Option (Rows ℝ)) (hasRng : Bool) (r : ρ) :
    Option (Res (State X × Info × Log X)) :=
  match prob with
  | .ok P => match make P with
    | .error e => some (.error e)
    | .ok S => S.integrate fuel f nodes evals hasRng r
  | .error e => match make ⟨fun _ _ => 0, fun _ => 0, 0, fun _ => 0⟩ with
    | .error e' => some (.error e')
    | .ok S => match S.prepare f nodes evals hasRng with
      | .error e' => some (.error e')
      | .ok (n, ev, log) => match S.start (integrand f) n ev log hasRng r with
        | .error e' => some (.error e')
        | .ok _ => some (.error e)

/-! ## The functions of `quad/_bayesquad.py` -/

/-- `bayesquad`: 25-205.  The integrand takes nodes of dimension `D`, the dimension of the measure; if the measure turns out
to have another dimension, the outcome depends on the integrand (here ValueError).  `none`: still running after `fuel`
iterations.  The result is the belief (mean and variance), the information on the run, and the nodes at which the integrand
was evaluated. -/
noncomputable def bayesquad {D : ℕ} {ρ : Type} (O : Oracle D ρ) (fuel : ℕ) (f : List (Fin D → ℝ) → Rows ℝ) (inputDim : ℤ)
    (kernel : Option AnyKernel) (measure : Option SomeMeasure) (domain : Option (List (Arr ℝ))) (policy design : Option String)
    (hasRng : Bool) (r : ρ) (o : Options) : Option (Res ((ℝ × ℝ) × Info × Log (Fin D → ℝ))) :=
  match checkCompat inputDim domain measure with
  | .error e => some (.error e)
  | .ok (⟨D', m⟩, _) =>
    if h : D' = D then
      (runSolver (fromProblem inputDim (fun P => choosePolicy O (h ▸ m) P o policy) policy.isSome
          (chooseDesign O (h ▸ m) (o.nInitial.getD (5 * inputDim).toNat) design) o)
        (problemOf (kernel.getD (defaultKernel inputDim)) ⟨D', m⟩) fuel (some f) none none hasRng r).map fun res => res.map fun z => (z.1.belief, z.2.1, z.2.2)
    else some (.error .valueError)

/-- `bayesquad_from_data`: 208-310, for nodes of dimension `D`.  There is no loop without a policy, and nothing is sampled
without policy and initial design. -/
noncomputable def bayesquadFromData {D : ℕ} (nodes : Rows (Fin D → ℝ)) (evals : Rows ℝ) (kernel : Option AnyKernel)
    (measure : Option SomeMeasure) (domain : Option (List (Arr ℝ))) (o : Options) : Res ((ℝ × ℝ) × Info) :=
  if nodes.ndim ≠ 2 then .error .valueError
  else match checkCompat D domain measure with
  | .error e => .error e
  | .ok (m, _) =>
    match runSolver (ρ := Unit) (fromProblem D (fun _ => .ok none) false (.ok none) o)
      (problemOf (kernel.getD (defaultKernel D)) m) 1 none (some nodes) (some evals) false () with
    | some (.ok z) => .ok (z.1.belief, z.2.1)
    | some (.error e) => .error e
    | none => .error .runtimeError

/-- The loop over the levels: 441-455.  The sum of independent normal random variables adds means and variances
(`randvars/_arithmetic.py`, `_add_normal_normal`). -/
noncomputable def levels {D : ℕ} (measure : Option SomeMeasure) (domain : Option (List (Arr ℝ))) (o : Options) :
    List (Rows (Fin D → ℝ) × Rows ℝ × Option AnyKernel) → ℝ × ℝ → List Info → Res ((ℝ × ℝ) × List Info)
  | [], b, infos => .ok (b, infos)
  | (x, y, k) :: rest, b, infos => match bayesquadFromData x y k measure domain o with
    | .error e => .error e
    | .ok (bl, il) => levels measure domain o rest (b.1 + bl.1, b.2 + bl.2) (infos ++ [il])

/-- `multilevel_bayesquad_from_data`: 313-455, for nodes that have the same dimension on all levels. -/
noncomputable def multilevelFromData {D : ℕ} (nodes : List (Rows (Fin D → ℝ))) (evals : List (Rows ℝ))
    (kernels : Option (List AnyKernel)) (measure : Option SomeMeasure) (domain : Option (List (Arr ℝ))) (o : Options) :
    Res ((ℝ × ℝ) × List Info) :=
  let n := evals.length
  let ks : List (Option AnyKernel) := match kernels with | none => List.replicate n none | some ks => ks.map some
  let xs := match nodes with | [x] => List.replicate n x | xs => xs
  if xs.length = n ∧ n = ks.length then levels measure domain o (xs.zip (evals.zip ks)) (0, 0) []
  else .error .valueError

end Probnum.Quad
