# Formal model of probnum in Lean 4: design

Source read: `/repo/src/probnum` (about 30k lines of python, read as text, never run).
All file names below are relative to `src/probnum/` unless they start with `lean/`.

## 1. Trusted base

* Lean 4.33.0's kernel.  Mathlib is used as a library of kernel-checked facts; it is rebuilt into `.olean`
  files that the kernel re-checks.
* Axioms: every theorem depends on at most `propext`, `Classical.choice`, `Quot.sound` (Lean/Mathlib's
  standard three).  No axiom is added, no `sorry`, no `native_decide`, no `bv_decide`.
* The reading of the python code.  Each definition of the model cites the file and lines it models and says
  what it simplifies.  The tie between model and code is that citation and nothing else.
* Numbers are exact.  Python floats are modelled by an exact field (`ℝ`, `ℚ`, or an arbitrary (ordered)
  field); rounding, overflow, NaN and infinity are outside the model except where a branch of the code is
  *about* them, and then they are modelled explicitly (`Option`/`Except`/an extended type) and it is said so.
* numpy/scipy primitives are modelled by their documented mathematical meaning (matrix product, `searchsorted`,
  `argsort`, QR as "some R with RᵀR = BᵀB, upper triangular", Cholesky as "the lower triangular factor").
  Where the primitive is only specified by a contract, the contract is a hypothesis or a parameter and listed.
* Random number generators are modelled as an explicit input stream.
* Python objects with mutable attributes are modelled as values; a method that mutates `self` returns the new
  value.  Aliasing is modelled only where a property depends on it (linear operator flags).

Not modelled at all: plotting, the JAX back end (except automatic differentiation, as Fréchet
derivatives), the compiled code of pykeops (its lazy tensors are exact functions of two indices), the SuiteSparse download of `problems/zoo`,
multivariate scipy distribution objects, `repr`,
documentation, logging and typing helpers, floating point error.

## 2. Conventions of the model

* `Except Err α` with python's exception classes as constructors of `Err`; a raising branch is an `.error`.
* Python loops become structural recursion or take fuel; where fuel is used, theorems say what happens for all
  sufficient fuel, or show that no fuel suffices (non-termination is a finding).
* Each area has `Model.lean` (the code), optionally `Spec.lean` (independent, small specification),
  `Lemmas.lean` (helpers) and `Props.lean` (the property theorems, with witnesses next to each).
* A property that the code violates gets a theorem `..._violated`/`..._counterexample` exhibiting a concrete
  witness of the violation in the model, plus a `..._partial` theorem with the largest class proved.

## 3. Properties: what is modelled and how it is proved

| id | model (files under lean/Verif) | method |
|----|-------------------------------|--------|
| C01 | `Config`: registry as association list, `enter`/`exit` of the context manager, nested programs | state machine, induction over nested programs |
| C02 | `Stopping`: expression tree, leaves return `Except` | structural induction, refinement to boolean semantics with short circuit |
| C03, C04, C06 | `Ode`: `perform_full_step`, the generator loop as a step machine over ℝ, arbitrary attempt function, time stopper | invariants over the loop, induction over attempts, termination measure |
| C05 | `Ode/StepRule`: step rules over ℝ with `Real.rpow` | case analysis, monotonicity |
| C07, C08 | `Diffusion` constant and piecewise | induction over histories; `searchsorted` specification |
| C09, C10 | `Posterior`: container state machine, evaluation | invariant by induction over operations; list lemmas |
| C11, C15 | `Kalman` filter/smoother loops over abstract transitions | induction on the list |
| C12–C14 | `LinGauss`: classic, Joseph and square-root forms over real matrices, QR as contract | matrix algebra, Schur complements; probability in `Gauss` |
| C16, C17, C63–C65 | `Kalman`: sampling, dense output, filter and smoother | laws as Mathlib measures (`Gauss/Spec.lean`), induction over observations |
| C18–C20 | `IWP`: discretisation, preconditioning, permutations | binomial identities, integrals of polynomials, `Fin` arithmetic |
| C21–C29, C54 | `Linops`: operator syntax tree, dispatch tables, dense semantics, flags | structural induction over trees, Mathlib matrices as specification |
| C55 | `Linops/Cast.lean`: the same classes with dtypes | structural induction |
| C30–C32, C67 | `RandVars`: shaped arrays, `Normal`, `Constant`, `Categorical` | pushforward of measures, index algebra |
| C33–C37, C61, C62 | `Linalg`: beliefs, policies, information operators, solver loops | inner-product algebra, induction over iterations, loop invariants |
| C38 | `GramSchmidt` | bilinear algebra |
| C39–C43, C57, C60 | `Quad`: van der Corput, BQ beliefs, loop, embeddings, acquisition functions | arithmetic on binary digits, block matrices, integrals |
| C73 | `Quad/ExpQuad.lean`: embeddings of the exponentiated quadratic kernel, choice of the embedding, Gaussian measures | products of one-dimensional integrals; spectral theorem and completing the square |
| C44–C47, C69 | `Cov`: covariance functions as expression trees over shaped arrays | structural induction, Schur product theorem, Fourier/Gamma mixtures, Bessel integral |
| C46 | `GP` | moments of a process with the given mean and kernel |
| C48 | `Functions` | structural induction over function expressions |
| C49 | `Merge` | permutation and sorting lemmas |
| C50 | `Particle` | finite sums, induction over data |
| C51 | `Approx`: EKF/UKF components | matrix algebra, cubature identities |
| C52, C68 | `OdeFilter`: information operators, regression problems, stacking initialisation | derivatives (Mathlib), matrix algebra |
| C70–C72 | `OdeFilter/Step.lean`: one step of the filter, calibration, sequences of steps, post-processing | refinement to Bayesian updates (`OdeFilter/StepSpec.lean`), induction over attempts, likelihood maximisation |
| C53, C66 | `Perturbed` | state machine over accept/reject histories |
| C56 | `Linalg/Problinsolve.lean` | decision logic |
| C58 | `Iterated` | state machine |
| C59 | `SDE` | matrix exponential, derivatives |
| C74 | `Zoo/Quad.lean`: quadrature test problems | integrals over cubes by Fubini, finite differences and induction on the dimension |
| C75 | `Zoo/QuadGauss.lean`: test problems against Gaussian measures | push-forward of the normal distribution by its distribution function; Gaussian moments |
| C76 | `Zoo/Ivp.lean`: example initial value problems | Fréchet derivatives, conserved quantities via the mean value theorem |
| C77 | `FiltSmooth`: front ends of filtering and smoothing, shape checks | reduction to C64, C65 and C59 by re-indexing the state-space model |
| C78 | `Linops` (`CholLemmas`, `PropsChol`, `CholState`): `cholesky` by class of operator, and the object with its cache and `is_positive_definite` mark | soundness and completeness by induction on the recursion depth; histories by an invariant of the object |
| C79 | `Gauss` (`Density`, `Process`), `Quad` (`Bayes`, `PropsBayes`): Gaussian process priors, their path integrals and the densities of normal distributions | joint Gaussianity through the closed span in L2; covariances by Fubini; conditioning from blocks |
| C80 | `Quad` (`Front`, `PropsFront`, `PropsMulti`, `PropsPolicy`, `PropsPrior`): the front ends, policies and designs | reduction to C79; independence of levels through joint Gaussianity; priors as series with independent normal coefficients over the coordinates of a reproducing kernel Hilbert space |
| C81 | `OdeFilter` (`Fit`, `PropsFit`), `Kalman/Simulate`: the routine with square-root implementations | simulation of the run with classic implementations (C13, C18), exactness of the smoother (C12); variance bound from orthogonality of the residual |
| C82 | `OdeFilter` (`Solve`, `SolveLemmas`, `PropsSolve`), `Ode/Terminate`: the front end, the loop of C03-C06 instantiated with the steps of C70, the initialisation of C81 and the calibration of C72 | the loop refines sequences of attempts (`run_follows`); termination from lower bounds on increments; an invariant on states for the possible exceptions |
| C83 | `Perturbed` (`Solve`, `SolveLemmas`, `PropsSolve`), `Ode/Hidden`: the front end and the loop of C03-C06 for a solver whose attributes change with every attempt | runs with attributes are runs of the machine of C03 (`runAttr_eq_run`); they follow the events of C53 (`loop_follows`) |
| C84 | `RandVars` (`Dist`, `DistLemmas`, `PropsDist`): the wrappers with their shape and type checks around the formulas of scipy | change of variables for densities, continuity and monotonicity of the distribution function, the mean Mahalanobis distance for the entropy |
| C85 | `RandVars` (`Generic`, `GenericSpec`, `GenericLemmas`, `PropsGeneric`): random variables as records of optional functions, the generator as a state | every operation selects or maps entries of each draw; image measures of products; a stream of i.i.d. numbers as ideal generator meets the hypotheses |
| C86 | `OdeFilter` (`Autodiff`, `AutodiffLemmas`, `PropsAutodiff`): the autonomous vector field, the derivative generator, the Taylor recursion, the stacked mean | the autonomous system is solved by (y(t), t); induction over the order with the chain rule; derivatives of a composition depend only on the derivatives of the curve |
| C87 | `Zoo` (`Linalg`, `PropsLinalg`): the two matrix generators with the random draws as arguments; linear systems with the generator as a state | conjugation by a rotation; characteristic polynomial; determinant of triangular matrices; image measures. The Haar measure of the plane rotations meets the hypothesis |
| C88 | `Zoo` (`FiltSmooth`, `FiltSmoothLemmas`, `PropsFiltSmooth`): the grid, the factory functions, the data generation with standard normal base sequences | specification `IsGrid`, `Evolves`, `Observes`; explicit chain for the sampled states; independence of disjoint blocks of the base; Lyapunov equation for the Ornstein-Uhlenbeck covariance; Fréchet derivatives |
| C89 | `Cov` (`Linop`, `PropsLinop`): the operator with its dense and lazy forms, `linop`, products, transpose, diagonal, trace | specification `Represents`: behaves as a matrix; the constructor invariant is kept by transposition; KeOps distances equal the scaled distances; dense form from C45 |
| C90 | `Zoo` (`Emukit`, `EmukitLemmas`, `SombreroLemmas`, `HennigNumbers`, `HennigLemmas`, `Hennig2Numbers`, `Hennig2Lemmas`, `Hennig2Value`, `PropsEmukit`): the factory functions, their checks and integrands | specification `PosesToy`; eigenvalues of 2 × 2 matrices through trace and determinant; continuity of sinc; Taylor enclosures of truncated Gaussian moments; the stored solutions of the other three problems by Taylor polynomials in rational arithmetic evaluated by the kernel, with a recursion for complex Gaussian moments (`hennig2d`) |
| C91 | `Linalg` (`SystemBelief`, `PropsSystemBelief`): the checks of the constructor in order, and the properties | specification `Fits`: acceptance iff; induced solutions by the theorems about matrix products of random variables (`RandVars/PropsMatmul`) |
| C92 | `RandVars` (`Scipy`, `PropsScipy`): the wrapped functions, their checks, and the properties that call them | specification `ScipyRight` of what SciPy computes for a measure; the wrappers report the quantities of that measure; quantiles of integer valued measures are integers |
| C93 | `RandVars` (`RvList`, `PropsRvList`): elements and cached values as the state of a list, operations of `list` on it | invariant: cached values agree with the elements as long as nothing changes; a cached value is never replaced; refinement of slices to array indexing |
| C94 | `Utils` (`Shape`, `PropsShape`): the conversion branch by branch, with iterators that can be read once | specification `Means` of the documented forms; acceptance iff |
| C95 | `Linops` (`Vectorize`, `PropsVectorize`): the loops of `np.vectorize` and `np.apply_along_axis` over all other axes | specification `IsProduct`; the loop visits every index once in C order, unravelling and ravelling are inverse |
| C96 | `Zoo` (`IvpJax`, `PropsIvpJax`): the right-hand sides on states of any length, derivatives as Fréchet derivatives | specification `IsJacobianAt`, `IsHessianAt`; the fields are twice continuously differentiable away from the two bodies, second derivatives are symmetric |
| C97 | `Ode` (`Events`, `PropsEvents`): the solver loop with the final time in the state and all kinds of callback arguments | specification `Passes` (an inductive relation); invariants of the loop; concrete runs for the violations |
| C98 | `Linalg` (`Calibration`, `PropsCalibration`): scales, calibrated factors, trace and loop of `solve` with `calibration` | the update terms vanish on vectors conjugate to the observations, so they cancel with the first terms; specifications `IsCalibrated`, `IsScale` |
| C99 | `Kalman` (`DenseSampling`, `DenseSamplingProps`): `sample` and `transform_base_measure_realizations` of smoothing posteriors | state-space model on the merged grid with uninformative observations at query times; the filter on the data alone, evaluated on the merged grid, equals the filter on the merged grid (Chapman-Kolmogorov); then C17 |
| C100 | `Particle` (`Linearized`, `LinearizedProps`): `LinearizationImportanceDistribution` with both strategies | change of measure between the densities of the importance distribution and of the dynamics; product of normal densities through the Woodbury and determinant identities |
| C101 | `SDE` (`TimeVarying`, `TimeVaryingLemmas`, `FundamentalExists`, `TimeVaryingProps`): forward and backward transitions with the ODE solver as an argument | specification by fundamental matrix and integrals; existence by the Peano-Baker series; explicit solutions of the moment equations and uniqueness by variation of constants; backward equation through the fundamental matrix of the closed-loop drift |
| C102 | `OdeFilter.Dense`: `ODEFilterSolution` on top of the posteriors of `Posterior.Model` with the transition of the integrated Wiener process | specification by laws (`PredictedAt`, `BridgedAt`); evaluation commutes with the projection; the location search of C10; square-root transitions agree with the classical ones (C19) |
| C103 | `Linops.Cond`: `cond` and `eigvals` on the operator trees of `Linops.Model`, `np.linalg.cond` through norms and extreme singular values, the cache as state | specification by induced norms and characteristic polynomials; norms and condition numbers of Kronecker products are products of those of the factors; the characteristic polynomial of a block-diagonal matrix is the product; induction over the tree |
| C104 | `Linops.Call`: `__call__`, `__matmul__` and `__rmatmul__` on the arrays of `RandVars.Arr`, `np.moveaxis` as a transposition, the broadcasting of anisotropic scalings | entrywise specification (`Along`, `FromRight`); moving an axis permutes multi-indices; products with stacks from C23 |
| C105 | `Markov`: constructors, `sample` and `_sample_at_input` on arrays, generator as a stream of numbers | blocks of the stream are independent (product measures), transport of C16 along the block maps |
| C106 | `Linalg.Bayes`: the update with the belief about the inverse, runs of the loop with arbitrary benign policies | conditioning on one more linear observation (`Gauss.IsConditional.update`), orthogonality of C37 and Pythagoras, loop invariant |
| C107 | `Iterated.Component`: the loop of C58 with the updates of C51 | completion of squares for the linearised objective, Fréchet derivatives of the objective, `Outcome` of C58; alternating iteration as witness |
| C108 | `Iterated.Smoother`: filter and smoother of C64/C65 with the updates of C51, evaluation of posteriors of C10, loop of C58 | a pass is reduced to a pass of the linearised problem; completion of squares over all locations by induction; Fréchet derivatives of the joint objective |
| C109 | `SDE` (`Process`, `MaternLemmas`, `StationaryLemmas`, `PropsMatern`): drift, matrix fraction decomposition and transitions of C59 and C19, covariance functions of C47, Gauss-Markov chains of C16 | the drift is a nilpotent matrix minus a multiple of the identity; closed form of the exponential by uniqueness for linear ODEs; the noise covariance converges to an improper integral, evaluated by Gamma integrals; joint laws by induction over the grid |
| C110 | `Kalman` (`BatchLemmas`, `Batch`) and `SDE` (`RegressionLemmas`, `PropsRegression`): filter, smoother and state-space models of C65, Matérn processes of C109 | smoothed means are affine in the data, by induction over the recursions; independence of the residual and the observations (C65) determines weights and covariance; covariances of states and observations by induction; the transition noise is positive definite because a combination of impulse responses that vanishes on an interval has vanishing derivatives |
| C111 | `SDE` (`CovarianceSpec`, `CovarianceLemmas`, `PropsCovariance`): discretisations of C18/C59, chains of C16, filter and smoother of C65 | marginals and cross covariances by induction over the chain, from the semigroup laws of transition matrix and noise covariance; the transported noise covariance is an integral of impulse responses; then the regression theorem of C110 |
| C112 | `OdeFilter` (`OrderLemmas`, `PropsOrder`): steps of C70, initialisation of C86 | Taylor remainders of all derivatives by a chain of mean value inequalities; the noise covariance at step h is a rescaled positive definite matrix, so the gain has the right powers of h whatever the Jacobian; an explicit gain for EK0 |
| C113 | `OdeFilter` (`GlobalSpec`, `GlobalLemmas`, `PropsGlobal`): runs of C72 | an accepted EK0 step keeps the Kronecker structure; induction over the run; for one derivative the gain is (h/2, 1) whatever the variance of the value and the diffusion |
| C114 | `OdeFilter` (`GlobalLemmas`, `PropsGlobal`, `PropsEvery`): runs of C72, initialisation of C86 | the trapezoidal rule of C113; errors of value and derivative are propagated together through a run, bounded by exp(2L(t - t0)) (t - t0) K H^2; existence and uniqueness of the solution by Picard-Lindelöf (`Perturbed/Existence`) |
| C115 | `Perturbed` (`Converge`, `PropsConverge`, `OrderLemmas`, `Existence`, `PropsOrder`, `PropsSharp`, `PropsLinear`): runs of C21 and C83, explicit Runge-Kutta formulas given by their coefficients | stages are Lipschitz in the state and in the step; the perturbed step differs from the exact one by O(step^(p + 1/2)); errors are summed along the run by a discrete Gronwall argument; lognormal draws: bound by the largest draw used, union bound with the tail of the normal distribution; order of RK23 on smooth fields: each stage is compared with the derivative of the solution at its node, the terms with the Jacobian cancel, and the weights form a quadrature rule of order 3; order of RK45 on linear systems: its step is a polynomial of the matrix that agrees with the exponential up to degree 5; the order is sharp: on y' = y with all draws equal to 1 each step overshoots, and the excess is summed with the power mean inequality |

Nothing in the list is "not applicable": each has an executable core.  What stays outside in each case is
floating-point behaviour and the scipy/numpy internals listed in section 1.

## 4. Specifications

Theorems compare the model with definitions that do not mention the code.  These are the ones to read:

* `Gauss/Spec.lean`: `IsNormal P X m C` (every linear functional of `X` is Gaussian with the right mean and variance, as a
  Mathlib measure), `CrossCov`, `IsConditional`.  Used by `LinGauss`, `Kalman`, `IWP`, `SDE`, `Approx`, `RandVars`.
* `Linops/Mat.lean`: matrices as functions `ℕ → ℕ → ℝ`, compared on `rows × cols` (`Eqv`) and translated to Mathlib's
  `Matrix (Fin r) (Fin c) ℝ` (`toM`); inverse, determinant, rank and trace are Mathlib's.
* `RandVars/Arr.lean`: numpy arrays with a shape and an index function; broadcasting, reshape, transposition, slices, each
  with a characterisation of its entries.  `RandVars/Spec.lean`: `Law P X N`, "the object `N` describes the law of the
  array-valued random variable `X`".
* `Cov/Spec.lean`: value of a kernel expression at two points, `IsPSD`.  `GP/Spec.lean`: `IsMean`, `IsCov`, `HasMoments`.
* `Quad`: integrals are Mathlib's (`∫ x in a..b`, product measures).
* `Kalman/StateSpace.lean`: the state-space model as random variables on a probability space; filter and smoother are compared
  with conditional distributions there.
* `Linalg`: `A x = b` and inner products over `Fin n → ℝ`.

Wherever a theorem has hypotheses, an `example` next to it gives a concrete case meeting them.

## 5. Where the code disagrees with the property

Each line is a theorem with a concrete witness (or a statement for all inputs); the `_partial` theorems of the same property
state the largest class for which the property was proved.  Names are relative to `Probnum`.

| id | disagreement | theorem |
|----|--------------|---------|
| C01 | naming an unregistered option leaves the options named before it changed | `Config.with_unregistered_changes_options` |
| C03 | the first step is not clipped to the domain | `Ode.first_step_overshoots` |
| C03 | a constant step of size zero never terminates | `Ode.zero_step_never_terminates` |
| C04 | two stops not right of `t0` repeat a time, unsorted stops step backwards, an empty list raises | `Ode.two_early_stops_repeat_time`, `Ode.unsorted_stops_step_backwards` |
| C07 | the first local estimate is discarded | `Diffusion.constant_diffusion_is_not_mean` |
| C08 | another estimate is used at `t0` and at interior step boundaries | `Diffusion.piecewise_violates_at_start` |
| C09 | the constructor checks nothing | `Posterior.constructor_does_not_check` |
| C11 | a first location before the initial time is not predicted; the transition is called with the end of the interval as its start | `Kalman.first_location_before_start_not_predicted`, `Kalman.prediction_over_shifted_interval` |
| C12, C14 | square-root form raises ValueError for more outputs than inputs | `LinGauss.forward_sqrt_tall_raises`, `LinGauss.cholesky_update_tall_raises` |
| C13 | implementations disagree when a gain other than the optimal one is supplied | `LinGauss.backward_zero_gain_disagrees` |
| C16 | the first base realization is used for the first two states | `Kalman.forward_samples_wrong` |
| C18 | a zero step gives nan | `IWP.zero_step_undefined` |
| C19 | a supplied gain is not transformed to the preconditioned coordinates | `IWP.backward_supplied_gain_disagrees` |
| C21, C22 | equality of `LambdaLinearOperator` with others; numpy broadcasting instead of rejection; LinAlgError instead of ValueError | listed under C21/C22 in `MANIFEST.json` |
| C23 | `todense()` of a square embedding declared symmetric does not terminate | `Linops.embedding_todense_diverges` |
| C25 | `0 * A` and block-diagonals of non-square blocks carry wrong flags | listed under C25 in `MANIFEST.json` |
| C26 | a failing `cholesky` on an operator declared positive definite raises ValueError | `Linops.cholesky_wrong_error` |
| C27 | `cholesky()` of a transposed operator declared symmetric does not terminate | `Linops.transposed_cholesky_diverges` |
| C28 | `det` of a square product of non-square factors raises; determinant of the 0×0 zero operator is 0 | `Linops.det_nonsquare_factors`, `Linops.zero_det_empty` |
| C30 | products with zero have another shape; vector @ random column raises; scalar matmul raises IndexError | `RandVars.mul_zero_shape`, `RandVars.vector_column_raises`, `RandVars.scalar_matmul_index_error` |
| C31 | one index on a matrix-variate variable; `(1,)` to `()`; mixed-sign axes | `RandVars.getitem_row_wrong`, `RandVars.getitem_row_raises`, `RandVars.reshape_scalar_raises`, `RandVars.transpose_mixed_wrong` |
| C32 | repeated support points, vector supports, dtypes, short probabilities | `RandVars.pmf_duplicates`, `RandVars.pmf_vector`, `RandVars.pmf_dtype`, `RandVars.pmf_short_probabilities` |
| C33, C37 | an action along which the prior covariance vanishes: the observation is ignored | listed under C33/C37 in `MANIFEST.json` |
| C34 | an iteration can divide by zero before convergence; prior covariances returned after one iteration; a second solve forgets | `Linalg.MatrixBased.step_fails_iff` and C34 in `MANIFEST.json` |
| C35 | negative `bᵀx0`: prior built for `-x0`; zero right-hand side: nan | C35 in `MANIFEST.json` |
| C42 | function values given without nodes are ignored | C42 in `MANIFEST.json` |
| C44 | integer inputs raise or are truncated | C44 in `MANIFEST.json` |
| C45 | the Bessel branch of Matérn clamps small distances, matrices are indefinite | C45 in `MANIFEST.json` |
| C46 | mean ordered point by point, covariance output by output; one point with scalar output raises | C46 in `MANIFEST.json` |
| C48 | `Zero` operands skip the shape checks | C48 in `MANIFEST.json` |
| C49 | repeated times lose data; lists raise; short solutions are repeated | `Merge.merge_short_solution` and C49 in `MANIFEST.json` |
| C50 | the bootstrap filter forgets earlier observations; resampling has no later effect | `Particle.bootstrap_wrong`, `Particle.bootstrap_ignores_past`, `Particle.resampling_forgotten` |
| C51 | UKF needs a Jacobian, ignores the state at a `Constant`; nonlinear transitions square the diffusion | `Approx.ukf_needs_jacobian`, `Approx.ukf_constant_ignores_state`, `Approx.nonlinear_diffusion_squared` |
| C52 | measurement models shifted by `-y0` for positive variance | `OdeFilter.regression_means_wrong` |
| C53, C66 | rejected attempts leave their scale and their slope behind | C53/C66 in `MANIFEST.json` |
| C54 | repeated indices, take indices, fill values | `Linops.selection_transpose_repeated`, `Linops.embedding_transpose_take`, `Linops.embedding_fill_nonlinear`, `Linops.selection_embedding_take`, `Linops.selection_embedding_repeated` |
| C55 | casts to int disagree with products; transposes of casts do not terminate; scaling sums truncate | `Linops.Cast.cast_to_int_disagrees`, `Linops.Cast.cast_transpose_diverges`, `Linops.Cast.scaling_sum_truncates` |
| C58 | the iteration counter survives a RuntimeError | `Iterated.iteration_stale_counter` |
| C59 | force reversed, square-root vector field sign, dispersion height unchecked | `SDE.discretise_force_wrong`, `SDE.mde_sqrt_wrong`, `SDE.dispersion_rows_unchecked` |
| C61 | an iteration limit alone leads to a division by zero after convergence | `Linalg.CG.breakdown_after_convergence` |
| C62 | `rownorm` weights with column norms | `Linalg.UnitVector.rownorm_uses_columns` |
| C63 | the smoothing posterior between data points is not the conditional | `Kalman.smoothing_dense_output_not_exact` |
| C67 | `in_support` always raises | `RandVars.in_support_always_raises` |
| C68 | second derivative wrong for time-dependent ODEs; wrong state size | `OdeFilter.stack_jac_nonautonomous`, `OdeFilter.stack_size` |
| C70 | every accepted step calls the vector field with `t=None`; a zero residual from an exact state gives a singular gain with the piecewise diffusion | `OdeFilter.time_dependent_never_accepted`, `OdeFilter.time_dependent_step_raises`, `OdeFilter.zero_residual_step_raises` |
| C72 | smoothing starts from the uncalibrated states (constant diffusion); smoothing uses the diffusion of the next step (piecewise) | `OdeFilter.smoothing_disagrees_at_the_end`, `OdeFilter.smoothing_diffusions_shifted` |
| C74 | zero entries of `a` accepted, the solution is then nan | `Zoo.genz_zero_parameter` |
| C75 | a scalar mean with an array of deviations (or the converse) is rejected; the solution of the sum of polynomials uses `var^b` for `var^(b/2)`; variances that are not floats are rejected; order zero with recent scipy | `Zoo.uniform_to_gaussian_mixed`, `Zoo.sum_polynomials_wrong`, `Zoo.sum_polynomials_rejects`, `Zoo.sum_polynomials_zero_order` |
| C76 | the closed-form logistic solution ignores `t0`; van der Pol with an integer parameter raises at every evaluation; Lorenz96 starts at an equilibrium by default | `Zoo.logistic_solution_initial`, `Zoo.vanderpol_integer`, `Zoo.lorenz96_default` |
| C77 | `smooth_rts` raises LinAlgError for noise-free dynamics from a known state; shape checks do not relate the dimensions of `F`, `H`, `m0` | `FiltSmooth.smooth_rts_deterministic_raises`, `FiltSmooth.setup_accepts_iff` |
| C78 | `cholesky` refuses `Kronecker` of negative definite factors; needs every component marked symmetric; the second triangle may be returned without its flag | `Linops.cholesky_negative_factors`, `Linops.cholesky_unmarked_block`, `Linops.cholesky_unmarked_kron`, `Linops.second_factor_unmarked` |
| C80 | Matérn kernels with nodes outside the domain are accepted by `bayesquad_from_data`, but the formula of the kernel mean holds inside only; the belief can be negative for positive data | `from_data_outside` |
| C81 | the evaluation points of `NonProbabilisticFit` have the spacing `dt (q+1)/q` instead of `dt` and do not depend on `tmax`: the vector field may be evaluated beyond the time span | `fitGrid_spec` |
| C82 | `probsolve_ivp` with default arguments raises ValueError if the initial value or the initial slope is zero (the proposed first step is 0, inf or nan), TypeError for a number as initial value, TypeError for an empty time span with constant diffusion, and TypeError for vector fields that use the time; the documented default tolerances are 1e-4, the actual ones 1e-2 | `probsolve_no_first_step_raises`, `probsolve_argument_errors`, `probsolve_empty_span`, `probsolve_time_dependent_raises` |
| C83 | `perturbsolve_ivp(adaptive=False)` without a step raises TypeError inside the loop; the uniform perturbation raises ValueError when adaptive steps grow to one; a vanishing tolerance (the state enters it with its sign) with vanishing error estimate raises ValueError (lognormal) or never ends (uniform) | `perturbsolve_missing_step`, `perturbsolve_uniform_grows`, `perturbsolve_nan` |
| C84 | single precision normals have no moments, density or samples (ValueError); a scalar constant reports nan for its distribution function; axes of length one of a batch or sample shape are lost; several samples of a vector with one entry raise ValueError; a point of shape (1,) is accepted by vector densities; samples for a symmetric Kronecker covariance have another covariance than `rv.cov`, come with an extra axis, and refuse shapes with several axes | `low_precision`, `scalar_degenerate`, `dense_shape`, `dense_sample`, `single_entry_sample`, `dense_broadcast`, `symKron_cov_differs`, `symKron_shapes` |
| C85 | `rv[i]` sampled with a size indexes the samples instead of the entries; a transposed random variable keeps the covariance of the original, raises ValueError when sampled with a size (explicit axes) or reverses the axes of the samples too; operators on a vector and a number raise ValueError for most sizes and mix different samples for others; a number with a covariance but no variance function has no variance (ValueError), a missing median raises TypeError; reshaping between () and (1,) loses the covariance; mode and entropy of a slice are not those of the slice | `getitem_sample_wrong`, `transpose_cov_wrong`, `transpose_axes_raises`, `transpose_sample_shape`, `broadcast_raises`, `broadcast_mixes`, `var_scalar_raises`, `median_missing`, `reshape_scalar_cov`, `getitem_mode_wrong`, `getitem_entropy_wrong` |
| C86 | without JAX the constructors of the automatic-differentiation routines raise NameError, not ImportError | `autodiff_without_jax` |
| C87 | `random_sparse_spd_matrix` with density 1/3 may return a matrix whose Cholesky factor has no or all entries below the diagonal; a scalar `solution_rv` raises IndexError | `sparse_density_wrong`, `system_scalar` |
| C88 | `car_tracking`: the matrix picks the first two coordinates of a coordinate-wise state, so the second position is never observed; `process_diffusion` has no effect (also in `ornstein_uhlenbeck`, whose drift has the opposite sign of the documented one); the second state reuses the draw of the first; `logistic_ode` by default starts at 0.1 with certainty whatever `y0`, in four dimensions whatever `order` | `car_second_position_unobserved`, `car_transition_wrong`, `car_diffusion_ignored`, `ou_diffusion_ignored`, `ou_drift_sign`, `car_states_wrong`, `logistic_init_wrong` |
| C89 | the operator takes its data type from the inputs, so at integer points `linop(x).diagonal()` and `.trace()` truncate: 1 instead of 3/2 for the linear covariance function with constant 1/2 at the point 1 | `linop_diagonal_truncated` |
| C90 | `hennig2d` tests the eigenvalues of `c` without requiring symmetry: `[[1, 4], [0, 1]]` is accepted although its quadratic form is negative at (1, -1) | `hennig2d_indefinite` |
| C91 | `LinearSystemBelief` requires `Ainv.shape == A.shape`, so beliefs about the pseudo-inverse of a non-square matrix are rejected; a belief without right-hand side and solution is accepted; `Ainv` and `b` are not compared; 1-d `A` raises IndexError | `pseudo_inverse_rejected`, `missing_rhs`, `shapes_not_compared`, `index_errors` |
| C92 | the `entropy` of a wrapped SciPy distribution raises TypeError for every distribution; `cov` of a univariate one raises NotImplementedError; `in_support` is true for every number between two values of a discrete one | `entropy_raises`, `cov_missing`, `in_support_gap` |
| C93 | `_RandomVariableList` caches `mean` and the other properties but inherits `append` and item assignment, so after a change the old values are returned; only the first element is checked; `l[:0].mean` has shape `(0,)`; `shape` of the empty list raises IndexError | `reads_frozen`, `stale_append`, `only_first_checked`, `empty_slice`, `shape_mean_partial` |
| C94 | `as_shape` of an iterator of integers is always `()`, because checking the entries uses it up; negative sizes are accepted | `iterator_lost`, `negative_accepted` |
| C95 | `broadcast_matvec(method=True)` calls the method without its first argument, so every call raises; products with empty stacks of matrices raise ValueError | `matvec_method`, `empty_stacks` |
| C96 | `vanderpol_jax()` documents the default parameter 0.1 and uses 10; states of the wrong length are accepted by both jax problems | `vanderpol_jax_default`, `vanderpol_jax_lengths`, `threebody_jax_lengths` |
| C97 | callbacks passed as an iterator are called after the first accepted step only; a callback that changes the final time makes the solver overshoot the new end, repeat a time, or raise RuntimeError, because the next step is limited by the old final time | `iterator_used_up`, `shortened_overshoots`, `prolonged_repeats_time`, `prolonged_adaptive_raises` |
| C98 | calibrated solves return nonzero uncertainty in explored directions for a prior on the matrix, and the beliefs of the prior after one iteration; the initial trace is that of no returned belief; unknown calibration methods are accepted for two iterations; `weightedmean` does not compute a mean | `matrix_prior_wrong`, `matrix_prior_wrong_example`, `calibration_first`, `initial_trace_wrong`, `unknown_method_late`, `weightedmean_wrong` |
| C99 | samples of smoothing posteriors after the last location reuse a realization of the base measure and have a wrong variance; samples at unsorted or repeated times are returned sorted and without repetitions | `extrapolated_samples_wrong`, `samples_ignore_order` |
| C100 | weights of particles are multiplied with the old weight plus 1e-14, so that particles with weight zero get positive weight | `zero_weight_revived` |
| C101 | the square-root implementation of linear SDEs takes absolute values of the derivative of the factor, so that decreasing variances come out wrong; its `forward_realization` always raises LinAlgError | `forward_sqrt_wrong`, `sqrt_realization_raises` |
| C102 | smoothing solutions (and samples) of ODE filters use the diffusion of the step after the one that contains the time, never the first one; with a constant diffusion the smoothing posterior is not calibrated and disagrees with the filtering solution after the end | `smoothing_ignores_first_diffusion`, `sample_diffusions_shifted`, `probsolve_constant_smoothing_partial` |
| C103 | `Scaling.cond(-2)` of a singular operator is inf where the dense matrix has 0, `Kronecker.cond(-2)` may be nan, `Identity.cond("nuc")` exceeds the recursion limit | `singular_scaling_negative`, `kronecker_negative`, `identity_nuclear` |
| C105 | sizes with several axes raise ValueError or lose all axes but the first; the first sample is drawn from the initial random variable wherever the locations begin; `mean`, `cov`, `var`, `std` and `__call__` of Markov processes raise NotImplementedError | `Markov.nested_sizes`, `Markov.late_start_wrong`, `Markov.evaluation_unavailable` |
| C106 | the belief about the inverse ends as prior inverse plus prior covariance of the solution, so an exact inverse given by the user is made wrong | `Linalg.Bayes.exact_inverse_lost`, `Linalg.Bayes.inverse_without_prior_partial` |
| C107 | the iterated update has no step-size control: started at the prior mean it can alternate between two points for ever and raise `RuntimeError`, although the posterior has a mode | `Iterated.iterated_cycles` |
| C108 | `iterated_filtsmooth` raises `NotImplementedError` whenever the first location is after the initial time of the prior, because the previous posterior is evaluated at the initial time, left of its grid | `Iterated.iterated_smoother_late_start` |
| C109 | without `initrv` a `MaternProcess` starts with identity covariance, which is stationary only for order 0 and lengthscale 2 (2·10⁶ if `diffuse`); it does not have the Matérn covariance function | `SDE.matern_default_stationary_iff` |

Two things this design got wrong before the proofs: C53 was expected to concern noise scales only (the slope of a rejected
attempt turned out to matter as well, now C66), and C46 was expected to hold for vector outputs.

## 6. Parts of the code that are modelled

* `_config.py`; `utils/linalg/` (Gram–Schmidt, Cholesky updates, inner products); `utils/argutils.py` (`as_shape`);
  other shape helpers as far as they occur below.
* `diffeq/`: ODE solver loop, step rules, stoppers, events, perturbed solvers, ODE-filter information operators, initialisation by
  stacking, by a fit to a non-probabilistic solver (itself a parameter) and by automatic differentiation (JAX's derivatives are mathematical derivatives), ODE-filter steps with an IWP prior and square-root implementations, solutions and posteriors with their evaluation at arbitrary times, the front ends `probsolve_ivp`
  and `perturbsolve_ivp`; scipy's Runge–Kutta formulas are parameters. Where C115 needs their coefficients, the published ones of
  Bogacki–Shampine (RK23) and Dormand–Prince (RK45) are used; scipy is not in /repo, so that it uses them is part of the trusted base.
* `filtsmooth/`: `filter_kalman`, `smooth_rts`, Gaussian filter and smoother, EKF/UKF components, iterated components, particle filters, posteriors and their samples.
* `randprocs/`: Markov processes (construction, sampling with sizes) and transitions (linear Gaussian, IWP, IOUP, Matérn, linear SDEs), Gaussian
  processes, kernels, mean functions.
* `randvars/`: `Normal` arithmetic, slicing, reshaping; `Constant`; `Categorical`; moments, densities, distribution
  functions, quantiles, entropy and samples of `Normal`; the generic `RandomVariable` (properties, slicing, reshaping,
  transposition, arithmetic) with an ideal random generator; univariate SciPy distributions; lists of random variables; not: multivariate SciPy distributions other than the normal, the multivariate distribution function.
* `linops/`: all classes, arithmetic dispatch, casts, flags, `cholesky` with its cache, condition numbers with their cache, eigenvalues, vectorization of matrix products, application to arrays along any axis.  Complex numbers and sparse storage formats are not modelled.
* `linalg/`: `problinsolve` validation and matrix-based solver with uncertainty calibration, PLS and its policies, information operators, beliefs.
* `quad/`: the front ends `bayesquad*`, BQ beliefs and loop, their meaning for Gaussian process priors, policies, initial designs, acquisition functions, kernel embeddings (all pairs of kernel and measure), Gaussian
  measures, domains.
* `functions/`: function algebra.
* `problems/`: merging of regression problems; the quadrature, initial value (numpy and jax), linear-algebra and filtering test problems of the zoo.

## 7. Tests of the theorems

`seeded/LOG.jsonl` records edits of the model in scratch copies: the definition, the edit, the claims it breaks, the
declarations that no longer compile (`failed_to_build`) and the claimed theorems that are lost with them (`failed`).  A
declaration that fails is replaced by `sorry` in the scratch copy and the build repeated, so that claims in later files are
also tested.
