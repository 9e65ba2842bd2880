{"id": "C01", "title": "Registered configuration values are restored by the config context manager", "statement": "Inside `with probnum.config(**kw)` every registered option named in kw has the requested value and all others keep theirs; on leaving the block, normally or by exception, every option named in kw has exactly the value it had before (and so does every option if the body assigns none directly). Naming an unregistered option raises AttributeError and must leave every option unchanged. Reading or writing an unregistered option raises; registering a name twice raises KeyError and changes nothing.", "quantifier": "every registry content, every keyword set (including repeated nesting and unregistered names), every body history and exit kind", "why_tests_cant": "tests pick a couple of options and one nesting depth; the law is about every registry, every order of keywords and every history inside the block", "anchors": ["src/probnum/_config.py: Configuration.__call__, __getattribute__, __setattr__, register"]}
{"id": "C02", "title": "Stopping criteria combine like boolean conditions", "statement": "For any stopping criteria a, b built with &, | and ~ to any depth, calling (a & b), (a | b), ~a on the same arguments returns the conjunction, disjunction and negation of the values the parts return; the right operand is not called when the left one decides, and an exception raised by an evaluated part propagates.", "quantifier": "every expression tree of criteria and every outcome (value or exception) of the leaves", "why_tests_cant": "unbounded nesting and short-circuiting of raising leaves cannot be enumerated", "anchors": ["src/probnum/_pnmethod/_stopping_criterion.py: StoppingCriterion, LambdaStoppingCriterion"]}
{"id": "C03", "title": "ODE solver time grid is strictly increasing, stays in [t0, tmax] and ends exactly at tmax", "statement": "Every sequence of states produced by ODESolver.solve starts at t0, has strictly increasing times, never exceeds tmax, and if the iteration ends its last time equals tmax.", "quantifier": "every step rule (constant, adaptive), every error-estimate history, every right-hand side, every t0 < tmax and positive first step", "why_tests_cant": "depends on the whole history of accepted and rejected steps", "anchors": ["src/probnum/diffeq/_odesolver.py: solution_generator, perform_full_step", "src/probnum/diffeq/stepsize/_steprule.py"]}
{"id": "C04", "title": "ODE solver steps through every requested stop location", "statement": "Every time in `stop_at` between t0 and tmax appears among the times of the returned solution.", "quantifier": "every list of stop locations, step rule and error history", "why_tests_cant": "the order, multiplicity and position of the locations relative to the adaptively chosen steps is unbounded", "anchors": ["src/probnum/diffeq/_odesolver.py: _adjust_time_step, _TimeStopperState, solution_generator"]}
{"id": "C05", "title": "Adaptive step proposals obey the documented limits", "statement": "AdaptiveSteps.suggest returns a step between limitchange[0]*laststep and limitchange[1]*laststep and inside [minstep, maxstep], raising RuntimeError otherwise; it is non-increasing in the scaled error; a rejected attempt (scaled error >= 1) yields a strictly smaller proposal when safetyscale < 1 and limitchange[0] < 1, so a step of finitely many rejections or an error follows.", "quantifier": "every laststep > 0, scaled error >= 0 and parameter choice", "why_tests_cant": "real-valued inputs, unbounded rejection sequences", "anchors": ["src/probnum/diffeq/stepsize/_steprule.py: AdaptiveSteps.suggest, is_accepted, errorest_to_norm"]}
{"id": "C06", "title": "Only accepted steps are reported and a rejected attempt leaves the solver state alone", "statement": "A state is yielded by the ODE solver only if its scaled error was < 1 (or the rule is constant); each attempt after a rejection starts from the same last accepted state; callbacks see exactly the accepted states, once each, in order and in the order the callbacks were given.", "quantifier": "every rejection history and callback list", "why_tests_cant": "rejection histories are unbounded", "anchors": ["src/probnum/diffeq/_odesolver.py: perform_full_step, solution_generator", "src/probnum/diffeq/callbacks/"]}
{"id": "C07", "title": "Constant-diffusion calibration is the mean of the local estimates", "statement": "After n accepted steps with local estimates s_1..s_n the value reported by ConstantDiffusion is their arithmetic mean, at every time.", "quantifier": "every n and every sequence of estimates", "why_tests_cant": "the running update is only right or wrong as a function of the whole history", "anchors": ["src/probnum/randprocs/markov/continuous/_diffusions.py: ConstantDiffusion.update_in_place, __call__"]}
{"id": "C08", "title": "Piecewise-constant diffusion lookup returns the estimate of the interval containing t", "statement": "After updates at times t_1 < ... < t_n with estimates s_1..s_n, evaluating PiecewiseConstantDiffusion at t returns, as documented, s_1 for t < t_0, s_n for t_(n-1) <= t < t_n and s_N for t >= t_N; evaluating before any update raises NotImplementedError.", "quantifier": "every history of updates and every query time, scalar or array", "why_tests_cant": "all grid sizes and all boundary positions", "anchors": ["src/probnum/randprocs/markov/continuous/_diffusions.py: PiecewiseConstantDiffusion"]}
{"id": "C09", "title": "A time-series posterior is always an ordered, aligned table and rejected appends change nothing", "statement": "After any sequence of append/freeze calls the locations are strictly ascending, there are as many states as locations, entry i of both belongs to the i-th accepted append; an append at a non-increasing location or after freezing raises ValueError and leaves the object as it was; a frozen posterior stays frozen.", "quantifier": "every sequence of operations", "why_tests_cant": "unbounded histories with failures interleaved", "anchors": ["src/probnum/filtsmooth/_timeseriesposterior.py: TimeSeriesPosterior"]}
{"id": "C10", "title": "Evaluating a posterior on its grid returns the stored states, in query order", "statement": "Calling a time-series posterior at ascending query times returns one random variable per query in order; at a stored location it returns the stored state, between locations it interpolates between the two neighbours, right of the last location it extrapolates from the last state, left of the first it delegates to left extrapolation; non-ascending queries raise ValueError.", "quantifier": "every grid, every query list", "why_tests_cant": "the bookkeeping (searchsorted, masks, merging) must be right for every relative position", "anchors": ["src/probnum/filtsmooth/_timeseriesposterior.py: __call__, _getindices, extrapolate/interpolate", "src/probnum/filtsmooth/gaussian/_kalmanposterior.py"]}
{"id": "C11", "title": "Kalman filtering produces one state per observation and rejects unordered data", "statement": "Filtering a regression problem yields exactly one filtered state per location in order, each computed by predicting over exactly the gap to the previous location (no prediction for a zero gap) and updating on that observation; locations that are not strictly increasing raise ValueError before any state is produced.", "quantifier": "every prior, regression problem and linearisation mode", "why_tests_cant": "any length, any gap pattern", "anchors": ["src/probnum/filtsmooth/gaussian/_kalman.py: filtered_states_generator, iterated_filter"]}
{"id": "C12", "title": "Linear-Gaussian prediction: all forward implementations agree with the exact pushforward", "statement": "For x ~ N(m, P) and y = H x + b + noise N(0, d R), forward_rv returns mean Hm+b, covariance H P H^T + d R and cross-covariance P H^T, identically for the classic and the square-root implementation.", "quantifier": "every dimension, matrix, shift, noise covariance and diffusion d >= 0", "why_tests_cant": "continuous inputs in every dimension", "anchors": ["src/probnum/randprocs/markov/discrete/_linear_gaussian.py: _forward_rv_classic, _forward_rv_sqrt"]}
{"id": "C13", "title": "Linear-Gaussian update: all backward implementations agree with exact Gaussian conditioning", "statement": "backward_realization/backward_rv of the classic, Joseph and square-root implementations return the same mean and covariance, equal to conditioning the joint Gaussian (and to the RTS formula when conditioning on a random variable); the updated covariance is symmetric positive semi-definite.", "quantifier": "every dimension, prior, observation and gain source (given or recomputed)", "why_tests_cant": "continuous inputs in every dimension; the three code paths share no code", "anchors": ["src/probnum/randprocs/markov/discrete/_linear_gaussian.py: _backward_rv_classic, _backward_rv_joseph, _backward_rv_sqrt", "src/probnum/randprocs/markov/discrete/_condition_state.py"]}
{"id": "C14", "title": "Cholesky-factor update utilities compute a valid square root", "statement": "cholesky_update(S1[, S2]) returns a lower-triangular matrix with non-negative diagonal whose Gram matrix L L^T equals S1 S1^T (+ S2 S2^T); tril_to_positive_tril keeps L L^T and lower-triangularity and makes the diagonal non-negative.", "quantifier": "every square-root pair of every size, including singular ones", "why_tests_cant": "sign and zero patterns of every size", "anchors": ["src/probnum/utils/linalg/_cholesky_updates.py: cholesky_update, tril_to_positive_tril"]}
{"id": "C15", "title": "Smoothing keeps the last state and combines neighbours in order", "statement": "Smoothing a filtering posterior returns the same number of states at the same locations, the last smoothed state equals the last filtered state, and the i-th state is obtained by conditioning filtered state i on smoothed state i+1 over the gap between their locations.", "quantifier": "every length and every prior", "why_tests_cant": "off-by-one errors in a backward pass appear only as functions of position", "anchors": ["src/probnum/randprocs/markov/_transition.py: smooth_list", "src/probnum/filtsmooth/gaussian/_kalman.py: smooth"]}
{"id": "C16", "title": "Sampling a Markov prior on a grid has the covariance of the process", "statement": "A joint sample of a linear Gaussian Markov process at times t_0 < ... < t_n is an affine image of the standard normal base sample whose covariance is the joint covariance of the process (Cov(x_i, x_j) = Phi(t_j, t_i) Cov(x_i) for i <= j).", "quantifier": "every number of grid points and every transition", "why_tests_cant": "finite samples cannot establish a covariance for every grid", "anchors": ["src/probnum/randprocs/markov/_transition.py: jointly_transform_base_measure_realization_list_forward", "src/probnum/randprocs/markov/_markov.py: _sample_at_input"]}
{"id": "C17", "title": "Posterior joint samples have the smoothing covariance", "statement": "Backward joint sampling of a filtering/smoothing posterior on its grid maps a standard normal base sample to a sample whose mean and covariance are those of the joint smoothing distribution.", "quantifier": "every length and every linear Gaussian model", "why_tests_cant": "finite samples cannot establish a covariance", "anchors": ["src/probnum/randprocs/markov/_transition.py: jointly_transform_base_measure_realization_list_backward", "src/probnum/filtsmooth/gaussian/_kalmanposterior.py: transform_base_measure_realizations"]}
{"id": "C18", "title": "Integrated Wiener process transitions satisfy the Chapman-Kolmogorov equations", "statement": "The discretised q-times integrated Wiener process over h has transition h^(j-i)/(j-i)! and process noise h^(2q+1-i-j)/((2q+1-i-j)(q-i)!(q-j)!), so that stepping h1 then h2 equals one step of h1+h2 in both mean and covariance; stepping 0 is the identity.", "quantifier": "every order q, wiener dimension, pair of step sizes", "why_tests_cant": "identity in all orders and real step sizes", "anchors": ["src/probnum/randprocs/markov/integrator/_iwp.py: IntegratedWienerTransition", "src/probnum/randprocs/markov/integrator/_preconditioner.py"]}
{"id": "C19", "title": "Preconditioned integrator transitions equal the plain discretised transitions", "statement": "forward_rv/backward_rv/backward_realization of integrator transitions (which work in preconditioned coordinates) return the same random variables and gains as the same calls on the plain discretisation over the same step.", "quantifier": "every order, step size h > 0, input random variable and gain supplied or not", "why_tests_cant": "continuous parameters in all dimensions", "anchors": ["src/probnum/randprocs/markov/integrator/_iwp.py: forward_rv, backward_rv", "src/probnum/randprocs/markov/integrator/_ioup.py", "src/probnum/randprocs/markov/integrator/_preconditioner.py"]}
{"id": "C20", "title": "Coordinate-wise and derivative-wise state orderings are inverse permutations", "statement": "convert_coordwise_to_derivwise and convert_derivwise_to_coordwise are mutually inverse and proj2coord(k) extracts exactly the k-th derivative of every coordinate.", "quantifier": "every order, dimension and state", "why_tests_cant": "all sizes", "anchors": ["src/probnum/randprocs/markov/integrator/convert/_convert.py", "src/probnum/randprocs/markov/integrator/_integrator.py: proj2coord"]}
{"id": "C21", "title": "Linear operator arithmetic denotes matrix arithmetic", "statement": "For every expression built from operators by +, -, scalar *, unary -, @ and .T, whenever the library returns an operator, its dense form is the corresponding matrix expression and its shape is the matrix shape, whichever shortcut the dispatch selects.", "quantifier": "every expression tree over every operator kind, size and scalar", "why_tests_cant": "the dispatch tables have hundreds of type pairs and trees are unbounded", "anchors": ["src/probnum/linops/_arithmetic.py", "src/probnum/linops/_arithmetic_fallbacks.py", "src/probnum/linops/_linear_operator.py", "src/probnum/linops/_scaling.py", "src/probnum/linops/_kronecker.py"]}
{"id": "C22", "title": "Operator expressions with incompatible shapes are rejected", "statement": "a+b, a-b and a@b raise ValueError exactly when the shapes do not match as matrices.", "quantifier": "every pair of operators of every kind and shape", "why_tests_cant": "every pair of types times every pair of shapes", "anchors": ["src/probnum/linops/_arithmetic.py: add, sub, matmul", "src/probnum/linops/_arithmetic_fallbacks.py"]}
{"id": "C23", "title": "Matrix-free products agree with the dense matrix", "statement": "A @ x equals A.todense() @ x for every operator, for vectors and matrices x, and x @ A equals x @ A.todense().", "quantifier": "every operator tree and every x of compatible shape", "why_tests_cant": "unbounded operator trees", "anchors": ["src/probnum/linops/_linear_operator.py: __matmul__, __rmatmul__, __call__", "src/probnum/linops/_kronecker.py: _kronecker_matmul"]}
{"id": "C24", "title": "Transposition is the matrix transpose and an involution", "statement": "A.T.todense() equals A.todense() transposed, A.T.T denotes A, and A.transpose(axes) follows numpy's axes convention with ValueError on repeated or out-of-range axes.", "quantifier": "every operator tree", "why_tests_cant": "unbounded operator trees", "anchors": ["src/probnum/linops/_linear_operator.py: T, transpose, TransposedLinearOperator, Selection, Embedding"]}
{"id": "C25", "title": "Structure flags are sound", "statement": "If is_symmetric, is_lower_triangular, is_upper_triangular or is_positive_definite of an operator produced by the library from soundly flagged operands reports True (False), the matrix does (does not) have that property.", "quantifier": "every operator tree", "why_tests_cant": "solve/cholesky pick algorithms from these flags; the trees are unbounded", "anchors": ["src/probnum/linops/_linear_operator.py: _set_property", "src/probnum/linops/_arithmetic_fallbacks.py", "src/probnum/linops/_kronecker.py", "src/probnum/linops/_block.py", "src/probnum/linops/_scaling.py"]}
{"id": "C26", "title": "Flags are write-once", "statement": "Once a structure flag has a boolean value no sequence of assignments changes it: assigning the same value is a no-op, any other assignment raises ValueError and changes nothing; symmetric/positive-definite assignments inconsistent with shape or symmetry raise.", "quantifier": "every history of flag assignments", "why_tests_cant": "histories are unbounded", "anchors": ["src/probnum/linops/_linear_operator.py: _set_property, is_symmetric.setter, is_positive_definite.setter"]}
{"id": "C27", "title": "Inverses and solves invert", "statement": "If A.inv() succeeds on a square operator then A @ A.inv() denotes the identity, and A.solve(b) returns x with A x = b; singular operators raise LinAlgError.", "quantifier": "every operator tree with non-singular matrix", "why_tests_cant": "unbounded operator trees", "anchors": ["src/probnum/linops/_linear_operator.py: inv, solve, _solve", "src/probnum/linops/_arithmetic_fallbacks.py", "src/probnum/linops/_kronecker.py", "src/probnum/linops/_scaling.py", "src/probnum/linops/_block.py"]}
{"id": "C28", "title": "Determinant, trace and diagonal shortcuts equal the dense values", "statement": "det, logabsdet, trace, diagonal and rank of a structured operator (scaling, Kronecker, identity-Kronecker, block-diagonal, product, sum, scaled) equal those of its dense matrix.", "quantifier": "every structured operator over every operand", "why_tests_cant": "all sizes and operands", "anchors": ["src/probnum/linops/_kronecker.py", "src/probnum/linops/_scaling.py", "src/probnum/linops/_block.py", "src/probnum/linops/_arithmetic_fallbacks.py"]}
{"id": "C29", "title": "Kronecker-type operators obey their algebra", "statement": "(A kron B) vec(X) = vec(A X B^T) in row-major order, (A kron B)(C kron D) = AC kron BD, transposes and inverses distribute, the symmetric Kronecker product acts as the symmetrised Kronecker product on every vec(X), and Symmetrize is an orthogonal projection.", "quantifier": "every pair of operands and every vector", "why_tests_cant": "all sizes", "anchors": ["src/probnum/linops/_kronecker.py: Kronecker, SymmetricKronecker, Symmetrize, IdentityKronecker"]}
{"id": "C30", "title": "Arithmetic on normal random variables is affine pushforward", "statement": "Adding/subtracting/multiplying normal random variables with constants, matrices, linear operators and independent normals returns the normal with the exactly transformed mean and covariance (A Sigma A^T, c^2 Sigma, Sigma_1 + Sigma_2), a covariance square root that still squares to the covariance, and a Constant when the scalar is 0; dividing by 0 raises.", "quantifier": "every mean, covariance, operand and shape admitted by the code", "why_tests_cant": "all dimensions and real values", "anchors": ["src/probnum/randvars/_arithmetic.py", "src/probnum/randvars/_normal.py"]}
{"id": "C31", "title": "Slicing, reshaping and transposing a normal keeps entries and covariance aligned", "statement": "For every key/shape/axes accepted by numpy on the mean, the returned normal's covariance between entries is the original covariance between the corresponding original entries.", "quantifier": "every shape, key, newshape and axes permutation", "why_tests_cant": "all shapes and index expressions", "anchors": ["src/probnum/randvars/_normal.py: __getitem__, reshape, transpose"]}
{"id": "C32", "title": "Categorical probabilities sum over the matching support", "statement": "Categorical.pmf(x) is the total probability of the support points equal to x (0 if there is none), and is non-negative and sums to one over the support when the probabilities do.", "quantifier": "every support (with repetitions, scalar or vector valued) and every x", "why_tests_cant": "all supports", "anchors": ["src/probnum/randvars/_categorical.py: Categorical"]}
{"id": "C33", "title": "Matrix-based belief updates satisfy the observation and keep symmetry", "statement": "After observing y = A s the linear and symmetric belief updates return a mean M+ with M+ s = y and a covariance factor W+ with W+ s = 0, W+ is symmetric positive semi-definite, a symmetric mean stays symmetric and zero-information steps change nothing; facts observed earlier along conjugate directions are kept.", "quantifier": "every belief, action and number of steps", "why_tests_cant": "all sizes and real values, unbounded step sequences", "anchors": ["src/probnum/linalg/solvers/belief_updates/matrix_based/"]}
{"id": "C34", "title": "The symmetric matrix-based linear solver terminates exactly in at most n steps", "statement": "In exact arithmetic, for symmetric positive definite A the search directions of SymmetricMatrixBasedSolver are A-conjugate, the maintained residual equals A x - b at every step, all secant equations hold, and the residual vanishes after at most n iterations.", "quantifier": "every SPD system of every size and every consistent prior", "why_tests_cant": "statement about all systems and the whole iteration history", "anchors": ["src/probnum/linalg/solvers/matrixbased.py: SymmetricMatrixBasedSolver"]}
{"id": "C35", "title": "Prior means built from an initial guess are consistent", "statement": "For a guess x0 the constructed prior inverse mean H0 is symmetric positive definite with H0 b = x0 and the prior matrix mean is its inverse.", "quantifier": "every b and x0", "why_tests_cant": "all real vectors", "anchors": ["src/probnum/linalg/solvers/matrixbased.py: _construct_symmetric_matrix_prior_means"]}
{"id": "C36", "title": "The probabilistic linear solver stops, and only for a stated reason", "statement": "The solver loop performs actions until the stopping criterion holds for the current state, never performs an action afterwards, returns the belief of the first state satisfying the criterion, and its per-step lists of actions, observations and residuals are aligned with the step counter; with the maximum-iterations criterion it performs at most that many actions.", "quantifier": "every policy, information operator, belief update, criterion", "why_tests_cant": "unbounded loops over arbitrary components", "anchors": ["src/probnum/linalg/solvers/_probabilistic_linear_solver.py", "src/probnum/linalg/solvers/_state.py", "src/probnum/linalg/solvers/stopping_criteria/"]}
{"id": "C37", "title": "Projected-residual (BayesCG) updates make the residual orthogonal to the action", "statement": "After a noise-free solution-based projected-residual update the new mean satisfies s^T(b - A x+) = 0, the new covariance annihilates A^T s and stays symmetric positive semi-definite, and is dominated by the old one; previously enforced orthogonality is preserved.", "quantifier": "every belief, matrix and action sequence", "why_tests_cant": "all sizes and step counts", "anchors": ["src/probnum/linalg/solvers/belief_updates/solution_based/_projected_residual_belief_update.py"]}
{"id": "C38", "title": "Gram-Schmidt orthogonalisation", "statement": "gram_schmidt, modified_gram_schmidt and double_gram_schmidt return, for a vector and a set of mutually orthogonal basis vectors, the component orthogonal to all of them (normalised if requested) under any inner product.", "quantifier": "every dimension, basis and inner product", "why_tests_cant": "all sizes and real values", "anchors": ["src/probnum/utils/linalg/_orthogonalize.py"]}
{"id": "C39", "title": "Van der Corput nodes are the documented sequence", "statement": "The k-th node of the van der Corput policy is the base-2 radical inverse of k mapped affinely to the domain; nodes are pairwise distinct, strictly inside the domain, and do not depend on how the nodes are split into batches.", "quantifier": "every k, batch size and bounded domain", "why_tests_cant": "infinite sequence", "anchors": ["src/probnum/quad/solvers/policies/_van_der_corput_policy.py"]}
{"id": "C40", "title": "Bayesian quadrature does not depend on how data is batched", "statement": "For a symmetric kernel, updating a Bayesian-quadrature state with data in any sequence of batches gives the same nodes, Gram matrix, kernel means, scale and integral belief as one update with all data.", "quantifier": "every data set and every split into batches", "why_tests_cant": "all splits", "anchors": ["src/probnum/quad/solvers/belief_updates/_standard_update.py: BQStandardBeliefUpdate.__call__"]}
{"id": "C41", "title": "Bayesian quadrature variance is a variance", "statement": "With a positive semi-definite kernel and consistent embeddings the integral variance is non-negative, never larger than the prior's (scale fixed), and does not increase when data is added; the mean is linear in the function values.", "quantifier": "every kernel, measure, data set, jitter >= 0", "why_tests_cant": "all data sets", "anchors": ["src/probnum/quad/solvers/belief_updates/_standard_update.py"]}
{"id": "C42", "title": "Bayesian quadrature evaluation budget", "statement": "The quadrature loop evaluates the integrand only through the policy's nodes, counts every evaluation, stops at the first state satisfying the criterion and with max_evals = N and batch size b performs fewer than N + b evaluations (beyond an initial design); with no policy it evaluates nothing.", "quantifier": "every policy, criterion combination, batch size", "why_tests_cant": "unbounded loop", "anchors": ["src/probnum/quad/solvers/_bayesian_quadrature.py: bq_iterator, integrate", "src/probnum/quad/solvers/stopping_criteria/", "src/probnum/quad/solvers/_bq_state.py: BQIterInfo"]}
{"id": "C43", "title": "Matern kernel means are the integrals they claim to be", "statement": "The closed-form kernel means and variances of 1D Matern kernels (nu = 1/2, 3/2, 5/2, 7/2) against the Lebesgue measure equal the integral of the kernel over the domain.", "quantifier": "every lengthscale, interval and location inside the interval", "why_tests_cant": "real-parameter identity", "anchors": ["src/probnum/quad/kernel_embeddings/_matern_lebesgue.py"]}
{"id": "C44", "title": "Covariance function algebra is pointwise", "statement": "Sums, products and scalar multiples of covariance functions evaluate, at every pair of inputs, to the sum/product/multiple of the values, the one-argument form agrees with passing the argument twice, and mismatched shapes raise ValueError.", "quantifier": "every expression tree of covariance functions and every input", "why_tests_cant": "unbounded expression trees", "anchors": ["src/probnum/randprocs/covfuncs/_arithmetic_fallbacks.py", "src/probnum/randprocs/covfuncs/_covariance_function.py"]}
{"id": "C45", "title": "Covariance matrices are symmetric positive semi-definite", "statement": "The matrix of a covariance function built from the library's kernels with admissible parameters by +, * and non-negative scaling is symmetric positive semi-definite at every finite set of points.", "quantifier": "every expression tree, every finite set of points", "why_tests_cant": "all point sets", "anchors": ["src/probnum/randprocs/covfuncs/"]}
{"id": "C46", "title": "Gaussian process evaluation has the process moments", "statement": "Evaluating a Gaussian process at points x_1..x_N returns a normal whose mean at (n, output i) is m(x_n)_i and whose covariance between entries (n,i) and (m,j) is k(x_n, x_m)_{ij}.", "quantifier": "every N, output dimension, mean and covariance function", "why_tests_cant": "all sizes", "anchors": ["src/probnum/randprocs/_gaussian_process.py: __call__", "src/probnum/randprocs/covfuncs/_covariance_function.py: _evaluate_matrix"]}
{"id": "C47", "title": "Half-integer Matern coefficients", "statement": "Matern.half_integer_coefficients(p) returns c_i = p!/(2p)! (2p-i)!/((p-i)! i!) 2^i for all i <= p, with c_0 = 1, so the kernel has value 1 at distance 0.", "quantifier": "every p", "why_tests_cant": "all p", "anchors": ["src/probnum/randprocs/covfuncs/_matern.py: half_integer_coefficients, _evaluate"]}
{"id": "C48", "title": "Function algebra is pointwise and shape checked", "statement": "Sums, differences and scalar multiples of probnum Functions evaluate pointwise, calls accept exactly inputs whose trailing shape is input_shape, and combining functions with different shapes raises ValueError.", "quantifier": "every expression tree of functions", "why_tests_cant": "unbounded trees and shapes", "anchors": ["src/probnum/functions/_function.py", "src/probnum/functions/_algebra.py", "src/probnum/functions/_algebra_fallbacks.py"]}
{"id": "C49", "title": "Merging regression problems loses nothing", "statement": "Merging two time-series regression problems with disjoint locations yields the sorted union of locations, with every observation, measurement model and solution value attached to its own location; overlapping locations or mismatching dimensions raise ValueError.", "quantifier": "every pair of problems", "why_tests_cant": "all sizes and interleavings", "anchors": ["src/probnum/filtsmooth/utils/_merge_regression_problems.py"]}
{"id": "C50", "title": "Particle filter weights and resampling", "statement": "At every filtering step the event probabilities are non-negative and sum to one, the number of particles is constant, resampling happens exactly when the effective number of events is below the threshold, and the weights account for all observations so far.", "quantifier": "every number of particles, model and data", "why_tests_cant": "unbounded data", "anchors": ["src/probnum/filtsmooth/particle/_particle_filter.py", "src/probnum/filtsmooth/particle/_importance_distributions.py"]}
{"id": "C51", "title": "Linearisation: EKF is exact on affine models, spherical cubature matches moments", "statement": "The EKF component of an affine model gives the exact Kalman prediction and update; unit sigma points reproduce mean and covariance, weights sum to one, and the unscented prediction of an affine map is exact up to the stated jitter.", "quantifier": "every dimension, model and state", "why_tests_cant": "all dimensions", "anchors": ["src/probnum/filtsmooth/gaussian/approx/_extendedkalman.py", "src/probnum/filtsmooth/gaussian/approx/_unscentedkalman.py"]}
{"id": "C52", "title": "ODE information operators measure the ODE residual", "statement": "The ODE residual operator maps a state to (derivative coordinates) - f(t, value coordinates), its Jacobian is the derivative of that map (EK1) or drops the vector-field term (EK0), and turning an IVP into a regression problem yields measurement models whose mean vanishes exactly on ODE solutions (and the initial condition), whatever measurement variance is requested.", "quantifier": "every ODE, state, variance", "why_tests_cant": "all dimensions and vector fields", "anchors": ["src/probnum/diffeq/odefilter/information_operators/_ode_residual.py", "src/probnum/diffeq/odefilter/approx_strategies/_ek.py", "src/probnum/diffeq/odefilter/utils/_problem_utils.py"]}
{"id": "C53", "title": "Perturbed-step solver bookkeeping", "statement": "A perturbed-step solver records one noise scale per accepted step, so that dense output at t uses the interpolant and scale of the step containing t; perturbed steps are positive and uniform perturbations stay within the stated bounds.", "quantifier": "every acceptance/rejection history and query time", "why_tests_cant": "histories are unbounded", "anchors": ["src/probnum/diffeq/perturbed/step/_perturbedstepsolver.py", "src/probnum/diffeq/perturbed/step/_perturbedstepsolution.py", "src/probnum/diffeq/perturbed/step/_perturbation_functions.py"]}
{"id": "C54", "title": "Selections and embeddings", "statement": "Selection picks the listed coordinates, Embedding places values at the listed coordinates, the transpose of each is the adjoint, and a selection after an embedding is simplified to the identity only when their product is the identity.", "quantifier": "every index tuple, including repetitions, and every shape", "why_tests_cant": "all index tuples", "anchors": ["src/probnum/linops/_linear_operator.py: Selection, Embedding", "src/probnum/linops/_arithmetic.py: _matmul_selection_embedding"]}
{"id": "C55", "title": "Operator dtype casts are consistent", "statement": "Casting an operator to a dtype gives an operator whose products and dense matrix agree, and arithmetic of operators with different dtypes promotes as numpy does and is value-preserving.", "quantifier": "every operator and dtype pair", "why_tests_cant": "all dtype pairs and operators", "anchors": ["src/probnum/linops/_linear_operator.py: astype, _TypeCastLinearOperator", "src/probnum/linops/_scaling.py: _add_scaling, _matmul_scaling"]}
{"id": "C56", "title": "Linear-system validation", "statement": "problinsolve accepts exactly square systems with matching right-hand sides and documented assumption strings, and rejects every other input with the documented exception before doing any work.", "quantifier": "every shape combination and assumption string", "why_tests_cant": "all strings and shapes", "anchors": ["src/probnum/linalg/_problinsolve.py: _check_linear_system, _preprocess_linear_system, _init_solver"]}
{"id": "C57", "title": "Domain normalisation for quadrature", "statement": "as_domain returns lower and upper bound vectors of length input_dim with every lower bound strictly below the upper bound, equal to the given bounds (broadcast from scalars), and raises ValueError on every other input.", "quantifier": "every domain and input_dim", "why_tests_cant": "all shapes and values", "anchors": ["src/probnum/quad/_utils.py: as_domain"]}
{"id": "C58", "title": "Iteration control of iterated filters and smoothers", "statement": "The filtering/smoothing stopping criterion terminates every iterated component after at most maxit iterations: it returns True when the normalised difference is at most one, raises RuntimeError when exceeding maxit, and a new component call starts counting from zero.", "quantifier": "every history of calls", "why_tests_cant": "histories are unbounded", "anchors": ["src/probnum/filtsmooth/optim/_stopping_criterion.py", "src/probnum/filtsmooth/optim/_iterated_component.py", "src/probnum/filtsmooth/optim/_gauss_newton.py"]}
{"id": "C59", "title": "Continuous-time linear SDE moments", "statement": "The moment equations used for linear SDEs have mean derivative G m + v and covariance derivative G P + P G^T + d L L^T; the square-root form propagates a factor S with the derivative of S S^T equal to that; discretising an LTI SDE gives the transition solving these equations.", "quantifier": "every drift, force, dispersion, dimension and time step", "why_tests_cant": "all real parameters", "anchors": ["src/probnum/randprocs/markov/continuous/_linear_sde.py", "src/probnum/randprocs/markov/continuous/_lti_sde.py", "src/probnum/randprocs/markov/continuous/_mfd.py"]}
{"id": "C60", "title": "Acquisition functions are normalised", "statement": "Integral variance reduction takes values in [0, 1] and equals the relative variance reduction obtained by adding the candidate node; mutual information is non-negative.", "quantifier": "every state of the quadrature method and candidate", "why_tests_cant": "all data sets", "anchors": ["src/probnum/quad/solvers/acquisition_functions/"]}
{"id": "C61", "title": "Conjugate-gradient policy produces conjugate actions", "statement": "With a solution-based Gaussian belief and noise-free projected residuals the actions of ConjugateGradientPolicy are pairwise conjugate with respect to A Sigma_0 A^T and residuals are mutually orthogonal.", "quantifier": "every system, prior covariance and number of steps", "why_tests_cant": "unbounded iteration", "anchors": ["src/probnum/linalg/solvers/policies/_conjugate_gradient.py"]}
{"id": "C62", "title": "Unit-vector policies visit rows fairly", "statement": "RandomUnitVectorPolicy returns standard unit vectors drawn with the documented (uniform or row-norm) weights; without replacement no index is returned twice in the first n steps and every index is returned once.", "quantifier": "every n and random stream", "why_tests_cant": "unbounded iteration", "anchors": ["src/probnum/linalg/solvers/policies/_random_unit_vector.py"]}
{"id": "C63", "title": "Dense output of the smoothing posterior is the exact conditional", "statement": "Evaluating a smoothing posterior between two observation locations returns the conditional distribution of the state at that time given all observations; evaluating a filtering posterior there returns the conditional given the observations so far.", "quantifier": "every linear Gaussian model, data set and query time", "why_tests_cant": "needs equality with an exact conditional distribution for all real parameters", "anchors": ["src/probnum/filtsmooth/gaussian/_kalmanposterior.py: SmoothingPosterior.interpolate, FilteringPosterior.interpolate"]}
{"id": "C64", "title": "Kalman filter computes exact conditional distributions", "statement": "For a linear Gaussian state-space model the k-th state of the filtering posterior has the mean and covariance of the conditional distribution of the state at the k-th location given the observations up to and including it.", "quantifier": "every linear Gaussian state-space model, number of observations and data values", "why_tests_cant": "equality with a conditional distribution over all models and any number of observations", "anchors": ["src/probnum/filtsmooth/gaussian/_kalman.py: Kalman.filter", "src/probnum/randprocs/markov/discrete/_linear_gaussian.py"]}
{"id": "C65", "title": "Smoother computes exact conditional distributions", "statement": "For a linear Gaussian state-space model the k-th state of the smoothing posterior has the mean and covariance of the conditional distribution of the state at the k-th location given all observations.", "quantifier": "every linear Gaussian state-space model, number of observations and data values", "why_tests_cant": "equality with a conditional distribution over all models and any number of observations", "anchors": ["src/probnum/filtsmooth/gaussian/_kalman.py: Kalman.filtsmooth, Kalman.smooth", "src/probnum/randprocs/markov/_transition.py: smooth_list"]}
{"id": "C66", "title": "Rejected Runge-Kutta attempts leave no trace", "statement": "In a wrapped scipy Runge-Kutta solver every attempted step is computed from the slope f(t, y) at the current state, so the result of a step does not depend on attempts rejected before it.", "quantifier": "every right-hand side, Runge-Kutta formula and history of accepted and rejected attempts", "why_tests_cant": "histories are unbounded and hidden solver attributes carry state across attempts", "anchors": ["src/probnum/diffeq/perturbed/scipy_wrapper/_wrapped_scipy_solver.py: WrappedScipyRungeKutta.attempt_step"]}
{"id": "C67", "title": "Constants are point masses", "statement": "A Constant random variable has mass one at its support and zero elsewhere, a distribution function that jumps there, samples of any size that are copies of the support, and in_support(x) tells whether x is the support; in_support(x) of a Normal tells whether x is finite.", "quantifier": "every support value, argument and sample size", "why_tests_cant": "all values and shapes", "anchors": ["src/probnum/randvars/_constant.py: Constant", "src/probnum/randvars/_random_variable.py: RandomVariable.in_support"]}
{"id": "C68", "title": "Stacking initialisation of ODE filters", "statement": "Stack and StackWithJacobian return an initial state of the size of the prior that holds y0, f(t0,y0) and (StackWithJacobian) the second derivative of the solution with certainty, and zero with the given scale for all higher derivatives, ordered coordinate by coordinate.", "quantifier": "every ODE, dimension and number of derivatives", "why_tests_cant": "all dimensions, orders and vector fields, including time-dependent ones", "anchors": ["src/probnum/diffeq/odefilter/init_routines/_stack.py"]}
{"id": "C69", "title": "The half-integer Matern closed form is the Bessel-function formula", "statement": "For every half-integer smoothness, the polynomial-times-exponential the Matern covariance function evaluates equals the documented general formula with the modified Bessel function of the second kind, at every distance.", "quantifier": "every half-integer smoothness, every distance", "why_tests_cant": "an identity between functions for infinitely many smoothness parameters", "anchors": ["src/probnum/randprocs/covfuncs/_matern.py: Matern._evaluate, _matern_bessel"]}
{"id": "C70", "title": "An accepted ODE filter step is exact Bayesian conditioning", "statement": "A step of the ODE filter that is accepted returns the conditional distribution of the prior at the new time, started from the distribution of the old state with the diffusion of this step, given that the ODE residual linearised at the predicted mean (EK0 or EK1) is zero. A step with nonzero step size and a vector field that evaluates succeeds.", "quantifier": "every ODE (also time-dependent), dimension, number of derivatives, step size, state, diffusion model and step rule", "why_tests_cant": "equality with a conditional distribution over all real parameters, and success for all inputs", "anchors": ["src/probnum/diffeq/odefilter/_odefilter.py: ODEFilter.attempt_step", "src/probnum/filtsmooth/gaussian/approx/_extendedkalman.py"]}
{"id": "C71", "title": "Local calibration and error estimate of ODE filter steps", "statement": "The diffusion estimated in a step is the maximum-likelihood estimate for the predicted residual under the scaled prior; the error estimate is the standard deviation of the residual when the previous state is exact; the reference is the absolute value of the chosen coordinate; the step is accepted exactly if the step rule accepts their norm, and only then is the estimate recorded.", "quantifier": "every ODE, dimension, number of derivatives, step size, state, diffusion model and step rule", "why_tests_cant": "optimality over all positive reals for every problem", "anchors": ["src/probnum/diffeq/odefilter/_odefilter.py: ODEFilter.attempt_step", "src/probnum/randprocs/markov/continuous/_diffusions.py: estimate_locally"]}
{"id": "C72", "title": "The ODE solution is the calibrated posterior", "statement": "After any sequence of attempted steps the diffusion model holds one estimate per accepted step and none for rejected ones; the states handed to the user are the states of the Bayesian filter with the calibrated prior (one diffusion for the whole time span, or the estimate of each step), and with smoothing the smoothed states of that filter; states and derivatives of the solution are its marginals.", "quantifier": "every ODE, sequence of accepted and rejected steps, diffusion model", "why_tests_cant": "sequences of steps are unbounded; equality of distributions", "anchors": ["src/probnum/diffeq/odefilter/_odefilter.py: ODEFilter.postprocess", "src/probnum/diffeq/odefilter/_odefilter_solution.py", "src/probnum/randprocs/markov/continuous/_diffusions.py"]}
{"id": "C73", "title": "Exponentiated quadratic embeddings are integrals of the kernel", "statement": "For an ExpQuad kernel with one lengthscale, the kernel mean of the embedding is the integral of the kernel against the measure in its first argument and the kernel variance is the double integral: for Lebesgue measures on boxes (times the normalization constant, once or twice) and for Gaussian measures with any mean and covariance, diagonal or not. Gaussian measures built from scalars or arrays have the moments given. Unknown pairs of kernel and measure, mismatched dimensions and several lengthscales are rejected.", "quantifier": "every dimension, lengthscale, box, mean vector, covariance matrix (also singular) and location", "why_tests_cant": "equality with integrals over all real parameters in every dimension", "anchors": ["src/probnum/quad/kernel_embeddings/_expquad_lebesgue.py", "src/probnum/quad/kernel_embeddings/_expquad_gauss.py", "src/probnum/quad/kernel_embeddings/_kernel_embedding.py: KernelEmbedding", "src/probnum/quad/integration_measures/_gaussian_measure.py: GaussianMeasure"]}
{"id": "C74", "title": "Quadrature test problems carry the right solution", "statement": "Each quadrature test problem on the unit cube (Genz' six families, Bratley 1992, Roos-Arnold, g-function, Morokoff-Caflisch 1 and 2) returns an integrand that evaluates the documented formula at every array of points in the cube, and a solution equal to the integral of that formula over the cube. Points outside the cube, arrays of the wrong shape, parameters of the wrong shape, u outside [0,1] and dimensions below 1 raise ValueError.", "quantifier": "every dimension, every parameter array a and u, every array of evaluation points", "why_tests_cant": "equality with an integral in every dimension for all real parameters", "anchors": ["src/probnum/problems/zoo/quad/_quadproblems_uniform.py"]}
{"id": "C75", "title": "Gaussian quadrature test problems carry the right solution", "statement": "Turning a problem on the unit cube into one against a Gaussian keeps the solution, and the expectation of the new integrand f(Phi((x - mean) / std)) under the Gaussian measure of the new problem exists and equals the integral of f over the cube; the mean and the standard deviations may be scalars or arrays. The sum of polynomials evaluates the documented formula, and its solution is the expectation under N(0, var I). Invalid domains, shapes and orders raise ValueError.", "quantifier": "every dimension, problem on the cube, mean, positive deviations, coefficients, orders, variance and array of points", "why_tests_cant": "equality with expectations in every dimension for all real parameters", "anchors": ["src/probnum/problems/zoo/quad/_quadproblems_gaussian.py: uniform_to_gaussian_quadprob, sum_polynomials"]}
{"id": "C76", "title": "Example initial value problems: vector fields, Jacobians and solutions", "statement": "Each example ODE evaluates the documented vector field at every state of the right size and rejects others; its Jacobian is the derivative of that vector field at every state (for the logistic equation also the Hessian); the closed-form solution of the logistic equation starts at the initial value at the initial time and satisfies the ODE; the SEIR model conserves its population; the three-body problem conserves the Jacobi integral; the default initial values are the documented ones.", "quantifier": "every parameter vector, state, time and initial value; every number of variables for Lorenz96", "why_tests_cant": "derivatives at all points of a continuum, conservation along all solutions", "anchors": ["src/probnum/problems/zoo/diffeq/_ivp_examples.py"]}
{"id": "C77", "title": "filter_kalman and smooth_rts return the conditional distributions of the documented model", "statement": "For the documented discrete model (X_{n+1} | X_n ~ N(F X_n, L)) and the documented continuous model (dX = F X dt + L dW), with X ~ N(m0, C0) at the first location and Y_n | X_n ~ N(H X_n, R), filter_kalman returns for every location the mean and covariance of the state given the observations so far, and smooth_rts those given all observations. With a positive definite R and increasing locations filtering never raises. Mismatched numbers of observations and locations, no observations, locations that do not increase and an unknown prior_model are rejected.", "quantifier": "all dimensions, matrices, numbers of observations, locations and data", "why_tests_cant": "equality with conditional distributions for all data and models", "anchors": ["src/probnum/filtsmooth/_kalman_filter_smoother.py: filter_kalman, smooth_rts", "src/probnum/randprocs/markov/discrete/_lti_gaussian.py: LTIGaussian", "src/probnum/randprocs/markov/continuous/_lti_sde.py: LTISDE"]}
{"id": "C78", "title": "Cholesky factors of linear operators", "statement": "If op.cholesky(lower) returns an operator, that operator is triangular as asked, has a positive diagonal and L L^T (or U^T U) is the matrix of op; the same for every answer of any sequence of calls with any values of lower, although the factor is stored and transposed. If op is marked symmetric it returns a factor exactly when op is positive definite, and raises LinAlgError otherwise, on every call. Operators not marked symmetric are refused. The factor is unique, so the result does not depend on the class of op.", "quantifier": "all operators that can be built, of any size and nesting, both values of lower, all sequences of calls", "why_tests_cant": "ranges over all operator expressions and all call histories; the factor is computed structurally, and cached", "anchors": ["src/probnum/linops/_linear_operator.py: LinearOperator.cholesky", "src/probnum/linops/_scaling.py: Scaling._cholesky", "src/probnum/linops/_kronecker.py: Kronecker._cholesky, IdentityKronecker._cholesky, SymmetricKronecker._cholesky", "src/probnum/linops/_block.py: BlockDiagonalMatrix._cholesky"]}
{"id": "C79", "title": "Bayesian quadrature returns the conditional distribution of the integral", "statement": "For every set of nodes and values, taken in any number of batches: if the integrand is a Gaussian process with mean zero and covariance scale * kernel, observed at the nodes with independent noise of variance scale * jitter, then the conditional distribution of the integral given the data is the returned normal belief. The prediction of the integrand used by the acquisition functions is the conditional distribution of the value at that point, and integral variance reduction is the squared conditional correlation of that value and the integral. The estimated scale is the one that gives the data the largest density.", "quantifier": "all kernels with integrable diagonal, finite measures, nodes, values, batches, jitters and all Gaussian process priors with that covariance", "why_tests_cant": "the statement is about a probability distribution over functions; tests compare numbers for a few nodes", "anchors": ["src/probnum/quad/solvers/belief_updates/_standard_update.py: BQStandardBeliefUpdate.__call__, predict_integrand, _estimate_scale", "src/probnum/quad/solvers/acquisition_functions/_integral_variance_reduction.py: IntegralVarianceReduction.__call__", "src/probnum/quad/_bayesquad.py: bayesquad, bayesquad_from_data"]}
{"id": "C80", "title": "The functions bayesquad, bayesquad_from_data and multilevel_bayesquad_from_data return conditional distributions of integrals", "statement": "For every domain or measure, kernel, policy, initial design and options: a call of bayesquad or bayesquad_from_data that returns gives the conditional distribution of the integral with respect to the measure, given the integrand values at exactly the nodes used, under a Gaussian process prior with that kernel (scaled by the maximum likelihood estimate, or by one). multilevel_bayesquad_from_data gives the conditional distribution of the sum of the integrals of independent processes. The calls succeed for exactly the documented combinations of arguments, and a positive jitter excludes numerical failures. bayesquad terminates within its budget: it evaluates the integrand fewer than max_evals plus batch_size times unless the initial design is larger, and reports the number of evaluations. The policies that maximise an acquisition function return a best candidate, or the best successful run of the optimizer.", "quantifier": "all dimensions, domains, measures, kernels, nodes, values, options, generators, candidate sets and outcomes of the optimizer", "why_tests_cant": "the claim is about distributions over functions, for every combination of kernel, measure, policy and options", "anchors": ["src/probnum/quad/_bayesquad.py: bayesquad, bayesquad_from_data, multilevel_bayesquad_from_data, _check_domain_measure_compatibility", "src/probnum/quad/solvers/_bayesian_quadrature.py: BayesianQuadrature.from_problem, integrate", "src/probnum/quad/solvers/policies/_max_aquisition_policy.py: RandomMaxAcquisitionPolicy, MaxAcquisitionPolicy", "src/probnum/quad/solvers/policies/_random_policy.py: RandomPolicy", "src/probnum/quad/solvers/initial_designs/_latin_design.py: LatinDesign", "src/probnum/quad/solvers/initial_designs/_mc_design.py: MCDesign", "src/probnum/quad/integration_measures/_lebesgue_measure.py: LebesgueMeasure"]}
{"id": "C81", "title": "Initialisation of ODE filters by a fit to a non-probabilistic solver", "statement": "For every prior (integrated Wiener process of any order and dimension with any initial distribution), every grid and all solution values returned by the non-probabilistic solver: the initial random variable is the conditional distribution of the state of the prior at the initial time given observations of the solution with the given noise standard deviation at the returned times. No exception is raised, the variance assigned to each coordinate of the initial value is at most the noise variance, and the stored Cholesky factor is valid. The evaluation points are num_derivatives + 1 equally spaced points starting at the initial time.", "quantifier": "all orders, dimensions, initial distributions with a Cholesky factor, noise levels, grids and solver outputs", "why_tests_cant": "the conditional distribution is a statement about all data and all orders; tests compare a few numbers with a reference solution", "anchors": ["src/probnum/diffeq/odefilter/init_routines/_non_probabilistic_fit.py: NonProbabilisticFit, NonProbabilisticFitWithJacobian", "src/probnum/randprocs/markov/integrator/_iwp.py: IntegratedWienerProcess", "src/probnum/filtsmooth/gaussian/_kalman.py: Kalman.filtsmooth"]}
{"id": "C82", "title": "probsolve_ivp from arguments to solution", "statement": "For every initial value problem, method, order, step rule, diffusion model and list of stop locations: the call ends; its result does not depend on how long one waits; it raises the documented errors for missing tolerances or steps and unknown methods or diffusion models, ignoring case. If it returns, the times start at t0, increase, end at tmax and contain the stop locations, and for an autonomous ODE the states are the Bayesian updates of each other (one common diffusion factor for \"constant\", one diffusion per step for \"dynamic\") starting from the fitted initial state. For an autonomous ODE that can be evaluated the call with constant steps and constant diffusion always returns; otherwise only the step size limits and (dynamic diffusion) a singular matrix can make it raise. Dense output adds one smoothed state per time and leaves times and filtering states unchanged.", "quantifier": "all dimensions and orders, vector fields (raising or not), initial values, time spans, tolerances, step sizes, stop locations, answers of the non-probabilistic solver used for the initialisation", "why_tests_cant": "termination and the shape of the posterior are statements about all vector fields and step histories; tests solve a few problems", "anchors": ["src/probnum/diffeq/_probsolve_ivp.py: probsolve_ivp", "src/probnum/diffeq/_utils.py: construct_steprule", "src/probnum/diffeq/stepsize/_propose_firststep.py: propose_firststep", "src/probnum/diffeq/_odesolver.py: ODESolver.solve", "src/probnum/diffeq/odefilter/_odefilter.py: ODEFilter"]}
{"id": "C83", "title": "perturbsolve_ivp from arguments to solution", "statement": "For every initial value problem, Runge-Kutta formula, perturbation, noise scale, step rule, list of stop locations and sequence of random numbers: the call ends with a result that does not depend on how long one waits (lognormal perturbation, or error norms that are defined); if it returns, the times start at t0, increase, end at tmax and contain the stop locations whatever the perturbations are; the solution at t0 is the initial value and at tmax the last state; with constant steps each state is the Runge-Kutta step from its predecessor with the step perturbed by its own random number, and with noise_scale=0 the plain Runge-Kutta step. With constant steps (below one for the uniform perturbation) the call always returns; otherwise only the step size limits, a step of at least one (uniform) and an undefined error norm can make it raise. Missing tolerances, unknown methods and unknown perturbations raise ValueError.", "quantifier": "all dimensions, vector fields, Runge-Kutta formulas and error estimates, initial values, time spans, tolerances, step sizes, noise scales, stop locations and random sequences", "why_tests_cant": "termination and the time grid must hold for every random sequence and every history of rejections; tests fix a seed", "anchors": ["src/probnum/diffeq/_perturbsolve_ivp.py: perturbsolve_ivp, _create_steprule", "src/probnum/diffeq/perturbed/step/_perturbedstepsolver.py: PerturbedStepSolver", "src/probnum/diffeq/perturbed/scipy_wrapper/_wrapped_scipy_solver.py: WrappedScipyRungeKutta", "src/probnum/diffeq/perturbed/step/_perturbation_functions.py: perturb_uniform, perturb_lognormal", "src/probnum/diffeq/_odesolver.py: ODESolver.solve"]}
{"id": "C84", "title": "Distribution functions of normal random variables", "statement": "mean, cov, var, std, mode, median, pdf, logpdf, cdf, logcdf, quantile, entropy and sample of a Normal agree with the distribution it stands for: moments are the moments, pdf is the density, cdf the distribution function, quantile(p) the smallest q with P(X <= q) >= p, entropy minus the integral of density times log density, the density is maximal at the mode, samples have the requested shape and the distribution; values for a batch of points come back in the shape of the batch.", "quantifier": "all scalar, vector and matrix shapes, means, positive definite (or singular) covariances, data types, batches of evaluation points, probabilities, sample shapes and random numbers", "why_tests_cant": "equality with the distribution is a statement about integrals over all outcomes; tests compare a few points with scipy itself", "anchors": ["src/probnum/randvars/_normal.py: Normal._univariate_pdf, _univariate_cdf, _univariate_quantile, _univariate_entropy, _univariate_sample, _dense_pdf, _dense_logpdf, _dense_var, _dense_entropy, _dense_sample, _symmetric_kronecker_identical_factors_sample", "src/probnum/randvars/_random_variable.py: RandomVariable.mean, cov, var, std, mode, median, sample, cdf, quantile, entropy, _check_property_value, ContinuousRandomVariable.pdf, logpdf"]}
{"id": "C85", "title": "Slicing, reshaping, transposing and arithmetic of generic random variables", "statement": "For a random variable given by its sampling and property functions, rv[key], rv.reshape, rv.transpose, -rv, +rv, abs(rv) and the binary operators return a random variable that describes the transformed random array: its mean, variance, standard deviation and covariance are those of the transformed array, and sample(rng, size) returns independent draws of it in the shape size + shape; operators on two random variables combine independent draws.", "quantifier": "all shapes, index expressions, new shapes, axes, entrywise operators, distributions, sample sizes and generator states", "why_tests_cant": "a test sees samples, not laws; independence and correctness for every size and shape are statements about all runs of the generator", "anchors": ["src/probnum/randvars/_random_variable.py: RandomVariable.__getitem__, reshape, transpose, __neg__, __pos__, __abs__, mean, cov, var, std, median, sample", "src/probnum/randvars/_arithmetic.py: _default_rv_binary_op_factory, _generic_rv_add"]}
{"id": "C86", "title": "Automatic-differentiation initialisation holds the derivatives of the solution", "statement": "Initialising an ODE filter by forward-mode, JVP-based, reverse-mode or Taylor-mode automatic differentiation returns a random variable whose k-th derivative coordinates are exactly the k-th derivative of the solution of the initial value problem at the initial time, for every order up to the number of derivatives of the prior, with zero covariance; the four routines return the same; without JAX, constructing a routine raises ImportError.", "quantifier": "all dimensions, vector fields (time-dependent ones included) with enough derivatives at the initial point, initial values, numbers of derivatives and the four routines", "why_tests_cant": "tests compare a few problems against stored numbers; the recursion must be right for every vector field and every order", "anchors": ["src/probnum/diffeq/odefilter/init_routines/_autodiff.py: _AutoDiffBase, ForwardModeJVP, ForwardMode, ReverseMode, TaylorMode"]}
{"id": "C87", "title": "Random matrices and random linear systems of the problem zoo", "statement": "random_spd_matrix returns, for every random draw, a symmetric positive definite matrix with exactly the given (or drawn) eigenvalues, and with a Haar-distributed rotation its distribution is invariant under rotations; nonpositive eigenvalues or a wrong number of them raise ValueError. random_sparse_spd_matrix returns L L^T for a lower triangular L with unit diagonal and entries zero or within the bounds, so it is symmetric positive definite with determinant one; the density is the share of nonzero entries of L below the diagonal. random_linear_system returns a system solved by the returned solution, which is drawn from the given random variable independently of a generated matrix; a random variable of another shape raises ValueError.", "quantifier": "all dimensions, spectra, rotations, sparse draws, densities, bounds, matrices, random variables and generator states", "why_tests_cant": "tests fix a few seeds; the matrix has to be definite and have the spectrum for every draw, and distributions are statements about all draws", "anchors": ["src/probnum/problems/zoo/linalg/_random_spd_matrix.py: random_spd_matrix, random_sparse_spd_matrix", "src/probnum/problems/zoo/linalg/_random_linear_system.py: random_linear_system"]}
{"id": "C88", "title": "Filtering and smoothing test problems of the problem zoo", "statement": "Each filtering problem of the zoo is the documented state space model, for every choice of parameters: the locations are the grid of the time span, the returned dynamics, measurement model and initial random variable are the documented ones (constant-velocity car, Ornstein-Uhlenbeck process with the given drift speed and diffusion, noisy pendulum with the Jacobians of its functions, Benes-Daum with drift tanh and its derivative, logistic ODE residual with an integrated Wiener prior starting at the initial value), and the returned states and observations are a draw from this model: the initial state has the initial distribution, every step adds independent noise with the process covariance, every observation adds independent noise with the measurement covariance.", "quantifier": "all parameters (variances, diffusion, drift speed, step, time span or grid, orders, initial random variables and values) and all random draws; all grid lengths", "why_tests_cant": "tests run the factory functions with default parameters; the law of the data and the correctness of the models for every parameter cannot be sampled", "anchors": ["src/probnum/problems/zoo/filtsmooth/_filtsmooth_problems.py: car_tracking, ornstein_uhlenbeck, pendulum, benes_daum, logistic_ode", "src/probnum/randprocs/markov/utils/_generate_measurements.py: generate_artificial_measurements", "src/probnum/randprocs/markov/_markov.py: _sample_at_input"]}
{"id": "C89", "title": "Covariance matrices as linear operators", "statement": "For every covariance function built from the library by sums, products and multiples, linop(x0, x1) is an operator that behaves as the covariance matrix: its shape and dense form are those of matrix(x0, x1), its products with vectors and with stacks of matrices are the matrix products, its transpose acts as the transposed matrix, and its diagonal and trace are those of the matrix, with and without KeOps. Inputs and operands of wrong shapes are rejected. For a batch with itself the operator is symmetric and positive semidefinite.", "quantifier": "all covariance function expressions with accepted parameters, all input shapes and batches of points, one or two arguments, with and without KeOps, all operands", "why_tests_cant": "tests compare the operator with the dense matrix for a few random batches; equality of the two implementations for all parameters, batches and operands cannot be sampled", "anchors": ["src/probnum/randprocs/covfuncs/_covariance_linear_operator.py: CovarianceLinearOperator", "src/probnum/randprocs/covfuncs/_covariance_function.py: CovarianceFunction.linop, _evaluate_linop, _squared_euclidean_distances_keops", "src/probnum/randprocs/covfuncs/_exponentiated_quadratic.py: _keops_lazy_tensor", "src/probnum/randprocs/covfuncs/_matern.py: _keops_lazy_tensor", "src/probnum/linops/_linear_operator.py: __matmul__, diagonal, trace"]}
{"id": "C90", "title": "Toy integrands from Emukit", "statement": "The quadrature problems hennig1d, hennig2d, sombrero2d and circulargaussian2d ask for the integral of the documented integrand over [-3, 3]^d for every choice of parameters: the integrand evaluates the documented formula at every row of an array of points and is continuous (the sombrero takes its limit 1 at the origin); parameters outside the documented range are rejected; a stored solution is given for the default parameters only and is the value of the integral.", "quantifier": "all parameters c, w, m, v (given or not), all arrays of points", "why_tests_cant": "tests evaluate the integrands at a few points and compare a stored number with a numerical quadrature; the formula for all parameters and points, the accepted parameter sets and the exact integral cannot be sampled", "anchors": ["src/probnum/problems/zoo/quad/_emukit_problems.py: hennig1d, hennig2d, sombrero2d, circulargaussian2d"]}
{"id": "C91", "title": "Beliefs about linear systems", "statement": "A belief about a linear system is built from random variables for the solution x, the (pseudo-)inverse Ainv, the matrix A and the right-hand side b. It is accepted whenever either x, or Ainv and b, are given and the shapes belong to a system A x = b; arguments that do not fit raise ValueError, arguments that are not random variables and missing information raise TypeError. The properties return what was given; a solution that was not given is distributed as Ainv @ b.", "quantifier": "all combinations of given and missing arguments, all shapes and sizes, normal and constant random variables with any mean and covariance", "why_tests_cant": "tests build beliefs from a few random variables of one size and look at one mismatch each; the accepted set over all combinations and shapes and the distribution of the induced solution cannot be sampled", "anchors": ["src/probnum/linalg/solvers/beliefs/_linear_system_belief.py: LinearSystemBelief", "src/probnum/randvars/_arithmetic.py: matmul"]}
{"id": "C92", "title": "SciPy distributions as random variables", "statement": "asrandvar of a frozen SciPy distribution is a random variable with that distribution: a normal distribution becomes a Normal with its mean and variance; every other one reports its mean, variance, standard deviation, median, entropy and covariance, its distribution function, its quantiles (the least value at which the distribution function is at least p, an integer for discrete distributions), its probabilities or density, and in_support(x) tells whether x is a possible value. Samples are those SciPy draws with the given generator.", "quantifier": "all univariate frozen distributions with scalar parameters, discrete and continuous, all arguments, quantile levels strictly between 0 and 1, all sample sizes", "why_tests_cant": "tests wrap a handful of distributions and compare a few numbers with SciPy; that quantiles survive the conversion to integers and that the reported support carries the distribution is a statement about all distributions", "anchors": ["src/probnum/randvars/_scipy_stats.py: wrap_scipy_rv", "src/probnum/randvars/_random_variable.py: RandomVariable"]}
{"id": "C93", "title": "Lists of random variables", "statement": "A list of random variables, such as the states of a posterior or an ODE solution, contains only random variables. Its mean, cov, var, std, mode, support and probabilities are the values of its elements, stacked along a new first axis, at any time: after any sequence of reads, and after appending, replacing or deleting elements. l[i].mean is l.mean[i], l[a:b:c].mean is l.mean[a:b:c], and l.shape is l.mean.shape. The states of a posterior always include everything appended so far. Resampling resamples every element once, in order.", "quantifier": "all lists of any length with elements of any shape, all indices and slices, all histories of reads and changes", "why_tests_cant": "the values are cached: whether they are right depends on the whole history of the list, which unit tests sample with one read of one list", "anchors": ["src/probnum/randvars/_randomvariablelist.py: _RandomVariableList", "src/probnum/filtsmooth/_timeseriesposterior.py: TimeSeriesPosterior"]}
{"id": "C94", "title": "Shape arguments", "statement": "Wherever a shape or sample size is expected (random variables, processes, covariance functions, linear operators, functions, samples), an integer n stands for (n,) and any iterable of integers for the tuple of these integers; a converted shape is not changed by converting it again; everything else, and a shape with the wrong number of axes, raises TypeError.", "quantifier": "all integers, tuples, lists, arrays and iterators of any length with entries of any type, all required numbers of axes", "why_tests_cant": "tests try a few tuples and lists; iterables that can be read only once and the interplay of the checks are not among them", "anchors": ["src/probnum/utils/argutils.py: as_shape"]}
{"id": "C95", "title": "Matrix products from functions of one vector or matrix", "statement": "LinearOperator.broadcast_matvec and broadcast_matmat turn a function, or a method, that multiplies a matrix A with one vector or with one matrix into one that computes A @ x for every stack x of matrices, with any number of axes; arrays with fewer than two axes raise ValueError.", "quantifier": "all matrices A of any size, all functions that compute the product with A, all stacks of matrices of any shape, functions and methods", "why_tests_cant": "tests apply one decorated function to a few stacks; the order in which the axes are iterated and put back matters for all numbers of axes and sizes", "anchors": ["src/probnum/linops/_vectorize.py: vectorize_matmat", "src/probnum/linops/_vectorize.py: vectorize_matvec", "src/probnum/linops/_linear_operator.py: LinearOperator"]}
{"id": "C96", "title": "The jax versions of the example problems have the documented derivatives", "statement": "threebody_jax and vanderpol_jax return initial value problems whose right-hand side is the documented vector field and whose df and ddf are its Jacobian and its second derivatives at every state where the vector field is defined; they agree with the numpy versions threebody and vanderpol, and the default parameters are the documented ones. States of the wrong length are rejected.", "quantifier": "all times, all states, all parameters, all initial values", "why_tests_cant": "a test evaluates the derivatives at one or two states; the claim is about all states, including those at which the vector field is singular, and about all parameters", "anchors": ["src/probnum/problems/zoo/diffeq/_ivp_examples_jax.py: threebody_jax", "src/probnum/problems/zoo/diffeq/_ivp_examples_jax.py: vanderpol_jax"]}
{"id": "C97", "title": "Events of ODE solvers", "statement": "Callbacks are called after every accepted step: each reported state is the proposal of an accepted step after all callbacks in their order, each of which replaces the state exactly when its condition holds for the state it sees. Callbacks may replace the initial value problem: the solver then goes on until the final time of the new problem, with strictly increasing times that do not go beyond it.", "quantifier": "all callbacks, given as one object, a list or any other iterable; all solvers, step rules, error histories and numbers of steps; all replaced problems", "why_tests_cant": "events can occur at any step of any history, and the new problem can end before, at or after any point of the step that was already chosen", "anchors": ["src/probnum/diffeq/_odesolver.py: ODESolver.solution_generator", "src/probnum/diffeq/_odesolver.py: ODESolver.perform_full_step", "src/probnum/diffeq/callbacks/_discrete_callback.py: DiscreteCallback"]}
{"id": "C98", "title": "Uncertainty calibration of the linear solver", "statement": "problinsolve with a calibration changes only the uncertainty it returns (and thereby when it stops), never the estimates: outside the explored directions the covariance factors of the matrix and of its inverse are multiples phi and 1/phi of the identity, with phi the given number or the scale the chosen method computes from the Rayleigh quotients; in explored directions there is no uncertainty; the trace used for stopping is that of the returned covariance of the solution; negative scales and unknown methods raise ValueError.", "quantifier": "all symmetric positive definite systems of any size, right-hand sides, priors without random variables, calibrations, numbers of iterations", "why_tests_cant": "tests check that a calibrated solve runs; that the returned covariances are zero on what was observed and isotropic elsewhere concerns all systems, priors and numbers of iterations", "anchors": ["src/probnum/linalg/solvers/matrixbased.py: SymmetricMatrixBasedSolver.solve", "src/probnum/linalg/solvers/matrixbased.py: SymmetricMatrixBasedSolver._calibrate_uncertainty", "src/probnum/linalg/solvers/matrixbased.py: SymmetricMatrixBasedSolver._get_output_randvars", "src/probnum/linalg/solvers/matrixbased.py: SymmetricMatrixBasedSolver._compute_trace_Ainv_covfactor0"]}
{"id": "C99", "title": "Samples of a smoothing posterior at given times", "statement": "Sampling from the posterior that the Kalman smoother returns, at given times, yields one joint sample of the process at these times given all data, also at times between the data; without given times, at the locations of the data; times before the first location raise NotImplementedError.", "quantifier": "all linear Gaussian priors whose transitions compose, all observation models with regular noise, any number of data, all locations and query times, in any arrangement", "why_tests_cant": "tests compare shapes and look at sample paths; the joint distribution of the samples with the data, for all arrangements of query times among the locations, is no test outcome", "anchors": ["src/probnum/filtsmooth/gaussian/_kalmanposterior.py: KalmanPosterior.sample", "src/probnum/filtsmooth/gaussian/_kalmanposterior.py: SmoothingPosterior.transform_base_measure_realizations", "src/probnum/randprocs/markov/_transition.py: Transition.jointly_transform_base_measure_realization_list_backward"]}
{"id": "C100", "title": "Particle filters with importance distributions by local linearisation", "statement": "A particle filter whose importance distribution comes from an extended or unscented Kalman update is unbiased, however inaccurate the linearisation: for a particle with weight w, the expectation of the new weight times any function of the new particle is w times the integral of this function times the likelihood of the data under the dynamics. For affine measurement functions the extended Kalman update is the optimal importance distribution: the conditional distribution given the data, with new weights that do not depend on the draw.", "quantifier": "all dynamics with normal transition distributions, all measurement models with normal noise, all test functions, particles, weights and data, any dimension; the optimality for all affine measurement functions", "why_tests_cant": "unbiasedness is a statement about an expectation over all draws and for all test functions; tests compare one run with a reference", "anchors": ["src/probnum/filtsmooth/particle/_importance_distributions.py: LinearizationImportanceDistribution.generate_importance_rv", "src/probnum/filtsmooth/particle/_importance_distributions.py: LinearizationImportanceDistribution.process_initrv_with_data", "src/probnum/filtsmooth/particle/_particle_filter.py: ParticleFilter.importance_rv_generator"]}
{"id": "C101", "title": "Transitions of linear SDEs with time-varying coefficients", "statement": "For a linear SDE with continuous time-varying drift matrix, force and dispersion, and an ODE solver without error, forward transitions return the distribution of the solution after the time increment (state transition matrix, mean and covariance of the integrated noise), their dense output the distribution at times between; backward transitions of a realization return the conditional distribution of the state given the later state. Without a time increment they raise ValueError.", "quantifier": "all continuous coefficient functions, any dimension, initial distributions, times, increments and diffusions; backward transitions for regular initial covariance and nonnegative increment", "why_tests_cant": "tests compare time-invariant cases with discretised transitions at fixed tolerance; the statement is about all coefficient functions and involves integrals and conditional distributions", "anchors": ["src/probnum/randprocs/markov/continuous/_linear_sde.py: LinearSDE.forward_rv", "src/probnum/randprocs/markov/continuous/_linear_sde.py: LinearSDE.backward_rv", "src/probnum/randprocs/markov/continuous/_sde.py: SDE.forward_realization", "src/probnum/randprocs/markov/continuous/_sde.py: SDE.backward_realization"]}
{"id": "C102", "title": "Dense output of ODE filter solutions", "statement": "Evaluating the solution returned by probsolve_ivp at a reported time gives the stored state; at a time between two reported ones the filtering solution gives the prediction of the prior from the earlier state with the calibrated diffusion of that step, the smoothing solution the conditional distribution between the two smoothed states; after the end both give the prediction from the last state; before the start nothing is returned. Arrays of times are evaluated time by time and must be sorted.", "quantifier": "all ODEs, calls, diffusion models and evaluation times", "why_tests_cant": "tests evaluate a few solutions at a few times and check shapes or closeness to a reference; the statement is about the distribution at every time", "anchors": ["src/probnum/diffeq/odefilter/_odefilter_solution.py: ODEFilterSolution", "src/probnum/filtsmooth/gaussian/_kalmanposterior.py: FilteringPosterior.interpolate", "src/probnum/filtsmooth/gaussian/_kalmanposterior.py: SmoothingPosterior.interpolate", "src/probnum/filtsmooth/_timeseriesposterior.py: TimeSeriesPosterior.__call__", "src/probnum/diffeq/odefilter/_odefilter.py: ODEFilter.postprocess"]}
{"id": "C103", "title": "Condition numbers and eigenvalues of linear operators", "statement": "cond(p) of a square linear operator is the condition number of its dense matrix with respect to the matrix norm of the order p, infinite if the matrix is singular, so that it bounds the relative error of solutions of linear systems; repeated calls return the same value; eigvals() lists the eigenvalues of the dense matrix with their multiplicities, their sum is trace() and their product is det(). Operators that are not square are rejected.", "quantifier": "all square linear operators built from the classes and combinators of linops, all orders of the norm, all sequences of calls", "why_tests_cant": "tests compare cond and eigvals of a few fixed matrices with numpy; the shortcuts for scalings, identities, Kronecker products and block-diagonal matrices must agree for every tree of operators, including singular ones", "anchors": ["src/probnum/linops/_linear_operator.py: LinearOperator.cond", "src/probnum/linops/_linear_operator.py: LinearOperator.eigvals", "src/probnum/linops/_linear_operator.py: Identity._cond", "src/probnum/linops/_scaling.py: Scaling._cond_anisotropic", "src/probnum/linops/_scaling.py: Scaling._cond_isotropic", "src/probnum/linops/_kronecker.py: Kronecker._cond", "src/probnum/linops/_block.py: BlockDiagonalMatrix._eigvals"]}
{"id": "C104", "title": "Linear operators applied along an axis of an array", "statement": "A(x, axis) applies the dense matrix of the operator along the given axis (from the front or, negative, from the back; the last one by default) of an array with any number of axes; A @ x does so for vectors and stacks of matrices, and x @ A multiplies along the last axis from the right. Applications along different axes can be exchanged, and Kronecker(A, B) acts on a flattened matrix as A along the rows and B along the columns. Axes that do not exist or have the wrong length raise ValueError.", "quantifier": "all linear operators built from the classes and combinators of linops, all array shapes, all axes", "why_tests_cant": "tests apply a few operators to arrays of a few shapes; the shortcuts of scalings and identities and the moved axes must agree with the matrix for every number of axes", "anchors": ["src/probnum/linops/_linear_operator.py: LinearOperator.__call__", "src/probnum/linops/_linear_operator.py: LinearOperator._apply", "src/probnum/linops/_linear_operator.py: LinearOperator.__matmul__", "src/probnum/linops/_linear_operator.py: LinearOperator.__rmatmul__", "src/probnum/linops/_scaling.py: Scaling"]}
{"id": "C105", "title": "Sampling random processes with a requested size", "statement": "process.sample(rng, args, size) of a Markov process returns an array of shape size + (number of locations, length of the state) that consists of independent sample paths with the distribution of the process at the given locations: k requested paths are what k successive calls for one path return. Samples of a Gaussian process have the shape size + batch + output shape. A Markov process can be evaluated like any random process (mean, covariance, variance, standard deviation).", "quantifier": "all initial random variables, linear Gaussian transitions, locations, sizes and streams of random numbers", "why_tests_cant": "independence and distribution of samples are statements about all outcomes of the generator, and tests use one size and locations that begin at the initial location", "anchors": ["src/probnum/randprocs/_random_process.py: RandomProcess.sample", "src/probnum/randprocs/_random_process.py: RandomProcess._sample_at_input", "src/probnum/randprocs/markov/_markov.py: _MarkovBase", "src/probnum/randprocs/markov/_markov.py: MarkovProcess", "src/probnum/randprocs/markov/_markov.py: MarkovSequence", "src/probnum/randprocs/markov/_transition.py: jointly_transform_base_measure_realization_list_forward"]}
{"id": "C106", "title": "Solution-based linear solvers do exact Bayesian inference", "statement": "At any time of a run of a solution-based probabilistic linear solver the belief about the solution is the conditional distribution of the solution given the projections of the right-hand side on the actions taken so far; its trace is the expected squared error; without noise its mean is the best approximation of the exact solution, in the norm of the prior covariance, among the points reachable with the actions, so that the error never increases. The belief about the inverse of the system matrix that the solver returns agrees with the system.", "quantifier": "all square systems, normal priors, noise variances, policies, stopping criteria, action sequences and numbers of iterations", "why_tests_cant": "conditional distributions and optimality are statements about all outcomes and all competitors; tests check that the final mean is close to a solution", "anchors": ["src/probnum/linalg/solvers/belief_updates/solution_based/_projected_residual_belief_update.py: ProjectedResidualBeliefUpdate", "src/probnum/linalg/solvers/information_ops/_projected_residual.py: ProjectedResidualInformationOp", "src/probnum/linalg/solvers/_probabilistic_linear_solver.py: ProbabilisticLinearSolver", "src/probnum/linalg/solvers/_probabilistic_linear_solver.py: BayesCG", "src/probnum/linalg/solvers/policies/_conjugate_gradient.py: ConjugateGradientPolicy"]}
{"id": "C107", "title": "Iterated extended Kalman updates are Gauss-Newton steps towards the posterior mode", "statement": "An iterated update (IteratedDiscreteComponent around an extended Kalman component) repeats the update linearised at the latest estimate. Each repetition goes to the minimiser of the negative log posterior of the linearised model; it moves in a descent direction of the true negative log posterior and leaves an estimate unchanged exactly if it is a stationary point. What is returned is such an update whose distance to the previous estimate is within the tolerances; for affine measurement functions it is the exact conditional after one repetition; if a mode exists, the iteration finds one.", "quantifier": "all differentiable measurement functions with their Jacobians, normal priors and noises with densities, observations, linearisation points, tolerances and iteration limits", "why_tests_cant": "a statement about derivatives and minimisers for all functions and all points; tests compare a few numbers with the plain update", "anchors": ["src/probnum/filtsmooth/optim/_iterated_component.py: IteratedDiscreteComponent", "src/probnum/filtsmooth/optim/_stopping_criterion.py: FiltSmoothStoppingCriterion", "src/probnum/filtsmooth/gaussian/approx/_extendedkalman.py: DiscreteEKFComponent", "src/probnum/filtsmooth/gaussian/approx/_interface.py: _LinearizationInterface"]}
{"id": "C108", "title": "The iterated smoother makes Gauss-Newton steps towards the joint maximum-a-posteriori estimate", "statement": "Kalman.iterated_filtsmooth repeats the smoothing pass with extended Kalman measurement models linearised at the previous posterior, for every regression problem with increasing locations from the initial time on. The means a pass returns are the unique minimiser of the joint negative log posterior of all states in which the measurement functions are expanded at the previous means; the pass moves in a descent direction of the true joint negative log posterior and leaves the means unchanged exactly if they are a stationary point. What is returned is such a pass whose distance to the previous one is within the tolerances; for affine measurement functions it is the maximum-a-posteriori estimate, after one repetition.", "quantifier": "all linear Gaussian Markov priors, numbers and positions of locations, differentiable measurement functions with their Jacobians, noises with densities, observations, initial posteriors, tolerances and iteration limits", "why_tests_cant": "a statement about derivatives and minimisers over state sequences of any length, for all functions; tests compare mean squared errors on one example", "anchors": ["src/probnum/filtsmooth/gaussian/_kalman.py: Kalman.iterated_filtsmooth, Kalman.iterated_filtsmooth_posterior_generator, Kalman.filtsmooth", "src/probnum/filtsmooth/gaussian/_kalmanposterior.py: SmoothingPosterior.interpolate", "src/probnum/filtsmooth/gaussian/approx/_extendedkalman.py: DiscreteEKFComponent", "src/probnum/filtsmooth/optim/_stopping_criterion.py: FiltSmoothStoppingCriterion"]}
{"id": "C109", "title": "Matern processes in state-space form are the Gaussian processes with Matern covariance function", "statement": "A MaternProcess of any order, dimension and positive lengthscale has exactly one stationary distribution. Started in it, its coordinates at any increasing times are jointly normal, independent of each other, and have the covariance function Matern(nu = num_derivatives + 1/2, same lengthscale) times the constant (2q)!/((q!)^2 (2 sqrt(2 nu)/lengthscale)^(2q+1)), for q = num_derivatives. Started anywhere else it forgets its initial distribution: mean and covariance tend to the stationary ones. The highest derivatives of an integrated Ornstein-Uhlenbeck process with stationary initial variance 1/(2 driftspeed) have the covariance function exp(-driftspeed |s - t|)/(2 driftspeed).", "quantifier": "all orders, dimensions, lengthscales, drift speeds, diffusions, finite increasing time grids of any length, and initial distributions", "why_tests_cant": "an identity between two implementations (matrix exponentials of a companion matrix, and a covariance function with half-integer coefficients) for all orders and grids; tests check shapes and single entries", "anchors": ["src/probnum/randprocs/markov/integrator/_matern.py: MaternProcess, MaternTransition", "src/probnum/randprocs/markov/integrator/_ioup.py: IntegratedOrnsteinUhlenbeckProcess", "src/probnum/randprocs/markov/continuous/_lti_sde.py: LTISDE.discretise", "src/probnum/randprocs/covfuncs/_matern.py: Matern"]}
{"id": "C110", "title": "Kalman smoothing is Gaussian process regression", "statement": "For every linear Gaussian state-space model, if filtsmooth does not raise, the states it returns are those of Gaussian regression with all observations at once: mean mu + K H^T (H K H^T + R)^-1 (y - H mu - b) and covariance K - K H^T (H K H^T + R)^-1 H K, for mean mu and covariance function K of the prior process. In particular, with a MaternProcess that starts in its stationary distribution, measured in the process values with positive definite noise, filtsmooth does not raise and returns at every location mean and covariance of Gaussian process regression with the covariance function Matern(nu = num_derivatives + 1/2) times a constant. Filtering and smoothing with Matern and integrated Ornstein-Uhlenbeck priors never raises if the measurement noise is positive definite and the locations increase.", "quantifier": "all linear Gaussian state-space models, numbers of observations, increasing locations, noises, data; all orders, dimensions and lengthscales of the Matern process", "why_tests_cant": "the two algorithms share no code and no intermediate quantity; tests could compare them on a few data sets only", "anchors": ["src/probnum/filtsmooth/gaussian/_kalman.py: Kalman.filtsmooth", "src/probnum/randprocs/markov/integrator/_matern.py: MaternProcess, MaternTransition", "src/probnum/randprocs/markov/integrator/_integrator.py: IntegratorMixIn.proj2coord", "src/probnum/randprocs/markov/discrete/_linear_gaussian.py: LinearGaussian", "src/probnum/randprocs/covfuncs/_matern.py: Matern"]}
{"id": "C111", "title": "Integrator priors are Gaussian processes with an explicit covariance function", "statement": "A process with the transitions of an integrator (Matern, integrated Ornstein-Uhlenbeck) started with any Gaussian initial state N(m, C) at t0 has mean Phi(t - t0) m and covariance function Phi(s - t0) C Phi(t - t0)^T + int_t0^min(s,t) g(s - u) g(t - u)^T du, for Phi(h) = exp(h G) and the impulse response g, the last column of Phi; the times may be spaced in any way. With IntegratedWienerTransition this is the integrated Wiener process: Taylor polynomials of the initial state plus int (s-u)^(q-i)/(q-i)! (t-u)^(q-j)/(q-j)! du; min(s, t) for q = 0 and the cubic spline kernel for q = 1. Filtering and smoothing with these priors from any initial state, with any linear measurements with positive definite noise, does not raise, and returns the full states of Gaussian process regression with this covariance function.", "quantifier": "all orders, dimensions, drift matrices, initial means and positive semidefinite covariances, numbers of increasing locations, measurement matrices, noises and data", "why_tests_cant": "the covariance function appears nowhere in the code; it is a consequence of all transitions together, for times with arbitrary spacing", "anchors": ["src/probnum/randprocs/markov/integrator/_iwp.py: IntegratedWienerTransition.discretise", "src/probnum/randprocs/markov/integrator/_ioup.py: IntegratedOrnsteinUhlenbeckTransition", "src/probnum/randprocs/markov/integrator/_matern.py: MaternTransition", "src/probnum/randprocs/markov/continuous/_lti_sde.py: LTISDE.discretise", "src/probnum/filtsmooth/gaussian/_kalman.py: Kalman.filtsmooth", "src/probnum/randprocs/markov/discrete/_linear_gaussian.py: LinearGaussian"]}
{"id": "C112", "title": "Local order of ODE filter steps", "statement": "A step of the ODE filter with q derivatives from a state that holds the exact value and derivatives of the solution of an autonomous ODE, as the automatic differentiation routines return it, has an error of order h^(q+1-k) in the k-th derivative for k = 0..q: the value has local order q+1. This holds for EK0 and EK1, for both diffusion models, and for EK1 with any continuous function in place of the Jacobian. The first step of EK0 is the Taylor extrapolation plus explicit multiples of the residual at the extrapolated value; for q = 1 it is a step of Heun's method, and the new derivative is the vector field at the extrapolated value.", "quantifier": "all dimensions, orders q >= 1, q times continuously differentiable vector fields, solutions, step rules, diffusion models and their states, and all sufficiently small step sizes", "why_tests_cant": "an order of convergence is a statement about all step sizes tending to zero for all vector fields; tests observe it for a few problems only", "anchors": ["src/probnum/diffeq/odefilter/_odefilter.py: ODEFilter.attempt_step", "src/probnum/diffeq/odefilter/approx_strategies/_ek.py: EK0, EK1", "src/probnum/diffeq/odefilter/information_operators/_ode_residual.py: ODEResidual", "src/probnum/randprocs/markov/integrator/_iwp.py: IntegratedWienerTransition.discretise", "src/probnum/diffeq/odefilter/init_routines/_autodiff.py: _AutoDiffBase"]}
{"id": "C113", "title": "EK0: covariances independent of the data, and the trapezoidal rule", "statement": "With EK0 and the constant diffusion, started from a covariance I (x) P (for example a certain state), the covariance of every accepted state is I (x) P_k, where P_k follows a recursion in the accepted times only: the ODE, its data and the initial mean do not occur, and two ODEs with the same accepted times get the same covariances before calibration. With one derivative the value has variance sum h_i^3 / 12 (times the calibrated squared diffusion in the returned posterior), and the derivative is certain; and with either diffusion model the means are, at all accepted times and for all step sizes, exactly the trapezoidal rule with an explicit Euler prediction.", "quantifier": "all autonomous vector fields, dimensions, numbers of derivatives (covariances), sequences of attempted step sizes, step rules and diffusion models", "why_tests_cant": "that the covariance is a function of the mesh alone is a statement about pairs of runs of arbitrary length for arbitrary ODEs", "anchors": ["src/probnum/diffeq/odefilter/_odefilter.py: ODEFilter.attempt_step, ODEFilter.postprocess", "src/probnum/diffeq/odefilter/approx_strategies/_ek.py: EK0", "src/probnum/randprocs/markov/integrator/_iwp.py: IntegratedWienerTransition.discretise", "src/probnum/diffeq/_odesolver.py: ODESolver.solve"]}
{"id": "C114", "title": "Global convergence of the EK0 filter with one derivative", "statement": "For an autonomous ODE with a twice continuously differentiable, globally Lipschitz vector field there are C and H0, depending on the ODE, the solution and the interval only, such that for every run of the EK0 filter with one derivative from the exact value and derivative, with step sizes at most H <= H0, the errors of the value and of the derivative are at most C H^2 at all accepted times up to T. In particular N equal steps with the constant step rule and the constant diffusion return, end at T, and have error at most C / N^2. Every such initial value problem has exactly one solution, so this determines the limit for every vector field and initial value.", "quantifier": "all such vector fields, dimensions, intervals, sequences of attempted step sizes, step rules, diffusion models and initialisation modes", "why_tests_cant": "a convergence order is a limit over all step sizes with constants that must be uniform over all runs", "anchors": ["src/probnum/diffeq/odefilter/_odefilter.py: ODEFilter.attempt_step", "src/probnum/diffeq/odefilter/approx_strategies/_ek.py: EK0", "src/probnum/diffeq/odefilter/init_routines/_autodiff.py: _AutoDiffBase", "src/probnum/diffeq/_odesolver.py: ODESolver.solve", "src/probnum/diffeq/stepsize/_steprule.py: ConstantSteps"]}
{"id": "C115", "title": "Convergence of the perturbed Runge-Kutta solver for every realisation", "statement": "Let y' = g(y) have a Lipschitz vector field and let scipy's method be an explicit Runge-Kutta formula whose local error along the solution is O(h^(p+1)), where p is the order of the method. Then perturbsolve_ivp with the uniform perturbation and constant steps returns for all small steps, and there is a constant, the same for every realisation of the random numbers and all stop locations, such that its error at all reported times is at most the constant times step^(p - 1/2). On linear ODEs y' = l y, and for RK45 on linear systems y' = B y, the coefficients of RK45 and RK23 meet the condition, so the orders are 4.5 and 2.5. RK23 meets it on every autonomous ODE with a three times continuously differentiable Lipschitz vector field. The orders 4.5 and 2.5 cannot be improved: on y' = y there are for both methods realisations with an error of at least a constant times step^(p - 1/2). Without noise RK23 converges with order 3. With the lognormal perturbation the error is at most a constant times (1 + B) step^p, where B bounds the standard normal draws that were used; so it exceeds this with probability at most 2 N exp(-B^2/2), where N = (tmax - t0) / step + number of stop locations + 1 bounds the number of steps.", "quantifier": "all Lipschitz autonomous vector fields, dimensions, intervals, noise scales, explicit Runge-Kutta formulas, small steps, stop locations and realisations of the random numbers", "why_tests_cant": "a convergence order is a limit over all step sizes with a constant that must hold for every random draw", "anchors": ["src/probnum/diffeq/_perturbsolve_ivp.py: perturbsolve_ivp", "src/probnum/diffeq/perturbed/step/_perturbedstepsolver.py: PerturbedStepSolver", "src/probnum/diffeq/perturbed/step/_perturbation_functions.py: perturb_uniform, perturb_lognormal", "src/probnum/diffeq/perturbed/scipy_wrapper/_wrapped_scipy_solver.py: WrappedScipyRungeKutta", "src/probnum/diffeq/_odesolver.py: ODESolver.solve"]}
