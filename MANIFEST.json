{
 "claims": [
  {
   "property": "C01",
   "status": "partial",
   "theorems": [
    "Probnum.Config.with_runs_body_under_requested_values",
    "Probnum.Config.with_restores_named",
    "Probnum.Config.scoped_program_restores_everything",
    "Probnum.Config.unregistered_access_raises",
    "Probnum.Config.register_twice_raises",
    "Probnum.Config.register_then_get",
    "Probnum.Config.assign_then_get",
    "Probnum.Config.with_unregistered_exact",
    "Probnum.Config.with_unregistered_changes_options",
    "Probnum.Config.with_first_unregistered_unchanged_partial"
   ],
   "note": "All clauses proved except the last: naming an unregistered option after a registered one leaves the registered one changed (with_unregistered_changes_options is the counterexample, with_unregistered_exact the exact behaviour)."
  },
  {
   "property": "C02",
   "status": "proved",
   "theorems": [
    "Probnum.Stopping.combined_criterion_correct",
    "Probnum.Stopping.equivalent_formulas_same_verdict",
    "Probnum.Stopping.visited_sublist_atoms",
    "Probnum.Stopping.and_short_circuit",
    "Probnum.Stopping.or_short_circuit",
    "Probnum.Stopping.exception_propagates"
   ],
   "note": "Formulas of any depth, any truthiness type, any exceptions."
  },
  {
   "property": "C03",
   "status": "partial",
   "theorems": [
    "Probnum.Ode.times_increasing_within_domain_partial",
    "Probnum.Ode.solution_ends_at_tmax_partial",
    "Probnum.Ode.constantEnv_timeKeeping",
    "Probnum.Ode.first_step_overshoots",
    "Probnum.Ode.zero_step_never_terminates",
    "Probnum.Ode.adaptive_solver_terminates",
    "Probnum.Ode.constant_solver_terminates",
    "Probnum.Ode.loop_terminates",
    "Probnum.Ode.adaptive_solver_terminates_with_stops",
    "Probnum.Ode.constant_solver_terminates_with_stops"
   ],
   "note": "Proved when the first step fits into the domain and stop locations are sorted; without that the code violates it (first_step_overshoots). Termination proved for adaptive and for positive constant steps; a zero constant step loops forever (zero_step_never_terminates)."
  },
  {
   "property": "C04",
   "status": "partial",
   "theorems": [
    "Probnum.Ode.stop_locations_hit_partial",
    "Probnum.Ode.stop_locations_not_skipped_partial",
    "Probnum.Ode.two_early_stops_repeat_time",
    "Probnum.Ode.unsorted_stops_step_backwards",
    "Probnum.Ode.empty_stops_raise"
   ],
   "note": "Proved for admissible stop lists; counterexamples for unsorted lists, an empty list and two stops at or before the start."
  },
  {
   "property": "C05",
   "status": "proved",
   "theorems": [
    "Probnum.Ode.AdaptiveSteps.suggest_within_limits",
    "Probnum.Ode.AdaptiveSteps.suggest_total_inside",
    "Probnum.Ode.AdaptiveSteps.suggest_antitone",
    "Probnum.Ode.AdaptiveSteps.suggest_shrinks_on_rejection",
    "Probnum.Ode.accepted_iff_weighted_rms",
    "Probnum.Ode.adaptive_positive",
    "Probnum.Ode.adaptive_rejectShrinks",
    "Probnum.Ode.finitely_many_rejections"
   ],
   "note": "Exact real arithmetic; finitely_many_rejections is about the solver loop itself."
  },
  {
   "property": "C06",
   "status": "proved",
   "theorems": [
    "Probnum.Ode.only_accepted_steps_reported",
    "Probnum.Ode.attempts_start_from_last_accepted",
    "Probnum.Ode.failed_attempt_not_reported",
    "Probnum.Ode.num_steps_not_reset"
   ],
   "note": ""
  },
  {
   "property": "C07",
   "status": "partial",
   "theorems": [
    "Probnum.Diffusion.constant_before_update_raises",
    "Probnum.Diffusion.constant_diffusion_exact",
    "Probnum.Diffusion.constant_diffusion_is_not_mean",
    "Probnum.Diffusion.constant_diffusion_ignores_first",
    "Probnum.Diffusion.constant_diffusion_is_mean_partial",
    "Probnum.Diffusion.constant_diffusion_constant",
    "Probnum.Diffusion.constant_diffusion_bounds"
   ],
   "note": "The code does not compute the mean: the first estimate is discarded (constant_diffusion_is_not_mean); exact behaviour proved for every history."
  },
  {
   "property": "C08",
   "status": "partial",
   "theorems": [
    "Probnum.Diffusion.calibrate_iff",
    "Probnum.Diffusion.piecewise_before_update_raises",
    "Probnum.Diffusion.piecewise_exact",
    "Probnum.Diffusion.piecewise_documented_partial",
    "Probnum.Diffusion.piecewise_violates_at_start",
    "Probnum.Diffusion.piecewise_violates_at_boundary"
   ],
   "note": "Agrees with the documentation except at t0 and the interior step boundaries, where the code returns another estimate; exact behaviour proved."
  },
  {
   "property": "C09",
   "status": "proved",
   "theorems": [
    "Probnum.Posterior.append_exact",
    "Probnum.Posterior.container_invariant",
    "Probnum.Posterior.frozen_is_final",
    "Probnum.Posterior.constructor_does_not_check"
   ],
   "note": "Invariant for histories starting from an empty posterior; the constructor itself checks nothing (constructor_does_not_check)."
  },
  {
   "property": "C10",
   "status": "proved",
   "theorems": [
    "Probnum.Posterior.array_evaluation_is_pointwise",
    "Probnum.Posterior.array_evaluation_length",
    "Probnum.Posterior.unsorted_query_raises",
    "Probnum.Posterior.empty_posterior_raises",
    "Probnum.Posterior.filtering_on_grid",
    "Probnum.Posterior.smoothing_on_grid",
    "Probnum.Posterior.filtering_between",
    "Probnum.Posterior.smoothing_between",
    "Probnum.Posterior.right_extrapolation",
    "Probnum.Posterior.left_extrapolation_raises"
   ],
   "note": "Transitions abstract; what the smoothing posterior computes between grid points is stated exactly."
  },
  {
   "property": "C100",
   "status": "partial",
   "theorems": [
    "Probnum.Particle.importance_unbiased_partial",
    "Probnum.Particle.initial_unbiased_partial",
    "Probnum.Particle.ekf_importance_regular",
    "Probnum.Particle.ekf_importance_optimal",
    "Probnum.Particle.zero_weight_revived",
    "Probnum.Particle.importance_errors"
   ],
   "note": "Exact arithmetic; the generator of random numbers is an oracle for standard normal vectors. The code violates the property: weights are multiplied with w + 1e-14 instead of w, so that particles with weight zero come back (zero_weight_revived). For the unscented filter the regularity of the updated covariance is a hypothesis."
  },
  {
   "property": "C101",
   "status": "partial",
   "theorems": [
    "Probnum.SDE.exists_fundamental",
    "Probnum.SDE.exists_exact",
    "Probnum.SDE.forward_rv_exact",
    "Probnum.SDE.forward_rv_law",
    "Probnum.SDE.backward_rv_exact",
    "Probnum.SDE.backward_realization_conditional",
    "Probnum.SDE.forward_sqrt_exact_partial",
    "Probnum.SDE.forward_sqrt_wrong",
    "Probnum.SDE.sqrt_realization_raises",
    "Probnum.SDE.transitions_need_dt"
   ],
   "note": "Exact arithmetic, and an ODE solver that returns a solution whenever there is one. The law of the SDE is given by its transition (fundamental matrix and integrals), stochastic integrals themselves are not constructed. The code violates the property for forward_implementation=\"sqrt\": the factor never decreases, so that decreasing variances come out wrong (forward_sqrt_wrong), and forward_realization raises LinAlgError (sqrt_realization_raises)."
  },
  {
   "property": "C102",
   "status": "partial",
   "theorems": [
    "Probnum.OdeFilter.solution_on_grid",
    "Probnum.OdeFilter.solution_before_start",
    "Probnum.OdeFilter.solution_after_end",
    "Probnum.OdeFilter.filtering_solution_between",
    "Probnum.OdeFilter.smoothing_solution_between_partial",
    "Probnum.OdeFilter.probsolve_constant_dense",
    "Probnum.OdeFilter.probsolve_dynamic_dense",
    "Probnum.OdeFilter.probsolve_constant_smoothing_partial",
    "Probnum.OdeFilter.probsolve_dynamic_smoothing_partial",
    "Probnum.OdeFilter.smoothing_ignores_first_diffusion",
    "Probnum.OdeFilter.sample_diffusions_shifted",
    "Probnum.OdeFilter.solution_at_many_times",
    "Probnum.OdeFilter.solution_derivatives",
    "Probnum.OdeFilter.sampled_solution"
   ],
   "note": "Exact arithmetic; autonomous ODEs for the statements about probsolve_ivp itself. The code violates the property for the smoothing solution: between reported times it uses the diffusion of the next step (smoothing_solution_between_partial, smoothing_ignores_first_diffusion; samples as well: sample_diffusions_shifted), and with the constant diffusion it starts from uncalibrated states, so that after the end it differs from the filtering solution (probsolve_constant_smoothing_partial)."
  },
  {
   "property": "C103",
   "status": "partial",
   "theorems": [
    "Probnum.Linops.Cond.cond_is_condition_number",
    "Probnum.Linops.Cond.cond_bounds_error",
    "Probnum.Linops.Cond.cond_eq_dense_partial",
    "Probnum.Linops.Cond.cond_eigvals_reject",
    "Probnum.Linops.Cond.cond_cached",
    "Probnum.Linops.Cond.eigvals_eq_dense",
    "Probnum.Linops.Cond.eigvals_det_trace",
    "Probnum.Linops.Cond.singular_scaling_negative",
    "Probnum.Linops.Cond.kronecker_negative",
    "Probnum.Linops.Cond.identity_nuclear"
   ],
   "note": "Exact real matrices. All documented orders (None, 1, 2, inf, \"fro\") are proved in full. The code violates the property for other orders of numpy: a singular Scaling with p = -2 gives inf instead of 0 (singular_scaling_negative), a Kronecker product with p = -2 can give nan (kronecker_negative), and Identity.cond(\"nuc\") recurses without end (identity_nuclear); cond_eq_dense_partial covers the other cases."
  },
  {
   "property": "C104",
   "status": "proved",
   "theorems": [
    "Probnum.Linops.Call.call_eq_dense",
    "Probnum.Linops.Call.matmul_arrays",
    "Probnum.Linops.Call.rmatmul_arrays",
    "Probnum.Linops.Call.call_rejects",
    "Probnum.Linops.Call.matmul_rejects",
    "Probnum.Linops.Call.call_comm",
    "Probnum.Linops.Call.kronecker_call"
   ],
   "note": "Exact real entries; arrays with an axis of length 0 and type casts of operators are not modelled."
  },
  {
   "property": "C105",
   "status": "partial",
   "theorems": [
    "Probnum.Markov.constructors",
    "Probnum.Markov.evaluation_unavailable",
    "Probnum.Markov.paths_unavailable",
    "Probnum.Markov.successive_paths",
    "Probnum.Markov.paths_independent",
    "Probnum.Markov.nested_sizes",
    "Probnum.Markov.scalar_location",
    "Probnum.Markov.sample_rejects",
    "Probnum.Markov.start_ignored",
    "Probnum.Markov.late_start_wrong",
    "Probnum.Markov.gp_sample"
   ],
   "note": "Holds for sizes with at most one axis (successive_paths, paths_independent); the distribution is that of the process if the initial covariance is zero and the locations begin at the initial location. Violated: sizes with several axes (nested_sizes), the initial location is ignored (start_ignored, late_start_wrong), mean and covariance of Markov processes cannot be evaluated (evaluation_unavailable), axes of length one are lost for Gaussian processes (gp_sample), a scalar location gets an axis (scalar_location). The samples at the first two locations share their random numbers (C16)."
  },
  {
   "property": "C106",
   "status": "partial",
   "theorems": [
    "Probnum.Linalg.Bayes.posterior_law",
    "Probnum.Linalg.Bayes.expected_error",
    "Probnum.Linalg.Bayes.best_approximation",
    "Probnum.Linalg.Bayes.error_decreases",
    "Probnum.Linalg.Bayes.solver_belief",
    "Probnum.Linalg.Bayes.policy_benign",
    "Probnum.Linalg.Bayes.bayescg_best",
    "Probnum.Linalg.Bayes.inverse_accumulates",
    "Probnum.Linalg.Bayes.inverse_without_prior_partial",
    "Probnum.Linalg.Bayes.exact_inverse_lost"
   ],
   "note": "Exact inference for fixed actions, any prior and system (posterior_law, expected_error), best approximation for nonsingular systems and positive definite priors, and the link to the loop for arbitrary policies (solver_belief, bayescg_best). For actions that depend on the data the conditional law is that for the actions taken, path by path; a statement with random actions is not proved. Violated: the belief about the inverse accumulates the decrease of the covariance of the solution; it is right only if the prior covariance is the inverse and no belief about the inverse was given, and an exact inverse in the prior is lost (inverse_without_prior_partial, exact_inverse_lost)."
  },
  {
   "property": "C107",
   "status": "partial",
   "theorems": [
    "Probnum.Iterated.update_minimises",
    "Probnum.Iterated.update_gauss_newton",
    "Probnum.Iterated.update_fixed_iff",
    "Probnum.Iterated.update_descends",
    "Probnum.Iterated.iterated_result",
    "Probnum.Iterated.iterated_affine",
    "Probnum.Iterated.iterated_stationary",
    "Probnum.Iterated.iterated_cycles"
   ],
   "note": "Every update is the exact Gauss-Newton step (update_minimises, update_gauss_newton), fixed exactly at stationary points (update_fixed_iff), in a descent direction (update_descends); the outcomes of the iteration are those of iterated_result; affine models and stationary starting points take one repetition (iterated_affine, iterated_stationary). Violated: without step-size control the iteration need not find a mode that exists; for y = x - x^3 - 2 + noise it alternates between 0 and 1 and raises RuntimeError for all tolerances with atol + rtol < 1 (iterated_cycles)."
  },
  {
   "property": "C108",
   "status": "partial",
   "theorems": [
    "Probnum.Iterated.smoother_minimises",
    "Probnum.Iterated.smoother_gauss_newton",
    "Probnum.Iterated.smoother_fixed_iff",
    "Probnum.Iterated.smoother_descends",
    "Probnum.Iterated.iterated_smoother_result",
    "Probnum.Iterated.iterated_smoother_affine",
    "Probnum.Iterated.smoother_is_map",
    "Probnum.Iterated.pass_late_start",
    "Probnum.Iterated.iterated_smoother_late_start"
   ],
   "note": "For problems whose first location is not after the initial time: the pass is the exact Gauss-Newton step (smoother_minimises, smoother_gauss_newton), fixed exactly at stationary points (smoother_fixed_iff), in a descent direction (smoother_descends); the outcomes are those of iterated_smoother_result; affine models need one repetition (iterated_smoother_affine). The plain smoother of an affine model is the maximum-a-posteriori estimate without this restriction (smoother_is_map). Violated: if the first location is after the initial time, the previous posterior is evaluated left of its grid and every run raises NotImplementedError (pass_late_start, iterated_smoother_late_start). Nonlinear prior dynamics are not covered."
  },
  {
   "property": "C109",
   "status": "partial",
   "theorems": [
    "Probnum.SDE.matern_stationary",
    "Probnum.SDE.matern_forgets",
    "Probnum.SDE.matern_covariance",
    "Probnum.SDE.matern_forward_rv",
    "Probnum.SDE.matern_default_stationary_iff",
    "Probnum.SDE.matern_argument_stationary_iff",
    "Probnum.SDE.ioup_covariance"
   ],
   "note": "Exact arithmetic and exact matrix exponentials. Stationary distributions with mean zero; forward_rv returns it up to the damping of cov_cholesky (matern_forward_rv). Violated by the default arguments: the initial covariance is the (scaled) identity, which is stationary only for order 0 and lengthscale 2, or 2000000 if diffuse (matern_default_stationary_iff); the class offers no way to ask for the stationary covariance. The laws of the SDE are given by its transitions, stochastic integrals are not constructed."
  },
  {
   "property": "C11",
   "status": "partial",
   "theorems": [
    "Probnum.Kalman.problem_make_exact",
    "Probnum.Kalman.filter_one_state_per_observation",
    "Probnum.Kalman.unordered_locations_raise",
    "Probnum.Kalman.step_exception_propagates",
    "Probnum.Kalman.later_observations_are_predicted",
    "Probnum.Kalman.first_location_before_start_not_predicted",
    "Probnum.Kalman.prediction_over_shifted_interval"
   ],
   "note": "One state per observation, ordering and exceptions proved for every problem. Two violations proved: a first location before the initial time is updated without prediction, and the transition is called with the end of the interval as its start time."
  },
  {
   "property": "C110",
   "status": "proved",
   "theorems": [
    "Probnum.Kalman.filtsmooth_is_regression",
    "Probnum.SDE.matern_smoothing_is_gp_regression",
    "Probnum.SDE.matern_ioup_filtsmooth_ok",
    "Probnum.SDE.integrator_filtsmooth_ok",
    "Probnum.SDE.integrator_noise_posDef",
    "Probnum.SDE.stationary_posDef"
   ],
   "note": "Exact arithmetic, exact matrix exponentials, classic (not square-root) implementations of the linear Gaussian transitions, as in C64 and C65. The states at the locations; between the locations the smoothing posterior is not the exact one (C63). Started in the default initial distribution a MaternProcess is not stationary (C109), then filtsmooth_is_regression still holds with the covariance function of that process."
  },
  {
   "property": "C111",
   "status": "proved",
   "theorems": [
    "Probnum.SDE.integrator_covariance",
    "Probnum.SDE.iwp_covariance",
    "Probnum.SDE.integrator_smoothing_is_regression",
    "Probnum.SDE.iwp_smoothing_is_regression",
    "Probnum.SDE.wiener_cov",
    "Probnum.SDE.integrated_wiener_cov"
   ],
   "note": "Exact arithmetic, exact matrix exponentials, classic implementations of the transitions, diffusion one, as in C110. The process is any one with the transition laws of the model (a MarkovChain, which forward sampling realises by C16)."
  },
  {
   "property": "C112",
   "status": "proved",
   "theorems": [
    "Probnum.OdeFilter.ek0_first_step",
    "Probnum.OdeFilter.ek0_first_step_heun",
    "Probnum.OdeFilter.local_error",
    "Probnum.OdeFilter.first_step_order"
   ],
   "note": "Exact arithmetic, autonomous vector fields (the code calls them without a time in one place, see C70). The bound is about steps from certain states: global order is not covered. For the piecewise constant diffusion the statement is about the accepted states that are returned; a step can raise there (zero_residual_step_raises in C70)."
  },
  {
   "property": "C113",
   "status": "proved",
   "theorems": [
    "Probnum.OdeFilter.ek0_covariances",
    "Probnum.OdeFilter.ek0_covariance_ignores_ode",
    "Probnum.OdeFilter.ek0_variance",
    "Probnum.OdeFilter.ek0_is_trapezoidal_rule"
   ],
   "note": "Exact arithmetic, autonomous vector fields (see C70). The runs are sequences of attempts as in C72; the statements are about the filtering states."
  },
  {
   "property": "C114",
   "status": "proved",
   "theorems": [
    "Probnum.OdeFilter.ek0_global_order",
    "Probnum.OdeFilter.ek0_fixed_steps_converge",
    "Probnum.OdeFilter.ek0_every_problem_converges"
   ],
   "note": "Exact arithmetic. EK0 with one derivative; for more derivatives and EK1 only the local order of C112 is proved. The initial state is exact, as from the automatic differentiation routines; the fit of probsolve_ivp (C74) is not."
  },
  {
   "property": "C115",
   "status": "proved",
   "theorems": [
    "Probnum.Perturbed.uniform_run_error",
    "Probnum.Perturbed.perturbsolve_uniform_converges",
    "Probnum.Perturbed.perturbsolve_lognormal_converges",
    "Probnum.Perturbed.perturbsolve_steps_bounded",
    "Probnum.Perturbed.perturbsolve_lognormal_probability",
    "Probnum.Perturbed.perturbsolve_linear_converges",
    "Probnum.Perturbed.perturbsolve_rk23_converges",
    "Probnum.Perturbed.perturbsolve_rk23_every_problem",
    "Probnum.Perturbed.perturbsolve_rk23_lognormal",
    "Probnum.Perturbed.perturbsolve_rk23_no_noise",
    "Probnum.Perturbed.perturbsolve_rate_sharp",
    "Probnum.Perturbed.perturbsolve_system_converges",
    "Probnum.Perturbed.perturbsolve_system_lognormal"
   ],
   "note": "Exact arithmetic. That the formula has its order along the solution is a hypothesis; it is proved for the coefficients of RK23 on all smooth autonomous ODEs and of RK45 on linear systems. Constant steps. Lognormal draws are not bounded, so the bound for them depends on the largest draw."
  },
  {
   "property": "C12",
   "status": "partial",
   "theorems": [
    "Probnum.LinGauss.forward_classic_is_pushforward",
    "Probnum.LinGauss.forward_sqrt_agrees_partial",
    "Probnum.LinGauss.forward_sqrt_tall_raises"
   ],
   "note": "Classic implementation proved to be the exact Gaussian push-forward (Mathlib probability). The square-root implementation agrees for at most as many outputs as inputs and raises ValueError otherwise (forward_sqrt_tall_raises)."
  },
  {
   "property": "C13",
   "status": "partial",
   "theorems": [
    "Probnum.LinGauss.backward_realization_is_conditioning",
    "Probnum.LinGauss.backward_rv_is_rts",
    "Probnum.LinGauss.backward_joseph_agrees",
    "Probnum.LinGauss.backward_given_gain_agrees",
    "Probnum.LinGauss.backward_sqrt_agrees_partial",
    "Probnum.LinGauss.backward_cov_posSemidef",
    "Probnum.LinGauss.backward_singular_raises",
    "Probnum.LinGauss.backward_zero_gain_disagrees"
   ],
   "note": "All three implementations agree with exact Gaussian conditioning unless a wrong gain is supplied (backward_zero_gain_disagrees) or the square-root form meets more outputs than inputs."
  },
  {
   "property": "C14",
   "status": "partial",
   "theorems": [
    "Probnum.LinGauss.tril_to_positive_tril_correct",
    "Probnum.LinGauss.tril_to_positive_tril_fixed",
    "Probnum.LinGauss.cholesky_update_single_correct",
    "Probnum.LinGauss.cholesky_update_correct_partial",
    "Probnum.LinGauss.cholesky_update_tall_raises",
    "Probnum.LinGauss.cholesky_update_empty_first"
   ],
   "note": "Proved except for two-argument updates whose first factor has fewer columns than rows: those raise ValueError (cholesky_update_tall_raises)."
  },
  {
   "property": "C15",
   "status": "proved",
   "theorems": [
    "Probnum.Kalman.smooth_list_exact",
    "Probnum.Kalman.smooth_empty_raises",
    "Probnum.Kalman.smooth_exact"
   ],
   "note": "Transition abstract; exact characterisation of the result."
  },
  {
   "property": "C16",
   "status": "partial",
   "theorems": [
    "Probnum.Kalman.forward_samples_exact",
    "Probnum.Kalman.forward_samples_distribution_partial",
    "Probnum.Kalman.forward_single_sample_distribution_partial",
    "Probnum.Kalman.forward_samples_wrong",
    "Probnum.Kalman.exists_covCholesky"
   ],
   "note": "Violated: the first base realization is used for the first two states (forward_samples_wrong). What the code computes is stated exactly for every grid; the distribution is right when the initial covariance is zero or only one state is sampled."
  },
  {
   "property": "C17",
   "status": "proved",
   "theorems": [
    "Probnum.Kalman.backward_samples_distribution",
    "Probnum.Kalman.backward_samples_exact",
    "Probnum.Kalman.exists_data_and_base"
   ],
   "note": "Joint law of data and backward samples equals the joint law of observations and states; linear Gaussian model, classic implementations, any number of grid points."
  },
  {
   "property": "C18",
   "status": "partial",
   "theorems": [
    "Probnum.IWP.discretise_entries",
    "Probnum.IWP.chapman_kolmogorov",
    "Probnum.IWP.noise_positive_definite",
    "Probnum.IWP.zero_step_undefined",
    "Probnum.IWP.negative_step_moves_forward",
    "Probnum.IWP.step_tends_to_identity",
    "Probnum.SDE.iwp_discretise_agrees"
   ],
   "note": "Closed-form transition and noise (Taylor/integral), Chapman-Kolmogorov for all positive steps, any diffusion; positive definite noise. Violated at step 0, where the code produces nan instead of the identity (zero_step_undefined); negative steps are treated as their absolute value."
  },
  {
   "property": "C19",
   "status": "partial",
   "theorems": [
    "Probnum.IWP.noise_positive_definite",
    "Probnum.IWP.forward_exact",
    "Probnum.IWP.forward_gain_exact",
    "Probnum.IWP.forward_agrees_partial",
    "Probnum.IWP.backward_exact",
    "Probnum.IWP.forward_sqrt_agrees",
    "Probnum.IWP.backward_sqrt_agrees",
    "Probnum.IWP.backward_supplied_gain_mean",
    "Probnum.IWP.backward_supplied_gain_disagrees",
    "Probnum.SDE.integrator_forward_exact",
    "Probnum.SDE.integrator_backward_exact"
   ],
   "note": "Preconditioned forward/backward equal the plain discretisation exactly up to the damping of cov_cholesky (exactly without damping, and in the square-root implementation). Violated by backward_rv with a supplied gain (backward_supplied_gain_disagrees)."
  },
  {
   "property": "C20",
   "status": "proved",
   "theorems": [
    "Probnum.IWP.derivwise_to_coordwise",
    "Probnum.IWP.coordwise_to_derivwise",
    "Probnum.IWP.conversions_inverse",
    "Probnum.IWP.derivwise2coordwise_orthogonal",
    "Probnum.IWP.proj2coord_extracts"
   ],
   "note": "Entrywise permutation, mutual inverses, projections."
  },
  {
   "property": "C21",
   "status": "partial",
   "theorems": [
    "Probnum.Linops.expression_denotes_partial",
    "Probnum.Linops.arithmetic_denotes_partial",
    "Probnum.Linops.lambda_equals_identity",
    "Probnum.Linops.kronecker_sum_wrong"
   ],
   "note": "All expressions of any depth over all operator classes; the full dispatch tables. Excluded: instances of LambdaLinearOperator itself (violated, witness proved), empty axes, selections with repeated indices, flags assigned after composition, dtypes."
  },
  {
   "property": "C22",
   "status": "partial",
   "theorems": [
    "Probnum.Linops.add_rejects_partial",
    "Probnum.Linops.sub_rejects_partial",
    "Probnum.Linops.matmul_rejects_partial",
    "Probnum.Linops.matrix_sum_broadcasts",
    "Probnum.Linops.scaling_matrix_broadcasts",
    "Probnum.Linops.selection_embedding_accepted",
    "Probnum.Linops.scalar_sum_nonsquare"
   ],
   "note": "Violated where numpy broadcasts (axis of length 1), for selection @ embedding, and LinAlgError instead of ValueError for scalar + non-square; exact otherwise."
  },
  {
   "property": "C23",
   "status": "partial",
   "theorems": [
    "Probnum.Linops.matmul_eq_dense",
    "Probnum.Linops.rmatmul_eq_dense",
    "Probnum.Linops.embedding_todense_diverges"
   ],
   "note": "All operator classes, vectors, matrices and stacks. Violated for a square embedding declared symmetric: todense() does not terminate."
  },
  {
   "property": "C24",
   "status": "proved",
   "theorems": [
    "Probnum.Linops.transpose_denotes",
    "Probnum.Linops.transpose_axes"
   ],
   "note": "All operator classes (well-formed, calm); numpy's axis conventions."
  },
  {
   "property": "C25",
   "status": "partial",
   "theorems": [
    "Probnum.Linops.flags_sound_partial",
    "Probnum.Linops.products_true_flags_partial",
    "Probnum.Linops.zero_multiple_flag_wrong",
    "Probnum.Linops.block_flag_wrong"
   ],
   "note": "All operators built by constructors, arithmetic, transposes and inverses. Violated for 0*A and for block-diagonals of non-square blocks."
  },
  {
   "property": "C26",
   "status": "proved",
   "theorems": [
    "Probnum.Linops.flags_write_once",
    "Probnum.Linops.flags_consistent",
    "Probnum.Linops.assign_exact",
    "Probnum.Linops.cholesky_wrong_error",
    "Probnum.Linops.setters_agree"
   ],
   "note": "Setters as a state machine; any history of assignments. Also shown: the lazily computed flag can raise the wrong exception."
  },
  {
   "property": "C27",
   "status": "partial",
   "theorems": [
    "Probnum.Linops.inverse_denotes_partial",
    "Probnum.Linops.solve_denotes_partial",
    "Probnum.Linops.solve_rejects_partial",
    "Probnum.Linops.singular_inverse_lazy",
    "Probnum.Linops.nonsquare_factors_inverse_raises",
    "Probnum.Linops.transposed_cholesky_diverges",
    "Probnum.Linops.transposed_solve_diverges"
   ],
   "note": "Inverse and solve right for nonsingular operators; singular solves never return. Violated: lazy inverse of singular operators, products of non-square factors, transposed operators declared symmetric."
  },
  {
   "property": "C28",
   "status": "partial",
   "theorems": [
    "Probnum.Linops.det_eq_dense_partial",
    "Probnum.Linops.trace_rank_eq_dense",
    "Probnum.Linops.det_trace_reject",
    "Probnum.Linops.det_nonsquare_factors",
    "Probnum.Linops.zero_det_empty"
   ],
   "note": "det/logabsdet for operators whose product factors are square; trace and rank for all. Violated for products of non-square factors (LinAlgError) and for the 0x0 zero operator."
  },
  {
   "property": "C29",
   "status": "proved",
   "theorems": [
    "Probnum.Linops.kronecker_vec",
    "Probnum.Linops.kronecker_transpose",
    "Probnum.Linops.kronecker_mixed_product",
    "Probnum.Linops.kronecker_inverse",
    "Probnum.Linops.symmetric_kronecker_vec",
    "Probnum.Linops.symmetrize_projection"
   ],
   "note": ""
  },
  {
   "property": "C30",
   "status": "partial",
   "theorems": [
    "Probnum.RandVars.neg_law",
    "Probnum.RandVars.add_constant",
    "Probnum.RandVars.constant_add",
    "Probnum.RandVars.sub_constant",
    "Probnum.RandVars.constant_sub",
    "Probnum.RandVars.add_constant_ok",
    "Probnum.RandVars.add_normal",
    "Probnum.RandVars.sub_normal",
    "Probnum.RandVars.mul_constant",
    "Probnum.RandVars.div_constant",
    "Probnum.RandVars.mul_zero",
    "Probnum.RandVars.div_zero",
    "Probnum.RandVars.scale_ok",
    "Probnum.RandVars.mul_zero_shape",
    "Probnum.RandVars.matmul_constant",
    "Probnum.RandVars.constant_matmul",
    "Probnum.RandVars.matmul_constant_accepts",
    "Probnum.RandVars.constant_matmul_ok",
    "Probnum.RandVars.vector_column_raises",
    "Probnum.RandVars.scalar_matmul_index_error",
    "Probnum.RandVars.law_exists"
   ],
   "note": "Whenever an operator returns, the result describes the law of the operation on the values. Violated: multiplication by zero broadcasts differently (mul_zero_shape); a vector times a random column raises ValueError; matrix products with scalars raise IndexError. Dense arrays; elementwise products with constants of size above one fall back to generic random variables."
  },
  {
   "property": "C31",
   "status": "partial",
   "theorems": [
    "Probnum.RandVars.getitem_law",
    "Probnum.RandVars.getitem_accepts",
    "Probnum.RandVars.index_int",
    "Probnum.RandVars.index_list",
    "Probnum.RandVars.index_mask",
    "Probnum.RandVars.index_slice",
    "Probnum.RandVars.index_slice_down",
    "Probnum.RandVars.index_two_lists",
    "Probnum.RandVars.index_list_rows",
    "Probnum.RandVars.index_too_many",
    "Probnum.RandVars.getitem_full_eq",
    "Probnum.RandVars.getitem_empty",
    "Probnum.RandVars.getitem_row",
    "Probnum.RandVars.getitem_row_wrong",
    "Probnum.RandVars.getitem_row_raises",
    "Probnum.RandVars.reshape_law",
    "Probnum.RandVars.reshape_accepts",
    "Probnum.RandVars.reshape_scalar_raises",
    "Probnum.RandVars.transpose_law",
    "Probnum.RandVars.transpose_default_nonneg",
    "Probnum.RandVars.transpose_default_reverses",
    "Probnum.RandVars.transpose_mixed_wrong"
   ],
   "note": "Keys naming every axis, all reshapes that return, transpositions with axes of one sign. Violated: a single index on a matrix-variate variable (wrong covariance or ValueError); (1,) to () raises; mixed-sign axes permute the covariance wrongly. Not modelled: newaxis and multi-dimensional index arrays."
  },
  {
   "property": "C32",
   "status": "partial",
   "theorems": [
    "Probnum.RandVars.pmf_eq_first",
    "Probnum.RandVars.pmf_correct_partial",
    "Probnum.RandVars.pmf_scalar",
    "Probnum.RandVars.pmf_normalised",
    "Probnum.RandVars.pmf_default",
    "Probnum.RandVars.pmf_duplicates",
    "Probnum.RandVars.pmf_vector",
    "Probnum.RandVars.pmf_dtype",
    "Probnum.RandVars.pmf_short_probabilities",
    "Probnum.RandVars.sample_mem",
    "Probnum.RandVars.sample_mass",
    "Probnum.RandVars.mode_correct",
    "Probnum.RandVars.mode_ok",
    "Probnum.RandVars.resample_correct"
   ],
   "note": "Right for supports without repetitions and without partial agreement (all scalar supports without repetitions). Violated: repeated points count once; one agreeing component suffices; other dtypes raise ValueError; short probabilities raise IndexError."
  },
  {
   "property": "C33",
   "status": "partial",
   "theorems": [
    "Probnum.Linalg.linear_update_partial",
    "Probnum.Linalg.symmetric_update_partial",
    "Probnum.Linalg.update_rejects",
    "Probnum.Linalg.linear_updates_interpolate",
    "Probnum.Linalg.symmetric_updates_interpolate",
    "Probnum.Linalg.updates_recover",
    "Probnum.Linalg.inverse_belief_interpolates",
    "Probnum.Linalg.update_both_interpolates",
    "Probnum.Linalg.inverse_observation",
    "Probnum.Linalg.linear_update_is_conditional",
    "Probnum.Linalg.no_information_ignored"
   ],
   "note": "Violated when the prior covariance gives no information along the action (s'Ws = 0): the observation is ignored."
  },
  {
   "property": "C34",
   "status": "partial",
   "theorems": [
    "Probnum.Linalg.MatrixBased.conjugate_secant_partial",
    "Probnum.Linalg.MatrixBased.solved_after_n_partial",
    "Probnum.Linalg.MatrixBased.step_fails_iff",
    "Probnum.Linalg.MatrixBased.solve_partial",
    "Probnum.Linalg.MatrixBased.output_covariances",
    "Probnum.Linalg.MatrixBased.output_after_one",
    "Probnum.Linalg.MatrixBased.resume_forgets",
    "Probnum.Linalg.MatrixBased.breakdown"
   ],
   "note": "Conjugacy, residual and secant laws and exactness after n iterations hold for every prior. Violated: an iteration can divide by zero before the residual vanishes (breakdown, 2x2 witness with the default prior); after exactly one iteration the returned covariances are the prior's; a second call of solve forgets the covariance."
  },
  {
   "property": "C35",
   "status": "partial",
   "theorems": [
    "Probnum.Linalg.MatrixBased.prior_means_partial",
    "Probnum.Linalg.MatrixBased.prior_means_negative",
    "Probnum.Linalg.MatrixBased.prior_means_orthogonal",
    "Probnum.Linalg.MatrixBased.prior_means_zero",
    "Probnum.Linalg.MatrixBased.prior_means_impossible",
    "Probnum.Linalg.MatrixBased.guess_inconsistent"
   ],
   "note": "Holds iff b'x0 > 0. For b'x0 < 0 the prior is built for -x0 while the iteration starts at x0; for b = 0 the means are nan."
  },
  {
   "property": "C36",
   "status": "proved",
   "theorems": [
    "Probnum.Linalg.Loop.lists_aligned",
    "Probnum.Linalg.Loop.solve_returns_iff",
    "Probnum.Linalg.Loop.solve_unique",
    "Probnum.Linalg.Loop.max_iterations_bound",
    "Probnum.Linalg.Loop.criteria_exact",
    "Probnum.Linalg.Loop.criteria_benign"
   ],
   "note": "For any policy, information operator and update that only read the state and write to its cache."
  },
  {
   "property": "C37",
   "status": "partial",
   "theorems": [
    "Probnum.Linalg.projected_update_partial",
    "Probnum.Linalg.projections_orthogonal",
    "Probnum.Linalg.projections_solve",
    "Probnum.Linalg.noisy_projection",
    "Probnum.Linalg.projection_without_information"
   ],
   "note": "Needs an action along which the prior covariance is not degenerate; otherwise the observation is ignored."
  },
  {
   "property": "C38",
   "status": "proved",
   "theorems": [
    "Probnum.GramSchmidt.gram_schmidt_orthogonal",
    "Probnum.GramSchmidt.gram_schmidt_normalized",
    "Probnum.GramSchmidt.gram_schmidt_in_span",
    "Probnum.GramSchmidt.gram_schmidt_empty_basis",
    "Probnum.GramSchmidt.orthogonal_part_unique",
    "Probnum.GramSchmidt.isInner_euclidean",
    "Probnum.GramSchmidt.isInner_matrix"
   ],
   "note": "Non-empty bases. Also shown: the empty basis raises ValueError; normalising a vector in the span gives nan."
  },
  {
   "property": "C39",
   "status": "proved",
   "theorems": [
    "Probnum.Quad.vdc_nodes",
    "Probnum.Quad.vdc_batching",
    "Probnum.Quad.vdc_inside",
    "Probnum.Quad.vdc_distinct",
    "Probnum.Quad.vdc_accepts"
   ],
   "note": ""
  },
  {
   "property": "C40",
   "status": "proved",
   "theorems": [
    "Probnum.Quad.bq_batching",
    "Probnum.Quad.bq_batching_succeeds"
   ],
   "note": "Exact arithmetic; same kernel and scale, any split into batches."
  },
  {
   "property": "C41",
   "status": "proved",
   "theorems": [
    "Probnum.Quad.bq_variance_nonneg",
    "Probnum.Quad.bq_update_accepts",
    "Probnum.Quad.bq_variance_le_prior",
    "Probnum.Quad.bq_variance_antitone",
    "Probnum.Quad.bq_mean_linear",
    "Probnum.Quad.bq_variance_optimal",
    "Probnum.Quad.consistent_of_features",
    "Probnum.Quad.consistent_of_integrals"
   ],
   "note": "Kernel mean and variance are consistent with the kernel (shown for finite features and for integrals)."
  },
  {
   "property": "C42",
   "status": "proved",
   "theorems": [
    "Probnum.Quad.bq_stops_first",
    "Probnum.Quad.bq_counts",
    "Probnum.Quad.bq_budget",
    "Probnum.Quad.bq_terminates",
    "Probnum.Quad.from_problem_limits",
    "Probnum.Quad.from_problem_any",
    "Probnum.Quad.integrate_budget",
    "Probnum.Quad.integrate_fixed_data",
    "Probnum.Quad.integrate_ignores_evals",
    "Probnum.Quad.integrate_rejects",
    "Probnum.Quad.integrate_needs_rng"
   ],
   "note": "Also shown: function values given without nodes are silently ignored."
  },
  {
   "property": "C43",
   "status": "proved",
   "theorems": [
    "Probnum.Quad.matern_embedding",
    "Probnum.Quad.matern_product_embedding",
    "Probnum.Quad.matern_1d_embedding",
    "Probnum.Quad.matern_embedding_rejects",
    "Probnum.Quad.matern_accepts",
    "Probnum.Quad.lebesgue_normalized"
   ],
   "note": ""
  },
  {
   "property": "C44",
   "status": "partial",
   "theorems": [
    "Probnum.Cov.cov_pointwise",
    "Probnum.Cov.cov_shapes",
    "Probnum.Cov.cov_call_rejects",
    "Probnum.Cov.library_pointwise",
    "Probnum.Cov.one_argument_partial",
    "Probnum.Cov.integer_inputs_raise",
    "Probnum.Cov.white_noise_truncated"
   ],
   "note": "Pointwise evaluation, broadcast shapes and rejections hold for every expression tree over every covariance function. k(x) = k(x, x) is proved for floating-point inputs. Violated for integer inputs: ExpQuad and Matern raise TypeError, WhiteNoise truncates its variance."
  },
  {
   "property": "C45",
   "status": "partial",
   "theorems": [
    "Probnum.Cov.library_matrix",
    "Probnum.Cov.matrix_psd_partial",
    "Probnum.Cov.matern_documented_psd",
    "Probnum.Cov.matern_closed_form",
    "Probnum.Cov.matern_bessel_not_psd",
    "Probnum.Cov.negative_scale_not_psd",
    "Probnum.Cov.negative_constant_not_psd",
    "Probnum.Cov.Kernel.value_psd",
    "Probnum.Cov.KExpr.value_psd"
   ],
   "note": "Every entry of the matrix, and positive semidefiniteness for every expression tree and point set with nonnegative scalars and constants and half-integer Matern smoothness. Violated for every other Matern smoothness: distances below machine precision are clamped, so matrices at very close points are indefinite."
  },
  {
   "property": "C46",
   "status": "partial",
   "theorems": [
    "Probnum.GP.mkGP_ok_iff",
    "Probnum.GP.mkGP_errors",
    "Probnum.GP.mkProcess_ok_iff",
    "Probnum.GP.mkProcess_errors",
    "Probnum.GP.std_moments",
    "Probnum.GP.call_outcome",
    "Probnum.GP.call_moments_partial",
    "Probnum.GP.library_process",
    "Probnum.GP.single_point_raises",
    "Probnum.GP.call_wrong_order",
    "Probnum.GP.var_moments",
    "Probnum.GP.library_isCov"
   ],
   "note": "Evaluation is characterised at every batch of float points for every mean and covariance function. The property holds for scalar outputs, one-entry outputs and one point. Violated: with two or more points and outputs the mean is ordered point by point but the covariance output by output; a single point with scalar output raises ValueError."
  },
  {
   "property": "C47",
   "status": "proved",
   "theorems": [
    "Probnum.Cov.matern_coefficients",
    "Probnum.Cov.matern_value",
    "Probnum.Cov.matern_value_zero",
    "Probnum.Cov.matern_value_pos"
   ],
   "note": ""
  },
  {
   "property": "C48",
   "status": "partial",
   "theorems": [
    "Probnum.Functions.algebra_pointwise",
    "Probnum.Functions.call_rejects",
    "Probnum.Functions.call_shape",
    "Probnum.Functions.algebra_shapes_partial",
    "Probnum.Functions.zero_ignores_shapes",
    "Probnum.Functions.zero_shapes_accepted",
    "Probnum.Functions.sum_checks_zero"
   ],
   "note": "Pointwise evaluation and call checks are proved for every expression tree. Shape rejection is proved for trees without Zero; with Zero as an operand the code skips the check (proved negation)."
  },
  {
   "property": "C49",
   "status": "partial",
   "theorems": [
    "Probnum.Merge.merge_partial",
    "Probnum.Merge.merge_rejects",
    "Probnum.Merge.merge_rejects_lengths",
    "Probnum.Merge.merge_rejects_solutions",
    "Probnum.Merge.merge_repeated_times",
    "Probnum.Merge.merge_lists",
    "Probnum.Merge.merge_short_solution"
   ],
   "note": "Violated for a problem that contains a time twice (data lost). Also shown: list-valued problems raise AttributeError; short solutions are broadcast."
  },
  {
   "property": "C50",
   "status": "partial",
   "theorems": [
    "Probnum.Particle.filter_ok",
    "Probnum.Particle.filter_rejects",
    "Probnum.Particle.filter_states",
    "Probnum.Particle.filter_weights",
    "Probnum.Particle.threshold_documented",
    "Probnum.Particle.effective_bounds",
    "Probnum.Particle.base_weights_partial",
    "Probnum.Particle.bootstrap_first_partial",
    "Probnum.Particle.bootstrap_first_state",
    "Probnum.Particle.bootstrap_ignores_past",
    "Probnum.Particle.bootstrap_filter_ignores_past",
    "Probnum.Particle.bootstrap_wrong",
    "Probnum.Particle.resampling_forgotten"
   ],
   "note": "Number of particles, weights, resampling condition hold for every model, data set and draw. Violated: bootstrap states depend on the last observation only; resampled particles are not carried on; the other importance distributions add 1e-14 to the old weights."
  },
  {
   "property": "C51",
   "status": "partial",
   "theorems": [
    "Probnum.Approx.ekf_linearize_exact",
    "Probnum.Approx.ekf_forward_exact",
    "Probnum.Approx.ekf_backward_exact",
    "Probnum.Approx.ekf_forward_general",
    "Probnum.Approx.ekf_needs_jacobian",
    "Probnum.Approx.ukf_needs_jacobian",
    "Probnum.Approx.ekf_sde_exact",
    "Probnum.Approx.ekf_sde_needs_jacobian",
    "Probnum.Approx.nonlinear_forward_realization_partial",
    "Probnum.Approx.nonlinear_diffusion_squared",
    "Probnum.Approx.cubature_moments",
    "Probnum.Approx.ukf_forward_general",
    "Probnum.Approx.ukf_forward_affine",
    "Probnum.Approx.ukf_forward_elsewhere_partial",
    "Probnum.Approx.ukf_constant_ignores_state",
    "Probnum.Approx.ukf_mean_quadratic"
   ],
   "note": "Exactness of the extended component at any linearisation point; cubature moments; unscented prediction exact up to the jitter in the Loewner order when linearised at the propagated variable. Violated: the unscented component cannot be built without a Jacobian; linearised at a Constant it ignores the state; the nonlinear transition squares the diffusion."
  },
  {
   "property": "C52",
   "status": "partial",
   "theorems": [
    "Probnum.OdeFilter.residual_value",
    "Probnum.OdeFilter.residual_zero_iff",
    "Probnum.OdeFilter.residual_on_solution",
    "Probnum.OdeFilter.residual_jacobian",
    "Probnum.OdeFilter.ek0_operator",
    "Probnum.OdeFilter.ek1_operator",
    "Probnum.OdeFilter.ek1_needs_df",
    "Probnum.OdeFilter.incorporate_once",
    "Probnum.OdeFilter.before_incorporation",
    "Probnum.OdeFilter.no_derivatives_rejected",
    "Probnum.OdeFilter.proj_mulVec",
    "Probnum.OdeFilter.proj_eq_iwp",
    "Probnum.OdeFilter.initMatrix_eq",
    "Probnum.OdeFilter.regression_ok",
    "Probnum.OdeFilter.regression_means_partial",
    "Probnum.OdeFilter.regression_means_wrong",
    "Probnum.OdeFilter.regression_noise_valid",
    "Probnum.OdeFilter.linearised_mean",
    "Probnum.OdeFilter.regression_second_call",
    "Probnum.OdeFilter.regression_empty"
   ],
   "note": "Residual, Jacobians and strategies hold for every ODE. Violated: with a positive measurement variance the ODE measurement models are shifted by -y0, so their mean does not vanish on solutions (regression_means_wrong)."
  },
  {
   "property": "C53",
   "status": "partial",
   "theorems": [
    "Probnum.Perturbed.uniform_bounds",
    "Probnum.Perturbed.uniform_negative",
    "Probnum.Perturbed.lognormal_positive",
    "Probnum.Perturbed.bookkeeping",
    "Probnum.Perturbed.run_total",
    "Probnum.Perturbed.dense_output_any_history",
    "Probnum.Perturbed.dense_output_at_ends",
    "Probnum.Perturbed.dense_output_partial",
    "Probnum.Perturbed.rejected_scale_is_used",
    "Probnum.Perturbed.before_start_raises"
   ],
   "note": "Violated: rejected attempts leave their noise scale behind, so dense output uses wrong scales; uniform perturbations can be negative for large noise scales."
  },
  {
   "property": "C54",
   "status": "partial",
   "theorems": [
    "Probnum.Linops.selection_picks",
    "Probnum.Linops.embedding_places",
    "Probnum.Linops.transpose_adjoint",
    "Probnum.Linops.selection_adjoint_partial",
    "Probnum.Linops.embedding_adjoint_partial",
    "Probnum.Linops.selection_transpose_repeated",
    "Probnum.Linops.embedding_transpose_take",
    "Probnum.Linops.embedding_fill_nonlinear",
    "Probnum.Linops.selection_embedding_partial",
    "Probnum.Linops.selection_embedding_take",
    "Probnum.Linops.selection_embedding_repeated"
   ],
   "note": "Violated for repeated indices, non-default take indices and non-zero fill values."
  },
  {
   "property": "C55",
   "status": "partial",
   "theorems": [
    "Probnum.Linops.Cast.cast_agrees_partial",
    "Probnum.Linops.Cast.cast_rejects",
    "Probnum.Linops.Cast.cast_to_int_disagrees",
    "Probnum.Linops.Cast.cast_transpose_diverges",
    "Probnum.Linops.Cast.scaling_promotes_partial",
    "Probnum.Linops.Cast.scaling_sum_truncates"
   ],
   "note": "Safe casts exact; violated for float-to-int casts (products vs dense), transposes of casts (no termination), and mixed-dtype scaling arithmetic (truncation)."
  },
  {
   "property": "C56",
   "status": "partial",
   "theorems": [
    "Probnum.Linalg.Problinsolve.check_accepts_iff",
    "Probnum.Linalg.Problinsolve.check_square",
    "Probnum.Linalg.Problinsolve.check_rejects_partial",
    "Probnum.Linalg.Problinsolve.check_index_error",
    "Probnum.Linalg.Problinsolve.check_accepts_stack",
    "Probnum.Linalg.Problinsolve.documented_accepted",
    "Probnum.Linalg.Problinsolve.undocumented_accepted",
    "Probnum.Linalg.Problinsolve.solver_exists_iff",
    "Probnum.Linalg.Problinsolve.random_guess",
    "Probnum.Linalg.Problinsolve.random_guess_replaced",
    "Probnum.Linalg.Problinsolve.checks_first",
    "Probnum.Linalg.Problinsolve.front_arrays",
    "Probnum.Linalg.Problinsolve.random_rhs_index_error",
    "Probnum.Linalg.Problinsolve.random_guess_not_column"
   ],
   "note": "Exact characterisation of accepted types, shapes and documented strings. Violated: vectors as matrices raise IndexError; stacks of matrices are accepted; texts split by an option (noposise) are accepted; random right-hand sides of shape (n,) raise IndexError; random guesses are not turned into columns."
  },
  {
   "property": "C57",
   "status": "proved",
   "theorems": [
    "Probnum.Quad.as_domain_iff",
    "Probnum.Quad.as_domain_length",
    "Probnum.Quad.as_domain_rejects",
    "Probnum.Quad.as_domain_zero_dim"
   ],
   "note": "Also shown: empty bounds are accepted as a domain of dimension 0."
  },
  {
   "property": "C58",
   "status": "partial",
   "theorems": [
    "Probnum.Iterated.criterion_value",
    "Probnum.Iterated.criterion_raises",
    "Probnum.Iterated.first_moves",
    "Probnum.Iterated.iteration_terminates_partial",
    "Probnum.Iterated.iteration_count",
    "Probnum.Iterated.iteration_refines",
    "Probnum.Iterated.limit_counter",
    "Probnum.Iterated.iteration_stale_counter",
    "Probnum.Iterated.criterion_nan",
    "Probnum.Iterated.criterion_sign"
   ],
   "note": "Violated: after RuntimeError the counter is not reset, so later calls fail at once. Also shown: nan counts as converged; the reference enters with its sign."
  },
  {
   "property": "C59",
   "status": "partial",
   "theorems": [
    "Probnum.SDE.drift_shift",
    "Probnum.SDE.ioup_equation",
    "Probnum.SDE.mde_forward_classic",
    "Probnum.SDE.discretise_solves_partial",
    "Probnum.SDE.discretise_solves_reversed",
    "Probnum.SDE.discretise_force_wrong",
    "Probnum.SDE.moments_exist",
    "Probnum.SDE.discretise_integral",
    "Probnum.SDE.discretise_noise_posSemidef",
    "Probnum.SDE.sqrt_derivative_right",
    "Probnum.SDE.mde_sqrt_partial",
    "Probnum.SDE.mde_sqrt_wrong",
    "Probnum.SDE.mde_backward_right",
    "Probnum.SDE.construct_accepts_iff",
    "Probnum.SDE.dispersion_rows_unchecked",
    "Probnum.SDE.matern_characteristic",
    "Probnum.SDE.iwp_discretise_agrees"
   ],
   "note": "Exact matrix exponentials; the numerical ODE solver is not modelled. Violated: the force vector is reversed in discretise (discretise_force_wrong), the square-root vector field flips the sign of decreasing diagonal entries (mde_sqrt_wrong), the height of the dispersion matrix is not checked (dispersion_rows_unchecked)."
  },
  {
   "property": "C60",
   "status": "partial",
   "theorems": [
    "Probnum.Quad.ivr_in_unit",
    "Probnum.Quad.ivr_is_reduction",
    "Probnum.Quad.ivr_exact_partial",
    "Probnum.Quad.mutual_information_nonneg",
    "Probnum.Quad.weighted_variance_nonneg"
   ],
   "note": "The variance reduction is exact only with zero jitter; with jitter the exact factor is given by ivr_is_reduction."
  },
  {
   "property": "C61",
   "status": "proved",
   "theorems": [
    "Probnum.Linalg.CG.actions_conjugate",
    "Probnum.Linalg.CG.solved_after_n",
    "Probnum.Linalg.CG.bayescg_returns",
    "Probnum.Linalg.CG.bayescg_default",
    "Probnum.Linalg.CG.breakdown_after_convergence",
    "Probnum.Linalg.CG.gramSchmidt_idle"
   ],
   "note": "Nonsingular systems, positive definite prior covariances, any mean, any stopping criterion, with or without reorthogonalisation. Also shown: with an iteration limit above n+1 as only criterion the policy divides by zero after convergence."
  },
  {
   "property": "C62",
   "status": "partial",
   "theorems": [
    "Probnum.Linalg.UnitVector.choice_law",
    "Probnum.Linalg.UnitVector.choice_pos",
    "Probnum.Linalg.UnitVector.initial_weights_partial",
    "Probnum.Linalg.UnitVector.rownorm_uses_columns",
    "Probnum.Linalg.UnitVector.rownorm_zero",
    "Probnum.Linalg.UnitVector.action_is_unit",
    "Probnum.Linalg.UnitVector.options_checked",
    "Probnum.Linalg.UnitVector.without_replacement",
    "Probnum.Linalg.UnitVector.exhausted_raises",
    "Probnum.Linalg.UnitVector.with_replacement"
   ],
   "note": "Violated: the option rownorm weights with column norms; exact for matrices with equal row and column norms."
  },
  {
   "property": "C63",
   "status": "partial",
   "theorems": [
    "Probnum.Kalman.filtering_dense_output_exact",
    "Probnum.Kalman.smoothing_dense_output_not_exact"
   ],
   "note": "Filtering posterior between data points is the exact conditional; the smoothing posterior is not (it predicts from the smoothed instead of the filtered state), proved on a Brownian motion example."
  },
  {
   "property": "C64",
   "status": "proved",
   "theorems": [
    "Probnum.Kalman.kalman_filter_exact",
    "Probnum.Kalman.filter_succeeds_of_posDef",
    "Probnum.Kalman.exists_stateSpace"
   ],
   "note": "Time-invariant linear Gaussian prior, classic implementations, Mathlib probability; any number of observations."
  },
  {
   "property": "C65",
   "status": "proved",
   "theorems": [
    "Probnum.Kalman.kalman_smoother_exact",
    "Probnum.Kalman.filtsmooth_succeeds_of_posDef"
   ],
   "note": "Time-invariant linear Gaussian prior, classic implementations, Mathlib probability; any number of observations."
  },
  {
   "property": "C66",
   "status": "partial",
   "theorems": [
    "Probnum.Perturbed.slope_is_current_partial",
    "Probnum.Perturbed.slope_after_attempt",
    "Probnum.Perturbed.rejected_attempt_changes_next_step"
   ],
   "note": "Violated: a rejected attempt overwrites the slope used by the retry."
  },
  {
   "property": "C67",
   "status": "partial",
   "theorems": [
    "Probnum.RandVars.constant_pmf",
    "Probnum.RandVars.constant_cdf",
    "Probnum.RandVars.constant_sample",
    "Probnum.RandVars.in_support_always_raises"
   ],
   "note": "Violated: in_support raises ValueError for every constant and every normal random variable."
  },
  {
   "property": "C68",
   "status": "partial",
   "theorems": [
    "Probnum.OdeFilter.stack_entries",
    "Probnum.OdeFilter.stack_satisfies_ode",
    "Probnum.OdeFilter.stack_jac_entries",
    "Probnum.OdeFilter.stack_jac_second_derivative_partial",
    "Probnum.OdeFilter.stack_jac_nonautonomous",
    "Probnum.OdeFilter.stack_jac_needs_df",
    "Probnum.OdeFilter.stack_size",
    "Probnum.OdeFilter.stack_size_wrong"
   ],
   "note": "Right for Stack with q >= 1 and for StackWithJacobian on autonomous ODEs with q >= 2. Violated: for time-dependent ODEs the second derivative is wrong with claimed certainty; for too few derivatives the state has the wrong size."
  },
  {
   "property": "C69",
   "status": "proved",
   "theorems": [
    "Probnum.Cov.matern_closed_form",
    "Probnum.Cov.matern_value",
    "Probnum.Cov.matern_coefficients",
    "Probnum.Cov.matern_scalar"
   ],
   "note": "Uses the integral representation of the Bessel function as its definition."
  },
  {
   "property": "C70",
   "status": "partial",
   "theorems": [
    "Probnum.OdeFilter.accepted_step_is_conditioning_partial",
    "Probnum.OdeFilter.step_succeeds_partial",
    "Probnum.OdeFilter.time_dependent_never_accepted",
    "Probnum.OdeFilter.time_dependent_step_raises",
    "Probnum.OdeFilter.zero_residual_step_raises"
   ],
   "note": "Proved for vector fields that can be called without a time. Violated: at the end of every accepted step the vector field is called with t=None, so a vector field that computes with its time makes every step raise TypeError; with the piecewise diffusion and an exact state a zero residual gives a singular gain. IWP prior, square-root implementations, noise-free residual."
  },
  {
   "property": "C71",
   "status": "proved",
   "theorems": [
    "Probnum.OdeFilter.local_calibration"
   ],
   "note": "IWP prior, square-root implementations, at least one derivative and one dimension."
  },
  {
   "property": "C72",
   "status": "partial",
   "theorems": [
    "Probnum.OdeFilter.constant_posterior_is_calibrated_partial",
    "Probnum.OdeFilter.piecewise_posterior_is_calibrated_partial",
    "Probnum.OdeFilter.rejected_step_leaves_no_trace",
    "Probnum.OdeFilter.solution_is_marginal",
    "Probnum.OdeFilter.smoothing_last_state_uncalibrated",
    "Probnum.OdeFilter.smoothing_disagrees_at_the_end",
    "Probnum.OdeFilter.smoothing_diffusions_shifted",
    "Probnum.OdeFilter.filtering_states_valid"
   ],
   "note": "The filtering posterior is the calibrated filter. Violated with smoothing: for the constant diffusion the uncalibrated states are smoothed, so smoothing and filtering disagree at the final time; for the piecewise diffusion every step is smoothed with the estimate of the next step."
  },
  {
   "property": "C73",
   "status": "proved",
   "theorems": [
    "Probnum.Quad.expquad_lebesgue_embedding",
    "Probnum.Quad.expquad_gauss_embedding",
    "Probnum.Quad.expquad_documented",
    "Probnum.Quad.expquad_integrable",
    "Probnum.Quad.gaussian_measure_scalars",
    "Probnum.Quad.gaussian_measure_arrays",
    "Probnum.Quad.gaussian_measure_rejects",
    "Probnum.Quad.embedding_rejects",
    "Probnum.Quad.embedding_matern"
   ],
   "note": "Real arithmetic; bounded boxes. A contradictory input_dim is silently ignored for mean arrays (gaussian_measure_arrays)."
  },
  {
   "property": "C74",
   "status": "partial",
   "theorems": [
    "Probnum.Zoo.genz_continuous_partial",
    "Probnum.Zoo.genz_discontinuous_partial",
    "Probnum.Zoo.genz_gaussian_partial",
    "Probnum.Zoo.genz_productpeak",
    "Probnum.Zoo.genz_oscillatory_partial",
    "Probnum.Zoo.genz_cornerpeak_partial",
    "Probnum.Zoo.genz_zero_parameter",
    "Probnum.Zoo.genz_rejects",
    "Probnum.Zoo.bratley",
    "Probnum.Zoo.roos_arnold",
    "Probnum.Zoo.gfunction_solution",
    "Probnum.Zoo.morokoff_caflisch_one",
    "Probnum.Zoo.morokoff_caflisch_two",
    "Probnum.Zoo.dimension_rejects"
   ],
   "note": "Real arithmetic. Integrand and solution are right in every dimension for parameters a without a zero entry. Violated: a zero entry of a is accepted although the closed forms divide by a, and the reported solution is nan; the product peak is right even then."
  },
  {
   "property": "C75",
   "status": "partial",
   "theorems": [
    "Probnum.Zoo.uniform_to_gaussian_partial",
    "Probnum.Zoo.uniform_to_gaussian_mixed",
    "Probnum.Zoo.uniform_to_gaussian_rejects",
    "Probnum.Zoo.sum_polynomials_outcome",
    "Probnum.Zoo.sum_polynomials_partial",
    "Probnum.Zoo.sum_polynomials_wrong",
    "Probnum.Zoo.sum_polynomials_zero_order",
    "Probnum.Zoo.sum_polynomials_rejects"
   ],
   "note": "Violated: a scalar with an array is rejected in two or more dimensions although documented; the solution of the sum of polynomials uses var^b instead of var^(b/2), so it is right for variance 1 only; a var that is not a float is rejected in two or more dimensions; an order zero gives solution 0 with scipy from 1.11 on."
  },
  {
   "property": "C76",
   "status": "partial",
   "theorems": [
    "Probnum.Zoo.vanderpol_documented",
    "Probnum.Zoo.vanderpol_integer",
    "Probnum.Zoo.rigidbody_documented",
    "Probnum.Zoo.fitzhughnagumo_documented",
    "Probnum.Zoo.lotkavolterra_documented",
    "Probnum.Zoo.seir_documented",
    "Probnum.Zoo.seir_conserved",
    "Probnum.Zoo.lorenz63_documented",
    "Probnum.Zoo.lorenz96_documented",
    "Probnum.Zoo.lorenz96_default",
    "Probnum.Zoo.logistic_documented",
    "Probnum.Zoo.logistic_solution_partial",
    "Probnum.Zoo.logistic_solution_initial",
    "Probnum.Zoo.threebody_documented",
    "Probnum.Zoo.threebody_conserved",
    "Probnum.Zoo.ivp_initial_values"
   ],
   "note": "Violated: the logistic solution ignores the initial time; van der Pol accepts an integer parameter but then raises TypeError at every evaluation; the default initial value of Lorenz96 is (F, ..., F), an equilibrium, not the documented (1/F, ..., 1/F)."
  },
  {
   "property": "C77",
   "status": "partial",
   "theorems": [
    "Probnum.FiltSmooth.filter_kalman_discrete",
    "Probnum.FiltSmooth.filter_kalman_continuous",
    "Probnum.FiltSmooth.smooth_rts_discrete",
    "Probnum.FiltSmooth.smooth_rts_continuous",
    "Probnum.FiltSmooth.filter_kalman_succeeds",
    "Probnum.FiltSmooth.smooth_rts_succeeds",
    "Probnum.FiltSmooth.smooth_rts_deterministic_raises",
    "Probnum.FiltSmooth.front_rejects",
    "Probnum.FiltSmooth.setup_accepts_iff"
   ],
   "note": "Exact arithmetic; the SDE enters through its transition law exp(hF), the integral of exp(uF) L L^T exp(uF)^T. Violated: smooth_rts raises LinAlgError for a known initial state with noise-free dynamics although the conditional distribution exists (and filter_kalman succeeds); inconsistent state dimensions pass the constructors."
  },
  {
   "property": "C78",
   "status": "partial",
   "theorems": [
    "Probnum.Linops.cholesky_factor",
    "Probnum.Linops.cholesky_decides",
    "Probnum.Linops.cholesky_unmarked",
    "Probnum.Linops.factor_unique",
    "Probnum.Linops.calls_factor",
    "Probnum.Linops.calls_pd",
    "Probnum.Linops.calls_not_pd",
    "Probnum.Linops.cholesky_negative_factors",
    "Probnum.Linops.second_factor_unmarked",
    "Probnum.Linops.cholesky_unmarked_block",
    "Probnum.Linops.cholesky_unmarked_kron"
   ],
   "note": "Exact arithmetic; the dense factorisation of scipy is specified by its result. Violated: the Kronecker product of two negative definite operators is positive definite but refused; components that are not marked symmetric make cholesky raise LinAlgError or AssertionError for positive definite operators marked symmetric; the factor taken from the cache may lack its triangular flag; transposed operators never terminate (transposed_cholesky_diverges, C27). cholesky_decides excludes exactly these cases (Ready)."
  },
  {
   "property": "C79",
   "status": "proved",
   "theorems": [
    "Probnum.Quad.bq_conditional",
    "Probnum.Quad.bq_likelihood",
    "Probnum.Quad.bq_scale_mle",
    "Probnum.Quad.exists_prior"
   ],
   "note": "Exact arithmetic. The integral of the process is taken path by path; that it is Gaussian is proved (Gauss/Process.lean), not assumed. Kernel mean and variance are the integrals of the kernel (C43, C73 show this for the provided embeddings)."
  },
  {
   "property": "C80",
   "status": "partial",
   "theorems": [
    "Probnum.Quad.measure_choice",
    "Probnum.Quad.domain_measure",
    "Probnum.Quad.problem_iff",
    "Probnum.Quad.problem_mean",
    "Probnum.Quad.from_data_conditional",
    "Probnum.Quad.from_data_outcome",
    "Probnum.Quad.from_data_errors",
    "Probnum.Quad.multilevel_iff",
    "Probnum.Quad.multilevel_rejects",
    "Probnum.Quad.multilevel_conditional",
    "Probnum.Quad.exists_priors",
    "Probnum.Quad.exists_kernel_priors",
    "Probnum.Quad.random_candidates",
    "Probnum.Quad.optimizer_restarts",
    "Probnum.Quad.bayesquad_conditional",
    "Probnum.Quad.bayesquad_budget",
    "Probnum.Quad.bayesquad_terminates",
    "Probnum.Quad.bayesquad_rejects",
    "Probnum.Quad.bayesquad_succeeds",
    "Probnum.Quad.from_data_outside",
    "Probnum.Quad.default_kernel"
   ],
   "note": "Exact arithmetic; random nodes and the optimizer of scipy are oracles. The conditional distribution is proved for nodes in the region where the kernel mean formula is the integral: everywhere for exponentiated quadratic kernels, the domain for Matern kernels. from_data_outside: Matern kernels with nodes outside the domain are accepted and give wrong beliefs. The maximising policies return a point where the acquisition function is nan if there is one, and ignore batch_size. The priors of the statistical model exist for all kernels (exists_priors), and for all continuous covariance functions on separable spaces (exists_kernel_priors)."
  },
  {
   "property": "C81",
   "status": "proved",
   "theorems": [
    "Probnum.OdeFilter.fitGrid_spec",
    "Probnum.OdeFilter.fit_is_conditional",
    "Probnum.OdeFilter.fit_initial_value_variance",
    "Probnum.OdeFilter.fit_raises",
    "Probnum.OdeFilter.diffuseRv_valid"
   ],
   "note": "Exact arithmetic; solve_ivp of scipy is an oracle; the first returned time is the initial time and the times increase. The spacing of the points is dt (q+1)/q, not dt, and the last point t0 + (q+1) dt may lie beyond the end of the time span (fitGrid_spec)."
  },
  {
   "property": "C82",
   "status": "partial",
   "theorems": [
    "Probnum.OdeFilter.probsolve_grid_partial",
    "Probnum.OdeFilter.probsolve_stable",
    "Probnum.OdeFilter.probsolve_terminates_partial",
    "Probnum.OdeFilter.probsolve_constant_posterior",
    "Probnum.OdeFilter.probsolve_dynamic_posterior",
    "Probnum.OdeFilter.probsolve_argument_errors",
    "Probnum.OdeFilter.probsolve_outcome",
    "Probnum.OdeFilter.probsolve_constant_succeeds",
    "Probnum.OdeFilter.probsolve_no_first_step_raises",
    "Probnum.OdeFilter.probsolve_time_dependent_raises",
    "Probnum.OdeFilter.probsolve_empty_span",
    "Probnum.OdeFilter.dense_output_succeeds_partial",
    "Probnum.OdeFilter.probsolve_dense_output_partial",
    "Probnum.OdeFilter.probsolve_dense_output_dynamic_partial",
    "Probnum.OdeFilter.prepare_method",
    "Probnum.OdeFilter.probsolve_acceptance"
   ],
   "note": "Exact arithmetic; solve_ivp of scipy (initialisation) is an oracle. Missing: grid and termination if the first step is not positive or jumps over the end (C03 has the counterexamples), dense output with dynamic diffusion when an estimated diffusion is zero (probsolve_dense_output_dynamic_partial has it when all are positive), vector fields that use the time: these raise (probsolve_time_dependent_raises)."
  },
  {
   "property": "C83",
   "status": "partial",
   "theorems": [
    "Probnum.Perturbed.perturbsolve_grid_partial",
    "Probnum.Perturbed.perturbsolve_stable",
    "Probnum.Perturbed.perturbsolve_terminates_partial",
    "Probnum.Perturbed.perturbsolve_outcome",
    "Probnum.Perturbed.perturbsolve_constant_succeeds",
    "Probnum.Perturbed.perturbsolve_is_run",
    "Probnum.Perturbed.perturbsolve_ends_of_solution",
    "Probnum.Perturbed.perturbsolve_states_partial",
    "Probnum.Perturbed.perturbsolve_without_noise",
    "Probnum.Perturbed.perturbsolve_argument_errors",
    "Probnum.Perturbed.perturbsolve_missing_step",
    "Probnum.Perturbed.perturbsolve_uniform_large_step",
    "Probnum.Perturbed.perturbsolve_uniform_grows",
    "Probnum.Perturbed.perturbsolve_nan",
    "Probnum.Perturbed.adaptive_attempt"
   ],
   "note": "Exact arithmetic; the Runge-Kutta formulas of scipy and the random numbers are arguments. Missing: first steps that are not positive or jump over the end (C03 has the counterexamples), negative noise scales, the recursion of the states for time-dependent vector fields with noise and after rejections (there the slope passed on belongs to another point, C66)."
  },
  {
   "property": "C84",
   "status": "partial",
   "theorems": [
    "Probnum.RandVars.moments",
    "Probnum.RandVars.low_precision",
    "Probnum.RandVars.scalar_functions",
    "Probnum.RandVars.scalar_degenerate",
    "Probnum.RandVars.quantile_spec",
    "Probnum.RandVars.median_quantile",
    "Probnum.RandVars.dense_density",
    "Probnum.RandVars.dense_shape",
    "Probnum.RandVars.dense_singular",
    "Probnum.RandVars.dense_broadcast",
    "Probnum.RandVars.mode_maximal",
    "Probnum.RandVars.entropy_spec",
    "Probnum.RandVars.scalar_sample",
    "Probnum.RandVars.dense_sample",
    "Probnum.RandVars.single_entry_sample",
    "Probnum.RandVars.symKron_sample",
    "Probnum.RandVars.symKron_cov_differs",
    "Probnum.RandVars.symKron_shapes"
   ],
   "note": "Exact arithmetic; scipy.stats.norm and multivariate_normal enter as their documented formulas, the inverse of the distribution function as the generalised inverse, random numbers as arguments. The property fails where the code disagrees with it (see DESIGN.md): low precision, constants, axes of length one, vectors with one entry, symmetric Kronecker covariances. The multivariate distribution function (numerical integration in scipy) is not modelled."
  },
  {
   "property": "C85",
   "status": "partial",
   "theorems": [
    "Probnum.RandVars.getitem_describes",
    "Probnum.RandVars.transpose_describes",
    "Probnum.RandVars.reshape_describes",
    "Probnum.RandVars.neg_describes",
    "Probnum.RandVars.pos_describes",
    "Probnum.RandVars.derived_describes",
    "Probnum.RandVars.add_mean",
    "Probnum.RandVars.reshape_draws",
    "Probnum.RandVars.neg_draws",
    "Probnum.RandVars.pos_draws",
    "Probnum.RandVars.abs_draws",
    "Probnum.RandVars.getitem_draws_partial",
    "Probnum.RandVars.transpose_draws_partial",
    "Probnum.RandVars.binOp_draws",
    "Probnum.RandVars.add_draws",
    "Probnum.RandVars.neg_mode",
    "Probnum.RandVars.neg_median",
    "Probnum.RandVars.neg_support",
    "Probnum.RandVars.transpose_cov_wrong",
    "Probnum.RandVars.reshape_scalar_cov",
    "Probnum.RandVars.getitem_sample_wrong",
    "Probnum.RandVars.transpose_axes_raises",
    "Probnum.RandVars.transpose_sample_shape",
    "Probnum.RandVars.broadcast_raises",
    "Probnum.RandVars.broadcast_mixes",
    "Probnum.RandVars.median_missing",
    "Probnum.RandVars.var_scalar_raises",
    "Probnum.RandVars.getitem_mode_wrong",
    "Probnum.RandVars.getitem_entropy_wrong"
   ],
   "note": "Exact arithmetic; the random number generator is a state with an ideal distribution (draws independent of the state left behind). The property fails where the code disagrees with it (see DESIGN.md): samples of slices and transposed random variables for sizes other than (), the covariance of transposed random variables, operators on different shapes, numbers without variance or median functions, mode and entropy of slices."
  },
  {
   "property": "C86",
   "status": "partial",
   "theorems": [
    "Probnum.OdeFilter.autodiff_exact",
    "Probnum.OdeFilter.autodiff_modes_agree",
    "Probnum.OdeFilter.autodiff_without_jax"
   ],
   "note": "jax.jvp, jacfwd and jacrev are the Fr\u00e9chet derivative and its matrix; jet is the list of derivatives along a polynomial curve. Exact arithmetic. The last clause fails: the name bound by \"except ImportError as JAX_IMPORT_ERROR\" is deleted at the end of that clause, so the constructor raises NameError."
  },
  {
   "property": "C87",
   "status": "partial",
   "theorems": [
    "Probnum.Zoo.spd_given",
    "Probnum.Zoo.spd_random",
    "Probnum.Zoo.spd_raises",
    "Probnum.Zoo.spd_invariant",
    "Probnum.Zoo.sparse_spd",
    "Probnum.Zoo.sparse_raises",
    "Probnum.Zoo.sparse_density_partial",
    "Probnum.Zoo.sparse_density_wrong",
    "Probnum.Zoo.system_vector",
    "Probnum.Zoo.system_matrix",
    "Probnum.Zoo.system_raises",
    "Probnum.Zoo.system_scalar",
    "Probnum.Zoo.system_law"
   ],
   "note": "Exact arithmetic; scipy random functions are arguments with their documented contract. Two clauses fail: the density (it is the density of the whole random matrix, so the number of entries below the diagonal is random) and the exception for a solution that is a number (IndexError)."
  },
  {
   "property": "C88",
   "status": "partial",
   "theorems": [
    "Probnum.FiltZoo.car_tracking_partial",
    "Probnum.FiltZoo.car_tracking_rejects",
    "Probnum.FiltZoo.car_positions_partial",
    "Probnum.FiltZoo.car_transition_reordered",
    "Probnum.FiltZoo.car_transition_wrong",
    "Probnum.FiltZoo.car_second_position_unobserved",
    "Probnum.FiltZoo.car_diffusion_ignored",
    "Probnum.FiltZoo.car_states_wrong",
    "Probnum.FiltZoo.ou_transition",
    "Probnum.FiltZoo.ou_partial",
    "Probnum.FiltZoo.ou_drift_sign",
    "Probnum.FiltZoo.ou_diffusion_ignored",
    "Probnum.FiltZoo.pendulum_functions",
    "Probnum.FiltZoo.pendulum_cov",
    "Probnum.FiltZoo.pendulum_partial",
    "Probnum.FiltZoo.benes_functions",
    "Probnum.FiltZoo.logisticIvp_zoo",
    "Probnum.FiltZoo.logistic_problem",
    "Probnum.FiltZoo.logistic_rejects",
    "Probnum.FiltZoo.logistic_init_partial",
    "Probnum.FiltZoo.logistic_init_wrong"
   ],
   "note": "Exact arithmetic, classic implementations; standard normal base sequences as the source of randomness. The data follow the model except for the step from the first to the second state, which reuses the base vector of the initial state. Further clauses fail: the car observes a position and its derivative instead of two positions and ignores the diffusion, the Ornstein-Uhlenbeck problem ignores the diffusion and has the opposite drift sign, the default initial random variable of logistic_ode ignores y0 and the order. The data of benes_daum (an SDE without closed-form transition) are not modelled."
  },
  {
   "property": "C89",
   "status": "partial",
   "theorems": [
    "Probnum.Cov.library_linop",
    "Probnum.Cov.linop_rejects",
    "Probnum.Cov.linop_psd",
    "Probnum.Cov.linop_diagonal_truncated",
    "Probnum.Cov.keops_rejects_arrays"
   ],
   "note": "Float inputs, exact arithmetic; KeOps lazy tensors as exact entrywise functions of two indices (inputs with at most one axis). For integer inputs the operator has an integer data type and diagonal() and trace() truncate the values (linop_diagonal_truncated)."
  },
  {
   "property": "C90",
   "status": "partial",
   "theorems": [
    "Probnum.Zoo.hennig1d_problem",
    "Probnum.Zoo.hennig2d_problem",
    "Probnum.Zoo.hennig2d_symmetric",
    "Probnum.Zoo.hennig2d_rejects",
    "Probnum.Zoo.hennig2d_default",
    "Probnum.Zoo.hennig2d_indefinite",
    "Probnum.Zoo.sombrero2d_problem",
    "Probnum.Zoo.circulargaussian2d_problem",
    "Probnum.Zoo.toy_rejects",
    "Probnum.Zoo.circulargaussian2d_solution",
    "Probnum.Zoo.sombrero2d_solution",
    "Probnum.Zoo.hennig1d_solution",
    "Probnum.Zoo.hennig2d_solution"
   ],
   "note": "Exact arithmetic, arrays of points with two axes. The stored solutions are proved to be the integrals: to 1e-14 for the circular Gaussian, 1e-15 for the sombrero, 1e-13 for hennig1d and 1e-11 for hennig2d. hennig2d is documented to take positive definite matrices but accepts every matrix with positive trace and determinant, also indefinite ones (hennig2d_indefinite)."
  },
  {
   "property": "C91",
   "status": "partial",
   "theorems": [
    "Probnum.SysBelief.create_accepts",
    "Probnum.SysBelief.create_square",
    "Probnum.SysBelief.create_type_errors",
    "Probnum.SysBelief.x_given",
    "Probnum.SysBelief.hyperparameter_lookup",
    "Probnum.SysBelief.induced_normal_constant",
    "Probnum.SysBelief.induced_constant_normal",
    "Probnum.SysBelief.induced_constant",
    "Probnum.SysBelief.pseudo_inverse_rejected",
    "Probnum.SysBelief.missing_rhs",
    "Probnum.SysBelief.shapes_not_compared",
    "Probnum.SysBelief.index_errors"
   ],
   "note": "Dense arrays and exact arithmetic; arguments are random variables or arrays. The product of two random variables that are both not constant is modelled by its shape only. The code violates the property: beliefs about the pseudo-inverse of a non-square matrix are rejected (pseudo_inverse_rejected), a belief about the inverse without right-hand side is accepted (missing_rhs), the shapes of Ainv and b and of x and Ainv are not compared (shapes_not_compared), and some mismatches raise IndexError (index_errors)."
  },
  {
   "property": "C92",
   "status": "partial",
   "theorems": [
    "Probnum.RandVars.wrap_norm",
    "Probnum.RandVars.wrap_moments",
    "Probnum.RandVars.wrap_cdf",
    "Probnum.RandVars.wrap_quantile",
    "Probnum.RandVars.wrap_mass",
    "Probnum.RandVars.wrap_support_partial",
    "Probnum.RandVars.wrap_draws",
    "Probnum.RandVars.entropy_raises",
    "Probnum.RandVars.cov_missing",
    "Probnum.RandVars.in_support_gap"
   ],
   "note": "Univariate distributions with exact arithmetic; that SciPy computes the documented quantities is a hypothesis (ScipyRight). Multivariate distributions other than those covered by Normal are not modelled. The code violates the property: the entropy always raises TypeError because the wrapped function returns an array without axes (entropy_raises), the covariance is not implemented although it is the variance (cov_missing), and in_support is true between the values of a discrete distribution (in_support_gap)."
  },
  {
   "property": "C93",
   "status": "partial",
   "theorems": [
    "Probnum.RvList.create_partial",
    "Probnum.RvList.only_first_checked",
    "Probnum.RvList.field_stacks",
    "Probnum.RvList.reads_agree_partial",
    "Probnum.RvList.reads_frozen",
    "Probnum.RvList.stale_append",
    "Probnum.RvList.posterior_states",
    "Probnum.RvList.item_field",
    "Probnum.RvList.slice_field",
    "Probnum.RvList.empty_slice",
    "Probnum.RvList.shape_mean_partial",
    "Probnum.RvList.resample_all"
   ],
   "note": "Elements and their attributes are arbitrary objects. The code violates the property: only the first element is checked (only_first_checked); a property that has been read once keeps its value although the list changes (reads_frozen, stale_append); an empty slice loses the axes of the elements (empty_slice); the shape of the empty list raises IndexError (shape_mean_partial)."
  },
  {
   "property": "C94",
   "status": "partial",
   "theorems": [
    "Probnum.Utils.as_shape_partial",
    "Probnum.Utils.as_shape_again",
    "Probnum.Utils.iterator_lost",
    "Probnum.Utils.negative_accepted"
   ],
   "note": "The code violates the property for iterators: checking the entries uses the iterator up, so every iterator of integers gives the shape () (iterator_lost). Negative sizes are accepted (negative_accepted)."
  },
  {
   "property": "C95",
   "status": "partial",
   "theorems": [
    "Probnum.Vectorize.matmat_stacks",
    "Probnum.Vectorize.matvec_stacks_partial",
    "Probnum.Vectorize.matvec_method",
    "Probnum.Vectorize.empty_stacks",
    "Probnum.Vectorize.vectors_rejected"
   ],
   "note": "np.vectorize and np.apply_along_axis as documented, one data type, exact arithmetic. The code violates the property: vectorize_matvec with method=True calls the method without its first argument, so every call fails (matvec_method), and empty stacks raise ValueError (empty_stacks)."
  },
  {
   "property": "C96",
   "status": "partial",
   "theorems": [
    "Probnum.Zoo.vanderpol_jax_documented",
    "Probnum.Zoo.vanderpol_jax_agrees",
    "Probnum.Zoo.vanderpol_jax_second",
    "Probnum.Zoo.vanderpol_jax_rejects",
    "Probnum.Zoo.vanderpol_jax_default",
    "Probnum.Zoo.vanderpol_jax_lengths",
    "Probnum.Zoo.threebody_jax_documented",
    "Probnum.Zoo.threebody_jax_start",
    "Probnum.Zoo.threebody_jax_agrees",
    "Probnum.Zoo.threebody_jax_lengths"
   ],
   "note": "Automatic differentiation as Fr\u00e9chet derivatives, exact arithmetic, jax indexing as documented by jax (indices beyond the end are replaced by the last one). The code violates the property: the documented default parameter of vanderpol_jax is 0.1, the default is 10 (vanderpol_jax_default), and states of the wrong length do not raise (vanderpol_jax_lengths, threebody_jax_lengths)."
  },
  {
   "property": "C97",
   "status": "partial",
   "theorems": [
    "Probnum.Events.every_step_passes_partial",
    "Probnum.Events.iterator_used_up",
    "Probnum.Events.iterator_loses_event",
    "Probnum.Events.event_ends_solution",
    "Probnum.Events.ends_with_current_problem",
    "Probnum.Events.event_times_partial",
    "Probnum.Events.prolonged_repeats_time",
    "Probnum.Events.shortened_overshoots",
    "Probnum.Events.prolonged_adaptive_raises"
   ],
   "note": "Solver, step rule and callbacks are arbitrary functions; without stop locations. The code violates the property: callbacks given as an iterator are called after the first step only (iterator_used_up, iterator_loses_event); the next step is limited by the final time before the callbacks, so moving the final time closer overshoots (shortened_overshoots), and moving it away at the end gives a step of size zero (prolonged_repeats_time), which raises RuntimeError with adaptive steps (prolonged_adaptive_raises)."
  },
  {
   "property": "C98",
   "status": "partial",
   "theorems": [
    "Probnum.Linalg.MatrixBased.calibration_keeps_estimates",
    "Probnum.Linalg.MatrixBased.solve_keeps_estimates",
    "Probnum.Linalg.MatrixBased.calibrated_inverse_partial",
    "Probnum.Linalg.MatrixBased.calibrated_matrix_partial",
    "Probnum.Linalg.MatrixBased.matrix_prior_wrong",
    "Probnum.Linalg.MatrixBased.matrix_prior_wrong_example",
    "Probnum.Linalg.MatrixBased.calibration_first",
    "Probnum.Linalg.MatrixBased.initial_trace_wrong",
    "Probnum.Linalg.MatrixBased.negative_scale",
    "Probnum.Linalg.MatrixBased.calibration_never_fails",
    "Probnum.Linalg.MatrixBased.unknown_method_late",
    "Probnum.Linalg.MatrixBased.weightedmean_wrong"
   ],
   "note": "Exact arithmetic, one right-hand side, the regression of the optional package GPy is an arbitrary function. The code violates the property: with a prior on the matrix, the returned factor is A s - A0 s on explored directions (matrix_prior_wrong); after one iteration the beliefs are those of the prior (calibration_first); before the first iteration the trace is too large (initial_trace_wrong); unknown methods are accepted for two iterations (unknown_method_late); the weighted mean of equal quotients is not that quotient (weightedmean_wrong)."
  },
  {
   "property": "C99",
   "status": "partial",
   "theorems": [
    "Probnum.Kalman.dense_samples_exact",
    "Probnum.Kalman.dense_samples_distribution_partial",
    "Probnum.Kalman.samples_before_first_location",
    "Probnum.Kalman.samples_ignore_order",
    "Probnum.Kalman.extrapolated_samples_wrong"
   ],
   "note": "Exact arithmetic, one sample, no diffusion model, classic implementations. The code violates the property: after the last location the same realization of the base measure is used for two times, so samples have a wrong distribution (extrapolated_samples_wrong); samples for unsorted or repeated times are returned sorted and without repetitions (samples_ignore_order)."
  }
 ]
}