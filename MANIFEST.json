{
 "claims": [
  {
   "property": "C01",
   "status": "proved",
   "theorems": [
    "Verif.Cond.C01_joint_is_sum"
   ],
   "note": "Holds for every call that returns, for any graph conversion and any per-node log-probabilities."
  },
  {
   "property": "C02",
   "status": "proved",
   "theorems": [
    "Verif.Cond.C02_one_term_each"
   ],
   "note": "For every call that returns."
  },
  {
   "property": "C03",
   "status": "partial",
   "theorems": [
    "Verif.Cond.C03_value_order_partial",
    "Verif.Cond.C03_scan_order_wrong"
   ],
   "note": "False as stated: with several outputs of one node (scan) the order is that of the node loop (C03_scan_order_wrong). Proved when every node has one valued output or the arguments come in node order."
  },
  {
   "property": "C04",
   "status": "partial",
   "theorems": [
    "Verif.Cond.C04_realized_partial",
    "Verif.Cond.C04_scan_order_wrong"
   ],
   "note": "Realized part proved with the same restriction as C03; C04_scan_order_wrong is the witness."
  },
  {
   "property": "C05",
   "status": "partial",
   "theorems": [
    "Verif.Cond.C05_own_value_partial",
    "Verif.Cond.C05_own_value_single_partial",
    "Verif.Cond.C05_scan_order_wrong"
   ],
   "note": "False for nodes with several measurable outputs listed in another order (C05_scan_order_wrong). Proved when the arguments come in node order, and for single-output nodes."
  },
  {
   "property": "C06",
   "status": "proved",
   "theorems": [
    "Verif.Cond.C06_no_owner",
    "Verif.Cond.C06_never_omits",
    "Verif.Cond.C06_errors",
    "Verif.Cond.C06_first_fault",
    "Verif.Cond.C06_returns_iff"
   ],
   "note": "Errors are raised instead of partial results, for every backend. C06_first_fault gives the error of every request, C06_returns_iff says exactly when conditional_logprob returns."
  },
  {
   "property": "C07",
   "status": "proved",
   "theorems": [
    "Verif.Graph.C07_conditional_on_values",
    "Verif.Graph.C07_ancestors_irrelevant"
   ],
   "note": "Expression-graph model of construct_ir_fgraph's substitution; scalar variables."
  },
  {
   "property": "C08",
   "status": "proved",
   "theorems": [
    "Verif.Graph.C08_realized_density",
    "Verif.Graph.C08_joint_density"
   ],
   "note": "Also with realized values (C08_realized_density). Scalar variables with any reference measures; exceptions and NaN count as density zero."
  },
  {
   "property": "C09",
   "status": "proved",
   "theorems": [
    "Verif.C09_normal"
   ],
   "note": ""
  },
  {
   "property": "C10",
   "status": "proved",
   "theorems": [
    "Verif.C10_uniform"
   ],
   "note": ""
  },
  {
   "property": "C11",
   "status": "proved",
   "theorems": [
    "Verif.C11_halfnormal"
   ],
   "note": ""
  },
  {
   "property": "C12",
   "status": "proved",
   "theorems": [
    "Verif.C12_beta"
   ],
   "note": ""
  },
  {
   "property": "C13",
   "status": "proved",
   "theorems": [
    "Verif.C13_exponential"
   ],
   "note": ""
  },
  {
   "property": "C14",
   "status": "proved",
   "theorems": [
    "Verif.C14_laplace"
   ],
   "note": ""
  },
  {
   "property": "C15",
   "status": "proved",
   "theorems": [
    "Verif.C15_lognormal"
   ],
   "note": ""
  },
  {
   "property": "C16",
   "status": "proved",
   "theorems": [
    "Verif.C16_pareto"
   ],
   "note": ""
  },
  {
   "property": "C17",
   "status": "proved",
   "theorems": [
    "Verif.C17_cauchy"
   ],
   "note": ""
  },
  {
   "property": "C18",
   "status": "proved",
   "theorems": [
    "Verif.C18_halfcauchy"
   ],
   "note": ""
  },
  {
   "property": "C19",
   "status": "partial",
   "theorems": [
    "Verif.C19_gamma_partial",
    "Verif.C19_gamma_accepts_scale_zero"
   ],
   "note": "gamma accepts scale = 0 (C19_gamma_accepts_scale_zero); law proved for positive parameters."
  },
  {
   "property": "C20",
   "status": "proved",
   "theorems": [
    "Verif.C20_invgamma"
   ],
   "note": ""
  },
  {
   "property": "C21",
   "status": "proved",
   "theorems": [
    "Verif.C21_chisquare"
   ],
   "note": ""
  },
  {
   "property": "C22",
   "status": "proved",
   "theorems": [
    "Verif.C22_wald"
   ],
   "note": ""
  },
  {
   "property": "C23",
   "status": "partial",
   "theorems": [
    "Verif.C23_weibull_partial",
    "Verif.C23_weibull_nan_at_zero"
   ],
   "note": "NaN at value 0 with shape 1 (C23_weibull_nan_at_zero); law proved as measures with the value 0 excluded from the clean part."
  },
  {
   "property": "C24",
   "status": "proved",
   "theorems": [
    "Verif.C24_vonmises"
   ],
   "note": ""
  },
  {
   "property": "C25",
   "status": "partial",
   "theorems": [
    "Verif.C25_triangular_partial",
    "Verif.C25_triangular_nan"
   ],
   "note": "NaN at value = c = upper (C25_triangular_nan); law proved otherwise."
  },
  {
   "property": "C26",
   "status": "proved",
   "theorems": [
    "Verif.C26_gumbel"
   ],
   "note": ""
  },
  {
   "property": "C27",
   "status": "proved",
   "theorems": [
    "Verif.C27_logistic"
   ],
   "note": ""
  },
  {
   "property": "C28",
   "status": "proved",
   "theorems": [
    "Verif.C28_binomial"
   ],
   "note": ""
  },
  {
   "property": "C29",
   "status": "proved",
   "theorems": [
    "Verif.C29_betabinomial"
   ],
   "note": ""
  },
  {
   "property": "C30",
   "status": "proved",
   "theorems": [
    "Verif.C30_bernoulli"
   ],
   "note": ""
  },
  {
   "property": "C31",
   "status": "proved",
   "theorems": [
    "Verif.C31_poisson"
   ],
   "note": ""
  },
  {
   "property": "C32",
   "status": "partial",
   "theorems": [
    "Verif.C32_nbinom_partial",
    "Verif.C32_nbinom_failures_partial",
    "Verif.C32_nbinom_large_n_wrong"
   ],
   "note": "Above 1e10 the code switches to a Poisson mass (C32_nbinom_large_n_wrong); p = 1 is rejected. Proved for n below the switch."
  },
  {
   "property": "C33",
   "status": "proved",
   "theorems": [
    "Verif.C33_geometric"
   ],
   "note": ""
  },
  {
   "property": "C34",
   "status": "proved",
   "theorems": [
    "Verif.C34_hypergeometric"
   ],
   "note": ""
  },
  {
   "property": "C35",
   "status": "partial",
   "theorems": [
    "Verif.C35_studentt_partial",
    "Verif.C35_studentt_accepts_invalid"
   ],
   "note": "Accepts any df and scale 0 (C35_studentt_accepts_invalid); law proved for valid parameters."
  },
  {
   "property": "C36",
   "status": "partial",
   "theorems": [
    "Verif.C36_categorical_partial",
    "Verif.C36_categorical_raises_out_of_range",
    "Verif.C36_categorical_batch_partial"
   ],
   "note": "Out-of-range values raise IndexError instead of giving -inf (C36_categorical_raises_out_of_range); in-range masses proved, also batched."
  },
  {
   "property": "C37",
   "status": "proved",
   "theorems": [
    "Verif.C37_mvnormal_formula",
    "Verif.C37_mvnormal",
    "Verif.C37_mvnormal_invalid"
   ],
   "note": ""
  },
  {
   "property": "C38",
   "status": "partial",
   "theorems": [
    "Verif.C38_dirichlet_partial",
    "Verif.C38_off_simplex_wrong",
    "Verif.C38_boundary_wrong"
   ],
   "note": "Density proved against the law of normalised independent Gamma variables, any length. False off the simplex inside the unit cube: no check of the sum (C38_off_simplex_wrong); -inf on the boundary even where the density is unbounded (C38_boundary_wrong)."
  },
  {
   "property": "C39",
   "status": "partial",
   "theorems": [
    "Verif.ArrGraph.C39_model_partial",
    "Verif.C39_multinomial_partial",
    "Verif.C39_multinomial_accepts_negative"
   ],
   "note": "Negative probabilities are accepted when they sum to one (C39_multinomial_accepts_negative); mass proved for valid parameters, also for arrays of vectors in models."
  },
  {
   "property": "C40",
   "status": "proved",
   "theorems": [
    "Verif.C40_dirac",
    "Verif.C40_dirac_pointmass"
   ],
   "note": ""
  },
  {
   "property": "C41",
   "status": "partial",
   "theorems": [
    "Verif.ArrGraph.C41_model_partial",
    "Verif.C41_markov_shifted_partial",
    "Verif.C41_markov_partial",
    "Verif.C41_markov_broadcast",
    "Verif.C41_markov_wrong_number",
    "Verif.C41_markov_time_varying_wrong",
    "Verif.ArrGraph.C41_markov_negative",
    "Verif.ArrGraph.C41_markov_outside",
    "Verif.ArrGraph.C41_markov_negative_wrong"
   ],
   "note": "Time-varying transition matrices are off by one step with respect to the sampler (C41_markov_time_varying_wrong); exact shifted law and the time-homogeneous law proved; C41_model_partial: the chain as an array variable of a model, used in the hidden Markov model of Props/ArrDerivedHmm.lean. Values that are no states: negative ones count from the end and get the probability of a state (C41_markov_negative, C41_markov_negative_wrong), others raise IndexError (C41_markov_outside)."
  },
  {
   "property": "C42",
   "status": "partial",
   "theorems": [
    "Verif.C42_checks",
    "Verif.C42_gamma_partial",
    "Verif.C42_chisquare",
    "Verif.C42_nbinom",
    "Verif.C42_nbinom_domain",
    "Verif.C42_unchecked",
    "Verif.C42_arrays"
   ],
   "note": "All checks proved as decisions over all float parameters; gamma, Student-t, uniform and others lack checks (C42_gamma_partial, C42_unchecked)."
  },
  {
   "property": "C43",
   "status": "proved",
   "theorems": [
    "Verif.C43_normal_logcdf"
   ],
   "note": ""
  },
  {
   "property": "C44",
   "status": "proved",
   "theorems": [
    "Verif.C44_uniform_logcdf"
   ],
   "note": ""
  },
  {
   "property": "C45",
   "status": "proved",
   "theorems": [
    "Verif.C45_poisson_logcdf"
   ],
   "note": ""
  },
  {
   "property": "C46",
   "status": "proved",
   "theorems": [
    "Verif.C46_geometric_logcdf"
   ],
   "note": ""
  },
  {
   "property": "C47",
   "status": "proved",
   "theorems": [
    "Verif.C47_normal_icdf"
   ],
   "note": ""
  },
  {
   "property": "C48",
   "status": "proved",
   "theorems": [
    "Verif.C48_geometric_icdf"
   ],
   "note": ""
  },
  {
   "property": "C49",
   "status": "proved",
   "theorems": [
    "Verif.C49_simplex",
    "Verif.C49_entrywise",
    "Verif.C49_scale_vector",
    "Verif.C49_vector_chained",
    "Verif.C49_loc",
    "Verif.C49_scale",
    "Verif.C49_log",
    "Verif.C49_exp",
    "Verif.C49_reciprocal",
    "Verif.C49_interval",
    "Verif.C49_interval_lower",
    "Verif.C49_interval_upper",
    "Verif.C49_interval_none",
    "Verif.C49_logodds",
    "Verif.C49_circular",
    "Verif.C49_circular_wraps",
    "Verif.C49_chained"
   ],
   "note": "Numbers and vectors of every length; chains of vector transforms may change the length."
  },
  {
   "property": "C50",
   "status": "partial",
   "theorems": [
    "Verif.C50_loc",
    "Verif.C50_scale",
    "Verif.C50_log",
    "Verif.C50_exp",
    "Verif.C50_reciprocal_partial",
    "Verif.C50_reciprocal_negative",
    "Verif.C50_interval",
    "Verif.C50_interval_lower",
    "Verif.C50_interval_upper",
    "Verif.C50_logodds",
    "Verif.C50_circular"
   ],
   "note": "Reciprocal transform: NaN for negative values (C50_reciprocal_negative); every other Jacobian proved on its whole range."
  },
  {
   "property": "C51",
   "status": "partial",
   "theorems": [
    "Verif.C51_transformed_density",
    "Verif.C51_transformed_mass",
    "Verif.C51_each_transform_partial",
    "Verif.C51_without_jacobian",
    "Verif.C51_circular_infinite_mass"
   ],
   "note": "Partial because of the circular transform. Proved for every transform that inverts and has a correct Jacobian term; the circular transform maps the whole line onto the circle, so its transformed density has infinite mass (C51_circular_infinite_mass)."
  },
  {
   "property": "C52",
   "status": "partial",
   "theorems": [
    "Verif.C52_uniform",
    "Verif.C52_triangular",
    "Verif.C52_halfnormal",
    "Verif.C52_wald",
    "Verif.C52_exponential",
    "Verif.C52_lognormal",
    "Verif.C52_gamma",
    "Verif.C52_invgamma",
    "Verif.C52_chisquare",
    "Verif.C52_weibull",
    "Verif.C52_beta",
    "Verif.C52_halfcauchy_partial",
    "Verif.C52_halfcauchy_wrong",
    "Verif.C52_pareto_partial",
    "Verif.C52_pareto_wrong",
    "Verif.C52_vonmises_partial",
    "Verif.C52_vonmises_not_onto"
   ],
   "note": "Pareto, half-Cauchy and von Mises defaults do not map onto the support (C52_pareto_wrong, C52_halfcauchy_wrong, C52_vonmises_not_onto); the other distributions proved."
  },
  {
   "property": "C53",
   "status": "partial",
   "theorems": [
    "Verif.C53_simplex_chain",
    "Verif.C53_vector_chain_partial",
    "Verif.C53_vector_backward",
    "Verif.C53_vector_chain_wrong",
    "Verif.C53_chain_order",
    "Verif.C53_chain_jacobian"
   ],
   "note": "Proved for scalars, chains of any length; on vectors proved when every transform returns one term per entry, also after the simplex transform (C53_simplex_chain), false when a scalar scale is chained with an entrywise transform (C53_vector_chain_wrong)."
  },
  {
   "property": "C54",
   "status": "proved",
   "theorems": [
    "Verif.C54_backward_then_forward",
    "Verif.C54_forward_then_backward",
    "Verif.C54_log_jac_det"
   ],
   "note": "Every dimension."
  },
  {
   "property": "C55",
   "status": "partial",
   "theorems": [
    "Verif.TransVals.C55_unknown_variable_raises",
    "Verif.TransVals.C55_exactly_requested_partial",
    "Verif.TransVals.C55_incsubtensor_ignored",
    "Verif.TransVals.C55_scan_ignored"
   ],
   "note": "Exact decision proved for nodes that still carry the value variable; after incsubtensor_rv_replace a requested transform is silently ignored (C55_incsubtensor_ignored), and so it is for scans (C55_scan_ignored)."
  },
  {
   "property": "C56",
   "status": "partial",
   "theorems": [
    "Verif.C56_elementwise_density_partial",
    "Verif.C56_reciprocal_negative",
    "Verif.C56_not_one_measurable"
   ],
   "note": "Towers of any depth; reciprocals only of positive variables (C56_reciprocal_negative)."
  },
  {
   "property": "C57",
   "status": "partial",
   "theorems": [
    "Verif.C57_exp_negative",
    "Verif.C57_neg_inf_partial",
    "Verif.C57_loc_scale_log"
   ],
   "note": "False: NaN instead of -inf for exp of a variable at negative values (C57_exp_negative); proved where the back-transform is total."
  },
  {
   "property": "C58",
   "status": "partial",
   "theorems": [
    "Verif.Walk.C58_single_source_partial",
    "Verif.Walk.C58_parameters_not_random",
    "Verif.Walk.C58_unsigned_passes"
   ],
   "note": "Exact characterisation for every finite graph; unsigned and boolean types are not recognised as integers (C58_unsigned_passes)."
  },
  {
   "property": "C59",
   "status": "partial",
   "theorems": [
    "Verif.C59_clip_partial",
    "Verif.C59_equal_bounds_wrong",
    "Verif.C59_crossed_bounds_raise"
   ],
   "note": "Proved for a < b and one-sided or infinite bounds; for a = b the code returns P(X <= a) for a value taken with probability one (C59_equal_bounds_wrong)."
  },
  {
   "property": "C60",
   "status": "partial",
   "theorems": [
    "Verif.C60_clip_discrete_partial",
    "Verif.C60_equal_bounds_wrong"
   ],
   "note": "Proved for a < b and one-sided bounds; same failure as C59 for equal bounds (C60_equal_bounds_wrong)."
  },
  {
   "property": "C61",
   "status": "partial",
   "theorems": [
    "Verif.C61_round_partial",
    "Verif.C61_noninteger_wrong",
    "Verif.C61_below_support_nan"
   ],
   "note": "Proved at integers not below the support; non-integers get the mass of the rounded value (C61_noninteger_wrong) and below the support the result is NaN (C61_below_support_nan)."
  },
  {
   "property": "C62",
   "status": "partial",
   "theorems": [
    "Verif.C62_scalar_mixture_partial",
    "Verif.C62_outside_zero",
    "Verif.C62_negative_index_wrong"
   ],
   "note": "Proved for non-negative indices and any number of components; negative indices, which indexing accepts, give log-probability 0 (C62_negative_index_wrong)."
  },
  {
   "property": "C63",
   "status": "partial",
   "theorems": [
    "Verif.C63_stack_partial",
    "Verif.C63_vector_partial",
    "Verif.C63_negative_index_wrong",
    "Verif.C63_concatenate_wrong",
    "Verif.C63_other_axis_raises",
    "Verif.C63_slice_wrong",
    "Verif.C63_negative_axis_raises",
    "Verif.C63_shifted",
    "Verif.C63_shifted_raises",
    "Verif.C63_axis_counterexample"
   ],
   "note": "Any number and shape of components stacked along a new first axis, with any index tuple that begins (after newaxis) with non-negative integers and has an index of one or more dimensions. False otherwise: negative indices, other join axes (C63_shifted: another element of the component is used, C63_axis_counterexample, or C63_shifted_raises; with a negative axis the derivation always raises: C63_negative_axis_raises), concatenations and slices along the joined axis."
  },
  {
   "property": "C64",
   "status": "partial",
   "theorems": [
    "Verif.C64_switch_partial",
    "Verif.C64_switch_wrong"
   ],
   "note": "False: the components are in the wrong order, so the log-probability is that of the branch not taken (C64_switch_wrong); what the code returns instead is proved for every condition."
  },
  {
   "property": "C65",
   "status": "partial",
   "theorems": [
    "Verif.C65_slice_positions",
    "Verif.C65_expand_indices_partial",
    "Verif.C65_descending_wrong",
    "Verif.C65_no_axes_wrong"
   ],
   "note": "Every rank, every mixture of slices with positive step, newaxis and integer arrays; wrong for descending slices (C65_descending_wrong) and arrays without axes (C65_no_axes_wrong)."
  },
  {
   "property": "C66",
   "status": "partial",
   "theorems": [
    "Verif.C66_differences_invert_cumsum",
    "Verif.C66_volume",
    "Verif.C66_cumsum_law_partial",
    "Verif.C66_axis_raises",
    "Verif.C66_rewrite"
   ],
   "note": "Every shape and axis, negative ones included; an axis of length zero or out of range raises."
  },
  {
   "property": "C67",
   "status": "partial",
   "theorems": [
    "Verif.C67_join_partial",
    "Verif.C67_join_raises",
    "Verif.C67_join_supports_differ",
    "Verif.C67_join_vectors",
    "Verif.C67_batched_axis_wrong",
    "Verif.C67_negative_axis_raises",
    "Verif.C67_stack",
    "Verif.C67_when"
   ],
   "note": "Joins of any rank and number of pieces and stacks of scalars proved; wrong for batched multivariate variables with two batch dimensions (C67_batched_axis_wrong), raises for negative axes (C67_negative_axis_raises)."
  },
  {
   "property": "C68",
   "status": "proved",
   "theorems": [
    "Verif.C68_dimshuffle",
    "Verif.C68_dimshuffle_elementwise"
   ],
   "note": "Every rank and every legal order, univariate and batched multivariate variables."
  },
  {
   "property": "C69",
   "status": "partial",
   "theorems": [
    "Verif.C69_sum_partial",
    "Verif.C69_difference_partial",
    "Verif.C69_same_variable_wrong",
    "Verif.C69_negative_sigma_accepted",
    "Verif.C69_when"
   ],
   "note": "Proved for jointly independent normals; the rewrite does not check independence (C69_same_variable_wrong) nor the standard deviations (C69_negative_sigma_accepted)."
  },
  {
   "property": "C70",
   "status": "proved",
   "theorems": [
    "Verif.C70_lift_value",
    "Verif.C70_remove_value",
    "Verif.C70_lift_logprob",
    "Verif.C70_lift_terminates",
    "Verif.C70_not_lifted",
    "Verif.C70_removed",
    "Verif.C70_point_mass",
    "Verif.C70_off_mass"
   ],
   "note": "Every order of application, any nesting; termination included. Expressions are trees."
  },
  {
   "property": "C71",
   "status": "partial",
   "theorems": [
    "Verif.C71_indices_iff",
    "Verif.C71_advanced",
    "Verif.C71_basic_partial",
    "Verif.C71_two_indices_wrong",
    "Verif.C71_two_slices_wrong",
    "Verif.C71_inc_wrong"
   ],
   "note": "Every index expression with integer arrays; integers and slices if the integers of every entry are the first of all (exact condition: C71_indices_iff). False otherwise (C71_two_indices_wrong, C71_two_slices_wrong); additions are treated as assignments (C71_inc_wrong)."
  },
  {
   "property": "C72",
   "status": "partial",
   "theorems": [
    "Verif.C72_taps_partial",
    "Verif.C72_asymmetric_wrong",
    "Verif.C72_outputs"
   ],
   "note": "Any number of outputs and every symmetric set of lags (all lags up to L, a single lag, none); false for every other set (C72_asymmetric_wrong)."
  },
  {
   "property": "C73",
   "status": "proved",
   "theorems": [
    "Verif.Walk.C73_walk_model"
   ],
   "note": ""
  },
  {
   "property": "C74",
   "status": "partial",
   "theorems": [
    "Verif.Utils.C74_values_substituted_partial",
    "Verif.Utils.C74_earlier_key_left"
   ],
   "note": "Proved when no value mentions its own or an earlier key; otherwise the random variable stays in the graph (C74_earlier_key_left)."
  },
  {
   "property": "C75",
   "status": "partial",
   "theorems": [
    "Verif.Utils.C75_change_size",
    "Verif.Utils.C75_expand_partial",
    "Verif.Utils.C75_multivariate_batch_lost"
   ],
   "note": "False for multivariate variables with batched parameters and no size (C75_multivariate_batch_lost)."
  },
  {
   "property": "C76",
   "status": "proved",
   "theorems": [
    "Verif.Abstract.C76_marking",
    "Verif.Abstract.C76_isolated",
    "Verif.Abstract.C76_marked_keep",
    "Verif.Abstract.C76_not_measurable"
   ],
   "note": "For every call history; assumes that hashes do not confuse two different functions."
  },
  {
   "property": "C77",
   "status": "proved",
   "theorems": [
    "Verif.C77_fresh",
    "Verif.C77_enough",
    "Verif.C77_reused_state_wrong"
   ],
   "note": "For calls that make a state of their own (the default). With a PrinterState passed a second time names clash: C77_reused_state_wrong."
  },
  {
   "property": "C78",
   "status": "proved",
   "theorems": [
    "Verif.C78_lines",
    "Verif.C78_text",
    "Verif.C78_latex"
   ],
   "note": ""
  },
  {
   "property": "C79",
   "status": "partial",
   "theorems": [
    "Verif.C79_one_partial",
    "Verif.C79_array_partial",
    "Verif.C79_prints_reversed",
    "Verif.C79_several_wrong",
    "Verif.C79_arrays_wrong"
   ],
   "note": "False: proved only for at most one index variable; with several the order is reversed (C79_prints_reversed, C79_several_wrong), and arrays are dropped (C79_arrays_wrong)."
  },
  {
   "property": "C80",
   "status": "proved",
   "theorems": [
    "Verif.Cond.C80_returns_only_well_typed",
    "Verif.Cond.C80_first_fault"
   ],
   "note": "Every dictionary of pairs; the type comparison itself is a parameter."
  },
  {
   "property": "C81",
   "status": "partial",
   "theorems": [
    "Verif.C81_repeatable_partial",
    "Verif.C81_preset_category_wrong"
   ],
   "note": "Proved for printers without preset categories; false with preset ones, whose containers are shared between calls (C81_preset_category_wrong)."
  },
  {
   "property": "C82",
   "status": "partial",
   "theorems": [
    "Verif.C82_terms_partial",
    "Verif.C82_density_partial"
   ],
   "note": "Proved for any number of outputs with symmetric lags (all lags up to L, one lag, none), any number of steps and sequences; lags that are not symmetric are false (C72_asymmetric_wrong), other recurrent outputs are not modelled."
  },
  {
   "property": "C83",
   "status": "partial",
   "theorems": [
    "Verif.C83_tail_partial",
    "Verif.C83_memory_wrong",
    "Verif.C83_no_initial_wrong",
    "Verif.C83_position",
    "Verif.C83_last_value_wrong"
   ],
   "note": "Proved for out[L:] and out[-n:]; false for other slices, where entries come from uninitialised memory (C83_memory_wrong, C83_last_value_wrong), and slices of outputs without initial values raise (C83_no_initial_wrong)."
  },
  {
   "property": "C84",
   "status": "partial",
   "theorems": [
    "Verif.C84_distinct_sources_partial",
    "Verif.C84_shared_source_wrong",
    "Verif.C84_not_derived_raises",
    "Verif.C84_function_of_requested_raises",
    "Verif.C84_same_raises"
   ],
   "note": "Proved when the sources are different independent variables; false when two different functions of one source are requested (C84_shared_source_wrong): the sum of the marginal log-densities is returned although no joint density exists. C84_same_raises: the same function twice raises ValueError. C84_function_of_requested_raises: a function of a requested variable raises DensityNotFound."
  },
  {
   "property": "C85",
   "status": "partial",
   "theorems": [
    "Verif.C85_switching_partial",
    "Verif.C85_two_axes_wrong",
    "Verif.C85_two_axes_raises",
    "Verif.C85_logprob_partial"
   ],
   "note": "Proved for components that are scalars or vectors; with components of two axes the entries [j,j] are selected (C85_two_axes_wrong) or an IndexError is raised (C85_two_axes_raises)."
  },
  {
   "property": "C86",
   "status": "partial",
   "theorems": [
    "Verif.C86_distinct_partial",
    "Verif.C86_repeated_wrong"
   ],
   "note": "Proved for different indices; false when an index occurs twice (C86_repeated_wrong): a log-probability is returned although no joint density exists."
  },
  {
   "property": "C87",
   "status": "partial",
   "theorems": [
    "Verif.ScanOut.C87_all_random_partial",
    "Verif.ScanOut.C87_other_output_raises",
    "Verif.ScanOut.C87_other_output_wrong"
   ],
   "note": "Proved when all outputs are random and have values; an output without a value raises (C87_other_output_raises), with values for all outputs the terms are mixed up (C87_other_output_wrong)."
  },
  {
   "property": "C88",
   "status": "partial",
   "theorems": [
    "Verif.C88_when",
    "Verif.C88_switch_when",
    "Verif.C88_conditional_partial",
    "Verif.C88_joint_partial",
    "Verif.C88_dependent_index_wrong"
   ],
   "note": "Decision logic exact; density proved for an index that is independent of each component. The rewrite never looks at the index: false when it is computed from a component (C88_dependent_index_wrong)."
  },
  {
   "property": "C89",
   "status": "partial",
   "theorems": [
    "Verif.C89_distinct_partial",
    "Verif.C89_same_index_wrong"
   ],
   "note": "Proved for different indices; false for two index variables with the same value (C89_same_index_wrong)."
  },
  {
   "property": "C90",
   "status": "partial",
   "theorems": [
    "Verif.C90_entrywise",
    "Verif.C90_density_partial",
    "Verif.C90_broadcast_wrong",
    "Verif.C90_vector_loc_wrong",
    "Verif.C90_vector_scale_wrong"
   ],
   "note": "Entry-by-entry theorem for all shapes and towers; density proved for vectors of independent numbers with parameters that fit. False when a parameter enlarges the shape (C90_broadcast_wrong: no density exists) and for vector-valued variables (C90_vector_loc_wrong, C90_vector_scale_wrong: wrong total mass)."
  },
  {
   "property": "C91",
   "status": "partial",
   "theorems": [
    "Verif.C91_independent_partial",
    "Verif.C91_only_independent",
    "Verif.C91_same_twice_wrong"
   ],
   "note": "Proved for independent variables; the result is a density only of independent variables (C91_only_independent), and a variable stacked twice has no density (C91_same_twice_wrong)."
  },
  {
   "property": "C92",
   "status": "partial",
   "theorems": [
    "Verif.C92_entrywise",
    "Verif.C92_crossed_raises",
    "Verif.C92_infinite_constants",
    "Verif.C92_infinite_variables",
    "Verif.C92_density_partial",
    "Verif.C92_only_independent"
   ],
   "note": "Proved entry by entry (C92_entrywise reduces each entry to the scalar clip, C92_crossed_raises), and as a joint density for independent entries with bounds that broadcast to the shape of the variable.  The result is a density only of independent entries (C92_only_independent): one number clipped at an array of bounds gets a wrong value (ClipArrayDemo.twice_wrong)."
  },
  {
   "property": "C93",
   "status": "proved",
   "theorems": [
    "Verif.IR.C93_converted",
    "Verif.IR.C93_any_order",
    "Verif.IR.C93_terminates",
    "Verif.IR.C93_outcome"
   ],
   "note": "Rewriting is a relation that converts any node whose rewrite applies, those of transforms.py and add_independent_normals; the theorems hold for every run. Scalar graphs; canonicalization (merging, constant folding) is not modelled."
  },
  {
   "property": "C94",
   "status": "proved",
   "theorems": [
    "Verif.IR.C94_joint_density"
   ],
   "note": "Composition of graph conversion, dispatch, the elementwise log-probabilities and the kernels, against forward sampling; kernels enter as log-densities (proved for each distribution under C09-C40)."
  },
  {
   "property": "C95",
   "status": "partial",
   "theorems": [
    "Verif.IR.C95_joint_density_partial",
    "Verif.IR.C95_child_first",
    "Verif.IR.C95_without_jacobian",
    "Verif.IR.C95_outcome",
    "Verif.IR.C95_order_counterexample",
    "Verif.IR.C95_random_counterexample"
   ],
   "note": "Transforms see the values of the parameters of a random variable; those of derived variables must not look at node inputs. Value variables are different from each other. False of the code: a variable that is given through other valued variables and is used by others has two different ValuedVariable nodes, and only the one that the rewriter reaches first is transformed. If the caller names a child first, as in joint_logprob(Y, X, W), the Jacobian term of X is lost (C95_child_first, C95_order_counterexample), and a transform that depends on W uses W as a random variable (C95_random_counterexample). C95_joint_density_partial has all calls in which this does not happen."
  },
  {
   "property": "C96",
   "status": "partial",
   "theorems": [
    "Verif.IR.C96_realized_ignored",
    "Verif.IR.C96_realized_partial",
    "Verif.IR.C96_realized_counterexample"
   ],
   "note": "False: with a transform the realized value is ignored and a new free variable, which is not returned, takes its place (C96_realized_ignored for every model, C96_realized_counterexample). Proved when no transform is applied to realized variables and the order of the arguments makes no difference (C146)."
  },
  {
   "property": "C97",
   "status": "partial",
   "theorems": [
    "Verif.ArrGraph.C97_rows_raise",
    "Verif.ArrGraph.C97_rows_iff",
    "Verif.ArrGraph.C97_rows_mvnormal_wrong",
    "Verif.ArrGraph.C97_rows_mvnormal_raise",
    "Verif.TransVec.C97_numbers_partial",
    "Verif.TransVec.C97_vector_value",
    "Verif.TransVec.C97_no_jacobian",
    "Verif.TransVec.C97_vector_iff",
    "Verif.TransVec.C97_one_entry_partial",
    "Verif.TransVec.C97_mvnormal_wrong"
   ],
   "note": "Proved for vectors of random numbers (dependent or not, ndim_supp = 0) and for vectors of length one. False for random vectors: the log-probability is added to every entry of the Jacobian and counted once per entry; it is a log-density exactly if the density is one almost everywhere (C97_vector_iff, C97_mvnormal_wrong). Several vectors: m vectors of length n raise ValueError unless m = n, m = 1 or n = 1 (C97_rows_raise); for m = n and m = 1 the same exact condition (C97_rows_iff)."
  },
  {
   "property": "C98",
   "status": "partial",
   "theorems": [
    "Verif.C98_value",
    "Verif.C98_iff",
    "Verif.C98_clip_iff",
    "Verif.C98_round_iff",
    "Verif.C98_shift_partial",
    "Verif.C98_exp_clip_wrong",
    "Verif.C98_scale_floor_wrong"
   ],
   "note": "False in general: the log-Jacobian is added to the log-probabilities of atoms as well. The derived log-probability is a log-density exactly if the function has slope 1 or -1 at every atom (C98_iff, C98_clip_iff, C98_round_iff); it holds for sums with constants and differences (C98_shift_partial) and fails for exp(clip(X)) and b*floor(X) (C98_exp_clip_wrong, C98_scale_floor_wrong). The value of the derived log-probability is proved for every base (C98_value)."
  },
  {
   "property": "C99",
   "status": "proved",
   "theorems": [
    "Verif.Full.C99_converted",
    "Verif.Full.C99_any_order",
    "Verif.Full.C99_terminates",
    "Verif.Full.C99_outcome"
   ],
   "note": "Scalar variables. Sums of normal variables are included (add_independent_normals); the normal distribution is assumed to have a log-CDF (hN; dists.py/logprob.py define it). The two rewriting passes (measurable conversions, then mixtures) are step relations that may visit the nodes in any order."
  },
  {
   "property": "C100",
   "status": "proved",
   "theorems": [
    "Verif.Full.C100_realized_density",
    "Verif.Full.C100_joint_density"
   ],
   "note": "Also with realized values (C100_realized_density). Scalar variables; sums of several random variables are not among the trees of this theorem (they are accepted: C99; their densities: C69, C116, C120). Bounds strictly in order; clipping and rounding need the log-CDF of the base; the log-CDF of a rounded variable must not vanish on its support. switch is left out: its branches are taken in the wrong order (C64)."
  },
  {
   "property": "C101",
   "status": "proved",
   "theorems": [
    "Verif.ScanFind.C101_converted_iff",
    "Verif.ScanFind.C101_no_hidden_draws",
    "Verif.ScanFind.C101_deterministic_raises"
   ],
   "note": "Draws are the outputs of measurable operators (random variables and whatever the inner rewrites make measurable, including unmeasurable ones). States of generators between two draws count as draws."
  },
  {
   "property": "C102",
   "status": "proved",
   "theorems": [
    "Verif.Obs.C102_masked",
    "Verif.Obs.C102_raises",
    "Verif.Obs.C102_masked_are_missing"
   ],
   "note": "Indices are integer arrays that are valid for the shape. The indices selected are those of the C71/C66 models."
  },
  {
   "property": "C103",
   "status": "proved",
   "theorems": [
    "Verif.Defs.C103_defined_once",
    "Verif.Defs.C103_errors"
   ],
   "note": "Text and LaTeX. The printers of Aesara for operators print all inputs; they are parameters."
  },
  {
   "property": "C104",
   "status": "partial",
   "theorems": [
    "Verif.Defs.C104_text_partial",
    "Verif.Defs.C104_blank_wrong",
    "Verif.Defs.C104_percent_wrong"
   ],
   "note": "Text and LaTeX. C104_text_partial says exactly which definitions are printed right. False for names with blanks: lstrip(var_name) strips characters, not the name (C104_blank_wrong). False for vectors of unknown length with a percent sign in their names: the shape information is part of a format string, and printing raises (C104_percent_wrong)."
  },
  {
   "property": "C105",
   "status": "partial",
   "theorems": [
    "Verif.C105_iff",
    "Verif.C105_discrete_without_jacobian",
    "Verif.C105_shift_partial",
    "Verif.C105_discrete_iff",
    "Verif.C105_geometric_wrong"
   ],
   "note": "False: the Jacobian term is added at atoms as well. C105_iff: right exactly if the term is zero at every atom of positive probability, hence for shifts (C105_shift_partial) and with use_jacobian=False for discrete variables (C105_discrete_without_jacobian); C105_geometric_wrong: geometric variable on the log scale."
  },
  {
   "property": "C106",
   "status": "proved",
   "theorems": [
    "Verif.ArrGraph.C106_joint_density",
    "Verif.ArrGraph.C106_terms",
    "Verif.ArrGraph.C106_entries",
    "Verif.ArrGraph.C106_entries_raise",
    "Verif.ArrGraph.C106_mvnormal"
   ],
   "note": "Models of random variables and deterministic operations with arrays as values, in any dependency order, variables requested or realized; valid parameters with probability one. Terms: C106_entries (elementwise formulas with broadcast parameters), C106_entries_raise, C106_mvnormal (one axis of vectors with common covariance). C106_terms: each term is the log-probability of its variable given the values of the requested variables and the sampled values of the others. The eight-schools model with any number of groups is the example."
  },
  {
   "property": "C107",
   "status": "partial",
   "theorems": [
    "Verif.ArrGraph.C107_joint_density_partial",
    "Verif.ArrGraph.C107_child_first",
    "Verif.ArrGraph.C107_plain",
    "Verif.ArrGraph.C107_entrywise",
    "Verif.ArrGraph.C107_without_jacobian",
    "Verif.ArrGraph.C107_unknown_variable",
    "Verif.ArrGraph.DemoOrder.C107_order_counterexample",
    "Verif.ArrGraph.DemoOrder.C107_random_counterexample",
    "Verif.ArrGraph.C107_simplex"
   ],
   "note": "False if a transformed variable given through others is named after a variable given through it (C107_child_first: no Jacobian terms; C107_order_counterexample, C107_random_counterexample): C107_joint_density_partial has the other calls. As C106, with a transform (or none) for each requested variable. Which transforms give correct terms: C107_plain (none), C107_entrywise (a transform applied to every entry, reduced to the scalar properties of C49-C51), C107_simplex (arrays of Dirichlet vectors with the simplex transform, their default). C107_without_jacobian: jacobian=False. C107_unknown_variable: the KeyError. The eight-schools model with the log transform is the example."
  },
  {
   "property": "C108",
   "status": "proved",
   "theorems": [
    "Verif.ArrGraph.C108_plain",
    "Verif.ArrGraph.C108_layer",
    "Verif.ArrGraph.C108_independent",
    "Verif.ArrGraph.C108_clip",
    "Verif.ArrGraph.C108_layer_joint",
    "Verif.ArrGraph.C108_cumsum",
    "Verif.ArrGraph.C108_mixture"
   ],
   "note": "A derived variable takes the place of a distribution in the models of C106. C108_plain, C108_layer, C108_independent: independent entries; C108_layer_joint, C108_cumsum: dependent entries (towers on top of cumulative sums included); C108_clip: with respect to Lebesgue measure with atoms; C108_mixture. Each conclusion is the hypothesis GoodAt of C106_joint_density; a censored geometric random walk and a hidden Markov model are carried through to the joint density."
  },
  {
   "property": "C109",
   "status": "partial",
   "theorems": [
    "Verif.ArrGraph.C109_scan",
    "Verif.ArrGraph.C109_joint_density_partial",
    "Verif.ArrGraph.C109_used_wrong",
    "Verif.ArrGraph.C109_sequence_wrong"
   ],
   "note": "C109_scan: the scan alone, as the hypothesis GoodAt of C106. C109_joint_density_partial: models in which no variable has a recurrent scan among its parameters. False otherwise: update_scan_value_vars puts the padded value wherever the ValuedVariable of out[lag:] is used, so a variable with one entry per step raises (C109_used_wrong), and a scan over the series reads it lag steps too early (C109_sequence_wrong). Missing: several random outputs (C82), random initial values, matrices as sequences."
  },
  {
   "property": "C110",
   "status": "partial",
   "theorems": [
    "Verif.C110_uniform",
    "Verif.C110_normal",
    "Verif.C110_halfnormal",
    "Verif.C110_beta",
    "Verif.C110_exponential",
    "Verif.C110_laplace",
    "Verif.C110_lognormal",
    "Verif.C110_pareto",
    "Verif.C110_cauchy",
    "Verif.C110_halfcauchy",
    "Verif.C110_invgamma",
    "Verif.C110_vonmises",
    "Verif.C110_triangular",
    "Verif.C110_studentt",
    "Verif.C110_binomial",
    "Verif.C110_betabinomial",
    "Verif.C110_bernoulli",
    "Verif.C110_geometric",
    "Verif.C110_hypergeometric",
    "Verif.C110_dirac",
    "Verif.C110_gamma_partial",
    "Verif.C110_chisquare_partial",
    "Verif.C110_wald_wrong",
    "Verif.C110_weibull_partial",
    "Verif.C110_gumbel_partial",
    "Verif.C110_logistic_partial",
    "Verif.C110_poisson_partial",
    "Verif.C110_nbinom_wrong",
    "Verif.C110_normal_logcdf",
    "Verif.C110_uniform_logcdf",
    "Verif.C110_geometric_logcdf",
    "Verif.C110_nan",
    "Verif.C110_uniform_logcdf_nan_wrong"
   ],
   "note": "One theorem per distribution. False for gamma (shape at least one), chi-square (from two degrees of freedom), Wald, Weibull (shape at least one), Poisson (mean at least one), negative binomial (NaN at infinity), Gumbel and logistic (NaN at minus infinity): the exact answer is proved for each; uniform_logcdf is 0 at NaN. The Poisson log-CDF at infinity is not modelled (gammaincc there)."
  },
  {
   "property": "C111",
   "status": "partial",
   "theorems": [
    "Verif.C111_noninteger_upper_bound",
    "Verif.C111_noninteger_upper_bound_wrong",
    "Verif.C111_noninteger_value_wrong",
    "Verif.C111_noninteger_lower_bound_wrong",
    "Verif.C111_clip_real_bounds_partial"
   ],
   "note": "Proved at integers, at the lower bound and outside the bounds, for a base whose log-CDF is right at all reals. False at a non-integer upper bound (the mass formula at the bound is added), at non-integers between the bounds, and at a non-integer lower bound of a geometric variable (its log-CDF does not round down): C111_noninteger_*_wrong."
  },
  {
   "property": "C112",
   "status": "proved",
   "theorems": [
    "Verif.ArrGraph.C112_transformed"
   ],
   "note": "Transforms that do not look at the inputs of the node. The conclusion is the hypothesis of C107_joint_density for one variable; carried through for a geometric random walk on the log scale with a censored observation."
  },
  {
   "property": "C113",
   "status": "partial",
   "theorems": [
    "Verif.ArrGraph.C113_categorical_array_partial",
    "Verif.ArrGraph.C113_extra_axis_wrong",
    "Verif.ArrGraph.C113_out_of_range",
    "Verif.ArrGraph.C113_model"
   ],
   "note": "False for batches with at most as many axes in the values as in the batch: the log-probability gets an extra leading axis of length one (C113_extra_axis_wrong; its entries and hence joint log-probabilities are right, C113_model). False for values out of range: IndexError for the whole array (C113_out_of_range)."
  },
  {
   "property": "C114",
   "status": "partial",
   "theorems": [
    "Verif.Undo.C114_undo_partial",
    "Verif.Undo.C114_evaluate_partial",
    "Verif.Undo.C114_meaning",
    "Verif.Undo.C114_nested_mixture_wrong",
    "Verif.Undo.C114_nested_sum_wrong"
   ],
   "note": "Proved when no recorded variable was computed from another conversion or from a value replaced since; without transforms meaning-preserving rewrites never change meanings (C114_meaning). False when one conversion was built on another: a MixtureRV that cannot be run stays in the graph (C114_nested_mixture_wrong), or a normal variable that is not the sum of its summands (C114_nested_sum_wrong)."
  },
  {
   "property": "C115",
   "status": "proved",
   "theorems": [
    "Verif.ArrGraph.C115_join_any",
    "Verif.ArrGraph.C115_stack",
    "Verif.ArrGraph.C115_join",
    "Verif.ArrGraph.C115_dimshuffle",
    "Verif.ArrGraph.C115_round"
   ],
   "note": "Pieces of joins and stacks must be independent (a variable joined or stacked with itself is C91_same_twice_wrong). Rounding needs a base law without atoms; for joins of derived variables (cumulative sums and so on) see C115_join_any, for joins of named distributions inside a model C115_join."
  },
  {
   "property": "C116",
   "status": "proved",
   "theorems": [
    "Verif.ArrGraph.C116_entries",
    "Verif.ArrGraph.C116_joint_iff",
    "Verif.ArrGraph.C116_declines"
   ],
   "note": "The joint statement is an equivalence: when arrays of different shapes are added, entries of the sum share a summand and the joint log-probability is wrong (finding). The arrays are taken to be independent; the rewrite does not check this (C69_same_variable_wrong). Moving the added axes into the variable (local_dimshuffle_rv_lift) is external and modelled by alignInput."
  },
  {
   "property": "C117",
   "status": "partial",
   "theorems": [
    "Verif.Markov.C117_batch_partial",
    "Verif.Markov.C117_few_axes",
    "Verif.Markov.C117_no_axes",
    "Verif.Markov.C117_batch_mismatch",
    "Verif.Markov.C117_documented_wrong",
    "Verif.Markov.C117_law"
   ],
   "note": "False for the first state: the sampler makes a transition with Gammas[0] from a hidden state drawn from gamma_0, and only then returns a state (C117_documented_wrong; the same shift as C41). Shapes, broadcasting, indexing, independence and the law of every chain with this shift are proved for all shapes. The categorical draws are external: a function of call, place and probabilities, or for C117_law an independent source."
  },
  {
   "property": "C118",
   "status": "partial",
   "theorems": [
    "Verif.C118_clip_partial",
    "Verif.C118_clip_iff",
    "Verif.C118_minus_inf_wrong"
   ],
   "note": "False for unsigned and boolean draws: the code tests whether the name of the type starts with 'int', so for these the mass of the upper bound itself is left out at the upper bound (C118_clip_partial states exactly what is returned, C118_clip_iff when it is right). Also false for a constant upper bound of minus infinity, which counts as no bound (C118_minus_inf_wrong)."
  },
  {
   "property": "C119",
   "status": "partial",
   "theorems": [
    "Verif.ArrGraph.C119_shape_partial",
    "Verif.ArrGraph.C119_extra_axis_wrong",
    "Verif.ArrGraph.C119_size_ignored_wrong",
    "Verif.ArrGraph.C119_join_refuses",
    "Verif.ArrGraph.C119_stack_partial",
    "Verif.ArrGraph.C119_vector_axes_wrong",
    "Verif.ArrGraph.C119_vector_short_wrong"
   ],
   "note": "False for every array of numbers: the size of the variable is never compared with the value. A value with a further axis is taken for several independent copies (C119_extra_axis_wrong); with scalar parameters a value of any shape is accepted, with one factor for each entry of the value (C119_size_ignored_wrong). Values of stacked variables may be too long (C119_stack_partial); a value of length 1 for a multivariate normal vector gets the constant of one dimension (C119_vector_short_wrong), and values with two batch axes are refused even when they are draws (C119_vector_axes_wrong). Joined variables do check the length along the axis (C119_join_refuses)."
  },
  {
   "property": "C120",
   "status": "partial",
   "theorems": [
    "Verif.C120_joint_partial",
    "Verif.C120_disjoint",
    "Verif.C120_declined_raises",
    "Verif.C120_shared_wrong",
    "Verif.C120_sum_and_difference"
   ],
   "note": "False in general: the rewrite looks at the inputs of one sum only and no other user of a normal variable is looked for, so that each sum gets its own marginal density. C120_joint_partial says exactly when the result is right (for all families of sums): when no two sums are correlated and no sum contains a variable twice with the wrong variance. C120_shared_wrong: X0+X1 and X0+X2, all parameters. C120_sum_and_difference: X0+X1 and X0-X1 are right exactly for equal standard deviations. C120_declined_raises: a sum that the rewrite declines raises."
  },
  {
   "property": "C121",
   "status": "proved",
   "theorems": [
    "Verif.Full.C121_outcome",
    "Verif.Full.C121_value_error",
    "Verif.Full.C121_joint_density"
   ],
   "note": "Model/Merge.lean adds the merging of equal nodes to the model of C99/C100. C121_outcome: when conditional_logprob returns; C121_value_error: ValueError when all is derived but two requested variables are made in the same way; C121_joint_density: the joint density with merging. Random variables are identified by their identity (each has its own random number generator). Other canonicalizations are not modelled."
  },
  {
   "property": "C122",
   "status": "partial",
   "theorems": [
    "Verif.C122_leading_partial",
    "Verif.C122_element_raises",
    "Verif.C122_slice_wrong",
    "Verif.C122_column_wrong",
    "Verif.C122_row_wrong",
    "Verif.C122_column_partial",
    "Verif.C122_bounds_raises"
   ],
   "note": "Right for integers followed by full slices (any components, any shapes). False otherwise: node.inputs[1:] of a Subtensor are the integers and the slice bounds without their places. stack[:k] is scored as component k everywhere (zero without such a component), stack[:, i] as component i, stack[i, a:b] and stack[i, j] of vectors raise. The join axis is ignored: of a stack along axis 1, [:, i] is right (C122_column_partial) and [i] is scored as component i (C122_row_wrong)."
  },
  {
   "property": "C123",
   "status": "partial",
   "theorems": [
    "Verif.IR.C123_sum_partial",
    "Verif.IR.C123_distinct",
    "Verif.IR.C123_repeated_wrong",
    "Verif.IR.C123_dependent_wrong"
   ],
   "note": "On the graph conversion model of C93. C123_sum_partial: with parameters that follow from the other values, the term is right exactly when the variance of the sum is the sum of all the variances; C123_distinct: always when no variable occurs twice. False otherwise: (X - V) + V gets the variances of V twice (C123_repeated_wrong); X + Y with Y ~ N(X, 1) is accepted and never right (C123_dependent_wrong). Scalar variables."
  },
  {
   "property": "C124",
   "status": "partial",
   "theorems": [
    "Verif.Full.C124_given_draws_partial",
    "Verif.Full.C124_own_bound_wrong",
    "Verif.Full.C124_own_index_wrong",
    "Verif.Full.C124_sums_partial"
   ],
   "note": "On the graph conversion model of C99 and C100. C124_given_draws_partial: right when no parameter, bound, index or other input uses one of the variable's own random variables, and these are distinct. False otherwise, since the rewrites ask nothing of bounds and indices: at.clip(X, -X, inf), which is |X|, gets half of its density (C124_own_bound_wrong), and at.stack([X, -X])[X < 0], also |X|, gives negative numbers probability 1/2 (C124_own_index_wrong). C124_sums_partial: the same for variables that also contain sums and differences of normal variables (nested, without values and without repetition), against measurable test functions. Scalar variables; at.switch is left out of the positive theorems."
  },
  {
   "property": "C125",
   "status": "proved",
   "theorems": [
    "Verif.Full.C125_joint_density"
   ],
   "note": "On the graph conversion model of C99 and C100, with sums of normal variables drawn term by term. Terms, the test function, and integrals over the values of a variable are assumed to be measurable functions of the values (sums are convolutions). What fails when a normal variable belongs to two requested variables or twice to one is in C120 and C123."
  },
  {
   "property": "C126",
   "status": "partial",
   "theorems": [
    "Verif.ArrGraph.C126_indexed_iff_partial",
    "Verif.ArrGraph.C126_once_iff_partial",
    "Verif.ArrGraph.C126_parts_iff_partial",
    "Verif.ArrGraph.C126_basic",
    "Verif.ArrGraph.C126_vector_iff_partial",
    "Verif.ArrGraph.C126_repeated_wrong",
    "Verif.ArrGraph.C126_slices_iff_partial"
   ],
   "note": "Holds for slices, newaxis and integers (C126_basic), and for integer arrays exactly if no element that is not constant is selected twice. False otherwise: X[[0, 0]] and requested parts that overlap, such as X[:2] and X[1:], are treated as independent variables (C126_repeated_wrong, C126_slices_iff_partial). Aesara's local_subtensor_rv_lift is external and is taken to give every selected entry the parameters of the element it selects."
  },
  {
   "property": "C127",
   "status": "partial",
   "theorems": [
    "Verif.PrintExpr.C127_reading_iff_partial",
    "Verif.PrintExpr.C127_injective",
    "Verif.PrintExpr.C127_row_wrong",
    "Verif.PrintExpr.C127_sum_wrong"
   ],
   "note": "Holds exactly for the expressions in which no comparison is an operand of a comparison or of an arithmetic operator. False otherwise: comparisons are printed without parentheses (printing.py:665-669, 680-684), so (a > b) + c is printed as (a > b + c) (C127_sum_wrong) and (a > b) > c is printed like a > (b > c) (C127_row_wrong). OperatorPrinter and PatternPrinter are Aesara's; quotients, roots, powers and negations are in C144."
  },
  {
   "property": "C128",
   "status": "partial",
   "theorems": [
    "Verif.ArrGraph.C128_arrays",
    "Verif.Full.C128_terms_partial",
    "Verif.Full.C128_joint_partial",
    "Verif.Full.C128_permuted_partial",
    "Verif.Full.C128_realized_partial",
    "Verif.Full.C128_scan_wrong"
   ],
   "note": "Proved for the models of Model/Full.lean (nodes with one output, without extra rewrites), whatever the two orders of rewriting, and for models with array variables (C128_arrays). False for nodes with several measurable outputs (scans): the values are paired with the outputs in the order of the request, so passing the outputs in another order exchanges their values (C128_scan_wrong, the code of joint_logprob.py:166-198). With a transform rewrite the realized variables differ as well (C96)."
  },
  {
   "property": "C129",
   "status": "partial",
   "theorems": [
    "Verif.ArrGraph.C129_arrays_term",
    "Verif.ArrGraph.C129_arrays_separate_sum",
    "Verif.Full.C129_term",
    "Verif.Full.C129_separate_outcome_partial",
    "Verif.Full.C129_separate_sum_partial",
    "Verif.Full.C129_term_merged",
    "Verif.Full.C129_merged_outcome",
    "Verif.Full.C129_merged_sum",
    "Verif.Full.C129_twins_wrong"
   ],
   "note": "Locality is proved (C129_term, and C129_term_merged with Aesara's merging of equal nodes). The sum holds without merging (C129_separate_outcome_partial, C129_separate_sum_partial); with merging, exactly if no variable of one request is made in the same way as one of the other (C129_merged_outcome, C129_merged_sum), and otherwise the two together raise ValueError (C129_twins_wrong). Models of Model/Full.lean and Model/Merge.lean: nodes with one output, no extra rewrites; with array variables: C129_arrays_term, C129_arrays_separate_sum."
  },
  {
   "property": "C130",
   "status": "partial",
   "theorems": [
    "Verif.ArrGraph.C130_arrays_partial",
    "Verif.Graph.C130_posterior_partial",
    "Verif.Graph.C130_functions_partial",
    "Verif.Graph.C130_normalised_wrong",
    "Verif.Graph.C130_clip_wrong"
   ],
   "note": "Proved up to a constant factor that depends on the realized values, which is almost surely positive and finite: C130_posterior_partial (random variables with any parameters), C130_arrays_partial (array variables), C130_functions_partial (invertible functions, clipping, rounding and stacks whose ranges and atoms do not depend on other variables). As documented (joint_logprob.py:282-285) it is false: the integral is not one (C130_normalised_wrong); with a clipped variable whose bound is random it is not the conditional density even up to a factor (C130_clip_wrong). The density is assumed to be a measurable function of the values."
  },
  {
   "property": "C131",
   "status": "partial",
   "theorems": [
    "Verif.ArrGraph.C131_arrays",
    "Verif.Full.C131_logprob_partial",
    "Verif.Full.C131_function_wrong"
   ],
   "note": "Proved for random variables (C131_logprob_partial). False for functions of random variables: logprob raises NotImplementedError for every one of them, since only graph conversion makes them measurable (C131_function_wrong). Values are numbers, or arrays (C131_arrays)."
  },
  {
   "property": "C132",
   "status": "partial",
   "theorems": [
    "Verif.Full.C132_term_partial",
    "Verif.Full.C132_mixture_name",
    "Verif.Full.C132_sum_name",
    "Verif.Full.C132_value_partial",
    "Verif.Full.C132_trans_wrong"
   ],
   "note": "Proved for random variables, elementwise functions, clipping and rounding (C132_term_partial) and values without transform (C132_value_partial). False otherwise, with the names that are given: mixtures X-mixture_logprob (C132_mixture_name), sums of normal variables None_logprob (C132_sum_name), transformed values all val_clone-trans (C132_trans_wrong). Assumes that Aesara's FunctionGraph.replace does not copy names and that canonicalization keeps them."
  },
  {
   "property": "C133",
   "status": "proved",
   "theorems": [
    "Verif.ArrGraph.C133_arrays_average",
    "Verif.ArrGraph.C133_arrays_marginal",
    "Verif.Full.C133_functions_average",
    "Verif.Graph.C133_average",
    "Verif.Graph.C133_marginal"
   ],
   "note": "C133_average and C133_marginal: variables are numbers; C133_arrays_average and C133_arrays_marginal: arrays of any shape, where parameters may be invalid on null sets of values (the scale 0). C133_functions_average: models with elementwise functions, clipping, rounding and mixtures, whose variables without value are random variables that may be parameters, clipping bounds and mixture indices; nothing is assumed of the variables with values. The marginal theorems assume that the joint density is measurable as a function of all values, and that reachable parameters are valid, as in C08 and C106. The sampler of a variable is only assumed to answer with the draw at the right parameters (Draws)."
  },
  {
   "property": "C134",
   "status": "proved",
   "theorems": [
    "Verif.Library.C134_densities",
    "Verif.Library.C134_distribution_functions",
    "Verif.Library.C134_logcdfs",
    "Verif.Library.C134_joint_density",
    "Verif.Library.C134_arrays",
    "Verif.Library.C134_arrays_joint_density",
    "Verif.Library.C134_vectors",
    "Verif.Library.C134_vectors_joint_density"
   ],
   "note": "The laws are Mathlib's measures or images of them (Spec/Library.lean), except Poisson-like mass functions and the wald, von Mises, triangular and logistic laws, which are given by densities; for the last two the distribution function is proved too. Negative-binomial variables with n > 10^10 are left out (C32: the code switches to Poisson). Models that also have arrays of multivariate normal, Dirichlet, multinomial and categorical variables: C134_vectors, C134_vectors_joint_density (Model/VecLibrary.lean); the Cholesky factorisation is a parameter with a contract, as in C36."
  },
  {
   "property": "C135",
   "status": "partial",
   "theorems": [
    "Verif.Library.C135_logcdf_defined",
    "Verif.Library.C135_icdf_defined",
    "Verif.Library.C135_names",
    "Verif.Library.C135_logcdf_partial",
    "Verif.Library.C135_geometric_logcdf_wrong",
    "Verif.Library.C135_icdf_partial",
    "Verif.Library.C135_geometric_icdf_wrong",
    "Verif.Library.C135_normal_icdf_unchecked"
   ],
   "note": "False of the code in two places, proved: C135_geometric_logcdf_wrong (geometric logcdf does not round its value down, so it is no distribution function between integers; poisson_logcdf rounds) and C135_geometric_icdf_wrong (geometric icdf at p = 1 gives 0, the variable is always 1). C135_normal_icdf_unchecked: icdf accepts a negative scale, for which logcdf raises. C135_logcdf_partial and C135_icdf_partial leave out exactly the two wrong cases. Variables are numbers; at.erfcinv is a parameter with the contract IsErfcInv."
  },
  {
   "property": "C136",
   "status": "partial",
   "theorems": [
    "Verif.Library.C136_transforms_partial",
    "Verif.Library.C136_no_transform",
    "Verif.Library.C136_joint_density_partial",
    "Verif.Library.C136_mass",
    "Verif.Library.C136_pareto_mass",
    "Verif.Library.C136_halfcauchy_mass",
    "Verif.Library.C136_vonmises_infinite",
    "Verif.Library.C136_array_partial",
    "Verif.Library.C136_arrays_joint_density_partial",
    "Verif.Library.C136_vectors_partial",
    "Verif.Library.C136_vectors_joint_density_partial"
   ],
   "note": "False of the code for three distributions, proved: C136_pareto_mass (the bound of the Pareto default is the shape instead of the scale; mass one exactly if the shape is at most the scale), C136_halfcauchy_mass (log transform whatever the location; mass one exactly if the location is not negative), C136_vonmises_infinite (infinite mass). C136_joint_density_partial is the joint statement for all models where the defaults fit (Lib.Fits); the hypotheses are about the model, its parameters and the order of the arguments (C146) only. Graph conversion is the model of C95 (random variables and invertible functions) for numbers; for arrays of random variables it is the model of C107 (C136_array_partial, C136_arrays_joint_density_partial), also with vectors, Dirichlet variables on the simplex (C136_vectors_partial, C136_vectors_joint_density_partial)."
  },
  {
   "property": "C137",
   "status": "partial",
   "theorems": [
    "Verif.C137_undone_partial",
    "Verif.C137_rewritten_partial",
    "Verif.C137_reciprocal_wrong"
   ],
   "note": "C137_undone_partial and C137_rewritten_partial: for every base log-probability (a parameter, so every random variable), all constants and all real values; where the exponential or the reciprocal is involved only positive values, because the code gives nan at the others (C137_reciprocal_wrong)."
  },
  {
   "property": "C138",
   "status": "partial",
   "theorems": [
    "Verif.C138_location_scale",
    "Verif.C138_increasing",
    "Verif.C138_unit",
    "Verif.C138_reflected",
    "Verif.C138_logarithm",
    "Verif.C138_exponential_partial",
    "Verif.C138_exponential_wrong",
    "Verif.C138_reciprocal_wrong"
   ],
   "note": "All pairs of families are proved at all real values and for all parameters (those out of range included where the two families check the same things); exp and reciprocal only at positive values: C138_exponential_wrong, C138_reciprocal_wrong prove that the code gives nan at the others."
  },
  {
   "property": "C139",
   "status": "partial",
   "theorems": [
    "Verif.C139_densities",
    "Verif.C139_masses",
    "Verif.C139_inside_partial",
    "Verif.C139_weibull_wrong",
    "Verif.C139_dirichlet_wrong",
    "Verif.C139_categorical_wrong"
   ],
   "note": "Proved at all real (or integer) values; three pairs agree only inside: Weibull(1) is nan at zero (C139_weibull_wrong), the Dirichlet log-probability is -inf where the beta density is infinite (C139_dirichlet_wrong), the categorical one raises IndexError away from the categories (C139_categorical_wrong). Scales that are zero are left out of the first theorem. The Cholesky factorisation is a parameter with a contract, as in C37."
  },
  {
   "property": "C140",
   "status": "proved",
   "theorems": [
    "Verif.ArrGraph.C140_joint",
    "Verif.ArrGraph.C140_independent",
    "Verif.ArrGraph.C140_broadcast",
    "Verif.ArrGraph.C140_walk",
    "Verif.ArrGraph.C140_gaussian"
   ],
   "note": "The formula of the distribution is an arbitrary function of an entry and its parameters. Same terms, same shape, same error. Scans are at real values (the model of C109); walks of no steps are left out, since cumsum raises at an empty value."
  },
  {
   "property": "C141",
   "status": "partial",
   "theorems": [
    "Verif.ArrGraph.C141_chain_partial",
    "Verif.ArrGraph.C141_chain_homogeneous",
    "Verif.ArrGraph.C141_chain_wrong",
    "Verif.ArrGraph.C141_independent"
   ],
   "note": "False for matrices that change with time (C141_chain_wrong): the log-probability of the chain uses the matrix of the step before. Proved: equality with the scan for equal matrices, and for all matrices with the scan that makes the same shift; independent states without restriction."
  },
  {
   "property": "C142",
   "status": "partial",
   "theorems": [
    "Verif.C142_bounds",
    "Verif.C142_no_bounds",
    "Verif.C142_inside",
    "Verif.C142_rounding",
    "Verif.C142_rounded_library",
    "Verif.C142_reordered",
    "Verif.C142_switch_partial",
    "Verif.C142_switch_stack_wrong",
    "Verif.C142_array_index"
   ],
   "note": "False for switch(c, X, Y) against stack([Y, X])[c] (C142_switch_stack_wrong, the failure of C64); everything else proved for arbitrary base variables at real values (rounding: at integers)."
  },
  {
   "property": "C143",
   "status": "partial",
   "theorems": [
    "Verif.Number.C143_nearest",
    "Verif.Number.C143_exact",
    "Verif.Number.C143_exact_iff",
    "Verif.Number.C143_param_partial",
    "Verif.Number.C143_special",
    "Verif.Number.C143_digits_wrong",
    "Verif.Number.C143_name_wrong"
   ],
   "note": "False for names that can be read as numbers (C143_name_wrong: 1_0, Infinity, NaN); and numbers with more digits, also integers, are printed alike (C143_digits_wrong, C143_exact_iff). Python's float and the format 2g are modelled on exact decimals."
  },
  {
   "property": "C144",
   "status": "partial",
   "theorems": [
    "Verif.PrintLatex.C144_alike",
    "Verif.PrintLatex.C144_unique_partial",
    "Verif.PrintLatex.C144_negation_wrong"
   ],
   "note": "C144_alike: the exact answer; expressions with the same text differ only in the grouping of comparisons and negations. False in general: negations and comparisons are printed without parentheses, so that the negation of a > b and the comparison of the negation of a with b have the same text (C144_negation_wrong). Right when no comparison or negation is compared with something on its right (C144_unique_partial). The text is meant, not how it looks after typesetting (braces cannot be seen)."
  },
  {
   "property": "C145",
   "status": "proved",
   "theorems": [
    "Verif.Defs.C145_lines",
    "Verif.Defs.C145_definitions",
    "Verif.Defs.C145_preamble"
   ],
   "note": "C145_lines (shape lines, both directions), C145_definitions (definitions), C145_preamble (both, in the preamble of a printed graph; percent signs in names are excluded there because of C104_percent_wrong). Which lengths are known is decided by Aesara's ShapeFeature and get_scalar_constant_value, which are not modelled."
  },
  {
   "property": "C146",
   "status": "partial",
   "theorems": [
    "Verif.IR.C146_order_partial",
    "Verif.IR.C146_without_jacobian",
    "Verif.IR.C146_jacobian_lost"
   ],
   "note": "False: C146_jacobian_lost (every model: if all transformed variables come after their children, the result is the one without Jacobian terms), C95_order_counterexample (three normal variables, all values). C146_order_partial: the same value if in both calls the same transformed variables come after their children. C146_without_jacobian: always, without Jacobian terms, for transforms that do not look at parameters where it matters."
  },
  {
   "property": "C147",
   "status": "partial",
   "theorems": [
    "Verif.ArrGraph.C147_arrays_drawn",
    "Verif.ArrGraph.C147_arrays_partial",
    "Verif.ArrGraph.C147_arrays_copy_wrong",
    "Verif.Full.C147_computed_partial",
    "Verif.Full.C147_passed_partial",
    "Verif.Full.C147_values_unused",
    "Verif.Full.C147_copy_wrong",
    "Verif.Full.C147_random",
    "Verif.Full.C147_computed_wrong"
   ],
   "note": "False: construct_ir_fgraph puts the user's graph back after variables were replaced by their values, so that the expression is computed from new draws of the variables. C147_copy_wrong and C147_random: the example of the documentation, y_obs = Y_rv.copy(), gives a random result for every value of the variance. C147_computed_wrong: realized={Y: X}. C147_values_unused: for every graph, values do not matter. Proved for expressions that mention no variable with a value: C147_computed_partial, and C147_passed_partial (the result is that with the variable passed, at the number computed), C147_arrays_partial (array variables). For all models with array variables, C147_arrays_drawn says what is computed, and C147_arrays_copy_wrong what the term of a variable realized by its copy is."
  },
  {
   "property": "C148",
   "status": "partial",
   "theorems": [
    "Verif.Kwargs.C148_reach_partial",
    "Verif.Kwargs.C148_conditional_partial",
    "Verif.Kwargs.C148_dropped",
    "Verif.Kwargs.C148_dropped_default",
    "Verif.Kwargs.C148_none",
    "Verif.Kwargs.C148_exact",
    "Verif.Kwargs.C148_dropped_wrong",
    "Verif.Kwargs.C148_spelling_wrong",
    "Verif.Kwargs.C148_jacobian",
    "Verif.Kwargs.C148_deprecated",
    "Verif.Kwargs.C148_logcdf_name_raises",
    "Verif.Kwargs.C148_logcdf"
   ],
   "note": "False: the log-probabilities of cumulative sums, stacks, concatenations, changes of axes, mixtures and scans take **kwargs and do not hand them on (C148_dropped_wrong for each of the six; C148_dropped, C148_dropped_default: the result is that of a call without arguments; C148_spelling_wrong). Proved for clipped, rounded and elementwise transformed variables with or without a transform of the value (C148_reach_partial, C148_conditional_partial). C148_exact: for every variable, exactly the distributions with nothing but these between them and the outside get the arguments. use_jacobian (C148_jacobian), warn_missing_rvs (C148_deprecated), logcdf with a name raises TypeError (C148_logcdf_name_raises). The arithmetic of the registered functions is arbitrary here."
  },
  {
   "property": "C149",
   "status": "partial",
   "theorems": [
    "Verif.TClass.C149_history",
    "Verif.TClass.C149_explicit",
    "Verif.TClass.C149_made",
    "Verif.TClass.C149_stacked_raises",
    "Verif.TClass.C149_default",
    "Verif.TClass.C149_default_others",
    "Verif.TClass.C149_default_own_partial",
    "Verif.TClass.C149_default_subclass",
    "Verif.TClass.C149_default_wrong"
   ],
   "note": "Independence of other calls is proved in full (C149_history, C149_made), and so are requests with a given transform (C149_explicit). False for the default transform of a derived class that has a log-probability of its own: transformed_logprob uses the rv_op that the default was registered with (C149_default_subclass, C149_default_wrong). C149_default_own_partial has the classes that inherit the log-probability; C149_default says in general what a default transform gives, C149_default_others which classes it does not touch, C149_stacked_raises that a transformed op cannot be transformed again. Single inheritance; inputs of nodes are fixed."
  },
  {
   "property": "C150",
   "status": "partial",
   "theorems": [
    "Verif.ArrGraph.C150_terms_partial",
    "Verif.ArrGraph.C150_joint",
    "Verif.ArrGraph.C150_observed_unused",
    "Verif.ArrGraph.C150_plain_partial",
    "Verif.ArrGraph.C150_adding",
    "Verif.ArrGraph.C150_adding_wrong"
   ],
   "note": "C150_terms_partial has the terms, C150_joint the joint log-probability as their product, C150_plain_partial that it is the joint log-probability of the model without the statements at the values with the data put in (so the density statements of C106 carry over), C150_observed_unused that the entries passed at observed places are not read. Missing: indices in which the integers of an entry are not the first ones (false, C71), data with random variables, base variables used elsewhere. False for at.inc_subtensor, which is treated as at.set_subtensor (C150_adding; witness C150_adding_wrong)."
  }
 ]
}