{"claims": [
 {"property": "C01", "status": "proved", "theorems": ["Pacal.C01_order_independent", "Pacal.C01_breaks", "Pacal.C01_finding_partial_overlap_accepted", "Pacal.C01_nested_rejected"], "note": "Order independence and break points proved for every family of non-overlapping pieces. Finding: partially overlapping pieces are accepted without an error (witness theorem)."},
 {"property": "C02", "status": "proved", "theorems": ["Pacal.C02_total_mass", "Pacal.C02_close_atoms_merge", "Pacal.C02_point_masses", "Pacal.C02_atoms_always_accepted", "Pacal.C02_finding_atom_inside_piece_moves"], "note": "Atoms within tolerance merge with the sum of masses; total mass always preserved. Finding: an atom added inside a piece is moved to the right end of the list order (witness theorem)."},
 {"property": "C03", "status": "partial", "theorems": ["Pacal.C03_arrays", "Pacal.C03_violated_integers", "Pacal.C03_pieces", "Pacal.C03_violated_piece_integers", "Pacal.C03_eval_array", "Pacal.C03_eval_scalar_covered", "Pacal.C03_eval_agree_partial", "Pacal.C03_eval_scalar_atom", "Pacal.C03_violated_in_gap", "Pacal.C03_gap_value"], "note": "Array evaluation proved everywhere; scalar evaluation proved on covered points. The code violates the full claim in gaps: scalar evaluation in a gap uses the function of the right neighbour (C03_violated_in_gap).  Whole arrays: elementwise for floats (C03_arrays), results truncated to integers for arrays of integers (C03_violated_integers); the same for single pieces (C03_pieces, C03_violated_piece_integers)."},
 {"property": "C04", "status": "proved", "theorems": ["Pacal.C04_law", "Pacal.C04_split", "Pacal.C04_pieces", "Pacal.C04_poles"], "note": "All functions, all increasing point lists. Equality of integrals follows from equality of values and atoms."},
 {"property": "C05", "status": "proved", "theorems": ["Pacal.C05_law", "Pacal.C05_restrict"], "note": "All functions, all intervals with finite or infinite ends."},
 {"property": "C06", "status": "partial", "theorems": ["Pacal.C06_law_add", "Pacal.C06_div_partial", "Pacal.C06_rdiv", "Pacal.C06_violated_div_real", "Pacal.C06_violated_div", "Pacal.C06_add", "Pacal.C06_operation_partial", "Pacal.C06_operation_continuous", "Pacal.C06_violated_sub", "Pacal.C06_violated_mul", "Pacal.C06_roperation", "Pacal.C06_mul_real", "Pacal.C06_violated_sub_real"], "note": "Full claim proved for + and for multiplication by a number, and for every operation when there are no atoms. The code violates the claim for atoms present in one operand of - and *, and for function minus number; function divided by number always fails (witness theorems). Quotients: C06_div_partial where the divisor is not 0, C06_rdiv for a number divided by a function."},
 {"property": "C07", "status": "partial", "theorems": ["Pacal.C07_arrays_partial", "Pacal.C07_violated_integers", "Pacal.C07_cdf_partial", "Pacal.C07_cdf_array_partial", "Pacal.C07_shape", "Pacal.C07_violated_atom_first", "Pacal.C07_violated_two_atoms", "Pacal.C07_violated_gap"], "note": "The computed CDF equals P(X<=x) for every x, scalar and array, for pieces that touch (C07_cdf_partial, C07_cdf_array_partial). The code violates the claim after an isolated atom left of the first piece, between two atoms without a piece between them and inside gaps between pieces (C07_violated_*), and for arrays of integers, for which all probabilities below 1 become 0 (C07_violated_integers)."},
 {"property": "C08", "status": "partial", "theorems": ["Pacal.Quantile.C08_quantile_partial", "Pacal.Quantile.C08_cdf_partial", "Pacal.Quantile.C08_unique_partial", "Pacal.Quantile.C08_atom_partial", "Pacal.Quantile.C08_array_partial", "Pacal.Quantile.C08_beyond", "Pacal.Quantile.C08_violated_two_atoms", "Pacal.Quantile.C08_violated_gap", "Pacal.Quantile.C08_over_right", "Pacal.Quantile.C08_over_left"], "note": "quantile(y) satisfies P(X < x) <= y <= P(X <= x) for every level in [0,1] (scalars and arrays), the CDF there is the level if there is no atom, the unique crossing point and an atom crossing the level are returned; for exact quadrature and root finder, and distributions whose pieces leave no gap and whose atoms lie at ends of pieces. Without the last condition it is false (C08_violated_gap, C08_violated_two_atoms). In a tail that stays below (above) the level at every machine number the quantile is infinite (C08_over_right, C08_over_left). invfun is C84."},
 {"property": "C09", "status": "partial", "theorems": ["Pacal.Quantile.C09_ci_partial", "Pacal.Quantile.C09_interval_partial", "Pacal.Quantile.C09_exact_partial", "Pacal.Quantile.C09_interval_eq_ci", "Pacal.Quantile.C09_ci_eq", "Pacal.Quantile.C09_iqrange", "Pacal.Quantile.C09_median_partial", "Pacal.Quantile.C09_violated_coin"], "note": "Order and coverage of ci and interval, exact coverage without atoms, median; for the distributions of C08. interval(p) = ci(1-p), ci = (quantile, quantile) and iqrange(p/2) = width of ci(p) for all distributions. Violated for two atoms with nothing in between: ci is a single point."},
 {"property": "C10", "status": "partial", "theorems": ["Pacal.Conv.C10_atoms_partial", "Pacal.Conv.C10_violated_merge", "Pacal.Conv.C10_total"], "note": "Exact for every operation and every pair of discrete parts whose results are equal or farther apart than the merging tolerance; the total mass is exact without that condition (C10_total). Violated without it: results closer than the tolerance are merged."},
 {"property": "C11", "status": "partial", "theorems": ["Pacal.Conv.C11_min_partial", "Pacal.Conv.C11_max_partial"], "note": "Exact for all distributions with atoms, poles and infinite ends, with exact integration, if an atom of one argument and an atom of the other are at the same place or farther apart than the tolerance under which atoms are merged. Violated without it (C15_violated_merge)."},
 {"property": "C12", "status": "partial", "theorems": ["Pacal.Conv.C12_law_partial", "Pacal.Conv.C12_density_partial", "Pacal.Conv.C12_sub_partial", "Pacal.Conv.C12_mass", "Pacal.Conv.C12_violated_gap"], "note": "Law and density proved for all piecewise distributions with atoms, poles and infinite ends, with exact integration, when no piece follows a gap and different sums of break points are not merged; the code is wrong for a support with a gap (C12_violated_gap)."},
 {"property": "C13", "status": "partial", "theorems": ["Pacal.Conv.C13_law_partial", "Pacal.Conv.C13_density_partial", "Pacal.Conv.C13_atoms_partial", "Pacal.Conv.C13_mass", "Pacal.Conv.C13_violated_zero"], "note": "Law, density, atoms and total mass proved for all distributions (any signs, poles, infinite ends, atoms, pieces straddling 0), with exact integration, if different products of the ends of pieces and -1, 0, 1 are not merged and neither factor is 0 with probability one (unless both have atoms); the code fails for the constant 0 times a variable without atoms (C13_violated_zero)."},
 {"property": "C14", "status": "partial", "theorems": ["Pacal.Conv.C14_law_partial", "Pacal.Conv.C14_density_partial", "Pacal.Conv.C14_atoms_partial", "Pacal.Conv.C14_mass", "Pacal.Conv.C14_violated_atom", "Pacal.Conv.C14_violated_zero_atom"], "note": "Law, density, atoms and total mass proved for all distributions (any signs, poles, infinite ends, pieces straddling 0, atoms in the numerator, scalar or array evaluation, either sign of a zero break point), with exact integration, if different quotients of ends and cut points are not merged, the denominator has no atom at 0, an atom at 0 of the numerator meets no continuous denominator, and a denominator with atoms meets only numerators with piecewise constant density; the last two conditions are necessary (C14_violated_zero_atom, C14_violated_atom)."},
 {"property": "C15", "status": "partial", "theorems": ["Pacal.Conv.C15_min_law_partial", "Pacal.Conv.C15_max_law_partial", "Pacal.Conv.C15_min_tail_partial", "Pacal.Conv.C15_max_cdf_partial", "Pacal.Conv.C15_min_density_partial", "Pacal.Conv.C15_max_density_partial", "Pacal.Conv.C15_violated_merge"], "note": "Law, tail and density proved for all distributions with atoms, poles, gaps and infinite ends, with exact integration, if an atom of one argument and an atom of the other are at the same place or farther apart than the tolerance under which atoms are merged. Violated without it (C15_violated_merge)."},
 {"property": "C16", "status": "partial", "theorems": ["Pacal.Conv.C16_div_partial", "Pacal.Conv.C16_min", "Pacal.Conv.C16_max", "Pacal.Conv.C16_prod_partial", "Pacal.Conv.C16_sum_partial"], "note": "Proved for sums (a difference is a sum with the reflected second argument), minima, maxima, products and quotients (the latter two if different products or quotients of ends and cut points are not merged)."},
 {"property": "C17", "status": "partial", "theorems": ["Pacal.C17_unique_breakpoints", "Pacal.C17_epsunique_partial", "Pacal.C17_violated_chain"], "note": "Merging of break points with pole flags proved in full. Merging of plain points proved except for chains: points each within tolerance of the next collapse to the first although they are far apart (C17_violated_chain)."},
 {"property": "C18", "status": "partial", "theorems": ["Pacal.C18_law_partial", "Pacal.C18_law_wide", "Pacal.C18_law_continuous", "Pacal.C18_poles", "Pacal.C18_zero_scale", "Pacal.C18_violated_merge"], "note": "Proved for all densities, scales and shifts when atoms stay farther apart than the merging tolerance (automatic for |scale| >= 1 or no atoms); otherwise the code merges them (C18_violated_merge)."},
 {"property": "C19", "status": "partial", "theorems": ["Pacal.C19_law_partial", "Pacal.C19_law_continuous", "Pacal.C19_violated_merge"], "note": "Proved for all densities when atoms go to the same point or farther apart than the merging tolerance (automatic without atoms, C19_law_continuous); otherwise the code merges them (C19_violated_merge)."},
 {"property": "C20", "status": "partial", "theorems": ["Pacal.C20_law_partial", "Pacal.C20_law_continuous", "Pacal.C20_violated_merge"], "note": "Proved for all densities when atoms go to the same point or farther apart than the merging tolerance (automatic without atoms, C20_law_continuous); otherwise the code merges them (C20_violated_merge)."},
 {"property": "C21", "status": "partial", "theorems": ["Pacal.C21_law_partial", "Pacal.C21_prob_partial", "Pacal.C21_pow_partial", "Pacal.C21_violated_atom"], "note": "Proved for every distribution without atoms; a distribution with an atom has no usable reciprocal in the code (C21_violated_atom)."},
 {"property": "C22", "status": "partial", "theorems": ["Pacal.C22_law_partial", "Pacal.C22_exp", "Pacal.C22_log", "Pacal.C22_atan", "Pacal.C22_tanh", "Pacal.C22_sigmoid", "Pacal.C22_tan", "Pacal.C22_cos_partial", "Pacal.C22_pow", "Pacal.C22_pow_two", "Pacal.C22_sqrt", "Pacal.C22_rpow", "Pacal.C22_pow_zero", "Pacal.C22_pow_one", "Pacal.C22_rpow_one", "Pacal.C22_rpow_zero_partial", "Pacal.C22_violated_zero_base", "Pacal.C22_violated_sign", "Pacal.C22_violated_cos", "Pacal.C22_finding_log_atom0"], "note": "General theorem for strictly monotone functions and one theorem per function offered by the library (exp, log, atan, tanh, sigmoid, tan, cos, powers, sqrt, c**X). Hypotheses: atoms stay apart, sign condition at infinite ends (needed: C22_violated_sign), cos only on [0, 2pi) (C22_violated_cos)."},
 {"property": "C23", "status": "partial", "theorems": ["Pacal.C23_inverses", "Pacal.C23_branches_partial", "Pacal.C23_violated_sin2", "Pacal.C23_violated_sq2"], "note": "All inverses and derivatives proved correct except the second branch of sin and the branches of Sq2Distr, which are wrong in the code (C23_violated_sin2, C23_violated_sq2)."},
 {"property": "C24", "status": "partial", "theorems": ["Pacal.Cond.C24_gt_partial", "Pacal.Cond.C24_lt_partial", "Pacal.Cond.C24_between_partial", "Pacal.Cond.C24_mass_outside", "Pacal.Cond.C24_finding_lt", "Pacal.Cond.C24_violated_lt", "Pacal.Cond.C24_finding_between", "Pacal.Cond.C24_violated_between"], "note": "The law computed for X | Gt(L), X | Lt(U), X | Between(L,U) is the conditional law, for exact quadrature, break points and thresholds farther apart than the tolerance; Lt needs no atom above U and Between no atom outside [L,U]. Without these conditions the property is false (C24_finding_lt, C24_finding_between and the concrete C24_violated_*)."},
 {"property": "C25", "status": "partial", "theorems": ["Pacal.C25_pdf", "Pacal.C25_law_partial", "Pacal.C25_cdf_partial", "Pacal.C25_sampler_points", "Pacal.C25_sampler", "Pacal.C25_violated_duplicate", "Pacal.C25_violated_merge", "Pacal.C25_finding_index_error"], "note": "pdf and sampler proved for every table. Law and CDF proved for tables whose points are farther apart than the merging tolerance; the code fails on repeated points (C25_violated_duplicate) and merges close ones (C25_violated_merge)."},
 {"property": "C26", "status": "partial", "theorems": ["Pacal.C26_sign_partial", "Pacal.C26_violated_gap"], "note": "Law of sign(X) proved for every distribution whose CDF is computed correctly (pieces that touch, see C07); otherwise the code is wrong (C26_violated_gap)."},
 {"property": "C27", "status": "partial", "theorems": ["Pacal.C27_add", "Pacal.C27_sub", "Pacal.C27_neg", "Pacal.C27_mul", "Pacal.C27_div", "Pacal.C27_div_zero_rejected", "Pacal.C27_pow_num", "Pacal.C27_pow_rv", "Pacal.C27_rpow", "Pacal.C27_violated_zero_pow", "Pacal.C27_min", "Pacal.C27_max", "Pacal.C27_abs", "Pacal.C27_sqrt"], "note": "Every operator and shortcut proved to give an object with the pointwise outcome. The code violates the claim for 0**X (C27_violated_zero_pow)."},
 {"property": "C28", "status": "proved", "theorems": ["Pacal.C28_warning", "Pacal.C28_binary", "Pacal.C28_ancestors"], "note": "All histories of object creation, arbitrary sharing; ancestors proved equal to the reachable set."},
 {"property": "C29", "status": "partial", "theorems": ["Pacal.C29_joint_sampling", "Pacal.C29_identity", "Pacal.C29_self_difference", "Pacal.C29_violated_default_flags", "Pacal.C29_finding_sign"], "note": "Proved for every graph whose variables have the independence flag off: one draw per variable, all derived samples consistent. The code violates the claim with default flags and for sign (witness theorems)."},
 {"property": "C30", "status": "partial", "theorems": ["Pacal.C30_contains_partial", "Pacal.C30_mul_defined", "Pacal.C30_violated_sub", "Pacal.C30_violated_function", "Pacal.C30_violated_div", "Pacal.C30_violated_shift"], "note": "Proved for sums, products, shifts/scalings and quotients by nonnegative or negative ranges, any nesting and infinite ends. The code violates the claim for differences, quotients with 0 inside, functions and shifted leaves (witness theorems)."},
 {"property": "C31", "status": "partial", "theorems": ["Pacal.C31_make_free", "Pacal.C31_free_dependent", "Pacal.C31_all_is_dependent", "Pacal.C31_violated_all"], "note": "Free and dependent ancestors proved exactly; getParentsAll misses the free ancestors (C31_violated_all)."},
 {"property": "C32", "status": "partial", "theorems": ["Pacal.C32_iid_op", "Pacal.C32_iid_op_all", "Pacal.C32_iid_law", "Pacal.C32_iid_law_all", "Pacal.C32_iid_sum", "Pacal.C32_iid_average", "Pacal.C32_iid_average_all", "Pacal.C32_iid_average_geom", "Pacal.C32_violated_geom_all", "Pacal.C32_counts", "Pacal.C32_average"], "note": "Proved for every n and every associative operation, algebraically and for laws of independent copies; averages included. The code violates the claim for the geometric average with all=True (C32_violated_geom_all). C32_counts, C32_average: operations that are told the numbers of copies (iid_op2)."},
 {"property": "C33", "status": "partial", "theorems": ["Pacal.C33_restored_partial", "Pacal.C33_restored_all_partial", "Pacal.C33_after_failure", "Pacal.C33_violated"], "note": "Proved for every operation that returns normally. The code violates the claim when the operation raises (C33_violated)."},
 {"property": "C34", "status": "proved", "theorems": ["Pacal.C34_sum", "Pacal.C34_derivative", "Pacal.C34_probability", "Pacal.C34_median", "Pacal.C34_unknown", "Pacal.Order.C34_law"], "note": "All n, k, and all density and distribution function values."},
 {"property": "C35", "status": "proved", "theorems": ["Pacal.C35_binomial", "Pacal.C35_violated_k_gt_n", "Pacal.C35_multinomial"], "note": "All valid arguments. Finding outside the valid range: k > n gives 1 (C35_violated_k_gt_n)."},
 {"property": "C36", "status": "proved", "theorems": ["Pacal.C36_records", "Pacal.C36_converged", "Pacal.C36_giving_up", "Pacal.C36_best", "Pacal.C36_best_empty"], "note": "All histories."},
 {"property": "C37", "status": "partial", "theorems": ["Pacal.C37_integrate", "Pacal.C37_violated_small_limit", "Pacal.C37_interpolate", "Pacal.C37_finding_interpolate_limit"], "note": "Termination and origin of the result proved for every function, for node limits of at least 129. Below that the code raises an error (C37_violated_small_limit); the interpolation loop exceeds the node limit (C37_finding_interpolate_limit)."},
 {"property": "C38", "status": "partial", "theorems": ["Pacal.C38_bisect", "Pacal.C38_bisect_rejects", "Pacal.C38_bisect_zero", "Pacal.C38_findinv_minf", "Pacal.C38_findinv_pinf", "Pacal.C38_expansion_terminates", "Pacal.C38_findinv_minf_value", "Pacal.C38_violated_decreasing"], "note": "Proved for increasing functions; the code loses the bracket for decreasing ones (C38_violated_decreasing)."},
 {"property": "C39", "status": "partial", "theorems": ["Pacal.C39_cheb_grid", "Pacal.C39_cheb_one", "Pacal.C39_cheb1_grid", "Pacal.C39_combine", "Pacal.C39_increment", "Pacal.C39_increment1", "Pacal.C39_violated_log"], "note": "All n and all intervals, both Chebyshev families. Violated by the logarithmic grid: the logarithmic grid is not sorted from four nodes on (C39_violated_log)."},
 {"property": "C40", "status": "proved", "theorems": ["Pacal.C40_cheb", "Pacal.C40_cheb_noL", "Pacal.C40_cheb_noR", "Pacal.C40_cheb1", "Pacal.C40_log", "Pacal.C40_integrator", "Pacal.C40_adaptive_samples"], "note": "Every function, any number of refinements, all families including the logarithmic one."},
 {"property": "C41", "status": "partial", "theorems": ["Pacal.C41_lagrange", "Pacal.C41_array", "Pacal.C41_violated_copyReverse", "Pacal.C41_unique", "Pacal.C41_general", "Pacal.C41_at_node", "Pacal.C41_cheb", "Pacal.C41_cheb_noL", "Pacal.C41_cheb_noR", "Pacal.C41_cheb1", "Pacal.C41_reproduces", "Pacal.C41_violated_log"], "note": "All node sets for general weights; closed-form weights of the four Chebyshev families proved proportional to the nodal weights. Violated by the logarithmic grid: the logarithmic interpolator uses the weights of the ordinary grid (C41_violated_log). C41_lagrange: plain Lagrange interpolation; C41_array: arrays of any length without the compiled module. Violated by the reversed copy, which loses two nodes (C41_violated_copyReverse)."},
 {"property": "C42", "status": "proved", "theorems": ["Pacal.C42_reciprocal_pminf", "Pacal.C42_reciprocal_pinf", "Pacal.C42_reciprocal_pinf_finite", "Pacal.C42_reciprocal_minf", "Pacal.C42_reciprocal_minf_finite", "Pacal.C42_algebraic_pminf", "Pacal.C42_algebraic_pinf", "Pacal.C42_algebraic_minf", "Pacal.C42_apply_array", "Pacal.C42_integral", "Pacal.C42_identity"], "note": "All seven transforms, all parameters with positive exponent or scale; scalar and array application; exactness of the substitution for every function."},
 {"property": "C43", "status": "proved", "theorems": ["Pacal.Sparse.C43_index_set", "Pacal.Sparse.C43_coefficients", "Pacal.Sparse.C43_coef", "Pacal.Sparse.C43_smolyak", "Pacal.Sparse.C43_levels", "Pacal.Sparse.C43_build", "Pacal.Sparse.C43_values", "Pacal.Sparse.C43_subgrids", "Pacal.Sparse.C43_nested"], "note": "Index sets, coefficients (sum one, Smolyak identity), nestedness, building without errors and values attached to their nodes, for every function, dimension, depth bound and stopping rule; exact arithmetic."},
 {"property": "C44", "status": "partial", "theorems": ["Pacal.Sparse.C44_dense", "Pacal.Sparse.C44_sizes", "Pacal.Sparse.C44_contract", "Pacal.Sparse.C44_violated_single_point"], "note": "The compiled odometer loop and the Python contraction are the full tensor sum for all shapes with at least as many values as axes; otherwise the compiled routine writes outside of an array (C44_violated_single_point)."},
 {"property": "C45", "status": "proved", "theorems": ["Pacal.C45_parallel_same", "Pacal.C45_parallel_error", "Pacal.C45_get_parmap", "Pacal.C45_chunk_size_pos", "Pacal.C45_finding_par_map"], "note": "All functions, inputs, chunk sizes and completion orders. Finding: par_map needs an existing pool (C45_finding_par_map)."},
 {"property": "C46", "status": "partial", "theorems": ["Pacal.Standard.C46_normal", "Pacal.Standard.C46_normal_rejects", "Pacal.Standard.C46_uniform", "Pacal.Standard.C46_cauchy", "Pacal.Standard.C46_exponential", "Pacal.Standard.C46_gamma", "Pacal.Standard.C46_gamma_rejects", "Pacal.Standard.C46_chiSquare", "Pacal.Standard.C46_violated_chiSquare_small_df", "Pacal.Standard.C46_beta", "Pacal.Standard.C46_violated_beta_end_points", "Pacal.Standard.C46_pareto", "Pacal.Standard.C46_gamma_at_zero", "Pacal.Standard.C46_chiSquare_at_zero_partial", "Pacal.Standard.C46_violated_chiSquare_at_zero", "Pacal.Standard.C46_violated_integer_array", "Pacal.Standard.C46_levy", "Pacal.Standard.C46_laplace", "Pacal.Standard.C46_studentT", "Pacal.Standard.C46_semicircle_partial", "Pacal.Standard.C46_violated_semicircle_outside", "Pacal.Standard.C46_violated_semicircle_array", "Pacal.Standard.C46_fDistr", "Pacal.Standard.C46_fDistr_at_zero", "Pacal.Standard.C46_weibull", "Pacal.Standard.C46_weibull_at_zero_partial", "Pacal.Standard.C46_violated_weibull_at_zero", "Pacal.Standard.C46_frechet", "Pacal.Standard.C46_logLogistic", "Pacal.Standard.C46_logLogistic_at_zero_partial", "Pacal.Standard.C46_violated_logLogistic_at_zero", "Pacal.Standard.C46_gumbel_partial", "Pacal.Standard.C46_violated_gumbel", "Pacal.Standard.C46_mollifier_partial", "Pacal.Standard.C46_trapezoidal", "Pacal.Standard.C46_violated_unchecked"], "note": "All nineteen continuous distributions: law equals the Mathlib or textbook law for all valid parameters, pointwise density, values at 0. Partial: the Gumbel law is cut off at its far left, the mollifier constant is not verified numerically, lgamma is assumed exact. Violations: chi-square with df < 1 has no density; wrong or NaN values at end points (chi-square, beta, Weibull, log-logistic); semicircle pdf fails outside its support; integer arrays truncate; some constructors accept invalid parameters."},
 {"property": "C47", "status": "partial", "theorems": ["Pacal.Standard.C47_binomial_table_partial", "Pacal.Standard.C47_binomial_partial", "Pacal.Standard.C47_bernoulli", "Pacal.Standard.C47_poisson", "Pacal.Standard.C47_trunc", "Pacal.Standard.C47_trunc_law", "Pacal.Standard.C47_zero_one", "Pacal.Standard.C47_violated_binomial_one", "Pacal.Standard.C47_finding_poisson_zero_tolerance", "Pacal.Standard.C47_finding_poisson_negative", "Pacal.Standard.C47_finding_poisson_sampler", "Pacal.Standard.C47_finding_trunc_empty", "Pacal.Standard.C47_finding_trunc_endless"], "note": "Tables and laws of Binomial, Bernoulli, Poisson, the generic truncated distribution and the constants 0 and 1, for all n, p, lambda and tolerances, with termination of the loops. Fails for Binomial(n, 1). Findings: Poisson with tolerance 0 or negative rate, Poisson sampler above the truncated mass."},
 {"property": "C48", "status": "partial", "theorems": ["Pacal.Standard.C48_mix_values_partial", "Pacal.Standard.C48_mix_law_partial", "Pacal.Standard.C48_mix_rejects", "Pacal.Standard.C48_range", "Pacal.Standard.C48_sampler_partial", "Pacal.Standard.C48_finding_sampler_uniform", "Pacal.Standard.C48_violated_sampler", "Pacal.Standard.C48_violated_close_atoms"], "note": "Values, atoms and law of a mixture for all weights and components whose atoms coincide or are farther apart than the merging tolerance; range; assignment of draws. The sampler ignores the weights (violation)."},
 {"property": "C49", "status": "partial", "theorems": ["Pacal.DepVars.C49_start", "Pacal.DepVars.C49_violated_start", "Pacal.DepVars.C49_exchange", "Pacal.DepVars.C49_eliminate_free", "Pacal.DepVars.C49_eliminate_dependent", "Pacal.DepVars.C49_condition", "Pacal.DepVars.C49_possible", "Pacal.DepVars.C49_determined", "Pacal.DepVars.C49_free", "Pacal.DepVars.C49_history", "Pacal.DepVars.C49_history_exact_partial", "Pacal.DepVars.C49_inference", "Pacal.DepVars.C49_inference_exact_partial", "Pacal.DepVars.C49_finding_unknown_wanted", "Pacal.DepVars.C49_finding_endless", "Pacal.DepVars.C49_finding_contradiction", "Pacal.DepVars.C49_are_free_partial", "Pacal.DepVars.C49_finding_are_free", "Pacal.DepVars.C49_finding_domain", "Pacal.DepVars.C49_inference_ends_partial", "Pacal.DepVars.C49_inference_total_partial"], "note": "Every history of exchanges, eliminations and conditions, and inference for every number of rounds and order of pairs: variables stay free or dependent, no assignment is lost, and for equations defined everywhere exactly the projections remain. inference ends without an error for equations that can be solved uniquely (for instance linear ones), all wanted variables of the model and all conditions. Missing: equations not defined everywhere (the domain is forgotten), contradictory conditions. A variable given as derived that is also in the joint distribution becomes free and dependent (violation). sympy is a parameter."},
 {"property": "C50", "status": "partial", "theorems": ["Pacal.NDim.C50_product", "Pacal.NDim.C50_own_variables", "Pacal.NDim.C50_optimize", "Pacal.NDim.C50_box", "Pacal.NDim.C50_eliminate", "Pacal.NDim.C50_eliminate_any_order", "Pacal.NDim.C50_eliminate_touches", "Pacal.NDim.C50_condition", "Pacal.NDim.C50_varschange", "Pacal.NDim.C50_finding_condition_two", "Pacal.NDim.C50_finding_no_factors"], "note": "Products of factors: density, constants, ranges, elimination (any sharing of variables), conditioning and change of variable, for any family of factors and any homogeneous integral; elimination from one factor and interpolation are parameters with assumed behaviour. Conditioning on two variables of one factor always raises (finding). The assumed behaviour of elimination from one factor is that of C86, which holds only for variables listed in the order of the factor (C86_violated_product); so marked partial."},
 {"property": "C51", "status": "partial", "theorems": ["Pacal.Copula.C51_archimedean", "Pacal.Copula.C51_independence", "Pacal.Copula.C51_minimum_array", "Pacal.Copula.C51_violated_minimum_scalar", "Pacal.Copula.C51_lower_partial", "Pacal.Copula.C51_violated_lower", "Pacal.Copula.C51_gumbel2d", "Pacal.Copula.C51_frank2d", "Pacal.Copula.C51_finding_frank_three", "Pacal.Copula.C51_violated_clayton", "Pacal.Copula.C51_joint_density", "Pacal.Copula.C51_joint_density_two", "Pacal.Copula.C51_eliminate", "Pacal.Copula.C51_condition", "Pacal.Copula.C51_finding_condition_order", "Pacal.Copula.C51_beta", "Pacal.Copula.C51_finding_dual", "Pacal.Copula.C51_finding_singular"], "note": "Archimedean copulas (Clayton, Gumbel, Frank) in any number of variables with strict generators, the two dimensional Gumbel and Frank classes, independence in any number of variables, minimum for arrays, lower bound in two variables: grounded, uniform margins, Frechet bounds, density is the mixed derivative; joint density with marginals, elimination and conditions. Violated: minimum for scalars, lower bound in three or more variables, Clayton with negative parameter."},
 {"property": "C52", "status": "partial", "theorems": ["Pacal.NDNormal.C52_density", "Pacal.NDNormal.C52_eliminate", "Pacal.NDNormal.C52_any_order", "Pacal.NDNormal.C52_margin", "Pacal.NDNormal.C52_condition_partial", "Pacal.NDNormal.C52_condition_all", "Pacal.NDNormal.C52_violated_condition", "Pacal.NDNormal.C52_shape", "Pacal.NDNormal.C52_finding_default_vars", "Pacal.NDNormal.C52_finding_box"], "note": "Elimination: proved in full over the reals for every positive definite covariance, any number of variables and any order, with the density of the result equal to the integral of the joint density. Conditioning: proved for two variables; violated for three or more, where it always raises."},
 {"property": "C53", "status": "partial", "theorems": ["Pacal.NDim.C53_array", "Pacal.NDim.C53_product_array", "Pacal.NDim.C53_scalar_partial", "Pacal.NDim.C53_scalar_inside", "Pacal.NDim.C53_product_scalar", "Pacal.NDim.C53_violated_scalar", "Pacal.NDim.C53_finding_int_array"], "note": "Arrays: proved in full. Scalars: proved for at most one variable and for products of one dimensional factors; violated for scalars in two or more variables because the mask is built with `or`."},
 {"property": "C54", "status": "proved", "theorems": ["Pacal.Gamma.C54_value", "Pacal.Gamma.C54_poles", "Pacal.Gamma.C54_special", "Pacal.Gamma.C54_polevl", "Pacal.Gamma.C54_code_good", "Pacal.Gamma.C54_accuracy", "Pacal.Gamma.C54_accuracy_moderate", "Pacal.Gamma.C54_code_poles"], "note": "Exact real arithmetic. For any core approximations right up to epsilon and a constant right up to delta the routine is right up to epsilon + delta at every argument that is not a pole (|x| <= MAXLGM), and it is infinite exactly at the poles. The routine's own coefficients are also shown accurate: 1e-9 everywhere, 1.1e-10 for |x| <= 1e8 (Stirling bounds for the gamma function proved for this)."},
 {"property": "C55", "status": "partial", "theorems": ["Pacal.Moments.C55_mean", "Pacal.Moments.C55_meanf", "Pacal.Moments.C55_moment", "Pacal.Moments.C55_central_partial", "Pacal.Moments.C55_var", "Pacal.Moments.C55_std", "Pacal.Moments.C55_skewness", "Pacal.Moments.C55_kurtosis", "Pacal.Moments.C55_degenerate", "Pacal.Moments.C55_linear", "Pacal.Moments.C55_sum", "Pacal.Moments.C55_violated_nan"], "note": "mean, meanf, moments, var, std, skewness and kurtosis are the exact expectations over pieces and atoms (or NaN/infinite when the quadrature reports large errors); linearity and sums. The central moments are 0 instead of NaN when the mean is NaN (C55_violated_nan). Assumes exact quadrature and integrability."},
 {"property": "C56", "status": "partial", "theorems": ["Pacal.C56_exact_partial", "Pacal.C56_accepted_partial", "Pacal.C56_powers", "Pacal.C56_violated_cos", "Pacal.C56_violated_sin", "Pacal.C56_violated_zero_piece", "Pacal.C56_violated_rv", "Pacal.C56_finding_cube", "Pacal.C56_isNonneg_iff", "Pacal.C56_no_negative_part"], "note": "For distributions that ask their density, log, sqrt and powers other than -1, 0, 1, 2 are accepted exactly if the variable is positive with certainty, provided the density is positive inside its pieces (C56_exact_partial); what is accepted is always positive (C56_accepted_partial).  Violated by cos(X) and sin(X), which are never asked (C56_violated_cos, C56_violated_sin), by densities that are 0 on a piece left of 0, which are rejected (C56_violated_zero_piece), and by random variables without a distribution (C56_violated_rv).  Whole powers such as X**3 are treated like fractional ones (C56_finding_cube)."},
 {"property": "C57", "status": "partial", "theorems": ["Pacal.C57_fejer_infinite", "Pacal.C57_fejer_finite", "Pacal.C57_empty", "Pacal.C57_clenshaw_infinite", "Pacal.C57_pole", "Pacal.C57_wide", "Pacal.C57_violated_wide_infinite", "Pacal.C57_guess", "Pacal.C57_segint", "Pacal.C57_segint_reversed", "Pacal.C57_violated_segint_line"], "note": "Proved for all routines; the dispatcher neglects the machine-epsilon sliver at a pole (eps = 0). The code violates the claim for wide intervals with infinite ends, cut at 1e100 (C57_violated_wide_infinite), and on the whole line the dispatcher raises TypeError (C57_violated_segint_line)."},
 {"property": "C58", "status": "partial", "theorems": ["Pacal.C58_integrate_partial", "Pacal.C58_integrate_point_partial", "Pacal.C58_total", "Pacal.C58_violated_const"], "note": "Proved for every arrangement of pieces when constant pieces meet the interval; the code integrates a constant piece over an interval that misses it to a negative number (C58_violated_const)."},
 {"property": "C59", "status": "partial", "theorems": ["Pacal.C59_ccdf_value_partial", "Pacal.C59_ccdf_partial", "Pacal.C59_violated_gap"], "note": "Both routines proved for every distribution whose CDF is computed correctly (pieces that touch, see C07); otherwise the code is wrong (C59_violated_gap)."},
 {"property": "C60", "status": "partial", "theorems": ["Pacal.Quantile.C60_sampling_partial", "Pacal.Quantile.C60_violated_coin", "Pacal.Quantile.C60_interpolated_partial", "Pacal.Quantile.C60_invcdf_partial"], "note": "The law of the sampler applied to a uniform level is the given law, for the distributions of C08, exact quadrature and root finder (C60_invcdf_partial: also for rand_invcdf); with an interpolated inverse that is off by at most e the distribution function of the samples lies between F(x-e) and F(x+e) (C60_interpolated_partial). Violated for two atoms with nothing in between: only the larger value is sampled."},
 {"property": "C61", "status": "proved", "theorems": ["Pacal.Sparse.C61_polynomials", "Pacal.Sparse.C61_degree_ten", "Pacal.Sparse.C61_nodes"], "note": "Exact arithmetic; the convergence monitor may stop at any round."},
 {"property": "C62", "status": "partial", "theorems": ["Pacal.Standard.C62_pieces", "Pacal.Standard.C62_law", "Pacal.Standard.C62_violated_both_poles", "Pacal.Standard.C62_violated_right_poles", "Pacal.Standard.C62_violated_infinite_pole", "Pacal.Standard.C62_violated_funDistr_poles", "Pacal.Standard.C62_funDistr"], "note": "Pieces, poles and law for all strictly increasing break points and representable flags. Violations: both poles on one piece, consecutive right poles, poles of infinite pieces, and pole arguments of FunDistr. A single piece [a, inf] is outside the model."},
 {"property": "C63", "status": "partial", "theorems": ["Pacal.Standard.C63_range_partial", "Pacal.Standard.C63_violated_gumbel", "Pacal.Standard.C63_violated_frechet"], "note": "All standard distributions except Gumbel and Frechet with negative minimum, for which it is false."},
 {"property": "C64", "status": "proved", "theorems": ["Pacal.C64_clenshaw_exact", "Pacal.C64_fejer_exact", "Pacal.C64_small", "Pacal.C64_weights", "Pacal.C64_error", "Pacal.C64_converges", "Pacal.C64_cache", "Pacal.C64_fejer2_polynomial", "Pacal.C64_fejer2_accuracy", "Pacal.C64_vector", "Pacal.C64_clenshaw_integrate", "Pacal.C64_finding_small_limit", "Pacal.C64_clenshaw_default", "Pacal.C64_finding_clenshaw_default"], "note": "Exact real arithmetic. Rules: proved for every number of nodes (at least 3) and every interval. Integrators: proved for every tolerance and node limit from 129 (Fejer) or 5 (Clenshaw-Curtis without debug plots) on. Findings: integrate_clenshaw with its default arguments raises TypeError when the node limit is reached, and node limits below these raise UnboundLocalError."},
 {"property": "C65", "status": "partial", "theorems": ["Pacal.Calc.C65_diff_partial", "Pacal.Calc.C65_diff_error", "Pacal.Calc.C65_diff_iff", "Pacal.Calc.C65_diff_resampled", "Pacal.Calc.C65_diff_other_grids", "Pacal.Calc.C65_violated_diff", "Pacal.Calc.C65_violated_diff_two_nodes", "Pacal.Calc.C65_roots_partial", "Pacal.Calc.C65_roots_residual", "Pacal.Calc.C65_roots_resampled_partial", "Pacal.Calc.C65_violated_roots", "Pacal.Calc.C65_trim_partial", "Pacal.Calc.C65_violated_trim"], "note": "Exact real arithmetic. diff: exact on grids of the other kinds and whenever the degree is below the maximal one (iff, or three nodes), with an error bound by the last Chebyshev coefficient otherwise; roots: the zeros of the function plus its last Chebyshev term. Violated: chebt2 doubles the last coefficient, so diff of x**4 on five nodes is 4x**3+x, the derivative on two nodes is zero, the roots of x**2 on three nodes are +-1/2, roots is a LinAlgError for functions of smaller degree and on the grids without an end, trim compares without absolute values and halves the last kept coefficient."},
 {"property": "C66", "status": "partial", "theorems": ["Pacal.TwoVars.C66_limits", "Pacal.TwoVars.C66_density_partial", "Pacal.TwoVars.C66_law_partial", "Pacal.TwoVars.C66_linear_partial", "Pacal.TwoVars.C66_product_partial", "Pacal.TwoVars.C66_independent_partial", "Pacal.TwoVars.C66_violated_atoms", "Pacal.TwoVars.C66_violated_zero", "Pacal.TwoVars.C66_violated_pole"], "note": "Exact real arithmetic and integration, interpolation of pieces is the identity, sympy is a parameter with stated behaviour (proved to be met by the hand-solved expressions of linear combinations and of products). Proved for pieces without atoms and monotone level curves. Violated: an atom in the first selected pair is an UnboundLocalError, a later one counts the previous integral again; products with a piece starting at 0 are a TypeError or IndexError; for x*y/(x+y) with several pieces the limits are wrong and a part of the curve is counted twice."},
 {"property": "C67", "status": "partial", "theorems": ["Pacal.Sampler.C67_direct_partial", "Pacal.Sampler.C67_inverse", "Pacal.Sampler.C67_gumbel_partial", "Pacal.Sampler.C67_violated_chiSquare_small_df", "Pacal.Sampler.C67_reject_result", "Pacal.Sampler.C67_reject_law", "Pacal.Sampler.C67_reject_terminates", "Pacal.Sampler.C67_reject_diverges", "Pacal.Sampler.C67_reject_density_partial"], "note": "numpy generators are assumed to have their documented laws. Proved for all standard distributions except those sampled by inversion (C60) and Gumbel, whose density misses a mass of exp(-exp(709.78)); the rejection sampler is proved for every law with P(X > L) > 0 (and never ends otherwise). Violated: chi-square with less than one degree of freedom can be sampled but has no density."},
 {"property": "C68", "status": "partial", "theorems": ["Pacal.Identity.C68_unlimited_partial", "Pacal.Identity.C68_no_atoms_partial", "Pacal.Identity.C68_nonneg_partial", "Pacal.Identity.C68_no_gaps_partial", "Pacal.Identity.C68_expression_partial", "Pacal.Identity.C68_mass_partial", "Pacal.Identity.C68_same_partial"], "note": "Exact real arithmetic and integration. For every tolerance the conditions of the single operations (C12-C23) are assumed at every node; with exact comparisons they are proved from the form of the expression alone (valid parameters, functions applied where they are defined, no gaps in summands, no atoms in divisors and in arguments of functions), for every depth and order of the operations. Excluded: the violations recorded at the single operations, the Gumbel distribution and the mollifier (whose densities are not exact)."},
 {"property": "C69", "status": "partial", "theorems": ["Pacal.Identity.C69_table", "Pacal.Identity.C69_table_two", "Pacal.Identity.C69_same", "Pacal.Identity.C69_same_two_partial"], "note": "Functions of one variable, minima and maxima with any tolerance; sums, differences and quotients with exact comparisons only. Exact real arithmetic and integration, as for C68."},
 {"property": "C70", "status": "partial", "theorems": ["Pacal.Identity.C70_rules", "Pacal.Identity.C70_equal", "Pacal.Identity.C70_transform_partial", "Pacal.Identity.C70_transform_exact_partial"], "note": "Both expressions must be among those evaluated correctly (conditions of C68); with exact comparisons these conditions concern the shape of the expressions only."},
 {"property": "C71", "status": "partial", "theorems": ["Pacal.Noncentral.C71_chiSquare_partial", "Pacal.Noncentral.C71_f_partial", "Pacal.Noncentral.C71_beta_partial", "Pacal.Noncentral.C71_t_partial", "Pacal.Noncentral.C71_central_partial", "Pacal.Noncentral.C71_sum_of_squares_partial", "Pacal.Noncentral.C71_add_partial", "Pacal.Noncentral.C71_t_square_partial", "Pacal.Noncentral.C71_violated_small_df"], "note": "With exact comparisons, real arithmetic and integration (C68). For 1 < df < 2 (1/2 < alpha < 1 for the beta distribution) the constructors accept the parameters but nothing can be computed (C71_violated_small_df)."},
 {"property": "C72", "status": "partial", "theorems": ["Pacal.C72_find_zero", "Pacal.C72_log", "Pacal.C72_log_positive", "Pacal.C72_log_power", "Pacal.C72_var", "Pacal.C72_pinf", "Pacal.C72_minf", "Pacal.C72_poleP_partial", "Pacal.C72_poleN_partial", "Pacal.C72_violated_pole_shift", "Pacal.C72_violated_pole_outside", "Pacal.C72_violated_poleN_zero", "Pacal.C72_violated_poleN_sign", "Pacal.C72_violated_log_negative"], "note": "Exact real arithmetic, functions acting elementwise. Tails: proved. Poles: the interpolants are shifted by twice the offset and sample outside the interval, and the right-hand one loses the sign (C72_violated_*)."},
 {"property": "C73", "status": "partial", "theorems": ["Pacal.Summary.C73_maximum_partial", "Pacal.Summary.C73_minimum_partial", "Pacal.Summary.C73_mode_partial", "Pacal.Summary.C73_unimodal_partial", "Pacal.Summary.C73_discrete", "Pacal.Summary.C73_density_partial", "Pacal.Summary.C73_max_abs_partial", "Pacal.Summary.C73_pd_mode_partial", "Pacal.Summary.C73_violated_tail", "Pacal.Summary.C73_violated_mixed", "Pacal.Summary.C73_violated_max_abs"], "note": "Continuous pieces with one hump each (or any pieces for which the minimiser finds the minimum). On unbounded pieces the search may stop too early (C73_violated_tail); atoms and densities are compared by value (C73_violated_mixed); max_abs ignores the sign of negative maxima (C73_violated_max_abs)."},
 {"property": "C74", "status": "partial", "theorems": ["Pacal.Summary.C74_medianad_partial"], "note": "Continuous distributions on contiguous pieces, exact quadrature and root finding (as for C08)."},
 {"property": "C75", "status": "partial", "theorems": ["Pacal.Summary.C75_entropy_partial", "Pacal.Summary.C75_entropy_continuous_partial", "Pacal.Summary.C75_entropy_discrete_partial", "Pacal.Summary.C75_l2_partial", "Pacal.Summary.C75_kl_partial", "Pacal.Summary.C75_kl_zero_partial", "Pacal.Summary.C75_violated_kl_support", "Pacal.Summary.C75_violated_kl_disjoint", "Pacal.Summary.C75_violated_kl_atoms"], "note": "Exact quadrature, integrable integrands, positive masses. The KL distance is wrong where the second distribution has no mass and where it has an atom the first does not have (C75_violated_kl_*)."},
 {"property": "C76", "status": "proved", "theorems": ["Pacal.Order.C76_kth", "Pacal.Order.C76_joint", "Pacal.Order.C76_marginals", "Pacal.Order.C76_reject"], "note": "The interpolation of density and distribution function is not part of the statement (see C64)."},
 {"property": "C77", "status": "partial", "theorems": ["Pacal.Tail.C77_right_partial", "Pacal.Tail.C77_left_partial", "Pacal.Tail.C77_exact", "Pacal.Tail.C77_none", "Pacal.Tail.C77_total", "Pacal.Tail.C77_vanishing", "Pacal.Tail.C77_finding_never_inf", "Pacal.Tail.C77_violated_light_tail"], "note": "Tails between two multiples of a power, beyond 10^99. Tails lighter than every power are never reported as infinite (C77_finding_never_inf, C77_violated_light_tail)."},
 {"property": "C78", "status": "partial", "theorems": ["Pacal.Tail.C78_degree", "Pacal.Tail.C78_power", "Pacal.Tail.C78_test_power_partial", "Pacal.Tail.C78_detected", "Pacal.Tail.C78_regular", "Pacal.Tail.C78_total", "Pacal.Tail.C78_violated_cube"], "note": "Functions behaving like a power within 10^-6 of the point. Integer exponents above 2 are reported as singular although the function is smooth (C78_violated_cube)."},
 {"property": "C79", "status": "partial", "theorems": ["Pacal.Depend.C79_cov_partial", "Pacal.Depend.C79_violated_cov_range", "Pacal.Depend.C79_corrcoef_partial", "Pacal.Depend.C79_violated_corrcoef_diagonal", "Pacal.Depend.C79_violated_corrcoef_third", "Pacal.Depend.C79_spearman", "Pacal.Depend.C79_kendall", "Pacal.Depend.C79_tau_partial", "Pacal.Depend.C79_values", "Pacal.Depend.C79_violated_minimum", "Pacal.Depend.C79_violated_nd_cov", "Pacal.Depend.C79_matrix", "Pacal.Depend.C79_tau_matrix", "Pacal.Depend.C79_reject"], "note": "rho_s and ctau: all pairs, exact quadrature, finite ranges. cov and tau: pairs whose second variable has its values in the range of marginal 1; corrcoef: variables 0 and 1. The code uses marginal 1 for the second variable whatever its number (C79_violated_cov_range, C79_violated_corrcoef_*), NDDistr.cov subtracts no means (C79_violated_nd_cov), and the upper Frechet bound raises IndexError (C79_violated_minimum)."},
 {"property": "C80", "status": "proved", "theorems": ["Pacal.Depend.C80_tau", "Pacal.Depend.C80_density", "Pacal.Depend.C80_ctau", "Pacal.Depend.C80_exists", "Pacal.Depend.C80_clayton", "Pacal.Depend.C80_gumbel", "Pacal.Depend.C80_finding_default"], "note": "Parameters for which the generators are strict (Clayton theta > 0, Gumbel theta >= 1, Frank theta != 0), exact quadrature. The default generator of ArchimedeanCopula is no generator: ccdf is 1 everywhere (C80_finding_default)."},
 {"property": "C81", "status": "partial", "theorems": ["Pacal.Copula.C81_cdf_partial", "Pacal.Copula.C81_condfun_partial", "Pacal.Copula.C81_violated_range", "Pacal.Copula.C81_violated_beyond", "Pacal.Copula.C81_violated_two", "Pacal.Copula.C81_sampler_partial"], "note": "One conditioning variable, the range of one of the marginals contains the unit interval, points inside the ranges with positive distribution functions. Otherwise the code disagrees: the values of the distribution functions are compared with the ranges of the marginals (C81_violated_range), beyond the right end of the range the function is 0 (C81_violated_beyond), two conditions are not normalised (C81_violated_two). Exact marginals; the sampler with an exact inverse and ideal random numbers."},
 {"property": "C82", "status": "proved", "theorems": ["Pacal.Regress.C82_mean", "Pacal.Regress.C82_best", "Pacal.Regress.C82_quantile", "Pacal.Regress.C82_refused"], "note": "Interpolation, integrals and quantiles exact; finite ranges (as the sparse grids need). The mode (type 2) is a parameter about which nothing is claimed."},
 {"property": "C83", "status": "partial", "theorems": ["Pacal.Noisy.C83_joint_partial", "Pacal.Noisy.C83_eliminate_partial", "Pacal.Noisy.C83_condition", "Pacal.Noisy.C83_condition_dim_partial", "Pacal.Noisy.C83_violated_square", "Pacal.Noisy.C83_violated_difference", "Pacal.Noisy.C83_violated_two"], "note": "The range of f is given, or f is increasing in all variables, or decreasing in all variables. Otherwise the density is cut off (C83_violated_square, C83_violated_difference). Fixing several variables leaves a wrong number of dimensions (C83_violated_two)."},
 {"property": "C84", "status": "partial", "theorems": ["Pacal.Quantile.C84_invcdf_partial", "Pacal.Quantile.C84_violated_thin", "Pacal.Quantile.C84_range"], "note": "At the ends of the pieces, and at 0, the distribution function is 1 or below 0.9999; otherwise the probabilities close to 1 are lost (C84_violated_thin). Interpolation is exact."},
 {"property": "C85", "status": "partial", "theorems": ["Pacal.Hist.C85_hist_partial", "Pacal.Hist.C85_total_partial", "Pacal.Hist.C85_violated_constant", "Pacal.Hist.C85_finding_conditional", "Pacal.Hist.C85_empty"], "note": "Two different values are drawn; if all are the same the total area is 1 / bins (C85_violated_constant). With a range the total area is the proportion of accepted draws, not 1 as for a conditional density (C85_finding_conditional)."},
 {"property": "C86", "status": "partial", "theorems": ["Pacal.NDim.C86_values_partial", "Pacal.NDim.C86_eliminate_partial", "Pacal.NDim.C86_total", "Pacal.NDim.C86_successive", "Pacal.NDim.C86_unknown", "Pacal.NDim.C86_violated_order", "Pacal.NDim.C86_violated_refused", "Pacal.NDim.C86_violated_product", "Pacal.NDim.C86_finding_limits"], "note": "Proved for variables listed in the order they have in the density; quadrature and interpolation are exact. For other orders the code integrates out the wrong variables or raises (C86_violated_order, C86_violated_refused), also through a product (C86_violated_product). The documented limits a, b are ignored (C86_finding_limits)."},
 {"property": "C87", "status": "partial", "theorems": ["Pacal.NDim.C87_density_partial", "Pacal.NDim.C87_arguments", "Pacal.NDim.C87_eliminate_partial", "Pacal.NDim.C87_eliminate_all", "Pacal.NDim.C87_eliminate_refused", "Pacal.NDim.C87_condition", "Pacal.NDim.C87_condition_all", "Pacal.NDim.C87_violated_order", "Pacal.NDim.C87_violated_part"], "note": "Proved for a condition listed in the order of the variables. In another order the marginal density is called with exchanged arguments (C87_violated_order); after conditioning on a part of the condition the result cannot be evaluated (C87_violated_part). Quadrature and interpolation are exact."},
 {"property": "C88", "status": "partial", "theorems": ["Pacal.Summary.C88_extrema_partial", "Pacal.Summary.C88_violated_gap", "Pacal.Summary.C88_violated_atom", "Pacal.Summary.C88_violated_tail", "Pacal.Summary.C88_empty", "Pacal.Summary.C88_finding_exact"], "note": "proved for bounded pieces without poles that follow each other, when all critical points are found; with gaps the reported point is wrong, with atoms the arrays have different lengths, unbounded pieces are ignored, and in exact arithmetic the root finder of C65 refuses every polynomial piece with nodes to spare"},
 {"property": "C89", "status": "partial", "theorems": ["Pacal.Estim.C89_start", "Pacal.Estim.C89_given", "Pacal.Estim.C89_refused", "Pacal.Estim.C89_last", "Pacal.Estim.C89_compare", "Pacal.Estim.C89_find_partial", "Pacal.Estim.C89_order", "Pacal.Estim.C89_violated_required", "Pacal.Estim.C89_violated_offset", "Pacal.Estim.C89_violated_discrete", "Pacal.Estim.C89_violated_integers"], "note": "Proved for floating point data and continuous distributions up to the increase of the densities by 1e-300, with an explicit factor; exact for one observation. The increase can make impossible data preferred (C89_violated_offset); classes with a required parameter are an IndexError (C89_violated_required); for discrete distributions and for integer data the objective does not depend on the parameters (C89_violated_discrete, C89_violated_integers)."},
 {"property": "C90", "status": "partial", "theorems": ["Pacal.Copula.C90_logexp_p1", "Pacal.Copula.C90_log_1m_exp", "Pacal.Copula.C90_logexp_m1_partial", "Pacal.Copula.C90_fi", "Pacal.Copula.C90_fi_inv_partial", "Pacal.Copula.C90_inverse", "Pacal.Copula.C90_violated_scalar", "Pacal.Copula.C90_violated_m1", "Pacal.Copula.C90_violated_log_1m"], "note": "Relative accuracy 2e-16 is proved on the whole domain (exact arithmetic between the branches). fi_inv, logexp_p1 and log_1m_exp of a number are a TypeError (C90_violated_scalar); the documented meaning of the factor a is wrong for logexp_m1 (C90_violated_m1) and the documented sign and argument are wrong for log_1m_exp (C90_violated_log_1m)."},
 {"property": "C91", "status": "partial", "theorems": ["Pacal.Identity.C91_errors_partial", "Pacal.Identity.C91_unlimited_partial", "Pacal.Identity.C91_linear_partial", "Pacal.Identity.C91_mass_partial", "Pacal.Identity.C91_exact_partial"], "note": "The replaced densities are assumed nonnegative (an interpolant may be slightly negative), constant pieces and atoms are kept, and the cases that are wrong without any error (C12-C23, C46) are excluded as in C68."},
 {"property": "C92", "status": "partial", "theorems": ["Pacal.Conv.C92_sum_partial", "Pacal.Conv.C92_sub_partial", "Pacal.Conv.C92_prod_partial", "Pacal.Conv.C92_div_partial", "Pacal.Conv.C92_min_partial", "Pacal.Conv.C92_max_partial", "Pacal.Conv.C92_prob_partial", "Pacal.Conv.C92_min_atoms_partial", "Pacal.Conv.C92_max_atoms_partial", "Pacal.Conv.C92_prod_atoms_partial"], "note": "The error bound of the integrals may depend on the point.  Under the conditions of C12-C15 on the arguments; products with atoms at 0, minimum and maximum with atoms only if the integrals from which the probabilities of the atoms of the result are computed are exact (masses of pieces, and tails that begin at the atoms)."},
 {"property": "C93", "status": "partial", "theorems": ["Pacal.Summary.C93_value_partial", "Pacal.Summary.C93_fun", "Pacal.Summary.C93_array", "Pacal.Summary.C93_zero", "Pacal.Summary.C93_sum_partial", "Pacal.Summary.C93_linear_partial", "Pacal.Summary.C93_finding_zero", "Pacal.Summary.C93_violated_outside", "Pacal.Summary.C93_violated_constant"], "note": "Exact integrals with error estimate 0 (as C55), t in the range of X and a density with at least two break points which are not just [a, inf] for the value of mgf()(t); `_mgf_fun` itself without these restrictions on t.  Violated outside the range of X, where mgf()(t) is 0, and for constants, where mgf() fails."},
 {"property": "C94", "status": "partial", "theorems": ["Pacal.C94_ccdf_partial", "Pacal.C94_ccdf_outside_partial", "Pacal.C94_pieces", "Pacal.C94_value", "Pacal.C94_array", "Pacal.C94_law", "Pacal.C94_cdf_partial", "Pacal.C94_cdf_outside_partial"], "note": "Pieces, atoms, values and probabilities: proved in full (probabilities for nonnegative interpolants).  Distribution function and its complement: for the distributions of C07, outside gaps, with exact integrals."},
 {"property": "C95", "status": "partial", "theorems": ["Pacal.Identity.C95_total_partial", "Pacal.Identity.C95_unlimited_partial", "Pacal.Identity.C95_linear_partial", "Pacal.Identity.C95_cdf_partial"], "note": "Conditions of C68/C91 on the arguments of every node (with exact comparisons: the class `Defined`, a condition on the form of the expression); the integrals that give the probabilities of atoms of products, minima and maxima are exact; stored densities are assumed nonnegative."},
 {"property": "C96", "status": "partial", "theorems": ["Pacal.Alias.C96_careful", "Pacal.Alias.C96_apart_partial", "Pacal.Alias.C96_violated_pdistr_shared", "Pacal.Alias.C96_violated_pdistr", "Pacal.Alias.C96_violated_pdistr_overlap", "Pacal.Alias.C96_violated_pdistr_forgotten", "Pacal.Alias.C96_violated_interpolated", "Pacal.Alias.C96_violated_same_atom", "Pacal.Alias.C96_finding_fromList"], "note": "Holds for histories in which functions are created with `PiecewiseFunction([])` or computed and every piece is added once (`C96_careful`), and whenever only functions that share nothing are extended (`C96_apart_partial`).  Violated by distributions `PDistr(list)`, which all share the default list, by interpolated copies with atoms, and by an atom added to two functions."},
 {"property": "C97", "status": "partial", "theorems": ["Pacal.Cache.C97_history_partial", "Pacal.Cache.C97_order_partial", "Pacal.Cache.C97_stays", "Pacal.Cache.C97_discrete", "Pacal.Cache.C97_violated_once", "Pacal.Cache.C97_violated_discrete", "Pacal.Cache.C97_violated_empty", "Pacal.Cache.C97_violated_given", "Pacal.Cache.C97_finding_changed"], "note": "Holds after any history of questions if no density breaks off while it is built in steps (C97_history_partial, C97_order_partial); what was returned once is returned ever after, for all distributions (C97_stays).  Violated when a step raises (C97_violated_once): the exception is raised once and later calls return what was built so far, e.g. for DiscreteDistr with a repeated point, PDistr(), and FunDistr whose interpolation raises.  A density changed in place by the user leaves the kept distribution function as it was (C97_finding_changed).  Changes of global parameters between the questions are not modelled."},
 {"property": "C98", "status": "partial", "theorems": ["Pacal.Names.C98_unique", "Pacal.Names.C98_name_partial", "Pacal.Names.C98_same_name_partial", "Pacal.Names.C98_violated_difference", "Pacal.Names.C98_violated_shift", "Pacal.Names.C98_violated_sigmoid"], "note": "Holds for expressions in which nothing that is subtracted is itself a difference or has a number added to it, and which do not use sigmoid (C98_name_partial, C98_same_name_partial); readings are unique (C98_unique).  Violated otherwise: X-(Y-Z) is called X-Y-Z (C98_violated_difference), X-(Y+2) is called X-Y+2 (C98_violated_shift), sigmoid(X) is called tanh(X) (C98_violated_sigmoid).  How numbers are printed (rounding of digits) is not modelled; names given by the user are taken to be single variables."},
 {"property": "C99", "status": "partial", "theorems": ["Pacal.Equations.C99_sound", "Pacal.Equations.C99_expressions", "Pacal.Equations.C99_complete_partial", "Pacal.Equations.C99_solutions_partial", "Pacal.Equations.C99_violated_same"], "note": "Soundness, no repetitions and completeness for expressions are proved in full (C99_sound, C99_expressions); completeness for equations and the statement about solutions hold if different variables have different expressions (C99_complete_partial, C99_solutions_partial).  Violated otherwise: with U = X+Y, V = X+Y and W = U*V the equation of V is missing (C99_violated_same).  Parents after the second one are ignored by the code and left out of the model."},
 {"property": "C100", "status": "partial", "theorems": ["Pacal.Direct.C100_density_partial", "Pacal.Direct.C100_piecewise_partial", "Pacal.Direct.C100_arrays_partial", "Pacal.Direct.C100_arrays_inverse_partial", "Pacal.Direct.C100_violated_inverse_array", "Pacal.Direct.C100_violated_inverse_length", "Pacal.Direct.C100_violated_square_array", "Pacal.Direct.C100_violated_atan_inverse", "Pacal.Direct.C100_violated_tanh_exp", "Pacal.Direct.C100_violated_discrete_scale", "Pacal.Direct.C100_violated_discrete_abs"], "note": "C100_density_partial and C100_piecewise_partial hold for all nestings except bounded functions of a variable whose density divides by its argument, where pdf(x) raises ZeroDivisionError outside the range (C100_violated_atan_inverse, C100_violated_tanh_exp).  Discrete distributions answer with probabilities, which are then transformed like densities (C100_violated_discrete_scale, C100_violated_discrete_abs).  Arrays are evaluated entry by entry without squares and reciprocals of 0 (C100_arrays_partial, C100_arrays_inverse_partial); violated with them (C100_violated_inverse_array, C100_violated_inverse_length, C100_violated_square_array).  Infinite values are not told apart from nan; exact arithmetic."},
 {"property": "C101", "status": "partial", "theorems": ["Pacal.Pickle.C101_roundtrip_partial", "Pacal.Pickle.C101_function", "Pacal.Pickle.C101_violated_private", "Pacal.Pickle.C101_violated_super", "Pacal.Pickle.C101_violated_attribute"], "note": "C101_roundtrip_partial covers all methods found by name that are not private or are defined in the class of the object.  Violated for private methods of base classes, methods bound with super() and objects with an attribute of the name of the method (C101_violated_private, C101_violated_super, C101_violated_attribute).  That the object itself survives pickling is assumed."},
 {"property": "C102", "status": "partial", "theorems": ["Pacal.Standard.C102_arrays_partial", "Pacal.Standard.C102_integers", "Pacal.Standard.C102_violated_semicircle", "Pacal.Standard.C102_violated_logLogistic", "Pacal.Standard.C102_violated_integers"], "note": "C102_arrays_partial: arrays of floats, all distributions, for the semicircle and log-logistic distributions only arrays inside of the range.  C102_integers: arrays of integers for six distributions.  Violated for the semicircle and log-logistic distributions with entries outside of the range (ValueError) and for arrays of integers, whose densities are truncated (C102_violated_semicircle, C102_violated_logLogistic, C102_violated_integers)."},
 {"property": "C103", "status": "partial", "theorems": ["Pacal.Standard.C103_log_partial", "Pacal.Standard.C103_violated_chiSquare", "Pacal.Standard.C103_violated_gamma", "Pacal.Standard.C103_violated_negative"], "note": "C103_log_partial: everywhere, for the chi square, gamma and log-logistic distributions for x > 0.  Violated for these at 0 and at negative points (C103_violated_chiSquare, C103_violated_gamma, C103_violated_negative)."},
 {"property": "C104", "status": "partial", "theorems": ["Pacal.Symbolic.C104_binary_partial", "Pacal.Symbolic.C104_values_exist", "Pacal.Symbolic.C104_always", "Pacal.Symbolic.C104_unary_partial", "Pacal.Symbolic.C104_unary_returns", "Pacal.Symbolic.C104_numbers", "Pacal.Symbolic.C104_violated_abs", "Pacal.Symbolic.C104_violated_log", "Pacal.Symbolic.C104_violated_parents", "Pacal.Symbolic.C104_violated_functions", "Pacal.Symbolic.C104_violated_minMax", "Pacal.Symbolic.C104_violated_zeroPow", "Pacal.Symbolic.C104_expression_partial", "Pacal.Symbolic.C104_ancestors_partial"], "note": "C104_binary_partial, C104_unary_partial: whatever is returned has the right value, and variables other than sqrt(X) and sign(X) the right ancestors; C104_values_exist: the equations of new variables can be solved; C104_expression_partial, C104_ancestors_partial: the same for whole expressions of any size; C104_always, C104_unary_returns: which calls return; C104_numbers: functions of numbers.  Violated: abs, log and general powers of variables not made by exp, ancestors of sqrt and sign, sin, cos, tan, sigmoid, min and max with a number, 0 ** X where X is 0 (C104_violated_*).  sympy's simplification is a parameter assumed to preserve values and to introduce no symbols."},
 {"property": "C105", "status": "partial", "theorems": ["Pacal.Plot.C105_piece_partial", "Pacal.Plot.C105_infinite_partial", "Pacal.Plot.C105_piecewise_partial", "Pacal.Plot.C105_violated_tiny"], "note": "C105_piece_partial, C105_infinite_partial, C105_piecewise_partial: for pieces without an end at 0, or longer than leftRightEpsilon (1e-20).  Violated for a shorter piece with an end at 0: C105_violated_tiny (points outside the piece, in decreasing order).  Real arithmetic."},
 {"property": "C106", "status": "partial", "theorems": ["Pacal.Report.C106_pieces_partial", "Pacal.Report.C106_maximum_partial", "Pacal.Report.C106_violated_tail", "Pacal.Report.C106_finding_empty"], "note": "C106_pieces_partial, C106_maximum_partial: if the interpolator of the tail of an unbounded piece is not the less accurate one.  Violated otherwise: its error is never looked at (C106_violated_tail).  Densities without segments: C106_finding_empty.  The errors are those of the interpolated quantity (logarithms of values for poles and tails), as stored by the interpolators."},
 {"property": "C107", "status": "partial", "theorems": ["Pacal.Sample.C107_samples_partial", "Pacal.Sample.C107_violated_period", "Pacal.Sample.C107_finding_cos_law", "Pacal.Sample.C107_law_partial", "Pacal.Sample.C107_law_sub_partial", "Pacal.Sample.C107_shared_partial", "Pacal.Sample.C107_independent_partial", "Pacal.Sample.C107_tree_partial", "Pacal.Sample.C107_computed_partial"], "note": "C107_samples_partial: for sines and cosines of arguments within one period (from -π/2 and from 0).  Violated outside: such samples are 0 (C107_violated_period), so that samples and density of cos(X) are different laws (C107_finding_cos_law).  C107_law_partial, C107_law_sub_partial: each sample of +, -, *, /, min, max of independent samples follows the computed density (exact quadrature, conditions of C12 – C15).  C107_shared_partial: with any sharing, each sample follows the law of the value under the product of the laws of the variables.  C107_independent_partial: samples from independent draws are independent.  C107_tree_partial, C107_computed_partial: the samples of a whole expression follow its law and the computed density (as C68) if no variable occurs on both sides of an operation.  Which variables are drawn and how often is C29; single samples instead of arrays and the general power are not modelled."},
 {"property": "C108", "status": "partial", "theorems": ["Pacal.C108_order_partial", "Pacal.C108_sorting", "Pacal.C108_index_partial", "Pacal.C108_violated_equality", "Pacal.C108_violated_transitive"], "note": "Proved for < and > (C108_order_partial) and sorting (C108_sorting).  Without atoms, == distinguishes the pieces and index finds them (C108_index_partial).  Violated by <=, >= and ==: pieces that share one end are ==, no continuous piece is <= itself, and index finds the wrong piece (C108_violated_equality); == is not transitive (C108_violated_transitive)."}
]}
