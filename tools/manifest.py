"""Writes MANIFEST.json from the claims below and lean/Verif.lean from the modules in the tree."""
import json, os

ROOT = os.path.dirname(os.path.dirname(os.path.abspath(__file__)))
CLAIMS = []


def claim(prop, status, theorems, note):
    CLAIMS.append({"property": prop, "status": status, "theorems": ["Props." + t for t in theorems.split()], "note": note})


claim("C01", "proved", "C01_unnormalize_normalize C01_normalize_unnormalize C01_rejects_non_2d C01_init",
      "Both round trips, for every box with lb < ub componentwise and every 2-d batch; constructor and shape errors.")
claim("C02", "proved", "C02_box_iff_cube C02_cube_iff_box C02_endpoints C02_strictMono",
      "normalize maps the box onto the cube and back, endpoints to endpoints, strictly increasing per coordinate.")
claim("C03", "proved", "C03_round_trip C03_moments",
      "Round trip under the Cholesky contract; mean zero / identity covariance is carried to mean mu / covariance C.")
claim("C04", "proved", "C04_process_inputs C04_process_inputs_outputs", "Accepted exactly for the stated shapes, with the stated error otherwise.")
claim("C05", "proved", "C05_group_means C05_total C05_perm C05_empty", "Group means and variances against a separate statistics spec; invariance under permutation inside groups.")
claim("C06", "proved", "C06_high_rank C06_rank_one C06_number C06_result_rank", "All ranks.")
claim("C07", "proved", "C07_run_ok C07_cases C07_calls_each_row_once C07_pure", "Effectful simulation with arbitrary state.")
claim("C08", "proved", "C08_run_fail C08_calls_until_failure C08_bad_shape", "")
claim("C09", "proved", "C09_run_ok C09_run_fail C09_init", "")
claim("C10", "proved", "C10_formula C10_affine C10_error_bound", "Formula for every simulation, exact for affine, O(h) bound for Lipschitz gradient.")
claim("C11", "proved", "C11_calls C11_count C11_failure", "")
claim("C12", "proved", "C12_affine", "Under the contracts of lstsq and argsort; sample in general position.")
claim("C13", "partial", "C13_centre_included C13_depends_on_centre C13_nearest_others_partial",
      "The code violates the property: the mask ind[D2 != 0] is indexed by row number, not by rank, so the centre is kept whenever it is not row 0. "
      "Negation proved in general and with an observable witness; what remains true (centre = row 0) is the partial.")
claim("C14", "partial", "C14_guards C14_p_eq_M_always_fails C14_default_one_input C14_default_smallest_sample C14_one_input_empty C14_completes_partial",
      "Guards proved.  The code violates the rest: p = M passes the guards and always fails for m >= 2, the default p is always rejected for m = 1 and always fails for M = m + 1. "
      "Completion for distinct points and m+1 <= p < M is the partial.")

claim("C15", "proved", "C15_interval_design C15_negative", "All a < b and N >= 0; negative N characterised as well.")
claim("C16", "partial", "C16_feasible_iff_neg C16_nonsymmetric_infeasible C16_outside C16_symmetric_partial",
      "The code violates the property: the constraint sign makes the feasible set the negative of the polytope. "
      "Proved: feasible iff the negated points are in the hull; a design entirely outside for every polytope with a vertex whose negative is outside (triangle as example); "
      "the partial is the property for centrally symmetric vertex sets (the zonotopes the package itself passes).")
claim("C17", "proved", "C17_maximin C17_maximin_returns C17_zonotope C17_zonotope_returns C17_unbounded C17_unbounded_returns C17_methods",
      "For every pair returned. When every start succeeds a pair is returned if some value is below the initial minf (1e100 in the optimisers); otherwise the code raises AttributeError, which is proved as well.")
claim("C18", "partial", "C18_maximin_restores C18_maximin_reproducible C18_maximin_failure_leaks C18_maximin_not_restored C17_zonotope C18_zonotope_reproducible C18_zonotope_failure_leaks C18_zonotope_not_restored C17_unbounded C18_unbounded_reproducible C18_unbounded_failure_leaks C18_unbounded_not_restored",
      "Restored on normal return (C17_zonotope and C17_unbounded say so for the optimisers) and reproducible. The code violates the rest: when a start fails the exception leaves the generator in the seeded state (negation proved).")
claim("C19", "proved", "C19_objective C19_empty C19_gradient", "Objective is minus the least squared distance capped at 1e10; gradient is the true derivative wherever a single pair attains the minimum.")

claim("C20", "proved", "C20_hermite C20_hermite_cases C20_jacobi C20_jacobi_errors C20_legendre C20_jacobi_matrix C20_jacobi_matrix_cases",
      "Coefficients for all N and parameters; orthogonality of the generated polynomials for the Hermite and Legendre cases; matrix for all coefficient arrays, all error cases.")
claim("C21", "proved", "C21_exact C21_any_size", "Exact for 1 <= N <= 10^11 (the code replaces nodes below 1e-12 by zero; shown never to move a node in that range); for every N exact at nodes within 1e-12 of the returned ones. Contract: eig returns eigenvalues with multiplicity and unit eigenvectors.")
claim("C22", "proved", "C22_exact C22_any_size", "As C21 for the uniform density on [-1,1].")
claim("C23", "proved", "C23_rule C23_one C23_errors C23_legendre_inside", "All N; Legendre nodes strictly inside (-1,1).")
claim("C24", "proved", "C24_tensor C24_weights C24_product C24_hermite_exact C24_legendre_exact C24_cases", "All lists of sizes, including the empty list.")

claim("C25", "proved", "C25_enumerates C25_first_rows C25_quadratic_rows C25_no_variables", "All n and d; d = 0 characterised.")
claim("C26", "proved", "C26_predict C26_untrained", "All degrees, dimensions, coefficients and points; the gradient is the Frechet derivative.")
claim("C27", "proved", "C27_reproduces C27_too_few", "Degree >= 1 (degree 0 is C68). Contract: lstsq returns a least-squares solution of smallest norm.")
claim("C28", "proved", "C28_gradient_hessian", "All degrees >= 1 for g, >= 2 for H, also for weighted fits.")
claim("C29", "proved", "C29_rsquared", "All non-constant data, degree >= 1.")
claim("C30", "partial", "C30_weighted_partial C30_fails",
      "The code violates the property: residuals are multiplied by the weights before squaring, so the weights act squared, and the weighted data are stored (negation proved). The partial states what is minimised and stored.")
claim("C68", "partial", "C68_train_partial C68_fails",
      "The code violates the property at degree 0: train always raises ValueError after storing the coefficients. Proved for degree >= 1.")

claim("C31", "proved", "C31_kernel C31_distinct C31_well_posed", "All point sets; strict for positive noise or distinct points; the saddle system of train is nonsingular on unisolvent samples.")
claim("C32", "proved", "C32_gradient", "All trained states and points; Frechet derivative.")
claim("C33", "proved", "C33_training", "Distinct points or positive noise. Contracts: cholesky succeeds exactly on positive definite matrices, fminbound returns a point of its interval or the error its objective raises everywhere.")
claim("C69", "partial", "C69_train_partial C69_fails",
      "The code violates the property: the objective lacks the 1e-6 floor that train applies, so repeated points with zero noise raise LinAlgError. Proved for distinct points or positive noise.")
claim("C70", "proved", "C70_rsquared", "All nonzero data.")
claim("C71", "partial", "C71_objective_partial C71_fails",
      "The code violates the property: the scale term has weight M instead of M/2. The partial states the value computed for all data.")

claim("C34", "proved", "C34_sorted C34_posSemidef C34_unique C34_errors", "All symmetric matrices and every result allowed by the eigh and argsort contracts; eigenvalues with multiplicity; error cases.")
claim("C35", "proved", "C35_active_subspace C35_order C35_errors", "All gradient samples and non-negative weights, including optimality of the leading columns for every dimension n.")
claim("C36", "proved", "C36_ols C36_affine", "All samples and non-negative weights; exact slope for affine data with positive weights on a sample determining affine functions.")
claim("C37", "partial", "C37_qphd_partial C37_fails white_gaussian white_uniform",
      "The code violates the property: np.amin is compared without being called, so samples below -1 with none above 1 are taken as bounded (gamma 1/3 instead of 1; negation proved). "
      "The partial gives the matrix for the gamma the code chooses, and that gamma is the second moment of the uniform and Gaussian measures.")
claim("C38", "proved", "C38_gap C38_error", "All e of length >= 2; shorter ones raise.")
claim("C39", "proved", "C39_errbnd C39_errbnd_errors C39_ladle C39_ladle_nan", "All e and error vectors; first nan wins, as in argmin.")
claim("C40", "proved", "C40_chosen chooseDim_square", "All three rules; chooseDim_square holds for arbitrary run-time shapes.")
claim("C41", "proved", "C41_ranges C41_succeeds estimateOK_AS estimateOK_OLS estimateOK_QPHD",
      "All data, weights, generator states and numbers of replicates; distances are suprema over unit vectors.")
claim("C42", "partial", "C42_split_partial C42_fails",
      "The code violates the property: a compute that raises after storing eigenvecs leaves the old W1, W2 next to the new eigenvectors (negation with two calls). "
      "The partial covers every history in which such a failure happens only while W1 is unset.")
claim("C43", "partial", "C43_untouched C43_sstype C43_ptype C43_succeeds C43_succeeds_opg_partial C43_fails",
      "All failures as stated, for all arguments; success for AS, OLS, QPHD with and without bootstrap and for OPG without. "
      "The code violates the rest: OPG with bootstrap raises ValueError when a replicate repeats points (negation proved).")
claim("C72", "proved", "C72_opg_affine", "Every generator; default number of neighbours.")

claim("C65", "proved", "C65_linear_eq C65_linear_ineq C65_quadratic_bnd C65_quadratic_ineq C65_solves_linear_eq C65_solves_linear_ineq C65_solves_quadratic_bnd C65_solves_quadratic_ineq minimiser_of_stationary qpLibOK_exists",
      "For all data, the feasible set and the objective handed to SciPy and to Gurobi are those of the documented problem, so what the method returns is a minimiser of it. For the quadratic programs SciPy only promises a feasible point without first-order descent, from which global optimality is proved for positive semidefinite Q.")
claim("C66", "proved", "C66_failure C66_constructor C66_dispatch honest_scipy honest_gurobi",
      "Each of the eight functions returns the back end's answer with the world unchanged on success, and on failure draws one number, writes exactly one file of its own name and raises; the constructor chooses an available back end; an unknown solver attribute raises ValueError.")
claim("C67", "proved", "C67_gradient quadFun_deriv",
      "The Jacobian function is the gradient of the objective function at every point if and only if Q is symmetric.")

claim("C44", "proved", "C44_forward C44_inverse C44_unbounded C44_bad shapeOK_bounded shapeOK_unbounded split_of_isSplit",
      "All sizes, samples and inactive variables of the right shape; both variable maps return that shape; ill-typed Y or N raise. The splitting hypothesis is the invariant of C42.")
claim("C45", "proved", "C45_rejection", "Every generator, box and count; the returned rows are the first N feasible candidates.")
claim("C46", "partial", "C46_centre C46_hit_and_run_partial C46_infeasible",
      "The code violates the property: constraints with slack below sqrt(eps) are not used to bound the step (negation with a concrete polytope whose Chebyshev centre is feasible). "
      "The partial covers rows whose start and predecessors have slack above sqrt(eps); the start is proved to be the centre of a largest ball.")
claim("C47", "partial", "C47_start C47_random_walk_partial C47_small C47_infeasible",
      "The code violates the property: the (m-n)-by-N array of samples is reshaped instead of transposed, so returned rows mix coordinates of several samples (negation with m=3, n=1, N=2). "
      "The partial shows every walked sample is feasible and where its coordinates end up; the full property holds for one sample or one inactive variable.")
claim("C48", "proved", "C48_bounded_inverse C48_cube", "All Y, N, generators; under success of the rejection sampler for every row, as stated.")
claim("C49", "proved", "C49_range C49_attained C49_corners", "All m and W1.")
claim("C50", "proved", "C50_formula C50_types C50_recurrence C50_full C50_bound", "All m >= 1 and n; bound for every W1.")
claim("C51", "proved", "C51_rows C51_complete", "All W1, generators, Nsamples, maxcount; unique is assumed to remove exactly the duplicate rows of bytes, 0.0 and -0.0 being different.")
claim("C52", "proved", "C52_hull C52_inside hull_eq_zonotope", "All W1 without a zero row and all histories in which no product of a draw is exactly zero and no warning is printed.")
claim("C53", "proved", "C53_constraints C53_jacobian convexHullOK_exists",
      "All points and zonotopes, over the facet equations contract for Qhull. Relies on the vertex set being symmetric: the sign in front of the offset is the one of C16.")
claim("C54", "proved", "C54_uncomputed C54_init C54_recompute C54_stale",
      "All domain states. C54_stale records that compute_boundary leaves the fields m and n of an older partition in place.")

claim("C55", "proved", "C55_ridge C55_inactive C55_chain_rule C55_active C55_poly C55_rbf C55_init",
      "All inner surfaces, points and inactive perturbations; both inner classes of the package are shown to satisfy the exactness hypothesis.")
claim("C56", "proved", "C56_design C56_unbounded C56_bounded C56_with_data C56_kinds C56_design_returns C56_unbounded_returns C56_bounded_returns C56_rejects",
      "Every successful run, for every N, NMC, stateful simulation, inner surface, generator and domain with eigenvectors split as in C42; and conversely runs whose parts succeed return.")
claim("C57", "proved", "C57_rule C57_integrate C57_returns C57_linear C57_av_integrate C57_rejects C57_rule_returns",
      "Every run that returns numbers; exact real arithmetic.")
claim("C58", "proved", "C58_interval C58_interval_one C58_zonotope C58_zonotope_returns C58_full C58_hermite",
      "C58_hermite is the Gauss-Hermite case (weights positive, sum one). For the zonotope rule find_simplex is an arbitrary library function.")
claim("C59", "proved", "C59_interval C59_returns", "np.histogram is modelled as NumPy computes it, by differences of cumulative counts.")
claim("C60", "partial", "C60_refuted root_bounds C60_rule_partial C60_returns C60_av_integrate_partial C24_hermite_exact",
      "The code violates it in double precision: for n = 3, N = 64 the rounded root is below 4 and the rule has 27 nodes (C60_refuted). Proved, with both roundings modelled and n*2^n*N <= 2^45: the root is right unless N is a perfect power and 1/n is not a double; then it may be one less. Exactness for all polynomials in several variables while the number of nodes per dimension is at most 10^11 (see C21).")

claim("C61", "proved", "C61_active C61_minimize C61_rejects C61_returns admissible_interval admissible_zonotope C61_optimal",
      "For all surfaces and all optimisers that report the value at the point they return and respect their constraints. In addition: if the optimiser found the minimum over the active domain, the point returned minimises the surface over the cube.")
claim("C62", "partial", "C62_solves C62_reflected_partial C62_not_minimiser C62_returns C62_fails C63_one_value",
      "The code violates it: it solves zAz z = c instead of zAz z = -c. Proved: minus the point returned is the minimiser; the point itself is one only if it is 0; witness with values 150 and -50.")
claim("C63", "partial", "C63_doubled_partial C63_not_minimiser C63_fails C63_one_value boundedMin_feasible",
      "The code violates it: the quadratic term is counted twice. Proved: the point is feasible, minimises the model with the doubled term and is no worse than z = 0; an interior point other than 0 is never the minimiser; witness x2 + x2^2.")
claim("C64", "proved", "C64_blocks C64_too_few exists_trained",
      "All data and sizes with n >= 1; p is cut to m by the slice. Too few points for a quadratic raise.")
claim("C73", "proved", "C73_interval C73_inside designPoints_zonotope inactive_nonempty",
      "All W1 with orthonormal columns and all N; with several active variables over the contracts of Qhull and SLSQP.")

claim("C74", "proved", "C74_circuit C74_piston C74_wing rowGradient_of_box",
      "Exact real arithmetic; the formulas are transcribed term by term.")
claim("C75", "proved", "C75_robot C75_range C75_zero", "The gradient where the value is not zero; where it is zero the code divides by zero.")
claim("C76", "proved", "C76_borehole borehole_domain C76_integer",
      "Float arrays (`store = id`); `C76_integer` shows that an integer array gets the radius zero.")
claim("C77", "partial", "C77_wing_partial C77_refuted",
      "Refuted: the fourth column lacks the factor pi/180. Proved for the array with that column multiplied by pi/180.")
claim("C78", "proved", "C78_box C78_borehole C78_tutorial", "Arrays with more than two dimensions for the functions on the unit box only.")

claim("C79", "proved", "C79_robot C79_piston C79_circuit C79_borehole piston_equilibrium_unique",
      "Pins the formulas down independently of the gradients. The weight term of the piston is 19.62 M, as in the literature the code follows.")

claim("C80", "proved", "C80_eigenvalues C80_subspace_errors C80_eigenvectors C80_sufficient_summary C80_zonotope_2d_plot C80_plot_opts C80_default",
      "`os.mkdir` is taken to succeed and labels to contain no slash.")
claim("C81", "proved", "C81_eigenvalues C81_eigenvalues_br C81_subspace_errors C81_eigenvectors C81_eigenvectors_plain C81_eigenvectors_text C81_summary1 C81_summary2",
      "pyplot is a record of drawing commands; the rendering is not modelled.")
claim("C82", "partial", "C82_zonotope_partial C82_refuted",
      "Refuted for interactive backends: plt.show() comes before plt.savefig, so the file is blank. Proved for the figure shown and for other backends.")
claim("C83", "proved", "C83_eigenvalues C83_subspace_errors C83_eigenvectors", "")
claim("C84", "partial", "C84_ranges_partial C84_ranges_refuted C84_log_refuted C84_summary_partial C84_summary_refuted C84_zonotope C84_vertices",
      "Refuted: limits from the ranges alone can leave an eigenvalue out; an eigenvalue 0 gives the limit 0 on a logarithmic axis; 1.1*min cuts off "
      "positive data. Proved for ranges around the eigenvalues, coordinates of both signs, and in full for the zonotope plot.")
claim("C85", "proved", "C85_eigenvectors C85_summary_cols C85_summary_rows C85_zonotope", "")
claim("C86", "partial", "C86_plot_opts_partial C86_refuted",
      "Refuted: the functions read the key `myfont`. Proved for dictionaries made by plot_opts.")

claim("C87", "partial", "C87_half_partial C87_refuted C51_complete C52_hull", "Refuted: unique_rows tells 0.0 from -0.0, so rows with zeros are counted twice and the loop can stop too early without a warning. Proved without zero products (C51_complete, C52_hull); otherwise at least half of nzv different rows.")

claim("C88", "partial", "C88_equal_weights_partial C88_refuted C88_no_effect C88_opg C88_zero_weight",
      "Refuted: all rows of a local problem are scaled by the weight of the centre, so positive weights have no effect at all and a centre of weight 0 "
      "gives the gradient 0. Proved for observations of equal weight.")
claim("C89", "partial", "C89_rows_partial C89_refuted",
      "Refuted for every sample: the result has min(ceil(10 m log m), M-1) rows. Proved: how many rows there are.")

claim("C90", "proved", "C90_count C90_rows extreme_iff", "All W1 without zero row; sign vectors and vertices correspond one to one.")
claim("C91", "partial", "C91_general_position_partial C91_always_warns C91_refuted",
      "Refuted: if W1 is not in general position the warning is always printed and all maxcount+2 draws are made, also if every vertex has been found. "
      "Proved in general position.")
claim("C92", "partial", "C92_refuted C92_bounded_partial C92_unbounded_partial C59_interval",
      "The code violates it: on an unbounded domain N = 5 and n = 2 give 4 points. Proved: N points on bounded domains (C59_interval for the rule on an interval); on unbounded domains a perfect power that is at most N. The number of nodes of the rule on a zonotope is the number of simplices Qhull returns; nothing is proved about it.")

claim("C93", "partial", "C93_refuted C93_value C93_bound_partial",
      "Refuted: three points with weights 2, 1, 1 and R-squared -1/5; no lower bound exists. Proved: at most 1, equal to 1 iff the surface "
      "interpolates, and at least 0 for equal weights.")

claim("C94", "proved", "C94_orthogonal C94_rule", "All weights a, b > -1 on all intervals; eig by its contract.")
claim("C95", "proved", "C95_symmetric C95_inside C95_cube", "All sizes; by uniqueness of Gauss rules.")

claim("C96", "partial", "C96_poly_history SamePoly.predict C96_poly_raises_partial C96_rbf_history C96_rbf_raises C96_weights_refuted",
      "All run-time arrays, with a weight for each sample or none. The code violates the last part for weights given as a vector: train raises after it has stored X and f. For degree 1 the attribute H is not written; for degree 0 see C68.")
claim("C97", "proved", "C97_poly C97_rbf C97_untrained", "")
claim("C98", "proved", "C98_ladle overlap_eq_one", "Exact arithmetic; eigh by its contract.")

claim("C99", "proved", "C99_eigenvalues", "Exact arithmetic; eigh by its contract.")
claim("C100", "proved", "C100_subspace", "Exact arithmetic; eigh by its contract; distance as in C41.")
claim("C101", "proved", "C101_finite_difference", "Exact arithmetic; eigh by its contract.")
claim("C102", "proved", "C102_with_data C102_unbounded C102_interval", "Exact arithmetic; lstsq and eig by their contracts; the root of the number of design points by its value.")
claim("C103", "proved", "C103_chain C103_reversible C103_stationary", "Exact arithmetic; normal numbers independent and standard. Convergence from a fixed start is not claimed.")
claim("C104", "proved", "C104_uniform C104_conditional C104_success", "Exact arithmetic; linear programs by their contract; uniform numbers independent.")
claim("C105", "proved", "C105_circuit C105_piston C105_robot C105_wing C105_borehole C105_basic C105_subspace", "Exact arithmetic; the inputs are given, not sampled.")
claim("C106", "proved", "C106_partition C106_domains C106_maps C106_integrals C106_surfaces C106_minimize C106_untrained", "")
claim("C107", "partial", "C107_refuted C107_gauss C107_unbounded C107_interval C107_nodes_partial C107_integrate_partial C107_train_partial",
      "Violated by the code for the number of nodes (C107_refuted). Proved: a number of Monte Carlo samples that is not positive never gives a value and never runs the "
      "simulation; a negative number of nodes is refused except on the line. What the exceptions are is not claimed.")
claim("C108", "partial", "C108_refuted C108_bounded_partial C108_bounded_column C108_bounded_one C108_unbounded_partial C108_unbounded_column C108_forward C108_inverse "
      "C108_poly C108_rbf_partial C108_rbf_column C108_rbf_column_gradient C108_surface",
      "Violated by the code for a single column (C108_refuted). Proved: every other wrong number is refused, by the maps, polynomial surfaces and "
      "ActiveSubspaceResponseSurface also a single column. Polynomial surfaces of degree 0 cannot be trained (C68).")
claim("C109", "partial", "C109_refuted C109_zero_row C109_step_partial C109_uniform_partial C109_reversible C109_stationary",
      "Violated by the code for directions parallel to a face (C109_refuted, C109_zero_row). Proved for the others and points with slack above sqrt(eps); "
      "detailed balance and stationarity for every fixed direction. The direction is redrawn when a short step along it leaves the polytope, so "
      "nothing is claimed about the chain as a whole next to the boundary.")
claim("C110", "proved", "C110_active_subspace C110_compute C110_unbiased",
      "From the strong law of large numbers, Weyl's inequality and the theorem of Davis and Kahan.")
claim("C111", "proved", "C111_unbiased C111_returns C111_variance C111_square C111_exact C111_polynomial",
      "Uses the rotational invariance of the normal distribution, C57 and C60.")
claim("C112", "partial", "C112_width_partial C112_refuted",
      "False: the mean is (NMC-1)/NMC times the variance, for every NMC and every function that is not constant given the active variables; for NMC=1 the bounds always have width zero. Proved: that factor.")
claim("C113", "proved", "C113_interval C113_zonotope",
      "Needs that the region of a simplex under find_simplex is measurable; satisfiable for all data (exists_tri).")
claim("C114", "proved", "C114_interval C114_zonotope",
      "The contract of Delaunay is TriOK, shown satisfiable by exists_tri; that the vertices cover the zonotope is C52_hull.")
claim("C115", "proved", "C115_missing C115_hull C115_limit C115_expected C115_warning C115_rounds",
      "Directions as if all maxcount+2 rounds were drawn; the early stop of the loop does not change the law because it needs all sign vectors.")
claim("C116", "proved", "C116_conditional C116_best C116_integrable C116_ridge C116_eigenvalues C116_perturbed C116_compute C116_monte_carlo C116_gauss C116_integral",
      "Standard normal inputs (the density of the unbounded domain). The Gaussian Poincare inequality is proved in Verif/Proofs/Poincare.lean.")
claim("C117", "proved", "C117_monte_carlo C117_consistent C117_decreasing C117_replicate C117_bootstrap C117_range",
      "The rows of a replicate need only be uniform, not independent. C117_range assumes that the ends of the intervals are measurable.")
claim("C118", "proved", "C118_functions C118_active C118_interval C118_minimize C118_quadratic C118_recovered",
      "The tolerance of the optimiser is the contract LocalOK. C118_minimize and C118_recovered exclude one active variable on a bounded domain (C118_interval).")
claim("C119", "proved", "C119_stream C119_widen C119_independent C119_mean C119_extremes C119_active",
      "The local linear subspace (OPG) draws random numbers itself and is left out. Independence and uniformity of the integers are a hypothesis on the generator, fulfilled by the example stream.")
claim("C120", "proved", "C120_hermite C120_legendre C120_hermite_error C120_legendre_error C120_av_integrate",
      "The limit carries the term for moved nodes because of the threshold 1e-12 in g1d. av_integrate is covered for N <= 10^11 and n 2^n N <= 2^45, the range in which the root in double precision is under control.")
claim("C121", "proved", "C121_limit C121_compute C121_ridge C121_increasing C121_uniform",
      "C121_uniform shows that the restriction of C121_ridge to normal inputs is necessary.")
claim("C122", "proved", "C122_fit IsBest.exists polyMoments_normal polyMoments_unif",
      "Without weights.")
claim("C123", "proved", "C123_not_implemented C123_inverse", "")
claim("C124", "proved", "C124_limit C124_compute C124_ridge C124_even assumed_normal assumed_unif polyMoments_normal polyMoments_unif",
      "The second moment is a hypothesis because the code guesses it from the largest coordinate (see C37).")
claim("C125", "partial", "C125_exact C125_normalize C125_unnormalize_partial C125_round_trip C125_above_upper_bound",
      "unnormalize can exceed the upper bound (C125_above_upper_bound: bounds -1 and 0.1, point 1); it does not when ub-lb is a double. "
      "Everything else holds. Doubles have an unbounded exponent here, so overflow and underflow are left out.")
claim("C126", "proved", "C126_exact C126_formula C126_error C126_default C126_absorbed",
      "The function is pure. Doubles have an unbounded exponent here, so overflow and underflow are left out.")
claim("C127", "proved", "C127_exact C127_eigenvalues C127_orthonormal C127_subspace",
      "The accuracy of eigh is a hypothesis (backward stability, the documented behaviour of LAPACK). Doubles have an unbounded exponent here, so overflow and underflow are left out.")
claim("C128", "partial", "C128_matches_partial C128_extra_ignored C128_short C128_shapes C128_one_input C128_wide_weights C128_inputs",
      "The code violates the property: outputs and weights in excess are ignored, too few outputs raise IndexError or not depending on the draws, with one input nothing is looked at, weights with m+1 columns are accepted with p = m+1. "
      "Matching arrays are used as documented (the partial); several columns, three dimensions and numbers are rejected for m >= 2.")
claim("C129", "proved", "C129_exact C129_dimension C129_active_subspace",
      "Rounding to nearest with unit roundoff 2^-53, no overflow or underflow; the distance delta of the eigenvalues comes from C127 in C129_active_subspace.")
claim("C130", "proved", "C130_exact C130_roundtrip",
      "Rounding to nearest with unit roundoff 2^-53, no overflow or underflow. C130_exact ties the rounded definitions to those of C44.")
claim("C131", "proved", "C131_first C131_gives_up C131_interior",
      "All generators and points; good is stated by the box, not by the stacked constraints. The limit of 50 lets only 49 vectors count.")
claim("C132", "proved", "C132_mean C132_unbiased C132_variance C132_training_value C132_returns",
      "Unbounded domain; the generator enters only by the law of its normal numbers. The best fit and the reproducing numbers are stated by polynomials, not by the matrix of monomials of the code.")
claim("C133", "partial", "C133_train_matches C133_train_refuses C133_ols C133_qphd C133_opg C133_active_matches C133_active_entries C133_active_partial C133_uniform C133_compute C133_default C133_active_refuted",
      "The code violates the property for active_subspace: weights with as many columns as inputs are multiplied with the entries of the gradients. OLS, QPHD and the polynomial training keep it; for OPG the two shapes that the documentation allows are covered, the other shapes are in C128. With bootstrap compute is covered for a column; see C134.")
claim("C134", "partial", "C134_column_partial C134_vector C134_number C134_number_active C134_refuted",
      "The code violates the property for weights with one row: the replicates have one row, always the first sample. Proved for a column of weights (AS, OLS, QPHD); a vector is refused.")
claim("C135", "partial", "C135_active C135_ols C135_gradients C135_opg C135_dimension C135_compute_active C135_compute_ols C135_qphd_partial C135_qphd_refuted C135_origin_refuted",
      "The code violates the property: qphd_subspace looks for a coordinate above 1 and not for one below -1, so that reversing an axis changes the eigenvalues; with samples that do not determine affine functions ols_subspace depends on the origin. Proved for AS; for OLS and OPG under rotations and scalings with any data and under shifts when the samples determine affine functions; for QPHD when the branch is the same and the samples determine quadratics.")
claim("C136", "partial", "C136_polynomial C136_rbf C136_active_polynomial C136_active_rbf C136_compute_polynomial C136_compute_rbf_partial C136_units_refuted",
      "The code violates the property: when the outputs change their unit by a factor a, the eigenvalues change by a^2, and the default noise of the radial basis surfaces is a sum of eigenvalues while the kernel keeps its scale. Proved for polynomial surfaces with every a and b, and for radial basis surfaces when a is 1 or -1.")
claim("C137", "partial", "C137_gradients C137_linear C137_compute_gradients C137_compute_linear C137_polynomial C137_polynomial_partial C137_quadratic_partial C137_quadratic_refuted C137_rbf",
      "The code violates the property: the polynomial fit multiplies the residuals by the weights and squares them, so that a point with weight 2 counts as four points of weight 1, and the estimate from the quadratic fit changes when a point is given twice with half the weight. Proved for gradients and the linear fit; for polynomial fits with the squares of the weights; for radial basis surfaces every order of the sample.")
claim("C138", "proved", "C138_differences C138_eigenvectors C138_compute C138_surface C138_simulation C138_linear_refuted",
      "compute is treated without bootstrap and with the criterion EVG. C138_linear_refuted shows the limit named in the statement: for the square of the first input at three points the linear fit finds the direction (1, 2).")
claim("C139", "partial", "C139_init_partial C139_methods C139_accepted C139_refuted",
      "The code violates the property: the size of the mean is not checked and only the lower triangle of the covariance is read. Proved: exactly when there is a LinAlgError, which later calls succeed for every pair of sizes (all others raise ValueError), and agreement with the model of C03 when the sizes match.")
claim("C140", "proved", "C140_gradients C140_opg",
      "The points of the sample are distinct and p < M. The bound holds although a centre may be one of its own neighbours (C13).")
claim("C141", "proved", "C141_polynomial C141_best norming_exists C141_linear C141_quadratic C141_differences C141_step C141_noise",
      "The default step 1e-6 is the best one only if eta/K is 2.5e-13.")
claim("C142", "proved", "C142_best C142_integrable C142_ridge C142_eigenvalues C142_perturbed C142_compute C142_monte_carlo C142_gauss",
      "The constant is not the best one: it comes from a Poincare inequality for convex sets proved from pairs of points.")
claim("C143", "proved", "C143_leakage C143_inexact C143_differences C143_values",
      "For OPG sigma refers to the centres of the local models that were drawn.")
claim("C144", "proved", "C144_inverse C144_integrate",
      "Conditional on the event that rejection sampling succeeds for every row; when it fails the code goes on to other samplers, which are not covered here.")
claim("C145", "partial", "C145_law C145_interval_partial C145_refuted",
      "The mean and variance of the predictions are proved in general. Unbiasedness holds for one active variable when no component of the eigenvector is zero, and fails otherwise: the value at one point over each vertex is used as if it were the mean given the active variable. Conditional on the event that rejection sampling succeeds.")
claim("C146", "proved", "C146_groups C146_estimate C146_exact",
      "No overflow and no subnormal numbers. The weights are nonnegative and every index occurs, as in the rules of quadrature_rule.")
claim("C147", "proved", "C147_best C147_error C147_weights",
      "Exact arithmetic; noise levels nonnegative, eigenvalues as in C69. Target functions are finite sums of bumps plus polynomials.")
claim("C148", "partial", "C148_states_partial C148_samples_partial C148_corner C148_refuted",
      "Proved for starting points that are not one of the two corners; the samples are read along the positions of C47, which with one inactive variable are the rows. At the corners the walk does not move: C148_corner, and C148_refuted gives a polytope of positive area and a solution of the linear program for which that happens.")
claim("C149", "proved", "C149_averages C149_gradients",
      "Exact arithmetic; noise levels nonnegative, eigenvalues as in C69. Target functions are finite sums of bumps plus polynomials.")
claim("C150", "proved", "C150_predict C150_cube C150_exact",
      "Rounding to nearest doubles with unbounded exponents; pow within one unit in the last place.")
claim("C151", "proved", "C151_kernel C151_predict C151_exact",
      "Rounding to nearest doubles with unbounded exponents; exp and pow within one unit in the last place. Predictions without gradients.")
claim("C152", "proved", "C152_ridge",
      "Exact arithmetic; noise levels nonnegative, eigenvalues as in C69. h is a finite sum of bumps plus a polynomial.")
claim("C153", "proved", "C153_kernel C153_gradients C153_exact",
      "Rounding to nearest doubles with unbounded exponents; exp and pow within one unit in the last place.")
claim("C154", "proved", "C154_predict C154_cube C154_exact",
      "Rounding to nearest doubles with unbounded exponents; pow within one unit in the last place.")
claim("C155", "proved", "C155_predict gauss_lipschitz gaussGrad_lipschitz C155_exact",
      "Rounding to nearest doubles with unbounded exponents; exp and pow within one unit in the last place.")
claim("C156", "proved", "C156_training saddle_entries row_bound C156_exact",
      "Rounding to nearest doubles with unbounded exponents; exp and pow within one unit in the last place; the solver is backward stable (Verif/Spec/StableSolve.lean), stated a posteriori in the computed weights. The length scales and variances are inputs here; the line search that chooses them is in Verif/Model/ResponseSurfaces.lean.")
claim("C157", "proved", "C157_training C157_reproduces length_near residual_near C157_exact",
      "Rounding to nearest doubles with unbounded exponents; pow within one unit in the last place; lstsq is backward stable (Verif/Spec/StableSolve.lean), which allows the cut of small singular values.")
claim("C158", "proved", "C158_slope lstsq_close C158_exact",
      "Rounding to nearest doubles with unbounded exponents; sqrt correctly rounded; lstsq backward stable (Verif/Spec/StableSolve.lean). Which points are chosen is C13; nothing is assumed about the computed distances.")
claim("C159", "proved", "C159_ols olsFit_close rank_one_rounded length_close C159_exact",
      "Rounding to nearest doubles with unbounded exponents; sqrt correctly rounded; lstsq backward stable (Verif/Spec/StableSolve.lean), eigh stable (Verif/Spec/FloatSum.lean). Inputs are two-dimensional arrays that passed the input check.")
claim("C160", "proved", "C160_opg localLoop_rows near_rank_one outer_near C160_exact C160_exact_loop",
      "Rounding to nearest doubles with unbounded exponents; sqrt correctly rounded; lstsq backward stable (Verif/Spec/StableSolve.lean), eigh stable (Verif/Spec/FloatSum.lean). The numbers p and K are given; C160_exact ties them to the shape in exact arithmetic. Inputs are two-dimensional arrays that passed the input check.")
claim("C161", "proved", "C161_qphd qphd_entry outer_decomposed C161_exact C161_exact_run",
      "Rounding to nearest doubles with unbounded exponents; eigh stable (Verif/Spec/FloatSum.lean). The coefficients of the fit are inputs here; their errors are the subject of C157. That entries below -1 do not count in the choice of g is the deviation of C37.")
claim("C162", "proved", "C162_errbnd C162_ladle C162_exact C162_exact_ladle root_near round_rel",
      "Rounding to nearest doubles with unbounded exponents. Nonnegative eigenvalues, as Subspaces.compute provides (C127). li_F without nan; the nan case is C39_ladle_nan.")


if __name__ == "__main__":
    CLAIMS.sort(key=lambda c: c["property"])
    with open(os.path.join(ROOT, "MANIFEST.json"), "w") as fh:
        json.dump({"claims": CLAIMS}, fh, indent=1)
        fh.write("\n")
    lean = os.path.join(ROOT, "lean")
    mods = []
    for d, _, fs in os.walk(os.path.join(lean, "Verif")):
        for f in fs:
            if f.endswith(".lean"):
                mods.append(os.path.relpath(os.path.join(d, f), lean)[:-5].replace("/", "."))
    with open(os.path.join(lean, "Verif.lean"), "w") as fh:
        fh.write("".join("import %s\n" % m for m in sorted(mods)))
