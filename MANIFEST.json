{
 "claims": [
  {
   "property": "C01",
   "status": "proved",
   "theorems": [
    "Props.C01_unnormalize_normalize",
    "Props.C01_normalize_unnormalize",
    "Props.C01_rejects_non_2d",
    "Props.C01_init"
   ],
   "note": "Both round trips, for every box with lb < ub componentwise and every 2-d batch; constructor and shape errors."
  },
  {
   "property": "C02",
   "status": "proved",
   "theorems": [
    "Props.C02_box_iff_cube",
    "Props.C02_cube_iff_box",
    "Props.C02_endpoints",
    "Props.C02_strictMono"
   ],
   "note": "normalize maps the box onto the cube and back, endpoints to endpoints, strictly increasing per coordinate."
  },
  {
   "property": "C03",
   "status": "proved",
   "theorems": [
    "Props.C03_round_trip",
    "Props.C03_moments"
   ],
   "note": "Round trip under the Cholesky contract; mean zero / identity covariance is carried to mean mu / covariance C."
  },
  {
   "property": "C04",
   "status": "proved",
   "theorems": [
    "Props.C04_process_inputs",
    "Props.C04_process_inputs_outputs"
   ],
   "note": "Accepted exactly for the stated shapes, with the stated error otherwise."
  },
  {
   "property": "C05",
   "status": "proved",
   "theorems": [
    "Props.C05_group_means",
    "Props.C05_total",
    "Props.C05_perm",
    "Props.C05_empty"
   ],
   "note": "Group means and variances against a separate statistics spec; invariance under permutation inside groups."
  },
  {
   "property": "C06",
   "status": "proved",
   "theorems": [
    "Props.C06_high_rank",
    "Props.C06_rank_one",
    "Props.C06_number",
    "Props.C06_result_rank"
   ],
   "note": "All ranks."
  },
  {
   "property": "C07",
   "status": "proved",
   "theorems": [
    "Props.C07_run_ok",
    "Props.C07_cases",
    "Props.C07_calls_each_row_once",
    "Props.C07_pure"
   ],
   "note": "Effectful simulation with arbitrary state."
  },
  {
   "property": "C08",
   "status": "proved",
   "theorems": [
    "Props.C08_run_fail",
    "Props.C08_calls_until_failure",
    "Props.C08_bad_shape"
   ],
   "note": ""
  },
  {
   "property": "C09",
   "status": "proved",
   "theorems": [
    "Props.C09_run_ok",
    "Props.C09_run_fail",
    "Props.C09_init"
   ],
   "note": ""
  },
  {
   "property": "C10",
   "status": "proved",
   "theorems": [
    "Props.C10_formula",
    "Props.C10_affine",
    "Props.C10_error_bound"
   ],
   "note": "Formula for every simulation, exact for affine, O(h) bound for Lipschitz gradient."
  },
  {
   "property": "C100",
   "status": "proved",
   "theorems": [
    "Props.C100_subspace"
   ],
   "note": "Exact arithmetic; eigh by its contract; distance as in C41."
  },
  {
   "property": "C101",
   "status": "proved",
   "theorems": [
    "Props.C101_finite_difference"
   ],
   "note": "Exact arithmetic; eigh by its contract."
  },
  {
   "property": "C102",
   "status": "proved",
   "theorems": [
    "Props.C102_with_data",
    "Props.C102_unbounded",
    "Props.C102_interval"
   ],
   "note": "Exact arithmetic; lstsq and eig by their contracts; the root of the number of design points by its value."
  },
  {
   "property": "C103",
   "status": "proved",
   "theorems": [
    "Props.C103_chain",
    "Props.C103_reversible",
    "Props.C103_stationary"
   ],
   "note": "Exact arithmetic; normal numbers independent and standard. Convergence from a fixed start is not claimed."
  },
  {
   "property": "C104",
   "status": "proved",
   "theorems": [
    "Props.C104_uniform",
    "Props.C104_conditional",
    "Props.C104_success"
   ],
   "note": "Exact arithmetic; linear programs by their contract; uniform numbers independent."
  },
  {
   "property": "C105",
   "status": "proved",
   "theorems": [
    "Props.C105_circuit",
    "Props.C105_piston",
    "Props.C105_robot",
    "Props.C105_wing",
    "Props.C105_borehole",
    "Props.C105_basic",
    "Props.C105_subspace"
   ],
   "note": "Exact arithmetic; the inputs are given, not sampled."
  },
  {
   "property": "C106",
   "status": "proved",
   "theorems": [
    "Props.C106_partition",
    "Props.C106_domains",
    "Props.C106_maps",
    "Props.C106_integrals",
    "Props.C106_surfaces",
    "Props.C106_minimize",
    "Props.C106_untrained"
   ],
   "note": ""
  },
  {
   "property": "C107",
   "status": "partial",
   "theorems": [
    "Props.C107_refuted",
    "Props.C107_gauss",
    "Props.C107_unbounded",
    "Props.C107_interval",
    "Props.C107_nodes_partial",
    "Props.C107_integrate_partial",
    "Props.C107_train_partial"
   ],
   "note": "Violated by the code for the number of nodes (C107_refuted). Proved: a number of Monte Carlo samples that is not positive never gives a value and never runs the simulation; a negative number of nodes is refused except on the line. What the exceptions are is not claimed."
  },
  {
   "property": "C108",
   "status": "partial",
   "theorems": [
    "Props.C108_refuted",
    "Props.C108_bounded_partial",
    "Props.C108_bounded_column",
    "Props.C108_bounded_one",
    "Props.C108_unbounded_partial",
    "Props.C108_unbounded_column",
    "Props.C108_forward",
    "Props.C108_inverse",
    "Props.C108_poly",
    "Props.C108_rbf_partial",
    "Props.C108_rbf_column",
    "Props.C108_rbf_column_gradient",
    "Props.C108_surface"
   ],
   "note": "Violated by the code for a single column (C108_refuted). Proved: every other wrong number is refused, by the maps, polynomial surfaces and ActiveSubspaceResponseSurface also a single column. Polynomial surfaces of degree 0 cannot be trained (C68)."
  },
  {
   "property": "C109",
   "status": "partial",
   "theorems": [
    "Props.C109_refuted",
    "Props.C109_zero_row",
    "Props.C109_step_partial",
    "Props.C109_uniform_partial",
    "Props.C109_reversible",
    "Props.C109_stationary"
   ],
   "note": "Violated by the code for directions parallel to a face (C109_refuted, C109_zero_row). Proved for the others and points with slack above sqrt(eps); detailed balance and stationarity for every fixed direction. The direction is redrawn when a short step along it leaves the polytope, so nothing is claimed about the chain as a whole next to the boundary."
  },
  {
   "property": "C11",
   "status": "proved",
   "theorems": [
    "Props.C11_calls",
    "Props.C11_count",
    "Props.C11_failure"
   ],
   "note": ""
  },
  {
   "property": "C110",
   "status": "proved",
   "theorems": [
    "Props.C110_active_subspace",
    "Props.C110_compute",
    "Props.C110_unbiased"
   ],
   "note": "From the strong law of large numbers, Weyl's inequality and the theorem of Davis and Kahan."
  },
  {
   "property": "C111",
   "status": "proved",
   "theorems": [
    "Props.C111_unbiased",
    "Props.C111_returns",
    "Props.C111_variance",
    "Props.C111_square",
    "Props.C111_exact",
    "Props.C111_polynomial"
   ],
   "note": "Uses the rotational invariance of the normal distribution, C57 and C60."
  },
  {
   "property": "C112",
   "status": "partial",
   "theorems": [
    "Props.C112_width_partial",
    "Props.C112_refuted"
   ],
   "note": "False: the mean is (NMC-1)/NMC times the variance, for every NMC and every function that is not constant given the active variables; for NMC=1 the bounds always have width zero. Proved: that factor."
  },
  {
   "property": "C113",
   "status": "proved",
   "theorems": [
    "Props.C113_interval",
    "Props.C113_zonotope"
   ],
   "note": "Needs that the region of a simplex under find_simplex is measurable; satisfiable for all data (exists_tri)."
  },
  {
   "property": "C114",
   "status": "proved",
   "theorems": [
    "Props.C114_interval",
    "Props.C114_zonotope"
   ],
   "note": "The contract of Delaunay is TriOK, shown satisfiable by exists_tri; that the vertices cover the zonotope is C52_hull."
  },
  {
   "property": "C115",
   "status": "proved",
   "theorems": [
    "Props.C115_missing",
    "Props.C115_hull",
    "Props.C115_limit",
    "Props.C115_expected",
    "Props.C115_warning",
    "Props.C115_rounds"
   ],
   "note": "Directions as if all maxcount+2 rounds were drawn; the early stop of the loop does not change the law because it needs all sign vectors."
  },
  {
   "property": "C116",
   "status": "proved",
   "theorems": [
    "Props.C116_conditional",
    "Props.C116_best",
    "Props.C116_integrable",
    "Props.C116_ridge",
    "Props.C116_eigenvalues",
    "Props.C116_perturbed",
    "Props.C116_compute",
    "Props.C116_monte_carlo",
    "Props.C116_gauss",
    "Props.C116_integral"
   ],
   "note": "Standard normal inputs (the density of the unbounded domain). The Gaussian Poincare inequality is proved in Verif/Proofs/Poincare.lean."
  },
  {
   "property": "C117",
   "status": "proved",
   "theorems": [
    "Props.C117_monte_carlo",
    "Props.C117_consistent",
    "Props.C117_decreasing",
    "Props.C117_replicate",
    "Props.C117_bootstrap",
    "Props.C117_range"
   ],
   "note": "The rows of a replicate need only be uniform, not independent. C117_range assumes that the ends of the intervals are measurable."
  },
  {
   "property": "C118",
   "status": "proved",
   "theorems": [
    "Props.C118_functions",
    "Props.C118_active",
    "Props.C118_interval",
    "Props.C118_minimize",
    "Props.C118_quadratic",
    "Props.C118_recovered"
   ],
   "note": "The tolerance of the optimiser is the contract LocalOK. C118_minimize and C118_recovered exclude one active variable on a bounded domain (C118_interval)."
  },
  {
   "property": "C119",
   "status": "proved",
   "theorems": [
    "Props.C119_stream",
    "Props.C119_widen",
    "Props.C119_independent",
    "Props.C119_mean",
    "Props.C119_extremes",
    "Props.C119_active"
   ],
   "note": "The local linear subspace (OPG) draws random numbers itself and is left out. Independence and uniformity of the integers are a hypothesis on the generator, fulfilled by the example stream."
  },
  {
   "property": "C12",
   "status": "proved",
   "theorems": [
    "Props.C12_affine"
   ],
   "note": "Under the contracts of lstsq and argsort; sample in general position."
  },
  {
   "property": "C120",
   "status": "proved",
   "theorems": [
    "Props.C120_hermite",
    "Props.C120_legendre",
    "Props.C120_hermite_error",
    "Props.C120_legendre_error",
    "Props.C120_av_integrate"
   ],
   "note": "The limit carries the term for moved nodes because of the threshold 1e-12 in g1d. av_integrate is covered for N <= 10^11 and n 2^n N <= 2^45, the range in which the root in double precision is under control."
  },
  {
   "property": "C121",
   "status": "proved",
   "theorems": [
    "Props.C121_limit",
    "Props.C121_compute",
    "Props.C121_ridge",
    "Props.C121_increasing",
    "Props.C121_uniform"
   ],
   "note": "C121_uniform shows that the restriction of C121_ridge to normal inputs is necessary."
  },
  {
   "property": "C122",
   "status": "proved",
   "theorems": [
    "Props.C122_fit",
    "Props.IsBest.exists",
    "Props.polyMoments_normal",
    "Props.polyMoments_unif"
   ],
   "note": "Without weights."
  },
  {
   "property": "C123",
   "status": "proved",
   "theorems": [
    "Props.C123_not_implemented",
    "Props.C123_inverse"
   ],
   "note": ""
  },
  {
   "property": "C124",
   "status": "proved",
   "theorems": [
    "Props.C124_limit",
    "Props.C124_compute",
    "Props.C124_ridge",
    "Props.C124_even",
    "Props.assumed_normal",
    "Props.assumed_unif",
    "Props.polyMoments_normal",
    "Props.polyMoments_unif"
   ],
   "note": "The second moment is a hypothesis because the code guesses it from the largest coordinate (see C37)."
  },
  {
   "property": "C125",
   "status": "partial",
   "theorems": [
    "Props.C125_exact",
    "Props.C125_normalize",
    "Props.C125_unnormalize_partial",
    "Props.C125_round_trip",
    "Props.C125_above_upper_bound"
   ],
   "note": "unnormalize can exceed the upper bound (C125_above_upper_bound: bounds -1 and 0.1, point 1); it does not when ub-lb is a double. Everything else holds. Doubles have an unbounded exponent here, so overflow and underflow are left out."
  },
  {
   "property": "C126",
   "status": "proved",
   "theorems": [
    "Props.C126_exact",
    "Props.C126_formula",
    "Props.C126_error",
    "Props.C126_default",
    "Props.C126_absorbed"
   ],
   "note": "The function is pure. Doubles have an unbounded exponent here, so overflow and underflow are left out."
  },
  {
   "property": "C127",
   "status": "proved",
   "theorems": [
    "Props.C127_exact",
    "Props.C127_eigenvalues",
    "Props.C127_orthonormal",
    "Props.C127_subspace"
   ],
   "note": "The accuracy of eigh is a hypothesis (backward stability, the documented behaviour of LAPACK). Doubles have an unbounded exponent here, so overflow and underflow are left out."
  },
  {
   "property": "C128",
   "status": "partial",
   "theorems": [
    "Props.C128_matches_partial",
    "Props.C128_extra_ignored",
    "Props.C128_short",
    "Props.C128_shapes",
    "Props.C128_one_input",
    "Props.C128_wide_weights",
    "Props.C128_inputs"
   ],
   "note": "The code violates the property: outputs and weights in excess are ignored, too few outputs raise IndexError or not depending on the draws, with one input nothing is looked at, weights with m+1 columns are accepted with p = m+1. Matching arrays are used as documented (the partial); several columns, three dimensions and numbers are rejected for m >= 2."
  },
  {
   "property": "C129",
   "status": "proved",
   "theorems": [
    "Props.C129_exact",
    "Props.C129_dimension",
    "Props.C129_active_subspace"
   ],
   "note": "Rounding to nearest with unit roundoff 2^-53, no overflow or underflow; the distance delta of the eigenvalues comes from C127 in C129_active_subspace."
  },
  {
   "property": "C13",
   "status": "partial",
   "theorems": [
    "Props.C13_centre_included",
    "Props.C13_depends_on_centre",
    "Props.C13_nearest_others_partial"
   ],
   "note": "The code violates the property: the mask ind[D2 != 0] is indexed by row number, not by rank, so the centre is kept whenever it is not row 0. Negation proved in general and with an observable witness; what remains true (centre = row 0) is the partial."
  },
  {
   "property": "C130",
   "status": "proved",
   "theorems": [
    "Props.C130_exact",
    "Props.C130_roundtrip"
   ],
   "note": "Rounding to nearest with unit roundoff 2^-53, no overflow or underflow. C130_exact ties the rounded definitions to those of C44."
  },
  {
   "property": "C131",
   "status": "proved",
   "theorems": [
    "Props.C131_first",
    "Props.C131_gives_up",
    "Props.C131_interior"
   ],
   "note": "All generators and points; good is stated by the box, not by the stacked constraints. The limit of 50 lets only 49 vectors count."
  },
  {
   "property": "C132",
   "status": "proved",
   "theorems": [
    "Props.C132_mean",
    "Props.C132_unbiased",
    "Props.C132_variance",
    "Props.C132_training_value",
    "Props.C132_returns"
   ],
   "note": "Unbounded domain; the generator enters only by the law of its normal numbers. The best fit and the reproducing numbers are stated by polynomials, not by the matrix of monomials of the code."
  },
  {
   "property": "C133",
   "status": "partial",
   "theorems": [
    "Props.C133_train_matches",
    "Props.C133_train_refuses",
    "Props.C133_ols",
    "Props.C133_qphd",
    "Props.C133_opg",
    "Props.C133_active_matches",
    "Props.C133_active_entries",
    "Props.C133_active_partial",
    "Props.C133_uniform",
    "Props.C133_compute",
    "Props.C133_default",
    "Props.C133_active_refuted"
   ],
   "note": "The code violates the property for active_subspace: weights with as many columns as inputs are multiplied with the entries of the gradients. OLS, QPHD and the polynomial training keep it; for OPG the two shapes that the documentation allows are covered, the other shapes are in C128. With bootstrap compute is covered for a column; see C134."
  },
  {
   "property": "C134",
   "status": "partial",
   "theorems": [
    "Props.C134_column_partial",
    "Props.C134_vector",
    "Props.C134_number",
    "Props.C134_number_active",
    "Props.C134_refuted"
   ],
   "note": "The code violates the property for weights with one row: the replicates have one row, always the first sample. Proved for a column of weights (AS, OLS, QPHD); a vector is refused."
  },
  {
   "property": "C135",
   "status": "partial",
   "theorems": [
    "Props.C135_active",
    "Props.C135_ols",
    "Props.C135_gradients",
    "Props.C135_opg",
    "Props.C135_dimension",
    "Props.C135_compute_active",
    "Props.C135_compute_ols",
    "Props.C135_qphd_partial",
    "Props.C135_qphd_refuted",
    "Props.C135_origin_refuted"
   ],
   "note": "The code violates the property: qphd_subspace looks for a coordinate above 1 and not for one below -1, so that reversing an axis changes the eigenvalues; with samples that do not determine affine functions ols_subspace depends on the origin. Proved for AS; for OLS and OPG under rotations and scalings with any data and under shifts when the samples determine affine functions; for QPHD when the branch is the same and the samples determine quadratics."
  },
  {
   "property": "C136",
   "status": "partial",
   "theorems": [
    "Props.C136_polynomial",
    "Props.C136_rbf",
    "Props.C136_active_polynomial",
    "Props.C136_active_rbf",
    "Props.C136_compute_polynomial",
    "Props.C136_compute_rbf_partial",
    "Props.C136_units_refuted"
   ],
   "note": "The code violates the property: when the outputs change their unit by a factor a, the eigenvalues change by a^2, and the default noise of the radial basis surfaces is a sum of eigenvalues while the kernel keeps its scale. Proved for polynomial surfaces with every a and b, and for radial basis surfaces when a is 1 or -1."
  },
  {
   "property": "C137",
   "status": "partial",
   "theorems": [
    "Props.C137_gradients",
    "Props.C137_linear",
    "Props.C137_compute_gradients",
    "Props.C137_compute_linear",
    "Props.C137_polynomial",
    "Props.C137_polynomial_partial",
    "Props.C137_quadratic_partial",
    "Props.C137_quadratic_refuted",
    "Props.C137_rbf"
   ],
   "note": "The code violates the property: the polynomial fit multiplies the residuals by the weights and squares them, so that a point with weight 2 counts as four points of weight 1, and the estimate from the quadratic fit changes when a point is given twice with half the weight. Proved for gradients and the linear fit; for polynomial fits with the squares of the weights; for radial basis surfaces every order of the sample."
  },
  {
   "property": "C138",
   "status": "proved",
   "theorems": [
    "Props.C138_differences",
    "Props.C138_eigenvectors",
    "Props.C138_compute",
    "Props.C138_surface",
    "Props.C138_simulation",
    "Props.C138_linear_refuted"
   ],
   "note": "compute is treated without bootstrap and with the criterion EVG. C138_linear_refuted shows the limit named in the statement: for the square of the first input at three points the linear fit finds the direction (1, 2)."
  },
  {
   "property": "C139",
   "status": "partial",
   "theorems": [
    "Props.C139_init_partial",
    "Props.C139_methods",
    "Props.C139_accepted",
    "Props.C139_refuted"
   ],
   "note": "The code violates the property: the size of the mean is not checked and only the lower triangle of the covariance is read. Proved: exactly when there is a LinAlgError, which later calls succeed for every pair of sizes (all others raise ValueError), and agreement with the model of C03 when the sizes match."
  },
  {
   "property": "C14",
   "status": "partial",
   "theorems": [
    "Props.C14_guards",
    "Props.C14_p_eq_M_always_fails",
    "Props.C14_default_one_input",
    "Props.C14_default_smallest_sample",
    "Props.C14_one_input_empty",
    "Props.C14_completes_partial"
   ],
   "note": "Guards proved.  The code violates the rest: p = M passes the guards and always fails for m >= 2, the default p is always rejected for m = 1 and always fails for M = m + 1. Completion for distinct points and m+1 <= p < M is the partial."
  },
  {
   "property": "C140",
   "status": "proved",
   "theorems": [
    "Props.C140_gradients",
    "Props.C140_opg"
   ],
   "note": "The points of the sample are distinct and p < M. The bound holds although a centre may be one of its own neighbours (C13)."
  },
  {
   "property": "C141",
   "status": "proved",
   "theorems": [
    "Props.C141_polynomial",
    "Props.C141_best",
    "Props.norming_exists",
    "Props.C141_linear",
    "Props.C141_quadratic",
    "Props.C141_differences",
    "Props.C141_step",
    "Props.C141_noise"
   ],
   "note": "The default step 1e-6 is the best one only if eta/K is 2.5e-13."
  },
  {
   "property": "C142",
   "status": "proved",
   "theorems": [
    "Props.C142_best",
    "Props.C142_integrable",
    "Props.C142_ridge",
    "Props.C142_eigenvalues",
    "Props.C142_perturbed",
    "Props.C142_compute",
    "Props.C142_monte_carlo",
    "Props.C142_gauss"
   ],
   "note": "The constant is not the best one: it comes from a Poincare inequality for convex sets proved from pairs of points."
  },
  {
   "property": "C143",
   "status": "proved",
   "theorems": [
    "Props.C143_leakage",
    "Props.C143_inexact",
    "Props.C143_differences",
    "Props.C143_values"
   ],
   "note": "For OPG sigma refers to the centres of the local models that were drawn."
  },
  {
   "property": "C144",
   "status": "proved",
   "theorems": [
    "Props.C144_inverse",
    "Props.C144_integrate"
   ],
   "note": "Conditional on the event that rejection sampling succeeds for every row; when it fails the code goes on to other samplers, which are not covered here."
  },
  {
   "property": "C145",
   "status": "partial",
   "theorems": [
    "Props.C145_law",
    "Props.C145_interval_partial",
    "Props.C145_refuted"
   ],
   "note": "The mean and variance of the predictions are proved in general. Unbiasedness holds for one active variable when no component of the eigenvector is zero, and fails otherwise: the value at one point over each vertex is used as if it were the mean given the active variable. Conditional on the event that rejection sampling succeeds."
  },
  {
   "property": "C146",
   "status": "proved",
   "theorems": [
    "Props.C146_groups",
    "Props.C146_estimate",
    "Props.C146_exact"
   ],
   "note": "No overflow and no subnormal numbers. The weights are nonnegative and every index occurs, as in the rules of quadrature_rule."
  },
  {
   "property": "C147",
   "status": "proved",
   "theorems": [
    "Props.C147_best",
    "Props.C147_error",
    "Props.C147_weights"
   ],
   "note": "Exact arithmetic; noise levels nonnegative, eigenvalues as in C69. Target functions are finite sums of bumps plus polynomials."
  },
  {
   "property": "C148",
   "status": "partial",
   "theorems": [
    "Props.C148_states_partial",
    "Props.C148_samples_partial",
    "Props.C148_corner",
    "Props.C148_refuted"
   ],
   "note": "Proved for starting points that are not one of the two corners; the samples are read along the positions of C47, which with one inactive variable are the rows. At the corners the walk does not move: C148_corner, and C148_refuted gives a polytope of positive area and a solution of the linear program for which that happens."
  },
  {
   "property": "C149",
   "status": "proved",
   "theorems": [
    "Props.C149_averages",
    "Props.C149_gradients"
   ],
   "note": "Exact arithmetic; noise levels nonnegative, eigenvalues as in C69. Target functions are finite sums of bumps plus polynomials."
  },
  {
   "property": "C15",
   "status": "proved",
   "theorems": [
    "Props.C15_interval_design",
    "Props.C15_negative"
   ],
   "note": "All a < b and N >= 0; negative N characterised as well."
  },
  {
   "property": "C150",
   "status": "proved",
   "theorems": [
    "Props.C150_predict",
    "Props.C150_cube",
    "Props.C150_exact"
   ],
   "note": "Rounding to nearest doubles with unbounded exponents; pow within one unit in the last place."
  },
  {
   "property": "C151",
   "status": "proved",
   "theorems": [
    "Props.C151_kernel",
    "Props.C151_predict",
    "Props.C151_exact"
   ],
   "note": "Rounding to nearest doubles with unbounded exponents; exp and pow within one unit in the last place. Predictions without gradients."
  },
  {
   "property": "C152",
   "status": "proved",
   "theorems": [
    "Props.C152_ridge"
   ],
   "note": "Exact arithmetic; noise levels nonnegative, eigenvalues as in C69. h is a finite sum of bumps plus a polynomial."
  },
  {
   "property": "C153",
   "status": "proved",
   "theorems": [
    "Props.C153_kernel",
    "Props.C153_gradients",
    "Props.C153_exact"
   ],
   "note": "Rounding to nearest doubles with unbounded exponents; exp and pow within one unit in the last place."
  },
  {
   "property": "C154",
   "status": "proved",
   "theorems": [
    "Props.C154_predict",
    "Props.C154_cube",
    "Props.C154_exact"
   ],
   "note": "Rounding to nearest doubles with unbounded exponents; pow within one unit in the last place."
  },
  {
   "property": "C155",
   "status": "proved",
   "theorems": [
    "Props.C155_predict",
    "Props.gauss_lipschitz",
    "Props.gaussGrad_lipschitz",
    "Props.C155_exact"
   ],
   "note": "Rounding to nearest doubles with unbounded exponents; exp and pow within one unit in the last place."
  },
  {
   "property": "C156",
   "status": "proved",
   "theorems": [
    "Props.C156_training",
    "Props.saddle_entries",
    "Props.row_bound",
    "Props.C156_exact"
   ],
   "note": "Rounding to nearest doubles with unbounded exponents; exp and pow within one unit in the last place; the solver is backward stable (Verif/Spec/StableSolve.lean), stated a posteriori in the computed weights. The length scales and variances are inputs here; the line search that chooses them is in Verif/Model/ResponseSurfaces.lean."
  },
  {
   "property": "C157",
   "status": "proved",
   "theorems": [
    "Props.C157_training",
    "Props.C157_reproduces",
    "Props.length_near",
    "Props.residual_near",
    "Props.C157_exact"
   ],
   "note": "Rounding to nearest doubles with unbounded exponents; pow within one unit in the last place; lstsq is backward stable (Verif/Spec/StableSolve.lean), which allows the cut of small singular values."
  },
  {
   "property": "C158",
   "status": "proved",
   "theorems": [
    "Props.C158_slope",
    "Props.lstsq_close",
    "Props.C158_exact"
   ],
   "note": "Rounding to nearest doubles with unbounded exponents; sqrt correctly rounded; lstsq backward stable (Verif/Spec/StableSolve.lean). Which points are chosen is C13; nothing is assumed about the computed distances."
  },
  {
   "property": "C159",
   "status": "proved",
   "theorems": [
    "Props.C159_ols",
    "Props.olsFit_close",
    "Props.rank_one_rounded",
    "Props.length_close",
    "Props.C159_exact"
   ],
   "note": "Rounding to nearest doubles with unbounded exponents; sqrt correctly rounded; lstsq backward stable (Verif/Spec/StableSolve.lean), eigh stable (Verif/Spec/FloatSum.lean). Inputs are two-dimensional arrays that passed the input check."
  },
  {
   "property": "C16",
   "status": "partial",
   "theorems": [
    "Props.C16_feasible_iff_neg",
    "Props.C16_nonsymmetric_infeasible",
    "Props.C16_outside",
    "Props.C16_symmetric_partial"
   ],
   "note": "The code violates the property: the constraint sign makes the feasible set the negative of the polytope. Proved: feasible iff the negated points are in the hull; a design entirely outside for every polytope with a vertex whose negative is outside (triangle as example); the partial is the property for centrally symmetric vertex sets (the zonotopes the package itself passes)."
  },
  {
   "property": "C160",
   "status": "proved",
   "theorems": [
    "Props.C160_opg",
    "Props.localLoop_rows",
    "Props.near_rank_one",
    "Props.outer_near",
    "Props.C160_exact",
    "Props.C160_exact_loop"
   ],
   "note": "Rounding to nearest doubles with unbounded exponents; sqrt correctly rounded; lstsq backward stable (Verif/Spec/StableSolve.lean), eigh stable (Verif/Spec/FloatSum.lean). The numbers p and K are given; C160_exact ties them to the shape in exact arithmetic. Inputs are two-dimensional arrays that passed the input check."
  },
  {
   "property": "C161",
   "status": "proved",
   "theorems": [
    "Props.C161_qphd",
    "Props.qphd_entry",
    "Props.outer_decomposed",
    "Props.C161_exact",
    "Props.C161_exact_run"
   ],
   "note": "Rounding to nearest doubles with unbounded exponents; eigh stable (Verif/Spec/FloatSum.lean). The coefficients of the fit are inputs here; their errors are the subject of C157. That entries below -1 do not count in the choice of g is the deviation of C37."
  },
  {
   "property": "C162",
   "status": "proved",
   "theorems": [
    "Props.C162_errbnd",
    "Props.C162_ladle",
    "Props.C162_exact",
    "Props.C162_exact_ladle",
    "Props.root_near",
    "Props.round_rel"
   ],
   "note": "Rounding to nearest doubles with unbounded exponents. Nonnegative eigenvalues, as Subspaces.compute provides (C127). li_F without nan; the nan case is C39_ladle_nan."
  },
  {
   "property": "C17",
   "status": "proved",
   "theorems": [
    "Props.C17_maximin",
    "Props.C17_maximin_returns",
    "Props.C17_zonotope",
    "Props.C17_zonotope_returns",
    "Props.C17_unbounded",
    "Props.C17_unbounded_returns",
    "Props.C17_methods"
   ],
   "note": "For every pair returned. When every start succeeds a pair is returned if some value is below the initial minf (1e100 in the optimisers); otherwise the code raises AttributeError, which is proved as well."
  },
  {
   "property": "C18",
   "status": "partial",
   "theorems": [
    "Props.C18_maximin_restores",
    "Props.C18_maximin_reproducible",
    "Props.C18_maximin_failure_leaks",
    "Props.C18_maximin_not_restored",
    "Props.C17_zonotope",
    "Props.C18_zonotope_reproducible",
    "Props.C18_zonotope_failure_leaks",
    "Props.C18_zonotope_not_restored",
    "Props.C17_unbounded",
    "Props.C18_unbounded_reproducible",
    "Props.C18_unbounded_failure_leaks",
    "Props.C18_unbounded_not_restored"
   ],
   "note": "Restored on normal return (C17_zonotope and C17_unbounded say so for the optimisers) and reproducible. The code violates the rest: when a start fails the exception leaves the generator in the seeded state (negation proved)."
  },
  {
   "property": "C19",
   "status": "proved",
   "theorems": [
    "Props.C19_objective",
    "Props.C19_empty",
    "Props.C19_gradient"
   ],
   "note": "Objective is minus the least squared distance capped at 1e10; gradient is the true derivative wherever a single pair attains the minimum."
  },
  {
   "property": "C20",
   "status": "proved",
   "theorems": [
    "Props.C20_hermite",
    "Props.C20_hermite_cases",
    "Props.C20_jacobi",
    "Props.C20_jacobi_errors",
    "Props.C20_legendre",
    "Props.C20_jacobi_matrix",
    "Props.C20_jacobi_matrix_cases"
   ],
   "note": "Coefficients for all N and parameters; orthogonality of the generated polynomials for the Hermite and Legendre cases; matrix for all coefficient arrays, all error cases."
  },
  {
   "property": "C21",
   "status": "proved",
   "theorems": [
    "Props.C21_exact",
    "Props.C21_any_size"
   ],
   "note": "Exact for 1 <= N <= 10^11 (the code replaces nodes below 1e-12 by zero; shown never to move a node in that range); for every N exact at nodes within 1e-12 of the returned ones. Contract: eig returns eigenvalues with multiplicity and unit eigenvectors."
  },
  {
   "property": "C22",
   "status": "proved",
   "theorems": [
    "Props.C22_exact",
    "Props.C22_any_size"
   ],
   "note": "As C21 for the uniform density on [-1,1]."
  },
  {
   "property": "C23",
   "status": "proved",
   "theorems": [
    "Props.C23_rule",
    "Props.C23_one",
    "Props.C23_errors",
    "Props.C23_legendre_inside"
   ],
   "note": "All N; Legendre nodes strictly inside (-1,1)."
  },
  {
   "property": "C24",
   "status": "proved",
   "theorems": [
    "Props.C24_tensor",
    "Props.C24_weights",
    "Props.C24_product",
    "Props.C24_hermite_exact",
    "Props.C24_legendre_exact",
    "Props.C24_cases"
   ],
   "note": "All lists of sizes, including the empty list."
  },
  {
   "property": "C25",
   "status": "proved",
   "theorems": [
    "Props.C25_enumerates",
    "Props.C25_first_rows",
    "Props.C25_quadratic_rows",
    "Props.C25_no_variables"
   ],
   "note": "All n and d; d = 0 characterised."
  },
  {
   "property": "C26",
   "status": "proved",
   "theorems": [
    "Props.C26_predict",
    "Props.C26_untrained"
   ],
   "note": "All degrees, dimensions, coefficients and points; the gradient is the Frechet derivative."
  },
  {
   "property": "C27",
   "status": "proved",
   "theorems": [
    "Props.C27_reproduces",
    "Props.C27_too_few"
   ],
   "note": "Degree >= 1 (degree 0 is C68). Contract: lstsq returns a least-squares solution of smallest norm."
  },
  {
   "property": "C28",
   "status": "proved",
   "theorems": [
    "Props.C28_gradient_hessian"
   ],
   "note": "All degrees >= 1 for g, >= 2 for H, also for weighted fits."
  },
  {
   "property": "C29",
   "status": "proved",
   "theorems": [
    "Props.C29_rsquared"
   ],
   "note": "All non-constant data, degree >= 1."
  },
  {
   "property": "C30",
   "status": "partial",
   "theorems": [
    "Props.C30_weighted_partial",
    "Props.C30_fails"
   ],
   "note": "The code violates the property: residuals are multiplied by the weights before squaring, so the weights act squared, and the weighted data are stored (negation proved). The partial states what is minimised and stored."
  },
  {
   "property": "C31",
   "status": "proved",
   "theorems": [
    "Props.C31_kernel",
    "Props.C31_distinct",
    "Props.C31_well_posed"
   ],
   "note": "All point sets; strict for positive noise or distinct points; the saddle system of train is nonsingular on unisolvent samples."
  },
  {
   "property": "C32",
   "status": "proved",
   "theorems": [
    "Props.C32_gradient"
   ],
   "note": "All trained states and points; Frechet derivative."
  },
  {
   "property": "C33",
   "status": "proved",
   "theorems": [
    "Props.C33_training"
   ],
   "note": "Distinct points or positive noise. Contracts: cholesky succeeds exactly on positive definite matrices, fminbound returns a point of its interval or the error its objective raises everywhere."
  },
  {
   "property": "C34",
   "status": "proved",
   "theorems": [
    "Props.C34_sorted",
    "Props.C34_posSemidef",
    "Props.C34_unique",
    "Props.C34_errors"
   ],
   "note": "All symmetric matrices and every result allowed by the eigh and argsort contracts; eigenvalues with multiplicity; error cases."
  },
  {
   "property": "C35",
   "status": "proved",
   "theorems": [
    "Props.C35_active_subspace",
    "Props.C35_order",
    "Props.C35_errors"
   ],
   "note": "All gradient samples and non-negative weights, including optimality of the leading columns for every dimension n."
  },
  {
   "property": "C36",
   "status": "proved",
   "theorems": [
    "Props.C36_ols",
    "Props.C36_affine"
   ],
   "note": "All samples and non-negative weights; exact slope for affine data with positive weights on a sample determining affine functions."
  },
  {
   "property": "C37",
   "status": "partial",
   "theorems": [
    "Props.C37_qphd_partial",
    "Props.C37_fails",
    "Props.white_gaussian",
    "Props.white_uniform"
   ],
   "note": "The code violates the property: np.amin is compared without being called, so samples below -1 with none above 1 are taken as bounded (gamma 1/3 instead of 1; negation proved). The partial gives the matrix for the gamma the code chooses, and that gamma is the second moment of the uniform and Gaussian measures."
  },
  {
   "property": "C38",
   "status": "proved",
   "theorems": [
    "Props.C38_gap",
    "Props.C38_error"
   ],
   "note": "All e of length >= 2; shorter ones raise."
  },
  {
   "property": "C39",
   "status": "proved",
   "theorems": [
    "Props.C39_errbnd",
    "Props.C39_errbnd_errors",
    "Props.C39_ladle",
    "Props.C39_ladle_nan"
   ],
   "note": "All e and error vectors; first nan wins, as in argmin."
  },
  {
   "property": "C40",
   "status": "proved",
   "theorems": [
    "Props.C40_chosen",
    "Props.chooseDim_square"
   ],
   "note": "All three rules; chooseDim_square holds for arbitrary run-time shapes."
  },
  {
   "property": "C41",
   "status": "proved",
   "theorems": [
    "Props.C41_ranges",
    "Props.C41_succeeds",
    "Props.estimateOK_AS",
    "Props.estimateOK_OLS",
    "Props.estimateOK_QPHD"
   ],
   "note": "All data, weights, generator states and numbers of replicates; distances are suprema over unit vectors."
  },
  {
   "property": "C42",
   "status": "partial",
   "theorems": [
    "Props.C42_split_partial",
    "Props.C42_fails"
   ],
   "note": "The code violates the property: a compute that raises after storing eigenvecs leaves the old W1, W2 next to the new eigenvectors (negation with two calls). The partial covers every history in which such a failure happens only while W1 is unset."
  },
  {
   "property": "C43",
   "status": "partial",
   "theorems": [
    "Props.C43_untouched",
    "Props.C43_sstype",
    "Props.C43_ptype",
    "Props.C43_succeeds",
    "Props.C43_succeeds_opg_partial",
    "Props.C43_fails"
   ],
   "note": "All failures as stated, for all arguments; success for AS, OLS, QPHD with and without bootstrap and for OPG without. The code violates the rest: OPG with bootstrap raises ValueError when a replicate repeats points (negation proved)."
  },
  {
   "property": "C44",
   "status": "proved",
   "theorems": [
    "Props.C44_forward",
    "Props.C44_inverse",
    "Props.C44_unbounded",
    "Props.C44_bad",
    "Props.shapeOK_bounded",
    "Props.shapeOK_unbounded",
    "Props.split_of_isSplit"
   ],
   "note": "All sizes, samples and inactive variables of the right shape; both variable maps return that shape; ill-typed Y or N raise. The splitting hypothesis is the invariant of C42."
  },
  {
   "property": "C45",
   "status": "proved",
   "theorems": [
    "Props.C45_rejection"
   ],
   "note": "Every generator, box and count; the returned rows are the first N feasible candidates."
  },
  {
   "property": "C46",
   "status": "partial",
   "theorems": [
    "Props.C46_centre",
    "Props.C46_hit_and_run_partial",
    "Props.C46_infeasible"
   ],
   "note": "The code violates the property: constraints with slack below sqrt(eps) are not used to bound the step (negation with a concrete polytope whose Chebyshev centre is feasible). The partial covers rows whose start and predecessors have slack above sqrt(eps); the start is proved to be the centre of a largest ball."
  },
  {
   "property": "C47",
   "status": "partial",
   "theorems": [
    "Props.C47_start",
    "Props.C47_random_walk_partial",
    "Props.C47_small",
    "Props.C47_infeasible"
   ],
   "note": "The code violates the property: the (m-n)-by-N array of samples is reshaped instead of transposed, so returned rows mix coordinates of several samples (negation with m=3, n=1, N=2). The partial shows every walked sample is feasible and where its coordinates end up; the full property holds for one sample or one inactive variable."
  },
  {
   "property": "C48",
   "status": "proved",
   "theorems": [
    "Props.C48_bounded_inverse",
    "Props.C48_cube"
   ],
   "note": "All Y, N, generators; under success of the rejection sampler for every row, as stated."
  },
  {
   "property": "C49",
   "status": "proved",
   "theorems": [
    "Props.C49_range",
    "Props.C49_attained",
    "Props.C49_corners"
   ],
   "note": "All m and W1."
  },
  {
   "property": "C50",
   "status": "proved",
   "theorems": [
    "Props.C50_formula",
    "Props.C50_types",
    "Props.C50_recurrence",
    "Props.C50_full",
    "Props.C50_bound"
   ],
   "note": "All m >= 1 and n; bound for every W1."
  },
  {
   "property": "C51",
   "status": "proved",
   "theorems": [
    "Props.C51_rows",
    "Props.C51_complete"
   ],
   "note": "All W1, generators, Nsamples, maxcount; unique is assumed to remove exactly the duplicate rows of bytes, 0.0 and -0.0 being different."
  },
  {
   "property": "C52",
   "status": "proved",
   "theorems": [
    "Props.C52_hull",
    "Props.C52_inside",
    "Props.hull_eq_zonotope"
   ],
   "note": "All W1 without a zero row and all histories in which no product of a draw is exactly zero and no warning is printed."
  },
  {
   "property": "C53",
   "status": "proved",
   "theorems": [
    "Props.C53_constraints",
    "Props.C53_jacobian",
    "Props.convexHullOK_exists"
   ],
   "note": "All points and zonotopes, over the facet equations contract for Qhull. Relies on the vertex set being symmetric: the sign in front of the offset is the one of C16."
  },
  {
   "property": "C54",
   "status": "proved",
   "theorems": [
    "Props.C54_uncomputed",
    "Props.C54_init",
    "Props.C54_recompute",
    "Props.C54_stale"
   ],
   "note": "All domain states. C54_stale records that compute_boundary leaves the fields m and n of an older partition in place."
  },
  {
   "property": "C55",
   "status": "proved",
   "theorems": [
    "Props.C55_ridge",
    "Props.C55_inactive",
    "Props.C55_chain_rule",
    "Props.C55_active",
    "Props.C55_poly",
    "Props.C55_rbf",
    "Props.C55_init"
   ],
   "note": "All inner surfaces, points and inactive perturbations; both inner classes of the package are shown to satisfy the exactness hypothesis."
  },
  {
   "property": "C56",
   "status": "proved",
   "theorems": [
    "Props.C56_design",
    "Props.C56_unbounded",
    "Props.C56_bounded",
    "Props.C56_with_data",
    "Props.C56_kinds",
    "Props.C56_design_returns",
    "Props.C56_unbounded_returns",
    "Props.C56_bounded_returns",
    "Props.C56_rejects"
   ],
   "note": "Every successful run, for every N, NMC, stateful simulation, inner surface, generator and domain with eigenvectors split as in C42; and conversely runs whose parts succeed return."
  },
  {
   "property": "C57",
   "status": "proved",
   "theorems": [
    "Props.C57_rule",
    "Props.C57_integrate",
    "Props.C57_returns",
    "Props.C57_linear",
    "Props.C57_av_integrate",
    "Props.C57_rejects",
    "Props.C57_rule_returns"
   ],
   "note": "Every run that returns numbers; exact real arithmetic."
  },
  {
   "property": "C58",
   "status": "proved",
   "theorems": [
    "Props.C58_interval",
    "Props.C58_interval_one",
    "Props.C58_zonotope",
    "Props.C58_zonotope_returns",
    "Props.C58_full",
    "Props.C58_hermite"
   ],
   "note": "C58_hermite is the Gauss-Hermite case (weights positive, sum one). For the zonotope rule find_simplex is an arbitrary library function."
  },
  {
   "property": "C59",
   "status": "proved",
   "theorems": [
    "Props.C59_interval",
    "Props.C59_returns"
   ],
   "note": "np.histogram is modelled as NumPy computes it, by differences of cumulative counts."
  },
  {
   "property": "C60",
   "status": "partial",
   "theorems": [
    "Props.C60_refuted",
    "Props.root_bounds",
    "Props.C60_rule_partial",
    "Props.C60_returns",
    "Props.C60_av_integrate_partial",
    "Props.C24_hermite_exact"
   ],
   "note": "The code violates it in double precision: for n = 3, N = 64 the rounded root is below 4 and the rule has 27 nodes (C60_refuted). Proved, with both roundings modelled and n*2^n*N <= 2^45: the root is right unless N is a perfect power and 1/n is not a double; then it may be one less. Exactness for all polynomials in several variables while the number of nodes per dimension is at most 10^11 (see C21)."
  },
  {
   "property": "C61",
   "status": "proved",
   "theorems": [
    "Props.C61_active",
    "Props.C61_minimize",
    "Props.C61_rejects",
    "Props.C61_returns",
    "Props.admissible_interval",
    "Props.admissible_zonotope",
    "Props.C61_optimal"
   ],
   "note": "For all surfaces and all optimisers that report the value at the point they return and respect their constraints. In addition: if the optimiser found the minimum over the active domain, the point returned minimises the surface over the cube."
  },
  {
   "property": "C62",
   "status": "partial",
   "theorems": [
    "Props.C62_solves",
    "Props.C62_reflected_partial",
    "Props.C62_not_minimiser",
    "Props.C62_returns",
    "Props.C62_fails",
    "Props.C63_one_value"
   ],
   "note": "The code violates it: it solves zAz z = c instead of zAz z = -c. Proved: minus the point returned is the minimiser; the point itself is one only if it is 0; witness with values 150 and -50."
  },
  {
   "property": "C63",
   "status": "partial",
   "theorems": [
    "Props.C63_doubled_partial",
    "Props.C63_not_minimiser",
    "Props.C63_fails",
    "Props.C63_one_value",
    "Props.boundedMin_feasible"
   ],
   "note": "The code violates it: the quadratic term is counted twice. Proved: the point is feasible, minimises the model with the doubled term and is no worse than z = 0; an interior point other than 0 is never the minimiser; witness x2 + x2^2."
  },
  {
   "property": "C64",
   "status": "proved",
   "theorems": [
    "Props.C64_blocks",
    "Props.C64_too_few",
    "Props.exists_trained"
   ],
   "note": "All data and sizes with n >= 1; p is cut to m by the slice. Too few points for a quadratic raise."
  },
  {
   "property": "C65",
   "status": "proved",
   "theorems": [
    "Props.C65_linear_eq",
    "Props.C65_linear_ineq",
    "Props.C65_quadratic_bnd",
    "Props.C65_quadratic_ineq",
    "Props.C65_solves_linear_eq",
    "Props.C65_solves_linear_ineq",
    "Props.C65_solves_quadratic_bnd",
    "Props.C65_solves_quadratic_ineq",
    "Props.minimiser_of_stationary",
    "Props.qpLibOK_exists"
   ],
   "note": "For all data, the feasible set and the objective handed to SciPy and to Gurobi are those of the documented problem, so what the method returns is a minimiser of it. For the quadratic programs SciPy only promises a feasible point without first-order descent, from which global optimality is proved for positive semidefinite Q."
  },
  {
   "property": "C66",
   "status": "proved",
   "theorems": [
    "Props.C66_failure",
    "Props.C66_constructor",
    "Props.C66_dispatch",
    "Props.honest_scipy",
    "Props.honest_gurobi"
   ],
   "note": "Each of the eight functions returns the back end's answer with the world unchanged on success, and on failure draws one number, writes exactly one file of its own name and raises; the constructor chooses an available back end; an unknown solver attribute raises ValueError."
  },
  {
   "property": "C67",
   "status": "proved",
   "theorems": [
    "Props.C67_gradient",
    "Props.quadFun_deriv"
   ],
   "note": "The Jacobian function is the gradient of the objective function at every point if and only if Q is symmetric."
  },
  {
   "property": "C68",
   "status": "partial",
   "theorems": [
    "Props.C68_train_partial",
    "Props.C68_fails"
   ],
   "note": "The code violates the property at degree 0: train always raises ValueError after storing the coefficients. Proved for degree >= 1."
  },
  {
   "property": "C69",
   "status": "partial",
   "theorems": [
    "Props.C69_train_partial",
    "Props.C69_fails"
   ],
   "note": "The code violates the property: the objective lacks the 1e-6 floor that train applies, so repeated points with zero noise raise LinAlgError. Proved for distinct points or positive noise."
  },
  {
   "property": "C70",
   "status": "proved",
   "theorems": [
    "Props.C70_rsquared"
   ],
   "note": "All nonzero data."
  },
  {
   "property": "C71",
   "status": "partial",
   "theorems": [
    "Props.C71_objective_partial",
    "Props.C71_fails"
   ],
   "note": "The code violates the property: the scale term has weight M instead of M/2. The partial states the value computed for all data."
  },
  {
   "property": "C72",
   "status": "proved",
   "theorems": [
    "Props.C72_opg_affine"
   ],
   "note": "Every generator; default number of neighbours."
  },
  {
   "property": "C73",
   "status": "proved",
   "theorems": [
    "Props.C73_interval",
    "Props.C73_inside",
    "Props.designPoints_zonotope",
    "Props.inactive_nonempty"
   ],
   "note": "All W1 with orthonormal columns and all N; with several active variables over the contracts of Qhull and SLSQP."
  },
  {
   "property": "C74",
   "status": "proved",
   "theorems": [
    "Props.C74_circuit",
    "Props.C74_piston",
    "Props.C74_wing",
    "Props.rowGradient_of_box"
   ],
   "note": "Exact real arithmetic; the formulas are transcribed term by term."
  },
  {
   "property": "C75",
   "status": "proved",
   "theorems": [
    "Props.C75_robot",
    "Props.C75_range",
    "Props.C75_zero"
   ],
   "note": "The gradient where the value is not zero; where it is zero the code divides by zero."
  },
  {
   "property": "C76",
   "status": "proved",
   "theorems": [
    "Props.C76_borehole",
    "Props.borehole_domain",
    "Props.C76_integer"
   ],
   "note": "Float arrays (`store = id`); `C76_integer` shows that an integer array gets the radius zero."
  },
  {
   "property": "C77",
   "status": "partial",
   "theorems": [
    "Props.C77_wing_partial",
    "Props.C77_refuted"
   ],
   "note": "Refuted: the fourth column lacks the factor pi/180. Proved for the array with that column multiplied by pi/180."
  },
  {
   "property": "C78",
   "status": "proved",
   "theorems": [
    "Props.C78_box",
    "Props.C78_borehole",
    "Props.C78_tutorial"
   ],
   "note": "Arrays with more than two dimensions for the functions on the unit box only."
  },
  {
   "property": "C79",
   "status": "proved",
   "theorems": [
    "Props.C79_robot",
    "Props.C79_piston",
    "Props.C79_circuit",
    "Props.C79_borehole",
    "Props.piston_equilibrium_unique"
   ],
   "note": "Pins the formulas down independently of the gradients. The weight term of the piston is 19.62 M, as in the literature the code follows."
  },
  {
   "property": "C80",
   "status": "proved",
   "theorems": [
    "Props.C80_eigenvalues",
    "Props.C80_subspace_errors",
    "Props.C80_eigenvectors",
    "Props.C80_sufficient_summary",
    "Props.C80_zonotope_2d_plot",
    "Props.C80_plot_opts",
    "Props.C80_default"
   ],
   "note": "`os.mkdir` is taken to succeed and labels to contain no slash."
  },
  {
   "property": "C81",
   "status": "proved",
   "theorems": [
    "Props.C81_eigenvalues",
    "Props.C81_eigenvalues_br",
    "Props.C81_subspace_errors",
    "Props.C81_eigenvectors",
    "Props.C81_eigenvectors_plain",
    "Props.C81_eigenvectors_text",
    "Props.C81_summary1",
    "Props.C81_summary2"
   ],
   "note": "pyplot is a record of drawing commands; the rendering is not modelled."
  },
  {
   "property": "C82",
   "status": "partial",
   "theorems": [
    "Props.C82_zonotope_partial",
    "Props.C82_refuted"
   ],
   "note": "Refuted for interactive backends: plt.show() comes before plt.savefig, so the file is blank. Proved for the figure shown and for other backends."
  },
  {
   "property": "C83",
   "status": "proved",
   "theorems": [
    "Props.C83_eigenvalues",
    "Props.C83_subspace_errors",
    "Props.C83_eigenvectors"
   ],
   "note": ""
  },
  {
   "property": "C84",
   "status": "partial",
   "theorems": [
    "Props.C84_ranges_partial",
    "Props.C84_ranges_refuted",
    "Props.C84_log_refuted",
    "Props.C84_summary_partial",
    "Props.C84_summary_refuted",
    "Props.C84_zonotope",
    "Props.C84_vertices"
   ],
   "note": "Refuted: limits from the ranges alone can leave an eigenvalue out; an eigenvalue 0 gives the limit 0 on a logarithmic axis; 1.1*min cuts off positive data. Proved for ranges around the eigenvalues, coordinates of both signs, and in full for the zonotope plot."
  },
  {
   "property": "C85",
   "status": "proved",
   "theorems": [
    "Props.C85_eigenvectors",
    "Props.C85_summary_cols",
    "Props.C85_summary_rows",
    "Props.C85_zonotope"
   ],
   "note": ""
  },
  {
   "property": "C86",
   "status": "partial",
   "theorems": [
    "Props.C86_plot_opts_partial",
    "Props.C86_refuted"
   ],
   "note": "Refuted: the functions read the key `myfont`. Proved for dictionaries made by plot_opts."
  },
  {
   "property": "C87",
   "status": "partial",
   "theorems": [
    "Props.C87_half_partial",
    "Props.C87_refuted",
    "Props.C51_complete",
    "Props.C52_hull"
   ],
   "note": "Refuted: unique_rows tells 0.0 from -0.0, so rows with zeros are counted twice and the loop can stop too early without a warning. Proved without zero products (C51_complete, C52_hull); otherwise at least half of nzv different rows."
  },
  {
   "property": "C88",
   "status": "partial",
   "theorems": [
    "Props.C88_equal_weights_partial",
    "Props.C88_refuted",
    "Props.C88_no_effect",
    "Props.C88_opg",
    "Props.C88_zero_weight"
   ],
   "note": "Refuted: all rows of a local problem are scaled by the weight of the centre, so positive weights have no effect at all and a centre of weight 0 gives the gradient 0. Proved for observations of equal weight."
  },
  {
   "property": "C89",
   "status": "partial",
   "theorems": [
    "Props.C89_rows_partial",
    "Props.C89_refuted"
   ],
   "note": "Refuted for every sample: the result has min(ceil(10 m log m), M-1) rows. Proved: how many rows there are."
  },
  {
   "property": "C90",
   "status": "proved",
   "theorems": [
    "Props.C90_count",
    "Props.C90_rows",
    "Props.extreme_iff"
   ],
   "note": "All W1 without zero row; sign vectors and vertices correspond one to one."
  },
  {
   "property": "C91",
   "status": "partial",
   "theorems": [
    "Props.C91_general_position_partial",
    "Props.C91_always_warns",
    "Props.C91_refuted"
   ],
   "note": "Refuted: if W1 is not in general position the warning is always printed and all maxcount+2 draws are made, also if every vertex has been found. Proved in general position."
  },
  {
   "property": "C92",
   "status": "partial",
   "theorems": [
    "Props.C92_refuted",
    "Props.C92_bounded_partial",
    "Props.C92_unbounded_partial",
    "Props.C59_interval"
   ],
   "note": "The code violates it: on an unbounded domain N = 5 and n = 2 give 4 points. Proved: N points on bounded domains (C59_interval for the rule on an interval); on unbounded domains a perfect power that is at most N. The number of nodes of the rule on a zonotope is the number of simplices Qhull returns; nothing is proved about it."
  },
  {
   "property": "C93",
   "status": "partial",
   "theorems": [
    "Props.C93_refuted",
    "Props.C93_value",
    "Props.C93_bound_partial"
   ],
   "note": "Refuted: three points with weights 2, 1, 1 and R-squared -1/5; no lower bound exists. Proved: at most 1, equal to 1 iff the surface interpolates, and at least 0 for equal weights."
  },
  {
   "property": "C94",
   "status": "proved",
   "theorems": [
    "Props.C94_orthogonal",
    "Props.C94_rule"
   ],
   "note": "All weights a, b > -1 on all intervals; eig by its contract."
  },
  {
   "property": "C95",
   "status": "proved",
   "theorems": [
    "Props.C95_symmetric",
    "Props.C95_inside",
    "Props.C95_cube"
   ],
   "note": "All sizes; by uniqueness of Gauss rules."
  },
  {
   "property": "C96",
   "status": "partial",
   "theorems": [
    "Props.C96_poly_history",
    "Props.SamePoly.predict",
    "Props.C96_poly_raises_partial",
    "Props.C96_rbf_history",
    "Props.C96_rbf_raises",
    "Props.C96_weights_refuted"
   ],
   "note": "All run-time arrays, with a weight for each sample or none. The code violates the last part for weights given as a vector: train raises after it has stored X and f. For degree 1 the attribute H is not written; for degree 0 see C68."
  },
  {
   "property": "C97",
   "status": "proved",
   "theorems": [
    "Props.C97_poly",
    "Props.C97_rbf",
    "Props.C97_untrained"
   ],
   "note": ""
  },
  {
   "property": "C98",
   "status": "proved",
   "theorems": [
    "Props.C98_ladle",
    "Props.overlap_eq_one"
   ],
   "note": "Exact arithmetic; eigh by its contract."
  },
  {
   "property": "C99",
   "status": "proved",
   "theorems": [
    "Props.C99_eigenvalues"
   ],
   "note": "Exact arithmetic; eigh by its contract."
  }
 ]
}
