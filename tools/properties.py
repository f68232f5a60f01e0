#!/usr/bin/env python3
"""Writes /verif/properties.jsonl.  One entry per semantic property."""
import json, os
P = []
def p(title, statement, quantifier, why, anchors):
    P.append(dict(id="C%02d" % (len(P)+1), title=title, statement=statement, quantifier=quantifier,
                  why_tests_cant=why, anchors=anchors))

A = "active_subspaces/"
# ---------------------------------------------------------------- utils.misc
p("BoundedNormalizer round trip",
  "For bounds with lb != ub in every component, unnormalize(normalize(X)) == X and normalize(unnormalize(Z)) == Z (exact real arithmetic), the shape is preserved, and a non-2-d argument raises ValueError.",
  "all dimensions m, all bound vectors with lb_j != ub_j, all M-by-m inputs",
  "a test compares finitely many matrices; the law is over every bound vector and every input",
  [A+"utils/misc.py:BoundedNormalizer.normalize", A+"utils/misc.py:BoundedNormalizer.unnormalize"])
p("BoundedNormalizer maps the box exactly onto the cube",
  "For lb < ub, a row of X lies in the box [lb,ub] iff the corresponding row of normalize(X) lies in [-1,1]^m; unnormalize maps [-1,1]^m into [lb,ub]; lb and ub go to -1 and 1; each component map is strictly increasing.",
  "all m, all lb < ub, all points inside or outside the box",
  "the iff has to hold for all reals including the boundary",
  [A+"utils/misc.py:BoundedNormalizer"])
p("UnboundedNormalizer round trip and moment transport",
  "With a Cholesky factor L L^T = C of a positive definite C, normalize and unnormalize are mutually inverse, and for every weighted sample with mean 0 and second moment I the unnormalized sample has mean mu and covariance C.",
  "all m, mu, positive definite C, all inputs and all weighted samples",
  "quantifies over all covariance matrices and all samples",
  [A+"utils/misc.py:UnboundedNormalizer"])
p("Input validation accepts exactly the documented shapes",
  "process_inputs succeeds iff the array is two-dimensional and then returns the data unchanged with its shape; process_inputs_outputs succeeds iff X is 2-d, f is 2-d, the row counts agree and f has one column, raising ValueError/ValueError/Exception/Exception for the four failures in that order of precedence.",
  "all arrays of every rank and shape",
  "every rank and shape combination is in scope, including error precedence",
  [A+"utils/misc.py:process_inputs", A+"utils/misc.py:process_inputs_outputs"])
p("Conditional expectations are group means and variances",
  "conditional_expectations(f, ind) returns max(ind)+1 rows; row i is the mean (variance) of exactly the entries of f whose index is i; variances are non-negative; permuting the rows of f and ind together changes nothing; and the group means reassemble the total sum.",
  "all data vectors, all index vectors with every index in 0..max present, all permutations",
  "all group structures and all permutations",
  [A+"utils/misc.py:conditional_expectations"])
p("atleast_2d shape contract",
  "atleast_2d returns a two-dimensional array: scalars and sequences become one row ('row') or one column ('col'), arrays of rank >= 2 are returned unchanged whatever oned_as is, 1-d arrays keep their entries in order, and an unknown oned_as raises only for rank < 2.",
  "all scalars, sequences, arrays of every rank, every oned_as string",
  "all ranks and all strings",
  [A+"utils/misc.py:atleast_2d", A+"utils/misc.py:atleast_2d_row", A+"utils/misc.py:atleast_2d_col"])
# ---------------------------------------------------------------- simrunners
p("SimulationRunner evaluates every row exactly once, in order",
  "run(X) calls the simulation once per row, in row order, and row i of the M-by-1 output is the value returned by call i, for a simulation with arbitrary internal state; for a pure simulation row i of the output depends only on row i of X.",
  "all M, m, X and all stateful simulations",
  "histories of a stateful simulation are unbounded",
  [A+"utils/simrunners.py:SimulationRunner.run"])
p("A failing simulation stops the batch at that row",
  "If the simulation raises at row k, run raises that same exception, exactly the calls for rows 0..k have been made (in order) and their side effects persist; no later row is evaluated.",
  "all failure points k and all stateful simulations",
  "every crash point of every history",
  [A+"utils/simrunners.py:SimulationRunner.run", A+"utils/simrunners.py:SimulationGradientRunner.run"])
p("SimulationGradientRunner evaluates rows in order into the right rows",
  "run(X) returns an M-by-m array whose row i is the gradient returned by the i-th call; non-callables are rejected with TypeError at construction.",
  "all M, m, X and all stateful gradient functions",
  "histories of a stateful simulation are unbounded",
  [A+"utils/simrunners.py:SimulationGradientRunner"])
# ---------------------------------------------------------------- gradients
p("Finite-difference gradients",
  "finite_difference_gradients(X, fun, h) returns at (i,k) exactly (fun(x_i + h e_k) - fun(x_i))/h; it is the exact gradient for affine functions and any h != 0; and within L*h/2 of the partial derivative when that partial derivative is L-Lipschitz along e_k.",
  "all M, m, X, h and all functions",
  "the index arithmetic (two Kronecker products, a slice, a reshape, a transpose) has to be right for all sizes",
  [A+"gradients.py:finite_difference_gradients"])
p("Finite differences call the simulation M*(m+1) times",
  "finite_difference_gradients makes exactly M*(m+1) simulation calls: first the M base points in order, then for each coordinate k the M points perturbed along e_k.",
  "all M, m, X and stateful simulations",
  "call histories of every length",
  [A+"gradients.py:finite_difference_gradients"])
p("Local linear models recover affine functions",
  "If f is affine on the sample then every gradient row returned by local_linear_gradients is the slope vector, for every random choice of centres, provided each selected neighbourhood is affinely independent enough (full column rank).",
  "all affine functions, samples, positive weights, neighbour counts p and random choices",
  "quantifies over random choices and samples",
  [A+"gradients.py:local_linear_gradients"])
p("Local linear models use the p nearest other points",
  "In local_linear_gradients the model at a randomly chosen centre is fitted on the p sample points nearest to the centre, not including the centre itself.",
  "all samples, centres and p",
  "depends on the relation between a sort permutation and a mask for every sample order (the mask is applied in the wrong order in the code)",
  [A+"gradients.py:local_linear_gradients"])
p("Guards of local_linear_gradients",
  "local_linear_gradients raises if M <= m, if p is not an int, or if p is outside m+1..M; every call that passes these guards (in particular every call with the default p) completes.",
  "all M, m, p",
  "all sizes: with p = M, or default p with M = m+1, the code always fails although the guard admits it; m = 1 with the default p is always rejected",
  [A+"gradients.py:local_linear_gradients"])
# ---------------------------------------------------------------- designs
p("interval_design",
  "interval_design(a,b,N) with a < b returns N points, strictly increasing, equally spaced, strictly inside (a,b), with spacing (b-a)/(N+1) also to the end points.",
  "all a < b and all N",
  "all N",
  [A+"utils/designs.py:interval_design"])
p("Maximin designs lie in the polytope of the given vertices",
  "Every design point accepted by the linear constraints that maximin_design hands to the optimizer lies in the convex hull of `vert`.",
  "all vertex sets, N, and feasible optimizer outputs",
  "true only for vertex sets symmetric about the origin (as zonotopes are); the sign of the offset in the constraints is wrong for other polytopes",
  [A+"utils/designs.py:maximin_design"])
p("Multistart optimisers return the best of their starts",
  "maximin_design (3 starts), zonotope_minimize (10) and unbounded_minimize (10) return a run whose objective value is minimal among all starts (the first such), and the reported value is that run's value.",
  "all optimizer behaviours",
  "arbitrary optimizer outcomes",
  [A+"utils/designs.py:maximin_design", A+"optimizers.py:zonotope_minimize", A+"optimizers.py:unbounded_minimize"])
p("Reseeded routines are reproducible and leave the global random state alone",
  "maximin_design, zonotope_minimize and unbounded_minimize give a result that does not depend on the caller's global NumPy random state and restore that state when they return, or raise.",
  "all initial random states, all optimizer behaviours, every failing start",
  "every crash point: when a start fails the code raises before restoring the state, leaving the generator seeded with 42",
  [A+"utils/designs.py:maximin_design", A+"optimizers.py:zonotope_minimize", A+"optimizers.py:unbounded_minimize"])
p("Maximin objective and gradient",
  "The objective equals minus the smallest squared distance among distinct design points and between design points and vertices (capped at 1e10), and wherever that minimum is attained by a single pair the supplied gradient is the true gradient.",
  "all designs and vertex sets, all sizes",
  "index arithmetic on flattened arrays for all sizes; differentiability at all points off the tie set",
  [A+"utils/designs.py:_maximin_design_obj", A+"utils/designs.py:_maximin_design_grad"])
# ---------------------------------------------------------------- quadrature
p("Recurrence coefficients and Jacobi matrix",
  "r_hermite(N)/r_jacobi(N) return N+1 rows (r_hermite(1) one row) with the classical recurrence coefficients; jacobi_matrix of an (n+1)-row array with n >= 2 is the n-by-n symmetric tridiagonal matrix with diagonal a_k and off-diagonal sqrt(b_k); bad arguments raise TypeError/ValueError.",
  "all N, all coefficient arrays",
  "all sizes; a two-row array makes jacobi_matrix fail with IndexError",
  [A+"utils/quadrature.py:r_hermite", A+"utils/quadrature.py:r_jacobi", A+"utils/quadrature.py:jacobi_matrix"])
p("Gauss-Hermite exactness",
  "The N-point rule gh1d integrates every polynomial of degree <= 2N-1 exactly against the standard Gaussian.",
  "all N and all polynomials of degree <= 2N-1",
  "infinitely many N and polynomials",
  [A+"utils/quadrature.py:gh1d", A+"utils/quadrature.py:g1d"])
p("Gauss-Legendre exactness",
  "The N-point rule gl1d integrates every polynomial of degree <= 2N-1 exactly against the uniform density on [-1,1].",
  "all N and all polynomials of degree <= 2N-1",
  "infinitely many N and polynomials",
  [A+"utils/quadrature.py:gl1d", A+"utils/quadrature.py:g1d"])
p("One-dimensional rules are probability rules with sorted nodes",
  "The weights returned by gh1d/gl1d are non-negative and sum to one, the nodes are in ascending order, and there are N of them (one node 0 with weight 1 for N <= 1).",
  "all N",
  "all N",
  [A+"utils/quadrature.py:g1d"])
p("Tensor-product rules",
  "gauss_hermite([N1..Nd]) / gauss_legendre have prod(Ni) nodes in d columns, enumerate every combination of 1-d nodes exactly once with the product weight (last dimension fastest), weights are non-negative and sum to one, and products of univariate functions integrate to the product of the 1-d rules.",
  "all d and all lists of sizes",
  "all lengths of the size list",
  [A+"utils/quadrature.py:gauss_hermite", A+"utils/quadrature.py:gauss_legendre", A+"utils/designs.py:gauss_hermite_design"])
# ---------------------------------------------------------------- utils.response_surfaces
p("index_set enumerates the total-degree multi-indices",
  "index_set(n,d) lists every multi-index in d variables of total degree <= n exactly once, ordered by total degree, C(n+d,d) rows in all; row 0 is zero, rows 1..d are the unit vectors in order, and rows d+1..d+C(d+1,2) are exactly the degree-2 indices.",
  "all n and all d >= 1",
  "combinatorial enumeration for all n, d",
  [A+"utils/response_surfaces.py:index_set", A+"utils/response_surfaces.py:_full_index_set"])
p("Polynomial predictions and their gradients agree",
  "For a trained PolynomialApproximation predict(X)[0] is the polynomial with the trained monomial coefficients and predict(X, compgrad=True)[1] is its exact gradient at every row.",
  "all degrees, dimensions, coefficients and points",
  "derivative identity at all reals (including zero coordinates)",
  [A+"utils/response_surfaces.py:PolynomialApproximation.predict", A+"utils/response_surfaces.py:grad_polynomial_bases", A+"utils/response_surfaces.py:polynomial_bases"])
p("Polynomial regression reproduces polynomials",
  "If the data are values of a polynomial of total degree <= N and the sample is unisolvent, train recovers its coefficients, so predict equals the polynomial everywhere and R-squared is 1; fewer than C(N+m,m) samples raise an Exception.",
  "all N, m, polynomials and unisolvent samples",
  "all degrees and samples",
  [A+"utils/response_surfaces.py:PolynomialApproximation.train"])
p("g and H are the linear part and Hessian of the fit",
  "After train with degree 2, predict(x) = c + g^T x + x^T H x / 2 with H symmetric: g is the gradient at 0 and H the Hessian; for any degree >= 2 g and H are the gradient and Hessian at the origin.",
  "all m, data and points",
  "relies on the ordering of the index set for all m",
  [A+"utils/response_surfaces.py:PolynomialApproximation.train"])
p("R-squared range",
  "For unweighted training data that are not constant, the reported R-squared of PolynomialApproximation lies in [0,1], and equals 1 iff the fit interpolates the data.",
  "all data sets",
  "all data sets",
  [A+"utils/response_surfaces.py:PolynomialApproximation.train"])
p("Weighted polynomial regression minimises the weighted squared error",
  "train(X, f, weights) minimises sum_i weights_i * (residual_i)^2 and stores the given f.",
  "all positive weights",
  "all weights: the code scales rows by weights instead of sqrt(weights), so it minimises sum weights_i^2 r_i^2, and it stores weights*f",
  [A+"utils/response_surfaces.py:PolynomialApproximation.train"])
p("Radial basis matrix is a valid positive definite kernel matrix",
  "For positive length scales, exponential_squared(X,X,1,ell) is symmetric with unit diagonal, entries in (0,1], positive semidefinite; after the regularisation added in train it is positive definite, so every linear solve in train and predict is well posed when the polynomial block has full column rank.",
  "all samples (also with repeated points), all positive length scales, all v",
  "positive definiteness for all point sets",
  [A+"utils/response_surfaces.py:exponential_squared", A+"utils/response_surfaces.py:RadialBasisApproximation.train"])
p("Radial basis gradient",
  "RadialBasisApproximation.predict(X, compgrad=True)[1] is the exact gradient of predict(X)[0] at every point.",
  "all trained models and points",
  "derivative identity at all reals, argument order of the kernel gradient",
  [A+"utils/response_surfaces.py:RadialBasisApproximation.predict", A+"utils/response_surfaces.py:grad_exponential_squared"])
p("Radial basis training solves the regularised interpolation problem",
  "After train, predict at training point i equals f_i - v_i * radial_weight_i with v_i >= 1e-6 the regularisation used, the radial weights are orthogonal to all monomials of degree <= N, and if the data come from a polynomial of degree <= N (unisolvent sample) the model reproduces that polynomial everywhere.",
  "all data, length scales and regularisations",
  "all data sets",
  [A+"utils/response_surfaces.py:RadialBasisApproximation.train", A+"utils/response_surfaces.py:RadialBasisApproximation.predict"])
# ---------------------------------------------------------------- subspaces
p("sorted_eigh contract",
  "sorted_eigh(C) returns non-negative eigenvalues in descending order and an orthogonal matrix whose columns are matching eigenvectors (C w = e w for positive semidefinite C, C w = +-e w in general) with non-negative first component.",
  "all symmetric matrices, every tie-breaking of argsort, every eigenvector sign choice of LAPACK",
  "all matrices and all admissible LAPACK outputs",
  [A+"subspaces.py:sorted_eigh"])
p("Active subspace eigenvalues are mean squared directional derivatives",
  "active_subspace(df, weights) with non-negative weights decomposes sum_i w_i g_i g_i^T: e_j = sum_i w_i (g_i . w_j)^2, sum_j e_j = sum_i w_i |g_i|^2, the result does not depend on the order of the samples up to LAPACK choices, and the leading n columns maximise the captured squared derivative.",
  "all gradient samples and non-negative weights",
  "all samples",
  [A+"subspaces.py:active_subspace"])
p("OLS subspace is one-dimensional along the regression slope",
  "ols_subspace returns e_1 = |w|^2 with first eigenvector parallel to the weighted least-squares slope w, all other eigenvalues zero; for affine data w is the exact slope.",
  "all data with positive weights",
  "all data",
  [A+"subspaces.py:ols_subspace"])
p("QPHD matrix is the average outer product of the quadratic model's gradient",
  "qphd_subspace decomposes E[grad q grad q^T] of the fitted quadratic for inputs with zero mean and second moment gamma*I, with gamma = 1 for samples outside [-1,1] and 1/3 otherwise.",
  "all data sets",
  "the detection of unbounded samples only looks at the maximum: a sample below -1 but not above 1 is misclassified (a function object is compared with a float)",
  [A+"subspaces.py:qphd_subspace"])
p("Largest-gap partition",
  "eig_partition returns the smallest n in 1..m-1 that maximises |e_n - e_{n+1}|; m = 1 raises.",
  "all spectra and all m",
  "all spectra including ties",
  [A+"subspaces.py:eig_partition"])
p("Error-bound and ladle partitions",
  "errbnd_partition returns the smallest minimiser in 1..m-1 of sqrt(e_1+..+e_n)*err_n + sqrt(e_{n+1}+..+e_m); ladle_partition returns the smallest n in 1..m minimising li_F[n] + e_n/sum(e).",
  "all spectra, error vectors, all m",
  "all spectra including ties",
  [A+"subspaces.py:errbnd_partition", A+"subspaces.py:ladle_partition"])
p("Every partition rule yields an admissible dimension",
  "Whatever data and partition type, the dimension chosen inside compute is accepted by partition: 1 <= n <= m, so a compute that reached the partition step never fails there.",
  "all spectra, bootstrap outcomes and m >= 2",
  "all data",
  [A+"subspaces.py:Subspaces.compute", A+"subspaces.py:Subspaces.partition"])
p("Bootstrap ranges",
  "The bootstrap e_br columns satisfy lower <= upper and bracket every replicate's eigenvalue, sub_br columns satisfy 0 <= min <= mean <= max <= 1 for orthogonal eigenvector matrices, and each replicate consists of rows of the original data with X, f, df and weights kept paired.",
  "all data, all resampling draws, all nboot >= 1",
  "all resampling histories",
  [A+"subspaces.py:_bootstrap_ranges", A+"subspaces.py:_bootstrap_replicate"])
p("W1 and W2 always partition the current eigenvectors",
  "In every reachable state of a Subspaces object in which W1 is set, [W1 W2] equals eigenvecs (W1 its first n columns) with 1 <= n <= m.",
  "all call histories of compute and partition, successful or raising",
  "history property; a raising compute on an already computed object leaves new eigenvectors with the old W1, W2",
  [A+"subspaces.py:Subspaces.compute", A+"subspaces.py:Subspaces.partition"])
p("compute argument checking",
  "compute raises when neither X nor df is given, when the data required by sstype are missing, when sstype or ptype is unknown, and when ptype is RS or LI without bootstrap; otherwise (with m >= 2) it succeeds; unknown sstype leaves the object untouched.",
  "all combinations of optional arguments and strings",
  "all argument combinations and strings",
  [A+"subspaces.py:Subspaces.compute"])
# ---------------------------------------------------------------- domains
p("Active variable maps invert each other",
  "For orthogonal eigenvectors, forward(inverse(Y,N)[0])[0] repeats each row of Y N times as told by ind (row r belongs to Y row ind[r] = r div N), X = Y W1^T + Z W2^T, and x.x = y.y + z.z.",
  "all m, n, N, Y, all choices of the inactive variables",
  "tile/concatenate/transpose/reshape index arithmetic for all sizes",
  [A+"domains.py:ActiveVariableMap.forward", A+"domains.py:ActiveVariableMap.inverse", A+"domains.py:_rotate_x"])
p("Rejection sampling is sound",
  "Whatever the random draws and box, every row returned by rejection_sampling_z satisfies -1 <= W1 y + W2 z <= 1, there are exactly N rows, and None is returned iff fewer than N of the 50N candidates are feasible.",
  "all draws, y, W1, W2, N",
  "all random histories",
  [A+"domains.py:rejection_sampling_z"])
p("Hit-and-run stays in the polytope",
  "Every row returned by hit_and_run_z satisfies -1 <= W1 y + W2 z <= 1 when the Chebyshev centre is feasible.",
  "all draws, y, W1, W2, N",
  "constraints within sqrt(eps) of being active are ignored when the step bounds are computed, and constraints orthogonal to the direction divide by zero",
  [A+"domains.py:hit_and_run_z"])
p("Random walk samples are feasible",
  "Every row returned by random_walk_z satisfies -1 <= W1 y + W2 z <= 1 when the starting point does.",
  "all draws, y, W1, W2, N",
  "the (m-n)-by-N sample array is reshaped instead of transposed, mixing coordinates of different samples for N, m-n >= 2",
  [A+"domains.py:random_walk_z"])
p("Bounded inverse map lands in the hypercube",
  "Every point returned by BoundedActiveVariableMap.inverse (when the rejection sampler succeeds for every row) lies in [-1,1]^m and maps forward to the requested active variables.",
  "all Y, N, random draws",
  "all random histories",
  [A+"domains.py:BoundedActiveVariableMap.regularize_z", A+"domains.py:sample_z"])
p("interval_endpoints is the exact range of a 1-d active variable",
  "interval_endpoints(W1) returns [-|W1|_1, |W1|_1] = the exact image of [-1,1]^m under x -> W1^T x, and rows of X that attain the two ends; the rows are corners of the cube iff W1 has no zero entry.",
  "all m and all W1",
  "all W1",
  [A+"domains.py:interval_endpoints"])
p("nzv counts zonotope vertices",
  "nzv(m,n) = 2*sum_{i<n} C(m-1,i); it satisfies the Pascal recurrence, equals 2^m for n >= m >= 1, and is an upper bound for the number of sign vectors sign(W1 z) without zeros, for every W1.",
  "all m, n, W1",
  "all m, n and matrices",
  [A+"domains.py:nzv"])
p("zonotope_vertices",
  "Whatever the random draws, zonotope_vertices stops after at most maxcount+1 extra rounds, returns sign rows X closed under negation with Y = X W1, rows without zeros once and rows with zeros at most twice, prints the warning iff fewer than nzv rows were found, and (no zero products) never returns more than nzv rows; if it returns nzv rows, X contains every attainable zero-free sign vector.",
  "all W1, random histories, Nsamples, maxcount",
  "all random histories",
  [A+"domains.py:zonotope_vertices", A+"domains.py:unique_rows"])
p("The vertex hull is the active variable domain",
  "If zonotope_vertices returns all nzv vertices (no warning) and W1 has no zero row, the convex hull of vertY is exactly the set of active variables {W1^T x : x in [-1,1]^m}.",
  "all W1 in general position, all random histories",
  "set equality over all points of the cube",
  [A+"domains.py:zonotope_vertices", A+"domains.py:BoundedActiveVariableDomain.compute_boundary"])
p("Domain constraints describe the domain",
  "The `constraints` of a BoundedActiveVariableDomain are satisfied by exactly the points of the convex hull of vertY.",
  "all points, all zonotopes",
  "correct only because zonotopes are symmetric; all points",
  [A+"domains.py:BoundedActiveVariableDomain.compute_boundary"])
p("Domains track the subspace they were built from",
  "Building a domain from an uncomputed Subspaces raises; after compute_boundary the stored boundary is that of the current W1.",
  "all histories of partition / compute_boundary",
  "history property; m and n attributes are not refreshed by compute_boundary",
  [A+"domains.py:BoundedActiveVariableDomain", A+"domains.py:UnboundedActiveVariableDomain"])
# ---------------------------------------------------------------- AS response surfaces
p("Active subspace response surfaces are ridge functions with exact chain-rule gradients",
  "ActiveSubspaceResponseSurface.predict(x) depends on x only through W1^T x (adding any inactive component changes nothing), and predict(X, compgrad=True)[1] is the gradient of predict with respect to x whenever the inner surface's gradient is exact.",
  "all inner surfaces, points and inactive perturbations",
  "all points and surfaces",
  [A+"response_surfaces.py:ActiveSubspaceResponseSurface.predict", A+"response_surfaces.py:ActiveSubspaceResponseSurface.gradient"])
p("train_with_interface pairs conditional means with their design points",
  "The training set passed to the inner surface has one row per design point followed (bounded case) by one row per domain vertex; the value for a design point is the mean of the simulation over its NMC inverse points and the value for a vertex is the simulation at that vertex, with variance 0.",
  "all N, NMC, simulations, domains",
  "index bookkeeping for all sizes",
  [A+"response_surfaces.py:ActiveSubspaceResponseSurface.train_with_interface", A+"response_surfaces.py:av_design"])
# ---------------------------------------------------------------- integrals
p("integrate is the weighted sum over its quadrature rule",
  "integrate returns mu = sum_r Xw_r * fun(Xp_r) for the rule returned by quadrature_rule, lb <= mu <= ub with half-width 1.96*sqrt(sum w_i^2 V_i / NMC); it is linear in fun and exact for constants when the weights sum to one.",
  "all rules, simulations, NMC >= 1",
  "all simulations and sizes",
  [A+"integrals.py:integrate", A+"integrals.py:quadrature_rule"])
p("Quadrature weights over active variables",
  "av_quadrature_rule returns non-negative weights; they sum to one for Gauss-Hermite and for the interval rule whatever the samples drawn from the cube, and to one minus the fraction of samples outside the triangulation for the zonotope rule.",
  "all W1, N >= 1, NX >= 1 and all samples",
  "all random histories",
  [A+"integrals.py:interval_quadrature_rule", A+"integrals.py:zonotope_quadrature_rule", A+"integrals.py:av_quadrature_rule"])
p("Interval rule nodes are bin midpoints",
  "interval_quadrature_rule places node k at the midpoint of the k-th of N equal subintervals of [vertY[0],vertY[1]] and gives it the fraction of samples in that subinterval (half open, last one closed).",
  "all intervals, N, samples",
  "all N and samples on bin edges",
  [A+"integrals.py:interval_quadrature_rule"])
p("av_integrate is exact for low-degree polynomials on Gaussian domains",
  "For an unbounded domain av_integrate uses floor(N^(1/n))^n <= N nodes and integrates products of univariate polynomials of degree <= 2*floor(N^(1/n))-1 exactly.",
  "all n, N >= 1",
  "all n, N",
  [A+"integrals.py:av_integrate", A+"integrals.py:av_quadrature_rule"])
# ---------------------------------------------------------------- optimizers
p("minimize returns a consistent pair",
  "The x returned by minimize maps forward to the active minimiser, so the response surface evaluated at x equals the returned minimum; in the bounded case x lies in the hypercube.",
  "all surfaces and optimizer behaviours",
  "all surfaces",
  [A+"optimizers.py:minimize", A+"optimizers.py:av_minimize", A+"optimizers.py:BoundedMinVariableMap.regularize_z"])
p("UnboundedMinVariableMap minimises the quadratic surrogate over the inactive variables",
  "regularize_z returns, for each active y, the z that minimises the trained quadratic model (with the 0.01 ridge) restricted to that y.",
  "all trained models and y",
  "the code solves with +c instead of -c: it returns the reflection of the minimiser, a critical point only if c = 0",
  [A+"optimizers.py:UnboundedMinVariableMap.regularize_z"])
p("BoundedMinVariableMap minimises the quadratic surrogate over the feasible inactive variables",
  "regularize_z returns, for each active y, a z in the polytope that minimises the trained quadratic model (with the 0.01 ridge) restricted to that y.",
  "all trained models and y",
  "the QP solver's objective is c^T z + z^T Q z but Q is passed the Hessian, so the quadratic term is doubled",
  [A+"optimizers.py:BoundedMinVariableMap.regularize_z", A+"utils/qp_solver.py:QPSolver.quadratic_program_ineq"])
p("MinVariableMap.train restricts the fitted quadratic correctly",
  "The private vectors set by train are the gradient and Hessian blocks of the fitted quadratic x -> q(W_p^T x) with respect to the inactive variables, with p = n+2 when m-n > 2 and n+1 otherwise.",
  "all data, m, n",
  "block matrix identity for all sizes",
  [A+"optimizers.py:MinVariableMap.train"])
# ---------------------------------------------------------------- qp solver
p("LP/QP back ends solve the same documented problem",
  "For every method of QPSolver the feasible set and objective handed to SciPy and to Gurobi coincide with the documented problem (A x >= b, bounds, c^T x (+ x^T Q x)), so an optimal back-end answer is a minimiser of the documented problem.",
  "all problem data and all x",
  "all problem data; sign conventions differ between back ends",
  [A+"utils/qp_solver.py"])
p("QPSolver never returns an unsolved problem",
  "If the back end reports failure the method raises and writes one dump file; it never returns a value; the constructor always selects an available back end and falls back to SciPy for unknown names or a missing Gurobi.",
  "all back-end outcomes and solver names",
  "all failure outcomes",
  [A+"utils/qp_solver.py:QPSolver"])
p("QP gradients are consistent for symmetric Q",
  "The gradient handed to the optimizer is the gradient of the objective handed to it whenever Q is symmetric (and is wrong for some non-symmetric Q).",
  "all c, symmetric Q, x",
  "all symmetric matrices",
  [A+"utils/qp_solver.py:_scipy_quadratic_program_ineq", A+"utils/qp_solver.py:_scipy_quadratic_program_bnd"])
# ---------------------------------------------------------------- found while modelling
p("PolynomialApproximation.train works for every degree",
  "With at least C(N+m,m) samples train completes for every degree N >= 0, including the constant fit N = 0.",
  "all N, m >= 1, samples and weights",
  "the failing degree is outside the values the tests use",
  [A+"utils/response_surfaces.py:PolynomialApproximation.train"])
p("RadialBasisApproximation.train completes on every sample that determines the polynomial part",
  "If the only polynomial of degree <= N vanishing on the training points is zero, train completes for every non-negative noise, also when points repeat.",
  "all N, m, point sets, data, non-negative noise and positive eigenvalues",
  "needs repeated points with zero effective noise; tests use random points",
  [A+"utils/response_surfaces.py:RadialBasisApproximation.train", A+"utils/response_surfaces.py:_rbf_objective"])
p("RadialBasisApproximation R^2 lies in [0,1]",
  "For nonzero data the stored Rsqr lies in [0,1] and equals 1 exactly when a polynomial of degree <= N interpolates the data.",
  "all data, N, m",
  "needs the saddle-point identity for all data",
  [A+"utils/response_surfaces.py:RadialBasisApproximation.train"])
p("The RBF training objective is the negative log likelihood",
  "_rbf_objective equals, up to a constant independent of log10g, the negative log likelihood of the data under the Gaussian process with covariance s K and polynomial mean, minimised over the mean coefficients and the scale s.",
  "all data and all log10g in [-10, 1]",
  "compares functions on an interval; the scale term carries weight M instead of M/2",
  [A+"utils/response_surfaces.py:_rbf_objective"])
p("OPG recovers the slope of affine data",
  "For values of an affine function on a sample in general position with positive weights, opg_subspace returns the squared length of the slope as first eigenvalue, zeros after it, and a first eigenvector of which the slope is a multiple, whatever the random generator draws.",
  "all m >= 2, M > floor(1.7 m), samples in general position, slopes, weights and generator states",
  "random centres; all samples and slopes",
  [A+"subspaces.py:opg_subspace"])
p("av_design places its points in the domain of the active variables",
  "On a bounded domain built for the current W1 every design point is the active variable of some point of the cube, so the inverse map has feasible inactive variables for it; with one active variable the points divide the whole range into N+1 equal parts.",
  "all W1, N, domains and optimisers that respect their constraints",
  "all subspaces; the maximin constraint is right only for symmetric vertex sets",
  [A+"response_surfaces.py:av_design", A+"utils/designs.py", A+"domains.py:BoundedActiveVariableDomain.compute_boundary"])
T = "tutorials/"
p("The gradients of circuit, piston and wing are the gradients of the functions",
  "For every array of rows in the cube [-1,1]^m, row i of circuit_grad, piston_grad and wing_grad is the gradient, with respect to the normalised inputs, of the function whose values circuit, piston and wing return.",
  "all M and all rows in the cube",
  "partial derivatives at uncountably many points; finite differences test a few to limited accuracy",
  [T+"test_functions/otl_circuit/otlcircuit_functions.py", T+"test_functions/piston/piston_functions.py", T+"test_functions/wing_weight/wing_functions.py"])
p("robot_grad is the gradient of robot away from the shoulder",
  "Row i of robot_grad is the gradient of the function whose values robot returns wherever that value is not zero; on the cube the values lie in [0,4].",
  "all M and all rows, also outside the cube, with nonzero value",
  "partial derivatives at uncountably many points; the zero set has measure zero so random tests miss it",
  [T+"test_functions/robot/robot_functions.py"])
p("borehole_grad is the gradient of borehole",
  "For float arrays row i of borehole_grad is the gradient of the function whose values borehole returns wherever 0 < rw < r and the six bounded inputs are in [-1,1]; for integer arrays the assignments into the copy truncate.",
  "all M and all rows with 0 < rw < r",
  "partial derivatives at uncountably many points; element types are not varied by tests",
  [T+"test_functions/borehole/borehole_functions.py"])
p("The wing_grad of the first tutorial is the gradient of its wing",
  "Row i of wing_grad is the gradient of wing with respect to the columns of its argument, on the box of the function.",
  "all M and all rows in the box, in the units of the function",
  "the fourth column differs by the factor pi/180; the notebook multiplies by it afterwards",
  [T+"wing_functions.py"])
p("The functions of the tutorials accept exactly the documented shapes",
  "An M-by-m array gives M rows; a vector is one row; more than two dimensions or another number of columns is an error.  A single column is repeated by the functions on the unit box, and the functions of the first tutorial ignore columns after the tenth.",
  "all arrays",
  "all shapes",
  [T+"test_functions/otl_circuit/otlcircuit_functions.py", T+"test_functions/piston/piston_functions.py", T+"test_functions/robot/robot_functions.py", T+"test_functions/wing_weight/wing_functions.py", T+"test_functions/borehole/borehole_functions.py", T+"wing_functions.py"])
p("robot, piston, circuit and borehole compute the quantities they are named after",
  "robot is the distance of the hand of a four-link arm; piston is 2 pi sqrt(M/K) for the stiffness K at the only volume where the forces balance; circuit is the only voltage at which the currents into the node balance; borehole is the only flow whose head drop over the three resistances is Hu - Hl.",
  "all M and all rows in the cube (robot: all rows; borehole: 0 < rw < r)",
  "equations that hold at every input; a test compares with the same formula or with stored numbers",
  [T+"test_functions/robot/robot_functions.py:robot", T+"test_functions/piston/piston_functions.py:piston", T+"test_functions/otl_circuit/otlcircuit_functions.py:circuit", T+"test_functions/borehole/borehole_functions.py:borehole"])
PL = A+"utils/plotters.py:"
p("Plots are saved only on request and under the documented names",
  "A plotting function writes no file unless savefigs is set, writes no file with another name than figs/<kind>_<label><type>, also when it raises, and makes the directory only through plot_opts; without opts it behaves as with plot_opts().",
  "all arguments and options, every state of the directory and of pyplot",
  "side effects in every run, including runs that fail half way",
  [PL+"plot_opts", PL+"eigenvalues", PL+"subspace_errors", PL+"eigenvectors", PL+"sufficient_summary", PL+"zonotope_2d_plot"])
p("The figure that is shown and saved contains the data",
  "eigenvalues, subspace_errors, eigenvectors and sufficient_summary show one figure (sufficient_summary with two active variables: two) with exactly the given curves and bands over 1, 2, ...; eigenvectors the first four columns, each with its own pair of bounds; and the saved file is that figure.",
  "all numbers of rows and columns, all values, labels and options, any figures already open",
  "the tests of the plotters only call them; nothing looks at what is drawn",
  [PL+"eigenvalues", PL+"subspace_errors", PL+"eigenvectors", PL+"sufficient_summary"])
p("The file of zonotope_2d_plot contains the figure that was shown",
  "zonotope_2d_plot saves the figure with the hull, the triangulation and the points that it shows.",
  "all vertices, designs, points and options, both kinds of backends",
  "tests run with a non-interactive backend, where plt.show does nothing",
  [PL+"zonotope_2d_plot"])
p("Eigenvalues, subspace errors and eigenvectors lie within the axis limits",
  "No point of a curve or band lies outside the axis limits of its panel, and the lower limit of a logarithmic axis is positive, for positive eigenvalues, subspace errors in (0,1] and orthonormal eigenvectors.",
  "all k, m, n and all such values",
  "limits are computed from the data; a test would have to look at every point",
  [PL+"eigenvalues", PL+"subspace_errors", PL+"eigenvectors"])
p("Axis limits taken from part of the data, or by scaling, show all of it",
  "The limits of eigenvalues with bootstrap ranges, of the bivariate summary plot and of the zonotope plot leave no data out.",
  "all values; for the zonotope plot all vertices symmetric about the origin, designs and points in their hull",
  "the limits fail only for data on one side of the origin or outside the ranges",
  [PL+"eigenvalues", PL+"sufficient_summary", PL+"zonotope_2d_plot"])
p("Plotting functions refuse arrays of wrong shape before drawing",
  "Wrong numbers of columns, one of y and f without the other and different lengths raise the documented exception and leave pyplot and the directory as they were; responses of different length raise ValueError and nothing is saved.",
  "all shapes",
  "all shapes and combinations of optional arguments",
  [PL+"eigenvectors", PL+"sufficient_summary", PL+"zonotope_2d_plot"])
p("An options dictionary with the documented keys can be used",
  "A dictionary with the keys figtype, savefigs and font, as documented for plot_opts, is accepted by the plotting functions.",
  "all such dictionaries",
  "tests use the dictionary that plot_opts makes",
  [PL+"plot_opts", PL+"eigenvalues", PL+"subspace_errors", PL+"eigenvectors", PL+"sufficient_summary"])
p("zonotope_vertices finds the vertices also when an input has no influence",
  "If zonotope_vertices prints no warning, its rows are different and their hull is the set of active variables of the cube, also if W1 has a zero row.",
  "all W1 and draws",
  "only a matrix with an exact zero row and particular draws show it",
  [A+"domains.py:zonotope_vertices", A+"domains.py:unique_rows"])
p("local_linear_gradients weighs the observations",
  "With weights given, every row of the result is the slope of a fit over the neighbours of a centre that minimises the sum of squares weighted by the weights of the observations.",
  "all samples of distinct points, responses and positive weights",
  "a different fit looks like a plausible gradient; nothing in a test run shows which sum of squares it minimises",
  [A+"gradients.py:local_linear_gradients"])
p("local_linear_gradients returns one gradient per observation",
  "The result of local_linear_gradients has M rows for M observations, as documented.",
  "all M, m, p and weights",
  "the number of rows depends on M and m through a logarithm; single shapes do not show the rule",
  [A+"gradients.py:local_linear_gradients"])
p("The rows of vertY are vertices of the zonotope and nzv is the number of vertices in general position",
  "A row of vertY that belongs to a row of vertX without zeros is an extreme point of the zonotope, differs from all other rows and is the image of no other point of the cube; a zonotope has at most nzv(m,n) vertices, and exactly nzv(m,n) iff any n rows of W1 are linearly independent.",
  "all W1 without zero row, all draws",
  "extreme points and counts over all matrices; a test sees single polygons",
  [A+"domains.py:zonotope_vertices", A+"domains.py:nzv"])
p("The warning of zonotope_vertices means that vertices are missing",
  "zonotope_vertices prints its warning, and goes on sampling, only as long as a vertex of the zonotope is missing.",
  "all W1 and draws",
  "depends on an exact degeneracy of W1 and runs for 10^9 samples",
  [A+"domains.py:zonotope_vertices", A+"domains.py:nzv"])
p("Designs and rules have the documented size",
  "av_design returns N design points and N*NMC points in the full space; the quadrature rule on the active variables has N nodes.",
  "all N, NMC, n, domains",
  "equality holds for bounded domains and for perfect powers, which is what tests use",
  [A+"response_surfaces.py:av_design", A+"integrals.py:av_quadrature_rule"])
p("R-squared of a weighted polynomial fit lies between 0 and 1",
  "After PolynomialApproximation.train with positive weights, Rsqr lies in [0, 1] and equals 1 iff the surface interpolates the data.",
  "all samples, responses with non-constant weighted values, positive weights, degrees at least 1",
  "with equal weights the bound holds and unequal weights mostly give values in the range; a universal bound needs the minimising property of the fit",
  [A+"utils/response_surfaces.py:PolynomialApproximation.train"])
p("r_jacobi gives the Gauss rules of the Jacobi weights",
  "For N >= 1, l < r and a, b > -1 the polynomials generated by r_jacobi(N, l, r, a, b) are orthogonal on [l, r] for the weight (r-x)^a (x-l)^b; for N >= 2 the eigenvalues of the Jacobi matrix lie inside (l, r) and form, with the squared first components of the unit eigenvectors, the rule exact for degree 2N-1.",
  "all N, l < r, a > -1, b > -1",
  "continuous families of weights; the library itself only calls it with a = b = 0",
  [A+"utils/quadrature.py:r_jacobi", A+"utils/quadrature.py:jacobi_matrix"])
p("Gauss rules are symmetric and Gauss-Legendre nodes lie inside the cube",
  "The nodes of g1d come in opposite pairs of equal weight, so odd functions integrate to 0; all coordinates of the nodes of gauss_legendre lie strictly between -1 and 1.",
  "all sizes, both types, all lists of sizes",
  "for all sizes; tests check a few small ones",
  [A+"utils/quadrature.py:g1d", A+"utils/quadrature.py:gauss_legendre"])
p("Training again forgets the past, and a failed training changes nothing",
  "After a successful train the attributes of a response surface depend on its degree and the new data only; if train raises, the object is unchanged (polynomials: degree at least 1).",
  "all objects in any state, all arrays, weights, noise levels and eigenvalues",
  "quantifies over all previous states of the object and all failures",
  [A+"utils/response_surfaces.py:PolynomialApproximation.train", A+"utils/response_surfaces.py:RadialBasisApproximation.train"])
p("gradient is the derivative of __call__",
  "For both trained response surfaces there is a function F such that surface(X) holds its values and surface.gradient(X) its gradients at the rows of X; untrained surfaces raise.",
  "all samples, dimensions, degrees and points",
  "derivatives at all points of all trained surfaces",
  [A+"utils/response_surfaces.py:ResponseSurface.gradient", A+"utils/response_surfaces.py:ResponseSurface.__call__"])
p("The metric of the ladle is a normalised variability of the subspaces",
  "Entry i of li_F is the mean over the replicates of 1 - |det(W[:,:i]^T W0[:,:i])| divided by the sum over i: 0 for i = 0, never negative, of sum 1, and 0 exactly if no replicate changes the span of the first i eigenvectors; if no replicate changes any of them all entries are nan.",
  "all data, sizes, draws and numbers of replicates",
  "the sign and the zeros rest on an inequality for determinants; random resampling",
  [A+"subspaces.py:_bootstrap_ranges"])
p("Eigenvalues are stable under errors of the gradients",
  "If every gradient has length at most L and is computed with an error of length at most eps, then every eigenvalue returned by active_subspace changes by at most eps (2 L + eps) times the sum of the weights.",
  "all gradients, errors, non-negative weights, dimensions and all choices of the eigenvalue routine",
  "a perturbation bound for all matrices",
  [A+"subspaces.py:active_subspace", A+"subspaces.py:sorted_eigh"])
p("The active subspace is stable under errors of the gradients if there is a gap",
  "With d = eps (2 L + eps) times the sum of the weights and a gap e_n - e_(n+1) > d, the distance of the subspaces of the first n eigenvectors from exact and from inexact gradients (largest projection of a unit vector orthogonal to one on the other) is at most d / (e_n - e_(n+1) - d).",
  "all gradients, errors, non-negative weights, 1 <= n < m and all choices of the eigenvalue routine",
  "a perturbation bound for invariant subspaces; tests see single matrices",
  [A+"subspaces.py:active_subspace", A+"subspaces.py:sorted_eigh"])
p("Active subspaces from finite differences converge",
  "If the partial derivatives have Lipschitz constant K along their coordinates, the eigenvalues of active_subspace applied to finite_difference_gradients with step h differ from those of the exact gradients by at most eps (2 L + eps) times the sum of the weights, eps = K h sqrt(m) / 2.",
  "all such functions, points, steps h > 0 and non-negative weights",
  "all functions and a rate in h",
  [A+"gradients.py:finite_difference_gradients", A+"subspaces.py:active_subspace"])
p("Polynomials of the active variables are recovered exactly",
  "If the data are f(x) = P(W1^T x) with P of degree at most N, an ActiveSubspaceResponseSurface with a polynomial surface of degree N is P(W1^T x) everywhere after training, with the exact gradient and R-squared 1: for train_with_data if the active variables of the samples determine polynomials of degree N; for train_with_interface on an unbounded domain if floor(N_design^(1/n)) > N, and with one active variable on the cube if N_design + 2 > N, whatever inactive variables are drawn.",
  "all polynomials, subspaces, degrees, designs and random draws",
  "a statement about all polynomials, all points and all random draws of the inverse map",
  [A+"response_surfaces.py:ActiveSubspaceResponseSurface.train_with_data", A+"response_surfaces.py:ActiveSubspaceResponseSurface.train_with_interface", A+"response_surfaces.py:av_design"])
p("The random walk is a Metropolis chain for the uniform distribution",
  "random_walk_z makes 11 N moves with normal proposals of one tenth of the distance of the starting point to the nearer of the corners (1,...,1) and (-1,...,-1), stays when the proposal leaves the polytope, and returns the last N states; a move satisfies detailed balance for the uniform distribution on the polytope, which is therefore the distribution after any number of moves if it is the one of the start.",
  "all subspaces, active variables, numbers of samples and random draws",
  "a statement about distributions; a biased chain passes tests of feasibility",
  [A+"domains.py:random_walk_z"])
p("Rejection sampling is uniform on the polytope",
  "If the uniform numbers are independent, then given that rejection_sampling_z succeeds its N samples are independent and uniformly distributed on the polytope of the inactive variables; it succeeds exactly when a binomial variable with 50 N trials, whose probability is the volume of the polytope over that of its bounding box, is at least N.",
  "all subspaces, active variables, numbers of samples and measurable sets; over the law of the random numbers",
  "a statement about the joint distribution of the samples; no test of samples proves it",
  [A+"domains.py:rejection_sampling_z"])
p("The notebooks pass values and gradients with respect to normalised inputs",
  "For inputs in the table of each notebook (circuit, piston, robot arm, wing weight, borehole, and basic.ipynb) the cells run; XX is in the cube (for the borehole, the uniform inputs), maps back to the inputs, f is the formula of the notebook at the inputs and the rows of df are the gradients of that formula as a function of XX (robot arm: where f is not zero). In basic.ipynb, whose upper and lower bounds are exchanged, XX and df are those of the wing weight notebook with the opposite sign, and active_subspace returns the same.",
  "all numbers of samples and all inputs in the tables (borehole: 0 < rw < r)",
  "gradients with a wrong scale or sign still give plots; all inputs of the tables",
  [T+"basic.ipynb:wing", T+"test_functions/otl_circuit/otlcircuit_example.ipynb:circuit", T+"test_functions/piston/piston_example.ipynb:piston", T+"test_functions/robot/robot_example.ipynb:robot", T+"test_functions/wing_weight/wing_example.ipynb:wing", T+"test_functions/borehole/borehole_example.ipynb:borehole"])
p("Objects that are not ready are refused and nothing is changed",
  "partition before compute, with a dimension that is not an integer or out of range, domains and maps of subspaces without a partition, integrals, response surfaces and minimisation with such maps or with objects of the wrong class, and predictions of surfaces that were not trained all raise the documented class of exception, before a random number is drawn, a simulation run or a file or attribute written.",
  "all arguments and all states of the world",
  "no test tries every argument and observes that the generator, the files and the attributes are unchanged",
  [A+"subspaces.py:Subspaces.partition", A+"domains.py:ActiveVariableMap", A+"domains.py:BoundedActiveVariableDomain", A+"integrals.py:integrate", A+"response_surfaces.py:ActiveSubspaceResponseSurface", A+"optimizers.py:minimize"])
p("Numbers of nodes and samples that are not positive are refused",
  "No integral and no trained surface is returned for a number of nodes or of Monte Carlo samples that is not positive, and the simulation is not run. The code violates this for the number of nodes: the Gauss rules take every number below one for one, and the interval rule without nodes makes every integral zero.",
  "all maps, integrands, numbers and states of the world",
  "covers every integrand and every non-positive number",
  [A+"integrals.py:integrate", A+"integrals.py:av_integrate", A+"integrals.py:interval_quadrature_rule", A+"utils/quadrature.py:g1d", A+"response_surfaces.py:ActiveSubspaceResponseSurface.train_with_interface"])
p("Arrays with a wrong number of columns are refused",
  "An array whose number of columns is not the number of inputs (active variables) the object was made or trained for is refused by the normalizers, forward and inverse maps, trained polynomial and radial basis surfaces and ActiveSubspaceResponseSurface. The code violates this where NumPy repeats a single column: normalize and unnormalize on a box, normalize for Gaussian inputs, and predict of a radial basis surface of degree zero return the values for equal inputs; a normalizer with one bound accepts any number of columns.",
  "all arrays, all objects, all training data",
  "every wrong number of columns, and every value; a wrong result has the right shape",
  [A+"utils/misc.py:BoundedNormalizer", A+"utils/misc.py:UnboundedNormalizer", A+"domains.py:ActiveVariableMap", A+"utils/response_surfaces.py:PolynomialApproximation.predict", A+"utils/response_surfaces.py:RadialBasisApproximation.predict", A+"response_surfaces.py:ActiveSubspaceResponseSurface.predict"])
p("A step of hit-and-run is uniform on the chord and preserves the uniform distribution",
  "In hit_and_run_z the new point is uniformly distributed on the chord of the polytope through the current point in the direction drawn: the ends of the step are the ends of the chord. For every direction such a step satisfies detailed balance for the uniform distribution on the polytope and preserves it. The code violates the first part when the direction is parallel to a face, so always when a row of W2 is zero: then no finite point is produced; and it leaves out constraints with a slack of sqrt(eps) or less.",
  "all subspaces, active variables, points with slack above sqrt(eps), directions, measurable sets; over the law of the random number",
  "a statement about distributions; a wrong end of the step still gives points of the polytope",
  [A+"domains.py:hit_and_run_z"])
p("Active subspaces from random samples converge",
  "For independent gradients with the same distribution and finite second moments the matrix that active_subspace decomposes has the right mean, and almost surely, as the number of samples grows, the eigenvalues converge to those of the matrix of second moments, the projections on the first n eigenvectors converge if the limit has a gap after n, and, if that gap is strictly the largest, Subspaces.compute chooses n columns for W1 for all large samples and the projections on them converge.",
  "all distributions of the gradients with finite second moments, all numbers of inputs; almost surely in the samples",
  "a limit of infinitely many samples and a statement with probability one",
  [A+"subspaces.py:active_subspace", A+"subspaces.py:eig_partition", A+"subspaces.py:Subspaces.compute"])
p("integrate is unbiased for Gaussian inputs",
  "On an unbounded domain, with independent standard normal draws: the mean of the estimate returned by integrate is the rule on the active variables applied to the conditional means of the function given the active variables; its variance is the sum of squared weights times conditional variances at the nodes over NMC; and if the rule has q^n nodes, the mean of the estimate is exactly the integral of the function against the standard normal weight on all inputs for every polynomial of total degree at most 2q-1, and for every integrable function that is a polynomial of degree at most 2q-1 in each active variable.",
  "all orthogonal splits of the inputs, all integrable functions, all N and NMC >= 1; expectation over the draws",
  "an expectation over continuous random draws and all polynomials",
  [A+"integrals.py:integrate", A+"integrals.py:quadrature_rule", A+"domains.py:UnboundedActiveVariableMap.regularize_z"])
p("The standard error behind the confidence bounds of integrate has the right size",
  "On an unbounded domain the square of the half width of the interval [lb, ub], divided by 1.96 squared, has as its mean the variance of the estimate.",
  "all functions with finite conditional variances, all NMC >= 1; expectation over the draws",
  "an expectation over continuous random draws",
  [A+"integrals.py:integrate"])
p("Weights of the rules on bounded domains are unbiased estimates of cell probabilities",
  "With independent samples uniform on the cube, the nodes (and the triangulation) are not random; each weight of interval_quadrature_rule has as its mean the probability that a uniform point of the cube is mapped by W1^T to the cell of its node, and each weight of zonotope_quadrature_rule the probability that the image is found in its simplex; the variance is p(1-p)/NX; and the weight is wrong by eps or more with probability at most 1/(4 NX eps^2).",
  "all W1, all boundaries, all N and NX >= 1, all measurable triangulations; expectation over the draws",
  "an expectation and a probability over continuous random draws",
  [A+"integrals.py:interval_quadrature_rule", A+"integrals.py:zonotope_quadrature_rule"])
p("Error of av_integrate on bounded domains",
  "With independent samples uniform on the cube and a function with Lipschitz constant L: on the interval [-R,R] with N nodes the mean of av_integrate differs from the mean of the function of W1^T x over the cube by at most L R/N, and the mean square error is at most (L R/N)^2 + (L R)^2/10000; on a zonotope whose vertices were all found, with simplices of diameter at most d and a function within B of a constant, by at most L d, and (L d)^2 + B^2/10000.",
  "all orthogonal splits, all Lipschitz functions, all N >= 1, all triangulations that cover the hull of the data; expectation over the draws",
  "an expectation over continuous random draws and all Lipschitz functions",
  [A+"integrals.py:av_integrate", A+"integrals.py:av_quadrature_rule"])
p("How likely zonotope_vertices misses a vertex",
  "With independent standard normal directions, a corner x of the cube that W1 maps to a vertex of the zonotope has probability p(x) > 0 of being the sign of W1 z; it is missing from the result with probability exactly (1 - 2 p(x))^(Nsamples (maxcount+2)); the hull of the vertices differs from the zonotope with probability at most the sum of these numbers, which tends to 0 with the number of directions; the expected number of rows is the sum of 1 minus these numbers; in general position the warning has a probability within the same sum, otherwise it is printed almost surely after all draws; in general position more than q+1 rounds are needed with probability at most the sum of (1 - 2 p(x))^(Nsamples (q+1)).",
  "all W1 without zero rows, all Nsamples and maxcount; probability over the draws",
  "exact probabilities over continuous random draws",
  [A+"domains.py:zonotope_vertices"])
p("The eigenvalues left out bound the error of the best function of the active variables",
  "For standard normal inputs and smooth f, the conditional mean of f given the active variables is the best function of them in mean square, its error is at most the mean of the squared inactive derivatives (equality for x^2 + y), and so at most the sum of the eigenvalues that the partition leaves out. compute with gradients returns a partition and eigenvalues for which this holds up to the error of the samples in the matrix; exactly for polynomials with gradients at Gauss-Hermite nodes; up to every epsilon, almost surely, for large random samples. The mean square error of integrate for polynomials is at most the sum of the eigenvalues left out over NMC.",
  "all smooth f with derivatives of polynomial growth, all dimensions and partitions, all samples and weights",
  "integrals over all inputs and infimum over all functions of the active variables",
  [A+"subspaces.py:compute", A+"integrals.py:integrate", A+"domains.py:UnboundedActiveVariableMap.regularize_z"])
p("Eigenvalues from samples are biased outwards, and the bootstrap repeats the bias",
  "With uniform weights, the sum of the first n eigenvalues that active_subspace returns for random gradients is on average at least that of the limiting matrix, the sum of the others at most, the sum of all exact; for independent samples the mean of the first n never increases with the number of samples, and the mean absolute error of every eigenvalue tends to 0. A bootstrap replicate has the matrix of the sample as its mean, so its eigenvalues are spread outwards in the same way; in e_br the upper end for the first eigenvalue is on average at least the estimate, the lower end for the last at most.",
  "all laws of gradients with finite second moments, all sample sizes and n, all samples and non-negative weights, all generators with uniform integers, all numbers of replicates",
  "means over all samples and replicates",
  [A+"subspaces.py:active_subspace", A+"subspaces.py:_bootstrap_replicate", A+"subspaces.py:_bootstrap_ranges", A+"subspaces.py:compute"])
p("Convex response surfaces are minimised globally",
  "minimize hands the optimiser the trained response surface and its exact gradient. If the surface is convex where it is minimised and the optimiser that reports success has stopped at a stationary point up to tol, then the value returned exceeds no other value of the surface over the inputs by more than tol times the distance in the active variables; with one active variable on a bounded domain, by more than tol times the slope. A quadratic surface is convex if the Hessian that train stores is positive semidefinite. If the surface recovers the function exactly, minimize returns the minimum of the function itself.",
  "all trained surfaces with differentiable predictions, all domains and numbers of variables, all seeds, all optimisers and tolerances meeting the contract, all comparison points",
  "the minimum is compared with all inputs",
  [A+"optimizers.py:minimize", A+"optimizers.py:av_minimize", A+"optimizers.py:interval_minimize", A+"optimizers.py:zonotope_minimize", A+"optimizers.py:unbounded_minimize"])
p("Bootstrap replicates are independent blocks, and their ranges grow to the full range",
  "The rows of replicate b are block b of the stream of integers that the generator yields, and compute draws nothing else; the eigenvalues and subspace distances of a replicate depend only on its rows. Hence more replicates from the same state only widen the stored ranges. If the integers are independent and uniform, the replicates are independent and uniform among all choices of rows, the mean subspace distances stored converge almost surely to the mean over all choices of rows as nboot grows, and the stored ranges almost surely reach the range over all choices of rows after finitely many replicates. For the gradient-based subspace this range goes down to 0 for every eigenvalue but the first, and up to the largest weighted squared gradient times M for the first.",
  "all data and weights, all partition types, all subspace types but the local linear one, all generators and states, all numbers of replicates, almost all streams",
  "the limit of many replicates and all streams of random integers",
  [A+"subspaces.py:_bootstrap_ranges", A+"subspaces.py:_bootstrap_replicate", A+"subspaces.py:Subspaces.compute"])
p("The Gauss rules converge for functions that are not polynomials",
  "As the numbers of nodes in all directions grow, the weighted sums over gauss_hermite converge to the Gaussian integral for every continuous function bounded by a polynomial, and the weighted sums over gauss_legendre converge to the mean over the cube for every function continuous on the cube, up to what moving nodes by less than 1e-12 can change (g1d sets nodes below 1e-12 to zero; none is moved up to 10^11 nodes per direction). For a given number of nodes N_j per direction the error is at most twice the mean error of any approximation by a polynomial of degree at most 2 N_j - 1 in variable j. Consequently av_integrate on an unbounded domain with N points errs by at most twice the mean error of an approximation of degree at most 2k-1 in each active variable, for every k with k^n < N.",
  "all dimensions, all sequences of numbers of nodes, all continuous functions of polynomial growth, all measurable functions for the error bounds, all libraries that meet the contract of eig and argsort",
  "a limit over the number of nodes, for all continuous functions",
  [A+"utils/quadrature.py:gauss_hermite", A+"utils/quadrature.py:gauss_legendre", A+"utils/quadrature.py:g1d", A+"integrals.py:av_integrate"])
p("What the global linear model estimates as the sample grows",
  "For independent identically distributed inputs and outputs of finite second moment, where no affine function of the inputs vanishes almost surely, ols_subspace with equal weights succeeds for every sample size; almost surely its first eigenvalue converges to the squared length of the slope of the best affine approximation in the mean square, all others are zero, and its first eigenvector converges up to sign to the direction of that slope. If the slope is not zero, compute with sstype='OLS' almost surely chooses dimension one for all large samples and W1 converges in the same sense. For standard normal inputs and an output g(w.x) correlated with w.x, in particular every increasing g, the limit is the direction of w. For uniform inputs it is not in general: for (x1+2x2)^3 it is the direction of (23,34).",
  "all dimensions, all distributions of the inputs with finite second moments, all square integrable outputs, all directions w and all measurable g, all libraries that meet the contracts of lstsq and eigh",
  "an almost sure limit over the sample size, for all distributions and all outputs",
  [A+"subspaces.py:ols_subspace", A+"subspaces.py:Subspaces.compute", A+"subspaces.py:eig_partition"])
p("Polynomial fits to random samples converge to the best approximation",
  "For independent identically distributed inputs whose distribution has finite second moments of polynomials of degree at most N and lets no such polynomial but zero vanish almost surely (independent standard normal and independent uniform inputs are proved to qualify), and for every square integrable output: a best polynomial approximation P of degree at most N in the mean square exists; almost surely PolynomialApproximation.train without weights succeeds for every sample with at least (N+m choose m) points, and as the sample grows the predictions, gradients and second derivatives at every point (so also the attributes g and H) and the mean square error on new inputs converge to those of P, and Rsqr converges to one minus the mean square error of P divided by the variance of the output.",
  "all dimensions, all degrees at least one, all such distributions, all square integrable outputs, all libraries that meet the contract of lstsq",
  "an almost sure limit over the sample size, for all distributions and outputs",
  [A+"utils/response_surfaces.py:PolynomialApproximation.train", A+"utils/response_surfaces.py:PolynomialApproximation.predict", A+"utils/response_surfaces.py:polynomial_bases", A+"utils/response_surfaces.py:index_set"])
p("Methods left to subclasses refuse",
  "train and predict of ResponseSurface and normalize and unnormalize of Normalizer raise NotImplementedError for every argument. inverse of ActiveVariableMap raises ValueError for arrays that are not two-dimensional, then TypeError for N that is not an int, and otherwise NotImplementedError, whatever the state of the subspaces; it draws no random numbers.",
  "all arguments, all states of the objects",
  "holds for every argument and state, including objects never computed",
  [A+"utils/response_surfaces.py:ResponseSurface", A+"utils/misc.py:Normalizer", A+"domains.py:ActiveVariableMap.inverse", A+"domains.py:ActiveVariableMap.regularize_z"])
p("What the global quadratic model estimates as the sample grows",
  "For independent identically distributed inputs with finite fourth moments on which no quadratic polynomial but zero vanishes almost surely and whose second moment is the one qphd_subspace assumes (one if some coordinate exceeds one with positive probability, a third otherwise; standard normal inputs and inputs uniform on the cube qualify), and for every square integrable output, almost surely qphd_subspace with weights 1/M succeeds for all large samples, its eigenvalues converge to those of the mean outer product of the gradient of the best quadratic approximation in the mean square, and the projection onto its first n eigenvectors converges if there is a gap; compute with sstype='QPHD' then chooses the dimension with the largest gap. For standard normal inputs and an output that is a function of one linear form w.x correlated with w.x or with its square the first eigenvector converges up to sign to the direction of w and the other eigenvalues to zero. This holds in particular for outputs that increase with |w.x|, for which the eigenvalues of ols_subspace all converge to zero.",
  "all dimensions, all such distributions and outputs, all libraries that meet the contracts",
  "an almost sure limit over the sample size, for all distributions and outputs",
  [A+"subspaces.py:qphd_subspace", A+"subspaces.py:ols_subspace", A+"subspaces.py:Subspaces.compute", A+"utils/response_surfaces.py:PolynomialApproximation.train"])
p("BoundedNormalizer in double precision",
  "With every operation rounded to a nearest double (any rule for ties, no overflow or underflow), normalize sends points of the box into [-1,1]^m and never outside, sends the bounds to -1 and 1 exactly, keeps the order of the points and is within 2^-50 of the affine map. unnormalize sends points of [-1,1]^m into the box, -1 to the lower bound and 1 to the upper bound, keeps the order and is within (5(ub-lb) + max(|lb|,|ub|)) 2^-53 of the affine map; unnormalize(normalize(X)) is within (9(ub-lb) + max(|lb|,|ub|)) 2^-53 of X.",
  "all boxes, all points, all shapes, all rounding functions to nearest",
  "the box and the points range over all doubles; whether the upper bound is exceeded depends on the rounding of ub-lb",
  [A+"utils/misc.py:BoundedNormalizer.normalize", A+"utils/misc.py:BoundedNormalizer.unnormalize"])
p("finite_difference_gradients in double precision",
  "With every operation rounded to a nearest double, and a simulation that computes the function within e at the points used, each entry of the result is within B + 3(|d|+B) 2^-53 of the partial derivative d, where B = (L(h+r)^2/2 + 2e + |d| r)/h, r = |x+h| 2^-53 and L is the Lipschitz constant of the derivative about the point; with the default step and coordinates in [-1,1] within 6e-7 L + 2.1e6 e + 2e-10 |d|. Where a coordinate exceeds 2^54 h the entry is 0 for every function, with the default step from 1.8e10 on.",
  "all points, steps, functions, accuracies of the simulation and rounding functions to nearest",
  "a bound for all functions and points; the cancellation and the absorbed step depend on the magnitudes",
  [A+"gradients.py:finite_difference_gradients"])
p("active_subspace in double precision",
  "With every product and sum rounded to a nearest double in whatever order the matrix product takes them, and an eigensolver that is backward stable with accuracy eps, the eigenvalues that active_subspace returns are within D = (g + eps(1+g)) T of the exact ones, where g = (1+2^-53)^(M+1) - 1 and T = sum_k w_k |grad_k|^2 is the trace; the eigenvectors are orthonormal up to eps(2+eps); and if the gap of the exact eigenvalues after n is larger than 2D, the computed active and inactive subspaces deviate from the exact ones by at most D/(gap-D) + eps.",
  "all gradients, non-negative weights, numbers of samples and inputs, roundings to nearest, summation orders, stable eigensolvers and dimensions n",
  "a bound for all inputs and all summation orders of the linear algebra library; a run shows one order on one machine",
  [A+"subspaces.py:active_subspace", A+"subspaces.py:sorted_eigh"])
p("local_linear_gradients rejects outputs and weights that do not match the inputs",
  "local_linear_gradients accepts M outputs and M weights, each as a vector or a column (or no weights), for M inputs, and raises an exception for every other number or shape of outputs or weights.",
  "all inputs, outputs and weights as run-time arrays, all p, all draws",
  "whether a mismatch is noticed depends on the random centres, so one run shows nothing about the next",
  [A+"gradients.py:local_linear_gradients"])
p("eig_partition chooses the same dimension in double precision",
  "If the computed eigenvalues are within delta of the exact ones and the exact gap after the n-th exceeds every other gap by more than 4 delta + (gap + 2 delta) / 2^52, then eig_partition in double precision chooses n, as it does on the exact eigenvalues; with active_subspace before it the computed directions are near the exact ones.",
  "all numbers of parameters, all eigenvalues, all roundings to nearest, all summation orders, all stable eigensolvers",
  "a test sees one spectrum and one BLAS; near ties between gaps are where rounding could change the dimension",
  [A+"subspaces.py:eig_partition", A+"subspaces.py:active_subspace"])
p("The map to the active variables and back in double precision",
  "Points made by _rotate_x from active variables Y and inactive variables Z are mapped by forward to Y and Z again, up to (eta + (2 gamma + gamma^2)(1 + eta)) times the sum of the absolute values of the variables of the point, where the stored eigenvectors are orthonormal up to eta and gamma = (1 + 2^-53)^m - 1; the index column names the row of Y.",
  "all dimensions, all Y and Z, all eigenvectors orthonormal up to eta, all roundings to nearest and all summation orders",
  "the order of the sums in a matrix product depends on the BLAS, and a test compares with a tolerance chosen by hand",
  [A+"domains.py:forward", A+"domains.py:_rotate_x"])
p("The directions of hit_and_run_z",
  "In every step the direction is the first of the first 49 normal vectors along which a step of 1/4000000 leads to the interior of the polytope; the generator is left after that draw. If there is none, a fiftieth vector is drawn without effect and all samples left are copies of the present point. With a slack of more than rho times the length of the row of W2 in every constraint the first vector is taken unless it is longer than 4000000 rho.",
  "all generators, states, matrices, active variables and present points, all numbers of samples left",
  "the search gives up only near the boundary of the polytope, where random tests do not come",
  [A+"domains.py:hit_and_run_z"])
p("The law of polynomial surfaces trained with the interface",
  "For a function of independent standard normal inputs and a fixed design in the active variables, the mean of a prediction of a polynomial surface trained with train_with_interface is the prediction of the best fit to the conditional means of the function at the points of the design; predictions are unbiased if the conditional mean is a polynomial of at most the degree of the surface. The variance is the sum of c_i^2 times the conditional variance at point i, over the number NMC of samples for each point, where the numbers c_i reproduce polynomials at the point and have the least sum of squares among those that do. A training value and an independent value of the function at the same active variables differ in the mean square by (1 + 1/NMC) times the conditional variance, which is at most the mean of the squared derivatives in the inactive directions.",
  "all functions with the integrability named, all splits of the variables, designs that determine polynomials, degrees, numbers of samples and points of prediction",
  "a statement on the distribution of the surface over all draws of the generator, and on an infinite class of competing linear estimates",
  [A+"response_surfaces.py:ActiveSubspaceResponseSurface.train_with_interface", A+"response_surfaces.py:ActiveSubspaceResponseSurface.predict", A+"domains.py:UnboundedActiveVariableMap.regularize_z"])
p("Weights of any shape",
  "Whatever the shape of the weights, the subspace functions, compute and the training of a polynomial either raise an exception or use weight i for sample i: the result is the one for the weights as a column, or for a column of copies if the weights are one number.",
  "all weights with at most two dimensions, all data, estimators and partition types",
  "quantifies over all shapes of an argument and all data; the wrong results are returned without a sign",
  [A+"subspaces.py:active_subspace", A+"subspaces.py:ols_subspace", A+"subspaces.py:qphd_subspace", A+"subspaces.py:opg_subspace", A+"subspaces.py:Subspaces.compute", A+"utils/response_surfaces.py:PolynomialApproximation.train"])
p("The samples that the bootstrap draws from",
  "Whenever compute returns with nboot greater than 0, whatever the shape of the weights, each replicate consists of M rows of the data with their weights, where M is the number of samples and every sample can be drawn; the ranges are the least and the greatest values of the estimates for the replicates.",
  "all weights with at most two dimensions, all data, numbers of replicates and generators",
  "quantifies over all shapes of an argument, all data and all generators; the wrong ranges are returned without a sign",
  [A+"subspaces.py:_bootstrap_ranges", A+"subspaces.py:_bootstrap_replicate", A+"subspaces.py:Subspaces.compute"])
p("The estimates follow a change of the coordinates",
  "For every orthogonal matrix Q, every a other than 0, every b and shift c: with the inputs in the coordinates Q^T x + c and the values a f + b (gradients a Q^T grad f) each of the four estimates (AS, OLS, QPHD, OPG) multiplies the eigenvalues by a^2, chooses the same dimension by the largest gap, and for every n at which the eigenvalues have a gap its first n directions span the same subspace in the new coordinates. For QPHD the origin is kept.",
  "all samples, values, weights, orthogonal matrices, scalings and shifts; all states of the generator for OPG",
  "compares two runs for all rotations and all data; a test of single rotations does not reach the branch on the largest coordinate",
  [A+"subspaces.py:active_subspace", A+"subspaces.py:ols_subspace", A+"subspaces.py:qphd_subspace", A+"subspaces.py:opg_subspace", A+"gradients.py:local_linear_gradients", A+"subspaces.py:eig_partition", A+"subspaces.py:Subspaces.compute"])
p("The response surfaces follow a change of the coordinates",
  "A surface trained on the same sample in other coordinates x = A x' + c and with outputs a f + b in another unit predicts a times the values plus b at the same points, and a A^T times the gradients. For polynomials A is any invertible matrix, for radial basis functions any matrix that keeps the weighted distances. The same holds for surfaces on the active variables, whatever orthonormal basis of the active subspace the eigensolver returns, and for the whole way from gradient samples through compute, train_with_data and predict under rotations.",
  "all samples, outputs, degrees, matrices, shifts, evaluation points; all lengths of the bases; all noise levels",
  "compares two trained surfaces at all points for all changes of coordinates",
  [A+"utils/response_surfaces.py:PolynomialApproximation.train", A+"utils/response_surfaces.py:PolynomialApproximation.predict", A+"utils/response_surfaces.py:RadialBasisApproximation.train", A+"utils/response_surfaces.py:RadialBasisApproximation.predict", A+"utils/response_surfaces.py:exponential_squared", A+"response_surfaces.py:ActiveSubspaceResponseSurface.train_with_data", A+"response_surfaces.py:ActiveSubspaceResponseSurface.predict", A+"subspaces.py:Subspaces.compute"])
p("A sample is a set of points with weights",
  "The estimates and surfaces depend on the points of the sample, the values or gradients there and their weights only: not on the order of the points, nor on whether a point is given once or as several points that share its weight, nor on points of weight zero. For gradients and for the linear fit the results are the same numbers, also those of compute without bootstrap; polynomial and radial basis surfaces give the same predictions for every order of the sample.",
  "all samples of any two sizes with the same weighted sums; all orders of the sample; all degrees, noise levels, eigenvalues",
  "compares two runs for all pairs of equivalent samples",
  [A+"subspaces.py:active_subspace", A+"subspaces.py:ols_subspace", A+"subspaces.py:qphd_subspace", A+"subspaces.py:Subspaces.compute", A+"utils/response_surfaces.py:PolynomialApproximation.train", A+"utils/response_surfaces.py:RadialBasisApproximation.train", A+"utils/response_surfaces.py:_rbf_objective"])
p("Directions in which the function does not change",
  "An input that the simulation does not use gets finite differences of exactly zero, whatever the step. If the gradients are orthogonal to a direction, so are the eigenvectors of every nonzero eigenvalue and the active subspace that compute finds (with the gap criterion, unless all gradients are zero); every response surface on the active variables gives the same predictions when the points move in that direction, and gradients orthogonal to it. This is a property of gradients only: the linear fit may give weight to an input that is not used.",
  "all simulations, samples, steps, directions, weights and surfaces",
  "compares predictions at all pairs of points that differ in the unused direction",
  [A+"gradients.py:finite_difference_gradients", A+"subspaces.py:active_subspace", A+"subspaces.py:Subspaces.compute", A+"subspaces.py:ols_subspace", A+"response_surfaces.py:ActiveSubspaceResponseSurface.predict"])
p("The mean and the covariance of Gaussian inputs",
  "UnboundedNormalizer refuses a covariance that is not a square, symmetric, positive definite matrix and a mean whose size is not the number of its rows; arrays of points with another number of columns are refused with ValueError.",
  "all arrays for mean and covariance, all arrays of points",
  "covers all shapes and all matrices",
  [A+"utils/misc.py:UnboundedNormalizer", A+"utils/misc.py:UnboundedNormalizer.normalize", A+"utils/misc.py:UnboundedNormalizer.unnormalize"])
p("Accuracy of gradients from local linear models",
  "If every point of the sample has at least p other points within distance h, these points are spread in all directions (constant kappa), and the values differ by at most eta from those of a function whose gradient is Lipschitz with constant K, then every row that local_linear_gradients returns is within (K h/2 + eta/h)/kappa of the gradient at a point of the sample. With eps for this bound and gradients of length at most L, the eigenvalues of opg_subspace are within eps (2 L + eps) of those of the gradients at these points: the estimate converges as the sample becomes dense.",
  "all samples, smooth functions, errors of the values, positive weights, numbers of neighbours and draws of the generator",
  "an error bound for all smooth functions and all samples",
  [A+"gradients.py:local_linear_gradients", A+"subspaces.py:opg_subspace", A+"subspaces.py:active_subspace"])
p("Errors of the outputs, and the best polynomial",
  "Changing the outputs changes the predictions and gradients of a polynomial surface by at most Lambda times the weighted length of the change, where Lambda is the norm of evaluation (or of the derivative) on the polynomials measured on the sample; such a Lambda exists when the sample determines the polynomials. Hence the error of the surface is at most that of any polynomial of its degree plus Lambda times the error of that polynomial on the sample. The slopes of ols_subspace and the square root of its eigenvalue change by at most the change over kappa; the eigenvalues of qphd_subspace by at most eps (2 L + eps)(1 + m). Finite differences of a simulation that is off by eta have the error K h/2 + 2 eta/h, which is least for h = 2 sqrt(eta/K), and the second term is attained.",
  "all samples, weights, outputs, degrees, steps and errors",
  "a bound for all errors of the outputs",
  [A+"utils/response_surfaces.py:PolynomialApproximation.train", A+"utils/response_surfaces.py:PolynomialApproximation.predict", A+"subspaces.py:ols_subspace", A+"subspaces.py:qphd_subspace", A+"gradients.py:finite_difference_gradients"])
p("Eigenvalues left out bound the error on bounded domains",
  "For inputs uniform on the cube [-1,1]^m and a continuously differentiable function, the mean over the points of the cube with given active variables has the least mean square error among bounded functions of the active variables, and this error is at most 2^(k+1) m times the sum of the mean squared derivatives in the k inactive directions, hence 2^(k+1) m times the sum of the eigenvalues left out of the matrix of gradients; if the matrix is off by eps in each entry the sum grows by at most k m eps. Hence the subspace found by compute has such a function: with gradients at Gauss-Legendre nodes exactly, for polynomials of degree below the number of nodes, and almost surely up to any eps for large samples of independent uniform points.",
  "all continuously differentiable functions, dimensions, splits, samples and weights",
  "an integral over all functions and subspaces",
  [A+"subspaces.py:Subspaces.compute", A+"subspaces.py:active_subspace", A+"domains.py:BoundedActiveVariableDomain", A+"utils/quadrature.py:gauss_legendre"])
p("Functions of the active variables from inexact gradients, or from values alone",
  "For inputs standard normal or uniform on the cube: if the directions left out are within delta (the leakage) of the last eigenvectors of the matrix of gradients, some measurable function of the active variables has a mean square error of at most a constant times the sum of the eigenvalues left out plus delta^2 times the sum of the others; the constant is 1 for normal inputs and 2^(k+1) m on the cube. Whatever dimension compute chooses, with gradients of length at most L and each off by eps, the same holds with the computed eigenvalues left out plus, for each of them, m sigma + eps (2 L + eps) times the sum of the weights, where sigma is the error of the sample in the matrix of gradients; no gap between eigenvalues is needed. This covers finite differences of a noisy simulation, with eps = sqrt(m)(K h/2 + 2 eta/h), and the method OPG, which uses values alone, with eps = (K h/2 + eta/h)/kappa.",
  "all smooth functions, samples, weights, errors and dimensions",
  "a bound for all errors of the gradients and all functions",
  [A+"subspaces.py:Subspaces.compute", A+"subspaces.py:active_subspace", A+"subspaces.py:opg_subspace", A+"gradients.py:finite_difference_gradients", A+"gradients.py:local_linear_gradients"])
p("The law of the inverse map on bounded domains and the error of integrate",
  "Inputs uniform on the cube, generator with independent uniform numbers. Given that rejection sampling finds enough points for each row of active variables (an event of positive probability when each row is in the interior of the image of the cube), the points returned by the inverse map are independent, and those for a row are uniformly distributed on the points of the cube with the active variables of that row. Given the same event for its nodes, integrate with one active variable, K nodes and T points per node returns; if the means of the function over the points with given active variable have the Lipschitz constant L and the variances are at most v, the mean of the results differs from the integral over the cube by at most L R / K, and the mean square error is at most (L R / K)^2 + (L R)^2 / 10000 + v / T, where R is half the length of the interval.",
  "all dimensions, continuous functions, numbers of nodes and points, and library solvers that meet their contract",
  "a statement about the law of the numbers returned, which no finite number of runs determines; rejection sampling would have to be compared with the uniform law on every slice",
  [A+"domains.py:BoundedActiveVariableMap.regularize_z", A+"domains.py:sample_z", A+"domains.py:rejection_sampling_z", A+"domains.py:_rotate_x", A+"integrals.py:integrate", A+"integrals.py:interval_quadrature_rule"])
p("The law of polynomial surfaces trained with the interface on bounded domains",
  "Generator with independent uniform numbers; given that rejection sampling finds enough points for each design point. Training a polynomial surface with the interface returns, and a prediction has as its mean the least-squares polynomial of the means of the function over the points with the active variables of each design point (and of its values at the points kept for the vertices), and as its variance the sum of the variances over these points, weighted by the squares of the least-norm weights that reproduce polynomials, divided by the number of samples. If the mean of the function given the active variable is a polynomial of the degree of the surface, the predictions should therefore be unbiased.",
  "all dimensions, degrees, continuous functions, numbers of design points and samples, and library solvers that meet their contract",
  "a statement about the law of the predictions over the random numbers drawn; no finite number of runs determines a mean",
  [A+"response_surfaces.py:ActiveSubspaceResponseSurface.train_with_interface", A+"response_surfaces.py:av_design", A+"domains.py:BoundedActiveVariableMap.regularize_z", A+"domains.py:interval_endpoints", A+"utils/response_surfaces.py:PolynomialApproximation.train"])
p("Means over groups and the estimate of integrate in double precision",
  "With every operation rounded to a nearest double and sums taken in any order: conditional_expectations returns for a group of c values a mean within ((1+2^-53)^(c+1) - 1) times the mean of the absolute values, and a nonnegative variance which is, up to the relative error (1+2^-53)^(c+4) - 1, the exact variance plus the square of the error of the mean. The estimate of integrate over K groups of at most c values is within ((1+2^-53)^(K+2c+3) - 1) times the weighted mean of the absolute values of the exact weighted mean; lb <= mu <= ub always holds; and the half width of the interval is, up to the relative error (1+2^-53)^(K+3c+13) - 1, that of the exact variances increased by the squares of the errors of the means, so it never vanishes by cancellation.",
  "all data, group sizes and numbers of groups, all rounding rules for ties and all orders of summation",
  "a bound for every order of summation and all data; a test sees the order that one library takes on one machine",
  [A+"utils/misc.py:conditional_expectations", A+"integrals.py:integrate"])
p("Radial basis surfaces are best regularised fits with error bounds",
  "After a call of train that returned, predict evaluates a sum of Gaussian bumps around the training points plus a polynomial of degree at most N. With the stored length scales and the regularisation that sits on the diagonal of the stored K, this function has the smallest value of squared native-space norm plus weighted squared misfit among all sums of bumps around any centres plus polynomials of degree at most N, and is the only function that attains it. If the data are values of such a sum h up to errors, the squared prediction error at y is at most (squared norm of h + sum of weighted squared errors) times the spread 1 - 2 sum b_i k(y,x_i) + b^T (K) b of any weights b exact for the polynomials; so at the training points it is at most reg_i times that (1e-6 for the default arguments), and for N = 0 at most 2 (1 - k(y, x_i)) + reg_i for every training point x_i. The prediction is a weighted sum of the training values with weights exact for the polynomials and of smallest spread (best linear unbiased prediction).",
  "all data, dimensions, degrees, noise levels and eigenvalues that train accepts, all length scales the optimiser may return, all competing sums of bumps and all points",
  "optimality among infinitely many competitors with arbitrarily many centres and an error bound for all target functions cannot be sampled",
  [A+"utils/response_surfaces.py:RadialBasisApproximation.train", A+"utils/response_surfaces.py:RadialBasisApproximation.predict", A+"utils/response_surfaces.py:exponential_squared"])
p("The random walk converges to the uniform distribution",
  "If the numbers drawn are independent and standard normal, the law of the state of random_walk_z after t moves differs from the uniform distribution on the polytope of the inactive variables, on every measurable set, by at most (1-eps)^t, with eps = (sqrt(2 pi) s)^-k exp(-2m/s^2) vol > 0, s the step size and vol the volume of the polytope. So the b-th sample, which is the state after 10 N + b + 1 moves, is within (1-eps)^(10N+b+1) of uniform. The code violates this when the linear program starts the walk at the corner (1,...,1) or (-1,...,-1) of the cube: then the step size is zero and all samples are copies of the corner.",
  "all subspaces with orthonormal inactive directions, active variables with a polytope of positive volume, starting points, numbers of samples and measurable sets; over the law of the random numbers",
  "a distance between distributions at every number of moves; a test sees one run of the chain, and the corner is one point",
  [A+"domains.py:random_walk_z"])
p("Averages and gradients of radial basis surfaces have error bounds",
  "After a call of RadialBasisApproximation.train that returned: if the data are values of a sum h of Gaussian bumps around any centres plus a polynomial of degree at most N, up to errors, then for any points Y and weights lam the weighted sum of the predictions at Y differs from the weighted sum of the values of h, in square, by at most (squared norm of h + weighted squared data errors) times the spread of any linear rule on the training values that integrates the polynomials like lam. Each entry of the gradients that predict returns differs from the partial derivative of h, in square, by at most the same norm times the spread of any rule that differentiates the polynomials of degree at most N exactly at the point; with a constant trend (N = 0) by at most the norm times 2/ell_k, at every point however far from the data.",
  "all data, dimensions, degrees, noise levels and eigenvalues that train accepts, all length scales the optimiser may return, all target functions h, points, weights and exact rules",
  "a bound for all target functions and all linear functionals of the surface; tests compare one surface with one function",
  [A+"utils/response_surfaces.py:RadialBasisApproximation.train", A+"utils/response_surfaces.py:RadialBasisApproximation.predict", A+"utils/response_surfaces.py:grad_exponential_squared"])
p("Predictions of polynomial surfaces in double precision",
  "Let n = C(N+m, m) be the number of coefficients. In double precision, with powers within one unit in the last place, products and sums in any order, the values that PolynomialApproximation.predict returns differ from the values of the polynomial with the stored coefficients by at most ((1 + 2^-53)^(n+3m) - 1) times the sum of the absolute values of its terms at the point. The entries of the gradients differ from the partial derivatives by at most ((1 + 2^-53)^(n+3m+1) - 1) times the sum of the absolute values of the terms of the partial derivative. On the cube [-1,1]^m these are (n+3m) 2^-53, to first order, times the sum of the absolute values of the coefficients, and N times that.",
  "all degrees, dimensions, coefficients, points, orders of the sums and products, and roundings to a nearest double",
  "a bound for every order of the operations and all coefficients; a test sees one order on one machine",
  [A+"utils/response_surfaces.py:PolynomialApproximation.predict", A+"utils/response_surfaces.py:polynomial_bases", A+"utils/response_surfaces.py:grad_polynomial_bases"])
p("Predictions of radial basis surfaces in double precision",
  "In double precision, with exponentials within one unit in the last place, every entry of the matrix of exponential_squared differs from the Gaussian kernel by at most eps = ((1 + 2^-53)^(m+4) - 1) + ((1 + 2^-53)^3 - 1), whatever the points and the positive length scales, also when the exponent is huge. The predictions of a surface with M centres differ from the exact expansion by at most ((1 + 2^-53)^(M+1) (1 + eps) - 1) times the sum of the absolute values of the radial weights plus ((1 + 2^-53)^(n+3m+1) - 1) times the sum of the absolute values of the terms of the polynomial.",
  "all points, positive length scales, weights, degrees, dimensions below 2^51, orders of the sums and products, and roundings to a nearest double",
  "uniform over unboundedly large exponents and all orders of the operations",
  [A+"utils/response_surfaces.py:exponential_squared", A+"utils/response_surfaces.py:RadialBasisApproximation.predict"])
p("Radial basis surfaces on the active variables recover ridge functions",
  "Let W1 have orthonormal columns and let train_with_data with a radial basis surface return. If the data are values of h(W1^T x), with h a sum of Gaussian bumps around any centres plus a polynomial of degree at most N, up to errors (for example from the inactive variables), then calling the surface at any point of the full space gives h(W1^T x) up to, in square, (squared norm of h + weighted squared errors) times the spread of any weights exact for the polynomials; with a constant trend, up to that norm times (2 d^2 + reg_i), where d is the scaled distance of the active variables to those of any sample i. The gradient method returns the gradient of x -> h(W1^T x) up to, in squared Euclidean norm, the same norm times the sum of the spreads of rules exact for the partial derivatives; with a constant trend at most the norm times the sum of 2/ell_k.",
  "all subspaces with orthonormal active directions, samples, data, noise levels and eigenvalues that train accepts, target functions, errors and points of the full space",
  "a bound for all target functions and points at once; tests compare one surface with one function at a few points",
  [A+"response_surfaces.py:ActiveSubspaceResponseSurface.train_with_data", A+"response_surfaces.py:ActiveSubspaceResponseSurface.predict", A+"response_surfaces.py:ActiveSubspaceResponseSurface.gradient", A+"utils/response_surfaces.py:RadialBasisApproximation.train"])
p("Gradients of radial basis surfaces in double precision",
  "In double precision every entry of the array of grad_exponential_squared differs from the derivative of the Gaussian kernel by at most 2 / sqrt(ell_k) times eps = 2 ((1 + 2^-53)^(m+4) - 1) + ((1 + 2^-53)^8 - 1), whatever the points, also when the exponent is huge; the derivative itself is at most 2 / sqrt(ell_k). The gradients that RadialBasisApproximation.predict returns for M centres differ from the exact derivatives of the stored expansion by at most ((1 + 2^-53)^(M+1) (1 + eps) - 1) times 2 / sqrt(ell_k) times the sum of the absolute values of the radial weights plus ((1 + 2^-53)^(n+3m+2) - 1) times the sum of the absolute values of the terms of the derivative of the polynomial. The predictions returned with the gradients are those returned without.",
  "all points, positive length scales, weights, degrees, dimensions below 2^51, orders of the sums and products, and roundings to a nearest double",
  "uniform over unboundedly large exponents and all orders of the operations",
  [A+"utils/response_surfaces.py:grad_exponential_squared", A+"utils/response_surfaces.py:RadialBasisApproximation.predict"])
p("Polynomial surfaces on the active variables in double precision",
  "ActiveSubspaceResponseSurface.predict with a PolynomialApproximation P of degree N in n active variables, in double precision, with K = C(N+n, n) coefficients and points with m coordinates. The values differ from P(W1^T x) by at most ((1 + 2^-53)^(K+3n+mN) - 1) times the sum of the absolute values of the terms of P with the active variables replaced by sum_l |x_l| |W1_lj|. The entries of the gradients on the full space differ from the derivatives of x -> P(W1^T x) by at most ((1 + 2^-53)^(K+4n+1+mN) - 1) times the corresponding sum for the derivative. For orthonormal W1 and points in [-1,1]^m the first sum is at most m^(N/2) times the sum of the absolute values of the coefficients.",
  "all degrees, dimensions, matrices W1, coefficients, points, orders of the sums and products, and roundings to a nearest double",
  "a bound for every order of the operations, all subspaces and all coefficients; a test sees one order on one machine",
  [A+"response_surfaces.py:ActiveSubspaceResponseSurface.predict", A+"domains.py:ActiveVariableMap.forward", A+"utils/response_surfaces.py:PolynomialApproximation.predict"])
p("Radial basis surfaces on the active variables in double precision",
  "ActiveSubspaceResponseSurface.predict with a RadialBasisApproximation with M0 centres on n active variables, in double precision, at points with m coordinates. Put mu_j = sum_l |x_l| |W1_lj| and rho = ((1 + 2^-53)^m - 1) sum_j mu_j / sqrt(ell_j). The values differ from the exact expansion at W1^T x by at most ((1 + 2^-53)^(M0+1) (1 + eps + rho) - 1) times the sum of the absolute values of the radial weights, eps as in C151, plus ((1 + 2^-53)^(K+3n+mN+1) - 1) times the sum of the absolute values of the terms of the polynomial at mu. The entries of the gradients on the full space differ from the derivatives of the expansion at W1^T x by at most the sum over j of |W1_lj| times the bound for direction j, which is ((1 + 2^-53)^(n+M0+1) (1 + eps' + 2 rho) - 1) 2 / sqrt(ell_j) times the sum of the absolute values of the radial weights, eps' as in C153, plus the corresponding term of the polynomial. So only the ratio of the active variables to the length scales matters.",
  "all subspaces, points, centres, positive length scales, weights, degrees, active dimensions below 2^51, orders of the sums and products, and roundings to a nearest double",
  "combines rounding errors of three stages for every order of the operations; a test sees one order on one machine",
  [A+"response_surfaces.py:ActiveSubspaceResponseSurface.predict", A+"domains.py:ActiveVariableMap.forward", A+"utils/response_surfaces.py:RadialBasisApproximation.predict"])
p("Training of radial basis surfaces in double precision",
  "RadialBasisApproximation.train at M > 0 points, with covariance, polynomial basis and saddle matrix computed in double precision and a backward stable solver, that is one that solves a system whose entries differ by at most eta times the largest entry. The returned weights then nearly interpolate in exact arithmetic: the expansion they define, plus the regularisation max(v_i, 1e-6) times the weight of the point, differs from the data f_i by at most (eps + (1 + eps + V) 2^-53 + eta Lambda) times the sum of the absolute values of the radial weights plus (((1 + 2^-53)^(3m) - 1) beta + eta Lambda) times the sum of the absolute values of the polynomial coefficients. The radial weights are nearly orthogonal to every monomial of degree at most N, with a bound of the same kind. Here eps is the error of the kernel of C151, beta bounds the monomials at the points, V bounds the regularisation and Lambda bounds the entries of the saddle matrix.",
  "all degrees, dimensions with m + 4 <= 2^51, numbers of points, points, data, variances, positive length scales, backward stable solvers, orders of the sums and products, and roundings to a nearest double",
  "bounds the error for every data set, every solver within the contract and every order of the operations; a test sees one library on one machine",
  [A+"utils/response_surfaces.py:RadialBasisApproximation.train", A+"utils/response_surfaces.py:exponential_squared", A+"utils/response_surfaces.py:polynomial_bases"])
p("Training of polynomial surfaces in double precision",
  "PolynomialApproximation.train, with or without weights w, with the basis computed in double precision and a backward stable least squares solver, that is one whose result is a least squares solution for a matrix and data whose entries differ by at most eta times the largest entry. The polynomial P it stores fits the data nearly as well as any polynomial Q of degree at most N: the root of the sum of (w_i (P(x_i) - f_i))^2 is at most that of Q plus sqrt(M) (delta (sum |coefficients of P| + sum |coefficients of Q|) + 2 tau), where delta = ((1 + eta) (1 + 2^-53)^(3m+1) - 1) beta, tau = (2^-53 + eta (1 + 2^-53)) phi, beta bounds |w_i| times the monomials at the points and phi bounds |w_i f_i|. If the data are values of a polynomial Q of the degree and the coordinates are at most beta >= 1 in absolute value, the stored polynomial reproduces them within sqrt(M) ((1 + eta) (1 + 2^-53)^(3m+1) - 1) beta^N (sum |coefficients of P| + 3 sum |coefficients of Q|). No condition number enters.",
  "all degrees, dimensions, numbers of points at least the number of monomials, points, data, weights, backward stable solvers, orders of the products, and roundings to a nearest double",
  "compares with every polynomial of the degree, for every data set and every solver within the contract; a test sees one library on one machine",
  [A+"utils/response_surfaces.py:PolynomialApproximation.train", A+"utils/response_surfaces.py:polynomial_bases", A+"utils/response_surfaces.py:index_set"])
p("Local linear models in double precision",
  "One pass of the loop of local_linear_gradients in double precision, with a centre of positive weight, the distances as they were computed, and a least squares solver that is backward stable with constant eta. The model is fitted to p different points of the sample. Let sigma > 0 measure their spread: sigma (|b| + |z|_1) is at most the root of the sum of (b + z.x)^2 over these points for all b and z. Put gamma = (1 + eta)(1 + 2^-53)^2 - 1, and let xi >= 1 bound the coordinates of the points and phi the values. If sqrt(p) gamma xi <= sigma/2, then for every affine function a + v.x within rho of the data at these points the sum of the absolute errors of the slope is at most 2 sqrt(p)/sigma (rho + gamma (xi (|a| + |v|_1) + phi)). The weight of the centre does not enter: it scales all rows alike.",
  "all samples, data, centres, positive weights, numbers of neighbours, computed distances, sorting orders at ties, backward stable solvers, and roundings to a nearest double",
  "an a priori bound for every sample and every solver within the contract; a test sees one library on one machine",
  [A+"gradients.py:local_linear_gradients"])
p("The ols subspace in double precision",
  "ols_subspace in double precision, with a least squares solver that is backward stable with constant eta and an eigh that is stable with constant eps, as in C127. The run returns nonnegative eigenvalues in descending order. Let sigma measure the spread of the weighted sample: sigma (|b| + |z|_1) is at most the root of the sum of w_i (b + z.x_i)^2 for all b and z. Put gamma = (1 + eta)(1 + 2^-53)^2 - 1 and assume sqrt(M) gamma xi <= sigma/2, where xi bounds sqrt(w_i) and sqrt(w_i) |x_ij|, and phi bounds sqrt(w_i) |f_i|. For every affine function a + v.x with sqrt(w_i) |a + v.x_i - f_i| <= rho for all i, put kappa = 2 sqrt(M)/sigma (rho + gamma (xi (|a| + |v|_1) + phi)), L = |v|_2 and delta = (2^-53 + eps (1 + 2^-53)) (L + kappa)^2. Then the first eigenvalue is within delta + kappa (2 L + kappa) of L^2, the others are at most delta, and the first eigenvalue times the component of the first eigenvector along any direction z orthogonal to v is at most (delta + kappa (L + kappa) + eps times the first eigenvalue) |z|.",
  "all samples, data, weights, affine functions, backward stable solvers, orders of the sums, and roundings to a nearest double",
  "an a priori bound for every sample and every library within the contracts; a test sees one library on one machine",
  [A+"subspaces.py:ols_subspace", A+"subspaces.py:sorted_eigh"])
p("The opg subspace in double precision",
  "opg_subspace in double precision, with p points in each of K >= 1 local models, positive weights, a least squares solver that is backward stable with constant eta and an eigh that is stable with constant eps, as in C127. At every point of the sample at least p computed distances are not zero. Any p different points are spread out: sigma (|b| + |z|_1) is at most the root of the sum of (b + z.x)^2 over them for all b and z. Put gamma = (1 + eta)(1 + 2^-53)^2 - 1 and assume sqrt(p) gamma xi <= sigma/2, where xi >= 1 bounds the coordinates and phi bounds the data. The data are within rho of an affine function a + v.x. Put kappa = 2 sqrt(p)/sigma (rho + gamma (xi (|a| + |v|_1) + phi)), L = |v|_2, gamma' = (1 + 2^-53)^(K+1) - 1 and Delta = (1 + 2^-53) ((gamma' + eps (1 + gamma')) (L + kappa)^2 + kappa (2 L + kappa)). Whatever centres are drawn, the call succeeds and returns nonnegative eigenvalues in descending order; the first is within Delta + 2^-53 L^2 of L^2, the others are at most Delta, and the first eigenvalue times the component of the first eigenvector along any direction z orthogonal to v is at most (Delta + eps times the first eigenvalue) |z|.",
  "all samples, data near an affine function, positive weights, random draws, computed distances, backward stable solvers, orders of the sums, and roundings to a nearest double",
  "an a priori bound for every draw of the centres and every library within the contracts; a test sees one draw and one library",
  [A+"subspaces.py:opg_subspace", A+"subspaces.py:active_subspace", A+"gradients.py:local_linear_gradients"])
p("The qphd subspace in double precision",
  "qphd_subspace in double precision after the fit, with the gradient b and the Hessian A of the fitted quadratic as they were computed, sums in any order, and an eigh that is stable with constant eps, as in C127. Let g be 1 if an entry of the sample exceeds 1 and 1/3 otherwise, put gamma = (1 + 2^-53)^(m+3) - 1 and delta = (gamma + eps (1 + gamma)) (|b|^2 + g times the sum of the squares of the entries of A). The run succeeds and returns nonnegative eigenvalues in descending order that are within delta of those of b b^T + g A A^T, and eigenvectors within eps of an orthogonal matrix. With nothing rounded, the same lines applied to the least squares quadratic are the whole function.",
  "all nonempty samples, gradients, Hessians, stable eigensolvers, orders of the sums, and roundings to a nearest double",
  "a bound for every input and every library within the contracts; a test sees one library on one machine",
  [A+"subspaces.py:qphd_subspace", A+"subspaces.py:sorted_eigh"])
p("The error-bound and ladle dimensions in double precision",
  "errbnd_partition and ladle_partition in double precision, with the sums in any order, on nonnegative eigenvalues e and nonnegative subspace measures. For m eigenvalues and gamma = (1 + 2^-53)^(m+2) - 1, every bound that errbnd_partition returns is within gamma, relatively, of the exact one, and the dimension n it selects satisfies (1 - gamma) bound(n) <= (1 + gamma) bound(k) in exact arithmetic for every k. The same holds of the terms and the dimension of ladle_partition, with 1 + K = (1 + 2^-53)^2 / (2 - (1 + 2^-53)^m) in place of 1 + gamma, when the eigenvalues are not all zero and (1 + 2^-53)^m < 2.",
  "all numbers of eigenvalues, nonnegative eigenvalues and measures, orders of the sums, and roundings to a nearest double",
  "a near tie between two dimensions is decided by rounding errors; the loss by a wrong decision is bounded for every input only by a proof",
  [A+"subspaces.py:errbnd_partition", A+"subspaces.py:ladle_partition"])
if __name__ == "__main__":
    with open(os.path.join(os.path.dirname(__file__), "..", "properties.jsonl"), "w") as fh:
        for q in P:
            fh.write(json.dumps(q) + "\n")
    print(len(P))
