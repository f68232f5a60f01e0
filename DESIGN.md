# Design

Target: paulcon/active_subspaces (Python 2), source text in /repo. The code is not run; it is read and
transcribed by hand into Lean 4 definitions.

## 1. How the code is modelled

* **Numbers.** Python floats become real numbers. The theorems are about exact real arithmetic, except C60 and C92 (a
  rounded root) and C125 to C127, C129, C130 (rounding after every operation). Overflow, NaN and infinities are not modelled; where the code divides by zero the theorem carries the
  hypothesis that excludes it, or the model returns an explicit "nan" outcome.
* **Arrays.** An ndarray is a `Matrix (Fin M) (Fin m) R` where the shape is known; at API boundaries that validate shapes
  there is a run-time shaped value (`NdArray`: shape + data, any rank). C-order `reshape`, `kron`, `tile`,
  `hstack`, `vstack` and slices are written with explicit index arithmetic (`Verif/Np.lean`), since index
  arithmetic is what many of the properties are about.
* **Exceptions.** Functions that can raise return `Except PyErr a`; the order of checks is kept.
* **Effects.** Functions with effects (user simulations, NumPy's global random state, files, stdout) live in
  `PyM W a = W -> Except PyErr a x W`; state changes persist when an exception is raised, as in Python.
  A user simulation is an arbitrary `PyM W` function: any state, may raise.
* **Library calls** (LAPACK `eigh`, `eig`, `lstsq`, `solve`, `cholesky`; `argsort`; SciPy optimisers, Qhull) are
  parameters of the model. Theorems assume only a written contract for them (for instance: `eigh` returns an
  orthogonal matrix and eigenvalues with `C = W diag(e) W^T`). Each contract is shown satisfiable by an `example`.
  Random number generators are arbitrary functions of the generator state.
* **Loops** are structural recursions with the same iteration order.

Layout: `Verif/Py.lean`, `Verif/Np.lean` (Python and NumPy primitives); `Verif/Model/*` (one file per Python
file, each definition cites file and lines); `Verif/Spec/*` (independent specifications, no import of the model);
`Verif/Proofs/*` (helper lemmas); `Verif/Props/*` (property theorems named `Cnn_...`, with examples).

## 2. Properties, what is modelled, how it is proved

| id | modelled | proof |
|---|---|---|
| C01, C02 | `BoundedNormalizer` on run-time arrays | entrywise field arithmetic |
| C03 | `UnboundedNormalizer`, Cholesky and solve as contracts | matrix algebra; moments by expanding sums |
| C04, C06 | `process_inputs*`, `atleast_2d*` on arrays of every rank | case analysis |
| C05 | `conditional_expectations` | finite sums over fibres |
| C07-C09 | both runners as `PyM` loops | induction on rows with a call log |
| C10, C11 | `finite_difference_gradients` incl. both Kronecker products, reshape | index arithmetic; mean value estimate |
| C12-C14 | `local_linear_gradients` | normal equations; C13 and C14 false: negation with witness plus partial |
| C15 | `interval_design` | arithmetic |
| C16 | constraints of `maximin_design`, hull equations as contract | false for non-symmetric vertex sets: witness; proved for symmetric ones |
| C17, C18 | multistart loops with random state in the world | induction; state leak on failure: witness |
| C19 | `_maximin_design_obj`, `_maximin_design_grad` | finite minima; derivative of the selected smooth piece |
| C20 | `r_hermite`, `r_jacobi`, `jacobi_matrix` | cases |
| C21, C22 | `g1d` over an `eig` contract | orthogonal polynomials from the three-term recurrence, spectral form of Gauss rules; moments of the Gaussian/uniform measure |
| C23, C24 | `g1d`, tensor rules | orthogonality of eigenvectors; induction on the list of sizes |
| C94, C95 | `r_jacobi`, `g1d`, `gauss_legendre` | structure relation of the Jacobi polynomials and integration by parts; uniqueness of Gauss rules |
| C25 | `_full_index_set`, `index_set` | induction |
| C26 | `polynomial_bases`, `grad_polynomial_bases`, `predict` | derivative of monomials |
| C27-C30, C93 | `PolynomialApproximation.train`, least squares as contract | normal equations; C30 and C93 false: witness plus partial |
| C31 | `exponential_squared`, `train` system matrix | Gaussian kernel positive semidefinite via Schur products and power series |
| C32, C33 | `RadialBasisApproximation.train/predict` | derivative of the kernel; saddle point system |
| C34-C37 | `sorted_eigh`, `active_subspace`, `ols_subspace`, `qphd_subspace`, `opg_subspace` | linear algebra over the `eigh` contract; C37 false: witness plus partial |
| C38-C40 | partition rules | argmax/argmin |
| C41 | `_bootstrap_ranges`, `_bootstrap_replicate` | induction over replicates |
| C42, C43 | `Subspaces` as a state machine | invariants; stale state after failure: witness plus partial |
| C44, C48 | variable maps, samplers' composition | index arithmetic, orthogonality |
| C45-C47 | the three samplers | C45 proved; C46, C47 false: witness plus partial |
| C49 | `interval_endpoints` | |
| C50-C53 | `nzv`, `zonotope_vertices`, constraints | Sauer-Shelah for the count; induction on draws; separation for the hull |
| C54 | domain objects | state machine |
| C55, C56 | active subspace response surface | chain rule; index bookkeeping |
| C57-C60, C92 | integrals | sums; C60 from C21 and C24, with the rounding of the root; C60, C92 false: witness plus partial |
| C61-C64 | optimizers | C62, C63 false: witness plus partial |
| C65-C67 | `QPSolver` | case analysis over back ends |
| C72 | `opg_subspace` | C12 and the rank-one case of C36 |
| C73 | `av_design` on a bounded domain | C15 for intervals, C16 for symmetric vertex sets, C52 for the hull |
| C74-C76 | tutorials' test functions | derivative along every line by the rules of differentiation, plus differentiability, then the chain rule for the scaling |
| C77 | tutorials/wing_functions.py | as C74; uniqueness of the derivative refutes the fourth column |
| C78 | tutorials' test functions | evaluation of the broadcasting rules |
| C79 | tutorials' test functions | the physical equations each function solves |
| C80, C85, C86 | plotters | side effects and exceptions, statement by statement |
| C81, C82 | plotters | the record of drawing commands at the time of `savefig` and `show` |
| C83, C84 | plotters | every recorded point against the axis limits; C51 for the symmetry of the vertices |
| C87 | signs with two zeros in `zonotope_vertices` | witness plus partial |
| C88, C89 | `local_linear_gradients` | uniqueness of the least-squares solution of smallest norm; C89 by counting |
| C96, C97 | `train`, `gradient`, `__call__` of the response surfaces | all states of the object; derivative of the surface |
| C98 | `_bootstrap_ranges` | eigenvalues of a Gram matrix below the identity |
| C99 | `active_subspace` | Weyl's inequality |
| C100 | `active_subspace` | a sin-theta bound (Davis-Kahan) |
| C101 | `finite_difference_gradients`, `active_subspace` | C10 and C99 |
| C102 | `ActiveSubspaceResponseSurface` | C27, C55, C56; polynomials vanishing on a grid |
| C103 | `random_walk_z` | the moves as a chain; exchange of start and proposal preserves the measure |
| C104 | `rejection_sampling_z` | C45; law of the first accepted of independent points by induction on their number |
| C105 | cells of six notebooks | C74-C77; formulas of the markdown cells; chain rule for the scaling |
| C106 | `partition`, domains, maps, integrals, surfaces, `minimize` | the run ends in the exception with the world it started in |
| C107 | `integrate`, `av_integrate`, `g1d`, `interval_quadrature_rule`, `train_with_interface` | arrays without rows followed through; rounding of N <= 0 |
| C108 | normalizers, maps and surfaces on arrays of any width | broadcasting of NumPy; the number of monomials grows with the number of variables |
| C109 | one step of `hit_and_run_z` | chord, law of the new point, detailed balance (Fubini along lines); false for zero rows of W2: witness plus partial |
| C110 | `active_subspace`, `eig_partition`, `compute` on random samples | strong law, Weyl, Davis-Kahan |
| C111, C112 | `integrate` with normal draws | rotation of the normal distribution, Fubini, independence; C112 false: witness plus partial |
| C113, C114 | rules on bounded domains with uniform samples | frequencies of independent points, Popoviciu, Caratheodory for the example |
| C115 | vertices found by normal directions | open cones have positive probability, linear forms of normals have no atoms |
| C116 | error of functions of the active variables | Gaussian Poincaré inequality by rotation of two independent copies and Stein’s identity; Pythagoras for the conditional mean |
| C117 | bias of eigenvalues from samples and of bootstrap intervals | sum of the first n eigenvalues as a maximum of linear functions of the matrix (Ky Fan); integral of the maximum ≥ maximum of the integral |
| C118 | convex surfaces are minimised globally | contract of the optimisers: stationary up to tol when success is reported; tangent inequality of convex functions |
| C119 | bootstrap ranges for many replicates | stream of integers of the generator; strong law of large numbers |
| C120 | convergence and error of the Gauss rules | moments and characteristic functions, Levy continuity, product measures |
| C121 | what the global linear model estimates | strong law, normal equations, reflections of the normal distribution |
| C122 | polynomial fits to growing random samples | strong law, normal equations |
| C123 | base classes | case analysis |
| C124 | the quadratic model of growing random samples | strong law, eigenvalue perturbation, independence of orthogonal Gaussian forms |
| C125 | `BoundedNormalizer` with rounding after every operation | monotonicity and relative error of rounding to nearest |
| C126 | `finite_difference_gradients` with rounding after every operation | C10 plus the relative error of rounding to nearest |
| C127 | `active_subspace` with rounding in the products and sums, in any order, and a backward stable `eigh` | errors entry by entry, Weyl, Davis-Kahan |
| C128 | `local_linear_gradients` on run-time arrays | shapes followed through the loop; C13 for the neighbours |
| C129 | dimension chosen by `eig_partition` in double precision | computed gaps near the exact ones; C127 for the eigenvalues |
| C130 | `forward` after `_rotate_x` in double precision | error of the two products; near-orthonormal columns |
| C131 | directions of `hit_and_run_z` | induction on the number of draws left; Cauchy-Schwarz for the slack |
| C132 | law of polynomial surfaces trained with the interface | least squares as a linear map of the data (normal equations on polynomials), independence of the blocks of draws, Poincaré |
| C133 | weights of any shape in the subspace functions, `compute` and `PolynomialApproximation.train` | broadcasting by cases on the shapes, against the model with typed weights |
| C134 | the bootstrap with weights of any shape | replicates by the number of rows of the weights, one row against the bootstrap of the first sample |
| C135 | estimates in other coordinates | eigenvalues times a^2, same dimension, projectors onto leading eigenspaces rotated; axis reversal and shift as counterexamples |
| C136 | surfaces in other coordinates | `Tracks`: same values and gradients at the same points, for polynomials, radial basis functions, active variables and after `compute`; counterexample for the unit of the outputs |
| C137 | samples as sets with weights | `SameSample`: all weighted sums agree; then the estimates and surfaces agree; counterexample for the quadratic fit |
| C138 | directions in which the function does not change | `Unused`, `movedBy`; differences, eigenvectors, active variables and predictions; counterexample for the linear fit |
| C139 | mean and covariance of Gaussian inputs | which arrays `UnboundedNormalizer` accepts, at run time (`Model.MiscArr`); counterexamples |
| C140 | accuracy of local linear gradients | `DenseSample`, `SpreadSample`, `SmoothOn`; error of every row, and of the eigenvalues of `opg_subspace` |
| C141 | errors of the outputs | `outputError`, `Norming`; polynomial surfaces, linear and quadratic subspaces, finite differences; nearly as good as the best polynomial |
| C142 | error of functions of the active variables on the cube | `sliceMean`, `C1`, `cubeLaw`, `inactive`; a Poincaré inequality for convex compact sets (Proofs/ConvexPoincare) slice by slice |
| C143 | functions of the active variables from inexact gradients | `InputLaw`, `WithinError`, `leakage`; C116/C142 with errors of the subspace, of finite differences and of local linear models |
| C144 | law of the inverse map and error of `integrate` on bounded domains | joint law of the rejection samples of all rows; a two-stage error bound |
| C145 | law of polynomial surfaces trained with the interface on bounded domains | mean and variance of the predictions; limit of the slices at the ends of the interval; biased when a component vanishes |
| C146 | means over groups and the estimate of `integrate` in double precision | calculus of relative errors over the contract of rounded sums |
| C147 | radial basis surfaces are best regularised fits and best linear unbiased predictions; error bounds | saddle system, Pythagoras and Cauchy-Schwarz in the native space of the Gaussian |
| C148 | convergence of `random_walk_z` to the uniform distribution | minorisation by the normal density, contraction; false when the walk starts at a corner of the cube: witness plus partial |
| C149 | error bounds for weighted sums of predictions and for the gradients of radial basis surfaces | Cauchy-Schwarz in the native space of the Gaussian; difference quotients as functionals |
| C150 | predictions and gradients of polynomial surfaces in double precision | relative errors of sums, products and powers (`Proofs/Near.lean`, `Proofs/FloatProd.lean`) |
| C151 | the Gaussian kernel and the predictions of radial basis surfaces in double precision | `x exp(-x)` is bounded, so relative errors of the exponent are harmless |
| C152 | values and gradients of radial basis surfaces on the active variables of a ridge function | C147, C149 and the chain rule of C55 |
| C153 | the gradients of radial basis surfaces in double precision | `x^(3/2) exp(-x/2)` is bounded, so relative errors of the exponent are harmless |
| C154 | polynomial surfaces on the active variables in double precision | errors of the active variables carried through powers and products (`Proofs/Near.lean`) |
| C155 | radial basis surfaces on the active variables in double precision | the kernel and its gradient are Lipschitz relative to the length scales (mean values along segments) |
| C156 | training of radial basis surfaces in double precision | a backward error of the solver and the errors of the entries both act on the computed weights |
| C157 | training of polynomial surfaces in double precision | the backward error moves both the computed and the competing residual by little |
| C158 | local linear models in double precision | least squares solutions of nearby problems (`lstsq_close`), scaled by the weight |
| C159 | `ols_subspace` in double precision | `lstsq_close`, then eigenvalues and eigenvectors of a perturbed rank one matrix |
| C160 | `opg_subspace` in double precision | C158 for every row of the loop, then a perturbed rank one matrix |
| C161 | `qphd_subspace` in double precision | entry bounds for `C` (`qphd_entry`), then eigenvalues of a perturbed sum of outer products |
| C162 | `errbnd_partition`, `ladle_partition` in double precision | relative bounds for the terms, near-optimality of the selected dimension |
| C90, C91 | `nzv`, `zonotope_vertices` | Sauer-Shelah and its opposite inequality for strongly shattered sets; C91 false: witness plus partial |
| C68-C71 | degree 0, repeated points, R-squared and likelihood of the response surfaces | C68, C69, C71 false: witness plus partial |

Anything beyond this list is appended to `properties.jsonl` as the model grows.

## 3. Trusted base

* The Lean 4.33 kernel; axioms `propext`, `Classical.choice`, `Quot.sound` (the axioms Mathlib's real numbers use).
  No other axioms, no `sorry`, no compiled evaluation.
* The hand transcription from Python to Lean. Nothing checks it mechanically; comments cite the source lines.
* The written contracts for NumPy, SciPy, LAPACK, Qhull and Gurobi.
* Exact arithmetic in place of floating point, except for the root in C60 and C92 and for C125 to C127, C129, C130, C146, C150, C151 and C153 to C162 (`Verif/Spec/Doubles.lean`, `Verif/Spec/FloatSum.lean`, `Verif/Spec/FloatProd.lean`, `Verif/Model/Rounded.lean`, `Verif/Model/RoundedMaps.lean`, `Verif/Model/RoundedMeans.lean`, `Verif/Model/RoundedSurfaces.lean`, `Verif/Model/RoundedKernelGrads.lean`, `Verif/Model/RoundedActive.lean`, `Verif/Model/RoundedActiveRBF.lean`, `Verif/Model/RoundedTraining.lean`, `Verif/Model/RoundedLocal.lean`, `Verif/Model/RoundedOls.lean`, `Verif/Model/RoundedOpg.lean`, `Verif/Model/RoundedQphd.lean`, `Verif/Model/RoundedPartitions.lean`, `Verif/Spec/StableSolve.lean`),
  where every operation is rounded to a nearest double; the exponents of doubles are unbounded, so overflow and underflow are left out.
  With nothing rounded these models are the exact ones: the theorems `Cxx_exact` (`Verif/Props/RoundedExact.lean`, `Verif/Props/RoundedExactMore.lean` and the files of C125 to C130).
* pyplot (C80-C86) is a record of drawing commands, open figures, saved files and shown figures; `show` closes the figures if the backend
  is interactive. Not modelled: the rendering of plots, performance, docstrings, `sdist`; of the tutorials' notebooks the functions and the cells that prepare inputs, values and gradients (C74-C79, C105) are modelled, the plots are not.

Section 4 (deviations found, current status) is kept up to date below.

## 4. Deviations found in the code

Theorem names are in MANIFEST.json. For each: what the code does, and what is proved instead.

* **C13** `local_linear_gradients` (utils/gradients.py). The mask that should drop the centre is indexed by row
  number, not by rank, so the centre is kept among its own neighbours unless it is row 0. Negation and an observable
  witness are proved; the property is proved for row 0.
* **C14** same function. `p = M` passes the checks and always fails when `m >= 2`; the default `p` is always rejected
  for one input and always fails when `M = m + 1`. Completion is proved for `m + 1 <= p < M`.
* **C16** `maximin_design` (utils/designs.py). The constraint has the wrong sign in front of the offset: the feasible set is
  the negative of the polytope. Witness: a triangle. Proved for vertex sets symmetric about the origin.
* **C18** multistart loops. The random state is not restored when a start raises.
* **C21, C22** nodes of modulus below 1e-12 are set to zero. For up to 10^11 nodes this moves no node (proved by a gap
  estimate for the eigenvalues); beyond that the rules are exact only up to that shift.
* **C30** `PolynomialApproximation.train` with weights. Matrix and data are multiplied by the weights before least squares,
  so the weights act squared; the stored `f` (and R-squared) are the weighted data. Witness: three points on a line.
* **C68** `PolynomialApproximation.train` with degree 0 always raises `ValueError` (reshaping an empty slice) after the
  coefficients have been stored.
* **C69** `RadialBasisApproximation.train`. `train` floors the noise at 1e-6 but `_rbf_objective` does not, so two equal
  points with zero effective noise make the Cholesky factorisation inside the line search raise `LinAlgError`.
* **C71** `_rbf_objective` is documented as the negative log likelihood. Its scale term is `M log(sig2)`; the likelihood has
  `(M/2) log(sig2)`. Two samples already show that the difference depends on the parameter, so the search minimises
  another function. The value actually computed is proved for all data.
* **C37** `qphd_subspace`. The range test reads `np.amin < -1` without calling `np.amin`; in Python 2 a function never compares
  below an integer, so only the upper bound is tested. Witness: f = x^2 at -2, 0, 1 gives 4/3 instead of 4.
* **C42** `Subspaces.compute` stores `eigenvals`, `eigenvecs` before it looks at the partition type and the bootstrap. If it then
  raises, `W1` and `W2` still belong to the previous call. Witness: two calls on a 2-by-2 gradient sample.
* **C43** `compute` with `sstype='OPG'` and a bootstrap. A replicate is drawn with replacement; when it repeats points the masked
  neighbour list is too short and `local_linear_gradients` raises `ValueError`. Witness: four distinct points in the plane and
  a generator that draws index 0.
* **C46** `hit_and_run_z` (domains.py). Constraints whose slack at the current point is at most sqrt(eps) are left out when the step
  is bounded. In a polytope thinner than that the first row is far outside although the Chebyshev centre is feasible. Witness:
  W1 = (3/5, 4/5), y = 7/5 - 2.4e-9. Proved for rows whose predecessors keep a slack above sqrt(eps).
* **C47** `random_walk_z` stores samples as columns of an (m-n)-by-N array and returns `reshape((N, m-n))` of it, not the
  transpose. Witness: m = 3, n = 1, N = 2 returns an infeasible row. Proved for N = 1 or m - n = 1, with the location of each
  coordinate in general.
* **C53, C54** `constraints` has the sign of C16 and is right only because zonotopes are symmetric. `compute_boundary` does not
  refresh `m` and `n` (`C54_stale`).
* **C17** the optimisers start from `minf = 1e100`, `minres = []`. If no start gets below that value, `minres.x` raises
  `AttributeError`; the random state has been restored by then.
* **C62** `UnboundedMinVariableMap.regularize_z` solves with `c`, not `-c`: it returns minus the minimiser. Witness: data from
  `x2`, where it returns z = 100 with value 150; the minimum is -50 at z = -100.
* **C63** `BoundedMinVariableMap.regularize_z` passes the Hessian as `Q`, but `quadratic_program_ineq` minimises
  `c^T z + z^T Q z` without the factor 1/2. Witness: data from `x2 + x2^2`, where it returns -1/4.02; the minimum is at -1/2.01.
* **C60** `int(np.floor(np.power(N, 1.0/n)))` can be one too small in double precision, because `1.0/n` is rounded: for n = 3 and
  N = 64 the power is 4 - 2^-51, and the rule has 27 nodes instead of 64 (`C60_refuted`, with correctly rounded operations).
  Within the sizes covered this happens only for perfect powers (`root_bounds`). It concerns `av_design` and `av_quadrature_rule`.
* **C92** the documentation promises N design points and N nodes. On an unbounded domain there are floor(N^(1/n))^n of them
  (`C92_refuted`: N = 5, n = 2, 4 points), and on a zonotope as many nodes as simplices.
* **C75** `robot_grad` evaluates `(u**2 + v**2)**-.5` also where `u = v = 0`, which are points of the cube (`C75_zero`): the row
  is nan there.
* **C76** `borehole` and `borehole_grad` assign the scaled inputs into a copy of the argument. For an array of integers the
  assignments truncate; the radius `rw = .0161812*x + .1` becomes 0 for every |x| <= 6 (`C76_integer`).
* **C77** `wing_grad` of tutorials/wing_functions.py. The sweep is in degrees in the argument and in radians in the formula;
  column 3 lacks the factor pi/180 that the version in test_functions has. The notebook multiplies by it after the call.
  The comments of both functions say that rows are in the normalised space; they are in the units of the function.
* **C78** a single column is accepted by the functions on the unit box and repeated over all inputs.
* **C82** `zonotope_2d_plot` calls `plt.show()` before `plt.savefig` (482-485), the other functions after it. With an interactive backend the
  figure is gone when the window is closed, and the file is blank.
* **C84** `eigenvalues` with `e_br` takes the limits from the ranges alone (84): an eigenvalue above 10 times the largest upper bound or below a
  tenth of the smallest lower bound is not in the plot. An eigenvalue 0, as for fewer samples than inputs, makes the lower limit of the
  logarithmic axis 0 (82). `sufficient_summary` multiplies the least and greatest coordinates by 1.1 (382-383): if all coordinates are positive
  (negative), the points nearest to the origin are cut off.
* **C86** the documentation of `plot_opts` gives the key `font` (23); the dictionary has and the functions read `myfont`: `KeyError`.
* **C87** `unique_rows` (420-421) compares bytes, and `-X` turns the 0.0 of `np.sign` into -0.0. If `W1` has a zero row, every row is
  counted twice; the loop of `zonotope_vertices` stops when the count reaches `nzv`, possibly with vertices missing, without a warning.
  Witness: a 4-by-2 matrix with orthonormal columns, for which four of six vertices are returned, each twice.
* **C88** `local_linear_gradients` (gradients.py 59-60) multiplies all rows of a local problem by the square root of the weight of the centre, not
  of the observation in the row. Positive weights therefore change nothing (`C88_no_effect`), and a centre of weight 0 gives the gradient 0.
* **C89** the documentation of `local_linear_gradients` promises an M-by-m array; line 51 makes it `min(ceil(10 m log m), M - 1)` rows, for one input none.
* **C91** `zonotope_vertices` waits for `nzv(m, n)` rows, the number of vertices in general position. For any other `W1` (two parallel rows with
  n = 2, say) that number does not exist: the loop makes all 100002 draws of 10000 samples and prints the warning even if all vertices were
  found in the first draw.
* **C93** with weights, `Rsqr` compares the weighted residuals with the variance of the weighted values, which is not the residual of a fit
  by a constant. It is negative for X = 0, 0, 1, f = 1, 2, 3 and weights 2, 1, 1 (`C93_refuted`: -1/5) and has no lower bound.
* **C105** `basic.ipynb` exchanges `ub` and `lb`. Inputs and gradients are scaled with the same exchanged bounds, so that both change sign: the
  subspace is the same (`C105_subspace`), and the summary plots are reflected.
* **C107** `g1d` returns the rule with the single node 0 for every number below two, so `gauss_hermite(0)`, `gauss_legendre(-3)` and integrals
  over one Gaussian active variable with N <= 0 silently use one node (`C107_gauss`, `C107_unbounded`). On an interval `av_integrate` with N = 0
  returns 0 for every integrand (`C107_interval`).
* **C108** NumPy repeats a single column. `BoundedNormalizer.normalize` and `unnormalize`, `UnboundedNormalizer.normalize` and
  `RadialBasisApproximation.predict` with degree 0 take an M-by-1 array for m equal inputs instead of refusing it; with one bound
  `BoundedNormalizer` normalises any number of columns. (With degree 1 or more the polynomial part of the surface refuses the array.)
  The gradient returned is then the derivative by the first input only (`C108_rbf_column_gradient`).
* **C109** `hit_and_run_z` divides by `np.dot(A, d)` on the constraints with `g <= 0`, zero included. A zero row of W2 (an input that is
  an active direction by itself) makes `eps_max` minus infinity in every step, so that no finite sample is produced. Witness: the
  square with W1 the first unit vector, y = 1/2, z = 0, where the chord is [-1, 1].
* **C112** `integrate` divides the sum of squared deviations by `NMC` instead of `NMC-1` (`np.var` without `ddof`), so the variance behind `lb` and `ub` is too small by the factor `(NMC-1)/NMC` on average. With `NMC=1` the bounds coincide with the estimate however random it is.
* **C119** (limitation, not a violation) `e_br` is called a bootstrap range and is one: minimum and maximum over the replicates. It must not be read as a confidence interval. As `nboot` grows it tends almost surely to the range over all M^M choices of rows, whose lower end is 0 for every eigenvalue but the first (`C119_active`).
* **C121** (limitation, not a violation) `ols_subspace` does not find the direction of a function of one linear form `w · x` when the inputs are uniform on the cube, the setting of
  `bndflag = True`: for `(x1 + 2 x2)³` its eigenvector converges to the direction of `(23, 34)` and not of `(1, 2)`, for every library.  For standard normal inputs
  the direction is found.  The documentation does not mention the difference.  This is a property of the method and not an error in the code.
* **C125** `BoundedNormalizer.unnormalize` can return points outside the box: `(ub - lb) * (X + 1.0) / 2.0 + lb` at X = 1 is `fl(fl(ub - lb) + lb)`, which for
  `lb = -1`, `ub = 0.1` is 0.10000000000000009 > `ub`.  The docstring promises components between `lb` and `ub`; a simulation that checks its bounds rejects the point.
  The lower bound is never violated, and the upper one is respected when `ub - lb` is a double.
* **C126** (limitation, not a violation) `finite_difference_gradients` uses the absolute step `h=1e-6` whatever the size of the inputs. For a coordinate above `2**54 * h` (1.8e10, for instance
  Young's moduli in pascals) `x + h` is rounded back to `x` and the partial derivative is 0 for every function, without a warning (`C126_absorbed`).
* **C128** `local_linear_gradients` does not compare `f` and `weights` with `X` (unlike `process_inputs_outputs`). Extra outputs and weights are ignored
  (`C128_extra_ignored`); with one output too few the call returns or raises `IndexError` depending on the random centres (`C128_short`); with one input anything is
  accepted (`C128_one_input`); `M`-by-`(m+1)` weights are taken for factors of the columns when `p = m+1` (`C128_wide_weights`). `opg_subspace` compares `X` and `f` before the call.
* **C133** `active_subspace` multiplies gradients and weights with broadcasting. A vector with one weight for each sample is accepted if there are as many samples as inputs, and then weight j is used for input j: for the gradients (1, 0) and (2, 0) and the weights 3/4 and 1/4 the eigenvalues sum to 15/4 instead of 7/4. With another number of samples the same vector raises `ValueError`.
* **C96** `PolynomialApproximation.train` with weights as a vector (two or more samples) raises `ValueError` after it has overwritten the attributes `X` and `f`, so an object that was trained before keeps the coefficients of the old data beside the new data.
* **C134** `_bootstrap_replicate` takes the number of samples from the weights. With one number as the weight of all samples (a 1-by-1 array, accepted by `compute` without bootstrap), every replicate is the first sample alone: for gradients the range of the first eigenvalue is the single point c |g_1|^2, those of the others are 0, and some estimated eigenvalue lies above its own range unless all other gradients vanish.
* **C135** `qphd_subspace` is not invariant under reversal of an axis: for the values of x^2 at -2, 0, 1 the eigenvalue is 4/3, for the same values at 2, 0, -1 it is 4. `ols_subspace` takes the solution of smallest norm including the intercept, so with too few samples the result depends on the origin: value 1 at the point 1 gives the eigenvalue 1/4, value 1 at the point 0 gives 0.
* **C136** Radial basis surfaces depend on the unit of the outputs: the default noise is `g*np.sum(e[m:])`, which changes by the square of the unit, and is added to a kernel with value 1 on the diagonal. For the points 0 and 1 with outputs 0 and 1 and eigenvalues 1, 1 the surface predicts more than 0.502 at 1; with the outputs and gradients in units 10^7 times smaller it predicts less than 0.50006 times 10^7, whatever length scale is found.
* **C137** `PolynomialApproximation.train` weights the rows by `weights` and not by their square roots as `ols_subspace` does, so that the squares of the residuals get the squares of the weights: with the values 0 (weight 2) and 1 (weight 1) at zero and the value 0 at 1 and -1, the eigenvalue of `qphd_subspace` is 4/75; with the value 0 at zero given twice with weight 1 it is 4/27.
* **C139** `UnboundedNormalizer.__init__` does not compare the mean with the covariance: a mean of one entry is used for all inputs without a message; a mean of three entries with a 2-by-2 covariance gives an object all of whose later calls fail. A matrix that is not symmetric is accepted and its upper triangle is ignored.
* **C145** `train_with_interface` on a bounded domain adds to the conditional means at the design points the value of the function at one point over each vertex of the active domain. When a component of the eigenvector is zero that point is the centre of a whole face (`sign(0) = 0`), so its value is not the conditional mean and the surface is biased even if the conditional mean is a constant: for the square of the inactive coordinate on the square, whose conditional mean is 1/3 everywhere, some prediction has mean less than 1/3 (`C145_refuted`).
* **C148** The step size of `random_walk_z` is a tenth of the distance of the starting point to the nearer of the corners `(1, ..., 1)` and `(-1, ..., -1)` of the cube. The starting point is a solution of a linear program with zero objective, so a vertex of the polytope is a possible answer. If it is one of the two corners, the step size is zero and all samples are copies of it. Witness: the active direction (8, 4, -1)/9 at y = 11/9, where the polytope is a triangle with the corner (1, 1, 1).
