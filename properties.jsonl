{"id": "C01", "title": "Options dictionary behaves like a guarded map", "statement": "For every history of declare / set / update / clone calls, reading an option returns the value of the last accepted write to that name (or the declared default if none was accepted); a set of an undeclared name or of a value outside the declared values/types raises and changes nothing; reading a never-declared name raises. `name in options` holds exactly when reading succeeds; `is_declared(name)` exactly when some call declared the name, even one that raised.", "quantifier": "all option names, values, declarations and all finite operation histories", "why_tests_cant": "a test fixes one history; the claim is about every interleaving of declarations, accepted writes and rejected writes", "anchors": ["smt/utils/options_dictionary.py: OptionsDictionary.__getitem__, __setitem__, declare, update, clone"]}
{"id": "C02", "title": "Stored option values always satisfy their declaration", "statement": "In every history in which no declare call raised, each stored option value is either acceptable for the current declaration of that name (in values or an instance of types) or is the None default given at declaration; undeclared names are never stored. If a re-declaration raises, the old value can survive under the new, stricter declaration (a real hole).", "quantifier": "all finite histories of declare/set/update, including failing ones", "why_tests_cant": "invariant over unbounded histories", "anchors": ["smt/utils/options_dictionary.py: _assert_valid, declare, __setitem__"]}
{"id": "C03", "title": "Cloned options are independent", "statement": "After clone(), no sequence of operations on the clone changes any read on the original, and vice versa; immediately after cloning both answer every read and every is_declared query identically.", "quantifier": "all states and all later operation sequences on either side", "why_tests_cant": "needs all later histories", "anchors": ["smt/utils/options_dictionary.py: clone"]}
{"id": "C04", "title": "Training store returns the latest data set", "statement": "For every history of set_training_values / update_training_values / set_training_derivatives calls (each may raise), the data used for a group and kind is exactly the one given by the last accepted call; update_training_values keeps the inputs and replaces only outputs; a raising call leaves the stored data unchanged; stored inputs and outputs always have equal row counts.", "quantifier": "all call histories, group names, arrays of any shape", "why_tests_cant": "unbounded histories with rejected calls interleaved", "anchors": ["smt/surrogate_models/surrogate_model.py: set_training_values, update_training_values, set_training_derivatives"]}
{"id": "C05", "title": "update_training_derivatives targets the derivative data set earlier", "statement": "update_training_derivatives(dyt, kx) should replace the derivative outputs stored by set_training_derivatives(., ., kx), checking against their input points. The code tests and measures the data of index kx-1 (values when kx=0): it raises or accepts in the wrong cases. Exactly characterise when it succeeds and what it changes.", "quantifier": "all stores, kx, and derivative arrays", "why_tests_cant": "the wrong cases depend on which keys are present and on mismatched sizes", "anchors": ["smt/surrogate_models/surrogate_model.py: update_training_derivatives"]}
{"id": "C06", "title": "Prediction entry points accept exactly well-shaped inputs and return (n, ny)", "statement": "predict_values / predict_variances / predict_derivatives accept an array exactly when it has rank 1 or 2 and, as a 2-D array, nx columns (and the feature is supported); then, if the model core returns n*ny numbers, the result has n rows and ny columns; otherwise they raise. A 1-D array of length n means n one-dimensional points. Zero points raise (division by n) in the timed entry points.", "quantifier": "arrays of every rank and shape, every nx, ny, support table", "why_tests_cant": "all shapes", "anchors": ["smt/surrogate_models/surrogate_model.py: predict_values, predict_derivatives, predict_variances", "smt/utils/checks.py: ensure_2d_array, check_nx, check_support"]}
{"id": "C07", "title": "Caching is transparent", "statement": "For a deterministic operation guarded by cached_operation, with a collision-free checksum, the result equals the uncached result after every history of runs, crashes during computing, torn or corrupted cache files and deletions, as long as a readable file holds only what an earlier run saved.", "quantifier": "all finite histories of runs / crashes / file corruptions, all directories", "why_tests_cant": "crash points and file-system histories cannot be enumerated by tests", "anchors": ["smt/utils/caching.py: cached_operation", "smt/surrogate_models/rbf.py: _train", "smt/surrogate_models/rmts.py: _train"]}
{"id": "C08", "title": "Caching writes only when asked and only after success", "statement": "cached_operation never writes when data_dir is None/empty, never overwrites a file it could load, and writes nothing when the body raises. (It does try to read a path starting with 'None/' when data_dir is None, contrary to its documentation.)", "quantifier": "all file systems, directories, bodies", "why_tests_cant": "all crash points", "anchors": ["smt/utils/caching.py: cached_operation"]}
{"id": "C09", "title": "Printer depth is balanced and prints follow active/depth", "statement": "For every tree of nested timed contexts without exceptions the depth after equals the depth before, prints inside a context nested d deep are indented by d+1 levels, inactive printers print nothing, and each keyed context appends exactly one time. If the body raises, depth stays incremented.", "quantifier": "all nesting trees of contexts and print calls", "why_tests_cant": "unbounded nesting", "anchors": ["smt/utils/printer.py: Printer.__call__, _timed_context"]}
{"id": "C10", "title": "Scaled samples stay inside the limits", "statement": "Every sampling method that scales unit-cube samples returns points with lo_j <= x_ij <= hi_j, reaching lo_j at 0 and hi_j at 1, with the same number of rows and columns, and keeps the order of samples in each column when lo_j <= hi_j.", "quantifier": "all sample matrices in the unit cube, all limits", "why_tests_cant": "all real inputs and sizes", "anchors": ["smt/sampling_methods/sampling_method.py: ScaledSamplingMethod.__call__, _scale_to_xlimits"]}
{"id": "C11", "title": "Full-factorial design size and termination", "statement": "For every nt >= 1 and every positive number of dimensions with any weights, the level-count loop terminates, the grid has at least nt points, and the call returns exactly nt points (or the whole grid when clip is set); every dimension gets at least one level.", "quantifier": "all nt, dimension counts, weights", "why_tests_cant": "termination of an argmax-driven loop for all weights", "anchors": ["smt/sampling_methods/full_factorial.py: FullFactorial._compute"]}
{"id": "C12", "title": "Full-factorial points are distinct grid points", "statement": "The points returned by the full-factorial design are pairwise distinct, each coordinate is one of the equally spaced levels l/(k-1) of its dimension, all inside the unit cube, and with clip every combination of levels appears exactly once.", "quantifier": "all level counts and dimensions", "why_tests_cant": "unbounded grid sizes", "anchors": ["smt/sampling_methods/full_factorial.py: FullFactorial._compute"]}
{"id": "C13", "title": "ESE optimisation preserves the Latin hypercube property", "statement": "Whatever the random draws and temperatures, the enhanced stochastic evolutionary LHS returns a design each of whose columns is a permutation of the corresponding column of the initial design.", "quantifier": "all initial designs, all random choices, all iteration counts", "why_tests_cant": "all random schedules", "anchors": ["smt/sampling_methods/lhs.py: _maximinESE, _PhiP_exchange"]}
{"id": "C14", "title": "ESE never returns a design worse than the initial one", "statement": "The PhiP criterion of the returned design is <= that of the initial design, the history of best PhiP values is non-increasing, and the incremental PhiP used for each exchange equals the PhiP recomputed from scratch on the exchanged design.", "quantifier": "all designs, p, random choices, temperatures", "why_tests_cant": "all schedules; algebraic identity for all matrices", "anchors": ["smt/sampling_methods/lhs.py: _maximinESE, _PhiP, _PhiP_exchange"]}
{"id": "C15", "title": "Mixed-integer fold/unfold round-trip", "statement": "Folding after unfolding is the identity on every folded point whose enum coordinates are valid indices; unfolding after folding is the identity on every unfolded point whose enum blocks are one-hot; both produce the documented dimensions.", "quantifier": "all type lists and points", "why_tests_cant": "all type lists", "anchors": ["smt/applications/mixed_integer.py: fold_with_enum_index, unfold_with_enum_mask, compute_unfolded_dimension"]}
{"id": "C16", "title": "Casting to discrete values is a projection", "statement": "cast_to_discrete_values is idempotent, leaves float coordinates unchanged, makes every int coordinate an integer at distance <= 1/2 (inside integer bounds if it started inside), and turns an enum block into a one-hot mask exactly when its maximum is unique (with ties several ones appear, so the result is not a valid enum choice).", "quantifier": "all type lists and points", "why_tests_cant": "all points including ties and half-integers", "anchors": ["smt/applications/mixed_integer.py: cast_to_discrete_values"]}
{"id": "C17", "title": "Unfolded limits agree with unfolded points", "statement": "unfold_xlimits produces exactly as many rows as the unfolded dimension; every unfolded valid point lies within them; a type specification is accepted exactly when lengths match and every enum size matches its number of levels.", "quantifier": "all type lists / limits", "why_tests_cant": "all type lists", "anchors": ["smt/applications/mixed_integer.py: unfold_xlimits_with_continuous_limits, check_xspec_consistency, compute_unfolded_dimension"]}
{"id": "C18", "title": "Mixed-integer wrappers only depend on the discrete point", "statement": "A mixed-integer surrogate predicts the same value at any two inputs denoting the same discrete choice; at a training point that already is a discrete choice the inner model is evaluated at exactly the row it was trained on (training points themselves are not cast: a non-integer INT coordinate is trained on unrounded but predicted at the rounded value); mixed-integer sampling returns only points whose enum coordinates are valid indices and int coordinates are integers; level labels are looked up at the right index.", "quantifier": "all inner surrogates, types, inputs", "why_tests_cant": "all inputs and models", "anchors": ["smt/applications/mixed_integer.py: MixedIntegerSurrogateModel, MixedIntegerSamplingMethod"]}
{"id": "C19", "title": "EGO history is consistent", "statement": "For a deterministic objective, after EGO.optimize with any number of iterations and parallel points, any outcomes of the inner optimisation and any virtual-point strategy, the recorded y of every recorded x is the true objective value (no virtual value survives), lists have equal length, and the initial design is a prefix of the history.", "quantifier": "all objectives, inner-optimiser outcomes (including failures), criteria, n_iter, n_parallel >= 1", "why_tests_cant": "all inner-optimiser behaviours and schedules", "anchors": ["smt/applications/ego.py: EGO.optimize, _get_virtual_point"]}
{"id": "C20", "title": "EGO returns the best recorded point within its budget", "statement": "The returned y_opt is the minimum of the recorded values, x_opt is the first point attaining it, and the number of recorded points is at most n_doe + n_iter*n_parallel, with equality when no inner optimisation fails.", "quantifier": "as C19", "why_tests_cant": "as C19", "anchors": ["smt/applications/ego.py: EGO.optimize, _find_best_point"]}
{"id": "C21", "title": "Expected improvement is non-negative and vanishes without uncertainty", "statement": "EI(x) = (fmin-mu)Phi(z)+s*phi(z) >= 0 for all mu, fmin and s >= 0, is at least the certain improvement fmin-mu, is 0 when s = 0 in the code's single-point branch, and is non-increasing in the predicted mean.", "quantifier": "all real fmin, mu, s", "why_tests_cant": "inequality over all reals", "anchors": ["smt/applications/ego.py: EGO.EI"]}
{"id": "C22", "title": "Tensor index expand/contract are inverse", "statement": "expand_index and contract_index are mutually inverse bijections between multi-indices below the shape and 0..prod-1, in row-major order.", "quantifier": "all shapes and indices", "why_tests_cant": "all shapes", "anchors": ["smt/src/rmts/utils.cpp: expand_index, contract_index"]}
{"id": "C23", "title": "B-spline basis is a partition of unity", "statement": "For every order, every knot interval and parameter, the computed B-spline basis values sum to 1; they are non-negative when the parameter lies in the selected knot span; the first/second-derivative bases sum to 0.", "quantifier": "all orders, numbers of control points and parameters", "why_tests_cant": "all orders", "anchors": ["smt/src/rmts/rmtb.cpp: compute_basis_0, compute_basis_1, compute_basis_2"]}
{"id": "C24", "title": "B-spline derivative bases are the true derivatives", "statement": "compute_basis_1 and compute_basis_2 are the first and second derivatives of compute_basis_0 with respect to the parameter within a knot span.", "quantifier": "all orders, spans, parameters", "why_tests_cant": "analytic identity for all orders", "anchors": ["smt/src/rmts/rmtb.cpp: compute_basis_1, compute_basis_2"]}
{"id": "C25", "title": "RMTB Jacobian rows are convex combinations over valid control points", "statement": "Each row of the tensor-product B-spline interpolation matrix has exactly prod(order) entries, with distinct column indices below prod(ncp), entries summing to 1 and non-negative, so RMTB predictions inside the domain lie between the smallest and largest coefficient.", "quantifier": "all dimensions, orders, ncp, points", "why_tests_cant": "all dimensions", "anchors": ["smt/src/rmts/rmtb.cpp: compute_jac"]}
{"id": "C26", "title": "RMTC cubic elements interpolate nodal values and slopes and join C1", "statement": "On every element the cubic Hermite interpolant takes the stored value and derivative at the element ends, and adjacent elements share them, so the 1-D interpolant and its derivative agree at shared nodes; every point of the domain is mapped to an element containing it.", "quantifier": "all numbers of elements, nodal data, points", "why_tests_cant": "all sizes / points", "anchors": ["smt/src/rmts/rmtc.cpp: compute_coeff2nodal, compute_uniq2elem, compute_jac, find_interval"]}
{"id": "C27", "title": "RMTS Newton system is the exact gradient and Hessian of the objective", "statement": "The gradient and Hessian used in training are the exact first and second derivatives of the objective used in the line search, for approximation order p = 2 and for every even p, along every direction.", "quantifier": "all data, directions, orders p", "why_tests_cant": "analytic identity for all inputs", "anchors": ["smt/surrogate_models/rmts.py: _opt_func, _opt_grad, _opt_hess"]}
{"id": "C28", "title": "RMTS extrapolation is linear outside and inactive inside", "statement": "With extrapolation on, predictions at points inside the limits equal those without it, and outside equal value plus gradient times displacement at the nearest point of the box; its derivatives are exact also there; without it predictions outside equal those at the nearest domain point.", "quantifier": "all points, limits", "why_tests_cant": "all points", "anchors": ["smt/surrogate_models/rmts.py: _compute_prediction_mtx", "smt/src/rmts/rmts.cpp: compute_ext_dist"]}
{"id": "C29", "title": "IDW weights form a convex combination and interpolate", "statement": "For every set of training inputs and every x, IDW weights are non-negative and sum to 1, so predictions lie between the smallest and largest training output; at a training input the prediction is the stored output (first one among duplicates).", "quantifier": "all training sets, powers p, points", "why_tests_cant": "all data sets", "anchors": ["smt/src/idw/idw.cpp: compute_jac", "smt/surrogate_models/idw.py: _predict_values"]}
{"id": "C30", "title": "IDW derivatives are the true derivatives", "statement": "Away from training points predict_derivatives is the partial derivative of predict_values, and predict_output_derivatives is the exact derivative with respect to training outputs everywhere.", "quantifier": "all data, points, kx", "why_tests_cant": "analytic identity", "anchors": ["smt/src/idw/idw.cpp: compute_jac_derivs", "smt/surrogate_models/idw.py: _predict_derivatives, _predict_output_derivatives"]}
{"id": "C31", "title": "RBF interpolates, is differentiated exactly, and output derivatives are exact", "statement": "When the linear system is solved exactly with reg = 0, RBF reproduces all training values for every degree of polynomial tail; predict_derivatives is the exact partial derivative; predict_output_derivatives is the exact derivative of predictions with respect to training values; the system matrix is symmetric.", "quantifier": "all data, d0, degree, points", "why_tests_cant": "analytic/algebraic identity for all data", "anchors": ["smt/src/rbf/rbf.cpp", "smt/surrogate_models/rbf.py"]}
{"id": "C32", "title": "QP column layout is a bijection and derivatives are exact", "statement": "The quadratic response surface assigns each pair i<j a distinct column and fills all (nx+1)(nx+2)/2 columns; predict_derivatives is the exact partial derivative for one output; training reproduces any exactly quadratic function when the design has full rank and is refused with fewer points.", "quantifier": "all nx, points, coefficients", "why_tests_cant": "all dimensions", "anchors": ["smt/surrogate_models/qp.py: _response_surface, _predict_derivatives, _new_train"]}
{"id": "C33", "title": "LS derivative consistency", "statement": "predict_derivatives of the linear model is the exact partial derivative of predict_values for every input index and output.", "quantifier": "all coefficients, points", "why_tests_cant": "analytic", "anchors": ["smt/surrogate_models/ls.py"]}
{"id": "C34", "title": "Correlation kernels are normalised and bounded", "statement": "For positive hyper-parameters every correlation kernel (absolute exponential, squared exponential, Matern 5/2 and 3/2) equals 1 at zero distance and lies in (0,1]; the exponential kernels and both Matern kernels decrease with each component distance.", "quantifier": "all theta, distances, dimensions", "why_tests_cant": "all reals and dimensions", "anchors": ["smt/utils/kriging_utils.py: abs_exp, squar_exp, matern52, matern32"]}
{"id": "C35", "title": "Kernel hyper-parameter gradients and Hessians are exact", "statement": "The grad_ind and hess_ind outputs of each kernel are the exact first and second partial derivatives of the kernel with respect to theta.", "quantifier": "all theta, distances, indices, dimensions", "why_tests_cant": "analytic identity", "anchors": ["smt/utils/kriging_utils.py: abs_exp, squar_exp, matern52, matern32"]}
{"id": "C36", "title": "Chunked kernel evaluation covers each row exactly once", "statement": "The chunk loops used in the kernels process every row exactly once for every number of rows, including 0 and exact multiples of the chunk size.", "quantifier": "all row counts and chunk sizes", "why_tests_cant": "all sizes", "anchors": ["smt/utils/kriging_utils.py: abs_exp, matern52 (nb_limit loops)"]}
{"id": "C37", "title": "Pairwise distance table enumerates each unordered pair once", "statement": "cross_distances lists exactly the pairs k<l in lexicographic order with D = X[k]-X[l], and the correlation matrix assembled from it is symmetric with diagonal 1 + nugget + noise and entry r(X[k]-X[l]).", "quantifier": "all sample counts", "why_tests_cant": "all sizes", "anchors": ["smt/utils/kriging_utils.py: cross_distances", "smt/surrogate_models/krg_based.py: _reduced_likelihood_function"]}
{"id": "C38", "title": "Standardisation is invertible and centres the data", "statement": "Un-standardising the standardised training data returns the originals; standardised columns have mean 0 and constant columns are mapped to 0 without division by zero (except with scale_X_to_unit, which divides by zero on a constant column).", "quantifier": "all data", "why_tests_cant": "all data incl. degenerate columns", "anchors": ["smt/utils/kriging_utils.py: standardization"]}
{"id": "C39", "title": "Kriging interpolates training data", "statement": "If the correlation matrix factorises exactly and nugget = noise = 0, the Kriging prediction at each training input is the training output for every regression and correlation.", "quantifier": "all data, kernels, trends, theta", "why_tests_cant": "algebraic identity for all data", "anchors": ["smt/surrogate_models/krg_based.py: _reduced_likelihood_function, _predict_values"]}
{"id": "C40", "title": "Kriging variance is non-negative and vanishes at training points", "statement": "predict_variances is >= 0 everywhere and, without nugget/noise, equals 0 at every training input.", "quantifier": "all data, kernels, trends", "why_tests_cant": "algebraic", "anchors": ["smt/surrogate_models/krg_based.py: _predict_variances"]}
{"id": "C41", "title": "Kriging variance equals the universal-Kriging variance", "statement": "The reported variance should be sigma2(1 - r'R^-1 r + u'(F'R^-1F)^-1 u), u = F'R^-1 r - f. True for a constant trend; false for linear/quadratic trends because a triangular solve is given the wrong triangle.", "quantifier": "all data, trends", "why_tests_cant": "needs all trends; existing tests only use constant trend", "anchors": ["smt/surrogate_models/krg_based.py: _predict_variances"]}
{"id": "C42", "title": "Kriging derivatives are exact", "statement": "predict_derivatives is the exact partial derivative of predict_values for the squared-exponential kernel with constant or linear trend; other combinations raise.", "quantifier": "all data, theta, points, kx", "why_tests_cant": "analytic", "anchors": ["smt/surrogate_models/krg_based.py: _predict_derivatives"]}
{"id": "C43", "title": "Trend functions are the documented monomials", "statement": "constant/linear/quadratic regressors return 1, 1+nx, (nx+1)(nx+2)/2 columns consisting of 1; x_i; x_i x_j for i<=j, each monomial exactly once.", "quantifier": "all dimensions and points", "why_tests_cant": "all dims", "anchors": ["smt/utils/kriging_utils.py: constant, linear, quadratic"]}
{"id": "C44", "title": "Backtracking line search returns an Armijo step", "statement": "Whenever the backtracking search returns, the step satisfies the sufficient-decrease test, is initial_a*rho^k with k minimal, never increases the objective for a non-ascent direction, and it terminates for every differentiable objective and descent direction.", "quantifier": "all objectives, directions, points", "why_tests_cant": "all functions; termination", "anchors": ["smt/utils/line_search.py: LineSearch, BacktrackingLineSearch.__call__"]}
{"id": "C45", "title": "Bracketed line searches return strong-Wolfe steps, or nothing, or (cubic) raise", "statement": "A step returned by the bisecting, quadratic or cubic search satisfies both the sufficient-decrease and the strong curvature condition. The search returns None only after 20 expansions that all passed sufficient decrease, kept decreasing the objective and stayed steep. For objectives continuously differentiable along a descent direction the bisecting and quadratic searches always terminate without raising; the cubic search proposes only points of the bracket better than its worse end and raises when there is none.", "quantifier": "all objectives, directions, points, interpolation rules, branch sequences", "why_tests_cant": "all functions and unbounded zoom loops", "anchors": ["smt/utils/line_search.py: BracketedLineSearch.__call__, _zoom"]}
{"id": "C46", "title": "Linear solvers solve: fixed points, direct solves, convergence, selection", "statement": "One Jacobi or Gauss-Seidel sweep with non-zero damping leaves x unchanged iff A x = b, so any number of sweeps keeps a solution; on diagonally dominant (Jacobi) or symmetric positive-diagonal (Gauss-Seidel, damping in (0,2)) systems the error contracts / its energy decreases, at every sweep; on symmetric positive definite systems damped Gauss-Seidel converges to the solution from every start, geometrically in energy. The direct solvers return the exact solution. Multigrid with its default smoother returns P(P'AP)^-1P'b whatever was solved before on the same object, i.e. the exact solution without operators. Every documented solver name selects a solver (but krylov-dense gets no preconditioner and clones forget their options).", "quantifier": "all matrices with non-zero diagonal, right-hand sides, dampings, iteration counts, operator hierarchies, histories of solves", "why_tests_cant": "all matrices and histories", "anchors": ["smt/utils/linear_solvers.py: get_solver, LinearSolver._clone, DenseCholeskySolver, DenseLUSolver, DirectSolver, StationarySolver, MultigridSolver"]}
{"id": "C47", "title": "MOE training split is a partition", "statement": "The test/training split puts every sample in exactly one part, preserving order, and clustering assigns every sample to exactly one cluster.", "quantifier": "all sample sets, cluster assignments", "why_tests_cant": "all sizes", "anchors": ["smt/applications/moe.py: _extract_part, _cluster_values"]}
{"id": "C48", "title": "MOE smooth prediction is a convex combination of experts", "statement": "Cluster probabilities are non-negative and sum to 1 whenever some density is positive, so the smooth prediction lies between the smallest and largest expert prediction; the hard prediction equals the prediction of a most-probable expert; with one cluster both equal the single expert.", "quantifier": "all experts, densities, points", "why_tests_cant": "all expert outputs", "anchors": ["smt/applications/moe.py: _proba_cluster, _predict_smooth_output, _predict_hard_output"]}
{"id": "C49", "title": "VFM bridges reproduce high-fidelity data and differentiate exactly", "statement": "If the bridge surrogate interpolates its data, the additive (and, where LF != 0, multiplicative) variable-fidelity model reproduces the high-fidelity outputs at their inputs, and predict_derivatives is the exact derivative of predict_values.", "quantifier": "all surrogates, data", "why_tests_cant": "all models", "anchors": ["smt/applications/vfm.py: predict_values, predict_derivatives, _apply"]}
{"id": "C50", "title": "Nested LHS designs are nested", "statement": "Each higher-fidelity design returned by NestedLHS is a subset of the next lower one, with sizes doubling per level.", "quantifier": "all level counts, sizes and initial designs", "why_tests_cant": "all designs", "anchors": ["smt/applications/mfk.py: NestedLHS.__call__"]}
{"id": "C51", "title": "Benchmark problem derivatives are exact", "statement": "For Sphere, Rosenbrock, Branin, CantileverBeam, LpNorm (orders 1 and 2), TensorProduct and RobotArm, calling the problem with kx=k returns the exact partial derivative of the value with respect to input k, in every dimension, at every point where that derivative exists (beam: non-zero sections; arm: end not at the base; norm: non-zero). Violations recorded: LpNorm of order 3 or more raises for derivatives; TensorProduct and RobotArm accept kx outside the input range.", "quantifier": "all points, dimensions, kx", "why_tests_cant": "it is an analytic identity over all real points and all dimensions; tests compare with finite differences at a few points", "anchors": ["smt/problems/*.py"]}
{"id": "C52", "title": "Reduced problems embed the subspace exactly", "statement": "ReducedProblem has one input per listed index, with that input's limits; its value is that of the full problem at the point with listed inputs taken from x and the others at (1-w)*lower+w*upper, and its derivatives are exact wherever the full problem's are, for distinct indices. NdimRosenbrock, NdimCantileverBeam, NdimRobotArm and NdimStepFunction therefore have exact derivatives. Repeated indices are accepted and give wrong derivatives. The n-dimensional step function has n inputs between -1 and 1.", "quantifier": "all inner problems, dimension selections, weights", "why_tests_cant": "ranges over all inner problems, index selections and weights", "anchors": ["smt/problems/reduced_problem.py"]}
{"id": "C53", "title": "Neural-network activations, Jacobian and back-propagation are exact", "statement": "Activation derivatives are exact; the forward Jacobian pass returns the exact partial derivative of the network output; for batches of at least two examples and gradient-enhancement weight gamma in {0, 1}, the back-propagated gradient is the exact gradient of the training cost with respect to every weight and bias; for 0 < gamma < 1 it scales the enhancement term by gamma squared instead of gamma; missing derivative data or a batch of one example raises.", "quantifier": "every network (number of layers, widths, activations), parameters, batch, direction", "why_tests_cant": "all depths, widths and parameter values", "anchors": ["smt/utils/neural_net/activation.py", "smt/utils/neural_net/fwd_prop.py", "smt/utils/neural_net/bwd_prop.py", "smt/utils/neural_net/cost.py"]}
{"id": "C54", "title": "RMTB derivatives are the derivatives of the fitted spline", "statement": "predict_derivatives(x, k) of an RMTB model is the exact partial derivative along input k of predict_values at every point inside the limits (for spline order at least 3, the default, knots included; for order 2 away from knots and from the right at knots), the predicted values are continuous for order at least 2, and the mixed second derivatives used internally are exact derivatives of the first ones.", "quantifier": "all spline orders, numbers of control points, dimensions, coefficients, inputs", "why_tests_cant": "analytic identity for every order, knot span and dimension", "anchors": ["smt/src/rmts/rmtb.cpp: compute_basis_0/1/2, compute_jac", "smt/surrogate_models/rmtb.py: _compute_jac_raw"]}
{"id": "C55", "title": "RMTS training never increases its objective and stops only at its tolerance or iteration limit", "statement": "Every Newton direction is a descent direction, each accepted step and the whole solve never increase the training objective, the loop ends with gradient norm at most the tolerance or after nonlinear_maxiter iterations, and with approx_order 2 one full step already solves the problem exactly.", "quantifier": "all training sets, weights, even approximation orders, iteration limits, line searches meeting the sufficient decrease condition", "why_tests_cant": "all data sets and iteration histories", "anchors": ["smt/surrogate_models/rmts.py: _run_newton_solver, _solve, _opt_func, _opt_grad, _opt_hess"]}
{"id": "C56", "title": "Cached RMTS energy terms are valid for every xlimits", "statement": "The matrices written to the energy-term cache depend only on the data in the cache key (elements, control points, orders) and not on xlimits, so reusing them for a model with other limits is correct; the assembled energy is the smoothness-weighted mean square of second derivatives over the quadrature points.", "quantifier": "all limits, element counts, orders, dimensions", "why_tests_cant": "cache reuse across arbitrary models", "anchors": ["smt/surrogate_models/rmts.py: _compute_energy_terms", "smt/surrogate_models/rmtb.py", "smt/surrogate_models/rmtc.py"]}
{"id": "C57", "title": "RMTS quadrature points are the centres of all cells", "statement": "The quadrature points are exactly the centres of the cells of the regular grid, in row-major order, one for each cell, all strictly inside the limits.", "quantifier": "all dimensions, element counts, limits", "why_tests_cant": "all grid shapes", "anchors": ["smt/src/rmts/rmts.cpp: compute_quadrature_points", "smt/src/rmts/utils.cpp: expand_index"]}
{"id": "C58", "title": "Kernel spatial Jacobians are exact", "statement": "The Jacobian dr a kernel returns with derivative_params is the partial derivative of the kernel value with respect to the prediction point: at every point for the squared exponential (also with PLS distances) and both Matern kernels; for the absolute exponential where the component differs from the training point's, at whose kinks the kernel has no derivative.", "quantifier": "all theta, points, dimensions, components", "why_tests_cant": "analytic identity incl. the measure-zero set of shared coordinates", "anchors": ["smt/utils/kriging_utils.py: abs_exp, squar_exp, matern52, matern32 (derivative_params), componentwise_distance, componentwise_distance_PLS"]}
{"id": "C59", "title": "Kriging variance derivatives are exact", "statement": "predict_variance_derivatives returns the exact partial derivatives of the universal-Kriging variance with respect to each input, for the squared-exponential and both Matern kernels at every point and for the absolute exponential away from coordinates shared with a training point; with a constant trend this is the derivative of the reported predict_variances wherever that is positive.", "quantifier": "all data, hyper-parameters, points, components", "why_tests_cant": "analytic identity over all trained models", "anchors": ["smt/surrogate_models/krg_based.py: _predict_variance_derivatives", "smt/utils/kriging_utils.py: componentwise_distance"]}
{"id": "C60", "title": "MOE tries exactly the admissible experts, keeps one of least score, and its Heaviside factor is never worse than 1", "statement": "The experts tried are exactly the registered ones that pass all restrictions (names, derivative and variance support, allow and deny lists); the expert kept has the least validation score and is the first tried among those; the optimised Heaviside factor never has a larger test error than the default 1 and is best among 0.1,...,2.1. The validation score itself is not a prediction error: it is the spectral norm of an n x n broadcast difference, and ties a perfect expert with a mirrored one.", "quantifier": "all registries, restrictions, score lists, error functions, test sets", "why_tests_cant": "all score tables and data sets; a test with one data set does not reveal that the score ignores pairing", "anchors": ["smt/applications/moe.py: _get_enabled_expert_types, _find_best_model, _find_best_heaviside_factor", "smt/utils/misc.py: l_two"]}
{"id": "C61", "title": "VFM: when it trains, what it remembers, and what it does to its option dictionaries", "statement": "A VFM object trains exactly when all four data sets are present, its two option dictionaries are different objects and derivative data are given wherever requested; after the first successful prediction the model never changes, whatever options are set afterwards; training removes the entry \"deriv\" from the caller's dictionaries (and touches nothing else), so a second VFM built from the same dictionaries trains without derivatives, and one dictionary shared by both models always fails.", "quantifier": "all configurations, dictionaries (aliased or not), operation sequences", "why_tests_cant": "histories and aliasing", "anchors": ["smt/applications/vfm.py: _apply, _check_param, predict_values"]}
{"id": "C63", "title": "Kriging: the reduced likelihood and its gradient are exact", "statement": "For every training set, trend basis, nugget and noise, and for each of the four stationary kernels, the value returned by the reduced likelihood is the concentrated log-likelihood -dof*log10(sigma2) - log10(det R) (dof the number of points, or the reduced count for the multi-fidelity models) with the trend coefficients that minimise the weighted residuals, and each entry of the gradient handed to the optimiser is its exact partial derivative with respect to that hyper-parameter (with the ln(10) 10**u factor when it works in log10), at every theta >= 0 where the factorisation succeeds and the process variance is not zero.", "quantifier": "all numbers of points, inputs and trend functions, all data, all theta, nuggets and noise, all successful factorisations", "why_tests_cant": "finite differences at a few hyper-parameters cannot show that a closed-form matrix gradient is right for every data set; the optimiser silently converges to a wrong point if it is not", "anchors": ["smt/surrogate_models/krg_based.py: _reduced_likelihood_function, _reduced_likelihood_gradient, _optimize_hyperparam"]}
{"id": "C64", "title": "Kriging: the Hessian of the reduced likelihood is exact", "statement": "For models whose degrees of freedom equal the number of points (KRG, KPLS, GEKPLS, MGP without its prior), every entry (g, h) of the Hessian is the exact partial derivative with respect to theta[h] of the g-th gradient entry, for every data set, trend, nugget, noise and each of the four stationary kernels.", "quantifier": "all numbers of points, inputs and trend functions, all data, all theta >= 0, all pairs of hyper-parameters", "why_tests_cant": "a second-order closed form with fourteen terms can agree with finite differences at symmetric or well-scaled samples and be wrong elsewhere", "anchors": ["smt/surrogate_models/krg_based.py: _reduced_likelihood_hessian"]}
{"id": "C66", "title": "Neural-network predictions and derivatives are the network in user units", "statement": "A prediction is the network applied to normalised inputs mapped back to the user's units; predict_derivatives with one output and at least two points returns the exact partial derivative of that prediction; with one point (two or more inputs), or with several outputs different in number from the inputs, it raises; with as many outputs as inputs the scale of the wrong output is used. The reported R-squared is the textbook quantity.", "quantifier": "every network, scaling data, point set", "why_tests_cant": "all networks and batch shapes", "anchors": ["smt/utils/neural_net/model.py", "smt/utils/neural_net/data.py", "smt/utils/neural_net/metrics.py", "smt/surrogate_models/genn.py"]}
{"id": "C67", "title": "Mini-batches partition the training data and keep examples together", "statement": "For every drawn permutation the mini-batches contain every training example exactly once, with inputs, outputs and derivatives of the same example together; every batch is non-empty, at most the batch size, all but the last exactly the batch size; it fails only without examples or with batch size zero; a last batch of a single example occurs whenever the number of examples is one modulo the batch size.", "quantifier": "every data set, permutation, batch size", "why_tests_cant": "all permutations and sizes", "anchors": ["smt/utils/neural_net/data.py:random_mini_batches"]}
{"id": "C68", "title": "The network optimiser terminates, records faithfully and stops for a reason", "statement": "The line search and the optimisation terminate for every objective and update rule; an accepted step decreases the cost or is shorter than 1e-6; cost and design histories are faithful and the returned design is the last one (not necessarily the best); early stop happens exactly at the first time that 101 consecutive steps are below a tolerance, hence never within 103 iterations; the options beta1 and beta2 have no effect with Adam; each trial of the line search updates Adam's moments.", "quantifier": "every objective, gradient, rate, iteration limit, start", "why_tests_cant": "all objectives and histories", "anchors": ["smt/utils/neural_net/optimizer.py"]}
{"id": "C69", "title": "Multi-fidelity Kriging interpolates each level", "statement": "With any number of fidelity levels, without nugget and noise and with full-rank regressors, the prediction of each level at its own training points is the training output; in particular predict_values interpolates the high-fidelity data. With a nugget or noise the difference is exactly the regularisation term. Training needs more points than regressors at each level and otherwise raises; it succeeds whenever this holds and each level has a positive nugget or distinct points.", "quantifier": "every number of levels, all data, trends, scale-factor trends, nuggets, noise", "why_tests_cant": "all levels, data sets and trends; a recursion over levels", "anchors": ["smt/applications/mfk.py: _new_train, _predict_intermediate_values, predict_values"]}
{"id": "C70", "title": "Multi-fidelity Kriging derivatives", "statement": "With a constant trend and constant scale factor predict_derivatives is the partial derivative of predict_values for any number of levels; with a linear trend it is off by the accumulated slopes of the other inputs (so right with one input); every other combination of kernel, trend and scale factor raises.", "quantifier": "every trained model, number of levels, point and input", "why_tests_cant": "all points, data, levels", "anchors": ["smt/applications/mfk.py: _predict_derivatives"]}
{"id": "C71", "title": "Multi-fidelity Kriging variance", "statement": "With one level the variance is the universal-Kriging variance; with two levels the recursive co-Kriging variance, which is zero at a noise-free training point common to both levels; it is never negative. With three levels it is not zero at a common training point although the prediction is exact there. MFKPLS and MFKPLSK subtract half of the process variance term at the second level.", "quantifier": "every trained model and point", "why_tests_cant": "matrix identities for all data", "anchors": ["smt/applications/mfk.py: predict_variances_all_levels", "smt/applications/mfkpls.py"]}
{"id": "C73", "title": "When Kriging can be trained: definiteness of the kernels", "statement": "Every kernel of the code is positive semi-definite for theta >= 0 in every dimension, and positive definite on distinct points for theta > 0; the KPLS kernels are positive semi-definite for all PLS coefficients. Hence with a positive nugget training never fails on the factorisation; without one it succeeds exactly when the training points are distinct, and then interpolates.", "quantifier": "every dimension, number of points, data, theta", "why_tests_cant": "positive definiteness for all point sets is an analytic fact", "anchors": ["smt/utils/kriging_utils.py: abs_exp, squar_exp, matern52, matern32", "smt/surrogate_models/krg_based.py: _reduced_likelihood_function"]}
{"id": "C65", "title": "Hyper-parameter optimisation terminates and returns what it evaluated", "statement": "Whatever the optimiser does (returns, raises, visits any hyper-parameters), the retry loop of training ends after at most 20 attempts on a new model; a returned hyper-parameter vector was evaluated and the returned value is its finite likelihood; a first finite result is returned after one attempt; when every attempt raises, a best vector evaluated in the first five attempts is returned; when no vector has a finite likelihood - in particular for a constant output - training raises; the budget of tolerated exceptions is per object and never restored; with distinct points and outputs not reproduced by the trend one attempt with positive hyper-parameters trains the model.", "quantifier": "every optimiser behaviour, likelihood, number of attempts, history of trainings; for the data part every data set and kernel", "why_tests_cant": "all schedules of optimiser outcomes and exceptions", "anchors": ["smt/surrogate_models/krg_based.py: _optimize_hyperparam, _reduced_likelihood_function"]}
{"id": "C72", "title": "Start values of the hyper-parameters, and what a training leaves in the options", "statement": "KRG-type training (KRG, KPLS, GEKPLS, KPLSK, and MGP for theta0) begins exactly when theta0 has one value per hyper-parameter or is a list of one value - an array of one value is rejected if there are several hyper-parameters - and noise0 has one value (or, for given heteroscedastic noise, one per point or is a list of one value); the option is then replaced by the spread values, so training again with the same sizes begins from the same values, but with another number of inputs (or, heteroscedastic, of points) it raises, except after one input with a list theta0. KPLSK replaces theta0 and n_comp for good. MFK accepts a list of length d, 1 or number of levels and begins every level from the values meant; training again with the same sizes is unchanged, with other sizes raises; if a level fails, every later training raises until theta0 is set again; a one-dimensional array is never accepted; a single level with the default noise0 always raises; eval_noise is switched off for good with optim_var. For MFK, each level is trained with the noise variances given for it (its own list, or the only entry for all levels), in order, single variances being repeated for every point under heteroscedastic noise with distinct inputs. Given as arrays, the variances of a level must be one per point.", "quantifier": "every option value, number of levels, inputs, points, every pattern of failing levels and every later sequence of trainings", "why_tests_cant": "histories of trainings of one object, of any length and sizes", "anchors": ["smt/surrogate_models/krg_based.py: _check_param, _optimize_hyperparam", "smt/applications/mfk.py: _check_param, _new_train, _new_train_iteration, _new_train_finalize", "smt/surrogate_models/krg_mgp.py:MGP._check_param"]}
{"id": "C74", "title": "MGP: kernel, objective, gradient and Hessian", "statement": "The MGP correlation of two points is exp(-|A^T d|^2/2) for the embedding matrix A built from theta, and is positive semi-definite for every theta; with a positive nugget training never fails, without one it succeeds exactly when the training points have distinct images in the active subspace. The gradient and the Hessian entries that training and predict_variances use are the first and second partial derivatives of the objective (log likelihood plus log prior), and the symmetric matrix assembled from the upper triangle is minus that Hessian.", "quantifier": "every theta (of any sign), number of components, inputs, points, trend of full rank, prior, nugget and noise", "why_tests_cant": "identities between a function and its derivative at every theta and for all data", "anchors": ["smt/surrogate_models/krg_mgp.py: _reduced_log_prior, _specific_train", "smt/utils/kriging_utils.py: act_exp", "smt/surrogate_models/krg_based.py: _reduced_likelihood_gradient, _reduced_likelihood_hessian"]}
{"id": "C75", "title": "MGP: the embedding", "statement": "For an embedding of full rank get_u_from_x(get_x_from_u(u)) = u, and get_x_from_u gives the smallest input with these coordinates; predicting (values and variances) at embedding coordinates gives what predicting at the corresponding input gives; with a constant trend predictions depend on the input only through its coordinates; predict_values is the Kriging prediction for the MGP kernel and interpolates without nugget; points are accepted exactly when they have nx coordinates or n_comp < nx coordinates.", "quantifier": "every training set, theta, coordinate vector, input", "why_tests_cant": "algebraic identities for all embeddings and points", "anchors": ["smt/surrogate_models/krg_mgp.py: get_x_from_u, get_u_from_x, predict_values, predict_variances"]}
{"id": "C76", "title": "MGP: marginalised variance", "statement": "The sensitivities used by predict_variances are the derivatives with respect to the hyper-parameters of the standardised prediction and (one-column trend) of the Kriging variance, with training repeated at the changed theta. The returned variance is 0 where the Kriging variance is 0 (in particular, without nugget, at training points), otherwise 4/3 s2 + dy' S dy + ds2' S ds2/(3 s2) clipped at 0; if minus the Hessian is positive definite nothing raises and the variance is at least 4/3 of the Kriging variance, with equality exactly where both sensitivities vanish; it raises exactly when the Hessian is singular. Multiplying all outputs by c multiplies the Kriging variance by c^2 but leaves the term dy' S dy unchanged, so the MGP variance is scale-equivariant only where the mean does not react to theta.", "quantifier": "every training set, theta, prior, point, scale factor", "why_tests_cant": "derivatives through a whole training, inequalities and scale laws for all data", "anchors": ["smt/surrogate_models/krg_mgp.py: predict_variances, _predict_value_derivatives_hyper, _predict_variance_derivatives_hyper"]}
{"id": "C77", "title": "MGP: rotations of the embedding", "statement": "With a prior of mean zero (the default) rotating the embedding in the active subspace changes neither the objective nor the predicted values; therefore with two or more components the matrix predict_variances solves with is singular at every stationary point theta != 0 of the objective: if training reaches the optimum exactly, predict_variances raises at every input, for all data.", "quantifier": "every orthogonal matrix, training set, theta, input; every number of components >= 2", "why_tests_cant": "a floating-point optimum is never exactly stationary: tests see a huge ill-conditioned inverse, not the singularity", "anchors": ["smt/surrogate_models/krg_mgp.py: _specific_train, predict_variances", "smt/utils/kriging_utils.py: act_exp"]}
{"id": "C62", "title": "Engineering test problems: complex-step and finite-difference derivatives", "statement": "WaterFlow, WaterFlowLFidelity, WeldedBeam, WingWeight and TorsionVibration evaluate the documented formulas; at every point of their design box (and of the larger natural domain of the formula) the function has a partial derivative in each input, and both derivatives the problem can return - imaginary part of one complex evaluation divided by the step, or central difference under use_FD - differ from it by at most a constant times the square of the step, and tend to it as the step tends to 0. TorsionVibration returns sqrt(smallest root of the frequency equation)/(2 pi).", "quantifier": "every point of the five design boxes, every input, every sufficiently small non-zero step", "why_tests_cant": "a test compares two approximations at sampled points with a tolerance; that the complex evaluation stays on the principal branches and is second-order accurate holds point by point over a continuum", "anchors": ["smt/problems/water_flow.py: WaterFlow._evaluate", "smt/problems/water_flow_lfidelity.py: WaterFlowLFidelity._evaluate", "smt/problems/welded_beam.py: WeldedBeam._evaluate", "smt/problems/wing_weight.py: WingWeight._evaluate", "smt/problems/torsion_vibration.py: TorsionVibration._evaluate"]}
{"id": "C78", "title": "GEKPLS: gradients enter as first-order data", "statement": "With derivatives given for all (two or more) inputs, GEKPLS averages over the training points the absolute PLS coefficients of local points whose values are first-order Taylor values, so their sign does not matter; each training point gets extra_points additional points, displaced along the inputs with the largest coefficients, with first-order Taylor values (exact for affine functions, error at most M/2 times the squared step otherwise). Training is prepared successfully exactly for 0 <= extra_points <= number of inputs; training again without setting the data anew raises when extra points are used. A trained model without nugget reproduces all training values, its slope over the step in the chosen directions is the given derivative, and (squared exponential, constant trend) predict_derivatives returns the given derivative at a point between training and extra point.", "quantifier": "every training set, gradient, step, bounds, number of extra points, PLS routine, hyper-parameter, sequence of set/train calls", "why_tests_cant": "tests train one model on a few points and compare error norms; selection of directions, counts and slopes concern all data sets and all extra_points", "anchors": ["smt/utils/kriging_utils.py: ge_compute_pls", "smt/surrogate_models/gekpls.py: GEKPLS._compute_pls", "smt/surrogate_models/krg_based.py: _new_train, _check_F"]}
{"id": "C79", "title": "compute_rms_error", "statement": "With points and values given it returns the relative root-mean-square error of the predicted values (or derivatives), which is 0 exactly when they agree and does not depend on units; all-zero reference values give nan or inf; without arguments it returns the training error. The documented training-derivative check always raises, and giving exactly one of points and values returns None.", "quantifier": "every surrogate, every data set, every combination of optional arguments", "why_tests_cant": "tests call it only with both arguments and non-zero data", "anchors": ["smt/utils/misc.py: compute_rms_error"]}
{"id": "C80", "title": "Estimated heteroscedastic noise with repeated points", "statement": "With eval_noise and use_het_noise, training replaces the data by the distinct points with the means of their repetitions; the noise of a point is the sample variance of the outputs there (noise0 if they agree) divided by the number of repetitions. Repetitions never make the factorisation fail. The prediction at a training point is the mean of its repetitions minus a noise term, and equals the output when the repetitions agree and noise0 is 0. For the same hyper-parameters the predictor is everywhere the one obtained from all observations with the noise variance of each observation given explicitly.", "quantifier": "every training set with or without repetitions, every kernel (even, 1 at 0), trend, noise0, prediction point", "why_tests_cant": "the test checks one noisy data set with a tolerance; equality of the reduced and the full predictor is a statement about all data sets", "anchors": ["smt/surrogate_models/krg_based.py: _new_train (136-160)", "smt/applications/mfk.py: _new_train_iteration (241-270)"]}
{"id": "C81", "title": "Kriging does not depend on the order of the training points nor on the units of inputs and output", "statement": "For fixed hyper-parameters, retraining a Kriging model on the same points listed in another order, with every input x_j replaced by a_j*x_j+b_j (a_j ≠ 0; an input that is constant over the training set only with |a_j|=1) and the output replaced by c*y+d, (1) succeeds exactly when the first training succeeds, (2) makes the prediction at the corresponding point c times the first prediction plus d, (3) makes the variance c^2 times the first, and (4) leaves the likelihood that is maximised over the hyper-parameters unchanged when c ≠ 0 and y is not constant. An input constant over the training set is not standardised, and there predictions do depend on its unit.", "quantifier": "all training sets, permutations, affine changes of unit, kernels and trends of the code, non-negative nuggets, noise vectors, and query points", "why_tests_cant": "a test compares two trainings at a few points; the claim ranges over every data set, permutation, unit and query point", "anchors": ["smt/surrogate_models/krg_based.py:KrgBased._new_train", "smt/utils/kriging_utils.py:standardization", "smt/surrogate_models/krg_based.py:KrgBased._predict_values", "smt/surrogate_models/krg_based.py:KrgBased._predict_variances", "smt/surrogate_models/krg_based.py:KrgBased._reduced_likelihood_function"]}
{"id": "C82", "title": "Superposition: predictions are linear in the training outputs", "statement": "Training the same model with the same options and training inputs on outputs a*y+b*y' gives, at every query point, a times the prediction of the model trained on y plus b times the prediction of the model trained on y'. This holds for QP, LS (points determining the affine functions), RBF (every trend degree and reg, points distinct or reg>0 and determining the trend), IDW, and Kriging with fixed hyper-parameters although every training centres and rescales its outputs.", "quantifier": "all training inputs, pairs of output vectors, coefficients a, b, model options, and query points", "why_tests_cant": "a linearity test samples two output vectors and a few points; the claim is about every pair and every point", "anchors": ["smt/surrogate_models/qp.py:QP._new_train", "smt/surrogate_models/qp.py:QP._predict_values", "smt/surrogate_models/ls.py:LS._new_train", "smt/surrogate_models/rbf.py:RBF._new_train", "smt/surrogate_models/rbf.py:RBF._predict_values", "smt/surrogate_models/idw.py:IDW._predict_values", "smt/surrogate_models/krg_based.py:KrgBased._new_train", "smt/surrogate_models/krg_based.py:KrgBased._predict_values"]}
{"id": "C83", "title": "Order of training points and coordinates of inputs do not change predictions (QP, LS, RBF, IDW)", "statement": "Permuting the training points, and applying to training and query points the same change of coordinates, leaves predictions unchanged: for QP and LS any invertible affine map of the inputs (units, origin, rotation, shear), and QP trains after the change exactly when it trained before; for RBF any origin and unit per input when the scaling distances d0 are expressed in the same units; for IDW any origin and one common unit (order: see C29).", "quantifier": "all training sets, permutations, affine maps, outputs and query points", "why_tests_cant": "a test compares two trainings; the claim ranges over all permutations and coordinate changes", "anchors": ["smt/surrogate_models/qp.py:QP._new_train", "smt/surrogate_models/qp.py:QP._response_surface", "smt/surrogate_models/ls.py:LS._new_train", "smt/surrogate_models/rbf.py:RBF._new_train", "smt/surrogate_models/idw.py:IDW._predict_values", "smt/src/rbf/rbf.cpp", "smt/src/idw/idw.cpp"]}
{"id": "C84", "title": "Polynomial reproduction and exact solvability", "statement": "QP trains exactly when no non-zero polynomial of degree at most two vanishes at all training points, and trained on values of such a polynomial it predicts that polynomial everywhere; LS does so for affine functions; RBF with linear (constant) trend does so for affine (constant) functions whatever d0 and reg; IDW for constants. RBF without trend reproduces no non-zero constant: its predictions become arbitrarily small away from the data. Kriging with poly constant, linear or quadratic trained on values of a constant, affine or quadratic function, at inputs that determine such functions, predicts that function everywhere and reports the variance 0 everywhere, for every kernel, nugget and noise; its trend matrix has full rank exactly when the inputs determine these functions.", "quantifier": "all training inputs, polynomials, options and query points", "why_tests_cant": "tests check reproduction for one polynomial on one design up to a tolerance", "anchors": ["smt/surrogate_models/qp.py:QP._new_train", "smt/surrogate_models/qp.py:QP._response_surface", "smt/surrogate_models/ls.py:LS._new_train", "smt/surrogate_models/rbf.py:RBF._new_train", "smt/surrogate_models/idw.py:IDW._predict_values", "smt/utils/kriging_utils.py:constant", "smt/utils/kriging_utils.py:linear", "smt/utils/kriging_utils.py:quadratic", "smt/surrogate_models/krg_based.py:KrgBased._reduced_likelihood_function"]}
{"id": "C85", "title": "Suppressing output with Silence", "statement": "For every program whose `with Silence():` blocks are not nested and which does not itself assign sys.stdout (any sequence of prints, exceptions, try blocks and Silence blocks), standard output receives exactly what is printed outside the blocks, exceptions propagate as they would without the blocks, and afterwards sys.stdout is the open standard output. With nested blocks, what the outer block prints after the inner one is shown and standard output is closed when the outer one ends (the next print raises); a redirection of sys.stdout made by the caller is lost. Silence2 under Python 3 never redirects anything.", "quantifier": "all programs built from print, raise, try, sequencing and Silence blocks; all initial stream states", "why_tests_cant": "a test runs one program; the claim is about every program and exception point", "anchors": ["smt/utils/silence.py:Silence.__enter__", "smt/utils/silence.py:Silence.__exit__", "smt/utils/silence.py:Silence2.__enter__"]}
{"id": "C86", "title": "Option keywords of every constructor", "statement": "For each of 41 classes (all surrogates, EGO, MOE, VFM, sampling methods, linear solvers, test problems) a constructor call succeeds exactly when every keyword is a declared name and its value passes the declaration in force, keyword by keyword; then every passed option reads as passed and every other as its initial value; every class can be built without keywords. Which values each keyword takes is exactly characterised: lists of admissible values are enforced only for rho_regr, alg, func, the noise switches and two solver options, elsewhere any string/integer/object of the declared type is taken and a misspelled poly or corr fails with KeyError only in training; NumPy integers are refused where types=int; None is refused for a fixed list of options that default to None, so an object can be rebuilt from another one's options exactly when those were all set. A benchmark problem can be built exactly in the dimensions it is defined for. The 32 option tables of the documentation name exactly the declared options, with the declared types, values and defaults, up to listed exceptions (six defaults the documentation gets wrong). Classes without a documentation table (linear solvers, the low-fidelity water flow problem) have exactly the listed options and initial values.", "quantifier": "all classes, all keyword lists, all Python values (None, bool, int, NumPy scalars, float, str, containers, arrays, functions, objects)", "why_tests_cant": "tests try a few keywords and values; the claim covers every value of every keyword of every class", "anchors": ["smt/utils/options_dictionary.py:OptionsDictionary", "smt/surrogate_models/surrogate_model.py:SurrogateModel.__init__", "smt/surrogate_models/krg_based.py:KrgBased._initialize", "smt/applications/ego.py:EGO._initialize", "smt/utils/line_search.py:get_line_search_class", "smt/problems/problem.py:Problem.__init__", "doc/_src_docs"]}
{"id": "C87", "title": "What a trained regularised spline is", "statement": "With approx_order = 2, any number of outputs, any of the line searches and any iteration limit, and a linear solver exact on positive definite systems: training gives every output whose data is visible at the tolerance the unique minimiser of the regularised least-squares functional, and zero to the others; it raises exactly when no output is visible. Predictions are linear in the training outputs (superposition). For every order, solver and line search: an output's coefficients depend on its own data only, and the order of the training points changes nothing. predict_output_derivatives is, for order 2, the derivative of what retraining with that value changed would predict. For higher orders, the default 4 included, it is not: the stored matrix is that of the last step taken, for whichever output took it (theorem: factor 2 at an exact optimum; dependence on another output's data). An exception in the start-up problem leaves the object with approx_order = 2 and nonlinear_maxiter = 1.", "quantifier": "all regularisation matrices that are symmetric positive definite, all data, numbers of outputs, iteration limits, tolerances, line searches; all rows of prediction matrices", "why_tests_cant": "tests compare errors on a few functions; that the result is the minimiser, its linearity and the exactness of the derivative are statements about all data", "anchors": ["smt/surrogate_models/rmts.py:RMTS._run_newton_solver", "smt/surrogate_models/rmts.py:RMTS._solve", "smt/surrogate_models/rmts.py:RMTS._train", "smt/surrogate_models/rmts.py:RMTS._predict_output_derivatives", "smt/utils/line_search.py:LineSearch"]}
{"id": "C88", "title": "Regularised splines of even order: one optimum, and training reaches it", "statement": "For every even approx_order >= 2 (the default is 4) and a positive regularisation weight lam: the training objective has exactly one minimiser per output, and it is the point of zero gradient. Coefficients whose gradient norm is at most solver_tolerance are within solver_tolerance/lam of that minimiser, and their objective within tolerance^2/(2 lam). With the backtracking line search and an exact linear solver, enough Newton iterations make training end with a gradient below the tolerance for every output, whatever the data. The minimiser depends differentiably on each training output, and the formula of predict_output_derivatives gives that derivative when the stored matrix is the Hessian at the minimiser.", "quantifier": "all even orders, symmetric coercive matrices, data, numbers of outputs, tolerances > 0; all limits on iterations above a threshold", "why_tests_cant": "convergence and uniqueness are statements about all data and all iteration counts; tests see a few trained models", "anchors": ["smt/surrogate_models/rmts.py:RMTS._opt_func", "smt/surrogate_models/rmts.py:RMTS._opt_grad", "smt/surrogate_models/rmts.py:RMTS._opt_hess", "smt/surrogate_models/rmts.py:RMTS._run_newton_solver", "smt/utils/line_search.py:BacktrackingLineSearch", "smt/surrogate_models/rmts.py:RMTS._predict_output_derivatives"]}
{"id": "C89", "title": "What MOE.train does with the data", "statement": "After a successful MOE.train without test data, there is one expert per cluster and every training sample is in the data of exactly one expert. With xtest/ytest, each expert never sees the samples number 0, 10, 20, ... of its cluster. The class of each expert has the least score among the enabled ones on its cluster. RMTB/RMTC experts are built on the bounding box of all inputs. With one output and no test data, and nothing external failing, training succeeds exactly when rows match, n_clusters <= n//10 + 1 and every cluster has a sample outside 0, 10, 20, ...; otherwise IndexError or ValueError. Retraining starts afresh: the result depends on options and data only. set_training_values takes precedence over the options xt, yt for good. Data refused by the checks leaves predictions unchanged. Deviations (theorems): two or more outputs without test data never train; a failed clustering makes all smooth predictions 0; 1-D inputs raise and lose the experts; MOESurrogateModel trains only on its last named group, reads the options xt/yt once, and cannot predict with several outputs.", "quantifier": "all data, options, mixtures, expert classes (as arbitrary functions of class, xlimits and training history), all earlier states of the object", "why_tests_cant": "tests train a few mixtures and look at errors; which samples reach which expert, and what failures leave behind, must hold for all data and all outcomes of the libraries", "anchors": ["smt/applications/moe.py:MOE.train", "smt/applications/moe.py:MOE._fit", "smt/applications/moe.py:MOE._find_best_model", "smt/applications/moe.py:MOE.set_training_values", "smt/applications/moe.py:MOESurrogateModel", "smt/applications/moe.py:MOE._check_inputs"]}
{"id": "C90", "title": "Life cycle of GENN: data, training, prediction, goodness of fit", "statement": "GENN.train() converts the stored data exactly when values and every partial derivative of one common shape are present; otherwise it raises (so values alone never train, even with gamma=0), and the points of the derivatives are not compared with those of the values. Training always terminates; it succeeds exactly when no mini-batch consists of a single example (or no epoch is asked for), with one history entry per epoch, ceil(m/batch) cost lists each, whose first and last entries are the costs before and after. After a failure the object carries a partly trained network. With a seed, every epoch sees the same mini-batches, but the initial weights are not covered by the seed; a second run from the same generator state gives the same network. Positive affine changes of units of inputs and outputs (with the partials converted) give the same network and converted predictions. predict_values evaluates the trained network in the units of the data; predict_derivatives is its derivative. goodness_of_fit keeps the predictions but replaces the training data by the validation data, and raises for a single validation point with two or more inputs. load_smt_data only works with one output, and is not atomic. The gradient given to the optimiser is, entry by entry, the partial derivative of the cost given to it (gamma 0 or 1, lambda ≥ 0, at least two examples).", "quantifier": "all data, options, networks, generator states and sequences of calls; all random generators (as arbitrary functions)", "why_tests_cant": "tests train one or two networks and compare errors; the outcome for every combination of sizes, batch sizes and options, and what is left behind by failures, needs proof", "anchors": ["smt/surrogate_models/genn.py:GENN", "smt/surrogate_models/genn.py:smt_to_genn", "smt/surrogate_models/genn.py:load_smt_data", "smt/utils/neural_net/model.py:Model.train", "smt/utils/neural_net/model.py:Model.goodness_of_fit", "smt/utils/neural_net/data.py:random_mini_batches", "smt/utils/neural_net/data.py:normalize_data", "smt/utils/neural_net/model.py:initialize_parameters"]}
{"id": "C91", "title": "Kriging with several outputs", "statement": "For given hyper-parameters the outputs do not influence each other: training succeeds iff it does for one output alone, and each column of the predicted values, variances, derivatives and variance derivatives is what the model trained on that output alone predicts, for every batch of points. The hyper-parameters maximise -n log10 of the sum over the outputs of 10^(-l_j/n), l_j being the likelihood of output j: parameters that are best for every output are best jointly, the joint likelihood lies between min l_j - n log10 ny and min l_j, copies of one output only shift it, the order and the units of the outputs do not matter, and a constant output is predicted exactly and has no influence (unless all are constant: training raises). The gradient of the likelihood exists for one output only: with hyper_opt='TNC' and two or more outputs the first training returns the starting theta unoptimised and the second training of the same object raises. With eval_noise and use_het_noise and two or more outputs the model fits the average of the standardised outputs, takes their spread as noise, and predicts values for one point at a time only.", "quantifier": "all numbers of points, inputs and outputs, all data, kernels, trends, nuggets, noises, query batches, optimiser behaviours and (exact) Cholesky and QR routines", "why_tests_cant": "the tests train two outputs once and check the shape; independence of the outputs, and what is maximised, are statements about all data and hyper-parameters", "anchors": ["smt/surrogate_models/krg_based.py:KrgBased._new_train", "smt/surrogate_models/krg_based.py:KrgBased._reduced_likelihood_function", "smt/surrogate_models/krg_based.py:KrgBased._reduced_likelihood_gradient", "smt/surrogate_models/krg_based.py:KrgBased._predict_values", "smt/surrogate_models/krg_based.py:KrgBased._predict_variances", "smt/surrogate_models/krg_based.py:KrgBased._predict_derivatives", "smt/surrogate_models/krg_based.py:KrgBased._predict_variance_derivatives", "smt/surrogate_models/surrogate_model.py:SurrogateModel.predict_values"]}
{"id": "C92", "title": "An EGO run from the options to the result", "statement": "optimize uses the given design (unfolded) or samples n_doe points, and calls the function on it only if no ydoe is given. It then calls the function exactly n_iter times, on n_parallel points each (given at least that many initial points), whether or not the internal searches succeed; every point it adds is where the local optimiser stopped, inside the bounds it was given; the returned arrays are the initial design followed by these points with the function's values, and the optimum is the first smallest one. With a documented criterion the point proposed by a search is the best local minimum found of that criterion (for EI: minus the expectation of the improvement over the smallest value of the data) for the surrogate trained on the data of that search, whatever was done with the object before; with tunneling the criterion is between 0 and EI. With an integer seed, a documented criterion, qEI other than KBRand and a surrogate depending on its data only, the outcome depends on nothing done before and a second call gives the same result (if ydoe was not given or is the function's). While a batch is built a pending point is given the documented value of qEI (smallest value, mean, mean plus or minus three deviations, mean plus a fresh normal draw times the deviation) for the surrogate trained on the data and the earlier pending points. If ydoe does not fit the design, optimize raises without calling the function or training. Without a seed the retries of a search start from new designs, so a search succeeds when any of its first n_max_optim - 1 designs leads to a success. With n_parallel=1 the choice of qEI has no effect. More iterations extend the design and never give a worse optimum. Where the code departs: an integer seed makes every retry start from the same points, so retrying never helps, and with n_start=n_doe these are the design points; criterion and qEI accept any string: an unknown criterion raises AttributeError after the design is evaluated, or on a used object silently keeps the last criterion, for EI with the old data; an unknown qEI raises as soon as a search succeeds; without n_iter the run fails after evaluating the design; the user's ydoe array is overwritten when the first search fails; EI of a batch is NaN at the best point where EI of the point is 0.", "quantifier": "all options, designs, functions, surrogates, local optimisers, samplers, random states, histories of earlier runs on the object", "why_tests_cant": "the tests run a few seeds on two functions; the claims are about every optimiser behaviour, history and option value, and about repeated runs", "anchors": ["smt/applications/ego.py:EGO.optimize", "smt/applications/ego.py:EGO._setup_optimizer", "smt/applications/ego.py:EGO._find_best_point", "smt/applications/ego.py:EGO._get_virtual_point", "smt/applications/ego.py:EGO.EI", "smt/applications/ego.py:EGO.SBO", "smt/applications/ego.py:EGO.UCB", "smt/sampling_methods/lhs.py:LHS._compute", "smt/utils/options_dictionary.py:OptionsDictionary._assert_valid"]}
{"id": "C93", "title": "The mixed-integer surrogate as an object over histories of calls", "statement": "Wrap a surrogate that has no unnamed training values in MixedIntegerSurrogateModel and make any calls in any order (unnamed training values, updates, training, predictions, derivatives for input 0,1,...): every call other than about derivatives returns or raises exactly what the wrapped surrogate returns or raises when given the converted inputs (training inputs unfolded, prediction inputs unfolded and rounded); derivatives given to the wrapper have no effect. A design drawn by the context's sampling method has one row per point, and training at it and predicting at it hand the same array to the wrapped surrogate, so an interpolating surrogate stays interpolating. If no drawn point has a tie in an enum block, folded and unfolded mode give identical results; with a tie, and only then, they train at different points. Named values reach the wrapped surrogate under their name. Where the code departs: names are dropped on the wrapper's side, so a named update always raises and changes nothing, updates of the unnamed values are checked against the last set (any name) and can be half done when they raise, and train goes on with named values only; a surrogate trained before being wrapped predicts but train and update raise; derivative predictions raise for every input although supports says otherwise; in folded mode extra columns are silently ignored.", "quantifier": "all well-formed variable lists, wrapped surrogates (any training and prediction functions), histories of calls with any arrays and names, and what the wrapped sampling method returned", "why_tests_cant": "the tests train one Kriging per variable list once; the claims are about every wrapped surrogate and every order of calls", "anchors": ["smt/applications/mixed_integer.py:MixedIntegerSurrogateModel.set_training_values", "smt/applications/mixed_integer.py:MixedIntegerSurrogateModel.update_training_values", "smt/applications/mixed_integer.py:MixedIntegerSurrogateModel._train", "smt/applications/mixed_integer.py:MixedIntegerSurrogateModel.predict_values", "smt/applications/mixed_integer.py:MixedIntegerSurrogateModel.predict_variances", "smt/applications/mixed_integer.py:MixedIntegerSamplingMethod._compute", "smt/applications/mixed_integer.py:MixedIntegerContext.build_surrogate_model", "smt/surrogate_models/surrogate_model.py:SurrogateModel.train"]}
{"id": "C94", "title": "Calling a benchmark problem with any array and any index", "statement": "Calling a problem with n points (an array of shape (n, ndim), or (n,) when ndim is 1) returns an array of shape (n,1) whose entry i depends on point i alone: the value, or for kx in 0..ndim-1 the exact partial derivative (wherever the derivative formulas of C51/C62 are exact). Anything else is refused: non-arrays, arrays of rank 3 or more, another number of columns and one point given as a 1-D array raise ValueError; negative indices, NumPy integers and non-integers raise TypeError (booleans count as 0 and 1). An index >= ndim raises for Sphere, Rosenbrock, Branin, the cantilever beam, the Lp norm and the complex-step problems, but TensorProduct answers with the function value and RobotArm with 0 (odd indices). ReducedProblem accepts exactly the integers -ndim..ndim-1; values and limits are those of the inputs named, and with non-negative integers so are the derivatives. With negative integers the derivatives are right for Sphere, LpNorm and complex-step problems, refused by Branin, and wrong for TensorProduct (function value), Rosenbrock, the cantilever beam (0 for a length) and the robot arm (derivative for the first angle).", "quantifier": "all arrays (rank, shape, content), all index arguments, all numbers of points, dimensions and option values of the problems, all integer lists for reduced problems", "why_tests_cant": "the tests evaluate a handful of random points in range per problem; the claims are about every array, every integer index and every list of dimensions", "anchors": ["smt/problems/problem.py:Problem.__call__", "smt/utils/checks.py:ensure_2d_array", "smt/problems/reduced_problem.py:ReducedProblem", "smt/problems/sphere.py:Sphere._evaluate", "smt/problems/rosenbrock.py:Rosenbrock._evaluate", "smt/problems/branin.py:Branin._evaluate", "smt/problems/tensor_product.py:TensorProduct._evaluate", "smt/problems/cantilever_beam.py:CantileverBeam._evaluate", "smt/problems/robot_arm.py:RobotArm._evaluate", "smt/problems/lp_norm.py:LpNorm._evaluate", "smt/problems/water_flow.py:WaterFlow._evaluate"]}
{"id": "C95", "title": "What a surrogate prints over a history of calls", "statement": "print_global=False silences train and predict_values / predict_derivatives / predict_variance_derivatives completely, whatever happens inside or happened before; print_prediction=False silences predictions, print_training=False leaves only name and problem size of a training; print_solver has no effect. For every combination of options the header of a training and the lines of a prediction are exactly the documented blocks, and RBF's training prints one properly nested block per factorisation and per output. predict_output_derivatives does not look at the options: it prints by the flag the last call left. The nesting depth (3 blanks per level) is 1 plus the number of timed blocks left open by calls that raised: returning calls restore it, raising calls raise it for good, so an RBF with max_print_depth=m whose factorisation failed k times with m < 1+3k never prints again. The recorded times have exactly one entry per completed training and prediction. A solver's callback prints one line for each iteration number divisible by its interval, relative to the first norm reported.", "quantifier": "all option values, all histories of calls (returning or raising at any point), all programs of printer operations inside _train and _predict, all numbers of points, outputs and depths, all clocks", "why_tests_cant": "tests run a few surrogates with printing off and never look at the output; nesting and silence are statements about all histories, including the ones with exceptions", "anchors": ["smt/utils/printer.py:Printer", "smt/surrogate_models/surrogate_model.py:SurrogateModel.train", "smt/surrogate_models/surrogate_model.py:SurrogateModel.predict_values", "smt/surrogate_models/surrogate_model.py:SurrogateModel.predict_output_derivatives", "smt/utils/linear_solvers.py:LinearSolver._active", "smt/utils/linear_solvers.py:Callback", "smt/surrogate_models/rbf.py:RBF._train"]}
{"id": "C96", "title": "Multi-fidelity Kriging: order and units of the data, exact discrepancies, single level", "statement": "List the training points of every fidelity level in any other order, give the inputs in other units (x -> a x + b, one pair per input) and the outputs of all levels in another unit (y -> c y + d): for the same hyper-parameters MFK / MFKPLS / MFKPLSK train again and, at every point, the prediction of every level and the variance are the old ones in the new units. If the outputs of a level are, at its own points, a scale factor (in the span of rho_regr) times the prediction of the level below plus a trend, the prediction is that expression everywhere, the level adds no variance (two levels, constant functions: variance = alpha^2 times the low-fidelity one). A model with a single level predicts what KRG predicts from the same data, with n/(n-p) times its process variance.", "quantifier": "all numbers of levels, data, permutations per level, changes of units (an input with a single value keeps its unit), all stationary kernels and trends of the package, all nuggets and noises, all query points", "why_tests_cant": "equality of two trainings for all data, orders and units", "anchors": ["smt/applications/mfk.py:MFK._new_train", "smt/applications/mfk.py:MFK._new_train_init", "smt/applications/mfk.py:MFK._predict_intermediate_values", "smt/applications/mfk.py:MFK.predict_variances_all_levels", "smt/surrogate_models/krg_based.py:KrgBased._predict_values", "smt/utils/kriging_utils.py:standardization"]}
{"id": "C97", "title": "The network optimiser without a user gradient: finite differences, history, grad_check", "statement": "Without a gradient function Optimizer uses the central difference quotients of the cost: one entry of one array at a time, the others at their current values, every entry of every array; exact for costs quadratic along the entry, within M dx^2/6 of the derivative when the third derivative is bounded by M, tending to it with dx. The design held by the dictionary has its old values afterwards, but the caller's arrays do not: entry (0,0) of every non-empty array stays increased by dx. Hence in a run of any length the designs visited are the right ones, while design_history shows for every iteration but the last a design shifted by dx, and so does the user's initial guess. grad_check gives one verdict per array, 'correct' iff the difference is at most tol, or tol times the sum of the norms plus eps; with no user gradient it always says correct; a zero gradient passes iff the true one has norm at most tol.", "quantifier": "all dictionaries of arrays of any shapes and number, all cost functions, steps, line searches, numbers of iterations, tolerances", "why_tests_cant": "a test compares a gradient at one point with a tolerance and does not look at arrays that are shared; the statement is about every state of the heap and every number of iterations", "anchors": ["smt/utils/neural_net/optimizer.py:finite_difference", "smt/utils/neural_net/optimizer.py:Optimizer._grad_function", "smt/utils/neural_net/optimizer.py:Optimizer.grad_check", "smt/utils/neural_net/optimizer.py:Optimizer.optimize", "smt/utils/neural_net/optimizer.py:Optimizer.initialize"]}
{"id": "C98", "title": "The compiled kernels of IDW and RBF: memory safety and what they leave in memory", "statement": "After set_training_values and train with double arrays of at least one and fewer than 2^31 entries, whatever happened before and after any number of predictions, predict_values and predict_derivatives of IDW and RBF read and write only inside their arrays, read nothing that was never written, do not overflow int (at most 2^31 entries in the result), and the array they fill holds exactly the rows of C29-C31, with nothing behind them touched; predict_derivatives has this exactly for 0 <= kx < nx, every other index is undefined behaviour. Training of RBF has a result exactly for such arrays, a degree of -1, 0, 1, a scaling per input and at most 2^31 matrix entries. Exact consequences of not doing so: predictions after set_training_values without train are undefined behaviour iff there are now fewer points (IDW) or fewer inputs (both), otherwise the new array is read with the old row length and, for IDW, entries for additional points are never written; after a training that raised in setup every prediction is undefined behaviour; training RBF again with more inputs reads behind option d0, which the first training replaced by an array; arrays without rows, of another type or another number of columns are refused with an exception.", "quantifier": "all training and evaluation arrays, all options, all integers kx, all histories of calls", "why_tests_cant": "undefined behaviour usually shows nothing in a test, and the bound has to hold for all sizes and histories", "anchors": ["smt/src/idw/idw.cpp:IDW::compute_jac", "smt/src/idw/idw.cpp:IDW::compute_jac_derivs", "smt/src/rbf/rbf.cpp:RBF::setup", "smt/src/rbf/rbf.cpp:RBF::compute_jac", "smt/src/rbf/rbf.cpp:RBF::compute_jac_derivs", "smt/surrogate_models/idw.py:IDW", "smt/surrogate_models/rbf.py:RBF", "smt/surrogate_models/surrogate_model.py:SurrogateModel.predict_derivatives"]}
{"id": "C99", "title": "The compiled kernels of RMTB: memory safety and what they leave in memory", "statement": "Training an RMTB with double limits (two columns, a row per input) and option lists at least as long as the number of inputs nx sets up the compiled object without undefined behaviour. After it, for orders q >= 1, at least q control points and sizes that an int can hold, predict_values, predict_derivatives, the extrapolation distances and the quadrature points read and write only inside their arrays, read nothing that was never written and do not overflow; with lists of exactly nx entries every cell of the three arrays handed to scipy is written and they hold exactly the rows of C25 (with the literal 1e-15), the distances of C55 and the points of C57. No integer kx causes undefined behaviour: kx = -1 returns the values, other negative kx down to -rows(xlimits) return the values divided by the range of that input, kx >= rows(xlimits) raises IndexError. Exact consequences of unchecked options: a list or limits shorter than nx, a numpy integer as an option with two or more inputs, and training again with more inputs after a scalar option was expanded all read outside an array in setup; lists longer than nx leave cells of the matrix never written; integer limits raise and leave an object whose members have no values; predicting after set_training_values with more inputs reads the new points with the old row length. The first-derivative basis routine without a span (parameter 1) reads knots[-1].", "quantifier": "all options, limits, training and evaluation arrays, all integers kx, derivative indices and sizes", "why_tests_cant": "undefined behaviour usually shows nothing in a test, and the bound has to hold for all sizes and options", "anchors": ["smt/src/rmts/utils.cpp:expand_index", "smt/src/rmts/utils.cpp:contract_index", "smt/src/rmts/rmts.cpp:RMTS::setup", "smt/src/rmts/rmts.cpp:RMTS::compute_ext_dist", "smt/src/rmts/rmts.cpp:RMTS::compute_quadrature_points", "smt/src/rmts/rmtb.cpp:RMTB::setup", "smt/src/rmts/rmtb.cpp:RMTB::compute_jac", "smt/src/rmts/rmtb.cpp:compute_basis_0", "smt/src/rmts/rmtb.cpp:compute_basis_1", "smt/src/rmts/rmtb.cpp:compute_basis_2", "smt/surrogate_models/rmtb.py:RMTB._setup", "smt/surrogate_models/rmtb.py:RMTB._compute_jac_raw", "smt/src/rmts/rmtsclib.pyx:PyRMTB"]}
{"id": "C100", "title": "The compiled kernels of RMTC: memory safety and what they leave in memory", "statement": "Training an RMTC with double limits (two columns, a row per input) and a list of numbers of elements at least as long as the number of inputs nx sets up the compiled object without undefined behaviour when the number of coefficients is an int. After it, for limits with lower < upper, sizes that an int can hold and points whose element number before the cut-off is an int, predict_values and predict_derivatives read and write only inside their arrays, write every cell of the three arrays and leave exactly the rows of C26; the coefficient, degree-of-freedom and block matrices (up to 7 inputs) are written inside their arrays with the entries of C26. A kx that is no input (negative, or nx and more) is not refused: the result is the values. Exact consequences of what is unchecked: a list or limits shorter than nx, a numpy integer with two or more inputs, training again with more inputs after a scalar option was expanded (all read outside in setup); a list longer than nx (cells never written in both sparse matrices); 8 or more inputs (int overflow in compute_coeff2nodal); a point about 2**31 elements outside the domain, or equal limits (undefined conversion to int); evaluating after set_training_values with fewer inputs reads behind the points, with more inputs reads the points with the old row length.", "quantifier": "all options, limits, training and evaluation arrays, all integers kx, derivative indices and sizes", "why_tests_cant": "undefined behaviour usually shows nothing in a test, and the bound has to hold for all sizes and options", "anchors": ["smt/src/rmts/rmtc.cpp:RMTC::setup", "smt/src/rmts/rmtc.cpp:find_interval", "smt/src/rmts/rmtc.cpp:RMTC::compute_coeff2nodal", "smt/src/rmts/rmtc.cpp:RMTC::compute_uniq2elem", "smt/src/rmts/rmtc.cpp:RMTC::compute_full_from_block", "smt/src/rmts/rmtc.cpp:RMTC::compute_jac", "smt/surrogate_models/rmtc.py:RMTC._setup", "smt/surrogate_models/rmtc.py:RMTC._compute_jac_raw", "smt/surrogate_models/rmtc.py:RMTC._compute_dof2coeff", "smt/src/rmts/rmtsclib.pyx:PyRMTC"]}
{"id": "C101", "title": "Sampling and its use for training in rounded (floating-point) arithmetic", "statement": "With every operation rounded (any monotone, sign-symmetric rounding to a set of numbers with relative error at most u; IEEE binary rounding to nearest-even with p bits, e.g. double, is one): no sample is below its lower limit and order is kept; samples of [0,1) (Random, LHS) stay inside the limits in binary floating point; so do all samples when the width of the interval is a number of the format (integer limits up to 2**52); the error of a sample is a few roundings. FullFactorial ends and returns exactly the requested points whatever the rounding; its levels start at 0, end at 1 and are ordered; its points are distinct when intervals are wide compared with the roundings. The design is accepted as training inputs by RMTB/RMTC with the same limits exactly when lower+(upper-lower), as computed, is not above upper for the inputs with two or more levels - which fails in double precision for [-0.3, 0.1], so there FullFactorial(xlimits)(nt) followed by training is refused for every nt >= 2. The extrapolation distance of RMTS is zero exactly inside the limits; quadrature points are inside; the cell search of RMTC gives a valid cell and, inside the limits, the right cell or a neighbour.", "quantifier": "all roundings with the stated laws, all limits, samples, numbers of points and levels", "why_tests_cant": "whether rounding pushes a point over its limit depends on the limits; tests see a few of them", "anchors": ["smt/sampling_methods/sampling_method.py:SamplingMethod._scale_to_xlimits", "smt/sampling_methods/full_factorial.py:FullFactorial._compute", "smt/surrogate_models/rmts.py:RMTS._train", "smt/src/rmts/rmts.cpp:RMTS::compute_ext_dist", "smt/src/rmts/rmts.cpp:RMTS::compute_quadrature_points", "smt/src/rmts/rmtc.cpp:RMTC::find_interval"]}
{"id": "C102", "title": "B-spline values and RMTB predictions in rounded (floating-point) arithmetic", "statement": "With every operation rounded, for all orders, numbers of control points, limits and points: the computed knots are ordered with 0 and 1 exact at the ends of the domain; the span search always succeeds and selects valid control points; every computed basis value is non-negative, zero exactly when the textbook value is, and equal to it up to 5(order-1) relative roundings; the values of one input sum to one up to as many; a row of the Jacobian has one entry per combination, at valid columns in increasing order; the prediction is the exact tensor-product spline at the computed parameters and knots up to a stated number of roundings times the largest coefficient (below 1.1e-14 for cubic splines in two inputs in double precision), hence lies between the smallest and the largest coefficient up to that.", "quantifier": "all roundings with the stated laws, all orders, sizes, limits, points and coefficients", "why_tests_cant": "rounding errors depend on the point; a bound over all points, orders and sizes is needed", "anchors": ["smt/src/rmts/rmtb.cpp:compute_knot_vector_uniform", "smt/src/rmts/rmtb.cpp:compute_i_start", "smt/src/rmts/rmtb.cpp:compute_basis_0", "smt/src/rmts/rmtb.cpp:RMTB::compute_jac", "smt/surrogate_models/rmtb.py:RMTB._compute_jac_raw", "smt/surrogate_models/rmts.py:RMTS._predict_values"]}
{"id": "C103", "title": "IDW in IEEE arithmetic: overflow, underflow, infinities and NaN", "statement": "With every operation of the inverse-distance-weighting kernel done in a floating-point format with finite range (overflow to infinity, gradual underflow, NaN): at a point whose computed squared distance to a training point is zero (every training point, and any point closer than about 1e-162 in double precision) the prediction is exactly that training output; at any other point it is NaN exactly when some weight overflows or all weights underflow to zero (with p = 100 and training points 0 and 1 in double precision, at 2^-11 and at 2048), it is 0 whatever the outputs when only the sum of the weights overflows, and otherwise it lies between the smallest and largest training output up to a stated allowance for roundings and underflows, and is never negative when no output is.", "quantifier": "all floating-point formats with the stated laws, all finite training sets and points, all power functions with non-negative results", "why_tests_cant": "the failing region depends on the exponent and the distances and lies outside the points tests sample; the bound has to hold for all points", "anchors": ["smt/src/idw/idw.cpp:IDW::compute_jac", "smt/surrogate_models/idw.py:IDW._predict_values"]}
{"id": "C104", "title": "Standardization of training data in rounded (floating-point) arithmetic", "statement": "With every operation rounded and sums taken in any order, for every column of two or more values: the computed mean is the mean up to n roundings of the mean absolute value; the scale is positive, and its square is the spread about the computed mean up to n+5 roundings; standardised training values have squares at most n-1 (up to roundings) and keep their order; values further apart than four roundings of their deviations stay distinct; undoing the standardisation of an output gives it back up to four roundings. The test X_scale == 0 recognises a constant column exactly if the computed mean equals the constant, which holds if all multiples up to n times the constant are representable (integers), and fails otherwise: in double precision the column 0.1, 0.1, 0.1 gets a scale below 2e-17, and the point 0.2 is standardised to more than 1e15. If the variance overflows all training points coincide in that input; if it underflows the column counts as constant.", "quantifier": "all roundings with the stated laws, all summation orders, all columns of two or more values", "why_tests_cant": "whether a constant column is recognised depends on the bits of the constant and the number of rows; error bounds have to hold for all data", "anchors": ["smt/utils/kriging_utils.py:standardization", "smt/surrogate_models/krg_based.py:KrgBased._predict_values"]}
{"id": "C105", "title": "Loading parameters and training data of a neural network", "statement": "Loading the parameter dictionary of any network into a Model succeeds whatever state it is in; input and output sizes and activations are the network's, the reported layer sizes are right exactly if all hidden layers have equal size, and the model can be evaluated at every point with the right number of coordinates. The scale factors are not part of the parameters: predictions use those the object had before, and a new object (factors (1, 1)) returns the network at x - 1, plus 1, so parameters of a model that fits y = 2x exactly can give y = x. With equal scale factors the loaded model is the original. A dictionary without its last weights raises KeyError and leaves an object that keeps its network but cannot be evaluated. load_csv returns exactly the columns below the first labels of the given names for tables of at least two rows and two columns, with zeros for partials without label; a single row or column raises IndexError, a missing label ValueError, surplus partials IndexError.", "quantifier": "all dictionaries of arrays, all prior states of the object, all points, all activation functions; all tables and label lists", "why_tests_cant": "the dictionary, the object's history and the file are arbitrary; only one file and no reload are exercised", "anchors": ["smt/utils/neural_net/model.py:Model.load_parameters", "smt/utils/neural_net/model.py:Model.evaluate", "smt/utils/neural_net/data.py:load_csv"]}
{"id": "C106", "title": "ESE optimisation in rounded arithmetic", "statement": "With every operation of the ESE optimisation rounded (any rounding, any order of addition, infinities and NaN where NumPy produces them), the columns of the returned design are still rearrangements of those of the initial one, fixed rows are kept, and the recorded criterion never rises. The recorded criterion of an exchanged design has at most the error of the previous one plus roundings relative to the criteria of both designs, and is NaN only if the new criterion is below that error; so the returned design is no worse than the initial one up to an explicit number of roundings relative to the largest criterion of a design with the same columns, and its recorded criterion is right up to the same. A candidate is the first exchange of least criterion; it is taken exactly if the rise is at most temperature times a random number, and kept as best exactly if it is below the best. With a correctly rounded square root in binary no squared distance comes out negative, so an undefined criterion has a single cause, a negative accumulated power; coincident points give an infinite criterion and no exchange next to them an ordinary one. An iteration in which one candidate is NaN is lost, and once the recorded best criterion is 0 the best design is final. In double precision both happen: from a Latin hypercube design of three points with a close pair, the first exchange that separates the pair records the criterion 0 and is returned, although designs with a smaller criterion exist.", "quantifier": "all designs, roundings, implementations of sqrt and powers within an error bound, orders of summation, random choices, temperatures and iteration counts", "why_tests_cant": "all random schedules and roundings; the loss needs a particular ratio of distances and is silent", "anchors": ["smt/sampling_methods/lhs.py:LHS._maximinESE", "smt/sampling_methods/lhs.py:LHS._PhiP", "smt/sampling_methods/lhs.py:LHS._PhiP_exchange", "smt/sampling_methods/lhs.py:LHS._ese"]}
{"id": "C107", "title": "Line searches and spline training in IEEE arithmetic: termination, monotonicity, NaN", "statement": "In IEEE arithmetic (overflow, gradual underflow, infinities, NaN) the backtracking line search returns the first step length tried that passes the computed decrease test. With a factor of at most one half it always returns, for every objective and direction, within k + 2 evaluations when the first step length is at most 2^k times the smallest positive number (1076 evaluations for the default in double precision), provided the objective at the start is not NaN and the directional derivative is finite; for a directional derivative that is not infinite it returns if and only if neither is NaN. With a factor above one half it can run forever. Along a direction whose computed derivative is not positive it never increases the computed objective. A direction containing a NaN or an infinity makes it run forever. Steps returned by the bracketed searches pass both computed tests; they return None exactly if each of the twenty step lengths a, 1.5 a, 1.5^2 a, ... asks for a longer one; an infinite slope passes the gradient test only against an infinite reference; bisection can run forever once its ends are neighbouring doubles. The null search makes exactly the whole step. Training of a regularised spline with the default search: if the solver returns finite, non-ascending directions it ends and the computed objective does not increase; a NaN among the outputs means no pass is made for that output - a new single-output object raises, a second training or another output hides it and that output is zero everywhere; a non-finite direction makes train() run forever; a bracketed search that gives up makes all unknowns NaN.", "quantifier": "all objectives, gradients, directions, first step lengths, factors, dot products, solvers, numbers of iterations and outputs; every IEEE format (p bits, minimal exponent, largest number)", "why_tests_cant": "termination for every objective and rounding; hanging cannot be observed by a test", "anchors": ["smt/utils/line_search.py:BacktrackingLineSearch", "smt/utils/line_search.py:BracketedLineSearch", "smt/surrogate_models/rmts.py:RMTS._run_newton_solver", "smt/surrogate_models/rmts.py:RMTS._solve", "smt/surrogate_models/rmts.py:RMTS._train"]}
{"id": "C108", "title": "How many levels a full-factorial design gives each input", "statement": "The number of levels a full-factorial sampling gives input j follows the weights: with N the total number of levels over all inputs, it is at most share_j * N + 1 (when above one level) and at least share_j * N - (nx - 1), for all nonnegative weights with positive sum. With the default weights the counts differ by at most one and earlier inputs have the extra level. The grid is no larger than needed: unless it is the one-point grid, removing one level of some input gives fewer points than were asked for. In rounded arithmetic the computed weights are relatively close to the exact shares, every round refines an input whose shortfall is largest up to six roundings, and the balance for default weights still holds exactly as long as 6 (nt + nx) u < 1 (about 10^15 points in double precision).", "quantifier": "all numbers of inputs, numbers of points, weights; every rounding", "why_tests_cant": "an invariant of a greedy loop of any length, and a bound that has to hold for every weight vector and rounding", "anchors": ["smt/sampling_methods/full_factorial.py:FullFactorial._compute"]}
{"id": "C109", "title": "Which data a multi-fidelity Kriging model is trained on", "statement": "After any history of calls (set_training_values, update_training_values, option changes, trainings), MFK.train uses as levels of fidelity, lowest first, the latest data under the names 0, 1, ... up to the first number that no call has used, then the latest unnamed data; the latest data are the inputs of the last accepted set and the outputs of the last accepted set or update. It succeeds exactly if these levels have one output and the same number of inputs, the options are accepted and the fit succeeds on exactly these data. After a success the object has one output and the number of inputs of its levels. Data under any other name (also a number after a gap) have no effect. Without unnamed data it raises KeyError; levels with several outputs raise ValueError before the options are touched; different numbers of inputs raise, but if only the second level differs from the first the start values in the options have been replaced before. An update rejected because the level has no data makes every later training raise KeyError until that level is given data. With eval_noise and optim_var training replaces the outputs of all levels by the model's own predictions, and later trainings use those.", "quantifier": "all histories of calls, names, data sets, options and outcomes of the fit", "why_tests_cant": "the histories and names are unbounded; which calls have no effect is a noninterference property", "anchors": ["smt/applications/mfk.py:MFK._new_train_init", "smt/applications/mfk.py:MFK._check_list_structure", "smt/applications/mfk.py:MFK._new_train_finalize", "smt/surrogate_models/surrogate_model.py:SurrogateModel.set_training_values", "smt/surrogate_models/surrogate_model.py:SurrogateModel.update_training_values", "smt/surrogate_models/surrogate_model.py:SurrogateModel.train"]}
{"id": "C110", "title": "EGO in IEEE arithmetic: what NaN and infinities do to the criterion, the choices and the result", "statement": "With infinities, NaN and overflow: a Kriging variance is never negative (it is a number >= 0, +inf or NaN), and NaN only if the number before the clipping is. The expected improvement at one point is NaN exactly if the variance is NaN, or the variance is not 0 and f_min - pred is NaN or -inf, or both are +inf; with finite data it is never NaN and at least min(f_min - pred, 0). For several points at once, entries of variance 0 are f_min - pred, 0 or NaN instead of 0. Tunneling keeps a finite value finite and between 0 and max(value, 0), leaves NaN, and turns +inf into NaN exactly if some penalty is +inf. The next point is one whose criterion is NaN if there is one, else one of least criterion. The reported optimum is NaN (the first) if any recorded value is NaN, else the first least value. A NaN value of the objective makes the next training, hence the run, raise; so a run that returns has NaN values only in its last batch, and then reports NaN although all earlier values are numbers.", "quantifier": "all format values (finite, infinite, NaN), all variances, predictions, recorded points, surrogates, optimisers, objectives, iteration counts and batch sizes", "why_tests_cant": "every combination of special values and every run; failing evaluations can come at any iteration", "anchors": ["smt/applications/ego.py:EGO.EI", "smt/applications/ego.py:EGO.UCB", "smt/applications/ego.py:EGO.optimize", "smt/applications/ego.py:EGO._find_best_point", "smt/surrogate_models/krg_based.py:KrgBased._predict_variances", "smt/utils/kriging_utils.py:standardization"]}
{"id": "C111", "title": "Mixed-integer Latin hypercube designs: how often each level of an integer or enumerated variable occurs", "statement": "Let a MixedIntegerSamplingMethod wrap a method whose unit design is a Latin hypercube of n points. For an INT variable with integer limits lo < hi, m = hi - lo, each interior level occurs between n/m - 2 and n/m + 2 times, each of the two extreme levels between n/(2m) - 1 and n/(2m) + 1 times, and no other value occurs; so with n > 2m every level occurs, and for every n < 2m there is a Latin hypercube design in which lo never occurs. With centred values (criterion 'center') n > m points suffice, n = m + 1 points give every level exactly once, and with n = m points every value is a tie rounded to even, so no odd level occurs. For an ENUM variable there is no guarantee at any n: every sequence of levels comes out of some design that is Latin in every unfolded column.", "quantifier": "all type lists with the integer variable anywhere among others, all limits, all numbers of points and levels, all Latin hypercube designs (centred ones for the second part), all sequences of levels", "why_tests_cant": "the counts must hold for every permutation and every position of the points inside their slices", "anchors": ["smt/applications/mixed_integer.py:MixedIntegerSamplingMethod._compute", "smt/applications/mixed_integer.py:cast_to_discrete_values", "smt/applications/mixed_integer.py:fold_with_enum_index", "smt/sampling_methods/sampling_method.py:SamplingMethod.__call__", "smt/sampling_methods/lhs.py:LHS"]}
{"id": "C112", "title": "The conditioning test of Kriging training", "statement": "For given hyper-parameters, Kriging training rejects them (likelihood minus infinity) exactly when the correlation matrix R is not positive definite, or when F^T R^-1 F has a condition number above 1e20 while F^T F has one of at most 1e30 (F: the trend functions at the standardised training points); it raises exactly when R is positive definite and both limits are exceeded; otherwise the model is the one of the unchecked computation. The decision does not depend on the outputs nor on the factors computed on the way. With a constant trend it never fires; with one non-constant input and the linear trend it never raises. If some function of the trend space other than 0 vanishes at every training point (linear trend: points in a hyperplane, e.g. a constant input; quadratic trend: an input with at most two values), no outputs, kernel, nugget or hyper-parameters give a model and training never returns normally. If nugget plus noise lies in [lo, hi], lo > 0, and cond(F)^2 (n + hi) <= 1e20 lo, every theta is accepted.", "quantifier": "all training sets, outputs, trends, positive semi-definite or arbitrary even kernels, nuggets, noise vectors, hyper-parameters, all behaviours of the optimiser", "why_tests_cant": "the equivalences and the never/always claims range over all data sets and all hyper-parameters the optimiser might visit", "anchors": ["smt/surrogate_models/krg_based.py:KrgBased._reduced_likelihood_function", "smt/surrogate_models/krg_based.py:KrgBased._new_train", "smt/utils/kriging_utils.py:linear", "smt/utils/kriging_utils.py:quadratic", "smt/utils/kriging_utils.py:standardization"]}
{"id": "C113", "title": "What each linear solver does in the training of RMTB and RMTC", "statement": "For the solver option of RMTB/RMTC (a name in the published list), with positive regularisation weight: lu and mg give exact Newton directions for every even order, so training converges as in C87/C88; dense-chol does if there is one output (or one unknown), but with several outputs it silently uses the negative gradient instead, and the result need not solve the normal equations however many passes are made; dense-lu always raises; null always trains to the zero function; the Krylov solvers (default) return a point whose residual is orthogonal to the distance moved, lower the energy of the error, give a descent direction when started from zero, and with at most 100 unknowns reach a relative residual of 1e-15, so for approx_order 2 training solves the normal equations to that accuracy (exactly with krylov-lu, krylov-mg); gs started from zero gives a descent direction; jacobi may give an ascent direction, along which the default line search accepts no step. Whatever the solver, if training with the default line search ends normally the objective has not increased. For predict_output_derivatives the same names are exact, wrong (dense-chol with more than one training value or output: the linear solve is left out; null: zero), raising (dense-lu) or accurate to 1e-15 (Krylov).", "quantifier": "all sizes, training sets, weights, even orders, numbers of passes, tolerances, line searches of the library and previous directions; all symmetric positive definite matrices and preconditioners for the Krylov solver", "why_tests_cant": "the claims hold for every symmetric positive definite system of any size and every sequence of Newton passes; tests run a few solvers on a few problems, and the default one-output examples hide the wrong direction of dense-chol", "anchors": ["smt/utils/linear_solvers.py:get_solver", "smt/utils/linear_solvers.py:KrylovSolver", "smt/utils/linear_solvers.py:DenseCholeskySolver", "smt/utils/linear_solvers.py:DenseLUSolver", "smt/utils/linear_solvers.py:NullSolver", "smt/utils/linear_solvers.py:StationarySolver", "smt/surrogate_models/rmts.py:RMTS._run_newton_solver", "smt/surrogate_models/rmts.py:RMTS._predict_output_derivatives"]}
{"id": "C114", "title": "Recombination of a mixture of experts in IEEE floating-point arithmetic", "statement": "With mixture weights that are non-negative numbers and densities that are non-negative numbers or infinite, at any point: one cluster gives exactly the expert's output. With several, if the sum of the rounded products weight x density is a positive number, all membership probabilities are numbers in [0, 1], with an explicit bound (a few rounding units per cluster) on their distance from the exact ones and of their sum from 1; a smooth prediction from finite outputs is a number within an explicit bound of the exact convex combination, hence of the range of the experts' outputs, and its variance is a number, never negative, within an explicit bound of sum v_j P_j^2; the hard prediction is the output of exactly one expert, that of the first cluster with the largest computed probability, whose product is largest up to rounding. Otherwise: if all products underflow, or their sum overflows, every probability is 0 and the smooth prediction and variance are 0 whatever the experts say; an infinite or NaN product makes them NaN; and one expert's NaN output (or an infinite one with probability 0) makes the prediction NaN however small its probability.", "quantifier": "all numbers of clusters, weights, densities and experts' outputs including infinities and NaN, all orders of summation, all floating-point formats satisfying the stated rounding laws (binary64 in particular)", "why_tests_cant": "rounding, underflow and overflow depend on the bit patterns of the densities at the point asked; far from the training points densities underflow, which a test on the training domain never meets", "anchors": ["smt/applications/moe.py:MOE._proba_cluster_one_sample", "smt/applications/moe.py:MOE._proba_cluster", "smt/applications/moe.py:MOE._predict_smooth_output", "smt/applications/moe.py:MOE._predict_hard_output"]}
{"id": "C115", "title": "Mixed-integer variables on floating-point values: special values and rounding", "statement": "On rows of (finite) numbers, casting to discrete values and folding compute exactly what they do in exact arithmetic: nothing is rounded, and rounding to an integer gives a number of the format; unfolding too for numbers that fit into 64 bits. On rows with NaN and infinities casting never raises and is idempotent; FLOAT columns pass unchanged, INT columns keep NaN and infinities, an ENUM block becomes the indicator of its largest entries, but all ones if it holds a NaN. Without a NaN the level of a block is the same before and after casting; with one it is the place of the first NaN before and level 0 after. Unfolding an ENUM entry raises IndexError exactly if its C conversion to an integer is below -n or at least n, otherwise silently selects a level; cast_to_mixed_integer raises for every NaN or infinite INT or ENUM entry. In a mixed-integer design computed with rounding: levels of enumerated variables are those of exact arithmetic; an INT variable with integer limits never leaves them, is at most one level off the exact one, and the same unless the sample is within the rounding error of the midpoint between two levels.", "quantifier": "all specifications, rows of any values, conversions of special values, roundings, unit designs and integer limits", "why_tests_cant": "the claims range over all bit patterns including NaN and infinities and over all designs; tests use a few finite rows", "anchors": ["smt/applications/mixed_integer.py:cast_to_discrete_values", "smt/applications/mixed_integer.py:fold_with_enum_index", "smt/applications/mixed_integer.py:unfold_with_enum_mask", "smt/applications/mixed_integer.py:cast_to_mixed_integer", "smt/applications/mixed_integer.py:MixedIntegerSamplingMethod._compute", "smt/applications/mixed_integer.py:MixedIntegerSurrogateModel.predict_values", "smt/sampling_methods/sampling_method.py:ScaledSamplingMethod.__call__"]}
{"id": "C116", "title": "Kriging correlations and predictor in IEEE arithmetic: symmetry, range, overflow", "statement": "For all kernels and all values of the format the computed correlation of two points is bit for bit the same in either order, and exactly 1 for a point with itself; the correlation matrix is built for any number of points, bitwise symmetric, with the rounded 1 + nugget + noise on the diagonal, and the correlations predict_values computes at a training point are the column of that matrix with 1 on the diagonal. With positive hyperparameters the squared and the absolute exponential of two finite points is always a number in [0, 1], does not grow with the distance (if exp is monotone) and is exactly 0 once one scaled distance reaches 746; it is NaN exactly if a hyperparameter 0 meets an infinite distance. A point all of whose correlations are zero is predicted by the trend, and its derivative is that of the trend, exactly. The Matern kernels are a number, not negative, as long as the product of the polynomial factors does not overflow (which bounds on the factors ensure); when it overflows they are NaN if the exponential has underflowed and +inf otherwise; then predict_values is NaN and predict_variances raises. Accuracy: the argument of the exponential is the exact sum of theta (a - b)^2 (theta |a - b|) up to the relative error of m - 1 additions and three (two) roundings per coordinate and the underflow threshold; the polynomial part of a Matern kernel that does not overflow is the product of the exact factors up to five roundings per coordinate. predict_variances raises exactly if a correlation is not finite; its triangular solves compute, rounding included, each unknown from the ones before it; far from the data (all correlations zero) the variance is the rounded sigma^2 (1 + sum u^2), at least sigma^2, for a constant trend with u = -1/g; otherwise the variance is NaN (exactly if both sums of squares overflow) or lies between 0 and the rounded sigma^2 (1 + sum u^2).", "quantifier": "all numbers of points and dimensions, points, hyperparameters, orders of summation and multiplication, and exponentials with the stated laws; all formats with correct rounding", "why_tests_cant": "overflow and underflow depend on dimension, hyperparameters and distance; tests evaluate small designs inside the domain", "anchors": ["smt/utils/kriging_utils.py:cross_distances", "smt/utils/kriging_utils.py:differences", "smt/utils/kriging_utils.py:componentwise_distance", "smt/utils/kriging_utils.py:abs_exp", "smt/utils/kriging_utils.py:squar_exp", "smt/utils/kriging_utils.py:matern52", "smt/utils/kriging_utils.py:matern32", "smt/utils/kriging_utils.py:act_exp", "smt/surrogate_models/krg_based.py:KrgBased._reduced_likelihood_function", "smt/surrogate_models/krg_based.py:KrgBased._predict_values", "smt/surrogate_models/krg_based.py:KrgBased._predict_derivatives", "smt/surrogate_models/krg_based.py:KrgBased._predict_variances"]}
{"id": "C117", "title": "RBF in IEEE arithmetic: symmetry, range, far predictions, NaN derivatives", "statement": "With a finite scaling d0 without a zero and finite points, each computed radial function is a number in [0, 1], bit for bit the same with the points exchanged, exactly 1 for a point with itself, and exactly 0 as soon as one squared scaled coordinate distance reaches the point where exp underflows. The training matrix is symmetric bit for bit with the rounded 1 + reg on the diagonal of its radial part, and the row predict_values evaluates at a training point is that point's row of the matrix, with 1 in place of 1 + reg. Far from all training points predict_values is exactly 0 without a polynomial and exactly the constant coefficient with a constant one, whatever the finite coefficients. The derivative of a radial function is a number of at most the size of 2 d / d0^2 as long as that factor is a number; if it is infinite the derivative is NaN where the function has underflowed, and infinite otherwise. Violations: d0 = 0 makes the diagonal NaN; a d0 whose square underflows gives NaN derivatives at the training points where the value is exact.", "quantifier": "all numbers of points and dimensions, points, scalings, coefficients, orders of summation, and exponentials with the stated laws; all formats with correct rounding", "why_tests_cant": "overflow and underflow depend on the scaling and the distance; tests evaluate small designs inside the domain", "anchors": ["smt/src/rbf/rbf.cpp:RBF::compute_jac", "smt/src/rbf/rbf.cpp:RBF::compute_jac_derivs", "smt/surrogate_models/rbf.py:RBF._setup", "smt/surrogate_models/rbf.py:RBF._new_train", "smt/surrogate_models/rbf.py:RBF._predict_values", "smt/surrogate_models/rbf.py:RBF._predict_derivatives"]}
{"id": "C118", "title": "Error measures, and the choices made with them, in IEEE arithmetic", "statement": "compute_rms_error of any predictions and reference values is NaN exactly if one of them is NaN or two equal infinities meet, or both norms overflow, or both vanish (squares underflow); otherwise it is not negative. Exact predictions of finite values have error exactly 0 unless all squared values underflow. It is 0 exactly if the norm of the differences is zero, or a number while the norm of the reference overflows, or so small that the quotient underflows (violation: in double precision a reference value 2^512 predicted 50% too large has error 0). MOE's choice among experts: if the first score is NaN the first expert is kept whatever the others score (violation); otherwise the chosen score is not NaN, none is less, and those before it are NaN or greater. The Heaviside factor: if the first error is NaN the first factor is chosen (violation); otherwise 1.0 if all errors that are not NaN are below the tolerance, else the first of least error among those that are not NaN. grad_check reports a gradient correct only if the norm of the difference is a number; equal finite gradients are always reported correct; a gradient whose norm overflows is reported correct whenever the difference has a finite norm (violation).", "quantifier": "all numbers of points, predictions, references, scores, errors and gradients including infinities and NaN, all orders of summation, all square roots with the laws of IEEE 754; all formats with correct rounding", "why_tests_cant": "the special values arise from models that diverge or from data of extreme size; tests use benign data", "anchors": ["smt/utils/misc.py:compute_rms_error", "smt/applications/moe.py:MOE._find_best_model", "smt/applications/moe.py:MOE._find_best_heaviside_factor", "smt/utils/neural_net/optimizer.py:Optimizer.grad_check"]}
{"id": "C119", "title": "Rounding errors of LS, QP, Kriging and RBF predictions", "statement": "For given coefficients, the value a surrogate computes differs from the value of its formula by at most a factor that depends only on the numbers of inputs, terms and training points, times the sum of the absolute values of the terms (LS: coefficients times inputs and intercept; QP: the polynomial with absolute coefficients at absolute inputs; Kriging: |y_mean| + y_std (sum |f beta| + sum |gamma|); RBF: sum |weights| plus the absolute polynomial terms), in any order of summation and with or without fused multiply-add. The same holds for QP derivatives; LS derivatives are exact. A computed correlation (abs_exp, squar_exp, matern52, matern32), or a Gaussian radial function, is off by an absolute error that depends on the number of inputs but neither on the points nor on the hyper-parameters (at most 3e-13 in double precision for up to 10 inputs). At the origin a QP returns its constant coefficient exactly, and its derivatives are the linear coefficients exactly. With integer coefficients and inputs a QP prediction is exact as long as the absolute polynomial is at most 2^53. (Observed: the bound does not vanish with the value; 1 - 2x + x^2 at 1 + 2^-30 is computed as 0 instead of 2^-60.)", "quantifier": "all roundings with relative error (unbounded exponents), all numbers of inputs, terms and training points, all coefficients, hyper-parameters, points, orders of summation, uses of fused multiply-add, and exponential functions with a relative error bound", "why_tests_cant": "a test samples points and compares with a tolerance; the bound must hold for every point and every BLAS", "anchors": ["smt/surrogate_models/ls.py:LS._predict_values", "smt/surrogate_models/qp.py:QP._response_surface", "smt/surrogate_models/qp.py:QP._predict_values", "smt/surrogate_models/qp.py:QP._predict_derivatives", "smt/surrogate_models/krg_based.py:KrgBased._predict_values", "smt/utils/kriging_utils.py:abs_exp", "smt/utils/kriging_utils.py:squar_exp", "smt/surrogate_models/rbf.py:RBF._predict_values", "smt/src/rbf/rbf.cpp:RBF::compute_jac", "smt/utils/kriging_utils.py:matern52", "smt/utils/kriging_utils.py:matern32"]}
{"id": "C120", "title": "The network optimiser in IEEE arithmetic: NaN, overflow, termination", "statement": "In IEEE arithmetic (NaN, infinities, overflow, underflow) the optimiser of the neural network behaves as follows. In double precision, with a finite learning rate, every line search ends after at most 12 trials (6 if the rate is at most 4000) and so does the optimisation, whatever cost and gradient compute; with a learning rate that is NaN or plus infinity it never ends, unless a design of NaN and infinite entries is better than the initial one. A pass accepts the first trial with a smaller cost or shorter than 1e-6; comparisons with NaN are false, so from an undefined cost only the shortest step is taken (2^-33 times the gradient with the default rate), even if longer trials have finite costs. The histories are faithful, and the run stops early exactly when the last 101 steps were all small by one of the two criteria as computed; an undefined cost delays stopping by more than 101 passes; a first cost that is NaN, -inf or not positive disables the absolute criterion; a first cost that overflows makes the run stop after exactly 103 passes however much the (finite, non-negative) costs still change. Once an entry of the design or of its gradient is NaN it is NaN in every later design; if the cost of such designs is NaN the run makes all max_iter passes. Adam never again changes an entry whose gradient was at least 2^512 once.", "quantifier": "all formats (double precision where stated), all costs and gradients as functions into IEEE values, both update rules with any square root and power, all learning rates, iteration limits and initial designs", "why_tests_cant": "needs every cost function, NaN and overflow pattern and run length; non-termination cannot be observed", "anchors": ["smt/utils/neural_net/optimizer.py:Optimizer.backtracking_line_search", "smt/utils/neural_net/optimizer.py:Optimizer.optimize", "smt/utils/neural_net/optimizer.py:GD", "smt/utils/neural_net/optimizer.py:Adam"]}
{"id": "C121", "title": "Neural-network activations and predictions in IEEE arithmetic", "statement": "In IEEE arithmetic the tanh activation as computed from two exponentials is NaN exactly if its argument is NaN or one of the exponentials overflows (so for large or infinite arguments of either sign); otherwise it is a number between -1 and 1 with the sign of its argument; it is exactly odd, and exactly 1 once the smaller exponential is absorbed; its derivative is NaN with it and otherwise between 0 and 1, exactly 0 in saturation. The sigmoid is a number between 0 and 1 for every argument but NaN, and never decreases; its second derivative lies between -1 and 1 with the right sign, and is exactly 0 at 0. If one hidden unit overflows at a point, every prediction and every derivative there is NaN; otherwise every prediction is a number bounded, independently of the point, by the weights and bias of the last layer and the scale factors, and every derivative by the product of the matrices of absolute weights. At the mean of the inputs the prediction depends on the layers and output scales only. With a standard deviation 0 of one input every prediction and derivative everywhere is NaN; with a standard deviation 0 of one output, after one pass of the optimiser from any parameters and with any settings, every prediction of that output everywhere is NaN.", "quantifier": "all formats, layer sizes, weights, biases, points (NaN and infinite coordinates included), orders of summation, exponentials that are monotone with the usual special values, all runs of the optimiser", "why_tests_cant": "needs every weight, point and overflow pattern and every run of the training", "anchors": ["smt/utils/neural_net/activation.py:Tanh", "smt/utils/neural_net/activation.py:Sigmoid", "smt/utils/neural_net/fwd_prop.py:L_model_forward", "smt/utils/neural_net/fwd_prop.py:L_grads_forward", "smt/utils/neural_net/model.py:Model.evaluate", "smt/utils/neural_net/bwd_prop.py:linear_activation_backward", "smt/utils/neural_net/data.py:normalize_data"]}
{"id": "C122", "title": "Cost and gradient of the neural network in IEEE arithmetic: one overflow destroys the training", "statement": "In IEEE arithmetic the cost of a batch is NaN, infinite or non-negative. If in one example of the batch one hidden unit has a NaN or a number beyond the overflow threshold of the exponential, then the cost of the whole batch and the gradient with respect to every weight and every bias of every layer are NaN; if this happens at one design of a training run, then in every later design of the run all parameters are NaN, its cost is NaN and it predicts NaN at every point, and the run makes all max_iter passes. If the outputs as computed equal the targets for all examples, the cost without penalty is exactly 0, all bias gradients are exactly 0 and the gradient with respect to a weight is exactly lambd/m times the weight as computed. The gradient with respect to the last biases is the mean of the differences.", "quantifier": "all formats, layer sizes, weights, biases, batches, orders of summation, exponentials that are monotone with the usual special values, penalties and enhancement terms, all runs of both optimisers", "why_tests_cant": "needs every weight, batch and overflow pattern and every run of the training", "anchors": ["smt/utils/neural_net/bwd_prop.py:linear_activation_backward", "smt/utils/neural_net/bwd_prop.py:L_model_backward", "smt/utils/neural_net/loss.py:lse", "smt/utils/neural_net/model.py:Model.cost", "smt/utils/neural_net/model.py:Model.grad", "smt/utils/neural_net/optimizer.py:Optimizer.optimize"]}
{"id": "C123", "title": "Sphere and Rosenbrock in IEEE arithmetic: range, minimum, overflow", "statement": "In IEEE arithmetic the value of Sphere is NaN exactly if a coordinate is NaN, and otherwise non-negative or +infinity; it is zero exactly if all squares underflow; it does not depend on signs in any bit, never falls when coordinates move away from zero, and differs from the exact sum of squares by a factor between (1-u)^n and (1+u)^n plus underflow. Its derivative has the sign of the coordinate, and is zero at zero only. The value of Rosenbrock with two or more columns is NaN exactly if a coordinate is NaN or a coordinate is +infinity and the square of its left neighbour is +infinity; otherwise it is non-negative or +infinity, and with one column it is always 0. At (1,...,1) value and derivatives are exactly 0, and in double precision this is the only point of value 0. For large b the derivative at (0, b, ...) is NaN although the value is not. In their documented domains the values of both problems are numbers between 0 and 100 n or 3609 (n-1), and the derivatives numbers at most 20 or 6006. At integer points whose partial sums stay below 2^53 values and derivatives of both problems are exact.", "quantifier": "all formats (the uniqueness and the bounds: binary64), numbers of columns, coordinates including infinities and NaN, orders of summation", "why_tests_cant": "needs every value of every coordinate, every dimension and every order of summation", "anchors": ["smt/problems/sphere.py:Sphere._evaluate", "smt/problems/rosenbrock.py:Rosenbrock._evaluate"]}
{"id": "C124", "title": "LpNorm in IEEE arithmetic: range, symmetry, underflow and overflow of the derivative", "statement": "In IEEE arithmetic the value of LpNorm (orders 1 and 2) is NaN exactly if a coordinate is NaN, otherwise non-negative or +infinity, does not depend on signs in any bit and never falls when coordinates move away from zero; for order 1 it is zero only at the origin, for order 2 exactly if all squares underflow. The derivative of order 1 at finite points is exactly the sign of the coordinate, even if the value overflows. The derivative of order 2 at finite points is NaN or infinite if all squares underflow (NaN for a zero coordinate), zero if the value overflows, and otherwise the quotient of coordinate and value rounded once; it is between -1 and 1 in a coordinate whose square is a nonzero double. On a coordinate axis values and derivatives are exact.", "quantifier": "all formats, dimensions, coordinates, orders of summation, square roots that are monotone and exact on squares", "why_tests_cant": "needs every value of every coordinate, every dimension and every order of summation", "anchors": ["smt/problems/lp_norm.py:LpNorm._evaluate"]}
{"id": "C125", "title": "TensorProduct in IEEE arithmetic: bounded products, overflow, NaN derivatives", "statement": "In IEEE arithmetic, whatever the factors func(x_i): if all are between -1 and 1 (cos, tanh, gaussian), so is the value of TensorProduct; if the factors are non-negative (exp), the value is NaN as soon as one factor underflows to zero and another overflows. The derivative with respect to x_k is the product of the factors rounded one after another, as long as all factors before the last and all partial products up to two columns before the end are numbers; it is NaN if a factor before the last column is infinite or NaN, or if a partial product overflows two or more columns before the end (the complex product inf*(b+0i)), even where the value is +infinity. If the other factors are between -1 and 1 and the derivative of the k-th between -B and B, the derivative is a number between -B and B.", "quantifier": "all formats, dimensions, factors (any values of the format), orders of the product in np.prod", "why_tests_cant": "needs every combination of factors, every dimension and every order of multiplication", "anchors": ["smt/problems/tensor_product.py:TensorProduct._evaluate"]}
