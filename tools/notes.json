{
 "C01": {
  "note": "Model: Options/Model.lean. All histories of declare/set/update."
 },
 "C02": {
  "note": "Holds for histories where no declare raised; the hole for raising re-declarations and the values+types hole are proved as counterexamples."
 },
 "C03": {
  "note": "Heap model with explicit dict references; all programs over any number of objects."
 },
 "C04": {
  "note": "All histories of all four setters; row-count agreement excludes update_training_derivatives (see C05)."
 },
 "C05": {
  "status": "partial",
  "note": "The documented behaviour is false of the code (off-by-one key): exact behaviour proved, violations exhibited, documented behaviour proved where the two coincide."
 },
 "C06": {
  "note": "Exact acceptance condition and result shape for predict_values/derivatives/variances; zero points raise."
 },
 "C07": {
  "note": "Pickle store as a finite map keyed by path and checksum; all call sequences."
 },
 "C08": {
  "note": "All call sequences and failing computations."
 },
 "C09": {
  "note": "All programs of nested timed sections, including raising ones."
 },
 "C10": {
  "note": "All designs over any ordered field; random method for every generator with values in the unit interval. pyDOE2's lhs not modelled."
 },
 "C11": {
  "note": "All nx>=1, nt, weights; loop modelled with fuel, shown to stop within nt rounds and to be fuel-independent."
 },
 "C12": {
  "note": "Rows distinct, on the level grid, complete with clip."
 },
 "C13": {
  "note": "Every generator (arbitrary state machine), every temperature/loop count; exact reals."
 },
 "C14": {
  "note": "Incremental criterion identity for all designs; unreachable temperature branch proved."
 },
 "C15": {
  "note": "All type lists and points; a negative enumeration index wraps (proved)."
 },
 "C16": {
  "note": "Exact fields; rounding is numpy's half-to-even; ties in an enumeration block proved to break one-hot."
 },
 "C17": {
  "note": "All type lists."
 },
 "C18": {
  "note": "The missing cast of training points is proved as a counterexample (C18_training_not_cast)."
 },
 "C22": {
  "note": "All shapes and indices."
 },
 "C19": {
  "note": "Every oracle for the criterion optimiser and every objective; all iteration counts."
 },
 "C20": {
  "note": "All budgets; the wasted last attempt is proved (C20)."
 },
 "C21": {
  "note": "Over the reals, Gaussian cdf as an integral."
 },
 "C23": {
  "note": "All orders, all control point counts, exact fields."
 },
 "C24": {
  "note": "All orders; derivative in every open knot span, over the reals."
 },
 "C25": {
  "note": "All dimensions, orders and control point counts."
 },
 "C26": {
  "note": "All dimensions and element counts; C1 joining across element faces."
 },
 "C27": {
  "note": "Objective as a finite weighted sum; derivative along every direction."
 },
 "C28": {
  "note": "General statement, instantiated for RMTB and RMTC."
 },
 "C29": {
  "note": "Duplicates: the first wins."
 },
 "C30": {
  "note": "Over the reals, any p>1 at training points, any p>0 elsewhere."
 },
 "C31": {
  "note": "The factorisation is a parameter assumed to solve the system; training proved unique for distinct points with any unisolvent trend and reg >= 0, as well as with reg > 0 and no trend."
 },
 "C32": {
  "note": "All dimensions; training with np.linalg.inv as a parameter satisfying the inverse equations."
 },
 "C33": {
  "note": "scikit-learn's fit is a parameter (coefficients arbitrary)."
 },
 "C54": {
  "note": "Everywhere inside the clamped range for order 3 and more (order 4 for second derivatives along the same input); the one-sided statements cover the lower orders."
 },
 "C55": {
  "note": "All step lengths satisfying the line-search hypothesis."
 },
 "C56": {
  "note": "RMTB and RMTC."
 },
 "C57": {
  "note": "All dimensions and element counts."
 },
 "C34": {
  "note": "All four kernels, all dimensions, theta >= 0."
 },
 "C35": {
  "note": "All kernels incl. act_exp; Matern 3/2 away from the pole 1+sqrt3*theta*d=0 (never met for theta,d >= 0)."
 },
 "C36": {
  "note": "Every chunk size > 0 and every row count."
 },
 "C37": {
  "note": "All sample counts, any even or non-even kernel function."
 },
 "C38": {
  "note": "All data; scale_X_to_unit divides by zero on constant columns (stated as a theorem)."
 },
 "C39": {
  "note": "Cholesky and QR are parameters assumed correct (CholOk/QROk); solve_triangular is modelled as substitution. Any nugget and noise: exact deviation stated."
 },
 "C40": {
  "note": "Non-negativity, zero at training points, and that clipping is inactive for all four stationary kernels."
 },
 "C41": {
  "note": "Equality proved for one-column trends; the reported formula and its difference from the universal-Kriging variance proved for two-column trends (the code is wrong there), and for every trained one-input linear-trend model the difference is unbounded unless the constant and the input are orthogonal for the inverse correlation matrix, with a concrete trained squared-exponential model."
 },
 "C42": {
  "note": "Kriging/KPLSK and KPLS hyper-parameters, constant and linear trend; other combinations raise."
 },
 "C43": {
  "note": "All dimensions."
 },
 "C58": {
  "note": "All kernels and PLS distances; abs_exp away from its kinks, where non-differentiability is proved."
 },
 "C59": {
  "note": "One prediction point (the code raises for several)."
 },
 "C44": {
  "note": "Exact arithmetic; termination proved over the reals for every descent direction; divergence on ascent directions proved."
 },
 "C45": {
  "note": "Exact arithmetic; termination of the bisecting and quadratic searches proved over the reals (0<2u1<u2<1). No termination theorem for the cubic rule (it can raise, which is proved)."
 },
 "C46": {
  "note": "Exact arithmetic; SciPy factorisations are exact solves; Krylov iterations themselves are SciPy and not modelled."
 },
 "C47": {
  "note": "The classifier (sklearn) is an arbitrary label list."
 },
 "C48": {
  "note": "Mixture weights and densities (sklearn/scipy) are arbitrary non-negative functions."
 },
 "C60": {
  "note": "Training and predicting the experts is a parameter (scores, test errors); the singular value is specified by its variational characterisation."
 },
 "C49": {
  "note": "One output; surrogate classes are arbitrary functions of options and data."
 },
 "C50": {
  "note": "The drawn plans and the Euclidean distance are parameters."
 },
 "C61": {
  "note": "Option dictionaries are heap objects with the entry \"deriv\" and an opaque rest."
 },
 "C51": {
  "note": "All seven analytic problems, any dimension. LpNorm for orders 1 and 2 only, because the code raises for order >= 3 (C51_lp_norm_order_three); out-of-range kx recorded as violations."
 },
 "C52": {
  "note": "General in the inner problem; instances for the four ndim families; repeated indices violate exactness (C52_duplicate)."
 },
 "C63": {
  "note": "Value, optimality of the trend, gradient for the four kernels (C63_kernels) and for any differentiable family of even kernels (C63_gradient), log10 chain rule. Cholesky and QR are oracles with their contracts. The ill-conditioned-G exits are not modelled; the MGP prior is not included."
 },
 "C64": {
  "note": "C64_hessian for any differentiable family, C64_kernels for the four kernels. dof = nt; the formula uses 1/nt throughout, so it would be wrong for the multi-fidelity dof, but only MGP calls it."
 },
 "C53": {
  "note": "Real arithmetic. Networks of any depth as an inductive family; the cost has the quadratic data term, the L2 penalty and the gradient-enhancement term. gamma in {0,1} proved exact; 0<gamma<1 proved wrong (code defect).",
  "status": "proved"
 },
 "C66": {
  "note": "Exact derivative theorem; the failing array shapes are modelled with NumPy broadcasting and proved to fail."
 },
 "C67": {
  "note": "The permutation is an oracle argument."
 },
 "C68": {
  "note": "np.sqrt and machine epsilon are parameters of the Adam update; NaN not modelled."
 },
 "C69": {
  "note": "Levels, scaling and regressors as in mfk.py; factorisations are parameters (with a proved instance); theta, noise fixed per level (optimisation outside)."
 },
 "C70": {
  "note": "As C69; squared exponential only (others raise)."
 },
 "C71": {
  "note": "Theorems state what the code returns, including the defects at three levels and in the PLS variants."
 },
 "C73": {
  "note": "Real arithmetic: the rounding that makes nearly-coincident points fail is not modelled. act_exp excluded here (C74)."
 },
 "C65": {
  "note": "scipy optimisers are arbitrary sequences of evaluations and outcomes. NaN likelihoods, the KPLSK second pass and the conditioning test are not modelled."
 },
 "C72": {
  "note": "Options as a state machine over trainings; the training of a level is a parameter (which level raises). The state after training and the lock-in after a failure are behaviours of the code that contradict the intent (see DESIGN section 4)."
 },
 "C74": {
  "note": "Proved for all data; Cholesky and QR are parameters with their defining properties (exact routines exist). eval_noise=False."
 },
 "C75": {
  "note": "Proved for all data; QR of the embedding is a parameter with its defining property."
 },
 "C76": {
  "note": "Variance sensitivities: proved for one-column trends (constant), the only case in which the code's triangular solve is the intended one (C41). Findings: dy lacks the factor y_std."
 },
 "C77": {
  "note": "Proved for all data. Non-vacuity: an explicit data set and prior with a stationary theta and two components."
 },
 "C62": {
  "note": "Formulas are modelled as expression trees with a real and a complex (principal branch) evaluation; C62_second_order is proved for every expression on its natural domain by analyticity along coordinate lines, then the domain is shown to contain the design boxes. Exact arithmetic; step is a parameter (code: 1e-20 and 1e-6)."
 },
 "C78": {
  "note": "PLS regression, Box-Behnken design and the tie order of argsort are parameters; the trained statements use the Kriging model (C39, C42, C73) with the PLS kernel built from the returned coefficients, exact factorisations."
 },
 "C79": {
  "note": "NumPy division by zero is modelled by separate outcomes nan/inf."
 },
 "C80": {
  "note": "np.unique is a parameter (distinct rows, same set); exact arithmetic, given hyper-parameters; MFK: the same lines of one level, its later levels are not part of this model."
 },
 "C81": {
  "note": "Same kernel parameters in both trainings; exact linear algebra. C81_ordinary_kriging is end to end for the kernels and the constant trend of the code; C81_trends/C81_kernels discharge the symmetry hypotheses for the other trends and for PLS kernels with the same coefficients."
 },
 "C82": {
  "note": "Exact linear solves; scikit-learn's LinearRegression is trusted to return a least-squares affine function (LsOk, satisfiable by ls_exists), np.linalg.inv to return exact inverses."
 },
 "C83": {
  "note": "The Kriging counterpart is C81."
 },
 "C84": {
  "note": "quadratics_iff shows that the columns of the code span exactly the polynomials of degree at most two."
 },
 "C85": {
  "note": "Single-threaded interpreter; file descriptors of Silence2 reduced to what standard output is connected to; Python 3's lazy map is part of the model."
 },
 "C86": {
  "note": "Tables transcribed from the source by a script; float literals exact; container contents abstracted; comparison of an array with a member of a values list raises."
 },
 "C87": {
  "note": "Exact arithmetic, exact linear solver (any function solving positive definite systems). Order 2 in full; for higher orders independence, point order and the findings. Caching off."
 },
 "C88": {
  "note": "Exact real arithmetic and exact linear solver. Convergence for the backtracking search only (the bracketed and cubic searches are covered by C87 for order 2). The model bounds the backtracking loop by a fuel; the theorem shows that a fixed finite fuel suffices, so the loop of the code ends. Caching off."
 },
 "C89": {
  "note": "scikit-learn's mixture, SciPy's densities and the experts are parameters (arbitrary). Exact arithmetic. predict_variances after training is covered by C48 only."
 },
 "C90": {
  "note": "Reals, exact arithmetic; NumPy's generator is an arbitrary transition function. Plotting and printing are not modelled. A constant column (division 0/0) is recorded as a flag `nan`, after which the numbers are not modelled."
 },
 "C91": {
  "note": "Exact reals; Cholesky and QR as parameters; scipy's TNC is modelled up to its first gradient evaluation. The multi-fidelity models and KPLS's PLS step with several outputs are not covered."
 },
 "C92": {
  "note": "The surrogate, SLSQP (deterministic, may fail or raise ValueError) and the Latin-hypercube generator are parameters; exact arithmetic; one output; natural-number options. C19-C21 apply to the same runs through C92_refines."
 },
 "C93": {
  "note": "The wrapped surrogate is a parameter (any learn, value and variance functions of its training data and fitted state); exact arithmetic. Derivative index -1 (which would overwrite the values) is excluded in C93_transparent and C93_named_update."
 },
 "C94": {
  "note": "Real inputs, exact arithmetic; return_complex (a change of data type) not modelled. Divisions by zero (a beam of zero width, a robot arm at the origin) give nan in NumPy and 0 in the model; the exactness theorems exclude them."
 },
 "C95": {
  "note": "Standard output is a list of lines, number formatting a parameter. The concrete transcript is proved for RBF without data_dir; the other theorems hold for any program of printer operations."
 },
 "C96": {
  "note": "For given hyper-parameters; kernels and trends are any that are symmetric under reversal of an input, which C81_kernels and C81_trends show for those of the package. Exact linear algebra (LinOk, LinComplete)."
 },
 "C97": {
  "note": "Arrays live in a heap. The line search is any function of the values of the design and its gradient (the concrete ones are in C68); hypothesis: the arrays under different keys are different arrays."
 },
 "C98": {
  "note": "Memory is modelled as separate buffers with unwritten cells and 32-bit int arithmetic; numbers are exact. Which exception the generated Cython code raises is taken from its documented conversions."
 },
 "C99": {
  "note": "Memory as in C98. NaN is not modelled (equal limits make the parameters NaN in floating point; C99_no_span states what the basis routine then does). The state after a successful training is described by Trained, which C99_rmtb_train establishes."
 },
 "C100": {
  "note": "Memory as in C98. Infinities and NaN are modelled only where a zero-length interval is divided by and the result converted to int. The state after a successful training is described by Trained, which C100_rmtc_train establishes. np.linalg.inv is a parameter. Extrapolation distances and quadrature points are the routines of C99 (class RMTS)."
 },
 "C101": {
  "note": "Rounded arithmetic: Rounding is a structure of laws, shown to be met by rounding to nearest-even with p bits and by exact arithmetic. No overflow, underflow, infinities or NaN (the exponent is unbounded); np.sum in list order; no fused multiply-add."
 },
 "C102": {
  "note": "Backward-error form: compared with the exact spline on the computed knots at the computed parameter. Values only (no derivatives, where cancellation occurs); inside the limits or without extrapolation; no overflow or underflow, no fused multiply-add; SciPy's product adds column by column."
 },
 "C103": {
  "note": "pow(d, 2.) is modelled as the rounded d*d and pow(r2, -p/2.) as an arbitrary function with non-negative results (correctly rounded in the double-precision examples); signs of zeros are not tracked; the product with yt is summed left to right, one output; no fused multiply-add."
 },
 "C104": {
  "note": "One column at a time (columns are independent). np.sqrt is any function whose square is the argument up to two roundings. scale_X_to_unit=True (unused in the repository) and fewer than two values (NumPy gives NaN) are not modelled."
 },
 "C105": {
  "note": "One example (column) at a time. Biases with as many rows as the weights (NumPy would also broadcast a single row). The parsing of the file by np.genfromtxt is not modelled, only what it returns (one axis for a single row or column)."
 },
 "C106": {
  "note": "Exponent range unbounded (no overflow or underflow of the powers). p even (the library uses 10). The functions of NumPy and libm are any functions within e roundings of the exact ones; the double-precision run assumes exactness on four powers of two (e.g. sqrt(2^-14) = 2^-7) and sums from the left."
 },
 "C107": {
  "note": "Objective, gradient, norm, dot product and solver are arbitrary functions on floats (deterministic). Signs of zeros are not distinguished. That NumPy stores NaN when None is assigned to a float column is part of the model."
 },
 "C108": {
  "note": "Exact arithmetic for the quota and minimality; rounding model with unbounded exponent range for the rest."
 },
 "C109": {
  "note": "The checks of the options and the fit are parameters (their models are those of C72 and C69-C71); arrays with two axes. Attributes left by a fit that fails half-way are not modelled."
 },
 "C110": {
  "note": "norm.cdf, norm.pdf and np.sqrt are parameters with a contract on ranges and special values (no accuracy assumed); signs of zeros are not kept. That solve_triangular raises on NaN (check_finite) is SciPy's documented behaviour and enters as the hypothesis RaisesOnNan, justified by C110_training_raises."
 },
 "C111": {
  "note": "Exact arithmetic. The Latin hypercube property of the wrapped method is a hypothesis on its unit design (pyDOE produces it; the ESE optimisation of lhs.py preserves it, C13)."
 },
 "C112": {
  "note": "Exact real arithmetic; scipy's cholesky, qr and svd are parameters with contracts (shown satisfiable for all sizes). One output."
 },
 "C113": {
  "note": "Exact arithmetic; SciPy's cg is modelled as textbook preconditioned conjugate gradients with the legacy stopping rule, splu as an exact solve, cholesky and spilu are parameters. Several claims are violations of what the option promises, stated as such."
 },
 "C114": {
  "note": "IEEE arithmetic with overflow, underflow, infinities and NaN. The densities (SciPy's multivariate normal) and the experts' outputs are arbitrary values of the format; the order of np.sum is any tree. Prediction 0 after underflow, NaN from an expert of probability 0 and the hard choice of a smaller product are violations of what holds in exact arithmetic, stated as such."
 },
 "C115": {
  "note": "Special values for the row functions; for sampling, rounded arithmetic without overflow and limits whose difference is a number of the format (all integer limits up to 2^52 in double precision). C's conversion of NaN, infinities and large numbers to an integer is a parameter. All ones for a NaN block is a violation of one-hot coding, stated as such."
 },
 "C116": {
  "note": "np.exp is a parameter with stated laws (exact at 0 and -inf, in [0, 1] below 0, zero below -746; monotone only where said). Fused multiply-add in np.dot and signs of zeros are not modelled. NaN from the Matern kernels is a violation, stated as such; in double precision it occurs in one dimension from scaled distances of 1.3e154 and in 136 dimensions from scaled distances of 10."
 },
 "C117": {
  "note": "exp is a parameter with stated laws (exact at 0 and -inf, in [0, 1] below 0, zero below a cut); pow(v, 2) is v * v; the linear solver is not modelled, the coefficients are arbitrary numbers."
 },
 "C118": {
  "note": "sqrt is a parameter with the laws of IEEE 754 (a square root for binary64 satisfying them is constructed); fused multiply-add in x.dot(x) is not modelled. The scores and errors in the choices are arbitrary values: when NumPy's SVD raises on NaN instead of returning it, the choice is not reached."
 },
 "C119": {
  "note": "Exponents are unbounded here (range: C116, C117). Kriging and RBF are relative to the coefficients as stored and, for Kriging, to the normalised inputs as computed; trend functions are constant or linear; act_exp is not covered; a scaling d0 of 0 (C117) divides by zero and is outside this model. exp is any function with a relative error of q roundings."
 },
 "C120": {
  "note": "C68 is the exact-arithmetic counterpart. Cost, gradient, np.sqrt and ** are parameters; signs of zeros are not distinguished. The freezing theorem assumes gradients of at most 2^1000, a rate of at most 1024 and a power that returns a number between 0 and its base."
 },
 "C121": {
  "note": "np.exp and the orders of summation are parameters; nothing is assumed of the accuracy of np.exp. Of the backward pass only the gradient with respect to the last biases is modelled in this arithmetic. That np.std of a constant column is exactly 0 is a hypothesis."
 },
 "C122": {
  "note": "np.exp, orders of summation, the weight penalty in the cost and all terms of gradient enhancement are parameters. One batch: later batches start from the NaN parameters."
 },
 "C123": {
  "note": "Rows are float64. Real parts of the complex result only: the imaginary parts are zero."
 },
 "C124": {
  "note": "Orders 1 and 2 (derivatives of higher orders raise, C51). Derivatives for finite coordinates only (the unused matrix norm of order 2 may raise on others). The square root is a parameter; a computable one satisfies the conditions."
 },
 "C125": {
  "note": "The factors func(x_i), dfunc(x_i) are parameters. NumPy's complex product is the textbook formula."
 }
}