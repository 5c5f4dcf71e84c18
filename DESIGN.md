# Formal model of SMTorg/SMT in Lean 4 — design

## 1. What is trusted

* **Lean 4.33.0 kernel**, and the Mathlib definitions used in statements (real numbers, `HasDerivAt`,
  `Matrix`, `List.Perm`, ...).
* **Axioms**: none of our own. Theorems depend on at most `propext`, `Classical.choice`, `Quot.sound`
  (checked with `#print axioms`; list in section 5).
* **The reading of the code**: the code is never run here. Each definition carries a comment naming the
  file and lines in `/repo` it models, and every simplification is named in that comment.
* **Idealisations common to all modules**
  * *Floating point.* In all modules but `Fp/` scalars are exact: either an arbitrary linearly ordered field `K`
    (so definitions run over `ℚ`) or `ℝ` where analysis is needed. In `Fp/` every operation is rounded
    (`Rounding`: monotone, sign-symmetric, idempotent, relative error at most `u`; binary round-to-nearest-even
    with `p` bits is proved to be one). Overflow, underflow, signed infinities and NaN are modelled only in the parts
    built on `Fp/Ieee.lean` (`Format`: a rounding with a largest finite number and a smallest step), as each property says.
  * *NumPy arrays* are `List`s (run-time shapes) or functions on `Fin n` / `Matrix` (shape-correct
    linear algebra). Aliasing is modelled only where a property speaks about it.
  * *Exceptions* are values (`Except`/`Option`); a raising call returns the state it leaves behind when
    that state is observable.
  * *External libraries* (scipy factorisations and optimisers, pyDOE2, sklearn, pickle, the file system,
    random generators) are parameters. What is assumed of each is a hypothesis in the theorem that uses it.
  * Printing, plotting and timing are not modelled, except the bookkeeping of `Printer` (C09, C95).

## 2. Layout

`lean/Verif/<Area>/Model.lean` holds the definitions, `lean/Verif/<Area>/Lemmas.lean` (when needed) helper
lemmas, and `lean/Verif/<Area>/Props.lean` the property theorems with their non-vacuity examples. A property
theorem is stated with Mathlib notions or with a small specification written next to it, not with the
model's helpers.

## 3. Plan per property

| id | modelled | how proved |
|----|----------|-----------|
| C01 | `OptionsDictionary` as state machine over ops (declare/set/update/clone) | refinement to "last accepted write" spec, induction over histories |
| C02 | same | invariant by induction over histories; witness for the hole |
| C03 | a heap of two dictionaries | independence by induction over op lists |
| C04 | `training_points` as name → key → (x,y) with shapes; every setter as state transition with exceptions | refinement to last accepted write; invariant on row counts |
| C05 | `update_training_derivatives` as written | exact characterisation of success + witnesses of failure |
| C06 | n-d arrays as shape + data; `ensure_2d_array`, `check_nx`, `check_support`, `predict_*` | case analysis, iff |
| C07, C08 | file system as `path → Option bytes-state`; `cached_operation` with crash outcomes | invariant over histories |
| C09 | `Printer` interpreter over a tree of contexts/prints/raises | structural induction |
| C10 | `_scale_to_xlimits` over `K` | order lemmas |
| C11, C12 | level loop with fuel-free well-founded recursion, `linspace`, row-major grid | termination measure; injectivity of digit expansion |
| C13, C14 | ESE as a machine driven by an arbitrary oracle for all random draws | invariant by induction; algebraic identity for PhiP |
| C15–C18 | `mixed_integer.py` functions on lists | structural induction on the type list |
| C19, C20 | `EGO.optimize` loop with oracle inner optimiser | loop invariants |
| C21 | EI over `ℝ` with the Gaussian cdf as an integral | integral inequality |
| C22 | `expand_index` / `contract_index` | induction on shape |
| C23–C25 | `rmtb.cpp` basis routines (in-place loops as list recursions) and tensor assembly | induction on order; `HasDerivAt` |
| C26 | `rmtc.cpp` | algebra |
| C27 | `_opt_func/_grad/_hess` | `HasDerivAt` along every direction |
| C28 | `compute_ext_dist`, `_compute_prediction_mtx` | case analysis |
| C29, C30 | `idw.cpp` | sums; `HasDerivAt` |
| C31 | `rbf.cpp`, `rbf.py` | matrix algebra; `HasDerivAt` |
| C32, C33 | `qp.py`, `ls.py` | index arithmetic, `HasDerivAt`, normal equations |
| C34–C36 | `kriging_utils.py` kernels | `HasDerivAt`, induction on chunks |
| C37–C43 | `kriging_utils.py`, `krg_based.py` | list induction, matrix algebra, `HasDerivAt` |
| C44, C45 | `line_search.py` | fuel-indexed loops, topological termination argument |
| C46 | `linear_solvers.py` stationary sweeps | matrix algebra |
| C47, C48 | `moe.py` data handling and recombination | list permutations, convexity, continuity |
| C49, C50 | `vfm.py`, `NestedLHS` in `mfk.py` | calculus, list induction |
| C51, C52 | `problems/*.py` | `HasDerivAt` |
| C53, C66 | `neural_net/*` forward, Jacobian, backward, prediction | induction on layers with `HasDerivAt`; NumPy broadcasting model |
| C67 | `random_mini_batches` | list partition lemmas |
| C68 | `optimizer.py` | induction over trials and passes, meaning of counters, simulation for ignored options |
| C54 | RMTB prediction along one axis | `HasDerivAt` of the tensor spline inside every knot span; across knots by the derivative formula in the degree below, which gives continuity (`BSpline/Smooth.lean`, `Rmtb/Knots.lean`) |
| C55 | Newton loop of `rmts._train` | induction over iterations |
| C56, C57 | energy cache, quadrature points | scaling algebra; digit expansion |
| C58 | kernel Jacobians `dr` | `HasDerivAt` of exponentials and products; flatness at shared coordinates |
| C59 | `_predict_variance_derivatives` | derivative of quadratic forms, Cholesky solves as inverses |
| C60 | `moe.py` expert choice | folds; spectral norm of the broadcast difference by Cauchy-Schwarz |
| C61 | `vfm.py` `_apply` with aliased dictionaries, predict histories | case analysis, induction over operations |
| C63, C64 | `krg_based.py` reduced likelihood, gradient, Hessian | entrywise matrix calculus (`Common/MatDeriv`), Cholesky/QR oracles with contracts, concentration of the trend |
| C69 | `mfk.py` training and values | recursion over levels, matrix algebra |
| C70 | `mfk.py` derivatives | `HasDerivAt`, induction over levels |
| C71 | `mfk.py`, `mfkpls.py` variances | matrix algebra, induction over levels, concrete counterexample |
| C73 | kernels, `krg_based.py` training | Gram representations (integrals of features), Schur products, existence of Cholesky factors |
| C65 | `_optimize_hyperparam` retry loop, best-so-far bookkeeping | decreasing measure, invariant over attempts, link to the likelihood model |
| C72 | `Params/Model`: `_check_param` of KrgBased and MFK and the loop over levels acting on the options; `Params/Props`, `Params/MfkProps`: exact acceptance conditions, idempotence, lock-in, by case analysis and induction over levels and over later trainings. |
| C74 | `Mgp/Model`: `act_exp`, prior, objective, gradient, Hessian entries, assembly of `inv_sigma_R`; `Mgp/GradProps` | derivatives along arbitrary paths of hyper-parameters, linearity of the closed forms of C63/C64 in the matrix derivative; pull-back of the Gaussian kernel for definiteness |
| C75 | training after optimisation, `get_x_from_u`, `get_u_from_x`, `predict_values`; `Mgp/EmbedProps` | QR algebra, change of variables in the kernel |
| C76 | `_predict_value_derivatives_hyper`, `_predict_variance_derivatives_hyper`, `predict_variances`; `Mgp/VarProps`, `Mgp/MargProps` | derivatives of the BLUP and of the universal Kriging variance through training; positive definite forms; scaling of all intermediate quantities |
| C77 | the same; `Mgp/RotProps`, examples `Mgp/Examples` | invariance under O(m), one-parameter groups of plane rotations, derivative of the zero gradient along them |
| C62 | `problems/water_flow*.py`, `welded_beam.py`, `wing_weight.py`, `torsion_vibration.py`; expression trees evaluated over ℝ and ℂ (`CStep/*`) | analyticity along coordinate lines by structural induction, symmetric difference quotients, domain conditions on the design boxes |
| C78 | `utils/kriging_utils.py` 637-768, `gekpls.py`, counts in `krg_based.py`; `Ge/*` | loop invariant over the training points, sorting facts, Taylor remainder, composition with C39, C42, C73 and the mean value theorem |
| C79 | `utils/misc.py`; `Misc/*` | case analysis, algebra of norms |
| C80 | `krg_based.py` 112-190 (het. branch), `mfk.py` 241-270; `Het/*` | sums over repetitions; uniqueness of the BLUP system; lifting of the reduced coefficients |
| C81 | `krg_based.py` 112-190, 240-303, 740-880, `kriging_utils.py` 27-60; `Kriging/Units*` | standardised data of the second training = permuted and reflected standardised data of the first; uniqueness of the BLUP system under row permutation and column scaling |
| C82 | `qp.py`, `ls.py`, `rbf.py`, `idw.py`, `krg_based.py` training and prediction; `Fit/*` on the existing models | uniqueness of the trained function (least squares over a function space, RBF system, BLUP system) |
| C83 | same | the fit of moved points is the moved fit, by uniqueness |
| C84 | same | a function of the space has residual zero; Gram matrix invertible iff points unisolvent |
| C85 | `silence.py` 11-18, 94-135; `Silence/*` | small-step semantics of stream table; induction over programs |
| C86 | `options_dictionary.py` over a concrete Python universe, all `declare` calls of 41 classes, the 32 option tables of `doc/_src_docs`, `line_search.py` 13-23, dimension checks of the problems; `Tables/*` | general constructor lemma by induction on declarations and keywords; finite tables by kernel evaluation; case analysis on values |
| C87 | `rmts.py` 285-450, 542-586: solver loops over outputs, start-up problem, stored matrix, output derivatives; `Rmts/Train.lean` | the exact Newton step of a quadratic passes every line search's tests (expansion of the objective), induction over outputs and passes; uniqueness by positive definiteness; derivative by linearity near visible data |
| C88 | same code as C87 with `approx_order` even (`Rmts/Order.lean`, `Order2.lean`, `Converge.lean`) | strong convexity from the tangent inequality of even powers; existence by compactness; uniform lower bound on accepted steps on a sublevel set gives a fixed decrease per iteration; implicit differentiation by hand through the strongly monotone gradient |
| C89 | `moe.py` 42-90, 98-335, 378-414, 503-565, and the wrapper's part of `surrogate_model.py`; `Moe/Train.lean` | case analysis of a successful run into its stages (`Ran`), C47 for the clusters, lists by induction; failures by showing where each exception can come from |
| C90 | `genn.py`, `neural_net/model.py` (train, goodness of fit), `data.py`; `Nn/Life.lean` on top of `Nn/Train.lean` | invariants over the epoch and mini-batch loops; the trained network as a function of normalised data, which a change of units leaves equal; the network's derivative from C44 |
| C91 | `krg_based.py` with `ny` output columns (training, prediction, likelihood, gradient, heteroscedastic replacement of the outputs); `Kriging/Multi.lean` | each column of the matrix computation is the vector computation of `Kriging/Core.lean`; the joint likelihood through the monotone reading `10 ^ (-l/n)`; C65 for the optimiser loop |
| C92 | the whole `EGO` object over repeated `optimize` calls: set-up, searches, stored criterion, start points per random state, virtual points, evaluator calls, in-place writes to `ydoe`; `Ego/Life.lean` | refinement to the abstract loop of C19-C20; frame lemmas (what a search reads and writes); induction over iterations |
| C93 | the wrapper of a mixed-integer surrogate over histories of calls: two stores of training data, conversions, the wrapped object as a parameter; `MixedInt/Wrapper.lean` | simulation (the unnamed values of both stores agree), frame lemmas for names, C15-C18 lifted to arrays |
| C94 | `Problem.__call__` on any array and any `kx`, `_evaluate` of each problem for every integer index (Python indexing and slices with negative bounds), `ReducedProblem` with any integers; `Problems/Call.lean` | agreement with the models of C51/C62 in range, case analysis of indexing outside |
| C95 | `Printer`, the printing of `train`/`predict_*`, `LinearSolver._active`, `Callback`; `_train` is any tree of printer operations that may raise, RBF's is written out; `Printing/Model.lean` | induction over the tree of operations and over the history |
| C96 | the model of C69-C71 (`Mfk/Model.lean`); `Mfk/Units.lean`, `Mfk/UnitsProps.lean`, `Mfk/Reproduce.lean` | relation between the levels of two trainings, induction over the levels; uniqueness of generalised least squares |
| C97 | `finite_difference`, `grad_check`, and the sharing of arrays by `initialize`/`optimize`, on a heap of arrays; `Nn/FiniteDiff.lean` | what each probe does to the heap, induction over entries, keys and iterations; monotonicity three times for the error bound |
| C98 | `idw.cpp`, `rbf.cpp` on buffers (length, unwritten cells, 32-bit `int`), their Cython wrappers and the Python state around them; `Native/` | total-correctness loop rule with refinement to the models of C29-C31; partial-correctness rule for the necessary conditions; induction over histories |
| C99 | `utils.cpp`, `rmts.cpp`, `rmtb.cpp` on buffers, their Cython wrapper and the Python layer of RMTB; `Native/Rmt*.lean` | loop rules of C98, refinement to the models of C22, C23, C25, C55, C57; positions written in any order (`Vis`) |
| C100 | `rmtc.cpp` on buffers, its Cython wrapper and the Python layer of RMTC; `Native/Rmtc*.lean` | loop rules of C98, one rule for loops that append entries (`emit_loop`), refinement to the models of C22 and C26 |
| C101 | sampling, the bounds check of RMTS, cell search and quadrature with a rounding after every operation; `Fp/*.lean` | `Rounding`: laws of a rounding, proved for round-to-nearest-even with `p` bits; relative-error calculus (`Close`); counterexamples in `double` by kernel evaluation |
| C102 | B-spline kernels and RMTB rows with a rounding after every operation; `Fp/Spline*.lean` | invariant of the degree loop: every entry is the Cox–de Boor value up to `5 i` relative roundings; relative errors multiply through the tensor product; signed calculus (`Within`) for the sum |
| C103 | the IDW row and prediction over a floating-point format with finite range: values are finite numbers, ±∞ or NaN; `Fp/Ieee.lean`, `Fp/Idw*.lean` | case analysis of the fold over the weights (all finite, one infinite, all zero, sum infinite); forward error analysis with underflow terms in the regular case; `decide +kernel` over binary64 for the concrete failures |
| C104 | one column of `standardization` with a rounding after every operation and any order of summation (a binary tree), and once more with overflow and underflow; `Fp/Standard*.lean` | relative-error calculus of non-negative quantities (`Close`) for the squares, signed one (`Within`) for the sums, by induction on the tree; zero test through `Close` (zero iff zero) |
| C105 | `Model.load_parameters`, `evaluate` on dictionaries of arrays of any shape; `load_csv` on labels and table; `Nn/Persist*.lean` | induction over layers with a shape predicate on the dictionary; induction over label lists; concrete counterexample for transferred parameters |
| C106 | `_maximinESE`, `_PhiP`, `_PhiP_exchange`, `_ese` with rounded operations, NaN and infinities; `Fp/Ese*.lean` | invariants over the loops; relative error analysis of one exchange (cancellation in the squared distances, then in the sum of powers), accumulated over the run; run in `double` with the kernel evaluating the roundings; the root of a rounded square is not below the number (significand argument, any precision) |
| C107 | `BacktrackingLineSearch`, `BracketedLineSearch`, `_run_newton_solver`, `_solve`, `_train` on IEEE values; `Fp/LineSearch*.lean` | the step length underflows to zero in any IEEE format (induction on the exponent), where the test passes; monotonicity of rounded addition; NaN propagation through the tests; cycles of the zoom; one run in `double` evaluated by the kernel |
| C108 | the level loop of `FullFactorial._compute`, exact and rounded; `Sampling/Levels.lean`, `Fp/SamplingProps3.lean` | loop invariants: quota bounds follow from `argmax` of scores that sum to zero; the rounded scores differ from the exact ones by 3u each, and two exact scores differ by at least 1/N |
| C109 | the store of training data with its `defaultdict`, `MFK._new_train_init`, `_check_list_structure`, `_new_train_finalize`; `Mfk/Data.lean`, `Mfk/DataProps*.lean` | induction on histories gives the store; the loop over the names ends because a dictionary has finitely many keys; the levels are characterised by the history alone |
| C110 | `EI`, `UCB`, tunneling, `np.min`, `np.argmin`, the loop of `optimize` with exceptions, the clipping of variances, over finite numbers, infinities and NaN; `Fp/Ego.lean`, `Fp/EgoProps*.lean` | case analysis on special values with rounding lemmas for the finite case; induction on the arrays for `argmin`, on the penalties for tunneling, on iterations for runs |
| C111 | `MixedIntegerSamplingMethod` on a Latin hypercube unit design: scaling, rounding, enum argmax, folding; `MixedInt/Coverage.lean` | the points of a level are those of the slices between two thresholds; counting integers in an interval by floors and ceilings; explicit designs for the negative parts |
| C112 | the conditioning test of `_reduced_likelihood_function` (`krg_based.py` 266-283) in front of the computations of C39-C41, C63, C65; `Kriging/Cond*.lean` | extreme singular values as extreme lengths over the unit sphere; `GᵀG = FᵀR⁻¹F`; bounds of the inverse form by Cauchy-Schwarz; compactness and Gram-Schmidt for the satisfiability of the contracts |
| C113 | `linear_solvers.py` 227-313 (conjugate gradients) and `rmts.py` 292-385, 542-586 with the solver chosen by name and the previous direction handed on; `Solvers/Cg*.lean`, `Rmts/Linear*.lean` | the orthogonality relations of conjugate gradients by induction, finite termination by linear independence, reduction of exact solvers to the training of C87/C88, convexity for the objective |
| C114 | `moe.py` 428-480, 688-753 for one point in a floating-point format with infinities and NaN; `Fp/Moe*.lean` | induction on the summation tree for sums of non-negative values, standard error analysis for quotient, products and the left fold; `argmax` reduced to the `argmin` of C110 |
| C115 | `mixed_integer.py` 112-203, 237-243, 301-318 on rows with NaN and infinities, and after scaling with rounding; `Fp/MixedInt*.lean` | refinement to the exact model on numbers; case analysis for special values; error of the scaling (C101) against half a level |
| C116 | the kernels, `componentwise_distance`, the matrix `R` and `_predict_values` (`kriging_utils.py` 87-175, 239-315, 469-474, 605-614, 805-829; `krg_based.py` 253-257, 646-664, 710-748) with overflow, underflow and NaN; `Fp/Corr*.lean`, `Fp/Var*.lean` | oddness of rounding for symmetry; monotonicity of rounded sums of non-negative values; induction on the trees of sums and products |
| C117 | `compute_jac`, `compute_jac_derivs` (`rbf.cpp` 34-99), the training matrix and the predictions of `rbf.py` 103-110, 148-196 with overflow, underflow and NaN; `Fp/Rbf*.lean` | oddness of rounding for symmetry; monotone folds of non-negative values; induction on the tree of `jac.dot(sol)` |
| C118 | `compute_rms_error` (`misc.py` 28-52), the choices of `moe.py` 563-567, 588-604 and the verdict of `optimizer.py` 144-150 on arbitrary IEEE values; `Fp/Err*.lean` | rounded sums of squares; laws of `sqrt`; induction on the scanned list with the order of IEEE values |
| C119 | `ls.py` 84, 106, `qp.py` 72-153, `krg_based.py` 648-662 with `abs_exp`, `squar_exp`, `matern52`, `matern32`, `rbf.py` 148-170 with `rbf.cpp` 34-62, one rounding per operation, dot products as arbitrary programs with or without FMA; `Fp/Poly*.lean`, `Fp/Accur*.lean` | forward error analysis by induction on the program; `y e^{-y} ≤ 1/e` for the exponential, `z h(z) e^{-z} ≤ 2` and `h(cz) ≤ c² h(z)` for the Matérn factors; integers stay representable |
| C120 | `optimizer.py` 78-298 on IEEE values; `Fp/Optim*.lean` | induction over trials, counters as in C68, traces of states; NaN propagation; underflow of the reductions by kernel evaluation |
| C121 | `activation.py`, `fwd_prop.py`, `model.py` 235-260, 418-440, `bwd_prop.py` 108 on IEEE values; `Fp/NetX*.lean` | case analysis of the quotient of exponentials; NaN propagation through trees and layers; domination of rounded sums; traces of the optimiser of C120 |
| C122 | `bwd_prop.py` 41, 95-147, 196-227, `loss.py` 68-81 on IEEE values; `Fp/NetGradX*.lean` | NaN propagation backwards through the layers and along the run of C120; exact zeros forwards and backwards for a perfect fit |
| C123 | `sphere.py` 38-45, `rosenbrock.py` 34-51 on IEEE values; `Fp/Bench*.lean` | case analysis on special values; trees of non-negative terms; distance of doubles from 1; integer bounds for the domains |
| C124 | `lp_norm.py` 39-50 on IEEE values; `Fp/LpNorm*.lean` | case analysis on special values over C118's norm; trees with one nonzero term |
| C125 | `tensor_product.py` 54-64 on IEEE values, complex products included; `Fp/TensorX*.lean` | invariant of the loop: imaginary part zero or NaN for ever; trees of products |

Nothing in the list is outside what an executable model can express; parts resting on floating point,
`pickle`, pyDOE2, sklearn and scipy internals are parameters (see section 1), named in each theorem.

## 4. Disagreements between the code and its documentation or intent (found while modelling)

(Each is stated as a theorem where marked `[T]`; the list grows with the model.)


Options and surrogate base class
* [T C02] Declaring with both `values` and `types` accepts any value of the type (`poly="foo"` is accepted).
* [T C02] A re-declaration that raises has already replaced the declaration; the old value then need not satisfy it.
* [T C05] `update_training_derivatives(kx)` checks key `kx` (the previous derivative, or the values) but writes `kx + 1`.
* [T C04] `nx`/`ny` follow the last setter, not the data sets still stored. `kx = -1` in `set_training_derivatives` overwrites the values.
* [T C06] Predicting at zero points raises `ZeroDivisionError` in the timing report.
* `compute_rms_error(kx=...)` without validation data raises `UnboundLocalError`.

Caching and printing
* [T C07] With `data_dir=None` the code still tries to load from `"None/..."`.
* [T C31] An RBF whose training was loaded from cache has no matrix, so output derivatives raise.
* [T C07] `checksum` loses the printer if pickling raises.
* [T C09] An exception inside a timed context leaves the depth incremented.

Sampling
* [T C14] The "no improvement" temperature branch of ESE cannot be reached.
* [T C13] ESE with one point does not terminate.
* `_ese` computes a correlation that raises for one point or a collinear plan. `FullFactorial` divides the caller's `weights` in place.

Mixed integer and EGO
* [T C16] Casting a categorical block with a tie gives several ones.
* [T C18] Training points given to the mixed-integer surrogate are not cast. `set_training_values` drops `name`.
* [T C15] A negative enumeration index wraps.
* [T C20] The last attempt of the inner optimiser is wasted; with `n_max_optim=1` every iteration fails.
* [T C19] Integer variables of proposed points are not rounded, and the initial design is evaluated unfolded.

RMTS
* [T C23] The span search of the B-spline basis finds nothing at `t = 1` for order ≥ 2; the clamp in the caller masks it.
* [T C55] All-zero outputs: no Newton iteration runs, `self.mtx` is unset and training raises `AttributeError`.
* [T C28] With `extrapolate=False` the derivative outside the limits is not the derivative of the value.
* `_solve` leaves `approx_order=2`, `maxiter=1` set if the start-up solve raises; gradient weights are ignored (`c` not assigned for `kx > 0`);
  output derivatives use the matrix of the last output.

Others
* [T C31] RBF `poly_degree` outside {-1, 0, 1} passes the option check and then raises `KeyError`.
* [T C29] IDW with duplicate inputs returns the first of the duplicates. [T C30] its zero derivative at training points is exact only for p > 1.
* [T C32] QP `predict_derivatives` raises for several outputs at several points.

Kriging
* [T C41] `_predict_variances` solves with `G.T` (lower triangular) but without `lower=True`: only the diagonal of `G` is used. For linear and
  quadratic trends the reported variance is not the universal-Kriging variance; `_predict_variance_derivatives` differentiates the right one. `C41_linear_trend_wrong`, `C41_linear_trend_instance`: for every trained one-input model with a linear trend whose outputs are not on a line and for which the constant and the input are not orthogonal for `R^-1`, the reported variance differs from the universal-Kriging variance by more than any bound somewhere; a squared-exponential model on the inputs 3, 5, -8 is such a model.
* [T C58] `abs_exp` returns a spatial Jacobian at points sharing a coordinate with a training point, where the kernel has no derivative.
* [T C38] `scale_X_to_unit=True` divides by zero on a constant column.
* `matern52` with `hess_ind` and no `grad_ind` raises `UnboundLocalError`.

Solvers and line searches
* [T C46] `krylov-dense` asks for a preconditioner named `dense`, which does not exist, and silently uses none.
* [T C46] `_clone` copies the clone's own options onto itself: cloned smoothers forget their options (a Jacobi smoother becomes Gauss-Seidel).
* `dense-chol` relies on `overwrite_b` working in place; `dense-lu` asserts a dense array although RMTS passes a sparse one.
* [T C45] The cubic line search can find no step (`a = None`), which ends in `UnboundLocalError`; the bracketed search may return `None`.
* [T C44] Backtracking never returns on an ascent direction.

Mixture of experts
* [T C47] `if not self.c` raises for every criterion array of two or more rows: the `ct` argument cannot be used.
* [T C60] The validation score is the spectral norm of an n x n broadcast difference, not an error: a mirrored expert ties with a perfect one.
* [T C60] The `ValueError` for an empty selection of experts is constructed but not raised.
* [T C48] Where all densities underflow, the smooth prediction is 0.

Multi-fidelity
* [T C61] VFM deletes `"deriv"` from the caller's option dictionaries; one dictionary shared by both models fails.
* [T C61] VFM never retrains: options changed after the first prediction are ignored.
* [T C50] `NestedLHS` looks up neighbours by distance value: only the first of several equidistant points is found, and it can end in `IndexError`.

Benchmark problems
* [T C51] `LpNorm` derivatives raise for order >= 3: `np.linalg.norm(x, ord=p)` (result unused) is called on a matrix.
* [T C51] `TensorProduct(x, kx)` with kx >= ndim returns the function value, `RobotArm` with an odd one returns 0, instead of an error.
* [T C52] `ReducedProblem` accepts repeated indices; the last assignment wins and derivatives for the earlier ones are wrong.
* [C64] The Hessian code uses `nt` where the likelihood of MFK-type models uses `nt - p - q`; it is only called by MGP, where both agree. It also uses `np.int`, which recent NumPy versions removed.

Neural network
* [T C53] `bwd_prop.py` multiplies the enhancement gradient by gamma once per use and the cost seed once more: for 0 < gamma < 1 the gradient has gamma squared.
* [C53] gamma > 1 and lambda < 0 are clipped in the cost but not in the gradient.
* [T C53] `Model.train` without derivative data (`J=None`) raises `TypeError`, and a batch of one example raises `ValueError`; the branch `J.size == 0` is unreachable. GENN without training derivatives raises `KeyError`.
* [T C67] With `m % batch == 1` the last batch has one example, so training fails (e.g. 65 points with the default batch size 64).
* [T C66] `predict_derivatives` at a single point with two or more inputs raises `ValueError`; with several outputs it raises or uses the scale of the wrong output.
* [C66] The check `xt.all() == X.all()` that values and derivatives were given at the same points compares two booleans, so it is vacuous.
* [T C68] Options `beta1`/`beta2` are ignored by Adam; each line-search trial updates Adam's moments; the result is the last design, which can be worse than the initial one.
* [C53] `tanh` is computed from exponentials and overflows for large arguments (floating point, not modelled).

Multi-fidelity Kriging
* [T C71] With three or more levels the variance uses regressors in which the predictions of levels >= 2 are left at zero: at a noise-free training point common to all levels the
  prediction is exact and the variance is not zero.
* [T C71] `MFKPLS`/`MFKPLSK` use half of the process variance of the levels above the first.
* [T C70] With a linear trend `predict_derivatives` adds the slopes of all inputs.
* [T C73] Restricting KPLS to `abs_exp` and `squar_exp` matters: these are positive semi-definite for all PLS coefficients.

Hyper-parameter optimisation
* [T C65] The "10 attempts" error is raised inside the `try` whose `except` swallows it; the loop goes on, up to 20 attempts. `incr` is always 0, so the bare `return` is dead code.
* [T C65] The loop can end normally with `best_optimal_par = []`: a retry with a finite but not best-ever likelihood is discarded and the better vector in `_thetaMemory` is not used.
* [T C65] `nb_ill_matrix` is set once per object: after one failed training, later trainings of the same object give up at the first exception.
* [T C65] A constant output (or outputs reproduced exactly by the trend) has infinite likelihood, which the loop treats as failure: training raises.
* [T C65] With `eval_noise` each retry appends the noise to the start vector again, so every retry raises a shape error.
* [C65] The late-binding lambdas of the noise constraints and the repeated `np.log10(noise_bounds)` are wrong for more than one noise value.
* [T C65] `_check_F` only rejects more trend functions than points; with as many (full rank) every likelihood is infinite and training raises "Optimization failed".

Options and trainings
* [T C72] Training overwrites `theta0` (and heteroscedastic `noise0`) in the options by the spread values, so one model object cannot be retrained on another number of inputs (points).
* [T C72] `theta0=np.array([0.01])` raises with two or more inputs although `theta0=[0.01]` is spread over them (in-place multiplication of the array); the same for heteroscedastic `noise0`.
* [T C72] KPLSK sets `n_comp = nx` and `theta0` at its first training; later trainings of the object do not reduce the dimension.
* [T C72] MFK: an exception at any level leaves a one-dimensional `theta0` in the options, and every later training raises on its shape. A one-dimensional array is never accepted although a list is.
* [T C72] MFK with a single level and default options raises `TypeError` (`len` of the number in `noise0`); so does one number per level.
* [T C72] MFK with `eval_noise` and `optim_var` switches `eval_noise` off for good, and replaces the training outputs by predictions.
* [C72] MFK `_check_list_structure` compares the number of columns only from the third level on; a gap in the level names silently drops the levels above it; `np.unique(X)` flattens its
  argument, so the length check of heteroscedastic noise is skipped for most data with two or more inputs.

MGP
* [T C76] `_predict_value_derivatives_hyper` returns the sensitivity of the standardised prediction (factor `y_std` missing), so the MGP variance depends on the unit of the outputs.
* [T C77] With `n_comp >= 2` and the default prior mean 0 the Hessian is singular at every stationary point: the variance is obtained from a numerically singular system.
* [C74] The objective adds `2/ln 10` times a log likelihood and twice a log prior, so it is not a log posterior: the prior weighs ln 10 times too much.
* [C75] With `n_comp = nx` coordinates are taken as inputs, with `n_comp > nx` they raise. `theta = 0` gives `norm = 0` and NaN coordinates. `predict_values` returns a one-dimensional array.
* [C74] `np.int` (krg_based.py) no longer exists in recent NumPy; `eval_noise` with MGP cuts `theta` to `nx` entries.
* [T C62] `TorsionVibration` computes shaft stiffness with `d` and disc mass with `D` where the physical formulas have `d⁴` and `D²`; the value is the lowest natural frequency for these coefficients.
* [C62] With `use_FD` the five problems import `scipy.misc.derivative`, which recent SciPy versions no longer provide; only the complex-step branch then works.
* [T C78] GEKPLS with `extra_points` larger than the number of inputs (or negative) raises "Number of rows in F and X do not match"; so does every second `train()` without a new `set_training_values`, because `nt` is multiplied again.
* [T C78] GEKPLS with one input raises IndexError (the nine-point pattern writes column 1); without derivatives it raises KeyError before the intended message of `_check_param` is reached.
* [T C78] Extra points of training points on the upper bound lie outside `xlimits`.
* [C78] The inputs given to `set_training_derivatives` are ignored: row i of the derivatives is always attributed to training point i.
* [T C79] `compute_rms_error(sm, kx=k)` raises UnboundLocalError (`kx2 += 1` before assignment); with exactly one of `xe`, `ye` it returns None instead of using training data for the other.
* [C80] `noise0` is interpreted in standardised units (variance divided by y_std²) and divided by the number of repetitions; with the default 0 unrepeated points are interpolated while repeated ones are smoothed.
* [C81] An input that is constant over the training points is not standardised (its standard deviation is replaced by 1), so predictions away from the training points depend on the unit in which it is expressed.
* [T C85] Nested `Silence` blocks re-enable output after the inner block and close the process's standard output at the end of the outer block; a caller's own redirection of `sys.stdout` is replaced by `sys.__stdout__`. `Silence2` does nothing under Python 3 (unconsumed `map`), or raises.
* [T C86] `values=` together with `types=` is an "or": `poly`, `corr`, `hyper_opt`, `criterion`, `qEI`, `type_bridge`, `poly_degree` take any string (integer). `KPLSK`/`MFKPLSK` pass a string as `values`. `nugget=0` is refused. `line_search` takes a `LineSearch` object for which no class is found. `None` cannot be passed for most options that default to `None`.
* [T C87] `predict_output_derivatives` with `approx_order > 2` (the default is 4) uses the matrix of the last Newton step of the last output that took one: wrong by a factor 2 in an exact example, and dependent on other outputs' data. Outputs whose gradient norm at zero is below `solver_tolerance` are predicted as zero; if all are, training raises `AttributeError`. An exception in the start-up problem leaves `approx_order = 2`, `nonlinear_maxiter = 1` in the options.
* [T C89] `MOE` without test data cannot be trained on two or more outputs (`ValueError`: `nx + 2 ny - 1` against `nx + ny` columns); with test data, only the first output is learnt. With test data a tenth of every cluster is never trained on. "Clustering not converged" on a retraining leaves an object that predicts 0 everywhere (smooth recombination). One-axis inputs raise `IndexError` after the experts are dropped. `MOESurrogateModel` trains only on the last named group; the options `xt`, `yt` are read at the first training only.
* [T C90] `GENN` cannot be trained without all partial derivatives, even with `gamma = 0`. The points of the derivatives are not compared with the points of the values (`xt.all() == X.all()` compares two Booleans). `load_smt_data` works for one output only and leaves the values stored if the derivatives are refused. `goodness_of_fit` replaces the training data by the validation data for good; with one validation point and two or more inputs it raises. A mini-batch of one example (65 points with the default size 64) raises `ValueError` and leaves a partly trained network that predicts. A negative `mini_batch_size` silently trains nothing, or raises `UnboundLocalError`. `seed` makes every epoch use the same mini-batches and does not cover the initial weights. A constant column makes every prediction `nan`.
* [T C91] With two or more outputs `hyper_opt="TNC"` never optimises: the gradient raises, six attempts are wasted, the starting `theta` is returned silently, and the next training of the object raises. `eval_noise` with `use_het_noise` averages over the outputs as if they were repetitions; `predict_values` then works for one point at a time only. A constant output beside others is fine although alone it makes training fail.
* [T C92] `LHS` rebuilds its generator from an integer `random_state` at every call, so in EGO all `n_max_optim` attempts, and all searches of a run, use the same start points: a failed search is repeated identically (`C92_seeded_retries`), and with `n_start = n_doe` the start points are the design points. `criterion` and `qEI` accept any string (`types=str` beside `values`): a misspelt criterion on a used object silently reuses the previous one (for EI with the old `y_data`). `optimize` writes into the user's `ydoe` array when the first search fails. `EI` on several points gives NaN at the current best point.
* [T C62] The documentation pages of the test problems disagree with `xlimits`: WingWeight `W_dg` up to 25000 (code 2500), TorsionVibration `G_1` in [105300000, 128700000] (code a tenth of it) and `d_2` in [1.638, 2.002] (code [1.6425, 2.0075]); the boxes of the code are `C62_domains`.
* [T C84] A Kriging model whose data are reproduced by its trend reports the variance zero everywhere, so EGO with such a model has nothing left to improve. The docstring of `quadratic` announces `n(n-1)/2+n+1` columns; there are `(n+1)(n+2)/2` (`C43_monomials`).
* [T C93] `MixedIntegerSurrogateModel.set_training_values` does not pass `name` to `super()`: an update under a name always raises, an update of the unnamed values is checked against whatever was set last and is entered into the wrapper before the wrapped surrogate refuses it, and `train` with only named data does not raise. `supports` is the wrapped object's dictionary (so `derivatives` may be `True`) but derivative predictions always raise; training derivatives are stored in the wrapper and never reach the wrapped surrogate. In folded mode columns beyond the variables are silently ignored. A tie in an enum block makes folded and unfolded designs different points.
* [T C94] `ReducedProblem` checks only the largest index and passes a negative one on to `_evaluate`, where it means different things: `ReducedProblem(TensorProduct(...), [-1])(x, 0)` returns the function value, `Rosenbrock` mixes in `x_0` or drops a term, the cantilever beam returns 0 for lengths and subtracts the cube of the total length for the width and height of the last element, the robot arm returns the derivative for the first angle and, for the last length, one taken as if the last segment pointed along the first axis (all other lengths, widths and heights counted from the end are answered correctly). An index `kx >= ndim` gives a wrong number instead of an error for `TensorProduct` and `RobotArm`. The docstring of `__call__` allows `x : ndarray[n]`, but one point of a problem with two or more inputs given that way is refused.
* [T C95] `_timed_context` and `LinearSolver._active` have no `try … finally`: each call that raises inside leaves the depth higher and the flag changed for good; an RBF (default `max_print_depth=5`) that failed twice in the factorisation never prints again. `print_solver` is declared and never read. `predict_output_derivatives` prints by whatever flag the last call left, so setting `print_global=False` after training does not silence it. Predicting with no points raises `ZeroDivisionError` after the prediction was made.
* [T C97] `finite_difference` writes the first forward step into the array it was given and restores a *copy* under the key: the caller's array keeps entry (0,0) + 1e-6. `Optimizer` copies dictionaries, not arrays, so without a user gradient `design_history` and the user's `initial_guess` are shifted. `grad_check` without a user gradient compares finite differences with themselves.
* [T C98] `kx` is never checked: `predict_derivatives(x, nx)` or `(x, -1)` of IDW and RBF reads outside the arrays. IDW sizes its result with `self.nt`, which `set_training_values` changes: predicting before training again with fewer points writes behind the array. RBF replaces option `d0` by an array at the first training, so a second training with more inputs reads behind it. A training that raises in `setup` (integer arrays) leaves a compiled object without values behind.
* [T C99] `RMTB` never checks the lengths of `order`, `num_ctrl_pts` and `xlimits`: shorter lists, a numpy integer (`order=np.int64(3)` is accepted but not repeated) and a second training with more inputs read outside an array in `setup`; longer lists hand cells that were never written to scipy. `predict_derivatives(x, -1)` returns the values, other negative `kx` the values divided by a range.
* [T C100] `RMTC`: the same unchecked lengths as RMTB; besides, points far outside the domain and equal limits convert a number to `int` that is none, 8 or more inputs overflow the index of `elem_coeff2nodal`, a `kx` that is no input silently returns the values, and predicting after `set_training_values` with fewer inputs (without training) reads behind the points.
* [T C101] A full-factorial design can violate its own limits in double precision: for `xlimits = [[-0.3, 0.1]]` the largest level is above `0.1`, and RMTB/RMTC trained with the same `xlimits` on `FullFactorial(xlimits=...)(nt)` raise an `AssertionError` for every `nt >= 2`. Random and Latin-hypercube designs are not affected.
* [T C103] `idw.cpp` predicts NaN away from the training points when a weight overflows (double precision, `p = 100`: any point within `5e-4` of a training point, but not the point itself) or when all underflow (`p = 100`, a point at distance 2048), and `0` when only the sum of the weights overflows.
* [T C104] `standardization` tests `X_scale == 0.0` to find constant inputs, but in double precision a constant input such as `0.1` (three rows) has a computed standard deviation of about `1.7e-17`, so the test fails: the input is divided by that, and a prediction at another value of the input (`0.2`) uses a standardised coordinate above `1e15`. Columns with values beyond about `1e154` or below `1e-162` lose their spread by overflow or underflow.
* [T C105] `Model.load_parameters` does not restore the scale factors, and a new `Model` has `(1, 1)` for both (mean 1, not 0): a network that fits `y = 2x` exactly predicts `x` after its parameters are loaded into a new object. The reported `layer_dims` are wrong for hidden layers of different sizes. `load_csv` cannot read a file with one row of data.
* [T C106] `_PhiP_exchange` updates the criterion incrementally with 10th powers of distances. If the closest pair is about 40 times closer than the others, the update cancels completely: the recorded criterion of the new design is 0 (or NaN), no later design can be recorded as better, and the optimisation is over after the first such exchange. `np.argmin` prefers NaN, so one NaN among the 20 candidates loses the iteration.
* [T C107] In floating point the backtracking search of the spline training always ends (possibly at the start, after 1076 evaluations), unless something is NaN: a solver that returns a NaN or infinite direction makes `train()` run forever. A NaN in the training outputs of one output is silent when there is another output or an earlier training: the gradient norm is NaN, `norm > tol` is false, no pass is made and that output is zero everywhere. `line_search="bracketed"` can run forever on two neighbouring doubles; when it gives up after 20 extensions it returns `None`, which becomes NaN in the solution.
* [T C109] `training_points` is a `defaultdict`: `update_training_values(y, name=k)` for a fidelity level `k` without data raises `ValueError`, but leaves an empty group under `k`, which
  `MFK.train` takes for a level: `KeyError: 0` from then on.
* [T C109] A gap in the names (0, 2) silently drops the data after it. The column check of `_check_list_structure` starts at the third level (`i > 1`): with a second level of another width
  `theta0` has been replaced by the time `np.concatenate` raises.
* [T C109] With `eval_noise` and `optim_var` the user's training outputs are overwritten by predictions, also when the second training fails; switching the options off and training again does not use the
  user's data.
* [T C110] One NaN returned by the objective in the last batch makes `EGO.optimize` report NaN as the optimum (`np.argmin` returns the first NaN) although better points are recorded; in an earlier batch
  it makes the next training raise, and the whole record is lost.
* [T C110] `EI` for several points treats certain points (variance 0) differently from `EI` for one point: `f_min - pred` or NaN instead of 0 (NaN at the best training point).
* [T C110] `_find_best_point` prefers a run whose criterion is NaN to every other run.
* [T C111] Mixed-integer sampling of an `INT` variable draws the two extreme levels half as often as the others (rounding of a continuous value between the limits), and a Latin hypercube of `n < 2 (hi - lo)`
  points may miss them; with `criterion="center"` and `n = hi - lo` points no odd level is ever drawn. `ENUM` variables have no stratification at all: all points of a Latin hypercube may get the same level.
* [T C112] With `poly="linear"` an input that is constant over the sample (or an affine function of the others), and with `poly="quadratic"` a two-level input, make training raise "F is too ill conditioned" for every
  choice of hyper-parameters; the constant trend never does.
* [T C113] `solver="dense-chol"` with more than one output silently trains by steepest descent (`solve_triangular(..., overwrite_b=True)` writes into a temporary copy, because a column of `d_sol` is not contiguous), and as
  `derivative_solver` it leaves out the linear solve (violation).
* [T C113] `solver="dense-lu"` raises for all data; `solver="null"` trains to the zero function without a message; `solver="jacobi"` may give ascent directions (violations).
* [T C114] Far from every cluster all products weight x density underflow to zero; the code skips the normalisation and the smooth prediction is 0 with variance 0, outside the range of the experts' outputs (violation). A density
  that rounds to the least positive number is lost already by the multiplication with its weight.
* [T C114] An expert that returns NaN spoils the smooth prediction at every point, also where its cluster has probability 0 (violation of the idea of a mixture).
* [T C115] A NaN in an ENUM block is cast to all ones, which no level means: the surrogate is asked about a point outside the coding without a message, and folding afterwards reports level 0 (violation).
* [T C116] The Matérn kernels multiply a product of polynomials, which can overflow, by an exponential, which has underflowed by then: `inf * 0`. Far from the data (or in 136 dimensions with scaled distances of 10) the correlation is NaN instead of 0: `predict_values` returns NaN, not the trend, `predict_variances` raises `ValueError`, and hyperparameters for which a pair of training points has such a correlation are rejected (violation).
* [T C117] RBF divides by `d0` for values and by `d0 * d0` for derivatives, without checks. `d0 = 0` is accepted and gives NaN on the diagonal of the matrix; with `|d0| < 1.5e-162` the square underflows and the derivative at a training point is NaN where the value is exact; where `2 d / d0²` overflows and the exponential has underflowed the derivative is NaN instead of 0 (violations).
* [T C118] Comparisons with NaN: MOE keeps its first expert, and its first Heaviside factor, if their score is NaN, whatever the others (violation). Overflow: `compute_rms_error` is 0, and `grad_check` says "correct", when the norm of the reference (from `1.3e154`) overflows and that of the difference does not (violation).
* [T C119] Rounding: predictions of LS, QP, Kriging and RBF are accurate relative to the sum of the absolute values of their terms, correlations have a data-independent absolute error. A QP near a double root can lose all digits (`1 - 2x + x²` at `1 + 2⁻³⁰` gives 0).
* [T C120] GENN training: a NaN or infinite learning rate hangs; from a NaN cost the line search ignores finite costs of longer steps; NaN entries never go away and do not stop the run; a first cost of infinity stops the run after 103 passes although the cost still falls; a gradient entry of `2⁵¹²` or more freezes its parameter for the rest of the run.
* [T C121] GENN: tanh is computed from two exponentials and is NaN (not ±1) for arguments beyond the overflow threshold, and one such unit makes all predictions and derivatives NaN; a constant input or output column of the training data makes predictions NaN without any error.
* [T C122] GENN training: if one hidden unit overflows in one example, all parameters of the network are NaN from the next pass on, the run still makes all its passes, and training ends without an error.
* [T C123] `Rosenbrock`: the derivative with respect to the first input is NaN at `(0, b)` for `400 |b|` beyond the largest double (the value is `+inf` or a number); with one input the value is 0 everywhere, even at NaN.
* [T C124] `LpNorm` of order 2: the derivative is NaN at the origin and where all squares underflow (infinite in the nonzero coordinates, e.g. at `(0, 2^-700)`), and 0 in every coordinate where the value overflows (e.g. at `(2^700, 1)`, where the true derivative is 1).
* [T C125] `TensorProduct`: derivatives are computed with complex products, so one overflowing factor before the last column makes the derivative NaN where the value is `+inf` (with the factor in the last column the derivative is `inf`).

## 5. Axioms

Every theorem depends at most on `propext`, `Classical.choice` and `Quot.sound`, the three standard axioms of Lean (`vcheck` reports them per theorem; `#print axioms` shows the same). No axiom is
declared in this project, no compiled evaluation is trusted.
