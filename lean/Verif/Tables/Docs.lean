import Verif.Tables.Model
/-!
# The option tables of the documentation

Transcribed by a script from the tables "List of options" in `doc/_src_docs`. This is the specification the declarations are compared
with. Decimal numbers are the printed ones; containers are kept as printed; the two object defaults of `EGO` are kept as their class.
-/
namespace SMT.Tables

/-- A row of a table: option, default, acceptable values, acceptable types. -/
structure DocRow where
  name : String
  default : PyVal
  values : Option (List PyVal)
  types : Option (List PyType)
deriving DecidableEq

/-- `doc/_src_docs/surrogate_models/gekpls.rst` 105-210. -/
def docGEKPLS : List DocRow :=
  [⟨"print_global", .bool true, none, (some [.bool])⟩,
   ⟨"print_training", .bool true, none, (some [.bool])⟩,
   ⟨"print_prediction", .bool true, none, (some [.bool])⟩,
   ⟨"print_problem", .bool true, none, (some [.bool])⟩,
   ⟨"print_solver", .bool true, none, (some [.bool])⟩,
   ⟨"poly", .str "constant", (some [.str "constant", .str "linear", .str "quadratic"]), (some [.str])⟩,
   ⟨"corr", .str "squar_exp", (some [.str "abs_exp", .str "squar_exp"]), (some [.str])⟩,
   ⟨"nugget", .float (2220446049250313 / 100000000000000000000000000000), none, (some [.float])⟩,
   ⟨"theta0", .list "[0.01]", none, (some [.list, .ndarray])⟩,
   ⟨"theta_bounds", .list "[1e-06, 20.0]", none, (some [.list, .ndarray])⟩,
   ⟨"hyper_opt", .str "Cobyla", (some [.str "Cobyla", .str "TNC"]), (some [.str])⟩,
   ⟨"eval_noise", .bool false, (some [.bool true, .bool false]), (some [.bool])⟩,
   ⟨"noise0", .list "[0.0]", none, (some [.list, .ndarray])⟩,
   ⟨"noise_bounds", .list "[2.220446049250313e-14, 10000000000.0]", none, (some [.list, .ndarray])⟩,
   ⟨"use_het_noise", .bool false, (some [.bool true, .bool false]), (some [.bool])⟩,
   ⟨"n_comp", .int 1, none, (some [.int])⟩,
   ⟨"xlimits", .none, none, (some [.ndarray])⟩,
   ⟨"delta_x", .float (1 / 10000), none, (some [.int, .float])⟩,
   ⟨"extra_points", .int 0, none, (some [.int])⟩]

/-- `doc/_src_docs/surrogate_models/krg.rst` 230-315. -/
def docKRG : List DocRow :=
  [⟨"print_global", .bool true, none, (some [.bool])⟩,
   ⟨"print_training", .bool true, none, (some [.bool])⟩,
   ⟨"print_prediction", .bool true, none, (some [.bool])⟩,
   ⟨"print_problem", .bool true, none, (some [.bool])⟩,
   ⟨"print_solver", .bool true, none, (some [.bool])⟩,
   ⟨"poly", .str "constant", (some [.str "constant", .str "linear", .str "quadratic"]), (some [.str])⟩,
   ⟨"corr", .str "squar_exp", (some [.str "abs_exp", .str "squar_exp", .str "act_exp", .str "matern52", .str "matern32"]), (some [.str])⟩,
   ⟨"nugget", .float (2220446049250313 / 100000000000000000000000000000), none, (some [.float])⟩,
   ⟨"theta0", .list "[0.01]", none, (some [.list, .ndarray])⟩,
   ⟨"theta_bounds", .list "[1e-06, 20.0]", none, (some [.list, .ndarray])⟩,
   ⟨"hyper_opt", .str "Cobyla", (some [.str "Cobyla", .str "TNC"]), (some [.str])⟩,
   ⟨"eval_noise", .bool false, (some [.bool true, .bool false]), (some [.bool])⟩,
   ⟨"noise0", .list "[0.0]", none, (some [.list, .ndarray])⟩,
   ⟨"noise_bounds", .list "[2.220446049250313e-14, 10000000000.0]", none, (some [.list, .ndarray])⟩,
   ⟨"use_het_noise", .bool false, (some [.bool true, .bool false]), (some [.bool])⟩]

/-- `doc/_src_docs/surrogate_models/idw.rst` 102-147. -/
def docIDW : List DocRow :=
  [⟨"print_global", .bool true, none, (some [.bool])⟩,
   ⟨"print_training", .bool true, none, (some [.bool])⟩,
   ⟨"print_prediction", .bool true, none, (some [.bool])⟩,
   ⟨"print_problem", .bool true, none, (some [.bool])⟩,
   ⟨"print_solver", .bool true, none, (some [.bool])⟩,
   ⟨"p", .float (5 / 2), none, (some [.int, .float])⟩,
   ⟨"data_dir", .none, none, (some [.str])⟩]

/-- `doc/_src_docs/surrogate_models/genn.rst` 150-245. -/
def docGENN : List DocRow :=
  [⟨"print_global", .bool true, none, (some [.bool])⟩,
   ⟨"print_training", .bool true, none, (some [.bool])⟩,
   ⟨"print_prediction", .bool true, none, (some [.bool])⟩,
   ⟨"print_problem", .bool true, none, (some [.bool])⟩,
   ⟨"print_solver", .bool true, none, (some [.bool])⟩,
   ⟨"alpha", .float (1 / 2), none, (some [.int, .float])⟩,
   ⟨"beta1", .float (9 / 10), none, (some [.int, .float])⟩,
   ⟨"beta2", .float (99 / 100), none, (some [.int, .float])⟩,
   ⟨"lambd", .float (1 / 10), none, (some [.int, .float])⟩,
   ⟨"gamma", .float 1, none, (some [.int, .float])⟩,
   ⟨"deep", .int 2, none, (some [.int])⟩,
   ⟨"wide", .int 2, none, (some [.int])⟩,
   ⟨"mini_batch_size", .int 64, none, (some [.int])⟩,
   ⟨"num_epochs", .int 10, none, (some [.int])⟩,
   ⟨"num_iterations", .int 100, none, (some [.int])⟩,
   ⟨"seed", .none, none, (some [.int])⟩,
   ⟨"is_print", .bool true, none, (some [.bool])⟩]

/-- `doc/_src_docs/surrogate_models/kpls.rst` 112-202. -/
def docKPLS : List DocRow :=
  [⟨"print_global", .bool true, none, (some [.bool])⟩,
   ⟨"print_training", .bool true, none, (some [.bool])⟩,
   ⟨"print_prediction", .bool true, none, (some [.bool])⟩,
   ⟨"print_problem", .bool true, none, (some [.bool])⟩,
   ⟨"print_solver", .bool true, none, (some [.bool])⟩,
   ⟨"poly", .str "constant", (some [.str "constant", .str "linear", .str "quadratic"]), (some [.str])⟩,
   ⟨"corr", .str "squar_exp", (some [.str "abs_exp", .str "squar_exp"]), (some [.str])⟩,
   ⟨"nugget", .float (2220446049250313 / 100000000000000000000000000000), none, (some [.float])⟩,
   ⟨"theta0", .list "[0.01]", none, (some [.list, .ndarray])⟩,
   ⟨"theta_bounds", .list "[1e-06, 20.0]", none, (some [.list, .ndarray])⟩,
   ⟨"hyper_opt", .str "Cobyla", (some [.str "Cobyla", .str "TNC"]), (some [.str])⟩,
   ⟨"eval_noise", .bool false, (some [.bool true, .bool false]), (some [.bool])⟩,
   ⟨"noise0", .list "[0.0]", none, (some [.list, .ndarray])⟩,
   ⟨"noise_bounds", .list "[2.220446049250313e-14, 10000000000.0]", none, (some [.list, .ndarray])⟩,
   ⟨"use_het_noise", .bool false, (some [.bool true, .bool false]), (some [.bool])⟩,
   ⟨"n_comp", .int 1, none, (some [.int])⟩]

/-- `doc/_src_docs/surrogate_models/mgp.rst` 133-228. -/
def docMGP : List DocRow :=
  [⟨"print_global", .bool true, none, (some [.bool])⟩,
   ⟨"print_training", .bool true, none, (some [.bool])⟩,
   ⟨"print_prediction", .bool true, none, (some [.bool])⟩,
   ⟨"print_problem", .bool true, none, (some [.bool])⟩,
   ⟨"print_solver", .bool true, none, (some [.bool])⟩,
   ⟨"poly", .str "constant", (some [.str "constant", .str "linear", .str "quadratic"]), (some [.str])⟩,
   ⟨"corr", .str "squar_exp", (some [.str "abs_exp", .str "squar_exp", .str "act_exp", .str "matern52", .str "matern32"]), (some [.str])⟩,
   ⟨"nugget", .float (2220446049250313 / 100000000000000000000000000000), none, (some [.float])⟩,
   ⟨"theta0", .list "[0.01]", none, (some [.list, .ndarray])⟩,
   ⟨"theta_bounds", .list "[1e-06, 20.0]", none, (some [.list, .ndarray])⟩,
   ⟨"hyper_opt", .str "Cobyla", (some [.str "Cobyla", .str "TNC"]), (some [.str])⟩,
   ⟨"eval_noise", .bool false, (some [.bool true, .bool false]), (some [.bool])⟩,
   ⟨"noise0", .list "[0.0]", none, (some [.list, .ndarray])⟩,
   ⟨"noise_bounds", .list "[2.220446049250313e-14, 10000000000.0]", none, (some [.list, .ndarray])⟩,
   ⟨"use_het_noise", .bool false, (some [.bool true, .bool false]), (some [.bool])⟩,
   ⟨"n_comp", .int 1, none, (some [.int])⟩,
   ⟨"prior", .dict "{'mean': [0.0], 'var': 1.25}", none, (some [.dict])⟩]

/-- `doc/_src_docs/surrogate_models/kplsk.rst` 119-209. -/
def docKPLSK : List DocRow :=
  [⟨"print_global", .bool true, none, (some [.bool])⟩,
   ⟨"print_training", .bool true, none, (some [.bool])⟩,
   ⟨"print_prediction", .bool true, none, (some [.bool])⟩,
   ⟨"print_problem", .bool true, none, (some [.bool])⟩,
   ⟨"print_solver", .bool true, none, (some [.bool])⟩,
   ⟨"poly", .str "constant", (some [.str "constant", .str "linear", .str "quadratic"]), (some [.str])⟩,
   ⟨"corr", .str "squar_exp", (some [.str "squar_exp"]), (some [.str])⟩,
   ⟨"nugget", .float (2220446049250313 / 100000000000000000000000000000), none, (some [.float])⟩,
   ⟨"theta0", .list "[0.01]", none, (some [.list, .ndarray])⟩,
   ⟨"theta_bounds", .list "[1e-06, 20.0]", none, (some [.list, .ndarray])⟩,
   ⟨"hyper_opt", .str "Cobyla", (some [.str "Cobyla", .str "TNC"]), (some [.str])⟩,
   ⟨"eval_noise", .bool false, (some [.bool true, .bool false]), (some [.bool])⟩,
   ⟨"noise0", .list "[0.0]", none, (some [.list, .ndarray])⟩,
   ⟨"noise_bounds", .list "[2.220446049250313e-14, 10000000000.0]", none, (some [.list, .ndarray])⟩,
   ⟨"use_het_noise", .bool false, (some [.bool true, .bool false]), (some [.bool])⟩,
   ⟨"n_comp", .int 1, none, (some [.int])⟩]

/-- `doc/_src_docs/surrogate_models/ls.rst` 80-120. -/
def docLS : List DocRow :=
  [⟨"print_global", .bool true, none, (some [.bool])⟩,
   ⟨"print_training", .bool true, none, (some [.bool])⟩,
   ⟨"print_prediction", .bool true, none, (some [.bool])⟩,
   ⟨"print_problem", .bool true, none, (some [.bool])⟩,
   ⟨"print_solver", .bool true, none, (some [.bool])⟩,
   ⟨"data_dir", .none, none, (some [.str])⟩]

/-- `doc/_src_docs/surrogate_models/rbf.rst` 129-189. -/
def docRBF : List DocRow :=
  [⟨"print_global", .bool true, none, (some [.bool])⟩,
   ⟨"print_training", .bool true, none, (some [.bool])⟩,
   ⟨"print_prediction", .bool true, none, (some [.bool])⟩,
   ⟨"print_problem", .bool true, none, (some [.bool])⟩,
   ⟨"print_solver", .bool true, none, (some [.bool])⟩,
   ⟨"d0", .float 1, none, (some [.int, .float, .list, .ndarray])⟩,
   ⟨"poly_degree", .int (-1), (some [.int (-1), .int 0, .int 1]), (some [.int])⟩,
   ⟨"data_dir", .none, none, (some [.str])⟩,
   ⟨"reg", .float (1 / 10000000000), none, (some [.int, .float])⟩,
   ⟨"max_print_depth", .int 5, none, (some [.int])⟩]

/-- `doc/_src_docs/surrogate_models/rmts.rst` 278-403. -/
def docRMTB : List DocRow :=
  [⟨"print_global", .bool true, none, (some [.bool])⟩,
   ⟨"print_training", .bool true, none, (some [.bool])⟩,
   ⟨"print_prediction", .bool true, none, (some [.bool])⟩,
   ⟨"print_problem", .bool true, none, (some [.bool])⟩,
   ⟨"print_solver", .bool true, none, (some [.bool])⟩,
   ⟨"xlimits", .none, none, (some [.ndarray])⟩,
   ⟨"smoothness", .float 1, none, (some [.integral, .float, .tuple, .list, .ndarray])⟩,
   ⟨"regularization_weight", .float (1 / 100000000000000), none, (some [.integral, .float])⟩,
   ⟨"energy_weight", .float (1 / 10000), none, (some [.integral, .float])⟩,
   ⟨"extrapolate", .bool false, none, (some [.bool])⟩,
   ⟨"min_energy", .bool true, none, (some [.bool])⟩,
   ⟨"approx_order", .int 4, none, (some [.integral])⟩,
   ⟨"solver", .str "krylov", (some [.str "krylov-dense", .str "dense-lu", .str "dense-chol", .str "lu", .str "ilu", .str "krylov", .str "krylov-lu", .str "krylov-mg", .str "gs", .str "jacobi", .str "mg", .str "null"]), (some [.linearSolver])⟩,
   ⟨"derivative_solver", .str "krylov", (some [.str "krylov-dense", .str "dense-lu", .str "dense-chol", .str "lu", .str "ilu", .str "krylov", .str "krylov-lu", .str "krylov-mg", .str "gs", .str "jacobi", .str "mg", .str "null"]), (some [.linearSolver])⟩,
   ⟨"grad_weight", .float (1 / 2), none, (some [.integral, .float])⟩,
   ⟨"solver_tolerance", .float (1 / 1000000000000), none, (some [.integral, .float])⟩,
   ⟨"nonlinear_maxiter", .int 10, none, (some [.integral])⟩,
   ⟨"line_search", .str "backtracking", (some [.str "backtracking", .str "bracketed", .str "quadratic", .str "cubic", .str "null"]), (some [.lineSearch])⟩,
   ⟨"save_energy_terms", .bool false, none, (some [.bool])⟩,
   ⟨"data_dir", .none, (some [.none]), (some [.str])⟩,
   ⟨"max_print_depth", .int 5, none, (some [.integral])⟩,
   ⟨"order", .int 3, none, (some [.integral, .tuple, .list, .ndarray])⟩,
   ⟨"num_ctrl_pts", .int 15, none, (some [.integral, .tuple, .list, .ndarray])⟩]

/-- `doc/_src_docs/surrogate_models/rmts.rst` 407-527. -/
def docRMTC : List DocRow :=
  [⟨"print_global", .bool true, none, (some [.bool])⟩,
   ⟨"print_training", .bool true, none, (some [.bool])⟩,
   ⟨"print_prediction", .bool true, none, (some [.bool])⟩,
   ⟨"print_problem", .bool true, none, (some [.bool])⟩,
   ⟨"print_solver", .bool true, none, (some [.bool])⟩,
   ⟨"xlimits", .none, none, (some [.ndarray])⟩,
   ⟨"smoothness", .float 1, none, (some [.integral, .float, .tuple, .list, .ndarray])⟩,
   ⟨"regularization_weight", .float (1 / 100000000000000), none, (some [.integral, .float])⟩,
   ⟨"energy_weight", .float (1 / 10000), none, (some [.integral, .float])⟩,
   ⟨"extrapolate", .bool false, none, (some [.bool])⟩,
   ⟨"min_energy", .bool true, none, (some [.bool])⟩,
   ⟨"approx_order", .int 4, none, (some [.integral])⟩,
   ⟨"solver", .str "krylov", (some [.str "krylov-dense", .str "dense-lu", .str "dense-chol", .str "lu", .str "ilu", .str "krylov", .str "krylov-lu", .str "krylov-mg", .str "gs", .str "jacobi", .str "mg", .str "null"]), (some [.linearSolver])⟩,
   ⟨"derivative_solver", .str "krylov", (some [.str "krylov-dense", .str "dense-lu", .str "dense-chol", .str "lu", .str "ilu", .str "krylov", .str "krylov-lu", .str "krylov-mg", .str "gs", .str "jacobi", .str "mg", .str "null"]), (some [.linearSolver])⟩,
   ⟨"grad_weight", .float (1 / 2), none, (some [.integral, .float])⟩,
   ⟨"solver_tolerance", .float (1 / 1000000000000), none, (some [.integral, .float])⟩,
   ⟨"nonlinear_maxiter", .int 10, none, (some [.integral])⟩,
   ⟨"line_search", .str "backtracking", (some [.str "backtracking", .str "bracketed", .str "quadratic", .str "cubic", .str "null"]), (some [.lineSearch])⟩,
   ⟨"save_energy_terms", .bool false, none, (some [.bool])⟩,
   ⟨"data_dir", .none, (some [.none]), (some [.str])⟩,
   ⟨"max_print_depth", .int 5, none, (some [.integral])⟩,
   ⟨"num_elements", .int 4, none, (some [.integral, .list, .ndarray])⟩]

/-- `doc/_src_docs/surrogate_models/qp.rst` 92-132. -/
def docQP : List DocRow :=
  [⟨"print_global", .bool true, none, (some [.bool])⟩,
   ⟨"print_training", .bool true, none, (some [.bool])⟩,
   ⟨"print_prediction", .bool true, none, (some [.bool])⟩,
   ⟨"print_problem", .bool true, none, (some [.bool])⟩,
   ⟨"print_solver", .bool true, none, (some [.bool])⟩,
   ⟨"data_dir", .none, none, (some [.str])⟩]

/-- `doc/_src_docs/problems/sphere.rst` 50-75. -/
def docSphere : List DocRow :=
  [⟨"ndim", .int 1, none, (some [.int])⟩,
   ⟨"return_complex", .bool false, none, (some [.bool])⟩,
   ⟨"name", .str "Sphere", none, (some [.str])⟩]

/-- `doc/_src_docs/problems/tensorproduct.rst` 67-102. -/
def docTensorProduct : List DocRow :=
  [⟨"ndim", .int 1, none, (some [.int])⟩,
   ⟨"return_complex", .bool false, none, (some [.bool])⟩,
   ⟨"name", .str "TP", none, (some [.str])⟩,
   ⟨"func", .none, (some [.str "cos", .str "exp", .str "tanh", .str "gaussian"]), none⟩,
   ⟨"width", .float 1, none, (some [.float, .int])⟩]

/-- `doc/_src_docs/problems/robotarm.rst` 51-76. -/
def docRobotArm : List DocRow :=
  [⟨"ndim", .int 2, none, (some [.int])⟩,
   ⟨"return_complex", .bool false, none, (some [.bool])⟩,
   ⟨"name", .str "RobotArm", none, (some [.str])⟩]

/-- `doc/_src_docs/problems/rosenbrock.rst` 50-75. -/
def docRosenbrock : List DocRow :=
  [⟨"ndim", .int 1, none, (some [.int])⟩,
   ⟨"return_complex", .bool false, none, (some [.bool])⟩,
   ⟨"name", .str "Rosenbrock", none, (some [.str])⟩]

/-- `doc/_src_docs/problems/weldedbeam.rst` 54-84. -/
def docWeldedBeam : List DocRow :=
  [⟨"ndim", .int 1, none, (some [.int])⟩,
   ⟨"return_complex", .bool false, none, (some [.bool])⟩,
   ⟨"name", .str "WeldedBeam", none, (some [.str])⟩,
   ⟨"use_FD", .bool false, none, (some [.bool])⟩]

/-- `doc/_src_docs/problems/waterflow.rst` 53-83. -/
def docWaterFlow : List DocRow :=
  [⟨"ndim", .int 1, none, (some [.int])⟩,
   ⟨"return_complex", .bool false, none, (some [.bool])⟩,
   ⟨"name", .str "WaterFlow", none, (some [.str])⟩,
   ⟨"use_FD", .bool false, none, (some [.bool])⟩]

/-- `doc/_src_docs/problems/wingweight.rst` 53-83. -/
def docWingWeight : List DocRow :=
  [⟨"ndim", .int 1, none, (some [.int])⟩,
   ⟨"return_complex", .bool false, none, (some [.bool])⟩,
   ⟨"name", .str "WingWeight", none, (some [.str])⟩,
   ⟨"use_FD", .bool false, none, (some [.bool])⟩]

/-- `doc/_src_docs/problems/torsionvibration.rst` 56-86. -/
def docTorsionVibration : List DocRow :=
  [⟨"ndim", .int 1, none, (some [.int])⟩,
   ⟨"return_complex", .bool false, none, (some [.bool])⟩,
   ⟨"name", .str "TorsionVibration", none, (some [.str])⟩,
   ⟨"use_FD", .bool false, none, (some [.bool])⟩]

/-- `doc/_src_docs/problems/branin.rst` 61-86. -/
def docBranin : List DocRow :=
  [⟨"ndim", .int 2, (some [.int 2]), (some [.int])⟩,
   ⟨"return_complex", .bool false, none, (some [.bool])⟩,
   ⟨"name", .str "Branin", none, (some [.str])⟩]

/-- `doc/_src_docs/problems/lp_norm.rst` 50-80. -/
def docLpNorm : List DocRow :=
  [⟨"ndim", .int 1, none, (some [.int])⟩,
   ⟨"return_complex", .bool false, none, (some [.bool])⟩,
   ⟨"order", .int 2, none, (some [.int])⟩,
   ⟨"name", .str "LpNorm", none, (some [.str])⟩]

/-- `doc/_src_docs/problems/cantileverbeam.rst` 53-88. -/
def docCantileverBeam : List DocRow :=
  [⟨"ndim", .int 3, none, (some [.int])⟩,
   ⟨"return_complex", .bool false, none, (some [.bool])⟩,
   ⟨"name", .str "CantileverBeam", none, (some [.str])⟩,
   ⟨"P", .float 50000, none, (some [.int, .float])⟩,
   ⟨"E", .float 200000000000, none, (some [.int, .float])⟩]

/-- `doc/_src_docs/applications/ego.rst` 539-634. -/
def docEGO : List DocRow :=
  [⟨"fun", .none, none, (some [.function])⟩,
   ⟨"criterion", .str "EI", (some [.str "EI", .str "SBO", .str "UCB"]), (some [.str])⟩,
   ⟨"n_iter", .none, none, (some [.int])⟩,
   ⟨"n_max_optim", .int 20, none, (some [.int])⟩,
   ⟨"n_start", .int 20, none, (some [.int])⟩,
   ⟨"n_parallel", .int 1, none, (some [.int])⟩,
   ⟨"qEI", .str "KBLB", (some [.str "KB", .str "KBLB", .str "KBUB", .str "KBRand", .str "CLmin"]), (some [.str])⟩,
   ⟨"evaluator", .obj .evaluator 0, none, (some [.evaluator])⟩,
   ⟨"n_doe", .none, none, (some [.int])⟩,
   ⟨"xdoe", .none, none, (some [.ndarray])⟩,
   ⟨"ydoe", .none, none, (some [.ndarray])⟩,
   ⟨"xlimits", .none, none, (some [.ndarray])⟩,
   ⟨"verbose", .bool false, none, (some [.bool])⟩,
   ⟨"enable_tunneling", .bool false, none, (some [.bool])⟩,
   ⟨"surrogate", .obj .krg 0, none, (some [.krg, .kpls, .kplsk, .mgp])⟩,
   ⟨"xtypes", .none, none, (some [.list])⟩,
   ⟨"random_state", .none, none, (some [.noneType, .int, .randomState])⟩]

/-- `doc/_src_docs/applications/mfkplsk.rst` 142-242. -/
def docMFKPLSK : List DocRow :=
  [⟨"print_global", .bool true, none, (some [.bool])⟩,
   ⟨"print_training", .bool true, none, (some [.bool])⟩,
   ⟨"print_prediction", .bool true, none, (some [.bool])⟩,
   ⟨"print_problem", .bool true, none, (some [.bool])⟩,
   ⟨"print_solver", .bool true, none, (some [.bool])⟩,
   ⟨"poly", .str "constant", (some [.str "constant", .str "linear", .str "quadratic"]), (some [.str])⟩,
   ⟨"corr", .str "squar_exp", (some [.str "squar_exp"]), (some [.str])⟩,
   ⟨"nugget", .float (2220446049250313 / 100000000000000000000000000000), none, (some [.float])⟩,
   ⟨"theta0", .list "[0.01]", none, (some [.list, .ndarray])⟩,
   ⟨"theta_bounds", .list "[1e-06, 20.0]", none, (some [.list, .ndarray])⟩,
   ⟨"hyper_opt", .str "Cobyla", (some [.str "Cobyla", .str "TNC"]), (some [.str])⟩,
   ⟨"eval_noise", .bool false, (some [.bool true, .bool false]), (some [.bool])⟩,
   ⟨"noise0", .list "[0.0]", none, (some [.list, .ndarray])⟩,
   ⟨"noise_bounds", .list "[2.220446049250313e-14, 10000000000.0]", none, (some [.list, .ndarray])⟩,
   ⟨"use_het_noise", .bool false, (some [.bool true, .bool false]), (some [.bool])⟩,
   ⟨"rho_regr", .str "constant", (some [.str "constant", .str "linear", .str "quadratic"]), none⟩,
   ⟨"optim_var", .bool false, (some [.bool true, .bool false]), (some [.bool])⟩,
   ⟨"n_comp", .int 1, none, (some [.int])⟩]

/-- `doc/_src_docs/applications/mfkpls.rst` 142-242. -/
def docMFKPLS : List DocRow :=
  [⟨"print_global", .bool true, none, (some [.bool])⟩,
   ⟨"print_training", .bool true, none, (some [.bool])⟩,
   ⟨"print_prediction", .bool true, none, (some [.bool])⟩,
   ⟨"print_problem", .bool true, none, (some [.bool])⟩,
   ⟨"print_solver", .bool true, none, (some [.bool])⟩,
   ⟨"poly", .str "constant", (some [.str "constant", .str "linear", .str "quadratic"]), (some [.str])⟩,
   ⟨"corr", .str "squar_exp", (some [.str "abs_exp", .str "squar_exp"]), (some [.str])⟩,
   ⟨"nugget", .float (2220446049250313 / 100000000000000000000000000000), none, (some [.float])⟩,
   ⟨"theta0", .list "[0.01]", none, (some [.list, .ndarray])⟩,
   ⟨"theta_bounds", .list "[1e-06, 20.0]", none, (some [.list, .ndarray])⟩,
   ⟨"hyper_opt", .str "Cobyla", (some [.str "Cobyla", .str "TNC"]), (some [.str])⟩,
   ⟨"eval_noise", .bool false, (some [.bool true, .bool false]), (some [.bool])⟩,
   ⟨"noise0", .list "[0.0]", none, (some [.list, .ndarray])⟩,
   ⟨"noise_bounds", .list "[2.220446049250313e-14, 10000000000.0]", none, (some [.list, .ndarray])⟩,
   ⟨"use_het_noise", .bool false, (some [.bool true, .bool false]), (some [.bool])⟩,
   ⟨"rho_regr", .str "constant", (some [.str "constant", .str "linear", .str "quadratic"]), none⟩,
   ⟨"optim_var", .bool false, (some [.bool true, .bool false]), (some [.bool])⟩,
   ⟨"n_comp", .int 1, none, (some [.int])⟩]

/-- `doc/_src_docs/applications/mfk.rst` 137-232. -/
def docMFK : List DocRow :=
  [⟨"print_global", .bool true, none, (some [.bool])⟩,
   ⟨"print_training", .bool true, none, (some [.bool])⟩,
   ⟨"print_prediction", .bool true, none, (some [.bool])⟩,
   ⟨"print_problem", .bool true, none, (some [.bool])⟩,
   ⟨"print_solver", .bool true, none, (some [.bool])⟩,
   ⟨"poly", .str "constant", (some [.str "constant", .str "linear", .str "quadratic"]), (some [.str])⟩,
   ⟨"corr", .str "squar_exp", (some [.str "abs_exp", .str "squar_exp", .str "act_exp", .str "matern52", .str "matern32"]), (some [.str])⟩,
   ⟨"nugget", .float (2220446049250313 / 100000000000000000000000000000), none, (some [.float])⟩,
   ⟨"theta0", .list "[0.01]", none, (some [.list, .ndarray])⟩,
   ⟨"theta_bounds", .list "[1e-06, 20.0]", none, (some [.list, .ndarray])⟩,
   ⟨"hyper_opt", .str "Cobyla", (some [.str "Cobyla", .str "TNC"]), (some [.str])⟩,
   ⟨"eval_noise", .bool false, (some [.bool true, .bool false]), (some [.bool])⟩,
   ⟨"noise0", .list "[0.0]", none, (some [.list, .ndarray])⟩,
   ⟨"noise_bounds", .list "[2.220446049250313e-14, 10000000000.0]", none, (some [.list, .ndarray])⟩,
   ⟨"use_het_noise", .bool false, (some [.bool true, .bool false]), (some [.bool])⟩,
   ⟨"rho_regr", .str "constant", (some [.str "constant", .str "linear", .str "quadratic"]), none⟩,
   ⟨"optim_var", .bool false, (some [.bool true, .bool false]), (some [.bool])⟩]

/-- `doc/_src_docs/applications/vfm.rst` 130-195. -/
def docVFM : List DocRow :=
  [⟨"name_model_LF", .none, (some [.str "KRG", .str "LS", .str "QP", .str "KPLS", .str "KPLSK", .str "GEKPLS", .str "RBF", .str "RMTC", .str "RMTB", .str "IDW"]), (some [.object])⟩,
   ⟨"options_LF", .dict "{}", none, (some [.dict])⟩,
   ⟨"name_model_bridge", .none, (some [.str "KRG", .str "LS", .str "QP", .str "KPLS", .str "KPLSK", .str "GEKPLS", .str "RBF", .str "RMTC", .str "RMTB", .str "IDW"]), (some [.object])⟩,
   ⟨"options_bridge", .dict "{}", none, (some [.dict])⟩,
   ⟨"type_bridge", .str "Additive", (some [.str "Additive", .str "Multiplicative"]), (some [.str])⟩,
   ⟨"X_LF", .none, none, (some [.ndarray])⟩,
   ⟨"y_LF", .none, none, (some [.ndarray])⟩,
   ⟨"X_HF", .none, none, (some [.ndarray])⟩,
   ⟨"y_HF", .none, none, (some [.ndarray])⟩,
   ⟨"dy_LF", .none, none, (some [.ndarray])⟩,
   ⟨"dy_HF", .none, none, (some [.ndarray])⟩]

/-- `doc/_src_docs/applications/moe.rst` 294-364. -/
def docMOE : List DocRow :=
  [⟨"xt", .none, none, (some [.ndarray])⟩,
   ⟨"yt", .none, none, (some [.ndarray])⟩,
   ⟨"ct", .none, none, (some [.ndarray])⟩,
   ⟨"xtest", .none, none, (some [.ndarray])⟩,
   ⟨"ytest", .none, none, (some [.ndarray])⟩,
   ⟨"n_clusters", .int 2, none, (some [.int])⟩,
   ⟨"smooth_recombination", .bool true, none, (some [.bool])⟩,
   ⟨"heaviside_optimization", .bool false, none, (some [.bool])⟩,
   ⟨"derivatives_support", .bool false, none, (some [.bool])⟩,
   ⟨"variances_support", .bool false, none, (some [.bool])⟩,
   ⟨"allow", .list "[]", none, none⟩,
   ⟨"deny", .list "[]", none, none⟩]

/-- `doc/_src_docs/sampling_methods/full_factorial.rst` 38-63. -/
def docFullFactorial : List DocRow :=
  [⟨"xlimits", .none, none, (some [.ndarray])⟩,
   ⟨"weights", .none, none, (some [.list, .ndarray])⟩,
   ⟨"clip", .bool false, none, (some [.bool])⟩]

/-- `doc/_src_docs/sampling_methods/lhs.rst` 55-80. -/
def docLHS : List DocRow :=
  [⟨"xlimits", .none, none, (some [.ndarray])⟩,
   ⟨"criterion", .str "c", (some [.str "center", .str "maximin", .str "centermaximin", .str "correlation", .str "c", .str "m", .str "cm", .str "corr", .str "ese"]), (some [.str])⟩,
   ⟨"random_state", .none, none, (some [.noneType, .int, .randomState])⟩]

/-- `doc/_src_docs/sampling_methods/random.rst` 40-55. -/
def docRandom : List DocRow :=
  [⟨"xlimits", .none, none, (some [.ndarray])⟩]

/-- All tables. -/
def docTables : List (Cls × List DocRow) :=
  [(.GEKPLS, docGEKPLS),
   (.KRG, docKRG),
   (.IDW, docIDW),
   (.GENN, docGENN),
   (.KPLS, docKPLS),
   (.MGP, docMGP),
   (.KPLSK, docKPLSK),
   (.LS, docLS),
   (.RBF, docRBF),
   (.RMTB, docRMTB),
   (.RMTC, docRMTC),
   (.QP, docQP),
   (.Sphere, docSphere),
   (.TensorProduct, docTensorProduct),
   (.RobotArm, docRobotArm),
   (.Rosenbrock, docRosenbrock),
   (.WeldedBeam, docWeldedBeam),
   (.WaterFlow, docWaterFlow),
   (.WingWeight, docWingWeight),
   (.TorsionVibration, docTorsionVibration),
   (.Branin, docBranin),
   (.LpNorm, docLpNorm),
   (.CantileverBeam, docCantileverBeam),
   (.EGO, docEGO),
   (.MFKPLSK, docMFKPLSK),
   (.MFKPLS, docMFKPLS),
   (.MFK, docMFK),
   (.VFM, docVFM),
   (.MOE, docMOE),
   (.FullFactorial, docFullFactorial),
   (.LHS, docLHS),
   (.Random, docRandom)]

end SMT.Tables
