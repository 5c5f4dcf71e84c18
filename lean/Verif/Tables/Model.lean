import Mathlib.Algebra.Order.Field.Rat
import Verif.Options.Model
/-!
# The option tables of the library and the constructors that fill them

`smt/utils/options_dictionary.py` over a concrete Python universe, and the `declare` calls of 41 classes of `smt`, transcribed from
the source by a script (each table cites its lines).

Simplifications: floats are exact rationals (no NaN, a decimal literal stands for itself); the contents of lists, tuples, dicts and
arrays are abstracted to a printed form, which only serves to tell values apart; comparing an array with a member of a `values`
list raises (`ValueError`, truth value of an array) whatever the member is (for string members the outcome depends on the NumPy
version; the assignment fails either way); NumPy strings are not distinguished from Python strings.
-/
namespace SMT.Tables

/-- Classes of objects that appear as option values. -/
inductive ObjCls where
  | krg | kpls | kplsk | gekpls | mgp | linearSolver | lineSearch | evaluator | randomState | surrogateClass | other
deriving DecidableEq, Repr

/-- Python values. `npint`/`npbool` are NumPy scalars (`np.int64`, `np.bool_`), which are not instances of `int`/`bool`;
`np.float64` is a `float`. -/
inductive PyVal where
  | none
  | bool (b : Bool)
  | int (z : ℤ)
  | npint (z : ℤ)
  | npbool (b : Bool)
  | float (q : ℚ)
  | str (s : String)
  | list (repr : String)
  | tuple (repr : String)
  | dict (repr : String)
  | ndarray (repr : String)
  | func (id : ℕ)
  | obj (c : ObjCls) (id : ℕ)
deriving DecidableEq

/-- The types used in `types=`. -/
inductive PyType where
  | bool | int | float | str | list | tuple | dict | ndarray | integral | noneType | randomState | function | object
  | linearSolver | lineSearch | evaluator | krg | kpls | kplsk | mgp
deriving DecidableEq, Repr

/-- `isinstance(v, t)`.  `bool` is a subclass of `int`; `numbers.Integral` covers `int`, `bool` and NumPy integers; `KPLSK` and
`GEKPLS` are subclasses of `KPLS` (`kplsk.py` 11, `gekpls.py` 12), the other kriging classes are siblings. -/
def isinst : PyVal → PyType → Bool
  | _, .object => true
  | .bool _, .bool => true
  | .bool _, .int => true
  | .bool _, .integral => true
  | .int _, .int => true
  | .int _, .integral => true
  | .npint _, .integral => true
  | .float _, .float => true
  | .str _, .str => true
  | .list _, .list => true
  | .tuple _, .tuple => true
  | .dict _, .dict => true
  | .ndarray _, .ndarray => true
  | .none, .noneType => true
  | .func _, .function => true
  | .obj .randomState _, .randomState => true
  | .obj .linearSolver _, .linearSolver => true
  | .obj .lineSearch _, .lineSearch => true
  | .obj .evaluator _, .evaluator => true
  | .obj .krg _, .krg => true
  | .obj .kpls _, .kpls => true
  | .obj .kplsk _, .kpls => true
  | .obj .gekpls _, .kpls => true
  | .obj .kplsk _, .kplsk => true
  | .obj .mgp _, .mgp => true
  | _, _ => false

/-- The number a value compares as (`True == 1 == 1.0`). -/
def num? : PyVal → Option ℚ
  | .bool b => some (if b then 1 else 0)
  | .npbool b => some (if b then 1 else 0)
  | .int z => some z
  | .npint z => some z
  | .float q => some q
  | _ => none

/-- Python `a == b` on the values above (arrays excepted, see `inSeq`). -/
def pyEq (a b : PyVal) : Bool :=
  match num? a, num? b with
  | some x, some y => decide (x = y)
  | _, _ => decide (a = b)

/-- Exceptions. -/
inductive Err where
  | assertion | type | value | key
deriving DecidableEq, Repr

/-- The `values=` argument: a list or tuple, or (a parenthesised string, `kplsk.py` 21, `mfkplsk.py` 25) a string. -/
inductive Values where
  | seq (l : List PyVal)
  | text (s : String)

/-- `s` occurs in `t` (Python `s in t` on strings). -/
def isSub (s t : List Char) : Bool :=
  t.tails.any fun u => s.isPrefixOf u

/-- `value in values`. -/
def inValues (v : PyVal) : Values → Except Err Bool
  | .seq [] => .ok false
  | .seq (w :: l) =>
    match v with
    | .ndarray _ => .error .value
    | _ => .ok ((w :: l).any (pyEq v))
  | .text t =>
    match v with
    | .str s => .ok (isSub s.toList t.toList)
    | _ => .error .type

/-- The arguments of a `declare` call (`desc` dropped). -/
structure Decl where
  name : String
  default : PyVal
  values : Option Values
  types : Option (List PyType)

/-- `isinstance(value, types)` with a tuple of types. -/
def isinstAny (v : PyVal) (ts : List PyType) : Bool := ts.any (isinst v)

/-- `assert b`. -/
def pyAssert (b : Bool) : Except Err Unit := if b then .ok () else .error .assertion

/-- `OptionsDictionary._assert_valid`, `options_dictionary.py` 80-103 (`or` short-circuits). -/
def assertValid (d : Decl) (v : PyVal) : Except Err Unit :=
  match d.values, d.types with
  | some vs, some ts => do
      let b ← inValues v vs
      pyAssert (b || isinstAny v ts)
  | some vs, none => do
      let b ← inValues v vs
      pyAssert b
  | none, some ts => pyAssert (isinstAny v ts)
  | none, none => .ok ()

/-- The object: `_dict` and `_declared_entries`, `options_dictionary.py` 20-22. -/
structure OptDict where
  dict : String → Option PyVal
  entries : String → Option Decl

/-- `__init__`, `options_dictionary.py` 20-22. -/
def OptDict.empty : OptDict := ⟨fun _ => none, fun _ => none⟩

/-- `declare`, `options_dictionary.py` 117-149. -/
def OptDict.declare (s : OptDict) (d : Decl) : Except Err OptDict := do
  let s : OptDict := { s with entries := Options.put s.entries d.name d }
  if d.default ≠ .none then
    assertValid d d.default
  pure { s with dict := Options.put s.dict d.name d.default }

/-- `__setitem__`, `options_dictionary.py` 54-72. -/
def OptDict.set (s : OptDict) (n : String) (v : PyVal) : Except Err OptDict :=
  match s.entries n with
  | none => .error .assertion
  | some d => do
      assertValid d v
      pure { s with dict := Options.put s.dict n v }

/-- `update`, `options_dictionary.py` 105-115. -/
def OptDict.update (s : OptDict) : List (String × PyVal) → Except Err OptDict
  | [] => .ok s
  | (n, v) :: l => do
      let s ← s.set n v
      s.update l

/-- A sequence of `declare` calls. -/
def OptDict.declareAll (s : OptDict) : List Decl → Except Err OptDict
  | [] => .ok s
  | d :: l => do
      let s ← s.declare d
      s.declareAll l

/-- The `declare` calls of `SurrogateModel`, `smt/surrogate_models/surrogate_model.py` 65-91. -/
def declSurrogateModel : List Decl :=
  [⟨"print_global", .bool true, none, (some [.bool])⟩,
   ⟨"print_training", .bool true, none, (some [.bool])⟩,
   ⟨"print_prediction", .bool true, none, (some [.bool])⟩,
   ⟨"print_problem", .bool true, none, (some [.bool])⟩,
   ⟨"print_solver", .bool true, none, (some [.bool])⟩]

/-- The `declare` calls of `KrgBased`, `smt/surrogate_models/krg_based.py` 44-109. -/
def declKrgBased : List Decl :=
  [⟨"poly", .str "constant", (some (.seq [.str "constant", .str "linear", .str "quadratic"])), (some [.str])⟩,
   ⟨"corr", .str "squar_exp", (some (.seq [.str "abs_exp", .str "squar_exp", .str "act_exp", .str "matern52", .str "matern32"])), (some [.str])⟩,
   ⟨"nugget", .float (100 / 2 ^ 52), none, (some [.float])⟩,
   ⟨"theta0", .list "[0.01]", none, (some [.list, .ndarray])⟩,
   ⟨"theta_bounds", .list "[1e-06, 20.0]", none, (some [.list, .ndarray])⟩,
   ⟨"hyper_opt", .str "Cobyla", (some (.seq [.str "Cobyla", .str "TNC"])), (some [.str])⟩,
   ⟨"eval_noise", .bool false, (some (.seq [.bool true, .bool false])), (some [.bool])⟩,
   ⟨"noise0", .list "[0.0]", none, (some [.list, .ndarray])⟩,
   ⟨"noise_bounds", .list "[100.0 * np.finfo(np.double).eps, 10000000000.0]", none, (some [.list, .ndarray])⟩,
   ⟨"use_het_noise", .bool false, (some (.seq [.bool true, .bool false])), (some [.bool])⟩]

/-- The `declare` calls of `KPLS`, `smt/surrogate_models/kpls.py` 25-33. -/
def declKPLS : List Decl :=
  [⟨"n_comp", .int 1, none, (some [.int])⟩,
   ⟨"corr", .str "squar_exp", (some (.seq [.str "abs_exp", .str "squar_exp"])), (some [.str])⟩]

/-- The `declare` calls of `KPLSK`, `smt/surrogate_models/kplsk.py` 18-24. -/
def declKPLSK : List Decl :=
  [⟨"corr", .str "squar_exp", (some (.text "squar_exp")), (some [.str])⟩]

/-- The `declare` calls of `GEKPLS`, `smt/surrogate_models/gekpls.py` 19-37. -/
def declGEKPLS : List Decl :=
  [⟨"corr", .str "squar_exp", (some (.seq [.str "abs_exp", .str "squar_exp"])), (some [.str])⟩,
   ⟨"xlimits", .none, none, (some [.ndarray])⟩,
   ⟨"delta_x", .float (1 / 10000), none, (some [.int, .float])⟩,
   ⟨"extra_points", .int 0, none, (some [.int])⟩]

/-- The `declare` calls of `MGP`, `smt/surrogate_models/krg_mgp.py` 30-36. -/
def declMGP : List Decl :=
  [⟨"n_comp", .int 1, none, (some [.int])⟩,
   ⟨"prior", .dict "{'mean': [0.0], 'var': 5.0 / 4.0}", none, (some [.dict])⟩]

/-- The `declare` calls of `RBF`, `smt/surrogate_models/rbf.py` 29-54. -/
def declRBF : List Decl :=
  [⟨"d0", .float 1, none, (some [.int, .float, .list, .ndarray])⟩,
   ⟨"poly_degree", .int (-1), (some (.seq [.int (-1), .int 0, .int 1])), (some [.int])⟩,
   ⟨"data_dir", .none, none, (some [.str])⟩,
   ⟨"reg", .float (1 / 10000000000), none, (some [.int, .float])⟩,
   ⟨"max_print_depth", .int 5, none, (some [.int])⟩]

/-- The `declare` calls of `IDW`, `smt/surrogate_models/idw.py` 32-38. -/
def declIDW : List Decl :=
  [⟨"p", .float (5 / 2), none, (some [.int, .float])⟩,
   ⟨"data_dir", .none, none, (some [.str])⟩]

/-- The `declare` calls of `LS`, `smt/surrogate_models/ls.py` 32-37. -/
def declLS : List Decl :=
  [⟨"data_dir", .none, none, (some [.str])⟩]

/-- The `declare` calls of `QP`, `smt/surrogate_models/qp.py` 29-34. -/
def declQP : List Decl :=
  [⟨"data_dir", .none, none, (some [.str])⟩]

/-- The `declare` calls of `RMTS`, `smt/surrogate_models/rmts.py` 28-125. -/
def declRMTS : List Decl :=
  [⟨"xlimits", .none, none, (some [.ndarray])⟩,
   ⟨"smoothness", .float 1, none, (some [.integral, .float, .tuple, .list, .ndarray])⟩,
   ⟨"regularization_weight", .float (1 / 100000000000000), none, (some [.integral, .float])⟩,
   ⟨"energy_weight", .float (1 / 10000), none, (some [.integral, .float])⟩,
   ⟨"extrapolate", .bool false, none, (some [.bool])⟩,
   ⟨"min_energy", .bool true, none, (some [.bool])⟩,
   ⟨"approx_order", .int 4, none, (some [.integral])⟩,
   ⟨"solver", .str "krylov", (some (.seq [.str "krylov-dense", .str "dense-lu", .str "dense-chol", .str "lu", .str "ilu", .str "krylov", .str "krylov-lu", .str "krylov-mg", .str "gs", .str "jacobi", .str "mg", .str "null"])), (some [.linearSolver])⟩,
   ⟨"derivative_solver", .str "krylov", (some (.seq [.str "krylov-dense", .str "dense-lu", .str "dense-chol", .str "lu", .str "ilu", .str "krylov", .str "krylov-lu", .str "krylov-mg", .str "gs", .str "jacobi", .str "mg", .str "null"])), (some [.linearSolver])⟩,
   ⟨"grad_weight", .float (1 / 2), none, (some [.integral, .float])⟩,
   ⟨"solver_tolerance", .float (1 / 1000000000000), none, (some [.integral, .float])⟩,
   ⟨"nonlinear_maxiter", .int 10, none, (some [.integral])⟩,
   ⟨"line_search", .str "backtracking", (some (.seq [.str "backtracking", .str "bracketed", .str "quadratic", .str "cubic", .str "null"])), (some [.lineSearch])⟩,
   ⟨"save_energy_terms", .bool false, none, (some [.bool])⟩,
   ⟨"data_dir", .none, (some (.seq [.none])), (some [.str])⟩,
   ⟨"max_print_depth", .int 5, none, (some [.integral])⟩]

/-- The `declare` calls of `RMTB`, `smt/surrogate_models/rmtb.py` 45-56. -/
def declRMTB : List Decl :=
  [⟨"order", .int 3, none, (some [.integral, .tuple, .list, .ndarray])⟩,
   ⟨"num_ctrl_pts", .int 15, none, (some [.integral, .tuple, .list, .ndarray])⟩]

/-- The `declare` calls of `RMTC`, `smt/surrogate_models/rmtc.py` 44-49. -/
def declRMTC : List Decl :=
  [⟨"num_elements", .int 4, none, (some [.integral, .list, .ndarray])⟩]

/-- The `declare` calls of `GENN`, `smt/surrogate_models/genn.py` 119-153. -/
def declGENN : List Decl :=
  [⟨"alpha", .float (1 / 2), none, (some [.int, .float])⟩,
   ⟨"beta1", .float (9 / 10), none, (some [.int, .float])⟩,
   ⟨"beta2", .float (99 / 100), none, (some [.int, .float])⟩,
   ⟨"lambd", .float (1 / 10), none, (some [.int, .float])⟩,
   ⟨"gamma", .float 1, none, (some [.int, .float])⟩,
   ⟨"deep", .int 2, none, (some [.int])⟩,
   ⟨"wide", .int 2, none, (some [.int])⟩,
   ⟨"mini_batch_size", .int 64, none, (some [.int])⟩,
   ⟨"num_epochs", .int 10, none, (some [.int])⟩,
   ⟨"num_iterations", .int 100, none, (some [.int])⟩,
   ⟨"seed", .none, none, (some [.int])⟩,
   ⟨"is_print", .bool true, none, (some [.bool])⟩]

/-- The `declare` calls of `MFK`, `smt/applications/mfk.py` 112-124. -/
def declMFK : List Decl :=
  [⟨"rho_regr", .str "constant", (some (.seq [.str "constant", .str "linear", .str "quadratic"])), none⟩,
   ⟨"optim_var", .bool false, (some (.seq [.bool true, .bool false])), (some [.bool])⟩]

/-- The `declare` calls of `MFKPLS`, `smt/applications/mfkpls.py` 36-43. -/
def declMFKPLS : List Decl :=
  [⟨"corr", .str "squar_exp", (some (.seq [.str "abs_exp", .str "squar_exp"])), (some [.str])⟩,
   ⟨"n_comp", .int 1, none, (some [.int])⟩]

/-- The `declare` calls of `MFKPLSK`, `smt/applications/mfkplsk.py` 22-28. -/
def declMFKPLSK : List Decl :=
  [⟨"corr", .str "squar_exp", (some (.text "squar_exp")), (some [.str])⟩]

/-- The `declare` calls of `EGO`, `smt/applications/ego.py` 55-124. -/
def declEGO : List Decl :=
  [⟨"fun", .none, none, (some [.function])⟩,
   ⟨"criterion", .str "EI", (some (.seq [.str "EI", .str "SBO", .str "UCB"])), (some [.str])⟩,
   ⟨"n_iter", .none, none, (some [.int])⟩,
   ⟨"n_max_optim", .int 20, none, (some [.int])⟩,
   ⟨"n_start", .int 20, none, (some [.int])⟩,
   ⟨"n_parallel", .int 1, none, (some [.int])⟩,
   ⟨"qEI", .str "KBLB", (some (.seq [.str "KB", .str "KBLB", .str "KBUB", .str "KBRand", .str "CLmin"])), (some [.str])⟩,
   ⟨"evaluator", .obj .evaluator 0, none, (some [.evaluator])⟩,
   ⟨"n_doe", .none, none, (some [.int])⟩,
   ⟨"xdoe", .none, none, (some [.ndarray])⟩,
   ⟨"ydoe", .none, none, (some [.ndarray])⟩,
   ⟨"xlimits", .none, none, (some [.ndarray])⟩,
   ⟨"verbose", .bool false, none, (some [.bool])⟩,
   ⟨"enable_tunneling", .bool false, none, (some [.bool])⟩,
   ⟨"surrogate", .obj .krg 0, none, (some [.krg, .kpls, .kplsk, .mgp])⟩,
   ⟨"xtypes", .none, none, (some [.list])⟩,
   ⟨"random_state", .none, none, (some [.noneType, .int, .randomState])⟩]

/-- The `declare` calls of `MOE`, `smt/applications/moe.py` 105-151. -/
def declMOE : List Decl :=
  [⟨"xt", .none, none, (some [.ndarray])⟩,
   ⟨"yt", .none, none, (some [.ndarray])⟩,
   ⟨"ct", .none, none, (some [.ndarray])⟩,
   ⟨"xtest", .none, none, (some [.ndarray])⟩,
   ⟨"ytest", .none, none, (some [.ndarray])⟩,
   ⟨"n_clusters", .int 2, none, (some [.int])⟩,
   ⟨"smooth_recombination", .bool true, none, (some [.bool])⟩,
   ⟨"heaviside_optimization", .bool false, none, (some [.bool])⟩,
   ⟨"derivatives_support", .bool false, none, (some [.bool])⟩,
   ⟨"variances_support", .bool false, none, (some [.bool])⟩,
   ⟨"allow", .list "[]", none, none⟩,
   ⟨"deny", .list "[]", none, none⟩]

/-- The `declare` calls of `VFM`, `smt/applications/vfm.py` 23-71. -/
def declVFM : List Decl :=
  [⟨"name_model_LF", .none, (some (.seq [.str "KRG", .str "LS", .str "QP", .str "KPLS", .str "KPLSK", .str "GEKPLS", .str "RBF", .str "RMTC", .str "RMTB", .str "IDW"])), (some [.object])⟩,
   ⟨"options_LF", .dict "{}", none, (some [.dict])⟩,
   ⟨"name_model_bridge", .none, (some (.seq [.str "KRG", .str "LS", .str "QP", .str "KPLS", .str "KPLSK", .str "GEKPLS", .str "RBF", .str "RMTC", .str "RMTB", .str "IDW"])), (some [.object])⟩,
   ⟨"options_bridge", .dict "{}", none, (some [.dict])⟩,
   ⟨"type_bridge", .str "Additive", (some (.seq [.str "Additive", .str "Multiplicative"])), (some [.str])⟩,
   ⟨"X_LF", .none, none, (some [.ndarray])⟩,
   ⟨"y_LF", .none, none, (some [.ndarray])⟩,
   ⟨"X_HF", .none, none, (some [.ndarray])⟩,
   ⟨"y_HF", .none, none, (some [.ndarray])⟩,
   ⟨"dy_LF", .none, none, (some [.ndarray])⟩,
   ⟨"dy_HF", .none, none, (some [.ndarray])⟩]

/-- The `declare` calls of `SamplingMethod`, `smt/sampling_methods/sampling_method.py` 33-37. -/
def declSamplingMethod : List Decl :=
  [⟨"xlimits", .none, none, (some [.ndarray])⟩]

/-- The `declare` calls of `LHS`, `smt/sampling_methods/lhs.py` 17-39. -/
def declLHS : List Decl :=
  [⟨"criterion", .str "c", (some (.seq [.str "center", .str "maximin", .str "centermaximin", .str "correlation", .str "c", .str "m", .str "cm", .str "corr", .str "ese"])), (some [.str])⟩,
   ⟨"random_state", .none, none, (some [.noneType, .int, .randomState])⟩]

/-- The `declare` calls of `FullFactorial`, `smt/sampling_methods/full_factorial.py` 15-26. -/
def declFullFactorial : List Decl :=
  [⟨"weights", .none, none, (some [.list, .ndarray])⟩,
   ⟨"clip", .bool false, none, (some [.bool])⟩]

/-- The `declare` calls of `LinearSolver`, `smt/utils/linear_solvers.py` 104-105. -/
def declLinearSolver : List Decl :=
  [⟨"print_init", .bool true, none, (some [.bool])⟩,
   ⟨"print_solve", .bool true, none, (some [.bool])⟩]

/-- The `declare` calls of `DirectSolver`, `smt/utils/linear_solvers.py` 193-193. -/
def declDirectSolver : List Decl :=
  [⟨"alg", .str "lu", (some (.seq [.str "lu", .str "ilu"])), none⟩]

/-- The `declare` calls of `KrylovSolver`, `smt/utils/linear_solvers.py` 229-239. -/
def declKrylovSolver : List Decl :=
  [⟨"interval", .int 10, none, (some [.int])⟩,
   ⟨"solver", .str "cg", (some (.seq [.str "cg", .str "bicgstab", .str "gmres"])), none⟩,
   ⟨"pc", .none, (some (.seq [.none, .str "ilu", .str "lu", .str "gs", .str "jacobi", .str "mg", .str "dense"])), (some [.linearSolver])⟩,
   ⟨"ilimit", .int 100, none, (some [.int])⟩,
   ⟨"atol", .float (1 / 1000000000000000), none, (some [.int, .float])⟩,
   ⟨"rtol", .float (1 / 1000000000000000), none, (some [.int, .float])⟩]

/-- The `declare` calls of `StationarySolver`, `smt/utils/linear_solvers.py` 318-321. -/
def declStationarySolver : List Decl :=
  [⟨"interval", .int 10, none, (some [.int])⟩,
   ⟨"solver", .str "gs", (some (.seq [.str "gs", .str "jacobi"])), none⟩,
   ⟨"damping", .float 1, none, (some [.int, .float])⟩,
   ⟨"ilimit", .int 10, none, (some [.int])⟩]

/-- The `declare` calls of `MultigridSolver`, `smt/utils/linear_solvers.py` 410-417. -/
def declMultigridSolver : List Decl :=
  [⟨"interval", .int 1, none, (some [.int])⟩,
   ⟨"mg_cycles", .int 0, none, (some [.int])⟩,
   ⟨"solver", .str "null", (some (.seq [.str "null", .str "gs", .str "jacobi", .str "krylov"])), (some [.linearSolver])⟩]

/-- The `declare` calls of `Problem`, `smt/problems/problem.py` 33-34. -/
def declProblem : List Decl :=
  [⟨"ndim", .int 1, none, (some [.int])⟩,
   ⟨"return_complex", .bool false, none, (some [.bool])⟩]

/-- The `declare` calls of `Branin`, `smt/problems/branin.py` 15-16. -/
def declBranin : List Decl :=
  [⟨"ndim", .int 2, (some (.seq [.int 2])), (some [.int])⟩,
   ⟨"name", .str "Branin", none, (some [.str])⟩]

/-- The `declare` calls of `CantileverBeam`, `smt/problems/cantilever_beam.py` 17-22. -/
def declCantileverBeam : List Decl :=
  [⟨"name", .str "CantileverBeam", none, (some [.str])⟩,
   ⟨"ndim", .int 3, none, (some [.int])⟩,
   ⟨"P", .float 50000, none, (some [.int, .float])⟩,
   ⟨"E", .float 200000000000, none, (some [.int, .float])⟩]

/-- The `declare` calls of `LpNorm`, `smt/problems/lp_norm.py` 15-16. -/
def declLpNorm : List Decl :=
  [⟨"order", .int 2, none, (some [.int])⟩,
   ⟨"name", .str "LpNorm", none, (some [.str])⟩]

/-- The `declare` calls of `RobotArm`, `smt/problems/robot_arm.py` 17-18. -/
def declRobotArm : List Decl :=
  [⟨"name", .str "RobotArm", none, (some [.str])⟩,
   ⟨"ndim", .int 2, none, (some [.int])⟩]

/-- The `declare` calls of `Rosenbrock`, `smt/problems/rosenbrock.py` 15-15. -/
def declRosenbrock : List Decl :=
  [⟨"name", .str "Rosenbrock", none, (some [.str])⟩]

/-- The `declare` calls of `Sphere`, `smt/problems/sphere.py` 16-16. -/
def declSphere : List Decl :=
  [⟨"name", .str "Sphere", none, (some [.str])⟩]

/-- The `declare` calls of `TensorProduct`, `smt/problems/tensor_product.py` 15-17. -/
def declTensorProduct : List Decl :=
  [⟨"name", .str "TP", none, (some [.str])⟩,
   ⟨"func", .none, (some (.seq [.str "cos", .str "exp", .str "tanh", .str "gaussian"])), none⟩,
   ⟨"width", .float 1, none, (some [.float, .int])⟩]

/-- The `declare` calls of `TorsionVibration`, `smt/problems/torsion_vibration.py` 19-20. -/
def declTorsionVibration : List Decl :=
  [⟨"name", .str "TorsionVibration", none, (some [.str])⟩,
   ⟨"use_FD", .bool false, none, (some [.bool])⟩]

/-- The `declare` calls of `WaterFlow`, `smt/problems/water_flow.py` 19-20. -/
def declWaterFlow : List Decl :=
  [⟨"name", .str "WaterFlow", none, (some [.str])⟩,
   ⟨"use_FD", .bool false, none, (some [.bool])⟩]

/-- The `declare` calls of `WaterFlowLFidelity`, `smt/problems/water_flow_lfidelity.py` 16-17. -/
def declWaterFlowLFidelity : List Decl :=
  [⟨"name", .str "WaterFlowLFidelity", none, (some [.str])⟩,
   ⟨"use_FD", .bool false, none, (some [.bool])⟩]

/-- The `declare` calls of `WeldedBeam`, `smt/problems/welded_beam.py` 18-19. -/
def declWeldedBeam : List Decl :=
  [⟨"name", .str "WeldedBeam", none, (some [.str])⟩,
   ⟨"use_FD", .bool false, none, (some [.bool])⟩]

/-- The `declare` calls of `WingWeight`, `smt/problems/wing_weight.py` 20-21. -/
def declWingWeight : List Decl :=
  [⟨"name", .str "WingWeight", none, (some [.str])⟩,
   ⟨"use_FD", .bool false, none, (some [.bool])⟩]

/-- The classes whose constructor takes option keywords. -/
inductive Cls where
  | KRG
  | KPLS
  | KPLSK
  | GEKPLS
  | MGP
  | RBF
  | IDW
  | LS
  | QP
  | RMTB
  | RMTC
  | GENN
  | MFK
  | MFKPLS
  | MFKPLSK
  | EGO
  | MOE
  | VFM
  | LHS
  | Random
  | FullFactorial
  | NullSolver
  | DenseLUSolver
  | DenseCholeskySolver
  | DirectSolver
  | KrylovSolver
  | StationarySolver
  | MultigridSolver
  | Problem
  | Branin
  | CantileverBeam
  | LpNorm
  | RobotArm
  | Rosenbrock
  | Sphere
  | TensorProduct
  | TorsionVibration
  | WaterFlow
  | WaterFlowLFidelity
  | WeldedBeam
  | WingWeight
deriving DecidableEq, Repr

/-- All `declare` calls executed by the constructor of a class, in order: the base-class ones first (`super()._initialize()` is the
first statement of every `_initialize`, and `SurrogateModel.__init__`, `LinearSolver.__init__`, `Problem.__init__` and
`SamplingMethod.__init__` declare before calling `_initialize`). -/
def declares : Cls → List Decl
  | .KRG => declSurrogateModel ++ declKrgBased
  | .KPLS => declSurrogateModel ++ declKrgBased ++ declKPLS
  | .KPLSK => declSurrogateModel ++ declKrgBased ++ declKPLS ++ declKPLSK
  | .GEKPLS => declSurrogateModel ++ declKrgBased ++ declKPLS ++ declGEKPLS
  | .MGP => declSurrogateModel ++ declKrgBased ++ declMGP
  | .RBF => declSurrogateModel ++ declRBF
  | .IDW => declSurrogateModel ++ declIDW
  | .LS => declSurrogateModel ++ declLS
  | .QP => declSurrogateModel ++ declQP
  | .RMTB => declSurrogateModel ++ declRMTS ++ declRMTB
  | .RMTC => declSurrogateModel ++ declRMTS ++ declRMTC
  | .GENN => declSurrogateModel ++ declGENN
  | .MFK => declSurrogateModel ++ declKrgBased ++ declMFK
  | .MFKPLS => declSurrogateModel ++ declKrgBased ++ declMFK ++ declMFKPLS
  | .MFKPLSK => declSurrogateModel ++ declKrgBased ++ declMFK ++ declMFKPLS ++ declMFKPLSK
  | .EGO => declEGO
  | .MOE => declMOE
  | .VFM => declVFM
  | .LHS => declSamplingMethod ++ declLHS
  | .Random => declSamplingMethod
  | .FullFactorial => declSamplingMethod ++ declFullFactorial
  | .NullSolver => declLinearSolver
  | .DenseLUSolver => declLinearSolver
  | .DenseCholeskySolver => declLinearSolver
  | .DirectSolver => declLinearSolver ++ declDirectSolver
  | .KrylovSolver => declLinearSolver ++ declKrylovSolver
  | .StationarySolver => declLinearSolver ++ declStationarySolver
  | .MultigridSolver => declLinearSolver ++ declMultigridSolver
  | .Problem => declProblem
  | .Branin => declProblem ++ declBranin
  | .CantileverBeam => declProblem ++ declCantileverBeam
  | .LpNorm => declProblem ++ declLpNorm
  | .RobotArm => declProblem ++ declRobotArm
  | .Rosenbrock => declProblem ++ declRosenbrock
  | .Sphere => declProblem ++ declSphere
  | .TensorProduct => declProblem ++ declTensorProduct
  | .TorsionVibration => declProblem ++ declTorsionVibration
  | .WaterFlow => declProblem ++ declWaterFlow
  | .WaterFlowLFidelity => declProblem ++ declWaterFlowLFidelity
  | .WeldedBeam => declProblem ++ declWeldedBeam
  | .WingWeight => declProblem ++ declWingWeight

/-- Assignments made by `_initialize` after the declarations: `krg_mgp.py` 37-38; `torsion_vibration.py` 21, `water_flow.py` 21,
`water_flow_lfidelity.py` 18, `welded_beam.py` 20, `wing_weight.py` 22. -/
def presets : Cls → List (String × PyVal)
  | .MGP => [("hyper_opt", .str "TNC"), ("corr", .str "act_exp")]
  | .TorsionVibration => [("ndim", .int 15)]
  | .WaterFlow => [("ndim", .int 8)]
  | .WaterFlowLFidelity => [("ndim", .int 8)]
  | .WeldedBeam => [("ndim", .int 3)]
  | .WingWeight => [("ndim", .int 10)]
  | _ => []

/-- The options part of the constructor: declarations, assignments of `_initialize`, then `self.options.update(kwargs)`
(`surrogate_model.py` 53-93, `application.py` 63-66, `sampling_method.py` 32-39, `linear_solvers.py` 103-107, `problem.py` 32-36). -/
def construct (c : Cls) (kw : List (String × PyVal)) : Except Err OptDict := do
  let s ← OptDict.empty.declareAll (declares c)
  let s ← s.update (presets c)
  s.update kw

/-- The dimension checks made after the options are set: `np.zeros((ndim, 2))` (`problem.py` 38, negative sizes raise `ValueError`,
a `bool` size counts as 0 or 1) and the `assert` of `_setup` (`branin.py` 19, `cantilever_beam.py` 25, `robot_arm.py` 21,
`torsion_vibration.py` 24, `water_flow.py` 24, `water_flow_lfidelity.py` 21, `welded_beam.py` 23, `wing_weight.py` 25). -/
def dimCheck (c : Cls) (n : ℤ) : Except Err Unit :=
  if n < 0 then .error .value else
  match c with
  | .Branin => pyAssert (n == 2)
  | .CantileverBeam => pyAssert (n % 3 == 0)
  | .RobotArm => pyAssert (n % 2 == 0)
  | .TorsionVibration => pyAssert (n == 15)
  | .WaterFlow => pyAssert (n == 8)
  | .WaterFlowLFidelity => pyAssert (n == 8)
  | .WeldedBeam => pyAssert (n == 3)
  | .WingWeight => pyAssert (n == 10)
  | _ => .ok ()

/-- The integer an `int`-typed option holds. -/
def asInt? : PyVal → Option ℤ
  | .int z => some z
  | .bool b => some (if b then 1 else 0)
  | _ => none

/-- The constructor of a problem class up to the dimension checks, `problem.py` 32-40 (the rest of `_setup`, which fills in the
bounds, is not modelled here). -/
def mkProblem (c : Cls) (kw : List (String × PyVal)) : Except Err OptDict := do
  let s ← construct c kw
  match (s.dict "ndim").bind asInt? with
  | none => .error .type
  | some n => do
      dimCheck c n
      pure s

/-- `_regression_types[name]`, `krg_based.py` 28 (the functions abstracted to their names). -/
def regressionType (s : String) : Except Err String :=
  if s ∈ ["constant", "linear", "quadratic"] then .ok s else .error .key

/-- `_correlation_types[name]`, `krg_based.py` 30-36. -/
def correlationType (s : String) : Except Err String :=
  if s ∈ ["abs_exp", "squar_exp", "act_exp", "matern52", "matern32"] then .ok s else .error .key

/-- `get_line_search_class`, `line_search.py` 13-23; falling off the end returns Python's `None`. -/
def lineSearchClass (v : PyVal) : Option String :=
  if pyEq v (.str "backtracking") then some "BacktrackingLineSearch"
  else if pyEq v (.str "bracketed") then some "BracketedLineSearch"
  else if pyEq v (.str "quadratic") then some "QuadraticLineSearch"
  else if pyEq v (.str "cubic") then some "CubicLineSearch"
  else if pyEq v (.str "null") then some "NullLineSearch"
  else none

end SMT.Tables
