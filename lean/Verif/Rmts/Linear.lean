import Verif.Rmts.Train
import Verif.Solvers.Cg

/-!
# Model of the training of RMTB and RMTC with the linear solver chosen by name

`smt/surrogate_models/rmts.py` 292-385, 542-586 with `smt/utils/linear_solvers.py`. `Train.lean` takes the linear solver as an exact function of matrix and right-hand side; here it is the one the option
selects, it writes into the column `d_sol[:, ind_y]` (which it also reads: iterative solvers start from the previous direction), and it may raise. Exact arithmetic; SciPy's sparse LU is an exact solve
that raises for a singular matrix, Cholesky and incomplete LU are parameters.
-/
set_option linter.unusedSectionVars false
set_option linter.unusedSimpArgs false
set_option linter.unusedVariables false

namespace SMT.Rmts
open Matrix SMT.Solvers

variable {K : Type} [Field K] [LinearOrder K] {n ny : ℕ}

/-- How a training can fail: an assertion, an attribute that does not exist, a factorisation that fails, a line search that raises, returns `None` or does not end. `notReached` is for solvers that no
name selects. -/
inductive LErr
  | assertion
  | attribute
  | linalg
  | search
  | notReached
  deriving DecidableEq, Repr

/-- `scipy.linalg.cholesky` (upper factor; `none`: not positive definite) and `scipy.sparse.linalg.spilu`. -/
structure LinLib (K : Type) where
  chol : (n : ℕ) → Matrix (Fin n) (Fin n) K → Option (Matrix (Fin n) (Fin n) K)
  ilu : (n : ℕ) → Matrix (Fin n) (Fin n) K → Option ((Fin n → K) → Fin n → K)

/-- Option `atol` of `KrylovSolver`, `linear_solvers.py` 238, which is passed to SciPy as `tol`. -/
def cgTol : K := 1 / 10 ^ 15

/-- Option `ilimit` of `KrylovSolver`, `linear_solvers.py` 237. -/
def cgLimit : ℕ := 100

/-- Options `damping` and `ilimit` of `StationarySolver`, `linear_solvers.py` 320-321. -/
def statDamping : K := 1
def statLimit : ℕ := 10

/-- `KrylovSolver._setup`, `linear_solvers.py` 241-257: the preconditioner as a matrix. Without operators multigrid is a direct solve (427-455, 501-537). -/
noncomputable def pcMatrix (A : Matrix (Fin n) (Fin n) K) : Option Solver → Except LErr (Matrix (Fin n) (Fin n) K)
  | none => .ok 1
  | some (.direct alg) => if alg = "lu" then (if A.det = 0 then .error .linalg else .ok A⁻¹) else .error .notReached
  | some .multigrid => if A.det = 0 then .error .linalg else .ok A⁻¹
  | some _ => .error .notReached

/-- `solver._setup(mtx, printer); solver._solve(rhs, sol)`, `rmts.py` 330-333 and 570-578, for a sparse matrix `A`, right-hand side `b` and the array `d` the solution is written to; returns what the array
holds afterwards. `contig` says whether the array is contiguous in memory (only then does `DenseCholeskySolver` write its result into it, `linear_solvers.py` 149-163). `DenseLUSolver` asserts a dense
matrix (171); `NullSolver` has no `_solve` of its own (115, 132-134); an unknown name gives Python's `None`. -/
noncomputable def direction (L : LinLib K) (name : String) (contig : Bool) (A : Matrix (Fin n) (Fin n) K) (b d : Fin n → K) : Except LErr (Fin n → K) :=
  match getSolver name with
  | none => .error .attribute
  | some .denseLU => .error .assertion
  | some .denseChol =>
    match L.chol n A with
    | none => .error .linalg
    | some U => .ok (denseChol contig U b)
  | some (.krylov pc) => (pcMatrix A (preconditioner pc)).map fun M => cg A M cgTol cgLimit b d
  | some (.direct alg) =>
    if alg = "ilu" then
      match L.ilu n A with
      | none => .error .linalg
      | some f => .ok (f b)
    else if A.det = 0 then .error .linalg else .ok (directSolve A b)
  | some (.stationary kind) => if kind = "gs" ∧ ∃ i, A i i = 0 then .error .linalg else .ok (stationary kind A statDamping statLimit b (some d))
  | some .multigrid => if A.det = 0 then .error .linalg else .ok (Hier.solve nullSmoother 0 (Hier.setup A .nil) b).2
  | some .null => .ok d

/-- What is called in the Newton loop: matrix, right-hand side, content of the array `d_sol[:, ind_y]`. -/
abbrev Dir (K : Type) (n : ℕ) := Matrix (Fin n) (Fin n) K → (Fin n → K) → (Fin n → K) → Except LErr (Fin n → K)

/-- The `while` loop of `_run_newton_solver` for one output, `rmts.py` 317-353, as `loopOut` but with the array `d` handed on from pass to pass. -/
def loopW (H : Fin n → Fin n → K) (bs : List (Block K n)) (p : ℕ) (tol : K) (dir : Dir K n) (ls : Search K n) :
    ℕ → (Fin n → K) → (Fin n → K) → Option (Fin n → Fin n → K) → Except LErr ((Fin n → K) × Option (Fin n → Fin n → K))
  | 0, sol, _, m => .ok (sol, m)
  | it + 1, sol, d, m =>
    if tol ^ 2 < ∑ i, optGrad H bs p sol i ^ 2 then
      match dir (Matrix.of (optHess H bs p sol)) (fun i => -optGrad H bs p sol i) d with
      | .error e => .error e
      | .ok d' =>
        match ls (optFunc H bs p) (optGrad H bs p) sol d' with
        | none => .error .search
        | some s => loopW H bs p tol dir ls it s d' (some (optHess H bs p sol))
    else .ok (sol, m)

/-- `_run_newton_solver`, `rmts.py` 292-353: the outputs one after the other; `d_sol` is a new array of zeros (303). -/
def runW (H : Fin n → Fin n → K) (bs : List (MBlock K n ny)) (p maxiter : ℕ) (tol : K) (dir : Dir K n) (ls : Search K n) (st : NSt K n ny) : Except LErr (NSt K n ny) :=
  (List.finRange ny).foldlM (fun (st : NSt K n ny) l =>
    (loopW H (outs bs l) p tol dir ls maxiter (st.sol l) (fun _ => 0) st.mtx).map fun r => (⟨Function.update st.sol l r.1, r.2⟩ : NSt K n ny)) st

/-- `_solve`, `_new_train` and `_train` of a new object without caching, `rmts.py` 355-450, as `trainAll`. -/
def trainW (H : Fin n → Fin n → K) (bs : List (MBlock K n ny)) (p maxiter : ℕ) (tol : K) (dir : Dir K n) (ls : Search K n) :
    Except LErr ((Fin ny → Fin n → K) × (Fin n → Fin n → K)) :=
  match runW H bs 2 1 tol dir ls ⟨fun _ _ => 0, none⟩ with
  | .error e => .error e
  | .ok st =>
    match runW H bs p maxiter tol dir ls st with
    | .error e => .error e
    | .ok st =>
      match st.mtx with
      | none => .error .attribute
      | some m => .ok (st.sol, m)

/-- Training with the solver `name`. `d_sol[:, ind_y]` is a column of a C-ordered array with `ny` columns and `n` rows (`rmts.py` 303, 333): contiguous only if there is one column, or at most one row. -/
noncomputable def trainNamed (L : LinLib K) (name : String) (H : Fin n → Fin n → K) (bs : List (MBlock K n ny)) (p maxiter : ℕ) (tol : K) (ls : Search K n) :
    Except LErr ((Fin ny → Fin n → K) × (Fin n → Fin n → K)) :=
  trainW H bs p maxiter tol (direction L name (decide (ny = 1 ∨ n ≤ 1))) ls

/-- `_predict_output_derivatives`, `rmts.py` 542-586, as `outputDeriv`, with the solver `name` of the option `derivative_solver`; `dw_dyt[:, ind_t, ind_y]` (573-578) is a vector of zeros, a slice of an array
of shape `(nw, nt, ny)`. -/
noncomputable def outputDerivNamed (L : LinLib K) (name : String) (row : Fin n → K) (p : ℕ) (sol : Fin ny → Fin n → K) (mtx : Fin n → Fin n → K) (b : MBlock K n ny) (r : Fin b.nt) (l : Fin ny) :
    Except LErr K :=
  (direction L name (decide (b.nt * ny = 1 ∨ n ≤ 1)) (Matrix.of mtx) (fun i => optDgradDyt (b.out l) p (sol l) i r) (fun _ => 0)).map
    fun x => ∑ j, row j * (x j * (-1))

end SMT.Rmts
