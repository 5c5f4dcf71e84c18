import Verif.Common.Tri
import Mathlib.LinearAlgebra.Matrix.NonsingularInverse

/-!
# Model of `smt/utils/linear_solvers.py`

Exact field arithmetic; sparse matrices are functions. The SciPy factorisations (`lu_factor`, `splu`) are exact solves (`A⁻¹`), the Cholesky
factor is a parameter. The Krylov iterations (`scipy.sparse.linalg.cg`) are in `Cg.lean`; here only which preconditioner they get.
Printing and the residual norms that are only printed are left out.
-/
namespace SMT.Solvers

/-! ## Selection -/

/-- The solver objects. `pc` is the value of the option given to `KrylovSolver`; the other options have their defaults. -/
inductive Solver where
  | denseLU
  | denseChol
  | krylov (pc : Option String)
  | direct (alg : String)
  | stationary (kind : String)
  | multigrid
  | null
  deriving DecidableEq, Repr

/-- `VALID_SOLVERS`, `linear_solvers.py` 14-27. -/
def validSolvers : List String :=
  ["krylov-dense", "dense-lu", "dense-chol", "lu", "ilu", "krylov", "krylov-lu", "krylov-mg", "gs", "jacobi", "mg", "null"]

/-- `get_solver`, `linear_solvers.py` 30-54, for strings (`None` and unknown strings both fall through to `None`; a solver object is returned
as it is, not modelled). -/
def getSolver (s : String) : Option Solver :=
  if s = "dense-lu" then some .denseLU
  else if s = "dense-chol" then some .denseChol
  else if s = "krylov-dense" then some (.krylov (some "dense"))
  else if s = "lu" ∨ s = "ilu" then some (.direct s)
  else if s = "krylov" then some (.krylov none)
  else if s = "krylov-lu" then some (.krylov (some "lu"))
  else if s = "krylov-mg" then some (.krylov (some "mg"))
  else if s = "gs" ∨ s = "jacobi" then some (.stationary s)
  else if s = "mg" then some .multigrid
  else if s = "null" then some .null
  else none

/-- `pc_solver = get_solver(self.options["pc"])`, `linear_solvers.py` 241-251: the preconditioner used by a Krylov solver. -/
def preconditioner (pc : Option String) : Option Solver := pc.bind getSolver

/-- `LinearSolver._clone`, `linear_solvers.py` 118-121: a new object of the class, updated with *its own* options, i.e. with the
class defaults (the option defaults are at 189, 221-231, 318-320). -/
def clone : Solver → Solver
  | .denseLU => .denseLU
  | .denseChol => .denseChol
  | .krylov _ => .krylov none
  | .direct _ => .direct "lu"
  | .stationary _ => .stationary "gs"
  | .multigrid => .multigrid
  | .null => .null

variable {K : Type} [Field K] {n : ℕ}

/-! ## Direct solvers -/

/-- `DenseLUSolver`, `DirectSolver(alg="lu")`, `linear_solvers.py` 166-224: solve with the (exact) factorisation. -/
noncomputable def directSolve (A : Matrix (Fin n) (Fin n) K) (rhs : Fin n → K) : Fin n → K := A⁻¹.mulVec rhs

/-- `DenseCholeskySolver._solve`, `linear_solvers.py` 149-163, with `U` the upper Cholesky factor of line 147. Both results of `solve_triangular` are
discarded: the code relies on `overwrite_b` writing into `sol`. `inplace` says whether SciPy does that (it does for a contiguous `sol`, and works on a
copy otherwise). -/
def denseChol (inplace : Bool) (U : Matrix (Fin n) (Fin n) K) (rhs : Fin n → K) : Fin n → K :=
  let sol := rhs
  let sol := if inplace then Common.fwd U.transpose sol else sol
  let sol := if inplace then Common.bwd U sol else sol
  sol

/-! ## Stationary solvers -/

/-- `_jacobi` with `d_inv = damping / diag`, `linear_solvers.py` 339-340, 351-358, 375-378. -/
def jacobi (A : Matrix (Fin n) (Fin n) K) (w : K) (rhs sol : Fin n → K) : Fin n → K :=
  fun i => sol i + w / A i i * (rhs i - A.mulVec sol i)

/-- `mtx_l + mtx_d / damping`, `linear_solvers.py` 345-347, 360-373. -/
def ldw (A : Matrix (Fin n) (Fin n) K) (w : K) : Matrix (Fin n) (Fin n) K :=
  fun i j => if j < i then A i j else if i = j then A i j / w else 0

/-- `_gs`, `linear_solvers.py` 380-383; `splu(mtx_ldw).solve` of the lower triangular matrix is forward substitution. -/
def gs (A : Matrix (Fin n) (Fin n) K) (w : K) (rhs sol : Fin n → K) : Fin n → K :=
  fun i => sol i + Common.fwd (ldw A w) (fun i => rhs i - A.mulVec sol i) i

/-- `StationarySolver._solve`, `linear_solvers.py` 385-405 (`sol = none`: start from a copy of the right-hand side). -/
def stationary (kind : String) (A : Matrix (Fin n) (Fin n) K) (w : K) (ilimit : ℕ) (rhs : Fin n → K) (sol : Option (Fin n → K)) : Fin n → K :=
  (fun x => if kind = "jacobi" then jacobi A w rhs x else gs A w rhs x)^[ilimit] (sol.getD rhs)

/-! ## Multigrid -/

/-- `mg_mtx`, `mg_ops`, `mg_sol` from the finest level down, `linear_solvers.py` 428-446 (`mg_rhs` is overwritten before it is read). -/
inductive Hier (K : Type) : ℕ → Type where
  | coarsest {n : ℕ} (A : Matrix (Fin n) (Fin n) K) (sol : Fin n → K) : Hier K n
  | level {n m : ℕ} (A : Matrix (Fin n) (Fin n) K) (P : Matrix (Fin n) (Fin m) K) (sol : Fin n → K) (rest : Hier K m) : Hier K n

/-- `mg_sol[0]`. -/
def Hier.sol : {n : ℕ} → Hier K n → Fin n → K
  | _, .coarsest _ s => s
  | _, .level _ _ s _ => s

/-- The interpolation operators given to `_setup`. -/
inductive Ops (K : Type) : ℕ → Type where
  | nil {n : ℕ} : Ops K n
  | cons {n m : ℕ} (P : Matrix (Fin n) (Fin m) K) (rest : Ops K m) : Ops K n

/-- `MultigridSolver._setup`, `linear_solvers.py` 419-451: Galerkin coarse matrices `PᵀAP` and zero solutions. -/
def Hier.setup : {n : ℕ} → Matrix (Fin n) (Fin n) K → Ops K n → Hier K n
  | _, A, .nil => .coarsest A 0
  | _, A, .cons P rest => .level A P 0 (Hier.setup (P.transpose * A * P) rest)

/-- A smoother: `solver._solve(rhs, sol)` of the cloned level solver (the base-class `_solve` of `NullSolver` does nothing,
`linear_solvers.py` 115-116, 132-134). -/
abbrev Smoother (K : Type) := (n : ℕ) → Matrix (Fin n) (Fin n) K → (Fin n → K) → (Fin n → K) → (Fin n → K)

/-- The null smoother. -/
def nullSmoother : Smoother K := fun _ _ _ sol => sol

/-- The first pass of `_solve`, `linear_solvers.py` 515-523 (restrict without smoothing on the way down, direct solve on the coarsest level,
interpolate and smooth on the way up). The three loops are one recursion over the levels: the restriction on a level reads only that level's old
solution. -/
noncomputable def Hier.first (S : Smoother K) : {n : ℕ} → Hier K n → (Fin n → K) → Hier K n
  | _, .coarsest A _, rhs => .coarsest A (directSolve A rhs)
  | n, .level A P sol rest, rhs =>
    let rest' := Hier.first S rest (P.transpose.mulVec (rhs - A.mulVec sol))
    .level A P (S n A rhs (sol + P.mulVec rest'.sol)) rest'

/-- One multigrid cycle, `linear_solvers.py` 525-533 (smooth on the way down, too). -/
noncomputable def Hier.cycle (S : Smoother K) : {n : ℕ} → Hier K n → (Fin n → K) → Hier K n
  | _, .coarsest A _, rhs => .coarsest A (directSolve A rhs)
  | n, .level A P sol rest, rhs =>
    let sol := S n A rhs sol
    let rest' := Hier.cycle S rest (P.transpose.mulVec (rhs - A.mulVec sol))
    .level A P (S n A rhs (sol + P.mulVec rest'.sol)) rest'

/-- `MultigridSolver._solve`, `linear_solvers.py` 501-537: the state is updated and `mg_sol[0]` returned (the `sol` argument is
only written to). -/
noncomputable def Hier.solve (S : Smoother K) (cycles : ℕ) (h : Hier K n) (rhs : Fin n → K) : Hier K n × (Fin n → K) :=
  let h := (fun h => Hier.cycle S h rhs)^[cycles] (Hier.first S h rhs)
  (h, h.sol)

end SMT.Solvers
