import Verif.Rmts.Model
import Verif.LineSearch.Model

/-!
# Training of the regularised splines with several outputs, and derivatives with respect to the training outputs

`smt/surrogate_models/rmts.py` 285-470 and 542-586. The linear solver is a function of matrix and right-hand side (an iterative solver's
dependence on the previous direction, which it uses as initial guess, is not modelled); the line search is given the objective, its
gradient, the point and the direction, and may fail (`none`: it raises, returns Python's `None`, or does not end).
-/
namespace SMT.Rmts
open SMT.LineSearch

variable {K : Type} [Field K] [LinearOrder K] {n ny : ℕ}

/-- One entry of `full_jac_dict` with the training values of all outputs, `rmts.py` 147-175 (matrix and weight do not depend on the
output). -/
structure MBlock (K : Type) (n ny : ℕ) where
  nt : ℕ
  J : Fin nt → Fin n → K
  c : K
  Y : Fin nt → Fin ny → K

/-- `yt[:, ind_y]`, `_get_yt_dict`, `rmts.py` 285-290. -/
def MBlock.out (b : MBlock K n ny) (l : Fin ny) : Block K n := ⟨b.nt, b.J, b.c, fun r => b.Y r l⟩

/-- The data of output `l`. -/
def outs (bs : List (MBlock K n ny)) (l : Fin ny) : List (Block K n) := bs.map fun b => b.out l

/-- `ls_class(x, dx, func, grad)(1.0)`, `rmts.py` 339-341. -/
abbrev Search (K : Type) (n : ℕ) :=
  ((Fin n → K) → K) → ((Fin n → K) → Fin n → K) → (Fin n → K) → (Fin n → K) → Option (Fin n → K)

/-- The object built by the constructor, `line_search.py` 31-59 (`u1 = 1e-4`, `u2 = 0.9`). -/
def mkLS (func : (Fin n → K) → K) (grad : (Fin n → K) → Fin n → K) (x dx : Fin n → K) : LS K n :=
  ⟨x, dx, func, grad, 1 / 10000, 9 / 10⟩

/-- `NullLineSearch`, `line_search.py` 110-116. -/
def nullSearch : Search K n := fun f g x dx => some ((mkLS f g x dx).null 1)

/-- `BacktrackingLineSearch`, `line_search.py` 119-128. -/
def backtrackingSearch (fuel : ℕ) : Search K n := fun f g x dx => (mkLS f g x dx).backtracking fuel 1 (1 / 2)

/-- `BracketedLineSearch` and its subclasses, `line_search.py` 131-260; `cm` is `_compute_minimum`. -/
def bracketedSearch (fuel : ℕ) (cm : LS K n → Pt K → Pt K → Option (Pt K)) : Search K n := fun f g x dx =>
  match (mkLS f g x dx).bracketed (cm (mkLS f g x dx)) fuel 1 with
  | .step a => some ((mkLS f g x dx).at a)
  | _ => none

/-- The `while` loop of `_run_newton_solver` for one output, `rmts.py` 324-353: at most `it` passes while `norm > tol` (squares are
compared). The second component is `self.mtx`, `none` while the attribute does not exist. -/
def loopOut (H : Fin n → Fin n → K) (bs : List (Block K n)) (p : ℕ) (tol : K)
    (solve : (Fin n → Fin n → K) → (Fin n → K) → (Fin n → K)) (ls : Search K n) :
    ℕ → (Fin n → K) → Option (Fin n → Fin n → K) → Option ((Fin n → K) × Option (Fin n → Fin n → K))
  | 0, sol, m => some (sol, m)
  | it + 1, sol, m =>
    if tol ^ 2 < ∑ i, optGrad H bs p sol i ^ 2 then
      let mtx := optHess H bs p sol
      let d := solve mtx (fun i => -optGrad H bs p sol i)
      (ls (optFunc H bs p) (optGrad H bs p) sol d).bind fun s => loopOut H bs p tol solve ls it s (some mtx)
    else some (sol, m)

/-- What the solver loops share: `sol` (one column per output) and `self.mtx`. -/
structure NSt (K : Type) (n ny : ℕ) where
  sol : Fin ny → Fin n → K
  mtx : Option (Fin n → Fin n → K)

/-- `_run_newton_solver`, `rmts.py` 292-353: the outputs one after the other. -/
def runNewton (H : Fin n → Fin n → K) (bs : List (MBlock K n ny)) (p maxiter : ℕ) (tol : K)
    (solve : (Fin n → Fin n → K) → (Fin n → K) → (Fin n → K)) (ls : Search K n) (st : NSt K n ny) : Option (NSt K n ny) :=
  (List.finRange ny).foldlM (fun st l =>
    (loopOut H (outs bs l) p tol solve ls maxiter (st.sol l) st.mtx).map fun r =>
      ⟨Function.update st.sol l r.1, r.2⟩) st

/-- `_solve`, `rmts.py` 355-385: from zero, one pass of order 2 for every output, then the user's order and number of passes. -/
def solveAll (H : Fin n → Fin n → K) (bs : List (MBlock K n ny)) (p maxiter : ℕ) (tol : K)
    (solve : (Fin n → Fin n → K) → (Fin n → K) → (Fin n → K)) (ls : Search K n) : Option (NSt K n ny) :=
  (runNewton H bs 2 1 tol solve ls ⟨fun _ _ => 0, none⟩).bind (runNewton H bs p maxiter tol solve ls)

/-- The two options `_solve` changes. -/
structure NOpts where
  approxOrder : ℕ
  maxiter : ℕ

/-- `_solve` with the options it changes, `rmts.py` 366-385: they are set before the start-up problem and restored after it, without
`try`. Returns the result and the options as the object has them afterwards. -/
def solveOpts (H : Fin n → Fin n → K) (bs : List (MBlock K n ny)) (tol : K)
    (solve : (Fin n → Fin n → K) → (Fin n → K) → (Fin n → K)) (ls : Search K n) (o : NOpts) : Option (NSt K n ny) × NOpts :=
  let o1 : NOpts := ⟨2, 1⟩
  match runNewton H bs o1.approxOrder o1.maxiter tol solve ls ⟨fun _ _ => 0, none⟩ with
  | none => (none, o1)
  | some st => (runNewton H bs o.approxOrder o.maxiter tol solve ls st, o)

/-- `_new_train` and `_train` of a new object without caching, `rmts.py` 387-450: the solution and the matrix stored; `none` is an
exception, in particular the `AttributeError` of line 447 when no pass was made for any output. -/
def trainAll (H : Fin n → Fin n → K) (bs : List (MBlock K n ny)) (p maxiter : ℕ) (tol : K)
    (solve : (Fin n → Fin n → K) → (Fin n → K) → (Fin n → K)) (ls : Search K n) :
    Option ((Fin ny → Fin n → K) × (Fin n → Fin n → K)) :=
  (solveAll H bs p maxiter tol solve ls).bind fun st => st.mtx.map fun m => (st.sol, m)

/-- `_predict_values`, `rmts.py` 452-470, at one point: `row` is the row of the prediction matrix times `full_dof2coeff`. -/
def predictRow (row : Fin n → K) (sol : Fin ny → Fin n → K) (l : Fin ny) : K := ∑ j, row j * sol l j

/-- `_predict_output_derivatives`, `rmts.py` 542-586, at one point, for block `b`, training point `r` and output `l`: minus the row times
the solution of the system with the stored matrix. -/
def outputDeriv (row : Fin n → K) (solveD : (Fin n → Fin n → K) → (Fin n → K) → (Fin n → K)) (p : ℕ)
    (sol : Fin ny → Fin n → K) (mtx : Fin n → Fin n → K) (b : MBlock K n ny) (r : Fin b.nt) (l : Fin ny) : K :=
  ∑ j, row j * (solveD mtx (fun i => optDgradDyt (b.out l) p (sol l) i r) j * (-1))

end SMT.Rmts
