import Verif.Fp.Ese

/-!
# Model: line searches and the Newton loop of the regularised splines in floating-point arithmetic

`smt/utils/line_search.py` and `smt/surrogate_models/rmts.py` 294-449 on values of a format with overflow, underflow, infinities and NaN.
The objective, its gradient, the gradient norm, `np.dot` and the linear solver are parameters: whatever NumPy and SciPy compute (any order
of summation), as functions of their arguments. Loops without a bound in the code take `fuel`; running out of it is a separate outcome,
and "never returns" means that outcome for every fuel. Signs of zeros are not distinguished. Matrices, printing and caching are left out;
only whether `self.mtx` exists is kept.
-/
namespace SMT.Fp

variable {K : Type} [Field K] [LinearOrder K] [IsStrictOrderedRing K] {n : ℕ}

/-- A vector of floats. -/
abbrev Vec (K : Type) (n : ℕ) := Fin n → X K

/-- `np.abs`. -/
def X.abs : X K → X K
  | .fin a => .fin |a|
  | .inf _ => .inf false
  | .nan => .nan

/-- Attributes of `LineSearch`, `line_search.py` 50-59, and `np.dot`. -/
structure Srch (K : Type) (n : ℕ) where
  x : Vec K n
  dx : Vec K n
  func : Vec K n → X K
  grad : Vec K n → Vec K n
  dot : Vec K n → Vec K n → X K
  u1 : X K
  u2 : X K

namespace Srch
variable (F : Format K) (L : Srch K n)

/-- `self.x + a * self.dx`. -/
def pt (a : X K) : Vec K n := fun i => F.addX (L.x i) (F.mulX a (L.dx i))

/-- `_phi`, `line_search.py` 61-67. -/
def phi (a : X K) : X K := L.func (L.pt F a)

/-- `_dphi`, `line_search.py` 69-73. -/
def dphi (a : X K) : X K := L.dot (L.grad (L.pt F a)) L.dx

/-- `_func_decreased`, `line_search.py` 75-79. `phi_0` and `dphi_0` are computed by the constructor at `0.0` (lines 58-59). -/
def funcDec (a : X K) : Bool :=
  (L.phi F a).le (F.addX (L.phi F (.fin 0)) (F.mulX (F.mulX L.u1 a) (L.dphi F (.fin 0))))

/-- `_grad_decreased`, `line_search.py` 81-85. -/
def gradDec (a : X K) : Bool := (L.dphi F a).abs.le (F.mulX L.u2 (L.dphi F (.fin 0))).abs

/-- The loop of `BacktrackingLineSearch.__call__`, `line_search.py` 125-127: the accepted step, `none` if the fuel is used up. -/
def backtrack (rho : X K) : ℕ → X K → Option (X K)
  | 0, _ => none
  | fuel + 1, a => if !L.funcDec F a then backtrack rho fuel (F.mulX a rho) else some a

/-- The triples `(a, p, dp)` passed around by the bracketed searches. -/
structure Tr (K : Type) where
  a : X K
  p : X K
  dp : X K
deriving DecidableEq

/-- `a`, `self._phi(a)`, `self._dphi(a)`. -/
def eval (a : X K) : Tr K := ⟨a, L.phi F a, L.dphi F a⟩

/-- How a bracketed search ends. -/
inductive End (K : Type) where
  | step (a : X K)
  | nothing
  | raised
  | fuel
deriving DecidableEq

/-- `_zoom`, `line_search.py` 170-194; `cm` is `_compute_minimum` (`none` when it raises). -/
def zoom (cm : Tr K → Tr K → Option (Tr K)) : ℕ → Tr K → Tr K → End K
  | 0, _, _ => .fuel
  | fuel + 1, s1, s2 =>
    match cm s1 s2 with
    | none => .raised
    | some s =>
      if !L.funcDec F s.a || s1.p.lt s.p then zoom cm fuel s1 s
      else if L.gradDec F s.a then .step s.a
      else if (X.fin 0).le (F.mulX s.dp (F.subX s2.a s1.a)) then zoom cm fuel s s1
      else zoom cm fuel s s2

/-- The `for ind in range(20)` loop of `BracketedLineSearch.__call__`, `line_search.py` 144-168. -/
def bracket (cm : Tr K → Tr K → Option (Tr K)) (fuel : ℕ) : ℕ → Tr K → Tr K → End K
  | 0, _, _ => .nothing
  | it + 1, s1, s2 =>
    if !L.funcDec F s2.a || s1.p.lt s2.p then L.zoom F cm fuel s1 s2
    else if L.gradDec F s2.a then .step s2.a
    else if (X.fin 0).le s2.dp then L.zoom F cm fuel s2 s1
    else bracket cm fuel it s2 (L.eval F (F.mulX s2.a (.fin (3 / 2))))

/-- `BracketedLineSearch.__call__`, `line_search.py` 136-168. -/
def bracketed (cm : Tr K → Tr K → Option (Tr K)) (fuel : ℕ) (a : X K) : End K :=
  L.bracket F cm fuel 20 (L.eval F (.fin 0)) (L.eval F a)

/-- `BracketedLineSearch._compute_minimum`, `line_search.py` 196-203. -/
def midpoint (s1 s2 : Tr K) : Option (Tr K) :=
  some (L.eval F (F.addX (F.mulX (.fin (1 / 2)) s1.a) (F.mulX (.fin (1 / 2)) s2.a)))

end Srch

/-- How a piece of code ends: normally, with an exception, or not at all (as far as the fuel goes). -/
inductive Run (α : Type) where
  | done (a : α)
  | raised
  | hang
deriving DecidableEq

/-- Sequencing. -/
def Run.bind {α β : Type} : Run α → (α → Run β) → Run β
  | .done a, f => f a
  | .raised, _ => .raised
  | .hang, _ => .hang

/-- What the training of one output computes with: objective, gradient and gradient norm (`_opt_func`, `_opt_grad`, `_opt_norm`,
`rmts.py` 228-285), and the direction: assembly of the Hessian, set-up and solution of the linear system (`rmts.py` 325-333) as a
function of the point and of the previous direction, which iterative solvers start from (`none`: an exception). -/
structure Obj (K : Type) (n : ℕ) where
  func : Vec K n → X K
  grad : Vec K n → Vec K n
  norm : Vec K n → X K
  dir : Vec K n → Vec K n → Option (Vec K n)

/-- The line searches a user can choose (the option `line_search`), as a function of the object the constructor built. -/
abbrev LsX (K : Type) (n : ℕ) := Srch K n → Run (Vec K n)

/-- The object built by the constructor with `u1=1.0e-4, u2=0.9`, `line_search.py` 31, 50-59, `rmts.py` 340. -/
def mkSrch (F : Format K) (dot : Vec K n → Vec K n → X K) (o : Obj K n) (x dx : Vec K n) : Srch K n :=
  ⟨x, dx, o.func, o.grad, dot, F.of (1 / 10000), F.of (9 / 10)⟩

/-- `NullLineSearch`, `line_search.py` 110-116, called with `1.0`. -/
def nullX (F : Format K) : LsX K n := fun L => .done (L.pt F (.fin 1))

/-- `BacktrackingLineSearch`, `line_search.py` 119-128, called with `1.0`. -/
def backX (F : Format K) (fuel : ℕ) : LsX K n := fun L =>
  match L.backtrack F (.fin (1 / 2)) fuel (.fin 1) with
  | some a => .done (L.pt F a)
  | none => .hang

/-- `BracketedLineSearch` and its subclasses, `line_search.py` 131-260, called with `1.0`. A search that falls off the end returns
`None`, and NumPy stores NaN when `None` is assigned to a column of floats (`rmts.py` 342). -/
def bracketX (F : Format K) (cm : Srch K n → Srch.Tr K → Srch.Tr K → Option (Srch.Tr K)) (fuel : ℕ) : LsX K n := fun L =>
  match L.bracketed F (cm L) fuel (.fin 1) with
  | .step a => .done (L.pt F a)
  | .nothing => .done fun _ => .nan
  | .raised => .raised
  | .fuel => .hang

/-- The state of the training of one output: its columns of `sol` and `d_sol`, and whether `self.mtx` exists. -/
structure NwSt (K : Type) (n : ℕ) where
  sol : Vec K n
  d : Vec K n
  mtx : Bool

/-- The `while` loop of `_run_newton_solver`, `rmts.py` 316-353, for one output. -/
def newtonX (F : Format K) (dot : Vec K n → Vec K n → X K) (ls : LsX K n) (tol : X K) (o : Obj K n) : ℕ → NwSt K n → Run (NwSt K n)
  | 0, st => .done st
  | it + 1, st =>
    if tol.lt (o.norm st.sol) then
      match o.dir st.sol st.d with
      | none => .raised
      | some d => (ls (mkSrch F dot o st.sol d)).bind fun s => newtonX F dot ls tol o it ⟨s, d, true⟩
    else .done st

/-- `_run_newton_solver`, `rmts.py` 294-353: the outputs one after the other; `d_sol` is new (line 303). -/
def runX (F : Format K) (dot : Vec K n → Vec K n → X K) (ls : LsX K n) (tol : X K) (it : ℕ) :
    List (Obj K n × Vec K n) → Bool → Run (List (Vec K n) × Bool)
  | [], m => .done ([], m)
  | (o, s) :: rest, m =>
    (newtonX F dot ls tol o it ⟨s, fun _ => .fin 0, m⟩).bind fun st =>
      (runX F dot ls tol it rest st.mtx).bind fun r => .done (st.sol :: r.1, r.2)

/-- `_solve`, `rmts.py` 355-387: from zero, one pass of order 2 for every output (`start`), then the user's order and number of passes. -/
def solveX (F : Format K) (dot : Vec K n → Vec K n → X K) (ls : LsX K n) (tol : X K) (maxiter : ℕ) (start user : List (Obj K n)) (m : Bool) :
    Run (List (Vec K n) × Bool) :=
  (runX F dot ls tol 1 (start.map fun o => (o, fun _ => .fin 0)) m).bind fun r =>
    runX F dot ls tol maxiter (List.zip user r.1) r.2

/-- `_train` without caching, `rmts.py` 422-449: `m` tells whether an earlier training left `self.mtx`; without it reading `self.mtx`
(line 446) raises an `AttributeError`. -/
def trainX (F : Format K) (dot : Vec K n → Vec K n → X K) (ls : LsX K n) (tol : X K) (maxiter : ℕ) (start user : List (Obj K n)) (m : Bool) :
    Run (List (Vec K n)) :=
  (solveX F dot ls tol maxiter start user m).bind fun r => if r.2 then .done r.1 else .raised

end SMT.Fp
