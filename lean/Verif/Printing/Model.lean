import Mathlib.Data.List.Basic
import Mathlib.Algebra.Order.Ring.Nat

/-!
# Model of `smt/utils/printer.py`, of the printing in `surrogate_model.py` and `linear_solvers.py`

Standard output is a list of lines. What happens inside `_train` and `_predict_values` is any program of printer operations (`Prog`): an execution is one finite tree, because the
operations are deterministic once the data are fixed. Wall times are readings of a clock.
-/
namespace SMT.Printing

/-- The printer object, `printer.py` 27-32, with the lines printed so far and the number of clock readings. `max_print_depth` may be any integer. -/
structure Pr where
  active : Bool
  depth : ℕ
  maxDepth : ℤ
  times : String → List ℕ
  out : List String
  tick : ℕ

/-- `Printer()`, `printer.py` 27-32. -/
def Pr.new : Pr := ⟨false, 1, 100, fun _ => [], [], 0⟩

/-- `" " * n`. -/
def spaces : ℕ → String
  | 0 => ""
  | n + 1 => " " ++ spaces n

/-- `Printer.__call__`, `printer.py` 60-65. -/
def say (s : String) (noindent : Bool) (p : Pr) : Pr :=
  if p.active = true ∧ (p.depth : ℤ) ≤ p.maxDepth then { p with out := p.out ++ [if noindent then s else spaces (3 * p.depth) ++ s] } else p

/-- `_center`, `printer.py` 67-77. -/
def center (s : String) (p : Pr) : Pr := say (spaces ((75 - s.length) / 2) ++ s) true p

/-- `"_" * n`. -/
def rule : ℕ → String
  | 0 => ""
  | n + 1 => "_" ++ rule n

/-- `_line_break`, `printer.py` 79-84. -/
def lineBreak (p : Pr) : Pr := say "" false (say (rule 75) true p)

/-- `_title`, `printer.py` 86-97. -/
def title (s : String) (p : Pr) : Pr := say "" false (say (" " ++ s) true (lineBreak p))

/-- What code does with the printer: print, open a timed context (with optional message and key), open a `LinearSolver._active` context, set `max_print_depth` (`rbf.py` 67, `rmtb.py` 67,
`rmtc.py` 60), raise an exception. -/
inductive Prog where
  | done
  | raise
  | say (s : String) (rest : Prog)
  | timed (s key : Option String) (body rest : Prog)
  | active (b : Bool) (body rest : Prog)
  | setMax (m : ℤ) (rest : Prog)

/-- The clock: reading number `n` in some unit, and the text of a time. -/
structure Clock where
  read : ℕ → ℕ
  fmt : ℕ → String
  perPoint : ℕ → ℕ → String

/-- Beginning of `_timed_context`, `printer.py` 115-119. -/
def openT (s : Option String) (p : Pr) : Pr :=
  let p := match s with
    | some s => say (s ++ " ...") false p
    | none => p
  { p with depth := p.depth + 1, tick := p.tick + 1 }

/-- End of `_timed_context` after a normal exit, `printer.py` 121-131 (`start` is the number of the first clock reading). -/
def closeT (C : Clock) (s key : Option String) (start : ℕ) (p : Pr) : Pr :=
  let t := C.read p.tick - C.read start
  let p := { p with depth := p.depth - 1, tick := p.tick + 1 }
  let p := match s with
    | some s => say (s ++ " - done. Time (sec): " ++ C.fmt t) false p
    | none => p
  match key with
  | some k => { p with times := fun j => if j = k then p.times j ++ [t] else p.times j }
  | none => p

/-- Running a program; `true`: an exception is raised. The two context managers have no `try … finally` (`printer.py` 120, `linear_solvers.py` 124-129), so that nothing after the `yield` is
done then. -/
def run (C : Clock) : Prog → Pr → Pr × Bool
  | .done, p => (p, false)
  | .raise, p => (p, true)
  | .say s r, p => run C r (say s false p)
  | .timed s key b r, p =>
    let start := (openT s p).tick - 1
    match run C b (openT s p) with
    | (p1, true) => (p1, true)
    | (p1, false) => run C r (closeT C s key start p1)
  | .active a b r, p =>
    match run C b { p with active := p.active && a } with
    | (p1, true) => (p1, true)
    | (p1, false) => run C r { p1 with active := p.active }
  | .setMax m r, p => run C r { p with maxDepth := m }

/-- The printing options of a surrogate, `surrogate_model.py` 65-92, and its name. `print_solver` is declared there too, and read nowhere. -/
structure Opts where
  global : Bool
  training : Bool
  prediction : Bool
  problem : Bool
  solver : Bool
  name : String

/-- Printing at the beginning of `train`, `surrogate_model.py` 249-267 (`n` training points; `num` turns numbers into text). -/
def trainHead (num : ℕ → String) (o : Opts) (n : ℕ) (p : Pr) : Pr :=
  let p := { p with active := o.global }
  let p := center o.name (lineBreak p)
  let p := { p with active := o.global && o.problem }
  let p := title "Problem size" p
  let p := say ("   # training points.        : " ++ num n) false p
  let p := say "" false p
  let p := { p with active := o.global && o.training }
  title (if o.name = "MixExp" then "Training of the Mixture of experts" else "Training") p

/-- `train`, `surrogate_model.py` 243-271: without training points the first line raises `KeyError` before anything else. -/
def train (C : Clock) (num : ℕ → String) (o : Opts) (data : Option ℕ) (body : Prog) (p : Pr) : Pr × Bool :=
  match data with
  | none => (p, true)
  | some n => run C (.timed (some "Training") (some "training") body .done) (trainHead num o n p)

/-- Printing at the beginning of a prediction, `surrogate_model.py` 291-301, 332-342, 417-427. -/
def predictHead (num : ℕ → String) (o : Opts) (n : ℕ) (p : Pr) : Pr :=
  let p := { p with active := o.global && o.prediction }
  let p := title (if o.name = "MixExp" then "Evaluation of the Mixture of experts" else "Evaluation") p
  let p := say ("   # eval points. : " ++ num n) false p
  say "" false p

/-- `predict_values` (283-310), `predict_derivatives` (327-352), `predict_variance_derivatives` (412-438): a refused argument raises first; with no points the time per point is a division by
zero, after the prediction. -/
def predict (C : Clock) (num : ℕ → String) (o : Opts) (valid : Bool) (n : ℕ) (body : Prog) (p : Pr) : Pr × Bool :=
  if valid then
    match run C (.timed (some "Predicting") (some "prediction") body .done) (predictHead num o n p) with
    | (p1, true) => (p1, true)
    | (p1, false) =>
      if n = 0 then (p1, true)
      else
        let t := ((p1.times "prediction").getLast?).getD 0
        (say "" false (say ("Prediction time/pt. (sec) : " ++ C.perPoint t n) false (say "" false p1)), false)
  else (p, true)

/-- One call on a surrogate, with the printing options at the time. `predict_variances` uses no printer (`surrogate_model.py` 377-398); `predict_output_derivatives` (355-375) may
(`rmts.py` 571-578), *without having set the flag first*. -/
inductive Call where
  | train (o : Opts) (data : Option ℕ) (body : Prog)
  | predict (o : Opts) (valid : Bool) (n : ℕ) (body : Prog)
  | variances (valid : Bool)
  | output (valid : Bool) (body : Prog)

/-- Effect of a call. -/
def call (C : Clock) (num : ℕ → String) : Call → Pr → Pr × Bool
  | .train o d b, p => train C num o d b p
  | .predict o v n b, p => predict C num o v n b p
  | .variances v, p => (p, !v)
  | .output v b, p => if v then run C b p else (p, true)

/-- A history of calls on one object; exceptions are caught by the user. -/
def history (C : Clock) (num : ℕ → String) (cs : List Call) (p : Pr) : Pr := cs.foldl (fun p c => (call C num c p).1) p

/-! ## Linear solvers -/

/-- `_setup` and `_solve` of the direct solvers: `_active(print_init)` around a timed factorisation, `_active(print_solve)` around a timed back substitution, `linear_solvers.py` 138-158, 167-187,
195-221. `fails`: the factorisation raises. -/
def directSetup (printInit : Bool) (msg : String) (fails : Bool) (rest : Prog) : Prog :=
  .active printInit (.timed (some msg) none (if fails then .raise else .done) .done) rest
def directSolve (printSolve : Bool) (msg : String) (rest : Prog) : Prog :=
  .active printSolve (.timed (some msg) none .done .done) rest

/-- Columns of `RBF._new_train`, `rbf.py` 123-125. -/
def rbfCols (num : ℕ → String) (dof : ℕ) : List ℕ → Prog
  | [] => .done
  | i :: is => .timed (some ("Solving linear system (col. " ++ num i ++ ")")) none
      (directSolve true ("Back solving (" ++ num dof ++ " x " ++ num dof ++ " mtx)") .done) (rbfCols num dof is)

/-- `RBF._train` without a cache directory, `rbf.py` 60-67, 99-127, 130-147; the solver is `DenseLUSolver()` with the default options. -/
def rbfProg (num : ℕ → String) (maxDepth : ℤ) (dof ny : ℕ) (fails : Bool) : Prog :=
  .setMax maxDepth (.timed (some "Initializing linear solver") none
    (directSetup true ("Performing LU fact. (" ++ num dof ++ " x " ++ num dof ++ " mtx)") fails .done)
    (rbfCols num dof (List.range ny)))

/-- `Callback`, `linear_solvers.py` 57-95: the residual norms it was called with give one line whenever the counter is a multiple of the interval; `none`: `interval = 0` raises
`ZeroDivisionError` at the first call. `ref` is `norm0`, the first norm after the counter was reset. -/
def callback {K : Type} (line : ℕ → K → K → String) (interval : ℕ) (norms : List K) : Option (List String) :=
  if interval = 0 ∧ norms ≠ [] then none
  else some (norms.zipIdx.filterMap fun q => if q.2 % interval = 0 then some (line q.2 q.1 (norms.headD q.1)) else none)

end SMT.Printing
