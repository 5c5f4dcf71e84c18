import Verif.Native.C
import Verif.Rbf.Model

/-!
# `smt/src/rbf/rbf.cpp` with its memory, and the objects that use it

The rows computed here are those of `Verif/Rbf/Model.lean` (proved in `RbfProps.lean`); new is where they are read from and written to.
-/
namespace SMT.Native.Rbf

noncomputable section
open Classical

/-- Members of the C++ object, `rbf.hpp` 3-16, after `setup`. -/
structure Obj where
  nx : ℕ
  nt : ℕ
  numDof : ℕ
  deg : ℤ
  d0 : Buf ℝ
  xt : Buf ℝ

/-- `RBF::setup`, `rbf.cpp` 19-32. -/
def setup (nx nt numDof : ℕ) (deg : ℤ) (d0 xt : Buf ℝ) : C Obj := do
  let m ← chk (nt * nx)
  let d ← memcpy (Buf.fresh nx) d0 nx
  let t ← memcpy (Buf.fresh m.toNat) xt m.toNat
  pure ⟨nx, nt, numDof, deg, d, t⟩

/-- `r2`, `rbf.cpp` 39-43, 69-73. -/
def dist2 (o : Obj) (x : Buf ℝ) (i it : ℕ) : C ℝ :=
  loop o.nx 0 fun ix r2 => do
    let a ← lin i o.nx ix >>= read x
    let b ← lin it o.nx ix >>= read o.xt
    let c ← read o.d0 ix
    pure (r2 + ((a - b) / c) ^ 2)

/-- Index `i * num_dof + nt + 1 + ix`, `rbf.cpp` 58, 91, 93. -/
def trendIdx (o : Obj) (i : ℕ) (ix : ℤ) : C ℤ := do
  let a ← lin i o.numDof o.nt
  let b ← chk (a + 1)
  chk (b + ix)

/-- First part of `compute_jac`, `rbf.cpp` 37-47. -/
def radial (o : Obj) (n : ℕ) (x jac : Buf ℝ) : C (Buf ℝ) :=
  loop n jac fun i j => loop o.nt j fun it j => do
    let r2 ← dist2 o x i it
    write j (← lin i o.numDof it) (Real.exp (-r2))

/-- Second part: the same number in column `nt`, `rbf.cpp` 49-53, 82-86. -/
def constant (o : Obj) (n : ℕ) (v : ℝ) (jac : Buf ℝ) : C (Buf ℝ) :=
  if 0 ≤ o.deg then loop n jac fun i j => do write j (← lin i o.numDof o.nt) v else pure jac

/-- Third part, `rbf.cpp` 55-61. -/
def linear (o : Obj) (n : ℕ) (x jac : Buf ℝ) : C (Buf ℝ) :=
  if o.deg = 1 then
    loop n jac fun i j => loop o.nx j fun ix j => do
      let v ← lin i o.nx ix >>= read x
      write j (← trendIdx o i ix) v
  else pure jac

/-- `RBF::compute_jac`, `rbf.cpp` 34-62. -/
def computeJac (o : Obj) (n : ℕ) (x jac : Buf ℝ) : C (Buf ℝ) := do
  let j ← radial o n x jac
  let j ← constant o n 1 j
  linear o n x j

/-- First part of `compute_jac_derivs`, `rbf.cpp` 67-80. -/
def radialD (o : Obj) (n : ℕ) (kx : ℤ) (x jac : Buf ℝ) : C (Buf ℝ) :=
  loop n jac fun i j => loop o.nt j fun it j => do
    let r2 ← dist2 o x i it
    let a ← lin i o.nx kx >>= read x
    let b ← lin it o.nx kx >>= read o.xt
    let c ← read o.d0 kx
    write j (← lin i o.numDof it) (-Real.exp (-r2) * (2 * (a - b) / c ^ 2))

/-- Third part, `rbf.cpp` 88-95. -/
def linearD (o : Obj) (n : ℕ) (kx : ℤ) (jac : Buf ℝ) : C (Buf ℝ) :=
  if o.deg = 1 then
    loop n jac fun i j => do
      let j ← loop o.nx j fun ix j => do write j (← trendIdx o i ix) 0
      write j (← trendIdx o i kx) 1
  else pure jac

/-- `RBF::compute_jac_derivs`, `rbf.cpp` 64-96. -/
def computeDerivs (o : Obj) (n : ℕ) (kx : ℤ) (x jac : Buf ℝ) : C (Buf ℝ) := do
  let j ← radialD o n kx x jac
  let j ← constant o n 0 j
  linearD o n kx j

/-! ## The surrogate -/

/-- Option `d0`, `rbf.py` 29-34. -/
inductive D0 where
  | num (v : ℝ)
  | arr (l : List ℝ)

/-- `RBF` as far as the compiled object is concerned: options `d0` and `poly_degree`, the training points, `self.num["dof"]`, `self.rbfc`. -/
structure Sm where
  d0 : D0
  deg : ℤ
  data : Option Arr
  dof : ℕ
  rbfc : Handle Obj

/-- `rbf.py` 62-65: the option becomes an array. -/
def d0Array (d : D0) (nx : ℕ) : List ℝ :=
  match d with
  | .num v => List.replicate nx v
  | .arr l => l

/-- `PyRBF.setup`, `rbfclib.pyx` 22-25. -/
def pySetup (nx nt dof : ℕ) (deg : ℤ) (d0 : List ℝ) (xt : Arr) : Except Exc Obj := do
  intArg nx
  intArg nt
  intArg dof
  intArg deg
  bufArg xt.dbl
  addr (Buf.of d0)
  addr xt.flat
  native (setup nx nt dof deg (Buf.of d0) xt.flat)

/-- `_setup` after the option was replaced, `rbf.py` 69-97: `KeyError` for another degree than -1, 0, 1 (nothing else is changed); otherwise `self.num` and `self.rbfc` are replaced before the compiled
object is set up. -/
def install (s : Sm) (xt : Arr) : Sm × Except Exc Obj :=
  match SMT.Rbf.numPoly s.deg xt.m with
  | none => (s, .error .key)
  | some np =>
    match pySetup xt.m xt.n (xt.n + np) s.deg (d0Array s.d0 xt.m) xt with
    | .ok o => ({ s with dof := xt.n + np, rbfc := .ready o }, .ok o)
    | .error e => ({ s with dof := xt.n + np, rbfc := .raw }, .error e)

/-- `compute_jac` on the training points in `_new_train`, `rbf.py` 102-104. -/
def trainJac (o : Obj) (xt : Arr) (dof : ℕ) : Except Exc (Buf ℝ) := do
  addr (Buf.fresh (xt.n * dof) : Buf ℝ)
  native (computeJac o xt.n xt.flat (Buf.fresh (xt.n * dof)))

/-- `RBF._train`, `rbf.py` 59-68, 129-146 up to the matrix of the radial equations (caching and the linear solver left out). -/
def train (s : Sm) : Sm × Except Exc (Buf ℝ) :=
  match s.data with
  | none => (s, .error .key)
  | some xt =>
    let s1 := install { s with d0 := .arr (d0Array s.d0 xt.m) } xt
    (s1.1, s1.2 >>= fun o => trainJac o xt s1.1.dof)

/-- The checks of `predict_values` and the others on the array, `surrogate_model.py` 288-289, 329-330: `self.nx` is set by `set_training_values`. -/
def checkX (s : Sm) (x : Arr) : Except Exc Unit :=
  match s.data with
  | none => .error .attribute
  | some xt => if x.m = xt.m then .ok () else .error .value

/-- What happens before the C++ method is called, `rbf.py` 162-166, 188-192, `rbfclib.pyx` 26-29; `kx` is present for derivatives. The result is the length of `jac`. -/
def enter (s : Sm) (x : Arr) (kx : Option ℤ) : Except Exc ℕ := do
  checkX s x
  match s.rbfc with
  | .missing => .error .attribute
  | _ => pure ()
  intArg x.n
  match kx with
  | none => pure ()
  | some k => intArg k
  bufArg x.dbl
  addr x.flat
  addr (Buf.fresh (x.n * s.dof) : Buf ℝ)
  pure (x.n * s.dof)

/-- Matrix `jac` of `_predict_values`, `rbf.py` 162-167. -/
def values (s : Sm) (x : Arr) : Except Exc (Buf ℝ) := do
  let m ← enter s x none
  match s.rbfc with
  | .ready o => native (computeJac o x.n x.flat (Buf.fresh m))
  | _ => .error (.ub .unset)

/-- Matrix `jac` of `_predict_derivatives`, `rbf.py` 188-193; `kx` is not checked by `predict_derivatives`, `surrogate_model.py` 312-352. -/
def derivs (s : Sm) (x : Arr) (kx : ℤ) : Except Exc (Buf ℝ) := do
  let m ← enter s x (some kx)
  match s.rbfc with
  | .ready o => native (computeDerivs o x.n kx x.flat (Buf.fresh m))
  | _ => .error (.ub .unset)

/-- Calls that change the surrogate. -/
inductive Ev where
  | setD0 (d : D0)
  | setDeg (d : ℤ)
  | set (xt : Arr)
  | train

/-- State after a call. -/
def after (s : Sm) : Ev → Sm
  | .setD0 d => { s with d0 := d }
  | .setDeg d => { s with deg := d }
  | .set xt => { s with data := some xt }
  | .train => (train s).1

/-- A new object with the default options, `rbf.py` 24-57. -/
def Sm.new : Sm := ⟨.num 1, -1, none, 0, .missing⟩

end

end SMT.Native.Rbf
