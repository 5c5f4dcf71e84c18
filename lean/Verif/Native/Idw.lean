import Verif.Native.C
import Verif.Idw.Model

/-!
# `smt/src/idw/idw.cpp` with its memory, and the objects that use it

The rows computed here are those of `Verif/Idw/Model.lean` (proved in `IdwProps.lean`); new is where they are read from and written to. `pow(0., -p / 2.)` is a number here (0), an infinity in C: it is
only stored.
-/
namespace SMT.Native.Idw

noncomputable section
open Classical

/-- Members of the C++ object, `idw.hpp` 7-22, after `setup`. -/
structure Obj where
  nx : ℕ
  nt : ℕ
  p : ℝ
  xt : Buf ℝ
  w : Buf ℝ
  dw : Buf ℝ

/-- `IDW::setup`, `idw.cpp` 21-35. -/
def setup (nx nt : ℕ) (p : ℝ) (xt : Buf ℝ) : C Obj := do
  let m ← chk (nt * nx)
  let b ← memcpy (Buf.fresh m.toNat) xt m.toNat
  pure ⟨nx, nt, p, b, Buf.fresh nt, Buf.fresh nt⟩

/-- `r2`, `idw.cpp` 45-49, 81-85. -/
def dist2 (o : Obj) (x : Buf ℝ) (i it : ℕ) : C ℝ :=
  loop o.nx 0 fun ix r2 => do
    let a ← lin i o.nx ix >>= read x
    let b ← lin it o.nx ix >>= read o.xt
    pure (r2 + (a - b) ^ 2)

/-- Variables of the first loop. -/
structure Scan where
  minVal : ℝ
  minLoc : ℕ
  w : Buf ℝ
  dw : Buf ℝ

/-- Loop over the training points, `idw.cpp` 42-55. -/
def scan (o : Obj) (x : Buf ℝ) (i : ℕ) (w : Buf ℝ) : C Scan :=
  loop o.nt ⟨1, 0, w, o.dw⟩ fun it s => do
    let r2 ← dist2 o x i it
    let w ← write s.w it (r2 ^ (-o.p / 2))
    pure (if r2 < s.minVal then ⟨r2, it, w, s.dw⟩ else ⟨s.minVal, s.minLoc, w, s.dw⟩)

/-- `for (it...) { jac[i * nt + it] = 0.; }`, `idw.cpp` 58-60, 99-101. -/
def zeroRow (o : Obj) (i : ℕ) (jac : Buf ℝ) : C (Buf ℝ) := loop o.nt jac fun it j => do write j (← lin i o.nt it) 0

/-- Sum of a work array, `idw.cpp` 64-67, 104-109. -/
def total (o : Obj) (w : Buf ℝ) : C ℝ := loop o.nt 0 fun it s => do pure (s + (← read w it))

/-- One turn of the loop over the evaluation points in `compute_jac`, `idw.cpp` 42-72; the state is the work array and the result. -/
def jacRow (o : Obj) (x : Buf ℝ) (i : ℕ) (st : Buf ℝ × Buf ℝ) : C (Buf ℝ × Buf ℝ) := do
  let s ← scan o x i st.1
  if s.minVal = 0 then
    let jac ← zeroRow o i st.2
    let jac ← write jac (← lin i o.nt s.minLoc) 1
    pure (s.w, jac)
  else
    let sum ← total o s.w
    let jac ← loop o.nt st.2 fun it j => do
      let v ← read s.w it
      write j (← lin i o.nt it) (v / sum)
    pure (s.w, jac)

/-- `IDW::compute_jac`, `idw.cpp` 37-74. -/
def computeJac (o : Obj) (n : ℕ) (x jac : Buf ℝ) : C (Buf ℝ × Buf ℝ) := loop n (o.w, jac) (jacRow o x)

/-- Loop over the training points, `idw.cpp` 80-95. -/
def scanD (o : Obj) (kx : ℤ) (x : Buf ℝ) (i : ℕ) (w dw : Buf ℝ) : C Scan :=
  loop o.nt ⟨1, 0, w, dw⟩ fun it s => do
    let r2 ← dist2 o x i it
    let a ← lin i o.nx kx >>= read x
    let b ← lin it o.nx kx >>= read o.xt
    let dr2 := 2 * (a - b)
    let w ← write s.w it (r2 ^ (-o.p / 2))
    let dw ← write s.dw it (-o.p / 2 * r2 ^ (-o.p / 2 - 1) * dr2)
    pure (if r2 < s.minVal then ⟨r2, it, w, dw⟩ else ⟨s.minVal, s.minLoc, w, dw⟩)

/-- One turn in `compute_jac_derivs`, `idw.cpp` 80-117. -/
def derivRow (o : Obj) (kx : ℤ) (x : Buf ℝ) (i : ℕ) (st : Buf ℝ × Buf ℝ × Buf ℝ) : C (Buf ℝ × Buf ℝ × Buf ℝ) := do
  let s ← scanD o kx x i st.1 st.2.1
  if s.minVal = 0 then
    let jac ← zeroRow o i st.2.2
    pure (s.w, s.dw, jac)
  else
    let sum ← total o s.w
    let dsum ← total o s.dw
    let jac ← loop o.nt st.2.2 fun it j => do
      let dv ← read s.dw it
      let v ← read s.w it
      write j (← lin i o.nt it) ((dv * sum - v * dsum) / sum ^ 2)
    pure (s.w, s.dw, jac)

/-- `IDW::compute_jac_derivs`, `idw.cpp` 76-119. -/
def computeDerivs (o : Obj) (n : ℕ) (kx : ℤ) (x jac : Buf ℝ) : C (Buf ℝ × Buf ℝ × Buf ℝ) := loop n (o.w, o.dw, jac) (derivRow o kx x)

/-! ## The surrogate -/

/-- `IDW` as far as the compiled object is concerned: option `p`, the training points of `training_points[None][0]` (whose shape is `self.nt`, `self.nx`), `self.idwc`. -/
structure Sm where
  p : ℝ
  data : Option Arr
  idwc : Handle Obj

/-- `PyIDW.setup`, `idwclib.pyx` 23-24. -/
def pySetup (nx nt : ℕ) (p : ℝ) (xt : Arr) : Except Exc Obj := do
  intArg nx
  intArg nt
  bufArg xt.dbl
  addr xt.flat
  native (setup nx nt p xt.flat)

/-- The attribute after an attempt to set it up. -/
def installed (s : Sm) : Except Exc Obj → Sm × Except Exc Unit
  | .ok o => ({ s with idwc := .ready o }, .ok ())
  | .error e => ({ s with idwc := .raw }, .error e)

/-- `IDW._train`, `idw.py` 42-49, 60-77 (caching left out): the attribute is replaced before `setup` is called. -/
def train (s : Sm) : Sm × Except Exc Unit :=
  match s.data with
  | none => (s, .error .key)
  | some xt =>
    installed s (pySetup xt.m xt.n s.p xt)

/-- The checks of `predict_values` and the others on the array, `surrogate_model.py` 288-289, 329-330, 372-373: `self.nx` is set by `set_training_values`. -/
def checkX (s : Sm) (x : Arr) : Except Exc Arr :=
  match s.data with
  | none => .error .attribute
  | some xt => if x.m = xt.m then .ok xt else .error .value

/-- What happens before the C++ method is called: checks, attribute lookup, conversion of the arguments, `jac = np.empty(n * nt)`, `&x[0]`, `&jac[0]`, `idwclib.pyx` 25-28, `idw.py` 87-94, 114-121,
126-132; `kx` is present for derivatives. The result is the length of `jac`. -/
def enter (s : Sm) (x : Arr) (kx : Option ℤ) : Except Exc ℕ := do
  let xt ← checkX s x
  match s.idwc with
  | .missing => .error .attribute
  | _ => pure ()
  intArg x.n
  match kx with
  | none => pure ()
  | some k => intArg k
  bufArg x.dbl
  addr x.flat
  addr (Buf.fresh (x.n * xt.n) : Buf ℝ)
  pure (x.n * xt.n)

/-- Object and result after a call of a method of the compiled object. -/
def used (s : Sm) : Except Exc (Obj × Buf ℝ) → Sm × Except Exc (Buf ℝ)
  | .ok r => ({ s with idwc := .ready r.1 }, .ok r.2)
  | .error e => (s, .error e)

/-- `PyIDW.compute_jac`, `idwclib.pyx` 25-26, as called in `idw.py` 126-132. -/
def values (s : Sm) (x : Arr) : Sm × Except Exc (Buf ℝ) :=
  match enter s x none with
  | .error e => (s, .error e)
  | .ok m =>
    match s.idwc with
    | .ready o => used s ((native (computeJac o x.n x.flat (Buf.fresh m))).map fun r => ({ o with w := r.1 }, r.2))
    | _ => (s, .error (.ub .unset))

/-- `PyIDW.compute_jac_derivs`, `idwclib.pyx` 27-28, `idw.py` 114-121; `kx` is not checked by `predict_derivatives`, `surrogate_model.py` 312-352. -/
def derivs (s : Sm) (x : Arr) (kx : ℤ) : Sm × Except Exc (Buf ℝ) :=
  match enter s x (some kx) with
  | .error e => (s, .error e)
  | .ok m =>
    match s.idwc with
    | .ready o => used s ((native (computeDerivs o x.n kx x.flat (Buf.fresh m))).map fun r => ({ o with w := r.1, dw := r.2.1 }, r.2.2))
    | _ => (s, .error (.ub .unset))

/-- Calls on the surrogate. -/
inductive Ev where
  | set (xt : Arr)
  | train
  | values (x : Arr)
  | derivs (x : Arr) (kx : ℤ)

/-- State after a call. -/
def after (s : Sm) : Ev → Sm
  | .set xt => { s with data := some xt }
  | .train => (train s).1
  | .values x => (values s x).1
  | .derivs x kx => (derivs s x kx).1

/-- A new object, `surrogate_model.py` 50-93, with option `p`. -/
def Sm.new (p : ℝ) : Sm := ⟨p, none, .missing⟩

end

end SMT.Native.Idw
