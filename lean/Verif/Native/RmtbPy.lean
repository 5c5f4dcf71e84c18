import Verif.Native.Rmtb

/-!
# `RMTB` (Python) as far as the compiled object is concerned

`smt/surrogate_models/rmtb.py` 39-125 and the calls of the compiled object in `rmts.py` 192-205, 511-512, with `rmtsclib.pyx` 27-45. Printing, caching, the linear solvers and scipy's matrices are left
out. NaN is not modelled: points and limits are real numbers.
-/
namespace SMT.Native.Rmtb

noncomputable section
open Classical SMT.Native.Rmt

/-- An option of type `(Integral, tuple, list, np.ndarray)`, `rmtb.py` 43-56: a Python integer, a numpy integer (`Integral`, but no `int`), a list or array. -/
inductive Opt where
  | num (v : ℤ)
  | np (v : ℤ)
  | arr (l : List ℤ)

/-- `rmtb.py` 62-65, `rmtc.py` 55-58. -/
def Opt.list (o : Opt) (nx : ℕ) : List ℤ :=
  match o with
  | .num v => List.replicate nx v
  | .np v => [v]
  | .arr l => l

/-- numpy's rule for an operation on two one-dimensional arrays, here `a - b + 1`, `rmtb.py` 75. -/
def elemList (a b : List ℤ) : Option (List ℤ) :=
  if a.length = b.length then some (List.zipWith (fun x y => x - y + 1) a b)
  else if b.length = 1 then some (a.map fun x => x - b.headD 0 + 1)
  else if a.length = 1 then some (b.map fun y => a.headD 0 - y + 1)
  else none

/-- `np.array(l, np.int32)` of an array of 64-bit integers: the last 32 bits. -/
def int32 (l : List ℤ) : Buf ℤ := Buf.of (l.map fun z => z.bmod (2 ^ 32))

/-- Column `j` of the limits. -/
def column (L : Arr) (j : ℕ) : Buf ℝ := ⟨L.n, fun k => if k < L.n then some (L.f k j) else none⟩

/-- `self.num` as far as it is used below, `rmtb.py` 69-90. -/
structure Num where
  x : ℕ
  order : ℤ
  elem : List ℤ

/-- `RMTB`: options `order`, `num_ctrl_pts`, `xlimits`; the training points; `self.num`, `self.rmtsc`. -/
structure Sm where
  order : Opt
  ncp : Opt
  xlimits : Option Arr
  data : Option Arr
  num : Option Num
  rmtsc : Handle Obj

/-- `PyRMTB.setup`, `rmtsclib.pyx` 34-37, as called in `rmtb.py` 93-99. -/
def pySetup (nx : ℕ) (L : Arr) (q m : List ℤ) : Except Exc Obj := do
  if L.m < 2 then .error .index else .ok ()
  intArg nx
  bufArg L.dbl
  addr (column L 0)
  addr (column L 1)
  addr (int32 q)
  addr (int32 m)
  native (setup nx (column L 0) (column L 1) (int32 q) (int32 m))

/-- The attribute after an attempt to set it up. -/
def installed (s : Sm) : Except Exc Obj → Sm × Except Exc Unit
  | .ok o => ({ s with rmtsc := .ready o }, .ok ())
  | .error e => ({ s with rmtsc := .raw }, .error e)

/-- `_setup` once the options are lists, `rmtb.py` 69-99. -/
def install (s : Sm) (xt : Arr) (q m : List ℤ) : Sm × Except Exc Unit :=
  match elemList m q with
  | none => (s, .error .value)
  | some e =>
    match s.xlimits with
    | none => ({ s with num := some ⟨xt.m, q.prod, e⟩, rmtsc := .raw }, .error .type)
    | some L => installed { s with num := some ⟨xt.m, q.prod, e⟩ } (pySetup xt.m L q m)

/-- `RMTB._setup`, `rmtb.py` 58-99: the options are replaced by lists first. -/
def pyTrain (s : Sm) : Sm × Except Exc Unit :=
  match s.data with
  | none => (s, .error .key)
  | some xt => install { s with order := .arr (s.order.list xt.m), ncp := .arr (s.ncp.list xt.m) } xt (s.order.list xt.m) (s.ncp.list xt.m)

/-- The literal `1e-15` of `rmtb.py` 107-108. -/
def eps : ℝ := 1 / 10 ^ 15

/-- Table `t`, `rmtb.py` 104-108: columns behind the first `nx` are `0` before the bounds are applied. -/
def params (L : Arr) (nx : ℕ) (x : Arr) : Arr :=
  ⟨true, x.n, x.m, fun i k => if k < nx then min (max ((x.f i k - L.f k 0) / (L.f k 1 - L.f k 0)) (0 + eps)) (1 - eps) else min (max 0 (0 + eps)) (1 - eps)⟩

/-- `np.empty(n)`. -/
def empty (α : Type) (n : ℤ) : Except Exc (Buf α) := if 0 ≤ n then .ok (Buf.fresh n.toNat) else .error .value

/-- Row number `k` of an array with `n` rows in Python: negative numbers count from the end. -/
def pyRow (n : ℕ) (k : ℤ) : Option ℕ := if 0 ≤ k ∧ k < n then some k.toNat else if -(n : ℤ) ≤ k ∧ k < 0 then some (n + k).toNat else none

/-- `data /= c`. -/
def divide (b : Buf ℝ) (c : ℝ) : Buf ℝ := ⟨b.len, fun i => (b.cell i).map (· / c)⟩

/-- `rmtb.py` 120-123 for one of the two indices. -/
def scale (L : Arr) (ix : ℤ) (c : Coo) : Except Exc Coo :=
  if ix = 0 then .ok c
  else match pyRow L.n (ix - 1) with
    | none => .error .index
    | some r => .ok { c with data := divide c.data (L.f r 1 - L.f r 0) }

/-- `rmtb.py` 102-108: limits and table `t`. Which of several errors comes first is not modelled. -/
def table (s : Sm) (nm : Num) (x : Arr) : Except Exc (Arr × Arr) :=
  match s.xlimits with
  | none => .error .type
  | some L => if x.m < nm.x ∨ L.n < nm.x ∨ L.m < 2 then .error .index else .ok (L, params L nm.x x)

/-- `PyRMTB.compute_jac`, `rmtsclib.pyx` 42-44, as called in `rmtb.py` 110-118. -/
def pyJac (s : Sm) (ix1 ix2 : ℤ) (order : ℤ) (t : Arr) : Except Exc Coo := do
  let d ← empty ℝ (t.n * order)
  let i ← empty ℤ (t.n * order)
  match s.rmtsc with
  | .missing => .error .attribute
  | _ => pure ()
  intArg (ix1 - 1)
  intArg (ix2 - 1)
  intArg t.n
  addr t.flat
  addr d
  match s.rmtsc with
  | .ready o => native (computeJac o (ix1 - 1) (ix2 - 1) t.n t.flat ⟨d, i, i⟩)
  | _ => .error (.ub .unset)

/-- `RMTB._compute_jac_raw`, `rmtb.py` 101-125. -/
def jacRaw (s : Sm) (ix1 ix2 : ℤ) (x : Arr) : Except Exc Coo :=
  match s.num with
  | none => .error .attribute
  | some nm => do
    let lt ← table s nm x
    let c ← pyJac s ix1 ix2 nm.order lt.2
    let c ← scale lt.1 ix1 c
    scale lt.1 ix2 c

/-- The check of `predict_values` and `predict_derivatives`, `surrogate_model.py` 288-289, 329-330. -/
def checkX (s : Sm) (x : Arr) : Except Exc Unit :=
  match s.data with
  | none => .error .attribute
  | some xt => if x.m = xt.m then .ok () else .error .value

/-- Entries of the matrix of `predict_values(x)` without extrapolation, `rmts.py` 461-462, 495. -/
def values (s : Sm) (x : Arr) : Except Exc Coo := do
  checkX s x
  jacRaw s 0 0 x

/-- Entries of the matrix of `predict_derivatives(x, kx)` without extrapolation, `rmts.py` 482-483, 495. -/
def derivs (s : Sm) (x : Arr) (kx : ℤ) : Except Exc Coo := do
  checkX s x
  jacRaw s (kx + 1) 0 x

/-- Array `dx` with extrapolation, `rmts.py` 517-518, `rmtsclib.pyx` 38-39. -/
def extDx (s : Sm) (x : Arr) : Except Exc (Buf ℝ) :=
  match s.num with
  | none => .error .attribute
  | some nm => do
    let d ← empty ℝ (x.n * nm.order * nm.x)
    match s.rmtsc with
    | .missing => .error .attribute
    | _ => pure ()
    intArg x.n
    intArg nm.order
    bufArg x.dbl
    addr x.flat
    addr d
    match s.rmtsc with
    | .ready o => native (computeExtDist o.base x.n nm.order.toNat x.flat d)
    | _ => .error (.ub .unset)

/-- Quadrature points in `_compute_energy_terms`, `rmts.py` 199-203, `rmtsclib.pyx` 40-41. -/
def quad (s : Sm) : Except Exc (Buf ℝ) :=
  match s.num with
  | none => .error .attribute
  | some nm => do
    let d ← empty ℝ ((nm.elem.map (2 * ·)).prod * nm.x)
    match s.rmtsc with
    | .missing => .error .attribute
    | _ => pure ()
    intArg (nm.elem.map (2 * ·)).prod
    addr (int32 (nm.elem.map (2 * ·)))
    addr d
    match s.rmtsc with
    | .ready o => native (computeQuadraturePoints o.base (nm.elem.map (2 * ·)).prod.toNat (int32 (nm.elem.map (2 * ·))) d)
    | _ => .error (.ub .unset)

/-- Calls that change the surrogate. -/
inductive Ev where
  | setOrder (o : Opt)
  | setNcp (o : Opt)
  | setLimits (L : Arr)
  | set (xt : Arr)
  | train

/-- State after a call. Training changes nothing of this after `_setup`. -/
def after (s : Sm) : Ev → Sm
  | .setOrder o => { s with order := o }
  | .setNcp o => { s with ncp := o }
  | .setLimits L => { s with xlimits := some L }
  | .set xt => { s with data := some xt }
  | .train => (pyTrain s).1

/-- A new object with the default options, `rmtb.py` 43-56. -/
def Sm.new : Sm := ⟨.num 3, .num 15, none, none, none, .missing⟩

end

end SMT.Native.Rmtb
