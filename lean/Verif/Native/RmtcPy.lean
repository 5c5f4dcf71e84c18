import Verif.Native.Rmtc

/-!
# `RMTC` (Python) as far as the compiled object is concerned

`smt/surrogate_models/rmtc.py` 40-147 and the calls of the compiled object in `rmts.py` 192-205, 495, 511-512, with `rmtsclib.pyx` 46-71. Printing, caching, the linear solvers and scipy's matrices are left out;
`np.linalg.inv` is a parameter. NaN is not modelled: points and limits are real numbers. The 64-bit integers of numpy do not overflow here (`4 ** nx` would for 32 inputs).
-/
namespace SMT.Native.Rmtc

noncomputable section
open Classical SMT.Native.Rmt SMT.Native.Rmtb

/-- `self.num` as far as it is used below, `rmtc.py` 62-82. -/
structure Num where
  x : ℕ
  elem : List ℤ
  term : ℕ

/-- `RMTC`: options `num_elements`, `xlimits`; the training points; `self.num`, `self.rmtsc`. -/
structure Sm where
  elements : Opt
  xlimits : Option Arr
  data : Option Arr
  num : Option Num
  rmtsc : Handle Obj

/-- `np.array(num["term_list"], np.int32)`, `rmtc.py` 71, 92. -/
def termList (nx : ℕ) : Buf ℤ := int32 (List.replicate nx 4)

/-- `PyRMTC.setup`, `rmtsclib.pyx` 52-55, as called in `rmtc.py` 84-90. -/
def pySetup (nx : ℕ) (L : Arr) (es : List ℤ) : Except Exc Obj := do
  if L.m < 2 then .error .index else .ok ()
  intArg nx
  bufArg L.dbl
  addr (column L 0)
  addr (column L 1)
  addr (int32 es)
  addr (termList nx)
  native (setup nx (column L 0) (column L 1) (int32 es) (termList nx))

/-- The attribute after an attempt to set it up. -/
def installed (s : Sm) : Except Exc Obj → Sm × Except Exc Unit
  | .ok o => ({ s with rmtsc := .ready o }, .ok ())
  | .error e => ({ s with rmtsc := .raw }, .error e)

/-- `_setup` once the option is a list, `rmtc.py` 62-90. -/
def install (s : Sm) (xt : Arr) (es : List ℤ) : Sm × Except Exc Unit :=
  match s.xlimits with
  | none => ({ s with num := some ⟨xt.m, es, 4 ^ xt.m⟩, rmtsc := .raw }, .error .type)
  | some L => installed { s with num := some ⟨xt.m, es, 4 ^ xt.m⟩ } (pySetup xt.m L es)

/-- `RMTC._setup`, `rmtc.py` 51-90: the option is replaced by a list first. -/
def pyTrain (s : Sm) : Sm × Except Exc Unit :=
  match s.data with
  | none => (s, .error .key)
  | some xt => install { s with elements := .arr (s.elements.list xt.m) } xt (s.elements.list xt.m)

/-- A method of the compiled object, `rmtc.py` 98, 110, 124, 139. -/
def call {α : Type} (h : Handle Obj) (f : Obj → C α) : Except Exc α :=
  match h with
  | .missing => .error .attribute
  | .raw => .error (.ub .unset)
  | .ready o => native (f o)

/-- Three arrays of `nnz` cells without values, `rmtc.py` 95-97, 120-123, 135-138. -/
def blank (nnz : ℤ) : Except Exc Coo := do
  let d ← empty ℝ nnz
  let i ← empty ℤ nnz
  pure ⟨d, i, i⟩

/-- `self.rmtsc` must be there before the arguments are looked at. -/
def present (h : Handle Obj) : Except Exc Unit :=
  match h with
  | .missing => .error .attribute
  | _ => .ok ()

/-- `RMTC._compute_jac_raw`, `rmtc.py` 95-102, `rmtsclib.pyx` 69-71: `ix` is 1-based, 0 for none. -/
def jacRaw (s : Sm) (ix1 ix2 : ℤ) (x : Arr) : Except Exc Coo :=
  match s.num with
  | none => .error .attribute
  | some nm => do
    let c ← blank (x.n * nm.term)
    present s.rmtsc
    intArg (ix1 - 1)
    intArg (ix2 - 1)
    intArg x.n
    bufArg x.dbl
    addr x.flat
    addr c.data
    let r ← call s.rmtsc fun o => computeJac o (ix1 - 1) (ix2 - 1) x.n x.flat c
    pure r.2

/-- The check of `predict_values` and `predict_derivatives`, `surrogate_model.py` 288-289, 329-330. -/
def checkX (s : Sm) (x : Arr) : Except Exc Unit :=
  match s.data with
  | none => .error .attribute
  | some xt => if x.m = xt.m then .ok () else .error .value

/-- Entries of the matrix of `predict_values(x)` without extrapolation, `rmts.py` 464, 495. -/
def values (s : Sm) (x : Arr) : Except Exc Coo := do
  checkX s x
  jacRaw s 0 0 x

/-- Entries of the matrix of `predict_derivatives(x, kx)` without extrapolation, `rmts.py` 485, 495. -/
def derivs (s : Sm) (x : Arr) (kx : ℤ) : Except Exc Coo := do
  checkX s x
  jacRaw s (kx + 1) 0 x

/-- `np.zeros(n)`. -/
def zeros (n : ℕ) : Buf ℝ := ⟨n, fun i => if i < n then some 0 else none⟩

/-- `elem_coeff2nodal`, `rmtc.py` 109-110. -/
def c2n (s : Sm) (nm : Num) : Except Exc (Buf ℝ) := do
  present s.rmtsc
  addr (zeros (nm.term * nm.term))
  call s.rmtsc fun o => coeff2nodal o (zeros (nm.term * nm.term))

/-- Entries of `full_uniq2elem`, `rmtc.py` 119-123. -/
def u2e (s : Sm) (nm : Num) : Except Exc Coo := do
  let c ← blank (nm.elem.prod * nm.term)
  present s.rmtsc
  addr c.data
  let r ← call s.rmtsc fun o => uniq2elem o c
  pure r.2

/-- Entries of `full_nodal2coeff`, `rmtc.py` 134-139. -/
def ffb (s : Sm) (nm : Num) (block : Buf ℝ) : Except Exc Coo := do
  let c ← blank ((nm.term : ℤ) ^ 2 * nm.elem.prod)
  present s.rmtsc
  addr block
  addr c.data
  let r ← call s.rmtsc fun o => fullFromBlock o block c
  pure r.2

/-- The two sparse matrices of `_compute_dof2coeff`, `rmtc.py` 104-149; `inv` is `np.linalg.inv` on the flattened matrix. -/
def dof2coeff (s : Sm) (inv : Buf ℝ → Except Exc (Buf ℝ)) : Except Exc (Coo × Coo) :=
  match s.num with
  | none => .error .attribute
  | some nm => do
    let m ← c2n s nm
    let b ← inv m
    let u ← u2e s nm
    let f ← ffb s nm b
    pure (u, f)

/-- Calls that change the surrogate. -/
inductive Ev where
  | setElements (o : Opt)
  | setLimits (L : Arr)
  | set (xt : Arr)
  | train

/-- State after a call. Training changes nothing of this after `_setup`. -/
def after (s : Sm) : Ev → Sm
  | .setElements o => { s with elements := o }
  | .setLimits L => { s with xlimits := some L }
  | .set xt => { s with data := some xt }
  | .train => (pyTrain s).1

/-- A new object with the default options, `rmtc.py` 44-49. -/
def Sm.new : Sm := ⟨.num 4, none, none, none, .missing⟩

end

end SMT.Native.Rmtc
