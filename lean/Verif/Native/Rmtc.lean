import Verif.Native.Rmtb
import Verif.Native.RmtbPy
import Verif.Rmtc.Model
import Mathlib.Algebra.Order.Archimedean.Real.Basic

/-!
# `smt/src/rmts/rmtc.cpp` with its memory, and the Python class around it

The work arrays of the object are fresh in every use, as in `Rmt.lean`. Infinities and NaN are not modelled, with one exception: `find_interval` divides by the length of an interval, and the conversion of the
result to `int` is undefined if that length is 0.
-/
namespace SMT.Native.Rmtc

noncomputable section
open Classical SMT.Native.Rmt SMT.Native.Rmtb

/-- Members of an `RMTC` after `setup`, `rmtc.hpp` 18-22. -/
structure Obj where
  base : Base
  elems : Buf ℤ
  terms : Buf ℤ
  nelem : ℤ
  nterm : ℤ

/-- The products of `setup`, `rmtc.cpp` 34-39. -/
def counts (nx : ℕ) (elems terms : Buf ℤ) : C (ℤ × ℤ) :=
  loop nx (1, 1) fun ix s => do
    let e ← chk (s.1 * (← read elems ix))
    let t ← chk (s.2 * (← read terms ix))
    pure (e, t)

/-- `RMTC::setup`, `rmtc.cpp` 22-40. -/
def setup (nx : ℕ) (lower upper : Buf ℝ) (elems terms : Buf ℤ) : C Obj := do
  let b ← Rmt.setup nx lower upper
  let e ← memcpy (Buf.fresh nx) elems nx
  let t ← memcpy (Buf.fresh nx) terms nx
  let p ← counts nx elems terms
  pure ⟨b, e, t, p.1, p.2⟩

/-- `*xbar`, `rmtc.cpp` 50-58. -/
def local1 (a b x : ℝ) (num index : ℤ) : ℝ :=
  let a2 := a + (b - a) * ((index : ℝ) - 1) / num
  let b2 := a + (b - a) * (index : ℝ) / num
  let bma_d2 := (b2 - a2) / 2
  let apb_d2 := (a2 + b2) / 2
  min 1 (max (-1) ((x - apb_d2) / bma_d2))

/-- `find_interval`, `rmtc.cpp` 42-61. -/
def findInterval (o : Obj) (ix : ℕ) (num : ℤ) (x : ℝ) : C (ℤ × ℝ) := do
  let a ← read o.base.lower ix
  let b ← read o.base.upper ix
  let c ← if b = a then .error .overflow else chk ⌈(x - a) / (b - a) * num⌉
  let index ← chk (min num (max 1 c) - 1)
  pure (index, local1 a b x num (min num (max 1 c)))

/-- `deriv_list`, `xval_list`, `rmtc.cpp` 64-65. -/
def derivList : Buf Bool := Buf.of [false, false, true, true]
def xvalList : Buf ℤ := Buf.of [-1, 1, -1, 1]

/-- New value of `prod`, `rmtc.cpp` 82-94: the `int` is multiplied by a `double` and converted back. -/
def c2nStep (prod t1 power : ℤ) : C ℤ := do
  let deriv ← read derivList t1
  let xval ← read xvalList t1
  if deriv then
    if 1 ≤ power then chk (prod * (power * xval ^ (power - 1).toNat)) else pure 0
  else chk (prod * xval ^ power.toNat)

/-- Body of the loop over the inputs, `rmtc.cpp` 81-97: the entry is written in every turn. -/
def c2nDim (l1 l2 : Buf ℤ) (nterm : ℤ) (i1 i2 : ℕ) (ix : ℕ) (s : ℤ × Buf ℝ) : C (ℤ × Buf ℝ) := do
  let t1 ← read l1 ix
  let power ← read l2 ix
  let prod ← c2nStep s.1 t1 power
  let m ← write s.2 (← lin i1 nterm i2) prod
  pure (prod, m)

/-- `compute_coeff2nodal`, `rmtc.cpp` 63-100. -/
def coeff2nodal (o : Obj) (m : Buf ℝ) : C (Buf ℝ) :=
  loop o.nterm.toNat m fun i1 m => do
    let l1 ← expandIndex o.base.nx o.terms i1 (Buf.fresh o.base.nx)
    loop o.nterm.toNat m fun i2 m => do
      let l2 ← expandIndex o.base.nx o.terms i2 (Buf.fresh o.base.nx)
      let r ← loop o.base.nx (1, m) (c2nDim l1.2 l2.2 o.nterm i1 i2)
      pure r.2

/-- `data[inz] = v; rows[inz] = r; cols[inz] = c; inz += 1;`, `rmtc.cpp` 155-158, 169-172, 232-235: the state is `(inz, arrays)`. -/
def emit (v : ℝ) (r c : ℤ) (st : ℤ × Coo) : C (ℤ × Coo) := do
  let d ← write st.2.data st.1 v
  let i ← write st.2.rows st.1 r
  let j ← write st.2.cols st.1 c
  let z ← chk (st.1 + 1)
  pure (z, ⟨d, i, j⟩)

/-- `derv_map`, `side_map`, `rmtc.cpp` 103-104. -/
def dervMap : Buf ℤ := Buf.of [0, 0, 1, 1]
def sideMap : Buf ℤ := Buf.of [0, 1, 0, 1]

/-- State of the first loop of `compute_uniq2elem`: `ndofs_list`, `nuniq_list`, `ndofs`, `nuniq`. -/
structure Shape where
  dl : Buf ℤ
  ul : Buf ℤ
  d : ℤ
  u : ℤ

/-- First loop of `compute_uniq2elem`, `rmtc.cpp` 106-119. -/
def shapes (o : Obj) : C Shape :=
  loop o.base.nx ⟨Buf.fresh o.base.nx, Buf.fresh o.base.nx, 1, 1⟩ fun ix s => do
    let dl ← write s.dl ix 2
    let n ← chk (1 + (← read o.elems ix))
    let ul ← write s.ul ix n
    let d ← chk (s.d * (← read dl ix))
    let u ← chk (s.u * (← read ul ix))
    pure ⟨dl, ul, d, u⟩

/-- The lists `iderv_list` and `iuniq_list`, `rmtc.cpp` 146-150. -/
def dofLists (nx : ℕ) (el tl : Buf ℤ) : C (Buf ℤ × Buf ℤ) :=
  loop nx (Buf.fresh nx, Buf.fresh nx) fun ix s => do
    let t ← read tl ix
    let d ← read dervMap t
    let dl ← write s.1 ix d
    let side ← read sideMap t
    let e ← read el ix
    let u ← chk (e + side)
    let ul ← write s.2 ix u
    pure (dl, ul)

/-- Body of the loop over the terms, `rmtc.cpp` 129-159. -/
def uniqTerm (o : Obj) (sh : Shape) (el : Buf ℤ) (ielem iterm : ℕ) (st : ℤ × Coo) : C (ℤ × Coo) := do
  let tl ← expandIndex o.base.nx o.terms iterm (Buf.fresh o.base.nx)
  let l ← dofLists o.base.nx el tl.2
  let iderv ← contractIndex o.base.nx sh.dl l.1
  let iuniq ← contractIndex o.base.nx sh.ul l.2
  let r ← lin ielem o.nterm iterm
  let c ← lin iderv.1 sh.u iuniq.1
  emit 1 r c st

/-- `compute_uniq2elem`, `rmtc.cpp` 102-161. -/
def uniq2elem (o : Obj) (c : Coo) : C (ℤ × Coo) := do
  let sh ← shapes o
  loop o.nelem.toNat (0, c) fun ielem st => do
    let el ← expandIndex o.base.nx o.elems ielem (Buf.fresh o.base.nx)
    loop o.nterm.toNat st (uniqTerm o sh el.2 ielem)

/-- Body of the innermost loop, `rmtc.cpp` 168-173. -/
def blockEntry (o : Obj) (mtx : Buf ℝ) (ielem i1 i2 : ℕ) (st : ℤ × Coo) : C (ℤ × Coo) := do
  let v ← lin i1 o.nterm i2 >>= read mtx
  let r ← lin ielem o.nterm i1
  let c ← lin ielem o.nterm i2
  emit v r c st

/-- `compute_full_from_block`, `rmtc.cpp` 163-176. -/
def fullFromBlock (o : Obj) (mtx : Buf ℝ) (c : Coo) : C (ℤ × Coo) :=
  loop o.nelem.toNat (0, c) fun ielem st => loop o.nterm.toNat st fun i1 st => loop o.nterm.toNat st (blockEntry o mtx ielem i1)

/-- `dxb_dx`, `rmtc.cpp` 182-188. -/
def slopes (o : Obj) : C (Buf ℝ) :=
  loop o.base.nx (Buf.fresh o.base.nx) fun ix d => do
    let u ← read o.base.upper ix
    let l ← read o.base.lower ix
    let n ← read o.elems ix
    write d ix (1 / ((u - l) / (n : ℝ) / 2))

/-- `ielem_list` and `xbar`, `rmtc.cpp` 193-203. -/
def locate (o : Obj) (x : Buf ℝ) (i : ℕ) : C (Buf ℤ × Buf ℝ) :=
  loop o.base.nx (Buf.fresh o.base.nx, Buf.fresh o.base.nx) fun ix s => do
    let num ← read o.elems ix
    let v ← lin i o.base.nx ix >>= read x
    let r ← findInterval o ix num v
    let e ← write s.1 ix r.1
    let b ← write s.2 ix r.2
    pure (e, b)

/-- Body of the loop over the inputs, `rmtc.cpp` 213-230. -/
def jacDim (ix1 ix2 : ℤ) (tl : Buf ℤ) (dx xb : Buf ℝ) (ix : ℕ) (prod : ℝ) : C ℝ := do
  let power ← read tl ix
  if (ix : ℤ) ≠ ix1 ∧ (ix : ℤ) ≠ ix2 then
    let b ← read xb ix
    pure (prod * b ^ power.toNat)
  else if (ix : ℤ) = ix1 ∧ (ix : ℤ) = ix2 then
    if 2 ≤ power then
      let b ← read xb ix
      let d ← read dx ix
      let q ← chk (power * (power - 1))
      pure (prod * ((q : ℝ) * b ^ (power - 2).toNat * d * d))
    else pure 0
  else if 1 ≤ power then
    let b ← read xb ix
    let d ← read dx ix
    pure (prod * ((power : ℝ) * b ^ (power - 1).toNat * d))
  else pure 0

/-- Body of the loop over the terms, `rmtc.cpp` 206-236. -/
def jacTerm (o : Obj) (ix1 ix2 : ℤ) (dx xb : Buf ℝ) (ielem : ℤ) (i iterm : ℕ) (st : ℤ × Coo) : C (ℤ × Coo) := do
  let tl ← expandIndex o.base.nx o.terms iterm (Buf.fresh o.base.nx)
  let prod ← loop o.base.nx 1 (jacDim ix1 ix2 tl.2 dx xb)
  let c ← lin ielem o.nterm iterm
  emit prod i c st

/-- Body of the loop over the points, `rmtc.cpp` 192-237. -/
def jacPoint (o : Obj) (ix1 ix2 : ℤ) (dx x : Buf ℝ) (i : ℕ) (st : ℤ × Coo) : C (ℤ × Coo) := do
  let l ← locate o x i
  let ielem ← contractIndex o.base.nx o.elems l.1
  loop o.nterm.toNat st (jacTerm o ix1 ix2 dx l.2 ielem.1 i)

/-- `RMTC::compute_jac`, `rmtc.cpp` 178-238. -/
def computeJac (o : Obj) (ix1 ix2 : ℤ) (n : ℕ) (x : Buf ℝ) (c : Coo) : C (ℤ × Coo) := do
  let dx ← slopes o
  loop n (0, c) (jacPoint o ix1 ix2 dx x)

end

end SMT.Native.Rmtc
