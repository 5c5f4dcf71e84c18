import Verif.Native.Rmt
import Verif.Rmtb.Model

/-!
# `smt/src/rmts/rmtb.cpp` with its memory

The numbers computed here are those of `Verif/BSpline/Model.lean` and `Verif/Rmtb/Model.lean` (proved in `RmtbProps.lean`); new is where they are read from and written to. Sums in indices of `knots` and
`basis_vec` are not checked for overflow: such an index would be outside anyway. The buffers are released at the end of each function; `delete[]` is not modelled.
-/
namespace SMT.Native.Rmtb

noncomputable section
open Classical SMT.Native.Rmt

/-- `compute_knot_vector_uniform`, `rmtb.cpp` 11-15. -/
def knotVector (order ncp : ℤ) (k : Buf ℝ) : C (Buf ℝ) := do
  let m ← chk (order + ncp)
  loop m.toNat k fun i k => do
    let a ← chk ((i : ℤ) - order)
    let a ← chk (a + 1)
    let b ← chk (ncp - order)
    let b ← chk (b + 1)
    write k i ((a : ℝ) / (b : ℝ))

/-- Body of the loop of `compute_i_start`, `rmtb.cpp` 20-24: the second knot is only read if the first comparison holds. -/
def spanStep (order : ℤ) (t : ℝ) (k : Buf ℝ) (j : ℕ) (s : ℤ) : C ℤ := do
  let a ← read k (order - 1 + j)
  if a ≤ t then
    let b ← read k (order - 1 + j + 1)
    pure (if t < b then order - 1 + j - order + 1 else s)
  else pure s

/-- `compute_i_start`, `rmtb.cpp` 17-31. -/
def iStart (order ncp : ℤ) (t : ℝ) (k : Buf ℝ) : C ℤ := do
  let s ← loop (ncp - (order - 1)).toNat (-1) (spanStep order t k)
  let l ← read k (order + ncp - 1)
  pure (if t = l then ncp - order else s)

/-! ## `compute_basis_0` -/

/-- `rmtb.cpp` 47-51. -/
def first0 (s : ℤ) (t : ℝ) (k : Buf ℝ) (i j1 : ℤ) (b : Buf ℝ) : C (Buf ℝ) := do
  let a ← read k (s + j1 + i + 1)
  let c ← read k (s + j1 + 1)
  if a ≠ c then
    let v ← read b (j1 + 1)
    write b j1 ((a - t) / (a - c) * v)
  else write b j1 0

/-- `rmtb.cpp` 54-58, 63-67. -/
def last0 (s : ℤ) (t : ℝ) (k : Buf ℝ) (i j : ℤ) (b : Buf ℝ) : C (Buf ℝ) := do
  let a ← read k (s + j + i)
  let c ← read k (s + j)
  if a ≠ c then
    let v ← read b j
    write b j ((t - c) / (a - c) * v)
  else write b j 0

/-- `rmtb.cpp` 59-61. -/
def add0 (s : ℤ) (t : ℝ) (k : Buf ℝ) (i j : ℤ) (b : Buf ℝ) : C (Buf ℝ) := do
  let a ← read k (s + j + i + 1)
  let c ← read k (s + j + 1)
  if a ≠ c then
    let v ← read b j
    let w ← read b (j + 1)
    write b j (v + (a - t) / (a - c) * w)
  else pure b

/-- Body of the middle loop, `rmtb.cpp` 52-62. -/
def mid0 (s : ℤ) (t : ℝ) (k : Buf ℝ) (i j : ℤ) (b : Buf ℝ) : C (Buf ℝ) := do
  let b ← last0 s t k i j b
  add0 s t k i j b

/-- Body of the degree loop, `rmtb.cpp` 42-69. -/
def deg0 (order s : ℤ) (t : ℝ) (k : Buf ℝ) (i : ℤ) (b : Buf ℝ) : C (Buf ℝ) := do
  let j1 := order - i - 1
  let j2 := order - 1
  let b ← first0 s t k i j1 b
  let b ← loop (j2 - (j1 + 1)).toNat b fun j b => mid0 s t k i (j1 + 1 + j) b
  last0 s t k i j2 b

/-- `for (i...) vec[i] = 0.;`, `rmtb.cpp` 36-38, 77-80, 123-127. -/
def zeros (order : ℤ) (b : Buf ℝ) : C (Buf ℝ) := loop order.toNat b fun i b => write b i 0

/-- `compute_basis_0`, `rmtb.cpp` 33-71. -/
def computeBasis0 (order ncp : ℤ) (t : ℝ) (k b : Buf ℝ) : C (ℤ × Buf ℝ) := do
  let s ← iStart order ncp t k
  let b ← zeros order b
  let b ← write b (order - 1) 1
  let b ← loop (order - 1).toNat b fun i b => deg0 order s t k (i + 1) b
  pure (s, b)

/-! ## `compute_basis_1` -/

/-- `b1`, `f1`, `rmtb.cpp` 90-97. -/
def left1 (s : ℤ) (t : ℝ) (k : Buf ℝ) (i j : ℤ) (b : Buf ℝ × Buf ℝ) : C (ℝ × ℝ) := do
  let a ← read k (s + j + i)
  let c ← read k (s + j)
  if a ≠ c then
    let v0 ← read b.1 j
    let v1 ← read b.2 j
    pure ((t - c) / (a - c) * v0, (v0 + (t - c) * v1) / (a - c))
  else pure (0, 0)

/-- `b2`, `f2`, `rmtb.cpp` 98-105. -/
def right1 (order s : ℤ) (t : ℝ) (k : Buf ℝ) (i j : ℤ) (b : Buf ℝ × Buf ℝ) : C (ℝ × ℝ) :=
  if j ≠ order - 1 then do
    let a ← read k (s + j + i + 1)
    let c ← read k (s + j + 1)
    if a ≠ c then
      let v0 ← read b.1 (j + 1)
      let v1 ← read b.2 (j + 1)
      pure ((a - t) / (a - c) * v0, ((a - t) * v1 - v0) / (a - c))
    else pure (0, 0)
  else pure (0, 0)

/-- Body of the inner loop, `rmtb.cpp` 86-109. -/
def mid1 (order s : ℤ) (t : ℝ) (k : Buf ℝ) (i j : ℤ) (b : Buf ℝ × Buf ℝ) : C (Buf ℝ × Buf ℝ) := do
  let l ← left1 s t k i j b
  let r ← right1 order s t k i j b
  let b0 ← write b.1 j (l.1 + r.1)
  let b1 ← write b.2 j (l.2 + r.2)
  pure (b0, b1)

/-- Body of the degree loop, `rmtb.cpp` 83-109. -/
def deg1 (order s : ℤ) (t : ℝ) (k : Buf ℝ) (i : ℤ) (b : Buf ℝ × Buf ℝ) : C (Buf ℝ × Buf ℝ) :=
  loop (order - (order - i - 1)).toNat b fun j b => mid1 order s t k i (order - i - 1 + j) b

/-- `compute_basis_1`, `rmtb.cpp` 73-115. -/
def computeBasis1 (order ncp : ℤ) (t : ℝ) (k b : Buf ℝ) : C (ℤ × Buf ℝ) := do
  let s ← iStart order ncp t k
  let b0 ← alloc order
  let b0 ← zeros order b0
  let b1 ← zeros order b
  let b0 ← write b0 (order - 1) 1
  let b ← loop (order - 1).toNat (b0, b1) fun i b => deg1 order s t k (i + 1) b
  pure (s, b.2)

/-! ## `compute_basis_2` -/

/-- `b1`, `f1`, `s1`, `rmtb.cpp` 137-146. -/
def left2 (s : ℤ) (t : ℝ) (k : Buf ℝ) (i j : ℤ) (b : Buf ℝ × Buf ℝ × Buf ℝ) : C (ℝ × ℝ × ℝ) := do
  let a ← read k (s + j + i)
  let c ← read k (s + j)
  if a ≠ c then
    let v0 ← read b.1 j
    let v1 ← read b.2.1 j
    let v2 ← read b.2.2 j
    pure ((t - c) / (a - c) * v0, (v0 + (t - c) * v1) / (a - c), (2 * v1 + (t - c) * v2) / (a - c))
  else pure (0, 0, 0)

/-- `b2`, `f2`, `s2`, `rmtb.cpp` 147-156. -/
def right2 (order s : ℤ) (t : ℝ) (k : Buf ℝ) (i j : ℤ) (b : Buf ℝ × Buf ℝ × Buf ℝ) : C (ℝ × ℝ × ℝ) :=
  if j ≠ order - 1 then do
    let a ← read k (s + j + i + 1)
    let c ← read k (s + j + 1)
    if a ≠ c then
      let v0 ← read b.1 (j + 1)
      let v1 ← read b.2.1 (j + 1)
      let v2 ← read b.2.2 (j + 1)
      pure ((a - t) / (a - c) * v0, ((a - t) * v1 - v0) / (a - c), ((a - t) * v2 - 2 * v1) / (a - c))
    else pure (0, 0, 0)
  else pure (0, 0, 0)

/-- `rmtb.cpp` 159-161. -/
def set2 (i j : ℤ) (v : ℝ) (b : Buf ℝ) : C (Buf ℝ) := if 1 < i then write b j v else pure b

/-- Body of the inner loop, `rmtb.cpp` 133-162. -/
def mid2 (order s : ℤ) (t : ℝ) (k : Buf ℝ) (i j : ℤ) (b : Buf ℝ × Buf ℝ × Buf ℝ) : C (Buf ℝ × Buf ℝ × Buf ℝ) := do
  let l ← left2 s t k i j b
  let r ← right2 order s t k i j b
  let b0 ← write b.1 j (l.1 + r.1)
  let b1 ← write b.2.1 j (l.2.1 + r.2.1)
  let b2 ← set2 i j (l.2.2 + r.2.2) b.2.2
  pure (b0, b1, b2)

/-- Body of the degree loop, `rmtb.cpp` 130-163. -/
def deg2 (order s : ℤ) (t : ℝ) (k : Buf ℝ) (i : ℤ) (b : Buf ℝ × Buf ℝ × Buf ℝ) : C (Buf ℝ × Buf ℝ × Buf ℝ) :=
  loop (order - (order - i - 1)).toNat b fun j b => mid2 order s t k i (order - i - 1 + j) b

/-- `compute_basis_2`, `rmtb.cpp` 117-170. -/
def computeBasis2 (order ncp : ℤ) (t : ℝ) (k b : Buf ℝ) : C (ℤ × Buf ℝ) := do
  let s ← iStart order ncp t k
  let b0 ← alloc order
  let b1 ← alloc order
  let b0 ← zeros order b0
  let b1 ← zeros order b1
  let b2 ← zeros order b
  let b0 ← write b0 (order - 1) 1
  let b ← loop (order - 1).toNat (b0, b1, b2) fun i b => deg2 order s t k (i + 1) b
  pure (s, b.2.2)

/-! ## `compute_jac` -/

/-- Members of an `RMTB` after `setup`, `rmtb.hpp` 14-16. -/
structure Obj where
  base : Base
  order : Buf ℤ
  ncp : Buf ℤ

/-- `RMTB::setup`, `rmtb.cpp` 182-193. -/
def setup (nx : ℕ) (lower upper : Buf ℝ) (order ncp : Buf ℤ) : C Obj := do
  let b ← Rmt.setup nx lower upper
  let q ← memcpy (Buf.fresh nx) order nx
  let m ← memcpy (Buf.fresh nx) ncp nx
  pure ⟨b, q, m⟩

/-- The three output arrays of a sparse matrix. -/
structure Coo where
  data : Buf ℝ
  rows : Buf ℤ
  cols : Buf ℤ

/-- `rmtb.cpp` 203-209. -/
def initCoo (n : ℕ) (nnz : ℤ) (c : Coo) : C Coo :=
  loop n c fun i c => loop nnz.toNat c fun z c => do
    let d ← write c.data (← lin i nnz z) 1
    let r ← write c.rows (← lin i nnz z) i
    let k ← write c.cols (← lin i nnz z) 0
    pure ⟨d, r, k⟩

/-- The function pointer, `rmtb.cpp` 222-230. -/
def basis (m : ℕ) (order ncp : ℤ) (t : ℝ) (k b : Buf ℝ) : C (ℤ × Buf ℝ) :=
  if m = 0 then computeBasis0 order ncp t k b else if m = 1 then computeBasis1 order ncp t k b else computeBasis2 order ncp t k b

/-- `inz_dim`, `rmtb.cpp` 233-243: the state is `(rem, inz_dim)`; `inz_dim` has no value before the first turn, of which there is at least one. -/
def digit (o : Obj) (ix z : ℕ) : C (ℤ × ℤ) :=
  loop (ix + 1) ((z : ℤ), 0) fun jx st => do
    let prod ← prodFrom o.base.nx o.order (jx + 1)
    let d ← cdiv st.1 prod
    let m ← chk (d * prod)
    let r ← chk (st.1 - m)
    pure (r, d)

/-- Body of the innermost loop, `rmtb.cpp` 233-254. -/
def accum (o : Obj) (nnz : ℤ) (ix i z : ℕ) (s : ℤ) (b : Buf ℝ) (c : Coo) : C Coo := do
  let d ← digit o ix z
  let a ← lin i nnz z
  let p ← prodFrom o.base.nx o.ncp (ix + 1)
  let v ← read c.data a
  let w ← read b d.2
  let data ← write c.data a (v * w)
  let u ← read c.cols a
  let e ← chk (d.2 + s)
  let e ← chk (e * p)
  let e ← chk (u + e)
  let cols ← write c.cols a e
  pure ⟨data, c.rows, cols⟩

/-- Body of the loop over the points, `rmtb.cpp` 220-255: the state is `(basis_vec, output)`. -/
def point (o : Obj) (ix1 ix2 : ℤ) (nnz : ℤ) (params : Buf ℝ) (ix : ℕ) (q m : ℤ) (kn : Buf ℝ) (i : ℕ) (st : Buf ℝ × Coo) : C (Buf ℝ × Coo) := do
  let t ← lin i o.base.nx ix >>= read params
  let sb ← basis (SMT.Rmtb.mode ix1 ix2 ix) q m t kn st.1
  let c ← loop nnz.toNat st.2 fun z c => accum o nnz ix i z sb.1 sb.2 c
  pure (sb.2, c)

/-- Body of the loop over the inputs, `rmtb.cpp` 211-259. -/
def dim (o : Obj) (ix1 ix2 : ℤ) (n : ℕ) (nnz : ℤ) (params : Buf ℝ) (ix : ℕ) (c : Coo) : C Coo := do
  let q ← read o.order ix
  let m ← read o.ncp ix
  let kn ← alloc (← chk (q + m))
  let bv ← alloc q
  let kn ← knotVector q m kn
  let r ← loop n (bv, c) (point o ix1 ix2 nnz params ix q m kn)
  pure r.2

/-- `RMTB::compute_jac`, `rmtb.cpp` 195-260. -/
def computeJac (o : Obj) (ix1 ix2 : ℤ) (n : ℕ) (params : Buf ℝ) (c : Coo) : C Coo := do
  let nnz ← prodFrom o.base.nx o.order 0
  let c ← initCoo n nnz c
  loop o.base.nx c (dim o ix1 ix2 n nnz params)

end

end SMT.Native.Rmtb
