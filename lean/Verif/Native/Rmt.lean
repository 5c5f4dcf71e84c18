import Verif.Native.C
import Verif.Index.Model

/-!
# `smt/src/rmts/utils.cpp` and `rmts.cpp` with their memory

The work arrays `work_int_nx_*` and `work_double_nx_*` of the object are fresh in every call (their contents on entry are not used; a program that used them would have no result in this model).
-/
namespace SMT.Native.Rmt

noncomputable section
open Classical

/-- `prod = 1; for (kx = k; kx < nx; kx++) prod *= nlist[kx];`, `utils.cpp` 7-10, `rmtb.cpp` 199-201 (`k = 0`), 237-240, 247-250. -/
def prodFrom (nx : ℕ) (nl : Buf ℤ) (k : ℕ) : C ℤ :=
  loop (nx - k) 1 fun j p => do
    let v ← read nl ((k + j : ℕ) : ℤ)
    chk (p * v)

/-- `expand_index`, `utils.cpp` 3-14. -/
def expandIndex (nx : ℕ) (nl : Buf ℤ) (index : ℤ) (il : Buf ℤ) : C (ℤ × Buf ℤ) :=
  loop nx (index, il) fun ix s => do
    let prod ← prodFrom nx nl (ix + 1)
    let q ← cdiv s.1 prod
    let il ← write s.2 ix q
    let m ← chk (q * prod)
    let rem ← chk (s.1 - m)
    pure (rem, il)

/-- `contract_index`, `utils.cpp` 16-26: the state is `(index, prod)`. -/
def contractIndex (nx : ℕ) (nl il : Buf ℤ) : C (ℤ × ℤ) :=
  loop nx (0, 1) fun k s => do
    let i ← read il ((nx - 1 - k : ℕ) : ℤ)
    let m ← chk (i * s.2)
    let index ← chk (s.1 + m)
    let v ← read nl ((nx - 1 - k : ℕ) : ℤ)
    let prod ← chk (s.2 * v)
    pure (index, prod)

/-- Members of an `RMTS` after `setup`, `rmts.hpp` 14-27. -/
structure Base where
  nx : ℕ
  lower : Buf ℝ
  upper : Buf ℝ

/-- `RMTS::setup`, `rmts.cpp` 44-77. -/
def setup (nx : ℕ) (lower upper : Buf ℝ) : C Base := do
  let l ← memcpy (Buf.fresh nx) lower nx
  let u ← memcpy (Buf.fresh nx) upper nx
  pure ⟨nx, l, u⟩

/-- Index `i * nterm * nx + iterm * nx + ix`, `rmts.cpp` 90. -/
def extIdx (o : Base) (nterm i iterm ix : ℕ) : C ℤ := do
  let a ← chk ((i : ℤ) * nterm)
  let a ← chk (a * o.nx)
  let b ← chk ((iterm : ℤ) * o.nx)
  let c ← chk (a + b)
  chk (c + ix)

/-- Distance to the domain in one coordinate, `rmts.cpp` 84-88. -/
def extWork (o : Base) (x : Buf ℝ) (i ix : ℕ) : C ℝ := do
  let w ← lin i o.nx ix >>= read x
  let lo ← read o.lower ix
  let hi ← read o.upper ix
  let y ← lin i o.nx ix >>= read x
  pure (y - min hi (max lo w))

/-- `RMTS::compute_ext_dist`, `rmts.cpp` 79-94. -/
def computeExtDist (o : Base) (n nterm : ℕ) (x dx : Buf ℝ) : C (Buf ℝ) :=
  loop n dx fun i d => loop o.nx d fun ix d => do
    let w ← extWork o x i ix
    loop nterm d fun iterm d => do write d (← extIdx o nterm i iterm ix) w

/-- `RMTS::compute_quadrature_points`, `rmts.cpp` 96-109. -/
def computeQuadraturePoints (o : Base) (n : ℕ) (nl : Buf ℤ) (x : Buf ℝ) : C (Buf ℝ) :=
  loop n x fun i x => do
    let il ← expandIndex o.nx nl i (Buf.fresh o.nx)
    loop o.nx x fun ix x => do
      let e ← read il.2 ix
      let m ← read nl ix
      let lo ← read o.lower ix
      let hi ← read o.upper ix
      let t : ℝ := (1 + 2 * (e : ℝ)) / 2 / (m : ℝ)
      write x (← lin i o.nx ix) (lo + t * (hi - lo))

end

end SMT.Native.Rmt
