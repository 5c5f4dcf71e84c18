import Verif.Index.Model
import Mathlib.Algebra.Order.Floor.Ring
import Mathlib.Algebra.Order.Field.Basic
import Mathlib.Algebra.BigOperators.Group.Finset.Basic

/-!
# Model of RMTC: `smt/src/rmts/rmtc.cpp` and `smt/surrogate_models/rmtc.py`

`K` is an exact ordered field with a ceiling. Work arrays are lists; `int`s are naturals (overflow not
modelled). Sparse matrices are given by their action: the row `ielem * nterm + iterm` is decoded by division.
`np.linalg.inv` is an arbitrary matrix parameter; theorems assume it is the inverse.
-/
namespace SMT.Rmtc
open SMT.Index

variable {K : Type} [Field K] [LinearOrder K] [FloorRing K]

/-- Per-dimension set-up (`rmtc.py` 51-90): number of elements and limits. -/
structure Axis (K : Type) where
  nelem : ℕ
  lo : K
  hi : K

/-- `find_interval`, `rmtc.cpp` 42-61: `(index, xbar)`. -/
def findInterval (a : Axis K) (x : K) : ℕ × K :=
  let index : ℤ := ⌈(x - a.lo) / (a.hi - a.lo) * a.nelem⌉
  let index := max 1 index
  let index := min (a.nelem : ℤ) index
  let a2 := a.lo + (a.hi - a.lo) * ((index : K) - 1) / a.nelem
  let b2 := a.lo + (a.hi - a.lo) * (index : K) / a.nelem
  let bma_d2 := (b2 - a2) / 2
  let apb_d2 := (a2 + b2) / 2
  let xbar := (x - apb_d2) / bma_d2
  let xbar := max (-1) xbar
  let xbar := min 1 xbar
  ((index - 1).toNat, xbar)

/-- `deriv_list`, `xval_list`, `rmtc.cpp` 64-65. -/
def derivL : ℕ → Bool := fun i => i = 2 || i = 3
def xvalL : ℕ → K := fun i => if i = 0 then -1 else if i = 1 then 1 else if i = 2 then -1 else 1

/-- Body of the `ix` loop of `compute_coeff2nodal`, `rmtc.cpp` 83-96: new value of `prod`. -/
def c2nStep (prod : K) (iterm1 power : ℕ) : K :=
  if derivL iterm1 then
    if 1 ≤ power then prod * (power * xvalL iterm1 ^ (power - 1)) else 0
  else prod * xvalL iterm1 ^ power

/-- `compute_coeff2nodal`, `rmtc.cpp` 63-100, entry `(iterm1, iterm2)`; `nterm_list` is `4` in every
dimension (`rmtc.py` 72). -/
def coeff2nodal (nx iterm1 iterm2 : ℕ) : K :=
  (List.zip (expand (List.replicate nx 4) iterm1) (expand (List.replicate nx 4) iterm2)).foldl
    (fun prod ij => c2nStep prod ij.1 ij.2) 1

/-- `derv_map`, `side_map`, `rmtc.cpp` 103-104. -/
def dervMap : ℕ → ℕ := fun i => if i = 0 then 0 else if i = 1 then 0 else if i = 2 then 1 else 1
def sideMap : ℕ → ℕ := fun i => if i = 0 then 0 else if i = 1 then 1 else if i = 2 then 0 else 1

/-- `compute_uniq2elem`, `rmtc.cpp` 102-161: the column (degree of freedom) of row `(ielem, iterm)`. -/
def uniqCol (nelems : List ℕ) (ielem iterm : ℕ) : ℕ :=
  let ndofs := nelems.map fun _ => 2
  let nuniqs := nelems.map fun n => 1 + n
  let ielems := expand nelems ielem
  let iterms := expand (List.replicate nelems.length 4) iterm
  let iderv := contract ndofs (iterms.map dervMap)
  let iuniq := contract nuniqs (List.zipWith (fun e t => e + sideMap t) ielems iterms)
  iderv * nuniqs.prod + iuniq

/-- `full_dof2coeff * sol`, `rmtc.py` 96-141 and `compute_full_from_block`, `rmtc.cpp` 163-176: coefficient
number `q = ielem * nterm + iterm1`. `minv` is `elem_nodal2coeff`. -/
def coeffs (nelems : List ℕ) (minv : ℕ → ℕ → K) (sol : ℕ → K) (q : ℕ) : K :=
  let nterm := 4 ^ nelems.length
  ∑ iterm2 ∈ Finset.range nterm, minv (q % nterm) iterm2 * sol (uniqCol nelems (q / nterm) iterm2)

/-- Body of the `ix` loop of `compute_jac`, `rmtc.cpp` 212-231. -/
def jacStep (ix1 ix2 : ℤ) (ix : ℕ) (xbar dxb : K) (prod : K) (power : ℕ) : K :=
  if (ix : ℤ) ≠ ix1 ∧ (ix : ℤ) ≠ ix2 then prod * xbar ^ power
  else if (ix : ℤ) = ix1 ∧ (ix : ℤ) = ix2 then
    if 2 ≤ power then prod * (power * ((power : K) - 1) * xbar ^ (power - 2) * dxb * dxb) else 0
  else if 1 ≤ power then prod * (power * xbar ^ (power - 1) * dxb) else 0

/-- `dxb_dx`, `rmtc.cpp` 184-187. -/
def dxb (a : Axis K) : K := 1 / ((a.hi - a.lo) / a.nelem / 2)

/-- The `ix` loop of `compute_jac` for one term. -/
def jacLoop (ix1 ix2 : ℤ) : ℕ → List (Axis K) → List K → List ℕ → K → K
  | ix, a :: as, xb :: xbs, p :: ps, prod =>
    jacLoop ix1 ix2 (ix + 1) as xbs ps (jacStep ix1 ix2 ix xb (dxb a) prod p)
  | _, _, _, _, prod => prod

/-- One row of `RMTC::compute_jac`, `rmtc.cpp` 178-238: entries `(data, col)`. -/
def jacRow (ix1 ix2 : ℤ) (axes : List (Axis K)) (x : List K) : List (K × ℕ) :=
  let iv := List.zipWith findInterval axes x
  let ielem := contract (axes.map (·.nelem)) (iv.map (·.1))
  let nterm := 4 ^ axes.length
  (List.range nterm).map fun iterm =>
    (jacLoop ix1 ix2 0 axes (iv.map (·.2)) (expand (List.replicate axes.length 4) iterm) 1, ielem * nterm + iterm)

/-- Prediction without extrapolation (`rmts.py` 461-463, `rmtc.py` 92-99): `ix1`, `ix2` are 1-based, 0 = none. -/
def predict (axes : List (Axis K)) (minv : ℕ → ℕ → K) (sol : ℕ → K) (ix1 ix2 : ℕ) (x : List K) : K :=
  ((jacRow ((ix1 : ℤ) - 1) ((ix2 : ℤ) - 1) axes x).map fun e =>
    e.1 * coeffs (axes.map (·.nelem)) minv sol e.2).sum

end SMT.Rmtc
