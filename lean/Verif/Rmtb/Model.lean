import Verif.BSpline.Model
import Mathlib.Algebra.BigOperators.Group.Finset.Basic

/-!
# Model of the tensor-product Jacobian of RMTB: `RMTB::compute_jac` (`smt/src/rmts/rmtb.cpp` 195-258) and
`RMTB._compute_jac_raw` (`smt/surrogate_models/rmtb.py` 101-125)

The C++ loops run over dimensions, then points, then entries; every entry `(i, inz_row)` is accumulated
independently over the dimensions in ascending order, so the model computes one row (one point) entry by
entry. The heap buffers and the row-number array are not modelled.
-/
namespace SMT.Rmtb
open SMT.BSpline

variable {K : Type} [Field K] [LinearOrder K]

/-- Per-dimension data fixed by `_setup` (`rmtb.py` 58-99): order, number of control points, limits. -/
structure Axis (K : Type) where
  order : ℕ
  ncp : ℕ
  lo : K
  hi : K

/-- Which basis routine is used for dimension `ix`, `rmtb.cpp` 224-228 (`ix1`, `ix2` are 0-based, `-1` means
none). -/
def mode (ix1 ix2 : ℤ) (ix : ℕ) : ℕ :=
  if (ix : ℤ) ≠ ix1 ∧ (ix : ℤ) ≠ ix2 then 0
  else if (ix : ℤ) = ix1 ∧ (ix : ℤ) ≠ ix2 then 1
  else if (ix : ℤ) ≠ ix1 ∧ (ix : ℤ) = ix2 then 1
  else 2

/-- The function pointer of `rmtb.cpp` 222-230. -/
def computeBasis (m : ℕ) (order ncp : ℕ) (t : K) (knots : ℕ → K) : Option (ℕ × (ℕ → K)) :=
  if m = 0 then computeBasis0 order ncp t knots
  else if m = 1 then computeBasis1 order ncp t knots
  else computeBasis2 order ncp t knots

/-- Product of the sizes after position `ix`: the loops of `rmtb.cpp` 237-240 and 247-250. -/
def tailProd (l : List ℕ) (ix : ℕ) : ℕ := (l.drop (ix + 1)).prod

/-- `inz_dim` for dimension `ix`, `rmtb.cpp` 233-243: successive quotients up to and including `ix`. -/
def digit (orders : List ℕ) (inz ix : ℕ) : ℕ :=
  ((List.range (ix + 1)).foldl (fun (st : ℕ × ℕ) jx =>
    let prod := tailProd orders jx
    let d := st.1 / prod
    (st.1 - d * prod, d)) (inz, 0)).2

/-- One entry of a row, `rmtb.cpp` 204-209 (initialisation) and 252-253 (accumulation): `(data, col)`. -/
def entry (orders ncps : List ℕ) (bas : List (ℕ × (ℕ → K))) (inz : ℕ) : K × ℕ :=
  (List.range orders.length).foldl (fun (st : K × ℕ) ix =>
    let z := digit orders inz ix
    let sb := bas.getD ix (0, fun _ => 0)
    (st.1 * sb.2 z, st.2 + (z + sb.1) * tailProd ncps ix)) (1, 0)

/-- The per-dimension basis evaluations, `rmtb.cpp` 212-230, with dimensions numbered from `ix`. -/
def bases (ix1 ix2 : ℤ) : ℕ → List (Axis K) → List K → Option (List (ℕ × (ℕ → K)))
  | _, [], _ => some []
  | ix, a :: as, ts =>
    match computeBasis (mode ix1 ix2 ix) a.order a.ncp (ts.headD 0) (knotU a.order a.ncp) with
    | none => none
    | some sb => (bases ix1 ix2 (ix + 1) as ts.tail).map (sb :: ·)

/-- One row of `RMTB::compute_jac`. -/
def jacRow (ix1 ix2 : ℤ) (axes : List (Axis K)) (ts : List K) : Option (List (K × ℕ)) :=
  let orders := axes.map (·.order)
  let ncps := axes.map (·.ncp)
  (bases ix1 ix2 0 axes ts).map fun bas => (List.range orders.prod).map (entry orders ncps bas)

/-- The clamped parameter, `rmtb.py` 104-108; `eps` is the literal `1e-15`. -/
def param (eps : K) (a : Axis K) (x : K) : K :=
  min (max ((x - a.lo) / (a.hi - a.lo)) (0 + eps)) (1 - eps)

/-- Division by the range of dimension `ix` (1-based, 0 = none), `rmtb.py` 120-123. -/
def unscale (axes : List (Axis K)) (ix : ℕ) (v : K) : K :=
  if ix = 0 then v
  else match axes[ix - 1]? with
    | some a => v / (a.hi - a.lo)
    | none => v

/-- One row of `RMTB._compute_jac_raw(ix1, ix2, x)`, `rmtb.py` 101-125. -/
def jacRaw (eps : K) (axes : List (Axis K)) (ix1 ix2 : ℕ) (x : List K) : Option (List (K × ℕ)) :=
  (jacRow ((ix1 : ℤ) - 1) ((ix2 : ℤ) - 1) axes (List.zipWith (param eps) axes x)).map fun row =>
    row.map fun e => (unscale axes ix2 (unscale axes ix1 e.1), e.2)

/-- `mtx.dot(sol_coeff)` for one row and one output column, `rmts.py` 461-463, without extrapolation. -/
def predict (eps : K) (axes : List (Axis K)) (coeff : ℕ → K) (ix1 ix2 : ℕ) (x : List K) : Option K :=
  (jacRaw eps axes ix1 ix2 x).map fun row => (row.map fun e => e.1 * coeff e.2).sum

end SMT.Rmtb
