import Verif.Fp.Core
import Verif.Rmtb.Model

/-!
# Model: B-spline values and RMTB predictions in rounded arithmetic

Every arithmetic operation on doubles is followed by `R.rnd`; index arithmetic and comparisons are exact. The span
search `BSpline.iStart` only compares, so it is the one of C23, on the rounded knots. Values only (`ix1 = ix2 = -1`, that is
`compute_basis_0`); a compiler that fuses multiplication and addition is not modelled.
-/
namespace SMT.Fp
open SMT.BSpline SMT.Rmtb

variable {K : Type} [Field K] [LinearOrder K] [IsStrictOrderedRing K]

/-- `compute_knot_vector_uniform`, `rmtb.cpp` 11-15 (`1. * int` is exact). -/
def knotF (R : Rounding K) (order ncp i : ℕ) : K :=
  R.rnd ((((i : ℤ) - order + 1 : ℤ) : K) / (((ncp : ℤ) - order + 1 : ℤ) : K))

/-- `(a - b) / (c - d) * v`, the form of all terms of `rmtb.cpp` 48-64. -/
def termF (R : Rounding K) (a b c d v : K) : K := R.rnd (R.rnd (R.rnd (a - b) / R.rnd (c - d)) * v)

/-- One body of the middle loop, `rmtb.cpp` 52-60. -/
def mid0F (R : Rounding K) (knots : ℕ → K) (t : K) (s i j : ℕ) (bj bj1 : K) : K :=
  let n := s + j
  let v := if knots (n + i) ≠ knots n then termF R t (knots n) (knots (n + i)) (knots n) bj else 0
  if knots (n + i + 1) ≠ knots (n + 1) then
    R.rnd (v + termF R (knots (n + i + 1)) t (knots (n + i + 1)) (knots (n + 1)) bj1)
  else v

/-- Body of the degree loop, `rmtb.cpp` 42-67, on the in-place array `b`. -/
def deg0F (R : Rounding K) (knots : ℕ → K) (t : K) (order s i : ℕ) (b : ℕ → K) : ℕ → K :=
  let j1 := order - i - 1
  let j2 := order - 1
  let n1 := s + j1
  let b1 := Function.update b j1
    (if knots (n1 + i + 1) ≠ knots (n1 + 1) then
      termF R (knots (n1 + i + 1)) t (knots (n1 + i + 1)) (knots (n1 + 1)) (b (j1 + 1)) else 0)
  let b2 := (List.range' (j1 + 1) (j2 - (j1 + 1))).foldl
    (fun b j => Function.update b j (mid0F R knots t s i j (b j) (b (j + 1)))) b1
  let n2 := s + j2
  Function.update b2 j2
    (if knots (n2 + i) ≠ knots n2 then termF R t (knots n2) (knots (n2 + i)) (knots n2) (b2 j2) else 0)

/-- `compute_basis_0` once `istart` is known, `rmtb.cpp` 36-68. -/
def basis0F (R : Rounding K) (knots : ℕ → K) (t : K) (order s : ℕ) : ℕ → K :=
  (List.range' 1 (order - 1)).foldl (fun b i => deg0F R knots t order s i b) (init0 order)

/-- `compute_basis_0` on the uniform knots, `rmtb.cpp` 33-70, 215-230. -/
def computeBasisF (R : Rounding K) (order ncp : ℕ) (t : K) : Option (ℕ × (ℕ → K)) :=
  (iStart order ncp t (knotF R order ncp)).map fun s => (s, basis0F R (knotF R order ncp) t order s)

/-- The per-dimension basis evaluations, `rmtb.cpp` 212-230. -/
def basesF (R : Rounding K) : List (Axis K) → List K → Option (List (ℕ × (ℕ → K)))
  | [], _ => some []
  | a :: as, ts =>
    match computeBasisF R a.order a.ncp (ts.headD 0) with
    | none => none
    | some sb => (basesF R as ts.tail).map (sb :: ·)

/-- One entry of a row, `rmtb.cpp` 204-209 and 252-253: `(data, col)`. -/
def entryF (R : Rounding K) (orders ncps : List ℕ) (bas : List (ℕ × (ℕ → K))) (inz : ℕ) : K × ℕ :=
  (List.range orders.length).foldl (fun (st : K × ℕ) ix =>
    let z := digit orders inz ix
    let sb := bas.getD ix (0, fun _ => 0)
    (R.rnd (st.1 * sb.2 z), st.2 + (z + sb.1) * tailProd ncps ix)) (1, 0)

/-- The clamped parameter, `rmtb.py` 104-108; `eps` is the literal `1e-15`. -/
def paramF (R : Rounding K) (eps : K) (a : Axis K) (x : K) : K :=
  min (max (R.rnd (R.rnd (x - a.lo) / R.rnd (a.hi - a.lo))) (R.rnd (0 + eps))) (R.rnd (1 - eps))

/-- One row of `RMTB._compute_jac_raw(0, 0, x)`, `rmtb.py` 101-125, `rmtb.cpp` 195-258. -/
def jacRowF (R : Rounding K) (eps : K) (axes : List (Axis K)) (x : List K) : Option (List (K × ℕ)) :=
  let orders := axes.map (·.order)
  (basesF R axes (List.zipWith (paramF R eps) axes x)).map fun bas =>
    (List.range orders.prod).map (entryF R orders (axes.map (·.ncp)) bas)

/-- `mtx.dot(sol_coeff)` for one row and one output, `rmts.py` 461-468 with `rmts.py` 491-540, for a point inside the limits or
without extrapolation (inside, the extrapolation terms are products with zero). SciPy adds the products column by column; by
`C102_row` that is the order of the entries. -/
def predictF (R : Rounding K) (eps : K) (axes : List (Axis K)) (coeff : ℕ → K) (x : List K) : Option K :=
  (jacRowF R eps axes x).map fun row => row.foldl (fun y e => R.rnd (y + R.rnd (e.1 * coeff e.2))) 0

end SMT.Fp
