import Mathlib.Algebra.Order.Field.Basic
import Mathlib.Logic.Function.Basic

/-!
# Model of the B-spline kernels in `smt/src/rmts/rmtb.cpp`

C arrays are functions `ℕ → K` updated in place (`Function.update`); `K` is an exact ordered field. The C++
function pointers and heap buffers are not modelled. `compute_i_start` returning `-1` (after which the C++
code would read `knots[-1]...`) is `none`.
-/
namespace SMT.BSpline

variable {K : Type} [Field K] [LinearOrder K]

/-- `compute_knot_vector_uniform`, `rmtb.cpp` 11-15. -/
def knotU (order ncp : ℕ) (i : ℕ) : K :=
  (((i : ℤ) - order + 1 : ℤ) : K) / (((ncp : ℤ) - order + 1 : ℤ) : K)

/-- `compute_i_start`, `rmtb.cpp` 17-31 (for `order ≥ 1`). -/
def iStart (order ncp : ℕ) (t : K) (knots : ℕ → K) : Option ℕ :=
  let r := (List.range' (order - 1) (ncp - (order - 1))).foldl
    (fun acc i => if knots i ≤ t ∧ t < knots (i + 1) then some (i - (order - 1)) else acc) none
  if t = knots (order + ncp - 1) then some (ncp - order) else r

/-! ## `compute_basis_0` -/

/-- One body of the middle loop, `rmtb.cpp` 52-60: new value of entry `j` from entries `j`, `j + 1`. -/
def mid0 (knots : ℕ → K) (t : K) (s i j : ℕ) (bj bj1 : K) : K :=
  let n := s + j
  let v := if knots (n + i) ≠ knots n then (t - knots n) / (knots (n + i) - knots n) * bj else 0
  if knots (n + i + 1) ≠ knots (n + 1) then
    v + (knots (n + i + 1) - t) / (knots (n + i + 1) - knots (n + 1)) * bj1
  else v

/-- Body of the degree loop, `rmtb.cpp` 42-67, on the in-place array `b`. -/
def deg0 (knots : ℕ → K) (t : K) (order s i : ℕ) (b : ℕ → K) : ℕ → K :=
  let j1 := order - i - 1
  let j2 := order - 1
  let n1 := s + j1
  let b1 := Function.update b j1
    (if knots (n1 + i + 1) ≠ knots (n1 + 1) then
      (knots (n1 + i + 1) - t) / (knots (n1 + i + 1) - knots (n1 + 1)) * b (j1 + 1) else 0)
  let b2 := (List.range' (j1 + 1) (j2 - (j1 + 1))).foldl
    (fun b j => Function.update b j (mid0 knots t s i j (b j) (b (j + 1)))) b1
  let n2 := s + j2
  Function.update b2 j2
    (if knots (n2 + i) ≠ knots n2 then (t - knots n2) / (knots (n2 + i) - knots n2) * b2 j2 else 0)

/-- The initial array, `rmtb.cpp` 36-39. -/
def init0 (order : ℕ) : ℕ → K := Function.update (fun _ => 0) (order - 1) 1

/-- `compute_basis_0` once `istart` is known, `rmtb.cpp` 36-68. -/
def basis0 (knots : ℕ → K) (t : K) (order s : ℕ) : ℕ → K :=
  (List.range' 1 (order - 1)).foldl (fun b i => deg0 knots t order s i b) (init0 order)

/-- `compute_basis_0`, `rmtb.cpp` 33-70. -/
def computeBasis0 (order ncp : ℕ) (t : K) (knots : ℕ → K) : Option (ℕ × (ℕ → K)) :=
  (iStart order ncp t knots).map fun s => (s, basis0 knots t order s)

/-! ## `compute_basis_1` -/

/-- Body of the inner loop, `rmtb.cpp` 88-108: entries are pairs `(basis0_vec[j], basis1_vec[j])`. -/
def mid1 (knots : ℕ → K) (t : K) (order s i j : ℕ) (c c1 : K × K) : K × K :=
  let n := s + j
  let p1 := if knots (n + i) ≠ knots n then
      let den := knots (n + i) - knots n
      ((t - knots n) / den * c.1, (c.1 + (t - knots n) * c.2) / den)
    else (0, 0)
  let p2 := if j ≠ order - 1 ∧ knots (n + i + 1) ≠ knots (n + 1) then
      let den := knots (n + i + 1) - knots (n + 1)
      ((knots (n + i + 1) - t) / den * c1.1, ((knots (n + i + 1) - t) * c1.2 - c1.1) / den)
    else (0, 0)
  (p1.1 + p2.1, p1.2 + p2.2)

def deg1 (knots : ℕ → K) (t : K) (order s i : ℕ) (b : ℕ → K × K) : ℕ → K × K :=
  let j1 := order - i - 1
  (List.range' j1 (order - j1)).foldl
    (fun b j => Function.update b j (mid1 knots t order s i j (b j) (b (j + 1)))) b

def basis1 (knots : ℕ → K) (t : K) (order s : ℕ) : ℕ → K :=
  fun j => ((List.range' 1 (order - 1)).foldl (fun b i => deg1 knots t order s i b)
    (Function.update (fun _ => (0, 0)) (order - 1) (1, 0)) j).2

/-- `compute_basis_1`, `rmtb.cpp` 72-115. -/
def computeBasis1 (order ncp : ℕ) (t : K) (knots : ℕ → K) : Option (ℕ × (ℕ → K)) :=
  (iStart order ncp t knots).map fun s => (s, basis1 knots t order s)

/-! ## `compute_basis_2` -/

/-- Body of the inner loop, `rmtb.cpp` 135-162; entries are `(basis0, basis1, basis2)`; the last is only
written when `i > 1`. -/
def mid2 (knots : ℕ → K) (t : K) (order s i j : ℕ) (c c1 : K × K × K) : K × K × K :=
  let n := s + j
  let p1 := if knots (n + i) ≠ knots n then
      let den := knots (n + i) - knots n
      ((t - knots n) / den * c.1, (c.1 + (t - knots n) * c.2.1) / den,
        (2 * c.2.1 + (t - knots n) * c.2.2) / den)
    else (0, 0, 0)
  let p2 := if j ≠ order - 1 ∧ knots (n + i + 1) ≠ knots (n + 1) then
      let den := knots (n + i + 1) - knots (n + 1)
      ((knots (n + i + 1) - t) / den * c1.1, ((knots (n + i + 1) - t) * c1.2.1 - c1.1) / den,
        ((knots (n + i + 1) - t) * c1.2.2 - 2 * c1.2.1) / den)
    else (0, 0, 0)
  (p1.1 + p2.1, p1.2.1 + p2.2.1, if 1 < i then p1.2.2 + p2.2.2 else c.2.2)

def deg2 (knots : ℕ → K) (t : K) (order s i : ℕ) (b : ℕ → K × K × K) : ℕ → K × K × K :=
  let j1 := order - i - 1
  (List.range' j1 (order - j1)).foldl
    (fun b j => Function.update b j (mid2 knots t order s i j (b j) (b (j + 1)))) b

def basis2 (knots : ℕ → K) (t : K) (order s : ℕ) : ℕ → K :=
  fun j => ((List.range' 1 (order - 1)).foldl (fun b i => deg2 knots t order s i b)
    (Function.update (fun _ => (0, 0, 0)) (order - 1) (1, 0, 0)) j).2.2

/-- `compute_basis_2`, `rmtb.cpp` 117-170. -/
def computeBasis2 (order ncp : ℕ) (t : K) (knots : ℕ → K) : Option (ℕ × (ℕ → K)) :=
  (iStart order ncp t knots).map fun s => (s, basis2 knots t order s)

end SMT.BSpline
