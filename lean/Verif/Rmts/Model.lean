import Mathlib.Algebra.Order.Field.Basic
import Mathlib.Algebra.BigOperators.Fin
import Mathlib.Algebra.BigOperators.Group.List.Basic
import Verif.Index.Model

/-!
# Model of `smt/surrogate_models/rmts.py` and `smt/src/rmts/rmts.cpp`

Vectors and matrices are functions on `Fin`, exact arithmetic. Sparse storage formats, printing and timing are
not modelled. The linear solver and the line search are parameters.
-/
namespace SMT.Rmts

variable {K : Type} [Field K]

/-! ## Training objective -/

/-- One entry of `full_jac_dict` with its targets (`rmts.py` 147-175, 285-290): `(full_jac, c, yt[:, ind_y])`. -/
structure Block (K : Type) (n : ℕ) where
  nt : ℕ
  J : Fin nt → Fin n → K
  c : K
  y : Fin nt → K

variable {n : ℕ}

/-- `full_jac * sol - yt`. -/
def Block.res (b : Block K n) (sol : Fin n → K) (r : Fin b.nt) : K := (∑ j, b.J r j * sol j) - b.y r

/-- `_opt_func`, `rmts.py` 228-238. -/
def optFunc (H : Fin n → Fin n → K) (bs : List (Block K n)) (p : ℕ) (sol : Fin n → K) : K :=
  (1 / 2) * (∑ i, sol i * ∑ j, H i j * sol j) +
    (bs.map fun b => (1 / 2) * b.c * ∑ r, b.res sol r ^ p).sum

/-- `_opt_grad`, `rmts.py` 240-250. -/
def optGrad (H : Fin n → Fin n → K) (bs : List (Block K n)) (p : ℕ) (sol : Fin n → K) (i : Fin n) : K :=
  (∑ j, H i j * sol j) +
    (bs.map fun b => ∑ r, (1 / 2) * b.c * b.J r i * (p : K) * b.res sol r ^ (p - 1)).sum

/-- `_opt_hess`, `rmts.py` 266-278. -/
def optHess (H : Fin n → Fin n → K) (bs : List (Block K n)) (p : ℕ) (sol : Fin n → K) (i j : Fin n) : K :=
  H i j + (bs.map fun b => ∑ r, (1 / 2) * b.c * b.J r i * ((p : K) * ((p : K) - 1) * b.res sol r ^ (p - 2)) * b.J r j).sum

/-- `_opt_dgrad_dyt`, `rmts.py` 252-264 (entry `i, r`). -/
def optDgradDyt (b : Block K n) (p : ℕ) (sol : Fin n → K) (i : Fin n) (r : Fin b.nt) : K :=
  -((1 / 2) * b.c * b.J r i * ((p : K) * ((p : K) - 1) * b.res sol r ^ (p - 2)))

/-- The quadratic part (`rmts.py` 132-136, 177-226, 392-402): `regularization_weight * I +
energy_weight * ∑_k coef_k * S_kᵀ S_k`, with `S_k` the matrix of second derivatives along input `k` at the
quadrature points (`nq` rows). -/
def fullHess (reg ew : K) (terms : List (K × (nq : ℕ) × (Fin nq → Fin n → K))) (i j : Fin n) : K :=
  (if i = j then reg else 0) + ew * (terms.map fun t => t.1 * ∑ q, t.2.2 q i * t.2.2 q j).sum

/-- One pass of the `while` loop of `_run_newton_solver`, `rmts.py` 317-353, repeated at most `maxiter` times while
`norm > tol`. `solve mtx rhs` is the linear solver and `ls x d` the line search called with step `1.0`; the squared
norm is compared with the squared tolerance (equivalent for a non-negative tolerance). Returns the final iterate and
the matrix kept in `self.mtx` (`none` when no iteration ran). -/
def newton [LinearOrder K] (H : Fin n → Fin n → K) (bs : List (Block K n)) (p : ℕ) (tol : K)
    (solve : (Fin n → Fin n → K) → (Fin n → K) → (Fin n → K)) (ls : ℕ → (Fin n → K) → (Fin n → K) → (Fin n → K)) :
    ℕ → (Fin n → K) → Option (Fin n → Fin n → K) → (Fin n → K) × Option (Fin n → Fin n → K)
  | 0, sol, m => (sol, m)
  | it + 1, sol, m =>
    if tol ^ 2 < ∑ i, optGrad H bs p sol i ^ 2 then
      let mtx := optHess H bs p sol
      let d := solve mtx (fun i => -optGrad H bs p sol i)
      newton H bs p tol solve ls it (ls p sol d) (some mtx)
    else (sol, m)

/-- `_solve` for one output, `rmts.py` 355-385: from zero, one iteration with `approx_order = 2`, then up to
`nonlinear_maxiter` with the user's order. -/
def solveOne [LinearOrder K] (H : Fin n → Fin n → K) (bs : List (Block K n)) (p maxiter : ℕ) (tol : K)
    (solve : (Fin n → Fin n → K) → (Fin n → K) → (Fin n → K)) (ls : ℕ → (Fin n → K) → (Fin n → K) → (Fin n → K)) :
    (Fin n → K) × Option (Fin n → Fin n → K) :=
  let r := newton H bs 2 tol solve ls 1 (fun _ => 0) none
  newton H bs p tol solve ls maxiter r.1 r.2

/-! ## Prediction matrix and extrapolation -/

/-- `compute_ext_dist`, `rmts.cpp` 77-92, for one coordinate. -/
def extDist [LinearOrder K] (lo hi x : K) : K := x - min hi (max lo x)

/-- `_compute_prediction_mtx`, `rmts.py` 491-540, for one point. `raw ix1 ix2 x` is `_compute_jac_raw` (1-based
indices, 0 = none). The column array is overwritten by each call, as in the code. -/
def predRow [LinearOrder K] (raw : ℕ → ℕ → List K → List (K × ℕ)) (limits : List (K × K)) (extrapolate : Bool)
    (kx : ℕ) (x : List K) : List (K × ℕ) :=
  let data := raw kx 0 x
  if extrapolate then
    let dx := List.zipWith (fun l xk => extDist l.1 l.2 xk) limits x
    let isext : ℕ → K := fun k => if dx.getD k 0 = 0 then 0 else 1
    (List.range limits.length).foldl (fun acc ix =>
      let tmp := raw kx (ix + 1) x
      List.zipWith (fun (a t : K × ℕ) =>
        let v := t.1 * dx.getD ix 0
        let v := if kx ≠ 0 then v * (1 - isext (kx - 1)) else v
        (a.1 + v, t.2)) acc tmp) data
  else data

/-- `mtx.dot(sol_coeff)` for one point and output. -/
def dot (row : List (K × ℕ)) (coeff : ℕ → K) : K := (row.map fun e => e.1 * coeff e.2).sum

/-! ## Quadrature points -/

/-- `compute_quadrature_points`, `rmts.cpp` 94-107: point `i`. -/
def quadPoint (limits : List (K × K)) (nelems : List ℕ) (i : ℕ) : List K :=
  List.zipWith (fun (l : K × K) (en : ℕ × ℕ) => l.1 + (1 + 2 * (en.1 : K)) / 2 / en.2 * (l.2 - l.1)) limits
    (List.zip (SMT.Index.expand nelems i) nelems)

/-! ## Energy terms -/

/-- One entry of the cached matrix `sq_mtx[kx]`, `rmts.py` 203-214: second-derivative rows along input `kx` (0-based)
at the `prod(2 * elem_list)` quadrature points, multiplied by `full_dof2coeff` (column `i` is `D i`; the identity for
RMTB), then `mtx.T * mtx * range ** 4`. -/
def sqEntry (raw : ℕ → ℕ → List K → List (K × ℕ)) (limits : List (K × K)) (elems : List ℕ) (D : ℕ → ℕ → K) (kx : ℕ)
    (range : K) (i j : ℕ) : K :=
  let ne := elems.map (2 * ·)
  (∑ q ∈ Finset.range ne.prod, dot (raw (kx + 1) (kx + 1) (quadPoint limits ne q)) (D i) *
    dot (raw (kx + 1) (kx + 1) (quadPoint limits ne q)) (D j)) * range ^ 4

/-- `elem_vol / total_vol`, `rmts.py` 216-217, 222-223. -/
def volRatio (limits : List (K × K)) (elems : List ℕ) : K :=
  (List.zipWith (fun (l : K × K) (e : ℕ) => (l.2 - l.1) / (2 * (e : K))) limits elems).prod / (limits.map fun l => l.2 - l.1).prod

/-- The energy Hessian, `rmts.py` 219-228, from cached matrices `sq`. -/
def energyEntry (sq : ℕ → ℕ → ℕ → K) (limits : List (K × K)) (elems : List ℕ) (smooth : List K) (i j : ℕ) : K :=
  ((List.range limits.length).map fun kx =>
    sq kx i j * (volRatio limits elems * smooth.getD kx 0 / ((limits.getD kx (0, 0)).2 - (limits.getD kx (0, 0)).1) ^ 4)).sum

end SMT.Rmts
