import Mathlib.Algebra.Order.Field.Basic
import Mathlib.Algebra.BigOperators.Fin
import Mathlib.Data.Nat.Choose.Basic

/-!
# Model of `smt/surrogate_models/qp.py` and `smt/surrogate_models/ls.py`

Exact field arithmetic. Points are functions from the 0-based input number. `np.linalg.inv` and scikit-learn's
`LinearRegression` are parameters. Array shapes of `_predict_derivatives` are modelled with numpy's broadcasting rule.
-/
namespace SMT.Qp

variable {K : Type} [Field K]

/-- `k`, `qp.py` 96 and 125-130. The true division is exact ((i+1)i is even); `int` truncates a non-negative value. -/
def crossIdx (dim i j : ℕ) : ℕ :=
  (2 * (dim : ℤ) + 2 + i * dim - ((i : ℤ) + 1) * i / 2 + ((j : ℤ) - (i + 2))).toNat

/-- `n_app`, `qp.py` 86. -/
def nApp (dim : ℕ) : ℕ := (dim + 2).choose dim

/-- The assignments to rows of `M` in program order, `qp.py` 89-97, for one point. -/
def writes (dim : ℕ) (x : ℕ → K) : List (ℕ × K) :=
  (0, 1) ::
  ((List.range' 1 dim).map (fun i => (i, x (i - 1))) ++
   (List.range' (dim + 1) dim).map (fun i => (i, x (i - (dim + 1)) ^ 2)) ++
   (List.range (dim - 1)).flatMap fun i =>
     (List.range' (i + 1) (dim - (i + 1))).map fun j => (crossIdx dim i j, x i * x j))

/-- `_response_surface`, `qp.py` 72-98, for one point: an assignment out of range raises `IndexError`. -/
def responseRow (dim : ℕ) (x : ℕ → K) : Option (List K) :=
  (writes dim x).foldlM (fun M w => if w.1 < M.length then some (M.set w.1 w.2) else none) (List.replicate (nApp dim) 0)

/-- `_predict_values`, `qp.py` 136-153, one point and one output. -/
def predict (dim : ℕ) (coef : ℕ → K) (x : ℕ → K) : Option K :=
  (responseRow dim x).map fun row => ((List.range row.length).map fun k => row.getD k 0 * coef k).sum

/-- The loop of `_predict_derivatives`, `qp.py` 122-134, one point and one output. -/
def cross (dim kx : ℕ) (coef : ℕ → K) (x : ℕ → K) : K :=
  (List.range dim).foldl (fun acc i =>
    if i > kx then acc + coef (crossIdx dim kx i) * x i
    else if i < kx then acc + coef (crossIdx dim i kx) * x i
    else acc) 0

/-- One entry of `_predict_derivatives` where the shapes are compatible. -/
def derivEntry (dim kx : ℕ) (coef : ℕ → K) (x : ℕ → K) : K :=
  coef (1 + kx) + 2 * coef (1 + dim + kx) * x kx + cross dim kx coef x

/-- numpy broadcasting of 1-d lengths. -/
def bcast (a b : ℕ) : Option ℕ := if a = b then some a else if a = 1 then some b else if b = 1 then some a else none

/-- `_predict_derivatives`, `qp.py` 100-134, for `n` points and `ny` outputs: `coef[r, :]` has shape `(ny,)`, `x[:, kx]` has shape
`(n,)`; the sum is reshaped to `(n, ny)`. Entry `(a, b)` of the result, row-major. `coef k b`, `x a i`. -/
def predictDerivatives (dim n ny kx : ℕ) (coef : ℕ → ℕ → K) (x : ℕ → ℕ → K) : Option (ℕ → ℕ → K) :=
  match bcast ny n with                              -- quad_coef, line 124
  | none => none                                     -- ValueError: operands could not be broadcast
  | some m =>                                        -- neval, line 125; all cross terms have the same shape
    match bcast ny m with                            -- linear_coef + quad_coef
    | none => none
    | some m' =>
      if m' = n * ny then                            -- reshape, line 140
        some fun a b =>
          let t := a * ny + b                        -- position in the flat result
          let ib := if ny = 1 then 0 else t          -- output index used at that position
          let ia := if n = 1 then 0 else t           -- point index used at that position
          derivEntry dim kx (fun k => coef k ib) (x ia)
      else none

/-- The size check of `_new_train`, `qp.py` 51-55: `x.shape[0] < (nx + 1) * (nx + 2) / 2.0`. -/
def refuses (nx nt : ℕ) : Bool := decide ((nt : ℚ) < ((nx : ℚ) + 1) * ((nx : ℚ) + 2) / 2)

/-- The coefficients, `qp.py` 57-58: `inv(X.T X) (X.T y)`. -/
def fit {nt m : ℕ} (inv : Fin m → Fin m → K) (X : Fin nt → Fin m → K) (y : Fin nt → K) (k : Fin m) : K :=
  ∑ l, inv k l * ∑ t, X t l * y t

/-- LS prediction: scikit-learn's `predict` is `x @ coef_.T + intercept_` (`ls.py` 84). -/
def lsPredict {nx : ℕ} (coef : Fin nx → K) (b : K) (x : Fin nx → K) : K := (∑ i, x i * coef i) + b

/-- LS derivative, `ls.py` 106: `np.ones((n_eval, ny)) * coef_[:, kx]`. -/
def lsDeriv {nx : ℕ} (coef : Fin nx → K) (kx : Fin nx) (_x : Fin nx → K) : K := 1 * coef kx

end SMT.Qp
