import Verif.Fp.Standard
import Verif.Fp.Ese
import Verif.Fp.LineSearch
import Verif.Fp.Moe
import Verif.Kriging.Prep

/-!
# Model of the Kriging correlations and of the predictor in IEEE arithmetic

`smt/utils/kriging_utils.py`: `componentwise_distance`, `abs_exp`, `squar_exp`, `matern52`, `matern32`, `act_exp` (values only);
`smt/surrogate_models/krg_based.py` 253-257 (the correlation matrix), 646-664 (`_predict_values`), 684-721 (`_predict_derivatives`, first step),
738-748 (`_predict_variances`, up to the triangular solve).

The functions of the repository act row by row (the blocks of `nb_limit` rows only save memory); the model is one row. `np.exp` is a parameter `ex`,
the rounded constants `np.sqrt(5.0)`, `5.0 / 3.0`, `np.sqrt(3.0)` are parameters, and the orders in which NumPy adds (`ts`) and multiplies (`tp`) a
row are any binary trees, the same for all rows of one length. Matrix-vector products (`np.dot`) are sums of rounded products, in any order too: fused multiply-add is not
modelled. Signs of zeros are not distinguished.
-/
set_option linter.unusedSectionVars false
set_option linter.unusedSimpArgs false
set_option linter.unusedVariables false

namespace SMT.Fp.Corr

variable {K : Type} [Field K] [LinearOrder K] [IsStrictOrderedRing K] {n m c : ℕ}

/-- `options["corr"]`, `krg_based.py` 30-36, but `act_exp`. -/
inductive Kind where
  | absExp | squarExp | matern52 | matern32
deriving DecidableEq

/-- What NumPy supplies: `np.exp`, the constants `np.sqrt(5.0)`, `5.0 / 3.0` and `np.sqrt(3.0)`, the orders of summation and of multiplication of a row. -/
structure Lib (K : Type) where
  ex : X K → X K
  s5 : K
  c53 : K
  s3 : K
  ts : Tree
  tp : Tree

variable (F : Format K)

/-- `.sum(axis=1)` of one row. -/
def rowSum (t : Tree) (v : Fin m → X K) : X K := t.evalX F fun i => if h : i < m then v ⟨i, h⟩ else .nan

/-- A product in the order given by the tree. -/
def evalM (f : ℕ → X K) : Tree → X K
  | .leaf i => f i
  | .node a b => F.mulX (evalM f a) (evalM f b)

/-- `.prod(axis=1)` of one row. -/
def rowProd (t : Tree) (v : Fin m → X K) : X K := evalM F (fun i => if h : i < m then v ⟨i, h⟩ else .nan) t

/-- `componentwise_distance`, `kriging_utils.py` 805-829, one row: the squares for `squar_exp`, the absolute values for `abs_exp` and the Matérn kernels. -/
def compDist (k : Kind) (d : Fin m → X K) : Fin m → X K :=
  match k with
  | .squarExp => fun i => F.mulX (d i) (d i)
  | _ => fun i => (d i).abs

/-- `ll = theta * d`, `kriging_utils.py` 171, 243, 311, 470, one row. -/
def scaled (theta : Fin m → K) (d : Fin m → X K) : Fin m → X K := fun i => F.mulX (.fin (theta i)) (d i)

/-- `np.exp(-np.sum(theta * d, axis=1))`: `abs_exp`, `kriging_utils.py` 167-175, and `squar_exp`, 239-247, one row. -/
def expKernel (L : Lib K) (theta : Fin m → K) (d : Fin m → X K) : X K := L.ex (rowSum F L.ts (scaled F theta d)).neg

/-- `1.0 + np.sqrt(5.0) * ll + 5.0 / 3.0 * ll ** 2.0`, `kriging_utils.py` 313 (NumPy squares by multiplication). -/
def factor52 (L : Lib K) (l : X K) : X K :=
  F.addX (F.addX (.fin 1) (F.mulX (.fin L.s5) l)) (F.mulX (.fin L.c53) (F.mulX l l))

/-- `1.0 + np.sqrt(3.0) * ll`, `kriging_utils.py` 471. -/
def factor32 (L : Lib K) (l : X K) : X K := F.addX (.fin 1) (F.mulX (.fin L.s3) l)

/-- `matern52`, `kriging_utils.py` 310-315, one row. -/
def matern52X (L : Lib K) (theta : Fin m → K) (d : Fin m → X K) : X K :=
  F.mulX (rowProd F L.tp fun i => factor52 F L (scaled F theta d i)) (L.ex (F.mulX (X.fin L.s5).neg (rowSum F L.ts (scaled F theta d))))

/-- `matern32`, `kriging_utils.py` 469-474, one row. -/
def matern32X (L : Lib K) (theta : Fin m → K) (d : Fin m → X K) : X K :=
  F.mulX (rowProd F L.tp fun i => factor32 F L (scaled F theta d i)) (L.ex (F.mulX (X.fin L.s3).neg (rowSum F L.ts (scaled F theta d))))

/-- `self._correlation_types[corr](theta, d)`, `krg_based.py` 30-36, 253, 653-655, one row. -/
def kernel (L : Lib K) (k : Kind) (theta : Fin m → K) (d : Fin m → X K) : X K :=
  match k with
  | .absExp | .squarExp => expKernel F L theta d
  | .matern52 => matern52X F L theta d
  | .matern32 => matern32X F L theta d

/-- The correlation of two points given by their difference: `componentwise_distance`, then the kernel. -/
def corr (L : Lib K) (k : Kind) (theta : Fin m → K) (d : Fin m → X K) : X K := kernel F L k theta (compDist F k d)

/-- `act_exp`, `kriging_utils.py` 605-614, one row, for the matrix `A` (`theta` reshaped and transposed); `td` is the order of summation of `d.dot(A)`. -/
def actExp (L : Lib K) (td : Tree) (A : Fin m → Fin c → K) (d : Fin m → X K) : X K :=
  let dA : Fin c → X K := fun j => rowSum F td fun i => F.mulX (d i) (.fin (A i j))
  L.ex (F.mulX (.fin (-(1 / 2))) (rowSum F L.ts fun j => F.mulX (dA j) (dA j)))

/-- `X[a] - X[b]`, `kriging_utils.py` 121, 128. -/
def diff (a b : Fin m → X K) : Fin m → X K := fun i => F.subX (a i) (b i)

/-- `cross_distances`, `kriging_utils.py` 87-123, with the subtraction of the format. -/
def crossX (n : ℕ) (x : ℕ → Fin m → X K) : Option (List (Fin m → X K) × List (ℕ × ℕ)) :=
  @SMT.Krg.crossDistances (X K) ⟨F.subX⟩ ⟨.fin 0⟩ m n x

/-- `np.eye(nt) * (1.0 + nugget + noise)`, then `R[ij[:, 0], ij[:, 1]] = r` and `R[ij[:, 1], ij[:, 0]] = r`, `krg_based.py` 255-257.
`noise` is broadcast over the columns. -/
def matrixX (nugget : K) (noise : ℕ → K) (ij : List (ℕ × ℕ)) (r : List (X K)) : ℕ → ℕ → X K :=
  let R : ℕ → ℕ → X K := fun i j => F.mulX (.fin (if i = j then 1 else 0)) (F.addX (F.addX (.fin 1) (.fin nugget)) (.fin (noise j)))
  let R := (ij.zip r).foldl (fun R p i j => if i = p.1.1 ∧ j = p.1.2 then p.2 else R i j) R
  (ij.zip r).foldl (fun R p i j => if i = p.1.2 ∧ j = p.1.1 then p.2 else R i j) R

/-- The correlation matrix of the training points, `krg_based.py` 161-165, 253-257. -/
def trainMatrix (kern : (Fin m → X K) → X K) (nugget : K) (noise : ℕ → K) (n : ℕ) (x : ℕ → Fin m → X K) : Option (ℕ → ℕ → X K) :=
  (crossX F n x).map fun p => matrixX F nugget noise p.2 (p.1.map kern)

/-- `(x - X_offset) / X_scale`, `kriging_utils.py` 82 (training), `krg_based.py` 648 (prediction). -/
def normX (off scale : Fin m → X K) (x : Fin m → X K) : Fin m → X K := fun i => F.divX (F.subX (x i) (off i)) (scale i)

/-- The correlations of a point with the training points, `krg_based.py` 648-655: `xt` are the normalised training points. -/
def predCorr (kern : (Fin m → X K) → X K) (off scale : Fin m → X K) (xt : Fin n → Fin m → X K) (x : Fin m → X K) : Fin n → X K :=
  fun i => kern (diff F (normX F off scale x) (xt i))

/-- `np.dot(r, gamma)`, `krg_based.py` 660, one row. -/
def dotG (t : Tree) (r gamma : Fin n → X K) : X K := rowSum F t fun i => F.mulX (r i) (gamma i)

/-- `_predict_values`, `krg_based.py` 646-662, one point and one output; `trend` is `np.dot(f, beta)`. -/
def predictX (t : Tree) (yMean yStd trend : X K) (r gamma : Fin n → X K) : X K :=
  F.addX yMean (F.mulX yStd (F.addX trend (dotG F t r gamma)))

/-- `(df_dx[kx] - 2 * theta[kx] * np.dot(d_dx * r, gamma)) * y_std / X_scale[kx]`, `krg_based.py` 710-721, one point; `dfdx` is `df_dx[kx]`, `dk` the row `d_dx`. -/
def derivX (t : Tree) (dfdx theta yStd scale : X K) (dk r gamma : Fin n → X K) : X K :=
  F.divX (F.mulX (F.subX dfdx (F.mulX (F.mulX (.fin 2) theta) (dotG F t (fun i => F.mulX (dk i) (r i)) gamma))) yStd) scale

/-- `check_finite` of `linalg.cholesky` and `linalg.solve_triangular`: a `ValueError` if an entry is not finite. -/
def allFinite (v : List (X K)) : Bool := v.all fun a => match a with
  | .fin _ => true
  | _ => false

/-- `linalg.solve_triangular(C, r.T, lower=True)` in `_predict_variances`, `krg_based.py` 748: SciPy raises if `r` is not finite; `solve` is what it returns otherwise. -/
def varSolve {β : Type} (solve : (Fin n → X K) → β) (r : Fin n → X K) : Except Unit β :=
  if allFinite (List.ofFn r) then .ok (solve r) else .error ()

end SMT.Fp.Corr
