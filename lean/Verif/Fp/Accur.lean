import Verif.Fp.Poly

/-!
# Model of the correlations and of the predictions of Kriging and RBF in rounded arithmetic

`smt/surrogate_models/krg_based.py` 646-664 with `smt/utils/kriging_utils.py` `componentwise_distance`, `abs_exp`, `squar_exp`, `matern52`, `matern32`; `smt/surrogate_models/rbf.py` 148-170 with
`smt/src/rbf/rbf.cpp` `compute_jac`. One point and one output, for given coefficients and normalised inputs; every operation is rounded once, and the range of exponents is unbounded
(overflow and underflow are in `Corr.lean` and `Rbf.lean`). `exp` and the rounded constants are parameters. The orders of summation are parameters (`Tree`, `Dot`).
-/
set_option linter.unusedSectionVars false
set_option linter.unusedSimpArgs false
set_option linter.unusedVariables false

namespace SMT.Fp.Accur

variable {K : Type} [Field K] [LinearOrder K] [IsStrictOrderedRing K]

/-- `options["corr"]`, but `act_exp`. -/
inductive Kind where
  | absExp | squarExp | matern52 | matern32
deriving DecidableEq

/-- What NumPy supplies: `np.exp`, the constants `np.sqrt(5.0)`, `5.0 / 3.0`, `np.sqrt(3.0)`, the orders of summation and of multiplication of a row. -/
structure Lib (K : Type) where
  e : K → K
  s5 : K
  c53 : K
  s3 : K
  ts : Tree
  tp : Tree

/-- `.prod(axis=1)`, the products rounded one after another. -/
def prodF (R : Rounding K) (f : ℕ → K) : Tree → K
  | .leaf i => f i
  | .node a b => R.rnd (prodF R f a * prodF R f b)

/-- `differences`, `kriging_utils.py` 121-128, then `componentwise_distance`, 805-829: squares for `squar_exp`, absolute values otherwise. -/
def compF (R : Rounding K) (k : Kind) (a b : K) : K :=
  match k with
  | .squarExp => R.rnd (R.rnd (a - b) * R.rnd (a - b))
  | _ => |R.rnd (a - b)|

/-- `theta * d`, `kriging_utils.py` 171, 243, 311, 470. -/
def llF (R : Rounding K) (k : Kind) (theta a b : ℕ → K) (i : ℕ) : K := R.rnd (theta i * compF R k (a i) (b i))

/-- `1.0 + np.sqrt(5.0) * ll + 5.0 / 3.0 * ll ** 2.0`, `kriging_utils.py` 313. -/
def fac52 (R : Rounding K) (L : Lib K) (l : K) : K := R.rnd (R.rnd (1 + R.rnd (L.s5 * l)) + R.rnd (L.c53 * R.rnd (l * l)))

/-- `1.0 + np.sqrt(3.0) * ll`, `kriging_utils.py` 471. -/
def fac32 (R : Rounding K) (L : Lib K) (l : K) : K := R.rnd (1 + R.rnd (L.s3 * l))

/-- The correlation of the points `a` and `b`: `np.exp(-np.sum(theta * d, axis=1))`, `kriging_utils.py` 171-173, 243-245; `matern52`, 310-315; `matern32`, 469-474. -/
def corrF (R : Rounding K) (L : Lib K) (k : Kind) (theta a b : ℕ → K) : K :=
  let ll := llF R k theta a b
  match k with
  | .absExp | .squarExp => L.e (-(L.ts.eval R ll))
  | .matern52 => R.rnd (prodF R (fun i => fac52 R L (ll i)) L.tp * L.e (R.rnd (-L.s5 * L.ts.eval R ll)))
  | .matern32 => R.rnd (prodF R (fun i => fac32 R L (ll i)) L.tp * L.e (R.rnd (-L.s3 * L.ts.eval R ll)))

/-- `_predict_values`, `krg_based.py` 648-662, for the normalised point `x` and normalised training points `xt`; `f` is the row of the regression functions (constant or linear: computed
without rounding). -/
def krigingF (R : Rounding K) (L : Lib K) (df dr : Dot) (k : Kind) (theta : ℕ → K) (xt : ℕ → ℕ → K) (f beta gamma : ℕ → K) (yMean yStd : K) (x : ℕ → K) : K :=
  R.rnd (yMean + R.rnd (yStd * R.rnd (df.eval R f beta + dr.eval R (fun j => corrF R L k theta x (xt j)) gamma)))

/-- `r2`, `rbf.cpp` 39-43: `pow((x - t) / d0, 2)` added from the left. -/
def r2F (R : Rounding K) (nx : ℕ) (d0 x t : ℕ → K) : K :=
  (List.range nx).foldl (fun s i => R.rnd (s + R.rnd (R.rnd (R.rnd (x i - t i) / d0 i) * R.rnd (R.rnd (x i - t i) / d0 i)))) 0

/-- One row of `compute_jac`, `rbf.cpp` 34-62: the `nt` radial functions, then 1, then the inputs (as far as the degree asks for them). -/
def rbfRowF (R : Rounding K) (e : K → K) (nx nt : ℕ) (d0 : ℕ → K) (xt : ℕ → ℕ → K) (x : ℕ → K) (j : ℕ) : K :=
  if j < nt then e (-(r2F R nx d0 x (xt j))) else if j = nt then 1 else x (j - nt - 1)

/-- `_predict_values`, `rbf.py` 148-170: `jac.dot(self.sol)`, the first `n` columns. -/
def rbfF (R : Rounding K) (e : K → K) (d : Dot) (nx nt : ℕ) (d0 : ℕ → K) (xt : ℕ → ℕ → K) (sol : ℕ → K) (x : ℕ → K) : K :=
  d.eval R (rbfRowF R e nx nt d0 xt x) sol

end SMT.Fp.Accur
