import Verif.Fp.Corr
import Verif.Fp.Ego

/-!
# Model of the Kriging variance in IEEE arithmetic

`smt/surrogate_models/krg_based.py` `_predict_variances` 746-763, one point and one output. `linalg.solve_triangular` is LAPACK's `trtrs`: substitution by columns, as in the reference BLAS (without its shortcut for zeros); other BLAS libraries may order the
operations differently. The orders of the sums are any trees.
-/
set_option linter.unusedSectionVars false
set_option linter.unusedSimpArgs false
set_option linter.unusedVariables false

namespace SMT.Fp.Var
open SMT.Fp.Corr

variable {K : Type} [Field K] [LinearOrder K] [IsStrictOrderedRing K] {n p : ℕ}
variable (F : Format K)

/-- One column of the substitution with a lower triangular matrix: `b[k] /= L[k, k]`, then `b[i] -= b[k] * L[i, k]` for `i > k`. -/
def elimLower (L : Fin n → Fin n → X K) (b : Fin n → X K) (k : Fin n) : Fin n → X K :=
  let xk := F.divX (b k) (L k k)
  fun i => if i = k then xk else if k < i then F.subX (b i) (F.mulX xk (L i k)) else b i

/-- `linalg.solve_triangular(C, r, lower=True)`, `krg_based.py` 748. -/
def solveLower (L : Fin n → Fin n → X K) (b : Fin n → X K) : Fin n → X K := (List.finRange n).foldl (elimLower F L) b

/-- One column of the substitution with an upper triangular matrix. -/
def elimUpper (U : Fin p → Fin p → X K) (b : Fin p → X K) (k : Fin p) : Fin p → X K :=
  let xk := F.divX (b k) (U k k)
  fun i => if i = k then xk else if i < k then F.subX (b i) (F.mulX xk (U i k)) else b i

/-- `linalg.solve_triangular(G.T, rhs)`, `krg_based.py` 750-754: `lower=False`, the entries on and above the diagonal of `G.T` are used. -/
def solveUpper (U : Fin p → Fin p → X K) (b : Fin p → X K) : Fin p → X K := (List.finRange p).reverse.foldl (elimUpper F U) b

/-- `u`, `krg_based.py` 750-754; `f` is the row of the trend at the point. -/
def uVec (td : Tree) (Ft : Fin n → Fin p → X K) (G : Fin p → Fin p → X K) (f : Fin p → X K) (rt : Fin n → X K) : Fin p → X K :=
  solveUpper F (fun a b => G b a) fun a => F.subX (rowSum F td fun i => F.mulX (Ft i a) (rt i)) (f a)

/-- `_predict_variances`, `krg_based.py` 746-763, after the correlations `r`. -/
def predictVar (td t1 t2 : Tree) (C : Fin n → Fin n → X K) (Ft : Fin n → Fin p → X K) (G : Fin p → Fin p → X K) (sigma2 : X K) (f : Fin p → X K) (r : Fin n → X K) : X K :=
  let rt := solveLower F C r
  let u := uVec F td Ft G f rt
  Ego.mse F sigma2 (rowSum F t1 fun i => F.mulX (rt i) (rt i)) (rowSum F t2 fun a => F.mulX (u a) (u a))

end SMT.Fp.Var
