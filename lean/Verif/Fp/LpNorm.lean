import Verif.Fp.Err
import Verif.Fp.LineSearch

/-!
# Model of the LpNorm benchmark problem in IEEE arithmetic

`smt/problems/lp_norm.py` for the orders 1 and 2 (derivatives of higher orders raise, C51), one row of a `float64` array at a time. The square root and the order of summation over the columns are
parameters. `v ** 1` and `v ** 1.0` are `v`; `v ** 0` is 1 even for NaN and infinities; `v ** 2` is `v * v` and `v ** 0.5` is `sqrt` (NumPy). Real parts of the complex result only. The derivative first
computes the unused `np.linalg.norm(x, ord=p)` of the whole array, which for order 2 may raise on infinite and NaN entries: derivatives of order 2 are stated for finite coordinates only.
-/
set_option linter.unusedSectionVars false
set_option linter.unusedSimpArgs false
set_option linter.unusedVariables false

namespace SMT.Fp.LpNorm
open SMT.Fp.Corr

variable {K : Type} [Field K] [LinearOrder K] [IsStrictOrderedRing K] {n : ℕ}
variable (F : Format K)

/-- `np.sum(np.abs(x) ** p, axis=-1) ** (1.0 / p)` for `p = 1`, `lp_norm.py` 43. -/
def lp1 (t : Tree) (x : Fin n → X K) : X K := rowSum F t fun i => X.abs (x i)

/-- The same for `p = 2`, `lp_norm.py` 43. -/
def lp2 (sq : X K → X K) (t : Tree) (x : Fin n → X K) : X K := sq (rowSum F t fun i => F.mulX (X.abs (x i)) (X.abs (x i)))

/-- `np.sign`. -/
def sign : X K → X K
  | .nan => .nan
  | .inf s => .fin (if s then -1 else 1)
  | .fin a => .fin (if a < 0 then -1 else if a = 0 then 0 else 1)

/-- `v ** 0` (C's `pow`). -/
def pow0 (v : X K) : X K := .fin 1

/-- `np.sign(x[:, kx]) * (np.absolute(x[:, kx]) / lp_norm) ** (p - 1)` for `p = 1`, `lp_norm.py` 48. -/
def deriv1 (t : Tree) (x : Fin n → X K) (kx : Fin n) : X K := F.mulX (sign (x kx)) (pow0 (F.divX (X.abs (x kx)) (lp1 F t x)))

/-- The same for `p = 2`, `lp_norm.py` 48. -/
def deriv2 (sq : X K → X K) (t : Tree) (x : Fin n → X K) (kx : Fin n) : X K := F.mulX (sign (x kx)) (F.divX (X.abs (x kx)) (lp2 F sq t x))

end SMT.Fp.LpNorm
