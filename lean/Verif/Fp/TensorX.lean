import Verif.Fp.Corr

/-!
# Model of the TensorProduct benchmark problem in IEEE arithmetic

`smt/problems/tensor_product.py`, one row of a `float64` array at a time. The factors `func(x[:, i])` and `dfunc(x[:, i])` are given: arbitrary values of the format. Derivatives are computed in a `complex`
array (`y *= …`): NumPy's product of complex numbers is `(a + bi)(c + di) = (ac - bd) + (ad + bc)i`, and a real array is converted with imaginary part zero. The order of `np.prod` is any tree.
-/
set_option linter.unusedSectionVars false
set_option linter.unusedSimpArgs false
set_option linter.unusedVariables false

namespace SMT.Fp.Tensor
open SMT.Fp.Corr

variable {K : Type} [Field K] [LinearOrder K] [IsStrictOrderedRing K] {n : ℕ}
variable (F : Format K)

/-- `np.prod(self.func(x), 1)`, `tensor_product.py` 56; `f i` is the factor of column `i`. -/
def value (t : Tree) (f : Fin n → X K) : X K := rowProd F t f

/-- A product of complex numbers (NumPy). -/
def mulC (a b : X K × X K) : X K × X K := (F.subX (F.mulX a.1 b.1) (F.mulX a.2 b.2), F.addX (F.mulX a.1 b.2) (F.mulX a.2 b.1))

/-- `y[:, 0] *= c` for each factor in turn, `tensor_product.py` 58-62. -/
def run (y : X K × X K) (cs : List (X K)) : X K × X K := cs.foldl (fun y c => mulC F y (c, .fin 0)) y

/-- The factors of the derivative, `tensor_product.py` 58-62. -/
def factors (f df : Fin n → X K) (kx : Fin n) : List (X K) := List.ofFn fun ix => if kx = ix then df ix else f ix

/-- `tensor_product.py` 54, 58-62, and the real part (`problem.py`). -/
def deriv (f df : Fin n → X K) (kx : Fin n) : X K := (run F (.fin 1, .fin 0) (factors f df kx)).1

end SMT.Fp.Tensor
