import Verif.Qp.Model
import Mathlib.LinearAlgebra.Matrix.NonsingularInverse

/-!
# Training of QP and LS

`smt/surrogate_models/qp.py` 41-58 and 136-153, `smt/surrogate_models/ls.py` 45-57 and 70-85. The value of `np.linalg.inv` (`none`: LinAlgError) and scikit-learn's
`LinearRegression.fit` are parameters; points are functions on `Fin nx`, one output.
-/
namespace SMT.Fit
open Matrix SMT.Qp

variable {K : Type} [Field K] [LinearOrder K]

/-- A point as a row of the array the code indexes. -/
def ext {nx : ℕ} (x : Fin nx → K) (k : ℕ) : K := if h : k < nx then x ⟨k, h⟩ else 0

/-- `X = self._response_surface(x)`, `qp.py` 57. -/
def design {nt nx : ℕ} (xs : Fin nt → Fin nx → K) : Matrix (Fin nt) (Fin (nApp nx)) K :=
  Matrix.of fun t k => ((responseRow nx (ext (xs t))).getD []).getD (k : ℕ) 0

/-- `QP._new_train`, `qp.py` 41-58: refuses too few points, then `inv(X.T X) (X.T y)`; `none` is an exception. -/
def qpTrain {nt nx : ℕ} (inv : Matrix (Fin (nApp nx)) (Fin (nApp nx)) K → Option (Matrix (Fin (nApp nx)) (Fin (nApp nx)) K))
    (xs : Fin nt → Fin nx → K) (y : Fin nt → K) : Option (ℕ → K) :=
  if refuses nx nt then none
  else (inv ((design xs)ᵀ * design xs)).map fun B k => if h : k < nApp nx then fit (fun a b => B a b) (fun t l => design xs t l) y ⟨k, h⟩ else 0

/-- `QP._predict_values`, `qp.py` 136-153, at one point. -/
def qpPredict {nx : ℕ} (coef : ℕ → K) (x : Fin nx → K) : K := (predict nx coef (ext x)).getD 0

/-- `LS._new_train` and `_predict_values`, `ls.py` 45-57 and 84: the function the trained model evaluates; `fit` stands for scikit-learn and returns `coef_` and `intercept_`. -/
def lsModel {nt nx : ℕ} (fit : (Fin nt → Fin nx → K) → (Fin nt → K) → (Fin nx → K) × K) (xs : Fin nt → Fin nx → K) (y : Fin nt → K) (x : Fin nx → K) : K :=
  lsPredict (fit xs y).1 (fit xs y).2 x

end SMT.Fit
