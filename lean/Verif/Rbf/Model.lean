import Mathlib.Analysis.SpecialFunctions.Exp
import Mathlib.Algebra.BigOperators.Fin

/-!
# Model of `smt/src/rbf/rbf.cpp` and `smt/surrogate_models/rbf.py`

Reals instead of doubles. Row-major C arrays of one evaluation point are functions `ℕ → ℝ` (column number to entry).
The dense LU solver and `np.linalg.inv` are parameters: a solution vector, an inverse matrix.
-/
namespace SMT.Rbf

variable {nt nx : ℕ}

/-- `num["poly"]`, `rbf.py` 78-83. Another degree leaves the key unset (`KeyError`). -/
def numPoly (deg : ℤ) (nx : ℕ) : Option ℕ :=
  if deg = -1 then some 0 else if deg = 0 then some 1 else if deg = 1 then some (1 + nx) else none

/-- `r2`, `rbf.cpp` 39-43 and 70-74. -/
noncomputable def r2 (d0 x t : Fin nx → ℝ) : ℝ :=
  (List.finRange nx).foldl (fun acc ix => acc + ((x ix - t ix) / d0 ix) ^ 2) 0

/-- One row of `RBF::compute_jac`, `rbf.cpp` 34-62. -/
noncomputable def row (deg : ℤ) (d0 : Fin nx → ℝ) (xt : Fin nt → Fin nx → ℝ) (x : Fin nx → ℝ) (q : ℕ) : ℝ :=
  if h : q < nt then Real.exp (-r2 d0 x (xt ⟨q, h⟩))
  else if 0 ≤ deg ∧ q = nt then 1
  else if h : deg = 1 ∧ nt + 1 ≤ q ∧ q - (nt + 1) < nx then x ⟨q - (nt + 1), h.2.2⟩
  else 0

/-- One row of `RBF::compute_jac_derivs`, `rbf.cpp` 64-97. -/
noncomputable def drow (deg : ℤ) (d0 : Fin nx → ℝ) (xt : Fin nt → Fin nx → ℝ) (kx : Fin nx) (x : Fin nx → ℝ) (q : ℕ) : ℝ :=
  if h : q < nt then -Real.exp (-r2 d0 x (xt ⟨q, h⟩)) * (2 * (x kx - xt ⟨q, h⟩ kx) / d0 kx ^ 2)
  else if 0 ≤ deg ∧ q = nt then 0
  else if deg = 1 ∧ q = nt + 1 + kx then 1
  else 0

/-- The training matrix, `rbf.py` 108-111: rows from `jac`, columns from `jac.T` (written second), `reg` on the first
`nt` diagonal entries. -/
noncomputable def mtx (deg : ℤ) (reg : ℝ) (d0 : Fin nx → ℝ) (xt : Fin nt → Fin nx → ℝ) (i j : ℕ) : ℝ :=
  (if h : j < nt then row deg d0 xt (xt ⟨j, h⟩) i
   else if h : i < nt then row deg d0 xt (xt ⟨i, h⟩) j
   else 0) + (if i = j ∧ i < nt then reg else 0)

/-- The right-hand side of one output, `rbf.py` 115-116. -/
def rhs (yt : Fin nt → ℝ) (i : ℕ) : ℝ := if h : i < nt then yt ⟨i, h⟩ else 0

/-- `jac.dot(sol)`, `rbf.py` 169 and 195, for one point and output. -/
noncomputable def predict (deg : ℤ) (np : ℕ) (d0 : Fin nx → ℝ) (xt : Fin nt → Fin nx → ℝ) (sol : ℕ → ℝ) (x : Fin nx → ℝ) : ℝ :=
  ∑ q ∈ Finset.range (nt + np), row deg d0 xt x q * sol q

noncomputable def predictDeriv (deg : ℤ) (np : ℕ) (d0 : Fin nx → ℝ) (xt : Fin nt → Fin nx → ℝ) (sol : ℕ → ℝ) (kx : Fin nx)
    (x : Fin nx → ℝ) : ℝ :=
  ∑ q ∈ Finset.range (nt + np), drow deg d0 xt kx x q * sol q

/-- `_predict_output_derivatives`, `rbf.py` 198-216, entry for training point `j`: `(Pᵀ inv(mtx)ᵀ rowᵀ)ᵀ`. -/
noncomputable def outputDeriv (deg : ℤ) (np : ℕ) (d0 : Fin nx → ℝ) (xt : Fin nt → Fin nx → ℝ) (inv : ℕ → ℕ → ℝ) (x : Fin nx → ℝ)
    (j : Fin nt) : ℝ :=
  ∑ q ∈ Finset.range (nt + np), inv q j * row deg d0 xt x q

end SMT.Rbf
