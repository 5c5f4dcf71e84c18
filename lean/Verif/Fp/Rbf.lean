import Verif.Fp.Corr

/-!
# Model of RBF in IEEE arithmetic

`smt/src/rbf/rbf.cpp` `compute_jac`, `compute_jac_derivs`; `smt/surrogate_models/rbf.py` `_new_train` (the matrix), `_predict_values`, `_predict_derivatives`.

One evaluation point, one output. `pow(v, 2)` is `v * v` (what compilers make of it). `exp` is a parameter; the order of summation in `jac.dot(sol)` is any tree. Signs of zeros are not distinguished;
the linear solver is not modelled.
-/
set_option linter.unusedSectionVars false
set_option linter.unusedSimpArgs false
set_option linter.unusedVariables false

namespace SMT.Fp.Rbf

variable {K : Type} [Field K] [LinearOrder K] [IsStrictOrderedRing K] {nx nt : ℕ}
variable (F : Format K)

/-- `d / d0[ix]`, `rbf.cpp` 41-42, 71-72. -/
def ratio (d0 : Fin nx → X K) (x t : Fin nx → X K) (i : Fin nx) : X K := F.divX (F.subX (x i) (t i)) (d0 i)

/-- `r2`, `rbf.cpp` 39-43, 69-73. -/
def r2 (d0 : Fin nx → X K) (x t : Fin nx → X K) : X K :=
  (List.finRange nx).foldl (fun s i => F.addX s (F.mulX (ratio F d0 x t i) (ratio F d0 x t i))) (.fin 0)

/-- `exp(-r2)`, `rbf.cpp` 45. -/
def phi (ex : X K → X K) (d0 : Fin nx → X K) (x t : Fin nx → X K) : X K := ex (r2 F d0 x t).neg

/-- `-exp(-r2) * dr2_dx`, `rbf.cpp` 75-78. -/
def dphi (ex : X K → X K) (d0 : Fin nx → X K) (kx : Fin nx) (x t : Fin nx → X K) : X K :=
  let dr2 := F.divX (F.mulX (.fin 2) (F.subX (x kx) (t kx))) (F.mulX (d0 kx) (d0 kx))
  F.mulX (ex (r2 F d0 x t).neg).neg dr2

/-- One row of `compute_jac`, `rbf.cpp` 34-62. -/
def jacRow (ex : X K → X K) (deg : ℤ) (d0 : Fin nx → X K) (xt : Fin nt → Fin nx → X K) (x : Fin nx → X K) : List (X K) :=
  List.ofFn (fun it => phi F ex d0 x (xt it)) ++ ((if 0 ≤ deg then [.fin 1] else []) ++ if deg = 1 then List.ofFn x else [])

/-- One row of `compute_jac_derivs`, `rbf.cpp` 64-99. -/
def jacDerivRow (ex : X K → X K) (deg : ℤ) (d0 : Fin nx → X K) (xt : Fin nt → Fin nx → X K) (kx : Fin nx) (x : Fin nx → X K) : List (X K) :=
  List.ofFn (fun it => dphi F ex d0 kx x (xt it)) ++ ((if 0 ≤ deg then [.fin 0] else []) ++ if deg = 1 then List.ofFn (fun i => .fin (if i = kx then 1 else 0)) else [])

/-- `mtx`, `rbf.py` 103-110: the rows of the training points, over them the transposed columns, and `reg` on the diagonal of the radial part. -/
def matrix (ex : X K → X K) (deg : ℤ) (reg : X K) (d0 : Fin nx → X K) (xt : Fin nt → Fin nx → X K) (i j : ℕ) : X K :=
  let jac : ℕ → ℕ → X K := fun a b => if h : a < nt then (jacRow F ex deg d0 xt (xt ⟨a, h⟩)).getD b (.fin 0) else .fin 0
  let m0 : X K := .fin 0
  let m1 : X K := if i < nt then jac i j else m0
  let m2 : X K := if j < nt then jac j i else m1
  if i = j ∧ i < nt then F.addX m2 reg else m2

/-- `jac.dot(self.sol)`, `rbf.py` 169, 195, one point and one output. -/
def dot (t : Tree) (row sol : List (X K)) : X K := t.evalX F fun i => F.mulX (row.getD i .nan) (sol.getD i .nan)

/-- `_predict_values`, `rbf.py` 148-170. -/
def predict (ex : X K → X K) (t : Tree) (deg : ℤ) (d0 : Fin nx → X K) (xt : Fin nt → Fin nx → X K) (sol : List (X K)) (x : Fin nx → X K) : X K :=
  dot F t (jacRow F ex deg d0 xt x) sol

/-- `_predict_derivatives`, `rbf.py` 172-196. -/
def predictDeriv (ex : X K → X K) (t : Tree) (deg : ℤ) (d0 : Fin nx → X K) (xt : Fin nt → Fin nx → X K) (sol : List (X K)) (kx : Fin nx) (x : Fin nx → X K) : X K :=
  dot F t (jacDerivRow F ex deg d0 xt kx x) sol

end SMT.Fp.Rbf
