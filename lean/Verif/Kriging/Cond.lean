import Verif.Kriging.Core
import Verif.Kriging.OptimData

/-!
# Model of the conditioning test of `_reduced_likelihood_function`

`smt/surrogate_models/krg_based.py` 259-286. The other Kriging modules leave this test out; here it is put in front of the same computations. `linalg.svd` is a parameter that gives the first
and the last singular value of a tall matrix (`_check_F`, `krg_based.py` 1190-1202, has already refused more trend functions than points).
-/
namespace SMT.Krg
open Matrix SMT.Common SMT.Krg.Optim

noncomputable section

variable {n nx p : ℕ} {Θ : Type}

/-- What a call of `_reduced_likelihood_function` does: raise an exception, return minus infinity with an empty dictionary, or go on. -/
inductive Outcome (α : Type)
  | raised
  | rejected
  | ok (a : α)

/-- First and last entry of `linalg.svd(A, compute_uv=False)` for matrices with `p` columns. -/
abbrev Svd (p : ℕ) := (m : ℕ) → Matrix (Fin m) (Fin p) ℝ → ℝ × ℝ

/-- `krg_based.py` 271-283. `rcondG = sv[-1] / sv[0] < 1e-10` is written `sv[-1] < 1e-10 * sv[0]` and `condF = sv[0] / sv[-1] > 1e15` is written `sv[0] > 1e15 * sv[-1]`: singular values are not
negative, and where NumPy divides by zero both forms agree (0 / 0 is not a number and compares false; a positive number over 0 is infinite and compares true). -/
def condTest (svd : Svd p) (G : Matrix (Fin p) (Fin p) ℝ) (F : Matrix (Fin n) (Fin p) ℝ) : Outcome Unit :=
  let sv := svd p G
  if sv.2 < 1e-10 * sv.1 then
    let svF := svd n F
    if 1e15 * svF.2 < svF.1 then .raised else .rejected
  else .ok ()

open Classical in
/-- `_reduced_likelihood_function` up to the solution of the linear systems, `krg_based.py` 259-310: Cholesky failure, conditioning test, `solve_triangular` on a triangular matrix with a zero on its
diagonal (285: `LinAlgError`, not caught and not told apart from the exception of line 277), otherwise the computation of `Core.lean`. -/
def solveChecked (chol : Matrix (Fin n) (Fin n) ℝ → Option (Matrix (Fin n) (Fin n) ℝ))
    (qr : Matrix (Fin n) (Fin p) ℝ → Matrix (Fin n) (Fin p) ℝ × Matrix (Fin p) (Fin p) ℝ) (svd : Svd p)
    (R : Matrix (Fin n) (Fin n) ℝ) (F : Matrix (Fin n) (Fin p) ℝ) {α : Type} (body : Matrix (Fin n) (Fin n) ℝ → α) : Outcome α :=
  match chol R with
  | none => .rejected
  | some C =>
    let G := (qr (fwdM C F)).2
    match condTest svd G F with
    | .raised => .raised
    | .rejected => .rejected
    | .ok _ => if ∃ i, G i i = 0 then .raised else .ok (body C)

/-- `_new_train` for given hyper-parameters (`krg_based.py` 116-188) with the test: `train` of `Core.lean` behind it. -/
def trainChecked (chol : Matrix (Fin n) (Fin n) ℝ → Option (Matrix (Fin n) (Fin n) ℝ))
    (qr : Matrix (Fin n) (Fin p) ℝ → Matrix (Fin n) (Fin p) ℝ × Matrix (Fin p) (Fin p) ℝ) (svd : Svd p)
    (kern : (Fin nx → ℝ) → ℝ) (trend : (Fin nx → ℝ) → Fin p → ℝ) (nugget : ℝ) (noise : Fin n → ℝ)
    (X : Fin n → Fin nx → ℝ) (y : Fin n → ℝ) : Outcome (Model n nx p) :=
  let xOS := fun j => scaling fun i => X i j
  let yOS := scaling y
  let Xn := fun i j => normalise (xOS j) (X i j)
  let F : Matrix (Fin n) (Fin p) ℝ := Matrix.of fun i => trend (Xn i)
  solveChecked chol qr svd (corrR kern nugget noise Xn) F fun C =>
    { Xn := Xn, xOS := xOS, yOS := yOS, kern := kern, trend := trend, F := F,
      par := blup C qr F (fun i => normalise yOS (y i)) yOS.2 n }

/-- The likelihood the optimiser works with, `krg_based.py` 239-313, with the test: as `krgVal` of `OptimData.lean` behind it. Where the function raises there is no value; minus infinity stands for
it, which is the worst value. (The exception of line 277 is not a `ValueError`: it ends the optimisation, an `Attempt.fatal` of `Optim.lean`.) -/
def dataValChecked (chol : Matrix (Fin n) (Fin n) ℝ → Option (Matrix (Fin n) (Fin n) ℝ))
    (qr : Matrix (Fin n) (Fin p) ℝ → Matrix (Fin n) (Fin p) ℝ × Matrix (Fin p) (Fin p) ℝ) (svd : Svd p)
    (kern : Θ → (Fin nx → ℝ) → ℝ) (trend : (Fin nx → ℝ) → Fin p → ℝ) (nugget : ℝ) (noise : Fin n → ℝ) (X : Fin n → Fin nx → ℝ) (y : Fin n → ℝ) (θ : Θ) : Val ℝ :=
  let Xn := fun i j => normalise (scaling fun i => X i j) (X i j)
  let F : Matrix (Fin n) (Fin p) ℝ := Matrix.of fun i => trend (Xn i)
  let z := fun i => normalise (scaling y) (y i)
  match solveChecked chol qr svd (corrR (kern θ) nugget noise Xn) F fun C =>
      if (blup C qr F z 1 n).sigma2 = 0 then Val.pinf else Val.fin (rlf C qr F z n) with
  | .raised => .ninf
  | .rejected => .ninf
  | .ok v => v

end

end SMT.Krg
