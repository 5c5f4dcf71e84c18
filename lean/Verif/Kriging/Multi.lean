import Verif.Kriging.OptimData
import Verif.Kriging.Likelihood
import Verif.Het.Model

/-!
# Model of the Kriging models trained on several outputs

`smt/surrogate_models/krg_based.py`. The arrays `yt`, `beta`, `gamma`, `rho` have one column per output; the hyper-parameters are shared. As in `Core.lean`, Cholesky and QR are parameters and
the kernel carries the hyper-parameters.
-/
namespace SMT.Krg.Multi
open Matrix SMT.Common SMT.Krg SMT.Krg.Optim

noncomputable section

variable {n nx p ny m : ℕ}

/-! ### NumPy -/

/-- `a.ravel()` of a 2-D array (row by row). -/
def ravel (A : Matrix (Fin m) (Fin ny) ℝ) : Fin (m * ny) → ℝ := fun k => A (finProdFinEquiv.symm k).1 (finProdFinEquiv.symm k).2

/-- `v.reshape((m, ny))` of a vector with `m * ny` entries. -/
def reshape (v : Fin (m * ny) → ℝ) : Matrix (Fin m) (Fin ny) ℝ := Matrix.of fun i j => v (finProdFinEquiv (i, j))

/-! ### Training for given hyper-parameters -/

/-- The dictionary `par`, `krg_based.py` 304-310. -/
structure ParM (n p ny : ℕ) where
  beta : Matrix (Fin p) (Fin ny) ℝ
  gamma : Matrix (Fin n) (Fin ny) ℝ
  C : Matrix (Fin n) (Fin n) ℝ
  Ft : Matrix (Fin n) (Fin p) ℝ
  Q : Matrix (Fin n) (Fin p) ℝ
  G : Matrix (Fin p) (Fin p) ℝ
  sigma2 : Fin ny → ℝ

/-- `rho`, `krg_based.py` 284-286, with the coefficients `beta`. -/
def glsM (C : Matrix (Fin n) (Fin n) ℝ) (qr : Matrix (Fin n) (Fin p) ℝ → Matrix (Fin n) (Fin p) ℝ × Matrix (Fin p) (Fin p) ℝ) (F : Matrix (Fin n) (Fin p) ℝ) (Y : Matrix (Fin n) (Fin ny) ℝ) :
    Matrix (Fin p) (Fin ny) ℝ × Matrix (Fin n) (Fin ny) ℝ :=
  let Ft := fwdM C F
  let QG := qr Ft
  let Yt := fwdM C Y
  let beta := bwdM QG.2 (QG.1ᵀ * Yt)
  (beta, Yt - Ft * beta)

/-- `sigma2 = (rho ** 2.0).sum(axis=0) / (self.nt - p - q)`, `krg_based.py` 298 (`p = q = 0`). -/
def sigma2M (rho : Matrix (Fin n) (Fin ny) ℝ) : Fin ny → ℝ := fun j => (∑ i, rho i j ^ 2) / n

/-- `par` of `_reduced_likelihood_function`, `krg_based.py` 262-310. -/
def blupM (C : Matrix (Fin n) (Fin n) ℝ) (qr : Matrix (Fin n) (Fin p) ℝ → Matrix (Fin n) (Fin p) ℝ × Matrix (Fin p) (Fin p) ℝ) (F : Matrix (Fin n) (Fin p) ℝ) (Y : Matrix (Fin n) (Fin ny) ℝ)
    (yStd : Fin ny → ℝ) : ParM n p ny :=
  let br := glsM C qr F Y
  { beta := br.1, gamma := bwdM Cᵀ br.2, C := C, Ft := fwdM C F, Q := (qr (fwdM C F)).1, G := (qr (fwdM C F)).2, sigma2 := fun j => sigma2M br.2 j * yStd j ^ 2 }

/-- The value of `_reduced_likelihood_function`, `krg_based.py` 290-303: the variances of the outputs are added (`sigma2.sum()`) before the logarithm. Minus infinity when the factorisation fails, plus
infinity when the sum is 0. The test of the conditioning of `G` (266-282) is left out here, see `Cond.lean`. -/
def valM (chol : Matrix (Fin n) (Fin n) ℝ → Option (Matrix (Fin n) (Fin n) ℝ)) (qr : Matrix (Fin n) (Fin p) ℝ → Matrix (Fin n) (Fin p) ℝ × Matrix (Fin p) (Fin p) ℝ)
    (kern : (Fin nx → ℝ) → ℝ) (nugget : ℝ) (noise : Fin n → ℝ) (Xn : Fin n → Fin nx → ℝ) (F : Matrix (Fin n) (Fin p) ℝ) (Y : Matrix (Fin n) (Fin ny) ℝ) : Val ℝ :=
  match chol (corrR kern nugget noise Xn) with
  | none => .ninf
  | some C =>
    let detR := ∏ i, (C i i) ^ ((2 : ℝ) / n)
    let s := ∑ j, sigma2M (glsM C qr F Y).2 j
    if s = 0 then .pinf else .fin (-n * Real.logb 10 s - n * Real.logb 10 detR)

/-- A trained model: attributes set by `_new_train`, `krg_based.py` 117-190. -/
structure ModelM (n nx p ny : ℕ) where
  Xn : Fin n → Fin nx → ℝ
  xOS : Fin nx → ℝ × ℝ
  yOS : Fin ny → ℝ × ℝ
  kern : (Fin nx → ℝ) → ℝ
  trend : (Fin nx → ℝ) → Fin p → ℝ
  F : Matrix (Fin n) (Fin p) ℝ
  par : ParM n p ny

/-- Standardised inputs and outputs (`standardization`, `kriging_utils.py` 66-84: column by column). -/
def normX (X : Fin n → Fin nx → ℝ) : Fin n → Fin nx → ℝ := fun i j => normalise (scaling fun i => X i j) (X i j)
def normY (Y : Matrix (Fin n) (Fin ny) ℝ) : Matrix (Fin n) (Fin ny) ℝ := Matrix.of fun i j => normalise (scaling fun i => Y i j) (Y i j)

/-- `_new_train` for given hyper-parameters, without noise evaluation, `krg_based.py` 117-190. -/
def trainM (chol : Matrix (Fin n) (Fin n) ℝ → Option (Matrix (Fin n) (Fin n) ℝ)) (qr : Matrix (Fin n) (Fin p) ℝ → Matrix (Fin n) (Fin p) ℝ × Matrix (Fin p) (Fin p) ℝ)
    (kern : (Fin nx → ℝ) → ℝ) (trend : (Fin nx → ℝ) → Fin p → ℝ) (nugget : ℝ) (noise : Fin n → ℝ) (X : Fin n → Fin nx → ℝ) (Y : Matrix (Fin n) (Fin ny) ℝ) : Option (ModelM n nx p ny) :=
  let F : Matrix (Fin n) (Fin p) ℝ := Matrix.of fun i => trend (normX X i)
  (chol (corrR kern nugget noise (normX X))).map fun C =>
    { Xn := normX X, xOS := fun j => scaling fun i => X i j, yOS := fun j => scaling fun i => Y i j, kern := kern, trend := trend, F := F,
      par := blupM C qr F (normY Y) fun j => (scaling fun i => Y i j).2 }

/-- `_new_train` up to the optimisation, `krg_based.py` 117-176: the likelihood of the data. -/
def dataValM (chol : Matrix (Fin n) (Fin n) ℝ → Option (Matrix (Fin n) (Fin n) ℝ)) (qr : Matrix (Fin n) (Fin p) ℝ → Matrix (Fin n) (Fin p) ℝ × Matrix (Fin p) (Fin p) ℝ)
    (kern : (Fin nx → ℝ) → ℝ) (trend : (Fin nx → ℝ) → Fin p → ℝ) (nugget : ℝ) (noise : Fin n → ℝ) (X : Fin n → Fin nx → ℝ) (Y : Matrix (Fin n) (Fin ny) ℝ) : Val ℝ :=
  valM chol qr kern nugget noise (normX X) (Matrix.of fun i => trend (normX X i)) (normY Y)

/-! ### Prediction -/

/-- Standardised points, `krg_based.py` 648. -/
def ModelM.norm (M : ModelM n nx p ny) (x : Fin m → Fin nx → ℝ) : Fin m → Fin nx → ℝ := fun k j => normalise (M.xOS j) (x k j)

/-- The array `r`, `krg_based.py` 650-655. -/
def ModelM.corr (M : ModelM n nx p ny) (xn : Fin m → Fin nx → ℝ) : Matrix (Fin m) (Fin n) ℝ := Matrix.of fun k i => M.kern fun j => xn k j - M.Xn i j

/-- `_predict_values`, `krg_based.py` 632-664 (a vector: `.ravel()`), and the final `reshape` of `predict_values`, `surrogate_model.py` 310. -/
def ModelM.predict (M : ModelM n nx p ny) (x : Fin m → Fin nx → ℝ) : Matrix (Fin m) (Fin ny) ℝ :=
  let xn := M.norm x
  let f : Matrix (Fin m) (Fin p) ℝ := Matrix.of fun k => M.trend (xn k)
  let y := f * M.par.beta + M.corr xn * M.par.gamma
  reshape (ravel (Matrix.of fun k j => denormalise (M.yOS j) (y k j)))

/-- `_predict_variances`, `krg_based.py` 724-763: `np.einsum("i,j -> ji", A, B)`. -/
def ModelM.variance (M : ModelM n nx p ny) (x : Fin m → Fin nx → ℝ) : Matrix (Fin m) (Fin ny) ℝ :=
  let xn := M.norm x
  let rt := fwdM M.par.C (M.corr xn)ᵀ
  let u := bwdM M.par.Gᵀ (M.par.Ftᵀ * rt - (Matrix.of fun k => M.trend (xn k))ᵀ)
  let B := fun k => 1 - ∑ i, rt i k ^ 2 + ∑ q, u q k ^ 2
  Matrix.of fun k j => if M.par.sigma2 j * B k < 0 then 0 else M.par.sigma2 j * B k

/-- `_predict_derivatives`, `krg_based.py` 666-722, with respect to input `kx`; `theta` as in `Core.lean`. -/
def ModelM.derivative (M : ModelM n nx p ny) (corr : Corr) (poly : Poly) (theta : Fin nx → ℝ) (x : Fin m → Fin nx → ℝ) (kx : Fin nx) : Option (Matrix (Fin m) (Fin ny) ℝ) :=
  let xn := M.norm x
  if corr ≠ .squarExp then none else
  let dfdx : Option (Fin ny → ℝ) := match poly with
    | .constant => some 0
    | .linear => some fun j => if h : 1 + kx.val < p then M.par.beta ⟨1 + kx.val, h⟩ j else 0
    | .quadratic => none
  dfdx.map fun dfdx =>
    let dr : Matrix (Fin m) (Fin n) ℝ := Matrix.of fun k i => (xn k kx - M.Xn i kx) * M.corr xn k i
    Matrix.of fun k j => (dfdx j - 2 * theta kx * (dr * M.par.gamma) k j) * (M.yOS j).2 / (M.xOS kx).2

/-- `_predict_variance_derivatives`, `krg_based.py` 765-840, for one point: one row per output, one column per input (the interface does not reshape it). `dr`, `df` are the Jacobians of the kernel
values and of the trend. -/
def ModelM.varianceDerivatives (chol : Matrix (Fin p) (Fin p) ℝ → Option (Matrix (Fin p) (Fin p) ℝ)) (M : ModelM n nx p ny) (x : Fin nx → ℝ) (dr : Matrix (Fin n) (Fin nx) ℝ)
    (df : Matrix (Fin p) (Fin nx) ℝ) : Option (Matrix (Fin ny) (Fin nx) ℝ) :=
  let xn : Fin nx → ℝ := fun j => normalise (M.xOS j) (x j)
  let r : Fin n → ℝ := fun i => M.kern fun j => xn j - M.Xn i j
  let invKr := bwd M.par.Cᵀ (fwd M.par.C r)
  let p1 := drᵀ *ᵥ invKr
  let p2 := invKr ᵥ* dr
  let invKF := bwdM M.par.Cᵀ (fwdM M.par.C M.F)
  let A := M.trend xn - r ᵥ* invKF
  (chol (M.Fᵀ * invKF)).map fun rho3 =>
    let D := bwd rho3ᵀ (fwd rho3 A)
    let dA := dfᵀ - drᵀ * invKF
    let prime := -p1 - p2 + dA *ᵥ D + D ᵥ* dAᵀ
    (Matrix.of fun i j => M.par.sigma2 j * prime i / (M.xOS i).2)ᵀ

/-! ### The gradient of the likelihood -/

/-- `dsigma_2 / sigma_2 + np.trace(tr) / self.nt` and its factor, `krg_based.py` 395-427: with `ny` outputs this is an array with `ny` rows and columns. -/
def gradArray (P : ParM n p ny) (F : Matrix (Fin n) (Fin p) ℝ) (yStd : Fin ny → ℝ) (dR : Matrix (Fin n) (Fin n) ℝ) : Matrix (Fin ny) (Fin ny) ℝ :=
  let arg := fwdM P.C (dR * P.gamma)
  let dbeta := -bwdM P.G (P.Qᵀ * arg)
  let dmu := F * dbeta
  let tr := bwdM P.Cᵀ (fwdM P.C dR)
  let ds := -(dmuᵀ * P.gamma) - P.gammaᵀ * dmu - P.gammaᵀ * (dR * P.gamma)
  Matrix.of fun a b => -n / Real.log 10 * ((1 / n) * ds a b * yStd b ^ 2 / P.sigma2 b + tr.trace / n)

/-- `grad_red[i] = ...`, `krg_based.py` 424-427: NumPy stores an array in one entry only if it has exactly one element; otherwise a `ValueError` (`none`). -/
def storeScalar (A : Matrix (Fin ny) (Fin ny) ℝ) : Option ℝ := if h : ny = 1 then some (A ⟨0, by omega⟩ ⟨0, by omega⟩) else none

/-- `_reduced_likelihood_gradient`, `krg_based.py` 330-440, for the derivatives `dRs` of the correlation matrix. -/
def gradM (P : ParM n p ny) (F : Matrix (Fin n) (Fin p) ℝ) (yStd : Fin ny → ℝ) (dRs : List (Matrix (Fin n) (Fin n) ℝ)) : Option (List ℝ) := dRs.mapM fun dR => storeScalar (gradArray P F yStd dR)

/-- Start of `scipy.optimize.minimize(method="TNC", jac=...)`, `krg_based.py` 1012-1028: the function is evaluated at the starting point, then its gradient; `go` is what follows if that works.
A gradient at hyper-parameters with a failed factorisation reads `par["C"]` of an empty dictionary (`krg_based.py` 365: `KeyError`). -/
def tncAttempt {Θ : Type} (rl : Θ → Val ℝ) (grad : Θ → Option (List ℝ)) (go : Attempt Θ) (θ0 : Θ) : Attempt Θ :=
  match rl θ0 with
  | .ninf => .fatal [θ0]
  | _ => match grad θ0 with
    | none => .raises [θ0]
    | some _ => go

/-! ### Heteroscedastic noise -/

/-- The standardised rows with every output as a separate entry: `self.y_norma[index_unique == i]` has `ny` columns, and `np.mean`, `np.sum`, `np.std` run over all entries (`krg_based.py` 148-156). -/
def flatRows (X : Fin n → Fin nx → ℝ) (Y : Matrix (Fin n) (Fin ny) ℝ) : List ((Fin nx → ℝ) × ℝ) :=
  (List.ofFn fun i => List.ofFn fun j => (normX X i, normY Y i j)).flatten

/-- `self.y_norma` after `krg_based.py` 148-150, 160 for the distinct row `u`: one number for all outputs. -/
def hetTarget (X : Fin n → Fin nx → ℝ) (Y : Matrix (Fin n) (Fin ny) ℝ) (u : Fin nx → ℝ) : ℝ := Het.meanL (Het.outs (flatRows X Y) u)

open Classical in
/-- `self.optimal_noise` for the distinct row `u`, `krg_based.py` 152-159; `nt_reps` counts rows. -/
def hetNoise (noise0 : ℝ) (X : Fin n → Fin nx → ℝ) (Y : Matrix (Fin n) (Fin ny) ℝ) (u : Fin nx → ℝ) : ℝ :=
  let diff := (Het.outs (flatRows X Y) u).map fun v => v - hetTarget X Y u
  (if (diff.map fun v => v ^ 2).sum ≠ 0 then Het.stdL diff ^ 2 else noise0) / ((List.ofFn fun i => normX X i).filter fun r => r = u).length

/-- `y_mean + y_std * y_` for one-dimensional `y_` (`krg_based.py` 660-662 after the replacement of `self.y_norma` by a list) and the final `reshape((n, self.ny))`: vectors of lengths `ny` and `m`
are combined by broadcasting, the result must have `m * ny` entries. -/
def hetOutput (yOS : Fin ny → ℝ × ℝ) (y : Fin m → ℝ) : Option (Matrix (Fin m) (Fin ny) ℝ) :=
  if hm : m = 1 then some (Matrix.of fun _ j => denormalise (yOS j) (y ⟨0, by omega⟩))
  else if hn : ny = 1 then some (Matrix.of fun k _ => denormalise (yOS ⟨0, by omega⟩) (y k))
  else if m = ny ∧ m * ny = m then some (Matrix.of fun k j => denormalise (yOS j) (y k))
  else none

end

end SMT.Krg.Multi
