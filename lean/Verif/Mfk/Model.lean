import Verif.Kriging.Core
import Mathlib.Data.Fin.Tuple.Basic
import Mathlib.Data.Matrix.Basic

/-!
# Model of the multi-fidelity co-Kriging model

`smt/applications/mfk.py` `MFK` (and the parts shared by `MFKPLS`, `MFKPLSK`): training for given hyper-parameters, prediction of values, variances and derivatives. One output, no
noise evaluation. The hyper-parameters of a level enter through its kernel, as in `Kriging/Core.lean`; Cholesky and QR are parameters, for every size.
-/
namespace SMT.Mfk
open Matrix SMT.Common SMT.Krg

noncomputable section

variable {nx p q : ℕ}

/-- `linalg.cholesky` and `linalg.qr(mode="economic")` for every size. -/
structure Lin where
  chol : ∀ {n : ℕ}, Matrix (Fin n) (Fin n) ℝ → Option (Matrix (Fin n) (Fin n) ℝ)
  qr : ∀ {n p : ℕ}, Matrix (Fin n) (Fin p) ℝ → Matrix (Fin n) (Fin p) ℝ × Matrix (Fin p) (Fin p) ℝ

/-- Training data of one level and what hyper-parameter optimisation determines for it: kernel of a difference vector, `theta` per input (`_get_theta`), noise. -/
structure Data (nx : ℕ) where
  n : ℕ
  X : Fin n → Fin nx → ℝ
  y : Fin n → ℝ
  kern : (Fin nx → ℝ) → ℝ
  theta : Fin nx → ℝ
  noise : Fin n → ℝ

/-- A trained level with `m` regressors: entries of `X_norma_all`, `y_norma_all`, `F_all`, `optimal_par`, `optimal_noise_all`. -/
structure Lvl (nx m : ℕ) where
  n : ℕ
  Xn : Fin n → Fin nx → ℝ
  yn : Fin n → ℝ
  kern : (Fin nx → ℝ) → ℝ
  theta : Fin nx → ℝ
  noise : Fin n → ℝ
  F : Matrix (Fin n) (Fin m) ℝ
  par : Par n m

/-- A trained model: the scaling of all levels, the regression functions `poly` and `rho_regr`, level 0 and the levels above it. -/
structure Mfk (nx p q : ℕ) where
  xOS : Fin nx → ℝ × ℝ
  yOS : ℝ × ℝ
  poly : (Fin nx → ℝ) → Fin p → ℝ
  rho : (Fin nx → ℝ) → Fin q → ℝ
  base : Lvl nx p
  rest : List (Lvl nx (q + p))

/-- `r_` for one point, `mfk.py` 384-390, 399-403. -/
def Lvl.corr {m : ℕ} (L : Lvl nx m) (xn : Fin nx → ℝ) : Fin L.n → ℝ := fun i => L.kern fun j => xn j - L.Xn i j

/-- `np.dot(f, beta) + np.dot(r_, gamma)`, `mfk.py` 394, 408. -/
def Lvl.mean {m : ℕ} (L : Lvl nx m) (xn : Fin nx → ℝ) (f : Fin m → ℝ) : ℝ := f ⬝ᵥ L.par.beta + L.corr xn ⬝ᵥ L.par.gamma

/-- `f = np.vstack((g.T * mu[:, i - 1], f0.T))`, `mfk.py` 404 (and the hstack of `mfk.py` 286-297 in training): regressors of a level above 0 at a standardised point, given the prediction of
the level below. -/
def regr (poly : (Fin nx → ℝ) → Fin p → ℝ) (rho : (Fin nx → ℝ) → Fin q → ℝ) (prev : (Fin nx → ℝ) → ℝ) (xn : Fin nx → ℝ) : Fin (q + p) → ℝ :=
  Fin.append (fun k => rho xn k * prev xn) (poly xn)

/-- The recursion over levels of `_predict_intermediate_values`, `mfk.py` 397-414, on standardised points: prediction of the last of the given levels. -/
def mu (poly : (Fin nx → ℝ) → Fin p → ℝ) (rho : (Fin nx → ℝ) → Fin q → ℝ) (base : Lvl nx p) (rest : List (Lvl nx (q + p))) : (Fin nx → ℝ) → ℝ :=
  rest.foldl (fun prev L xn => L.mean xn (regr poly rho prev xn)) fun xn => base.mean xn (poly xn)

/-- One `_new_train_iteration`, `mfk.py` 233-337, for given hyper-parameters: regression matrix, test `p + q >= n_samples` (an `Exception`), factorisation and generalised least squares
with `nt - p - q` degrees of freedom (`krg_based.py` 296-303). `none`: an exception, or a failed Cholesky factorisation. -/
def trainLevel {m : ℕ} (lin : Lin) (nugget : ℝ) (xOS : Fin nx → ℝ × ℝ) (yOS : ℝ × ℝ) (trend : (Fin nx → ℝ) → Fin m → ℝ) (d : Data nx) : Option (Lvl nx m) :=
  let Xn := fun i j => normalise (xOS j) (d.X i j)
  let yn := fun i => normalise yOS (d.y i)
  let F : Matrix (Fin d.n) (Fin m) ℝ := Matrix.of fun i => trend (Xn i)
  if d.n ≤ m then none
  else (lin.chol (corrR d.kern nugget d.noise Xn)).map fun C =>
    { n := d.n, Xn := Xn, yn := yn, kern := d.kern, theta := d.theta, noise := d.noise, F := F, par := blup C lin.qr F yn yOS.2 ((d.n : ℝ) - m) }

/-- Offset and scale of the values in a list, `standardization` on concatenated data, `mfk.py` 215-217. -/
def scalingL (l : List ℝ) : ℝ × ℝ := scaling fun i : Fin l.length => l.get i

/-- The loop over levels of `_new_train`, `mfk.py` 183-188. -/
def trainRest (lin : Lin) (nugget : ℝ) (xOS : Fin nx → ℝ × ℝ) (yOS : ℝ × ℝ) (poly : (Fin nx → ℝ) → Fin p → ℝ) (rho : (Fin nx → ℝ) → Fin q → ℝ) (base : Lvl nx p) (ds : List (Data nx)) :
    Option (List (Lvl nx (q + p))) :=
  ds.foldlM (fun acc d => (trainLevel lin nugget xOS yOS (regr poly rho (mu poly rho base acc)) d).map fun L => acc ++ [L]) []

/-- `_new_train` for given hyper-parameters, `mfk.py` 174-231: all levels are standardised with the offset and scale of the concatenated data. -/
def train (lin : Lin) (nugget : ℝ) (poly : (Fin nx → ℝ) → Fin p → ℝ) (rho : (Fin nx → ℝ) → Fin q → ℝ) (d0 : Data nx) (ds : List (Data nx)) : Option (Mfk nx p q) :=
  let xOS := fun j => scalingL ((d0 :: ds).flatMap fun d => List.ofFn fun i => d.X i j)
  let yOS := scalingL ((d0 :: ds).flatMap fun d => List.ofFn d.y)
  match trainLevel lin nugget xOS yOS poly d0 with
  | none => none
  | some base => (trainRest lin nugget xOS yOS poly rho base ds).map fun rest => { xOS := xOS, yOS := yOS, poly := poly, rho := rho, base := base, rest := rest }

/-- `X = (X - self.X_offset) / self.X_scale`, `mfk.py` 380. -/
def Mfk.norm (M : Mfk nx p q) (x : Fin nx → ℝ) : Fin nx → ℝ := fun j => normalise (M.xOS j) (x j)

/-- `_predict_intermediate_values(X, lvl)` with `descale=True`, `mfk.py` 356-414: prediction of level `lvl - 1`. -/
def Mfk.level (M : Mfk nx p q) (lvl : ℕ) (x : Fin nx → ℝ) : ℝ := mu M.poly M.rho M.base (M.rest.take (lvl - 1)) (M.norm x) * M.yOS.2 + M.yOS.1

/-- `_predict_values`, `mfk.py` 416-431: the last level. -/
def Mfk.predict (M : Mfk nx p q) (x : Fin nx → ℝ) : ℝ := M.level (M.rest.length + 1) x

/-! ### Variances -/

/-- `(r_t ** 2).sum(axis=0)`, `mfk.py` 495, 503. -/
def Lvl.rt2 {m : ℕ} (L : Lvl nx m) (xn : Fin nx → ℝ) : ℝ := ∑ i, fwd L.par.C (L.corr xn) i ^ 2

/-- `(u_ ** 2).sum(axis=0)` with `u_ = solve_triangular(G.T, f - np.dot(Ft.T, r_t), lower=True)`, `mfk.py` 498-504, 528. -/
def Lvl.u2 {m : ℕ} (L : Lvl nx m) (xn : Fin nx → ℝ) (f : Fin m → ℝ) : ℝ :=
  ∑ k, fwd L.par.Gᵀ (f - (fwdM L.par.C L.F)ᵀ *ᵥ fwd L.par.C (L.corr xn)) k ^ 2

/-- `sigma2_rho`, `mfk.py` 529-534; `linalg.inv` is the matrix inverse. -/
def Lvl.rhoVar (L : Lvl nx (q + p)) (s2 : ℝ) (g : Fin q → ℝ) : ℝ :=
  let V : Fin q → Fin q → ℝ := fun a b => s2 * (L.par.Gᵀ * L.par.G)⁻¹ (Fin.castAdd p a) (Fin.castAdd p b) + L.par.beta (Fin.castAdd p a) * L.par.beta (Fin.castAdd p b)
  ∑ b, (∑ a, g a * V a b) * g b

/-- `Q_`, `mfk.py` 539, for the PLS variants: squared norm of `yt - Ft beta`. -/
def Lvl.q2 {m : ℕ} (L : Lvl nx m) : ℝ := ∑ i, (fwd L.par.C L.yn - fwdM L.par.C L.F *ᵥ L.par.beta) i ^ 2

/-- One level of the recursion of `predict_variances_all_levels`, `mfk.py` 507-556. `pls`: the formula of the names MFKPLS and MFKPLSK. -/
def varStep (pls : Bool) (poly : (Fin nx → ℝ) → Fin p → ℝ) (rho : (Fin nx → ℝ) → Fin q → ℝ) (yStd : ℝ) (xn : Fin nx → ℝ) (prev : (Fin nx → ℝ) → ℝ) (mse : ℝ) (L : Lvl nx (q + p)) : ℝ :=
  let s2 := L.par.sigma2 / yStd ^ 2
  let f := regr poly rho prev xn
  if pls then L.rhoVar s2 (rho xn) * mse + L.q2 / (2 * ((L.n : ℝ) - p - q)) * (1 - L.rt2 xn) + s2 * L.u2 xn f
  else L.rhoVar s2 (rho xn) * mse + s2 * (1 - L.rt2 xn + L.u2 xn f)

/-- The columns `mu[:, i]` read by the variance recursion. The code fills column 0 only (`mfk.py` 491); the other columns keep the zeros of `mfk.py` 472, so from the third level on the
regressors are built with `mu[:, i - 1] = 0`. -/
def muCol (poly : (Fin nx → ℝ) → Fin p → ℝ) (base : Lvl nx p) (i : ℕ) : (Fin nx → ℝ) → ℝ := if i = 0 then fun xn => base.mean xn (poly xn) else fun _ => 0

/-- `MSE[:, i]` before the final scaling: `mfk.py` 500-553, levels `0 .. i`. -/
def mseLoop (pls : Bool) (poly : (Fin nx → ℝ) → Fin p → ℝ) (rho : (Fin nx → ℝ) → Fin q → ℝ) (yStd : ℝ) (base : Lvl nx p) (xn : Fin nx → ℝ) : ℕ → List (Lvl nx (q + p)) → ℝ → ℝ
  | _, [], mse => mse
  | i, L :: rest, mse => mseLoop pls poly rho yStd base xn (i + 1) rest (varStep pls poly rho yStd xn (muCol poly base i) mse L)

/-- `_predict_variances` (last column of `predict_variances_all_levels`), `mfk.py` 433-558. -/
def Mfk.variance (pls : Bool) (M : Mfk nx p q) (x : Fin nx → ℝ) : ℝ :=
  let xn := M.norm x
  let mse0 := M.base.par.sigma2 / M.yOS.2 ^ 2 * (1 - M.base.rt2 xn + M.base.u2 xn (M.poly xn))
  mseLoop pls M.poly M.rho M.yOS.2 M.base xn 0 M.rest mse0 * M.yOS.2 ^ 2

/-! ### Derivatives -/

/-- `df0`, `mfk.py` 589-600: zeros for the constant trend, `[0, 1, …, 1]` for the linear one; the quadratic trend raises. -/
def df0 (poly : Poly) (p : ℕ) : Option (Fin p → ℝ) :=
  match poly with
  | .constant => some fun _ => 0
  | .linear => some fun k => if k.val = 0 then 0 else 1
  | .quadratic => none

/-- `df_dx - 2 * theta[kx] * np.dot(d_dx * r_, gamma)`, `mfk.py` 618-624, 639-647. -/
def Lvl.dmean {m : ℕ} (L : Lvl nx m) (xn : Fin nx → ℝ) (kx : Fin nx) (df : Fin m → ℝ) : ℝ :=
  df ⬝ᵥ L.par.beta - 2 * L.theta kx * ∑ i, ((xn kx - L.Xn i kx) * L.corr xn i) * L.par.gamma i

/-- `_predict_derivatives`, `mfk.py` 560-649, one point; `corr`, `poly`, `rhoRegr` are the options. -/
def Mfk.derivative (M : Mfk nx p q) (corr : Corr) (poly rhoRegr : Poly) (x : Fin nx → ℝ) (kx : Fin nx) : Option ℝ :=
  let xn := M.norm x
  if corr ≠ .squarExp then none
  else match df0 poly p with
    | none => none
    | some df =>
      if rhoRegr ≠ .constant then none
      else some (M.rest.foldl (fun dprev L => L.dmean xn kx (Fin.append (fun k => M.rho xn k * dprev) df)) (M.base.dmean xn kx df) * M.yOS.2 / (M.xOS kx).2)

end

end SMT.Mfk
