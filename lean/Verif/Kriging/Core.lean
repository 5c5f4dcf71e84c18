import Verif.Common.Tri
import Verif.Kriging.Kernels
import Verif.Kriging.Prep
import Mathlib.Analysis.SpecialFunctions.Log.Base

/-!
# Model of `KrgBased` training (for given hyper-parameters) and prediction

`smt/surrogate_models/krg_based.py`. One output. The hyper-parameters enter through the kernel `kern`: the correlation of a
difference vector `x - x'` (componentwise distance followed by the kernel). Cholesky and QR are parameters; `solve_triangular`
is the substitution of `Common/Tri.lean`.
-/
namespace SMT.Krg
open Matrix SMT.Common

noncomputable section

variable {n nx p : ℕ}

/-- The dictionary `par`, `krg_based.py` 304-310, for one output. -/
structure Par (n p : ℕ) where
  beta : Fin p → ℝ
  gamma : Fin n → ℝ
  C : Matrix (Fin n) (Fin n) ℝ
  Ft : Matrix (Fin n) (Fin p) ℝ
  Q : Matrix (Fin n) (Fin p) ℝ
  G : Matrix (Fin p) (Fin p) ℝ
  sigma2 : ℝ

/-- The correlation matrix `R`, `krg_based.py` 252-257, built from the pair table of `cross_distances` (`krg_based.py` 161).
`noise` is broadcast over the columns. -/
def corrR (kern : (Fin nx → ℝ) → ℝ) (nugget : ℝ) (noise : Fin n → ℝ) (Xn : Fin n → Fin nx → ℝ) : Matrix (Fin n) (Fin n) ℝ :=
  match crossDistances n (fun k => if h : k < n then Xn ⟨k, h⟩ else 0) with
  | none => 0
  | some (D, ij) => Matrix.of fun i j =>
      corrMatrix nugget (fun k => if h : k < n then noise ⟨k, h⟩ else 0) ij (D.map kern) i j

/-- The generalised least-squares part of `_reduced_likelihood_function`, `krg_based.py` 268-310: `Ft`, `Yt`, `beta`, `rho`,
`sigma2`, `gamma` from the factors `C` and `Q`, `G`. `dof` is `nt - p - q` (`nt` except for the multi-fidelity models). -/
def blup (C : Matrix (Fin n) (Fin n) ℝ) (qr : Matrix (Fin n) (Fin p) ℝ → Matrix (Fin n) (Fin p) ℝ × Matrix (Fin p) (Fin p) ℝ)
    (F : Matrix (Fin n) (Fin p) ℝ) (y : Fin n → ℝ) (yStd dof : ℝ) : Par n p :=
  let Ft := fwdM C F
  let QG := qr Ft
  let Yt := fwd C y
  let beta := bwd QG.2 (QG.1ᵀ *ᵥ Yt)
  let rho := Yt - Ft *ᵥ beta
  let sigma2 := (∑ i, rho i ^ 2) / dof
  { beta := beta, gamma := bwd Cᵀ rho, C := C, Ft := Ft, Q := QG.1, G := QG.2, sigma2 := sigma2 * yStd ^ 2 }

/-- The value of the reduced likelihood, `krg_based.py` 290-303, from the same quantities. -/
def rlf (C : Matrix (Fin n) (Fin n) ℝ) (qr : Matrix (Fin n) (Fin p) ℝ → Matrix (Fin n) (Fin p) ℝ × Matrix (Fin p) (Fin p) ℝ)
    (F : Matrix (Fin n) (Fin p) ℝ) (y : Fin n → ℝ) (dof : ℝ) : ℝ :=
  let Ft := fwdM C F
  let QG := qr Ft
  let Yt := fwd C y
  let beta := bwd QG.2 (QG.1ᵀ *ᵥ Yt)
  let rho := Yt - Ft *ᵥ beta
  let detR := ∏ i, (C i i) ^ ((2 : ℝ) / n)
  let sigma2 := (∑ i, rho i ^ 2) / dof
  let value := -dof * Real.logb 10 sigma2 - n * Real.logb 10 detR
  value

/-- A trained model: attributes set by `_new_train`, `krg_based.py` 116-188. -/
structure Model (n nx p : ℕ) where
  Xn : Fin n → Fin nx → ℝ
  xOS : Fin nx → ℝ × ℝ
  yOS : ℝ × ℝ
  kern : (Fin nx → ℝ) → ℝ
  trend : (Fin nx → ℝ) → Fin p → ℝ
  F : Matrix (Fin n) (Fin p) ℝ
  par : Par n p

/-- `_new_train` for given hyper-parameters, without noise evaluation (`krg_based.py` 112-190): standardise, assemble, factorise,
solve. A failing Cholesky gives no model. -/
def train (chol : Matrix (Fin n) (Fin n) ℝ → Option (Matrix (Fin n) (Fin n) ℝ))
    (qr : Matrix (Fin n) (Fin p) ℝ → Matrix (Fin n) (Fin p) ℝ × Matrix (Fin p) (Fin p) ℝ)
    (kern : (Fin nx → ℝ) → ℝ) (trend : (Fin nx → ℝ) → Fin p → ℝ) (nugget : ℝ) (noise : Fin n → ℝ)
    (X : Fin n → Fin nx → ℝ) (y : Fin n → ℝ) : Option (Model n nx p) :=
  let xOS := fun j => scaling fun i => X i j
  let yOS := scaling y
  let Xn := fun i j => normalise (xOS j) (X i j)
  let F : Matrix (Fin n) (Fin p) ℝ := Matrix.of fun i => trend (Xn i)
  (chol (corrR kern nugget noise Xn)).map fun C =>
    { Xn := Xn, xOS := xOS, yOS := yOS, kern := kern, trend := trend, F := F,
      par := blup C qr F (fun i => normalise yOS (y i)) yOS.2 n }

/-- `x = (x - X_offset) / X_scale`, `krg_based.py` 648. -/
def Model.norm (M : Model n nx p) (x : Fin nx → ℝ) : Fin nx → ℝ := fun j => normalise (M.xOS j) (x j)

/-- Row of `r` for one point, `krg_based.py` 650-655. -/
def Model.corr (M : Model n nx p) (xn : Fin nx → ℝ) : Fin n → ℝ := fun i => M.kern fun j => xn j - M.Xn i j

/-- `_predict_values`, `krg_based.py` 632-664, one point. -/
def Model.predict (M : Model n nx p) (x : Fin nx → ℝ) : ℝ :=
  let xn := M.norm x
  denormalise M.yOS (M.trend xn ⬝ᵥ M.par.beta + M.corr xn ⬝ᵥ M.par.gamma)

/-- `_predict_variances`, `krg_based.py` 724-763, one point: note the triangular solve with `G.T` and no `lower=True`. -/
def Model.variance (M : Model n nx p) (x : Fin nx → ℝ) : ℝ :=
  let xn := M.norm x
  let rt := fwd M.par.C (M.corr xn)
  let u := bwd M.par.Gᵀ (M.par.Ftᵀ *ᵥ rt - M.trend xn)
  let B := 1 - ∑ i, rt i ^ 2 + ∑ q, u q ^ 2
  let mse := M.par.sigma2 * B
  if mse < 0 then 0 else mse

/-- The option `poly`. -/
inductive Poly | constant | linear | quadratic
  deriving DecidableEq, Repr

/-- `_predict_derivatives`, `krg_based.py` 666-722, one point: `theta` is the per-input hyper-parameter vector of line 712-715.
`df_dx[kx]` is 0 for the constant trend and `beta[1 + kx]` for the linear one; other kernels and the quadratic trend raise. -/
def Model.derivative (M : Model n nx p) (corr : Corr) (poly : Poly) (theta : Fin nx → ℝ) (x : Fin nx → ℝ) (kx : Fin nx) : Option ℝ :=
  let xn := M.norm x
  if corr ≠ .squarExp then none else
  let dfdx : Option ℝ := match poly with
    | .constant => some 0
    | .linear => some (if h : 1 + kx.val < p then M.par.beta ⟨1 + kx.val, h⟩ else 0)
    | .quadratic => none
  dfdx.map fun dfdx =>
    (dfdx - 2 * theta kx * ∑ i, ((xn kx - M.Xn i kx) * M.corr xn i) * M.par.gamma i) * M.yOS.2 / (M.xOS kx).2

/-- Trend functions on points of fixed dimension: `constant` and `linear` (`kriging_utils.py` 953-998). -/
def trendConstant (_x : Fin nx → ℝ) : Fin 1 → ℝ := fun _ => 1
def trendLinear (x : Fin nx → ℝ) : Fin (nx + 1) → ℝ := Fin.cons 1 x

/-- `theta` used by `_predict_derivatives` for KPLS models, `krg_based.py` 712-713. -/
def plsTheta {q : ℕ} (θ : Fin q → ℝ) (coeff : Fin nx → Fin q → ℝ) : Fin nx → ℝ := fun j => ∑ l, θ l * coeff j l ^ 2

/-- `_predict_variance_derivatives`, `krg_based.py` 765-840, for one point and input `kx`; `dr i` is the spatial Jacobian of the
kernel for training point `i` (row `i` of `dr`, column `kx`), `df` the column `kx` of `df`. -/
def Model.varianceDerivative (chol : Matrix (Fin p) (Fin p) ℝ → Option (Matrix (Fin p) (Fin p) ℝ)) (M : Model n nx p)
    (x : Fin nx → ℝ) (kx : Fin nx) (dr : Fin n → ℝ) (df : Fin p → ℝ) : Option ℝ :=
  let xn := M.norm x
  let r := M.corr xn
  let invKr := bwd M.par.Cᵀ (fwd M.par.C r)
  let p1 := dr ⬝ᵥ invKr
  let p2 := invKr ⬝ᵥ dr
  let invKF := bwdM M.par.Cᵀ (fwdM M.par.C M.F)
  let A := M.trend xn - r ᵥ* invKF
  let B := M.Fᵀ * invKF
  (chol B).map fun rho3 =>
    let D := bwd rho3ᵀ (fwd rho3 A)
    let dA := df - dr ᵥ* invKF
    let p3 := dA ⬝ᵥ D
    let p4 := D ⬝ᵥ dA
    M.par.sigma2 * (-p1 - p2 + p3 + p4) / (M.xOS kx).2

end

end SMT.Krg
