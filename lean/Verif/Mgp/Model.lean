import Verif.Kriging.Likelihood
import Mathlib.Logic.Equiv.Fin.Basic

/-!
# Model of the marginal Gaussian process MGP

`smt/surrogate_models/krg_mgp.py` (all of it except the choice of `best_ncomp`, 491-496), the kernel `act_exp` (`smt/utils/kriging_utils.py` 569-634) in both of its
modes, and the MGP terms of `krg_based.py` (312-313, 444-445, 514-515, 626-627). One output, no noise evaluation (`eval_noise=False`). Hyper-parameters `theta` are
indexed by `Fin (m * nx)`; entry `l * nx + k` belongs to component `l` and input `k`. `linalg.qr` of the embedding and `linalg.cholesky` are parameters as for Kriging;
`linalg.solve` is exact and raises on a singular matrix.
-/
namespace SMT.Mgp
open Matrix SMT.Common SMT.Krg

noncomputable section

variable {n nx m p q : ℕ}

/-- `A = np.reshape(theta, (n_small_components, n_components)).T`, `kriging_utils.py` 605 and `krg_mgp.py` 474. -/
def embA (θ : Fin (m * nx) → ℝ) : Matrix (Fin nx) (Fin m) ℝ := Matrix.of fun k l => θ (finProdFinEquiv (l, k))

/-- `act_exp`, `kriging_utils.py` 603-629, one row. `dx` is the `d` of line 610 onwards: `d_x` when it is given, `d` itself otherwise. `grad`, `hess` are `grad_ind`, `hess_ind`. -/
def actExpRow (θ : Fin (m * q) → ℝ) (d : Fin q → ℝ) (dx : Fin nx → ℝ) (grad hess : Option (Fin (m * nx))) : ℝ :=
  let dA := d ᵥ* embA θ
  let r := Real.exp (-(1 / 2) * ∑ l, dA l ^ 2)
  match grad, hess with
  | none, _ => r
  | some g, none => -dx g.modNat * dA g.divNat * r
  | some g, some h =>
    let fact := -dA g.divNat * dA h.divNat
    let fact := if h.divNat = g.divNat then 1 + fact else fact;
    (-dx g.modNat) * dx h.modNat * fact * r

/-- The correlation as a function of the difference vector (`_correlation_types["act_exp"](theta, D)`): `componentwise_distance` of `act_exp` is the identity (`kriging_utils.py` 813-815). -/
def kern (θ : Fin (m * nx) → ℝ) (d : Fin nx → ℝ) : ℝ := actExpRow θ d d none none

/-- Its derivative (`grad_ind=g`). -/
def kernGrad (θ : Fin (m * nx) → ℝ) (g : Fin (m * nx)) (d : Fin nx → ℝ) : ℝ := actExpRow θ d d (some g) none

/-- Its second derivative (`grad_ind=g, hess_ind=h`). -/
def kernHess (θ : Fin (m * nx) → ℝ) (g h : Fin (m * nx)) (d : Fin nx → ℝ) : ℝ := actExpRow θ d d (some g) (some h)

/-! ## Prior -/

/-- The option `prior`: a mean and a variance common to all hyper-parameters (`krg_mgp.py` 30-35). -/
structure Prior where
  mean : ℝ
  var : ℝ

/-- `_reduced_log_prior(theta)`, `krg_mgp.py` 210-227: `-(theta - mean).T sig_inv (theta - mean)` with `sig_inv = eye / var`. -/
def priorVal {N : ℕ} (P : Prior) (θ : Fin N → ℝ) : ℝ :=
  -((fun i => θ i - P.mean) ⬝ᵥ ((Matrix.of fun i j : Fin N => if i = j then 1 / P.var else 0) *ᵥ fun i => θ i - P.mean))

/-- `_reduced_log_prior(theta, grad=True)`, `krg_mgp.py` 218-221. -/
def priorGrad {N : ℕ} (P : Prior) (θ : Fin N → ℝ) (g : Fin N) : ℝ := -2 * (θ g - P.mean) * ∑ i : Fin N, if i = g then 1 / P.var else 0

/-- `_reduced_log_prior(theta, hessian=True)`, `krg_mgp.py` 222-223: the diagonal. -/
def priorHess {N : ℕ} (P : Prior) (g : Fin N) : ℝ := -2 * ∑ i : Fin N, if i = g then 1 / P.var else 0

/-! ## Objective, gradient, Hessian -/

/-- Data of the likelihood: nugget and noise, standardised inputs, trend matrix, standardised outputs, `y_std`. -/
structure Data (n nx p : ℕ) where
  nugget : ℝ
  noise : Fin n → ℝ
  Xn : Fin n → Fin nx → ℝ
  F : Matrix (Fin n) (Fin p) ℝ
  y : Fin n → ℝ
  yStd : ℝ

variable (chol : Matrix (Fin n) (Fin n) ℝ → Option (Matrix (Fin n) (Fin n) ℝ))
  (qr : Matrix (Fin n) (Fin p) ℝ → Matrix (Fin n) (Fin p) ℝ × Matrix (Fin p) (Fin p) ℝ)

/-- `_reduced_likelihood_function` of MGP, `krg_based.py` 240-313; `none`: minus infinity. -/
def objective (D : Data n nx p) (P : Prior) (θ : Fin (m * nx) → ℝ) : Option ℝ :=
  (rlfAt chol qr (kern θ) D.nugget D.noise D.Xn D.F D.y n).map fun v => v + priorVal P θ

/-- `par` at `theta`, `krg_based.py` 304-310. -/
def parAt (D : Data n nx p) (θ : Fin (m * nx) → ℝ) : Option (Par n p) :=
  (chol (corrR (kern θ) D.nugget D.noise D.Xn)).map fun C => blup C qr D.F D.y D.yStd n

/-- The correlation-matrix derivative for hyper-parameter `g`, `krg_based.py` 385-393. -/
def dR (D : Data n nx p) (θ : Fin (m * nx) → ℝ) (g : Fin (m * nx)) : Matrix (Fin n) (Fin n) ℝ := pairMatrix (kernGrad θ g) D.Xn

/-- Entry `g` of `_reduced_likelihood_gradient`, `krg_based.py` 424-446. -/
def gradient (D : Data n nx p) (P : Prior) (θ : Fin (m * nx) → ℝ) (g : Fin (m * nx)) : Option ℝ :=
  (parAt chol qr D θ).map fun par => lhGrad par D.F D.yStd (dR D θ g) + priorGrad P θ g

/-- The entry of `hess` for the pair `(omega, eta)`, `krg_based.py` 526-627. -/
def hessEntry (D : Data n nx p) (P : Prior) (θ : Fin (m * nx) → ℝ) (par : Par n p) (ω η : Fin (m * nx)) : ℝ :=
  lhHess par D.F D.yStd (dR D θ ω) (dR D θ η) (pairMatrix (kernHess θ ω η) D.Xn) + if η = ω then priorHess P η else 0

/-- `hess_ij`, `krg_based.py` 517-521: for each `omega`, the pairs `(omega, eta)` with `eta ≥ omega`. -/
def hessPairs (N : ℕ) : List (Fin N × Fin N) := (List.finRange N).flatMap fun ω => ((List.finRange N).filter (ω ≤ ·)).map fun η => (ω, η)

/-- `inv_sigma_R`, `krg_mgp.py` 466-472: `var_R[r_ij[:, 0], r_ij[:, 1]] = r`, `var_R[r_ij[:, 1], r_ij[:, 0]] = r`, negated. -/
def invSigmaR (D : Data n nx p) (P : Prior) (θ : Fin (m * nx) → ℝ) (par : Par n p) : Matrix (Fin (m * nx)) (Fin (m * nx)) ℝ :=
  let L := (hessPairs (m * nx)).map fun ij => (ij, hessEntry D P θ par ij.1 ij.2)
  let V : Fin (m * nx) → Fin (m * nx) → ℝ := L.foldl (fun V e i j => if i = e.1.1 ∧ j = e.1.2 then e.2 else V i j) fun _ _ => 0
  let V := L.foldl (fun V e i j => if i = e.1.2 ∧ j = e.1.1 then e.2 else V i j) V
  (-Matrix.of V : Matrix _ _ ℝ)

/-! ## The trained model and the embedding -/

/-- Attributes of a trained MGP. -/
structure MGP (n nx m p : ℕ) where
  base : Model n nx p
  data : Data n nx p
  theta : Fin (m * nx) → ℝ
  C : Matrix (Fin nx) (Fin m) ℝ
  norm : ℝ
  QC : Matrix (Fin nx) (Fin m) ℝ
  RC : Matrix (Fin m) (Fin m) ℝ
  Unorma : Fin n → Fin m → ℝ
  Umean : Fin m → ℝ
  invSigma : Matrix (Fin (m * nx)) (Fin (m * nx)) ℝ

/-- Training for given optimal hyper-parameters: `_new_train` (`krg_based.py` 116-188) followed by `_specific_train`, `krg_mgp.py` 462-489. `qrC` is `linalg.qr(C, mode="economic")`. -/
def mgpTrain (qrC : Matrix (Fin nx) (Fin m) ℝ → Matrix (Fin nx) (Fin m) ℝ × Matrix (Fin m) (Fin m) ℝ) (trend : (Fin nx → ℝ) → Fin p → ℝ) (P : Prior) (nugget : ℝ)
    (noise : Fin n → ℝ) (θ : Fin (m * nx) → ℝ) (X : Fin n → Fin nx → ℝ) (y : Fin n → ℝ) : Option (MGP n nx m p) :=
  (train chol qr (kern θ) trend nugget noise X y).map fun M =>
    let D : Data n nx p := ⟨nugget, noise, M.Xn, M.F, fun i => normalise M.yOS (y i), M.yOS.2⟩
    let A := embA θ
    let B : Matrix (Fin nx) (Fin m) ℝ := Matrix.of fun k l => A k l / (M.xOS k).2
    let normB := √(∑ k, ∑ l, B k l ^ 2)
    let C : Matrix (Fin nx) (Fin m) ℝ := Matrix.of fun k l => B k l / normB
    { base := M, data := D, theta := θ, C := C, norm := normB, QC := (qrC C).1, RC := (qrC C).2,
      Unorma := fun i => M.Xn i ᵥ* A, Umean := fun l => ((fun k => (M.xOS k).1) ᵥ* C) l * normB,
      invSigma := invSigmaR D P θ M.par }

variable {chol qr}

/-- `get_x_from_u`, `krg_mgp.py` 417-442. -/
def MGP.getX (M : MGP n nx m p) (u : Fin m → ℝ) : Fin nx → ℝ := M.QC *ᵥ fwd M.RCᵀ u

/-- `get_u_from_x`, `krg_mgp.py` 444-460. -/
def MGP.getU (M : MGP n nx m p) (x : Fin nx → ℝ) : Fin m → ℝ := x ᵥ* M.C

/-- `np.eye(n_comp).reshape((n_comp ** 2,))`, `krg_mgp.py` 153-155. -/
def eyeTheta : Fin (m * m) → ℝ := fun g => if g.divNat = g.modNat then 1 else 0

/-- The quantities `predict_values` and the two derivative functions start from: the point standardised in the inputs and the rows `r`, `drdomega` of correlations and
their derivatives with the training points. -/
structure Rows (n nx N : ℕ) where
  xn : Fin nx → ℝ
  r : Fin n → ℝ
  dr : Fin N → Fin n → ℝ

/-- A point given in the inputs, `krg_mgp.py` 168-178, 262-273, 280-283. -/
def MGP.rowsX (M : MGP n nx m p) (x : Fin nx → ℝ) : Rows n nx (m * nx) :=
  let xn := M.base.norm x
  let d := fun i k => xn k - M.base.Xn i k
  { xn := xn, r := fun i => actExpRow M.theta (d i) (d i) none none, dr := fun ω i => actExpRow M.theta (d i) (d i) (some ω) none }

/-- A point given in the embedding, `krg_mgp.py` 149-167, 250-261. -/
def MGP.rowsU (M : MGP n nx m p) (u : Fin m → ℝ) : Rows n nx (m * nx) :=
  let x := M.getX u
  let un := fun l => u l * M.norm - M.Umean l
  let du := fun i l => un l - M.Unorma i l
  let xn := M.base.norm x
  let dx := fun i k => xn k - M.base.Xn i k
  { xn := xn, r := fun i => actExpRow (nx := nx) eyeTheta (du i) (dx i) none none, dr := fun ω i => actExpRow eyeTheta (du i) (dx i) (some ω) none }

/-- End of `predict_values`, `krg_mgp.py` 180-191. -/
def MGP.valueOf (M : MGP n nx m p) (w : Rows n nx (m * nx)) : ℝ := denormalise M.base.yOS (M.base.trend w.xn ⬝ᵥ M.base.par.beta + w.r ⬝ᵥ M.base.par.gamma)

/-- `_predict_value_derivatives_hyper`, `krg_mgp.py` 268-295, entry `omega`. -/
def MGP.dyOf (M : MGP n nx m p) (w : Rows n nx (m * nx)) (ω : Fin (m * nx)) : ℝ :=
  let par := M.base.par
  let dRω := dR M.data M.theta ω
  let dbeta := -bwd par.G (par.Qᵀ *ᵥ lhArg par dRω)
  let RinvDRGamma := bwd par.Cᵀ (lhArg par dRω)
  let RinvDmu := bwd par.Cᵀ (fwd par.C (lhDmu par M.data.F dRω))
  M.base.trend w.xn ⬝ᵥ dbeta + w.dr ω ⬝ᵥ par.gamma - w.r ⬝ᵥ (RinvDRGamma + RinvDmu)

/-- `u_` of `_predict_variance_derivatives_hyper`, `krg_mgp.py` 336-352: `solve_triangular(G.T, .)` without `lower=True` reads only the diagonal. -/
def MGP.uOf (M : MGP n nx m p) (w : Rows n nx (m * nx)) : Fin p → ℝ :=
  let rt := fwd M.base.par.C w.r
  bwd M.base.par.Gᵀ (M.base.trend w.xn - M.base.par.Ftᵀ *ᵥ rt)

/-- `MSE` of the same function, `krg_mgp.py` 354-359. -/
def MGP.mseOf (M : MGP n nx m p) (w : Rows n nx (m * nx)) : ℝ :=
  let rt := fwd M.base.par.C w.r
  let mse := M.base.par.sigma2 * (1 - ∑ i, rt i ^ 2 + ∑ a, M.uOf w a ^ 2)
  if mse < 0 then 0 else mse

/-- `dMSE[omega]` of `_predict_variance_derivatives_hyper`, `krg_mgp.py` 361-415. -/
def MGP.dmseOf (M : MGP n nx m p) (w : Rows n nx (m * nx)) (ω : Fin (m * nx)) : ℝ :=
  let par := M.base.par
  let rt := fwd par.C w.r
  let GinvU := bwd par.G (M.uOf w)
  let RinvF := bwdM par.Cᵀ par.Ft
  let RinvR := bwd par.Cᵀ rt
  let RinvFGinvU := RinvF *ᵥ GinvU
  let dRω := dR M.data M.theta ω
  let dRFGU := dRω *ᵥ RinvFGinvU
  let du2 := 2 * (RinvR ⬝ᵥ dRFGU) - 2 * (w.dr ω ⬝ᵥ RinvFGinvU) + RinvFGinvU ⬝ᵥ dRFGU
  let drt2 := 2 * (w.dr ω ⬝ᵥ RinvR) - RinvR ⬝ᵥ (dRω *ᵥ RinvR)
  lhDsigma par M.data.F M.data.yStd dRω * M.mseOf w / par.sigma2 + par.sigma2 * (-drt2 + du2)

/-- `linalg.solve(inv_sigma_R, b)`: raises (`none`) for a singular matrix. -/
def solve {N : ℕ} (S : Matrix (Fin N) (Fin N) ℝ) (b : Fin N → ℝ) : Option (Fin N → ℝ) := if S.det = 0 then none else some (S⁻¹ *ᵥ b)

/-- End of `predict_variances`, `krg_mgp.py` 107-127: `(MGPMSE, MSE)`, or `none` when `linalg.solve` raises. -/
def MGP.varOf (M : MGP n nx m p) (w : Rows n nx (m * nx)) : Option (ℝ × ℝ) :=
  let dy := M.dyOf w
  let dMSE := M.dmseOf w
  let MSE := M.mseOf w
  (solve M.invSigma dy).bind fun s1 =>
    (solve M.invSigma dMSE).map fun s2 =>
      let arg1 := dy ⬝ᵥ s1
      let arg2 := dMSE ⬝ᵥ s2
      let v := if MSE ≠ 0 then 4 / 3 * MSE + arg1 + 1 / (3 * MSE) * arg2 else 0
      (if v < 0 then 0 else v, MSE)

/-- What `x.shape[1]` selects, `krg_mgp.py` 88-105 and 146-151, 168-170: a point of the embedding, a point of the inputs, or `ValueError`. -/
def MGP.rows (M : MGP n nx m p) (x : Fin q → ℝ) : Except String (Rows n nx (m * nx)) :=
  if q < nx then
    if hm : q = m then .ok (M.rowsU fun l => x (Fin.cast hm.symm l)) else .error "dim(u) should be equal to n_comp"
  else if hn : q = nx then .ok (M.rowsX fun k => x (Fin.cast hn.symm k)) else .error "dim(x) should be equal to nx"

/-- `predict_values`, `krg_mgp.py` 129-191, one point. -/
def MGP.predictValues (M : MGP n nx m p) (x : Fin q → ℝ) : Except String ℝ := (M.rows x).map M.valueOf

/-- `predict_variances`, `krg_mgp.py` 67-127, one point, `both=True`. -/
def MGP.predictVariances (M : MGP n nx m p) (x : Fin q → ℝ) : Except String (ℝ × ℝ) :=
  (M.rows x).bind fun w => match M.varOf w with
    | none => .error "LinAlgError: Matrix is singular"
    | some v => .ok v

end

end SMT.Mgp
