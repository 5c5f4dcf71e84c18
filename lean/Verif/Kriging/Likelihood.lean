import Verif.Kriging.Core

/-!
# Model of the reduced likelihood, its gradient and its Hessian with respect to the hyper-parameters

`smt/surrogate_models/krg_based.py` 200-630, one output, all models except the prior terms of MGP. The branch for an ill-conditioned `G` (266-283: an exception or
minus infinity) is left out here, see `Cond.lean`.
-/
namespace SMT.Krg
open Matrix SMT.Common

noncomputable section

variable {n nx p : ℕ}

/-- `_reduced_likelihood_function`, `krg_based.py` 240-303: value for given kernel; `none` is minus infinity (Cholesky failed). -/
def rlfAt (chol : Matrix (Fin n) (Fin n) ℝ → Option (Matrix (Fin n) (Fin n) ℝ))
    (qr : Matrix (Fin n) (Fin p) ℝ → Matrix (Fin n) (Fin p) ℝ × Matrix (Fin p) (Fin p) ℝ)
    (kern : (Fin nx → ℝ) → ℝ) (nugget : ℝ) (noise : Fin n → ℝ) (Xn : Fin n → Fin nx → ℝ) (F : Matrix (Fin n) (Fin p) ℝ) (y : Fin n → ℝ) (dof : ℝ) : Option ℝ :=
  (chol (corrR kern nugget noise Xn)).map fun C => rlf C qr F y dof

/-- `dR = zeros; dR[ij] = dr; dR[ji] = dr`, `krg_based.py` 391-393: as `R` with a zero diagonal (`1 + nugget + noise = 0`). -/
def pairMatrix (dr : (Fin nx → ℝ) → ℝ) (Xn : Fin n → Fin nx → ℝ) : Matrix (Fin n) (Fin n) ℝ := corrR dr (-1) (fun _ => 0) Xn

/-- `Cinv_dR_gamma` (the entry of `par["arg"]`), `krg_based.py` 396. -/
def lhArg (P : Par n p) (dR : Matrix (Fin n) (Fin n) ℝ) : Fin n → ℝ := fwd P.C (dR *ᵥ P.gamma)

/-- `dmu = F dbeta` (`par["dmu"]`), `krg_based.py` 397-404. -/
def lhDmu (P : Par n p) (F : Matrix (Fin n) (Fin p) ℝ) (dR : Matrix (Fin n) (Fin n) ℝ) : Fin n → ℝ :=
  F *ᵥ (-bwd P.G (P.Qᵀ *ᵥ lhArg P dR))

/-- `tr` (`par["tr"]`), `krg_based.py` 407-409. -/
def lhTr (P : Par n p) (dR : Matrix (Fin n) (Fin n) ℝ) : Matrix (Fin n) (Fin n) ℝ := bwdM P.Cᵀ (fwdM P.C dR)

/-- `dsigma_2` (`par["dsigma"]`), `krg_based.py` 412-421. -/
def lhDsigma (P : Par n p) (F : Matrix (Fin n) (Fin p) ℝ) (yStd : ℝ) (dR : Matrix (Fin n) (Fin n) ℝ) : ℝ :=
  (1 / n) * (-(lhDmu P F dR ⬝ᵥ P.gamma) - P.gamma ⬝ᵥ lhDmu P F dR - P.gamma ⬝ᵥ (dR *ᵥ P.gamma)) * yStd ^ 2

/-- One entry of `grad_red`, `krg_based.py` 424-427. -/
def lhGrad (P : Par n p) (F : Matrix (Fin n) (Fin p) ℝ) (yStd : ℝ) (dR : Matrix (Fin n) (Fin n) ℝ) : ℝ :=
  -n / Real.log 10 * (lhDsigma P F yStd dR / P.sigma2 + (lhTr P dR).trace / n)

/-- One entry of the Hessian, `krg_based.py` 508-626, for first derivatives `dRo` (omega), `dRe` (eta) and second derivative `dRR` of the correlation matrix. -/
def lhHess (P : Par n p) (F : Matrix (Fin n) (Fin p) ℝ) (yStd : ℝ) (dRo dRe dRR : Matrix (Fin n) (Fin n) ℝ) : ℝ :=
  let dmuO := lhDmu P F dRo
  let RinvDmuO := bwd P.Cᵀ (fwd P.C dmuO)
  let RinvDRoGamma := bwd P.Cᵀ (lhArg P dRo)
  let dRe_RinvDmuO := dRe *ᵥ RinvDmuO
  let dmuE := lhDmu P F dRe
  let RinvDmuE := bwd P.Cᵀ (fwd P.C dmuE)
  let dRo_RinvDmuE := dRo *ᵥ RinvDmuE
  let dRe_RinvDRoGamma := dRe *ᵥ RinvDRoGamma
  let RinvDReGamma := bwd P.Cᵀ (lhArg P dRe)
  let dRo_RinvDReGamma := dRo *ᵥ RinvDReGamma
  let dRR_gamma := dRR *ᵥ P.gamma
  let betaSum := dRe_RinvDmuO + dRo_RinvDmuE + dRe_RinvDRoGamma + dRo_RinvDReGamma - dRR_gamma
  let dbetaEO := bwd P.G (P.Qᵀ *ᵥ fwd P.C betaSum)
  let dmuEO := F *ᵥ dbetaEO
  let a1 := -(dmuEO ⬝ᵥ P.gamma) + dmuO ⬝ᵥ RinvDReGamma + dmuE ⬝ᵥ RinvDRoGamma
  let a2 := -(P.gamma ⬝ᵥ dmuEO) + P.gamma ⬝ᵥ dRe_RinvDmuO + P.gamma ⬝ᵥ dRo_RinvDmuE
  let a3 := dmuE ⬝ᵥ RinvDmuO + dmuO ⬝ᵥ RinvDmuE
  let a4 := P.gamma ⬝ᵥ (-dRR_gamma + dRe_RinvDRoGamma + dRo_RinvDReGamma)
  let dsigmaEO := (1 / n) * (a1 + a2 + a3 + a4) * yStd ^ 2
  let tr1 := (lhTr P dRe * lhTr P dRo).trace
  let tr2 := (bwdM P.Cᵀ (fwdM P.C dRR)).trace
  let arg1 := (n / P.sigma2) * (dsigmaEO - (1 / P.sigma2) * lhDsigma P F yStd dRo * lhDsigma P F yStd dRe)
  let dred := -(arg1 - tr1 + tr2) / n
  n / Real.log 10 * dred

/-- `grad_ind = g` output of the kernels for one difference vector (`_correlation_types[corr](theta, self.D, grad_ind=i_der)`, `krg_based.py` 385-387). -/
def gradKern (lim : ℕ) (hl : 0 < lim) (c : Corr) (θ : Fin nx → ℝ) (g : Fin nx) (dx : Fin nx → ℝ) : ℝ :=
  match c with
  | .absExp => (absExp lim hl θ [compDist .absExp dx] (some g) none).headD 0
  | .squarExp => (squarExp lim hl θ [compDist .squarExp dx] (some g) none).headD 0
  | .matern52 => ((matern52 lim hl θ [compDist .matern52 dx] (some g) none).getD []).headD 0
  | .matern32 => (matern32 lim hl θ [compDist .matern32 dx] (some g) none).headD 0
  | .actExp => 0

/-- `grad_ind = g, hess_ind = h` output, `krg_based.py` 537-539. -/
def hessKern (lim : ℕ) (hl : 0 < lim) (c : Corr) (θ : Fin nx → ℝ) (g h : Fin nx) (dx : Fin nx → ℝ) : ℝ :=
  match c with
  | .absExp => (absExp lim hl θ [compDist .absExp dx] (some g) (some h)).headD 0
  | .squarExp => (squarExp lim hl θ [compDist .squarExp dx] (some g) (some h)).headD 0
  | .matern52 => ((matern52 lim hl θ [compDist .matern52 dx] (some g) (some h)).getD []).headD 0
  | .matern32 => (matern32 lim hl θ [compDist .matern32 dx] (some g) (some h)).headD 0
  | .actExp => 0

end

end SMT.Krg
