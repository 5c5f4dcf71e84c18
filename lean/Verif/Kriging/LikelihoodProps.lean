import Verif.Kriging.Likelihood
import Verif.Kriging.CoreProps
import Verif.Kriging.DerivProps
import Verif.Common.MatDeriv
import Mathlib.Analysis.SpecialFunctions.Log.Deriv
import Mathlib.Analysis.SpecialFunctions.Pow.Deriv
import Mathlib.Algebra.Order.BigOperators.Ring.Finset

/-!
# C63, C64: the reduced likelihood, its gradient and its Hessian
-/
namespace SMT.Krg
open Matrix SMT.Common
set_option linter.unusedSectionVars false
set_option linter.unusedSimpArgs false
set_option linter.unusedVariables false

variable {n nx p : ℕ}

/-! ## Specification -/

/-- Generalised least-squares coefficients. -/
noncomputable def glsBeta (R : Matrix (Fin n) (Fin n) ℝ) (F : Matrix (Fin n) (Fin p) ℝ) (y : Fin n → ℝ) : Fin p → ℝ := (Fᵀ * R⁻¹ * F)⁻¹ *ᵥ (Fᵀ *ᵥ (R⁻¹ *ᵥ y))

/-- Weighted sum of squares of the residuals of coefficients `b`. -/
noncomputable def wss (R : Matrix (Fin n) (Fin n) ℝ) (F : Matrix (Fin n) (Fin p) ℝ) (y : Fin n → ℝ) (b : Fin p → ℝ) : ℝ := (y - F *ᵥ b) ⬝ᵥ (R⁻¹ *ᵥ (y - F *ᵥ b))

/-- The concentrated (reduced) log-likelihood, in decimal logarithms. -/
noncomputable def redLik (R : Matrix (Fin n) (Fin n) ℝ) (F : Matrix (Fin n) (Fin p) ℝ) (y : Fin n → ℝ) (dof : ℝ) : ℝ :=
  -dof * Real.logb 10 (wss R F y (glsBeta R F y) / dof) - Real.logb 10 R.det

/-- `linalg.cholesky` succeeds on every symmetric positive definite matrix. -/
def CholComplete (chol : Matrix (Fin n) (Fin n) ℝ → Option (Matrix (Fin n) (Fin n) ℝ)) : Prop :=
  ∀ R, Rᵀ = R → (∀ v, v ≠ 0 → 0 < v ⬝ᵥ (R *ᵥ v)) → (chol R).isSome

/-! ## The value -/

section value
variable {R C : Matrix (Fin n) (Fin n) ℝ} {F : Matrix (Fin n) (Fin p) ℝ} {y : Fin n → ℝ} {yStd dof : ℝ}
  {qr : Matrix (Fin n) (Fin p) ℝ → Matrix (Fin n) (Fin p) ℝ × Matrix (Fin p) (Fin p) ℝ}

lemma det_gram (hC : IsChol R C) (hqr : IsQR (fwdM C F) (qr (fwdM C F)).1 (qr (fwdM C F)).2) : IsUnit (Fᵀ * R⁻¹ * F).det := by
  rw [← gram_eq (y := 0) (yStd := 1) (dof := 1) hC hqr, Matrix.det_mul, Matrix.det_transpose]
  exact (hqr.detG).mul hqr.detG

lemma beta_gls (hC : IsChol R C) (hqr : IsQR (fwdM C F) (qr (fwdM C F)).1 (qr (fwdM C F)).2) : (blup C qr F y yStd dof).beta = glsBeta R F y := by
  obtain ⟨-, -, h3⟩ := C39_blup (y := y) (yStd := yStd) (dof := dof) hC hqr
  unfold glsBeta
  rw [← h3, Matrix.mulVec_mulVec, Matrix.nonsing_inv_mul _ (det_gram hC hqr), Matrix.one_mulVec]

lemma gamma_eq (hC : IsChol R C) (hqr : IsQR (fwdM C F) (qr (fwdM C F)).1 (qr (fwdM C F)).2) :
    (blup C qr F y yStd dof).gamma = R⁻¹ *ᵥ (y - F *ᵥ glsBeta R F y) := by
  obtain ⟨h1, -, -⟩ := C39_blup (y := y) (yStd := yStd) (dof := dof) hC hqr
  rw [← beta_gls (yStd := yStd) (dof := dof) hC hqr, ← h1, Matrix.mulVec_mulVec, Matrix.nonsing_inv_mul _ hC.detR, Matrix.one_mulVec]

lemma sum_sq_inv (hC : IsChol R C) (w : Fin n → ℝ) : ∑ i, (C⁻¹ *ᵥ w) i ^ 2 = w ⬝ᵥ (R⁻¹ *ᵥ w) := by
  rw [hC.inv, ← Matrix.mulVec_mulVec, Matrix.dotProduct_mulVec, ← Matrix.transpose_nonsing_inv, Matrix.vecMul_transpose]
  simp [dotProduct, sq]

lemma sigma2_eq (hC : IsChol R C) (hqr : IsQR (fwdM C F) (qr (fwdM C F)).1 (qr (fwdM C F)).2) :
    (blup C qr F y yStd dof).sigma2 = wss R F y (glsBeta R F y) / dof * yStd ^ 2 := by
  obtain ⟨-, -, -, -, -, -, -, -, h⟩ := blup_eq (y := y) (yStd := yStd) (dof := dof) hC hqr
  rw [h, beta_gls hC hqr, ← Matrix.mulVec_mulVec, ← Matrix.mulVec_sub, sum_sq_inv hC]
  rfl

lemma det_eq_prod (hC : IsChol R C) : R.det = ∏ i, C i i ^ 2 := by
  rw [← hC.mul, Matrix.det_mul, Matrix.det_transpose, Matrix.det_of_lowerTriangular C (fun i j h => hC.lower i j h), Finset.prod_pow, sq]

lemma det_pos (hC : IsChol R C) : 0 < R.det := by
  rw [det_eq_prod hC]
  exact Finset.prod_pos fun i _ => pow_pos (hC.pos i) 2

/-- **C63** The value computed from the factors is the concentrated log-likelihood of the correlation matrix. -/
theorem C63_value (hC : IsChol R C) (hqr : QROk qr) (hF : FullRank F) : rlf C qr F y dof = redLik R F y dof := by
  have hq := hqr _ (fullRank_fwdM hC hF)
  unfold rlf redLik
  simp only
  have hs : (∑ i, (fwd C y - fwdM C F *ᵥ bwd (qr (fwdM C F)).2 ((qr (fwdM C F)).1ᵀ *ᵥ fwd C y)) i ^ 2) = wss R F y (glsBeta R F y) := by
    have hb := beta_gls (y := y) (yStd := 1) (dof := 1) hC hq
    simp only [blup] at hb
    rw [hb, fwd_eq_inv C y hC.lower hC.diag, fwdM_eq C F hC.lower hC.diag, ← Matrix.mulVec_mulVec, ← Matrix.mulVec_sub, sum_sq_inv hC]
    rfl
  rw [hs]
  congr 1
  rw [det_eq_prod hC]
  simp only [Real.logb]
  rw [Real.log_prod (fun i _ => (Real.rpow_pos_of_pos (hC.pos i) _).ne'), Real.log_prod (fun i _ => (pow_pos (hC.pos i) 2).ne'), mul_div_assoc', Finset.mul_sum]
  congr 1
  refine Finset.sum_congr rfl fun i _ => ?_
  rw [Real.log_rpow (hC.pos i), Real.log_pow]
  have : (n : ℝ) ≠ 0 := by
    have := i.pos
    positivity
  push_cast
  field_simp

/-- **C63** The coefficients used are those that minimise the weighted residuals, so the likelihood is the maximum over trend and variance. -/
theorem C63_minimum (hC : IsChol R C) (hqr : QROk qr) (hF : FullRank F) (b : Fin p → ℝ) :
    wss R F y (blup C qr F y yStd dof).beta ≤ wss R F y b := by
  have hq := hqr _ (fullRank_fwdM hC hF)
  obtain ⟨-, h2, -⟩ := C39_blup (y := y) (yStd := yStd) (dof := dof) hC hq
  rw [gamma_eq hC hq] at h2
  rw [beta_gls hC hq]
  set β := glsBeta R F y
  have hsym : (R⁻¹)ᵀ = R⁻¹ := by rw [Matrix.transpose_nonsing_inv, hC.symm]
  have hw : y - F *ᵥ b = (y - F *ᵥ β) + F *ᵥ (β - b) := by rw [Matrix.mulVec_sub]; abel
  have hcross : (F *ᵥ (β - b)) ⬝ᵥ (R⁻¹ *ᵥ (y - F *ᵥ β)) = 0 := by
    rw [dotProduct_comm, Matrix.dotProduct_mulVec, ← Matrix.mulVec_transpose, h2, zero_dotProduct]
  have hcross2 : (y - F *ᵥ β) ⬝ᵥ (R⁻¹ *ᵥ (F *ᵥ (β - b))) = 0 := by
    rw [Matrix.dotProduct_mulVec, ← Matrix.mulVec_transpose, hsym, dotProduct_comm, hcross]
  unfold wss
  rw [hw, Matrix.mulVec_add, add_dotProduct, dotProduct_add, dotProduct_add, hcross, hcross2, ← sum_sq_inv hC (F *ᵥ (β - b))]
  have : 0 ≤ ∑ i, (C⁻¹ *ᵥ (F *ᵥ (β - b))) i ^ 2 := Finset.sum_nonneg fun i _ => sq_nonneg _
  linarith

end value

/-! ## Derivatives along a path of correlation matrices -/

section path
variable {R : ℝ → Matrix (Fin n) (Fin n) ℝ} {dR : Matrix (Fin n) (Fin n) ℝ} {F : Matrix (Fin n) (Fin p) ℝ} {y : Fin n → ℝ} {dof t : ℝ}

/-- `γ = R⁻¹ (y - F β)`. -/
noncomputable def glsGamma (R : Matrix (Fin n) (Fin n) ℝ) (F : Matrix (Fin n) (Fin p) ℝ) (y : Fin n → ℝ) : Fin n → ℝ := R⁻¹ *ᵥ (y - F *ᵥ glsBeta R F y)

lemma normal_eq {R : Matrix (Fin n) (Fin n) ℝ} (hN : IsUnit (Fᵀ * R⁻¹ * F).det) : Fᵀ *ᵥ glsGamma R F y = 0 := by
  unfold glsGamma glsBeta
  rw [Matrix.mulVec_sub, Matrix.mulVec_sub, sub_eq_zero]
  rw [Matrix.mulVec_mulVec _ R⁻¹ F, Matrix.mulVec_mulVec _ Fᵀ (R⁻¹ * F), ← Matrix.mul_assoc, mulVec_inv_cancel _ hN]

lemma beta_deriv (hR : MDeriv R dR t) (hd : IsUnit (R t).det) (hN : IsUnit (Fᵀ * (R t)⁻¹ * F).det) :
    VDeriv (fun s => glsBeta (R s) F y) (-((Fᵀ * (R t)⁻¹ * F)⁻¹ *ᵥ (Fᵀ *ᵥ ((R t)⁻¹ *ᵥ (dR *ᵥ glsGamma (R t) F y))))) t := by
  have hP := hR.inv hd
  have hNd := ((MDeriv.const Fᵀ t).mul hP).mul (MDeriv.const F t)
  have hNi := hNd.inv hN
  have hr := (MDeriv.const Fᵀ t).mulVec (hP.mulVec (VDeriv.const y t))
  have h := hNi.mulVec hr
  intro i
  refine (h i).congr_deriv ?_
  refine congrFun ?_ i
  simp only [Matrix.zero_mul, zero_add, Matrix.mul_zero, add_zero, Matrix.zero_mulVec, Matrix.mulVec_zero]
  set P := (R t)⁻¹
  set N := Fᵀ * P * F
  have hβ : N⁻¹ *ᵥ (Fᵀ *ᵥ (P *ᵥ y)) = glsBeta (R t) F y := rfl
  have e1 : (-(N⁻¹ * (Fᵀ * -(P * dR * P) * F) * N⁻¹)) *ᵥ (Fᵀ *ᵥ (P *ᵥ y)) = N⁻¹ *ᵥ (Fᵀ *ᵥ (P *ᵥ (dR *ᵥ (P *ᵥ (F *ᵥ glsBeta (R t) F y))))) := by
    rw [← hβ]
    simp only [Matrix.mulVec_mulVec, Matrix.mul_assoc, Matrix.mul_neg, Matrix.neg_mul, neg_neg]
  rw [e1]
  unfold glsGamma
  simp only [Matrix.mulVec_sub, Matrix.neg_mulVec, Matrix.mulVec_neg, Matrix.mulVec_mulVec, Matrix.mul_assoc]
  abel

lemma gamma_deriv (hR : MDeriv R dR t) (hd : IsUnit (R t).det) (hN : IsUnit (Fᵀ * (R t)⁻¹ * F).det) {dmu : Fin n → ℝ}
    (hmu : dmu = F *ᵥ (-((Fᵀ * (R t)⁻¹ * F)⁻¹ *ᵥ (Fᵀ *ᵥ ((R t)⁻¹ *ᵥ (dR *ᵥ glsGamma (R t) F y)))))) :
    VDeriv (fun s => glsGamma (R s) F y) (-((R t)⁻¹ *ᵥ (dR *ᵥ glsGamma (R t) F y)) - (R t)⁻¹ *ᵥ dmu) t := by
  have hP := hR.inv hd
  have hw := (VDeriv.const y t).sub ((MDeriv.const F t).mulVec (beta_deriv (y := y) hR hd hN))
  have h := hP.mulVec hw
  intro i
  refine (h i).congr_deriv ?_
  refine congrFun ?_ i
  rw [hmu]
  simp only [Matrix.zero_mulVec, zero_add, zero_sub]
  unfold glsGamma
  simp only [Matrix.neg_mulVec, Matrix.mulVec_neg, Matrix.mulVec_mulVec, Matrix.mul_assoc, sub_eq_add_neg]

/-- The weighted sum of squares at the optimum. -/
lemma wss_deriv (hR : MDeriv R dR t) (hd : IsUnit (R t).det) (hN : IsUnit (Fᵀ * (R t)⁻¹ * F).det) (hsym : (R t)ᵀ = R t) :
    HasDerivAt (fun s => wss (R s) F y (glsBeta (R s) F y)) (-(glsGamma (R t) F y ⬝ᵥ (dR *ᵥ glsGamma (R t) F y))) t := by
  have hw := (VDeriv.const y t).sub ((MDeriv.const F t).mulVec (beta_deriv (y := y) hR hd hN))
  have hg := gamma_deriv (y := y) hR hd hN rfl
  refine (hw.dot hg).congr_deriv ?_
  simp only [Matrix.zero_mulVec, zero_add, zero_sub]
  set γ := glsGamma (R t) F y with hγ
  have hn : Fᵀ *ᵥ γ = 0 := normal_eq hN
  have hFγ : ∀ b : Fin p → ℝ, (F *ᵥ b) ⬝ᵥ γ = 0 := fun b => by
    rw [dotProduct_comm, Matrix.dotProduct_mulVec, ← Matrix.mulVec_transpose, hn, zero_dotProduct]
  have hPs : ((R t)⁻¹)ᵀ = (R t)⁻¹ := by rw [Matrix.transpose_nonsing_inv, hsym]
  have hwγ : ∀ v : Fin n → ℝ, (y - F *ᵥ glsBeta (R t) F y) ⬝ᵥ ((R t)⁻¹ *ᵥ v) = γ ⬝ᵥ v := fun v => by
    rw [Matrix.dotProduct_mulVec, ← Matrix.mulVec_transpose, hPs]; rfl
  rw [neg_dotProduct, hFγ, neg_zero, zero_add, dotProduct_sub, dotProduct_neg, hwγ, hwγ, dotProduct_comm γ (F *ᵥ _), hFγ, sub_zero]

/-- Derivative of the concentrated log-likelihood. -/
lemma redLik_deriv (hR : MDeriv R dR t) (hd : 0 < (R t).det) (hN : IsUnit (Fᵀ * (R t)⁻¹ * F).det) (hsym : (R t)ᵀ = R t) (hdof : dof ≠ 0)
    (hS : wss (R t) F y (glsBeta (R t) F y) ≠ 0) :
    HasDerivAt (fun s => redLik (R s) F y dof)
      (dof / Real.log 10 * (glsGamma (R t) F y ⬝ᵥ (dR *ᵥ glsGamma (R t) F y)) / wss (R t) F y (glsBeta (R t) F y) - ((R t)⁻¹ * dR).trace / Real.log 10) t := by
  have hu : IsUnit (R t).det := isUnit_iff_ne_zero.2 hd.ne'
  have h1 := ((wss_deriv (y := y) hR hu hN hsym).div_const dof).log (div_ne_zero hS hdof)
  have h2 := (hR.det hu).log hd.ne'
  have := ((h1.div_const (Real.log 10)).const_mul (-dof)).fun_sub (h2.div_const (Real.log 10))
  unfold redLik
  simp only [Real.logb]
  refine this.congr_deriv ?_
  have hl : Real.log 10 ≠ 0 := (Real.log_pos (by norm_num)).ne'
  field_simp

/-- Near a matrix with a Cholesky factor, every symmetric matrix has one. -/
lemma pd_near {C : Matrix (Fin n) (Fin n) ℝ} (hR : MDeriv R dR t) (hC : IsChol (R t) C) : ∀ᶠ s in nhds t, ∀ v, v ≠ 0 → 0 < v ⬝ᵥ (R s *ᵥ v) := by
  set K := ∑ i, ∑ j, (Cᵀ⁻¹ i j) ^ 2 with hK
  have hK0 : 0 ≤ K := Finset.sum_nonneg fun i _ => Finset.sum_nonneg fun j _ => sq_nonneg _
  have hCT : IsUnit Cᵀ.det := by rw [Matrix.det_transpose]; exact hC.det
  have hbound : ∀ v : Fin n → ℝ, v ⬝ᵥ v ≤ K * ((Cᵀ *ᵥ v) ⬝ᵥ (Cᵀ *ᵥ v)) := by
    intro v
    set z := Cᵀ *ᵥ v with hz
    have hv : v = Cᵀ⁻¹ *ᵥ z := by rw [hz, Matrix.mulVec_mulVec, Matrix.nonsing_inv_mul _ hCT, Matrix.one_mulVec]
    rw [hK, Finset.sum_mul]
    conv_lhs => rw [hv]
    simp only [dotProduct]
    refine Finset.sum_le_sum fun i _ => ?_
    have := Finset.sum_mul_sq_le_sq_mul_sq Finset.univ (fun j => Cᵀ⁻¹ i j) z
    simp only [Matrix.mulVec, dotProduct, ← sq]
    exact this
  have hquad : ∀ v : Fin n → ℝ, v ⬝ᵥ (R t *ᵥ v) = (Cᵀ *ᵥ v) ⬝ᵥ (Cᵀ *ᵥ v) := by
    intro v
    rw [← hC.mul, ← Matrix.mulVec_mulVec, Matrix.dotProduct_mulVec, ← Matrix.mulVec_transpose]
  have hcont : ContinuousAt (fun s => (∑ i, ∑ j, |R s i j - R t i j|) * K) t := by
    refine ContinuousAt.mul ?_ continuousAt_const
    refine tendsto_finsetSum _ fun i _ => tendsto_finsetSum _ fun j _ => ?_
    exact ((hR i j).continuousAt.sub continuousAt_const).abs
  have hev : ∀ᶠ s in nhds t, (∑ i, ∑ j, |R s i j - R t i j|) * K < 1 := by
    have : (fun s => (∑ i, ∑ j, |R s i j - R t i j|) * K) t < 1 := by simp
    exact hcont.eventually_lt continuousAt_const this
  refine hev.mono fun s hs v hv => ?_
  set ε := ∑ i, ∑ j, |R s i j - R t i j| with hε
  have hvv : 0 < v ⬝ᵥ v := by
    obtain ⟨i, hi⟩ := Function.ne_iff.1 hv
    exact Finset.sum_pos' (fun j _ => mul_self_nonneg _) ⟨i, Finset.mem_univ _, mul_self_pos.2 hi⟩
  have hvi : ∀ i, v i ^ 2 ≤ v ⬝ᵥ v := fun i => by
    have := Finset.single_le_sum (f := fun j => v j * v j) (fun j _ => mul_self_nonneg (v j)) (Finset.mem_univ i)
    simpa [sq, dotProduct] using this
  have hE : |v ⬝ᵥ ((R s - R t) *ᵥ v)| ≤ ε * (v ⬝ᵥ v) := by
    have e : v ⬝ᵥ ((R s - R t) *ᵥ v) = ∑ i, ∑ j, v i * (R s i j - R t i j) * v j := by
      simp only [dotProduct, Matrix.mulVec, Matrix.sub_apply, Finset.mul_sum]
      exact Finset.sum_congr rfl fun i _ => Finset.sum_congr rfl fun j _ => by ring
    rw [e, hε, Finset.sum_mul]
    refine (Finset.abs_sum_le_sum_abs _ _).trans (Finset.sum_le_sum fun i _ => ?_)
    rw [Finset.sum_mul]
    refine (Finset.abs_sum_le_sum_abs _ _).trans (Finset.sum_le_sum fun j _ => ?_)
    have hij : |v i| * |v j| ≤ v ⬝ᵥ v := by
      have h1 := hvi i
      have h2 := hvi j
      rw [← sq_abs] at h1 h2
      nlinarith [sq_nonneg (|v i| - |v j|)]
    rw [abs_mul, abs_mul]
    calc |v i| * |R s i j - R t i j| * |v j| = |R s i j - R t i j| * (|v i| * |v j|) := by ring
      _ ≤ _ := mul_le_mul_of_nonneg_left hij (abs_nonneg _)
  have hsplit : v ⬝ᵥ (R s *ᵥ v) = (Cᵀ *ᵥ v) ⬝ᵥ (Cᵀ *ᵥ v) + v ⬝ᵥ ((R s - R t) *ᵥ v) := by
    rw [Matrix.sub_mulVec, dotProduct_sub, hquad]; ring
  rw [hsplit]
  have hb := hbound v
  have hzz : 0 < (Cᵀ *ᵥ v) ⬝ᵥ (Cᵀ *ᵥ v) := by
    by_contra h
    have : K * ((Cᵀ *ᵥ v) ⬝ᵥ (Cᵀ *ᵥ v)) ≤ 0 := mul_nonpos_of_nonneg_of_nonpos hK0 (not_lt.1 h)
    linarith
  have hε0 : 0 ≤ ε := Finset.sum_nonneg fun i _ => Finset.sum_nonneg fun j _ => abs_nonneg _
  have h1 : ε * (v ⬝ᵥ v) ≤ ε * K * ((Cᵀ *ᵥ v) ⬝ᵥ (Cᵀ *ᵥ v)) := by
    rw [mul_assoc]; exact mul_le_mul_of_nonneg_left hb hε0
  have h2 := (abs_le.1 hE).1
  nlinarith

end path

/-! ## The computed gradient and Hessian -/

section grad
variable {R C : Matrix (Fin n) (Fin n) ℝ} {F : Matrix (Fin n) (Fin p) ℝ} {y : Fin n → ℝ} {yStd dof : ℝ}
  {qr : Matrix (Fin n) (Fin p) ℝ → Matrix (Fin n) (Fin p) ℝ × Matrix (Fin p) (Fin p) ℝ}

lemma solve_gls (hC : IsChol R C) (hqr : IsQR (fwdM C F) (qr (fwdM C F)).1 (qr (fwdM C F)).2) (v : Fin n → ℝ) :
    bwd (blup C qr F y yStd dof).G ((blup C qr F y yStd dof).Qᵀ *ᵥ fwd (blup C qr F y yStd dof).C v) = (Fᵀ * R⁻¹ * F)⁻¹ *ᵥ (Fᵀ *ᵥ (R⁻¹ *ᵥ v)) := by
  have hg := gram_eq (y := y) (yStd := yStd) (dof := dof) hC hqr
  obtain ⟨-, -, -, hQG, hQ, hU, hd, hCC, -⟩ := blup_eq (y := y) (yStd := yStd) (dof := dof) hC hqr
  set P := blup C qr F y yStd dof
  simp only at hg
  have hG : IsUnit P.G.det := det_ne_of_upper P.G hU hd
  rw [bwd_eq_inv P.G _ hU hd, hCC, fwd_eq_inv C v hC.lower hC.diag, ← hg]
  have e : Fᵀ *ᵥ (R⁻¹ *ᵥ v) = P.Gᵀ *ᵥ (P.Qᵀ *ᵥ (C⁻¹ *ᵥ v)) := by
    have h1 : Fᵀ * Cᵀ⁻¹ = P.Gᵀ * P.Qᵀ := by
      rw [← Matrix.transpose_mul, hQG, Matrix.transpose_mul, Matrix.transpose_nonsing_inv]
    rw [hC.inv, Matrix.mulVec_mulVec, ← Matrix.mul_assoc, h1, ← Matrix.mulVec_mulVec, ← Matrix.mulVec_mulVec]
  have hGT : IsUnit P.Gᵀ.det := by rw [Matrix.det_transpose]; exact hG
  rw [e, Matrix.mul_inv_rev, ← Matrix.mulVec_mulVec, Matrix.mulVec_mulVec _ P.Gᵀ⁻¹ P.Gᵀ, Matrix.nonsing_inv_mul _ hGT, Matrix.one_mulVec]

lemma solve_chol (hC : IsChol R C) (v : Fin n → ℝ) : bwd Cᵀ (fwd C v) = R⁻¹ *ᵥ v := by
  rw [bwd_eq_inv Cᵀ _ hC.upperT hC.diag, fwd_eq_inv C v hC.lower hC.diag, hC.inv, Matrix.mulVec_mulVec]

lemma solve_cholM (hC : IsChol R C) (A : Matrix (Fin n) (Fin n) ℝ) : bwdM Cᵀ (fwdM C A) = R⁻¹ * A := by
  rw [bwdM_eq Cᵀ _ hC.upperT hC.diag, fwdM_eq C A hC.lower hC.diag, hC.inv, Matrix.mul_assoc]

/-- The derivative of the trend values that the code computes. -/
lemma lhDmu_eq (hC : IsChol R C) (hqr : IsQR (fwdM C F) (qr (fwdM C F)).1 (qr (fwdM C F)).2) (dR : Matrix (Fin n) (Fin n) ℝ) :
    lhDmu (blup C qr F y yStd dof) F dR = F *ᵥ (-((Fᵀ * R⁻¹ * F)⁻¹ *ᵥ (Fᵀ *ᵥ (R⁻¹ *ᵥ (dR *ᵥ glsGamma R F y))))) := by
  unfold lhDmu lhArg
  rw [solve_gls hC hqr, gamma_eq hC hqr]
  rfl

lemma lhDmu_gamma (hC : IsChol R C) (hqr : IsQR (fwdM C F) (qr (fwdM C F)).1 (qr (fwdM C F)).2) (b : Fin p → ℝ) : (F *ᵥ b) ⬝ᵥ glsGamma R F y = 0 := by
  rw [dotProduct_comm, Matrix.dotProduct_mulVec, ← Matrix.mulVec_transpose, normal_eq (det_gram hC hqr), zero_dotProduct]

lemma lhDsigma_eq (hC : IsChol R C) (hqr : IsQR (fwdM C F) (qr (fwdM C F)).1 (qr (fwdM C F)).2) (dR : Matrix (Fin n) (Fin n) ℝ) :
    lhDsigma (blup C qr F y yStd dof) F yStd dR = (1 / n) * (-(glsGamma R F y ⬝ᵥ (dR *ᵥ glsGamma R F y))) * yStd ^ 2 := by
  have hg : (blup C qr F y yStd dof).gamma = glsGamma R F y := gamma_eq hC hqr
  unfold lhDsigma
  rw [lhDmu_eq hC hqr, hg, dotProduct_comm (glsGamma R F y) (F *ᵥ _), lhDmu_gamma hC hqr]
  ring

lemma lhGrad_eq (hC : IsChol R C) (hqr : IsQR (fwdM C F) (qr (fwdM C F)).1 (qr (fwdM C F)).2) (hσ : (blup C qr F y yStd dof).sigma2 ≠ 0)
    (dR : Matrix (Fin n) (Fin n) ℝ) : lhGrad (blup C qr F y yStd dof) F yStd dR =
      dof / Real.log 10 * (glsGamma R F y ⬝ᵥ (dR *ᵥ glsGamma R F y)) / wss R F y (glsBeta R F y) - (R⁻¹ * dR).trace / Real.log 10 := by
  have hs := sigma2_eq (y := y) (yStd := yStd) (dof := dof) hC hqr
  have hCC : (blup C qr F y yStd dof).C = C := rfl
  rw [hs] at hσ
  unfold lhGrad
  rw [lhDsigma_eq hC hqr, hs]
  unfold lhTr
  rw [hCC, solve_cholM hC]
  have hy : yStd ≠ 0 := fun h => hσ (by rw [h]; simp)
  have hd : dof ≠ 0 := fun h => hσ (by rw [h]; simp)
  have hw : wss R F y (glsBeta R F y) ≠ 0 := fun h => hσ (by rw [h]; simp)
  have hn : (n : ℝ) ≠ 0 := by
    rintro h
    have : n = 0 := by exact_mod_cast h
    subst this
    exact hw (by simp [wss, dotProduct])
  have hl : Real.log 10 ≠ 0 := (Real.log_pos (by norm_num)).ne'
  field_simp
  ring

lemma wss_ne {yStd dof : ℝ} (hC : IsChol R C) (hqr : IsQR (fwdM C F) (qr (fwdM C F)).1 (qr (fwdM C F)).2) (hσ : (blup C qr F y yStd dof).sigma2 ≠ 0) :
    wss R F y (glsBeta R F y) ≠ 0 ∧ yStd ≠ 0 ∧ dof ≠ 0 := by
  rw [sigma2_eq hC hqr] at hσ
  exact ⟨fun h => hσ (by rw [h]; simp), fun h => hσ (by rw [h]; simp), fun h => hσ (by rw [h]; simp)⟩

end grad

section thms
variable {chol : Matrix (Fin n) (Fin n) ℝ → Option (Matrix (Fin n) (Fin n) ℝ)}
  {qr : Matrix (Fin n) (Fin p) ℝ → Matrix (Fin n) (Fin p) ℝ × Matrix (Fin p) (Fin p) ℝ}
  {nugget : ℝ} {noise : Fin n → ℝ} {Xn : Fin n → Fin nx → ℝ} {F : Matrix (Fin n) (Fin p) ℝ} {y : Fin n → ℝ} {yStd dof t : ℝ}
  {C : Matrix (Fin n) (Fin n) ℝ}

lemma corrR_symm (kern : (Fin nx → ℝ) → ℝ) (heven : ∀ d, kern (fun q => -d q) = kern d) (nugget : ℝ) (noise : Fin n → ℝ) :
    (corrR kern nugget noise Xn)ᵀ = corrR kern nugget noise Xn := by
  ext i j
  rw [Matrix.transpose_apply, corrR_apply kern heven, corrR_apply kern heven]
  by_cases h : i = j
  · subst h; rfl
  · rw [if_neg (Ne.symm h), if_neg h, ← heven]; congr 1; funext q; ring

lemma corrR_mderiv (kern : ℝ → (Fin nx → ℝ) → ℝ) (dkern : (Fin nx → ℝ) → ℝ) (heven : ∀ s d, kern s (fun q => -d q) = kern s d)
    (hdeven : ∀ d, dkern (fun q => -d q) = dkern d) (hk : ∀ i j, i ≠ j → HasDerivAt (fun s => kern s fun q => Xn i q - Xn j q) (dkern fun q => Xn i q - Xn j q) t) :
    MDeriv (fun s => corrR (kern s) nugget noise Xn) (pairMatrix dkern Xn) t := by
  intro i j
  unfold pairMatrix
  have e : (fun s => corrR (kern s) nugget noise Xn i j) = fun s => if i = j then 1 + nugget + noise i else kern s (fun q => Xn i q - Xn j q) :=
    funext fun s => corrR_apply (kern s) (heven s) nugget noise Xn i j
  rw [e, corrR_apply dkern hdeven]
  by_cases h : i = j
  · subst h; simpa using hasDerivAt_const t (1 + nugget + noise i)
  · simpa [h] using hk i j h

/-- Near `t` the likelihood is finite and is the specified function. -/
lemma rlfAt_near (hchol : CholOk chol) (hcc : CholComplete chol) (kern : ℝ → (Fin nx → ℝ) → ℝ) (heven : ∀ s d, kern s (fun q => -d q) = kern s d)
    {dR : Matrix (Fin n) (Fin n) ℝ} (hR : MDeriv (fun s => corrR (kern s) nugget noise Xn) dR t) (hC : chol (corrR (kern t) nugget noise Xn) = some C) :
    ∀ᶠ s in nhds t, ∃ C', chol (corrR (kern s) nugget noise Xn) = some C' ∧ IsChol (corrR (kern s) nugget noise Xn) C' := by
  refine (pd_near hR (hchol _ _ hC)).mono fun s hs => ?_
  obtain ⟨C', hC'⟩ := Option.isSome_iff_exists.1 (hcc _ (corrR_symm (kern s) (heven s) nugget noise) hs)
  exact ⟨C', hC', hchol _ _ hC'⟩

/-- **C63** Gradient: along any differentiable path of (even) kernels - in particular when one hyper-parameter varies - the likelihood is finite near every point where
training succeeds and the process variance is not zero, and the entry of `grad_red` computed from the kernel derivative is its derivative; also for the multi-fidelity degrees of
freedom `dof`. -/
theorem C63_gradient (hchol : CholOk chol) (hcc : CholComplete chol) (hqr : QROk qr) (hF : FullRank F) (kern : ℝ → (Fin nx → ℝ) → ℝ) (dkern : (Fin nx → ℝ) → ℝ)
    (heven : ∀ s d, kern s (fun q => -d q) = kern s d) (hdeven : ∀ d, dkern (fun q => -d q) = dkern d)
    (hk : ∀ i j, i ≠ j → HasDerivAt (fun s => kern s fun q => Xn i q - Xn j q) (dkern fun q => Xn i q - Xn j q) t)
    (hC : chol (corrR (kern t) nugget noise Xn) = some C) (hσ : (blup C qr F y yStd dof).sigma2 ≠ 0) :
    (∀ᶠ s in nhds t, (rlfAt chol qr (kern s) nugget noise Xn F y dof).isSome) ∧
    HasDerivAt (fun s => (rlfAt chol qr (kern s) nugget noise Xn F y dof).getD 0) (lhGrad (blup C qr F y yStd dof) F yStd (pairMatrix dkern Xn)) t := by
  have hR := corrR_mderiv (nugget := nugget) (noise := noise) kern dkern heven hdeven hk
  have hnear := rlfAt_near hchol hcc kern heven hR hC
  have hCt := hchol _ _ hC
  have hq := hqr _ (fullRank_fwdM hCt hF)
  obtain ⟨hw, hys, hd⟩ := wss_ne hCt hq hσ
  refine ⟨hnear.mono fun s hs => ?_, ?_⟩
  · obtain ⟨C', h1, -⟩ := hs
    unfold rlfAt; rw [h1]; rfl
  · rw [lhGrad_eq hCt hq hσ]
    refine (redLik_deriv (y := y) (dof := dof) hR (det_pos hCt) (det_gram hCt hq) hCt.symm hd hw).congr_of_eventuallyEq ?_
    refine hnear.mono fun s hs => ?_
    obtain ⟨C', h1, h2⟩ := hs
    simp only [rlfAt, h1, Option.map_some, Option.getD_some]
    exact C63_value h2 hqr hF

/-- **C63** What the optimiser sees: with `theta = 10 ** u` the gradient is multiplied by `ln(10) 10 ** u` (`krg_based.py` 888-895), which is the derivative with respect to `u`. -/
theorem C63_log10 (f : ℝ → ℝ) (d u : ℝ) (hf : HasDerivAt f d ((10 : ℝ) ^ u)) : HasDerivAt (fun u => -f ((10 : ℝ) ^ u)) (-Real.log 10 * (10 : ℝ) ^ u * d) u := by
  have h1 : HasDerivAt (fun u : ℝ => (10 : ℝ) ^ u) (Real.log 10 * (10 : ℝ) ^ u) u := by
    have := (hasDerivAt_id u).const_rpow (by norm_num : (0 : ℝ) < 10)
    simpa using this
  have := (hf.comp u h1).neg
  refine this.congr_deriv ?_
  ring

/-- Closed form of the Hessian entry: the derivative of the closed form of the gradient. `dg` is the derivative of `γ`. -/
lemma lhHess_eq {R dRo dRe dRR : Matrix (Fin n) (Fin n) ℝ} (hCt : IsChol R C) (hq : IsQR (fwdM C F) (qr (fwdM C F)).1 (qr (fwdM C F)).2) (hσ : (blup C qr F y yStd n).sigma2 ≠ 0)
    (hos : dRoᵀ = dRo) (hes : dReᵀ = dRe) :
    lhHess (blup C qr F y yStd n) F yStd dRo dRe dRR =
      (let γ := glsGamma R F y
       let γ' := -(R⁻¹ *ᵥ (dRe *ᵥ γ)) - R⁻¹ *ᵥ (F *ᵥ (-((Fᵀ * R⁻¹ * F)⁻¹ *ᵥ (Fᵀ *ᵥ (R⁻¹ *ᵥ (dRe *ᵥ γ))))))
       (n / Real.log 10 * (γ' ⬝ᵥ (dRo *ᵥ γ) + γ ⬝ᵥ (dRR *ᵥ γ + dRo *ᵥ γ')) * wss R F y (glsBeta R F y) -
          n / Real.log 10 * (γ ⬝ᵥ (dRo *ᵥ γ)) * (-(γ ⬝ᵥ (dRe *ᵥ γ)))) / wss R F y (glsBeta R F y) ^ 2 -
        (-(R⁻¹ * dRe * R⁻¹) * dRo + R⁻¹ * dRR).trace / Real.log 10) := by
  obtain ⟨hw, hys, hd⟩ := wss_ne hCt hq hσ
  symm
  set Rt := R with hRt
  have hN := det_gram hCt hq
  have hl : Real.log 10 ≠ 0 := (Real.log_pos (by norm_num)).ne'
  -- symmetry facts
  have hPs : (Rt⁻¹)ᵀ = Rt⁻¹ := by rw [Matrix.transpose_nonsing_inv, hCt.symm]
  have sym : ∀ {A : Matrix (Fin n) (Fin n) ℝ}, Aᵀ = A → ∀ u v : Fin n → ℝ, u ⬝ᵥ (A *ᵥ v) = (A *ᵥ u) ⬝ᵥ v := fun hA u v => by
    rw [Matrix.dotProduct_mulVec, ← Matrix.mulVec_transpose, hA]
  have hg : (blup C qr F y yStd n).gamma = glsGamma Rt F y := gamma_eq hCt hq
  have hCC : (blup C qr F y yStd n).C = C := rfl
  have harg : ∀ A : Matrix (Fin n) (Fin n) ℝ, bwd Cᵀ (lhArg (blup C qr F y yStd n) A) = Rt⁻¹ *ᵥ (A *ᵥ glsGamma Rt F y) := fun A => by
    unfold lhArg; rw [hCC, solve_chol hCt, hg]
  have hdm := fun A => lhDmu_eq (y := y) (yStd := yStd) (dof := n) hCt hq A
  have hds := fun A => lhDsigma_eq (y := y) (yStd := yStd) (dof := n) hCt hq A
  have hs := sigma2_eq (y := y) (yStd := yStd) (dof := n) hCt hq
  have hn0 : (n : ℝ) ≠ 0 := hd
  unfold lhHess
  simp only [hCC, hg, harg, hds, hs, solve_chol hCt, solve_cholM hCt]
  unfold lhTr
  simp only [hCC, solve_cholM hCt]
  set γ := glsGamma Rt F y with hγ
  set P := Rt⁻¹ with hP
  set mO := lhDmu (blup C qr F y yStd n) F dRo with hmO
  set mE := lhDmu (blup C qr F y yStd n) F dRe with hmE
  have hmE' : F *ᵥ (-((Fᵀ * P * F)⁻¹ *ᵥ (Fᵀ *ᵥ (P *ᵥ (dRe *ᵥ γ))))) = mE := (hdm dRe).symm
  simp only [hmE']
  -- terms that vanish
  have z : ∀ b : Fin p → ℝ, (F *ᵥ b) ⬝ᵥ γ = 0 := fun b => lhDmu_gamma hCt hq b
  have z' : ∀ b : Fin p → ℝ, γ ⬝ᵥ (F *ᵥ b) = 0 := fun b => by rw [dotProduct_comm]; exact z b
  -- the mixed terms cancel
  have cross : mE ⬝ᵥ (P *ᵥ mO) = -(mO ⬝ᵥ (P *ᵥ (dRe *ᵥ γ))) := by
    have h1 : mE ⬝ᵥ (P *ᵥ mO) = mO ⬝ᵥ (P *ᵥ mE) := by rw [sym hPs, dotProduct_comm]
    rw [h1]
    have hFP : Fᵀ *ᵥ (P *ᵥ mE) = -(Fᵀ *ᵥ (P *ᵥ (dRe *ᵥ γ))) := by
      rw [← hmE', Matrix.mulVec_mulVec _ P F, Matrix.mulVec_mulVec _ Fᵀ (P * F), ← Matrix.mul_assoc, Matrix.mulVec_neg, mulVec_inv_cancel _ hN]
    have key : ∀ (b : Fin p → ℝ) (v : Fin n → ℝ), (F *ᵥ b) ⬝ᵥ v = b ⬝ᵥ (Fᵀ *ᵥ v) := fun b v => by
      rw [Matrix.dotProduct_mulVec, Matrix.vecMul_transpose]
    rw [show mO = _ from hdm dRo, key, hFP, dotProduct_neg, key]
  have e1 : mE ⬝ᵥ (P *ᵥ (dRo *ᵥ γ)) = (P *ᵥ mE) ⬝ᵥ (dRo *ᵥ γ) := sym hPs _ _
  have e2 : γ ⬝ᵥ (dRe *ᵥ (P *ᵥ mO)) = mO ⬝ᵥ (P *ᵥ (dRe *ᵥ γ)) := by rw [sym hes, sym hPs, dotProduct_comm]
  have e3 : γ ⬝ᵥ (dRo *ᵥ (P *ᵥ mE)) = (P *ᵥ mE) ⬝ᵥ (dRo *ᵥ γ) := by rw [sym hos, dotProduct_comm]
  have e4 : mO ⬝ᵥ (P *ᵥ mE) = mE ⬝ᵥ (P *ᵥ mO) := by rw [sym hPs, dotProduct_comm]
  have e5 : γ ⬝ᵥ (dRe *ᵥ (P *ᵥ (dRo *ᵥ γ))) = (P *ᵥ (dRe *ᵥ γ)) ⬝ᵥ (dRo *ᵥ γ) := by rw [sym hes, sym hPs]
  have e6 : γ ⬝ᵥ (dRo *ᵥ (P *ᵥ (dRe *ᵥ γ))) = (P *ᵥ (dRe *ᵥ γ)) ⬝ᵥ (dRo *ᵥ γ) := by rw [sym hos, dotProduct_comm]
  simp only [z, z', e1, e2, e3, e4, e5, e6, cross, dotProduct_add, dotProduct_neg, dotProduct_sub, neg_dotProduct, sub_dotProduct, Matrix.mulVec_sub, Matrix.mulVec_neg]
  have tr1 : (P * dRe * (P * dRo)).trace = (P * dRe * P * dRo).trace := by rw [Matrix.mul_assoc (P * dRe) P dRo]
  rw [tr1, Matrix.trace_add, Matrix.neg_mul, Matrix.trace_neg]
  set W := wss Rt F y (glsBeta Rt F y) with hW
  field_simp
  ring

/-- **C64** Hessian: for models without extra degrees of freedom, the `(omega, eta)` entry of the Hessian is the derivative, when hyper-parameter `eta` varies, of the `omega`
entry of the gradient. `kernO s` is the derivative kernel of `omega` along the path. -/
theorem C64_hessian (hchol : CholOk chol) (hcc : CholComplete chol) (hqr : QROk qr) (hF : FullRank F) (kern kernO : ℝ → (Fin nx → ℝ) → ℝ) (dE dEO : (Fin nx → ℝ) → ℝ)
    (heven : ∀ s d, kern s (fun q => -d q) = kern s d) (hoeven : ∀ s d, kernO s (fun q => -d q) = kernO s d)
    (hdeven : ∀ d, dE (fun q => -d q) = dE d) (hddeven : ∀ d, dEO (fun q => -d q) = dEO d)
    (hk : ∀ i j, i ≠ j → HasDerivAt (fun s => kern s fun q => Xn i q - Xn j q) (dE fun q => Xn i q - Xn j q) t)
    (hko : ∀ i j, i ≠ j → HasDerivAt (fun s => kernO s fun q => Xn i q - Xn j q) (dEO fun q => Xn i q - Xn j q) t)
    (hC : chol (corrR (kern t) nugget noise Xn) = some C) (hσ : (blup C qr F y yStd n).sigma2 ≠ 0) :
    HasDerivAt (fun s => ((chol (corrR (kern s) nugget noise Xn)).map fun C => lhGrad (blup C qr F y yStd n) F yStd (pairMatrix (kernO s) Xn)).getD 0)
      (lhHess (blup C qr F y yStd n) F yStd (pairMatrix (kernO t) Xn) (pairMatrix dE Xn) (pairMatrix dEO Xn)) t := by
  have hR := corrR_mderiv (nugget := nugget) (noise := noise) kern dE heven hdeven hk
  have hO : MDeriv (fun s => pairMatrix (kernO s) Xn) (pairMatrix dEO Xn) t := corrR_mderiv kernO dEO hoeven hddeven hko
  have hnear := rlfAt_near hchol hcc kern heven hR hC
  have hCt := hchol _ _ hC
  have hq := hqr _ (fullRank_fwdM hCt hF)
  obtain ⟨hw, hys, hd⟩ := wss_ne hCt hq hσ
  set Rt := corrR (kern t) nugget noise Xn with hRt
  set dRo := pairMatrix (kernO t) Xn with hdRo
  set dRe := pairMatrix dE Xn with hdRe
  set dRR := pairMatrix dEO Xn with hdRR
  have hu : IsUnit Rt.det := hCt.detR
  have hN := det_gram hCt hq
  have hγd := gamma_deriv (y := y) hR hu hN rfl
  have hwd := wss_deriv (y := y) hR hu hN hCt.symm
  have hqd := hγd.dot (hO.mulVec hγd)
  have htr := ((hR.inv hu).mul hO).trace
  have hl : Real.log 10 ≠ 0 := (Real.log_pos (by norm_num)).ne'
  have hmain := (((hqd.const_mul ((n : ℝ) / Real.log 10)).fun_div hwd hw)).fun_sub (htr.div_const (Real.log 10))
  have hwev : ∀ᶠ s in nhds t, wss (corrR (kern s) nugget noise Xn) F y (glsBeta (corrR (kern s) nugget noise Xn) F y) ≠ 0 := hwd.continuousAt.eventually_ne hw
  have hmain2 := hmain.congr_of_eventuallyEq (f₁ := fun s => ((chol (corrR (kern s) nugget noise Xn)).map fun C => lhGrad (blup C qr F y yStd n) F yStd (pairMatrix (kernO s) Xn)).getD 0)
    ((hnear.and hwev).mono fun s hs => by
      obtain ⟨⟨C', h1, h2⟩, h3⟩ := hs
      simp only [h1, Option.map_some, Option.getD_some]
      have hq' := hqr _ (fullRank_fwdM h2 hF)
      rw [lhGrad_eq h2 hq']
      rw [sigma2_eq h2 hq']
      exact mul_ne_zero (div_ne_zero h3 hd) (pow_ne_zero _ hys))
  refine hmain2.congr_deriv ?_
  have hos : dRoᵀ = dRo := corrR_symm (kernO t) (hoeven t) _ _
  have hes : dReᵀ = dRe := corrR_symm dE hdeven _ _
  rw [lhHess_eq hCt hq hσ hos hes]

end thms

/-! ## The kernels of the code -/

section kernels
variable {chol : Matrix (Fin n) (Fin n) ℝ → Option (Matrix (Fin n) (Fin n) ℝ)}
  {qr : Matrix (Fin n) (Fin p) ℝ → Matrix (Fin n) (Fin p) ℝ × Matrix (Fin p) (Fin p) ℝ}
  {nugget : ℝ} {noise : Fin n → ℝ} {Xn : Fin n → Fin nx → ℝ} {F : Matrix (Fin n) (Fin p) ℝ} {y : Fin n → ℝ} {yStd dof t : ℝ}
  {C : Matrix (Fin n) (Fin n) ℝ}

lemma compDist_even {c : Corr} (hc : c ≠ .actExp) (d : Fin nx → ℝ) : compDist c (fun q => -d q) = compDist c d := by
  funext k; cases c <;> simp [compDist] at hc ⊢

lemma compDist_nonneg {c : Corr} (hc : c ≠ .actExp) (d : Fin nx → ℝ) (k : Fin nx) : 0 ≤ compDist c d k := by
  cases c <;> simp [compDist] at hc ⊢ <;> positivity

lemma kernOf_even' (lim : ℕ) (hl : 0 < lim) (c : Corr) (θ d : Fin nx → ℝ) : kernOf lim hl c θ (fun q => -d q) = kernOf lim hl c θ d := by
  cases c <;> simp [kernOf, compDist_even]

lemma gradKern_even (lim : ℕ) (hl : 0 < lim) (c : Corr) (θ : Fin nx → ℝ) (g : Fin nx) (d : Fin nx → ℝ) :
    gradKern lim hl c θ g (fun q => -d q) = gradKern lim hl c θ g d := by
  cases c <;> simp [gradKern, compDist_even]

lemma hessKern_even (lim : ℕ) (hl : 0 < lim) (c : Corr) (θ : Fin nx → ℝ) (g h : Fin nx) (d : Fin nx → ℝ) :
    hessKern lim hl c θ g h (fun q => -d q) = hessKern lim hl c θ g h d := by
  cases c <;> simp [hessKern, compDist_even]

lemma one_add_pos {a b : ℝ} (ha : 0 ≤ a) (hb : 0 ≤ b) : 1 + √3 * (a * b) ≠ 0 := by positivity

lemma kernOf_deriv (lim : ℕ) (hl : 0 < lim) (c : Corr) (θ : Fin nx → ℝ) (g : Fin nx) (hg : 0 ≤ θ g) (d : Fin nx → ℝ) :
    HasDerivAt (fun s => kernOf lim hl c (Function.update θ g s) d) (gradKern lim hl c θ g d) (θ g) := by
  cases c with
  | absExp => exact (C35_gradient lim hl θ _ g).1
  | squarExp => exact (C35_gradient lim hl θ _ g).2.1
  | matern52 => exact (C35_gradient lim hl θ _ g).2.2.1
  | matern32 => exact (C35_gradient lim hl θ _ g).2.2.2 (one_add_pos hg (compDist_nonneg (by simp) d g))
  | actExp => exact hasDerivAt_const _ _

lemma gradKern_deriv (lim : ℕ) (hl : 0 < lim) (c : Corr) (θ : Fin nx → ℝ) (g h : Fin nx) (hg : ∀ i, 0 ≤ θ i) (d : Fin nx → ℝ) :
    HasDerivAt (fun s => gradKern lim hl c (Function.update θ h s) g d) (hessKern lim hl c θ g h d) (θ h) := by
  cases c with
  | absExp => exact (C35_hessian lim hl θ _ g h).1
  | squarExp => exact (C35_hessian lim hl θ _ g h).2.1
  | matern52 => exact (C35_hessian lim hl θ _ g h).2.2.1
  | matern32 => exact (C35_hessian lim hl θ _ g h).2.2.2 (one_add_pos (hg h) (compDist_nonneg (by simp) d h))
  | actExp => exact hasDerivAt_const _ _

/-- **C63** For the four stationary kernels, every data set, trend, nugget and noise: the `g`-th entry of the gradient the code computes at `theta` is the partial derivative of
the reduced likelihood with respect to `theta[g]`. -/
theorem C63_kernels (hchol : CholOk chol) (hcc : CholComplete chol) (hqr : QROk qr) (hF : FullRank F) (lim : ℕ) (hl : 0 < lim) (c : Corr) (hc : c ≠ .actExp) (θ : Fin nx → ℝ)
    (g : Fin nx) (hg : 0 ≤ θ g) (hC : chol (corrR (kernOf lim hl c θ) nugget noise Xn) = some C) (hσ : (blup C qr F y yStd dof).sigma2 ≠ 0) :
    HasDerivAt (fun s => (rlfAt chol qr (kernOf lim hl c (Function.update θ g s)) nugget noise Xn F y dof).getD 0)
      (lhGrad (blup C qr F y yStd dof) F yStd (pairMatrix (gradKern lim hl c θ g) Xn)) (θ g) := by
  refine (C63_gradient hchol hcc hqr hF (fun s => kernOf lim hl c (Function.update θ g s)) _ (fun s d => kernOf_even' lim hl c _ d) (gradKern_even lim hl c θ g)
    (fun i j _ => kernOf_deriv lim hl c θ g hg _) ?_ hσ).2
  simpa only [Function.update_eq_self] using hC

/-- **C64** The same for the Hessian entry `(g, h)`: it is the partial derivative with respect to `theta[h]` of the `g`-th entry of the gradient. -/
theorem C64_kernels (hchol : CholOk chol) (hcc : CholComplete chol) (hqr : QROk qr) (hF : FullRank F) (lim : ℕ) (hl : 0 < lim) (c : Corr) (hc : c ≠ .actExp) (θ : Fin nx → ℝ)
    (g h : Fin nx) (hθ : ∀ i, 0 ≤ θ i) (hC : chol (corrR (kernOf lim hl c θ) nugget noise Xn) = some C) (hσ : (blup C qr F y yStd n).sigma2 ≠ 0) :
    HasDerivAt (fun s => ((chol (corrR (kernOf lim hl c (Function.update θ h s)) nugget noise Xn)).map fun C =>
        lhGrad (blup C qr F y yStd n) F yStd (pairMatrix (gradKern lim hl c (Function.update θ h s) g) Xn)).getD 0)
      (lhHess (blup C qr F y yStd n) F yStd (pairMatrix (gradKern lim hl c θ g) Xn) (pairMatrix (gradKern lim hl c θ h) Xn) (pairMatrix (hessKern lim hl c θ g h) Xn)) (θ h) := by
  have := C64_hessian hchol hcc hqr hF (t := θ h) (fun s => kernOf lim hl c (Function.update θ h s)) (fun s => gradKern lim hl c (Function.update θ h s) g)
    (gradKern lim hl c θ h) (hessKern lim hl c θ g h) (nugget := nugget) (noise := noise) (Xn := Xn) (C := C) (y := y) (yStd := yStd)
    (fun s d => kernOf_even' lim hl c _ d) (fun s d => gradKern_even lim hl c _ g d) (gradKern_even lim hl c θ h) (hessKern_even lim hl c θ g h)
    (fun i j _ => kernOf_deriv lim hl c θ h (hθ h) _) (fun i j _ => gradKern_deriv lim hl c θ g h hθ _)
    (by simpa only [Function.update_eq_self] using hC) hσ
  simpa only [Function.update_eq_self] using this

end kernels

/-! ## Non-vacuity -/

theorem chol2_complete : CholComplete chol2 := by
  intro R hs hp
  unfold chol2
  have h01 : R 0 1 = R 1 0 := by
    have := congrFun (congrFun hs 1) 0
    simpa using this
  have h0 : 0 < R 0 0 := by
    have := hp ![1, 0] (by intro h; simpa using congrFun h 0)
    simpa [Matrix.mulVec, dotProduct, Fin.sum_univ_two] using this
  have h1 := hp ![-R 1 0, R 0 0] (by intro h; exact h0.ne' (by simpa using congrFun h 1))
  rw [if_pos]
  · rfl
  · refine ⟨h0, h01, ?_⟩
    simp [Matrix.mulVec, dotProduct, Fin.sum_univ_two, h01] at h1
    have : 0 < R 0 0 * (R 0 0 * R 1 1 - R 1 0 ^ 2) := by nlinarith
    have h2 : 0 < R 0 0 * R 1 1 - R 1 0 ^ 2 := (mul_pos_iff_of_pos_left h0).1 this
    rw [show R 1 1 - R 1 0 ^ 2 / R 0 0 = (R 0 0 * R 1 1 - R 1 0 ^ 2) / R 0 0 by field_simp]
    exact div_pos h2 h0

/-- Two points with different outputs: the reduced likelihood of the squared exponential kernel is differentiable at `theta = 1` with the computed gradient. -/
example : ∃ C, HasDerivAt (fun s => (rlfAt chol2 qr1 (kernOf 10 (by decide) .squarExp (Function.update (fun _ : Fin 1 => (1 : ℝ)) 0 s)) 0 (fun _ => 0)
      (fun (i : Fin 2) _ => if i = 0 then 0 else 1) (Matrix.of fun _ _ => 1) (fun i : Fin 2 => if i = 0 then 1 else -1) 2).getD 0)
      (lhGrad (blup C qr1 (Matrix.of fun _ _ => 1) (fun i : Fin 2 => if i = 0 then 1 else -1) 1 2) (Matrix.of fun _ _ => 1) 1
        (pairMatrix (gradKern 10 (by decide) .squarExp (fun _ : Fin 1 => (1 : ℝ)) 0) (fun (i : Fin 2) _ => if i = 0 then 0 else 1))) 1 := by
  set Xn : Fin 2 → Fin 1 → ℝ := fun i _ => if i = 0 then 0 else 1 with hXn
  set F : Matrix (Fin 2) (Fin 1) ℝ := Matrix.of fun _ _ => 1 with hFdef
  have hF : FullRank F := by
    intro w hw
    have := congrFun hw 0
    funext q
    have hq : q = 0 := Subsingleton.elim _ _
    subst hq
    simpa [hFdef, Matrix.mulVec, dotProduct] using this
  have hR : ∀ i j, corrR (kernOf 10 (by decide) .squarExp fun _ : Fin 1 => (1 : ℝ)) 0 (fun _ => 0) Xn i j = if i = j then 1 else Real.exp (-1) := by
    intro i j
    rw [kernOf_squarExp, corrR_apply _ (sqKern_even _)]
    fin_cases i <;> fin_cases j <;> simp [sqKern, hXn]
  have hlt : Real.exp (-1) < 1 := by rw [← Real.exp_zero]; exact Real.exp_lt_exp.2 (by norm_num)
  have hpos := Real.exp_pos (-1)
  obtain ⟨C, hC⟩ : ∃ C, chol2 (corrR (kernOf 10 (by decide) .squarExp fun _ : Fin 1 => (1 : ℝ)) 0 (fun _ => 0) Xn) = some C := by
    unfold chol2
    rw [if_pos]
    · exact ⟨_, rfl⟩
    · simp only [hR]
      refine ⟨by norm_num, by simp, ?_⟩
      simp only [Fin.isValue, one_ne_zero, if_false, if_true, div_one]
      nlinarith
  refine ⟨C, C63_kernels chol2_ok chol2_complete qr1_ok hF 10 (by decide) .squarExp (by simp) (fun _ => 1) 0 zero_le_one hC ?_⟩
  have hCt := chol2_ok _ _ hC
  rw [sigma2_eq hCt (qr1_ok _ (fullRank_fwdM hCt hF))]
  refine mul_ne_zero (div_ne_zero ?_ (by norm_num)) (by norm_num)
  unfold wss
  rw [← sum_sq_inv hCt]
  intro h0
  have hz := (Finset.sum_eq_zero_iff_of_nonneg fun i _ => sq_nonneg _).1 h0
  have hz2 : C⁻¹ *ᵥ ((fun i => if i = 0 then 1 else -1) - F *ᵥ glsBeta (corrR (kernOf 10 (by decide) .squarExp fun _ : Fin 1 => (1 : ℝ)) 0 (fun _ => 0) Xn) F fun i => if i = 0 then 1 else -1) = 0 := by
    funext i; simpa using hz i (Finset.mem_univ i)
  have hz3 := congrArg (C *ᵥ ·) hz2
  simp only [mulVec_inv_cancel _ hCt.det, Matrix.mulVec_zero] at hz3
  have a := congrFun hz3 0
  have b := congrFun hz3 1
  simp [hFdef, Matrix.mulVec, dotProduct] at a b
  linarith

end SMT.Krg
