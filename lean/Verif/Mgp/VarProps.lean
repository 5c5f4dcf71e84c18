import Verif.Mgp.EmbedProps

/-!
# C76: derivatives of the predictions with respect to the hyper-parameters, and the MGP variance
-/
namespace SMT.Mgp
open Matrix SMT.Common SMT.Krg
set_option linter.unusedSectionVars false
set_option linter.unusedSimpArgs false
set_option linter.unusedVariables false

variable {n nx m p q : ℕ}
variable {chol : Matrix (Fin n) (Fin n) ℝ → Option (Matrix (Fin n) (Fin n) ℝ)}
  {qr : Matrix (Fin n) (Fin p) ℝ → Matrix (Fin n) (Fin p) ℝ × Matrix (Fin p) (Fin p) ℝ}
  {qrC : Matrix (Fin nx) (Fin m) ℝ → Matrix (Fin nx) (Fin m) ℝ × Matrix (Fin m) (Fin m) ℝ}
  {trend : (Fin nx → ℝ) → Fin p → ℝ} {P : Prior} {nugget : ℝ} {noise : Fin n → ℝ} {θ : Fin (m * nx) → ℝ} {X : Fin n → Fin nx → ℝ} {y : Fin n → ℝ} {M : MGP n nx m p}

/-- The same data trained with another kernel. -/
lemma train_other {B : Model n nx p} {k k' : (Fin nx → ℝ) → ℝ} (hB : train chol qr k trend nugget noise X y = some B) {C : Matrix (Fin n) (Fin n) ℝ}
    (hC : chol (corrR k' nugget noise B.Xn) = some C) :
    train chol qr k' trend nugget noise X y = some { B with kern := k', par := blup C qr B.F (fun i => normalise B.yOS (y i)) B.yOS.2 n } := by
  unfold train at hB ⊢
  simp only [Option.map_eq_some_iff] at hB
  obtain ⟨C0, hC0, rfl⟩ := hB
  simp only at hC ⊢
  rw [hC]
  rfl

lemma mgp_chol (hM : mgpTrain chol qr qrC trend P nugget noise θ X y = some M) : ∃ C, chol (corrR (kern θ) nugget noise M.base.Xn) = some C ∧
    M.base.par = blup C qr M.base.F (fun i => normalise M.base.yOS (y i)) M.base.yOS.2 n ∧ M.base.trend = trend := by
  obtain ⟨C, hC, -, -, -, ht, -, -, hP⟩ := train_eq (mgp_eq hM).1
  exact ⟨C, hC, hP, ht⟩

/-- Near a trained `theta` training succeeds. -/
lemma train_near (hM : mgpTrain chol qr qrC trend P nugget noise θ X y = some M) (hchol : CholOk chol) (hcc : CholComplete chol) (ω : Fin (m * nx)) :
    ∀ᶠ s in nhds (θ ω), ∃ C', chol (corrR (kern (Function.update θ ω s)) nugget noise M.base.Xn) = some C' ∧ IsChol (corrR (kern (Function.update θ ω s)) nugget noise M.base.Xn) C' := by
  obtain ⟨C, hC, -⟩ := mgp_chol hM
  refine rlfAt_near (C := C) (t := θ ω) hchol hcc (fun s => kern (Function.update θ ω s)) (fun s d => kern_even _ d)
    (corrR_mderiv (Xn := M.base.Xn) (fun s => kern (Function.update θ ω s)) (kernGrad θ ω) (fun s d => kern_even _ d) (kernGrad_even θ ω) (fun i j _ => (C74_kernel_derivatives θ ω ω _).1)) ?_
  rw [Function.update_eq_self]; exact hC

/-- **C76** Values: `y_std` times the derivative that the code computes is the derivative of the predicted value with respect to `theta[omega]` (training repeated with the
changed hyper-parameter, same data). The code omits the factor `y_std`. -/
theorem C76_value_derivative (hM : mgpTrain chol qr qrC trend P nugget noise θ X y = some M) (hchol : CholOk chol) (hcc : CholComplete chol) (hqr : QROk qr) (hF : FullRank M.base.F)
    (x : Fin nx → ℝ) (ω : Fin (m * nx)) :
    HasDerivAt (fun s => ((train chol qr (kern (Function.update θ ω s)) trend nugget noise X y).map fun B => B.predict x).getD 0)
      ((scaling y).2 * M.dyOf (M.rowsX x) ω) (θ ω) := by
  obtain ⟨hB, hdata, hθ, -⟩ := mgp_eq hM
  obtain ⟨C, hC, hP, ht⟩ := mgp_chol hM
  obtain ⟨-, -, -, hyOS, -⟩ := train_eq hB
  have hnear := train_near hM hchol hcc ω
  have hCt := hchol _ _ hC
  have hq := hqr _ (fullRank_fwdM hCt hF)
  have hR : MDeriv (fun s => corrR (kern (Function.update θ ω s)) nugget noise M.base.Xn) (pairMatrix (kernGrad θ ω) M.base.Xn) (θ ω) :=
    corrR_mderiv (Xn := M.base.Xn) (fun s => kern (Function.update θ ω s)) (kernGrad θ ω) (fun s d => kern_even _ d) (kernGrad_even θ ω) (fun i j _ => (C74_kernel_derivatives θ ω ω _).1)
  have hupd : Function.update θ ω (θ ω) = θ := Function.update_eq_self ω θ
  have hu : IsUnit (corrR (kern (Function.update θ ω (θ ω))) nugget noise M.base.Xn).det := by rw [hupd]; exact hCt.detR
  have hN : IsUnit (M.base.Fᵀ * (corrR (kern (Function.update θ ω (θ ω))) nugget noise M.base.Xn)⁻¹ * M.base.F).det := by rw [hupd]; exact det_gram hCt hq
  set yn : Fin n → ℝ := fun i => normalise M.base.yOS (y i) with hyn
  have hβ := beta_deriv (y := yn) hR hu hN
  have hγ := gamma_deriv (y := yn) hR hu hN rfl
  have hr : VDeriv (fun s i => kern (Function.update θ ω s) fun j => M.base.norm x j - M.base.Xn i j) (fun i => kernGrad θ ω fun j => M.base.norm x j - M.base.Xn i j) (θ ω) :=
    fun i => (C74_kernel_derivatives θ ω ω _).1
  have hmain := (((VDeriv.const (trend (M.base.norm x)) (θ ω)).dot hβ).fun_add (hr.dot hγ)).const_mul M.base.yOS.2 |>.const_add M.base.yOS.1
  refine (hmain.congr_of_eventuallyEq (hnear.mono fun s hs => ?_)).congr_deriv ?_
  · obtain ⟨C', h1, h2⟩ := hs
    rw [train_other hB h1]
    simp only [Option.map_some, Option.getD_some, Model.predict, denormalise]
    have hq' := hqr _ (fullRank_fwdM h2 hF)
    rw [beta_gls h2 hq', gamma_eq h2 hq', ht]
    rfl
  · rw [hyOS]
    congr 1
    unfold MGP.dyOf MGP.rowsX
    simp only [hθ, hP, ht]
    have hCC : (blup C qr M.base.F yn M.base.yOS.2 n).C = C := rfl
    have hd : dR M.data θ ω = pairMatrix (kernGrad θ ω) M.base.Xn := by rw [hdata]; rfl
    have hDF : M.data.F = M.base.F := by rw [hdata]
    rw [hd, hDF]
    have hg : (blup C qr M.base.F yn M.base.yOS.2 n).gamma = glsGamma (corrR (kern θ) nugget noise M.base.Xn) M.base.F yn := gamma_eq hCt hq
    have hl : lhArg (blup C qr M.base.F yn M.base.yOS.2 n) (pairMatrix (kernGrad θ ω) M.base.Xn) =
        fwd C (pairMatrix (kernGrad θ ω) M.base.Xn *ᵥ glsGamma (corrR (kern θ) nugget noise M.base.Xn) M.base.F yn) := by unfold lhArg; rw [hCC, hg]
    have hs := solve_gls (y := yn) (yStd := M.base.yOS.2) (dof := n) hCt hq (pairMatrix (kernGrad θ ω) M.base.Xn *ᵥ glsGamma (corrR (kern θ) nugget noise M.base.Xn) M.base.F yn)
    rw [hCC] at hs
    rw [hl, hs, hCC, solve_chol hCt, solve_chol hCt, lhDmu_eq hCt hq, hg]
    simp only [hupd, zero_dotProduct, zero_add]
    rw [show (fun i => kern θ fun j => M.base.norm x j - M.base.Xn i j) = fun i => actExpRow θ (fun k => M.base.norm x k - M.base.Xn i k) (fun k => M.base.norm x k - M.base.Xn i k) none none from rfl,
      show (fun i => kernGrad θ ω fun j => M.base.norm x j - M.base.Xn i j) = fun i => actExpRow θ (fun k => M.base.norm x k - M.base.Xn i k) (fun k => M.base.norm x k - M.base.Xn i k) (some ω) none from rfl]
    rw [dotProduct_sub, dotProduct_neg, dotProduct_add, dotProduct_neg]
    ring

/-- **C76** The "MSE" returned with `both=True` is the variance of the Kriging model with the same kernel, whatever the trend. -/
theorem C76_mse (hM : mgpTrain chol qr qrC trend P nugget noise θ X y = some M) (hchol : CholOk chol) (hqr : QROk qr) (hF : FullRank M.base.F) (x : Fin nx → ℝ) :
    M.mseOf (M.rowsX x) = M.base.variance x := by
  obtain ⟨hB, -, hθ, -⟩ := mgp_eq hM
  obtain ⟨C, hC, hP, ht⟩ := mgp_chol hM
  obtain ⟨-, -, -, -, hk, -⟩ := train_eq hB
  have hCt := hchol _ _ hC
  obtain ⟨-, -, -, -, -, hU, -, -, -⟩ := blup_eq (F := M.base.F) (y := fun i => normalise M.base.yOS (y i)) (yStd := M.base.yOS.2) (dof := n) hCt (hqr _ (fullRank_fwdM hCt hF))
  rw [← hP] at hU
  have hr : (M.rowsX x).r = M.base.corr (M.base.norm x) := by
    funext i
    show kern M.theta _ = M.base.kern _
    rw [hk, hθ]
  unfold MGP.mseOf MGP.uOf Model.variance
  simp only [hr]
  have hL : IsLower M.base.par.Gᵀ := fun i j h => hU j i h
  have e : ∑ a, bwd M.base.par.Gᵀ (M.base.trend (M.rowsX x).xn - M.base.par.Ftᵀ *ᵥ fwd M.base.par.C (M.base.corr (M.base.norm x))) a ^ 2 =
      ∑ a, bwd M.base.par.Gᵀ (M.base.par.Ftᵀ *ᵥ fwd M.base.par.C (M.base.corr (M.base.norm x)) - M.base.trend (M.base.norm x)) a ^ 2 := by
    refine Finset.sum_congr rfl fun a _ => ?_
    rw [bwd_of_lower _ _ hL, bwd_of_lower _ _ hL, div_pow, div_pow]
    congr 1
    show (M.base.trend (M.base.norm x) a - _) ^ 2 = (_ - _) ^ 2
    ring
  rw [e]

/-- Derivative of the universal-Kriging variance along a path. -/
lemma uk_deriv {R : ℝ → Matrix (Fin n) (Fin n) ℝ} {dR : Matrix (Fin n) (Fin n) ℝ} {F : Matrix (Fin n) (Fin p) ℝ} {t : ℝ} {r : ℝ → Fin n → ℝ} {dr : Fin n → ℝ} {f : Fin p → ℝ} {sg : ℝ → ℝ} {ds : ℝ}
    (hR : MDeriv R dR t) (hd : IsUnit (R t).det) (hN : IsUnit (Fᵀ * (R t)⁻¹ * F).det) (hsym : (R t)ᵀ = R t) (hdR : dRᵀ = dR) (hr : VDeriv r dr t) (hs : HasDerivAt sg ds t) :
    HasDerivAt (fun s => ukVariance (sg s) (R s) F (r s) f)
      (let Pr := (R t)⁻¹ *ᵥ r t
       let a := (R t)⁻¹ *ᵥ (F *ᵥ ((Fᵀ * (R t)⁻¹ * F)⁻¹ *ᵥ (f - Fᵀ *ᵥ Pr)))
       ds * (1 - r t ⬝ᵥ Pr + (Fᵀ *ᵥ Pr - f) ⬝ᵥ ((Fᵀ * (R t)⁻¹ * F)⁻¹ *ᵥ (Fᵀ *ᵥ Pr - f))) +
        sg t * (-(2 * (dr ⬝ᵥ Pr) - Pr ⬝ᵥ (dR *ᵥ Pr)) + (2 * (Pr ⬝ᵥ (dR *ᵥ a)) - 2 * (dr ⬝ᵥ a) + a ⬝ᵥ (dR *ᵥ a)))) t := by
  have hP := hR.inv hd
  have hNd := ((MDeriv.const Fᵀ t).mul hP).mul (MDeriv.const F t)
  have hNi := hNd.inv hN
  have hPr := hP.mulVec hr
  have hv := ((MDeriv.const Fᵀ t).mulVec hPr).sub (VDeriv.const f t)
  have h1 := hr.dot hPr
  have h2 := hv.dot (hNi.mulVec hv)
  have h3 := hs.fun_mul (((hasDerivAt_const t (1 : ℝ)).fun_sub h1).fun_add h2)
  unfold ukVariance
  simp only []
  refine h3.congr_deriv ?_
  have sym : ∀ {k : ℕ} {A : Matrix (Fin k) (Fin k) ℝ}, Aᵀ = A → ∀ u v : Fin k → ℝ, u ⬝ᵥ (A *ᵥ v) = (A *ᵥ u) ⬝ᵥ v := fun hA u v => by
    rw [Matrix.dotProduct_mulVec, ← Matrix.mulVec_transpose, hA]
  have hPs : ((R t)⁻¹)ᵀ = (R t)⁻¹ := by rw [Matrix.transpose_nonsing_inv, hsym]
  have hNs : ((Fᵀ * (R t)⁻¹ * F)⁻¹)ᵀ = (Fᵀ * (R t)⁻¹ * F)⁻¹ := by
    rw [Matrix.transpose_nonsing_inv, Matrix.transpose_mul, Matrix.transpose_mul, hPs, Matrix.transpose_transpose, Matrix.mul_assoc]
  set Q := (R t)⁻¹ with hQ
  set W := (Fᵀ * Q * F)⁻¹ with hW
  set ρ := r t with hρ
  set v := Fᵀ *ᵥ (Q *ᵥ ρ) - f with hvv
  have hfv : f - Fᵀ *ᵥ (Q *ᵥ ρ) = -v := by rw [hvv]; abel
  simp only [hfv, Matrix.zero_mulVec, zero_add, sub_zero, Matrix.zero_mul, Matrix.mul_zero, add_zero, zero_sub]
  -- abbreviations
  set b := Q *ᵥ (F *ᵥ (W *ᵥ v)) with hb
  have ha : Q *ᵥ (F *ᵥ (W *ᵥ -v)) = -b := by rw [Matrix.mulVec_neg, Matrix.mulVec_neg, Matrix.mulVec_neg]
  rw [ha]
  set c := Q *ᵥ ρ with hc
  have e1 : (-(Q * dR * Q)) *ᵥ ρ = -(Q *ᵥ (dR *ᵥ c)) := by rw [Matrix.neg_mulVec, ← Matrix.mulVec_mulVec, ← Matrix.mulVec_mulVec]
  have key : ∀ w : Fin n → ℝ, (Fᵀ *ᵥ (Q *ᵥ w)) ⬝ᵥ (W *ᵥ v) = w ⬝ᵥ b := fun w => by
    rw [Matrix.mulVec_transpose, ← Matrix.dotProduct_mulVec, ← sym hPs]
  have e2 : (-(W * (Fᵀ * -(Q * dR * Q) * F) * W)) *ᵥ v = W *ᵥ (Fᵀ *ᵥ (Q *ᵥ (dR *ᵥ b))) := by
    simp only [hb, Matrix.mulVec_mulVec, Matrix.mul_assoc, Matrix.mul_neg, Matrix.neg_mul, neg_neg]
  have e3 : ∀ w : Fin n → ℝ, v ⬝ᵥ (W *ᵥ (Fᵀ *ᵥ (Q *ᵥ w))) = w ⬝ᵥ b := fun w => by rw [sym hNs, dotProduct_comm, key]
  rw [e1, e2]
  have e4 : ρ ⬝ᵥ (-(Q *ᵥ (dR *ᵥ c)) + Q *ᵥ dr) = -(c ⬝ᵥ (dR *ᵥ c)) + c ⬝ᵥ dr := by
    rw [dotProduct_add, dotProduct_neg, sym hPs, sym hPs]
  have e5 : Fᵀ *ᵥ (-(Q *ᵥ (dR *ᵥ c)) + Q *ᵥ dr) = Fᵀ *ᵥ (Q *ᵥ (dr - dR *ᵥ c)) := by
    rw [Matrix.mulVec_sub Q]; congr 1; abel
  rw [e4, e5, key, dotProduct_add, e3, e3]
  simp only [Matrix.mulVec_neg, dotProduct_neg, neg_dotProduct, sub_dotProduct]
  have e6 : (dR *ᵥ b) ⬝ᵥ b = b ⬝ᵥ (dR *ᵥ b) := dotProduct_comm _ _
  have e7 : (dR *ᵥ c) ⬝ᵥ b = c ⬝ᵥ (dR *ᵥ b) := (sym hdR _ _).symm
  have e8 : c ⬝ᵥ dr = dr ⬝ᵥ c := dotProduct_comm _ _
  rw [e6, e7, e8]
  ring

/-- The universal-Kriging variance is not negative. -/
lemma uk_nonneg {R C : Matrix (Fin n) (Fin n) ℝ} {F : Matrix (Fin n) (Fin p) ℝ} (hC : IsChol R C) (hq : IsQR (fwdM C F) (qr (fwdM C F)).1 (qr (fwdM C F)).2) {sg : ℝ} (hs : 0 ≤ sg) {r : Fin n → ℝ}
    (hr : 0 ≤ 1 - r ⬝ᵥ (R⁻¹ *ᵥ r)) (f : Fin p → ℝ) : 0 ≤ ukVariance sg R F r f := by
  unfold ukVariance
  simp only []
  refine mul_nonneg hs (add_nonneg hr ?_)
  have hN := det_gram hC hq
  have hg := gram_eq (y := 0) (yStd := 1) (dof := 1) hC hq
  simp only [] at hg
  set v := Fᵀ *ᵥ (R⁻¹ *ᵥ r) - f
  set w := (Fᵀ * R⁻¹ * F)⁻¹ *ᵥ v with hw
  have hv : v = (Fᵀ * R⁻¹ * F) *ᵥ w := by rw [hw, Matrix.mulVec_mulVec, Matrix.mul_nonsing_inv _ hN, Matrix.one_mulVec]
  rw [hv, ← hg, ← Matrix.mulVec_mulVec, dotProduct_comm, Matrix.dotProduct_mulVec, Matrix.vecMul_transpose]
  exact Finset.sum_nonneg fun i _ => mul_self_nonneg _

section constant
variable {qr : Matrix (Fin n) (Fin 1) ℝ → Matrix (Fin n) (Fin 1) ℝ × Matrix (Fin 1) (Fin 1) ℝ} {trend : (Fin nx → ℝ) → Fin 1 → ℝ} {M : MGP n nx m 1}

/-- **C76** Variances, one-column trend, nugget and noise not negative, process variance not zero: `dMSE[omega]` is the derivative of the Kriging variance with respect to
`theta[omega]` (training repeated with the changed hyper-parameter, same data). -/
theorem C76_variance_derivative (hM : mgpTrain chol qr qrC trend P nugget noise θ X y = some M) (hchol : CholOk chol) (hcc : CholComplete chol) (hqr : QROk qr) (hF : FullRank M.base.F)
    (hnug : ∀ i, 0 ≤ nugget + noise i) (hσ : M.base.par.sigma2 ≠ 0) (x : Fin nx → ℝ) (ω : Fin (m * nx)) :
    HasDerivAt (fun s => ((train chol qr (kern (Function.update θ ω s)) trend nugget noise X y).map fun B => B.variance x).getD 0) (M.dmseOf (M.rowsX x) ω) (θ ω) := by
  obtain ⟨hB, hdata, hθ, -⟩ := mgp_eq hM
  obtain ⟨C, hC, hP, ht⟩ := mgp_chol hM
  have hnear := train_near hM hchol hcc ω
  have hCt := hchol _ _ hC
  have hq := hqr _ (fullRank_fwdM hCt hF)
  have hR : MDeriv (fun s => corrR (kern (Function.update θ ω s)) nugget noise M.base.Xn) (pairMatrix (kernGrad θ ω) M.base.Xn) (θ ω) :=
    corrR_mderiv (Xn := M.base.Xn) (fun s => kern (Function.update θ ω s)) (kernGrad θ ω) (fun s d => kern_even _ d) (kernGrad_even θ ω) (fun i j _ => (C74_kernel_derivatives θ ω ω _).1)
  have hupd : Function.update θ ω (θ ω) = θ := Function.update_eq_self ω θ
  have hu : IsUnit (corrR (kern (Function.update θ ω (θ ω))) nugget noise M.base.Xn).det := by rw [hupd]; exact hCt.detR
  have hN : IsUnit (M.base.Fᵀ * (corrR (kern (Function.update θ ω (θ ω))) nugget noise M.base.Xn)⁻¹ * M.base.F).det := by rw [hupd]; exact det_gram hCt hq
  have hsy : (corrR (kern (Function.update θ ω (θ ω))) nugget noise M.base.Xn)ᵀ = corrR (kern (Function.update θ ω (θ ω))) nugget noise M.base.Xn := corrR_symm _ (kern_even _) _ _
  set yn : Fin n → ℝ := fun i => normalise M.base.yOS (y i) with hyn
  have hr : VDeriv (fun s i => kern (Function.update θ ω s) fun j => M.base.norm x j - M.base.Xn i j) (fun i => kernGrad θ ω fun j => M.base.norm x j - M.base.Xn i j) (θ ω) :=
    fun i => (C74_kernel_derivatives θ ω ω _).1
  have hs := ((wss_deriv (y := yn) hR hu hN hsy).div_const (n : ℝ)).mul_const (M.base.yOS.2 ^ 2)
  have hmain := uk_deriv (f := trend (M.base.norm x)) hR hu hN hsy (pairMatrix_symm _ (kernGrad_even θ ω) _) hr hs
  have hvar : ∀ (θ' : Fin (m * nx) → ℝ) (C' : Matrix (Fin n) (Fin n) ℝ), chol (corrR (kern θ') nugget noise M.base.Xn) = some C' → ∀ B, train chol qr (kern θ') trend nugget noise X y = some B →
      B.Xn = M.base.Xn → B.F = M.base.F → B.norm x = M.base.norm x → B.yOS = M.base.yOS →
      B.variance x = ukVariance (wss (corrR (kern θ') nugget noise M.base.Xn) M.base.F yn (glsBeta (corrR (kern θ') nugget noise M.base.Xn) M.base.F yn) / n * M.base.yOS.2 ^ 2)
        (corrR (kern θ') nugget noise M.base.Xn) M.base.F (fun i => kern θ' fun j => M.base.norm x j - M.base.Xn i j) (trend (M.base.norm x)) := by
    intro θ' C' hC' B hB' hX' hF' hn' hy'
    obtain ⟨C'', hC'', -, -, hk', ht', -, -, hP'⟩ := train_eq hB'
    rw [hX', hC'] at hC''
    obtain rfl : C' = C'' := by simpa using hC''
    have hCt' := hchol _ _ hC'
    have hq' := hqr _ (fullRank_fwdM hCt' hF)
    have hcorr : B.corr (B.norm x) = fun i => kern θ' fun j => M.base.norm x j - M.base.Xn i j := by
      funext i; unfold Model.corr; rw [hk', hn', hX']
    have hsig : B.par.sigma2 = wss (corrR (kern θ') nugget noise M.base.Xn) M.base.F yn (glsBeta (corrR (kern θ') nugget noise M.base.Xn) M.base.F yn) / n * M.base.yOS.2 ^ 2 := by
      rw [hP', hF', hy', sigma2_eq hCt' hq']
    have h1 := C41_one_column hB' hchol hqr (hF'.symm ▸ hF) x
    rw [h1, hX', hF', hcorr, ht', hn', hsig]
    refine max_eq_right (uk_nonneg hCt' hq' ?_ ?_ _)
    · rw [← hsig]; exact sigma2_nonneg hB'
    · exact corr_le_one_psd (kern_even θ') (kern_zero θ') (C74_psd θ') hnug M.base.Xn hCt'.detR (M.base.norm x) _ fun i => rfl
  refine (hmain.congr_of_eventuallyEq (hnear.mono fun s hs => ?_)).congr_deriv ?_
  · obtain ⟨C', h1, h2⟩ := hs
    have hT := train_other hB h1
    simp only [hT, Option.map_some, Option.getD_some]
    exact hvar _ C' h1 _ hT rfl rfl rfl rfl
  · have hv0 := hvar θ C hC M.base hB rfl rfl rfl rfl
    have hmse := C76_mse hM hchol hqr hF x
    have hsig : M.base.par.sigma2 = wss (corrR (kern θ) nugget noise M.base.Xn) M.base.F yn (glsBeta (corrR (kern θ) nugget noise M.base.Xn) M.base.F yn) / n * M.base.yOS.2 ^ 2 := by
      rw [hP, sigma2_eq hCt hq]
    have hd : dR M.data θ ω = pairMatrix (kernGrad θ ω) M.base.Xn := by rw [hdata]; rfl
    have hDF : M.data.F = M.base.F := by rw [hdata]
    have hDy : M.data.yStd = M.base.yOS.2 := by rw [hdata]
    have hCC : M.base.par.C = C := by rw [hP]; rfl
    have hFt : M.base.par.Ft = fwdM C M.base.F := by rw [hP]; rfl
    have hGm := gram_eq (y := yn) (yStd := M.base.yOS.2) (dof := n) hCt hq
    obtain ⟨-, -, -, -, -, hU, hdg, -, -⟩ := blup_eq (F := M.base.F) (y := yn) (yStd := M.base.yOS.2) (dof := n) hCt hq
    rw [← hP] at hU hdg
    simp only [] at hGm
    rw [← hP] at hGm
    have hds := lhDsigma_eq (y := yn) (yStd := M.base.yOS.2) (dof := n) hCt hq (pairMatrix (kernGrad θ ω) M.base.Xn)
    rw [← hP] at hds
    have hr0 : (M.rowsX x).r = fun i => kern θ fun j => M.base.norm x j - M.base.Xn i j := by funext i; show kern M.theta _ = _; rw [hθ]
    have hdr0 : (M.rowsX x).dr ω = fun i => kernGrad θ ω fun j => M.base.norm x j - M.base.Xn i j := by subst hθ; rfl
    have hRF : bwdM Cᵀ (fwdM C M.base.F) = (corrR (kern θ) nugget noise M.base.Xn)⁻¹ * M.base.F := by
      rw [bwdM_eq Cᵀ _ hCt.upperT hCt.diag, fwdM_eq C _ hCt.lower hCt.diag, hCt.inv, Matrix.mul_assoc]
    have hGT : IsUpper M.base.par.Gᵀ := fun i j h => absurd h (by omega)
    have hGu : bwd M.base.par.G (M.uOf (M.rowsX x)) = (M.base.Fᵀ * (corrR (kern θ) nugget noise M.base.Xn)⁻¹ * M.base.F)⁻¹ *ᵥ
        (trend (M.base.norm x) - M.base.Fᵀ *ᵥ ((corrR (kern θ) nugget noise M.base.Xn)⁻¹ *ᵥ fun i => kern θ fun j => M.base.norm x j - M.base.Xn i j)) := by
      unfold MGP.uOf
      simp only [hr0]
      rw [bwd_eq_inv _ _ hGT (fun i => hdg i), bwd_eq_inv _ _ hU hdg, Matrix.mulVec_mulVec, ← Matrix.mul_inv_rev, hGm, ht, hFt, hCC]
      congr 2
      rw [fwdM_eq C _ hCt.lower hCt.diag, fwd_eq_inv C _ hCt.lower hCt.diag, Matrix.transpose_mul, ← Matrix.mulVec_mulVec, Matrix.transpose_nonsing_inv, Matrix.mulVec_mulVec _ Cᵀ⁻¹ C⁻¹, ← hCt.inv]
    unfold MGP.dmseOf
    simp only [hmse, hv0, hGu, hθ, hd, hDF, hDy, hds, hCC, hFt, hRF, hr0, hdr0, solve_chol hCt, ← Matrix.mulVec_mulVec]
    rw [← hsig]
    unfold ukVariance
    simp only [hupd]
    rw [← hsig]
    field_simp

end constant

end SMT.Mgp
