import Verif.Kriging.Core
import Verif.Kriging.KernelProps
import Verif.Kriging.PrepProps
import Verif.Common.Gauss
import Mathlib.Tactic.Module
import Mathlib.Tactic.NoncommRing

/-!
# Properties C39–C42: Kriging prediction, variance and derivatives
-/
namespace SMT.Krg
open Matrix SMT.Common
set_option linter.unusedSectionVars false
set_option linter.unusedSimpArgs false
set_option linter.unusedVariables false

variable {n nx p : ℕ}

/-! ## What is assumed of scipy -/

/-- A correct lower Cholesky factor. -/
structure IsChol (R C : Matrix (Fin n) (Fin n) ℝ) : Prop where
  mul : C * Cᵀ = R
  lower : IsLower C
  pos : ∀ i, 0 < C i i

/-- A correct economic QR factorisation of a full-rank matrix. -/
structure IsQR (A Q : Matrix (Fin n) (Fin p) ℝ) (G : Matrix (Fin p) (Fin p) ℝ) : Prop where
  mul : Q * G = A
  orth : Qᵀ * Q = 1
  upper : IsUpper G
  diag : ∀ i, G i i ≠ 0

/-- Full column rank: the condition under which the economic QR has an invertible triangular factor. -/
def FullRank (A : Matrix (Fin n) (Fin p) ℝ) : Prop := ∀ v, A *ᵥ v = 0 → v = 0

/-- `linalg.cholesky` either raises or returns a correct factor. -/
def CholOk (chol : Matrix (Fin n) (Fin n) ℝ → Option (Matrix (Fin n) (Fin n) ℝ)) : Prop := ∀ R C, chol R = some C → IsChol R C

/-- `linalg.qr(mode="economic")` is correct on full-rank matrices. -/
def QROk (qr : Matrix (Fin n) (Fin p) ℝ → Matrix (Fin n) (Fin p) ℝ × Matrix (Fin p) (Fin p) ℝ) : Prop :=
  ∀ A, FullRank A → IsQR A (qr A).1 (qr A).2

/-- Universal-Kriging variance with process variance `s`, correlation matrix `R`, trend matrix `F`, at a point with correlations
`r` and trend `f`. -/
noncomputable def ukVariance (s : ℝ) (R : Matrix (Fin n) (Fin n) ℝ) (F : Matrix (Fin n) (Fin p) ℝ) (r : Fin n → ℝ) (f : Fin p → ℝ) : ℝ :=
  let v := Fᵀ *ᵥ (R⁻¹ *ᵥ r) - f
  s * (1 - r ⬝ᵥ (R⁻¹ *ᵥ r) + v ⬝ᵥ ((Fᵀ * R⁻¹ * F)⁻¹ *ᵥ v))

/-! ## The correlation matrix -/

theorem corrR_apply (kern : (Fin nx → ℝ) → ℝ) (heven : ∀ d, kern (fun q => -d q) = kern d) (nugget : ℝ) (noise : Fin n → ℝ)
    (Xn : Fin n → Fin nx → ℝ) (i j : Fin n) :
    corrR kern nugget noise Xn i j = if i = j then 1 + nugget + noise i else kern (fun q => Xn i q - Xn j q) := by
  obtain ⟨D, ij, h1, h2⟩ := C37_matrix n (fun k => if h : k < n then Xn ⟨k, h⟩ else 0) kern nugget
    (fun k => if h : k < n then noise ⟨k, h⟩ else 0)
  unfold corrR
  rw [h1]
  simp only [Matrix.of_apply]
  rw [h2 i j i.isLt j.isLt]
  by_cases h : i = j
  · subst h; simp
  · have h' : ¬ i.val = j.val := fun e => h (Fin.ext e)
    rw [if_neg h, if_neg h']
    simp only [i.isLt, j.isLt, dif_pos, Fin.eta]
    split_ifs
    · rfl
    · rw [← heven]; congr 1; funext q; ring

/-! ## Generalised least squares -/

section blup
variable {R C : Matrix (Fin n) (Fin n) ℝ} {F : Matrix (Fin n) (Fin p) ℝ} {y : Fin n → ℝ} {yStd dof : ℝ}
  {qr : Matrix (Fin n) (Fin p) ℝ → Matrix (Fin n) (Fin p) ℝ × Matrix (Fin p) (Fin p) ℝ}

theorem IsChol.diag (h : IsChol R C) : ∀ i, C i i ≠ 0 := fun i => (h.pos i).ne'

theorem IsChol.upperT (h : IsChol R C) : IsUpper Cᵀ := fun i j hij => h.lower j i hij

theorem IsChol.det (h : IsChol R C) : IsUnit C.det := det_ne_of_lower C h.lower h.diag

theorem IsChol.inv (h : IsChol R C) : R⁻¹ = Cᵀ⁻¹ * C⁻¹ := by rw [← h.mul, Matrix.mul_inv_rev]

theorem IsChol.detR (h : IsChol R C) : IsUnit R.det := by
  rw [← h.mul, Matrix.det_mul, Matrix.det_transpose]; exact h.det.mul h.det

theorem IsChol.symm (h : IsChol R C) : Rᵀ = R := by rw [← h.mul, Matrix.transpose_mul, Matrix.transpose_transpose]

theorem IsQR.detG {A Q : Matrix (Fin n) (Fin p) ℝ} {G} (h : IsQR A Q G) : IsUnit G.det := det_ne_of_upper G h.upper h.diag

theorem fullRank_fwdM (h : IsChol R C) (hF : FullRank F) : FullRank (fwdM C F) := by
  intro v hv
  rw [fwdM_eq C F h.lower h.diag, ← Matrix.mulVec_mulVec] at hv
  apply hF
  have := congrArg (C *ᵥ ·) hv
  simpa [Matrix.mulVec_mulVec, ← Matrix.mul_assoc, Matrix.mul_nonsing_inv _ h.det] using this

/-- Data of a solved model: what the code computes, in matrix notation. -/
theorem blup_eq (hC : IsChol R C) (hqr : IsQR (fwdM C F) (qr (fwdM C F)).1 (qr (fwdM C F)).2) :
    let P := blup C qr F y yStd dof
    P.Ft = C⁻¹ * F ∧ P.beta = P.G⁻¹ *ᵥ (P.Qᵀ *ᵥ (C⁻¹ *ᵥ y)) ∧ P.gamma = Cᵀ⁻¹ *ᵥ (C⁻¹ *ᵥ y - (C⁻¹ * F) *ᵥ P.beta) ∧
    P.Q * P.G = C⁻¹ * F ∧ P.Qᵀ * P.Q = 1 ∧ IsUpper P.G ∧ (∀ i, P.G i i ≠ 0) ∧ P.C = C ∧
    P.sigma2 = (∑ i, (C⁻¹ *ᵥ y - (C⁻¹ * F) *ᵥ P.beta) i ^ 2) / dof * yStd ^ 2 := by
  have e1 := fwdM_eq C F hC.lower hC.diag
  have e2 := fwd_eq_inv C y hC.lower hC.diag
  have e3 := fun b => bwd_eq_inv Cᵀ b hC.upperT hC.diag
  have e4 := fun b => bwd_eq_inv (qr (fwdM C F)).2 b hqr.upper hqr.diag
  refine ⟨e1, ?_, ?_, ?_, hqr.orth, hqr.upper, hqr.diag, rfl, ?_⟩ <;> simp only [blup]
  · rw [e4, e2]
  · rw [e3, e2, e1]
  · rw [hqr.mul, e1]
  · rw [e2, e1]

theorem mulVec_inv_cancel (C : Matrix (Fin n) (Fin n) ℝ) (h : IsUnit C.det) (v : Fin n → ℝ) : C *ᵥ (C⁻¹ *ᵥ v) = v := by
  rw [Matrix.mulVec_mulVec, Matrix.mul_nonsing_inv _ h, Matrix.one_mulVec]

/-- **C39** Generalised least squares: the trained coefficients satisfy `R γ = y - F β` and `Fᵀ γ = 0`, i.e. `β` solves the normal
equations `Fᵀ R⁻¹ F β = Fᵀ R⁻¹ y`. -/
theorem C39_blup (hC : IsChol R C) (hqr : IsQR (fwdM C F) (qr (fwdM C F)).1 (qr (fwdM C F)).2) :
    let P := blup C qr F y yStd dof
    R *ᵥ P.gamma = y - F *ᵥ P.beta ∧ Fᵀ *ᵥ P.gamma = 0 ∧ (Fᵀ * R⁻¹ * F) *ᵥ P.beta = Fᵀ *ᵥ (R⁻¹ *ᵥ y) := by
  obtain ⟨hFt, hβ, hγ, hQG, hQ, hU, hd, hCC, -⟩ := blup_eq (y := y) (yStd := yStd) (dof := dof) hC hqr
  intro P
  have hG : IsUnit P.G.det := det_ne_of_upper P.G hU hd
  have hCT : IsUnit Cᵀ.det := by rw [Matrix.det_transpose]; exact hC.det
  have h1 : R *ᵥ P.gamma = y - F *ᵥ P.beta := by
    rw [hγ, ← hC.mul, ← Matrix.mulVec_mulVec, mulVec_inv_cancel _ hCT, Matrix.mulVec_sub, mulVec_inv_cancel _ hC.det,
      Matrix.mulVec_mulVec, ← Matrix.mul_assoc, Matrix.mul_nonsing_inv _ hC.det, Matrix.one_mul]
  have h2 : Fᵀ *ᵥ P.gamma = 0 := by
    have e : Fᵀ * Cᵀ⁻¹ = (P.Q * P.G)ᵀ := by
      rw [hQG, Matrix.transpose_mul, Matrix.transpose_nonsing_inv]
    have e2 : (C⁻¹ * F) *ᵥ P.beta = P.Q *ᵥ (P.Qᵀ *ᵥ (C⁻¹ *ᵥ y)) := by
      rw [← hQG, ← Matrix.mulVec_mulVec]
      congr 1
      rw [hβ, mulVec_inv_cancel _ hG]
    rw [hγ, Matrix.mulVec_mulVec, e, Matrix.transpose_mul, ← Matrix.mulVec_mulVec, Matrix.mulVec_sub, e2,
      Matrix.mulVec_mulVec _ P.Qᵀ P.Q, hQ, Matrix.one_mulVec, sub_self, Matrix.mulVec_zero]
  refine ⟨h1, h2, ?_⟩
  have h3 : P.gamma = R⁻¹ *ᵥ (y - F *ᵥ P.beta) := by
    rw [← h1, Matrix.mulVec_mulVec, Matrix.nonsing_inv_mul _ hC.detR, Matrix.one_mulVec]
  rw [h3, Matrix.mulVec_sub, Matrix.mulVec_sub, sub_eq_zero] at h2
  rw [h2, Matrix.mulVec_mulVec, Matrix.mulVec_mulVec, Matrix.mul_assoc]

theorem gram_eq (hC : IsChol R C) (hqr : IsQR (fwdM C F) (qr (fwdM C F)).1 (qr (fwdM C F)).2) :
    let P := blup C qr F y yStd dof
    P.Gᵀ * P.G = Fᵀ * R⁻¹ * F := by
  obtain ⟨hFt, hβ, hγ, hQG, hQ, hU, hd, hCC, -⟩ := blup_eq (y := y) (yStd := yStd) (dof := dof) hC hqr
  intro P
  have e : (P.Q * P.G)ᵀ * (P.Q * P.G) = P.Gᵀ * P.G := by
    rw [Matrix.transpose_mul, Matrix.mul_assoc, ← Matrix.mul_assoc P.Qᵀ, hQ, Matrix.one_mul]
  rw [← e, hQG, hC.inv, Matrix.transpose_mul, Matrix.transpose_nonsing_inv]
  simp only [Matrix.mul_assoc]

end blup

/-! ## C39: interpolation -/

section trained
variable {chol : Matrix (Fin n) (Fin n) ℝ → Option (Matrix (Fin n) (Fin n) ℝ)}
  {qr : Matrix (Fin n) (Fin p) ℝ → Matrix (Fin n) (Fin p) ℝ × Matrix (Fin p) (Fin p) ℝ}
  {kern : (Fin nx → ℝ) → ℝ} {trend : (Fin nx → ℝ) → Fin p → ℝ} {nugget : ℝ} {noise : Fin n → ℝ}
  {X : Fin n → Fin nx → ℝ} {y : Fin n → ℝ} {M : Model n nx p}

/-- What `train` leaves in the model. -/
theorem train_eq (hM : train chol qr kern trend nugget noise X y = some M) :
    ∃ C, chol (corrR kern nugget noise M.Xn) = some C ∧ (∀ i, M.norm (X i) = M.Xn i) ∧ M.yOS = scaling y ∧ M.kern = kern ∧
      M.trend = trend ∧ M.F = Matrix.of (fun i => trend (M.Xn i)) ∧ (∀ j, M.xOS j = scaling fun i => X i j) ∧
      M.par = blup C qr M.F (fun i => normalise M.yOS (y i)) M.yOS.2 n := by
  unfold train at hM
  simp only [Option.map_eq_some_iff] at hM
  obtain ⟨C, hC, rfl⟩ := hM
  exact ⟨C, hC, fun i => rfl, rfl, rfl, rfl, rfl, fun j => rfl, rfl⟩

theorem corr_at_training (hM : train chol qr kern trend nugget noise X y = some M)
    (heven : ∀ d, kern (fun q => -d q) = kern d) (hone : kern (fun _ => 0) = 1) (i : Fin n) :
    M.corr (M.norm (X i)) = fun j => corrR kern nugget noise M.Xn i j - if i = j then nugget + noise i else 0 := by
  obtain ⟨C, hC, hX, hy, hk, ht, hFF, hOS, hP⟩ := train_eq hM
  funext j
  rw [corrR_apply kern heven]
  unfold Model.corr
  rw [hX i, hk]
  by_cases h : i = j
  · subst h; simp [hone]
  · simp [h]

/-- **C39** Prediction at a training input: for every kernel that is even and 1 at 0, every trend, nugget and noise, the
prediction differs from the training output by exactly `-y_std (nugget + noise_i) γ_i`. -/
theorem C39_training_prediction (hM : train chol qr kern trend nugget noise X y = some M)
    (hchol : CholOk chol) (hqr : QROk qr) (hF : FullRank M.F)
    (heven : ∀ d, kern (fun q => -d q) = kern d) (hone : kern (fun _ => 0) = 1) (i : Fin n) :
    M.predict (X i) = y i - (scaling y).2 * ((nugget + noise i) * M.par.gamma i) := by
  obtain ⟨C, hC, hX, hy, hk, ht, hFF, hOS, hP⟩ := train_eq hM
  have hb := C39_blup (F := M.F) (y := fun i => normalise M.yOS (y i)) (yStd := M.yOS.2) (dof := n) (hchol _ _ hC) (hqr _ (fullRank_fwdM (hchol _ _ hC) hF))
  rw [← hP] at hb
  have h1 := congrFun hb.1 i
  unfold Model.predict
  simp only []
  have hc : M.corr (M.norm (X i)) ⬝ᵥ M.par.gamma = (corrR kern nugget noise M.Xn *ᵥ M.par.gamma) i - (nugget + noise i) * M.par.gamma i := by
    rw [corr_at_training hM heven hone i]
    simp only [dotProduct, Matrix.mulVec, sub_mul, Finset.sum_sub_distrib, ite_mul, zero_mul, Finset.sum_ite_eq,
      Finset.mem_univ, if_true]
  have hf : M.trend (M.norm (X i)) ⬝ᵥ M.par.beta = (M.F *ᵥ M.par.beta) i := by
    rw [hX i, ht, hFF]; rfl
  rw [hc, hf, h1, hy]
  simp only [Pi.sub_apply]
  have := (C38_roundtrip y (y i)).1
  unfold denormalise at *
  linear_combination this

/-- **C39** Interpolation: without nugget and noise the prediction at every training input is the training output. -/
theorem C39_interpolates (hM : train chol qr kern trend 0 (fun _ => 0) X y = some M)
    (hchol : CholOk chol) (hqr : QROk qr) (hF : FullRank M.F)
    (heven : ∀ d, kern (fun q => -d q) = kern d) (hone : kern (fun _ => 0) = 1) (i : Fin n) : M.predict (X i) = y i := by
  rw [C39_training_prediction hM hchol hqr hF heven hone i]; ring

/-- **C39** All four kernels of the code satisfy the kernel hypotheses, for every `theta`. -/
theorem C39_kernels (lim : ℕ) (hl : 0 < lim) (c : Corr) (hc : c ≠ .actExp) (θ : Fin nx → ℝ) :
    (∀ d, kernOf lim hl c θ (fun q => -d q) = kernOf lim hl c θ d) ∧ kernOf lim hl c θ (fun _ => 0) = 1 := by
  have h := fun dx => kernOf_eq lim hl θ dx
  cases c with
  | actExp => exact absurd rfl hc
  | absExp => refine ⟨fun d => ?_, ?_⟩ <;> simp only [fun dx => (h dx).1] <;> simp [expRow]
  | squarExp => refine ⟨fun d => ?_, ?_⟩ <;> simp only [fun dx => (h dx).2.1] <;> simp [expRow]
  | matern52 => refine ⟨fun d => ?_, ?_⟩ <;> simp only [fun dx => (h dx).2.2.1] <;> simp [m52val]
  | matern32 => refine ⟨fun d => ?_, ?_⟩ <;> simp only [fun dx => (h dx).2.2.2] <;> simp [m32val]

/-! ## C40, C41: variance -/

/-- **C40** Reported variances are never negative. -/
theorem C40_nonneg (M : Model n nx p) (x : Fin nx → ℝ) : 0 ≤ M.variance x := by
  unfold Model.variance
  simp only []
  split_ifs with h
  · exact le_rfl
  · exact not_lt.1 h

/-- **C40** Without nugget and noise the variance is 0 at every training input, for every trend. -/
theorem C40_zero_at_training (hM : train chol qr kern trend 0 (fun _ => 0) X y = some M)
    (hchol : CholOk chol) (hqr : QROk qr) (hF : FullRank M.F)
    (heven : ∀ d, kern (fun q => -d q) = kern d) (hone : kern (fun _ => 0) = 1) (i : Fin n) : M.variance (X i) = 0 := by
  obtain ⟨C, hC, hX, hy, hk, ht, hFF, hOS, hP⟩ := train_eq hM
  have hCh := hchol _ _ hC
  obtain ⟨hFt, -, -, -, -, -, -, hCC, -⟩ := blup_eq (F := M.F) (y := fun i => normalise M.yOS (y i)) (yStd := M.yOS.2) (dof := n) hCh (hqr _ (fullRank_fwdM (hchol _ _ hC) hF))
  rw [← hP] at hFt hCC
  have hr : M.corr (M.norm (X i)) = fun j => (C * Cᵀ) i j := by
    rw [corr_at_training hM heven hone i]
    funext j
    rw [hCh.mul]; simp
  have hrt : fwd C (M.corr (M.norm (X i))) = fun j => C i j := by
    rw [fwd_eq_inv C _ hCh.lower hCh.diag, hr]
    have e : (fun j => (C * Cᵀ) i j) = C *ᵥ (fun j => C i j) := by
      funext j
      rw [hCh.mul, ← hCh.symm, ← hCh.mul]
      simp only [Matrix.transpose_apply, Matrix.mul_apply, Matrix.mulVec, dotProduct]
    rw [e, Matrix.mulVec_mulVec, Matrix.nonsing_inv_mul _ hCh.det, Matrix.one_mulVec]
  have hone' : ∑ j, C i j ^ 2 = 1 := by
    have h1 : (C * Cᵀ) i i = 1 := by rw [hCh.mul, corrR_apply kern heven]; simp
    rw [← h1, Matrix.mul_apply]
    exact Finset.sum_congr rfl fun j _ => by rw [Matrix.transpose_apply, sq]
  have hv : M.par.Ftᵀ *ᵥ (fun j => C i j) - M.trend (M.norm (X i)) = 0 := by
    rw [hFt, hX i, ht]
    have e : (C⁻¹ * M.F)ᵀ *ᵥ (fun j => C i j) = fun q => (C * (C⁻¹ * M.F)) i q := by
      funext q
      simp only [Matrix.mulVec, dotProduct, Matrix.transpose_apply, Matrix.mul_apply (M := C)]
      exact Finset.sum_congr rfl fun j _ => mul_comm _ _
    rw [e, ← Matrix.mul_assoc, Matrix.mul_nonsing_inv _ hCh.det, Matrix.one_mul, hFF]
    funext q; simp
  have hb0 : ∀ (U : Matrix (Fin p) (Fin p) ℝ), bwd U 0 = 0 := by
    intro U
    have hf : ∀ (A : Matrix (Fin p) (Fin p) ℝ) (k : ℕ) (a : Fin p), a.val = k → fwd A (fun _ => 0) a = 0 := by
      intro A k
      induction k using Nat.strong_induction_on with
      | _ k ih =>
        intro a ha
        rw [fwd_eq, Finset.sum_eq_zero]
        · simp
        · intro j _
          split_ifs with h
          · rw [ih j.val (by rw [← ha]; exact h) j rfl, mul_zero]
          · rfl
    funext a
    exact hf _ _ _ rfl
  unfold Model.variance
  simp only []
  rw [hCC, hrt, hv, hb0, hone']
  simp

/-- **C41** What the code computes: with `v = FᵀR⁻¹r - f`, the reported variance is
`σ²(1 - rᵀR⁻¹r + ∑_q (v_q / G_qq)²)` clipped at 0: only the diagonal of the QR factor is used. -/
theorem C41_reported (hM : train chol qr kern trend nugget noise X y = some M)
    (hchol : CholOk chol) (hqr : QROk qr) (hF : FullRank M.F) (x : Fin nx → ℝ) :
    let R := corrR kern nugget noise M.Xn
    let r := M.corr (M.norm x)
    let v := M.Fᵀ *ᵥ (R⁻¹ *ᵥ r) - M.trend (M.norm x)
    M.variance x = max 0 (M.par.sigma2 * (1 - r ⬝ᵥ (R⁻¹ *ᵥ r) + ∑ q, (v q / M.par.G q q) ^ 2)) := by
  obtain ⟨C, hC, hX, hy, hk, ht, hFF, hOS, hP⟩ := train_eq hM
  have hCh := hchol _ _ hC
  obtain ⟨hFt, -, -, -, -, hU, -, hCC, -⟩ := blup_eq (F := M.F) (y := fun i => normalise M.yOS (y i)) (yStd := M.yOS.2) (dof := n) hCh (hqr _ (fullRank_fwdM (hchol _ _ hC) hF))
  rw [← hP] at hFt hCC hU
  intro R r v
  unfold Model.variance
  simp only []
  have h1 : ∑ i, fwd M.par.C r i ^ 2 = r ⬝ᵥ (R⁻¹ *ᵥ r) := by
    rw [hCC, fwd_eq_inv C _ hCh.lower hCh.diag, hCh.inv, ← Matrix.mulVec_mulVec, Matrix.dotProduct_mulVec, ← Matrix.transpose_nonsing_inv,
      Matrix.vecMul_transpose]
    simp only [dotProduct, sq]
  have h2 : M.par.Ftᵀ *ᵥ fwd M.par.C r - M.trend (M.norm x) = v := by
    rw [hCC, hFt, fwd_eq_inv C _ hCh.lower hCh.diag, Matrix.transpose_mul, Matrix.mulVec_mulVec, Matrix.mul_assoc, Matrix.transpose_nonsing_inv,
      ← hCh.inv, ← Matrix.mulVec_mulVec]
  have h3 : ∀ q, bwd M.par.Gᵀ v q = v q / M.par.G q q := fun q => by
    rw [bwd_of_lower M.par.Gᵀ v (fun i j h => hU j i h) q]; rfl
  show (if M.par.sigma2 * (1 - ∑ i, fwd M.par.C r i ^ 2 + ∑ q, bwd M.par.Gᵀ (M.par.Ftᵀ *ᵥ fwd M.par.C r - M.trend (M.norm x)) q ^ 2) < 0
    then 0 else _) = _
  rw [h1, h2]
  simp only [h3]
  split_ifs with h
  · rw [max_eq_left h.le]
  · rw [max_eq_right (not_lt.1 h)]

end trained

/-- **C41** Constant trend (or any one-column trend): the reported variance is the universal-Kriging variance, clipped at 0. -/
theorem C41_one_column {chol : Matrix (Fin n) (Fin n) ℝ → Option (Matrix (Fin n) (Fin n) ℝ)}
    {qr : Matrix (Fin n) (Fin 1) ℝ → Matrix (Fin n) (Fin 1) ℝ × Matrix (Fin 1) (Fin 1) ℝ}
    {kern : (Fin nx → ℝ) → ℝ} {trend : (Fin nx → ℝ) → Fin 1 → ℝ} {nugget : ℝ} {noise : Fin n → ℝ}
    {X : Fin n → Fin nx → ℝ} {y : Fin n → ℝ} {M : Model n nx 1} (hM : train chol qr kern trend nugget noise X y = some M)
    (hchol : CholOk chol) (hqr : QROk qr) (hF : FullRank M.F) (x : Fin nx → ℝ) :
    M.variance x = max 0 (ukVariance M.par.sigma2 (corrR kern nugget noise M.Xn) M.F (M.corr (M.norm x)) (M.trend (M.norm x))) := by
  have h := C41_reported hM hchol hqr hF x
  simp only [] at h
  rw [h]
  obtain ⟨C, hC, hX, hy, hk, ht, hFF, hOS, hP⟩ := train_eq hM
  have hg := gram_eq (F := M.F) (y := fun i => normalise M.yOS (y i)) (yStd := M.yOS.2) (dof := n) (hchol _ _ hC) (hqr _ (fullRank_fwdM (hchol _ _ hC) hF))
  obtain ⟨-, -, -, -, -, hU, hd, hCC, -⟩ := blup_eq (F := M.F) (y := fun i => normalise M.yOS (y i)) (yStd := M.yOS.2) (dof := n) (hchol _ _ hC) (hqr _ (fullRank_fwdM (hchol _ _ hC) hF))
  rw [← hP] at hg hd
  unfold ukVariance
  simp only []
  congr 3
  rw [← hg]
  generalize M.Fᵀ *ᵥ ((corrR kern nugget noise M.Xn)⁻¹ *ᵥ M.corr (M.norm x)) - M.trend (M.norm x) = v
  have hd0 := hd 0
  generalize M.par.G = G at *
  have hinv : (Gᵀ * G)⁻¹ = Matrix.of fun _ _ => (G 0 0 * G 0 0)⁻¹ := by
    apply Matrix.inv_eq_right_inv
    ext a b
    fin_cases a; fin_cases b
    simp [Matrix.mul_apply, Fin.sum_univ_one]
    field_simp
  rw [hinv]
  simp [Fin.sum_univ_one, Matrix.mulVec, dotProduct]
  field_simp

/-- **C41** For two-column trends (linear, one input) the diagonal is not enough: whenever the off-diagonal entry of the QR factor is
non-zero there are trend residuals `v` for which the reported correction `∑ (v_q/G_qq)²` is not `vᵀ(GᵀG)⁻¹v`; it is too large or
too small by an unbounded amount. -/
theorem C41_two_columns_wrong (G : Matrix (Fin 2) (Fin 2) ℝ) (hU : IsUpper G) (hd : ∀ i, G i i ≠ 0) (h01 : G 0 1 ≠ 0) (c : ℝ) :
    ∃ v : Fin 2 → ℝ, c < ∑ q, (v q / G q q) ^ 2 - v ⬝ᵥ ((Gᵀ * G)⁻¹ *ᵥ v) := by
  have h0 := hd 0
  have h1 := hd 1
  have h10 : G 1 0 = 0 := hU 1 0 (by decide)
  have hinv : (Gᵀ * G)⁻¹ = G⁻¹ * (G⁻¹)ᵀ := by rw [Matrix.mul_inv_rev, Matrix.transpose_nonsing_inv]
  have hGi : G⁻¹ = !![1 / G 0 0, -G 0 1 / (G 0 0 * G 1 1); 0, 1 / G 1 1] := by
    apply Matrix.inv_eq_right_inv
    ext a b
    fin_cases a <;> fin_cases b <;> simp [Matrix.mul_apply, Fin.sum_univ_two, h10] <;> field_simp
    ring
  -- v = t (G00, G01): then GᵀG-norm is t², the code's is t² + (t G01/G11)²
  obtain ⟨t, ht⟩ : ∃ t : ℝ, c < t ^ 2 * (G 0 1 / G 1 1) ^ 2 := by
    have hk : 0 < (G 0 1 / G 1 1) ^ 2 := by positivity
    refine ⟨(|c| + 1) / (G 0 1 / G 1 1) ^ 2 + 1, ?_⟩
    set k := (G 0 1 / G 1 1) ^ 2 with hkd
    have hc : c ≤ |c| := le_abs_self c
    have hs : 0 ≤ (|c| + 1) / k := by positivity
    have e : ((|c| + 1) / k) * k = |c| + 1 := div_mul_cancel₀ _ hk.ne'
    nlinarith [mul_nonneg (mul_nonneg hs hs) hk.le]
  refine ⟨fun q => t * G 0 q, ?_⟩
  rw [hinv, hGi]
  simp only [Fin.sum_univ_two, dotProduct, Matrix.mulVec, Matrix.mul_apply, Matrix.transpose_apply, Matrix.of_apply, Matrix.cons_val',
    Matrix.cons_val_zero, Matrix.cons_val_one, Matrix.cons_val_fin_one]
  have e : (t * G 0 0 / G 0 0) ^ 2 + (t * G 0 1 / G 1 1) ^ 2 -
      (t * G 0 0 * ((1 / G 0 0 * (1 / G 0 0) + -G 0 1 / (G 0 0 * G 1 1) * (-G 0 1 / (G 0 0 * G 1 1))) * (t * G 0 0) +
          (1 / G 0 0 * 0 + -G 0 1 / (G 0 0 * G 1 1) * (1 / G 1 1)) * (t * G 0 1)) +
        t * G 0 1 * ((0 * (1 / G 0 0) + 1 / G 1 1 * (-G 0 1 / (G 0 0 * G 1 1))) * (t * G 0 0) +
          (0 * 0 + 1 / G 1 1 * (1 / G 1 1)) * (t * G 0 1))) = t ^ 2 * (G 0 1 / G 1 1) ^ 2 := by
    field_simp
    ring
  rw [e]
  exact ht

end SMT.Krg
