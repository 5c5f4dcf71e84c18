import Verif.Kriging.LikelihoodProps
import Mathlib.Analysis.Matrix.LDL

/-!
# The contracts assumed of `linalg.cholesky` and `linalg.qr` are satisfiable

For every size there are functions that meet `CholOk`, `CholComplete` and `QROk`: the assumptions made in the Kriging theorems are those of exact linear algebra.
-/
namespace SMT.Krg
open Matrix SMT.Common
set_option linter.unusedSectionVars false
set_option linter.unusedSimpArgs false
set_option linter.unusedVariables false

variable {n p : ℕ}

/-- A lower triangular root with non-zero diagonal can be given a positive diagonal. -/
theorem chol_of_lower (R B : Matrix (Fin n) (Fin n) ℝ) (hB : B * Bᵀ = R) (hl : IsLower B) (hd : ∀ i, B i i ≠ 0) : ∃ C, IsChol R C := by
  let s : Fin n → ℝ := fun i => SignType.sign (B i i)
  have hs : ∀ i, s i * s i = 1 := fun i => by
    rcases lt_or_gt_of_ne (hd i) with h | h
    · simp [s, sign_neg h]
    · simp [s, sign_pos h]
  refine ⟨B * Matrix.diagonal s, ?_, fun i j hij => ?_, fun i => ?_⟩
  · rw [Matrix.transpose_mul, Matrix.diagonal_transpose, Matrix.mul_assoc, ← Matrix.mul_assoc (Matrix.diagonal s), Matrix.diagonal_mul_diagonal]
    simp only [hs]
    rw [Matrix.diagonal_one, Matrix.one_mul, hB]
  · rw [Matrix.mul_diagonal, hl i j hij, zero_mul]
  · rw [Matrix.mul_diagonal]
    rcases lt_or_gt_of_ne (hd i) with h | h
    · simp [s, sign_neg h, h]
    · simp [s, sign_pos h, h]

/-- Every symmetric positive definite matrix has a Cholesky factor. -/
theorem chol_exists (R : Matrix (Fin n) (Fin n) ℝ) (hs : Rᵀ = R) (hpd : ∀ v, v ≠ 0 → 0 < v ⬝ᵥ (R *ᵥ v)) : ∃ C, IsChol R C := by
  have hP : R.PosDef := Matrix.PosDef.of_dotProduct_mulVec_pos (by rw [Matrix.IsHermitian, Matrix.conjTranspose_eq_transpose_of_trivial, hs]) (fun x hx => by simpa using hpd x hx)
  have h1 := LDL.lower_conj_diag hP
  rw [Matrix.conjTranspose_eq_transpose_of_trivial] at h1
  have hlowi : (LDL.lowerInv hP).BlockTriangular OrderDual.toDual := fun i j hij => LDL.lowerInv_triangular hP (by simpa using hij)
  have hlow : IsLower (LDL.lower hP) := fun i j hij => (Matrix.blockTriangular_inv_of_blockTriangular hlowi) (by simpa using hij)
  have hdet : IsUnit (LDL.lower hP).det := by
    unfold LDL.lower
    rw [Matrix.det_nonsing_inv]
    exact (Matrix.isUnit_det_of_invertible (LDL.lowerInv hP)).ringInverse
  have hdd : ∀ i, 0 < LDL.diagEntries hP i := by
    have h2 := LDL.diag_eq_lowerInv_conj hP
    have h3 : (LDL.diag hP).PosDef := by
      rw [h2]
      refine hP.mul_mul_conjTranspose_same fun a b hab => ?_
      have := congrArg (fun z => z ᵥ* (LDL.lowerInv hP)⁻¹) hab
      simpa [Matrix.vecMul_vecMul] using this
    intro i
    have := h3.diag_pos (i := i)
    simpa [LDL.diag] using this
  have hdiag : ∀ i, LDL.lower hP i i ≠ 0 := by
    intro i h0
    have : (LDL.lower hP).det = 0 := by
      rw [Matrix.det_of_lowerTriangular _ (fun a b hab => hlow a b (by simpa using hab))]
      exact Finset.prod_eq_zero (Finset.mem_univ i) h0
    rw [this] at hdet
    exact not_isUnit_zero hdet
  refine chol_of_lower R (LDL.lower hP * Matrix.diagonal fun i => √(LDL.diagEntries hP i)) ?_ (fun i j hij => ?_) (fun i => ?_)
  · rw [Matrix.transpose_mul, Matrix.diagonal_transpose, Matrix.mul_assoc, ← Matrix.mul_assoc (Matrix.diagonal _), Matrix.diagonal_mul_diagonal]
    have e : (Matrix.diagonal fun i => √(LDL.diagEntries hP i) * √(LDL.diagEntries hP i)) = LDL.diag hP := by
      unfold LDL.diag
      congr 1
      funext i
      exact Real.mul_self_sqrt (hdd i).le
    rw [e, ← Matrix.mul_assoc, h1]
  · rw [Matrix.mul_diagonal, hlow i j hij, zero_mul]
  · rw [Matrix.mul_diagonal]
    exact mul_ne_zero (hdiag i) (Real.sqrt_pos.2 (hdd i)).ne'

open Classical in
/-- An exact Cholesky routine. -/
noncomputable def cholStd (R : Matrix (Fin n) (Fin n) ℝ) : Option (Matrix (Fin n) (Fin n) ℝ) := if h : ∃ C, IsChol R C then some h.choose else none

theorem cholStd_ok : CholOk (cholStd (n := n)) := by
  intro R C h
  unfold cholStd at h
  split_ifs at h with hh
  · rw [Option.some.injEq] at h
    rw [← h]; exact hh.choose_spec

theorem cholStd_complete : CholComplete (cholStd (n := n)) := by
  intro R hs hpd
  unfold cholStd
  rw [dif_pos (chol_exists R hs hpd)]
  rfl

/-- Every full-rank matrix has an economic QR factorisation. -/
theorem qr_exists (A : Matrix (Fin n) (Fin p) ℝ) (hA : FullRank A) : ∃ QG : Matrix (Fin n) (Fin p) ℝ × Matrix (Fin p) (Fin p) ℝ, IsQR A QG.1 QG.2 := by
  obtain ⟨C, hC⟩ := chol_exists (Aᵀ * A) (by rw [Matrix.transpose_mul, Matrix.transpose_transpose]) (fun v hv => by
    have e : v ⬝ᵥ ((Aᵀ * A) *ᵥ v) = (A *ᵥ v) ⬝ᵥ (A *ᵥ v) := by
      rw [← Matrix.mulVec_mulVec, Matrix.dotProduct_mulVec, Matrix.vecMul_transpose]
    rw [e]
    have hne : A *ᵥ v ≠ 0 := fun h => hv (hA v h)
    have h0 : 0 ≤ (A *ᵥ v) ⬝ᵥ (A *ᵥ v) := Finset.sum_nonneg fun i _ => mul_self_nonneg _
    exact lt_of_le_of_ne h0 fun h => hne (dotProduct_self_eq_zero.1 h.symm))
  have hCT : IsUnit Cᵀ.det := by rw [Matrix.det_transpose]; exact hC.det
  refine ⟨(A * Cᵀ⁻¹, Cᵀ), ?_, ?_, hC.upperT, hC.diag⟩
  · show A * Cᵀ⁻¹ * Cᵀ = A
    rw [Matrix.mul_assoc, Matrix.nonsing_inv_mul _ hCT, Matrix.mul_one]
  · show (A * Cᵀ⁻¹)ᵀ * (A * Cᵀ⁻¹) = 1
    rw [Matrix.transpose_mul, Matrix.transpose_nonsing_inv, Matrix.transpose_transpose, Matrix.mul_assoc, ← Matrix.mul_assoc Aᵀ, ← hC.mul, ← Matrix.mul_assoc, ← Matrix.mul_assoc,
      Matrix.nonsing_inv_mul _ hC.det, Matrix.one_mul, Matrix.mul_nonsing_inv _ hCT]

open Classical in
/-- An exact QR routine. -/
noncomputable def qrStd (A : Matrix (Fin n) (Fin p) ℝ) : Matrix (Fin n) (Fin p) ℝ × Matrix (Fin p) (Fin p) ℝ :=
  if h : ∃ QG : Matrix (Fin n) (Fin p) ℝ × Matrix (Fin p) (Fin p) ℝ, IsQR A QG.1 QG.2 then h.choose else (0, 0)

theorem qrStd_ok : QROk (qrStd (n := n) (p := p)) := by
  intro A hA
  unfold qrStd
  rw [dif_pos (qr_exists A hA)]
  exact (qr_exists A hA).choose_spec

end SMT.Krg
