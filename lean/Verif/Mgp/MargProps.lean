import Verif.Mgp.VarProps

/-!
# C76 (continued): the marginalised variance
-/
namespace SMT.Mgp
open Matrix SMT.Common SMT.Krg
set_option linter.unusedSectionVars false
set_option linter.unusedSimpArgs false
set_option linter.unusedVariables false

variable {n nx m p q : ℕ}
variable {chol : Matrix (Fin n) (Fin n) ℝ → Option (Matrix (Fin n) (Fin n) ℝ)}
  {qr : Matrix (Fin n) (Fin p) ℝ → Matrix (Fin n) (Fin p) ℝ × Matrix (Fin p) (Fin p) ℝ}
  {qrC : Matrix (Fin nx) (Fin m) ℝ → Matrix (Fin nx) (Fin m) ℝ × Matrix (Fin m) (Fin m) ℝ}
  {trend : (Fin nx → ℝ) → Fin p → ℝ} {P : Prior} {nugget : ℝ} {noise : Fin n → ℝ} {θ : Fin (m * nx) → ℝ} {X : Fin n → Fin nx → ℝ} {y : Fin n → ℝ} {M : MGP n nx m p}

/-! ## Specification -/

/-- Positive definite. -/
def PosDef {N : ℕ} (S : Matrix (Fin N) (Fin N) ℝ) : Prop := ∀ v, v ≠ 0 → 0 < v ⬝ᵥ (S *ᵥ v)

/-- The marginalised variance formula for the Kriging variance `mse`, covariance `Σ` of the hyper-parameters and sensitivities `dy`, `dmse`:
`4/3 mse + dyᵀ Σ dy + dmseᵀ Σ dmse / (3 mse)`. -/
noncomputable def marginal {N : ℕ} (Sig : Matrix (Fin N) (Fin N) ℝ) (mse : ℝ) (dy dmse : Fin N → ℝ) : ℝ := 4 / 3 * mse + dy ⬝ᵥ (Sig *ᵥ dy) + dmse ⬝ᵥ (Sig *ᵥ dmse) / (3 * mse)

lemma posDef_det {N : ℕ} {S : Matrix (Fin N) (Fin N) ℝ} (hS : PosDef S) : S.det ≠ 0 := by
  intro h
  obtain ⟨v, hv, h0⟩ := Matrix.exists_mulVec_eq_zero_iff.2 h
  have := hS v hv
  rw [h0, dotProduct_zero] at this
  exact lt_irrefl _ this

lemma posDef_inv {N : ℕ} {S : Matrix (Fin N) (Fin N) ℝ} (hS : PosDef S) (d : Fin N → ℝ) : 0 ≤ d ⬝ᵥ (S⁻¹ *ᵥ d) ∧ (d ≠ 0 → 0 < d ⬝ᵥ (S⁻¹ *ᵥ d)) := by
  have hd := posDef_det hS
  have hu : IsUnit S.det := isUnit_iff_ne_zero.2 hd
  set w := S⁻¹ *ᵥ d with hw
  have e : d = S *ᵥ w := by rw [hw, Matrix.mulVec_mulVec, Matrix.mul_nonsing_inv _ hu, Matrix.one_mulVec]
  have h2 : d ≠ 0 → 0 < d ⬝ᵥ w := fun h => by
    have hw0 : w ≠ 0 := by
      intro h0; rw [h0, Matrix.mulVec_zero] at e; exact h e
    have := hS w hw0
    rwa [← e, dotProduct_comm] at this
  refine ⟨?_, h2⟩
  by_cases h : d = 0
  · rw [h, zero_dotProduct]
  · exact (h2 h).le

lemma varOf_eq (M : MGP n nx m p) (w : Rows n nx (m * nx)) : M.varOf w = if M.invSigma.det = 0 then none else
    some (if M.mseOf w = 0 then 0 else max 0 (marginal M.invSigma⁻¹ (M.mseOf w) (M.dyOf w) (M.dmseOf w)), M.mseOf w) := by
  unfold MGP.varOf solve marginal
  by_cases h : M.invSigma.det = 0
  · simp [h]
  · simp only [h, if_false, Option.bind_some, Option.map_some]
    congr 1
    by_cases h0 : M.mseOf w = 0
    · simp [h0]
    · simp only [h0, ne_eq, not_false_eq_true, if_true, if_false]
      have e : 1 / (3 * M.mseOf w) * (M.dmseOf w ⬝ᵥ M.invSigma⁻¹ *ᵥ M.dmseOf w) = (M.dmseOf w ⬝ᵥ M.invSigma⁻¹ *ᵥ M.dmseOf w) / (3 * M.mseOf w) := by ring
      rw [e]
      congr 1
      split_ifs with hc
      · exact (max_eq_left hc.le).symm
      · exact (max_eq_right (not_lt.1 hc)).symm

lemma predictVariances_eq (M : MGP n nx m p) (x : Fin nx → ℝ) : M.predictVariances x = if M.invSigma.det = 0 then .error "LinAlgError: Matrix is singular" else
    .ok (if M.mseOf (M.rowsX x) = 0 then 0 else max 0 (marginal M.invSigma⁻¹ (M.mseOf (M.rowsX x)) (M.dyOf (M.rowsX x)) (M.dmseOf (M.rowsX x))), M.mseOf (M.rowsX x)) := by
  unfold MGP.predictVariances
  rw [rows_self]
  simp only [Except.bind, varOf_eq]
  by_cases h : M.invSigma.det = 0 <;> simp [h]

/-- **C76** A variance is returned at an input point exactly when minus the Hessian of the objective is invertible; otherwise `linalg.solve` raises. -/
theorem C76_raises_iff (M : MGP n nx m p) (x : Fin nx → ℝ) : (∃ v, M.predictVariances x = .ok v) ↔ M.invSigma.det ≠ 0 := by
  rw [predictVariances_eq]
  by_cases h : M.invSigma.det = 0 <;> simp [h]

lemma mse_nonneg (M : MGP n nx m p) (w : Rows n nx (m * nx)) : 0 ≤ M.mseOf w := by
  unfold MGP.mseOf
  simp only []
  split_ifs with h
  · exact le_refl _
  · exact not_lt.1 h

/-- **C76** What is returned: both variances are not negative; where the Kriging variance is zero the MGP variance is zero; elsewhere it is the marginalised formula, clipped at 0. -/
theorem C76_reported (M : MGP n nx m p) (x : Fin nx → ℝ) {v : ℝ × ℝ} (hv : M.predictVariances x = .ok v) :
    0 ≤ v.1 ∧ 0 ≤ v.2 ∧ v.2 = M.mseOf (M.rowsX x) ∧ (v.2 = 0 → v.1 = 0) ∧
    (v.2 ≠ 0 → v.1 = max 0 (marginal M.invSigma⁻¹ v.2 (M.dyOf (M.rowsX x)) (M.dmseOf (M.rowsX x)))) := by
  rw [predictVariances_eq] at hv
  by_cases h : M.invSigma.det = 0
  · simp [h] at hv
  · rw [if_neg h] at hv
    obtain rfl := Except.ok.inj hv
    refine ⟨?_, mse_nonneg _ _, rfl, fun h0 => ?_, fun h0 => ?_⟩
    · dsimp only
      split_ifs
      · exact le_refl _
      · exact le_max_left _ _
    · exact if_pos h0
    · exact if_neg h0

/-- **C76** At a strict maximum in the sense of the second-order test (minus the Hessian positive definite) nothing raises, the clip is inactive, and the MGP variance is at least 4/3 of the
Kriging variance, with equality only where the predictions do not react to the hyper-parameters. -/
theorem C76_at_least (M : MGP n nx m p) (hS : PosDef M.invSigma) (x : Fin nx → ℝ) : ∃ v, M.predictVariances x = .ok v ∧ 4 / 3 * v.2 ≤ v.1 ∧
    (v.2 ≠ 0 → v.1 = marginal M.invSigma⁻¹ v.2 (M.dyOf (M.rowsX x)) (M.dmseOf (M.rowsX x)) ∧ (v.1 = 4 / 3 * v.2 ↔ M.dyOf (M.rowsX x) = 0 ∧ M.dmseOf (M.rowsX x) = 0)) := by
  obtain ⟨v, hv⟩ := (C76_raises_iff M x).2 (posDef_det hS)
  obtain ⟨h1, h2, h3, h4, h5⟩ := C76_reported M x hv
  refine ⟨v, hv, ?_⟩
  obtain ⟨a1, a2⟩ := posDef_inv hS (M.dyOf (M.rowsX x))
  obtain ⟨b1, b2⟩ := posDef_inv hS (M.dmseOf (M.rowsX x))
  by_cases h0 : v.2 = 0
  · rw [h4 h0, h0]
    exact ⟨by norm_num, fun h => absurd rfl h⟩
  have hpos : 0 < v.2 := lt_of_le_of_ne h2 (Ne.symm h0)
  have hb : 0 ≤ M.dmseOf (M.rowsX x) ⬝ᵥ (M.invSigma⁻¹ *ᵥ M.dmseOf (M.rowsX x)) / (3 * v.2) := by positivity
  have hm : marginal M.invSigma⁻¹ v.2 (M.dyOf (M.rowsX x)) (M.dmseOf (M.rowsX x)) = 4 / 3 * v.2 + M.dyOf (M.rowsX x) ⬝ᵥ (M.invSigma⁻¹ *ᵥ M.dyOf (M.rowsX x)) +
      M.dmseOf (M.rowsX x) ⬝ᵥ (M.invSigma⁻¹ *ᵥ M.dmseOf (M.rowsX x)) / (3 * v.2) := rfl
  have e := h5 h0
  rw [max_eq_right (by rw [hm]; positivity)] at e
  refine ⟨by rw [e, hm]; linarith, fun _ => ⟨e, ?_⟩⟩
  rw [e, hm]
  constructor
  · intro h
    have ha0 : M.dyOf (M.rowsX x) ⬝ᵥ (M.invSigma⁻¹ *ᵥ M.dyOf (M.rowsX x)) = 0 := by linarith
    have hb0 : M.dmseOf (M.rowsX x) ⬝ᵥ (M.invSigma⁻¹ *ᵥ M.dmseOf (M.rowsX x)) / (3 * v.2) = 0 := by linarith
    rw [div_eq_zero_iff] at hb0
    refine ⟨?_, ?_⟩
    · by_contra hc; exact (a2 hc).ne' ha0
    · by_contra hc; exact (b2 hc).ne' (hb0.resolve_right (by positivity))
  · rintro ⟨ha0, hb0⟩
    rw [ha0, hb0]; simp

/-- **C76** Without nugget and noise both variances vanish at the training inputs. -/
theorem C76_zero_at_training (hM : mgpTrain chol qr qrC trend P 0 (fun _ => 0) θ X y = some M) (hchol : CholOk chol) (hqr : QROk qr) (hF : FullRank M.base.F) (i : Fin n) {v : ℝ × ℝ}
    (hv : M.predictVariances (X i) = .ok v) : v = (0, 0) := by
  obtain ⟨-, -, h3, h4, -⟩ := C76_reported M (X i) hv
  have h0 : v.2 = 0 := by rw [h3, C76_mse hM hchol hqr hF, C40_zero_at_training (mgp_eq hM).1 hchol hqr hF (kern_even θ) (kern_zero θ)]
  exact Prod.ext (h4 h0) h0

/-! ## Units -/

lemma scaling_smul {n : ℕ} (y : Fin n → ℝ) {c : ℝ} (hc : 0 < c) (hy : std1 y ≠ 0) : scaling (fun i => c * y i) = (c * (scaling y).1, c * (scaling y).2) := by
  have hm : mean (fun i => c * y i) = c * mean y := by unfold mean; rw [← Finset.mul_sum]; ring
  have hs : std1 (fun i => c * y i) = c * std1 y := by
    unfold std1
    rw [hm]
    have : ∑ i, (c * y i - c * mean y) ^ 2 = c ^ 2 * ∑ i, (y i - mean y) ^ 2 := by rw [Finset.mul_sum]; exact Finset.sum_congr rfl fun i _ => by ring
    rw [this, mul_div_assoc, Real.sqrt_mul (sq_nonneg c), Real.sqrt_sq hc.le]
  unfold scaling
  simp only [hm, hs, mul_eq_zero, hc.ne', false_or, if_neg hy]

/-- `par` of scaled outputs: only the process variance changes. -/
lemma blup_scale (C : Matrix (Fin n) (Fin n) ℝ) (F : Matrix (Fin n) (Fin p) ℝ) (y : Fin n → ℝ) (s c dof : ℝ) :
    blup C qr F y (c * s) dof = { blup C qr F y s dof with sigma2 := c ^ 2 * (blup C qr F y s dof).sigma2 } := by
  unfold blup
  simp only [Par.mk.injEq, true_and]
  ring

lemma lhDsigma_scale (Q : Par n p) (F : Matrix (Fin n) (Fin p) ℝ) (s c σ : ℝ) (A : Matrix (Fin n) (Fin n) ℝ) :
    lhDsigma { Q with sigma2 := σ } F (c * s) A = c ^ 2 * lhDsigma Q F s A := by
  unfold lhDsigma lhDmu lhArg
  simp only []
  ring

lemma lhHess_scale (Q : Par n p) (F : Matrix (Fin n) (Fin p) ℝ) (s : ℝ) {c : ℝ} (hc : c ≠ 0) (A B D : Matrix (Fin n) (Fin n) ℝ) :
    lhHess { Q with sigma2 := c ^ 2 * Q.sigma2 } F (c * s) A B D = lhHess Q F s A B D := by
  unfold lhHess
  simp only [lhDsigma_scale]
  have e1 : ∀ A, lhDmu { Q with sigma2 := c ^ 2 * Q.sigma2 } F A = lhDmu Q F A := fun A => rfl
  have e2 : ∀ A, lhArg { Q with sigma2 := c ^ 2 * Q.sigma2 } A = lhArg Q A := fun A => rfl
  have e3 : ∀ A, lhTr { Q with sigma2 := c ^ 2 * Q.sigma2 } A = lhTr Q A := fun A => rfl
  simp only [e1, e2, e3]
  congr 3
  congr 1
  congr 1
  generalize lhDsigma Q F s A = a
  generalize lhDsigma Q F s B = b
  by_cases h0 : Q.sigma2 = 0
  · simp [h0]
  · field_simp

/-- Training on `c y`: the same model with the output scaling and the process variance changed. -/
lemma mgp_scale_train (hM : mgpTrain chol qr qrC trend P nugget noise θ X y = some M) {c : ℝ} (hc : 0 < c) (hy : std1 y ≠ 0) :
    ∃ M', mgpTrain chol qr qrC trend P nugget noise θ X (fun i => c * y i) = some M' ∧ M'.invSigma = M.invSigma ∧
      ∀ x, M'.mseOf (M'.rowsX x) = c ^ 2 * M.mseOf (M.rowsX x) ∧ M'.dyOf (M'.rowsX x) = M.dyOf (M.rowsX x) ∧ M'.dmseOf (M'.rowsX x) = fun ω => c ^ 2 * M.dmseOf (M.rowsX x) ω := by
  have hsc := scaling_smul y hc hy
  have hs0 := scaling_ne y
  have hn : (fun i => normalise (scaling fun i => c * y i) (c * y i)) = fun i => normalise (scaling y) (y i) := by
    funext i
    rw [hsc]
    unfold normalise
    simp only []
    have := hc.ne'
    field_simp
  unfold mgpTrain train at hM ⊢
  simp only [Option.map_map, Option.map_eq_some_iff, Function.comp] at hM ⊢
  obtain ⟨C, hC, rfl⟩ := hM
  simp only [hn]
  rw [hsc]
  simp only []
  refine ⟨_, ⟨C, hC, rfl⟩, ?_, fun x => ?_⟩
  · simp only []
    ext g h
    rw [C74_inv_sigma, C74_inv_sigma]
    unfold hessEntry
    simp only [blup_scale, dR]
    rw [lhHess_scale _ _ _ hc.ne']
  · have hcm : ∀ a : ℝ, (if c ^ 2 * a < 0 then (0 : ℝ) else c ^ 2 * a) = c ^ 2 * if a < 0 then 0 else a := fun a => by
      have h2 : 0 < c ^ 2 := by positivity
      by_cases h : a < 0
      · rw [if_pos h, if_pos (mul_neg_of_pos_of_neg h2 h), mul_zero]
      · rw [if_neg h, if_neg (not_lt.2 (mul_nonneg h2.le (not_lt.1 h)))]
    refine ⟨?_, ?_, ?_⟩
    · simp only [MGP.mseOf, MGP.uOf, MGP.rowsX, Model.norm, blup_scale, mul_assoc]
      exact hcm _
    · funext ω
      simp only [MGP.dyOf, MGP.rowsX, Model.norm, blup_scale, dR]
      rfl
    · funext ω
      simp only [MGP.dmseOf, MGP.mseOf, MGP.uOf, MGP.rowsX, Model.norm, blup_scale, dR, lhDsigma_scale, mul_assoc]
      rw [hcm]
      have key : ∀ a z s t : ℝ, c ^ 2 * (a * (c ^ 2 * z)) / (c ^ 2 * s) + c ^ 2 * (s * t) = c ^ 2 * (a * z / s + s * t) := fun a z s t => by
        have := hc.ne'
        by_cases h0 : s = 0
        · rw [h0]; simp
        · field_simp
      exact key _ _ _ _

/-- **C76** Units: when all outputs are multiplied by `c > 0` the Kriging variance is multiplied by `c²`, but the MGP variance is not: the term `a` (the part due to the sensitivity of the
mean, computed from standardised outputs) stays the same. -/
theorem C76_units (hM : mgpTrain chol qr qrC trend P nugget noise θ X y = some M) (hS : PosDef M.invSigma) {c : ℝ} (hc : 0 < c) (hy : std1 y ≠ 0) (x : Fin nx → ℝ) :
    ∃ M' v v', mgpTrain chol qr qrC trend P nugget noise θ X (fun i => c * y i) = some M' ∧ M.predictVariances x = .ok v ∧ M'.predictVariances x = .ok v' ∧ v'.2 = c ^ 2 * v.2 ∧
      (v.2 ≠ 0 → v'.1 = c ^ 2 * v.1 + (1 - c ^ 2) * (M.dyOf (M.rowsX x) ⬝ᵥ (M.invSigma⁻¹ *ᵥ M.dyOf (M.rowsX x)))) := by
  obtain ⟨M', hM', hSig, hrow⟩ := mgp_scale_train hM hc hy
  obtain ⟨v, hv, -, hv2⟩ := C76_at_least M hS x
  obtain ⟨v', hv', -, hv2'⟩ := C76_at_least M' (hSig ▸ hS) x
  obtain ⟨-, -, e1, -⟩ := C76_reported M x hv
  obtain ⟨-, -, e1', -⟩ := C76_reported M' x hv'
  obtain ⟨r1, r2, r3⟩ := hrow x
  have e : v'.2 = c ^ 2 * v.2 := by rw [e1', e1, r1]
  refine ⟨M', v, v', hM', hv, hv', e, fun h0 => ?_⟩
  have h0' : v'.2 ≠ 0 := by rw [e]; exact mul_ne_zero (by positivity) h0
  rw [(hv2 h0).1, (hv2' h0').1, e, hSig, r2, r3]
  unfold marginal
  rw [show (fun ω => c ^ 2 * M.dmseOf (M.rowsX x) ω) = c ^ 2 • M.dmseOf (M.rowsX x) from rfl, Matrix.mulVec_smul, smul_dotProduct, dotProduct_smul, smul_eq_mul, smul_eq_mul]
  have := hc.ne'
  field_simp
  ring

/-- **C76** Hence rescaling the outputs (metres to millimetres) is harmless only where the mean does not react to the hyper-parameters. -/
theorem C76_not_scale_equivariant (hM : mgpTrain chol qr qrC trend P nugget noise θ X y = some M) (hS : PosDef M.invSigma) {c : ℝ} (hc : 0 < c) (hc1 : c ≠ 1) (hy : std1 y ≠ 0) (x : Fin nx → ℝ)
    (hmse : M.mseOf (M.rowsX x) ≠ 0) {M' : MGP n nx m p} (hM' : mgpTrain chol qr qrC trend P nugget noise θ X (fun i => c * y i) = some M') {v v' : ℝ × ℝ} (hv : M.predictVariances x = .ok v)
    (hv' : M'.predictVariances x = .ok v') : v'.1 = c ^ 2 * v.1 ↔ M.dyOf (M.rowsX x) = 0 := by
  obtain ⟨M₁, w, w', h1, h2, h3, h4, h5⟩ := C76_units hM hS hc hy x
  obtain rfl : M' = M₁ := by rw [h1] at hM'; exact (Option.some.inj hM').symm
  obtain rfl : v = w := by rw [h2] at hv; exact (Except.ok.inj hv).symm
  obtain rfl : v' = w' := by rw [h3] at hv'; exact (Except.ok.inj hv').symm
  obtain ⟨-, -, e1, -⟩ := C76_reported M x hv
  rw [h5 (by rw [e1]; exact hmse)]
  obtain ⟨a1, a2⟩ := posDef_inv hS (M.dyOf (M.rowsX x))
  have hc2 : 1 - c ^ 2 ≠ 0 := by
    intro h
    have h' : (c - 1) * (c + 1) = 0 := by linarith [h, show (c - 1) * (c + 1) = c ^ 2 - 1 by ring]
    rcases mul_eq_zero.1 h' with h' | h'
    · exact hc1 (by linarith)
    · linarith
  constructor
  · intro h
    by_contra hne
    have := a2 hne
    have : (1 - c ^ 2) * (M.dyOf (M.rowsX x) ⬝ᵥ (M.invSigma⁻¹ *ᵥ M.dyOf (M.rowsX x))) = 0 := by linarith
    rcases mul_eq_zero.1 this with h' | h'
    · exact hc2 h'
    · linarith
  · intro h
    rw [h]; simp

end SMT.Mgp
