import Verif.Mgp.GradProps

/-!
# C75: the embedding
-/
namespace SMT.Mgp
open Matrix SMT.Common SMT.Krg
set_option linter.unusedSectionVars false
set_option linter.unusedSimpArgs false
set_option linter.unusedVariables false

variable {n nx m p q : ℕ}
variable {chol : Matrix (Fin n) (Fin n) ℝ → Option (Matrix (Fin n) (Fin n) ℝ)}
  {qr : Matrix (Fin n) (Fin p) ℝ → Matrix (Fin n) (Fin p) ℝ × Matrix (Fin p) (Fin p) ℝ}
  {qrC : Matrix (Fin nx) (Fin m) ℝ → Matrix (Fin nx) (Fin m) ℝ × Matrix (Fin m) (Fin m) ℝ}
  {trend : (Fin nx → ℝ) → Fin p → ℝ} {P : Prior} {nugget : ℝ} {noise : Fin n → ℝ} {θ : Fin (m * nx) → ℝ} {X : Fin n → Fin nx → ℝ} {y : Fin n → ℝ} {M : MGP n nx m p}

/-- What training leaves in the model. -/
lemma mgp_eq (hM : mgpTrain chol qr qrC trend P nugget noise θ X y = some M) :
    train chol qr (kern θ) trend nugget noise X y = some M.base ∧
    M.data = ⟨nugget, noise, M.base.Xn, M.base.F, fun i => normalise M.base.yOS (y i), M.base.yOS.2⟩ ∧ M.theta = θ ∧
    (∀ k l, M.C k l = embA θ k l / (M.base.xOS k).2 / M.norm) ∧ M.norm = √(∑ k, ∑ l, (embA θ k l / (M.base.xOS k).2) ^ 2) ∧ M.QC = (qrC M.C).1 ∧ M.RC = (qrC M.C).2 ∧
    (∀ i, M.Unorma i = M.base.Xn i ᵥ* embA θ) ∧ (∀ l, M.Umean l = (∑ k, (M.base.xOS k).1 * M.C k l) * M.norm) ∧
    M.invSigma = invSigmaR M.data P θ M.base.par := by
  unfold mgpTrain at hM
  obtain ⟨B, hB, rfl⟩ := Option.map_eq_some_iff.1 hM
  exact ⟨hB, rfl, rfl, fun k l => rfl, rfl, rfl, rfl, fun i => rfl, fun l => rfl, rfl⟩

lemma mgp_scale (hM : mgpTrain chol qr qrC trend P nugget noise θ X y = some M) (k : Fin nx) : (M.base.xOS k).2 ≠ 0 := by
  obtain ⟨hB, -⟩ := mgp_eq hM
  obtain ⟨-, -, -, -, -, -, -, hOS, -⟩ := train_eq hB
  rw [hOS]
  exact scaling_ne _

/-- The norm of the embedding vanishes only for `theta = 0`. -/
lemma norm_ne (hM : mgpTrain chol qr qrC trend P nugget noise θ X y = some M) (hθ : θ ≠ 0) : M.norm ≠ 0 := by
  obtain ⟨-, -, -, -, hn, -⟩ := mgp_eq hM
  rw [hn]
  obtain ⟨g, hg⟩ := Function.ne_iff.1 hθ
  refine (Real.sqrt_pos.2 ?_).ne'
  refine Finset.sum_pos' (fun k _ => Finset.sum_nonneg fun l _ => sq_nonneg _) ⟨g.modNat, Finset.mem_univ _, ?_⟩
  refine Finset.sum_pos' (fun l _ => sq_nonneg _) ⟨g.divNat, Finset.mem_univ _, ?_⟩
  have : embA θ g.modNat g.divNat = θ g := by show θ (finProdFinEquiv (g.divNat, g.modNat)) = θ g; rw [pair_div_mod]
  rw [this]
  have := div_ne_zero hg (mgp_scale hM g.modNat)
  positivity

lemma theta_ne_of_fullRank (hm : 0 < m) (hA : FullRank (embA θ)) : θ ≠ 0 := by
  rintro rfl
  have := hA (fun _ => 1) (by funext k; simp [embA, Matrix.mulVec, dotProduct])
  exact one_ne_zero (congrFun this ⟨0, hm⟩)

/-- The normalised embedding matrix has full rank when `A` has. -/
lemma fullRank_C (hM : mgpTrain chol qr qrC trend P nugget noise θ X y = some M) (hA : FullRank (embA θ)) : FullRank M.C := by
  intro v hv
  rcases Nat.eq_zero_or_pos m with rfl | hm
  · funext l; exact l.elim0
  have hn := norm_ne hM (theta_ne_of_fullRank hm hA)
  obtain ⟨-, -, -, hC, -⟩ := mgp_eq hM
  refine hA v (funext fun k => ?_)
  have h := congrFun hv k
  simp only [Matrix.mulVec, dotProduct, hC, Pi.zero_apply] at h ⊢
  have e : ∑ l, embA θ k l / (M.base.xOS k).2 / M.norm * v l = (∑ l, embA θ k l * v l) / ((M.base.xOS k).2 * M.norm) := by
    rw [Finset.sum_div]; exact Finset.sum_congr rfl fun l _ => by rw [div_div, div_mul_eq_mul_div]
  rw [e, div_eq_zero_iff] at h
  exact h.resolve_right (mul_ne_zero (mgp_scale hM k) hn)

lemma isQR_C (hM : mgpTrain chol qr qrC trend P nugget noise θ X y = some M) (hqrC : QROk qrC) (hA : FullRank (embA θ)) : IsQR M.C M.QC M.RC := by
  obtain ⟨-, -, -, -, -, h1, h2, -⟩ := mgp_eq hM
  have := hqrC _ (fullRank_C hM hA)
  rw [h1, h2]; exact this

lemma getX_eq (hQ : IsQR M.C M.QC M.RC) (u : Fin m → ℝ) : M.RCᵀ *ᵥ fwd M.RCᵀ u = u :=
  mulVec_fwd _ _ (fun i j h => hQ.upper j i h) (fun i => hQ.diag i)

/-- **C75** Going from the embedding to the inputs and back changes nothing. -/
theorem C75_roundtrip (hM : mgpTrain chol qr qrC trend P nugget noise θ X y = some M) (hqrC : QROk qrC) (hA : FullRank (embA θ)) (u : Fin m → ℝ) : M.getU (M.getX u) = u := by
  have hQ := isQR_C hM hqrC hA
  unfold MGP.getU MGP.getX
  rw [← Matrix.mulVec_transpose, Matrix.mulVec_mulVec, ← hQ.mul, Matrix.transpose_mul, Matrix.mul_assoc, hQ.orth, Matrix.mul_one, getX_eq hQ]

/-- **C75** Of all the inputs with the given embedding coordinates, `get_x_from_u` returns the one of smallest norm. -/
theorem C75_smallest (hM : mgpTrain chol qr qrC trend P nugget noise θ X y = some M) (hqrC : QROk qrC) (hA : FullRank (embA θ)) (x : Fin nx → ℝ) :
    ∑ k, M.getX (M.getU x) k ^ 2 ≤ ∑ k, x k ^ 2 := by
  have hQ := isQR_C hM hqrC hA
  set w := M.QCᵀ *ᵥ x with hw
  have hR : IsUnit M.RCᵀ.det := by rw [Matrix.det_transpose]; exact hQ.detG
  have hU : M.getU x = M.RCᵀ *ᵥ w := by
    unfold MGP.getU
    rw [← Matrix.mulVec_transpose, ← hQ.mul, Matrix.transpose_mul, ← Matrix.mulVec_mulVec]
  have hX : M.getX (M.getU x) = M.QC *ᵥ w := by
    unfold MGP.getX
    rw [fwd_eq_inv M.RCᵀ _ (fun i j h => hQ.upper j i h) (fun i => hQ.diag i), hU, Matrix.mulVec_mulVec _ M.RCᵀ⁻¹ M.RCᵀ, Matrix.nonsing_inv_mul _ hR, Matrix.one_mulVec]
  have sq' : ∀ v : Fin nx → ℝ, ∑ k, v k ^ 2 = v ⬝ᵥ v := fun v => by simp [dotProduct, sq]
  have h1 : (M.QC *ᵥ w) ⬝ᵥ x = w ⬝ᵥ w := by
    rw [dotProduct_comm, Matrix.dotProduct_mulVec, ← Matrix.mulVec_transpose, ← hw]
  have h2 : (M.QC *ᵥ w) ⬝ᵥ (M.QC *ᵥ w) = w ⬝ᵥ w := by
    rw [Matrix.dotProduct_mulVec, ← Matrix.mulVec_transpose, Matrix.mulVec_mulVec, hQ.orth, Matrix.one_mulVec]
  have h3 : 0 ≤ (x - M.QC *ᵥ w) ⬝ᵥ (x - M.QC *ᵥ w) := by rw [← sq']; exact Finset.sum_nonneg fun k _ => sq_nonneg _
  rw [sub_dotProduct, dotProduct_sub, dotProduct_sub, h1, h2, dotProduct_comm x (M.QC *ᵥ w), h1] at h3
  rw [hX, sq', sq', h2]
  linarith

/-! ## Predictions -/

lemma eye_mul (d : Fin m → ℝ) : d ᵥ* embA (eyeTheta (m := m)) = d := by
  funext l
  rw [dA_apply]
  simp [eyeTheta, eq_comm]

/-- The embedding coordinates used internally are the standardised inputs times `A`. -/
lemma un_eq (hM : mgpTrain chol qr qrC trend P nugget noise θ X y = some M) (x : Fin nx → ℝ) (l : Fin m) :
    M.getU x l * M.norm - M.Umean l = (M.base.norm x ᵥ* embA θ) l := by
  obtain ⟨-, -, -, hC, hn, -, -, -, hUm, -⟩ := mgp_eq hM
  by_cases h0 : θ = 0
  · subst h0
    have : M.norm = 0 := by rw [hn]; simp [embA]
    rw [hUm, this, mul_zero, mul_zero, sub_zero]
    simp [Matrix.vecMul, dotProduct, embA]
  have hne := norm_ne hM h0
  rw [hUm]
  unfold MGP.getU
  simp only [Matrix.vecMul, dotProduct]
  rw [← sub_mul, ← Finset.sum_sub_distrib, Finset.sum_mul]
  refine Finset.sum_congr rfl fun k _ => ?_
  rw [hC]
  unfold Model.norm normalise
  have := mgp_scale hM k
  field_simp

/-- A point of the embedding and a point of the inputs above it. -/
lemma rows_eq (hM : mgpTrain chol qr qrC trend P nugget noise θ X y = some M) (u : Fin m → ℝ) (hu : M.getU (M.getX u) = u) : M.rowsU u = M.rowsX (M.getX u) := by
  obtain ⟨-, -, hθ, -, -, -, -, hUn, -⟩ := mgp_eq hM
  have hd : ∀ i, (fun l => u l * M.norm - M.Umean l - M.Unorma i l) = (fun k => M.base.norm (M.getX u) k - M.base.Xn i k) ᵥ* embA θ := fun i => by
    funext l
    have := un_eq hM (M.getX u) l
    rw [hu] at this
    rw [this, hUn, show (fun k => M.base.norm (M.getX u) k - M.base.Xn i k) = M.base.norm (M.getX u) - M.base.Xn i from rfl, Matrix.sub_vecMul]
    rfl
  unfold MGP.rowsU MGP.rowsX actExpRow
  simp only [eye_mul, hd, hθ]

/-- **C75** A prediction in the embedding is the prediction at the lifted input: value, MGP variance and Kriging variance (for fewer components than inputs). -/
theorem C75_predict_embedding (hM : mgpTrain chol qr qrC trend P nugget noise θ X y = some M) (hqrC : QROk qrC) (hA : FullRank (embA θ)) (hm : m < nx) (u : Fin m → ℝ) :
    M.predictValues u = M.predictValues (M.getX u) ∧ M.predictVariances u = M.predictVariances (M.getX u) := by
  have h := rows_eq hM u (C75_roundtrip hM hqrC hA u)
  have e : M.rows u = M.rows (M.getX u) := by
    unfold MGP.rows
    rw [if_pos hm, dif_pos rfl, if_neg (lt_irrefl nx), dif_pos rfl]
    exact congrArg Except.ok h
  unfold MGP.predictValues MGP.predictVariances
  rw [e]
  exact ⟨rfl, rfl⟩

lemma kern_of_u (hM : mgpTrain chol qr qrC trend P nugget noise θ X y = some M) {x x' : Fin nx → ℝ} (h : M.getU x = M.getU x') : (M.rowsX x).r = (M.rowsX x').r := by
  obtain ⟨-, -, hθ, -⟩ := mgp_eq hM
  have hd : M.base.norm x ᵥ* embA θ = M.base.norm x' ᵥ* embA θ := funext fun l => by rw [← un_eq hM, ← un_eq hM, h]
  funext i
  show kern M.theta (fun k => M.base.norm x k - M.base.Xn i k) = kern M.theta (fun k => M.base.norm x' k - M.base.Xn i k)
  rw [hθ, kern_pullback, kern_pullback, hd]

lemma rows_self (x : Fin nx → ℝ) : M.rows x = .ok (M.rowsX x) := by
  unfold MGP.rows
  rw [if_neg (lt_irrefl nx), dif_pos rfl]
  rfl

/-- **C75** With the constant trend, predicted values and Kriging variances depend on the inputs only through their embedding coordinates. -/
theorem C75_active_subspace (hM : mgpTrain chol qr qrC trend P nugget noise θ X y = some M) (ht : ∀ a b, trend a = trend b) {x x' : Fin nx → ℝ} (h : M.getU x = M.getU x') :
    M.predictValues x = M.predictValues x' ∧ ∀ v v', M.predictVariances x = .ok v → M.predictVariances x' = .ok v' → v.2 = v'.2 := by
  have hr := kern_of_u hM h
  obtain ⟨hB, -⟩ := mgp_eq hM
  obtain ⟨-, -, -, -, -, htr, -⟩ := train_eq hB
  have hvar : ∀ x v, M.predictVariances x = .ok v → v.2 = M.mseOf (M.rowsX x) := by
    intro x v hv
    unfold MGP.predictVariances at hv
    rw [rows_self] at hv
    simp only [Except.bind] at hv
    split at hv
    · simp at hv
    · rename_i w hw
      obtain rfl : w = v := by simpa using hv
      unfold MGP.varOf at hw
      obtain ⟨s1, -, hw⟩ := Option.bind_eq_some_iff.1 hw
      obtain ⟨s2, -, hw⟩ := Option.map_eq_some_iff.1 hw
      rw [← hw]
  refine ⟨?_, fun v v' hv hv' => ?_⟩
  · unfold MGP.predictValues
    rw [rows_self, rows_self]
    simp only [Except.map, MGP.valueOf, hr, htr, ht (M.rowsX x).xn (M.rowsX x').xn]
  · rw [hvar x v hv, hvar x' v' hv']
    unfold MGP.mseOf MGP.uOf
    simp only [hr, htr, ht (M.rowsX x).xn (M.rowsX x').xn]

/-- **C75** A given point of the inputs and its embedding coordinates have the same predicted value when the trend is constant. -/
theorem C75_value_of_coordinates (hM : mgpTrain chol qr qrC trend P nugget noise θ X y = some M) (hqrC : QROk qrC) (hA : FullRank (embA θ)) (hm : m < nx) (ht : ∀ a b, trend a = trend b)
    (x : Fin nx → ℝ) : M.predictValues (M.getU x) = M.predictValues x := by
  rw [(C75_predict_embedding hM hqrC hA hm (M.getU x)).1]
  exact (C75_active_subspace hM ht (C75_roundtrip hM hqrC hA _)).1

/-- **C75** In the inputs the predicted value is the Kriging prediction with the trained kernel. -/
theorem C75_value_is_kriging (hM : mgpTrain chol qr qrC trend P nugget noise θ X y = some M) (x : Fin nx → ℝ) : M.predictValues x = .ok (M.base.predict x) := by
  obtain ⟨hB, -, hθ, -⟩ := mgp_eq hM
  obtain ⟨-, -, -, -, hk, -⟩ := train_eq hB
  unfold MGP.predictValues
  rw [rows_self]
  simp only [Except.map, MGP.valueOf, MGP.rowsX, Model.predict]
  congr 4
  funext i
  show kern M.theta _ = M.base.kern _
  rw [hk, hθ]

/-- **C75** Without nugget and noise an MGP interpolates its training data. -/
theorem C75_interpolates (hM : mgpTrain chol qr qrC trend P 0 (fun _ => 0) θ X y = some M) (hchol : CholOk chol) (hqr : QROk qr) (hF : FullRank M.base.F) (i : Fin n) :
    M.predictValues (X i) = .ok (y i) := by
  rw [C75_value_is_kriging hM, C39_interpolates (mgp_eq hM).1 hchol hqr hF (kern_even θ) (kern_zero θ)]

/-- **C75** Which points are accepted: points with `nx` coordinates, and points with `n_comp` coordinates if `n_comp < nx`; all others raise. -/
theorem C75_accepts (M : MGP n nx m p) (x : Fin q → ℝ) : (∃ v, M.predictValues x = .ok v) ↔ q = nx ∨ (q = m ∧ m < nx) := by
  unfold MGP.predictValues MGP.rows
  constructor
  · rintro ⟨v, hv⟩
    split_ifs at hv with h1 h2 h3
    · exact Or.inr ⟨h2, h2 ▸ h1⟩
    · simp [Except.map] at hv
    · exact Or.inl h3
    · simp [Except.map] at hv
  · rintro (rfl | ⟨rfl, h⟩)
    · rw [if_neg (lt_irrefl _), dif_pos rfl]; exact ⟨_, rfl⟩
    · rw [if_pos h, dif_pos rfl]; exact ⟨_, rfl⟩

end SMT.Mgp
