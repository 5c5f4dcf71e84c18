import Verif.Kriging.Units

/-!
# C81, continued: training, likelihood, and the options of the code
-/
namespace SMT.Krg
open Matrix SMT.Common
set_option linter.unusedSectionVars false
set_option linter.unusedSimpArgs false
set_option linter.unusedVariables false

variable {n nx p : ℕ}

/-- The value that the hyper-parameter search maximises, as a function of the user's data: the reduced likelihood of the standardised data
(`krg_based.py` 140-188 and 240-303). -/
noncomputable def objective (chol : Matrix (Fin n) (Fin n) ℝ → Option (Matrix (Fin n) (Fin n) ℝ))
    (qr : Matrix (Fin n) (Fin p) ℝ → Matrix (Fin n) (Fin p) ℝ × Matrix (Fin p) (Fin p) ℝ)
    (kern : (Fin nx → ℝ) → ℝ) (trend : (Fin nx → ℝ) → Fin p → ℝ) (nugget : ℝ) (noise : Fin n → ℝ) (X : Fin n → Fin nx → ℝ) (y : Fin n → ℝ) : Option ℝ :=
  let Xn := fun i j => normalise (scaling fun k => X k j) (X i j)
  rlfAt chol qr kern nugget noise Xn (Matrix.of fun i => trend (Xn i)) (fun i => normalise (scaling y) (y i)) n

theorem IsChol.pd {R C : Matrix (Fin n) (Fin n) ℝ} (h : IsChol R C) (v : Fin n → ℝ) (hv : v ≠ 0) : 0 < v ⬝ᵥ (R *ᵥ v) := by
  have e : v ⬝ᵥ (R *ᵥ v) = (Cᵀ *ᵥ v) ⬝ᵥ (Cᵀ *ᵥ v) := by
    rw [← h.mul, ← Matrix.mulVec_mulVec, Matrix.dotProduct_mulVec, ← Matrix.mulVec_transpose]
  rw [e]
  refine lt_of_le_of_ne (Finset.sum_nonneg fun i _ => mul_self_nonneg _) fun h0 => hv ?_
  have h1 : Cᵀ *ᵥ v = 0 := dotProduct_self_eq_zero.1 h0.symm
  have hd : IsUnit Cᵀ.det := by rw [Matrix.det_transpose]; exact h.det
  have h2 := congrArg (Cᵀ⁻¹ *ᵥ ·) h1
  simpa [Matrix.mulVec_mulVec, Matrix.nonsing_inv_mul _ hd] using h2

theorem chol_change {chol : Matrix (Fin n) (Fin n) ℝ → Option (Matrix (Fin n) (Fin n) ℝ)} (hchol : CholOk chol) (hcc : CholComplete chol)
    (R : Matrix (Fin n) (Fin n) ℝ) (σ : Equiv.Perm (Fin n)) : (chol (R.submatrix σ σ)).isSome ↔ (chol R).isSome := by
  have key : ∀ (S : Matrix (Fin n) (Fin n) ℝ) (τ : Equiv.Perm (Fin n)), (chol S).isSome → (chol (S.submatrix τ τ)).isSome := by
    intro S τ h
    obtain ⟨C, hC⟩ := Option.isSome_iff_exists.1 h
    have hS := hchol _ _ hC
    refine hcc _ (by rw [Matrix.transpose_submatrix, hS.symm]) fun v hv => ?_
    have e : v ⬝ᵥ (S.submatrix τ τ *ᵥ v) = (fun i => v (τ.symm i)) ⬝ᵥ (S *ᵥ fun i => v (τ.symm i)) := by
      simp only [dotProduct, Matrix.mulVec, Matrix.submatrix_apply]
      rw [← Equiv.sum_comp τ fun i => v (τ.symm i) * ∑ k, S i k * v (τ.symm k)]
      refine Finset.sum_congr rfl fun i _ => ?_
      rw [Equiv.symm_apply_apply, ← Equiv.sum_comp τ fun k => S (τ i) k * v (τ.symm k)]
      simp only [Equiv.symm_apply_apply]
    rw [e]
    refine hS.pd _ fun h0 => hv ?_
    funext i
    have := congrFun h0 (τ i)
    simpa using this
  refine ⟨fun h => ?_, key R σ⟩
  have := key _ σ.symm h
  simpa [Matrix.submatrix_submatrix] using this

/-- Weighted residuals of permuted, rescaled data. -/
theorem wss_change {R : Matrix (Fin n) (Fin n) ℝ} {F F' : Matrix (Fin n) (Fin p) ℝ} {y y' : Fin n → ℝ} {σ : Equiv.Perm (Fin n)} {t : Fin p → ℝ} {e : ℝ} (ht : ∀ q, t q ≠ 0)
    (hF : ∀ i q, F' i q = t q * F (σ i) q) (hy : ∀ i, y' i = e * y (σ i)) (hR : IsUnit R.det) (hG : IsUnit (Fᵀ * R⁻¹ * F).det)
    (hG' : IsUnit (F'ᵀ * (R.submatrix σ σ)⁻¹ * F').det) :
    wss (R.submatrix σ σ) F' y' (glsBeta (R.submatrix σ σ) F' y') = e ^ 2 * wss R F y (glsBeta R F y) := by
  have hinv : (R.submatrix σ σ)⁻¹ = R⁻¹.submatrix σ σ := Matrix.inv_submatrix_equiv R σ σ
  have hR' : IsUnit (R.submatrix σ σ).det := by rw [Matrix.det_submatrix_equiv_self]; exact hR
  -- the normal equations of the first problem
  have hne : Fᵀ *ᵥ (R⁻¹ *ᵥ (y - F *ᵥ glsBeta R F y)) = 0 := by
    unfold glsBeta
    rw [Matrix.mulVec_sub, Matrix.mulVec_sub, sub_eq_zero]
    simp only [Matrix.mulVec_mulVec, ← Matrix.mul_assoc]
    rw [Matrix.mul_nonsing_inv _ hG, Matrix.one_mul]
  have hne' : F'ᵀ *ᵥ ((R.submatrix σ σ)⁻¹ *ᵥ (y' - F' *ᵥ glsBeta (R.submatrix σ σ) F' y')) = 0 := by
    unfold glsBeta
    rw [Matrix.mulVec_sub, Matrix.mulVec_sub, sub_eq_zero]
    simp only [Matrix.mulVec_mulVec, ← Matrix.mul_assoc]
    rw [Matrix.mul_nonsing_inv _ hG', Matrix.one_mul]
  have cancel : ∀ w : Fin n → ℝ, R.submatrix σ σ *ᵥ ((R.submatrix σ σ)⁻¹ *ᵥ w) = w := fun w => mulVec_inv_cancel _ hR' w
  have hres : y' - F' *ᵥ (fun q => e * glsBeta R F y q / t q) = fun i => e * (y - F *ᵥ glsBeta R F y) (σ i) := by
    funext i
    simp only [Pi.sub_apply, Matrix.mulVec, dotProduct, hy, mul_sub, Finset.mul_sum]
    congr 1
    refine Finset.sum_congr rfl fun q _ => ?_
    rw [hF]
    have := ht q
    field_simp
  have hRr : ∀ w : Fin n → ℝ, (R⁻¹.submatrix σ σ) *ᵥ (fun i => e * w (σ i)) = fun i => e * (R⁻¹ *ᵥ w) (σ i) := by
    intro w
    funext i
    simp only [Matrix.mulVec, dotProduct, Matrix.submatrix_apply, Finset.mul_sum]
    rw [← Equiv.sum_comp σ fun k => e * (R⁻¹ (σ i) k * w k)]
    exact Finset.sum_congr rfl fun k _ => by ring
  have hβ : glsBeta (R.submatrix σ σ) F' y' = fun q => e * glsBeta R F y q / t q := by
    refine (blup_unique hR' hG' (cancel _) ?_ (cancel _) hne').1
    rw [hres, hinv, hRr]
    funext q
    have h1 := congrFun hne q
    generalize R⁻¹ *ᵥ (y - F *ᵥ glsBeta R F y) = w at h1
    simp only [Matrix.mulVec, dotProduct, Matrix.transpose_apply, hF, Pi.zero_apply] at h1 ⊢
    have e1 : ∑ i, t q * F (σ i) q * (e * w (σ i)) = t q * e * ∑ i, F i q * w i := by
      rw [Finset.mul_sum, ← Equiv.sum_comp σ fun i => t q * e * (F i q * w i)]
      exact Finset.sum_congr rfl fun i _ => by ring
    rw [e1, h1, mul_zero]
  unfold wss
  rw [hβ, hres, hinv, hRr]
  simp only [dotProduct, Finset.mul_sum]
  rw [← Equiv.sum_comp σ fun i => e ^ 2 * ((y - F *ᵥ glsBeta R F y) i * (R⁻¹ *ᵥ (y - F *ᵥ glsBeta R F y)) i)]
  exact Finset.sum_congr rfl fun i _ => by ring

section compare
variable {chol : Matrix (Fin n) (Fin n) ℝ → Option (Matrix (Fin n) (Fin n) ℝ)}
  {qr : Matrix (Fin n) (Fin p) ℝ → Matrix (Fin n) (Fin p) ℝ × Matrix (Fin p) (Fin p) ℝ}
  {kern : (Fin nx → ℝ) → ℝ} {trend : (Fin nx → ℝ) → Fin p → ℝ} {nugget : ℝ} {noise : Fin n → ℝ}
  {X : Fin n → Fin nx → ℝ} {y : Fin n → ℝ} {σ : Equiv.Perm (Fin n)} {a b : Fin nx → ℝ} {c d : ℝ}

/-- **C81** Training in the other units and order succeeds exactly when it succeeds in the first. -/
theorem C81_trains (hn : 0 < n) (hu : UnitChange X a) (heven : ∀ dx, kern (fun q => -dx q) = kern dx) (hk : KernelSym kern (dir a))
    (hchol : CholOk chol) (hcc : CholComplete chol) :
    (train chol qr kern trend nugget (fun i => noise (σ i)) (newX σ a b X) (newY σ c d y)).isSome ↔ (train chol qr kern trend nugget noise X y).isSome := by
  unfold train
  simp only [Option.isSome_map]
  have e : (fun i j => normalise (scaling fun k => newX σ a b X k j) (newX σ a b X i j)) = fun i j => dir a j * normalise (scaling fun k => X k j) (X (σ i) j) :=
    funext fun i => normPt_change (σ := σ) (b := b) hn hu (X (σ i))
  rw [e, corrR_change heven hk fun i j => normalise (scaling fun k => X k j) (X i j)]
  exact chol_change hchol hcc _ σ

theorem rlf_change {R : Matrix (Fin n) (Fin n) ℝ} {F F' : Matrix (Fin n) (Fin p) ℝ} {y y' : Fin n → ℝ} {σ : Equiv.Perm (Fin n)} {t : Fin p → ℝ} {e dof : ℝ} (ht : ∀ q, t q ≠ 0)
    (hFc : ∀ i q, F' i q = t q * F (σ i) q) (hyc : ∀ i, y' i = e * y (σ i)) (he : e ^ 2 = 1) (hchol : CholOk chol) (hcc : CholComplete chol) (hqr : QROk qr) (hF : FullRank F) :
    ((chol (R.submatrix σ σ)).map fun C => rlf C qr F' y' dof) = (chol R).map fun C => rlf C qr F y dof := by
  have hF' := fullRank_change ht hFc hF
  have hs := chol_change hchol hcc R σ
  cases hR : chol R with
  | none =>
    have : chol (R.submatrix σ σ) = none := by
      rw [← Option.not_isSome_iff_eq_none, hs, hR]; simp
    rw [this]; rfl
  | some C =>
    obtain ⟨C', hC'⟩ := Option.isSome_iff_exists.1 (hs.2 (by rw [hR]; rfl))
    rw [hC']
    simp only [Option.map_some, Option.some.injEq]
    rw [C63_value (hchol _ _ hR) hqr hF, C63_value (hchol _ _ hC') hqr hF']
    unfold redLik
    rw [wss_change ht hFc hyc (hchol _ _ hR).detR (det_gram (hchol _ _ hR) (hqr _ (fullRank_fwdM (hchol _ _ hR) hF)))
      (det_gram (hchol _ _ hC') (hqr _ (fullRank_fwdM (hchol _ _ hC') hF')))]
    rw [he, one_mul, Matrix.det_submatrix_equiv_self]

theorem outFactor_sq (hn : 0 < n) (hc : c ≠ 0) (hy : ∃ i k, y i ≠ y k) : outFactor σ c d y ^ 2 = 1 := by
  have h := factor_eq hn σ c d y hc (Or.inl hy)
  have h2 : outFactor σ c d y = if 0 < c then 1 else -1 := h
  rw [h2]
  split_ifs <;> norm_num

/-- Standardised inputs of a data set. -/
noncomputable def stdX (X : Fin n → Fin nx → ℝ) : Fin n → Fin nx → ℝ := fun i j => normalise (scaling fun k => X k j) (X i j)
/-- Standardised outputs of a data set. -/
noncomputable def stdY (y : Fin n → ℝ) : Fin n → ℝ := fun i => normalise (scaling y) (y i)

theorem stdX_change (hn : 0 < n) (hu : UnitChange X a) : stdX (newX σ a b X) = fun i j => dir a j * stdX X (σ i) j :=
  funext fun i => normPt_change (σ := σ) (b := b) hn hu (X (σ i))

theorem stdY_change (hn : 0 < n) (i : Fin n) : stdY (newY σ c d y) i = outFactor σ c d y * stdY y (σ i) := normalise_change hn σ c d y (y (σ i))

theorem objective_eq : objective chol qr kern trend nugget noise X y =
    (chol (corrR kern nugget noise (stdX X))).map fun C => rlf C qr (Matrix.of fun i => trend (stdX X i)) (stdY y) n := rfl

/-- **C81** The likelihood maximised over the hyper-parameters is the same function in both units and orders (for outputs that are not constant and a genuine change of
unit of the output), so the same hyper-parameters are optimal. -/
theorem C81_likelihood (hn : 0 < n) (hu : UnitChange X a) (hc : c ≠ 0) (hy : ∃ i k, y i ≠ y k) (heven : ∀ dx, kern (fun q => -dx q) = kern dx)
    (hk : KernelSym kern (dir a)) {t : Fin p → ℝ} (ht : TrendSym trend (dir a) t) (hchol : CholOk chol) (hcc : CholComplete chol) (hqr : QROk qr)
    (hF : FullRank (Matrix.of fun i => trend (stdX X i))) :
    objective chol qr kern trend nugget (fun i => noise (σ i)) (newX σ a b X) (newY σ c d y) = objective chol qr kern trend nugget noise X y := by
  rw [objective_eq, objective_eq, stdX_change hn hu, corrR_change heven hk]
  exact rlf_change (e := outFactor σ c d y) ht.1 (fun i q => ht.2 _ q) (fun i => stdY_change hn i) (outFactor_sq hn hc hy) hchol hcc hqr hF

end compare

/-! ## The options of the code -/

theorem dir_sq (a : Fin nx → ℝ) (j : Fin nx) : dir a j ^ 2 = 1 := by
  unfold dir; split_ifs <;> norm_num

theorem dir_abs (a : Fin nx → ℝ) (j : Fin nx) : |dir a j| = 1 := by
  unfold dir; split_ifs <;> norm_num

/-- **C81** All four kernels are insensitive to the direction of the inputs. -/
theorem C81_kernels (lim : ℕ) (hl : 0 < lim) (c : Corr) (hc : c ≠ .actExp) (θ : Fin nx → ℝ) (a : Fin nx → ℝ) : KernelSym (kernOf lim hl c θ) (dir a) := by
  intro dx
  have h := fun dx => kernOf_eq lim hl θ dx
  cases c with
  | actExp => exact absurd rfl hc
  | absExp => simp only [fun dx => (h dx).1, abs_mul, dir_abs, one_mul]
  | squarExp => simp only [fun dx => (h dx).2.1, mul_pow, dir_sq, one_mul]
  | matern52 => simp only [fun dx => (h dx).2.2.1, abs_mul, dir_abs, one_mul]
  | matern32 => simp only [fun dx => (h dx).2.2.2, abs_mul, dir_abs, one_mul]

/-- **C81** So are the kernels of KPLS for given PLS coefficients. -/
theorem C81_pls_kernels {m : ℕ} (c : Corr) (θ : Fin m → ℝ) (coeff : Fin nx → Fin m → ℝ) (a : Fin nx → ℝ) :
    KernelSym (fun dx => expRow θ (compDistPLS c coeff dx)) (dir a) := by
  intro dx
  unfold compDistPLS
  cases c <;> simp only [abs_mul, dir_abs, one_mul, mul_pow, dir_sq]

/-- The numbers by which the trend functions change when inputs are reversed. -/
noncomputable def signLinear (s : Fin nx → ℝ) : Fin (nx + 1) → ℝ := Fin.cons 1 s
/-- The numbers by which the monomials of degree at most two change. -/
noncomputable def signQuadratic (s : Fin nx → ℝ) : Fin (monos nx).length → ℝ := fun q => ((monos nx).get q).foldr (fun k acc => (List.ofFn s).getD k 0 * acc) 1

theorem monoVal_mul (s x : Fin nx → ℝ) (m : List ℕ) :
    monoVal (List.ofFn fun j => s j * x j) m = m.foldr (fun k acc => (List.ofFn s).getD k 0 * acc) 1 * monoVal (List.ofFn x) m := by
  have hg : ∀ k, (List.ofFn fun j => s j * x j).getD k 0 = (List.ofFn s).getD k 0 * (List.ofFn x).getD k 0 := by
    intro k
    simp only [List.getD_eq_getElem?_getD, List.getElem?_ofFn]
    split_ifs <;> simp
  induction m with
  | nil => simp [monoVal]
  | cons k m ih =>
    unfold monoVal at ih ⊢
    simp only [List.map_cons, List.prod_cons, List.foldr_cons]
    rw [hg, ih]
    ring

/-- **C81** The three trends: reversing inputs multiplies every trend function by 1 or -1. -/
theorem C81_trends (a : Fin nx → ℝ) :
    TrendSym trendConstant (dir a) (fun _ => 1) ∧ TrendSym trendLinear (dir a) (signLinear (dir a)) ∧ TrendSym trendQuadratic (dir a) (signQuadratic (dir a)) := by
  have hd : ∀ j, dir a j ≠ 0 := fun j h => by have := dir_sq a j; rw [h] at this; norm_num at this
  refine ⟨⟨fun _ => one_ne_zero, fun x q => by simp [trendConstant]⟩, ⟨fun q => ?_, fun x q => ?_⟩, ⟨fun q => ?_, fun x q => ?_⟩⟩
  · refine Fin.cases ?_ (fun j => ?_) q <;> simp [signLinear, hd]
  · refine Fin.cases ?_ (fun j => ?_) q <;> simp [signLinear, trendLinear]
  · unfold signQuadratic
    have hm := (C43_monomials nx).2.1 ((monos nx).get q)
    have hlt := ((hm.1 (List.get_mem _ _)).2.2)
    generalize (monos nx).get q = m at hlt
    induction m with
    | nil => simp
    | cons k m ih =>
      simp only [List.foldr_cons]
      have hk : k < nx := hlt k (by simp)
      refine mul_ne_zero ?_ (ih fun i hi => hlt i (by simp [hi]))
      simp [List.getD_eq_getElem?_getD, hk, hd]
  · unfold trendQuadratic signQuadratic
    rw [(C43_columns (List.ofFn fun j => dir a j * x j)).2.2, (C43_columns (List.ofFn x)).2.2]
    simp only [List.length_ofFn, List.getD_eq_getElem?_getD, List.getElem?_map, q.isLt, List.getElem?_eq_getElem, Option.map_some, Option.getD_some]
    exact monoVal_mul _ _ _

/-- **C81** The same with the kernels and the constant trend of the code, end to end: distinct training points, `theta > 0`, the default (zero) noise and any non-negative
nugget. Both trainings succeed, and predictions and variances correspond, for every order of the points, every unit of inputs and output, and every query point. -/
theorem C81_ordinary_kriging {chol : Matrix (Fin n) (Fin n) ℝ → Option (Matrix (Fin n) (Fin n) ℝ)}
    {qr : Matrix (Fin n) (Fin 1) ℝ → Matrix (Fin n) (Fin 1) ℝ × Matrix (Fin 1) (Fin 1) ℝ} (hchol : CholOk chol) (hcc : CholComplete chol) (hqr : QROk qr)
    (hn : 0 < n) (lim : ℕ) (hl : 0 < lim) (k : Corr) (hk : k ≠ .actExp) (θ : Fin nx → ℝ) (hθ : ∀ l, 0 < θ l) (nugget : ℝ) (hnug : 0 ≤ nugget)
    (X : Fin n → Fin nx → ℝ) (hX : Function.Injective X) (y : Fin n → ℝ) (σ : Equiv.Perm (Fin n)) (a b : Fin nx → ℝ) (hu : UnitChange X a) (c d : ℝ) :
    ∃ M M', train chol qr (kernOf lim hl k θ) trendConstant nugget (fun _ => 0) X y = some M ∧
      train chol qr (kernOf lim hl k θ) trendConstant nugget (fun _ => 0) (newX σ a b X) (newY σ c d y) = some M' ∧
      (∀ x, M'.predict (newPt a b x) = c * M.predict x + d) ∧ ∀ x, M'.variance (newPt a b x) = c ^ 2 * M.variance x := by
  obtain ⟨heven, hone⟩ := C39_kernels lim hl k hk θ
  have h1 := C73_trains_distinct (qr := qr) (trend := trendConstant) (y := y) (noise := fun _ => 0) (nugget := nugget) hcc heven hone (C73_kernels_pd lim hl k hk θ hθ) (fun _ => by simpa using hnug) hX
  have h2 := (C81_trains (qr := qr) (trend := trendConstant) (nugget := nugget) (noise := fun _ => 0) (y := y) (σ := σ) (b := b) (c := c) (d := d) hn hu heven
    (C81_kernels lim hl k hk θ a) hchol hcc).2 h1
  obtain ⟨M, hM⟩ := Option.isSome_iff_exists.1 h1
  obtain ⟨M', hM'⟩ := Option.isSome_iff_exists.1 h2
  have hF : FullRank M.F := by
    obtain ⟨C, hC, hXX, hy, hkk, htt, hFF, hOS, hP⟩ := train_eq hM
    rw [hFF]
    intro v hv
    have := congrFun hv ⟨0, hn⟩
    funext q
    rw [Subsingleton.elim q 0]
    simpa [Matrix.mulVec, dotProduct, trendConstant] using this
  exact ⟨M, M', hM, hM', C81_prediction hn hu heven (C81_kernels lim hl k hk θ a) (C81_trends a).1 hM hM' hchol hqr hF,
    C81_variance hn hu heven (C81_kernels lim hl k hk θ a) (C81_trends a).1 hM hM' hchol hqr hF⟩

/-- **C81** The condition on inputs that are constant over the training points cannot be dropped: for every such data set (outputs not constant) with the Gaussian kernel,
doubling the unit of that input changes the prediction at some point. -/
theorem C81_constant_input {chol : Matrix (Fin n) (Fin n) ℝ → Option (Matrix (Fin n) (Fin n) ℝ)}
    {qr : Matrix (Fin n) (Fin 1) ℝ → Matrix (Fin n) (Fin 1) ℝ × Matrix (Fin 1) (Fin 1) ℝ} (hchol : CholOk chol) (hqr : QROk qr)
    (hn : 0 < n) (lim : ℕ) (hl : 0 < lim) (θ : Fin nx → ℝ) (j : Fin nx) (hθ : 0 < θ j) (X : Fin n → Fin nx → ℝ) (hj : ∀ i k, X i j = X k j) (y : Fin n → ℝ)
    (hy : ∃ i k, y i ≠ y k) {M M' : Model n nx 1} (hM : train chol qr (kernOf lim hl .squarExp θ) trendConstant 0 (fun _ => 0) X y = some M)
    (hM' : train chol qr (kernOf lim hl .squarExp θ) trendConstant 0 (fun _ => 0) (newX (Equiv.refl _) (Function.update 1 j 2) 0 X) y = some M') :
    ∃ x, M'.predict (newPt (Function.update 1 j 2) 0 x) ≠ M.predict x := by
  obtain ⟨C, hC, hXX, hyy, hkk, htt, hFF, hOS, hP⟩ := train_eq hM
  obtain ⟨C', hC', hXX', hyy', hkk', htt', hFF', hOS', hP'⟩ := train_eq hM'
  rw [kernOf_squarExp] at hkk hkk' hC hC'
  have hnew : ∀ i l, newX (Equiv.refl _) (Function.update 1 j 2) 0 X i l = if l = j then 2 * X i l else X i l := by
    intro i l
    unfold newX
    by_cases h : l = j
    · subst h; simp
    · simp [h]
  have hs0 : scaling (fun i => X i j) = (X ⟨0, hn⟩ j, 1) := by
    have hm : mean (fun i => X i j) = X ⟨0, hn⟩ j := by
      unfold mean
      simp only [hj _ ⟨0, hn⟩, Finset.sum_const, Finset.card_univ, Fintype.card_fin, nsmul_eq_mul]
      have : (n : ℝ) ≠ 0 := Nat.cast_ne_zero.2 hn.ne'
      field_simp
    have hst : std1 (fun i => X i j) = 0 := by
      unfold std1
      rw [hm]
      simp [hj _ ⟨0, hn⟩]
    unfold scaling
    simp only [hm, hst, if_true]
  have hs0' : scaling (fun i => newX (Equiv.refl _) (Function.update 1 j 2) 0 X i j) = (2 * X ⟨0, hn⟩ j, 1) := by
    have hm : mean (fun i => newX (Equiv.refl _) (Function.update 1 j 2) 0 X i j) = 2 * X ⟨0, hn⟩ j := by
      unfold mean
      simp only [hnew, if_true, hj _ ⟨0, hn⟩, Finset.sum_const, Finset.card_univ, Fintype.card_fin, nsmul_eq_mul]
      have : (n : ℝ) ≠ 0 := Nat.cast_ne_zero.2 hn.ne'
      field_simp
    have hst : std1 (fun i => newX (Equiv.refl _) (Function.update 1 j 2) 0 X i j) = 0 := by
      unfold std1
      rw [hm]
      simp [hnew, hj _ ⟨0, hn⟩]
    unfold scaling
    simp only [hm, hst, if_true]
  have hOSe : ∀ l, l ≠ j → M'.xOS l = M.xOS l := by
    intro l hl
    rw [hOS, hOS']
    simp only [hnew, if_neg hl]
  have hXn : M'.Xn = M.Xn := by
    funext i l
    rw [← hXX i, ← hXX' i]
    unfold Model.norm
    by_cases h : l = j
    · subst h
      rw [hOS, hOS', hs0, hs0', hnew, if_pos rfl]
      unfold normalise
      simp only [hj i ⟨0, hn⟩, sub_self, zero_div]
    · rw [hOSe l h, hnew, if_neg h]
  have hFe : M'.F = M.F := by rw [hFF, hFF', hXn]
  have hCe : C' = C := by
    rw [hXn, hC] at hC'
    exact (Option.some.inj hC').symm
  have hPe : M'.par = M.par := by rw [hP, hP', hFe, hCe, hyy, hyy']
  -- the query points: training points moved by one unit along the constant input
  have hpt : ∀ i, M.predict (Function.update (X i) j (X i j + 1)) = denormalise M.yOS (M.par.beta 0 + Real.exp (-θ j) * (M.corr (M.Xn i) ⬝ᵥ M.par.gamma)) := by
    intro i
    have hnm : M.norm (Function.update (X i) j (X i j + 1)) = fun l => M.Xn i l + if l = j then 1 else 0 := by
      funext l
      rw [← hXX i]
      unfold Model.norm
      by_cases h : l = j
      · subst h
        rw [hOS, hs0]; unfold normalise; simp; ring
      · simp [h]
    unfold Model.predict
    simp only []
    rw [hnm, htt]
    congr 2
    · simp [trendConstant, dotProduct]
    · simp only [dotProduct, Finset.mul_sum]
      refine Finset.sum_congr rfl fun m _ => ?_
      rw [← mul_assoc]
      congr 1
      unfold Model.corr
      rw [hkk]
      unfold sqKern
      rw [← Real.exp_add]
      congr 1
      have e0 : M.Xn i j - M.Xn m j = 0 := by
        rw [← hXX i, ← hXX m]
        unfold Model.norm
        rw [hj i m, sub_self]
      have e1 : ∀ l, θ l * (M.Xn i l + (if l = j then 1 else 0) - M.Xn m l) ^ 2 = θ l * (M.Xn i l - M.Xn m l) ^ 2 + if l = j then θ j else 0 := by
        intro l
        by_cases h : l = j
        · subst h
          simp only [if_true]
          linear_combination (2 * θ l) * e0
        · simp [h]
      simp only [e1, Finset.sum_add_distrib, Finset.sum_ite_eq', Finset.mem_univ, if_true]
      ring
  have hpt' : ∀ i, M'.predict (newPt (Function.update 1 j 2) 0 (Function.update (X i) j (X i j + 1))) =
      denormalise M.yOS (M.par.beta 0 + Real.exp (-(4 * θ j)) * (M.corr (M.Xn i) ⬝ᵥ M.par.gamma)) := by
    intro i
    have hnm : M'.norm (newPt (Function.update 1 j 2) 0 (Function.update (X i) j (X i j + 1))) = fun l => M.Xn i l + if l = j then 2 else 0 := by
      funext l
      rw [← hXX i]
      unfold Model.norm newPt
      by_cases h : l = j
      · subst h
        rw [hOS, hOS', hs0, hs0']
        unfold normalise
        simp only [Function.update_self, Pi.zero_apply, if_true, hj i ⟨0, hn⟩]
        ring
      · rw [hOSe l h]
        simp [h]
    unfold Model.predict
    simp only []
    rw [hnm, htt', hPe, hyy', ← hyy]
    congr 2
    · simp [trendConstant, dotProduct]
    · simp only [dotProduct, Finset.mul_sum]
      refine Finset.sum_congr rfl fun m _ => ?_
      rw [← mul_assoc]
      congr 1
      unfold Model.corr
      rw [hkk, hkk', hXn]
      unfold sqKern
      rw [← Real.exp_add]
      congr 1
      have e0 : M.Xn i j - M.Xn m j = 0 := by
        rw [← hXX i, ← hXX m]
        unfold Model.norm
        rw [hj i m, sub_self]
      have e1 : ∀ l, θ l * (M.Xn i l + (if l = j then 2 else 0) - M.Xn m l) ^ 2 = θ l * (M.Xn i l - M.Xn m l) ^ 2 + if l = j then 4 * θ j else 0 := by
        intro l
        by_cases h : l = j
        · subst h
          simp only [if_true]
          linear_combination (4 * θ l) * e0
        · simp [h]
      simp only [e1, Finset.sum_add_distrib, Finset.sum_ite_eq', Finset.mem_univ, if_true]
      ring
  by_contra hcon
  push Not at hcon
  have hF : FullRank M.F := by
    rw [hFF]
    intro v hv
    have := congrFun hv ⟨0, hn⟩
    funext q
    rw [Subsingleton.elim q 0]
    simpa [Matrix.mulVec, dotProduct, trendConstant] using this
  obtain ⟨heven, hone⟩ := C39_kernels lim hl .squarExp (by simp) θ
  have hall : ∀ i, y i = denormalise M.yOS (M.par.beta 0) := by
    intro i
    have h1 := hcon (Function.update (X i) j (X i j + 1))
    rw [hpt, hpt'] at h1
    unfold denormalise at h1
    have hs : M.yOS.2 ≠ 0 := by rw [hyy]; exact (scaling_pos y).ne'
    have hne : Real.exp (-(4 * θ j)) ≠ Real.exp (-θ j) := fun h => by
      have := Real.exp_injective h
      linarith
    have h0 : M.corr (M.Xn i) ⬝ᵥ M.par.gamma = 0 := by
      by_contra hz
      apply hne
      have h2 : M.yOS.2 * ((Real.exp (-(4 * θ j)) - Real.exp (-θ j)) * (M.corr (M.Xn i) ⬝ᵥ M.par.gamma)) = 0 := by linear_combination h1
      rcases mul_eq_zero.1 h2 with h3 | h3
      · exact absurd h3 hs
      · rcases mul_eq_zero.1 h3 with h4 | h4
        · exact sub_eq_zero.1 h4
        · exact absurd h4 hz
    have h3 := C39_interpolates hM hchol hqr hF heven hone i
    unfold Model.predict at h3
    simp only [] at h3
    rw [hXX i, h0, htt] at h3
    rw [← h3]
    simp [trendConstant, dotProduct]
  obtain ⟨i, k, hik⟩ := hy
  exact hik (by rw [hall i, hall k])

/-- The hypotheses hold together: three points of the plane in reverse order, first input in Fahrenheit instead of Celsius, second input reversed, output in thousands. -/
example (y : Fin 3 → ℝ) : ∃ M M', train (n := 3) (nx := 2) (p := 1) cholStd qrStd (kernOf 10 (by decide) .matern52 fun _ => 1) trendConstant 0 (fun _ => 0)
      (fun i j => if i.val = j.val then 1 else 0) y = some M ∧
    train (n := 3) (nx := 2) (p := 1) cholStd qrStd (kernOf 10 (by decide) .matern52 fun _ => 1) trendConstant 0 (fun _ => 0)
      (newX Fin.revPerm ![9 / 5, -1] ![32, 0] fun i j => if i.val = j.val then 1 else 0) (newY Fin.revPerm (1 / 1000) 0 y) = some M' ∧
    (∀ x, M'.predict (newPt ![9 / 5, -1] ![32, 0] x) = 1 / 1000 * M.predict x + 0) ∧ ∀ x, M'.variance (newPt ![9 / 5, -1] ![32, 0] x) = (1 / 1000) ^ 2 * M.variance x := by
  refine C81_ordinary_kriging cholStd_ok cholStd_complete qrStd_ok (by decide) 10 (by decide) .matern52 (by simp) (fun _ => 1) (fun _ => one_pos) 0 le_rfl _ ?_ y _ _ _ ?_ _ _
  · intro i j hij
    have h0 := congrFun hij 0
    have h1 := congrFun hij 1
    fin_cases i <;> fin_cases j <;> simp at h0 h1 ⊢
  · intro j
    refine ⟨by fin_cases j <;> norm_num, Or.inl ⟨⟨j.val, by omega⟩, 2, ?_⟩⟩
    have : (2 : Fin 3).val ≠ j.val := by have := j.isLt; simp; omega
    simp
    omega

end SMT.Krg
