import Verif.Mgp.RotProps

/-!
# The hypotheses of C74–C77 hold together

With exact linear algebra (`cholStd`, `qrStd`), a positive nugget and a constant trend every data set with non-constant outputs trains at every `theta`, with a process variance that is not zero;
a narrow prior makes minus the Hessian positive definite; and for two points, two components there is a prior whose objective has a stationary point `theta ≠ 0`.
-/
namespace SMT.Mgp
open Matrix SMT.Common SMT.Krg
set_option linter.unusedSectionVars false
set_option linter.unusedSimpArgs false
set_option linter.unusedVariables false

variable {n nx m : ℕ}

lemma fullRank_const (hn : 0 < n) (Xn : Fin n → Fin nx → ℝ) : FullRank (Matrix.of fun i => trendConstant (Xn i)) := by
  intro v hv
  have := congrFun hv ⟨0, hn⟩
  funext q
  have hq : q = 0 := Subsingleton.elim _ _
  subst hq
  simpa [Matrix.mulVec, dotProduct, trendConstant] using this

/-- Outputs that are not constant leave a non-zero process variance. -/
lemma sigma2_ne {R C : Matrix (Fin n) (Fin n) ℝ} {F : Matrix (Fin n) (Fin 1) ℝ} {y : Fin n → ℝ} {yStd dof : ℝ} {qr : Matrix (Fin n) (Fin 1) ℝ → Matrix (Fin n) (Fin 1) ℝ × Matrix (Fin 1) (Fin 1) ℝ}
    (hC : IsChol R C) (hq : IsQR (fwdM C F) (qr (fwdM C F)).1 (qr (fwdM C F)).2) (hs : yStd ≠ 0) (hd : dof ≠ 0) (hy : ∀ b, y ≠ F *ᵥ b) : (blup C qr F y yStd dof).sigma2 ≠ 0 := by
  rw [sigma2_eq hC hq]
  refine mul_ne_zero (div_ne_zero ?_ hd) (pow_ne_zero 2 hs)
  unfold wss
  rw [← sum_sq_inv hC]
  intro h0
  have hz := (Finset.sum_eq_zero_iff_of_nonneg fun i _ => sq_nonneg _).1 h0
  have hz2 : C⁻¹ *ᵥ (y - F *ᵥ glsBeta R F y) = 0 := by funext i; simpa using hz i (Finset.mem_univ i)
  have hz3 := congrArg (C *ᵥ ·) hz2
  simp only [mulVec_inv_cancel _ hC.det, Matrix.mulVec_zero] at hz3
  exact hy _ (sub_eq_zero.1 hz3)

/-- **Non-vacuity.** Training succeeds with everything the theorems ask for. -/
theorem mgp_exists (P : Prior) (θ : Fin (m * nx) → ℝ) (X : Fin n → Fin nx → ℝ) (y : Fin n → ℝ) {ν : ℝ} (hν : 0 < ν) (hn : 0 < n) :
    ∃ M, mgpTrain cholStd qrStd qrStd trendConstant P ν (fun _ => 0) θ X y = some M ∧ FullRank M.base.F ∧ ((∃ i j, y i ≠ y j) → M.base.par.sigma2 ≠ 0) := by
  have h : (mgpTrain cholStd qrStd qrStd trendConstant P ν (fun _ => 0) θ X y).isSome := by
    unfold mgpTrain
    rw [Option.isSome_map]
    exact C74_trains_nugget cholStd_complete θ fun i => by simpa using hν
  obtain ⟨M, hM⟩ := Option.isSome_iff_exists.1 h
  obtain ⟨C, hC, hX, hyOS, hk, ht, hFF, hOS, hP⟩ := train_eq (mgp_eq hM).1
  have hF : FullRank M.base.F := by rw [hFF]; exact fullRank_const hn _
  refine ⟨M, hM, hF, fun ⟨i, j, hij⟩ => ?_⟩
  have hCt := cholStd_ok _ _ hC
  rw [hP]
  refine sigma2_ne hCt (qrStd_ok _ (fullRank_fwdM hCt hF)) (by rw [hyOS]; exact scaling_ne y) (by exact_mod_cast hn.ne') fun b hb => hij ?_
  have e : normalise M.base.yOS (y i) = normalise M.base.yOS (y j) := by
    have h1 := congrFun hb i
    have h2 := congrFun hb j
    rw [hFF] at h1 h2
    simp only [Matrix.mulVec, dotProduct, Matrix.of_apply, trendConstant] at h1 h2
    rw [h1, h2]
  have hs : M.base.yOS.2 ≠ 0 := by rw [hyOS]; exact scaling_ne y
  unfold normalise at e
  field_simp at e
  linarith

lemma form_le {N : ℕ} (H : Matrix (Fin N) (Fin N) ℝ) (v : Fin N → ℝ) : v ⬝ᵥ (H *ᵥ v) ≤ (∑ i, ∑ j, |H i j|) * ∑ i, v i ^ 2 := by
  simp only [dotProduct, Matrix.mulVec, Finset.mul_sum]
  rw [← Finset.mul_sum, Finset.sum_mul]
  refine Finset.sum_le_sum fun i _ => ?_
  rw [Finset.sum_mul]
  refine Finset.sum_le_sum fun j _ => ?_
  have hi := Finset.single_le_sum (f := fun i => v i ^ 2) (fun i _ => sq_nonneg _) (Finset.mem_univ i)
  have hj := Finset.single_le_sum (f := fun i => v i ^ 2) (fun i _ => sq_nonneg _) (Finset.mem_univ j)
  have h1 : v i * (H i j * v j) ≤ |H i j| * (|v i| * |v j|) := by
    calc v i * (H i j * v j) ≤ |v i * (H i j * v j)| := le_abs_self _
      _ = |H i j| * (|v i| * |v j|) := by rw [abs_mul, abs_mul]; ring
  have h2 : |v i| * |v j| ≤ ∑ i, v i ^ 2 := by
    have := sq_nonneg (|v i| - |v j|)
    have e1 := sq_abs (v i)
    have e2 := sq_abs (v j)
    nlinarith
  exact h1.trans (mul_le_mul_of_nonneg_left h2 (abs_nonneg _))

/-- **Non-vacuity.** For every training set there is a prior variance for which minus the Hessian is positive definite. -/
theorem posDef_exists (θ : Fin (m * nx) → ℝ) (X : Fin n → Fin nx → ℝ) (y : Fin n → ℝ) {ν : ℝ} (hν : 0 < ν) (hn : 0 < n) :
    ∃ var, 0 < var ∧ ∃ M, mgpTrain cholStd qrStd qrStd trendConstant ⟨0, var⟩ ν (fun _ => 0) θ X y = some M ∧ PosDef M.invSigma := by
  obtain ⟨M0, hM0, -⟩ := mgp_exists ⟨0, 1⟩ θ X y hν hn
  set H : Matrix (Fin (m * nx)) (Fin (m * nx)) ℝ := Matrix.of fun g h => lhHess M0.base.par M0.data.F M0.data.yStd (dR M0.data θ g) (dR M0.data θ h) (pairMatrix (kernHess θ g h) M0.data.Xn) with hH
  set K := ∑ i, ∑ j, |H i j| with hK
  have hK0 : 0 ≤ K := Finset.sum_nonneg fun i _ => Finset.sum_nonneg fun j _ => abs_nonneg _
  refine ⟨2 / (K + 1), by positivity, ?_⟩
  obtain ⟨M, hM, -⟩ := mgp_exists ⟨0, 2 / (K + 1)⟩ θ X y hν hn
  refine ⟨M, hM, fun v hv => ?_⟩
  have hb : M.base = M0.base := Option.some.inj ((mgp_eq hM).1.symm.trans (mgp_eq hM0).1)
  have hd : M.data = M0.data := by rw [(mgp_eq hM).2.1, (mgp_eq hM0).2.1, hb]
  have hS : M.invSigma = -H + (K + 1) • (1 : Matrix (Fin (m * nx)) (Fin (m * nx)) ℝ) := by
    obtain ⟨-, -, -, -, -, -, -, -, -, hS⟩ := mgp_eq hM
    rw [hS]
    ext g h
    rw [C74_inv_sigma, hb, hd]
    unfold hessEntry
    rw [priorHess_eq]
    simp only [Matrix.add_apply, Matrix.neg_apply, Matrix.smul_apply, Matrix.one_apply, hH, Matrix.of_apply, smul_eq_mul]
    have : K + 1 ≠ 0 := by positivity
    by_cases e : g = h
    · rw [if_pos e.symm, if_pos e]; field_simp; ring
    · rw [if_neg (Ne.symm e), if_neg e]; ring
  rw [hS, Matrix.add_mulVec, Matrix.neg_mulVec, Matrix.smul_mulVec, Matrix.one_mulVec, dotProduct_add, dotProduct_neg, dotProduct_smul, smul_eq_mul]
  have hle := form_le H v
  have e : v ⬝ᵥ v = ∑ i, v i ^ 2 := Finset.sum_congr rfl fun i _ => (sq _).symm
  have hpos : 0 < ∑ i, v i ^ 2 := by
    obtain ⟨i, hi⟩ := Function.ne_iff.1 hv
    refine Finset.sum_pos' (fun i _ => sq_nonneg _) ⟨i, Finset.mem_univ i, ?_⟩
    have : v i ≠ 0 := hi
    positivity
  rw [e]
  nlinarith

/-- C74: gradient and Hessian at three points of the plane, for one component and every `theta`. -/
example (θ : Fin (1 * 2) → ℝ) (g h : Fin (1 * 2)) : ∃ M dg, mgpTrain (n := 3) (nx := 2) (m := 1) cholStd qrStd qrStd trendConstant ⟨0, 5 / 4⟩ (1 / 10) (fun _ => 0) θ (fun i k => if i.val = k.val then 1 else 0)
      (fun i => (i : ℕ)) = some M ∧ gradient cholStd qrStd M.data ⟨0, 5 / 4⟩ θ g = some dg ∧
    HasDerivAt (fun s => (objective cholStd qrStd M.data ⟨0, 5 / 4⟩ (Function.update θ g s)).getD 0) dg (θ g) ∧
    HasDerivAt (fun s => (gradient cholStd qrStd M.data ⟨0, 5 / 4⟩ (Function.update θ h s) g).getD 0) (-M.invSigma g h) (θ h) := by
  obtain ⟨M, hM, hF, hs⟩ := mgp_exists (n := 3) (nx := 2) (m := 1) ⟨0, 5 / 4⟩ θ (fun i k => if i.val = k.val then 1 else 0) (fun i => (i : ℕ)) (ν := 1 / 10) (by norm_num) (by norm_num)
  obtain ⟨C, hC, hpar, -⟩ := mgp_chol hM
  obtain ⟨-, hd, -, -, -, -, -, -, -, hS⟩ := mgp_eq hM
  have hp : parAt cholStd qrStd M.data θ = some M.base.par := by
    unfold parAt; rw [hd]; simp only [hC, Option.map_some, hpar]
  have hσ := hs ⟨0, 1, by norm_num⟩
  have hF' : FullRank M.data.F := by rw [hd]; exact hF
  obtain ⟨-, dg, h1, h2⟩ := C74_gradient (P := ⟨0, 5 / 4⟩) cholStd_ok cholStd_complete qrStd_ok hF' θ hp hσ g
  refine ⟨M, dg, hM, h1, h2, ?_⟩
  rw [hS, C74_inv_sigma, neg_neg]
  exact C74_hessian cholStd_ok cholStd_complete qrStd_ok hF' θ hp hσ g h

/-- C75: the same model maps coordinates of its one-dimensional embedding to inputs and back. -/
example (u : Fin 1 → ℝ) : ∃ M, mgpTrain (n := 3) (nx := 2) (m := 1) cholStd qrStd qrStd trendConstant ⟨0, 5 / 4⟩ (1 / 10) (fun _ => 0) ![1, -2] (fun i k => if i.val = k.val then 1 else 0) (fun i => (i : ℕ)) = some M ∧
    M.getU (M.getX u) = u ∧ M.predictValues u = M.predictValues (M.getX u) := by
  obtain ⟨M, hM, -⟩ := mgp_exists (n := 3) (nx := 2) (m := 1) ⟨0, 5 / 4⟩ ![1, -2] (fun i k => if i.val = k.val then 1 else 0) (fun i => (i : ℕ)) (ν := 1 / 10) (by norm_num) (by norm_num)
  have hA : FullRank (embA (m := 1) (nx := 2) ![1, -2]) := by
    intro v hv
    have := congrFun hv 0
    funext l
    have hl : l = 0 := Subsingleton.elim _ _
    subst hl
    simpa [Matrix.mulVec, dotProduct, embA, finProdFinEquiv] using this
  exact ⟨M, hM, C75_roundtrip hM qrStd_ok hA u, (C75_predict_embedding hM qrStd_ok hA (by norm_num) u).1⟩

/-- C75, C76: without nugget two points of the plane are interpolated, and both variances vanish there. -/
example (y : Fin 2 → ℝ) (i : Fin 2) : ∃ M, mgpTrain (n := 2) (nx := 2) (m := 1) cholStd qrStd qrStd trendConstant ⟨0, 5 / 4⟩ 0 (fun _ => 0) ![1, 0] (fun i _ => (i : ℕ)) y = some M ∧
    M.predictValues (fun _ : Fin 2 => ((i : ℕ) : ℝ)) = .ok (y i) ∧ ∀ v, M.predictVariances (fun _ : Fin 2 => ((i : ℕ) : ℝ)) = .ok v → v = (0, 0) := by
  have h : (mgpTrain (n := 2) (nx := 2) (m := 1) cholStd qrStd qrStd trendConstant ⟨0, 5 / 4⟩ 0 (fun _ => 0) ![1, 0] (fun i _ => (i : ℕ)) y).isSome := by
    unfold mgpTrain
    rw [Option.isSome_map]
    refine (C74_trains_iff cholStd_ok cholStd_complete _).2 fun a b hab => ?_
    have := congrFun hab 0
    have hs := scaling_ne (fun i : Fin 2 => ((i : ℕ) : ℝ))
    simp only [dA_apply, Fin.sum_univ_two] at this
    have e0 : (![1, 0] : Fin (1 * 2) → ℝ) (finProdFinEquiv ((0 : Fin 1), (0 : Fin 2))) = 1 := by simp [finProdFinEquiv]
    have e1 : (![1, 0] : Fin (1 * 2) → ℝ) (finProdFinEquiv ((0 : Fin 1), (1 : Fin 2))) = 0 := by simp [finProdFinEquiv]
    rw [e0, e1] at this
    simp only [normalise, mul_one, mul_zero, add_zero] at this
    field_simp at this
    have h2 : ((a : ℕ) : ℝ) = (b : ℕ) := by linarith
    exact Fin.ext (by exact_mod_cast h2)
  obtain ⟨M, hM⟩ := Option.isSome_iff_exists.1 h
  obtain ⟨C, hC, hX, hyOS, hk, ht, hFF, hOS, hP⟩ := train_eq (mgp_eq hM).1
  have hF : FullRank M.base.F := by rw [hFF]; exact fullRank_const (by norm_num) _
  exact ⟨M, hM, C75_interpolates hM cholStd_ok qrStd_ok hF i, fun v hv => C76_zero_at_training hM cholStd_ok qrStd_ok hF i hv⟩

/-- C76: a model whose variances are defined everywhere. -/
example (x : Fin 2 → ℝ) : ∃ var M v, 0 < var ∧ mgpTrain (n := 3) (nx := 2) (m := 1) cholStd qrStd qrStd trendConstant ⟨0, var⟩ (1 / 10) (fun _ => 0) ![1, -2] (fun i k => if i.val = k.val then 1 else 0) (fun i => (i : ℕ)) = some M ∧
    M.predictVariances x = .ok v ∧ 4 / 3 * v.2 ≤ v.1 := by
  obtain ⟨var, hv, M, hM, hp⟩ := posDef_exists (n := 3) (nx := 2) (m := 1) ![1, -2] (fun i k => if i.val = k.val then 1 else 0) (fun i => (i : ℕ)) (ν := 1 / 10) (by norm_num) (by norm_num)
  obtain ⟨v, h1, h2, -⟩ := C76_at_least M hp x
  exact ⟨var, M, v, hv, hM, h1, h2⟩

/-! ## A stationary point with two components -/

lemma inv2 {a r : ℝ} (h1 : a - r ≠ 0) (h2 : a + r ≠ 0) : (!![a, r; r, a] : Matrix (Fin 2) (Fin 2) ℝ)⁻¹ = (1 / ((a - r) * (a + r))) • !![a, -r; -r, a] := by
  refine Matrix.inv_eq_right_inv ?_
  ext i j
  fin_cases i <;> fin_cases j <;> simp [Matrix.mul_apply, Fin.sum_univ_two] <;> field_simp <;> ring

/-- The likelihood part of the gradient for two points with opposite outputs. -/
lemma lhGrad_two {a r δ t : ℝ} (ha : r < a) (hr : 0 < r) (hδ : 0 < δ) (ht : t ≠ 0) {C : Matrix (Fin 2) (Fin 2) ℝ} {qr : Matrix (Fin 2) (Fin 1) ℝ → Matrix (Fin 2) (Fin 1) ℝ × Matrix (Fin 1) (Fin 1) ℝ} (hqr : QROk qr)
    {F : Matrix (Fin 2) (Fin 1) ℝ} (hF : FullRank F) (hF1 : ∀ i j, F i j = 1) {yStd : ℝ} {y : Fin 2 → ℝ} (hy0 : y 0 = t) (hy1 : y 1 = -t) (hC : IsChol !![a, r; r, a] C) (hσ : (blup C qr F y yStd (2 : ℕ)).sigma2 ≠ 0) :
    0 < lhGrad (blup C qr F y yStd (2 : ℕ)) F yStd !![0, -δ; -δ, 0] := by
  rw [lhGrad_eq hC (hqr _ (fullRank_fwdM hC hF)) hσ]
  have h1 : a - r ≠ 0 := by linarith
  have h2 : a + r ≠ 0 := by linarith
  have hRy : (!![a, r; r, a] : Matrix (Fin 2) (Fin 2) ℝ)⁻¹ *ᵥ y = fun i => y i / (a - r) := by
    rw [inv2 h1 h2]
    funext i
    fin_cases i <;> simp [Matrix.mulVec, dotProduct, Fin.sum_univ_two, hy0, hy1] <;> field_simp <;> ring
  have hβ : glsBeta !![a, r; r, a] F y = 0 := by
    unfold glsBeta
    rw [hRy]
    have : Fᵀ *ᵥ (fun i => y i / (a - r)) = 0 := by
      funext j
      simp [Matrix.mulVec, dotProduct, Fin.sum_univ_two, hF1, hy0, hy1]
      ring
    rw [this, Matrix.mulVec_zero]
  have hγ : glsGamma !![a, r; r, a] F y = fun i => y i / (a - r) := by
    unfold glsGamma
    rw [hβ, Matrix.mulVec_zero, sub_zero, hRy]
  have hw : wss !![a, r; r, a] F y 0 = 2 * t ^ 2 / (a - r) := by
    unfold wss
    rw [Matrix.mulVec_zero, sub_zero, hRy]
    simp [dotProduct, Fin.sum_univ_two, hy0, hy1]
    ring
  have htr : ((!![a, r; r, a] : Matrix (Fin 2) (Fin 2) ℝ)⁻¹ * !![0, -δ; -δ, 0]).trace = 2 * r * δ / ((a - r) * (a + r)) := by
    rw [inv2 h1 h2]
    simp [Matrix.trace, Matrix.mul_apply, Fin.sum_univ_two]
    field_simp
    ring
  have hq : (fun i => y i / (a - r)) ⬝ᵥ ((!![0, -δ; -δ, 0] : Matrix (Fin 2) (Fin 2) ℝ) *ᵥ fun i => y i / (a - r)) = 2 * δ * t ^ 2 / (a - r) ^ 2 := by
    simp [Matrix.mulVec, dotProduct, Fin.sum_univ_two, hy0, hy1]
    field_simp
    ring
  rw [hγ, hβ, hw, hq, htr]
  have hl : 0 < Real.log 10 := Real.log_pos (by norm_num)
  have h3 : 0 < a - r := by linarith
  have h4 : 0 < a + r := by linarith
  have e : ((2 : ℕ) : ℝ) / Real.log 10 * (2 * δ * t ^ 2 / (a - r) ^ 2) / (2 * t ^ 2 / (a - r)) - 2 * r * δ / ((a - r) * (a + r)) / Real.log 10 = 2 * δ * a / ((a - r) * (a + r)) / Real.log 10 := by
    push_cast
    field_simp
    ring
  rw [e]
  have : 0 < a := by linarith
  positivity

/-- C77: two points, one input, two components. For a suitable prior variance `theta = (1, 0)` is stationary, so `predict_variances` raises at every point although training succeeded and values are predicted. -/
example : ∃ var M, 0 < var ∧ mgpTrain (n := 2) (nx := 1) (m := 2) cholStd qrStd qrStd trendConstant ⟨0, var⟩ (1 / 10) (fun _ => 0) ![1, 0] (fun i _ => if i = 0 then 0 else 1) (fun i => if i = 0 then 0 else 1) = some M ∧
    (∀ g, gradient (m := 2) cholStd qrStd M.data ⟨0, var⟩ (![1, 0] : Fin (2 * 1) → ℝ) g = some 0) ∧ ∀ x : Fin 1 → ℝ, (∃ v, M.predictValues x = .ok v) ∧ M.predictVariances x = .error "LinAlgError: Matrix is singular" := by
  set θ : Fin (2 * 1) → ℝ := ![1, 0] with hθ
  set X : Fin 2 → Fin 1 → ℝ := fun i _ => if i = 0 then 0 else 1 with hX
  set y : Fin 2 → ℝ := fun i => if i = 0 then 0 else 1 with hy
  obtain ⟨M0, hM0, hF0, hs0⟩ := mgp_exists ⟨0, 1⟩ θ X y (ν := 1 / 10) (by norm_num) (by norm_num)
  have hσ := hs0 ⟨0, 1, by simp [hy]⟩
  obtain ⟨hB, hD, -⟩ := mgp_eq hM0
  obtain ⟨C, hC, hXn, hyOS, hk, ht, hFF, hOS, hP⟩ := train_eq hB
  have hCt := cholStd_ok _ _ hC
  set sx := (scaling fun i => X i 0).2 with hsx
  have hsx0 : sx ≠ 0 := scaling_ne _
  have hd : ∀ i, M0.base.Xn i 0 = (X i 0 - mean fun i => X i 0) / sx := fun i => by
    rw [← hXn]; simp only [Model.norm, hOS]; rfl
  have hdiff : M0.base.Xn 1 0 - M0.base.Xn 0 0 = 1 / sx := by rw [hd, hd]; simp [hX]; ring
  have hys : (scaling y).2 ≠ 0 := scaling_ne _
  have hm : mean y = 1 / 2 := by simp [mean, hy, Fin.sum_univ_two]
  have hy0 : normalise M0.base.yOS (y 0) = -(1 / 2) / (scaling y).2 := by
    rw [hyOS]; unfold normalise
    have : (scaling y).1 = mean y := rfl
    rw [this, hm]; simp [hy]
  have hy1 : normalise M0.base.yOS (y 1) = -(-(1 / 2) / (scaling y).2) := by
    rw [hyOS]; unfold normalise
    have : (scaling y).1 = mean y := rfl
    rw [this, hm]; simp [hy]; ring
  have hdA : ∀ d : Fin 1 → ℝ, ∀ l, (d ᵥ* embA θ) l = if l = 0 then d 0 else 0 := by
    intro d l
    rw [dA_apply]
    fin_cases l <;> simp [hθ, finProdFinEquiv]
  have hkern : ∀ d, kern θ d = Real.exp (-(1 / 2) * d 0 ^ 2) := by
    intro d
    rw [kern_eq]; simp [hdA, Fin.sum_univ_two]
  set r := Real.exp (-(1 / 2) * (1 / sx) ^ 2) with hr
  have hr0 : 0 < r := Real.exp_pos _
  have hr1 : r < 1 + 1 / 10 := by
    have : r ≤ 1 := by rw [hr, Real.exp_le_one_iff]; nlinarith [sq_nonneg (1 / sx)]
    linarith
  have hdiff' : M0.base.Xn 0 0 - M0.base.Xn 1 0 = -(1 / sx) := by rw [← hdiff]; ring
  have hR : corrR (kern θ) (1 / 10) (fun _ => 0) M0.base.Xn = !![1 + 1 / 10, r; r, 1 + 1 / 10] := by
    ext i j
    rw [corrR_apply _ (kern_even θ)]
    fin_cases i <;> fin_cases j <;> simp [hkern, hdiff, hdiff', hr]
  have hG : ∀ g, pairMatrix (kernGrad θ g) M0.base.Xn = if g = 0 then !![0, -((1 / sx) ^ 2 * r); -((1 / sx) ^ 2 * r), 0] else 0 := by
    intro g
    ext i j
    rw [pairMatrix_apply _ (kernGrad_even θ g)]
    fin_cases g <;> fin_cases i <;> fin_cases j <;> simp [kernGrad_eq, hdA, hkern, hdiff, hdiff', hr, Fin.divNat, Fin.modNat] <;> ring
  rw [hR] at hCt
  have hF1 : ∀ i j, M0.base.F i j = 1 := fun i j => by rw [hFF]; rfl
  have hpos := lhGrad_two (δ := (1 / sx) ^ 2 * r) hr1 hr0 (by positivity) (div_ne_zero (by norm_num : (-(1 / 2) : ℝ) ≠ 0) hys) qrStd_ok hF0 hF1 (yStd := M0.base.yOS.2)
    (y := fun i => normalise M0.base.yOS (y i)) hy0 hy1 hCt (by rw [hP] at hσ; exact hσ)
  rw [← hP] at hpos
  set K := lhGrad M0.base.par M0.base.F M0.base.yOS.2 !![0, -((1 / sx) ^ 2 * r); -((1 / sx) ^ 2 * r), 0] with hK
  obtain ⟨M, hM, hF, hs⟩ := mgp_exists ⟨0, 2 / K⟩ θ X y (ν := 1 / 10) (by norm_num) (by norm_num)
  have hb : M.base = M0.base := Option.some.inj ((mgp_eq hM).1.symm.trans hB)
  have hDM : M.data = M0.data := by rw [(mgp_eq hM).2.1, hD, hb]
  have hpar : parAt cholStd qrStd M.data θ = some M0.base.par := by
    unfold parAt; rw [hDM, hD]; simp only [hC, Option.map_some]; rw [hP]
  have hstat : ∀ g, gradient (m := 2) cholStd qrStd M.data ⟨0, 2 / K⟩ θ g = some 0 := by
    intro g
    unfold gradient
    rw [hpar, Option.map_some]
    congr 1
    have e : dR M.data θ g = pairMatrix (kernGrad θ g) M0.base.Xn := by unfold dR; rw [hDM, hD]
    have e2 : M.data.F = M0.base.F := by rw [hDM, hD]
    have e3 : M.data.yStd = M0.base.yOS.2 := by rw [hDM, hD]
    rw [e, hG, e2, e3, priorGrad_eq]
    have hg : ∀ g : Fin (2 * 1), g = 0 ∨ g = 1 := by decide
    rcases hg g with rfl | rfl
    · rw [if_pos rfl, ← hK]
      simp [hθ]
      field_simp
      ring
    · rw [if_neg (by decide)]
      have hq : IsQR (fwdM C M0.base.F) (qrStd (fwdM C M0.base.F)).1 (qrStd (fwdM C M0.base.F)).2 := qrStd_ok _ (fullRank_fwdM hCt hF0)
      have hσ' := hσ
      rw [hP] at hσ' ⊢
      rw [lhGrad_eq hCt hq hσ']
      simp [hθ]
  refine ⟨2 / K, M, by positivity, hM, hstat, fun x => ⟨?_, C77_predict_variances_raises hM cholStd_ok cholStd_complete qrStd_ok hF rfl (hs ⟨0, 1, by simp [hy]⟩) hstat (le_refl 2) ?_ x⟩⟩
  · exact ⟨_, C75_value_is_kriging hM x⟩
  · intro h
    have := congrFun h 0
    simp [hθ] at this

end SMT.Mgp
