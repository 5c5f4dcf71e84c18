import Verif.Kriging.Definite
import Verif.Kriging.Oracles
import Mathlib.Analysis.SpecialFunctions.Exp

/-!
# Property C41, second part: trained models with a linear trend

For every trained model with one input and a linear trend the reported variance departs from the universal-Kriging variance by any amount, unless the
constant and the input are orthogonal for `R⁻¹`.
-/
namespace SMT.Krg
set_option linter.unusedSectionVars false
set_option linter.unusedSimpArgs false
set_option linter.unusedVariables false
open Matrix Filter Topology
open SMT.Common

section
variable {n : ℕ} {chol : Matrix (Fin n) (Fin n) ℝ → Option (Matrix (Fin n) (Fin n) ℝ)}
  {qr : Matrix (Fin n) (Fin (1 + 1)) ℝ → Matrix (Fin n) (Fin (1 + 1)) ℝ × Matrix (Fin (1 + 1)) (Fin (1 + 1)) ℝ}
  {kern : (Fin 1 → ℝ) → ℝ} {nugget : ℝ} {noise : Fin n → ℝ} {X : Fin n → Fin 1 → ℝ} {y : Fin n → ℝ} {M : Model n 1 (1 + 1)}

/-- The two quadratic forms: with the whole QR factor and with its diagonal only. -/
theorem forms_differ (G : Matrix (Fin (1 + 1)) (Fin (1 + 1)) ℝ) (hU : IsUpper G) (hd : ∀ i, G i i ≠ 0) (v : Fin (1 + 1) → ℝ) :
    ∑ q, (v q / G q q) ^ 2 - v ⬝ᵥ ((Gᵀ * G)⁻¹ *ᵥ v) =
      G 0 1 * v 0 / G 0 0 * (2 * v 1 - G 0 1 * v 0 / G 0 0) / G 1 1 ^ 2 ∧ 0 ≤ v ⬝ᵥ ((Gᵀ * G)⁻¹ *ᵥ v) := by
  have h0 := hd 0
  have h1 := hd 1
  have h10 : G 1 0 = 0 := hU 1 0 (by decide)
  have hinv : (Gᵀ * G)⁻¹ = G⁻¹ * (G⁻¹)ᵀ := by rw [Matrix.mul_inv_rev, Matrix.transpose_nonsing_inv]
  have hGi : G⁻¹ = !![1 / G 0 0, -G 0 1 / (G 0 0 * G 1 1); 0, 1 / G 1 1] := by
    apply Matrix.inv_eq_right_inv
    ext a b
    fin_cases a <;> fin_cases b <;> simp [Matrix.mul_apply, Fin.sum_univ_two, h10] <;> field_simp
    ring
  have e : v ⬝ᵥ ((Gᵀ * G)⁻¹ *ᵥ v) = (v 0 / G 0 0) ^ 2 + ((v 1 - G 0 1 * v 0 / G 0 0) / G 1 1) ^ 2 := by
    rw [hinv, hGi]
    simp [dotProduct, Matrix.mulVec, Fin.sum_univ_two, Matrix.mul_apply]
    field_simp
    ring
  constructor
  · rw [e, Fin.sum_univ_two]
    field_simp
    ring
  · rw [e]; positivity

/-- **C41** One input, linear trend, any kernel that vanishes at infinity, any nugget and noise: if the outputs are not on a line (positive process variance) and the constant
and the standardised input are not orthogonal for `R⁻¹`, there are points at which the reported variance and the universal-Kriging variance differ by more than any given
amount. -/
theorem C41_linear_trend_wrong (hM : train chol qr kern trendLinear nugget noise X y = some M) (hchol : CholOk chol) (hqr : QROk qr) (hF : FullRank M.F)
    (hk : Tendsto (fun t : ℝ => kern fun _ => t) atTop (𝓝 0)) (hσ : 0 < M.par.sigma2) (h01 : (M.Fᵀ * (corrR kern nugget noise M.Xn)⁻¹ * M.F) 0 1 ≠ 0) (c : ℝ) :
    ∃ x, c < |M.variance x - max 0 (ukVariance M.par.sigma2 (corrR kern nugget noise M.Xn) M.F (M.corr (M.norm x)) (M.trend (M.norm x)))| := by
  obtain ⟨C, hC, hX, hy, hkk, ht, hFF, hOS, hP⟩ := train_eq hM
  have hg := gram_eq (F := M.F) (y := fun i => normalise M.yOS (y i)) (yStd := M.yOS.2) (dof := n) (hchol _ _ hC) (hqr _ (fullRank_fwdM (hchol _ _ hC) hF))
  obtain ⟨-, -, -, -, -, hU, hd, hCC, -⟩ := blup_eq (F := M.F) (y := fun i => normalise M.yOS (y i)) (yStd := M.yOS.2) (dof := n) (hchol _ _ hC) (hqr _ (fullRank_fwdM (hchol _ _ hC) hF))
  rw [← hP] at hg hd hU
  set R := corrR kern nugget noise M.Xn with hR
  set G := M.par.G with hG
  set s := M.par.sigma2 with hs
  have h0 := hd 0
  have h1 := hd 1
  have h10 : G 1 0 = 0 := hU 1 0 (by decide)
  have hg01 : G 0 1 ≠ 0 := by
    intro h
    apply h01
    rw [← hg]
    rw [Matrix.mul_apply, Fin.sum_univ_two]
    show G 0 0 * G 0 1 + G 1 0 * G 1 1 = 0
    rw [h, h10]; ring
  -- the point with standardised input t
  let pt : ℝ → Fin 1 → ℝ := fun t j => denormalise (M.xOS j) t
  have hpt : ∀ t, M.norm (pt t) = fun _ => t := by
    intro t; funext j
    show normalise (M.xOS j) (denormalise (M.xOS j) t) = t
    rw [hOS]; exact (C38_roundtrip _ _).2
  let r : ℝ → Fin n → ℝ := fun t => M.corr fun _ => t
  have hr : ∀ i, Tendsto (fun t => r t i) atTop (𝓝 0) := by
    intro i
    have h : Tendsto (fun t : ℝ => t - M.Xn i 0) atTop atTop := tendsto_atTop_add_const_right _ _ tendsto_id
    have h2 := hk.comp h
    refine h2.congr fun t => ?_
    show kern (fun _ => t - M.Xn i 0) = M.kern fun j => t - M.Xn i j
    rw [hkk]
    congr 1
    funext j
    rw [Subsingleton.elim j 0]
  have hm : ∀ {a b : ℕ} (A : Matrix (Fin a) (Fin b) ℝ) (f : ℝ → Fin b → ℝ), (∀ i, Tendsto (fun t => f t i) atTop (𝓝 0)) → ∀ i, Tendsto (fun t => (A *ᵥ f t) i) atTop (𝓝 0) := by
    intro a b A f hf i
    have : Tendsto (fun t => ∑ j, A i j * f t j) atTop (𝓝 (∑ j, A i j * 0)) := tendsto_finset_sum _ fun j _ => (hf j).const_mul _
    simpa [Matrix.mulVec, dotProduct] using this
  have hq : Tendsto (fun t => r t ⬝ᵥ (R⁻¹ *ᵥ r t)) atTop (𝓝 0) := by
    have : Tendsto (fun t => ∑ j, r t j * (R⁻¹ *ᵥ r t) j) atTop (𝓝 (∑ j : Fin n, 0 * 0)) := tendsto_finset_sum _ fun j _ => (hr j).mul (hm R⁻¹ r hr j)
    simpa [dotProduct] using this
  have he := hm M.Fᵀ (fun t => R⁻¹ *ᵥ r t) (hm R⁻¹ r hr)
  set α := |G 0 1 / G 0 0| with hα
  have hα0 : 0 < α := abs_pos.2 (div_ne_zero hg01 h0)
  have hg11 : 0 < G 1 1 ^ 2 := by positivity
  obtain ⟨t, ⟨⟨q1, q2⟩, q3⟩, q4⟩ := (((hq.eventually (gt_mem_nhds one_pos)).and
      ((he 0).eventually (Metric.ball_mem_nhds (0 : ℝ) (show (0 : ℝ) < 1 / 2 by norm_num)))).and ((he 1).eventually (Metric.ball_mem_nhds (0 : ℝ) one_pos))).and
      (eventually_gt_atTop (1 + 2 * α + |c| * G 1 1 ^ 2 / (s * α))) |>.exists
  rw [Real.dist_eq, sub_zero] at q2 q3
  refine ⟨pt t, ?_⟩
  have hrep := C41_reported hM hchol hqr hF (pt t)
  simp only [] at hrep
  rw [hrep, ukVariance, ← hg, hpt t]
  change c < |max 0 (s * (1 - r t ⬝ᵥ (R⁻¹ *ᵥ r t) + ∑ q, ((M.Fᵀ *ᵥ (R⁻¹ *ᵥ r t) - M.trend fun _ => t) q / G q q) ^ 2)) -
    max 0 (s * (1 - r t ⬝ᵥ (R⁻¹ *ᵥ r t) + (M.Fᵀ *ᵥ (R⁻¹ *ᵥ r t) - M.trend fun _ => t) ⬝ᵥ ((Gᵀ * G)⁻¹ *ᵥ (M.Fᵀ *ᵥ (R⁻¹ *ᵥ r t) - M.trend fun _ => t))))|
  have v0 : (M.Fᵀ *ᵥ (R⁻¹ *ᵥ r t) - M.trend fun _ => t) 0 = (M.Fᵀ *ᵥ (R⁻¹ *ᵥ r t)) 0 - 1 := by rw [Pi.sub_apply, ht]; rfl
  have v1 : (M.Fᵀ *ᵥ (R⁻¹ *ᵥ r t) - M.trend fun _ => t) 1 = (M.Fᵀ *ᵥ (R⁻¹ *ᵥ r t)) 1 - t := by rw [Pi.sub_apply, ht]; rfl
  obtain ⟨hdiff, hnn⟩ := forms_differ G hU hd (M.Fᵀ *ᵥ (R⁻¹ *ᵥ r t) - M.trend fun _ => t)
  have hnn2 : 0 ≤ ∑ q, ((M.Fᵀ *ᵥ (R⁻¹ *ᵥ r t) - M.trend fun _ => t) q / G q q) ^ 2 := Finset.sum_nonneg fun _ _ => sq_nonneg _
  rw [v0, v1] at hdiff
  generalize (M.Fᵀ *ᵥ (R⁻¹ *ᵥ r t)) 0 = e0 at *
  generalize (M.Fᵀ *ᵥ (R⁻¹ *ᵥ r t)) 1 = e1 at *
  generalize ∑ q, ((M.Fᵀ *ᵥ (R⁻¹ *ᵥ r t) - M.trend fun _ => t) q / G q q) ^ 2 = Q at *
  generalize (M.Fᵀ *ᵥ (R⁻¹ *ᵥ r t) - M.trend fun _ => t) ⬝ᵥ ((Gᵀ * G)⁻¹ *ᵥ (M.Fᵀ *ᵥ (R⁻¹ *ᵥ r t) - M.trend fun _ => t)) = T at *
  generalize r t ⬝ᵥ (R⁻¹ *ᵥ r t) = w at *
  rw [max_eq_right (mul_nonneg hσ.le (by linarith)), max_eq_right (mul_nonneg hσ.le (by linarith))]
  rw [show s * (1 - w + Q) - s * (1 - w + T) = s * (Q - T) by ring, hdiff, abs_mul, abs_of_pos hσ, abs_div, abs_of_pos hg11, abs_mul]
  have ea : G 0 1 * (e0 - 1) / G 0 0 = G 0 1 / G 0 0 * (e0 - 1) := by ring
  rw [ea, abs_mul, ← hα]
  have b0 := abs_lt.1 q2
  have b1 := abs_lt.1 q3
  have k0 : 1 / 2 ≤ |e0 - 1| := by rw [abs_of_neg (by linarith)]; linarith
  have k0' : |e0 - 1| ≤ 2 := by rw [abs_of_neg (by linarith)]; linarith
  have k1 : 2 * t - 2 - 2 * α ≤ |2 * (e1 - t) - G 0 1 / G 0 0 * (e0 - 1)| := by
    have i1 : |G 0 1 / G 0 0 * (e0 - 1)| ≤ 2 * α := by rw [abs_mul, ← hα]; nlinarith
    have i2 := abs_le.1 i1
    have i3 := neg_abs_le (2 * (e1 - t) - G 0 1 / G 0 0 * (e0 - 1))
    linarith
  have hc2 : 0 ≤ |c| * G 1 1 ^ 2 / (s * α) := by positivity
  have k2 : 2 * (|c| * G 1 1 ^ 2 / (s * α)) < |2 * (e1 - t) - G 0 1 / G 0 0 * (e0 - 1)| := by linarith
  have k3 : α * (1 / 2) * (2 * (|c| * G 1 1 ^ 2 / (s * α))) < α * |e0 - 1| * |2 * (e1 - t) - G 0 1 / G 0 0 * (e0 - 1)| := by
    apply mul_lt_mul' _ k2 (by positivity) (by positivity)
    exact mul_le_mul_of_nonneg_left k0 hα0.le
  have k4 : α * (1 / 2) * (2 * (|c| * G 1 1 ^ 2 / (s * α))) = |c| * G 1 1 ^ 2 / s := by field_simp
  rw [k4] at k3
  calc c ≤ |c| := le_abs_self c
    _ = s * (|c| * G 1 1 ^ 2 / s / G 1 1 ^ 2) := by field_simp
    _ < _ := mul_lt_mul_of_pos_left (div_lt_div_of_pos_right k3 hg11) hσ

end

/-- The process variance is positive if the standardised outputs are not in the span of the trend functions. -/
theorem blup_sigma2_pos {n p dof : ℕ} {R C : Matrix (Fin n) (Fin n) ℝ} {qr : Matrix (Fin n) (Fin p) ℝ → Matrix (Fin n) (Fin p) ℝ × Matrix (Fin p) (Fin p) ℝ} {F : Matrix (Fin n) (Fin p) ℝ}
    {y : Fin n → ℝ} {yStd : ℝ} (hC : IsChol R C) (hqr : IsQR (fwdM C F) (qr (fwdM C F)).1 (qr (fwdM C F)).2) (hdof : 0 < dof) (hys : yStd ≠ 0) (h : ∀ b, F *ᵥ b ≠ y) :
    0 < (blup C qr F y yStd dof).sigma2 := by
  obtain ⟨-, -, -, -, -, hU, hd, hCC, hs⟩ := blup_eq (y := y) (yStd := yStd) (dof := dof) hC hqr
  rw [hs]
  have hdet := hC.det
  generalize (blup C qr F y yStd dof).beta = b at *
  obtain ⟨i, hi⟩ : ∃ i, (C⁻¹ *ᵥ y - (C⁻¹ * F) *ᵥ b) i ≠ 0 := by
    by_contra hc
    push Not at hc
    have h0 : C⁻¹ *ᵥ y = (C⁻¹ * F) *ᵥ b := sub_eq_zero.1 (funext hc)
    apply h b
    have h1 := congrArg (fun v => C *ᵥ v) h0
    rw [Matrix.mulVec_mulVec, Matrix.mulVec_mulVec, ← Matrix.mul_assoc, Matrix.mul_nonsing_inv C hdet, Matrix.one_mulVec, Matrix.one_mul] at h1
    exact h1.symm
  have hn : 0 < (dof : ℝ) := by exact_mod_cast hdof
  have hpos : 0 < ∑ i, (C⁻¹ *ᵥ y - (C⁻¹ * F) *ᵥ b) i ^ 2 :=
    Finset.sum_pos' (fun _ _ => sq_nonneg _) ⟨i, Finset.mem_univ _, sq_pos_of_ne_zero hi⟩
  exact mul_pos (div_pos hpos hn) (sq_pos_of_ne_zero hys)

theorem scaling_358 : scaling ![(3 : ℝ), 5, -8] = (0, 7) := by
  have hm : mean ![(3 : ℝ), 5, -8] = 0 := by simp [mean, Fin.sum_univ_three]; norm_num
  have hs : std1 ![(3 : ℝ), 5, -8] = 7 := by
    unfold std1
    rw [hm]
    rw [Fin.sum_univ_three, show ((![(3 : ℝ), 5, -8] 0 - 0) ^ 2 + (![(3 : ℝ), 5, -8] 1 - 0) ^ 2 + (![(3 : ℝ), 5, -8] 2 - 0) ^ 2) / (((3 : ℕ) : ℝ) - 1) = 7 ^ 2 by simp; norm_num]
    exact Real.sqrt_sq (by norm_num)
  unfold scaling
  simp only [hm, hs]
  norm_num

/-- The hypotheses of `C41_linear_trend_wrong` are met by a model trained by the package: squared-exponential kernel, inputs 3, 5, -8, outputs 0, 0, 1, no nugget, no noise. -/
theorem C41_linear_trend_instance (lim : ℕ) (hl : 0 < lim) : ∃ θ : ℝ, 0 < θ ∧ ∃ M : Model 3 1 (1 + 1),
    train cholStd qrStd (kernOf lim hl .squarExp fun _ : Fin 1 => θ) trendLinear 0 (fun _ => 0) (fun (i : Fin 3) (_ : Fin 1) => ![(3 : ℝ), 5, -8] i) ![0, 0, 1] = some M ∧ FullRank M.F ∧ 0 < M.par.sigma2 ∧
      Tendsto (fun t : ℝ => kernOf lim hl .squarExp (fun _ : Fin 1 => θ) fun _ => t) atTop (𝓝 0) ∧
      (M.Fᵀ * (corrR (kernOf lim hl .squarExp fun _ : Fin 1 => θ) 0 (fun _ => 0) M.Xn)⁻¹ * M.F) 0 1 ≠ 0 ∧
      ∀ c, ∃ x : Fin 1 → ℝ, c < |M.variance x - max 0 (ukVariance M.par.sigma2 (corrR (kernOf lim hl .squarExp fun _ : Fin 1 => θ) 0 (fun _ => 0) M.Xn) M.F (M.corr (M.norm x)) (M.trend (M.norm x)))| := by
  have hlog : 0 < Real.log 2 := Real.log_pos (by norm_num)
  refine ⟨49 / 4 * Real.log 2, by positivity, ?_⟩
  set θ := 49 / 4 * Real.log 2 with hθ
  have hθ0 : 0 < θ := by positivity
  have hXn : ∀ i, (fun j : Fin 1 => normalise (scaling fun i => ![(3 : ℝ), 5, -8] i) (![(3 : ℝ), 5, -8] i)) = fun _ => ![(3 : ℝ) / 7, 5 / 7, -8 / 7] i := by
    intro i
    funext j
    rw [show (fun i => ![(3 : ℝ), 5, -8] i) = ![(3 : ℝ), 5, -8] from rfl, scaling_358]
    fin_cases i <;> simp [normalise]
  obtain ⟨M, hM⟩ := Option.isSome_iff_exists.1 ((C73_trains_iff (qr := qrStd) (trend := trendLinear) (X := fun (i : Fin 3) (_ : Fin 1) => ![(3 : ℝ), 5, -8] i) (y := ![0, 0, 1])
    cholStd_ok cholStd_complete lim hl .squarExp (by decide) (fun _ => θ) fun _ => hθ0).2 (by
      intro i j h
      have := congrFun h 0
      fin_cases i <;> fin_cases j <;> simp at this ⊢ <;> norm_num at this))
  obtain ⟨C, hC, hX, hy, hkk, ht, hFF, hOS, hP⟩ := train_eq hM
  have hMX : M.Xn = fun i _ => ![(3 : ℝ) / 7, 5 / 7, -8 / 7] i := by
    funext i
    rw [← hX i, ← hXn i]
    funext j
    show normalise (M.xOS j) _ = _
    rw [hOS]
  have hFe : M.F = !![1, 3 / 7; 1, 5 / 7; 1, -8 / 7] := by
    rw [hFF, hMX]
    ext i q
    fin_cases i <;> fin_cases q <;> rfl
  have hFR : FullRank M.F := by
    intro v hv
    rw [hFe] at hv
    have a0 := congrFun hv 0
    have a1 := congrFun hv 1
    simp [Matrix.mulVec, dotProduct, Fin.sum_univ_two] at a0 a1
    have e1 : v 1 = 0 := by linarith
    have e0 : v 0 = 0 := by rw [e1] at a0; linarith
    funext q
    fin_cases q
    · exact e0
    · exact e1
  have hσ : 0 < M.par.sigma2 := by
    rw [hP]
    refine blup_sigma2_pos (cholStd_ok _ _ hC) (qrStd_ok _ (fullRank_fwdM (cholStd_ok _ _ hC) hFR)) (by norm_num) (by rw [hy]; exact scaling_ne _) fun b hb => ?_
    rw [hFe, hy] at hb
    have a0 := congrFun hb 0
    have a1 := congrFun hb 1
    have a2 := congrFun hb 2
    simp [Matrix.mulVec, dotProduct, Fin.sum_univ_two, normalise] at a0 a1 a2
    have hs : (scaling ![(0 : ℝ), 0, 1]).2 ≠ 0 := scaling_ne _
    have e1 : b 1 = 0 := by linarith
    rw [e1] at a0 a2
    have : (1 - (scaling ![(0 : ℝ), 0, 1]).1) / (scaling ![(0 : ℝ), 0, 1]).2 = -(scaling ![(0 : ℝ), 0, 1]).1 / (scaling ![(0 : ℝ), 0, 1]).2 := by
      rw [← a0, ← a2]; ring
    rw [div_left_inj' hs] at this
    linarith
  have hk : Tendsto (fun t : ℝ => kernOf lim hl .squarExp (fun _ : Fin 1 => θ) fun _ => t) atTop (𝓝 0) := by
    rw [kernOf_squarExp]
    have : (fun t : ℝ => sqKern (fun _ : Fin 1 => θ) fun _ => t) = fun t => Real.exp (-(θ * t ^ 2)) := by
      funext t; simp [sqKern]
    rw [this]
    refine Real.tendsto_exp_neg_atTop_nhds_zero.comp ?_
    exact Tendsto.const_mul_atTop hθ0 (tendsto_pow_atTop (by norm_num))
  have h01 : (M.Fᵀ * (corrR (kernOf lim hl .squarExp fun _ : Fin 1 => θ) 0 (fun _ => 0) M.Xn)⁻¹ * M.F) 0 1 ≠ 0 := by
    have hdet := (cholStd_ok _ _ hC).detR
    have hsym := (cholStd_ok _ _ hC).symm
    set R := corrR (kernOf lim hl .squarExp fun _ : Fin 1 => θ) 0 (fun _ => 0) M.Xn with hR
    set b := Real.exp (-(θ * (11 / 7) ^ 2)) with hb
    set c := Real.exp (-(θ * (13 / 7) ^ 2)) with hc
    have ha : Real.exp (-(θ * (2 / 7) ^ 2)) = 1 / 2 := by
      rw [hθ, show -(49 / 4 * Real.log 2 * (2 / 7) ^ 2) = -Real.log 2 by ring, Real.exp_neg, Real.exp_log (by norm_num)]; norm_num
    have hs : ∀ m : ℕ, ∀ z : ℝ, (m : ℝ) ≤ 49 / 4 * z → 0 ≤ z → Real.exp (-(θ * z)) ≤ (1 / 2) ^ m := by
      intro m z hm hz
      rw [show (1 / 2 : ℝ) ^ m = Real.exp (-(m * Real.log 2)) by
        rw [Real.exp_neg, mul_comm, Real.exp_mul, Real.exp_log (by norm_num), Real.rpow_natCast]; simp]
      apply Real.exp_le_exp.2
      rw [hθ]
      nlinarith
    have hb1 : b ≤ 1 / 64 := by have := hs 6 ((11 / 7) ^ 2) (by norm_num) (by positivity); exact this.trans (by norm_num)
    have hc1 : c ≤ 1 / 64 := by have := hs 6 ((13 / 7) ^ 2) (by norm_num) (by positivity); exact this.trans (by norm_num)
    have hb0 : 0 < b := Real.exp_pos _
    have hc0 : 0 < c := Real.exp_pos _
    have hRe : R = !![1, 1 / 2, b; 1 / 2, 1, c; b, c, 1] := by
      ext i j
      rw [hR, corrR_apply _ (C39_kernels lim hl .squarExp (by decide) _).1, kernOf_squarExp, hMX]
      fin_cases i <;> fin_cases j <;> simp [sqKern] <;> norm_num <;> first
        | (rw [← ha]; congr 1; ring) | (rw [hb]; congr 1; ring) | (rw [hc]; congr 1; ring)
    -- the row sums of the adjugate
    set s : Fin 3 → ℝ := ![(1 - c) * (1 + c - 1 / 2 - b), (1 - b) * (1 + b - 1 / 2 - c), (1 - 1 / 2) * (1 + 1 / 2 - b - c)] with hsdef
    have hRs : R *ᵥ s = R.det • (fun _ => (1 : ℝ)) := by
      rw [hRe, Matrix.det_fin_three]
      funext i
      fin_cases i <;> simp [Matrix.mulVec, dotProduct, Fin.sum_univ_three, hsdef] <;> ring
    have hRi : R⁻¹ *ᵥ (fun _ => (1 : ℝ)) = R.det⁻¹ • s := by
      have h1 : R⁻¹ *ᵥ (R *ᵥ s) = s := by rw [Matrix.mulVec_mulVec, Matrix.nonsing_inv_mul R hdet, Matrix.one_mulVec]
      rw [hRs, Matrix.mulVec_smul] at h1
      rw [← h1, smul_smul, inv_mul_cancel₀ hdet.ne_zero, one_smul]
    have hcol : (fun i => M.F i 0) = fun _ => (1 : ℝ) := by rw [hFe]; funext i; fin_cases i <;> rfl
    have hval : (M.Fᵀ * R⁻¹ * M.F) 0 1 = (R⁻¹ *ᵥ fun _ => (1 : ℝ)) ⬝ᵥ fun i => M.F i 1 := by
      have hinvsym : (R⁻¹)ᵀ = R⁻¹ := by rw [Matrix.transpose_nonsing_inv, hsym]
      rw [Matrix.mul_apply]
      refine Finset.sum_congr rfl fun k _ => ?_
      congr 1
      rw [← hcol, Matrix.mul_apply, Matrix.mulVec, dotProduct]
      refine Finset.sum_congr rfl fun j _ => ?_
      rw [← hinvsym]; simp only [Matrix.transpose_apply]; rw [mul_comm]
      congr 1
      exact congrFun (congrFun hinvsym j) k |>.symm ▸ rfl
    rw [hval, hRi, smul_dotProduct]
    refine smul_ne_zero (inv_ne_zero hdet.ne_zero) ?_
    rw [hFe]
    simp [dotProduct, Fin.sum_univ_three, hsdef]
    intro h
    nlinarith
  exact ⟨M, hM, hFR, hσ, hk, h01, C41_linear_trend_wrong hM cholStd_ok qrStd_ok hFR hk hσ h01⟩

end SMT.Krg
