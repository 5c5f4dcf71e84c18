import Verif.Mfk.Props

set_option linter.unusedSectionVars false
set_option linter.unusedSimpArgs false
set_option linter.unusedVariables false

/-!
# C71: variances of the multi-fidelity predictor
-/
namespace SMT.Mfk
open Matrix SMT.Common SMT.Krg

variable {nx p q m : ℕ}

/-! ## Specification -/

/-- Second moment of the scale factor `ρ(x) = gᵀβ_ρ` for estimated coefficients: `gᵀ(s (FᵀR⁻¹F)⁻¹ + ββᵀ) g` on the first `q` coefficients. -/
noncomputable def rhoSecondMoment {n : ℕ} (s : ℝ) (R : Matrix (Fin n) (Fin n) ℝ) (F : Matrix (Fin n) (Fin (q + p)) ℝ) (β : Fin (q + p) → ℝ) (g : Fin q → ℝ) : ℝ :=
  ∑ a, ∑ b, g a * g b * (s * (Fᵀ * R⁻¹ * F)⁻¹ (Fin.castAdd p a) (Fin.castAdd p b) + β (Fin.castAdd p a) * β (Fin.castAdd p b))

/-- Universal-Kriging variance of one level with regressors `f`, process variance `s`. -/
noncomputable def Lvl.uk (nugget : ℝ) (L : Lvl nx m) (s : ℝ) (xn : Fin nx → ℝ) (f : Fin m → ℝ) : ℝ := ukVariance s (L.R nugget) L.F (L.corr xn) f

/-! ## Levels -/

theorem level_uk {nugget yStd : ℝ} {L : Lvl nx m} (h : L.Solved nugget yStd) (s : ℝ) (xn : Fin nx → ℝ) (f : Fin m → ℝ) :
    s * (1 - L.rt2 xn + L.u2 xn f) = L.uk nugget s xn f := by
  unfold Lvl.uk ukVariance
  rw [h.rt2, h.u2]

theorem uk_scale {nugget : ℝ} (L : Lvl nx m) (s c : ℝ) (xn : Fin nx → ℝ) (f : Fin m → ℝ) : L.uk nugget (s * c) xn f = L.uk nugget s xn f * c := by
  unfold Lvl.uk ukVariance; ring

theorem rho_spec {nugget yStd : ℝ} {L : Lvl nx (q + p)} (h : L.Solved nugget yStd) (s : ℝ) (g : Fin q → ℝ) :
    L.rhoVar s g = rhoSecondMoment s (L.R nugget) L.F L.par.beta g := by
  unfold Lvl.rhoVar rhoSecondMoment
  simp only [h.gram]
  rw [Finset.sum_comm]
  refine Finset.sum_congr rfl fun b _ => ?_
  rw [Finset.sum_mul]
  exact Finset.sum_congr rfl fun a _ => by ring

/-- All levels of a trained full-rank model are solved. -/
theorem train_solved {lin : Lin} (hlin : LinOk lin) {nugget : ℝ} {poly : (Fin nx → ℝ) → Fin p → ℝ} {rho : (Fin nx → ℝ) → Fin q → ℝ} {d0 : Data nx} {ds : List (Data nx)} {M : Mfk nx p q}
    (hM : train lin nugget poly rho d0 ds = some M) (hF0 : FullRank M.base.F) (hF : ∀ L ∈ M.rest, FullRank L.F) :
    M.base.Solved nugget M.yOS.2 ∧ ∀ L ∈ M.rest, L.Solved nugget M.yOS.2 := by
  obtain ⟨e1, e2, e3, e4, hb, hr⟩ := train_eq hM
  refine ⟨trainLevel_solved hlin hb hF0, fun L hL => ?_⟩
  obtain ⟨r1, r2⟩ := trainRest_get ds M.rest hr
  obtain ⟨l, hl, rfl⟩ := List.getElem_of_mem hL
  exact trainLevel_solved hlin (r2 l (by omega) hl) (hF _ hL)

section
variable {lin : Lin} {nugget : ℝ} {poly : (Fin nx → ℝ) → Fin p → ℝ} {rho : (Fin nx → ℝ) → Fin q → ℝ} {d0 d1 d2 : Data nx} {ds : List (Data nx)} {M : Mfk nx p q}

theorem train_yOS_ne (hM : train lin nugget poly rho d0 ds = some M) : M.yOS.2 ≠ 0 := by
  rw [(train_eq hM).2.1]; exact yScaling_ne d0 ds

/-- **C71** One level: the reported variance is the universal-Kriging variance - with the full correction for the estimated trend (unlike `KRG`, see C41). -/
theorem C71_one_level (hlin : LinOk lin) (hM : train lin nugget poly rho d0 [] = some M) (hF0 : FullRank M.base.F) (pls : Bool) (x : Fin nx → ℝ) :
    M.variance pls x = M.base.uk nugget M.base.par.sigma2 (M.norm x) (M.poly (M.norm x)) := by
  have hy := train_yOS_ne hM
  have hr : M.rest = [] := by
    have := (trainRest_get [] M.rest (train_eq hM).2.2.2.2.2).1
    simpa using this
  have hs := (train_solved hlin hM hF0 (by simp [hr])).1
  unfold Mfk.variance
  rw [hr]
  simp only [mseLoop]
  rw [level_uk hs, ← uk_scale, div_mul_cancel₀ _ (pow_ne_zero 2 hy)]

/-- **C71** Two levels: the reported variance is the recursive co-Kriging variance: second moment of the scale factor times the variance of the low-fidelity prediction, plus the
universal-Kriging variance of the discrepancy, with the low-fidelity prediction among the regressors. -/
theorem C71_two_levels (hlin : LinOk lin) (hM : train lin nugget poly rho d0 [d1] = some M) (hF0 : FullRank M.base.F) (hF : ∀ L ∈ M.rest, FullRank L.F) (x : Fin nx → ℝ) :
    ∃ L, M.rest = [L] ∧ M.variance false x =
      rhoSecondMoment (L.par.sigma2 / M.yOS.2 ^ 2) (L.R nugget) L.F L.par.beta (M.rho (M.norm x)) * M.base.uk nugget M.base.par.sigma2 (M.norm x) (M.poly (M.norm x)) +
        L.uk nugget L.par.sigma2 (M.norm x) (regr M.poly M.rho (mu M.poly M.rho M.base []) (M.norm x)) := by
  have hy := train_yOS_ne hM
  have hlen : M.rest.length = 1 := by
    have := (trainRest_get [d1] M.rest (train_eq hM).2.2.2.2.2).1
    simpa using this
  obtain ⟨L, hL⟩ := List.length_eq_one_iff.1 hlen
  obtain ⟨hs0, hs⟩ := train_solved hlin hM hF0 hF
  have hsL := hs L (by simp [hL])
  refine ⟨L, hL, ?_⟩
  unfold Mfk.variance
  rw [hL]
  simp only [mseLoop, varStep, muCol, Bool.false_eq_true, if_false, if_true]
  rw [level_uk hs0, level_uk hsL, rho_spec hsL]
  rw [add_mul, mul_assoc, ← uk_scale, ← uk_scale, div_mul_cancel₀ _ (pow_ne_zero 2 hy), div_mul_cancel₀ _ (pow_ne_zero 2 hy)]
  rfl

/-- **C71** `MFKPLS` and `MFKPLSK`: at the second level the variance is smaller than the co-Kriging variance by half the process variance times `1 - rᵀR⁻¹r`. -/
theorem C71_pls_half (hlin : LinOk lin) (hM : train lin nugget poly rho d0 [d1] = some M) (hF0 : FullRank M.base.F) (hF : ∀ L ∈ M.rest, FullRank L.F) (x : Fin nx → ℝ) :
    ∃ L, M.rest = [L] ∧ M.variance true x = M.variance false x - L.par.sigma2 / 2 * (1 - L.corr (M.norm x) ⬝ᵥ ((L.R nugget)⁻¹ *ᵥ L.corr (M.norm x))) := by
  have hy := train_yOS_ne hM
  have hlen : M.rest.length = 1 := by
    have := (trainRest_get [d1] M.rest (train_eq hM).2.2.2.2.2).1
    simpa using this
  obtain ⟨L, hL⟩ := List.length_eq_one_iff.1 hlen
  obtain ⟨hs0, hs⟩ := train_solved hlin hM hF0 hF
  have hsL := hs L (by simp [hL])
  refine ⟨L, hL, ?_⟩
  unfold Mfk.variance
  rw [hL]
  simp only [mseLoop, varStep, muCol, Bool.false_eq_true, if_false, if_true]
  rw [← hsL.rt2]
  have hn : (L.n : ℝ) - ((q + p : ℕ) : ℝ) ≠ 0 := by
    have h1 : ((q + p : ℕ) : ℝ) < L.n := by exact_mod_cast hsL.size
    exact (sub_pos.2 h1).ne'
  have hq : L.q2 / (2 * ((L.n : ℝ) - p - q)) = L.par.sigma2 / M.yOS.2 ^ 2 / 2 := by
    rw [hsL.sigma2]
    have e : (L.n : ℝ) - p - q = (L.n : ℝ) - ((q + p : ℕ) : ℝ) := by push_cast; ring
    rw [e]
    field_simp
  rw [hq]
  have hc : L.par.sigma2 / 2 * (1 - L.rt2 (M.norm x)) = L.par.sigma2 / M.yOS.2 ^ 2 / 2 * (1 - L.rt2 (M.norm x)) * M.yOS.2 ^ 2 := by field_simp
  rw [hc]
  ring

/-- At a training point of a level the correlations are a column of the correlation matrix. -/
theorem corr_at_point {L : Lvl nx m} (hk : GoodKernel L.kern) (hnoise : ∀ i, L.noise i = 0) (i : Fin L.n) : L.corr (L.Xn i) = (L.R 0) *ᵥ (Pi.single i 1) := by
  funext j
  rw [Matrix.mulVec_single_one]
  unfold Lvl.corr Lvl.R
  rw [Matrix.col_apply, corrR_apply _ hk.1]
  by_cases h : j = i
  · subst h; simp [hk.2, hnoise]
  · rw [if_neg h, ← hk.1]; congr 1; funext q; ring

theorem uk_at_point {yStd : ℝ} {L : Lvl nx m} (h : L.Solved 0 yStd) (hk : GoodKernel L.kern) (hnoise : ∀ i, L.noise i = 0) (i : Fin L.n) (s : ℝ) (f : Fin m → ℝ) :
    L.uk 0 s (L.Xn i) f = s * ((L.F i - f) ⬝ᵥ ((L.Fᵀ * (L.R 0)⁻¹ * L.F)⁻¹ *ᵥ (L.F i - f))) := by
  unfold Lvl.uk ukVariance
  have hr := corr_at_point hk hnoise i
  have h1 : (L.R 0)⁻¹ *ᵥ L.corr (L.Xn i) = Pi.single i 1 := by
    rw [hr, Matrix.mulVec_mulVec, Matrix.nonsing_inv_mul _ h.det, Matrix.one_mulVec]
  have h2 : L.corr (L.Xn i) ⬝ᵥ Pi.single i 1 = 1 := by
    rw [dotProduct_single_one]
    unfold Lvl.corr
    simp [hk.2]
  have h3 : L.Fᵀ *ᵥ Pi.single i 1 = L.F i := by
    rw [Matrix.mulVec_single_one]; rfl
  simp only [h1, h2, h3]
  ring

/-- What training stores for one level: standardised points, trend matrix, kernel, noise. -/
theorem level_points {lin : Lin} {nugget : ℝ} {xOS : Fin nx → ℝ × ℝ} {yOS : ℝ × ℝ} {trend : (Fin nx → ℝ) → Fin m → ℝ} {d : Data nx} {L : Lvl nx m}
    (h : trainLevel lin nugget xOS yOS trend d = some L) : (∀ i : Fin L.n, ∀ a, L.F i a = trend (L.Xn i) a) ∧ L.kern = d.kern ∧ (∃ e : L.n = d.n, ∀ i, L.Xn (Fin.cast e.symm i) = (fun j => normalise (xOS j) (d.X i j)) ∧
      L.noise (Fin.cast e.symm i) = d.noise i) := by
  obtain ⟨-, C, -, rfl⟩ := trainLevel_eq h
  exact ⟨fun i a => rfl, rfl, rfl, fun i => ⟨rfl, rfl⟩⟩

theorem noise_zero {lin : Lin} {nugget : ℝ} {xOS : Fin nx → ℝ × ℝ} {yOS : ℝ × ℝ} {trend : (Fin nx → ℝ) → Fin m → ℝ} {d : Data nx} {L : Lvl nx m}
    (h : trainLevel lin nugget xOS yOS trend d = some L) (hz : ∀ i, d.noise i = 0) (i : Fin L.n) : L.noise i = 0 := by
  obtain ⟨-, C, -, rfl⟩ := trainLevel_eq h
  exact hz i

theorem uk_zero_at_training {yStd : ℝ} {xOS : Fin nx → ℝ × ℝ} {yOS : ℝ × ℝ} {trend : (Fin nx → ℝ) → Fin m → ℝ} {d : Data nx} {L : Lvl nx m}
    (h : trainLevel lin 0 xOS yOS trend d = some L) (hs : L.Solved 0 yStd) (hk : GoodKernel d.kern) (hz : ∀ i, d.noise i = 0) (i : Fin d.n) (s : ℝ) :
    L.uk 0 s (fun j => normalise (xOS j) (d.X i j)) (trend fun j => normalise (xOS j) (d.X i j)) = 0 := by
  obtain ⟨h1, h2, e, h3⟩ := level_points h
  rw [← (h3 i).1, uk_at_point hs (by rw [h2]; exact hk) (noise_zero h hz)]
  have : L.F (Fin.cast e.symm i) - trend (L.Xn (Fin.cast e.symm i)) = 0 := funext fun a => by rw [Pi.sub_apply, h1, sub_self]; rfl
  rw [this]
  simp

/-- **C71** Two levels, no nugget, no noise: the variance is zero at every high-fidelity training point that is also a low-fidelity training point. -/
theorem C71_zero_at_nested (hlin : LinOk lin) (hM : train lin 0 poly rho d0 [d1] = some M) (hF0 : FullRank M.base.F) (hF : ∀ L ∈ M.rest, FullRank L.F)
    (hk : ∀ d ∈ [d0, d1], GoodKernel d.kern) (hnoise : ∀ d ∈ [d0, d1], ∀ i, d.noise i = 0) (i : Fin d1.n) (j : Fin d0.n) (hij : d1.X i = d0.X j) : M.variance false (d1.X i) = 0 := by
  obtain ⟨L, hL, hv⟩ := C71_two_levels hlin hM hF0 hF (d1.X i)
  obtain ⟨e1, e2, e3, e4, hb, hr⟩ := train_eq hM
  obtain ⟨r1, r2⟩ := trainRest_get [d1] M.rest hr
  obtain ⟨hs0, hs⟩ := train_solved hlin hM hF0 hF
  rw [hv]
  have h0 : M.base.uk 0 M.base.par.sigma2 (M.norm (d1.X i)) (M.poly (M.norm (d1.X i))) = 0 := by
    rw [hij, e3]
    exact uk_zero_at_training hb hs0 (hk d0 (by simp)) (hnoise d0 (by simp)) j _
  have hL0 : M.rest[0]'(by rw [r1]; simp) = L := by simp [hL]
  have ht := r2 0 (by simp) (by rw [r1]; simp)
  rw [hL0] at ht
  have h1 : L.uk 0 L.par.sigma2 (M.norm (d1.X i)) (regr M.poly M.rho (mu M.poly M.rho M.base []) (M.norm (d1.X i))) = 0 := by
    rw [e3, e4]
    exact uk_zero_at_training ht (hs L (by simp [hL])) (hk d1 (by simp)) (hnoise d1 (by simp)) i _
  rw [h0, h1]; ring

/-- **C71** At a high-fidelity training point that is not a low-fidelity one, the prediction is exact (C69) but the reported variance is the low-fidelity variance scaled by the second
moment of the scale factor. -/
theorem C71_not_nested (hlin : LinOk lin) (hM : train lin 0 poly rho d0 [d1] = some M) (hF0 : FullRank M.base.F) (hF : ∀ L ∈ M.rest, FullRank L.F)
    (hk : ∀ d ∈ [d0, d1], GoodKernel d.kern) (hnoise : ∀ d ∈ [d0, d1], ∀ i, d.noise i = 0) (i : Fin d1.n) :
    ∃ L, M.rest = [L] ∧ M.variance false (d1.X i) =
      rhoSecondMoment (L.par.sigma2 / M.yOS.2 ^ 2) (L.R 0) L.F L.par.beta (M.rho (M.norm (d1.X i))) * M.base.uk 0 M.base.par.sigma2 (M.norm (d1.X i)) (M.poly (M.norm (d1.X i))) := by
  obtain ⟨L, hL, hv⟩ := C71_two_levels hlin hM hF0 hF (d1.X i)
  obtain ⟨e1, e2, e3, e4, hb, hr⟩ := train_eq hM
  obtain ⟨r1, r2⟩ := trainRest_get [d1] M.rest hr
  obtain ⟨hs0, hs⟩ := train_solved hlin hM hF0 hF
  have hL0 : M.rest[0]'(by rw [r1]; simp) = L := by simp [hL]
  have ht := r2 0 (by simp) (by rw [r1]; simp)
  rw [hL0] at ht
  have h1 : L.uk 0 L.par.sigma2 (M.norm (d1.X i)) (regr M.poly M.rho (mu M.poly M.rho M.base []) (M.norm (d1.X i))) = 0 := by
    rw [e3, e4]
    exact uk_zero_at_training ht (hs L (by simp [hL])) (hk d1 (by simp)) (hnoise d1 (by simp)) i _
  refine ⟨L, hL, ?_⟩
  rw [hv, h1, add_zero]

/-! ## Non-negativity -/

theorem gram_inv_nonneg {yStd : ℝ} {L : Lvl nx m} (h : L.Solved nugget yStd) (v : Fin m → ℝ) : 0 ≤ v ⬝ᵥ ((L.Fᵀ * (L.R nugget)⁻¹ * L.F)⁻¹ *ᵥ v) := by
  rw [← h.gram]
  have hinv : (L.par.Gᵀ * L.par.G)⁻¹ = (L.par.Gᵀ⁻¹)ᵀ * L.par.Gᵀ⁻¹ := by
    rw [Matrix.mul_inv_rev, Matrix.transpose_nonsing_inv, Matrix.transpose_transpose]
  rw [hinv, ← dot_self_inv]
  exact Finset.sum_nonneg fun _ _ => sq_nonneg _

theorem sigma2_nonneg {yStd : ℝ} {L : Lvl nx m} (h : L.Solved nugget yStd) : 0 ≤ L.par.sigma2 := by
  rw [h.sigma2]
  have h1 : ((m : ℕ) : ℝ) < L.n := by exact_mod_cast h.size
  refine mul_nonneg (div_nonneg (Finset.sum_nonneg fun _ _ => sq_nonneg _) (sub_pos.2 h1).le) (sq_nonneg _)

theorem rhoVar_nonneg {yStd : ℝ} {L : Lvl nx (q + p)} (h : L.Solved nugget yStd) (s : ℝ) (hs : 0 ≤ s) (g : Fin q → ℝ) : 0 ≤ L.rhoVar s g := by
  rw [rho_spec h]
  unfold rhoSecondMoment
  have e : ∑ a, ∑ b, g a * g b * (s * (L.Fᵀ * (L.R nugget)⁻¹ * L.F)⁻¹ (Fin.castAdd p a) (Fin.castAdd p b) + L.par.beta (Fin.castAdd p a) * L.par.beta (Fin.castAdd p b)) =
      s * ((Fin.append g fun _ => 0) ⬝ᵥ ((L.Fᵀ * (L.R nugget)⁻¹ * L.F)⁻¹ *ᵥ (Fin.append g fun _ => 0))) + (∑ a, g a * L.par.beta (Fin.castAdd p a)) ^ 2 := by
    simp only [mul_add, Finset.sum_add_distrib]
    congr 1
    · simp only [dotProduct, Matrix.mulVec, Fin.sum_univ_add, Fin.append_left, Fin.append_right, mul_zero, zero_mul, Finset.sum_const_zero, add_zero]
      rw [Finset.mul_sum]
      refine Finset.sum_congr rfl fun a _ => ?_
      rw [Finset.mul_sum, Finset.mul_sum]
      exact Finset.sum_congr rfl fun b _ => by ring
    · rw [sq, Finset.sum_mul_sum]
      exact Finset.sum_congr rfl fun a _ => Finset.sum_congr rfl fun b _ => by ring
  rw [e]
  exact add_nonneg (mul_nonneg hs (gram_inv_nonneg h _)) (sq_nonneg _)

theorem one_sub_rt2_nonneg {yStd : ℝ} {L : Lvl nx m} (h : L.Solved nugget yStd) (hk : GoodKernel L.kern) (hp : PsdKernel L.kern) (hn : ∀ i, 0 ≤ nugget + L.noise i) (xn : Fin nx → ℝ) :
    0 ≤ 1 - L.rt2 xn := by
  rw [h.rt2]
  exact corr_le_one_psd hk.1 hk.2 hp hn L.Xn h.det xn _ fun i => rfl

/-- **C71** Variances are never negative, for any number of levels, `MFK` and the PLS variants (kernels with `theta ≥ 0`, non-negative nugget and noise). -/
theorem C71_nonneg (hlin : LinOk lin) (hM : train lin nugget poly rho d0 ds = some M) (hF0 : FullRank M.base.F) (hF : ∀ L ∈ M.rest, FullRank L.F)
    (hk : ∀ d ∈ d0 :: ds, GoodKernel d.kern ∧ PsdKernel d.kern ∧ ∀ i, 0 ≤ nugget + d.noise i) (pls : Bool) (x : Fin nx → ℝ) : 0 ≤ M.variance pls x := by
  obtain ⟨e1, e2, e3, e4, hb, hr⟩ := train_eq hM
  obtain ⟨r1, r2⟩ := trainRest_get ds M.rest hr
  obtain ⟨hs0, hs⟩ := train_solved hlin hM hF0 hF
  have prop : ∀ {m : ℕ} {xOS : Fin nx → ℝ × ℝ} {yOS : ℝ × ℝ} {trend : (Fin nx → ℝ) → Fin m → ℝ} {d : Data nx} {L : Lvl nx m}, trainLevel lin nugget xOS yOS trend d = some L →
      (GoodKernel d.kern ∧ PsdKernel d.kern ∧ ∀ i, 0 ≤ nugget + d.noise i) → GoodKernel L.kern ∧ PsdKernel L.kern ∧ ∀ i, 0 ≤ nugget + L.noise i := by
    intro m xOS yOS trend d L h hd
    obtain ⟨-, C, -, rfl⟩ := trainLevel_eq h
    exact hd
  have hb' := prop hb (hk d0 (by simp))
  have hr' : ∀ L ∈ M.rest, GoodKernel L.kern ∧ PsdKernel L.kern ∧ ∀ i, 0 ≤ nugget + L.noise i := fun L hL => by
    obtain ⟨l, hl, rfl⟩ := List.getElem_of_mem hL
    exact prop (r2 l (by omega) hl) (hk _ (by simp))
  unfold Mfk.variance
  simp only
  refine mul_nonneg ?_ (sq_nonneg _)
  have hu : ∀ {m : ℕ} (L : Lvl nx m) (xn : Fin nx → ℝ) (f : Fin m → ℝ), 0 ≤ L.u2 xn f := fun L xn f => Finset.sum_nonneg fun _ _ => sq_nonneg _
  have main : ∀ (l : List (Lvl nx (q + p))), (∀ L ∈ l, L ∈ M.rest) → ∀ i mse, 0 ≤ mse → 0 ≤ mseLoop pls M.poly M.rho M.yOS.2 M.base (M.norm x) i l mse := by
    intro l
    induction l with
    | nil => intro _ i mse h; exact h
    | cons L l ih =>
      intro hl i mse h
      refine ih (fun L hL => hl L (by simp [hL])) (i + 1) _ ?_
      have hL := hl L (by simp)
      obtain ⟨k1, k2, k3⟩ := hr' L hL
      have hsL := hs L hL
      have s2 : 0 ≤ L.par.sigma2 / M.yOS.2 ^ 2 := div_nonneg (sigma2_nonneg hsL) (sq_nonneg _)
      have rt := one_sub_rt2_nonneg hsL k1 k2 k3 (M.norm x)
      have hrho := mul_nonneg (rhoVar_nonneg hsL _ s2 (M.rho (M.norm x))) h
      unfold varStep
      cases pls
      · simp only [Bool.false_eq_true, if_false]
        exact add_nonneg hrho (mul_nonneg s2 (add_nonneg rt (hu _ _ _)))
      · simp only [if_true]
        have hn : (0 : ℝ) ≤ (L.n : ℝ) - p - q := by
          have h1 : ((q + p : ℕ) : ℝ) < L.n := by exact_mod_cast hsL.size
          push_cast at h1; linarith
        exact add_nonneg (add_nonneg hrho (mul_nonneg (div_nonneg (Finset.sum_nonneg fun _ _ => sq_nonneg _) (by linarith)) rt)) (mul_nonneg s2 (hu _ _ _))
  refine main M.rest (fun L hL => hL) 0 _ (mul_nonneg (div_nonneg (sigma2_nonneg hs0) (sq_nonneg _)) (add_nonneg ?_ (hu _ _ _)))
  exact one_sub_rt2_nonneg hs0 hb'.1 hb'.2.1 hb'.2.2 (M.norm x)

/-- **C71** Three levels: at a training point of all three levels (no nugget, no noise) the prediction is exact but the reported variance is `σ² wᵀ(FᵀR⁻¹F)⁻¹w` with `w = (μ₁ g, 0)`, because
the code leaves the second-level prediction in the regressors at zero. It vanishes only if the third process variance or `μ₁ g` does. -/
theorem C71_three_levels (hlin : LinOk lin) (hM : train lin 0 poly rho d0 [d1, d2] = some M) (hF0 : FullRank M.base.F) (hF : ∀ L ∈ M.rest, FullRank L.F)
    (hk : ∀ d ∈ [d0, d1, d2], GoodKernel d.kern) (hnoise : ∀ d ∈ [d0, d1, d2], ∀ i, d.noise i = 0) (i : Fin d2.n) (j : Fin d1.n) (k : Fin d0.n) (hij : d2.X i = d1.X j) (hjk : d1.X j = d0.X k) :
    ∃ L1 L2, M.rest = [L1, L2] ∧
      (let w : Fin (q + p) → ℝ := Fin.append (fun a => rho (M.norm (d2.X i)) a * mu poly rho M.base [L1] (M.norm (d2.X i))) fun _ => 0
       M.variance false (d2.X i) = L2.par.sigma2 * (w ⬝ᵥ ((L2.Fᵀ * (L2.R 0)⁻¹ * L2.F)⁻¹ *ᵥ w)) ∧ (M.variance false (d2.X i) = 0 ↔ L2.par.sigma2 = 0 ∨ w = 0)) := by
  have hy := train_yOS_ne hM
  obtain ⟨e1, e2, e3, e4, hb, hr⟩ := train_eq hM
  obtain ⟨r1, r2⟩ := trainRest_get [d1, d2] M.rest hr
  obtain ⟨hs0, hs⟩ := train_solved hlin hM hF0 hF
  obtain ⟨L1, L2, hL⟩ := (List.length_eq_two (l := M.rest)).1 r1
  refine ⟨L1, L2, hL, ?_⟩
  intro w
  have hs1 := hs L1 (by simp [hL])
  have hs2 := hs L2 (by simp [hL])
  have h1 := r2 0 (by simp) (by rw [r1]; simp)
  have h2 := r2 1 (by simp) (by rw [r1]; simp)
  simp only [hL, List.getElem_cons_zero, List.getElem_cons_succ, List.take_zero, List.take_succ_cons] at h1 h2
  have z0 : ∀ s, M.base.uk 0 s (M.norm (d2.X i)) (M.poly (M.norm (d2.X i))) = 0 := fun s => by
    rw [hij, hjk, e3]; exact uk_zero_at_training hb hs0 (hk d0 (by simp)) (hnoise d0 (by simp)) k _
  have z1 : ∀ s, L1.uk 0 s (M.norm (d2.X i)) (regr M.poly M.rho (mu M.poly M.rho M.base []) (M.norm (d2.X i))) = 0 := fun s => by
    rw [hij, e3, e4]; exact uk_zero_at_training h1 hs1 (hk d1 (by simp)) (hnoise d1 (by simp)) j _
  obtain ⟨p1, p2, e, p3⟩ := level_points h2
  have hXn : M.norm (d2.X i) = L2.Xn (Fin.cast e.symm i) := ((p3 i).1).symm
  have z2 : ∀ s, L2.uk 0 s (M.norm (d2.X i)) (regr M.poly M.rho (fun _ => 0) (M.norm (d2.X i))) = s * (w ⬝ᵥ ((L2.Fᵀ * (L2.R 0)⁻¹ * L2.F)⁻¹ *ᵥ w)) := fun s => by
    rw [hXn, uk_at_point hs2 (by rw [p2]; exact hk d2 (by simp)) (noise_zero h2 (hnoise d2 (by simp)))]
    have : L2.F (Fin.cast e.symm i) - regr M.poly M.rho (fun _ => 0) (L2.Xn (Fin.cast e.symm i)) = w := by
      funext a
      rw [Pi.sub_apply, p1, ← hXn, e3, e4]
      unfold regr
      refine Fin.addCases (fun a => ?_) (fun a => ?_) a
      · simp only [w, Fin.append_left, mul_zero, sub_zero]
      · simp only [w, Fin.append_right, sub_self]
    rw [this]
  have hval : M.variance false (d2.X i) = L2.par.sigma2 * (w ⬝ᵥ ((L2.Fᵀ * (L2.R 0)⁻¹ * L2.F)⁻¹ *ᵥ w)) := by
    unfold Mfk.variance
    rw [hL]
    simp only [mseLoop, varStep, muCol, Bool.false_eq_true, if_false, if_true, Nat.zero_add, one_ne_zero]
    rw [level_uk hs0, level_uk hs1, level_uk hs2, z0, z2]
    have z1' := z1 (L1.par.sigma2 / M.yOS.2 ^ 2)
    have hmu : (mu M.poly M.rho M.base []) = fun xn => M.base.mean xn (M.poly xn) := rfl
    rw [hmu] at z1'
    rw [z1']
    field_simp
    ring
  refine ⟨hval, ?_⟩
  rw [hval, mul_eq_zero]
  refine or_congr Iff.rfl ⟨fun h => ?_, fun h => by rw [h]; simp⟩
  rw [← hs2.gram] at h
  have hinv : (L2.par.Gᵀ * L2.par.G)⁻¹ = (L2.par.Gᵀ⁻¹)ᵀ * L2.par.Gᵀ⁻¹ := by
    rw [Matrix.mul_inv_rev, Matrix.transpose_nonsing_inv, Matrix.transpose_transpose]
  rw [hinv, ← dot_self_inv] at h
  have hz : L2.par.Gᵀ⁻¹ *ᵥ w = 0 := funext fun a => by
    have := (Finset.sum_eq_zero_iff_of_nonneg (fun a _ => sq_nonneg _)).1 h a (Finset.mem_univ a)
    simpa using this
  have hdG : IsUnit L2.par.Gᵀ.det := by rw [Matrix.det_transpose]; exact hs2.detG
  calc w = L2.par.Gᵀ *ᵥ (L2.par.Gᵀ⁻¹ *ᵥ w) := by rw [Matrix.mulVec_mulVec, Matrix.mul_nonsing_inv _ hdG, Matrix.one_mulVec]
    _ = 0 := by rw [hz, Matrix.mulVec_zero]

end

/-- Non-vacuity: the trained two-level model of `Props.lean` meets the hypotheses; its variance vanishes at the common training points. -/
example (y : Fin 3 → ℝ) (i : Fin 3) : ∃ M : Mfk 1 1 1, train linStd 0 trendConstant trendConstant (exData fun i => (i : ℕ)) [exData y] = some M ∧ M.variance false (fun _ => (i : ℕ)) = 0 := by
  obtain ⟨M, hM, h0, h1⟩ := exTrains y
  refine ⟨M, hM, ?_⟩
  exact C71_zero_at_nested linStd_ok hM h0 h1 (by
    intro d hd
    have : d = (exData fun i => (i : ℕ)) ∨ d = exData y := by simpa using hd
    rcases this with rfl | rfl <;> exact exKernel) (by
    intro d hd i
    have : d = (exData fun i => (i : ℕ)) ∨ d = exData y := by simpa using hd
    rcases this with rfl | rfl <;> rfl) i i rfl

/-! ### The three-level defect is real -/

theorem fullRank_two_values {lin : Lin} {nugget : ℝ} {xOS : Fin nx → ℝ × ℝ} {yOS : ℝ × ℝ} {prev : (Fin nx → ℝ) → ℝ} {d : Data nx} {L : Lvl nx (1 + 1)}
    (h : trainLevel lin nugget xOS yOS (regr trendConstant trendConstant prev) d = some L) (a b : Fin L.n) (hab : prev (L.Xn a) ≠ prev (L.Xn b)) : FullRank L.F := by
  obtain ⟨h1, -, -⟩ := level_points h
  intro v hv
  have row : ∀ i : Fin L.n, prev (L.Xn i) * v (Fin.castAdd 1 0) + v (Fin.natAdd 1 0) = 0 := fun i => by
    have := congrFun hv i
    simp only [Matrix.mulVec, dotProduct, h1, Fin.sum_univ_add, regr, Pi.zero_apply, Fin.append_left, Fin.append_right] at this
    simpa [trendConstant] using this
  have ha := row a
  have hb := row b
  have h3 : (prev (L.Xn a) - prev (L.Xn b)) * v (Fin.castAdd 1 0) = 0 := by linear_combination ha - hb
  have hv0 : v (Fin.castAdd 1 0) = 0 := (mul_eq_zero.1 h3).resolve_left (sub_ne_zero.2 hab)
  have hv1 : v (Fin.natAdd 1 0) = 0 := by rw [hv0, mul_zero, zero_add] at ha; exact ha
  funext k
  fin_cases k
  · exact hv0
  · exact hv1

theorem residual_zero {yStd nugget : ℝ} {L : Lvl nx m} (h : L.Solved nugget yStd) (hz : L.par.sigma2 = 0) (hy : yStd ≠ 0) (hR : L.R nugget = L.par.C * L.par.Cᵀ) (hlow : IsLower L.par.C)
    (hd : ∀ i, L.par.C i i ≠ 0) : L.yn = L.F *ᵥ L.par.beta := by
  have hn : (L.n : ℝ) - m ≠ 0 := by
    have h1 : ((m : ℕ) : ℝ) < L.n := by exact_mod_cast h.size
    exact (sub_pos.2 h1).ne'
  have hq : L.q2 = 0 := by
    have := h.sigma2
    rw [hz] at this
    have h2 := (mul_eq_zero.1 this.symm).resolve_right (pow_ne_zero 2 hy)
    exact (div_eq_zero_iff.1 h2).resolve_right hn
  have hres : fwd L.par.C L.yn - fwdM L.par.C L.F *ᵥ L.par.beta = 0 := funext fun i => by
    have := (Finset.sum_eq_zero_iff_of_nonneg (fun a _ => sq_nonneg _)).1 hq i (Finset.mem_univ i)
    simpa using this
  have hdet : IsUnit L.par.C.det := det_ne_of_lower L.par.C hlow hd
  rw [fwd_eq_inv _ _ hlow hd, fwdM_eq _ _ hlow hd, ← Matrix.mulVec_mulVec, ← Matrix.mulVec_sub] at hres
  have := congrArg (fun z => L.par.C *ᵥ z) hres
  simp only [Matrix.mulVec_zero, mulVec_inv_cancel _ hdet] at this
  exact sub_eq_zero.1 this

/-- **C71** The three-level defect is not vacuous: three nested levels of three points on the line, noise-free, with outputs `(0, 1, 2)`, `(0, 1, 2)`, `(0, 0, 1)`: the model trains,
interpolates the high-fidelity data, and reports a non-zero variance at a common training point. -/
theorem C71_three_levels_wrong : ∃ (M : Mfk 1 1 1) (i : Fin 3),
    train linStd 0 trendConstant trendConstant (exData fun i => (i : ℕ)) [exData fun i => (i : ℕ), exData fun i => if i = 2 then 1 else 0] = some M ∧
    M.predict (fun _ => (i : ℕ)) = (if i = 2 then 1 else 0) ∧ M.variance false (fun _ => (i : ℕ)) ≠ 0 := by
  set dA : Data 1 := exData fun i => (i : ℕ) with hdA
  set dC : Data 1 := exData fun i => if i = 2 then 1 else 0 with hdC
  have hinj : Function.Injective (fun (i : Fin 3) (_ : Fin 1) => ((i : ℕ) : ℝ)) := fun i j h => Fin.ext (by have h0 : ((i : ℕ) : ℝ) = ((j : ℕ) : ℝ) := congrFun h 0; exact_mod_cast h0)
  have cases3 : ∀ d ∈ [dA, dA, dC], ∃ y, d = exData y := by
    intro d hd
    have : d = dA ∨ d = dC := by simpa using hd
    rcases this with rfl | rfl
    · exact ⟨_, rfl⟩
    · exact ⟨_, rfl⟩
  have hk : ∀ d ∈ [dA, dA, dC], GoodKernel d.kern := fun d hd => by obtain ⟨y, rfl⟩ := cases3 d hd; exact exKernel
  have hz : ∀ d ∈ [dA, dA, dC], ∀ i, d.noise i = 0 := fun d hd i => by obtain ⟨y, rfl⟩ := cases3 d hd; rfl
  obtain ⟨M, hM⟩ := C69_trains (lin := linStd) linStd_complete (nugget := 0) (poly := trendConstant) (rho := trendConstant) (d0 := dA) (ds := [dA, dC])
    (by simp [hdA, exData]) (by simp [hdA, hdC, exData]) hk (fun d hd => by
      obtain ⟨y, rfl⟩ := cases3 d hd
      exact Or.inr ⟨C73_kernels_pd 10 (by decide) .squarExp (by simp) _ fun _ => one_pos, hinj, fun i => by simp [exData]⟩)
  obtain ⟨e1, e2, e3, e4, hb, hr⟩ := train_eq hM
  obtain ⟨r1, r2⟩ := trainRest_get [dA, dC] M.rest hr
  obtain ⟨L1, L2, hL⟩ := (List.length_eq_two (l := M.rest)).1 r1
  have h1 := r2 0 (by simp) (by rw [r1]; simp)
  have h2 := r2 1 (by simp) (by rw [r1]; simp)
  simp only [hL, List.getElem_cons_zero, List.getElem_cons_succ, List.take_zero, List.take_succ_cons] at h1 h2
  have hy : M.yOS.2 ≠ 0 := train_yOS_ne hM
  have hF0 : FullRank M.base.F := by
    obtain ⟨hlt, C, hC, he⟩ := trainLevel_eq hb
    rw [he]
    exact fullRank_constant (by simp [hdA, exData])
  have hnorm : ∀ u v : ℝ, u ≠ v → normalise M.yOS u ≠ normalise M.yOS v := fun u v huv h => by
    simp only [normalise] at h
    have := (div_left_inj' hy).1 h
    exact huv (by simpa using this)
  -- level predictions at the common points
  have m0 : ∀ i : Fin 3, mu trendConstant trendConstant M.base [] (fun j => normalise (M.xOS j) (dA.X i j)) = normalise M.yOS (i : ℕ) := fun i => by
    obtain ⟨e, hm⟩ := mean_at_training linStd_ok hb hF0 exKernel.1 exKernel.2
    have := hm i
    have hn : dA.noise i = 0 := hz dA (by simp) i
    rw [hn, add_zero, zero_mul, sub_zero] at this
    exact this
  obtain ⟨-, -, eA, pA⟩ := level_points h1
  have hF1 : FullRank L1.F := by
    refine fullRank_two_values h1 (Fin.cast eA.symm (0 : Fin 3)) (Fin.cast eA.symm (1 : Fin 3)) ?_
    rw [(pA (0 : Fin 3)).1, (pA (1 : Fin 3)).1, m0 0, m0 1]
    exact hnorm _ _ (by simp)
  have m1 : ∀ i : Fin 3, mu trendConstant trendConstant M.base [L1] (fun j => normalise (M.xOS j) (dA.X i j)) = normalise M.yOS (i : ℕ) := fun i => by
    obtain ⟨e, hm⟩ := mean_at_training linStd_ok h1 hF1 exKernel.1 exKernel.2
    have := hm i
    have hn : dA.noise i = 0 := hz dA (by simp) i
    rw [hn, add_zero, zero_mul, sub_zero] at this
    rw [show [L1] = [] ++ [L1] from rfl, mu_snoc]
    exact this
  obtain ⟨tC, -, eC, pC⟩ := level_points h2
  have hXC : ∀ i : Fin 3, dC.X i = dA.X i := fun i => rfl
  have hF2 : FullRank L2.F := by
    refine fullRank_two_values h2 (Fin.cast eC.symm (0 : Fin 3)) (Fin.cast eC.symm (1 : Fin 3)) ?_
    rw [(pC (0 : Fin 3)).1, (pC (1 : Fin 3)).1, hXC, hXC, m1 0, m1 1]
    exact hnorm _ _ (by simp)
  have hF : ∀ L ∈ M.rest, FullRank L.F := fun L hLm => by
    rw [hL] at hLm
    have : L = L1 ∨ L = L2 := by simpa using hLm
    rcases this with rfl | rfl
    · exact hF1
    · exact hF2
  -- the third process variance is positive
  have hs2 := (train_solved linStd_ok hM hF0 hF).2 L2 (by simp [hL])
  have hσ : L2.par.sigma2 ≠ 0 := by
    intro h0
    have hres : L2.yn = L2.F *ᵥ L2.par.beta := by
      obtain ⟨-, C, hC, he⟩ := trainLevel_eq h2
      have hCh := linStd_ok.chol _ _ _ hC
      have hpc : L2.par.C = he ▸ L2.par.C := by subst he; rfl
      refine residual_zero hs2 h0 hy ?_ ?_ ?_
      · subst he; exact hCh.mul.symm
      · subst he; exact hCh.lower
      · subst he; exact hCh.diag
    have row : ∀ i : Fin 3, normalise M.yOS (if i = 2 then 1 else 0) = normalise M.yOS (i : ℕ) * L2.par.beta (Fin.castAdd 1 (0 : Fin 1)) + L2.par.beta (Fin.natAdd 1 (0 : Fin 1)) := fun i => by
      have h3 := congrFun hres (Fin.cast eC.symm i)
      have h4 : L2.yn (Fin.cast eC.symm i) = normalise M.yOS (if i = 2 then 1 else 0) := by
        obtain ⟨-, C, -, he⟩ := trainLevel_eq h2
        subst he; rfl
      rw [h4] at h3
      rw [h3]
      have hm := m1 i
      have hx := (pC i).1
      rw [hXC] at hx
      simp only [Matrix.mulVec, dotProduct, tC, Fin.sum_univ_add, regr, Fin.append_left, Fin.append_right]
      rw [hx, hm]
      simp [trendConstant]
    have q0 := row 0
    have q1 := row 1
    have q2 := row 2
    simp [normalise] at q0 q1 q2
    field_simp at q0 q1 q2
    have : (1 : ℝ) = 0 := by linear_combination q2 - 2 * q1 + q0
    exact one_ne_zero this
  -- the point: one of the first two has a non-zero second-level prediction
  have hnz : ∃ i : Fin 3, normalise M.yOS (i : ℕ) ≠ 0 := by
    by_contra hall
    push Not at hall
    exact hnorm ((0 : Fin 3) : ℕ) ((1 : Fin 3) : ℕ) (by simp) ((hall 0).trans (hall 1).symm)
  obtain ⟨i, hi⟩ := hnz
  refine ⟨M, i, hM, ?_, ?_⟩
  · exact C69_high_fidelity linStd_ok hM hF0 hF hk hz (i : Fin 3)
  · obtain ⟨L1', L2', hL', hv⟩ := C71_three_levels linStd_ok hM hF0 hF hk hz (i : Fin 3) (i : Fin 3) (i : Fin 3) rfl rfl
    obtain ⟨rfl, rfl⟩ : L1' = L1 ∧ L2' = L2 := by
      rw [hL] at hL'
      simp at hL'
      exact ⟨hL'.1.symm, hL'.2.symm⟩
    have hiff := hv.2
    intro h0
    rcases hiff.1 h0 with h | h
    · exact hσ h
    · have := congrFun h (Fin.castAdd 1 0)
      simp only [Fin.append_left, trendConstant, one_mul, Pi.zero_apply] at this
      exact hi ((m1 i).symm.trans this)

end SMT.Mfk
