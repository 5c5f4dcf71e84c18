import Verif.Mfk.UnitsProps

set_option linter.unusedSectionVars false
set_option linter.unusedSimpArgs false
set_option linter.unusedVariables false

/-!
# C96: fidelity levels that differ by a scale factor and a trend; a single level
-/
namespace SMT.Mfk
open Matrix SMT.Common SMT.Krg

variable {nx p q m : ℕ}

/-- When the outputs of a level are an exact combination of its regressors, training finds that combination and nothing else. -/
theorem trainLevel_exact {lin : Lin} (hlin : LinOk lin) {nugget : ℝ} {xOS : Fin nx → ℝ × ℝ} {yOS : ℝ × ℝ} {trend : (Fin nx → ℝ) → Fin m → ℝ} {d : Data nx} {L : Lvl nx m}
    (h : trainLevel lin nugget xOS yOS trend d = some L) (hF : FullRank L.F) (b : Fin m → ℝ)
    (hb : ∀ i, normalise yOS (d.y i) = (trend fun j => normalise (xOS j) (d.X i j)) ⬝ᵥ b) : L.par.beta = b ∧ L.par.gamma = 0 ∧ L.par.sigma2 = 0 := by
  have hs := trainLevel_solved hlin h hF
  obtain ⟨ho, hq⟩ := trainLevel_extra hlin h hF
  have hy : L.yn = L.F *ᵥ b := by
    obtain ⟨hn, C, hC, rfl⟩ := trainLevel_eq h
    funext i
    exact hb i
  have hg := hs.gls
  rw [hy, ← Matrix.mulVec_sub] at hg
  have hgam : L.par.gamma = (L.R nugget)⁻¹ *ᵥ (L.F *ᵥ (b - L.par.beta)) := by
    rw [← hg, Matrix.mulVec_mulVec, Matrix.nonsing_inv_mul _ hs.det, Matrix.one_mulVec]
  have hz : (L.Fᵀ * (L.R nugget)⁻¹ * L.F) *ᵥ (b - L.par.beta) = 0 := by
    rw [← Matrix.mulVec_mulVec, ← Matrix.mulVec_mulVec, ← hgam, ho]
  have hdet : IsUnit (L.Fᵀ * (L.R nugget)⁻¹ * L.F).det := by
    rw [← hs.gram, Matrix.det_mul, Matrix.det_transpose]; exact hs.detG.mul hs.detG
  have hbb : b - L.par.beta = 0 := by
    have := congrArg (fun v => (L.Fᵀ * (L.R nugget)⁻¹ * L.F)⁻¹ *ᵥ v) hz
    simpa only [Matrix.mulVec_mulVec, Matrix.nonsing_inv_mul _ hdet, Matrix.one_mulVec, Matrix.mulVec_zero] using this
  have hgz : L.par.gamma = 0 := by rw [hgam, hbb, Matrix.mulVec_zero, Matrix.mulVec_zero]
  refine ⟨(sub_eq_zero.1 hbb).symm, hgz, ?_⟩
  rw [hs.sigma2, hq, hgz, Matrix.mulVec_zero, dotProduct_zero, zero_div, zero_mul]

section
variable {lin : Lin} {nugget : ℝ} {poly : (Fin nx → ℝ) → Fin p → ℝ} {rho : (Fin nx → ℝ) → Fin q → ℝ} {d0 : Data nx} {ds : List (Data nx)} {M : Mfk nx p q}

theorem level_succ (M : Mfk nx p q) (l : ℕ) (hl : l < M.rest.length) (x : Fin nx → ℝ) :
    mu M.poly M.rho M.base (M.rest.take l) (M.norm x) * M.yOS.2 + M.yOS.1 = M.level (l + 1) x := rfl

/-- **C96** If the outputs of a level are, at its training points, a scale factor (a combination of the functions of `rho_regr`) times the prediction of the level below plus a combination of
the trend functions, then the prediction is that expression at *every* point, and the process variance of the level is 0. For every nugget and noise. -/
theorem C96_discrepancy (hlin : LinOk lin) (hM : train lin nugget poly rho d0 ds = some M) (hF : ∀ L ∈ M.rest, FullRank L.F) (l : ℕ) (hl : l < ds.length) (hl' : l < M.rest.length)
    (s : Fin q → ℝ) (t : Fin p → ℝ)
    (hy : ∀ i : Fin ds[l].n, ds[l].y i = M.yOS.1 + (∑ k, rho (M.norm (ds[l].X i)) k * s k) * (M.level (l + 1) (ds[l].X i) - M.yOS.1) + M.yOS.2 * ∑ j, poly (M.norm (ds[l].X i)) j * t j) :
    (∀ x, M.level (l + 2) x = M.yOS.1 + (∑ k, rho (M.norm x) k * s k) * (M.level (l + 1) x - M.yOS.1) + M.yOS.2 * ∑ j, poly (M.norm x) j * t j) ∧
      M.rest[l].par.sigma2 = 0 ∧ (∀ k, M.rest[l].par.beta (Fin.castAdd p k) = s k) := by
  obtain ⟨e1, e2, e3, e4, hb, hr⟩ := train_eq hM
  have hy0 : M.yOS.2 ≠ 0 := by rw [e2]; exact yScaling_ne d0 ds
  obtain ⟨r1, r2⟩ := trainRest_get ds M.rest hr
  have hex := trainLevel_exact hlin (r2 l hl hl') (hF _ (List.getElem_mem hl')) (Fin.append s t) fun i => by
    have h0 := hy i
    have hsub : M.level (l + 1) (ds[l].X i) - M.yOS.1 = mu poly rho M.base (M.rest.take l) (M.norm (ds[l].X i)) * M.yOS.2 := by
      rw [← level_succ M l hl', e3, e4]; ring
    rw [hsub] at h0
    unfold normalise regr
    rw [h0]
    unfold dotProduct
    rw [Fin.sum_univ_add]
    simp only [Fin.append_left, Fin.append_right]
    have hn : (fun j => (ds[l].X i j - (M.xOS j).1) / (M.xOS j).2) = M.norm (ds[l].X i) := rfl
    rw [hn]
    have hsum : ∑ k, rho (M.norm (ds[l].X i)) k * mu poly rho M.base (M.rest.take l) (M.norm (ds[l].X i)) * s k =
        (∑ k, rho (M.norm (ds[l].X i)) k * s k) * mu poly rho M.base (M.rest.take l) (M.norm (ds[l].X i)) := by
      rw [Finset.sum_mul]; exact Finset.sum_congr rfl fun k _ => by ring
    rw [hsum]
    field_simp
    ring
  refine ⟨fun x => ?_, hex.2.2, fun k => by rw [hex.1, Fin.append_left]⟩
  rw [C69_recursion M l hl' x, hex.1, hex.2.1, e3, e4]
  simp only [Fin.append_left, Fin.append_right, Pi.zero_apply, mul_zero, Finset.sum_const_zero, add_zero]

/-- **C96** Constant scale factor and constant trend (the defaults): if the outputs of a level are an affine function of the prediction of the level below at its training points, they are so
everywhere. -/
theorem C96_affine {M : Mfk nx 1 1} (hlin : LinOk lin) (hM : train lin nugget trendConstant trendConstant d0 ds = some M) (hF : ∀ L ∈ M.rest, FullRank L.F) (l : ℕ) (hl : l < ds.length)
    (α β : ℝ) (hy : ∀ i : Fin ds[l].n, ds[l].y i = α * M.level (l + 1) (ds[l].X i) + β) (x : Fin nx → ℝ) : M.level (l + 2) x = α * M.level (l + 1) x + β := by
  obtain ⟨e1, e2, e3, e4, hb, hr⟩ := train_eq hM
  have hy0 : M.yOS.2 ≠ 0 := by rw [e2]; exact yScaling_ne d0 ds
  have hl' : l < M.rest.length := by rw [(trainRest_get ds M.rest hr).1]; exact hl
  have key : ∀ v, M.yOS.1 + (∑ k : Fin 1, (1 : ℝ) * (fun _ => α) k) * (v - M.yOS.1) + M.yOS.2 * ∑ j : Fin 1, (1 : ℝ) * (fun _ => (β - M.yOS.1 + α * M.yOS.1) / M.yOS.2) j = α * v + β := by
    intro v
    simp only [Finset.univ_unique, Finset.sum_singleton, one_mul]
    field_simp
    ring
  have h := (C96_discrepancy hlin hM hF l hl hl' (fun _ => α) (fun _ => (β - M.yOS.1 + α * M.yOS.1) / M.yOS.2) fun i => by rw [hy i]; exact (key _).symm).1 x
  rw [h]
  exact key _

/-- **C96** In that case the reported variance of a two-level model is `α²` times the variance of the low-fidelity prediction: nothing is added for the second level. -/
theorem C96_affine_variance {M : Mfk nx 1 1} {d1 : Data nx} (hlin : LinOk lin) (hM : train lin nugget trendConstant trendConstant d0 [d1] = some M) (hF0 : FullRank M.base.F)
    (hF : ∀ L ∈ M.rest, FullRank L.F) (α β : ℝ) (hy : ∀ i, d1.y i = α * M.level 1 (d1.X i) + β) (x : Fin nx → ℝ) :
    M.variance false x = α ^ 2 * M.base.uk nugget M.base.par.sigma2 (M.norm x) (fun _ => 1) := by
  obtain ⟨e1, e2, e3, e4, hb, hr⟩ := train_eq hM
  have hy0 : M.yOS.2 ≠ 0 := by rw [e2]; exact yScaling_ne d0 [d1]
  obtain ⟨L, hL, hv⟩ := C71_two_levels hlin hM hF0 hF x
  have hl' : 0 < M.rest.length := by rw [hL]; simp
  have hd := C96_discrepancy hlin hM hF 0 (by simp) hl' (fun _ => α) (fun _ => (β - M.yOS.1 + α * M.yOS.1) / M.yOS.2) fun i => by
    have h0 : ([d1][0]).y i = α * M.level 1 (([d1][0]).X i) + β := hy i
    rw [h0]
    simp only [trendConstant, Finset.univ_unique, Finset.sum_singleton, one_mul]
    field_simp
    ring
  have hL0 : M.rest[0] = L := by simp [hL]
  rw [hL0] at hd
  have h1 : rhoSecondMoment (0 / M.yOS.2 ^ 2) (L.R nugget) L.F L.par.beta (trendConstant (M.norm x)) = α ^ 2 := by
    unfold rhoSecondMoment
    simp only [Finset.univ_unique, Finset.sum_singleton, hd.2.2, zero_div, zero_mul, zero_add, trendConstant]
    ring
  have h2 : ∀ f, L.uk nugget 0 (M.norm x) f = 0 := fun f => by unfold Lvl.uk ukVariance; ring
  rw [hv, hd.2.1, e3, e4, h1, h2, add_zero]
  rfl

end

/-! ## One level -/

theorem scalingL_ofFn {n : ℕ} (f : Fin n → ℝ) : scalingL (List.ofFn f) = scaling f := by
  have h : ∀ (l : List ℝ) (hn : l.length = n), (∀ i : Fin n, l.get (Fin.cast hn.symm i) = f i) → scalingL l = scaling f := by
    rintro l rfl h
    unfold scalingL
    congr 1
    funext i
    exact h i
  exact h _ List.length_ofFn fun i => by simp

/-- **C96** With a single level the model is `KRG` on the same data: for the same hyper-parameters it trains exactly when `KRG` trains and there are more points than trend functions, it predicts
the same values, and its process variance is `n / (n - p)` times the one of `KRG`. -/
theorem C96_one_level (lin : Lin) (nugget : ℝ) (poly : (Fin nx → ℝ) → Fin p → ℝ) (rho : (Fin nx → ℝ) → Fin q → ℝ) (d : Data nx) :
    ((train lin nugget poly rho d []).isSome ↔ p < d.n ∧ (Krg.train lin.chol lin.qr d.kern poly nugget d.noise d.X d.y).isSome) ∧
    ∀ M M', train lin nugget poly rho d [] = some M → Krg.train lin.chol lin.qr d.kern poly nugget d.noise d.X d.y = some M' →
      (∀ x, M.predict x = M'.predict x) ∧ ((d.n : ℝ) - p) * M.base.par.sigma2 = d.n * M'.par.sigma2 := by
  have hx : ∀ j, scalingL (([d] : List (Data nx)).flatMap fun d => List.ofFn fun i => d.X i j) = scaling fun i => d.X i j := fun j => by
    rw [List.flatMap_cons, List.flatMap_nil, List.append_nil, scalingL_ofFn]
  have hy : scalingL (([d] : List (Data nx)).flatMap fun d => List.ofFn d.y) = scaling d.y := by
    rw [List.flatMap_cons, List.flatMap_nil, List.append_nil, scalingL_ofFn]
  have he : train lin nugget poly rho d [] = (trainLevel lin nugget (fun j => scaling fun i => d.X i j) (scaling d.y) poly d).map fun base =>
      { xOS := fun j => scaling fun i => d.X i j, yOS := scaling d.y, poly := poly, rho := rho, base := base, rest := [] } := by
    unfold train
    simp only [hx, hy]
    cases trainLevel lin nugget (fun j => scaling fun i => d.X i j) (scaling d.y) poly d with
    | none => rfl
    | some b => rfl
  constructor
  · rw [he, Option.isSome_map]
    unfold trainLevel Krg.train
    simp only [Option.isSome_map]
    by_cases h : d.n ≤ p
    · simp [h]
    · simp [h, not_le.1 h]
  · intro M M' hM hM'
    rw [he] at hM
    obtain ⟨base, hb, rfl⟩ := Option.map_eq_some_iff.1 hM
    obtain ⟨hn, C, hC, rfl⟩ := trainLevel_eq hb
    unfold Krg.train at hM'
    simp only at hM'
    obtain ⟨C', hC', rfl⟩ := Option.map_eq_some_iff.1 hM'
    have : C' = C := Option.some.inj (hC'.symm.trans hC)
    subst this
    refine ⟨fun x => ?_, ?_⟩
    · exact (fun v s o : ℝ => (by ring : v * s + o = o + s * v)) _ _ _
    · have h1 : ((d.n : ℝ) - p) ≠ 0 := by
        have : (p : ℝ) < d.n := by exact_mod_cast hn
        exact (sub_pos.2 this).ne'
      have h2 : (d.n : ℝ) ≠ 0 := by
        have : (0 : ℝ) < d.n := by exact_mod_cast (by omega : 0 < d.n)
        exact this.ne'
      unfold blup
      simp only
      field_simp

/-! ## Examples -/

/-- Non-vacuity of C96_units: the two-level example in other units, points of the high-fidelity level in another order. -/
example (y : Fin 3 → ℝ) : ∃ M M' : Mfk 1 1 1, train linStd 0 trendConstant trendConstant (exData fun i => (i : ℕ)) [exData y] = some M ∧
    train linStd 0 trendConstant trendConstant (newData (fun _ => -2) (fun _ => 5) 10 1 (exData fun i => (i : ℕ)) 1) [newData (fun _ => -2) (fun _ => 5) 10 1 (exData y) ((Equiv.swap 0 2 : Equiv.Perm (Fin 3)))] = some M' ∧
    ∀ x, M'.predict (newPt (fun _ => -2) (fun _ => 5) x) = 10 * M.predict x + 1 := by
  obtain ⟨M, hM, h0, h1⟩ := exTrains y
  have hk : (∀ v, (kernOf (m := 1) 10 (by decide) .squarExp fun _ => 1) (fun k => -v k) = kernOf (m := 1) 10 (by decide) .squarExp (fun _ => 1) v) ∧
      KernelSym (kernOf (m := 1) 10 (by decide) .squarExp fun _ => 1) (dir fun _ => -2) := ⟨exKernel.1, C81_kernels 10 (by decide) .squarExp (by simp) _ _⟩
  obtain ⟨M', hM', -, h, -⟩ := C96_units (a := fun _ => -2) (b := fun _ => 5) (c := 10) (d := 1) linStd_ok linStd_complete (D0 := exData fun i => (i : ℕ)) 1
    [⟨exData y, (Equiv.swap 0 2 : Equiv.Perm (Fin 3))⟩] hM h0 h1
    (fun j => ⟨by norm_num, Or.inl ⟨exData y, by simp, exData y, by simp, (0 : Fin 3), (1 : Fin 3), by simp [exData]⟩⟩) (by norm_num)
    (fun D hD => by
      have : D = (exData fun i => (i : ℕ)) ∨ D = exData y := by simpa using hD
      rcases this with rfl | rfl <;> exact hk)
    (C81_trends _).1 (C81_trends _).1
  exact ⟨M, M', hM, hM', h⟩

/-- Non-vacuity of C96_affine: high-fidelity outputs `3 y + 2` at the points of the low-fidelity data; the low-fidelity level interpolates, so the model is `3 · low + 2` everywhere. -/
example : ∃ M : Mfk 1 1 1, train linStd 0 trendConstant trendConstant (exData fun i => (i : ℕ)) [exData fun i => 3 * (i : ℕ) + 2] = some M ∧ ∀ x, M.predict x = 3 * M.level 1 x + 2 := by
  obtain ⟨M, hM, h0, h1⟩ := exTrains fun i => 3 * (i : ℕ) + 2
  refine ⟨M, hM, fun x => ?_⟩
  have hlen : M.rest.length = 1 := (trainRest_get _ M.rest (train_eq hM).2.2.2.2.2).1
  unfold Mfk.predict
  rw [hlen]
  refine C96_affine linStd_ok hM h1 0 (by simp) 3 2 (fun i => ?_) x
  have hint := C69_interpolates linStd_ok hM h0 h1
    (by intro d hd; have : d = (exData fun i => (i : ℕ)) ∨ d = (exData fun i => 3 * (i : ℕ) + 2) := by simpa using hd
        rcases this with rfl | rfl <;> exact exKernel)
    (by intro d hd i; have : d = (exData fun i => (i : ℕ)) ∨ d = (exData fun i => 3 * (i : ℕ) + 2) := by simpa using hd
        rcases this with rfl | rfl <;> rfl) 0 (by simp) i
  have h2 : M.level 1 ((exData fun i => 3 * (i : ℕ) + 2).X i) = ((i : Fin 3) : ℕ) := hint
  show (3 * (((i : Fin 3) : ℕ) : ℝ) + 2) = 3 * M.level (0 + 1) ((exData fun i => 3 * (i : ℕ) + 2).X i) + 2
  rw [show (0 + 1 : ℕ) = 1 from rfl, h2]

end SMT.Mfk
