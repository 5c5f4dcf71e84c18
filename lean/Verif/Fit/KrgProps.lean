import Verif.Kriging.UnitsProps
import Verif.Idw.Props

/-!
# C82 for Kriging and IDW
-/
namespace SMT.Krg
open Matrix SMT.Common
set_option linter.unusedSectionVars false
set_option linter.unusedSimpArgs false
set_option linter.unusedVariables false

variable {n nx p : ℕ}
variable {chol : Matrix (Fin n) (Fin n) ℝ → Option (Matrix (Fin n) (Fin n) ℝ)}
  {qr : Matrix (Fin n) (Fin p) ℝ → Matrix (Fin n) (Fin p) ℝ × Matrix (Fin p) (Fin p) ℝ}
  {kern : (Fin nx → ℝ) → ℝ} {trend : (Fin nx → ℝ) → Fin p → ℝ} {nugget : ℝ} {noise : Fin n → ℝ}
  {X : Fin n → Fin nx → ℝ}

theorem mean_comb (y y' : Fin n → ℝ) (a b : ℝ) : mean (fun i => a * y i + b * y' i) = a * mean y + b * mean y' := by
  unfold mean
  rw [Finset.sum_add_distrib, ← Finset.mul_sum, ← Finset.mul_sum]
  ring

/-- The trained model in the units of the output: prediction = mean + trend + kernel part, with coefficients solving the BLUP equations for the centred outputs. -/
theorem predict_centred {y : Fin n → ℝ} {M : Model n nx p} (hM : train chol qr kern trend nugget noise X y = some M) (hchol : CholOk chol) (hqr : QROk qr) (hF : FullRank M.F) :
    ∃ (g : Fin n → ℝ) (β : Fin p → ℝ), corrR kern nugget noise (stdX X) *ᵥ g = (fun i => y i - mean y) - (Matrix.of fun i => trend (stdX X i)) *ᵥ β ∧
      (Matrix.of fun i => trend (stdX X i))ᵀ *ᵥ g = 0 ∧
      ∀ x, M.predict x = mean y + (trend (M.norm x) ⬝ᵥ β + (fun i => kern fun j => M.norm x j - stdX X i j) ⬝ᵥ g) := by
  obtain ⟨C, hC, hXX, hyy, hkk, htt, hFF, hOS, hP⟩ := train_eq hM
  have hXn : M.Xn = stdX X := by
    funext i j
    rw [← hXX i]; unfold Model.norm stdX; rw [hOS]
  have hs : (scaling y).2 ≠ 0 := by
    unfold scaling
    simp only []
    split_ifs with h
    · exact one_ne_zero
    · exact h
  have hCh := hchol _ _ hC
  obtain ⟨h1, h2, -⟩ := C39_blup (y := fun i => normalise M.yOS (y i)) (yStd := M.yOS.2) (dof := (n : ℝ)) hCh (hqr _ (fullRank_fwdM hCh hF))
  rw [← hP] at h1 h2
  rw [hXn] at h1
  have hFe : M.F = Matrix.of fun i => trend (stdX X i) := by rw [hFF, hXn]
  rw [hFe] at h1 h2
  set e := (scaling y).2 with he
  refine ⟨fun i => e * M.par.gamma i, fun q => e * M.par.beta q, ?_, ?_, fun x => ?_⟩
  · have hg : (fun i => e * M.par.gamma i) = e • M.par.gamma := rfl
    have hb : (fun q => e * M.par.beta q) = e • M.par.beta := rfl
    rw [hg, hb, Matrix.mulVec_smul, Matrix.mulVec_smul, h1, smul_sub]
    congr 1
    funext i
    simp only [Pi.smul_apply, smul_eq_mul, normalise, hyy, ← he]
    have : (scaling y).1 = mean y := rfl
    rw [this]
    field_simp
  · have hg : (fun i => e * M.par.gamma i) = e • M.par.gamma := rfl
    rw [hg, Matrix.mulVec_smul, h2, smul_zero]
  · unfold Model.predict
    simp only []
    unfold denormalise
    rw [hyy, htt, ← he]
    have : (scaling y).1 = mean y := rfl
    rw [this]
    congr 1
    rw [mul_add]
    congr 1
    · simp only [dotProduct, Finset.mul_sum]
      exact Finset.sum_congr rfl fun q _ => by ring
    · simp only [dotProduct, Finset.mul_sum]
      refine Finset.sum_congr rfl fun i _ => ?_
      unfold Model.corr
      rw [hkk, hXn]; ring

/-- **C82** Kriging with fixed hyper-parameters: predictions are linear in the training outputs, although each training centres and rescales its outputs. -/
theorem C82_krg (y y' : Fin n → ℝ) (a b : ℝ) {M M' N : Model n nx p} (hM : train chol qr kern trend nugget noise X y = some M)
    (hM' : train chol qr kern trend nugget noise X y' = some M') (hN : train chol qr kern trend nugget noise X (fun i => a * y i + b * y' i) = some N)
    (hchol : CholOk chol) (hqr : QROk qr) (hF : FullRank (Matrix.of fun i => trend (stdX X i))) (x : Fin nx → ℝ) :
    N.predict x = a * M.predict x + b * M'.predict x := by
  have hnorm : ∀ {y : Fin n → ℝ} {M : Model n nx p}, train chol qr kern trend nugget noise X y = some M → (M.F = Matrix.of fun i => trend (stdX X i)) ∧ ∀ x, M.norm x = fun j => normalise (scaling fun i => X i j) (x j) := by
    intro y M hM
    obtain ⟨C, hC, hXX, hyy, hkk, htt, hFF, hOS, hP⟩ := train_eq hM
    have hXn : M.Xn = stdX X := by
      funext i j
      rw [← hXX i]; unfold Model.norm stdX; rw [hOS]
    exact ⟨by rw [hFF, hXn], fun x => funext fun j => by unfold Model.norm; rw [hOS]⟩
  obtain ⟨g, β, h1, h2, h3⟩ := predict_centred hM hchol hqr (by rw [(hnorm hM).1]; exact hF)
  obtain ⟨g', β', h1', h2', h3'⟩ := predict_centred hM' hchol hqr (by rw [(hnorm hM').1]; exact hF)
  obtain ⟨k, δ, k1, k2, k3⟩ := predict_centred hN hchol hqr (by rw [(hnorm hN).1]; exact hF)
  obtain ⟨C, hC, -⟩ := train_eq hM
  have hXn : M.Xn = stdX X := by
    obtain ⟨C, hC, hXX, hyy, hkk, htt, hFF, hOS, hP⟩ := train_eq hM
    funext i j
    rw [← hXX i]; unfold Model.norm stdX; rw [hOS]
  rw [hXn] at hC
  have hCh := hchol _ _ hC
  obtain ⟨e1, e2⟩ := blup_unique (y := fun i => (a * y i + b * y' i) - mean fun i => a * y i + b * y' i) hCh.detR (det_gram hCh (hqr _ (fullRank_fwdM hCh hF))) (g := a • g + b • g') (β := a • β + b • β') (g' := k) (β' := δ)
    (by
      rw [Matrix.mulVec_add, Matrix.mulVec_smul, Matrix.mulVec_smul, h1, h1', Matrix.mulVec_add, Matrix.mulVec_smul, Matrix.mulVec_smul]
      funext i
      simp only [Pi.add_apply, Pi.sub_apply, Pi.smul_apply, smul_eq_mul, mean_comb]
      ring)
    (by rw [Matrix.mulVec_add, Matrix.mulVec_smul, Matrix.mulVec_smul, h2, h2']; simp)
    k1 k2
  rw [k3, h3, h3', mean_comb, e1, e2, (hnorm hM).2, (hnorm hM').2, (hnorm hN).2]
  simp only [dotProduct_add, dotProduct_smul, smul_eq_mul]
  ring

/-- **C82** The same end to end for the kernels of the code with constant trend, on distinct points: the three trainings succeed. -/
theorem C82_ordinary_kriging {qr : Matrix (Fin n) (Fin 1) ℝ → Matrix (Fin n) (Fin 1) ℝ × Matrix (Fin 1) (Fin 1) ℝ} (hchol : CholOk chol) (hcc : CholComplete chol) (hqr : QROk qr)
    (hn : 0 < n) (lim : ℕ) (hl : 0 < lim) (k : Corr) (hk : k ≠ .actExp) (θ : Fin nx → ℝ) (hθ : ∀ l, 0 < θ l) (nugget : ℝ) (hnug : 0 ≤ nugget) (hX : Function.Injective X)
    (y y' : Fin n → ℝ) (a b : ℝ) : ∃ M M' N, train chol qr (kernOf lim hl k θ) trendConstant nugget (fun _ => 0) X y = some M ∧
      train chol qr (kernOf lim hl k θ) trendConstant nugget (fun _ => 0) X y' = some M' ∧
      train chol qr (kernOf lim hl k θ) trendConstant nugget (fun _ => 0) X (fun i => a * y i + b * y' i) = some N ∧ ∀ x, N.predict x = a * M.predict x + b * M'.predict x := by
  obtain ⟨heven, hone⟩ := C39_kernels lim hl k hk θ
  have ht : ∀ y : Fin n → ℝ, ∃ M, train chol qr (kernOf lim hl k θ) trendConstant nugget (fun _ => 0) X y = some M := fun y => Option.isSome_iff_exists.1 <|
    C73_trains_distinct (qr := qr) (trend := trendConstant) (y := y) (noise := fun _ => 0) (nugget := nugget) hcc heven hone (C73_kernels_pd lim hl k hk θ hθ) (fun _ => by simpa using hnug) hX
  obtain ⟨M, hM⟩ := ht y
  obtain ⟨M', hM'⟩ := ht y'
  obtain ⟨N, hN⟩ := ht fun i => a * y i + b * y' i
  refine ⟨M, M', N, hM, hM', hN, C82_krg y y' a b hM hM' hN hchol hqr ?_⟩
  intro v hv
  have := congrFun hv ⟨0, hn⟩
  funext q
  rw [Subsingleton.elim q 0]
  simpa [Matrix.mulVec, dotProduct, trendConstant] using this

example : ∃ M M' N, train cholStd qrStd (kernOf 1000 (by norm_num) .squarExp fun _ : Fin 1 => 1) trendConstant 0 (fun _ => 0) (fun i : Fin 3 => fun _ => (i : ℝ)) (fun i => (i : ℝ)) = some M ∧
      train cholStd qrStd (kernOf 1000 (by norm_num) .squarExp fun _ : Fin 1 => 1) trendConstant 0 (fun _ => 0) (fun i : Fin 3 => fun _ => (i : ℝ)) (fun i => (i : ℝ) ^ 2) = some M' ∧
      train cholStd qrStd (kernOf 1000 (by norm_num) .squarExp fun _ : Fin 1 => 1) trendConstant 0 (fun _ => 0) (fun i : Fin 3 => fun _ => (i : ℝ)) (fun i => 2 * (i : ℝ) + 3 * (i : ℝ) ^ 2) = some N ∧
      ∀ x, N.predict x = 2 * M.predict x + 3 * M'.predict x :=
  C82_ordinary_kriging cholStd_ok cholStd_complete qrStd_ok (by norm_num) 1000 (by norm_num) .squarExp (by simp) _ (fun _ => one_pos) 0 le_rfl
    (fun i j h => by have := congrFun h 0; simpa [Fin.ext_iff] using this) _ _ 2 3

end SMT.Krg

namespace SMT.Idw

/-- **C82** IDW: predictions are linear in the training outputs. -/
theorem C82_idw {nx : ℕ} (p : ℝ) (data : List ((Fin nx → ℝ) × ℝ × ℝ)) (a b : ℝ) (x : Fin nx → ℝ) :
    predict p (data.map (·.1)) (data.map fun d => a * d.2.1 + b * d.2.2) x =
      a * predict p (data.map (·.1)) (data.map fun d => d.2.1) x + b * predict p (data.map (·.1)) (data.map fun d => d.2.2) x := by
  unfold predict
  generalize jac p (data.map (·.1)) x = w
  unfold dot
  induction data generalizing w with
  | nil => simp
  | cons d data ih =>
    cases w with
    | nil => simp
    | cons v w =>
      simp only [List.map_cons, List.zipWith_cons_cons, List.sum_cons, ih]
      ring

/-- **C84** IDW reproduces constants. -/
theorem C84_idw {nx : ℕ} (p : ℝ) (xs : List (Fin nx → ℝ)) (hne : xs ≠ []) (c : ℝ) (x : Fin nx → ℝ) : predict p xs (xs.map fun _ => c) x = c := by
  have h := C29_bounded p (xs.map fun t => (t, c)) (by simpa using hne) c c (by
    intro d hd
    obtain ⟨t, -, rfl⟩ := List.mem_map.1 hd
    exact ⟨le_rfl, le_rfl⟩) x
  simp only [List.map_map, Function.comp_def, List.map_id'] at h
  exact le_antisymm h.2 h.1

/-- **C83** IDW: the unit shared by all inputs and the origins of the inputs do not matter. -/
theorem C83_idw {nx : ℕ} (p : ℝ) (data : List ((Fin nx → ℝ) × ℝ)) (a : ℝ) (ha : a ≠ 0) (b x : Fin nx → ℝ) :
    predict p (data.map fun d => fun k => a * d.1 k + b k) (data.map (·.2)) (fun k => a * x k + b k) = predict p (data.map (·.1)) (data.map (·.2)) x := by
  have hinj : ∀ u v : Fin nx → ℝ, (fun k => a * u k + b k) = (fun k => a * v k + b k) → u = v := fun u v h => funext fun k => by
    have := congrFun h k
    simp only [add_left_inj] at this
    exact mul_left_cancel₀ ha this
  have hmap : (data.map fun d => fun k => a * d.1 k + b k) = (data.map fun d => ((fun k => a * d.1 k + b k, d.2) : (Fin nx → ℝ) × ℝ)).map (·.1) := by simp [List.map_map, Function.comp_def]
  have hmap2 : data.map (·.2) = (data.map fun d => ((fun k => a * d.1 k + b k, d.2) : (Fin nx → ℝ) × ℝ)).map (·.2) := by simp [List.map_map, Function.comp_def]
  by_cases hx : ∃ d ∈ data, d.1 = x
  · have hex : ∃ j : ℕ, ∃ d, data[j]? = some d ∧ d.1 = x := by
      obtain ⟨d, hd, e⟩ := hx
      obtain ⟨j, hj⟩ := List.mem_iff_getElem?.1 hd
      exact ⟨j, d, hj, e⟩
    classical
    obtain ⟨d, hj, e⟩ := Nat.find_spec hex
    have hfirst : ∀ i, i < Nat.find hex → ∀ d', data[i]? = some d' → d'.1 ≠ x := fun i hi d' hd' he => Nat.find_min hex hi ⟨d', hd', he⟩
    generalize Nat.find hex = j at hj hfirst
    obtain ⟨dx, dy⟩ := d
    simp only at e
    subst e
    rw [C29_interpolates p data dx dy j hj hfirst, hmap, hmap2]
    refine C29_interpolates p _ (fun k => a * dx k + b k) dy j (by simp [hj]) fun i hij d' hd' he => ?_
    simp only [List.getElem?_map, Option.map_eq_some_iff] at hd'
    obtain ⟨w, hw, rfl⟩ := hd'
    exact hfirst i hij w hw (hinj _ _ he)
  · push Not at hx
    rw [C29_shepard p data x hx, hmap]
    conv_lhs => rw [hmap2]
    rw [C29_shepard p _ _ (by
      intro d hd he
      obtain ⟨w, hw, rfl⟩ := List.mem_map.1 hd
      exact hx w hw (hinj _ _ he))]
    unfold shepard
    simp only [List.map_map, Function.comp_def]
    have hr : ∀ d : (Fin nx → ℝ) × ℝ, √(dist2 (fun k => a * x k + b k) fun k => a * d.1 k + b k) ^ (-p) = |a| ^ (-p) * √(dist2 x d.1) ^ (-p) := by
      intro d
      have : dist2 (fun k => a * x k + b k) (fun k => a * d.1 k + b k) = a ^ 2 * dist2 x d.1 := by
        unfold dist2
        rw [Finset.mul_sum]; exact Finset.sum_congr rfl fun k _ => by ring
      rw [this, Real.sqrt_mul (sq_nonneg _), Real.sqrt_sq_eq_abs, Real.mul_rpow (abs_nonneg _) (Real.sqrt_nonneg _)]
    simp only [hr]
    have e1 : ∀ d : (Fin nx → ℝ) × ℝ, d.2 * (|a| ^ (-p) * √(dist2 x d.1) ^ (-p)) = |a| ^ (-p) * (d.2 * √(dist2 x d.1) ^ (-p)) := fun d => by ring
    simp only [e1, List.sum_map_mul_left]
    exact mul_div_mul_left _ _ (Real.rpow_pos_of_pos (abs_pos.2 ha) _).ne'

end SMT.Idw
