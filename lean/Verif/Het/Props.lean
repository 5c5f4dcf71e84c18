import Verif.Het.Model
import Verif.Kriging.Definite
import Mathlib.Tactic

set_option linter.unusedSectionVars false
set_option linter.unusedSimpArgs false
set_option linter.unusedVariables false

/-!
# C80: repeated points and estimated heteroscedastic noise
-/
namespace SMT.Het
open SMT.Krg Matrix SMT.Common

variable {n nx p : ℕ}

/-! ## Specification -/

open Classical in
/-- The indices of the training points equal to training point `i`. -/
noncomputable def same (X : Fin n → Fin nx → ℝ) (i : Fin n) : Finset (Fin n) := Finset.univ.filter fun k => X k = X i

/-- Mean output over the repetitions of point `i`. -/
noncomputable def repMean (X : Fin n → Fin nx → ℝ) (y : Fin n → ℝ) (i : Fin n) : ℝ := (∑ k ∈ same X i, y k) / (same X i).card

/-- Sample variance of the outputs over the repetitions of point `i`. -/
noncomputable def repVar (X : Fin n → Fin nx → ℝ) (y : Fin n → ℝ) (i : Fin n) : ℝ := (∑ k ∈ same X i, (y k - repMean X y i) ^ 2) / ((same X i).card - 1)

open Classical in
/-- Noise variance of one observation at point `i` in standardised units: `noise0` when all outputs there agree, otherwise their sample variance. -/
noncomputable def obsNoise (v : ℝ) (X : Fin n → Fin nx → ℝ) (y : Fin n → ℝ) (i : Fin n) : ℝ :=
  if ∀ k, X k = X i → y k = y i then v else repVar X y i / (scaling y).2 ^ 2

/-- What `np.unique` promises. -/
def UniqueOk (uniq : List (Fin nx → ℝ) → List (Fin nx → ℝ)) : Prop := ∀ l, (uniq l).Nodup ∧ ∀ r, r ∈ uniq l ↔ r ∈ l

/-! ## Sums over repetitions -/

/-- The standardised inputs. -/
noncomputable def nX (X : Fin n → Fin nx → ℝ) (i : Fin n) : Fin nx → ℝ := fun j => normalise (scaling fun i => X i j) (X i j)

/-- The standardised outputs. -/
noncomputable def nY (y : Fin n → ℝ) (i : Fin n) : ℝ := normalise (scaling y) (y i)

lemma nX_eq_iff (X : Fin n → Fin nx → ℝ) (i k : Fin n) : nX X k = nX X i ↔ X k = X i :=
  ⟨fun h => funext fun j => normalise_inj _ _ _ (congrFun h j), fun h => by unfold nX; rw [h]⟩

lemma scale_ne (y : Fin n → ℝ) : (scaling y).2 ≠ 0 := by
  unfold scaling
  simp only []
  split_ifs with h
  · exact one_ne_zero
  · exact h

lemma nY_sub (y : Fin n → ℝ) (i k : Fin n) : nY y k - nY y i = (y k - y i) / (scaling y).2 := by
  unfold nY normalise
  rw [← sub_div]; congr 1; ring

lemma nY_eq_iff (y : Fin n → ℝ) (i k : Fin n) : nY y k = nY y i ↔ y k = y i := by
  rw [← sub_eq_zero, nY_sub, div_eq_zero_iff, sub_eq_zero, or_iff_left (scale_ne y)]

lemma sum_filter_map (l : List ((Fin nx → ℝ) × ℝ)) (P : (Fin nx → ℝ) × ℝ → Prop) [DecidablePred P] (φ : (Fin nx → ℝ) × ℝ → ℝ) :
    ((l.filter fun r => P r).map φ).sum = (l.map fun r => if P r then φ r else 0).sum := by
  induction l with
  | nil => rfl
  | cons a l ih =>
    by_cases h : P a
    · rw [List.filter_cons_of_pos (by simpa using h)]; simp [h, ih]
    · rw [List.filter_cons_of_neg (by simpa using h)]; simp [h, ih]

lemma outs_sum (X : Fin n → Fin nx → ℝ) (y : Fin n → ℝ) (i : Fin n) (φ : ℝ → ℝ) : ((outs (stdRows X y) (nX X i)).map φ).sum = ∑ k ∈ same X i, φ (nY y k) := by
  classical
  unfold outs stdRows
  rw [List.map_map, sum_filter_map, List.map_ofFn, List.sum_ofFn]
  unfold same
  rw [Finset.sum_filter]
  refine Finset.sum_congr rfl fun k _ => ?_
  have := nX_eq_iff X i k
  simp only [Function.comp_apply]
  exact if_congr this rfl rfl

lemma outs_length (X : Fin n → Fin nx → ℝ) (y : Fin n → ℝ) (i : Fin n) : (outs (stdRows X y) (nX X i)).length = (same X i).card := by
  have h := outs_sum X y i fun _ => 1
  simp at h
  exact_mod_cast h

lemma reps_eq (X : Fin n → Fin nx → ℝ) (y : Fin n → ℝ) (i : Fin n) : reps (stdRows X y) (nX X i) = (same X i).card := by
  rw [← outs_length X y i]; unfold reps outs; rw [List.length_map]

lemma same_self (X : Fin n → Fin nx → ℝ) (i : Fin n) : i ∈ same X i := by simp [same]

lemma card_pos' (X : Fin n → Fin nx → ℝ) (i : Fin n) : (0 : ℝ) < (same X i).card := by
  exact_mod_cast Finset.card_pos.2 ⟨i, same_self X i⟩

lemma same_congr {X : Fin n → Fin nx → ℝ} {i k : Fin n} (h : X k = X i) : same X k = same X i := by unfold same; rw [h]

lemma meanL_outs (X : Fin n → Fin nx → ℝ) (y : Fin n → ℝ) (i : Fin n) : meanL (outs (stdRows X y) (nX X i)) = normalise (scaling y) (repMean X y i) := by
  have h := outs_sum X y i id
  simp only [List.map_id, id] at h
  have hc := (card_pos' X i).ne'
  have hs := scale_ne y
  unfold meanL
  rw [h, outs_length]
  unfold repMean nY normalise
  rw [← Finset.sum_div, Finset.sum_sub_distrib, Finset.sum_const, nsmul_eq_mul]
  field_simp

lemma dev_eq (X : Fin n → Fin nx → ℝ) (y : Fin n → ℝ) (i k : Fin n) : nY y k - meanL (outs (stdRows X y) (nX X i)) = (y k - repMean X y i) / (scaling y).2 := by
  rw [meanL_outs]; unfold nY normalise; rw [← sub_div]; congr 1; ring

lemma dev_sum (X : Fin n → Fin nx → ℝ) (y : Fin n → ℝ) (i : Fin n) : ∑ k ∈ same X i, (y k - repMean X y i) = 0 := by
  rw [Finset.sum_sub_distrib, Finset.sum_const, nsmul_eq_mul, repMean, mul_div_cancel₀ _ (card_pos' X i).ne', sub_self]

lemma dev_sq_zero (X : Fin n → Fin nx → ℝ) (y : Fin n → ℝ) (i : Fin n) : ∑ k ∈ same X i, (y k - repMean X y i) ^ 2 = 0 ↔ ∀ k, X k = X i → y k = y i := by
  rw [Finset.sum_eq_zero_iff_of_nonneg fun _ _ => sq_nonneg _]
  constructor
  · intro h k hk
    have h1 := h k (by simp [same, hk])
    have h2 := h i (same_self X i)
    rw [pow_eq_zero_iff two_ne_zero, sub_eq_zero] at h1 h2
    rw [h1, h2]
  · intro h
    have hm : repMean X y i = y i := by
      unfold repMean
      rw [Finset.sum_congr rfl fun k hk => h k (by simpa [same] using hk), Finset.sum_const, nsmul_eq_mul, mul_div_cancel_left₀ _ (card_pos' X i).ne']
    intro k hk
    rw [hm, h k (by simpa [same] using hk)]; ring

/-- **C80** The noise given to a distinct point: the noise variance of one observation there (in standardised units), divided by the number of repetitions. -/
theorem C80_noise (v : ℝ) (X : Fin n → Fin nx → ℝ) (y : Fin n → ℝ) (i : Fin n) : noiseAt v (stdRows X y) (nX X i) = obsNoise v X y i / (same X i).card := by
  classical
  have hs := scale_ne y
  have hsum : ((((outs (stdRows X y) (nX X i)).map fun v => v - meanL (outs (stdRows X y) (nX X i))).map fun v => v ^ 2).sum) = (∑ k ∈ same X i, (y k - repMean X y i) ^ 2) / (scaling y).2 ^ 2 := by
    rw [List.map_map, outs_sum, Finset.sum_div]
    exact Finset.sum_congr rfl fun k _ => by rw [Function.comp_apply, dev_eq, div_pow]
  have hiff : ((((outs (stdRows X y) (nX X i)).map fun v => v - meanL (outs (stdRows X y) (nX X i))).map fun v => v ^ 2).sum ≠ 0) ↔ ¬ ∀ k, X k = X i → y k = y i := by
    rw [hsum, ← dev_sq_zero, not_iff_not, div_eq_zero_iff, or_iff_left (pow_ne_zero 2 hs)]
  unfold noiseAt obsNoise
  simp only [reps_eq]
  congr 1
  by_cases hall : ∀ k, X k = X i → y k = y i
  · rw [if_neg (fun h => hiff.1 h hall), if_pos hall]
  · rw [if_pos (hiff.2 hall), if_neg hall]
    have hlen : ((outs (stdRows X y) (nX X i)).map fun v => v - meanL (outs (stdRows X y) (nX X i))).length = (same X i).card := by rw [List.length_map, outs_length]
    have hmean : meanL ((outs (stdRows X y) (nX X i)).map fun v => v - meanL (outs (stdRows X y) (nX X i))) = 0 := by
      unfold meanL
      rw [show (List.map (fun v => v - (outs (stdRows X y) (nX X i)).sum / ((outs (stdRows X y) (nX X i)).length : ℝ)) (outs (stdRows X y) (nX X i))) =
        (outs (stdRows X y) (nX X i)).map (fun v => v - meanL (outs (stdRows X y) (nX X i))) from rfl, outs_sum]
      rw [Finset.sum_congr rfl fun k _ => dev_eq X y i k, ← Finset.sum_div, dev_sum, zero_div, zero_div]
    have hcard : 1 ≤ ((same X i).card : ℝ) := by exact_mod_cast Finset.card_pos.2 ⟨i, same_self X i⟩
    unfold stdL
    simp only [hmean, sub_zero]
    rw [hlen, hsum, Real.sq_sqrt]
    · unfold repVar; rw [div_right_comm]
    · exact div_nonneg (div_nonneg (Finset.sum_nonneg fun _ _ => sq_nonneg _) (sq_nonneg _)) (by linarith)

lemma obsNoise_nonneg {v : ℝ} (hv : 0 ≤ v) (X : Fin n → Fin nx → ℝ) (y : Fin n → ℝ) (i : Fin n) : 0 ≤ obsNoise v X y i := by
  unfold obsNoise
  have hcard : 1 ≤ ((same X i).card : ℝ) := by exact_mod_cast Finset.card_pos.2 ⟨i, same_self X i⟩
  split_ifs
  · exact hv
  · exact div_nonneg (div_nonneg (Finset.sum_nonneg fun _ _ => sq_nonneg _) (by linarith)) (sq_nonneg _)

/-! ## The distinct rows -/

section
variable {uniq : List (Fin nx → ℝ) → List (Fin nx → ℝ)} (hu : UniqueOk uniq) {X : Fin n → Fin nx → ℝ} {y : Fin n → ℝ}
include hu

/-- **C80** The points trained on are the standardised training points, each of them once. -/
theorem C80_distinct (X : Fin n → Fin nx → ℝ) : Function.Injective (distinct uniq X).get ∧ (∀ i, ∃ u, (distinct uniq X).get u = nX X i) ∧ ∀ u, ∃ i, (distinct uniq X).get u = nX X i := by
  obtain ⟨hn, hm⟩ := hu (List.ofFn fun i j => normalise (scaling fun i => X i j) (X i j))
  refine ⟨List.nodup_iff_injective_get.1 hn, fun i => ?_, fun u => ?_⟩
  · have : nX X i ∈ distinct uniq X := (hm _).2 (List.mem_ofFn.2 ⟨i, rfl⟩)
    obtain ⟨u, hu'⟩ := List.get_of_mem this
    exact ⟨u, hu'⟩
  · have := (hm _).1 (List.get_mem (distinct uniq X) u)
    obtain ⟨i, hi⟩ := List.mem_ofFn.1 this
    exact ⟨i, hi.symm⟩

variable {chol : Matrix (Fin (distinct uniq X).length) (Fin (distinct uniq X).length) ℝ → Option (Matrix (Fin (distinct uniq X).length) (Fin (distinct uniq X).length) ℝ)}
  {qr : Matrix (Fin (distinct uniq X).length) (Fin p) ℝ → Matrix (Fin (distinct uniq X).length) (Fin p) ℝ × Matrix (Fin p) (Fin p) ℝ}
  {kern : (Fin nx → ℝ) → ℝ} {trend : (Fin nx → ℝ) → Fin p → ℝ} {v : ℝ} {M : Model (distinct uniq X).length nx p}

omit hu in
lemma hetTrain_eq (hM : hetTrain uniq X chol qr kern trend [v] y = some M) :
    ∃ C, chol (corrR kern 0 (fun u => noiseAt v (stdRows X y) ((distinct uniq X).get u)) (distinct uniq X).get) = some C ∧ M.Xn = (distinct uniq X).get ∧ (∀ i, M.norm (X i) = nX X i) ∧
      M.yOS = scaling y ∧ (∀ j, M.xOS j = scaling fun i => X i j) ∧ M.kern = kern ∧ M.trend = trend ∧ M.F = Matrix.of (fun u => trend ((distinct uniq X).get u)) ∧
      M.par = blup C qr M.F (fun u => meanL (outs (stdRows X y) ((distinct uniq X).get u))) (scaling y).2 (distinct uniq X).length := by
  unfold hetTrain at hM
  simp only [spread, Option.bind_some, Option.map_eq_some_iff] at hM
  obtain ⟨C, hC, rfl⟩ := hM
  exact ⟨C, hC, rfl, fun i => rfl, rfl, fun j => rfl, rfl, rfl, rfl, rfl⟩

/-- **C80** Repeated points never make the training fail: with a positive definite kernel and `noise0 ≥ 0` the correlation matrix of the distinct points factorises. -/
theorem C80_trains (hcc : CholComplete chol) (heven : ∀ d, kern (fun q => -d q) = kern d) (hone : kern (fun _ => 0) = 1) (hk : PdKernel kern) (hv : 0 ≤ v) :
    (hetTrain uniq X chol qr kern trend [v] y).isSome := by
  unfold hetTrain
  simp only [spread, Option.bind_some, Option.isSome_map]
  obtain ⟨hinj, -, hall⟩ := C80_distinct hu X
  refine hcc _ (corrR_symm kern heven _ _) fun w hw => ?_
  rw [corrR_form kern heven hone]
  refine add_pos_of_pos_of_nonneg (hk _ _ hinj w hw) (Finset.sum_nonneg fun u _ => mul_nonneg (sq_nonneg _) ?_)
  obtain ⟨i, hi⟩ := hall u
  rw [zero_add, hi, C80_noise]
  exact div_nonneg (obsNoise_nonneg hv X y i) (card_pos' X i).le

/-- The system the trained coefficients solve. -/
lemma het_system (hM : hetTrain uniq X chol qr kern trend [v] y = some M) (hchol : CholOk chol) (hqr : QROk qr) (hF : FullRank M.F)
    (heven : ∀ d, kern (fun q => -d q) = kern d) (hone : kern (fun _ => 0) = 1) :
    (∀ (u : Fin (distinct uniq X).length) (i : Fin n), (distinct uniq X).get u = nX X i → M.F u ⬝ᵥ M.par.beta + (∑ w, (kern fun q => nX X i q - (distinct uniq X).get w q) * M.par.gamma w) +
      obsNoise v X y i / (same X i).card * M.par.gamma u = normalise (scaling y) (repMean X y i)) ∧ M.Fᵀ *ᵥ M.par.gamma = 0 := by
  obtain ⟨C, hC, hXn, hnorm, hy, hxOS, hk, ht, hFF, hP⟩ := hetTrain_eq hM
  have hCh := hchol _ _ hC
  have hb := C39_blup (F := M.F) (y := fun u => meanL (outs (stdRows X y) ((distinct uniq X).get u))) (yStd := (scaling y).2) (dof := (distinct uniq X).length) hCh (hqr _ (fullRank_fwdM hCh hF))
  rw [← hP] at hb
  refine ⟨fun u i hi => ?_, hb.2.1⟩
  have h1 := congrFun hb.1 u
  have e : (corrR kern 0 (fun u => noiseAt v (stdRows X y) ((distinct uniq X).get u)) (distinct uniq X).get *ᵥ M.par.gamma) u =
      (∑ w, (kern fun q => nX X i q - (distinct uniq X).get w q) * M.par.gamma w) + obsNoise v X y i / (same X i).card * M.par.gamma u := by
    have hent : ∀ w, corrR kern 0 (fun u => noiseAt v (stdRows X y) ((distinct uniq X).get u)) (distinct uniq X).get u w =
        (kern fun q => nX X i q - (distinct uniq X).get w q) + if u = w then obsNoise v X y i / (same X i).card else 0 := fun w => by
      rw [corrR_apply kern heven]
      by_cases h : u = w
      · subst h
        rw [if_pos rfl, if_pos rfl, hi, C80_noise]
        simp [hone]
      · rw [if_neg h, if_neg h, add_zero, hi]
    simp only [Matrix.mulVec, dotProduct, hent, add_mul, Finset.sum_add_distrib, ite_mul, zero_mul, Finset.sum_ite_eq, Finset.mem_univ, if_true]
  rw [e] at h1
  simp only [Pi.sub_apply, hi, meanL_outs] at h1
  have : (M.F *ᵥ M.par.beta) u = M.F u ⬝ᵥ M.par.beta := rfl
  rw [this] at h1
  linarith

/-- **C80** Prediction at a training point: the mean over its repetitions, corrected by the noise of that mean. -/
theorem C80_prediction (hM : hetTrain uniq X chol qr kern trend [v] y = some M) (hchol : CholOk chol) (hqr : QROk qr) (hF : FullRank M.F)
    (heven : ∀ d, kern (fun q => -d q) = kern d) (hone : kern (fun _ => 0) = 1) (i : Fin n) :
    ∃ u, M.Xn u = nX X i ∧ M.predict (X i) = repMean X y i - (scaling y).2 * (obsNoise v X y i / (same X i).card * M.par.gamma u) := by
  obtain ⟨C, hC, hXn, hnorm, hy, hxOS, hk, ht, hFF, hP⟩ := hetTrain_eq hM
  obtain ⟨u, hu'⟩ := (C80_distinct hu X).2.1 i
  refine ⟨u, by rw [hXn]; exact hu', ?_⟩
  have h1 := (het_system hu hM hchol hqr hF heven hone).1 u i hu'
  have hFu : M.F u = trend (nX X i) := by rw [hFF, ← hu']; rfl
  unfold Model.predict
  simp only [hnorm, ht, hy]
  have hc : M.corr (nX X i) ⬝ᵥ M.par.gamma = ∑ w, (kern fun q => nX X i q - (distinct uniq X).get w q) * M.par.gamma w := by
    unfold Model.corr
    rw [hk, hXn]; rfl
  rw [hc, ← hFu]
  have hr := (C38_roundtrip y (repMean X y i)).1
  unfold denormalise at *
  linear_combination hr + (scaling y).2 * h1

/-- **C80** When the repetitions agree and `noise0 = 0`, the data are interpolated, repeated points included. -/
theorem C80_interpolates (hM : hetTrain uniq X chol qr kern trend [0] y = some M) (hchol : CholOk chol) (hqr : QROk qr) (hF : FullRank M.F)
    (heven : ∀ d, kern (fun q => -d q) = kern d) (hone : kern (fun _ => 0) = 1) (i : Fin n) (hagree : ∀ k, X k = X i → y k = y i) : M.predict (X i) = y i := by
  obtain ⟨u, -, h⟩ := C80_prediction hu hM hchol hqr hF heven hone i
  rw [h, obsNoise, if_pos hagree]
  have hm : repMean X y i = y i := by
    unfold repMean
    rw [Finset.sum_congr rfl fun k hk => hagree k (by simpa [same] using hk), Finset.sum_const, nsmul_eq_mul, mul_div_cancel_left₀ _ (card_pos' X i).ne']
  rw [hm]; ring

/-- Two solutions of the BLUP system coincide. -/
lemma blup_unique {m : ℕ} {R C : Matrix (Fin m) (Fin m) ℝ} (hC : IsChol R C) {F : Matrix (Fin m) (Fin p) ℝ} (hF : FullRank F) {z g g' : Fin m → ℝ} {b b' : Fin p → ℝ}
    (h1 : R *ᵥ g = z - F *ᵥ b) (h2 : Fᵀ *ᵥ g = 0) (h1' : R *ᵥ g' = z - F *ᵥ b') (h2' : Fᵀ *ᵥ g' = 0) : g = g' ∧ b = b' := by
  have e1 : R *ᵥ (g - g') = -(F *ᵥ (b - b')) := by rw [Matrix.mulVec_sub, h1, h1', Matrix.mulVec_sub]; abel
  have e2 : Fᵀ *ᵥ (g - g') = 0 := by rw [Matrix.mulVec_sub, h2, h2', sub_self]
  have e3 : (g - g') ⬝ᵥ (R *ᵥ (g - g')) = 0 := by
    rw [e1, dotProduct_neg, Matrix.dotProduct_mulVec, ← Matrix.mulVec_transpose, e2, zero_dotProduct, neg_zero]
  rw [← hC.mul, ← Matrix.mulVec_mulVec, Matrix.dotProduct_mulVec, ← Matrix.mulVec_transpose] at e3
  have e4 : Cᵀ *ᵥ (g - g') = 0 := dotProduct_self_eq_zero.1 e3
  have hdet : IsUnit Cᵀ.det := by rw [Matrix.det_transpose]; exact hC.det
  have e5 : g - g' = 0 := by
    have := congrArg (Cᵀ⁻¹ *ᵥ ·) e4
    simpa [Matrix.mulVec_mulVec, Matrix.nonsing_inv_mul _ hdet] using this
  refine ⟨sub_eq_zero.1 e5, ?_⟩
  rw [e5, Matrix.mulVec_zero] at e1
  exact sub_eq_zero.1 (hF _ (neg_eq_zero.1 e1.symm))

/-- **C80** Training on the distinct points with the averaged outputs and the divided noise loses nothing: for the same hyper-parameters the predictions are, everywhere, those of the model trained on all
observations with the noise variance of each observation given (`use_het_noise` without `eval_noise`, no nugget). -/
theorem C80_equivalent (hM : hetTrain uniq X chol qr kern trend [v] y = some M) (hchol : CholOk chol) (hqr : QROk qr) (hF : FullRank M.F)
    (heven : ∀ d, kern (fun q => -d q) = kern d) (hone : kern (fun _ => 0) = 1)
    {chol' : Matrix (Fin n) (Fin n) ℝ → Option (Matrix (Fin n) (Fin n) ℝ)} {qr' : Matrix (Fin n) (Fin p) ℝ → Matrix (Fin n) (Fin p) ℝ × Matrix (Fin p) (Fin p) ℝ} (hchol' : CholOk chol') (hqr' : QROk qr')
    {M' : Model n nx p} (hM' : train chol' qr' kern trend 0 (obsNoise v X y) X y = some M') (x : Fin nx → ℝ) : M.predict x = M'.predict x := by
  classical
  obtain ⟨C, hC, hXn, hnorm, hy, hxOS, hk, ht, hFF, hP⟩ := hetTrain_eq hM
  obtain ⟨C', hC', hX', hy', hk', ht', hFF', hOS', hP'⟩ := train_eq hM'
  obtain ⟨hinj, hex, hall⟩ := C80_distinct hu X
  obtain ⟨hsys, horth⟩ := het_system hu hM hchol hqr hF heven hone
  choose grp hgrp using hex
  have hXn' : ∀ i, M'.Xn i = nX X i := fun i => by
    rw [← hX' i]; funext j; unfold Model.norm; rw [hOS']; rfl
  have hgk : ∀ i k, grp k = grp i ↔ X k = X i := fun i k => by
    rw [← nX_eq_iff, ← hgrp i, ← hgrp k]; exact ⟨fun h => by rw [h], fun h => hinj h⟩
  have hFi : ∀ i, M'.F i = M.F (grp i) := fun i => by
    rw [hFF', hFF]; show trend (M'.Xn i) = trend ((distinct uniq X).get (grp i)); rw [hXn', hgrp]
  have hF' : FullRank M'.F := fun w hw => by
    apply hF
    funext u
    obtain ⟨i, hi⟩ := hall u
    have hui : u = grp i := hinj (by rw [hi, hgrp])
    have := congrFun hw i
    rw [hui]
    show M.F (grp i) ⬝ᵥ w = 0
    rw [← hFi]; exact this
  have hCh' := hchol' _ _ hC'
  have hb' := C39_blup (F := M'.F) (y := fun i => normalise M'.yOS (y i)) (yStd := M'.yOS.2) (dof := n) hCh' (hqr' _ (fullRank_fwdM hCh' hF'))
  rw [← hP'] at hb'
  -- the lifted coefficients
  set γ := M.par.gamma with hγ
  set t : Fin n → ℝ := fun i => obsNoise v X y i with ht0
  set G : Fin n → ℝ := fun i => (nY y i - normalise (scaling y) (repMean X y i)) / t i + γ (grp i) / (same X i).card with hG
  have hdev : ∀ i k, X k = X i → t k = t i ∧ repMean X y k = repMean X y i ∧ (same X k).card = (same X i).card := fun i k h => by
    have hs := same_congr h
    have hm : repMean X y k = repMean X y i := by unfold repMean; rw [hs]
    refine ⟨?_, hm, by rw [hs]⟩
    have hv' : repVar X y k = repVar X y i := by unfold repVar; rw [hs, hm]
    have hiff : (∀ q, X q = X k → y q = y k) ↔ (∀ q, X q = X i → y q = y i) := by
      rw [← dev_sq_zero, ← dev_sq_zero, hs, hm]
    simp only [t, obsNoise, hv']
    exact if_congr hiff rfl rfl
  have hfib : ∀ i, ∑ k ∈ Finset.univ.filter (fun k => grp k = grp i), G k = γ (grp i) := fun i => by
    have hset : Finset.univ.filter (fun k => grp k = grp i) = same X i := by
      unfold same; exact Finset.filter_congr fun k _ => hgk i k
    rw [hset]
    have : ∀ k ∈ same X i, G k = (y k - repMean X y i) / (scaling y).2 / t i + γ (grp i) / (same X i).card := fun k hk => by
      have hk' : X k = X i := by simpa [same] using hk
      obtain ⟨h1, h2, h3⟩ := hdev i k hk'
      simp only [G, h1, h2, h3, (hgk i k).2 hk']
      congr 2
      unfold nY normalise; rw [← sub_div]; congr 1; ring
    rw [Finset.sum_congr rfl this, Finset.sum_add_distrib, ← Finset.sum_div, ← Finset.sum_div, dev_sum, Finset.sum_const, nsmul_eq_mul, mul_div_cancel₀ _ (card_pos' X i).ne']
    ring
  have hpush : ∀ φ : Fin (distinct uniq X).length → ℝ, ∑ k, φ (grp k) * G k = ∑ u, φ u * γ u := fun φ => by
    rw [← Finset.sum_fiberwise (s := Finset.univ) (g := grp)]
    refine Finset.sum_congr rfl fun u _ => ?_
    obtain ⟨i, hi⟩ := hall u
    have hui : u = grp i := hinj (by rw [hi, hgrp])
    rw [hui, ← hfib i, Finset.mul_sum]
    exact Finset.sum_congr rfl fun k hk => by rw [(Finset.mem_filter.1 hk).2]
  have hlift1 : corrR kern 0 (obsNoise v X y) M'.Xn *ᵥ G = (fun i => normalise M'.yOS (y i)) - M'.F *ᵥ M.par.beta := by
    funext i
    have hent : ∀ k, corrR kern 0 (obsNoise v X y) M'.Xn i k = (kern fun q => nX X i q - (distinct uniq X).get (grp k) q) + if i = k then t i else 0 := fun k => by
      rw [corrR_apply kern heven]
      by_cases h : i = k
      · subst h
        rw [if_pos rfl, if_pos rfl, hgrp]
        simp [hone, t]
      · rw [if_neg h, if_neg h, add_zero, hXn', hXn', hgrp]
    simp only [Matrix.mulVec, dotProduct, hent, add_mul, Finset.sum_add_distrib, ite_mul, zero_mul, Finset.sum_ite_eq, Finset.mem_univ, if_true, Pi.sub_apply]
    rw [hpush fun u => kern fun q => nX X i q - (distinct uniq X).get u q]
    have h1 := hsys (grp i) i (hgrp i)
    have hnoise : t i * G i = (nY y i - normalise (scaling y) (repMean X y i)) + t i / (same X i).card * γ (grp i) := by
      simp only [G]
      rcases eq_or_ne (t i) 0 with h0 | h0
      · have hag : ∀ k, X k = X i → y k = y i := by
          by_contra hne
          have : t i = repVar X y i / (scaling y).2 ^ 2 := by simp only [t, obsNoise]; rw [if_neg hne]
          rw [this, div_eq_zero_iff, or_iff_left (pow_ne_zero 2 (scale_ne y))] at h0
          unfold repVar at h0
          rw [div_eq_zero_iff] at h0
          rcases h0 with h0 | h0
          · exact hne ((dev_sq_zero X y i).1 h0)
          · have hc1 : (same X i).card = 1 := by
              have : ((same X i).card : ℝ) = 1 := by linarith
              exact_mod_cast this
            apply hne
            intro k hk
            obtain ⟨a, ha⟩ := Finset.card_eq_one.1 hc1
            have hk' : k ∈ same X i := by simp [same, hk]
            have hi' := same_self X i
            rw [ha, Finset.mem_singleton] at hk' hi'
            rw [hk', hi']
        have hm : repMean X y i = y i := by
          unfold repMean
          rw [Finset.sum_congr rfl fun k hk => hag k (by simpa [same] using hk), Finset.sum_const, nsmul_eq_mul, mul_div_cancel_left₀ _ (card_pos' X i).ne']
        rw [h0, hm]
        simp [nY]
      · field_simp
    rw [hnoise, hy']
    have hFd : ∑ q, M'.F i q * M.par.beta q = M.F (grp i) ⬝ᵥ M.par.beta := by rw [hFi]; rfl
    rw [hFd]
    have : nY y i = normalise (scaling y) (y i) := rfl
    rw [this]
    linarith
  have hlift2 : M'.Fᵀ *ᵥ G = 0 := by
    funext q
    have h0 := congrFun horth q
    have e : (M'.Fᵀ *ᵥ G) q = ∑ k, M.F (grp k) q * G k := by
      simp only [Matrix.mulVec, dotProduct, Matrix.transpose_apply]
      exact Finset.sum_congr rfl fun k _ => by rw [hFi]
    rw [e, hpush fun u => M.F u q]
    exact h0
  obtain ⟨hg, hβ⟩ := blup_unique hu hCh' hF' hlift1 hlift2 hb'.1 hb'.2.1
  unfold Model.predict
  have hnn : M.norm x = M'.norm x := by funext j; unfold Model.norm; rw [hxOS, hOS']
  simp only [hnn, ht, ht', hy, hy', ← hβ]
  congr 2
  have e1 : M'.corr (M'.norm x) ⬝ᵥ M'.par.gamma = ∑ k, (kern fun q => M'.norm x q - (distinct uniq X).get (grp k) q) * G k := by
    rw [← hg]
    unfold Model.corr dotProduct
    refine Finset.sum_congr rfl fun k _ => ?_
    simp only [hk', hXn', hgrp]
  rw [e1, hpush fun u => kern fun q => M'.norm x q - (distinct uniq X).get u q]
  unfold Model.corr
  rw [hk, hXn]; rfl

end

/-- **C80** `noise0` must have one value or as many as there are distinct points (more than one); otherwise the training raises. -/
theorem C80_noise0 {uniq : List (Fin nx → ℝ) → List (Fin nx → ℝ)} {X : Fin n → Fin nx → ℝ} {y : Fin n → ℝ}
    {chol : Matrix (Fin (distinct uniq X).length) (Fin (distinct uniq X).length) ℝ → Option (Matrix (Fin (distinct uniq X).length) (Fin (distinct uniq X).length) ℝ)}
    {qr : Matrix (Fin (distinct uniq X).length) (Fin p) ℝ → Matrix (Fin (distinct uniq X).length) (Fin p) ℝ × Matrix (Fin p) (Fin p) ℝ}
    {kern : (Fin nx → ℝ) → ℝ} {trend : (Fin nx → ℝ) → Fin p → ℝ} (l : List ℝ) (h : l.length ≠ 1 ∧ l.length ≠ (distinct uniq X).length) : hetTrain uniq X chol qr kern trend l y = none := by
  unfold hetTrain spread
  match l, h with
  | [], h =>
    have : ¬ ([] : List ℝ).length = (distinct uniq X).length := h.2
    simp only [this, dif_neg, not_false_eq_true]; rfl
  | [a], h => exact absurd rfl h.1
  | a :: b :: l, h =>
    have : ¬ (a :: b :: l).length = (distinct uniq X).length := h.2
    simp only [this, dif_neg, not_false_eq_true]; rfl

/-! ## Example -/

/-- A routine of the kind assumed. -/
noncomputable def dedupStd (l : List (Fin nx → ℝ)) : List (Fin nx → ℝ) := by classical exact l.dedup

theorem dedupStd_ok : UniqueOk (dedupStd (nx := nx)) := fun l => ⟨List.nodup_dedup l, fun r => List.mem_dedup⟩

/-- Any data with repetitions, constant trend, squared exponential, exact routines: trained, so the theorems above apply. -/
example (X : Fin n → Fin nx → ℝ) (y : Fin n → ℝ) : ∃ M, hetTrain (p := 1) dedupStd X cholStd qrStd (kernOf 10 (by decide) .squarExp fun _ => 1) trendConstant [0] y = some M :=
  Option.isSome_iff_exists.1 (C80_trains dedupStd_ok cholStd_complete (C39_kernels 10 (by decide) .squarExp (by simp) _).1 (C39_kernels 10 (by decide) .squarExp (by simp) _).2
    (C73_kernels_pd 10 (by decide) .squarExp (by simp) _ fun _ => one_pos) le_rfl)

lemma obsNoise_pos {v : ℝ} (hv : 0 < v) (X : Fin n → Fin nx → ℝ) (y : Fin n → ℝ) (i : Fin n) : 0 < obsNoise v X y i := by
  unfold obsNoise
  split_ifs with h
  · exact hv
  · have hne := mt (dev_sq_zero X y i).1 h
    have hpos : 0 < ∑ k ∈ same X i, (y k - repMean X y i) ^ 2 := lt_of_le_of_ne (Finset.sum_nonneg fun _ _ => sq_nonneg _) (Ne.symm hne)
    have hc : 1 < ((same X i).card : ℝ) := by
      have h1 : 1 ≤ (same X i).card := Finset.card_pos.2 ⟨i, same_self X i⟩
      rcases h1.lt_or_eq with h1 | h1
      · exact_mod_cast h1
      · exfalso
        apply h
        intro k hk
        obtain ⟨a, ha⟩ := Finset.card_eq_one.1 h1.symm
        have hk' : k ∈ same X i := by simp [same, hk]
        have hi' := same_self X i
        rw [ha, Finset.mem_singleton] at hk' hi'
        rw [hk', hi']
    exact div_pos (div_pos hpos (by linarith)) (pow_pos (lt_of_le_of_ne (by
      unfold scaling; simp only []; split_ifs; exacts [zero_le_one, Real.sqrt_nonneg _]) (scale_ne y).symm) 2)

/-- Both models of `C80_equivalent` can be trained for all data as soon as `noise0 > 0`: constant trend, squared exponential, at least one observation. -/
example (v : ℝ) (hv : 0 < v) (X : Fin (n + 1) → Fin nx → ℝ) (y : Fin (n + 1) → ℝ) : ∃ (M : Model _ nx 1) (M' : Model (n + 1) nx 1),
    hetTrain dedupStd X cholStd qrStd (kernOf 10 (by decide) .squarExp fun _ => 1) trendConstant [v] y = some M ∧
    train cholStd qrStd (kernOf 10 (by decide) .squarExp fun _ => 1) trendConstant 0 (obsNoise v X y) X y = some M' ∧ ∀ x, M.predict x = M'.predict x := by
  have hK := C39_kernels (nx := nx) 10 (by decide) .squarExp (by simp) fun _ => 1
  obtain ⟨M, hM⟩ := Option.isSome_iff_exists.1 (C80_trains (p := 1) (qr := qrStd) (trend := trendConstant) (y := y) (X := X) dedupStd_ok cholStd_complete hK.1 hK.2
    (C73_kernels_pd 10 (by decide) .squarExp (by simp) _ fun _ => one_pos) hv.le)
  obtain ⟨M', hM'⟩ := Option.isSome_iff_exists.1 (C73_trains_nugget (p := 1) (qr := qrStd) (trend := trendConstant) (X := X) (y := y) (nugget := 0) (noise := obsNoise v X y) cholStd_complete hK.1 hK.2
    (C73_kernels_psd 10 (by decide) .squarExp (by simp) _ fun _ => zero_le_one) fun i => by rw [zero_add]; exact obsNoise_pos hv X y i)
  refine ⟨M, M', hM, hM', fun x => C80_equivalent dedupStd_ok hM cholStd_ok qrStd_ok ?_ hK.1 hK.2 cholStd_ok qrStd_ok hM' x⟩
  obtain ⟨C, -, -, -, -, -, -, -, hFF, -⟩ := hetTrain_eq hM
  intro w hw
  obtain ⟨u, -⟩ := (C80_distinct dedupStd_ok X).2.1 0
  have := congrFun hw u
  rw [hFF] at this
  funext q
  fin_cases q
  simpa [Matrix.mulVec, dotProduct, trendConstant] using this

end SMT.Het
