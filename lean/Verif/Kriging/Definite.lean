import Verif.Kriging.Oracles
import Verif.Common.Psd

set_option linter.unusedSectionVars false
set_option linter.unusedSimpArgs false
set_option linter.unusedVariables false

/-!
# C73: when the correlation matrix can be factorised; the variance is never clipped, for all kernels (C40)
-/
namespace SMT.Krg
open Matrix SMT.Common

variable {n nx p : ℕ}

/-! ## The kernels of the code are positive (semi-)definite -/

/-- A kernel of a difference vector is positive semi-definite on every finite set of points. -/
def PsdKernel (k : (Fin nx → ℝ) → ℝ) : Prop := ∀ (n : ℕ) (X : Fin n → Fin nx → ℝ), Psd fun i j => k fun q => X i q - X j q

/-- ... and positive definite on distinct points. -/
def PdKernel (k : (Fin nx → ℝ) → ℝ) : Prop :=
  ∀ (n : ℕ) (X : Fin n → Fin nx → ℝ), Function.Injective X → ∀ c : Fin n → ℝ, c ≠ 0 → 0 < ∑ i, ∑ j, c i * c j * k fun q => X i q - X j q

theorem absRow_prod (θ : Fin nx → ℝ) (hθ : ∀ l, 0 ≤ θ l) (u v : Fin nx → ℝ) :
    expRow θ (fun l => |u l - v l|) = ∏ l, Real.exp (-|θ l * u l - θ l * v l|) := by
  rw [expRow, ← Real.exp_sum, ← Finset.sum_neg_distrib]
  congr 1
  exact Finset.sum_congr rfl fun l _ => by rw [← mul_sub, abs_mul, abs_of_nonneg (hθ l)]

theorem prodRow_prod (P : ℝ → ℝ) (c : ℝ) (hc : 0 < c) (θ : Fin nx → ℝ) (hθ : ∀ l, 0 ≤ θ l) (u v : Fin nx → ℝ) :
    prodKernel P c θ (fun l => |u l - v l|) = ∏ l, P (|c * θ l * u l - c * θ l * v l| / c) * Real.exp (-|c * θ l * u l - c * θ l * v l|) := by
  unfold prodKernel
  rw [Finset.prod_mul_distrib, ← Real.exp_sum]
  have e : ∀ l, |c * θ l * u l - c * θ l * v l| = c * (θ l * |u l - v l|) := fun l => by
    rw [← mul_sub, abs_mul, abs_of_nonneg (mul_nonneg hc.le (hθ l))]; ring
  congr 1
  · exact Finset.prod_congr rfl fun l _ => by rw [e l, mul_div_cancel_left₀ _ hc.ne']
  · congr 1
    rw [Finset.mul_sum]
    exact Finset.sum_congr rfl fun l _ => by rw [e l]; ring

/-- The one-dimensional kernel, rescaled, and its Gram representation. -/
theorem kernOf_prod (lim : ℕ) (hl : 0 < lim) (c : Corr) (hc : c ≠ .actExp) (hs : c ≠ .squarExp) :
    ∃ (κ : ℝ → ℝ → ℝ) (a : ℝ) (k : ℕ) (w : ℝ), 0 < a ∧ 0 < w ∧ (∀ x y, κ x y = a * ∫ t, feat k x t * feat k y t) ∧
      ∀ θ : Fin nx → ℝ, (∀ l, 0 ≤ θ l) → ∀ u v : Fin nx → ℝ, kernOf lim hl c θ (fun l => u l - v l) = ∏ l, κ (w * θ l * u l) (w * θ l * v l) := by
  have h3 : (0 : ℝ) < √3 := Real.sqrt_pos.2 (by norm_num)
  have h5 : (0 : ℝ) < √5 := Real.sqrt_pos.2 (by norm_num)
  have q3 : √3 * √3 = (3 : ℝ) := Real.mul_self_sqrt (by norm_num)
  have q5 : √5 * √5 = (5 : ℝ) := Real.mul_self_sqrt (by norm_num)
  cases c with
  | actExp => exact absurd rfl hc
  | squarExp => exact absurd rfl hs
  | absExp =>
    refine ⟨fun x y => Real.exp (-|x - y|), 2, 0, 1, two_pos, one_pos, exp_gram, fun θ hθ u v => ?_⟩
    simp only [(kernOf_eq lim hl θ _).1, absRow_prod θ hθ, one_mul]
  | matern32 =>
    refine ⟨fun x y => (1 + |x - y|) * Real.exp (-|x - y|), 4, 1, √3, by norm_num, h3, m32_gram, fun θ hθ u v => ?_⟩
    simp only [(kernOf_eq lim hl θ _).2.2.2, m32val_eq, prodRow_prod _ _ h3 θ hθ]
    refine Finset.prod_congr rfl fun l _ => ?_
    rw [mul_div_cancel₀ _ h3.ne']
  | matern52 =>
    refine ⟨fun x y => (1 + |x - y| + |x - y| ^ 2 / 3) * Real.exp (-|x - y|), 4 / 3, 2, √5, by norm_num, h5, m52_gram, fun θ hθ u v => ?_⟩
    simp only [(kernOf_eq lim hl θ _).2.2.1, m52val_eq, prodRow_prod _ _ h5 θ hθ]
    refine Finset.prod_congr rfl fun l _ => ?_
    rw [mul_div_cancel₀ _ h5.ne', div_pow, sq √5, q5]
    ring

/-- **C73** Every kernel offered with a component-wise `theta ≥ 0` is positive semi-definite, in every dimension. -/
theorem C73_kernels_psd (lim : ℕ) (hl : 0 < lim) (c : Corr) (hc : c ≠ .actExp) (θ : Fin nx → ℝ) (hθ : ∀ l, 0 ≤ θ l) : PsdKernel (kernOf lim hl c θ) := by
  intro n X v
  by_cases hs : c = .squarExp
  · subst hs
    rw [kernOf_squarExp]
    exact gauss_psd X θ hθ v
  · obtain ⟨κ, a, k, w, ha, hw, hκ, h⟩ := kernOf_prod (nx := nx) lim hl c hc hs
    simp only [h θ hθ]
    exact psd_prod κ a ha.le k hκ (fun i l => w * θ l * X i l) Finset.univ v

/-- **C73** With `theta > 0` they are positive definite on distinct points. -/
theorem C73_kernels_pd (lim : ℕ) (hl : 0 < lim) (c : Corr) (hc : c ≠ .actExp) (θ : Fin nx → ℝ) (hθ : ∀ l, 0 < θ l) : PdKernel (kernOf lim hl c θ) := by
  intro n X hX v hv
  by_cases hs : c = .squarExp
  · subst hs
    rw [kernOf_squarExp]
    exact gauss_pd X hX θ hθ v hv
  · obtain ⟨κ, a, k, w, ha, hw, hκ, h⟩ := kernOf_prod (nx := nx) lim hl c hc hs
    simp only [h θ fun l => (hθ l).le]
    refine pd_prod κ a ha k hκ (fun i l => w * θ l * X i l) (fun i j hij => hX (funext fun l => ?_)) v hv
    exact mul_left_cancel₀ (mul_pos hw (hθ l)).ne' (congrFun hij l)

/-- **C73** The KPLS kernels (`abs_exp` and `squar_exp` of the PLS distances) are positive semi-definite for all PLS coefficients. -/
theorem C73_pls_psd {m : ℕ} (c : Corr) (hc : c = .squarExp ∨ c = .absExp) (θ : Fin m → ℝ) (hθ : ∀ l, 0 ≤ θ l) (coeff : Fin nx → Fin m → ℝ) :
    PsdKernel fun dx => expRow θ (compDistPLS c coeff dx) := by
  intro n X v
  rcases hc with rfl | rfl
  · simp only [pls_kernel]
    exact gauss_psd X _ (fun k => Finset.sum_nonneg fun l _ => mul_nonneg (hθ l) (sq_nonneg _)) v
  · have e : ∀ dx : Fin nx → ℝ, expRow θ (compDistPLS .absExp coeff dx) = expRow (fun j => ∑ l, θ l * |coeff j l|) fun j => |dx j| := fun dx => by
      unfold expRow compDistPLS
      simp only []
      congr 2
      simp only [Finset.mul_sum, Finset.sum_mul]
      rw [Finset.sum_comm]
      exact Finset.sum_congr rfl fun j _ => Finset.sum_congr rfl fun l _ => by ring
    have h0 : ∀ j, 0 ≤ ∑ l, θ l * |coeff j l| := fun j => Finset.sum_nonneg fun l _ => mul_nonneg (hθ l) (abs_nonneg _)
    simp only [e, absRow_prod _ h0]
    exact psd_prod (fun x y => Real.exp (-|x - y|)) 2 zero_le_two 0 exp_gram (fun i l => (∑ m, θ m * |coeff l m|) * X i l) Finset.univ v

/-! ## The correlation matrix -/

theorem corrR_form (kern : (Fin nx → ℝ) → ℝ) (heven : ∀ d, kern (fun q => -d q) = kern d) (hone : kern (fun _ => 0) = 1) (nugget : ℝ) (noise : Fin n → ℝ) (Xn : Fin n → Fin nx → ℝ)
    (v : Fin n → ℝ) : v ⬝ᵥ (corrR kern nugget noise Xn *ᵥ v) = ∑ i, ∑ j, v i * v j * (kern fun q => Xn i q - Xn j q) + ∑ i, v i ^ 2 * (nugget + noise i) := by
  rw [dotProduct, ← Finset.sum_add_distrib]
  refine Finset.sum_congr rfl fun i _ => ?_
  have e : ∀ j, corrR kern nugget noise Xn i j = (kern fun q => Xn i q - Xn j q) + if i = j then nugget + noise i else 0 := fun j => by
    rw [corrR_apply kern heven]
    by_cases h : i = j
    · subst h; simp [hone]; ring
    · simp [h]
  rw [Matrix.mulVec, dotProduct, Finset.mul_sum]
  simp only [e, add_mul, mul_add, Finset.sum_add_distrib, ite_mul, zero_mul, mul_ite, mul_zero, Finset.sum_ite_eq, Finset.mem_univ, if_true]
  congr 1
  · exact Finset.sum_congr rfl fun j _ => by ring
  · ring

theorem normalise_inj {n : ℕ} (x : Fin n → ℝ) (u v : ℝ) (h : normalise (scaling x) u = normalise (scaling x) v) : u = v := by
  rw [← (C38_roundtrip x u).1, ← (C38_roundtrip x v).1, h]

section
variable {chol : Matrix (Fin n) (Fin n) ℝ → Option (Matrix (Fin n) (Fin n) ℝ)}
  {qr : Matrix (Fin n) (Fin p) ℝ → Matrix (Fin n) (Fin p) ℝ × Matrix (Fin p) (Fin p) ℝ}
  {kern : (Fin nx → ℝ) → ℝ} {trend : (Fin nx → ℝ) → Fin p → ℝ} {nugget : ℝ} {noise : Fin n → ℝ}
  {X : Fin n → Fin nx → ℝ} {y : Fin n → ℝ} {M : Model n nx p}

/-- **C73** With a positive nugget (or noise) at every point, training never fails on the Cholesky factorisation, whatever the data - duplicated points included. -/
theorem C73_trains_nugget (hcc : CholComplete chol) (heven : ∀ d, kern (fun q => -d q) = kern d) (hone : kern (fun _ => 0) = 1) (hk : PsdKernel kern)
    (hnug : ∀ i, 0 < nugget + noise i) : (train chol qr kern trend nugget noise X y).isSome := by
  unfold train
  simp only [Option.isSome_map]
  refine hcc _ (corrR_symm kern heven _ _) fun v hv => ?_
  rw [corrR_form kern heven hone]
  refine add_pos_of_nonneg_of_pos (hk _ _ v) ?_
  obtain ⟨i, hi⟩ : ∃ i, v i ≠ 0 := by
    by_contra h
    push Not at h
    exact hv (funext h)
  exact Finset.sum_pos' (fun i _ => mul_nonneg (sq_nonneg _) (hnug i).le) ⟨i, Finset.mem_univ i, mul_pos (by positivity) (hnug i)⟩

/-- **C73** Without nugget and noise, training succeeds when the training points are distinct ... -/
theorem C73_trains_distinct (hcc : CholComplete chol) (heven : ∀ d, kern (fun q => -d q) = kern d) (hone : kern (fun _ => 0) = 1) (hk : PdKernel kern)
    (hnug : ∀ i, 0 ≤ nugget + noise i) (hX : Function.Injective X) : (train chol qr kern trend nugget noise X y).isSome := by
  unfold train
  simp only [Option.isSome_map]
  refine hcc _ (corrR_symm kern heven _ _) fun v hv => ?_
  rw [corrR_form kern heven hone]
  refine add_pos_of_pos_of_nonneg (hk _ _ (fun i j hij => hX (funext fun q => ?_)) v hv) (Finset.sum_nonneg fun i _ => mul_nonneg (sq_nonneg _) (hnug i))
  exact normalise_inj _ _ _ (congrFun hij q)

/-- **C73** ... and fails when two of them coincide, for every kernel. -/
theorem C73_duplicates_fail (hchol : CholOk chol) (heven : ∀ d, kern (fun q => -d q) = kern d) (hone : kern (fun _ => 0) = 1) {a b : Fin n} (hab : a ≠ b) (hX : X a = X b) :
    train chol qr kern trend 0 (fun _ => 0) X y = none := by
  cases hM : train chol qr kern trend 0 (fun _ => 0) X y with
  | none => rfl
  | some M =>
    exfalso
    obtain ⟨C, hC, hXn, -⟩ := train_eq hM
    have hdet := (hchol _ _ hC).detR
    have he : M.Xn a = M.Xn b := by rw [← hXn a, ← hXn b, hX]
    refine hdet.ne_zero (Matrix.det_zero_of_row_eq hab (funext fun j => ?_))
    rw [corrR_apply kern heven, corrR_apply kern heven]
    by_cases h1 : a = j
    · subst h1
      rw [if_pos rfl, if_neg hab.symm, he]
      simp [hone]
    · by_cases h2 : b = j
      · subst h2
        rw [if_neg h1, if_pos rfl, he]
        simp [hone]
      · rw [if_neg h1, if_neg h2, he]

/-- **C73** The kernels of the code, `theta > 0`, no nugget, no noise: training succeeds if and only if the training points are distinct. -/
theorem C73_trains_iff (hchol : CholOk chol) (hcc : CholComplete chol) (lim : ℕ) (hl : 0 < lim) (c : Corr) (hc : c ≠ .actExp) (θ : Fin nx → ℝ) (hθ : ∀ l, 0 < θ l) :
    (train chol qr (kernOf lim hl c θ) trend 0 (fun _ => 0) X y).isSome ↔ Function.Injective X := by
  obtain ⟨heven, hone⟩ := C39_kernels lim hl c hc θ
  refine ⟨fun h a b hab => ?_, fun h => C73_trains_distinct hcc heven hone (C73_kernels_pd lim hl c hc θ hθ) (fun _ => by simp) h⟩
  by_contra hne
  rw [C73_duplicates_fail hchol heven hone hne hab] at h
  simp at h

/-- **C73** End to end: distinct points, `theta > 0`, no nugget, a trend of full rank at the standardised points: the model trains and interpolates the data exactly. -/
theorem C73_trains_and_interpolates (hchol : CholOk chol) (hcc : CholComplete chol) (hqr : QROk qr) (lim : ℕ) (hl : 0 < lim) (c : Corr) (hc : c ≠ .actExp) (θ : Fin nx → ℝ) (hθ : ∀ l, 0 < θ l)
    (hX : Function.Injective X) (hF : FullRank (Matrix.of fun i => trend fun j => normalise (scaling fun i => X i j) (X i j))) :
    ∃ M, train chol qr (kernOf lim hl c θ) trend 0 (fun _ => 0) X y = some M ∧ ∀ i, M.predict (X i) = y i := by
  obtain ⟨M, hM⟩ := Option.isSome_iff_exists.1 ((C73_trains_iff (qr := qr) (trend := trend) (X := X) (y := y) hchol hcc lim hl c hc θ hθ).2 hX)
  refine ⟨M, hM, fun i => C39_interpolates hM hchol hqr ?_ (C39_kernels lim hl c hc θ).1 (C39_kernels lim hl c hc θ).2 i⟩
  unfold train at hM
  simp only [Option.map_eq_some_iff] at hM
  obtain ⟨C, -, rfl⟩ := hM
  exact hF

/-- `1 - rᵀR⁻¹r ≥ 0` for every positive semi-definite kernel, nugget and noise non-negative. -/
theorem corr_le_one_psd (heven : ∀ d, kern (fun q => -d q) = kern d) (hone : kern (fun _ => 0) = 1) (hk : PsdKernel kern) (hnug : ∀ i, 0 ≤ nugget + noise i) (Xn : Fin n → Fin nx → ℝ)
    (hdet : IsUnit (corrR kern nugget noise Xn).det) (xn : Fin nx → ℝ) (r : Fin n → ℝ) (hr : ∀ i, r i = kern fun j => xn j - Xn i j) :
    0 ≤ 1 - r ⬝ᵥ ((corrR kern nugget noise Xn)⁻¹ *ᵥ r) := by
  set R := corrR kern nugget noise Xn with hR
  set c := R⁻¹ *ᵥ r with hc
  have hRc : R *ᵥ c = r := by rw [hc, Matrix.mulVec_mulVec, Matrix.mul_nonsing_inv _ hdet, Matrix.one_mulVec]
  have hg := hk (n + 1) (Fin.cons xn Xn : Fin (n + 1) → Fin nx → ℝ) (Fin.cons 1 fun i => -c i)
  have hf := corrR_form kern heven hone nugget noise Xn c
  rw [← hR, hRc] at hf
  have e0 : (kern fun j => xn j - xn j) = 1 := by simp [hone]
  have e1 : ∀ i, (kern fun j => xn j - Xn i j) = r i := fun i => (hr i).symm
  have e2 : ∀ i, (kern fun j => Xn i j - xn j) = r i := fun i => by
    rw [hr i, ← heven]; congr 1; funext q; ring
  simp only [Fin.sum_univ_succ, Fin.cons_zero, Fin.cons_succ, e0, e1, e2] at hg
  have s1 : ∑ i, ∑ j, -c i * -c j * (kern fun q => Xn i q - Xn j q) = ∑ i, ∑ j, c i * c j * (kern fun q => Xn i q - Xn j q) :=
    Finset.sum_congr rfl fun i _ => Finset.sum_congr rfl fun j _ => by ring
  have s2 : 0 ≤ ∑ i, c i ^ 2 * (nugget + noise i) := Finset.sum_nonneg fun i _ => mul_nonneg (sq_nonneg _) (hnug i)
  have s3 : ∑ i, -c i * 1 * r i = -(r ⬝ᵥ c) := by
    rw [dotProduct, ← Finset.sum_neg_distrib]; exact Finset.sum_congr rfl fun i _ => by ring
  have s4 : ∑ i, 1 * -c i * r i = -(r ⬝ᵥ c) := by
    rw [dotProduct, ← Finset.sum_neg_distrib]; exact Finset.sum_congr rfl fun i _ => by ring
  have s5 : c ⬝ᵥ r = r ⬝ᵥ c := dotProduct_comm _ _
  rw [Finset.sum_add_distrib, s1, s3, s4] at hg
  linarith

/-- **C40** For every kernel of the code (`theta ≥ 0`), non-negative nugget and noise: the computed mean squared error is already non-negative, "force to zero" never changes it in exact
arithmetic. -/
theorem C40_clip_inactive_kernels {lim : ℕ} {hl : 0 < lim} {c : Corr} (hc : c ≠ .actExp) {θ : Fin nx → ℝ} (hθ : ∀ j, 0 ≤ θ j) (hnug : ∀ i, 0 ≤ nugget + noise i)
    (hM : train chol qr (kernOf lim hl c θ) trend nugget noise X y = some M) (hchol : CholOk chol) (hqr : QROk qr) (hF : FullRank M.F) (x : Fin nx → ℝ) :
    let R := corrR (kernOf lim hl c θ) nugget noise M.Xn
    let r := M.corr (M.norm x)
    let v := M.Fᵀ *ᵥ (R⁻¹ *ᵥ r) - M.trend (M.norm x)
    M.variance x = M.par.sigma2 * (1 - r ⬝ᵥ (R⁻¹ *ᵥ r) + ∑ q, (v q / M.par.G q q) ^ 2) := by
  intro R r v
  rw [C41_reported hM hchol hqr hF x]
  apply max_eq_right
  obtain ⟨C, hC, hX, hy, hk, ht, hFF, hOS, hP⟩ := train_eq hM
  have hdet := (hchol _ _ hC).detR
  refine mul_nonneg (sigma2_nonneg hM) (add_nonneg ?_ (Finset.sum_nonneg fun _ _ => sq_nonneg _))
  exact corr_le_one_psd (C39_kernels lim hl c hc θ).1 (C39_kernels lim hl c hc θ).2 (C73_kernels_psd lim hl c hc θ hθ) hnug M.Xn hdet (M.norm x) _ fun i => by rw [← hk]; rfl

end

/-- The hypotheses of the theorems above hold together: exact routines exist for every size; three points in the plane, Matérn 5/2, constant trend. -/
example (y : Fin 3 → ℝ) : ∃ M, train (n := 3) (nx := 2) (p := 1) cholStd qrStd (kernOf 10 (by decide) .matern52 fun _ => 1) trendConstant 0 (fun _ => 0)
    (fun i j => if i.val = j.val then 1 else 0) y = some M ∧ ∀ i, M.predict ((fun i j => if i.val = j.val then 1 else 0 : Fin 3 → Fin 2 → ℝ) i) = y i := by
  refine C73_trains_and_interpolates cholStd_ok cholStd_complete qrStd_ok 10 (by decide) .matern52 (by simp) (fun _ => 1) (fun _ => one_pos) ?_ ?_
  · intro i j hij
    have h0 := congrFun hij 0
    have h1 := congrFun hij 1
    fin_cases i <;> fin_cases j <;> simp at h0 h1 ⊢
  · intro v hv
    have := congrFun hv 0
    funext q
    fin_cases q
    simpa [Matrix.mulVec, dotProduct, trendConstant] using this

/-- Duplicated points with the default nugget train: abs_exp. -/
example (y : Fin 2 → ℝ) : (train (n := 2) (nx := 1) (p := 1) cholStd qrStd (kernOf 10 (by decide) .absExp fun _ => 1) trendConstant (1 / 10 ^ 14) (fun _ => 0) (fun _ _ => 3) y).isSome :=
  C73_trains_nugget cholStd_complete (C39_kernels 10 (by decide) .absExp (by simp) _).1 (C39_kernels 10 (by decide) .absExp (by simp) _).2
    (C73_kernels_psd 10 (by decide) .absExp (by simp) _ fun _ => zero_le_one) fun _ => by norm_num

end SMT.Krg
