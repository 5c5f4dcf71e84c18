import Verif.Kriging.CondProps

/-!
# C112: theorems

The vocabulary (`CondLe`, `Pd`, `stdPoints`, `trendMat`, and what is assumed of scipy) is defined at the head of `CondProps.lean`.
-/
namespace SMT.Krg
open Matrix SMT.Common SMT.Fit SMT.Krg.Optim
set_option linter.unusedSectionVars false
set_option linter.unusedSimpArgs false
set_option linter.unusedVariables false

noncomputable section

variable {n nx p : ℕ} {Θ : Type} {chol : Matrix (Fin n) (Fin n) ℝ → Option (Matrix (Fin n) (Fin n) ℝ)}
  {qr : Matrix (Fin n) (Fin p) ℝ → Matrix (Fin n) (Fin p) ℝ × Matrix (Fin p) (Fin p) ℝ} {svd : Svd p}
  {kern : (Fin nx → ℝ) → ℝ} {trend : (Fin nx → ℝ) → Fin p → ℝ} {nugget : ℝ} {noise : Fin n → ℝ} {X : Fin n → Fin nx → ℝ} {y : Fin n → ℝ}

/-- **C112** What the test decides, in terms of the correlation matrix and the trend matrix only: hyper-parameters are rejected if the correlation matrix is not positive definite, or if the matrix of the
least-squares problem `FᵀR⁻¹F` has a condition number above `10^20` while that of `FᵀF` is at most `10^30`; the exception is raised if both limits are exceeded; in all other cases the model is the one
of the unchecked training. The triangular factors the code computes with play no part. -/
theorem C112_outcome (hchol : CholOk chol) (hcc : CholComplete chol) (hqr : QRAll qr) (hsvd : SvdOk svd) (hpn : p ≤ n) (heven : ∀ d, kern (fun q => -d q) = kern d) (hF : trendMat trend X ≠ 0) :
    let R := corrR kern nugget noise (stdPoints X)
    let F := trendMat trend X
    (trainChecked chol qr svd kern trend nugget noise X y = .raised ↔ Pd R ∧ ¬ CondLe 1e20 (Fᵀ * R⁻¹ * F) ∧ ¬ CondLe 1e30 (Fᵀ * F)) ∧
    (trainChecked chol qr svd kern trend nugget noise X y = .rejected ↔ ¬ Pd R ∨ (¬ CondLe 1e20 (Fᵀ * R⁻¹ * F) ∧ CondLe 1e30 (Fᵀ * F))) ∧
    (∀ M, trainChecked chol qr svd kern trend nugget noise X y = .ok M ↔ Pd R ∧ CondLe 1e20 (Fᵀ * R⁻¹ * F) ∧ train chol qr kern trend nugget noise X y = some M) :=
  solveChecked_eq hchol hcc hqr hsvd hpn (corrR_symm kern heven _ _) hF _

/-- **C112** In every case, a model that passes is a model of the unchecked training: whatever is proved of `train` holds of it. -/
theorem C112_same_model {M : Model n nx p} (h : trainChecked chol qr svd kern trend nugget noise X y = .ok M) : train chol qr kern trend nugget noise X y = some M := by
  unfold trainChecked solveChecked at h
  unfold train
  dsimp only at h ⊢
  revert h
  cases chol (corrR kern nugget noise fun i j => normalise (scaling fun i => X i j) (X i j)) with
  | none => intro h; cases h
  | some C =>
    dsimp only
    intro h
    split at h
    · cases h
    · cases h
    · split at h
      · cases h
      · simp only [Outcome.ok.injEq] at h
        rw [Option.map_some, h]

/-- **C112** With a constant trend the test never fires: training (for given hyper-parameters) never raises, and gives exactly what the unchecked training gives. -/
theorem C112_constant {qr : Matrix (Fin n) (Fin 1) ℝ → Matrix (Fin n) (Fin 1) ℝ × Matrix (Fin 1) (Fin 1) ℝ} {svd : Svd 1} (hchol : CholOk chol) (hcc : CholComplete chol) (hqr : QRAll qr)
    (hsvd : SvdOk svd) (hn : 0 < n) (heven : ∀ d, kern (fun q => -d q) = kern d) :
    trainChecked chol qr svd kern trendConstant nugget noise X y ≠ .raised ∧
    ∀ M, trainChecked chol qr svd kern trendConstant nugget noise X y = .ok M ↔ train chol qr kern trendConstant nugget noise X y = some M := by
  have hF : trendMat (trendConstant (nx := nx)) X ≠ 0 := fun h => by
    have := congrFun (congrFun h ⟨0, hn⟩) 0
    simp [trendMat, trendConstant] at this
  obtain ⟨h1, -, h3⟩ := C112_outcome (y := y) (nugget := nugget) (noise := noise) hchol hcc hqr hsvd hn heven hF
  have hcond : ∀ R : Matrix (Fin n) (Fin n) ℝ, Pd R → CondLe 1e20 ((trendMat trendConstant X)ᵀ * R⁻¹ * trendMat (trendConstant (nx := nx)) X) := by
    intro R hR u v hu hv
    have hu' : u 0 * u 0 = 1 := by simpa [dotProduct] using hu
    have hv' : v 0 * v 0 = 1 := by simpa [dotProduct] using hv
    have huv : u = v ∨ u = -v := by
      have : (u 0 - v 0) * (u 0 + v 0) = 0 := by ring_nf; rw [pow_two, pow_two, hu', hv', sub_self]
      rcases mul_eq_zero.1 this with h | h
      · exact Or.inl (funext fun i => by fin_cases i; simpa using sub_eq_zero.1 h)
      · exact Or.inr (funext fun i => by fin_cases i; simpa using eq_neg_of_add_eq_zero_left h)
    have e : u ⬝ᵥ (((trendMat trendConstant X)ᵀ * R⁻¹ * trendMat (trendConstant (nx := nx)) X) *ᵥ u) = v ⬝ᵥ (((trendMat trendConstant X)ᵀ * R⁻¹ * trendMat (trendConstant (nx := nx)) X) *ᵥ v) := by
      rcases huv with h | h
      · rw [h]
      · rw [h, Matrix.mulVec_neg, neg_dotProduct_neg]
    rw [e]
    have h0 : 0 ≤ v ⬝ᵥ (((trendMat trendConstant X)ᵀ * R⁻¹ * trendMat (trendConstant (nx := nx)) X) *ᵥ v) := by
      rw [form_F]
      by_contra hlt
      push Not at hlt
      have hz := inv_form_zero hR hlt.le
      rw [hz, zero_dotProduct] at hlt
      exact lt_irrefl _ hlt
    nlinarith
  refine ⟨fun h => ?_, fun M => ⟨fun h => C112_same_model h, fun h => ?_⟩⟩
  · obtain ⟨hR, hc, -⟩ := h1.1 h
    exact hc (hcond _ hR)
  · have hR : Pd (corrR kern nugget noise (stdPoints X)) := by
      unfold train at h
      simp only [Option.map_eq_some_iff] at h
      obtain ⟨C, hC, -⟩ := h
      exact pd_of_chol (hchol _ _ hC)
    exact (h3 M).2 ⟨hR, hcond _ hR, h⟩

/-- **C112** The trend can be told apart at the training points if and only if no function of its space other than 0 vanishes at all of them (the standardisation of the inputs does not matter). -/
theorem C112_identifiable {S : Submodule ℝ ((Fin nx → ℝ) → ℝ)} (hT : TrendOf trend S) (hS : UnitFree S) :
    FullRank (trendMat trend X) ↔ ∀ f ∈ S, (∀ i, f (X i) = 0) → f = 0 := by
  obtain ⟨t1, t2, t3⟩ := hT
  let o : Fin nx → ℝ := fun j => (scaling fun i => X i j).1
  let s : Fin nx → ℝ := fun j => (scaling fun i => X i j).2
  have hs : ∀ j, s j ≠ 0 := fun j => scaling_ne _
  have hrow : ∀ v i, (trendMat trend X *ᵥ v) i = trend (stdPoints X i) ⬝ᵥ v := fun v i => rfl
  have hback : ∀ i j, s j * stdPoints X i j + o j = X i j := fun i j => by
    show s j * ((X i j - o j) / s j) + o j = X i j
    field_simp [hs j]; ring
  constructor
  · intro hfr f hf h0
    obtain ⟨v, hv⟩ := t2 _ (hS.2 f hf s o)
    have : v = 0 := hfr v (funext fun i => by
      rw [hrow, ← hv]
      simp only [hback]
      exact h0 i)
    funext x
    have h1 := hv fun j => (x j - o j) / s j
    rw [this, dotProduct_zero] at h1
    have e : (fun j => s j * ((x j - o j) / s j) + o j) = x := funext fun j => by field_simp [hs j]; ring
    simp only [e] at h1
    exact h1
  · intro h v hv
    apply t3
    let g : (Fin nx → ℝ) → ℝ := fun x => trend (fun j => (s j)⁻¹ * x j + -(o j / s j)) ⬝ᵥ v
    have hg : g ∈ S := hS.2 _ (t1 v) (fun j => (s j)⁻¹) fun j => -(o j / s j)
    have hg0 := h g hg fun i => by
      have e : (fun j => (s j)⁻¹ * X i j + -(o j / s j)) = stdPoints X i := funext fun j => by
        show _ = (X i j - o j) / s j
        ring
      simp only [g, e]
      rw [← hrow, hv]; rfl
    intro x
    have := congrFun hg0 fun j => s j * x j + o j
    have e : (fun j => (s j)⁻¹ * (s j * x j + o j) + -(o j / s j)) = x := funext fun j => by field_simp [hs j]; ring
    simp only [g, e] at this
    exact this

theorem trendMat_ne {S : Submodule ℝ ((Fin nx → ℝ) → ℝ)} (hT : TrendOf trend S) (hS : UnitFree S) (hn : 0 < n) : trendMat trend X ≠ 0 := by
  intro h
  obtain ⟨v, hv⟩ := hT.2.1 _ (hS.1 1)
  have h1 := hv (stdPoints X ⟨0, hn⟩)
  have h2 : trend (stdPoints X ⟨0, hn⟩) ⬝ᵥ v = (trendMat trend X *ᵥ v) ⟨0, hn⟩ := rfl
  rw [h2, h, Matrix.zero_mulVec] at h1
  simp at h1

theorem trend_pos {S : Submodule ℝ ((Fin nx → ℝ) → ℝ)} (hT : TrendOf trend S) (hS : UnitFree S) : 0 < p := by
  rcases Nat.eq_zero_or_pos p with h | h
  · subst h
    obtain ⟨v, hv⟩ := hT.2.1 _ (hS.1 1)
    have := hv 0
    simp [dotProduct] at this
  · exact h

/-- **C112** Training points on which the trend cannot be told apart - a function of its space other than 0 vanishes at all of them - never give a model, whatever the outputs, the kernel, the nugget and
the noise: the exception of the conditioning test is raised as soon as the correlation matrix is positive definite. -/
theorem C112_degenerate (hchol : CholOk chol) (hcc : CholComplete chol) (hqr : QRAll qr) (hsvd : SvdOk svd) (hpn : p ≤ n) (heven : ∀ d, kern (fun q => -d q) = kern d)
    {S : Submodule ℝ ((Fin nx → ℝ) → ℝ)} (hT : TrendOf trend S) (hS : UnitFree S) {f : (Fin nx → ℝ) → ℝ} (hf : f ∈ S) (hf0 : f ≠ 0) (hX : ∀ i, f (X i) = 0) :
    (Pd (corrR kern nugget noise (stdPoints X)) → trainChecked chol qr svd kern trend nugget noise X y = .raised) ∧
    (¬ Pd (corrR kern nugget noise (stdPoints X)) → trainChecked chol qr svd kern trend nugget noise X y = .rejected) := by
  have hn : 0 < n := lt_of_lt_of_le (trend_pos hT hS) hpn
  have hF := trendMat_ne (X := X) hT hS hn
  obtain ⟨h1, h2, -⟩ := C112_outcome (y := y) (nugget := nugget) (noise := noise) hchol hcc hqr hsvd hpn heven hF
  refine ⟨fun hR => h1.2 ?_, fun hR => h2.2 (Or.inl hR)⟩
  have hnf : ¬ FullRank (trendMat trend X) := fun h => hf0 ((C112_identifiable hT hS).1 h f hf hX)
  unfold FullRank at hnf
  push Not at hnf
  obtain ⟨v, hv, hv0⟩ := hnf
  exact ⟨hR, (not_cond_of_deficient hR hF hv0 hv _).1, (not_cond_of_deficient hR hF hv0 hv _).2⟩

/-- **C112** The linear trend and training points in a hyperplane - an input that is constant over the sample, or one that is an affine function of the others: no model is obtained, for any outputs, kernel,
nugget. -/
theorem C112_linear_hyperplane {qr : Matrix (Fin n) (Fin (nx + 1)) ℝ → Matrix (Fin n) (Fin (nx + 1)) ℝ × Matrix (Fin (nx + 1)) (Fin (nx + 1)) ℝ} {svd : Svd (nx + 1)} (hchol : CholOk chol)
    (hcc : CholComplete chol) (hqr : QRAll qr) (hsvd : SvdOk svd) (hpn : nx + 1 ≤ n) (heven : ∀ d, kern (fun q => -d q) = kern d) {a : Fin nx → ℝ} (ha : a ≠ 0) {b : ℝ} (hX : ∀ i, a ⬝ᵥ X i = b) (M) :
    trainChecked chol qr svd kern trendLinear nugget noise X y ≠ .ok M := by
  have hf : (fun x : Fin nx → ℝ => -b + ∑ j, a j * x j) ∈ affines ℝ nx := ⟨-b, a, fun x => rfl⟩
  have hf0 : (fun x : Fin nx → ℝ => -b + ∑ j, a j * x j) ≠ 0 := fun h => ha (funext fun j => by
    have h1 := congrFun h 0
    have h2 := congrFun h (Pi.single j 1)
    simp [Pi.single_apply] at h1 h2
    rw [h1] at h2
    simpa using h2)
  obtain ⟨h1, h2⟩ := C112_degenerate (y := y) (nugget := nugget) (noise := noise) hchol hcc hqr hsvd hpn heven linear_trend affines_unitFree hf hf0 (fun i => by
    have := hX i
    simp only [dotProduct] at this
    rw [this]; ring)
  intro h
  by_cases hR : Pd (corrR kern nugget noise (stdPoints X))
  · rw [h1 hR] at h; cases h
  · rw [h2 hR] at h; cases h

/-- **C112** The quadratic trend and an input that takes at most two values over the sample (a two-level factor): no model is obtained. -/
theorem C112_quadratic_two_levels {qr : Matrix (Fin n) (Fin (monos nx).length) ℝ → Matrix (Fin n) (Fin (monos nx).length) ℝ × Matrix (Fin (monos nx).length) (Fin (monos nx).length) ℝ}
    {svd : Svd (monos nx).length} (hchol : CholOk chol)
    (hcc : CholComplete chol) (hqr : QRAll qr) (hsvd : SvdOk svd) (hpn : (monos nx).length ≤ n) (heven : ∀ d, kern (fun q => -d q) = kern d) {j : Fin nx} {a b : ℝ}
    (hX : ∀ i, X i j = a ∨ X i j = b) (M) : trainChecked chol qr svd kern trendQuadratic nugget noise X y ≠ .ok M := by
  have hf : (fun x : Fin nx → ℝ => (x j - a) * (x j - b)) ∈ quadratics ℝ nx := by
    refine ⟨a * b, Pi.single j (-(a + b)), fun k l => if k = j ∧ l = j then 1 else 0, fun x => ?_⟩
    simp [Pi.single_apply, ite_and]
    ring
  have hf0 : (fun x : Fin nx → ℝ => (x j - a) * (x j - b)) ≠ 0 := fun h => by
    have h1 := congrFun h fun _ => a + b + a * a + b * b + 2
    simp only [Pi.zero_apply] at h1
    rcases mul_eq_zero.1 h1 with h2 | h2
    · nlinarith [sq_nonneg (b + 1), sq_nonneg a, sq_nonneg (b + 1 / 2)]
    · nlinarith [sq_nonneg (a + 1), sq_nonneg b, sq_nonneg (a + 1 / 2)]
  obtain ⟨h1, h2⟩ := C112_degenerate (y := y) (nugget := nugget) (noise := noise) hchol hcc hqr hsvd hpn heven quadratic_trend quadratics_unitFree hf hf0 (fun i => by
    show (X i j - a) * (X i j - b) = 0
    rcases hX i with h | h <;> rw [h] <;> ring)
  intro h
  by_cases hR : Pd (corrR kern nugget noise (stdPoints X))
  · rw [h1 hR] at h; cases h
  · rw [h2 hR] at h; cases h

/-- **C112** A sufficient condition: positive semi-definite kernel, nugget plus noise between `lo > 0` and `hi` at every point, `κ` the squared condition number of the trend matrix: if
`κ * (n + hi) ≤ 10^20 * lo`, every choice of hyper-parameters is accepted. -/
theorem C112_accepts (hchol : CholOk chol) (hcc : CholComplete chol) (hqr : QRAll qr) (hsvd : SvdOk svd) (hpn : p ≤ n) (heven : ∀ d, kern (fun q => -d q) = kern d) (hone : kern (fun _ => 0) = 1)
    (hk : PsdKernel kern) (hF : trendMat trend X ≠ 0) {lo hi κ : ℝ} (hlo0 : 0 < lo) (hlo : ∀ i, lo ≤ nugget + noise i) (hhi : ∀ i, nugget + noise i ≤ hi) (hκ : 0 ≤ κ)
    (hcond : CondLe κ ((trendMat trend X)ᵀ * trendMat trend X)) (hb : κ * (n + hi) ≤ 1e20 * lo) :
    ∃ M, trainChecked chol qr svd kern trend nugget noise X y = .ok M ∧ train chol qr kern trend nugget noise X y = some M := by
  obtain ⟨M, hM⟩ := Option.isSome_iff_exists.1 (C73_trains_nugget (qr := qr) (trend := trend) (X := X) (y := y) (nugget := nugget) (noise := noise) hcc heven hone hk fun i => lt_of_lt_of_le hlo0 (hlo i))
  refine ⟨M, ?_, hM⟩
  obtain ⟨C, hC⟩ : ∃ C, chol (corrR kern nugget noise (stdPoints X)) = some C := by
    unfold train at hM
    simp only [Option.map_eq_some_iff] at hM
    obtain ⟨C, hC, -⟩ := hM
    exact ⟨C, hC⟩
  have hch := hchol _ _ hC
  refine ((C112_outcome (y := y) (nugget := nugget) (noise := noise) hchol hcc hqr hsvd hpn heven hF).2.2 M).2 ⟨pd_of_chol hch, fun u v hu hv => ?_, hM⟩
  have hbd := corrR_bounds heven hone hk hlo hhi (stdPoints X)
  have hin := inv_bounds hch hlo0 (fun w => (hbd w).1) (fun w => (hbd w).2)
  rw [form_F, form_F]
  set F := trendMat trend X
  set R := corrR kern nugget noise (stdPoints X)
  have h1 := (hin (F *ᵥ u)).1
  have h2 := (hin (F *ᵥ v)).2
  have h3 := hcond u v hu hv
  rw [form_gram, form_gram] at h3
  have h4 : 0 ≤ (F *ᵥ v) ⬝ᵥ (R⁻¹ *ᵥ (F *ᵥ v)) := by
    by_contra hlt
    push Not at hlt
    have hz := inv_form_zero (pd_of_chol hch) hlt.le
    rw [hz, zero_dotProduct] at hlt
    exact lt_irrefl _ hlt
  have h5 : lo * ((F *ᵥ u) ⬝ᵥ (R⁻¹ *ᵥ (F *ᵥ u))) ≤ lo * (1e20 * ((F *ᵥ v) ⬝ᵥ (R⁻¹ *ᵥ (F *ᵥ v)))) :=
    calc _ ≤ (F *ᵥ u) ⬝ᵥ (F *ᵥ u) := h1
      _ ≤ κ * ((F *ᵥ v) ⬝ᵥ (F *ᵥ v)) := h3
      _ ≤ κ * ((n + hi) * ((F *ᵥ v) ⬝ᵥ (R⁻¹ *ᵥ (F *ᵥ v)))) := mul_le_mul_of_nonneg_left h2 hκ
      _ = (κ * (n + hi)) * ((F *ᵥ v) ⬝ᵥ (R⁻¹ *ᵥ (F *ᵥ v))) := by ring
      _ ≤ (1e20 * lo) * ((F *ᵥ v) ⬝ᵥ (R⁻¹ *ᵥ (F *ᵥ v))) := mul_le_mul_of_nonneg_right hb h4
      _ = _ := by ring
  exact le_of_mul_le_mul_left h5 hlo0

/-- **C112** One input that is not constant over the sample and the linear trend: the standardised trend matrix is always well conditioned, the exception is never raised, and with at least `lo` of nugget
and noise everywhere, `2 * (n + hi) ≤ 10^20 * lo`, every choice of hyper-parameters is accepted (for the default nugget, `100` times the machine epsilon: up to a million points). -/
theorem C112_linear_one_input {X : Fin n → Fin 1 → ℝ} {kern : (Fin 1 → ℝ) → ℝ} {qr : Matrix (Fin n) (Fin 2) ℝ → Matrix (Fin n) (Fin 2) ℝ × Matrix (Fin 2) (Fin 2) ℝ} {svd : Svd 2} (hchol : CholOk chol)
    (hcc : CholComplete chol) (hqr : QRAll qr) (hsvd : SvdOk svd) (hn : 2 ≤ n) (heven : ∀ d, kern (fun q => -d q) = kern d) (hX : ∃ i j, X i 0 ≠ X j 0) :
    trainChecked chol qr svd kern trendLinear nugget noise X y ≠ .raised ∧
    ∀ lo hi : ℝ, kern (fun _ => 0) = 1 → PsdKernel kern → 0 < lo → (∀ i, lo ≤ nugget + noise i ∧ nugget + noise i ≤ hi) → 2 * (n + hi) ≤ 1e20 * lo →
      ∃ M, trainChecked chol qr svd kern trendLinear nugget noise X y = .ok M := by
  have hn' : (2 : ℝ) ≤ n := by exact_mod_cast hn
  have hz := C38_centred (by omega : 0 < n) fun i => X i 0
  have hv := (C38_unit_variance hn fun i => X i 0).1 hX
  rw [div_eq_one_iff_eq (by linarith)] at hv
  have hF : ∀ u : Fin 2 → ℝ, u ⬝ᵥ (((trendMat trendLinear X)ᵀ * trendMat trendLinear X) *ᵥ u) = n * u 0 ^ 2 + (n - 1) * u 1 ^ 2 := by
    intro u
    rw [form_gram]
    have hrow : ∀ i, (trendMat trendLinear X *ᵥ u) i = u 0 + normalise (scaling fun i => X i 0) (X i 0) * u 1 := fun i => by
      simp [trendMat, Matrix.mulVec, dotProduct, Fin.sum_univ_two, trendLinear, stdPoints]
    have e : ∀ i, (u 0 + normalise (scaling fun i => X i 0) (X i 0) * u 1) * (u 0 + normalise (scaling fun i => X i 0) (X i 0) * u 1) =
        u 0 ^ 2 + normalise (scaling fun i => X i 0) (X i 0) * (2 * u 0 * u 1) + normalise (scaling fun i => X i 0) (X i 0) ^ 2 * u 1 ^ 2 := fun i => by ring
    simp only [dotProduct, hrow, e, Finset.sum_add_distrib, ← Finset.sum_mul, hz, hv]
    simp
  have hcond : CondLe 2 ((trendMat trendLinear X)ᵀ * trendMat trendLinear X) := by
    intro u v hu hv
    rw [hF, hF]
    have hu' : u 0 * u 0 + u 1 * u 1 = 1 := by rw [← hu]; exact (Fin.sum_univ_two (fun i : Fin 2 => u i * u i)).symm
    have hv' : v 0 * v 0 + v 1 * v 1 = 1 := by rw [← hv]; exact (Fin.sum_univ_two (fun i : Fin 2 => v i * v i)).symm
    have h1 : n * u 0 ^ 2 + (n - 1) * u 1 ^ 2 = n - u 1 ^ 2 := by
      have : u 0 ^ 2 = 1 - u 1 ^ 2 := by rw [pow_two, pow_two]; linarith
      rw [this]; ring
    have h2 : (n : ℝ) * v 0 ^ 2 + (n - 1) * v 1 ^ 2 = (n - 1) + v 0 ^ 2 := by
      have : v 1 ^ 2 = 1 - v 0 ^ 2 := by rw [pow_two, pow_two]; linarith
      rw [this]; ring
    rw [h1, h2]
    have := sq_nonneg (u 1)
    have := sq_nonneg (v 0)
    linarith
  have hF0 : trendMat (trendLinear (nx := 1)) X ≠ 0 := trendMat_ne linear_trend affines_unitFree (by omega)
  refine ⟨fun h => ?_, fun lo hi hone hk hlo0 hb hle => ?_⟩
  · obtain ⟨-, -, h3⟩ := (C112_outcome (y := y) (nugget := nugget) (noise := noise) hchol hcc hqr hsvd hn heven hF0).1.1 h
    refine h3 fun u v hu hv => (hcond u v hu hv).trans ?_
    have h0 : 0 ≤ v ⬝ᵥ (((trendMat trendLinear X)ᵀ * trendMat trendLinear X) *ᵥ v) := by
      rw [form_gram]; exact Finset.sum_nonneg fun i _ => mul_self_nonneg _
    linarith
  · obtain ⟨M, hM, -⟩ := C112_accepts (y := y) (nugget := nugget) (noise := noise) (X := X) (trend := trendLinear) hchol hcc hqr hsvd hn heven hone hk hF0 hlo0 (fun i => (hb i).1) (fun i => (hb i).2) zero_le_two hcond hle
    exact ⟨M, hM⟩

/-! ## The optimisation -/

theorem QRAll.ok (h : QRAll qr) : QROk qr := by
  intro A hA
  have hq := h A
  refine ⟨hq.mul, hq.orth, hq.upper, fun i hi => ?_⟩
  have hdet : (qr A).2.det = 0 := by
    rw [Matrix.det_of_isUpperTriangular (fun a b hab => hq.upper a b (by simpa using hab))]
    exact Finset.prod_eq_zero (Finset.mem_univ i) hi
  obtain ⟨v, hv, hGv⟩ := Matrix.exists_mulVec_eq_zero_iff.2 hdet
  exact hv (hA v (by rw [← hq.mul, ← Matrix.mulVec_mulVec, hGv, Matrix.mulVec_zero]))

theorem checked_fin {kern : Θ → (Fin nx → ℝ) → ℝ} {θ : Θ} {v : ℝ} (h : dataValChecked chol qr svd kern trend nugget noise X y θ = .fin v) : dataVal chol qr kern trend nugget noise X y θ = .fin v := by
  unfold dataValChecked solveChecked at h
  unfold dataVal krgVal
  dsimp only at h ⊢
  revert h
  cases chol (corrR (kern θ) nugget noise fun i j => normalise (scaling fun i => X i j) (X i j)) with
  | none => intro h; cases h
  | some C =>
    dsimp only
    intro h
    split at h
    · cases h
    · cases h
    · rename_i a ha
      subst h
      split at ha
      · cases ha
      · cases ha
      · split at ha
        · cases ha
        · simp only [Outcome.ok.injEq] at ha
          exact ha

open Classical in
/-- **C112** The values the optimiser sees with the test are those without it, except where the test turns them into minus infinity or the exception. -/
theorem C112_values {kern : Θ → (Fin nx → ℝ) → ℝ} (hchol : CholOk chol) (hcc : CholComplete chol) (hqr : QRAll qr) (hsvd : SvdOk svd) (hpn : p ≤ n) (heven : ∀ θ d, kern θ (fun q => -d q) = kern θ d)
    (hF : trendMat trend X ≠ 0) (θ : Θ) :
    let R := corrR (kern θ) nugget noise (stdPoints X)
    let F := trendMat trend X
    dataValChecked chol qr svd kern trend nugget noise X y θ = if Pd R ∧ CondLe 1e20 (Fᵀ * R⁻¹ * F) then dataVal chol qr kern trend nugget noise X y θ else .ninf := by
  intro R F
  have key := solveChecked_eq hchol hcc hqr hsvd hpn (corrR_symm (kern θ) (heven θ) nugget noise (Xn := stdPoints X)) hF fun C =>
      if (blup C qr F (fun i => normalise (scaling y) (y i)) 1 n).sigma2 = 0 then Val.pinf else Val.fin (rlf C qr F (fun i => normalise (scaling y) (y i)) n)
  obtain ⟨h1, h2, h3⟩ := key
  have hv : dataValChecked chol qr svd kern trend nugget noise X y θ = match solveChecked chol qr svd R F (fun C =>
      if (blup C qr F (fun i => normalise (scaling y) (y i)) 1 n).sigma2 = 0 then Val.pinf else Val.fin (rlf C qr F (fun i => normalise (scaling y) (y i)) n)) with
    | .raised => .ninf
    | .rejected => .ninf
    | .ok v => v := rfl
  have hd : dataVal chol qr kern trend nugget noise X y θ = match chol R with
    | none => .ninf
    | some C => if (blup C qr F (fun i => normalise (scaling y) (y i)) 1 n).sigma2 = 0 then .pinf else .fin (rlf C qr F (fun i => normalise (scaling y) (y i)) n) := rfl
  rw [hv, hd]
  by_cases hc : Pd R ∧ CondLe 1e20 (Fᵀ * R⁻¹ * F)
  · rw [if_pos hc]
    obtain ⟨C, hC⟩ := Option.isSome_iff_exists.1 (hcc R (corrR_symm (kern θ) (heven θ) nugget noise (Xn := stdPoints X)) hc.1)
    rw [(h3 _).2 ⟨hc.1, hc.2, by rw [hC]; rfl⟩, hC]
  · rw [if_neg hc]
    by_cases hR : Pd R
    · have hc' : ¬ CondLe 1e20 (Fᵀ * R⁻¹ * F) := fun h => hc ⟨hR, h⟩
      by_cases hf : CondLe 1e30 (Fᵀ * F)
      · rw [h2.2 (Or.inr ⟨hc', hf⟩)]
      · rw [h1.2 ⟨hR, hc', hf⟩]
    · rw [h2.2 (Or.inl hR)]

/-- **C112** Training points on which the trend cannot be told apart: the optimisation of the hyper-parameters never returns normally, whatever the optimiser does. -/
theorem C112_degenerate_training {kern : Θ → (Fin nx → ℝ) → ℝ} (hchol : CholOk chol) (hcc : CholComplete chol) (hqr : QRAll qr) (hsvd : SvdOk svd) (hpn : p ≤ n)
    (heven : ∀ θ d, kern θ (fun q => -d q) = kern θ d) {S : Submodule ℝ ((Fin nx → ℝ) → ℝ)} (hT : TrendOf trend S) (hS : UnitFree S) {f : (Fin nx → ℝ) → ℝ} (hf : f ∈ S) (hf0 : f ≠ 0)
    (hX : ∀ i, f (X i) = 0) {floor : ℝ} {nb fuel k : ℕ} {att : ℕ → Attempt Θ} {s : St Θ ℝ} :
    optimize (dataValChecked chol qr svd kern trend nugget noise X y) floor nb fuel att ≠ some (.returned s k) := by
  refine C65_never_finite fun θ v h => ?_
  have hn : 0 < n := lt_of_lt_of_le (trend_pos hT hS) hpn
  have hF := trendMat_ne (X := X) hT hS hn
  have hv := C112_values (y := y) (nugget := nugget) (noise := noise) (kern := kern) hchol hcc hqr hsvd hpn heven hF θ
  rw [hv] at h
  have hnf : ¬ FullRank (trendMat trend X) := fun h => hf0 ((C112_identifiable hT hS).1 h f hf hX)
  unfold FullRank at hnf
  push Not at hnf
  obtain ⟨w, hw, hw0⟩ := hnf
  rw [if_neg fun hc => (not_cond_of_deficient hc.1 hF hw0 hw _).1 hc.2] at h
  cases h

/-- **C112** Outputs that are an exact combination of the trend functions: the optimisation never returns normally - `C65_trend_data_fails` without its assumption on the rank of the trend matrix. -/
theorem C112_trend_data_fails {kern : Θ → (Fin nx → ℝ) → ℝ} (hchol : CholOk chol) (hcc : CholComplete chol) (hqr : QRAll qr) (hsvd : SvdOk svd) (hpn : p ≤ n)
    (heven : ∀ θ d, kern θ (fun q => -d q) = kern θ d) (hF : trendMat trend X ≠ 0) (b : Fin p → ℝ) (hy : ∀ i, normalise (scaling y) (y i) = trend (stdPoints X i) ⬝ᵥ b)
    {floor : ℝ} {nb fuel k : ℕ} {att : ℕ → Attempt Θ} {s : St Θ ℝ} :
    optimize (dataValChecked chol qr svd kern trend nugget noise X y) floor nb fuel att ≠ some (.returned s k) := by
  refine C65_never_finite fun θ v h => ?_
  by_cases hfr : FullRank (trendMat trend X)
  · exact krgVal_infinite hchol hqr.ok hfr b (funext hy) v (checked_fin h)
  · have hv := C112_values (y := y) (nugget := nugget) (noise := noise) (kern := kern) hchol hcc hqr hsvd hpn heven hF θ
    rw [hv] at h
    unfold FullRank at hfr
    push Not at hfr
    obtain ⟨w, hw, hw0⟩ := hfr
    rw [if_neg fun hc => (not_cond_of_deficient hc.1 hF hw0 hw _).1 hc.2] at h
    cases h

/-! ## Examples -/

/-- The points 0, 1, 2 on a line. -/
abbrev pts3 : Fin 3 → Fin 1 → ℝ := ![![0], ![1], ![2]]

theorem pts3_std : stdPoints pts3 = ![![-1], ![0], ![1]] := by
  have hm : mean (fun i => pts3 i 0) = 1 := by simp [mean, Fin.sum_univ_succ]; norm_num
  have hs : std1 (fun i => pts3 i 0) = 1 := by
    unfold std1
    rw [hm]
    simp [Fin.sum_univ_succ]
    norm_num
  have hsc : scaling (fun i => pts3 i 0) = (1, 1) := by unfold scaling; rw [hm, hs]; simp
  funext i j
  have hj : j = 0 := Subsingleton.elim _ _
  subst hj
  show normalise (scaling fun i => pts3 i 0) (pts3 i 0) = _
  rw [hsc]
  fin_cases i <;> simp [normalise] <;> norm_num

theorem pts3_cond : CondLe (3 / 2) ((trendMat trendLinear pts3)ᵀ * trendMat trendLinear pts3) := by
  have hF : ∀ u : Fin 2 → ℝ, u ⬝ᵥ (((trendMat trendLinear pts3)ᵀ * trendMat trendLinear pts3) *ᵥ u) = 3 * u 0 ^ 2 + 2 * u 1 ^ 2 := by
    intro u
    rw [form_gram]
    have hrow : ∀ i, (trendMat trendLinear pts3 *ᵥ u) i = u 0 + stdPoints pts3 i 0 * u 1 := fun i => by
      simp [trendMat, Matrix.mulVec, dotProduct, Fin.sum_univ_two, trendLinear]
    simp only [dotProduct, hrow, pts3_std, Fin.sum_univ_succ]
    simp
    ring
  intro u v hu hv
  rw [hF, hF]
  have hu' : u 0 * u 0 + u 1 * u 1 = 1 := by rw [← hu]; exact (Fin.sum_univ_two (fun i : Fin 2 => u i * u i)).symm
  have hv' : v 0 * v 0 + v 1 * v 1 = 1 := by rw [← hv]; exact (Fin.sum_univ_two (fun i : Fin 2 => v i * v i)).symm
  nlinarith [sq_nonneg (u 0), sq_nonneg (u 1), sq_nonneg (v 0), sq_nonneg (v 1)]

/-- A linear trend on the points 0, 1, 2 with a nugget of `10^-10`: accepted for every `theta`, whatever the outputs. -/
example (θ : Fin 1 → ℝ) (hθ : ∀ l, 0 ≤ θ l) (y : Fin 3 → ℝ) :
    ∃ M, trainChecked cholStd qrEco svdStd (kernOf 1 (by norm_num) .squarExp θ) trendLinear 1e-10 (fun _ => 0) pts3 y = .ok M := by
  obtain ⟨heven, hone⟩ := C39_kernels 1 (by norm_num) .squarExp (by simp) θ
  obtain ⟨M, hM, -⟩ := C112_accepts (y := y) (nugget := 1e-10) (noise := fun _ => 0) (X := pts3) (trend := trendLinear) cholStd_ok cholStd_complete (qrEco_all (by norm_num)) (svdStd_ok (by norm_num)) (by norm_num)
    heven hone (C73_kernels_psd 1 (by norm_num) .squarExp (by simp) θ hθ) (trendMat_ne linear_trend affines_unitFree (by norm_num)) (lo := 1e-10) (hi := 1e-10) (κ := 3 / 2) (by norm_num) (by simp) (by simp) (by norm_num)
    pts3_cond (by norm_num)
  exact ⟨M, hM⟩

/-- Two inputs, the second one constant: a linear trend raises for every `theta > 0` and nugget, whatever the outputs. -/
example (θ : Fin 2 → ℝ) (hθ : ∀ l, 0 < θ l) (y : Fin 3 → ℝ) :
    trainChecked cholStd qrEco svdStd (kernOf 1 (by norm_num) .squarExp θ) trendLinear 0 (fun _ => 0) ![![0, 5], ![1, 5], ![2, 5]] y = .raised := by
  obtain ⟨heven, hone⟩ := C39_kernels 1 (by norm_num) .squarExp (by simp) θ
  have hinj : Function.Injective (![![0, 5], ![1, 5], ![2, 5]] : Fin 3 → Fin 2 → ℝ) := by
    intro a b h
    have := congrFun h 0
    fin_cases a <;> fin_cases b <;> simp at this ⊢
  have hf : (fun x : Fin 2 → ℝ => -5 + ∑ j, (![0, 1] : Fin 2 → ℝ) j * x j) ∈ affines ℝ 2 := ⟨-5, ![0, 1], fun x => rfl⟩
  refine (C112_degenerate (trend := trendLinear) cholStd_ok cholStd_complete (qrEco_all (by norm_num)) (svdStd_ok (by norm_num)) (by norm_num) heven linear_trend affines_unitFree hf
    (fun h => by have := congrFun h 0; simp at this) (fun i => by fin_cases i <;> simp)).1 ?_
  obtain ⟨M, hM⟩ := Option.isSome_iff_exists.1 ((C73_trains_iff (qr := qrEco) (trend := trendLinear) (y := y) cholStd_ok cholStd_complete 1 (by norm_num) .squarExp (by simp) θ hθ).2 hinj)
  unfold train at hM
  simp only [Option.map_eq_some_iff] at hM
  obtain ⟨C, hC, -⟩ := hM
  exact pd_of_chol (cholStd_ok _ _ hC)

end

end SMT.Krg
