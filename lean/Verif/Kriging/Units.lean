import Verif.Kriging.CoreProps
import Verif.Kriging.LikelihoodProps
import Verif.Kriging.Definite
import Verif.Kriging.Oracles

/-!
# C81: Kriging does not depend on the order of the training points or on the units of inputs and outputs

Two trainings are compared: one with `(X, y)`, one with the same points listed in another order (`σ`), every input given in other
units (`x ↦ a x + b`, possibly reversed) and the output in other units (`y ↦ c y + d`).
-/
namespace SMT.Krg
open Matrix SMT.Common
set_option linter.unusedSectionVars false
set_option linter.unusedSimpArgs false
set_option linter.unusedVariables false

variable {n nx p : ℕ}

/-- `poly="quadratic"` on points of fixed dimension: row of `quadratic` (`kriging_utils.py` 1001-1027). -/
noncomputable def trendQuadratic (x : Fin nx → ℝ) : Fin (monos nx).length → ℝ := fun q => (quadraticRow (List.ofFn x)).getD q 0

/-! ## Specification -/

/-- The inputs in other units and another order. -/
def newX (σ : Equiv.Perm (Fin n)) (a b : Fin nx → ℝ) (X : Fin n → Fin nx → ℝ) : Fin n → Fin nx → ℝ := fun i j => a j * X (σ i) j + b j

/-- The outputs in other units and another order. -/
def newY (σ : Equiv.Perm (Fin n)) (c d : ℝ) (y : Fin n → ℝ) : Fin n → ℝ := fun i => c * y (σ i) + d

/-- A query point in the other units. -/
def newPt (a b x : Fin nx → ℝ) : Fin nx → ℝ := fun j => a j * x j + b j

/-- A genuine change of units of every input: no input is collapsed, and an input that is constant over the training points keeps its
unit (only its origin and direction may change). -/
def UnitChange (X : Fin n → Fin nx → ℝ) (a : Fin nx → ℝ) : Prop := ∀ j, a j ≠ 0 ∧ ((∃ i k, X i j ≠ X k j) ∨ |a j| = 1)

/-- Direction of each input: `1` or `-1`. -/
noncomputable def dir (a : Fin nx → ℝ) : Fin nx → ℝ := fun j => if 0 < a j then 1 else -1

/-! ## Standardisation -/

theorem mean_change (hn : 0 < n) (σ : Equiv.Perm (Fin n)) (a b : ℝ) (x : Fin n → ℝ) : mean (fun i => a * x (σ i) + b) = a * mean x + b := by
  have h0 : (n : ℝ) ≠ 0 := Nat.cast_ne_zero.2 hn.ne'
  unfold mean
  rw [Finset.sum_add_distrib, ← Finset.mul_sum, Equiv.sum_comp σ x]
  simp only [Finset.sum_const, Finset.card_univ, Fintype.card_fin, nsmul_eq_mul]
  field_simp

theorem std1_change (hn : 0 < n) (σ : Equiv.Perm (Fin n)) (a b : ℝ) (x : Fin n → ℝ) : std1 (fun i => a * x (σ i) + b) = |a| * std1 x := by
  unfold std1
  rw [mean_change hn]
  have e : ∀ i, (a * x (σ i) + b - (a * mean x + b)) ^ 2 = a ^ 2 * (x (σ i) - mean x) ^ 2 := fun i => by ring
  simp only [e]
  rw [← Finset.mul_sum, Equiv.sum_comp σ fun i => (x i - mean x) ^ 2, mul_div_assoc, Real.sqrt_mul (sq_nonneg a), Real.sqrt_sq_eq_abs]

theorem scaling_pos (x : Fin n → ℝ) : 0 < (scaling x).2 := by
  unfold scaling
  simp only []
  split_ifs with h
  · exact one_pos
  · exact lt_of_le_of_ne (Real.sqrt_nonneg _) (Ne.symm h)

/-- Standardised values change by the factor `a s / s'`. -/
theorem normalise_change (hn : 0 < n) (σ : Equiv.Perm (Fin n)) (a b : ℝ) (x : Fin n → ℝ) (v : ℝ) :
    normalise (scaling fun i => a * x (σ i) + b) (a * v + b) =
      a * (scaling x).2 / (scaling fun i => a * x (σ i) + b).2 * normalise (scaling x) v := by
  have h1 := (scaling_pos x).ne'
  have h2 := (scaling_pos fun i => a * x (σ i) + b).ne'
  unfold normalise
  rw [show (scaling fun i => a * x (σ i) + b).1 = a * (scaling x).1 + b from mean_change hn σ a b x]
  field_simp
  ring

theorem std1_ne_zero {x : Fin n → ℝ} {i k : Fin n} (h : x i ≠ x k) : std1 x ≠ 0 := by
  have hn : 2 ≤ n := by
    by_contra hh
    have : i = k := Fin.ext (by have := i.isLt; have := k.isLt; omega)
    exact h (by rw [this])
  have hn1 : (0 : ℝ) < (n : ℝ) - 1 := by have : (2 : ℝ) ≤ n := by exact_mod_cast hn
                                         linarith
  unfold std1
  rw [Real.sqrt_ne_zero']
  refine div_pos ?_ hn1
  refine lt_of_le_of_ne (Finset.sum_nonneg fun _ _ => sq_nonneg _) fun h0 => h ?_
  have := (Finset.sum_eq_zero_iff_of_nonneg (fun _ _ => sq_nonneg _)).1 h0.symm
  have e : ∀ j, x j = mean x := fun j => by
    have := this j (Finset.mem_univ _)
    exact sub_eq_zero.1 (pow_eq_zero_iff two_ne_zero |>.1 this)
  rw [e i, e k]

theorem factor_eq (hn : 0 < n) (σ : Equiv.Perm (Fin n)) (a b : ℝ) (x : Fin n → ℝ) (ha : a ≠ 0) (h : (∃ i k, x i ≠ x k) ∨ |a| = 1) :
    a * (scaling x).2 / (scaling fun i => a * x (σ i) + b).2 = if 0 < a then 1 else -1 := by
  have hab : (0 : ℝ) < |a| := abs_pos.2 ha
  have hs : (scaling fun i => a * x (σ i) + b).2 = |a| * (scaling x).2 := by
    unfold scaling
    simp only [std1_change hn]
    by_cases h0 : std1 x = 0
    · have h1 : |a| = 1 := by
        rcases h with ⟨i, k, hik⟩ | h
        · exact absurd h0 (std1_ne_zero hik)
        · exact h
      simp [h0, h1]
    · simp [h0, hab.ne', ha]
  rw [hs]
  have h1 := (scaling_pos x).ne'
  split_ifs with h
  · rw [abs_of_pos h]; field_simp
  · have : a < 0 := lt_of_le_of_ne (not_lt.1 h) ha
    rw [abs_of_neg this]; field_simp

/-! ## Linear algebra -/

/-- The Kriging equations have one solution. -/
theorem blup_unique {R : Matrix (Fin n) (Fin n) ℝ} {F : Matrix (Fin n) (Fin p) ℝ} (hR : IsUnit R.det) (hG : IsUnit (Fᵀ * R⁻¹ * F).det)
    {y g g' : Fin n → ℝ} {β β' : Fin p → ℝ} (h1 : R *ᵥ g = y - F *ᵥ β) (h2 : Fᵀ *ᵥ g = 0) (h1' : R *ᵥ g' = y - F *ᵥ β') (h2' : Fᵀ *ᵥ g' = 0) :
    β' = β ∧ g' = g := by
  have e : ∀ (w : Fin n → ℝ) (b : Fin p → ℝ), R *ᵥ w = y - F *ᵥ b → w = R⁻¹ *ᵥ (y - F *ᵥ b) := fun w b h => by
    rw [← h, Matrix.mulVec_mulVec, Matrix.nonsing_inv_mul _ hR, Matrix.one_mulVec]
  have k : ∀ (w : Fin n → ℝ) (b : Fin p → ℝ), R *ᵥ w = y - F *ᵥ b → Fᵀ *ᵥ w = 0 → b = (Fᵀ * R⁻¹ * F)⁻¹ *ᵥ (Fᵀ *ᵥ (R⁻¹ *ᵥ y)) := by
    intro w b h h0
    rw [e w b h, Matrix.mulVec_sub, Matrix.mulVec_sub, sub_eq_zero] at h0
    rw [h0]
    simp only [Matrix.mulVec_mulVec, ← Matrix.mul_assoc]
    rw [Matrix.mul_assoc (Fᵀ * R⁻¹ * F)⁻¹, Matrix.mul_assoc _ (Fᵀ * R⁻¹) F, Matrix.nonsing_inv_mul _ hG, Matrix.one_mulVec]
  have hb : β' = β := by rw [k _ _ h1 h2, k _ _ h1' h2']
  subst hb
  exact ⟨rfl, by rw [e _ _ h1, e _ _ h1']⟩

/-- The diagonal of an upper factor of a Gram matrix is determined up to signs. -/
theorem upper_diag_sq {m : ℕ} {U V : Matrix (Fin m) (Fin m) ℝ} (hU : IsUpper U) (hV : IsUpper V) (hUd : ∀ i, U i i ≠ 0) (hVd : ∀ i, V i i ≠ 0)
    (h : Uᵀ * U = Vᵀ * V) (q : Fin m) : U q q ^ 2 = V q q ^ 2 := by
  have key : ∀ k : ℕ, ∀ i : Fin m, i.val = k → (U i i ^ 2 = V i i ^ 2) ∧ ∀ j, U i i * U i j = V i i * V i j := by
    intro k
    induction k using Nat.strong_induction_on with
    | _ k ih =>
      intro i hi
      have hrow : ∀ j, U i i * U i j = V i i * V i j := by
        intro j
        have h1 := congrFun (congrFun h i) j
        simp only [Matrix.mul_apply, Matrix.transpose_apply] at h1
        rw [← Finset.sum_erase_add _ _ (Finset.mem_univ i), ← Finset.sum_erase_add _ _ (Finset.mem_univ i)] at h1
        have h2 : ∑ x ∈ Finset.univ.erase i, U x i * U x j = ∑ x ∈ Finset.univ.erase i, V x i * V x j := by
          refine Finset.sum_congr rfl fun x hx => ?_
          rcases lt_or_gt_of_ne (Finset.ne_of_mem_erase hx) with hlt | hlt
          · obtain ⟨a1, a2⟩ := ih x.val (by rw [← hi]; exact hlt) x rfl
            have b1 := a2 i
            have b2 := a2 j
            have h3 : U x x ^ 2 * (U x i * U x j) = U x x ^ 2 * (V x i * V x j) := by
              calc U x x ^ 2 * (U x i * U x j) = (U x x * U x i) * (U x x * U x j) := by ring
                _ = (V x x * V x i) * (V x x * V x j) := by rw [b1, b2]
                _ = U x x ^ 2 * (V x i * V x j) := by rw [a1]; ring
            exact mul_left_cancel₀ (pow_ne_zero 2 (hUd x)) h3
          · rw [hU x i hlt, hV x i hlt]; ring
        linarith
      exact ⟨by have := hrow i; nlinarith, hrow⟩
  exact (key q.val q rfl).1

/-! ## Comparing the two trainings -/

section compare
variable {chol : Matrix (Fin n) (Fin n) ℝ → Option (Matrix (Fin n) (Fin n) ℝ)}
  {qr : Matrix (Fin n) (Fin p) ℝ → Matrix (Fin n) (Fin p) ℝ × Matrix (Fin p) (Fin p) ℝ}
  {kern : (Fin nx → ℝ) → ℝ} {trend : (Fin nx → ℝ) → Fin p → ℝ} {nugget : ℝ} {noise : Fin n → ℝ}
  {X : Fin n → Fin nx → ℝ} {y : Fin n → ℝ} {M M' : Model n nx p} {σ : Equiv.Perm (Fin n)} {a b : Fin nx → ℝ} {c d : ℝ}

/-- The kernel does not see the direction of the inputs. -/
def KernelSym (kern : (Fin nx → ℝ) → ℝ) (s : Fin nx → ℝ) : Prop := ∀ dx, kern (fun j => s j * dx j) = kern dx

/-- Reversing inputs multiplies every trend function by a non-zero number. -/
def TrendSym (trend : (Fin nx → ℝ) → Fin p → ℝ) (s : Fin nx → ℝ) (t : Fin p → ℝ) : Prop :=
  (∀ q, t q ≠ 0) ∧ ∀ x q, trend (fun j => s j * x j) q = t q * trend x q

theorem normPt_change (hn : 0 < n) (hu : UnitChange X a) (x : Fin nx → ℝ) :
    (fun j => normalise (scaling fun i => newX σ a b X i j) (newPt a b x j)) = fun j => dir a j * normalise (scaling fun i => X i j) (x j) := by
  funext j
  have h1 := normalise_change hn σ (a j) (b j) (fun i => X i j) (x j)
  rw [factor_eq hn σ (a j) (b j) (fun i => X i j) (hu j).1 (hu j).2] at h1
  exact h1

theorem corrR_change (heven : ∀ dx, kern (fun q => -dx q) = kern dx) (hk : KernelSym kern (dir a)) (Z : Fin n → Fin nx → ℝ) :
    corrR kern nugget (fun i => noise (σ i)) (fun i j => dir a j * Z (σ i) j) = (corrR kern nugget noise Z).submatrix σ σ := by
  ext i k
  rw [corrR_apply kern heven, Matrix.submatrix_apply, corrR_apply kern heven]
  simp only [EmbeddingLike.apply_eq_iff_eq]
  congr 1
  rw [← hk fun q => Z (σ i) q - Z (σ k) q]
  congr 1
  funext q
  ring

/-- All that is needed about a pair of trained models. -/
structure Paired (kern : (Fin nx → ℝ) → ℝ) (trend : (Fin nx → ℝ) → Fin p → ℝ) (nugget : ℝ) (noise : Fin n → ℝ) (y : Fin n → ℝ)
    (σ : Equiv.Perm (Fin n)) (a b : Fin nx → ℝ) (c d : ℝ) (t : Fin p → ℝ) (M M' : Model n nx p) : Prop where
  xn : ∀ i, M'.Xn i = fun j => dir a j * M.Xn (σ i) j
  pt : ∀ x, M'.norm (newPt a b x) = fun j => dir a j * M.norm x j
  ys : M.yOS = scaling y
  ys' : M'.yOS = scaling (newY σ c d y)
  F : ∀ i q, M'.F i q = t q * M.F (σ i) q
  R : corrR kern nugget (fun i => noise (σ i)) M'.Xn = (corrR kern nugget noise M.Xn).submatrix σ σ

theorem paired (hn : 0 < n) (hu : UnitChange X a) (heven : ∀ dx, kern (fun q => -dx q) = kern dx) (hk : KernelSym kern (dir a)) {t : Fin p → ℝ}
    (ht : TrendSym trend (dir a) t) (hM : train chol qr kern trend nugget noise X y = some M)
    (hM' : train chol qr kern trend nugget (fun i => noise (σ i)) (newX σ a b X) (newY σ c d y) = some M') :
    Paired kern trend nugget noise y σ a b c d t M M' := by
  obtain ⟨C, hC, hX, hy, hkk, htt, hFF, hOS, hP⟩ := train_eq hM
  obtain ⟨C', hC', hX', hy', hkk', htt', hFF', hOS', hP'⟩ := train_eq hM'
  have hpt : ∀ x, M'.norm (newPt a b x) = fun j => dir a j * M.norm x j := by
    intro x
    have := normPt_change (σ := σ) (b := b) hn hu x
    unfold Model.norm
    simp only [hOS, hOS']
    exact this
  have hxn : ∀ i, M'.Xn i = fun j => dir a j * M.Xn (σ i) j := by
    intro i
    rw [← hX' i, ← hX (σ i)]
    exact hpt (X (σ i))
  refine ⟨hxn, hpt, hy, hy', ?_, ?_⟩
  · intro i q
    rw [hFF, hFF']
    simp only [Matrix.of_apply]
    rw [hxn i, ht.2]
  · rw [show M'.Xn = fun i j => dir a j * M.Xn (σ i) j from funext hxn]
    exact corrR_change heven hk M.Xn

theorem fullRank_change {t : Fin p → ℝ} (ht : ∀ q, t q ≠ 0) {F F' : Matrix (Fin n) (Fin p) ℝ} (h : ∀ i q, F' i q = t q * F (σ i) q) (hF : FullRank F) : FullRank F' := by
  intro v hv
  have h1 : F *ᵥ (fun q => t q * v q) = 0 := by
    funext i
    have := congrFun hv (σ.symm i)
    simp only [Matrix.mulVec, dotProduct, h, Equiv.apply_symm_apply, Pi.zero_apply] at this ⊢
    rw [← this]
    exact Finset.sum_congr rfl fun q _ => by ring
  funext q
  have := congrFun (hF _ h1) q
  exact (mul_eq_zero.1 this).resolve_left (ht q)

/-- The factor between the standardised outputs. -/
noncomputable def outFactor (σ : Equiv.Perm (Fin n)) (c d : ℝ) (y : Fin n → ℝ) : ℝ := c * (scaling y).2 / (scaling (newY σ c d y)).2

theorem coefficients_change (hn : 0 < n) {t : Fin p → ℝ} (ht : ∀ q, t q ≠ 0) (hp : Paired kern trend nugget noise y σ a b c d t M M')
    (hM : train chol qr kern trend nugget noise X y = some M)
    (hM' : train chol qr kern trend nugget (fun i => noise (σ i)) (newX σ a b X) (newY σ c d y) = some M')
    (hchol : CholOk chol) (hqr : QROk qr) (hF : FullRank M.F) :
    (M'.par.beta = fun q => outFactor σ c d y * M.par.beta q / t q) ∧ M'.par.gamma = fun i => outFactor σ c d y * M.par.gamma (σ i) := by
  obtain ⟨C, hC, hX, hy, hkk, htt, hFF, hOS, hP⟩ := train_eq hM
  obtain ⟨C', hC', hX', hy', hkk', htt', hFF', hOS', hP'⟩ := train_eq hM'
  have hF' : FullRank M'.F := fullRank_change ht hp.F hF
  have hq := hqr _ (fullRank_fwdM (hchol _ _ hC) hF)
  have hq' := hqr _ (fullRank_fwdM (hchol _ _ hC') hF')
  have hb := C39_blup (F := M.F) (y := fun i => normalise M.yOS (y i)) (yStd := M.yOS.2) (dof := n) (hchol _ _ hC) hq
  have hb' := C39_blup (F := M'.F) (y := fun i => normalise M'.yOS (newY σ c d y i)) (yStd := M'.yOS.2) (dof := n) (hchol _ _ hC') hq'
  rw [← hP] at hb
  rw [← hP'] at hb'
  set e := outFactor σ c d y with he
  have hy2 : ∀ i, normalise M'.yOS (newY σ c d y i) = e * normalise M.yOS (y (σ i)) := by
    intro i
    rw [hp.ys, hp.ys']
    exact normalise_change hn σ c d y (y (σ i))
  refine blup_unique (hchol _ _ hC').detR (det_gram (hchol _ _ hC') hq') ?_ ?_ hb'.1 hb'.2.1
  · rw [hp.R]
    funext i
    have h1 := congrFun hb.1 (σ i)
    simp only [Matrix.mulVec, dotProduct, Matrix.submatrix_apply, Pi.sub_apply] at h1 ⊢
    have e1 : ∑ k, corrR kern nugget noise M.Xn (σ i) (σ k) * (e * M.par.gamma (σ k)) = e * ∑ k, corrR kern nugget noise M.Xn (σ i) k * M.par.gamma k := by
      rw [Equiv.sum_comp σ fun k => corrR kern nugget noise M.Xn (σ i) k * (e * M.par.gamma k), Finset.mul_sum]
      exact Finset.sum_congr rfl fun k _ => by ring
    have e2 : ∑ q, M'.F i q * (e * M.par.beta q / t q) = e * ∑ q, M.F (σ i) q * M.par.beta q := by
      rw [Finset.mul_sum]
      refine Finset.sum_congr rfl fun q _ => ?_
      rw [hp.F]
      have := ht q
      field_simp
    rw [e1, e2, h1, hy2]
    ring
  · funext q
    have h1 := congrFun hb.2.1 q
    simp only [Matrix.mulVec, dotProduct, Matrix.transpose_apply, Pi.zero_apply] at h1 ⊢
    have e1 : ∑ i, M'.F i q * (e * M.par.gamma (σ i)) = t q * e * ∑ i, M.F i q * M.par.gamma i := by
      rw [Finset.mul_sum, ← Equiv.sum_comp σ fun i => t q * e * (M.F i q * M.par.gamma i)]
      refine Finset.sum_congr rfl fun i _ => ?_
      rw [hp.F]
      ring
    rw [e1, h1, mul_zero]

theorem corr_change {t : Fin p → ℝ} (hk : KernelSym kern (dir a)) (hp : Paired kern trend nugget noise y σ a b c d t M M')
    (hM : train chol qr kern trend nugget noise X y = some M)
    (hM' : train chol qr kern trend nugget (fun i => noise (σ i)) (newX σ a b X) (newY σ c d y) = some M') (x : Fin nx → ℝ) :
    M'.corr (M'.norm (newPt a b x)) = fun i => M.corr (M.norm x) (σ i) := by
  obtain ⟨C, hC, hX, hy, hkk, htt, hFF, hOS, hP⟩ := train_eq hM
  obtain ⟨C', hC', hX', hy', hkk', htt', hFF', hOS', hP'⟩ := train_eq hM'
  funext i
  unfold Model.corr
  rw [hkk, hkk', hp.pt, hp.xn, ← hk fun q => M.norm x q - M.Xn (σ i) q]
  congr 1
  funext q
  ring

/-- **C81** The predicted value does not depend on the order of the training points nor on the units of the inputs, and follows the unit of the output. -/
theorem C81_prediction (hn : 0 < n) (hu : UnitChange X a) (heven : ∀ dx, kern (fun q => -dx q) = kern dx) (hk : KernelSym kern (dir a)) {t : Fin p → ℝ}
    (ht : TrendSym trend (dir a) t) (hM : train chol qr kern trend nugget noise X y = some M)
    (hM' : train chol qr kern trend nugget (fun i => noise (σ i)) (newX σ a b X) (newY σ c d y) = some M')
    (hchol : CholOk chol) (hqr : QROk qr) (hF : FullRank M.F) (x : Fin nx → ℝ) :
    M'.predict (newPt a b x) = c * M.predict x + d := by
  have hp := paired hn hu heven hk ht hM hM'
  obtain ⟨hβ, hγ⟩ := coefficients_change hn ht.1 hp hM hM' hchol hqr hF
  obtain ⟨C, hC, hX, hy, hkk, htt, hFF, hOS, hP⟩ := train_eq hM
  obtain ⟨C', hC', hX', hy', hkk', htt', hFF', hOS', hP'⟩ := train_eq hM'
  unfold Model.predict
  simp only []
  rw [corr_change hk hp hM hM' x, hβ, hγ, hp.pt, htt, htt']
  have e1 : (trend fun j => dir a j * M.norm x j) ⬝ᵥ (fun q => outFactor σ c d y * M.par.beta q / t q) = outFactor σ c d y * (trend (M.norm x) ⬝ᵥ M.par.beta) := by
    simp only [dotProduct, ht.2, Finset.mul_sum]
    refine Finset.sum_congr rfl fun q _ => ?_
    have := ht.1 q
    field_simp
  have e2 : (fun i => M.corr (M.norm x) (σ i)) ⬝ᵥ (fun i => outFactor σ c d y * M.par.gamma (σ i)) = outFactor σ c d y * (M.corr (M.norm x) ⬝ᵥ M.par.gamma) := by
    simp only [dotProduct, Finset.mul_sum]
    rw [← Equiv.sum_comp σ fun i => outFactor σ c d y * (M.corr (M.norm x) i * M.par.gamma i)]
    exact Finset.sum_congr rfl fun i _ => by ring
  rw [e1, e2, ← mul_add]
  unfold denormalise
  rw [hp.ys, hp.ys', show (scaling (newY σ c d y)).1 = c * (scaling y).1 + d from mean_change hn σ c d y]
  have h1 := (scaling_pos (newY σ c d y)).ne'
  unfold outFactor
  field_simp
  ring

/-- **C81** The reported variance does not depend on the order of the training points nor on the units of the inputs, and follows the squared unit of the output. -/
theorem C81_variance (hn : 0 < n) (hu : UnitChange X a) (heven : ∀ dx, kern (fun q => -dx q) = kern dx) (hk : KernelSym kern (dir a)) {t : Fin p → ℝ}
    (ht : TrendSym trend (dir a) t) (hM : train chol qr kern trend nugget noise X y = some M)
    (hM' : train chol qr kern trend nugget (fun i => noise (σ i)) (newX σ a b X) (newY σ c d y) = some M')
    (hchol : CholOk chol) (hqr : QROk qr) (hF : FullRank M.F) (x : Fin nx → ℝ) :
    M'.variance (newPt a b x) = c ^ 2 * M.variance x := by
  have hp := paired hn hu heven hk ht hM hM'
  obtain ⟨hβ, hγ⟩ := coefficients_change hn ht.1 hp hM hM' hchol hqr hF
  have hF' : FullRank M'.F := fullRank_change ht.1 hp.F hF
  obtain ⟨C, hC, hX, hy, hkk, htt, hFF, hOS, hP⟩ := train_eq hM
  obtain ⟨C', hC', hX', hy', hkk', htt', hFF', hOS', hP'⟩ := train_eq hM'
  have hq := hqr _ (fullRank_fwdM (hchol _ _ hC) hF)
  have hq' := hqr _ (fullRank_fwdM (hchol _ _ hC') hF')
  have hv := C41_reported hM hchol hqr hF x
  have hv' := C41_reported hM' hchol hqr hF' (newPt a b x)
  simp only [] at hv hv'
  rw [hv, hv', mul_max_of_nonneg _ _ (sq_nonneg c), mul_zero]
  set R := corrR kern nugget noise M.Xn with hRdef
  have hR' : corrR kern nugget (fun i => noise (σ i)) M'.Xn = R.submatrix σ σ := hp.R
  have hinv : (R.submatrix σ σ)⁻¹ = R⁻¹.submatrix σ σ := Matrix.inv_submatrix_equiv R σ σ
  rw [hR', hinv, corr_change hk hp hM hM' x]
  set r := M.corr (M.norm x)
  have hRr : (R⁻¹.submatrix σ σ) *ᵥ (fun i => r (σ i)) = fun i => (R⁻¹ *ᵥ r) (σ i) := by
    funext i
    simp only [Matrix.mulVec, dotProduct, Matrix.submatrix_apply]
    exact Equiv.sum_comp σ fun k => R⁻¹ (σ i) k * r k
  rw [hRr]
  have e1 : (fun i => r (σ i)) ⬝ᵥ (fun i => (R⁻¹ *ᵥ r) (σ i)) = r ⬝ᵥ (R⁻¹ *ᵥ r) := Equiv.sum_comp σ fun i => r i * (R⁻¹ *ᵥ r) i
  rw [e1]
  have hvec : ∀ q, (M'.Fᵀ *ᵥ (fun i => (R⁻¹ *ᵥ r) (σ i)) - M'.trend (M'.norm (newPt a b x))) q = t q * (M.Fᵀ *ᵥ (R⁻¹ *ᵥ r) - M.trend (M.norm x)) q := by
    intro q
    simp only [Pi.sub_apply]
    rw [hp.pt, htt, htt', ht.2, mul_sub]
    congr 1
    simp only [Matrix.mulVec, dotProduct, Matrix.transpose_apply, hp.F]
    rw [Finset.mul_sum, ← Equiv.sum_comp σ fun i => t q * (M.F i q * ∑ k, R⁻¹ i k * r k)]
    exact Finset.sum_congr rfl fun i _ => by ring
  -- the QR factors
  have hg := gram_eq (F := M.F) (y := fun i => normalise M.yOS (y i)) (yStd := M.yOS.2) (dof := n) (hchol _ _ hC) hq
  have hg' := gram_eq (F := M'.F) (y := fun i => normalise M'.yOS (newY σ c d y i)) (yStd := M'.yOS.2) (dof := n) (hchol _ _ hC') hq'
  rw [← hP] at hg
  rw [← hP'] at hg'
  obtain ⟨-, -, -, -, -, hU, hD, -, -⟩ := blup_eq (F := M.F) (y := fun i => normalise M.yOS (y i)) (yStd := M.yOS.2) (dof := n) (hchol _ _ hC) hq
  obtain ⟨-, -, -, -, -, hU', hD', -, -⟩ := blup_eq (F := M'.F) (y := fun i => normalise M'.yOS (newY σ c d y i)) (yStd := M'.yOS.2) (dof := n) (hchol _ _ hC') hq'
  rw [← hP] at hU hD
  rw [← hP'] at hU' hD'
  have hgram : M'.par.Gᵀ * M'.par.G = (Matrix.of fun i j => M.par.G i j * t j)ᵀ * (Matrix.of fun i j => M.par.G i j * t j) := by
    ext q s
    have h1 := congrFun (congrFun hg q) s
    have h2 := congrFun (congrFun hg' q) s
    rw [h2, hR', hinv]
    have e3 : ((Matrix.of fun i j => M.par.G i j * t j)ᵀ * (Matrix.of fun i j => M.par.G i j * t j)) q s = t q * t s * (M.par.Gᵀ * M.par.G) q s := by
      simp only [Matrix.mul_apply, Matrix.transpose_apply, Matrix.of_apply, Finset.mul_sum]
      exact Finset.sum_congr rfl fun i _ => by ring
    rw [e3, h1]
    have e4 : ∀ (A : Matrix (Fin n) (Fin p) ℝ) (B : Matrix (Fin n) (Fin n) ℝ), (Aᵀ * B * A) q s = ∑ k, ∑ i, A i q * B i k * A k s := by
      intro A B
      rw [Matrix.mul_apply]
      refine Finset.sum_congr rfl fun k _ => ?_
      rw [Matrix.mul_apply, Finset.sum_mul]
      rfl
    rw [e4, e4, Finset.mul_sum, ← Equiv.sum_comp σ fun k => t q * t s * ∑ i, M.F i q * R⁻¹ i k * M.F k s]
    refine Finset.sum_congr rfl fun k _ => ?_
    rw [Finset.mul_sum, ← Equiv.sum_comp σ fun i => t q * t s * (M.F i q * R⁻¹ i (σ k) * M.F (σ k) s)]
    refine Finset.sum_congr rfl fun i _ => ?_
    rw [hp.F, hp.F, Matrix.submatrix_apply]
    ring
  have hdiag : ∀ q, M'.par.G q q ^ 2 = (M.par.G q q * t q) ^ 2 := fun q =>
    upper_diag_sq hU' (fun i j hij => by simp only [Matrix.of_apply]; rw [hU i j hij, zero_mul]) hD'
      (fun i => by simp only [Matrix.of_apply]; exact mul_ne_zero (hD i) (ht.1 i)) hgram q
  have e5 : ∑ q, ((M'.Fᵀ *ᵥ (fun i => (R⁻¹ *ᵥ r) (σ i)) - M'.trend (M'.norm (newPt a b x))) q / M'.par.G q q) ^ 2 =
      ∑ q, ((M.Fᵀ *ᵥ (R⁻¹ *ᵥ r) - M.trend (M.norm x)) q / M.par.G q q) ^ 2 := by
    refine Finset.sum_congr rfl fun q _ => ?_
    rw [div_pow, div_pow, hdiag q, hvec q]
    have h1 := ht.1 q
    have h2 := hD q
    field_simp
  rw [e5]
  -- the process variance
  have hs : M'.par.sigma2 = c ^ 2 * M.par.sigma2 := by
    have hb := C39_blup (F := M.F) (y := fun i => normalise M.yOS (y i)) (yStd := M.yOS.2) (dof := n) (hchol _ _ hC) hq
    have hb' := C39_blup (F := M'.F) (y := fun i => normalise M'.yOS (newY σ c d y i)) (yStd := M'.yOS.2) (dof := n) (hchol _ _ hC') hq'
    have hsg := sigma2_eq (F := M.F) (y := fun i => normalise M.yOS (y i)) (yStd := M.yOS.2) (dof := n) (hchol _ _ hC) hq
    have hsg' := sigma2_eq (F := M'.F) (y := fun i => normalise M'.yOS (newY σ c d y i)) (yStd := M'.yOS.2) (dof := n) (hchol _ _ hC') hq'
    rw [← beta_gls (yStd := M.yOS.2) (dof := n) (hchol _ _ hC) hq] at hsg
    rw [← beta_gls (yStd := M'.yOS.2) (dof := n) (hchol _ _ hC') hq'] at hsg'
    rw [← hP] at hb hsg
    rw [← hP'] at hb' hsg'
    have w : wss R M.F (fun i => normalise M.yOS (y i)) M.par.beta = M.par.gamma ⬝ᵥ (R *ᵥ M.par.gamma) := by
      unfold wss
      rw [← hb.1, Matrix.mulVec_mulVec, Matrix.nonsing_inv_mul _ (hchol _ _ hC).detR, Matrix.one_mulVec, dotProduct_comm]
    have w' : wss (corrR kern nugget (fun i => noise (σ i)) M'.Xn) M'.F (fun i => normalise M'.yOS (newY σ c d y i)) M'.par.beta = M'.par.gamma ⬝ᵥ ((R.submatrix σ σ) *ᵥ M'.par.gamma) := by
      unfold wss
      rw [← hb'.1, Matrix.mulVec_mulVec, Matrix.nonsing_inv_mul _ (hchol _ _ hC').detR, Matrix.one_mulVec, dotProduct_comm, hR']
    rw [hsg, hsg', w, w', hγ]
    have e6 : (fun i => outFactor σ c d y * M.par.gamma (σ i)) ⬝ᵥ ((R.submatrix σ σ) *ᵥ fun i => outFactor σ c d y * M.par.gamma (σ i)) =
        outFactor σ c d y ^ 2 * (M.par.gamma ⬝ᵥ (R *ᵥ M.par.gamma)) := by
      have e7 : ((R.submatrix σ σ) *ᵥ fun i => outFactor σ c d y * M.par.gamma (σ i)) = fun i => outFactor σ c d y * (R *ᵥ M.par.gamma) (σ i) := by
        funext i
        simp only [Matrix.mulVec, dotProduct, Matrix.submatrix_apply, Finset.mul_sum]
        rw [← Equiv.sum_comp σ fun k => outFactor σ c d y * (R (σ i) k * M.par.gamma k)]
        exact Finset.sum_congr rfl fun k _ => by ring
      rw [e7]
      simp only [dotProduct, Finset.mul_sum]
      rw [← Equiv.sum_comp σ fun i => outFactor σ c d y ^ 2 * (M.par.gamma i * (R *ᵥ M.par.gamma) i)]
      exact Finset.sum_congr rfl fun k _ => by ring
    rw [e6, hp.ys, hp.ys']
    have h1 := (scaling_pos (newY σ c d y)).ne'
    unfold outFactor
    field_simp
  rw [hs, mul_assoc]

end compare

end SMT.Krg
