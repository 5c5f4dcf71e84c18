import Verif.Rbf.Props

/-!
# C82-C84 for RBF
-/
namespace SMT.Rbf
set_option linter.unusedSectionVars false
set_option linter.unusedSimpArgs false
set_option linter.unusedVariables false

variable {nt nx : ℕ} {deg : ℤ} {np : ℕ} {reg : ℝ} {d0 : Fin nx → ℝ} {xt : Fin nt → Fin nx → ℝ}

/-! ## Specification -/

/-- Training data on which the linear system has one solution (`C31_trains_uniquely_distinct`): regularised, or distinct points; and points that determine the trend. -/
def WellPosed (deg : ℤ) (reg : ℝ) (d0 : Fin nx → ℝ) (xt : Fin nt → Fin nx → ℝ) : Prop :=
  (0 < reg ∨ (0 ≤ reg ∧ Function.Injective xt ∧ ∀ k, d0 k ≠ 0)) ∧ TrendUnisolvent deg xt

/-- `sol` is what training on `xt`, `yt` stores. -/
def Trained (deg : ℤ) (np : ℕ) (reg : ℝ) (d0 : Fin nx → ℝ) (xt : Fin nt → Fin nx → ℝ) (yt : Fin nt → ℝ) (sol : ℕ → ℝ) : Prop :=
  Solves (nt + np) (mtx deg reg d0 xt) (rhs yt) sol

/-! ## Lemmas -/

/-- The trend part of the predictor. -/
noncomputable def trendVal (deg : ℤ) (nt : ℕ) (sol : ℕ → ℝ) (x : Fin nx → ℝ) : ℝ :=
  if deg = 0 then sol nt else if deg = 1 then sol nt + ∑ k : Fin nx, x k * sol (nt + 1 + k) else 0

theorem numPoly_cases (hnp : numPoly deg nx = some np) : (deg = -1 ∧ np = 0) ∨ (deg = 0 ∧ np = 1) ∨ (deg = 1 ∧ np = 1 + nx) := by
  unfold numPoly at hnp
  split_ifs at hnp with h1 h2 h3 <;> simp at hnp
  · exact Or.inl ⟨h1, hnp.symm⟩
  · exact Or.inr (Or.inl ⟨h2, hnp.symm⟩)
  · exact Or.inr (Or.inr ⟨h3, hnp.symm⟩)

theorem predict_eq (hnp : numPoly deg nx = some np) (sol : ℕ → ℝ) (x : Fin nx → ℝ) :
    predict deg np d0 xt sol x = gaussians d0 xt (fun i => sol i) x + trendVal deg nt sol x := by
  obtain ⟨h1, h2, h3⟩ := C31_predictor d0 xt sol x
  rcases numPoly_cases hnp with ⟨rfl, rfl⟩ | ⟨rfl, rfl⟩ | ⟨rfl, rfl⟩
  · rw [h1]; simp [trendVal]
  · rw [h2]; simp [trendVal]
  · rw [h3]; simp [trendVal, add_assoc]

theorem solves_iff (hnp : numPoly deg nx = some np) (yt : Fin nt → ℝ) (sol : ℕ → ℝ) :
    Trained deg np reg d0 xt yt sol ↔ (∀ i : Fin nt, predict deg np d0 xt sol (xt i) + reg * sol i = yt i) ∧ (0 ≤ deg → ∑ i : Fin nt, sol i = 0) ∧
      (deg = 1 → ∀ k : Fin nx, ∑ i : Fin nt, xt i k * sol i = 0) := by
  constructor
  · intro h
    obtain ⟨h1, h2⟩ := C31_trend_orthogonality deg np hnp reg d0 xt yt sol h
    exact ⟨fun i => by have := C31_residual deg np reg d0 xt yt sol h i; linarith, h1, h2⟩
  · rintro ⟨h1, h2, h3⟩ r hr
    by_cases hrn : r < nt
    · have hi := h1 ⟨r, hrn⟩
      unfold rhs
      rw [dif_pos hrn, ← hi]
      unfold predict
      have : ∀ j ∈ Finset.range (nt + np), mtx deg reg d0 xt r j * sol j = row deg d0 xt (xt ⟨r, hrn⟩) j * sol j + (if j = r then reg * sol r else 0) := by
        intro j _
        rw [C31_symmetric]
        unfold mtx
        rw [dif_pos hrn, add_mul]
        congr 1
        by_cases h : j = r
        · rw [if_pos ⟨h, by omega⟩, if_pos h, h]
        · rw [if_neg (fun e => h e.1), if_neg h, zero_mul]
      rw [Finset.sum_congr rfl this, Finset.sum_add_distrib, Finset.sum_ite_eq' (Finset.range (nt + np)) r, if_pos (Finset.mem_range.2 hr)]
    · obtain ⟨q, rfl⟩ : ∃ q, r = nt + q := ⟨r - nt, by omega⟩
      have hq : q < np := by omega
      unfold rhs
      rw [dif_neg (by omega), sum_split]
      have e2 : ∑ p ∈ Finset.range np, mtx deg reg d0 xt (nt + q) (nt + p) * sol (nt + p) = 0 := by
        refine Finset.sum_eq_zero fun p _ => ?_
        unfold mtx
        rw [dif_neg (by omega), dif_neg (by omega), if_neg (by omega)]; simp
      rw [e2, add_zero]
      have e3 : ∀ i : Fin nt, mtx deg reg d0 xt (nt + q) i = row deg d0 xt (xt i) (nt + q) := by
        intro i
        unfold mtx
        rw [dif_pos i.2, if_neg (by have := i.2; omega), add_zero]
      simp only [e3]
      rcases numPoly_cases hnp with ⟨rfl, rfl⟩ | ⟨rfl, rfl⟩ | ⟨rfl, rfl⟩
      · omega
      · obtain rfl : q = 0 := by omega
        have : ∀ i : Fin nt, row 0 d0 xt (xt i) (nt + 0) = 1 := fun i => by simp [row]
        simp only [this, one_mul]
        exact h2 le_rfl
      · rcases Nat.eq_zero_or_pos q with rfl | hq0
        · have : ∀ i : Fin nt, row 1 d0 xt (xt i) (nt + 0) = 1 := fun i => by simp [row]
          simp only [this, one_mul]
          exact h2 (by norm_num)
        · have : ∀ i : Fin nt, row 1 d0 xt (xt i) (nt + q) = xt i ⟨q - 1, by omega⟩ := by
            intro i
            unfold row
            rw [dif_neg (by omega), if_neg (by omega), dif_pos (by refine ⟨rfl, by omega, by omega⟩)]
            congr 1
            apply Fin.ext; simp; omega
          simp only [this]
          exact h3 rfl _

theorem trained_unique (hnp : numPoly deg nx = some np) (hw : WellPosed deg reg d0 xt) {yt : Fin nt → ℝ} {s s' : ℕ → ℝ} (h : Trained deg np reg d0 xt yt s)
    (h' : Trained deg np reg d0 xt yt s') (x : Fin nx → ℝ) : predict deg np d0 xt s' x = predict deg np d0 xt s x := by
  obtain ⟨u, -, hu⟩ := C31_trains_uniquely_distinct deg np hnp reg d0 xt yt hw.1 hw.2
  unfold predict
  refine Finset.sum_congr rfl fun q hq => ?_
  have := Finset.mem_range.1 hq
  rw [hu s h q this, hu s' h' q this]

/-! ## Theorems -/

/-- **C82** RBF: training succeeds whatever the outputs, and predictions are linear in the training outputs. -/
theorem C82_rbf (hnp : numPoly deg nx = some np) (hw : WellPosed deg reg d0 xt) (yt yt' : Fin nt → ℝ) (a b : ℝ) :
    (∃ s, Trained deg np reg d0 xt yt s) ∧
    ∀ s s' r, Trained deg np reg d0 xt yt s → Trained deg np reg d0 xt yt' s' → Trained deg np reg d0 xt (fun i => a * yt i + b * yt' i) r →
      ∀ x, predict deg np d0 xt r x = a * predict deg np d0 xt s x + b * predict deg np d0 xt s' x := by
  refine ⟨?_, ?_⟩
  · obtain ⟨u, hu, -⟩ := C31_trains_uniquely_distinct deg np hnp reg d0 xt yt hw.1 hw.2
    exact ⟨u, hu⟩
  · intro s s' r hs hs' hr x
    have e : ∀ x, predict deg np d0 xt (fun q => a * s q + b * s' q) x = a * predict deg np d0 xt s x + b * predict deg np d0 xt s' x := by
      intro x
      unfold predict
      rw [Finset.mul_sum, Finset.mul_sum, ← Finset.sum_add_distrib]
      exact Finset.sum_congr rfl fun q _ => by ring
    rw [← e]
    refine trained_unique hnp hw ?_ hr x
    rw [solves_iff hnp] at hs hs' ⊢
    refine ⟨fun i => ?_, fun h => ?_, fun h k => ?_⟩
    · rw [e]
      have h1 := hs.1 i
      have h2 := hs'.1 i
      rw [← h1, ← h2]; ring
    · rw [Finset.sum_add_distrib, ← Finset.mul_sum, ← Finset.mul_sum, hs.2.1 h, hs'.2.1 h]; ring
    · have : ∀ i : Fin nt, xt i k * (a * s i + b * s' i) = a * (xt i k * s i) + b * (xt i k * s' i) := fun i => by ring
      simp only [this, Finset.sum_add_distrib, ← Finset.mul_sum, hs.2.2 h k, hs'.2.2 h k]; ring

/-- **C83** RBF: neither the order of the training points nor the origins and units of the inputs matter, when the scaling distances `d0` are expressed in the same units. -/
theorem C83_rbf (hnp : numPoly deg nx = some np) (hw : WellPosed deg reg d0 xt) (yt : Fin nt → ℝ) (σ : Equiv.Perm (Fin nt)) (a b : Fin nx → ℝ) (ha : ∀ k, a k ≠ 0) :
    (∃ s, Trained deg np reg (fun k => a k * d0 k) (fun i k => a k * xt (σ i) k + b k) (fun i => yt (σ i)) s) ∧
    ∀ s s', Trained deg np reg d0 xt yt s → Trained deg np reg (fun k => a k * d0 k) (fun i k => a k * xt (σ i) k + b k) (fun i => yt (σ i)) s' →
      ∀ x, predict deg np (fun k => a k * d0 k) (fun i k => a k * xt (σ i) k + b k) s' (fun k => a k * x k + b k) = predict deg np d0 xt s x := by
  constructor
  · have hw' : WellPosed deg reg (fun k => a k * d0 k) (fun i k => a k * xt (σ i) k + b k) := by
      refine ⟨hw.1.imp id fun h => ⟨h.1, fun i j hij => ?_, fun k => mul_ne_zero (ha k) (h.2.2 k)⟩, hw.2.1, fun h1 c l hz => ?_⟩
      · have : xt (σ i) = xt (σ j) := funext fun k => by
          have := congrFun hij k
          simp only [add_left_inj] at this
          exact mul_left_cancel₀ (ha k) this
        exact σ.injective (h.2.1 this)
      · have := hw.2.2 h1 (c + ∑ k, l k * b k) (fun k => l k * a k) fun i => by
          have := hz (σ.symm i)
          simp only [Equiv.apply_symm_apply, mul_add, Finset.sum_add_distrib] at this
          rw [← this]
          simp only [mul_assoc]; ring
        have hl : ∀ k, l k = 0 := fun k => (mul_eq_zero.1 (this.2 k)).resolve_right (ha k)
        refine ⟨?_, hl⟩
        have h0 := this.1
        simpa [hl] using h0
    obtain ⟨u, hu, -⟩ := C31_trains_uniquely_distinct deg np hnp reg _ _ (fun i => yt (σ i)) hw'.1 hw'.2
    exact ⟨u, hu⟩
  · intro s s' hs hs' x
    -- the second solution, read in the first order and units
    set u : ℕ → ℝ := fun q => if h : q < nt then s' (σ.symm ⟨q, h⟩ : Fin nt) else if q = nt then (if deg = 1 then s' nt + ∑ k : Fin nx, b k * s' (nt + 1 + k) else s' nt)
      else if h : q - (nt + 1) < nx then a ⟨q - (nt + 1), h⟩ * s' q else s' q with hu
    have u1 : ∀ i : Fin nt, u i = s' (σ.symm i : Fin nt) := fun i => by simp [hu]
    have u2 : u nt = if deg = 1 then s' nt + ∑ k : Fin nx, b k * s' (nt + 1 + k) else s' nt := by simp [hu]
    have u3 : ∀ k : Fin nx, u (nt + 1 + k) = a k * s' (nt + 1 + k) := fun k => by
      have hk : nt + 1 + (k : ℕ) - (nt + 1) = k := by omega
      simp only [hu]
      rw [dif_neg (by omega), if_neg (by omega), dif_pos (by omega)]
      congr 1
      congr 1
      exact Fin.ext hk
    have hg : ∀ x, gaussians (fun k => a k * d0 k) (fun i k => a k * xt (σ i) k + b k) (fun i => s' i) (fun k => a k * x k + b k) = gaussians d0 xt (fun i => u i) x := by
      intro x
      unfold gaussians
      rw [← Equiv.sum_comp σ fun i => u i * Real.exp (-∑ k, ((x k - xt i k) / d0 k) ^ 2)]
      refine Finset.sum_congr rfl fun i _ => ?_
      rw [u1, Equiv.symm_apply_apply]
      congr 3
      refine Finset.sum_congr rfl fun k _ => ?_
      congr 1
      rw [show a k * x k + b k - (a k * xt (σ i) k + b k) = a k * (x k - xt (σ i) k) by ring, mul_div_mul_left _ _ (ha k)]
    have ht : ∀ x : Fin nx → ℝ, trendVal deg nt s' (fun k => a k * x k + b k) = trendVal deg nt u x := by
      intro x
      unfold trendVal
      split_ifs with h1 h2
      · rw [u2, if_neg (by omega)]
      · rw [u2, if_pos h2]
        simp only [u3, add_mul, Finset.sum_add_distrib]
        have : ∀ k : Fin nx, x k * (a k * s' (nt + 1 + k)) = a k * x k * s' (nt + 1 + k) := fun k => by ring
        simp only [this]; ring
      · rfl
    have hp : ∀ x, predict deg np (fun k => a k * d0 k) (fun i k => a k * xt (σ i) k + b k) s' (fun k => a k * x k + b k) = predict deg np d0 xt u x := by
      intro x
      rw [predict_eq hnp, predict_eq hnp, hg, ht]
    rw [hp]
    refine trained_unique hnp hw hs ?_ x
    rw [solves_iff hnp] at hs' ⊢
    obtain ⟨k1, k2, k3⟩ := hs'
    have hsum : ∀ f : Fin nt → ℝ, ∑ i, f i * u i = ∑ i, f (σ i) * s' i := by
      intro f
      rw [← Equiv.sum_comp σ fun i => f i * u i]
      exact Finset.sum_congr rfl fun i _ => by rw [u1, Equiv.symm_apply_apply]
    refine ⟨fun i => ?_, fun h => ?_, fun h k => ?_⟩
    · have := k1 (σ.symm i)
      simp only [Equiv.apply_symm_apply] at this
      rw [hp] at this
      rw [u1]; exact this
    · have := hsum fun _ => 1
      simp only [one_mul] at this
      rw [this]; exact k2 h
    · rw [hsum fun i => xt i k]
      have h1 := k3 h k
      have h2 := k2 (by omega)
      simp only [add_mul, Finset.sum_add_distrib] at h1
      rw [← Finset.mul_sum, h2, mul_zero, add_zero] at h1
      have h3 : ∑ i : Fin nt, a k * xt (σ i) k * s' i = a k * ∑ i : Fin nt, xt (σ i) k * s' i := by
        rw [Finset.mul_sum]; exact Finset.sum_congr rfl fun i _ => by ring
      rw [h3] at h1
      exact (mul_eq_zero.1 h1).resolve_left (ha k)

/-- **C84** RBF reproduces its trend: a model with linear trend trained on values of an affine function predicts that function everywhere, whatever `d0` and `reg`; with constant trend it does so for
constants. -/
theorem C84_rbf (c : ℝ) (l : Fin nx → ℝ) (hnp : numPoly deg nx = some np) (hw : WellPosed deg reg d0 xt) (hdeg : deg = 1 ∨ (deg = 0 ∧ ∀ k, l k = 0)) (s : ℕ → ℝ)
    (hs : Trained deg np reg d0 xt (fun i => c + ∑ k, l k * xt i k) s) (x : Fin nx → ℝ) : predict deg np d0 xt s x = c + ∑ k, l k * x k := by
  set u : ℕ → ℝ := fun q => if q < nt then 0 else if q = nt then c else if h : q - (nt + 1) < nx then l ⟨q - (nt + 1), h⟩ else 0 with hu
  have u1 : ∀ i : Fin nt, u i = 0 := fun i => by simp [hu]
  have u2 : u nt = c := by simp [hu]
  have u3 : ∀ k : Fin nx, u (nt + 1 + k) = l k := fun k => by
    have hk : nt + 1 + (k : ℕ) - (nt + 1) = k := by omega
    simp only [hu]
    rw [if_neg (by omega), if_neg (by omega), dif_pos (by omega)]
    congr 1
    exact Fin.ext hk
  have hp : ∀ x, predict deg np d0 xt u x = c + ∑ k, l k * x k := by
    intro x
    rw [predict_eq hnp]
    have : gaussians d0 xt (fun i => u i) x = 0 := by
      unfold gaussians; exact Finset.sum_eq_zero fun i _ => by simp only [u1, zero_mul]
    rw [this, zero_add]
    unfold trendVal
    rcases hdeg with rfl | ⟨rfl, hl⟩
    · simp only [u2, u3, one_ne_zero, if_false, if_true]
      congr 1
      exact Finset.sum_congr rfl fun k _ => mul_comm _ _
    · simp [u2, hl]
  rw [← hp]
  refine trained_unique hnp hw ?_ hs x
  rw [solves_iff hnp]
  refine ⟨fun i => by rw [hp, u1]; ring, fun _ => Finset.sum_eq_zero fun i _ => u1 i, fun _ k => Finset.sum_eq_zero fun i _ => by rw [u1, mul_zero]⟩

/-- **C84** Without a trend no such property holds: far from the data the prediction of a model with degree -1 becomes arbitrarily small, whatever the training data, so no non-zero constant is reproduced. -/
theorem C84_rbf_no_trend (k : Fin nx) (hd : d0 k ≠ 0) (s : ℕ → ℝ) (ε : ℝ) (hε : 0 < ε) : ∃ x, |predict (-1) 0 d0 xt s x| < ε := by
  have hlim : ∀ i : Fin nt, Filter.Tendsto (fun u : ℝ => s i * Real.exp (-∑ q, ((Function.update (0 : Fin nx → ℝ) k u q - xt i q) / d0 q) ^ 2)) Filter.atTop (nhds 0) := by
    intro i
    have h1 : Filter.Tendsto (fun u : ℝ => ((u - xt i k) / d0 k) ^ 2) Filter.atTop Filter.atTop := by
      have e : (fun u : ℝ => ((u - xt i k) / d0 k) ^ 2) = fun u => (u - xt i k) ^ 2 * (1 / d0 k ^ 2) := by funext u; rw [div_pow]; ring
      rw [e]
      refine Filter.Tendsto.atTop_mul_const (by positivity) ?_
      exact (Filter.tendsto_pow_atTop (by norm_num)).comp (Filter.tendsto_atTop_add_const_right _ (-xt i k) Filter.tendsto_id)
    have h2 : Filter.Tendsto (fun u : ℝ => ∑ q, ((Function.update (0 : Fin nx → ℝ) k u q - xt i q) / d0 q) ^ 2) Filter.atTop Filter.atTop := by
      refine Filter.tendsto_atTop_mono (fun u => ?_) h1
      have := Finset.single_le_sum (f := fun q => ((Function.update (0 : Fin nx → ℝ) k u q - xt i q) / d0 q) ^ 2) (fun q _ => sq_nonneg _) (Finset.mem_univ k)
      simpa using this
    have h3 := (Real.tendsto_exp_neg_atTop_nhds_zero.comp h2).const_mul (s i)
    simpa using h3
  have hsum : Filter.Tendsto (fun u : ℝ => predict (-1) 0 d0 xt s (Function.update 0 k u)) Filter.atTop (nhds 0) := by
    have := tendsto_finsetSum (Finset.univ : Finset (Fin nt)) fun i _ => hlim i
    simp only [Finset.sum_const_zero] at this
    refine this.congr fun u => ?_
    rw [(C31_predictor d0 xt s _).1]; rfl
  obtain ⟨u, hu⟩ := ((Metric.tendsto_nhds.1 hsum) ε hε).exists
  exact ⟨_, by simpa [Real.dist_eq] using hu⟩

/-- Three points of the plane that are not on a line meet the hypotheses for the linear trend without regularisation. -/
example : WellPosed (nt := 3) (nx := 2) 1 0 (fun _ => 1) ![![0, 0], ![1, 0], ![0, 1]] := by
  refine ⟨Or.inr ⟨le_rfl, ?_, fun _ => one_ne_zero⟩, by norm_num, fun _ a b h => ?_⟩
  · intro i j h
    have h0 := congrFun h 0
    have h1 := congrFun h 1
    fin_cases i <;> fin_cases j <;> simp at h0 h1 <;> rfl
  · have e0 := h 0
    have e1 := h 1
    have e2 := h 2
    simp [Fin.sum_univ_two] at e0 e1 e2
    subst e0
    simp only [zero_add] at e1 e2
    exact ⟨rfl, fun k => by fin_cases k <;> assumption⟩

end SMT.Rbf
