import Verif.Misc.Model
import Mathlib.Tactic

set_option linter.unusedSectionVars false
set_option linter.unusedSimpArgs false
set_option linter.unusedVariables false

/-!
# C79: the error measure `compute_rms_error`
-/
namespace SMT.Misc

variable {P : Type}

/-- Root-mean-square difference of two columns divided by the root mean square of the second. -/
noncomputable def relRms {n : ℕ} (a b : Fin n → ℝ) : ℝ := √((∑ i, (a i - b i) ^ 2) / n) / √((∑ i, b i ^ 2) / n)

lemma norm_ofFn {n : ℕ} (a : Fin n → ℝ) : norm (List.ofFn a) = √(∑ i, a i ^ 2) := by
  unfold norm; rw [List.map_ofFn, List.sum_ofFn]; rfl

lemma zip_ofFn {n : ℕ} (a b : Fin n → ℝ) : List.zipWith (fun u v => u - v) (List.ofFn a) (List.ofFn b) = List.ofFn fun i => a i - b i := by
  apply List.ext_getElem
  · simp
  · intro i h1 h2; simp

lemma ratio_ofFn {n : ℕ} (a b : Fin n → ℝ) (hb : ∃ i, b i ≠ 0) : ratio (List.ofFn a) (List.ofFn b) = .val (relRms a b) := by
  have hpos : 0 < ∑ i, b i ^ 2 := by
    obtain ⟨i, hi⟩ := hb
    exact Finset.sum_pos' (fun _ _ => sq_nonneg _) ⟨i, Finset.mem_univ i, by positivity⟩
  have hn : (0 : ℝ) < n := by
    obtain ⟨i, -⟩ := hb
    exact_mod_cast i.pos
  unfold ratio
  rw [zip_ofFn, norm_ofFn, norm_ofFn]
  simp only []
  rw [if_neg (Real.sqrt_pos.2 hpos).ne']
  congr 1
  unfold relRms
  rw [Real.sqrt_div (Finset.sum_nonneg fun _ _ => sq_nonneg _), Real.sqrt_div hpos.le]
  have := (Real.sqrt_pos.2 hn).ne'
  have := (Real.sqrt_pos.2 hpos).ne'
  field_simp

/-- **C79** With points and values given, the result is the relative root-mean-square error of the predicted values (of the derivatives, when an input is given) unless all given values are 0. -/
theorem C79_given (sm : SM P) {n : ℕ} (xe : List P) (a b : Fin n → ℝ) (hx : xe.length = n) (kx : Option ℕ)
    (hp : (match kx with | none => sm.values xe | some k => sm.derivs xe k) = some (List.ofFn a)) (hb : ∃ i, b i ≠ 0) : rms sm (some xe) (some (List.ofFn b)) kx = .val (relRms a b) := by
  unfold rms
  cases kx <;> simp only at hp <;> simp only [hp] <;> rw [if_neg (by simp [hx]), if_pos (by simp)] <;> exact ratio_ofFn a b hb

/-- **C79** If all given values are 0 the result is not a number: `nan` when the predictions are 0 too, `inf` otherwise. -/
theorem C79_zero_values (sm : SM P) {n : ℕ} (xe : List P) (a : Fin n → ℝ) (hx : xe.length = n) (hp : sm.values xe = some (List.ofFn a)) :
    rms sm (some xe) (some (List.ofFn fun _ : Fin n => 0)) none = if ∀ i, a i = 0 then .nan else .inf := by
  unfold rms
  simp only [hp]
  rw [if_neg (by simp [hx]), if_pos (by simp)]
  unfold ratio
  rw [zip_ofFn, norm_ofFn, norm_ofFn]
  simp only [sub_zero]
  rw [if_pos (by simp)]
  refine if_congr ?_ rfl rfl
  rw [Real.sqrt_eq_zero (Finset.sum_nonneg fun _ _ => sq_nonneg _), Finset.sum_eq_zero_iff_of_nonneg fun _ _ => sq_nonneg _]
  simp

/-- **C79** Without arguments: the relative error on the training data; it is 0 exactly for a model that reproduces them. -/
theorem C79_training (sm : SM P) {n : ℕ} (xt : List P) (a b : Fin n → ℝ) (ht : sm.training 0 = some (xt, List.ofFn b)) (hp : sm.values xt = some (List.ofFn a)) (hb : ∃ i, b i ≠ 0) :
    rms sm none none none = .val (relRms a b) ∧ 0 ≤ relRms a b ∧ (relRms a b = 0 ↔ a = b) := by
  refine ⟨?_, div_nonneg (Real.sqrt_nonneg _) (Real.sqrt_nonneg _), ?_⟩
  · unfold rms
    simp only [ht, hp]
    rw [if_pos (by simp)]
    exact ratio_ofFn a b hb
  · have hpos : 0 < ∑ i, b i ^ 2 := by
      obtain ⟨i, hi⟩ := hb
      exact Finset.sum_pos' (fun _ _ => sq_nonneg _) ⟨i, Finset.mem_univ i, by positivity⟩
    have hn : (0 : ℝ) < n := by
      obtain ⟨i, -⟩ := hb
      exact_mod_cast i.pos
    unfold relRms
    rw [div_eq_zero_iff, or_iff_left (Real.sqrt_pos.2 (div_pos hpos hn)).ne', Real.sqrt_eq_zero (div_nonneg (Finset.sum_nonneg fun _ _ => sq_nonneg _) hn.le), div_eq_zero_iff,
      or_iff_left hn.ne', Finset.sum_eq_zero_iff_of_nonneg fun _ _ => sq_nonneg _]
    simp only [Finset.mem_univ, true_implies, pow_eq_zero_iff two_ne_zero, sub_eq_zero]
    exact ⟨fun h => funext h, fun h i => by rw [h]⟩

/-- **C79** The measure does not change when predictions and values are expressed in another unit. -/
theorem C79_units {n : ℕ} (a b : Fin n → ℝ) (c : ℝ) (hc : c ≠ 0) : relRms (fun i => c * a i) (fun i => c * b i) = relRms a b := by
  unfold relRms
  have e1 : (∑ i, (c * a i - c * b i) ^ 2) / (n : ℝ) = c ^ 2 * ((∑ i, (a i - b i) ^ 2) / n) := by
    rw [← mul_div_assoc, Finset.mul_sum]; congr 1; exact Finset.sum_congr rfl fun i _ => by ring
  have e2 : (∑ i, (c * b i) ^ 2) / (n : ℝ) = c ^ 2 * ((∑ i, b i ^ 2) / n) := by
    rw [← mul_div_assoc, Finset.mul_sum]; congr 1; exact Finset.sum_congr rfl fun i _ => by ring
  rw [e1, e2, Real.sqrt_mul (sq_nonneg c), Real.sqrt_mul (sq_nonneg c), Real.sqrt_sq_eq_abs]
  exact mul_div_mul_left _ _ (abs_ne_zero.2 hc)

/-- **C79** The documented check of training derivatives never works: with neither points nor values, every derivative index raises (an unassigned local variable), for every model. -/
theorem C79_training_derivatives (sm : SM P) (k : ℕ) : rms sm none none (some k) = .unboundLocal := rfl

/-- **C79** Replacing only the missing half by the training data, as documented, does not happen: with exactly one of points and values the result is `None`. -/
theorem C79_one_missing (sm : SM P) (xe : List P) (ye : List ℝ) (kx : Option ℕ) : rms sm (some xe) none kx = .none ∧ rms sm none (some ye) kx = .none := ⟨rfl, rfl⟩

/-- A model predicting `x` for data `(3, 4)` at `3, 0`: error `4/5`. -/
example : ∃ r, rms (P := ℝ) { values := fun l => some l, derivs := fun _ _ => none, training := fun _ => none } (some [3, 0]) (some [3, 4]) none = .val r ∧ r = 4 / 5 := by
  refine ⟨_, C79_given _ (n := 2) [3, 0] ![3, 0] ![3, 4] rfl none (by simp) ⟨0, by norm_num⟩, ?_⟩
  unfold relRms
  simp only [Fin.sum_univ_two]
  norm_num
  rw [show (8 : ℝ) = 4 ^ 2 / 2 by norm_num, Real.sqrt_div (by norm_num), Real.sqrt_sq (by norm_num)]
  have := (Real.sqrt_pos.2 (show (0 : ℝ) < 2 by norm_num)).ne'
  field_simp

end SMT.Misc
