import Verif.Fp.Standard
import Mathlib.Analysis.SpecialFunctions.Pow.NNReal
import Mathlib.Data.Real.Sqrt

/-!
# Property C104: standardization in rounded arithmetic
-/
set_option linter.unusedSectionVars false
set_option linter.unusedSimpArgs false
set_option linter.unusedVariables false

namespace SMT.Fp

variable {K : Type} [Field K] [LinearOrder K] [IsStrictOrderedRing K] {R : Rounding K}

theorem Close.trans {n m : ℕ} {x c d : K} (h : Close R n x c) (h' : Close R m c d) : Close R (n + m) x d := by
  obtain ⟨h1, h2, h3, h4⟩ := h
  obtain ⟨g1, g2, g3, g4⟩ := h'
  refine ⟨h1, g2, ?_, ?_⟩
  · calc x ≤ c * R.rho ^ n := h3
      _ ≤ d * R.rho ^ m * R.rho ^ n := mul_le_mul_of_nonneg_right g3 (pow_nonneg (rho_pos R).le n)
      _ = _ := by ring
  · calc d ≤ c * R.rho ^ m := g4
      _ ≤ x * R.rho ^ n * R.rho ^ m := mul_le_mul_of_nonneg_right h4 (pow_nonneg (rho_pos R).le m)
      _ = _ := by ring

theorem Close.symm {n : ℕ} {x c : K} (h : Close R n x c) : Close R n c x := ⟨h.2.1, h.1, h.2.2.2, h.2.2.1⟩

theorem Close.zero_iff {n : ℕ} {x c : K} (h : Close R n x c) : x = 0 ↔ c = 0 := by
  obtain ⟨h1, h2, h3, h4⟩ := h
  constructor
  · rintro rfl
    rw [zero_mul] at h4
    exact le_antisymm h4 h2
  · rintro rfl
    rw [zero_mul] at h3
    exact le_antisymm h3 h1

theorem abs_rnd (q : K) : R.rnd |q| = |R.rnd q| := by
  rcases le_total 0 q with h | h
  · rw [abs_of_nonneg h, abs_of_nonneg (R.nonneg h)]
  · rw [abs_of_nonpos h, abs_of_nonpos (R.nonpos h), R.odd]

theorem close_sq (q : K) : Close R 2 (q * q) (R.rnd q * R.rnd q) := by
  have h : Close R 1 |q| |R.rnd q| := by
    rw [← abs_rnd]
    exact Close.of_rnd (abs_nonneg q)
  have := h.mul h
  rwa [abs_mul_abs_self, abs_mul_abs_self] at this

/-! ## Sums in any order -/

theorem leaves_pos (t : Tree) : 1 ≤ t.leaves.length := by
  induction t with
  | leaf i => simp [Tree.leaves]
  | node a b ha hb => rw [Tree.leaves, List.length_append]; omega

theorem eval_close (n : ℕ) (f g : ℕ → K) (t : Tree) (h : ∀ i ∈ t.leaves, Close R n (f i) (g i)) :
    Close R (n + (t.leaves.length - 1)) (t.leaves.map f).sum (t.eval R g) := by
  induction t with
  | leaf i => simpa [Tree.leaves, Tree.eval] using h i (by simp [Tree.leaves])
  | node a b ha hb =>
    have p1 := leaves_pos a
    have p2 := leaves_pos b
    have h1 := ha fun i hi => h i (by simp [Tree.leaves, hi])
    have h2 := hb fun i hi => h i (by simp [Tree.leaves, hi])
    rw [Tree.leaves, Tree.eval, List.map_append, List.sum_append, List.length_append]
    have := ((h1.mono (m := n + (a.leaves.length + b.leaves.length - 2)) (by omega)).add (h2.mono (by omega))).rnd
    rwa [show n + (a.leaves.length + b.leaves.length - 2) + 1 = n + (a.leaves.length + b.leaves.length - 1) by omega] at this

theorem eval_within (f : ℕ → K) (t : Tree) :
    Within R (t.leaves.length - 1) (t.leaves.map fun i => |f i|).sum (t.leaves.map f).sum (t.eval R f) := by
  induction t with
  | leaf i =>
    rw [Tree.leaves, Tree.eval]
    simp only [List.map_cons, List.map_nil, List.sum_cons, List.sum_nil, add_zero]
    exact ⟨le_rfl, by simp⟩
  | node a b ha hb =>
    have p1 := leaves_pos a
    have p2 := leaves_pos b
    rw [Tree.leaves, Tree.eval, List.map_append, List.map_append, List.sum_append, List.sum_append, List.length_append]
    have := ((ha.mono (m := a.leaves.length + b.leaves.length - 2) (by omega)).add (hb.mono (by omega))).rnd
    rwa [show a.leaves.length + b.leaves.length - 2 + 1 = a.leaves.length + b.leaves.length - 1 by omega] at this

theorem Within.div {n : ℕ} {T x c : K} (h : Within R n T x c) {d : K} (hd : 0 < d) : Within R n (T / d) (x / d) (c / d) := by
  obtain ⟨h1, h2⟩ := h
  refine ⟨?_, ?_⟩
  · rw [abs_div, abs_of_pos hd]
    exact div_le_div_of_nonneg_right h1 hd.le
  · rw [← sub_div, abs_div, abs_of_pos hd, ← mul_div_assoc]
    exact div_le_div_of_nonneg_right h2 hd.le

theorem range_getD (x : List K) (d : K) : (List.range x.length).map (fun i => x.getD i d) = x := by
  apply List.ext_getElem
  · simp
  · intro i h1 h2
    simp [h2]

theorem leaves_getD {t : Tree} {x : List K} (ht : t.Adds x.length) (d : K) (g : K → K) :
    (t.leaves.map fun i => g (x.getD i d)).sum = (x.map g).sum := by
  rw [(ht.map _).sum_eq]
  congr 1
  conv_rhs => rw [← range_getD x d]
  rw [List.map_map]
  rfl

theorem leaves_length {t : Tree} {n : ℕ} (ht : t.Adds n) : t.leaves.length = n := by
  rw [ht.length_eq, List.length_range]

variable (R)

/-! ## Specification -/

/-- What `np.sqrt` guarantees: the square of the result is the argument up to two roundings. -/
structure Sqrt (sq : K → K) : Prop where
  nonneg : ∀ v, 0 ≤ v → 0 ≤ sq v
  close : ∀ v, 0 ≤ v → Close R 2 v (sq v * sq v)

/-- The sum of squared deviations from `m`, divided by `n - 1`. -/
def spread (m : K) (x : List K) : K := (x.map fun v => (v - m) * (v - m)).sum / (x.length - 1 : ℕ)

variable {R} {sq : K → K} {t t' : Tree} {x : List K}

theorem sqrt_zero_iff (hs : Sqrt R sq) {v : K} (hv : 0 ≤ v) : sq v = 0 ↔ v = 0 := by
  rw [(hs.close v hv).zero_iff, mul_self_eq_zero]

/-- **C104** The computed mean is the mean up to `n` roundings relative to the mean of the absolute values. -/
theorem C104_mean (ht : t.Adds x.length) (hx : x ≠ []) :
    |meanF R t x - x.sum / x.length| ≤ (R.rho ^ x.length - 1) * ((x.map fun v => |v|).sum / x.length) := by
  have hn : 0 < x.length := List.length_pos_iff.2 hx
  have hn' : (0 : K) < x.length := by exact_mod_cast hn
  have h := ((eval_within (R := R) (fun i => x.getD i 0) t).div hn').rnd
  have e1 := leaves_getD ht 0 id
  have e2 := leaves_getD ht 0 (fun v => |v|)
  rw [List.map_id] at e1
  simp only [id] at e1
  rw [e1, e2, leaves_length ht, show x.length - 1 + 1 = x.length by omega] at h
  exact h.2

theorem spread_nonneg (m : K) (x : List K) : 0 ≤ spread m x := by
  refine div_nonneg (List.sum_nonneg ?_) (Nat.cast_nonneg _)
  intro a ha
  obtain ⟨v, -, rfl⟩ := List.mem_map.1 ha
  exact mul_self_nonneg _

theorem var_close (ht' : t'.Adds x.length) (hx : 2 ≤ x.length) : Close R (x.length + 3) (spread (meanF R t x) x) (varF R t t' x) := by
  have hn : (0 : K) < (x.length - 1 : ℕ) := by exact_mod_cast (show 0 < x.length - 1 by omega)
  unfold varF spread
  dsimp only
  set m := meanF R t x with hm
  have key : ∀ i ∈ t'.leaves, Close R 3 ((x.getD i 0 - m) * (x.getD i 0 - m))
      (R.rnd ((x.map fun v => R.rnd (v - m)).getD i 0 * (x.map fun v => R.rnd (v - m)).getD i 0)) := by
    intro i hi
    have hi : i < x.length := List.mem_range.1 (ht'.mem_iff.1 hi)
    have e : (x.map fun v => R.rnd (v - m)).getD i 0 = R.rnd (x.getD i 0 - m) := by
      simp [List.getD_eq_getElem?_getD, hi]
    rw [e]
    exact (close_sq _).rnd
  have h := ((eval_close 3 _ _ t' key).div (Close.refl hn.le)).rnd
  rw [leaves_getD ht' 0 (fun v => (v - m) * (v - m)), leaves_length ht'] at h
  rwa [show 3 + (x.length - 1) + 0 + 1 = x.length + 3 by omega] at h

theorem var_nonneg (ht' : t'.Adds x.length) (hx : 2 ≤ x.length) : 0 ≤ varF R t t' x := (var_close ht' hx).2.1

theorem sum_sq_zero (m : K) : ∀ (x : List K), (x.map fun v => (v - m) * (v - m)).sum = 0 → ∀ v ∈ x, v = m := by
  intro x
  induction x with
  | nil => simp
  | cons a x ih =>
    intro h v hv
    rw [List.map_cons, List.sum_cons] at h
    have h1 : 0 ≤ (a - m) * (a - m) := mul_self_nonneg _
    have h2 : 0 ≤ (x.map fun v => (v - m) * (v - m)).sum := by
      refine List.sum_nonneg ?_
      intro b hb
      obtain ⟨v, -, rfl⟩ := List.mem_map.1 hb
      exact mul_self_nonneg _
    rcases List.mem_cons.1 hv with rfl | hv
    · have : (v - m) * (v - m) = 0 := by linarith
      linarith [mul_self_eq_zero.1 this]
    · exact ih (by linarith) v hv

theorem spread_zero_iff (m : K) (hx : 2 ≤ x.length) : spread m x = 0 ↔ ∀ v ∈ x, v = m := by
  have hn : (0 : K) < (x.length - 1 : ℕ) := by exact_mod_cast (show 0 < x.length - 1 by omega)
  unfold spread
  rw [div_eq_zero_iff, or_iff_left hn.ne']
  refine ⟨sum_sq_zero m x, fun h => ?_⟩
  rw [List.map_congr_left (g := fun _ => (0 : K)) (fun v hv => by rw [h v hv]; ring)]
  simp

/-- **C104** The scale is `1` because of the test for zero exactly if all values equal the *computed* mean. -/
theorem C104_detected (hs : Sqrt R sq) (ht' : t'.Adds x.length) (hx : 2 ≤ x.length) :
    sq (varF R t t' x) = 0 ↔ ∀ v ∈ x, v = meanF R t x := by
  rw [sqrt_zero_iff hs (var_nonneg ht' hx), ← (var_close ht' hx).zero_iff, spread_zero_iff _ hx]

/-- **C104** The scale is positive: `standardization` does not divide by zero. -/
theorem C104_scale_pos (hs : Sqrt R sq) (ht' : t'.Adds x.length) (hx : 2 ≤ x.length) : 0 < scaleOf R sq t t' x := by
  unfold scaleOf
  dsimp only
  split
  · exact one_pos
  · rename_i h
    exact lt_of_le_of_ne (hs.nonneg _ (var_nonneg ht' hx)) (Ne.symm h)

/-- **C104** Otherwise the square of the scale is the spread about the computed mean, up to `n + 5` roundings. -/
theorem C104_scale (hs : Sqrt R sq) (ht' : t'.Adds x.length) (hx : 2 ≤ x.length) (hne : ∃ v ∈ x, v ≠ meanF R t x) :
    Close R (x.length + 5) (spread (meanF R t x) x) (scaleOf R sq t t' x * scaleOf R sq t t' x) := by
  have h0 : sq (varF R t t' x) ≠ 0 := by
    rw [Ne, C104_detected hs ht' hx]
    push Not
    exact hne
  unfold scaleOf
  dsimp only
  rw [if_neg h0]
  exact (var_close ht' hx).trans (hs.close _ (var_nonneg ht' hx))

/-! ## Standardised values -/

/-- **C104** Standardisation keeps the order of the values (of training points and points of a prediction), not strictly. -/
theorem C104_monotone {m s : K} (hs : 0 < s) {v w : K} (h : v ≤ w) : normF R m s v ≤ normF R m s w := by
  unfold normF
  refine R.mono _ _ (div_le_div_of_nonneg_right (R.mono _ _ ?_) hs.le)
  linarith

theorem norm_within {m s : K} (hs : 0 < s) (v : K) : Within R 2 (|v - m| / s) ((v - m) / s) (normF R m s v) := by
  have h0 : Within R 0 |v - m| (v - m) (v - m) := ⟨le_rfl, by simp⟩
  exact ((h0.rnd).div hs).rnd

/-- **C104** Values further apart than a few roundings of their deviations stay distinct. -/
theorem C104_distinct {m s : K} (hs : 0 < s) {v w : K} (h : (R.rho ^ 2 - 1) * (|v - m| + |w - m|) < w - v) : normF R m s v < normF R m s w := by
  have h1 := (abs_le.1 (norm_within (R := R) (m := m) hs v).2).2
  have h2 := (abs_le.1 (norm_within (R := R) (m := m) hs w).2).1
  have e : (w - m) / s - (v - m) / s - ((R.rho ^ 2 - 1) * (|w - m| / s) + (R.rho ^ 2 - 1) * (|v - m| / s)) =
      (w - v - (R.rho ^ 2 - 1) * (|v - m| + |w - m|)) / s := by ring
  have : 0 < (w - v - (R.rho ^ 2 - 1) * (|v - m| + |w - m|)) / s := div_pos (by linarith) hs
  linarith

theorem norm_sq {m s : K} (hs : 0 < s) (v : K) {k : ℕ} {y : K} (hc : Close R k y (s * s)) :
    Close R (k + 4) ((v - m) * (v - m) / y) (normF R m s v * normF R m s v) := by
  have h1 := (close_sq (R := R) (v - m)).div hc
  have h2 := close_sq (R := R) (R.rnd (v - m) / s)
  rw [div_mul_div_comm] at h2
  have := h1.trans h2
  rwa [show 2 + k + 2 = k + 4 by omega] at this

/-- **C104** The standardised training values are bounded independently of the data: their squares are at most `n - 1` (and `n + 9` roundings). -/
theorem C104_bounded (hs : Sqrt R sq) (ht' : t'.Adds x.length) (hx : 2 ≤ x.length) :
    ∀ z ∈ (standardize R sq t t' x).1, z * z ≤ (x.length - 1 : ℕ) * R.rho ^ (x.length + 9) := by
  intro z hz
  obtain ⟨v, hv, rfl⟩ := List.mem_map.1 hz
  have hn : (0 : K) < (x.length - 1 : ℕ) := by exact_mod_cast (show 0 < x.length - 1 by omega)
  have hr : 0 < R.rho ^ (x.length + 9) := pow_pos (rho_pos R) _
  by_cases hne : ∃ v ∈ x, v ≠ meanF R t x
  · have h1 := norm_sq (R := R) (m := meanF R t x) (C104_scale_pos (t := t) hs ht' hx) v (C104_scale hs ht' hx hne)
    refine h1.2.2.2.trans (mul_le_mul_of_nonneg_right ?_ hr.le)
    have hsp : 0 < spread (meanF R t x) x := by
      refine lt_of_le_of_ne (spread_nonneg _ _) (Ne.symm ?_)
      rw [Ne, spread_zero_iff _ hx]
      push Not
      exact hne
    rw [div_le_iff₀ hsp, spread, mul_div_cancel₀ _ hn.ne']
    refine List.single_le_sum ?_ _ (List.mem_map.2 ⟨v, hv, rfl⟩)
    intro b hb
    obtain ⟨w, -, rfl⟩ := List.mem_map.1 hb
    exact mul_self_nonneg _
  · push Not at hne
    unfold normF
    rw [hne v hv, sub_self, R.zero, zero_div, R.zero, zero_mul]
    positivity

/-- **C104** Undoing the standardisation of an output gives the output back, up to one rounding of it and three of its deviation from the offset. -/
theorem C104_roundtrip {m s : K} (hs : 0 < s) (y : K) :
    |denormF R m s (normF R m s y) - y| ≤ R.u * |y| + (1 + R.u) * ((R.rho ^ 3 - 1) * |y - m|) := by
  have h1 := norm_within (R := R) (m := m) hs y
  have h2 : Within R 3 |y - m| (y - m) (R.rnd (s * normF R m s y)) := by
    have := (h1.div (inv_pos.2 hs)).rnd
    rw [div_inv_eq_mul, div_inv_eq_mul, div_inv_eq_mul, div_mul_cancel₀ _ hs.ne', div_mul_cancel₀ _ hs.ne', mul_comm (normF R m s y)] at this
    exact this
  unfold denormF
  set w := R.rnd (s * normF R m s y) with hw
  have h3 := R.rel (m + w)
  have h4 : |m + w| ≤ |y| + |w - (y - m)| := by
    have := abs_add_le y (w - (y - m))
    rwa [show y + (w - (y - m)) = m + w by ring] at this
  have h5 : |R.rnd (m + w) - y| ≤ |R.rnd (m + w) - (m + w)| + |w - (y - m)| := by
    have := abs_add_le (R.rnd (m + w) - (m + w)) (w - (y - m))
    rwa [show R.rnd (m + w) - (m + w) + (w - (y - m)) = R.rnd (m + w) - y by ring] at this
  have h6 := mul_le_mul_of_nonneg_left h4 R.u_nonneg
  have h7 := mul_le_mul_of_nonneg_left h2.2 (show 0 ≤ 1 + R.u by linarith [R.u_nonneg])
  linarith

end SMT.Fp
