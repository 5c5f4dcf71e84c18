import Verif.Fp.StandardProps

/-!
# Property C104, second part: constant columns, double precision, overflow and underflow
-/
set_option linter.unusedSectionVars false
set_option linter.unusedSimpArgs false
set_option linter.unusedVariables false

namespace SMT.Fp

variable {K : Type} [Field K] [LinearOrder K] [IsStrictOrderedRing K] {R : Rounding K} {sq : K → K} {t t' : Tree}

/-! ## Constant columns -/

theorem eval_const {c : K} {n : ℕ} (h : ∀ k ≤ n, R.Rep (k * c)) (f : ℕ → K) (t : Tree) (hf : ∀ i ∈ t.leaves, f i = c) (hl : t.leaves.length ≤ n) :
    t.eval R f = t.leaves.length * c := by
  induction t with
  | leaf i => simp [Tree.eval, Tree.leaves, hf i (by simp [Tree.leaves])]
  | node a b ha hb =>
    rw [Tree.leaves, List.length_append] at hl
    rw [Tree.eval, ha (fun i hi => hf i (by simp [Tree.leaves, hi])) (by omega), hb (fun i hi => hf i (by simp [Tree.leaves, hi])) (by omega),
      Tree.leaves, List.length_append, Nat.cast_add, ← add_mul]
    have := h _ hl
    rw [Nat.cast_add] at this
    exact this

theorem replicate_getD {n i : ℕ} (c : K) (h : i < n) : (List.replicate n c).getD i 0 = c := by
  simp [List.getD_eq_getElem?_getD, h]

/-- **C104** A constant column whose multiples `c`, `2c`, …, `nc` are numbers of the format (such as integers up to `2⁵³ / n`) is standardised
as in exact arithmetic: offset `c`, scale `1`, values `0`. -/
theorem C104_constant_exact (hs : Sqrt R sq) {n : ℕ} (hn : 2 ≤ n) {c : K} (ht : t.Adds n) (ht' : t'.Adds n) (h : ∀ k ≤ n, R.Rep (k * c)) :
    standardize R sq t t' (List.replicate n c) = (List.replicate n 0, c, 1) := by
  have hn' : (n : K) ≠ 0 := by exact_mod_cast (show n ≠ 0 by omega)
  have hm : meanF R t (List.replicate n c) = c := by
    unfold meanF
    rw [eval_const h _ t (fun i hi => replicate_getD c (List.mem_range.1 (ht.mem_iff.1 hi))) (leaves_length ht).le, leaves_length ht,
      List.length_replicate, mul_div_cancel_left₀ _ hn']
    have := h 1 (by omega)
    rwa [Nat.cast_one, one_mul] at this
  have hd := (C104_detected (t := t) (x := List.replicate n c) hs (by rwa [List.length_replicate]) (by rwa [List.length_replicate])).2
    (by rw [hm]; exact fun v hv => List.eq_of_mem_replicate hv)
  unfold standardize scaleOf
  dsimp only
  rw [hm, if_pos hd, List.map_replicate]
  unfold normF
  rw [sub_self, R.zero, zero_div, R.zero]

/-- **C104** Any other constant column: if the computed mean is not `c` itself, the scale is that of the rounding error of the mean,
and the standardised values are, up to roundings, not `0` but `1` or `-1` times the square root of `(n - 1) / n`. -/
theorem C104_constant (hs : Sqrt R sq) {n : ℕ} (hn : 2 ≤ n) {c : K} (ht' : t'.Adds n) (hm : meanF R t (List.replicate n c) ≠ c) :
    let r := standardize R sq t t' (List.replicate n c)
    Close R (n + 5) (n / (n - 1 : ℕ) * ((c - r.2.1) * (c - r.2.1))) (r.2.2 * r.2.2) ∧
      ∃ z, r.1 = List.replicate n z ∧ Close R (n + 9) ((n - 1 : ℕ) / n) (z * z) := by
  have hn' : (n : K) ≠ 0 := by exact_mod_cast (show n ≠ 0 by omega)
  have hn1 : ((n - 1 : ℕ) : K) ≠ 0 := by exact_mod_cast (show n - 1 ≠ 0 by omega)
  have hL : (List.replicate n c).length = n := List.length_replicate
  have hsp : spread (meanF R t (List.replicate n c)) (List.replicate n c) =
      n / (n - 1 : ℕ) * ((c - meanF R t (List.replicate n c)) * (c - meanF R t (List.replicate n c))) := by
    unfold spread
    rw [List.map_replicate, List.sum_replicate, hL, nsmul_eq_mul]
    ring
  have hne : ∃ v ∈ List.replicate n c, v ≠ meanF R t (List.replicate n c) :=
    ⟨c, List.mem_replicate.2 ⟨by omega, rfl⟩, Ne.symm hm⟩
  have hsc := C104_scale (t := t) hs (by rwa [hL]) (by rwa [hL]) hne (x := List.replicate n c) (t' := t')
  have hpos := C104_scale_pos (t := t) hs (by rwa [hL]) (by rwa [hL]) (x := List.replicate n c) (t' := t')
  rw [hL, hsp] at hsc
  refine ⟨hsc, _, List.map_replicate, ?_⟩
  have := norm_sq (m := meanF R t (List.replicate n c)) hpos c hsc
  have hcm : (c - meanF R t (List.replicate n c)) * (c - meanF R t (List.replicate n c)) ≠ 0 :=
    mul_self_ne_zero.2 (sub_ne_zero.2 (Ne.symm hm))
  rw [show (c - meanF R t (List.replicate n c)) * (c - meanF R t (List.replicate n c)) /
      (n / (n - 1 : ℕ) * ((c - meanF R t (List.replicate n c)) * (c - meanF R t (List.replicate n c)))) = (n - 1 : ℕ) / n by field_simp] at this
  exact this

/-! ## Orders of summation -/

theorem left_leaves (n : ℕ) : (Tree.left n).leaves = List.range (n + 1) := by
  induction n with
  | zero => rfl
  | succ n ih => rw [Tree.left, Tree.leaves, ih, Tree.leaves, List.range_succ (n := n + 1)]

/-- Adding from the left is an order of summation. -/
theorem left_adds (n : ℕ) : (Tree.left n).Adds (n + 1) := by
  unfold Tree.Adds
  rw [left_leaves]

/-- A square root with these guarantees exists: the rounded real square root. -/
theorem sqrt_real (R : Rounding ℝ) : Sqrt R fun v => R.rnd (Real.sqrt v) where
  nonneg := fun v _ => R.nonneg (Real.sqrt_nonneg v)
  close := fun v hv => by
    have := close_sq (R := R) (Real.sqrt v)
    rwa [Real.mul_self_sqrt hv] at this

/-- And over the rational numbers, where the examples compute. -/
theorem sqrt_rat (R : Rounding ℚ) (hu : 0 < R.u) : ∃ sq, Sqrt R sq := by
  have hr : 1 < R.rho := lt_of_lt_of_le (by linarith) (one_add_le_rho R)
  have key : ∀ v : ℚ, 0 ≤ v → ∃ s : ℚ, 0 ≤ s ∧ Close R 2 v (s * s) := by
    intro v hv
    rcases hv.eq_or_lt with rfl | hv
    · exact ⟨0, le_rfl, by simp [Close]⟩
    · have h1 : (v : ℝ) < v * R.rho ^ 2 := by
        have h2 : v < v * R.rho ^ 2 := lt_mul_of_one_lt_right hv (one_lt_pow₀ hr (by norm_num))
        exact_mod_cast h2
      obtain ⟨s, s1, s2⟩ := exists_rat_btwn (Real.sqrt_lt_sqrt (by exact_mod_cast hv.le) h1)
      have hs : (0 : ℝ) < s := lt_of_le_of_lt (Real.sqrt_nonneg _) s1
      have a : (v : ℝ) < s * s := by
        have := (Real.sqrt_lt' hs).1 s1
        rwa [pow_two] at this
      have b : (s : ℝ) * s < v * R.rho ^ 2 := by
        have := (Real.lt_sqrt hs.le).1 s2
        rwa [pow_two] at this
      have a' : v < s * s := by exact_mod_cast a
      have b' : s * s < v * R.rho ^ 2 := by exact_mod_cast b
      refine ⟨s, by exact_mod_cast hs.le, hv.le, mul_self_nonneg _, ?_, b'.le⟩
      have := le_mul_of_one_le_right (mul_self_nonneg s) (one_le_pow₀ hr.le (n := 2))
      linarith
  choose! f hf using key
  exact ⟨f, fun v hv => (hf v hv).1, fun v hv => (hf v hv).2⟩

/-! ## Double precision -/

/-- **C104** In double precision the column `0.1, 0.1, 0.1` is not recognised as constant: its scale is at most `2e-17`, its standardised values are at
least `0.8` away from zero, and the point `0.2` of a prediction is standardised to more than `1e15`. -/
theorem C104_double_constant {sq : ℚ → ℚ} (hs : Sqrt double sq) :
    let r := standardize double sq (Tree.left 2) (Tree.left 2) (List.replicate 3 (double.rnd (1 / 10)))
    r.2.1 ≠ double.rnd (1 / 10) ∧ 0 < r.2.2 ∧ r.2.2 ≤ 2 / 10 ^ 17 ∧ (∃ z, r.1 = List.replicate 3 z ∧ 8 / 10 ≤ |z|) ∧
      10 ^ 15 ≤ normF double r.2.1 r.2.2 (double.rnd (2 / 10)) := by
  have hm : meanF double (Tree.left 2) (List.replicate 3 (double.rnd (1 / 10))) ≠ double.rnd (1 / 10) := by decide +kernel
  obtain ⟨h1, z, h2, h3⟩ := C104_constant (t := Tree.left 2) hs (by norm_num) (left_adds 2) hm
  have hpos := C104_scale_pos (t := Tree.left 2) hs (left_adds 2) (by simp) (x := List.replicate 3 (double.rnd (1 / 10)))
  intro r
  have hs2 : r.2.2 ≤ 2 / 10 ^ 17 := by
    refine abs_le_of_sq_le_sq' ?_ (by norm_num) |>.2
    rw [pow_two, pow_two]
    refine h1.2.2.2.trans ?_
    show (3 / (2 : ℕ) * ((double.rnd (1 / 10) - meanF double (Tree.left 2) (List.replicate 3 (double.rnd (1 / 10)))) * (double.rnd (1 / 10) - meanF double (Tree.left 2) (List.replicate 3 (double.rnd (1 / 10)))))) * double.rho ^ (3 + 5) ≤ 2 / 10 ^ 17 * (2 / 10 ^ 17)
    decide +kernel
  refine ⟨hm, hpos, hs2, ⟨z, h2, ?_⟩, ?_⟩
  · refine abs_le_of_sq_le_sq' (a := 8 / 10) (b := |z|) ?_ (abs_nonneg z) |>.2
    rw [sq_abs]
    have h5 := h3.2.2.1
    have h4 : (8 / 10 : ℚ) ^ 2 * double.rho ^ (3 + 9) ≤ (2 : ℕ) / (3 : ℕ) := by decide +kernel
    have h6 := h4.trans h5
    rw [pow_two z]
    exact le_of_mul_le_mul_right h6 (pow_pos (rho_pos _) _)
  · have hd : 2 / 100 ≤ double.rnd (double.rnd (2 / 10) - r.2.1) := by
      show 2 / 100 ≤ double.rnd (double.rnd (2 / 10) - meanF double (Tree.left 2) (List.replicate 3 (double.rnd (1 / 10))))
      decide +kernel
    refine double.rep_le (x := 10 ^ 15) (show double.rnd (10 ^ 15) = 10 ^ 15 by decide +kernel) ?_
    have hpos' : 0 < r.2.2 := hpos
    refine (le_div_iff₀ hpos').2 ?_
    have : (10 : ℚ) ^ 15 * r.2.2 ≤ 10 ^ 15 * (2 / 10 ^ 17) := mul_le_mul_of_nonneg_left hs2 (by norm_num)
    refine this.trans (le_trans ?_ hd)
    norm_num

/-- **C104** In double precision distinct values can be standardised to the same number, whatever the scale: `2⁻⁷⁰` and `2⁻⁶⁹` beside `3`. -/
theorem C104_double_collapse (s : ℚ) :
    normF double (meanF double (Tree.left 2) [1 / 2 ^ 70, 1 / 2 ^ 69, 3]) s (1 / 2 ^ 70) = normF double (meanF double (Tree.left 2) [1 / 2 ^ 70, 1 / 2 ^ 69, 3]) s (1 / 2 ^ 69) := by
  unfold normF
  rw [show double.rnd (1 / 2 ^ 70 - meanF double (Tree.left 2) [1 / 2 ^ 70, 1 / 2 ^ 69, 3]) = double.rnd (1 / 2 ^ 69 - meanF double (Tree.left 2) [1 / 2 ^ 70, 1 / 2 ^ 69, 3]) by
    decide +kernel]

/-! ## Overflow and underflow -/

/-- **C104** If the variance overflows while mean and deviations do not, all standardised values are `0`: all training points coincide in this input. -/
theorem C104_overflow (F : Format K) (sq : K → K) (t t' : Tree) (x : List K) (hv : varX F t t' x = .inf false)
    (hd : ∀ v ∈ x, ∃ d, F.subX (.fin v) (meanX F t x) = .fin d) : (standardizeX F sq t t' x).1 = x.map fun _ => .fin 0 := by
  unfold standardizeX
  dsimp only
  rw [hv]
  refine List.map_congr_left fun v hm => ?_
  obtain ⟨d, e⟩ := hd v hm
  rw [e]
  rfl

/-- **C104** If the variance underflows, the column counts as constant: the scale is `1`. -/
theorem C104_underflow (F : Format K) {sq : K → K} (h0 : sq 0 = 0) (t t' : Tree) (x : List K) (hv : varX F t t' x = .fin 0) :
    (standardizeX F sq t t' x).2.2 = .fin 1 ∧ (standardizeX F sq t t' x).1 = x.map fun v => F.divX (F.subX (.fin v) (meanX F t x)) (.fin 1) := by
  unfold standardizeX
  dsimp only
  rw [hv, sqrtX, h0, if_pos rfl]
  exact ⟨rfl, rfl⟩

/-- **C104** In double precision the columns `±2⁶⁰⁰` and `±2⁻⁶⁰⁰`, which exact arithmetic standardises to the same values, give zeros and `±2⁻⁶⁰⁰`;
the column `±3` has the scale `√18` (one degree of freedom less than points). -/
theorem C104_double_range {sq : ℚ → ℚ} (h0 : sq 0 = 0) (h18 : sq 18 ≠ 0) :
    (standardizeX binary64 sq (Tree.left 1) (Tree.left 1) [3, -3]).2 = (.fin 0, .fin (sq 18)) ∧
    (standardizeX binary64 sq (Tree.left 1) (Tree.left 1) [2 ^ 600, -2 ^ 600]).1 = [.fin 0, .fin 0] ∧
      (standardizeX binary64 sq (Tree.left 1) (Tree.left 1) [1 / 2 ^ 600, -1 / 2 ^ 600]).1 = [.fin (1 / 2 ^ 600), .fin (-1 / 2 ^ 600)] := by
  refine ⟨?_, ?_, ?_⟩
  · have hv : varX binary64 (Tree.left 1) (Tree.left 1) [3, -3] = .fin 18 := by decide +kernel
    have hm : meanX binary64 (Tree.left 1) [3, -3] = .fin 0 := by decide +kernel
    simp only [standardizeX, hv, hm, sqrtX]
    simp [h18]
  · refine C104_overflow _ _ _ _ _ (by decide +kernel) ?_
    intro v hv
    rcases List.mem_cons.1 hv with rfl | hv
    · exact ⟨2 ^ 600, by decide +kernel⟩
    · rw [List.mem_singleton] at hv
      subst hv
      exact ⟨-2 ^ 600, by decide +kernel⟩
  · rw [(C104_underflow _ h0 _ _ _ (by decide +kernel)).2]
    decide +kernel

/-! ## Examples -/

/-- The hypotheses of `C104_double_range`: a square root that does not vanish at 18. -/
example : ∃ sq : ℚ → ℚ, sq 0 = 0 ∧ sq 18 ≠ 0 := ⟨fun x => x, rfl, by norm_num⟩


/-- `C104_constant_exact` in double precision: five times `3`. -/
example {sq : ℚ → ℚ} (hs : Sqrt double sq) : standardize double sq (Tree.left 4) (Tree.left 4) (List.replicate 5 3) = (List.replicate 5 0, 3, 1) := by
  refine C104_constant_exact hs (by norm_num) (left_adds 4) (left_adds 4) fun k hk => ?_
  have : (binary (K := ℚ) 53 (by norm_num)).Rep ((k * 3 : ℤ) : ℚ) := binary_int _ _ (by rw [abs_of_nonneg (by positivity)]; norm_num; omega)
  push_cast at this
  exact this

example : ∃ sq, Sqrt double sq := sqrt_rat double (by decide +kernel)
example : (Tree.node (.node (.leaf 2) (.leaf 0)) (.node (.leaf 1) (.leaf 3))).Adds 4 := by unfold Tree.Adds; decide

end SMT.Fp
