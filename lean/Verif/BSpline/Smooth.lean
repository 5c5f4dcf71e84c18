import Verif.BSpline.Props
import Mathlib.Analysis.Calculus.FDeriv.Extend

/-!
# Smoothness of the basis functions across knots

With strictly increasing knots the B-splines of degree `i` are continuous for `1 ≤ i`, continuously differentiable for `2 ≤ i`, twice for `3 ≤ i`.
-/
set_option linter.unusedSectionVars false
set_option linter.unusedSimpArgs false
set_option linter.unusedVariables false

namespace SMT.BSpline

section algebra
variable {K : Type} [Field K] [LinearOrder K] [IsStrictOrderedRing K]

/-- The derivative recursion in terms of the values of the degree below. -/
theorem D1_formula (k : ℕ → K) (hk : StrictMono k) (t : K) : ∀ i m, D1 k m (i + 1) t =
    ((i : K) + 1) * (N k m i t / (k (m + (i + 1)) - k m) - N k (m + 1) i t / (k (m + (i + 1) + 1) - k (m + 1))) := by
  intro i
  induction i with
  | zero =>
    intro m
    simp only [D1, mul_zero, add_zero, zero_sub]
    push_cast
    ring
  | succ i ih =>
    intro m
    have ha : k (m + (i + 1 + 1)) - k m ≠ 0 := sub_ne_zero.2 (hk (by omega)).ne'
    have hb : k (m + (i + 1 + 1) + 1) - k (m + 1) ≠ 0 := sub_ne_zero.2 (hk (by omega)).ne'
    have ha' : k (m + (i + 1)) - k m ≠ 0 := sub_ne_zero.2 (hk (by omega)).ne'
    have hb' : k (m + (i + 1 + 1)) - k (m + 1) ≠ 0 := sub_ne_zero.2 (hk (by omega)).ne'
    have hc' : k (m + (i + 1 + 1) + 1) - k (m + 1 + 1) ≠ 0 := sub_ne_zero.2 (hk (by omega)).ne'
    rw [D1, ih m, ih (m + 1), N, N]
    have e1 : m + (i + 1) + 1 = m + (i + 1 + 1) := by omega
    have e2 : m + 1 + (i + 1) = m + (i + 1 + 1) := by omega
    have e3 : m + (i + 1 + 1) + 1 = m + (i + 1 + 1) + 1 := rfl
    rw [e1, e2]
    generalize N k m i t = n0
    generalize N k (m + 1) i t = n1
    generalize N k (m + 1 + 1) i t = n2
    generalize k (m + (i + 1 + 1) + 1) = A at *
    generalize k (m + (i + 1 + 1)) = B' at *
    generalize k (m + (i + 1)) = C at *
    generalize k (m + 1 + 1) = D at *
    generalize k (m + 1) = E at *
    generalize k m = F at *
    push_cast
    field_simp
    ring

theorem D2_formula (k : ℕ → K) (hk : StrictMono k) (t : K) : ∀ i m, D2 k m (i + 1) t =
    ((i : K) + 1) * (D1 k m i t / (k (m + (i + 1)) - k m) - D1 k (m + 1) i t / (k (m + (i + 1) + 1) - k (m + 1))) := by
  intro i
  induction i with
  | zero =>
    intro m
    simp only [D2, D1]
    ring
  | succ i ih =>
    intro m
    have ha : k (m + (i + 1 + 1)) - k m ≠ 0 := sub_ne_zero.2 (hk (by omega)).ne'
    have hb : k (m + (i + 1 + 1) + 1) - k (m + 1) ≠ 0 := sub_ne_zero.2 (hk (by omega)).ne'
    have ha' : k (m + (i + 1)) - k m ≠ 0 := sub_ne_zero.2 (hk (by omega)).ne'
    have hb' : k (m + (i + 1 + 1)) - k (m + 1) ≠ 0 := sub_ne_zero.2 (hk (by omega)).ne'
    have hc' : k (m + (i + 1 + 1) + 1) - k (m + 1 + 1) ≠ 0 := sub_ne_zero.2 (hk (by omega)).ne'
    have e1 : m + (i + 1) + 1 = m + (i + 1 + 1) := by omega
    have e2 : m + 1 + (i + 1) = m + (i + 1 + 1) := by omega
    -- two expressions of the first derivatives
    have r0 := D1_formula k hk t i m
    have r1 := D1_formula k hk t i (m + 1)
    have q0 : D1 k m (i + 1) t = (N k m i t + (t - k m) * D1 k m i t) / (k (m + (i + 1)) - k m) +
      ((k (m + (i + 1) + 1) - t) * D1 k (m + 1) i t - N k (m + 1) i t) / (k (m + (i + 1) + 1) - k (m + 1)) := rfl
    have q1 : D1 k (m + 1) (i + 1) t = (N k (m + 1) i t + (t - k (m + 1)) * D1 k (m + 1) i t) / (k (m + 1 + (i + 1)) - k (m + 1)) +
      ((k (m + 1 + (i + 1) + 1) - t) * D1 k (m + 1 + 1) i t - N k (m + 1 + 1) i t) / (k (m + 1 + (i + 1) + 1) - k (m + 1 + 1)) := rfl
    rw [D2, ih m, ih (m + 1)]
    rw [e1] at r0 q0
    rw [e2] at r1 q1
    rw [e1, e2]
    generalize D1 k m (i + 1) t = p0 at *
    generalize D1 k (m + 1) (i + 1) t = p1 at *
    generalize D1 k m i t = d0 at *
    generalize D1 k (m + 1) i t = d1 at *
    generalize D1 k (m + 1 + 1) i t = d2 at *
    generalize N k m i t = n0 at *
    generalize N k (m + 1) i t = n1 at *
    generalize N k (m + 1 + 1) i t = n2 at *
    generalize k (m + (i + 1 + 1) + 1) = A at *
    generalize k (m + (i + 1 + 1)) = B' at *
    generalize k (m + (i + 1)) = C at *
    generalize k (m + 1 + 1) = D at *
    generalize k (m + 1) = E at *
    generalize k m = F at *
    push_cast
    have hi : (i : K) + 1 ≠ 0 := by positivity
    -- eliminate the values
    have s0 : ((i : K) + 1) * ((t - F) * d0 / (C - F)) = (i : K) * p0 - ((i : K) + 1) * ((B' - t) * d1 / (B' - E)) := by
      have : n0 / (C - F) - n1 / (B' - E) = p0 / ((i : K) + 1) := by rw [r0]; field_simp
      have h2 : p0 = p0 / ((i : K) + 1) + (t - F) * d0 / (C - F) + (B' - t) * d1 / (B' - E) := by
        rw [← this]
        calc p0 = _ := q0
          _ = _ := by ring
      have h3 : (t - F) * d0 / (C - F) = p0 - p0 / ((i : K) + 1) - (B' - t) * d1 / (B' - E) := by linear_combination -h2
      rw [h3]
      field_simp
      ring
    have s1 : ((i : K) + 1) * ((A - t) * d2 / (A - D)) = (i : K) * p1 - ((i : K) + 1) * ((t - E) * d1 / (B' - E)) := by
      have : n1 / (B' - E) - n2 / (A - D) = p1 / ((i : K) + 1) := by rw [r1]; field_simp
      have h2 : p1 = p1 / ((i : K) + 1) + (t - E) * d1 / (B' - E) + (A - t) * d2 / (A - D) := by
        rw [← this]
        calc p1 = _ := q1
          _ = _ := by ring
      have h3 : (A - t) * d2 / (A - D) = p1 - p1 / ((i : K) + 1) - (t - E) * d1 / (B' - E) := by linear_combination -h2
      rw [h3]
      field_simp
      ring
    have t0 : (t - F) * (((i : K) + 1) * (d0 / (C - F) - d1 / (B' - E))) = (i : K) * p0 - ((i : K) + 1) * ((B' - F) * d1 / (B' - E)) := by
      calc _ = ((i : K) + 1) * ((t - F) * d0 / (C - F)) - ((i : K) + 1) * ((t - F) * d1 / (B' - E)) := by ring
        _ = _ := by rw [s0]; ring
    have t1 : (A - t) * (((i : K) + 1) * (d1 / (B' - E) - d2 / (A - D))) = ((i : K) + 1) * ((A - E) * d1 / (B' - E)) - (i : K) * p1 := by
      calc _ = ((i : K) + 1) * ((A - t) * d1 / (B' - E)) - ((i : K) + 1) * ((A - t) * d2 / (A - D)) := by ring
        _ = _ := by rw [s1]; ring
    rw [t0, t1]
    field_simp
    ring

end algebra

/-- Degree one: the hat function. -/
theorem hat_eq (k : ℕ → ℝ) (hk : StrictMono k) (m : ℕ) (t : ℝ) :
    N k m 1 t = max 0 (min ((t - k m) / (k (m + 1) - k m)) ((k (m + 2) - t) / (k (m + 2) - k (m + 1)))) := by
  have h1 : 0 < k (m + 1) - k m := sub_pos.2 (hk (by omega))
  have h2 : 0 < k (m + 2) - k (m + 1) := sub_pos.2 (hk (by omega))
  simp only [N, zero_add, add_assoc, Nat.reduceAdd]
  by_cases c1 : t < k m
  · rw [if_neg (by intro h; linarith [h.1]), if_neg (by intro h; linarith [h.1])]
    rw [max_eq_left]
    · simp
    · exact (min_le_left _ _).trans (div_nonpos_of_nonpos_of_nonneg (by linarith) h1.le)
  by_cases c2 : t < k (m + 1)
  · rw [if_pos ⟨not_lt.1 c1, c2⟩, if_neg (by intro h; linarith [h.1])]
    have a1 : (t - k m) / (k (m + 1) - k m) ≤ 1 := (div_le_one h1).2 (by linarith)
    have a2 : 1 ≤ (k (m + 2) - t) / (k (m + 2) - k (m + 1)) := (one_le_div h2).2 (by linarith)
    have a0 : 0 ≤ (t - k m) / (k (m + 1) - k m) := div_nonneg (by linarith) h1.le
    rw [min_eq_left (a1.trans a2), max_eq_right a0]
    ring
  by_cases c3 : t < k (m + 2)
  · rw [if_neg (by intro h; exact c2 h.2), if_pos ⟨not_lt.1 c2, c3⟩]
    have a1 : 1 ≤ (t - k m) / (k (m + 1) - k m) := (one_le_div h1).2 (by linarith)
    have a2 : (k (m + 2) - t) / (k (m + 2) - k (m + 1)) ≤ 1 := (div_le_one h2).2 (by linarith)
    have a0 : 0 ≤ (k (m + 2) - t) / (k (m + 2) - k (m + 1)) := div_nonneg (by linarith) h2.le
    rw [min_eq_right (a2.trans a1), max_eq_right a0]
    ring
  · rw [if_neg (by intro h; exact c2 h.2), if_neg (by intro h; exact c3 h.2)]
    rw [max_eq_left]
    · simp
    · exact (min_le_right _ _).trans (div_nonpos_of_nonpos_of_nonneg (by linarith) h2.le)

theorem N_continuous (k : ℕ → ℝ) (hk : StrictMono k) : ∀ i m, Continuous fun t => N k m (i + 1) t := by
  intro i
  induction i with
  | zero =>
    intro m
    simp only [zero_add, hat_eq k hk]
    fun_prop
  | succ i ih =>
    intro m
    have h0 := ih m
    have h1 := ih (m + 1)
    show Continuous fun t => (t - k m) / (k (m + (i + 1 + 1)) - k m) * N k m (i + 1) t +
      (k (m + (i + 1 + 1) + 1) - t) / (k (m + (i + 1 + 1) + 1) - k (m + 1)) * N k (m + 1) (i + 1) t
    fun_prop

theorem D1_continuous (k : ℕ → ℝ) (hk : StrictMono k) (i m : ℕ) : Continuous fun t => D1 k m (i + 2) t := by
  have h0 := N_continuous k hk i m
  have h1 := N_continuous k hk i (m + 1)
  simp only [D1_formula k hk]
  fun_prop

theorem D2_continuous (k : ℕ → ℝ) (hk : StrictMono k) (i m : ℕ) : Continuous fun t => D2 k m (i + 3) t := by
  have h0 := D1_continuous k hk i m
  have h1 := D1_continuous k hk i (m + 1)
  simp only [D2_formula k hk]
  fun_prop

/-- A derivative on both sides of a knot, continuous across it. -/
theorem hasDerivAt_knot {f g : ℝ → ℝ} {a t b : ℝ} (ha : a < t) (hb : t < b) (hl : ∀ u ∈ Set.Ioo a t, HasDerivAt f (g u) u)
    (hr : HasDerivWithinAt f (g t) (Set.Ico t b) t) (hf : Continuous f) (hg : Continuous g) : HasDerivAt f (g t) t := by
  have h1 : HasDerivWithinAt f (g t) (Set.Iic t) t := by
    refine hasDerivWithinAt_Iic_of_tendsto_deriv (s := Set.Ioo a t) (fun u hu => (hl u hu).differentiableAt.differentiableWithinAt)
      hf.continuousWithinAt (Ioo_mem_nhdsLT ha) ?_
    refine Filter.Tendsto.congr' ?_ (hg.continuousAt.continuousWithinAt (s := Set.Iio t)).tendsto
    filter_upwards [Ioo_mem_nhdsLT ha] with u hu
    exact (hl u hu).deriv.symm
  have h2 : HasDerivWithinAt f (g t) (Set.Ici t) t := hr.mono_of_mem_nhdsWithin (Ico_mem_nhdsGE hb)
  have := h1.union h2
  rwa [Set.Iic_union_Ici, hasDerivWithinAt_univ] at this

theorem N_hasDerivAt (k : ℕ → ℝ) (hk : StrictMono k) (p : ℕ) (t : ℝ) (ht : t ∈ Set.Ico (k (p + 1)) (k (p + 2))) (i m : ℕ) :
    HasDerivAt (fun u => N k m (i + 2) u) (D1 k m (i + 2) t) t := by
  have int : ∀ q u, u ∈ Set.Ioo (k q) (k (q + 1)) → HasDerivAt (fun u => N k m (i + 2) u) (D1 k m (i + 2) u) u := fun q u hu =>
    (N_hasDeriv k hk.monotone q u (Set.Ioo_subset_Ico_self hu) _ _).hasDerivAt (Ico_mem_nhds hu.1 hu.2)
  rcases ht.1.lt_or_eq with h | h
  · exact int (p + 1) t ⟨h, ht.2⟩
  · subst h
    exact hasDerivAt_knot (g := fun u => D1 k m (i + 2) u) (hk (show p < p + 1 by omega)) ht.2 (fun u hu => int p u hu)
      (N_hasDeriv k hk.monotone (p + 1) _ ht _ _) (N_continuous k hk (i + 1) m) (D1_continuous k hk i m)

theorem D1_hasDerivAt (k : ℕ → ℝ) (hk : StrictMono k) (p : ℕ) (t : ℝ) (ht : t ∈ Set.Ico (k (p + 1)) (k (p + 2))) (i m : ℕ) :
    HasDerivAt (fun u => D1 k m (i + 3) u) (D2 k m (i + 3) t) t := by
  have int : ∀ q u, u ∈ Set.Ioo (k q) (k (q + 1)) → HasDerivAt (fun u => D1 k m (i + 3) u) (D2 k m (i + 3) u) u := fun q u hu =>
    (D1_hasDeriv k hk.monotone q u (Set.Ioo_subset_Ico_self hu) _ _).hasDerivAt (Ico_mem_nhds hu.1 hu.2)
  rcases ht.1.lt_or_eq with h | h
  · exact int (p + 1) t ⟨h, ht.2⟩
  · subst h
    exact hasDerivAt_knot (g := fun u => D2 k m (i + 3) u) (hk (show p < p + 1 by omega)) ht.2 (fun u hu => int p u hu)
      (D1_hasDeriv k hk.monotone (p + 1) _ ht _ _) (D1_continuous k hk (i + 1) m) (D2_continuous k hk i m)

end SMT.BSpline
