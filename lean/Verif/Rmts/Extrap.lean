import Verif.Rmts.Model
import Verif.Rmtb.Props
import Verif.Rmtc.Props

/-!
# Property C28: RMTS extrapolation
-/
namespace SMT.Rmts
set_option linter.unusedSectionVars false
set_option linter.unusedSimpArgs false
set_option linter.unusedVariables false

variable {K : Type} [Field K] [LinearOrder K] [IsStrictOrderedRing K]

/-! ## Specification -/

/-- Nearest point of the box. -/
def clamp (limits : List (K × K)) (x : List K) : List K := List.zipWith (fun l xk => min l.2 (max l.1 xk)) limits x

/-- Displacement from the nearest point of the box, coordinate `k`. -/
def disp (limits : List (K × K)) (x : List K) (k : ℕ) : K := x.getD k 0 - (clamp limits x).getD k 0

/-- What the C++ layers guarantee about rows: all rows of a point have the same columns, and rows depend only on the
nearest point of the box. -/
structure RowsOk (raw : ℕ → ℕ → List K → List (K × ℕ)) (limits : List (K × K)) : Prop where
  cols : ∀ i j i' j' x, x.length = limits.length → (raw i j x).map (·.2) = (raw i' j' x).map (·.2)
  clamped : ∀ i j x, x.length = limits.length → raw i j x = raw i j (clamp limits x)

/-! ## General theorems -/

theorem dot_zip (coeff : ℕ → K) (f : K) : ∀ (a t : List (K × ℕ)), a.map (·.2) = t.map (·.2) →
    dot (List.zipWith (fun (a t : K × ℕ) => (a.1 + t.1 * f, t.2)) a t) coeff = dot a coeff + f * dot t coeff ∧
    (List.zipWith (fun (a t : K × ℕ) => (a.1 + t.1 * f, t.2)) a t).map (·.2) = t.map (·.2) := by
  intro a
  induction a with
  | nil => intro t h; cases t with
    | nil => simp [dot]
    | cons t ts => simp at h
  | cons a as ih =>
    intro t h
    cases t with
    | nil => simp at h
    | cons t ts =>
      simp only [List.map_cons, List.cons.injEq] at h
      obtain ⟨e1, e2⟩ := ih ts h.2
      refine ⟨?_, by simpa using e2⟩
      simp only [dot, List.zipWith_cons_cons, List.map_cons, List.sum_cons] at e1 ⊢
      rw [e1, h.1]; ring

theorem extDist_getD (limits : List (K × K)) (x : List K) (hl : x.length = limits.length) (k : ℕ) :
    (List.zipWith (fun l xk => extDist l.1 l.2 xk) limits x).getD k 0 = disp limits x k := by
  unfold disp clamp
  simp only [List.getD_eq_getElem?_getD, List.getElem?_zipWith]
  by_cases hk : k < limits.length
  · rw [List.getElem?_eq_getElem hk, List.getElem?_eq_getElem (by omega : k < x.length)]
    simp [extDist]
  · have h1 : limits[k]? = none := List.getElem?_eq_none (by omega)
    have h2 : x[k]? = none := List.getElem?_eq_none (by omega)
    rw [h1, h2]; simp

/-- The factor multiplying the first-order terms: 1 for values, 0/1 for derivatives. -/
def factor (limits : List (K × K)) (kx : ℕ) (x : List K) : K :=
  if kx = 0 then 1 else if disp limits x (kx - 1) = 0 then 1 else 0

theorem predRow_dot (raw : ℕ → ℕ → List K → List (K × ℕ)) (limits : List (K × K)) (hraw : RowsOk raw limits)
    (coeff : ℕ → K) (kx : ℕ) (x : List K) (hl : x.length = limits.length) :
    dot (predRow raw limits true kx x) coeff = dot (raw kx 0 x) coeff +
      factor limits kx x * ∑ j ∈ Finset.range limits.length, disp limits x j * dot (raw kx (j + 1) x) coeff := by
  unfold predRow
  simp only [if_true]
  simp only [extDist_getD limits x hl]
  have hf : ∀ (v : K), (if kx ≠ 0 then v * (1 - if disp limits x (kx - 1) = 0 then 0 else 1) else v) = v * factor limits kx x := by
    intro v
    unfold factor
    by_cases h : kx = 0
    · simp [h]
    · by_cases h2 : disp limits x (kx - 1) = 0 <;> simp [h, h2]
  simp only [hf]
  have key : ∀ m, dot ((List.range m).foldl (fun acc ix => List.zipWith (fun (a t : K × ℕ) =>
        (a.1 + t.1 * disp limits x ix * factor limits kx x, t.2)) acc (raw kx (ix + 1) x)) (raw kx 0 x)) coeff =
      dot (raw kx 0 x) coeff + factor limits kx x * ∑ j ∈ Finset.range m, disp limits x j * dot (raw kx (j + 1) x) coeff ∧
      ((List.range m).foldl (fun acc ix => List.zipWith (fun (a t : K × ℕ) =>
        (a.1 + t.1 * disp limits x ix * factor limits kx x, t.2)) acc (raw kx (ix + 1) x)) (raw kx 0 x)).map (·.2) =
        (raw kx 0 x).map (·.2) := by
    intro m
    induction m with
    | zero => simp
    | succ m ih =>
      rw [List.range_succ, List.foldl_append, List.foldl_cons, List.foldl_nil]
      simp only [mul_assoc] at ih ⊢
      obtain ⟨a, b⟩ := dot_zip coeff (disp limits x m * factor limits kx x)
        ((List.range m).foldl (fun acc ix => List.zipWith (fun (a t : K × ℕ) =>
          (a.1 + t.1 * (disp limits x ix * factor limits kx x), t.2)) acc (raw kx (ix + 1) x)) (raw kx 0 x))
        (raw kx (m + 1) x) (by rw [ih.2]; exact hraw.cols _ _ _ _ x hl)
      refine ⟨?_, by rw [b]; exact hraw.cols _ _ _ _ x hl⟩
      rw [a, ih.1, Finset.sum_range_succ]; ring
  exact (key limits.length).1

/-- **C28** Values: extrapolated prediction = value at the nearest box point + gradient there · displacement. -/
theorem C28_value_outside (raw : ℕ → ℕ → List K → List (K × ℕ)) (limits : List (K × K)) (hraw : RowsOk raw limits)
    (coeff : ℕ → K) (x : List K) (hl : x.length = limits.length) :
    dot (predRow raw limits true 0 x) coeff = dot (raw 0 0 (clamp limits x)) coeff +
      ∑ j ∈ Finset.range limits.length, (x.getD j 0 - (clamp limits x).getD j 0) *
        dot (raw 0 (j + 1) (clamp limits x)) coeff := by
  rw [predRow_dot raw limits hraw coeff 0 x hl]
  simp only [factor, if_true, one_mul, ← hraw.clamped _ _ x hl]
  rfl

theorem disp_eq_zero (limits : List (K × K)) (x : List K) (hl : x.length = limits.length)
    (hin : ∀ (k : ℕ) (l : K × K), limits[k]? = some l → ∀ xk : K, x[k]? = some xk → l.1 ≤ xk ∧ xk ≤ l.2) (k : ℕ) : disp limits x k = 0 := by
  unfold disp clamp
  simp only [List.getD_eq_getElem?_getD, List.getElem?_zipWith]
  by_cases hk : k < limits.length
  · have h1 := List.getElem?_eq_getElem hk
    have h2 := List.getElem?_eq_getElem (by omega : k < x.length)
    obtain ⟨a, b⟩ := hin k _ h1 _ h2
    rw [h1, h2]
    simp [max_eq_right a, min_eq_right b]
  · have h1 : limits[k]? = none := List.getElem?_eq_none (by omega)
    have h2 : x[k]? = none := List.getElem?_eq_none (by omega)
    rw [h1, h2]; simp

/-- **C28** Inside the limits extrapolation changes nothing, for values and derivatives. -/
theorem C28_inactive_inside (raw : ℕ → ℕ → List K → List (K × ℕ)) (limits : List (K × K)) (hraw : RowsOk raw limits)
    (coeff : ℕ → K) (kx : ℕ) (x : List K) (hl : x.length = limits.length)
    (hin : ∀ (k : ℕ) (l : K × K), limits[k]? = some l → ∀ xk : K, x[k]? = some xk → l.1 ≤ xk ∧ xk ≤ l.2) :
    dot (predRow raw limits true kx x) coeff = dot (predRow raw limits false kx x) coeff := by
  rw [predRow_dot raw limits hraw coeff kx x hl]
  simp [predRow, disp_eq_zero limits x hl hin]

/-- **C28** Without extrapolation predictions outside equal those at the nearest box point. -/
theorem C28_no_extrapolation (raw : ℕ → ℕ → List K → List (K × ℕ)) (limits : List (K × K)) (hraw : RowsOk raw limits)
    (coeff : ℕ → K) (kx : ℕ) (x : List K) (hl : x.length = limits.length) :
    dot (predRow raw limits false kx x) coeff = dot (predRow raw limits false kx (clamp limits x)) coeff := by
  simp only [predRow, Bool.false_eq_true, if_false]
  rw [hraw.clamped kx 0 x hl]

/-- **C28** Defect: without extrapolation, `predict_derivatives` beyond the limits still reports the derivative at the
nearest box point, although the predicted values there do not change with that coordinate. -/
theorem C28_derivative_outside_not_zero (raw : ℕ → ℕ → List K → List (K × ℕ)) (limits : List (K × K))
    (hraw : RowsOk raw limits) (coeff : ℕ → K) (k : ℕ) (x x' : List K) (hl : x.length = limits.length)
    (hl' : x'.length = limits.length) (hc : clamp limits x = clamp limits x') :
    dot (predRow raw limits false 0 x) coeff = dot (predRow raw limits false 0 x') coeff ∧
    dot (predRow raw limits false (k + 1) x) coeff = dot (raw (k + 1) 0 (clamp limits x)) coeff := by
  constructor
  · rw [C28_no_extrapolation raw limits hraw coeff 0 x hl, C28_no_extrapolation raw limits hraw coeff 0 x' hl', hc]
  · rw [C28_no_extrapolation raw limits hraw coeff (k + 1) x hl]; simp [predRow]

/-! ## Derivatives of the extrapolated surface -/
section analysis

theorem disp_set_ne (limits : List (ℝ × ℝ)) (x : List ℝ) (k j : ℕ) (u : ℝ) (hjk : j ≠ k) :
    disp limits (x.set k u) j = disp limits x j := by
  unfold disp clamp
  simp only [List.getD_eq_getElem?_getD, List.getElem?_zipWith, List.getElem?_set_ne (Ne.symm hjk)]

theorem disp_set_self (limits : List (ℝ × ℝ)) (x : List ℝ) (k : ℕ) (u : ℝ) (l : ℝ × ℝ) (hlk : limits[k]? = some l)
    (hk : k < x.length) : disp limits (x.set k u) k = u - min l.2 (max l.1 u) := by
  unfold disp clamp
  simp only [List.getD_eq_getElem?_getD, List.getElem?_zipWith, List.getElem?_set_self hk, hlk]
  simp

/-- **C28** Derivatives along an input that is strictly inside its limits (the other inputs arbitrary), and along an
input strictly outside: the extrapolated `predict_derivatives` is the exact partial derivative of the extrapolated
`predict_values`. Hypotheses: at this point the un-extrapolated rows are differentiable along `k` (`C54_derivative`,
`C26_derivative`) when `x_k` is inside. -/
theorem C28_derivative (raw : ℕ → ℕ → List ℝ → List (ℝ × ℕ)) (limits : List (ℝ × ℝ)) (hraw : RowsOk raw limits)
    (hsym : ∀ i j x, dot (raw i j x) = dot (raw j i x))
    (coeff : ℕ → ℝ) (k : ℕ) (l : ℝ × ℝ) (hlk : limits[k]? = some l) (hll : l.1 < l.2) (x : List ℝ)
    (hl : x.length = limits.length) (xk : ℝ) (hx : x[k]? = some xk)
    (hcase : xk < l.1 ∨ l.2 < xk ∨ (l.1 < xk ∧ xk < l.2 ∧ ∀ j, j ≤ limits.length → j ≠ k + 1 →
      HasDerivAt (fun u => dot (raw j 0 (x.set k u)) coeff) (dot (raw j (k + 1) x) coeff) xk)) :
    HasDerivAt (fun u => dot (predRow raw limits true 0 (x.set k u)) coeff)
      (dot (predRow raw limits true (k + 1) x) coeff) xk := by
  have hkx : k < x.length := (List.getElem?_eq_some_iff.1 hx).1
  have hxset : x.set k xk = x := by
    obtain ⟨hlt, he⟩ := List.getElem?_eq_some_iff.1 hx
    rw [← he]; simp
  have hdk : disp limits x k = xk - min l.2 (max l.1 xk) := by
    have := disp_set_self limits x k xk l hlk hkx
    rwa [hxset] at this
  have e : (fun u => dot (predRow raw limits true 0 (x.set k u)) coeff) = fun u =>
      dot (raw 0 0 (x.set k u)) coeff + ∑ j ∈ Finset.range limits.length,
        disp limits (x.set k u) j * dot (raw 0 (j + 1) (x.set k u)) coeff := by
    funext u
    rw [predRow_dot raw limits hraw coeff 0 (x.set k u) (by simp [hl])]
    simp [factor]
  rw [e, predRow_dot raw limits hraw coeff (k + 1) x hl]
  -- outside: rows do not move, the displacement does
  have houtside : ∀ (s : Set ℝ), IsOpen s → xk ∈ s → (∃ b, (∀ u ∈ s, min l.2 (max l.1 u) = b)) → disp limits x k ≠ 0 →
      HasDerivAt (fun u => dot (raw 0 0 (x.set k u)) coeff + ∑ j ∈ Finset.range limits.length,
        disp limits (x.set k u) j * dot (raw 0 (j + 1) (x.set k u)) coeff)
        (dot (raw (k + 1) 0 x) coeff + factor limits (k + 1) x * ∑ j ∈ Finset.range limits.length,
          disp limits x j * dot (raw (k + 1) (j + 1) x) coeff) xk := by
    intro s hs hxs ⟨b, hb⟩ hne
    have hcl : ∀ u ∈ s, clamp limits (x.set k u) = clamp limits x := by
      intro u hu
      unfold clamp
      refine List.ext_getElem? fun i => ?_
      rw [List.getElem?_zipWith, List.getElem?_zipWith]
      by_cases hi : i = k
      · subst hi
        rw [hlk, List.getElem?_set_self hkx, hx]
        show some (min l.2 (max l.1 u)) = some (min l.2 (max l.1 xk))
        rw [hb u hu, hb xk hxs]
      · rw [List.getElem?_set_ne (Ne.symm hi)]
    have hr : ∀ u ∈ s, ∀ j, raw 0 j (x.set k u) = raw 0 j x := by
      intro u hu j
      rw [hraw.clamped 0 j (x.set k u) (by simp [hl]), hcl u hu, ← hraw.clamped 0 j x hl]
    have hfac : factor limits (k + 1) x = 0 := by
      unfold factor; simp [hne]
    rw [hfac, zero_mul, add_zero]
    have hkl : k < limits.length := by omega
    have hmain : HasDerivAt (fun u => dot (raw 0 0 x) coeff + ∑ j ∈ Finset.range limits.length,
        (if j = k then u - b else disp limits x j) * dot (raw 0 (j + 1) x) coeff)
        (dot (raw (k + 1) 0 x) coeff) xk := by
      have hs : HasDerivAt (fun u => ∑ j ∈ Finset.range limits.length,
          (if j = k then u - b else disp limits x j) * dot (raw 0 (j + 1) x) coeff)
          (∑ j ∈ Finset.range limits.length, (if j = k then 1 else 0) * dot (raw 0 (j + 1) x) coeff) xk := by
        refine HasDerivAt.fun_sum fun j _ => ?_
        refine HasDerivAt.mul_const ?_ _
        by_cases hj : j = k
        · simp only [hj, if_true]; simpa using (hasDerivAt_id xk).sub_const b
        · simp only [hj, if_false]; exact hasDerivAt_const _ _
      refine (hs.const_add _).congr_deriv ?_
      simp only [ite_mul, one_mul, zero_mul, Finset.sum_ite_eq', Finset.mem_range, hkl, if_true]
      rw [hsym]
    refine hmain.congr_of_eventuallyEq ?_
    filter_upwards [hs.mem_nhds hxs] with u hu
    rw [hr u hu 0]
    congr 1
    refine Finset.sum_congr rfl fun j _ => ?_
    rw [hr u hu (j + 1)]
    by_cases hj : j = k
    · rw [if_pos hj, hj, disp_set_self limits x k u l hlk hkx, hb u hu]
    · rw [if_neg hj, disp_set_ne limits x k j u hj]
  rcases hcase with h | h | ⟨h1, h2, hd⟩
  · refine houtside (Set.Iio l.1) isOpen_Iio h ⟨l.1, fun u hu => ?_⟩ ?_
    · rw [max_eq_left (le_of_lt hu), min_eq_right hll.le]
    · rw [hdk, max_eq_left h.le, min_eq_right hll.le]; exact ne_of_lt (by linarith)
  · refine houtside (Set.Ioi l.2) isOpen_Ioi h ⟨l.2, fun u hu => ?_⟩ ?_
    · exact min_eq_left (le_max_of_le_right (le_of_lt hu))
    · rw [hdk, min_eq_left (le_max_of_le_right h.le)]; exact ne_of_gt (by linarith)
  · -- inside: the displacement along k is 0 nearby
    have hz : disp limits x k = 0 := by rw [hdk, max_eq_right h1.le, min_eq_right h2.le, sub_self]
    have hfac : factor limits (k + 1) x = 1 := by unfold factor; simp [hz]
    rw [hfac, one_mul]
    have hsum : HasDerivAt (fun u => ∑ j ∈ Finset.range limits.length, disp limits x j * dot (raw (j + 1) 0 (x.set k u)) coeff)
        (∑ j ∈ Finset.range limits.length, disp limits x j * dot (raw (j + 1) (k + 1) x) coeff) xk := by
      refine HasDerivAt.fun_sum fun j hj => ?_
      by_cases hjk : j = k
      · subst hjk; rw [hz]; simp only [zero_mul]; exact hasDerivAt_const _ _
      · exact (hd (j + 1) (by have := Finset.mem_range.1 hj; omega) (by omega)).const_mul _
    have h0 := hd 0 (by omega) (by omega)
    have hfin := h0.add hsum
    refine (hfin.congr_deriv ?_).congr_of_eventuallyEq ?_
    · rw [hsym 0 (k + 1)]
      congr 1
      refine Finset.sum_congr rfl fun j _ => ?_
      rw [hsym (j + 1) (k + 1)]
    · filter_upwards [isOpen_Ioo.mem_nhds (show xk ∈ Set.Ioo l.1 l.2 from ⟨h1, h2⟩)] with u hu
      show _ = dot (raw 0 0 (x.set k u)) coeff + ∑ j ∈ Finset.range limits.length, disp limits x j * dot (raw (j + 1) 0 (x.set k u)) coeff
      congr 1
      refine Finset.sum_congr rfl fun j _ => ?_
      rw [hsym 0 (j + 1)]
      by_cases hj : j = k
      · rw [hj, disp_set_self limits x k u l hlk hkx, hz, max_eq_right hu.1.le, min_eq_right hu.2.le, sub_self]
      · rw [disp_set_ne limits x k j u hj]

end analysis

end SMT.Rmts
