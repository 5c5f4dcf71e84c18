import Verif.Rmts.Extrap

/-!
# Property C28 for the two shipped subclasses, RMTB and RMTC

The hypotheses `RowsOk` and symmetry of `Verif/Rmts/Extrap.lean` are proved of `RMTB._compute_jac_raw` and
`RMTC._compute_jac_raw`, and the general theorems are instantiated.
-/
namespace SMT.Rmts
set_option linter.unusedSectionVars false
set_option linter.unusedSimpArgs false
set_option linter.unusedVariables false

/-! ## RMTB -/
section rmtb
open SMT.Rmtb SMT.BSpline
variable {K : Type} [Field K] [LinearOrder K] [IsStrictOrderedRing K]

/-- `RMTB._compute_jac_raw` as the `raw` argument (an empty row where the C++ span search fails; it never does). -/
def rawB (eps : K) (axes : List (Rmtb.Axis K)) (i j : ℕ) (x : List K) : List (K × ℕ) := (Rmtb.jacRaw eps axes i j x).getD []

def limB (axes : List (Rmtb.Axis K)) : List (K × K) := axes.map fun a => (a.lo, a.hi)

theorem computeBasis_fst (m m' order ncp : ℕ) (t : K) (knots : ℕ → K) :
    (Rmtb.computeBasis m order ncp t knots).map (·.1) = (Rmtb.computeBasis m' order ncp t knots).map (·.1) := by
  have : ∀ m, (Rmtb.computeBasis m order ncp t knots).map (·.1) = iStart order ncp t knots := by
    intro m
    unfold Rmtb.computeBasis computeBasis0 computeBasis1 computeBasis2
    split_ifs <;> simp [Option.map_map, Function.comp_def]
  rw [this, this]

theorem bases_fst (i1 i2 i1' i2' : ℤ) : ∀ (axes : List (Rmtb.Axis K)) (ix : ℕ) (ts : List K),
    (Rmtb.bases i1 i2 ix axes ts).map (·.map (·.1)) = (Rmtb.bases i1' i2' ix axes ts).map (·.map (·.1)) := by
  intro axes
  induction axes with
  | nil => intro ix ts; simp [Rmtb.bases]
  | cons a as ih =>
    intro ix ts
    have h := computeBasis_fst (mode i1 i2 ix) (mode i1' i2' ix) a.order a.ncp (ts.headD 0) (knotU a.order a.ncp)
    have h2 := ih (ix + 1) ts.tail
    simp only [Rmtb.bases]
    cases h3 : Rmtb.computeBasis (mode i1 i2 ix) a.order a.ncp (ts.headD 0) (knotU a.order a.ncp) <;>
      cases h4 : Rmtb.computeBasis (mode i1' i2' ix) a.order a.ncp (ts.headD 0) (knotU a.order a.ncp) <;>
      rw [h3, h4] at h <;> simp at h
    · cases h5 : Rmtb.bases i1 i2 (ix + 1) as ts.tail <;> cases h6 : Rmtb.bases i1' i2' (ix + 1) as ts.tail <;>
        rw [h5, h6] at h2 <;> simp at h2
      · simp
      · simp [h, h2]

theorem entry_snd (orders ncps : List ℕ) (b b' : List (ℕ × (ℕ → K))) (h : b.map (·.1) = b'.map (·.1)) (inz : ℕ) :
    (Rmtb.entry orders ncps b inz).2 = (Rmtb.entry orders ncps b' inz).2 := by
  unfold Rmtb.entry
  have hg : ∀ ix, (b.getD ix (0, fun _ => 0)).1 = (b'.getD ix (0, fun _ => 0)).1 := by
    intro ix
    have e : ∀ c : List (ℕ × (ℕ → K)), (c.getD ix (0, fun _ => 0)).1 = (c.map (·.1)).getD ix 0 := by
      intro c
      simp only [List.getD_eq_getElem?_getD, List.getElem?_map]
      cases c[ix]? <;> simp
    rw [e, e, h]
  have key : ∀ (l : List ℕ) (s s' : K × ℕ), s.2 = s'.2 →
      (l.foldl (fun (st : K × ℕ) ix =>
        let z := digit orders inz ix
        let sb := b.getD ix (0, fun _ => 0)
        (st.1 * sb.2 z, st.2 + (z + sb.1) * tailProd ncps ix)) s).2 =
      (l.foldl (fun (st : K × ℕ) ix =>
        let z := digit orders inz ix
        let sb := b'.getD ix (0, fun _ => 0)
        (st.1 * sb.2 z, st.2 + (z + sb.1) * tailProd ncps ix)) s').2 := by
    intro l
    induction l with
    | nil => intro s s' h; exact h
    | cons a l ih => intro s s' h; exact ih _ _ (by simp only [h, hg])
  exact key _ _ _ rfl

theorem mode_comm (i1 i2 : ℤ) (ix : ℕ) : mode i1 i2 ix = mode i2 i1 ix := by
  unfold mode
  by_cases h1 : (ix : ℤ) = i1 <;> by_cases h2 : (ix : ℤ) = i2 <;> simp [h1, h2]

theorem bases_comm (i1 i2 : ℤ) : ∀ (axes : List (Rmtb.Axis K)) (ix : ℕ) (ts : List K),
    Rmtb.bases i1 i2 ix axes ts = Rmtb.bases i2 i1 ix axes ts := by
  intro axes
  induction axes with
  | nil => intro ix ts; rfl
  | cons a as ih => intro ix ts; simp only [Rmtb.bases, mode_comm i1 i2 ix, ih]

theorem rawB_comm (eps : K) (axes : List (Rmtb.Axis K)) (i j : ℕ) (x : List K) : rawB eps axes i j x = rawB eps axes j i x := by
  unfold rawB Rmtb.jacRaw Rmtb.jacRow
  rw [bases_comm]
  congr 1
  congr 1
  funext row
  congr 1
  funext e
  simp only [unscale_eq]
  rw [div_right_comm]

theorem param_clamp (eps : K) (h0 : 0 < eps) (h1 : eps ≤ 1 - eps) (a : Rmtb.Axis K) (ha : a.lo < a.hi) (x : K) :
    param eps a (min a.hi (max a.lo x)) = param eps a x := by
  have hd : 0 < a.hi - a.lo := by linarith
  unfold param
  rcases le_total x a.lo with h | h
  · rw [max_eq_left h, min_eq_right ha.le]
    have : (x - a.lo) / (a.hi - a.lo) ≤ 0 := div_nonpos_of_nonpos_of_nonneg (by linarith) hd.le
    rw [max_eq_right (by simp [h0.le]), max_eq_right (by linarith)]
  · rw [max_eq_right h]
    rcases le_total x a.hi with h' | h'
    · rw [min_eq_right h']
    · rw [min_eq_left h']
      have : 1 ≤ (x - a.lo) / (a.hi - a.lo) := by rw [le_div_iff₀ hd]; linarith
      rw [div_self hd.ne', min_eq_right (le_trans (by linarith) (le_max_left _ _)),
        min_eq_right (le_trans (by linarith) (le_max_left _ _))]

theorem rowsOkB (eps : K) (h0 : 0 < eps) (h1 : eps ≤ 1 - eps) (axes : List (Rmtb.Axis K)) (hv : Rmtb.Valid axes) :
    RowsOk (rawB eps axes) (limB axes) := by
  constructor
  · intro i j i' j' x _
    unfold rawB Rmtb.jacRaw Rmtb.jacRow
    have h := bases_fst ((i : ℤ) - 1) ((j : ℤ) - 1) ((i' : ℤ) - 1) ((j' : ℤ) - 1) axes 0 (List.zipWith (param eps) axes x)
    cases h5 : Rmtb.bases ((i : ℤ) - 1) ((j : ℤ) - 1) 0 axes (List.zipWith (param eps) axes x) <;>
      cases h6 : Rmtb.bases ((i' : ℤ) - 1) ((j' : ℤ) - 1) 0 axes (List.zipWith (param eps) axes x) <;>
        rw [h5, h6] at h <;> simp at h
    · simp
    · simp only [Option.map_some, Option.getD_some, List.map_map]
      refine List.map_congr_left fun q _ => ?_
      exact entry_snd _ _ _ _ h q
  · intro i j x hl
    unfold rawB Rmtb.jacRaw
    have : List.zipWith (param eps) axes x = List.zipWith (param eps) axes (clamp (limB axes) x) := by
      refine List.ext_getElem? fun k => ?_
      unfold clamp limB
      simp only [List.getElem?_zipWith, List.getElem?_map]
      cases ha : axes[k]? with
      | none => simp
      | some a =>
        cases hx : x[k]? with
        | none => simp
        | some xk => simp [param_clamp eps h0 h1 a (hv a (List.mem_of_getElem? ha)).2.2 xk]
    rw [this]

theorem rawB_predict (eps : K) (axes : List (Rmtb.Axis K)) (coeff : ℕ → K) (i j : ℕ) (x : List K) :
    dot (rawB eps axes i j x) coeff = (Rmtb.predict eps axes coeff i j x).getD 0 := by
  unfold rawB Rmtb.predict dot
  cases Rmtb.jacRaw eps axes i j x <;> simp

/-- **C28** RMTB: with extrapolation, the value anywhere is the spline's value at the nearest box point plus the
spline's gradient there times the displacement. -/
theorem C28_rmtb_value (eps : K) (h0 : 0 < eps) (h1 : eps ≤ 1 - eps) (axes : List (Rmtb.Axis K)) (hv : Rmtb.Valid axes)
    (coeff : ℕ → K) (x : List K) (hl : x.length = axes.length) :
    dot (predRow (rawB eps axes) (limB axes) true 0 x) coeff =
      (Rmtb.predict eps axes coeff 0 0 (clamp (limB axes) x)).getD 0 +
      ∑ j ∈ Finset.range axes.length, (x.getD j 0 - (clamp (limB axes) x).getD j 0) *
        (Rmtb.predict eps axes coeff 0 (j + 1) (clamp (limB axes) x)).getD 0 := by
  rw [C28_value_outside (rawB eps axes) (limB axes) (rowsOkB eps h0 h1 axes hv) coeff x (by simp [limB, hl])]
  simp only [rawB_predict, limB, List.length_map]

end rmtb

/-- **C28** RMTB: extrapolated derivatives are the derivatives of the extrapolated values, along every input outside
its limits and along every input inside whose parameter is not a knot (other inputs arbitrary, inside or outside). -/
theorem C28_rmtb_derivative (eps : ℝ) (h0 : 0 < eps) (h1 : eps ≤ 1 - eps) (axes : List (Rmtb.Axis ℝ)) (hv : Rmtb.Valid axes)
    (coeff : ℕ → ℝ) (k : ℕ) (a : Rmtb.Axis ℝ) (ha : axes[k]? = some a) (x : List ℝ) (hl : x.length = axes.length)
    (xk : ℝ) (hx : x[k]? = some xk)
    (hcase : xk < a.lo ∨ a.hi < xk ∨ (eps < (xk - a.lo) / (a.hi - a.lo) ∧ (xk - a.lo) / (a.hi - a.lo) < 1 - eps ∧
      ∀ p, (xk - a.lo) / (a.hi - a.lo) ≠ BSpline.knotU a.order a.ncp p)) :
    HasDerivAt (fun u => dot (predRow (rawB eps axes) (limB axes) true 0 (x.set k u)) coeff)
      (dot (predRow (rawB eps axes) (limB axes) true (k + 1) x) coeff) xk := by
  have hva := hv a (List.mem_of_getElem? ha)
  have hd : 0 < a.hi - a.lo := by linarith [hva.2.2]
  refine C28_derivative (rawB eps axes) (limB axes) (rowsOkB eps h0 h1 axes hv)
    (fun i j x => by rw [rawB_comm]) coeff k (a.lo, a.hi) (by simp [limB, ha]) hva.2.2 x (by simp [limB, hl]) xk hx ?_
  rcases hcase with h | h | ⟨h2, h3, h4⟩
  · exact Or.inl h
  · exact Or.inr (Or.inl h)
  · refine Or.inr (Or.inr ⟨?_, ?_, ?_⟩)
    · have := (lt_div_iff₀ hd).1 h2
      have := mul_pos h0 hd
      show a.lo < xk
      linarith
    · have := (div_lt_iff₀ hd).1 h3
      have := mul_pos h0 hd
      show xk < a.hi
      nlinarith
    · intro j _ _
      obtain ⟨d, e1, e2⟩ := Rmtb.C54_derivative eps h0 h1 axes hv coeff j k a ha x hl.symm xk hx h2 h3 h4
      simp only [rawB_predict]
      rw [e1]; exact e2

/-! ## RMTC -/
section rmtc
open SMT.Rmtc SMT.Index
variable {K : Type} [Field K] [LinearOrder K] [IsStrictOrderedRing K] [FloorRing K]

def rawC (axes : List (Rmtc.Axis K)) (i j : ℕ) (x : List K) : List (K × ℕ) := Rmtc.jacRow ((i : ℤ) - 1) ((j : ℤ) - 1) axes x

def limC (axes : List (Rmtc.Axis K)) : List (K × K) := axes.map fun a => (a.lo, a.hi)

theorem findInterval_clamp (a : Rmtc.Axis K) (ha : a.lo < a.hi) (hn : 1 ≤ a.nelem) (x : K) :
    findInterval a (min a.hi (max a.lo x)) = findInterval a x := by
  have F := fun x => C26_find_interval a hn ha x
  rcases le_total x a.lo with h | h
  · rw [max_eq_left h, min_eq_right ha.le, (F a.lo).2.1 le_rfl, (F x).2.1 h]
  · rw [max_eq_right h]
    rcases le_total x a.hi with h' | h'
    · rw [min_eq_right h']
    · rw [min_eq_left h', (F a.hi).2.2.1 le_rfl, (F x).2.2.1 h']

theorem jacStep_comm (i1 i2 : ℤ) (ix : ℕ) (xb d prod : K) (p : ℕ) : jacStep i1 i2 ix xb d prod p = jacStep i2 i1 ix xb d prod p := by
  unfold jacStep
  by_cases h1 : (ix : ℤ) = i1 <;> by_cases h2 : (ix : ℤ) = i2 <;> simp [h1, h2]

theorem jacLoop_comm (i1 i2 : ℤ) : ∀ (ix : ℕ) (axes : List (Rmtc.Axis K)) (xb : List K) (p : List ℕ) (prod : K),
    jacLoop i1 i2 ix axes xb p prod = jacLoop i2 i1 ix axes xb p prod := by
  intro ix axes
  induction axes generalizing ix with
  | nil => intro xb p prod; simp [jacLoop]
  | cons a as ih =>
    intro xb p prod
    cases xb with
    | nil => simp [jacLoop]
    | cons xb xbs =>
      cases p with
      | nil => simp [jacLoop]
      | cons p ps => simp only [jacLoop]; rw [jacStep_comm, ih]

theorem rawC_comm (axes : List (Rmtc.Axis K)) (i j : ℕ) (x : List K) : rawC axes i j x = rawC axes j i x := by
  unfold rawC Rmtc.jacRow
  simp only [jacLoop_comm ((i : ℤ) - 1)]

theorem rowsOkC (axes : List (Rmtc.Axis K)) (hv : Rmtc.Valid axes) : RowsOk (rawC axes) (limC axes) := by
  constructor
  · intro i j i' j' x _
    simp [rawC, Rmtc.jacRow, Function.comp_def]
  · intro i j x hl
    unfold rawC Rmtc.jacRow
    have : List.zipWith findInterval axes x = List.zipWith findInterval axes (clamp (limC axes) x) := by
      refine List.ext_getElem? fun k => ?_
      unfold clamp limC
      simp only [List.getElem?_zipWith, List.getElem?_map]
      cases ha : axes[k]? with
      | none => simp
      | some a =>
        have := hv a (List.mem_of_getElem? ha)
        cases hx : x[k]? with
        | none => simp
        | some xk => simp [findInterval_clamp a this.2 this.1 xk]
    simp only [this]

theorem rawC_predict (axes : List (Rmtc.Axis K)) (minv : ℕ → ℕ → K) (sol : ℕ → K) (i j : ℕ) (x : List K) :
    dot (rawC axes i j x) (coeffs (axes.map (·.nelem)) minv sol) = Rmtc.predict axes minv sol i j x := rfl

/-- **C28** RMTC: value outside the limits. -/
theorem C28_rmtc_value (axes : List (Rmtc.Axis K)) (hv : Rmtc.Valid axes) (minv : ℕ → ℕ → K) (sol : ℕ → K)
    (x : List K) (hl : x.length = axes.length) :
    dot (predRow (rawC axes) (limC axes) true 0 x) (coeffs (axes.map (·.nelem)) minv sol) =
      Rmtc.predict axes minv sol 0 0 (clamp (limC axes) x) +
      ∑ j ∈ Finset.range axes.length, (x.getD j 0 - (clamp (limC axes) x).getD j 0) *
        Rmtc.predict axes minv sol 0 (j + 1) (clamp (limC axes) x) := by
  rw [C28_value_outside (rawC axes) (limC axes) (rowsOkC axes hv) _ x (by simp [limC, hl])]
  simp only [rawC_predict, limC, List.length_map]

end rmtc

/-- **C28** RMTC: extrapolated derivatives are exact at every point none of whose coordinates `k` sits exactly on its
limit (no knot condition). -/
theorem C28_rmtc_derivative (axes : List (Rmtc.Axis ℝ)) (hv : Rmtc.Valid axes) (minv : ℕ → ℕ → ℝ)
    (hinv : ∀ i j, i < 4 ^ axes.length → j < 4 ^ axes.length →
      ∑ q ∈ Finset.range (4 ^ axes.length), Rmtc.coeff2nodal axes.length i q * minv q j = if i = j then 1 else 0)
    (sol : ℕ → ℝ) (k : ℕ) (a : Rmtc.Axis ℝ) (ha : axes[k]? = some a) (x : List ℝ) (hl : x.length = axes.length)
    (xk : ℝ) (hx : x[k]? = some xk) (hne1 : xk ≠ a.lo) (hne2 : xk ≠ a.hi) :
    HasDerivAt (fun u => dot (predRow (rawC axes) (limC axes) true 0 (x.set k u)) (Rmtc.coeffs (axes.map (·.nelem)) minv sol))
      (dot (predRow (rawC axes) (limC axes) true (k + 1) x) (Rmtc.coeffs (axes.map (·.nelem)) minv sol)) xk := by
  have hva := hv a (List.mem_of_getElem? ha)
  refine C28_derivative (rawC axes) (limC axes) (rowsOkC axes hv)
    (fun i j x => by rw [rawC_comm]) _ k (a.lo, a.hi) (by simp [limC, ha]) hva.2 x (by simp [limC, hl]) xk hx ?_
  rcases lt_trichotomy xk a.lo with h | h | h
  · exact Or.inl h
  · exact absurd h hne1
  · rcases lt_trichotomy xk a.hi with h' | h' | h'
    · refine Or.inr (Or.inr ⟨h, h', ?_⟩)
      intro j _ hj
      simp only [rawC_predict]
      exact Rmtc.C26_derivative axes hv minv hinv sol j k a ha x hl.symm xk hx h h' (fun e => absurd e hj)
    · exact absurd h' hne2
    · exact Or.inr (Or.inl h')

/-! ## Non-vacuity -/

/-- Two axes, the second coordinate outside: the prediction is not the clamped one. -/
example : let axes : List (Rmtb.Axis ℚ) := [⟨3, 4, 0, 2⟩, ⟨2, 2, -1, 1⟩]
    Rmtb.Valid axes ∧
    dot (predRow (rawB (1/1000) axes) (limB axes) true 0 [1, 3]) (fun q => (q : ℚ)) ≠
      dot (predRow (rawB (1/1000) axes) (limB axes) false 0 [1, 3]) (fun q => (q : ℚ)) := by
  refine ⟨?_, by decide +kernel⟩
  intro a ha
  simp at ha
  rcases ha with rfl | rfl <;> norm_num

example : Rmtc.Valid ([⟨2, 0, 1⟩, ⟨3, -1, 1⟩] : List (Rmtc.Axis ℝ)) ∧
    ∃ minv : ℕ → ℕ → ℝ, ∀ i j, i < 4 ^ 2 → j < 4 ^ 2 →
      ∑ q ∈ Finset.range (4 ^ 2), Rmtc.coeff2nodal 2 i q * minv q j = if i = j then 1 else 0 := by
  refine ⟨?_, ?_⟩
  · intro a ha
    simp at ha
    rcases ha with rfl | rfl <;> norm_num
  · refine ⟨Rmtc.kron Rmtc.W1 2, fun i j hi hj => ?_⟩
    simp only [Rmtc.coeff2nodal_eq, Rmtc.kron_mul]
    refine Rmtc.kron_delta _ ?_ 2 i j hi hj
    intro i j hi hj
    interval_cases i <;> interval_cases j <;>
      norm_num [Finset.sum_range_succ, Rmtc.W1, Rmtc.C1, Rmtc.c2nStep, Rmtc.derivL, Rmtc.xvalL]

end SMT.Rmts
