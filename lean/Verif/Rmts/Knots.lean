import Verif.Rmts.Instances
import Verif.Rmtb.Knots

/-!
# Property C28 for RMTB, knots included
-/
set_option linter.unusedSectionVars false
set_option linter.unusedSimpArgs false
set_option linter.unusedVariables false

namespace SMT.Rmts

/-- **C28** RMTB with a spline order of at least 3 along input `k`: the extrapolated derivative is the derivative of the extrapolated values at every point whose
`k`-th coordinate is outside its limits or has its parameter strictly inside the clamped range, knots included (other inputs arbitrary). -/
theorem C28_rmtb_derivative_everywhere (eps : ℝ) (h0 : 0 < eps) (h1 : eps ≤ 1 - eps) (axes : List (Rmtb.Axis ℝ)) (hv : Rmtb.Valid axes)
    (coeff : ℕ → ℝ) (k : ℕ) (a : Rmtb.Axis ℝ) (ha : axes[k]? = some a) (ho : 3 ≤ a.order) (x : List ℝ) (hl : x.length = axes.length)
    (xk : ℝ) (hx : x[k]? = some xk)
    (hcase : xk < a.lo ∨ a.hi < xk ∨ (eps < (xk - a.lo) / (a.hi - a.lo) ∧ (xk - a.lo) / (a.hi - a.lo) < 1 - eps)) :
    HasDerivAt (fun u => dot (predRow (rawB eps axes) (limB axes) true 0 (x.set k u)) coeff)
      (dot (predRow (rawB eps axes) (limB axes) true (k + 1) x) coeff) xk := by
  have hva := hv a (List.mem_of_getElem? ha)
  have hd : 0 < a.hi - a.lo := by linarith [hva.2.2]
  refine C28_derivative (rawB eps axes) (limB axes) (rowsOkB eps h0 h1 axes hv)
    (fun i j x => by rw [rawB_comm]) coeff k (a.lo, a.hi) (by simp [limB, ha]) hva.2.2 x (by simp [limB, hl]) xk hx ?_
  rcases hcase with h | h | ⟨h2, h3⟩
  · exact Or.inl h
  · exact Or.inr (Or.inl h)
  · refine Or.inr (Or.inr ⟨?_, ?_, ?_⟩)
    · have := (lt_div_iff₀ hd).1 h2
      have := mul_pos h0 hd
      show a.lo < xk
      linarith
    · have := (div_lt_iff₀ hd).1 h3
      have h5 : (1 - eps) * (a.hi - a.lo) = (a.hi - a.lo) - eps * (a.hi - a.lo) := by ring
      have := mul_pos h0 hd
      show xk < a.hi
      linarith
    · intro j _ hj
      obtain ⟨d, e1, e2⟩ := Rmtb.C54_derivative_everywhere eps h0 h1 axes hv coeff j k a ha (by rw [Rmtb.Smooth, if_neg hj]; exact ho) x hl.symm xk hx h2 h3
      simp only [rawB_predict]
      rw [e1]; exact e2

/-- A quadratic spline in two inputs: the first at a knot, the second outside its limits. -/
example (coeff : ℕ → ℝ) : HasDerivAt (fun u => dot (predRow (rawB (1 / 100) [⟨3, 5, 0, 3⟩, ⟨3, 4, 0, 1⟩]) (limB [⟨3, 5, 0, 3⟩, ⟨3, 4, 0, 1⟩]) true 0 [u, 2]) coeff)
    (dot (predRow (rawB (1 / 100 : ℝ) [⟨3, 5, 0, 3⟩, ⟨3, 4, 0, 1⟩]) (limB [⟨3, 5, 0, 3⟩, ⟨3, 4, 0, 1⟩]) true 1 [1, 2]) coeff) 1 := by
  refine C28_rmtb_derivative_everywhere (1 / 100) (by norm_num) (by norm_num) [⟨3, 5, 0, 3⟩, ⟨3, 4, 0, 1⟩] ?_ coeff 0 ⟨3, 5, 0, 3⟩ rfl (le_refl _) [1, 2] rfl 1 rfl
    (.inr (.inr ⟨by norm_num, by norm_num⟩))
  intro a ha
  rcases List.mem_cons.1 ha with rfl | ha
  · norm_num
  · rw [List.mem_singleton.1 ha]
    norm_num

end SMT.Rmts
