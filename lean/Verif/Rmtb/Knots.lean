import Verif.Rmtb.Props
import Verif.BSpline.Smooth

/-!
# Property C54 at the knots: exact derivatives everywhere inside the limits for splines of order at least 3, continuity for order at least 2
-/
set_option linter.unusedSectionVars false
set_option linter.unusedSimpArgs false
set_option linter.unusedVariables false

namespace SMT.Rmtb

open SMT.BSpline

/-- The order along the axis suffices for one derivative of the values (`j ≠ k + 1`), or for one of the derivative along the same axis (`j = k + 1`). -/
def Smooth (a : Axis ℝ) (j k : ℕ) : Prop := if j = k + 1 then 4 ≤ a.order else 3 ≤ a.order

theorem B_hasDerivAt (a : Axis ℝ) (hn : a.order ≤ a.ncp) (p : ℕ) (t : ℝ)
    (ht : t ∈ Set.Ico (knotU a.order a.ncp (p + 1)) (knotU a.order a.ncp (p + 2))) (m : ℕ) (hm : m ≤ 1) (ho : m + 3 ≤ a.order) (j : ℕ) :
    HasDerivAt (fun u => B m a j u) (B (m + 1) a j t) t := by
  have hk := knotU_mono (K := ℝ) a.order a.ncp hn
  interval_cases m
  · simp only [B, if_true, zero_add, one_ne_zero, if_false]
    obtain ⟨i, hi⟩ : ∃ i, a.order - 1 = i + 2 := ⟨a.order - 3, by omega⟩
    rw [hi]
    exact N_hasDerivAt _ hk p t ht i j
  · simp only [B, if_true, one_ne_zero, if_false]
    obtain ⟨i, hi⟩ : ∃ i, a.order - 1 = i + 3 := ⟨a.order - 4, by omega⟩
    rw [hi]
    exact D1_hasDerivAt _ hk p t ht i j

theorem spline_hasDerivAt : ∀ (axes : List (Axis ℝ)) (ts : List ℝ) (m : ℕ → ℕ) (c : ℕ → ℝ) (k : ℕ) (a : Axis ℝ)
    (t : ℝ), axes[k]? = some a → ts[k]? = some t → (∀ j, HasDerivAt (fun u => B (m k) a j u) (B (m k + 1) a j t) t) →
    HasDerivAt (fun u => spline m axes (ts.set k u) c) (spline (Function.update m k (m k + 1)) axes ts c) t := by
  intro axes
  induction axes with
  | nil => intro ts m c k a t ha; simp at ha
  | cons b bs ih =>
    intro ts m c k a t ha ht hB
    cases ts with
    | nil => simp at ht
    | cons t0 ts =>
      cases k with
      | zero =>
        simp only [List.getElem?_cons_zero, Option.some.injEq] at ha ht
        subst ha; subst ht
        have hm2 : (fun i => Function.update m 0 (m 0 + 1) (i + 1)) = fun i => m (i + 1) := by
          funext i; rw [Function.update_of_ne (by omega)]
        simp only [spline, List.set_cons_zero, List.headD_cons, List.tail_cons, Function.update_self, hm2]
        refine HasDerivAt.fun_sum fun j _ => ?_
        exact (hB j).mul_const _
      | succ k =>
        simp only [List.getElem?_cons_succ] at ha ht
        have hm2 : (fun i => Function.update m (k + 1) (m (k + 1) + 1) (i + 1)) =
            Function.update (fun i => m (i + 1)) k (m (k + 1) + 1) := by
          funext i
          by_cases hi : i = k
          · subst hi; simp
          · rw [Function.update_of_ne (by omega), Function.update_of_ne hi]
        have hm0 : Function.update m (k + 1) (m (k + 1) + 1) 0 = m 0 := Function.update_of_ne (by omega) _ _
        simp only [spline, List.set_cons_succ, List.headD_cons, List.tail_cons, hm2, hm0]
        refine HasDerivAt.fun_sum fun j _ => ?_
        exact (ih ts (fun i => m (i + 1)) _ k a t ha ht hB).const_mul _

/-- **C54** Knots included: along an input whose spline order is at least 3 the `(j, k + 1)` prediction is the partial derivative along coordinate `k` of the
`(j, 0)` prediction at every point whose `k`-th parameter is strictly inside the clamped range (order at least 4 for the second derivative along
the same coordinate). With `j = 0` this is `predict_derivatives` against `predict_values`. -/
theorem C54_derivative_everywhere (eps : ℝ) (h0 : 0 < eps) (h1 : eps ≤ 1 - eps) (axes : List (Axis ℝ)) (hv : Valid axes)
    (coeff : ℕ → ℝ) (j k : ℕ) (a : Axis ℝ) (ha : axes[k]? = some a) (hs : Smooth a j k) (x : List ℝ) (hl : axes.length = x.length)
    (xk : ℝ) (hx : x[k]? = some xk) (ht0 : eps < (xk - a.lo) / (a.hi - a.lo))
    (ht1 : (xk - a.lo) / (a.hi - a.lo) < 1 - eps) :
    ∃ d, predict eps axes coeff j (k + 1) x = some d ∧
      HasDerivAt (fun u => (predict eps axes coeff j 0 (x.set k u)).getD 0) d xk := by
  have hva := hv a (List.mem_of_getElem? ha)
  have hpar : ∀ u, eps ≤ tpar a u → tpar a u ≤ 1 - eps → param eps a u = tpar a u := by
    intro u b c
    unfold param
    rw [show (u - a.lo) / (a.hi - a.lo) = tpar a u from rfl, zero_add, max_eq_left b, min_eq_left c]
  have ht0' : eps < tpar a xk := ht0
  have ht1' : tpar a xk < 1 - eps := ht1
  have hgk : (List.zipWith (param eps) axes x)[k]? = some (tpar a xk) := by
    rw [List.getElem?_zipWith, ha, hx]; simp [hpar xk ht0'.le ht1'.le]
  refine ⟨_, C25_is_tensor_product_spline eps h0 h1 axes hv coeff j (k + 1) x hl, ?_⟩
  obtain ⟨mu1, mu2⟩ := mode_update j k
  have hord : mode ((j : ℤ) - 1) (-1) k + 3 ≤ a.order := by
    unfold Smooth at hs
    unfold mode
    by_cases h : j = k + 1
    · rw [if_pos h] at hs
      rw [if_neg (by omega), if_pos (by omega)]
      exact hs
    · rw [if_neg h] at hs
      rw [if_pos (by omega)]
      exact hs
  have ho3 : 3 ≤ a.order := by omega
  -- the span; its left knot is not the first
  obtain ⟨p, hp⟩ : ∃ p, tpar a xk ∈ Set.Ico (knotU a.order a.ncp (p + 1) : ℝ) (knotU a.order a.ncp (p + 2)) := by
    obtain ⟨s, -, -, h3, h4⟩ := C23_span_search a.order a.ncp hva.1 hva.2.1 (tpar a xk) (h0.trans ht0').le (by linarith)
    refine ⟨s + a.order - 2, ?_, ?_⟩
    · rw [show s + a.order - 2 + 1 = s + a.order - 1 by omega]; exact h3
    · rw [show s + a.order - 2 + 2 = s + a.order by omega]; exact h4
  have F := spline_hasDerivAt axes (List.zipWith (param eps) axes x) (mode ((j : ℤ) - 1) (-1)) coeff k a
    (tpar a xk) ha hgk (B_hasDerivAt a hva.2.1 p _ hp _ mu2 hord)
  rw [mu1] at F
  have hg : HasDerivAt (fun u => tpar a u) (1 / (a.hi - a.lo)) xk := ((hasDerivAt_id xk).sub_const a.lo).div_const _
  have hrk : rangeOf axes (k + 1) = a.hi - a.lo := by simp [rangeOf, ha]
  have hcomp := (HasDerivAt.comp xk F hg).div_const (rangeOf axes j)
  have hz0 : rangeOf axes 0 = 1 := by simp [rangeOf]
  refine (hcomp.congr_deriv ?_).congr_of_eventuallyEq ?_
  · rw [hrk]; ring
  · have c := (tpar_continuous a).continuousAt (x := xk)
    filter_upwards [c.preimage_mem_nhds (isOpen_Ioo.mem_nhds (show tpar a xk ∈ Set.Ioo eps (1 - eps) from ⟨ht0, ht1⟩))] with u hu
    beta_reduce
    rw [C25_is_tensor_product_spline eps h0 h1 axes hv coeff j 0 (x.set k u) (by simp [hl])]
    simp only [Option.getD_some, Function.comp, hz0, div_one, Nat.cast_zero, zero_sub]
    congr 2
    refine List.ext_getElem? fun i => ?_
    by_cases hi : i = k
    · subst hi
      have hlt : i < x.length := (List.getElem?_eq_some_iff.1 hx).1
      rw [List.getElem?_zipWith, ha, List.getElem?_set_self hlt, List.getElem?_set_self (by simp [hl, hlt])]
      simp [hpar u hu.1.le hu.2.le]
    · rw [List.getElem?_zipWith, List.getElem?_set_ne (by omega), List.getElem?_set_ne (by omega), List.getElem?_zipWith]

/-- A quadratic spline at one of its knots (`t = 1/3`). -/
example (coeff : ℕ → ℝ) : ∃ d, predict (1 / 100 : ℝ) [⟨3, 5, 0, 3⟩] coeff 0 1 [1] = some d ∧
    HasDerivAt (fun u => (predict (1 / 100 : ℝ) [⟨3, 5, 0, 3⟩] coeff 0 0 [u]).getD 0) d 1 := by
  refine C54_derivative_everywhere (1 / 100) (by norm_num) (by norm_num) [⟨3, 5, 0, 3⟩] ?_ coeff 0 0 ⟨3, 5, 0, 3⟩ rfl ?_ [1] rfl 1 rfl (by norm_num) (by norm_num)
  · intro a ha
    rw [List.mem_singleton.1 ha]
    norm_num
  · rw [Smooth, if_neg (by norm_num)]

example : (1 - 0) / (3 - 0) = (knotU 3 5 3 : ℚ) := by decide +kernel

theorem B_continuous (a : Axis ℝ) (hn : a.order ≤ a.ncp) (ho : 2 ≤ a.order) (j : ℕ) : Continuous fun u => B 0 a j u := by
  have hk := knotU_mono (K := ℝ) a.order a.ncp hn
  simp only [B, if_true]
  obtain ⟨i, hi⟩ : ∃ i, a.order - 1 = i + 1 := ⟨a.order - 2, by omega⟩
  rw [hi]
  exact N_continuous _ hk i j

theorem spline_continuous {τ : Type} [TopologicalSpace τ] : ∀ (axes : List (Axis ℝ)), (∀ a ∈ axes, a.order ≤ a.ncp ∧ 2 ≤ a.order) → ∀ (f : τ → List ℝ) (c : ℕ → ℝ),
    (∀ k, Continuous fun v => (f v).getD k 0) → Continuous fun v => spline (fun _ => 0) axes (f v) c := by
  intro axes
  induction axes with
  | nil => intro _ f c hf; simp only [spline]; exact continuous_const
  | cons a as ih =>
    intro h f c hf
    simp only [spline]
    refine continuous_finset_sum _ fun j _ => ?_
    have h1 : Continuous fun v => B 0 a j ((f v).headD 0) := by
      have h2 := hf 0
      have e : (fun v => (f v).headD 0) = fun v => (f v).getD 0 0 := by
        funext v
        cases f v <;> simp
      rw [← e] at h2
      exact (B_continuous a (h a (by simp)).1 (h a (by simp)).2 j).comp h2
    refine h1.mul (ih (fun a ha => h a (by simp [ha])) (fun v => (f v).tail) _ fun k => ?_)
    have e : (fun v => (f v).tail.getD k 0) = fun v => (f v).getD (k + 1) 0 := by
      funext v
      cases f v <;> simp
    rw [e]
    exact hf (k + 1)

/-- **C54** The predicted values are a continuous function of the point, on the whole space, if every spline order is at least 2. -/
theorem C54_continuous (eps : ℝ) (h0 : 0 < eps) (h1 : eps ≤ 1 - eps) (axes : List (Axis ℝ)) (hv : Valid axes) (ho : ∀ a ∈ axes, 2 ≤ a.order)
    (coeff : ℕ → ℝ) : Continuous fun x : Fin axes.length → ℝ => (predict eps axes coeff 0 0 (List.ofFn x)).getD 0 := by
  have e : (fun x : Fin axes.length → ℝ => (predict eps axes coeff 0 0 (List.ofFn x)).getD 0) =
      fun x => spline (fun _ => 0) axes (List.zipWith (param eps) axes (List.ofFn x)) coeff := by
    funext x
    rw [C25_is_tensor_product_spline eps h0 h1 axes hv coeff 0 0 _ (by simp)]
    have hm : mode (((0 : ℕ) : ℤ) - 1) (((0 : ℕ) : ℤ) - 1) = fun _ => 0 := by
      funext i
      simpa using mode_none i
    rw [hm]
    simp [rangeOf]
  rw [e]
  refine spline_continuous axes (fun a ha => ⟨(hv a ha).2.1, ho a ha⟩) _ coeff fun k => ?_
  by_cases hk : k < axes.length
  · have e2 : (fun x : Fin axes.length → ℝ => (List.zipWith (param eps) axes (List.ofFn x)).getD k 0) = fun x => param eps axes[k] (x ⟨k, hk⟩) := by
      funext x
      simp [List.getD_eq_getElem?_getD, List.getElem?_zipWith, hk]
    rw [e2]
    unfold param
    fun_prop
  · have e2 : (fun x : Fin axes.length → ℝ => (List.zipWith (param eps) axes (List.ofFn x)).getD k 0) = fun _ => 0 := by
      funext x
      rw [List.getD_eq_getElem?_getD, List.getElem?_eq_none (by simp; omega), Option.getD_none]
    rw [e2]
    exact continuous_const

/-- The order 2 is needed: with order 1 the prediction jumps at a knot. -/
example : (predict (1 / 100 : ℚ) [⟨1, 2, 0, 1⟩] (fun i => i) 0 0 [49 / 100], predict (1 / 100 : ℚ) [⟨1, 2, 0, 1⟩] (fun i => i) 0 0 [1 / 2]) = (some 0, some 1) := by
  decide +kernel

end SMT.Rmtb
