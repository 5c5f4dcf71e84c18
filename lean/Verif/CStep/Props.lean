import Verif.CStep.Model
import Mathlib.Analysis.SpecialFunctions.Complex.Analytic
import Mathlib.Analysis.SpecialFunctions.Complex.LogDeriv
import Mathlib.Analysis.Complex.RealDeriv
import Mathlib.Analysis.SpecialFunctions.Trigonometric.Deriv
import Mathlib.Analysis.Analytic.Constructions
import Mathlib.Tactic.LinearCombination

/-!
# C62: complex-step derivatives of the test problems
-/
namespace SMT.CStep
open Expr Filter Topology
set_option linter.unusedSectionVars false
set_option linter.unusedSimpArgs false
set_option linter.unusedVariables false

variable {n : ℕ}

/-- The domain on which the formula is a smooth real function: denominators not zero, arguments of logarithms, roots and real powers positive. -/
def Good (x : Fin n → ℝ) : Expr n → Prop
  | .var _ => True
  | .const _ => True
  | .add a b => Good x a ∧ Good x b
  | .sub a b => Good x a ∧ Good x b
  | .mul a b => Good x a ∧ Good x b
  | .div a b => Good x a ∧ Good x b ∧ b.evalR x ≠ 0
  | .npow a _ => Good x a
  | .rpow a _ => Good x a ∧ 0 < a.evalR x
  | .log a => Good x a ∧ 0 < a.evalR x
  | .sqrt a => Good x a ∧ 0 < a.evalR x
  | .cos a => Good x a

section
variable (x : Fin n → ℝ) (k : Fin n)

/-- The expression along the line through `x` in direction `k`. -/
noncomputable def lineC (e : Expr n) (z : ℂ) : ℂ := e.evalC (Function.update (fun i => (x i : ℂ)) k z)
noncomputable def lineR (e : Expr n) (s : ℝ) : ℝ := e.evalR (Function.update x k s)

variable {x k}

lemma lineR_self (e : Expr n) : lineR x k e (x k) = e.evalR x := by unfold lineR; rw [Function.update_eq_self]

lemma evalC_ofReal {e : Expr n} (h : Good x e) : e.evalC (fun i => (x i : ℂ)) = (e.evalR x : ℂ) := by
  induction e with
  | var i => rfl
  | const c => rfl
  | add a b iha ihb => simp only [evalC, evalR, iha h.1, ihb h.2]; push_cast; rfl
  | sub a b iha ihb => simp only [evalC, evalR, iha h.1, ihb h.2]; push_cast; rfl
  | mul a b iha ihb => simp only [evalC, evalR, iha h.1, ihb h.2]; push_cast; rfl
  | div a b iha ihb => simp only [evalC, evalR, iha h.1, ihb h.2.1]; push_cast; rfl
  | npow a k iha => simp only [evalC, evalR, iha h]; push_cast; rfl
  | rpow a c iha => simp only [evalC, evalR, iha h.1]; rw [Complex.ofReal_cpow h.2.le]
  | log a iha => simp only [evalC, evalR, iha h.1]; rw [Complex.ofReal_log h.2.le]
  | sqrt a iha =>
    simp only [evalC, evalR, iha h.1]
    rw [Real.sqrt_eq_rpow, Complex.ofReal_cpow h.2.le]; push_cast; rfl
  | cos a iha => simp only [evalC, evalR, iha h]; push_cast; rfl

lemma lineC_self {e : Expr n} (h : Good x e) : lineC x k e (x k : ℂ) = (e.evalR x : ℂ) := by
  unfold lineC
  rw [← evalC_ofReal h]
  congr 1
  funext i
  by_cases hi : i = k
  · subst hi; simp
  · simp [hi]

lemma lineC_ofReal (e : Expr n) (s : ℝ) : lineC x k e (s : ℂ) = e.evalC (fun i => ((Function.update x k s i : ℝ) : ℂ)) := by
  unfold lineC
  congr 1
  funext i
  by_cases hi : i = k
  · subst hi; simp
  · simp [hi]

lemma slit_of_pos {r : ℝ} (h : 0 < r) : (r : ℂ) ∈ Complex.slitPlane := Complex.ofReal_mem_slitPlane.2 h

lemma analytic_line {e : Expr n} (h : Good x e) : AnalyticAt ℂ (lineC x k e) (x k : ℂ) := by
  induction e with
  | var i =>
    by_cases hi : i = k
    · subst hi
      have : lineC x i (.var i) = fun z => z := by funext z; simp [lineC, evalC]
      rw [this]; exact analyticAt_id
    · have : lineC x k (.var i) = fun z => (x i : ℂ) := by funext z; simp [lineC, evalC, hi]
      rw [this]; exact analyticAt_const
  | const c => exact analyticAt_const
  | add a b iha ihb => exact (iha h.1).add (ihb h.2)
  | sub a b iha ihb => exact (iha h.1).sub (ihb h.2)
  | mul a b iha ihb => exact (iha h.1).mul (ihb h.2)
  | div a b iha ihb => exact (iha h.1).div (ihb h.2.1) (by have := lineC_self (k := k) h.2.1; unfold lineC at this; rw [this]; exact_mod_cast h.2.2)
  | npow a j iha => exact (iha h).pow j
  | rpow a c iha => exact (iha h.1).cpow analyticAt_const (by rw [lineC_self h.1]; exact slit_of_pos h.2)
  | log a iha => exact (iha h.1).clog (by rw [lineC_self h.1]; exact slit_of_pos h.2)
  | sqrt a iha => exact (iha h.1).cpow analyticAt_const (by rw [lineC_self h.1]; exact slit_of_pos h.2)
  | cos a iha => exact AnalyticAt.comp Complex.analyticAt_cos (iha h)

lemma slit_near {e : Expr n} (h : Good x e) (hp : 0 < e.evalR x) : ∀ᶠ z in 𝓝 (x k : ℂ), lineC x k e z ∈ Complex.slitPlane := by
  refine (analytic_line h).continuousAt.eventually_mem (Complex.isOpen_slitPlane.mem_nhds ?_)
  rw [lineC_self h]; exact slit_of_pos hp

lemma arg_ne_pi {z : ℂ} (h : z ∈ Complex.slitPlane) : z.arg ≠ Real.pi := (Complex.mem_slitPlane_iff_arg.1 h).1

lemma cpow_conj_real {z : ℂ} (h : z ∈ Complex.slitPlane) (c : ℂ) (hc : starRingEnd ℂ c = c) : (starRingEnd ℂ z) ^ c = starRingEnd ℂ (z ^ c) := by
  rw [Complex.conj_cpow _ _ (arg_ne_pi h), hc]

lemma conj_line {e : Expr n} (h : Good x e) : ∀ᶠ z in 𝓝 (x k : ℂ), lineC x k e (starRingEnd ℂ z) = starRingEnd ℂ (lineC x k e z) := by
  induction e with
  | var i =>
    refine Eventually.of_forall fun z => ?_
    by_cases hi : i = k
    · subst hi; simp [lineC, evalC]
    · simp [lineC, evalC, hi]
  | const c => exact Eventually.of_forall fun z => by simp [lineC, evalC]
  | add a b iha ihb => filter_upwards [iha h.1, ihb h.2] with z h1 h2; unfold lineC at *; simp only [evalC, h1, h2, map_add]
  | sub a b iha ihb => filter_upwards [iha h.1, ihb h.2] with z h1 h2; unfold lineC at *; simp only [evalC, h1, h2, map_sub]
  | mul a b iha ihb => filter_upwards [iha h.1, ihb h.2] with z h1 h2; unfold lineC at *; simp only [evalC, h1, h2, map_mul]
  | div a b iha ihb => filter_upwards [iha h.1, ihb h.2.1] with z h1 h2; unfold lineC at *; simp only [evalC, h1, h2, map_div₀]
  | npow a j iha => filter_upwards [iha h] with z h1; unfold lineC at *; simp only [evalC, h1, map_pow]
  | rpow a c iha =>
    filter_upwards [iha h.1, slit_near h.1 h.2] with z h1 h2
    unfold lineC at *
    simp only [evalC, h1]
    exact cpow_conj_real h2 _ (Complex.conj_ofReal c)
  | log a iha =>
    filter_upwards [iha h.1, slit_near h.1 h.2] with z h1 h2
    unfold lineC at *
    simp only [evalC, h1]
    exact Complex.log_conj _ (arg_ne_pi h2)
  | sqrt a iha =>
    filter_upwards [iha h.1, slit_near h.1 h.2] with z h1 h2
    unfold lineC at *
    simp only [evalC, h1]
    exact cpow_conj_real h2 _ (by rw [map_div₀, map_one, map_ofNat])
  | cos a iha => filter_upwards [iha h] with z h1; unfold lineC at *; simp only [evalC, h1, Complex.cos_conj]

/-- Near a point of the domain the line stays in the domain and the real value is the complex one. -/
lemma real_near {e : Expr n} (h : Good x e) : ∀ᶠ s in 𝓝 (x k), Good (Function.update x k s) e ∧ lineC x k e (s : ℂ) = (lineR x k e s : ℂ) := by
  have key : ∀ e : Expr n, Good x e → (∀ᶠ s in 𝓝 (x k), Good (Function.update x k s) e) → ContinuousAt (fun s => lineR x k e s) (x k) := by
    intro e h hg
    have hc : ContinuousAt (fun s : ℝ => (lineC x k e (s : ℂ)).re) (x k) :=
      Complex.continuous_re.continuousAt.comp ((analytic_line h).continuousAt.comp (f := fun s : ℝ => (s : ℂ)) Complex.continuous_ofReal.continuousAt)
    refine hc.congr (hg.mono fun s hs => ?_)
    simp only [lineC_ofReal, evalC_ofReal hs, Complex.ofReal_re]; rfl
  have hg : ∀ᶠ s in 𝓝 (x k), Good (Function.update x k s) e := by
    induction e with
    | var i => exact Eventually.of_forall fun _ => trivial
    | const c => exact Eventually.of_forall fun _ => trivial
    | add a b iha ihb => filter_upwards [iha h.1, ihb h.2] with s h1 h2; exact ⟨h1, h2⟩
    | sub a b iha ihb => filter_upwards [iha h.1, ihb h.2] with s h1 h2; exact ⟨h1, h2⟩
    | mul a b iha ihb => filter_upwards [iha h.1, ihb h.2] with s h1 h2; exact ⟨h1, h2⟩
    | div a b iha ihb =>
      filter_upwards [iha h.1, ihb h.2.1, (key b h.2.1 (ihb h.2.1)).eventually_ne (by rw [lineR_self]; exact h.2.2)] with s h1 h2 h3
      exact ⟨h1, h2, h3⟩
    | npow a j iha => exact iha h
    | rpow a c iha =>
      filter_upwards [iha h.1, (key a h.1 (iha h.1)).eventually (lt_mem_nhds (a := 0) (by simp only [lineR_self]; exact h.2))] with s h1 h2
      exact ⟨h1, h2⟩
    | log a iha =>
      filter_upwards [iha h.1, (key a h.1 (iha h.1)).eventually (lt_mem_nhds (a := 0) (by simp only [lineR_self]; exact h.2))] with s h1 h2
      exact ⟨h1, h2⟩
    | sqrt a iha =>
      filter_upwards [iha h.1, (key a h.1 (iha h.1)).eventually (lt_mem_nhds (a := 0) (by simp only [lineR_self]; exact h.2))] with s h1 h2
      exact ⟨h1, h2⟩
    | cos a iha => exact iha h
  filter_upwards [hg] with s hs
  refine ⟨hs, ?_⟩
  rw [lineC_ofReal, evalC_ofReal hs]; rfl

/-- Symmetric difference quotients of an analytic function in any direction approximate the derivative to second order. -/
lemma symm_quot {F : ℂ → ℂ} {z0 : ℂ} (hF : AnalyticAt ℂ F z0) : ∃ c, ∀ᶠ w in 𝓝 (0 : ℂ), w ≠ 0 → ‖(F (z0 + w) - F (z0 - w)) / (2 * w) - deriv F z0‖ ≤ c * ‖w‖ ^ 2 := by
  obtain ⟨p, hp⟩ := hF
  have hO := hp.isBigO_sub_partialSum_pow 3
  obtain ⟨c, hc⟩ := hO.bound
  have hneg : ∀ᶠ w in 𝓝 (0 : ℂ), ‖F (z0 + -w) - p.partialSum 3 (-w)‖ ≤ c * ‖‖-w‖ ^ 3‖ := by
    have : Tendsto (fun w : ℂ => -w) (𝓝 0) (𝓝 0) := by simpa using (continuous_neg (G := ℂ)).tendsto 0
    exact this.eventually hc
  have hd : deriv F z0 = p.coeff 1 := hp.deriv
  refine ⟨|c|, ?_⟩
  filter_upwards [hc, hneg] with w h1 h2 hw
  have hps : ∀ w, p.partialSum 3 w = p.coeff 0 + p.coeff 1 * w + p.coeff 2 * w ^ 2 := by
    intro w
    simp only [FormalMultilinearSeries.partialSum, Finset.sum_range_succ, Finset.sum_range_zero, FormalMultilinearSeries.apply_eq_pow_smul_coeff, smul_eq_mul]
    ring
  rw [hps] at h1 h2
  have e : (F (z0 + w) - F (z0 - w)) / (2 * w) - deriv F z0 =
      ((F (z0 + w) - (p.coeff 0 + p.coeff 1 * w + p.coeff 2 * w ^ 2)) - (F (z0 + -w) - (p.coeff 0 + p.coeff 1 * -w + p.coeff 2 * (-w) ^ 2))) / (2 * w) := by
    rw [hd, ← sub_eq_add_neg]
    field_simp
    ring
  have hw' : 0 < ‖w‖ := norm_pos_iff.2 hw
  rw [e, norm_div, norm_mul, div_le_iff₀ (by simpa using hw)]
  have h3 := norm_sub_le (F (z0 + w) - (p.coeff 0 + p.coeff 1 * w + p.coeff 2 * w ^ 2)) (F (z0 + -w) - (p.coeff 0 + p.coeff 1 * -w + p.coeff 2 * (-w) ^ 2))
  simp only [norm_neg, norm_pow, norm_norm] at h1 h2
  have h4 : c * ‖w‖ ^ 3 ≤ |c| * ‖w‖ ^ 3 := mul_le_mul_of_nonneg_right (le_abs_self c) (by positivity)
  have h5 : ‖(2 : ℂ)‖ = 2 := by simp
  rw [h5]
  nlinarith

/-- **C62** For every expression, at every point of its domain and for every input: the value is differentiable, and the complex-step derivative and the central difference approximate the
derivative to second order in the step. -/
theorem C62_second_order (e : Expr n) (h : Good x e) (k : Fin n) :
    ∃ d, HasDerivAt (fun s => value e (Function.update x k s)) d (x k) ∧ ∃ c, ∀ᶠ s in 𝓝[≠] (0 : ℝ), |cstep e s x k - d| ≤ c * s ^ 2 ∧ |fd e s x k - d| ≤ c * s ^ 2 := by
  have hA := analytic_line (k := k) h
  obtain ⟨c, hc⟩ := symm_quot hA
  have hder := hA.differentiableAt.hasDerivAt
  have hreal := hder.real_of_complex
  have hv : HasDerivAt (fun s => value e (Function.update x k s)) (deriv (lineC x k e) (x k : ℂ)).re (x k) := by
    refine hreal.congr_of_eventuallyEq ((real_near h).mono fun s hs => ?_)
    simp only [hs.2, Complex.ofReal_re]; rfl
  set d := (deriv (lineC x k e) (x k : ℂ)).re with hd
  refine ⟨d, hv, c, ?_⟩
  have h0 : Tendsto (fun s : ℝ => (s : ℂ)) (𝓝 0) (𝓝 0) := by simpa using Complex.continuous_ofReal.tendsto 0
  have hI : Tendsto (fun s : ℝ => (⟨0, s⟩ : ℂ)) (𝓝 0) (𝓝 0) := by
    have : (fun s : ℝ => (⟨0, s⟩ : ℂ)) = fun s : ℝ => (s : ℂ) * Complex.I := by funext s; apply Complex.ext <;> simp
    rw [this]; simpa using h0.mul_const Complex.I
  have hconj : ∀ᶠ s : ℝ in 𝓝 0, lineC x k e (starRingEnd ℂ ((x k : ℂ) + ⟨0, s⟩)) = starRingEnd ℂ (lineC x k e ((x k : ℂ) + ⟨0, s⟩)) := by
    have : Tendsto (fun s : ℝ => (x k : ℂ) + ⟨0, s⟩) (𝓝 0) (𝓝 (x k : ℂ)) := by simpa using hI.const_add (x k : ℂ)
    exact this.eventually (conj_line h)
  have hp : ∀ᶠ s : ℝ in 𝓝 0, lineC x k e ((x k : ℂ) + (s : ℂ)) = (lineR x k e (x k + s) : ℂ) ∧ lineC x k e ((x k : ℂ) - (s : ℂ)) = (lineR x k e (x k - s) : ℂ) := by
    have t1 : Tendsto (fun s : ℝ => x k + s) (𝓝 0) (𝓝 (x k)) := by simpa using (tendsto_id (x := 𝓝 (0 : ℝ))).const_add (x k)
    have t2 : Tendsto (fun s : ℝ => x k - s) (𝓝 0) (𝓝 (x k)) := by simpa using (tendsto_id (x := 𝓝 (0 : ℝ))).const_sub (x k)
    filter_upwards [t1.eventually (real_near h), t2.eventually (real_near h)] with s h1 h2
    refine ⟨?_, ?_⟩
    · rw [← h1.2]; push_cast; rfl
    · rw [← h2.2]; push_cast; rfl
  rw [eventually_nhdsWithin_iff]
  filter_upwards [h0.eventually hc, hI.eventually hc, hconj, hp] with s b1 b2 b3 b4 hs
  have hs0 : s ≠ 0 := hs
  refine ⟨?_, ?_⟩
  · have hz : (⟨0, s⟩ : ℂ) ≠ 0 := fun h => hs0 (congrArg Complex.im h)
    have b := b2 hz
    have hm : (x k : ℂ) - ⟨0, s⟩ = starRingEnd ℂ ((x k : ℂ) + ⟨0, s⟩) := by apply Complex.ext <;> simp
    have hnorm : ‖(⟨0, s⟩ : ℂ)‖ ^ 2 = s ^ 2 := by rw [← Complex.normSq_eq_norm_sq]; simp [Complex.normSq_apply, sq]
    rw [hnorm, hm, b3] at b
    have hq : (lineC x k e ((x k : ℂ) + ⟨0, s⟩) - starRingEnd ℂ (lineC x k e ((x k : ℂ) + ⟨0, s⟩))) / (2 * ⟨0, s⟩) = ((cstep e s x k : ℝ) : ℂ) := by
      rw [div_eq_iff (mul_ne_zero two_ne_zero hz)]
      show _ = (((lineC x k e ((x k : ℂ) + ⟨0, s⟩)).im / s : ℝ) : ℂ) * _
      apply Complex.ext
      · simp
      · simp; field_simp; ring
    rw [hq] at b
    refine le_trans ?_ b
    have := Complex.abs_re_le_norm ((cstep e s x k : ℂ) - deriv (lineC x k e) (x k : ℂ))
    simpa using this
  · have hz : (s : ℂ) ≠ 0 := by exact_mod_cast hs0
    have b := b1 hz
    rw [b4.1, b4.2] at b
    have hq : ((lineR x k e (x k + s) : ℂ) - (lineR x k e (x k - s) : ℂ)) / (2 * (s : ℂ)) = ((fd e s x k : ℝ) : ℂ) := by
      unfold fd lineR; push_cast; rfl
    have hn : ‖(s : ℂ)‖ ^ 2 = s ^ 2 := by simp
    rw [hq, hn] at b
    refine le_trans ?_ b
    have := Complex.abs_re_le_norm ((fd e s x k : ℂ) - deriv (lineC x k e) (x k : ℂ))
    simpa using this

end

end SMT.CStep
