import Verif.Solvers.Props
import Mathlib.LinearAlgebra.Matrix.PosDef
import Mathlib.Topology.Algebra.Module.FiniteDimension
import Mathlib.Analysis.Normed.Module.FiniteDimension
import Mathlib.Analysis.SpecificLimits.Basic

set_option linter.unusedSectionVars false
set_option linter.unusedSimpArgs false
set_option linter.unusedVariables false

/-!
# C46: Gauss-Seidel converges on symmetric positive definite systems
-/
namespace SMT.Solvers
open Matrix Filter Topology

section order
variable {K : Type} [Field K] [LinearOrder K] [IsStrictOrderedRing K] {n : ℕ}

/-- **C46** Any number of Gauss-Seidel sweeps (`0 < damping < 2`) on a symmetric matrix with positive diagonal: the energy of the error never increases from one sweep to the next, and strictly
decreases as long as the system is not solved. -/
theorem C46_gs_sweeps_energy (A : Matrix (Fin n) (Fin n) K) (hs : ∀ i j, A i j = A j i) (hd : ∀ i, 0 < A i i) (w : K) (hw : 0 < w) (hw2 : w < 2)
    (b x y : Fin n → K) (hy : A *ᵥ y = b) (k : ℕ) :
    energy A (stationary "gs" A w (k + 1) b (some x) - y) ≤ energy A (stationary "gs" A w k b (some x) - y) ∧
    (A *ᵥ stationary "gs" A w k b (some x) ≠ b → energy A (stationary "gs" A w (k + 1) b (some x) - y) < energy A (stationary "gs" A w k b (some x) - y)) := by
  have e : stationary "gs" A w (k + 1) b (some x) = gs A w b (stationary "gs" A w k b (some x)) := by
    unfold stationary
    rw [Function.iterate_succ_apply', if_neg (by decide)]
  rw [e]
  exact (C46_gs_energy A hs hd w hw b _ y hy).2 hw2

end order

section real
variable {n : ℕ}

/-- A linear map that strictly lowers a positive definite energy is a contraction for it. -/
theorem energy_contraction (A : Matrix (Fin n) (Fin n) ℝ) (hpos : ∀ e, e ≠ 0 → 0 < energy A e) (E : (Fin n → ℝ) →ₗ[ℝ] (Fin n → ℝ))
    (hE : ∀ e, e ≠ 0 → energy A (E e) < energy A e) :
    ∃ q : ℝ, 0 ≤ q ∧ q < 1 ∧ ∀ e, energy A (E e) ≤ q * energy A e := by
  have hc : Continuous fun e : Fin n → ℝ => energy A e := by
    unfold energy
    exact Continuous.dotProduct continuous_id (Continuous.matrix_mulVec continuous_const continuous_id)
  have hEc : Continuous E := E.continuous_of_finiteDimensional
  have hhom : ∀ (t : ℝ) e, energy A (t • e) = t ^ 2 * energy A e := by
    intro t e
    unfold energy
    rw [mulVec_smul, dotProduct_smul, smul_dotProduct]; simp only [smul_eq_mul]; ring
  have h0 : energy A (0 : Fin n → ℝ) = 0 := by simp [energy]
  by_cases hne : (Metric.sphere (0 : Fin n → ℝ) 1).Nonempty
  · obtain ⟨z, hz, hmax⟩ := (isCompact_sphere (0 : Fin n → ℝ) 1).exists_isMaxOn hne
      (f := fun e => energy A (E e) / energy A e)
      (ContinuousOn.div (hc.comp hEc).continuousOn hc.continuousOn fun e he => (hpos e (by rintro rfl; simp at he)).ne')
    have hz0 : z ≠ 0 := by rintro rfl; simp at hz
    have hq0 : 0 ≤ energy A (E z) / energy A z := by
      refine div_nonneg ?_ (hpos z hz0).le
      by_cases h : E z = 0
      · rw [h, h0]
      · exact (hpos _ h).le
    refine ⟨_, hq0, (div_lt_one (hpos z hz0)).2 (hE z hz0), fun e => ?_⟩
    by_cases he : e = 0
    · subst he; simp [h0]
    · have hn : ‖e‖ ≠ 0 := norm_ne_zero_iff.2 he
      have hu : (‖e‖)⁻¹ • e ∈ Metric.sphere (0 : Fin n → ℝ) 1 := by
        rw [mem_sphere_zero_iff_norm, norm_smul, norm_inv, norm_norm, inv_mul_cancel₀ hn]
      have := hmax hu
      simp only [Set.mem_setOf_eq, map_smul, hhom] at this
      rw [mul_div_mul_left _ _ (by positivity), div_le_iff₀ (hpos e he)] at this
      exact this
  · refine ⟨0, le_rfl, one_pos, fun e => ?_⟩
    have he : e = 0 := by
      by_contra he
      apply hne
      refine ⟨(‖e‖)⁻¹ • e, ?_⟩
      rw [mem_sphere_zero_iff_norm, norm_smul, norm_inv, norm_norm, inv_mul_cancel₀ (norm_ne_zero_iff.2 he)]
    subst he; simp [h0]

/-- A sequence whose energies tend to 0 tends to 0. -/
theorem tendsto_of_energy (A : Matrix (Fin n) (Fin n) ℝ) (hpos : ∀ e, e ≠ 0 → 0 < energy A e) (u : ℕ → Fin n → ℝ)
    (hu : Tendsto (fun k => energy A (u k)) atTop (𝓝 0)) : Tendsto u atTop (𝓝 0) := by
  have hc : Continuous fun e : Fin n → ℝ => energy A e := by
    unfold energy
    exact Continuous.dotProduct continuous_id (Continuous.matrix_mulVec continuous_const continuous_id)
  have hhom : ∀ (t : ℝ) e, energy A (t • e) = t ^ 2 * energy A e := by
    intro t e
    unfold energy
    rw [mulVec_smul, dotProduct_smul, smul_dotProduct]; simp only [smul_eq_mul]; ring
  have h0 : energy A (0 : Fin n → ℝ) = 0 := by simp [energy]
  obtain ⟨c, hc0, hcb⟩ : ∃ c : ℝ, 0 < c ∧ ∀ e, c * ‖e‖ ^ 2 ≤ energy A e := by
    by_cases hne : (Metric.sphere (0 : Fin n → ℝ) 1).Nonempty
    · obtain ⟨z, hz, hmin⟩ := (isCompact_sphere (0 : Fin n → ℝ) 1).exists_isMinOn hne hc.continuousOn
      have hz0 : z ≠ 0 := by rintro rfl; simp at hz
      refine ⟨_, hpos z hz0, fun e => ?_⟩
      by_cases he : e = 0
      · subst he; simp [h0]
      · have hn : 0 < ‖e‖ := norm_pos_iff.2 he
        have hu : (‖e‖)⁻¹ • e ∈ Metric.sphere (0 : Fin n → ℝ) 1 := by
          rw [mem_sphere_zero_iff_norm, norm_smul, norm_inv, norm_norm, inv_mul_cancel₀ hn.ne']
        have := hmin hu
        simp only [Set.mem_setOf_eq, hhom] at this
        rw [inv_pow, inv_mul_eq_div, le_div_iff₀ (by positivity)] at this
        exact this
    · refine ⟨1, one_pos, fun e => ?_⟩
      have he : e = 0 := by
        by_contra he
        apply hne
        refine ⟨(‖e‖)⁻¹ • e, ?_⟩
        rw [mem_sphere_zero_iff_norm, norm_smul, norm_inv, norm_norm, inv_mul_cancel₀ (norm_ne_zero_iff.2 he)]
      subst he; simp [h0]
  have hsq : Tendsto (fun k => ‖u k‖ ^ 2) atTop (𝓝 0) := by
    refine squeeze_zero (fun k => by positivity) (fun k => ?_) (g := fun k => energy A (u k) / c) (by simpa using hu.div_const c)
    rw [le_div_iff₀ hc0, mul_comm]
    exact hcb _
  rw [tendsto_zero_iff_norm_tendsto_zero]
  have := hsq.sqrt
  simpa using this

/-- The error propagation of a Gauss-Seidel sweep. -/
noncomputable def gsLin (A : Matrix (Fin n) (Fin n) ℝ) (w : ℝ) (hw : w ≠ 0) (hd : ∀ i, A i i ≠ 0) : (Fin n → ℝ) →ₗ[ℝ] (Fin n → ℝ) :=
  LinearMap.id - (Matrix.mulVecLin ((ldw A w)⁻¹ * A))

theorem gs_affine (A : Matrix (Fin n) (Fin n) ℝ) (w : ℝ) (hw : w ≠ 0) (hd : ∀ i, A i i ≠ 0) (b x y : Fin n → ℝ) (hy : A *ᵥ y = b) :
    gs A w b x - y = gsLin A w hw hd (x - y) := by
  have hdl : ∀ i, ldw A w i i ≠ 0 := fun i => by rw [ldw_diag]; exact div_ne_zero (hd i) hw
  have e : gs A w b x = x + Common.fwd (ldw A w) (fun i => b i - (A *ᵥ x) i) := by funext i; simp [gs]
  have e2 : (fun i => b i - (A *ᵥ x) i) = -(A *ᵥ (x - y)) := by rw [mulVec_sub, hy]; funext i; simp
  rw [e, Common.fwd_eq_inv _ _ (ldw_lower A w) hdl, e2]
  simp only [gsLin, LinearMap.sub_apply, LinearMap.id_apply, mulVecLin_apply, mulVec_neg, mulVec_mulVec]
  abel

/-- **C46** Gauss-Seidel with any damping in `(0, 2)` on a symmetric positive definite system converges to the solution from any start, at least geometrically in the energy of the error. -/
theorem C46_gs_converges (A : Matrix (Fin n) (Fin n) ℝ) (hs : ∀ i j, A i j = A j i) (hpos : ∀ e, e ≠ 0 → 0 < e ⬝ᵥ (A *ᵥ e)) (w : ℝ) (hw : 0 < w) (hw2 : w < 2)
    (b y : Fin n → ℝ) (hy : A *ᵥ y = b) :
    (∃ q : ℝ, 0 ≤ q ∧ q < 1 ∧ ∀ x k, energy A (stationary "gs" A w k b (some x) - y) ≤ q ^ k * energy A (x - y)) ∧
    ∀ x, Tendsto (fun k => stationary "gs" A w k b x) atTop (𝓝 y) := by
  have hd : ∀ i, 0 < A i i := by
    intro i
    have := hpos (Pi.single i 1) (by intro h; have := congrFun h i; simp at this)
    simpa [mulVec_single] using this
  have hd' : ∀ i, A i i ≠ 0 := fun i => (hd i).ne'
  have hinj : ∀ z, A *ᵥ z = 0 → z = 0 := by
    intro z hz
    by_contra h
    have := hpos z h
    rw [hz] at this
    simp at this
  obtain ⟨q, q0, q1, hq⟩ := energy_contraction A hpos (gsLin A w hw.ne' hd') (by
    intro e he
    have h := (C46_gs_energy A hs hd w hw 0 e 0 (by simp)).2 hw2
    rw [gs_affine A w hw.ne' hd' 0 e 0 (by simp), sub_zero] at h
    exact h.2 fun hz => he (hinj e hz))
  have hstep : ∀ x k, energy A (stationary "gs" A w k b (some x) - y) ≤ q ^ k * energy A (x - y) := by
    intro x k
    induction k with
    | zero => simp [stationary]
    | succ k ih =>
      have e : stationary "gs" A w (k + 1) b (some x) = gs A w b (stationary "gs" A w k b (some x)) := by
        unfold stationary
        rw [Function.iterate_succ_apply', if_neg (by decide)]
      rw [e, gs_affine A w hw.ne' hd' b _ y hy, pow_succ', mul_assoc]
      exact (hq _).trans (mul_le_mul_of_nonneg_left ih q0)
  refine ⟨⟨q, q0, q1, hstep⟩, fun x => ?_⟩
  have hx : ∃ x', ∀ k, stationary "gs" A w k b x = stationary "gs" A w k b (some x') := by
    cases x with
    | none => exact ⟨b, fun k => rfl⟩
    | some x => exact ⟨x, fun k => rfl⟩
  obtain ⟨x', hx'⟩ := hx
  simp only [hx']
  rw [← tendsto_sub_nhds_zero_iff]
  refine tendsto_of_energy A hpos _ (squeeze_zero (fun k => ?_) (hstep x') ?_)
  · by_cases h : stationary "gs" A w k b (some x') - y = 0
    · rw [h]; simp [energy]
    · exact (hpos _ h).le
  · simpa using (tendsto_pow_atTop_nhds_zero_of_lt_one q0 q1).mul_const (energy A (x' - y))

/-- The system of the other examples is symmetric and positive definite. -/
example : (∀ i j, exA i j = exA j i) ∧ ∀ e : Fin 2 → ℝ, e ≠ 0 → 0 < e ⬝ᵥ ((!![4, 1; 1, 3] : Matrix (Fin 2) (Fin 2) ℝ) *ᵥ e) := by
  refine ⟨fun i j => by fin_cases i <;> fin_cases j <;> rfl, fun e he => ?_⟩
  have h : e ⬝ᵥ ((!![4, 1; 1, 3] : Matrix (Fin 2) (Fin 2) ℝ) *ᵥ e) = 3 * e 0 ^ 2 + 2 * e 1 ^ 2 + (e 0 + e 1) ^ 2 := by
    simp [dotProduct, mulVec, Fin.sum_univ_two]; ring
  rw [h]
  by_cases h0 : e 0 = 0
  · by_cases h1 : e 1 = 0
    · exact absurd (funext fun i => by fin_cases i <;> simp [h0, h1]) he
    · positivity
  · positivity

end real
end SMT.Solvers
