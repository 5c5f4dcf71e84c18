import Mathlib.Analysis.SpecialFunctions.Exp
import Mathlib.Analysis.SpecialFunctions.Exponential
import Mathlib.Algebra.BigOperators.Fin
import Mathlib.Algebra.BigOperators.Field
import Mathlib.Tactic.Linarith
import Mathlib.Tactic.Positivity

/-!
# The Gaussian kernel is positive semi-definite (mathematical fact used by the RBF and Kriging theorems)
-/
namespace SMT.Common

/-- Powers of an inner product form a positive semi-definite kernel. -/
theorem inner_pow_psd {n d : ℕ} (s : Fin n → Fin d → ℝ) (p : ℕ) : ∀ c : Fin n → ℝ,
    0 ≤ ∑ i, ∑ j, c i * c j * (∑ k, s i k * s j k) ^ p := by
  induction p with
  | zero =>
    intro c
    have : ∑ i, ∑ j, c i * c j * (∑ k, s i k * s j k) ^ 0 = (∑ i, c i) ^ 2 := by
      rw [sq, Finset.sum_mul_sum]; simp
    rw [this]; positivity
  | succ p ih =>
    intro c
    have : ∑ i, ∑ j, c i * c j * (∑ k, s i k * s j k) ^ (p + 1) =
        ∑ k, ∑ i, ∑ j, (c i * s i k) * (c j * s j k) * (∑ k, s i k * s j k) ^ p := by
      rw [Finset.sum_comm]
      simp only [Finset.sum_comm (s := (Finset.univ : Finset (Fin d))) (t := (Finset.univ : Finset (Fin n)))]
      rw [Finset.sum_comm]
      refine Finset.sum_congr rfl fun i _ => Finset.sum_congr rfl fun j _ => ?_
      rw [pow_succ, Finset.mul_sum, Finset.mul_sum]
      refine Finset.sum_congr rfl fun k _ => ?_
      ring
    rw [this]
    exact Finset.sum_nonneg fun k _ => ih _

theorem exp_inner_psd {n d : ℕ} (s : Fin n → Fin d → ℝ) (c : Fin n → ℝ) :
    0 ≤ ∑ i, ∑ j, c i * c j * Real.exp (∑ k, s i k * s j k) := by
  have h : HasSum (fun p : ℕ => ∑ i, ∑ j, c i * c j * ((∑ k, s i k * s j k) ^ p / (p.factorial : ℝ)))
      (∑ i, ∑ j, c i * c j * Real.exp (∑ k, s i k * s j k)) := by
    refine hasSum_sum fun i _ => hasSum_sum fun j _ => ?_
    refine HasSum.mul_left _ ?_
    have := NormedSpace.expSeries_div_hasSum_exp (∑ k, s i k * s j k)
    rwa [← Real.exp_eq_exp_ℝ] at this
  refine h.nonneg fun p => ?_
  have : ∑ i, ∑ j, c i * c j * ((∑ k, s i k * s j k) ^ p / (p.factorial : ℝ)) =
      (∑ i, ∑ j, c i * c j * (∑ k, s i k * s j k) ^ p) / (p.factorial : ℝ) := by
    rw [Finset.sum_div]
    refine Finset.sum_congr rfl fun i _ => ?_
    rw [Finset.sum_div]
    refine Finset.sum_congr rfl fun j _ => ?_
    ring
  rw [this]
  exact div_nonneg (inner_pow_psd s p c) (by positivity)

/-- `∑ᵢⱼ cᵢ cⱼ exp(-∑ₖ θₖ (xᵢₖ - xⱼₖ)²) ≥ 0` for non-negative `θ`. -/
theorem gauss_psd {n d : ℕ} (x : Fin n → Fin d → ℝ) (θ : Fin d → ℝ) (hθ : ∀ k, 0 ≤ θ k) (c : Fin n → ℝ) :
    0 ≤ ∑ i, ∑ j, c i * c j * Real.exp (-∑ k, θ k * (x i k - x j k) ^ 2) := by
  have h := exp_inner_psd (fun i k => Real.sqrt (2 * θ k) * x i k) (fun i => c i * Real.exp (-∑ k, θ k * x i k ^ 2))
  refine h.trans_eq ?_
  refine Finset.sum_congr rfl fun i _ => Finset.sum_congr rfl fun j _ => ?_
  rw [show ∀ a b c d e : ℝ, a * b * (c * d) * e = a * c * (b * d * e) by intros; ring]
  congr 1
  rw [← Real.exp_add, ← Real.exp_add]
  congr 1
  rw [← Finset.sum_neg_distrib, ← Finset.sum_neg_distrib, ← Finset.sum_neg_distrib, ← Finset.sum_add_distrib, ← Finset.sum_add_distrib]
  refine Finset.sum_congr rfl fun k _ => ?_
  have : Real.sqrt (2 * θ k) * Real.sqrt (2 * θ k) = 2 * θ k := Real.mul_self_sqrt (by have := hθ k; linarith)
  have e : Real.sqrt (2 * θ k) * x i k * (Real.sqrt (2 * θ k) * x j k) = 2 * θ k * (x i k * x j k) := by
    linear_combination (x i k * x j k) * this
  rw [e]; ring

/-! ### Strict positive definiteness for distinct points -/

/-- All monomial moments of the weights `c` over the points `s` vanish. -/
def MomentsZero {n d : ℕ} (s : Fin n → Fin d → ℝ) (c : Fin n → ℝ) : Prop := ∀ ks : List (Fin d), ∑ i, c i * (ks.map (s i)).prod = 0

theorem inner_pow_succ {n d : ℕ} (s : Fin n → Fin d → ℝ) (p : ℕ) (c : Fin n → ℝ) :
    ∑ i, ∑ j, c i * c j * (∑ k, s i k * s j k) ^ (p + 1) = ∑ k, ∑ i, ∑ j, (c i * s i k) * (c j * s j k) * (∑ k, s i k * s j k) ^ p := by
  rw [Finset.sum_comm]
  simp only [Finset.sum_comm (s := (Finset.univ : Finset (Fin d))) (t := (Finset.univ : Finset (Fin n)))]
  rw [Finset.sum_comm]
  refine Finset.sum_congr rfl fun i _ => Finset.sum_congr rfl fun j _ => ?_
  rw [pow_succ, Finset.mul_sum, Finset.mul_sum]
  refine Finset.sum_congr rfl fun k _ => ?_
  ring

theorem moments_of_pow {n d : ℕ} (s : Fin n → Fin d → ℝ) (ks : List (Fin d)) : ∀ c : Fin n → ℝ, (∀ p : ℕ, ∑ i, ∑ j, c i * c j * (∑ k, s i k * s j k) ^ p = 0) →
    ∑ i, c i * (ks.map (s i)).prod = 0 := by
  induction ks with
  | nil =>
    intro c h
    have h0 := h 0
    have : ∑ i, ∑ j, c i * c j * (∑ k, s i k * s j k) ^ 0 = (∑ i, c i) ^ 2 := by
      rw [sq, Finset.sum_mul_sum]; simp
    rw [this] at h0
    simpa using h0
  | cons k ks ih =>
    intro c h
    have := ih (fun i => c i * s i k) (fun p => by
      have hp := h (p + 1)
      rw [inner_pow_succ] at hp
      exact (Finset.sum_eq_zero_iff_of_nonneg (fun k _ => inner_pow_psd s p fun i => c i * s i k)).1 hp k (Finset.mem_univ k))
    rw [← this]
    exact Finset.sum_congr rfl fun i _ => by simp only [List.map_cons, List.prod_cons]; ring

theorem MomentsZero.shift {n d : ℕ} {s : Fin n → Fin d → ℝ} {c : Fin n → ℝ} (h : MomentsZero s c) (k : Fin d) (a : ℝ) : MomentsZero s fun i => c i * (s i k - a) := by
  intro ks
  have h1 := h (k :: ks)
  have h2 := h ks
  have : ∑ i, c i * (s i k - a) * (ks.map (s i)).prod = ∑ i, c i * ((k :: ks).map (s i)).prod - a * ∑ i, c i * (ks.map (s i)).prod := by
    rw [Finset.mul_sum, ← Finset.sum_sub_distrib]
    exact Finset.sum_congr rfl fun i _ => by simp only [List.map_cons, List.prod_cons]; ring
  rw [this, h1, h2]; ring

theorem MomentsZero.prod {n d : ℕ} {s : Fin n → Fin d → ℝ} {c : Fin n → ℝ} (h : MomentsZero s c) (kk : Fin n → Fin d) (T : Finset (Fin n)) :
    MomentsZero s fun i => c i * ∏ j ∈ T, (s i (kk j) - s j (kk j)) := by
  classical
  induction T using Finset.induction_on with
  | empty => simpa using h
  | insert j T hj ih =>
    have := ih.shift (kk j) (s j (kk j))
    intro ks
    rw [← this ks]
    refine Finset.sum_congr rfl fun i _ => ?_
    simp only [Finset.prod_insert hj]; ring

theorem moments_zero_imp {n d : ℕ} {s : Fin n → Fin d → ℝ} (hs : Function.Injective s) {c : Fin n → ℝ} (h : MomentsZero s c) : c = 0 := by
  classical
  funext i0
  have hsep : ∀ j, j ≠ i0 → ∃ k, s i0 k ≠ s j k := fun j hj => by
    by_contra hc
    push Not at hc
    exact hj (hs (funext hc)).symm
  by_cases hd : Nonempty (Fin d)
  · obtain ⟨k0⟩ := hd
    let kk : Fin n → Fin d := fun j => if hj : j ≠ i0 then (hsep j hj).choose else k0
    have hkk : ∀ j ∈ Finset.univ.erase i0, s i0 (kk j) - s j (kk j) ≠ 0 := fun j hj => by
      have hj' : j ≠ i0 := (Finset.mem_erase.1 hj).1
      simp only [kk, dif_pos hj']
      exact sub_ne_zero.2 (hsep j hj').choose_spec
    have h1 := (h.prod kk (Finset.univ.erase i0)) []
    simp only [List.map_nil, List.prod_nil, mul_one] at h1
    rw [Finset.sum_eq_single i0] at h1
    · exact (mul_eq_zero.1 h1).resolve_right (Finset.prod_ne_zero_iff.2 hkk)
    · intro i _ hi
      rw [Finset.prod_eq_zero (Finset.mem_erase.2 ⟨hi, Finset.mem_univ i⟩) (sub_self _), mul_zero]
    · intro hc; exact absurd (Finset.mem_univ _) hc
  · have hall : ∀ j, j = i0 := fun j => by
      by_contra hj
      obtain ⟨k, -⟩ := hsep j hj
      exact hd ⟨k⟩
    have h1 := h []
    simp only [List.map_nil, List.prod_nil, mul_one] at h1
    rw [Finset.sum_eq_single i0 (fun i _ hi => absurd (hall i) hi) (fun hc => absurd (Finset.mem_univ _) hc)] at h1
    exact h1

theorem exp_inner_pd {n d : ℕ} (s : Fin n → Fin d → ℝ) (hs : Function.Injective s) (c : Fin n → ℝ) (hc : c ≠ 0) :
    0 < ∑ i, ∑ j, c i * c j * Real.exp (∑ k, s i k * s j k) := by
  refine lt_of_le_of_ne (exp_inner_psd s c) fun h0 => hc (moments_zero_imp hs fun ks => moments_of_pow s ks c fun p => ?_)
  have h : HasSum (fun p : ℕ => ∑ i, ∑ j, c i * c j * ((∑ k, s i k * s j k) ^ p / (p.factorial : ℝ)))
      (∑ i, ∑ j, c i * c j * Real.exp (∑ k, s i k * s j k)) := by
    refine hasSum_sum fun i _ => hasSum_sum fun j _ => ?_
    refine HasSum.mul_left _ ?_
    have := NormedSpace.expSeries_div_hasSum_exp (∑ k, s i k * s j k)
    rwa [← Real.exp_eq_exp_ℝ] at this
  have e : ∀ p : ℕ, ∑ i, ∑ j, c i * c j * ((∑ k, s i k * s j k) ^ p / (p.factorial : ℝ)) =
      (∑ i, ∑ j, c i * c j * (∑ k, s i k * s j k) ^ p) / (p.factorial : ℝ) := fun p => by
    rw [Finset.sum_div]
    refine Finset.sum_congr rfl fun i _ => ?_
    rw [Finset.sum_div]
    refine Finset.sum_congr rfl fun j _ => ?_
    ring
  rw [← h0] at h
  have hz := (hasSum_zero_iff_of_nonneg fun p => by rw [e p]; exact div_nonneg (inner_pow_psd s p c) (by positivity)).1 h
  have := congrFun hz p
  rw [Pi.zero_apply, e p, div_eq_zero_iff] at this
  exact this.resolve_right (by positivity)

/-- Strict positive definiteness of the Gaussian kernel: `∑ᵢⱼ cᵢ cⱼ exp(-∑ₖ θₖ (xᵢₖ - xⱼₖ)²) > 0` for positive `θ`, distinct points and weights not all zero. -/
theorem gauss_pd {n d : ℕ} (x : Fin n → Fin d → ℝ) (hx : Function.Injective x) (θ : Fin d → ℝ) (hθ : ∀ k, 0 < θ k) (c : Fin n → ℝ) (hc : c ≠ 0) :
    0 < ∑ i, ∑ j, c i * c j * Real.exp (-∑ k, θ k * (x i k - x j k) ^ 2) := by
  have hs : Function.Injective fun i k => Real.sqrt (2 * θ k) * x i k := fun i j hij => hx (funext fun k => by
    have := congrFun hij k
    exact mul_left_cancel₀ (Real.sqrt_pos.2 (by have := hθ k; linarith)).ne' this)
  have h := exp_inner_pd (fun i k => Real.sqrt (2 * θ k) * x i k) hs (fun i => c i * Real.exp (-∑ k, θ k * x i k ^ 2)) (fun h0 => hc (funext fun i => by
    have := congrFun h0 i
    exact (mul_eq_zero.1 this).resolve_right (Real.exp_pos _).ne'))
  refine h.trans_eq ?_
  refine Finset.sum_congr rfl fun i _ => Finset.sum_congr rfl fun j _ => ?_
  rw [show ∀ a b c d e : ℝ, a * b * (c * d) * e = a * c * (b * d * e) by intros; ring]
  congr 1
  rw [← Real.exp_add, ← Real.exp_add]
  congr 1
  rw [← Finset.sum_neg_distrib, ← Finset.sum_neg_distrib, ← Finset.sum_neg_distrib, ← Finset.sum_add_distrib, ← Finset.sum_add_distrib]
  refine Finset.sum_congr rfl fun k _ => ?_
  have : Real.sqrt (2 * θ k) * Real.sqrt (2 * θ k) = 2 * θ k := Real.mul_self_sqrt (by have := hθ k; linarith)
  have e : Real.sqrt (2 * θ k) * x i k * (Real.sqrt (2 * θ k) * x j k) = 2 * θ k * (x i k * x j k) := by
    linear_combination (x i k * x j k) * this
  rw [e]; ring

end SMT.Common
