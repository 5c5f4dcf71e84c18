import Mathlib.MeasureTheory.Integral.Gamma
import Mathlib.Analysis.SpecialFunctions.Gamma.Basic
import Mathlib.Analysis.SpecialFunctions.Gaussian.GaussianIntegral
import Mathlib.Algebra.BigOperators.Fin
import Mathlib.Tactic.Linarith
import Mathlib.Tactic.Positivity

/-!
# The exponential and Matérn kernels are positive semi-definite (mathematical fact used by the Kriging theorems)

Each one-dimensional kernel is the Gram matrix of functions `(t - x)₊ᵏ exp(-(t - x))` on the line; products over the components stay positive semi-definite.
-/
namespace SMT.Common
open MeasureTheory Set

/-- A positive semi-definite table. -/
def Psd {n : ℕ} (K : Fin n → Fin n → ℝ) : Prop := ∀ c : Fin n → ℝ, 0 ≤ ∑ i, ∑ j, c i * c j * K i j

theorem Psd.one {n : ℕ} : Psd (fun _ _ : Fin n => (1 : ℝ)) := by
  intro c
  have : ∑ i, ∑ j, c i * c j * (1 : ℝ) = (∑ i, c i) ^ 2 := by rw [sq, Finset.sum_mul_sum]; simp
  rw [this]; positivity

/-- Multiplying by a Gram table keeps a table positive semi-definite. -/
theorem Psd.mul_gram {n : ℕ} {K : Fin n → Fin n → ℝ} (hK : Psd K) (φ : Fin n → ℝ → ℝ) (hφ : ∀ i j, Integrable fun t => φ i t * φ j t) :
    Psd fun i j => K i j * ∫ t, φ i t * φ j t := by
  intro c
  have e : ∑ i, ∑ j, c i * c j * (K i j * ∫ t, φ i t * φ j t) = ∫ t, ∑ i, ∑ j, (c i * φ i t) * (c j * φ j t) * K i j := by
    rw [integral_finsetSum _ fun i _ => ?_]
    · refine Finset.sum_congr rfl fun i _ => ?_
      rw [integral_finsetSum _ fun j _ => ?_]
      · refine Finset.sum_congr rfl fun j _ => ?_
        rw [← mul_assoc, ← integral_const_mul]
        exact integral_congr_ae (Filter.Eventually.of_forall fun t => by ring)
      · exact ((hφ i j).const_mul (c i * c j * K i j)).congr (Filter.Eventually.of_forall fun t => by ring)
    · exact integrable_finsetSum _ fun j _ => ((hφ i j).const_mul (c i * c j * K i j)).congr (Filter.Eventually.of_forall fun t => by ring)
  rw [e]
  exact integral_nonneg fun t => hK fun i => c i * φ i t

/-- One-sided exponential feature of order `k` at `x`. -/
noncomputable def feat (k : ℕ) (x t : ℝ) : ℝ := (Ioi x).indicator (fun t => (t - x) ^ k * Real.exp (-(t - x))) t

theorem pow_exp_integrable (m : ℕ) : IntegrableOn (fun s : ℝ => s ^ m * Real.exp (-(2 * s))) (Ioi 0) := by
  have := integrableOn_rpow_mul_exp_neg_mul_rpow (p := 1) (s := m) (b := 2) (by have : (0 : ℝ) ≤ m := Nat.cast_nonneg m; linarith) one_pos two_pos
  refine this.congr_fun (fun s _ => ?_) measurableSet_Ioi
  simp

theorem pow_exp_integral (m : ℕ) : ∫ s in Ioi (0 : ℝ), s ^ m * Real.exp (-(2 * s)) = m.factorial / 2 ^ (m + 1) := by
  have := Real.integral_rpow_mul_exp_neg_mul_Ioi (a := m + 1) (r := 2) (by positivity) two_pos
  rw [Real.Gamma_nat_eq_factorial] at this
  rw [div_eq_inv_mul, ← one_div, ← one_div_pow, ← Real.rpow_natCast (1 / 2), Nat.cast_add, Nat.cast_one, ← this]
  refine setIntegral_congr_fun measurableSet_Ioi fun s _ => ?_
  simp

theorem feat_mul (k : ℕ) {x y : ℝ} (h : x ≤ y) (t : ℝ) :
    feat k x t * feat k y t = (Ioi (0 : ℝ)).indicator (fun s => Real.exp (-(y - x)) * ((s + (y - x)) ^ k * s ^ k * Real.exp (-(2 * s)))) (t - y) := by
  unfold feat
  by_cases ht : y < t
  · rw [indicator_of_mem (show t ∈ Ioi x from lt_of_le_of_lt h ht), indicator_of_mem (show t ∈ Ioi y from ht), indicator_of_mem (show t - y ∈ Ioi (0 : ℝ) from sub_pos.2 ht)]
    have : Real.exp (-(t - x)) * Real.exp (-(t - y)) = Real.exp (-(y - x)) * Real.exp (-(2 * (t - y))) := by
      rw [← Real.exp_add, ← Real.exp_add]; congr 1; ring
    have e : t - y + (y - x) = t - x := by ring
    rw [e]
    linear_combination ((t - x) ^ k * (t - y) ^ k) * this
  · rw [indicator_of_notMem (show t ∉ Ioi y from ht), mul_zero, indicator_of_notMem]
    exact fun hh => ht (sub_pos.1 hh)

theorem shifted_integrable (k : ℕ) (d : ℝ) : IntegrableOn (fun s : ℝ => (s + d) ^ k * s ^ k * Real.exp (-(2 * s))) (Ioi 0) := by
  have : (fun s : ℝ => (s + d) ^ k * s ^ k * Real.exp (-(2 * s))) = fun s => ∑ m ∈ Finset.range (k + 1), (d ^ (k - m) * (k.choose m : ℝ)) * (s ^ (m + k) * Real.exp (-(2 * s))) := by
    funext s
    rw [add_pow, Finset.sum_mul, Finset.sum_mul]
    exact Finset.sum_congr rfl fun m _ => by rw [pow_add]; ring
  rw [this]
  exact integrable_finsetSum _ fun m _ => (pow_exp_integrable (m + k)).const_mul _

theorem shifted_integral (k : ℕ) (d : ℝ) : ∫ s in Ioi (0 : ℝ), (s + d) ^ k * s ^ k * Real.exp (-(2 * s)) =
    ∑ m ∈ Finset.range (k + 1), (d ^ (k - m) * (k.choose m : ℝ)) * ((m + k).factorial / 2 ^ (m + k + 1)) := by
  have : (fun s : ℝ => (s + d) ^ k * s ^ k * Real.exp (-(2 * s))) = fun s => ∑ m ∈ Finset.range (k + 1), (d ^ (k - m) * (k.choose m : ℝ)) * (s ^ (m + k) * Real.exp (-(2 * s))) := by
    funext s
    rw [add_pow, Finset.sum_mul, Finset.sum_mul]
    exact Finset.sum_congr rfl fun m _ => by rw [pow_add]; ring
  rw [this, integral_finsetSum _ fun m _ => (pow_exp_integrable (m + k)).const_mul _]
  exact Finset.sum_congr rfl fun m _ => by rw [integral_const_mul, pow_exp_integral]

theorem feat_integrable (k : ℕ) (x y : ℝ) : Integrable fun t => feat k x t * feat k y t := by
  have main : ∀ x y : ℝ, x ≤ y → Integrable fun t => feat k x t * feat k y t := fun x y h => by
    simp only [feat_mul k h]
    have := (integrable_indicator_iff measurableSet_Ioi).2 ((shifted_integrable k (y - x)).const_mul (Real.exp (-(y - x))))
    exact this.comp_sub_right y
  rcases le_total x y with h | h
  · exact main x y h
  · exact (main y x h).congr (Filter.Eventually.of_forall fun t => mul_comm _ _)

theorem feat_integral (k : ℕ) (x y : ℝ) : ∫ t, feat k x t * feat k y t =
    Real.exp (-|x - y|) * ∑ m ∈ Finset.range (k + 1), (|x - y| ^ (k - m) * (k.choose m : ℝ)) * ((m + k).factorial / 2 ^ (m + k + 1)) := by
  have main : ∀ x y : ℝ, x ≤ y → ∫ t, feat k x t * feat k y t =
      Real.exp (-(y - x)) * ∑ m ∈ Finset.range (k + 1), ((y - x) ^ (k - m) * (k.choose m : ℝ)) * ((m + k).factorial / 2 ^ (m + k + 1)) := fun x y h => by
    simp only [feat_mul k h]
    rw [integral_sub_right_eq_self (fun t => (Ioi (0 : ℝ)).indicator (fun s => Real.exp (-(y - x)) * ((s + (y - x)) ^ k * s ^ k * Real.exp (-(2 * s)))) t) y,
      integral_indicator measurableSet_Ioi, integral_const_mul, shifted_integral]
  rcases le_total x y with h | h
  · rw [main x y h, abs_sub_comm, abs_of_nonneg (sub_nonneg.2 h)]
  · rw [show (fun t => feat k x t * feat k y t) = fun t => feat k y t * feat k x t from funext fun t => mul_comm _ _, main y x h, abs_of_nonneg (sub_nonneg.2 h)]

theorem exp_gram (x y : ℝ) : Real.exp (-|x - y|) = 2 * ∫ t, feat 0 x t * feat 0 y t := by
  rw [feat_integral]; simp; ring

theorem m32_gram (x y : ℝ) : (1 + |x - y|) * Real.exp (-|x - y|) = 4 * ∫ t, feat 1 x t * feat 1 y t := by
  rw [feat_integral]; simp [Finset.sum_range_succ, Nat.factorial]; ring

theorem m52_gram (x y : ℝ) : (1 + |x - y| + |x - y| ^ 2 / 3) * Real.exp (-|x - y|) = 4 / 3 * ∫ t, feat 2 x t * feat 2 y t := by
  rw [feat_integral]; simp [Finset.sum_range_succ, Nat.factorial]; ring

/-- Product over the components of a one-dimensional kernel that is a positive multiple of a Gram table. -/
theorem psd_prod {n d : ℕ} (κ : ℝ → ℝ → ℝ) (a : ℝ) (ha : 0 ≤ a) (k : ℕ) (hκ : ∀ x y, κ x y = a * ∫ t, feat k x t * feat k y t) (s : Fin n → Fin d → ℝ) (T : Finset (Fin d)) :
    Psd fun i j => ∏ l ∈ T, κ (s i l) (s j l) := by
  classical
  induction T using Finset.induction_on with
  | empty => simpa using Psd.one
  | insert l T hl ih =>
    intro c
    have := ih.mul_gram (fun i => feat k (s i l)) (fun i j => feat_integrable k _ _) c
    have h2 := mul_nonneg ha this
    refine h2.trans_eq ?_
    rw [Finset.mul_sum]
    refine Finset.sum_congr rfl fun i _ => ?_
    rw [Finset.mul_sum]
    refine Finset.sum_congr rfl fun j _ => ?_
    simp only [Finset.prod_insert hl, hκ]; ring

/-! ### Strict positive definiteness for distinct points -/

/-- Features at distinct points are linearly independent: if a combination vanishes almost everywhere, the weights at each location sum to zero. -/
theorem feat_indep {n : ℕ} (k : ℕ) (x a : Fin n → ℝ) (h : ∀ᵐ t, ∑ i, a i * feat k (x i) t = 0) (v : ℝ) : ∑ i with x i = v, a i = 0 := by
  classical
  have hdense := Measure.dense_of_ae h
  suffices ∀ N : ℕ, ∀ v, (Finset.univ.filter fun i => x i < v).card = N → ∑ i with x i = v, a i = 0 from this _ v rfl
  intro N
  induction N using Nat.strong_induction_on with
  | _ N ih =>
    intro v hN
    -- a point just above `v` where the combination vanishes
    obtain ⟨w, hvw, hw⟩ : ∃ w, v < w ∧ ∀ i, v < x i → w ≤ x i := by
      by_cases hne : (Finset.univ.filter fun i => v < x i).Nonempty
      · refine ⟨((Finset.univ.filter fun i => v < x i).image x).min' (hne.image x), ?_, fun i hi => ?_⟩
        · obtain ⟨i, hi, he⟩ := Finset.mem_image.1 (Finset.min'_mem _ (hne.image x))
          rw [← he]; exact (Finset.mem_filter.1 hi).2
        · exact Finset.min'_le _ _ (Finset.mem_image.2 ⟨i, by simp [hi], rfl⟩)
      · refine ⟨v + 1, by linarith, fun i hi => absurd ⟨i, by simp [hi]⟩ hne⟩
    obtain ⟨t, htI, ht⟩ := hdense.inter_open_nonempty (Ioo v w) isOpen_Ioo (nonempty_Ioo.2 hvw)
    have ht0 : ∑ i, a i * feat k (x i) t = 0 := ht
    -- contributions of the locations below `v` vanish
    have hlow : ∑ i with x i < v, a i * feat k (x i) t = 0 := by
      have hmaps : ∀ i ∈ Finset.univ.filter (fun i => x i < v), x i ∈ (Finset.univ.filter fun i => x i < v).image x := fun i hi => Finset.mem_image_of_mem x hi
      rw [← Finset.sum_fiberwise_of_maps_to hmaps]
      refine Finset.sum_eq_zero fun u hu => ?_
      obtain ⟨i0, hi0, hxu⟩ := Finset.mem_image.1 hu
      have huv : u < v := by rw [← hxu]; exact (Finset.mem_filter.1 hi0).2
      have hcard : (Finset.univ.filter fun i => x i < u).card < N := by
        rw [← hN]
        refine Finset.card_lt_card ⟨fun i hi => ?_, fun hsub => ?_⟩
        · exact Finset.mem_filter.2 ⟨Finset.mem_univ i, (Finset.mem_filter.1 hi).2.trans huv⟩
        · have := (Finset.mem_filter.1 (hsub hi0)).2
          rw [hxu] at this; exact lt_irrefl _ this
      have hz := ih _ hcard u rfl
      have hset : (Finset.univ.filter fun i => x i < v).filter (fun i => x i = u) = Finset.univ.filter fun i => x i = u := by
        ext i
        simp only [Finset.mem_filter, Finset.mem_univ, true_and]
        exact ⟨fun h => h.2, fun h => ⟨h ▸ huv, h⟩⟩
      rw [hset]
      have : ∑ i with x i = u, a i * feat k (x i) t = (∑ i with x i = u, a i) * feat k u t := by
        rw [Finset.sum_mul]
        exact Finset.sum_congr rfl fun i hi => by rw [(Finset.mem_filter.1 hi).2]
      rw [this, hz, zero_mul]
    have hup : ∑ i with v < x i, a i * feat k (x i) t = 0 := Finset.sum_eq_zero fun i hi => by
      have : t ∉ Ioi (x i) := fun hh => absurd (hw i (Finset.mem_filter.1 hi).2) (not_le.2 (lt_trans hh htI.2))
      rw [feat, indicator_of_notMem this, mul_zero]
    have heq : ∑ i with x i = v, a i * feat k (x i) t = (∑ i with x i = v, a i) * feat k v t := by
      rw [Finset.sum_mul]
      exact Finset.sum_congr rfl fun i hi => by rw [(Finset.mem_filter.1 hi).2]
    have hsplit : ∑ i, a i * feat k (x i) t = ∑ i with x i < v, a i * feat k (x i) t + ∑ i with x i = v, a i * feat k (x i) t + ∑ i with v < x i, a i * feat k (x i) t := by
      simp only [Finset.sum_filter]
      rw [← Finset.sum_add_distrib, ← Finset.sum_add_distrib]
      refine Finset.sum_congr rfl fun i _ => ?_
      rcases lt_trichotomy (x i) v with h | h | h
      · simp [h, h.ne, not_lt.2 h.le]
      · simp [h]
      · simp [h, h.ne', not_lt.2 h.le]
    rw [hlow, hup, heq, zero_add, add_zero, ht0] at hsplit
    refine (mul_eq_zero.1 hsplit.symm).resolve_right ?_
    rw [feat, indicator_of_mem (show t ∈ Ioi v from htI.1)]
    have : 0 < t - v := sub_pos.2 htI.1
    positivity

/-- Zero quadratic form: the weights of the points that agree in all components of `T` sum to zero. -/
theorem prod_strict {n d : ℕ} (κ : ℝ → ℝ → ℝ) (a : ℝ) (ha : 0 < a) (k : ℕ) (hκ : ∀ x y, κ x y = a * ∫ t, feat k x t * feat k y t) (s : Fin n → Fin d → ℝ) (T : Finset (Fin d)) :
    ∀ c : Fin n → ℝ, ∑ i, ∑ j, c i * c j * ∏ l ∈ T, κ (s i l) (s j l) = 0 → ∀ i0, ∑ i with (∀ l ∈ T, s i l = s i0 l), c i = 0 := by
  classical
  induction T using Finset.induction_on with
  | empty =>
    intro c h i0
    have e : ∑ i, ∑ j, c i * c j * ∏ l ∈ (∅ : Finset (Fin d)), κ (s i l) (s j l) = (∑ i, c i) ^ 2 := by rw [sq, Finset.sum_mul_sum]; simp
    rw [e] at h
    simpa using h
  | insert l T hl ih =>
    intro c h i0
    have hint : ∀ i j, Integrable fun t => feat k (s i l) t * feat k (s j l) t := fun i j => feat_integrable k _ _
    have hQ : ∀ t, 0 ≤ ∑ i, ∑ j, (c i * feat k (s i l) t) * (c j * feat k (s j l) t) * ∏ l ∈ T, κ (s i l) (s j l) := fun t => psd_prod κ a ha.le k hκ s T _
    have hI : Integrable fun t => ∑ i, ∑ j, (c i * feat k (s i l) t) * (c j * feat k (s j l) t) * ∏ l ∈ T, κ (s i l) (s j l) :=
      integrable_finsetSum _ fun i _ => integrable_finsetSum _ fun j _ =>
        ((hint i j).const_mul (c i * c j * ∏ l ∈ T, κ (s i l) (s j l))).congr (Filter.Eventually.of_forall fun t => by ring)
    have e : ∑ i, ∑ j, c i * c j * ∏ l ∈ insert l T, κ (s i l) (s j l) = a * ∫ t, ∑ i, ∑ j, (c i * feat k (s i l) t) * (c j * feat k (s j l) t) * ∏ l ∈ T, κ (s i l) (s j l) := by
      rw [integral_finsetSum _ fun i _ => integrable_finsetSum _ fun j _ =>
        ((hint i j).const_mul (c i * c j * ∏ l ∈ T, κ (s i l) (s j l))).congr (Filter.Eventually.of_forall fun t => by ring), Finset.mul_sum]
      refine Finset.sum_congr rfl fun i _ => ?_
      rw [integral_finsetSum _ fun j _ =>
        ((hint i j).const_mul (c i * c j * ∏ l ∈ T, κ (s i l) (s j l))).congr (Filter.Eventually.of_forall fun t => by ring), Finset.mul_sum]
      refine Finset.sum_congr rfl fun j _ => ?_
      rw [Finset.prod_insert hl, hκ]
      have : ∫ t, (c i * feat k (s i l) t) * (c j * feat k (s j l) t) * ∏ l ∈ T, κ (s i l) (s j l) = (c i * c j * ∏ l ∈ T, κ (s i l) (s j l)) * ∫ t, feat k (s i l) t * feat k (s j l) t := by
        rw [← integral_const_mul]
        exact integral_congr_ae (Filter.Eventually.of_forall fun t => by ring)
      rw [this]; ring
    rw [e] at h
    have h0 := (mul_eq_zero.1 h).resolve_left ha.ne'
    have hae := (integral_eq_zero_iff_of_nonneg hQ hI).1 h0
    have hcls : ∀ᵐ t, ∑ i, (if ∀ l' ∈ T, s i l' = s i0 l' then c i else 0) * feat k (s i l) t = 0 := by
      filter_upwards [hae] with t ht
      have := ih _ ht i0
      rw [Finset.sum_filter] at this
      refine Eq.trans ?_ this
      refine Finset.sum_congr rfl fun i _ => ?_
      by_cases hT : ∀ l' ∈ T, s i l' = s i0 l'
      · rw [if_pos hT, if_pos hT]
      · rw [if_neg hT, if_neg hT, zero_mul]
    have hfin := feat_indep k (fun i => s i l) _ hcls (s i0 l)
    rw [Finset.sum_filter] at hfin ⊢
    refine Eq.trans ?_ hfin
    refine Finset.sum_congr rfl fun i _ => ?_
    by_cases hT : ∀ l' ∈ T, s i l' = s i0 l'
    · by_cases h1 : s i l = s i0 l
      · rw [if_pos ((Finset.forall_mem_insert l T fun l' => s i l' = s i0 l').2 ⟨h1, hT⟩), if_pos h1, if_pos hT]
      · rw [if_neg (fun hh => h1 ((Finset.forall_mem_insert l T fun l' => s i l' = s i0 l').1 hh).1), if_neg h1]
    · rw [if_neg (fun hh => hT ((Finset.forall_mem_insert l T fun l' => s i l' = s i0 l').1 hh).2), if_neg hT, ite_self]

/-- For distinct points the product kernel is positive definite. -/
theorem pd_prod {n d : ℕ} (κ : ℝ → ℝ → ℝ) (a : ℝ) (ha : 0 < a) (k : ℕ) (hκ : ∀ x y, κ x y = a * ∫ t, feat k x t * feat k y t) (s : Fin n → Fin d → ℝ) (hs : Function.Injective s)
    (c : Fin n → ℝ) (hc : c ≠ 0) : 0 < ∑ i, ∑ j, c i * c j * ∏ l, κ (s i l) (s j l) := by
  refine lt_of_le_of_ne (psd_prod κ a ha.le k hκ s Finset.univ c) fun h0 => hc (funext fun i0 => ?_)
  have := prod_strict κ a ha k hκ s Finset.univ c h0.symm i0
  have hset : (Finset.univ.filter fun i => ∀ l ∈ Finset.univ, s i l = s i0 l) = {i0} := by
    ext i
    simp only [Finset.mem_filter, Finset.mem_univ, true_and, Finset.mem_singleton, true_imp_iff]
    exact ⟨fun h => hs (funext h), fun h _ => by rw [h]⟩
  rw [hset, Finset.sum_singleton] at this
  exact this

end SMT.Common
