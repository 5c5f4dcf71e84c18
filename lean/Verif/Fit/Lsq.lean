import Mathlib.Algebra.Order.Field.Basic
import Mathlib.Algebra.Order.BigOperators.Ring.Finset
import Mathlib.Algebra.Module.Submodule.Defs
import Mathlib.Algebra.Module.Pi
import Mathlib.Tactic

/-!
# Least squares over a linear space of functions (specification used by C82-C84)

Nothing here refers to the code: `P` is any type of points, `S` any linear space of functions on it.
-/
namespace SMT.Fit
set_option linter.unusedSectionVars false
set_option linter.unusedSimpArgs false
set_option linter.unusedVariables false

variable {K P : Type} [Field K] [LinearOrder K] [IsStrictOrderedRing K] {n : ℕ}

/-- Sum of the squared residuals of `f` on the data. -/
def rss (xs : Fin n → P) (y : Fin n → K) (f : P → K) : K := ∑ t, (f (xs t) - y t) ^ 2

/-- `p` is a function of the space with the least sum of squared residuals. -/
def IsLsq (S : Submodule K (P → K)) (xs : Fin n → P) (y : Fin n → K) (p : P → K) : Prop := p ∈ S ∧ ∀ q ∈ S, rss xs y p ≤ rss xs y q

/-- The points determine the functions of the space. -/
def Unisolvent (S : Submodule K (P → K)) (xs : Fin n → P) : Prop := ∀ q ∈ S, (∀ t, q (xs t) = 0) → q = 0

variable {S : Submodule K (P → K)} {xs : Fin n → P} {y : Fin n → K} {p : P → K}

theorem rss_add (q : P → K) (c : K) : rss xs y (p + c • q) = rss xs y p + 2 * c * ∑ t, (p (xs t) - y t) * q (xs t) + c ^ 2 * ∑ t, q (xs t) ^ 2 := by
  unfold rss
  rw [Finset.mul_sum, Finset.mul_sum, ← Finset.sum_add_distrib, ← Finset.sum_add_distrib]
  refine Finset.sum_congr rfl fun t _ => ?_
  simp only [Pi.add_apply, Pi.smul_apply, smul_eq_mul]
  ring

/-- Least squares is orthogonality of the residuals to the space. -/
theorem isLsq_iff : IsLsq S xs y p ↔ p ∈ S ∧ ∀ q ∈ S, ∑ t, (p (xs t) - y t) * q (xs t) = 0 := by
  refine ⟨fun h => ⟨h.1, fun q hq => ?_⟩, fun h => ⟨h.1, fun q hq => ?_⟩⟩
  · set a := ∑ t, (p (xs t) - y t) * q (xs t) with ha
    set b := ∑ t, q (xs t) ^ 2 with hb
    by_cases hb0 : b = 0
    · have hz : ∀ t, q (xs t) = 0 := fun t => by
        have := (Finset.sum_eq_zero_iff_of_nonneg fun t _ => sq_nonneg (q (xs t))).1 hb0 t (Finset.mem_univ t)
        simpa using this
      simp [ha, hz]
    · have hbp : 0 < b := lt_of_le_of_ne (Finset.sum_nonneg fun t _ => sq_nonneg _) (Ne.symm hb0)
      have h1 := h.2 (p + (-a / b) • q) (S.add_mem h.1 (S.smul_mem _ hq))
      rw [rss_add, ← ha, ← hb] at h1
      have e : 2 * (-a / b) * a + (-a / b) ^ 2 * b = -(a ^ 2 / b) := by field_simp; ring
      have h2 : a ^ 2 / b ≤ 0 := by linarith
      have h3 : 0 ≤ a ^ 2 / b := div_nonneg (sq_nonneg _) hbp.le
      have h4 : a ^ 2 / b = 0 := le_antisymm h2 h3
      rcases div_eq_zero_iff.1 h4 with h5 | h5
      · simpa using h5
      · exact absurd h5 hb0
  · have e : q = p + (1 : K) • (q - p) := by simp
    rw [e, rss_add, h.2 _ (S.sub_mem hq h.1)]
    have : 0 ≤ ∑ t, (q - p) (xs t) ^ 2 := Finset.sum_nonneg fun t _ => sq_nonneg _
    linarith

theorem IsLsq.unique (hu : Unisolvent S xs) {p' : P → K} (h : IsLsq S xs y p) (h' : IsLsq S xs y p') : p' = p := by
  rw [isLsq_iff] at h h'
  have hd : p' - p ∈ S := S.sub_mem h'.1 h.1
  have e1 := h.2 _ hd
  have e2 := h'.2 _ hd
  have e3 : ∑ t, (p' - p) (xs t) ^ 2 = 0 := by
    have : ∑ t, (p' - p) (xs t) ^ 2 = ∑ t, (p' (xs t) - y t) * (p' - p) (xs t) - ∑ t, (p (xs t) - y t) * (p' - p) (xs t) := by
      rw [← Finset.sum_sub_distrib]
      refine Finset.sum_congr rfl fun t _ => ?_
      simp only [Pi.sub_apply]; ring
    rw [this, e1, e2, sub_zero]
  have := hu _ hd fun t => by
    have := (Finset.sum_eq_zero_iff_of_nonneg fun t _ => sq_nonneg ((p' - p) (xs t))).1 e3 t (Finset.mem_univ t)
    simpa using this
  exact sub_eq_zero.1 this

theorem IsLsq.comb {y' : Fin n → K} {p' : P → K} (a b : K) (h : IsLsq S xs y p) (h' : IsLsq S xs y' p') :
    IsLsq S xs (fun t => a * y t + b * y' t) (a • p + b • p') := by
  rw [isLsq_iff] at h h' ⊢
  refine ⟨S.add_mem (S.smul_mem _ h.1) (S.smul_mem _ h'.1), fun q hq => ?_⟩
  have e : ∑ t, ((a • p + b • p') (xs t) - (a * y t + b * y' t)) * q (xs t) = a * ∑ t, (p (xs t) - y t) * q (xs t) + b * ∑ t, (p' (xs t) - y' t) * q (xs t) := by
    rw [Finset.mul_sum, Finset.mul_sum, ← Finset.sum_add_distrib]
    refine Finset.sum_congr rfl fun t _ => ?_
    simp only [Pi.add_apply, Pi.smul_apply, smul_eq_mul]; ring
  rw [e, h.2 q hq, h'.2 q hq]; ring

theorem rss_perm (σ : Equiv.Perm (Fin n)) (f : P → K) : rss (fun t => xs (σ t)) (fun t => y (σ t)) f = rss xs y f :=
  Equiv.sum_comp σ fun t => (f (xs t) - y t) ^ 2

theorem IsLsq.perm (σ : Equiv.Perm (Fin n)) (h : IsLsq S xs y p) : IsLsq S (fun t => xs (σ t)) (fun t => y (σ t)) p :=
  ⟨h.1, fun q hq => by rw [rss_perm, rss_perm]; exact h.2 q hq⟩

/-- Change of coordinates: the fit to the moved points is the moved fit. -/
theorem IsLsq.change (φ : P ≃ P) (hφ : ∀ f ∈ S, (fun x => f (φ x)) ∈ S) {p' : P → K} (hp : (fun x => p' (φ x)) = p) (hp' : p' ∈ S)
    (h : IsLsq S xs y p) : IsLsq S (fun t => φ (xs t)) y p' := by
  refine ⟨hp', fun q hq => ?_⟩
  have e : ∀ f : P → K, rss (fun t => φ (xs t)) y f = rss xs y fun x => f (φ x) := fun f => rfl
  rw [e, e, hp]
  exact h.2 _ (hφ q hq)

theorem isLsq_reproduce {f : P → K} (hf : f ∈ S) : IsLsq S xs (fun t => f (xs t)) f := by
  refine ⟨hf, fun q _ => ?_⟩
  have : rss xs (fun t => f (xs t)) f = 0 := by simp [rss]
  rw [this]
  exact Finset.sum_nonneg fun t _ => sq_nonneg _

theorem Unisolvent.perm (σ : Equiv.Perm (Fin n)) (h : Unisolvent S xs) : Unisolvent S fun t => xs (σ t) := fun q hq hz =>
  h q hq fun t => by simpa using hz (σ.symm t)

end SMT.Fit
