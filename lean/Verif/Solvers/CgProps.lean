import Verif.Solvers.Cg
import Mathlib.Tactic
import Mathlib.LinearAlgebra.Dimension.Constructions
import Mathlib.LinearAlgebra.FiniteDimensional.Lemmas

/-!
# Conjugate gradients: conjugacy, Galerkin property, termination
-/
set_option linter.unusedSectionVars false
set_option linter.unusedSimpArgs false
set_option linter.unusedVariables false

namespace SMT.Solvers
open Matrix

variable {K : Type} [Field K] [LinearOrder K] [IsStrictOrderedRing K] {n : ℕ}

/-- Symmetric positive definite. -/
def Spd (A : Matrix (Fin n) (Fin n) K) : Prop := (∀ i j, A i j = A j i) ∧ ∀ d : Fin n → K, d ≠ 0 → 0 < d ⬝ᵥ (A *ᵥ d)

theorem Spd.comm {A : Matrix (Fin n) (Fin n) K} (h : Spd A) (u v : Fin n → K) : u ⬝ᵥ (A *ᵥ v) = v ⬝ᵥ (A *ᵥ u) := by
  simp only [dotProduct, mulVec, Finset.mul_sum]
  rw [Finset.sum_comm]
  refine Finset.sum_congr rfl fun i _ => Finset.sum_congr rfl fun j _ => ?_
  rw [h.1 j i]; ring

theorem spd_one : Spd (1 : Matrix (Fin n) (Fin n) K) := by
  refine ⟨fun i j => ?_, fun d hd => ?_⟩
  · by_cases h : i = j
    · rw [h]
    · rw [one_apply_ne h, one_apply_ne (Ne.symm h)]
  · rw [one_mulVec]
    obtain ⟨i, hi⟩ : ∃ i, d i ≠ 0 := by
      by_contra hc; push Not at hc; exact hd (funext hc)
    exact Finset.sum_pos' (fun i _ => mul_self_nonneg _) ⟨i, Finset.mem_univ _, mul_self_pos.2 hi⟩

theorem Spd.det {A : Matrix (Fin n) (Fin n) K} (h : Spd A) : IsUnit A.det := by
  by_contra hc
  rw [isUnit_iff_ne_zero, not_not] at hc
  obtain ⟨v, hv, h0⟩ := exists_mulVec_eq_zero_iff.2 hc
  have := h.2 v hv
  rw [h0, dotProduct_zero] at this
  exact lt_irrefl _ this

theorem Spd.mul_inv {A : Matrix (Fin n) (Fin n) K} (h : Spd A) (b : Fin n → K) : A *ᵥ (A⁻¹ *ᵥ b) = b := by
  rw [mulVec_mulVec, mul_nonsing_inv _ h.det, one_mulVec]

theorem Spd.inv {A : Matrix (Fin n) (Fin n) K} (h : Spd A) : Spd A⁻¹ := by
  have ht : Aᵀ = A := by ext i j; exact h.1 j i
  have hi : (A⁻¹)ᵀ = A⁻¹ := by rw [transpose_nonsing_inv, ht]
  refine ⟨fun i j => ?_, fun d hd => ?_⟩
  · conv_lhs => rw [← hi]
    rfl
  · have hne : A⁻¹ *ᵥ d ≠ 0 := by
      intro e
      apply hd
      have := h.mul_inv d
      rw [e, mulVec_zero] at this
      exact this.symm
    have := h.2 _ hne
    rw [h.mul_inv, dotProduct_comm] at this
    exact this

theorem Spd.inj {A : Matrix (Fin n) (Fin n) K} (h : Spd A) {x y : Fin n → K} (e : A *ᵥ x = A *ᵥ y) : x = y := by
  by_contra hc
  have := h.2 (x - y) (sub_ne_zero.2 hc)
  rw [mulVec_sub, e, sub_self, dotProduct_zero] at this
  exact lt_irrefl _ this

/-! ## The iterates -/

/-- The state after `k` iterations without stopping. -/
def iter (A M : Matrix (Fin n) (Fin n) K) (b x0 : Fin n → K) (k : ℕ) : CgSt K n := (cgStep A M)^[k] (cgStart A M b x0)

variable (A M : Matrix (Fin n) (Fin n) K) (b x0 : Fin n → K)

/-- `ρ_k`, `α_k`. -/
def rhoK (k : ℕ) : K := (iter A M b x0 k).r ⬝ᵥ (M *ᵥ (iter A M b x0 k).r)
def alphaK (k : ℕ) : K := rhoK A M b x0 k / ((iter A M b x0 k).p ⬝ᵥ (A *ᵥ (iter A M b x0 k).p))

theorem iter_zero : iter A M b x0 0 = cgStart A M b x0 := rfl

theorem iter_succ (k : ℕ) : iter A M b x0 (k + 1) = cgStep A M (iter A M b x0 k) := Function.iterate_succ_apply' _ _ _

theorem x_succ (k : ℕ) : (iter A M b x0 (k + 1)).x = (iter A M b x0 k).x + alphaK A M b x0 k • (iter A M b x0 k).p := by
  rw [iter_succ]; rfl

theorem r_succ (k : ℕ) : (iter A M b x0 (k + 1)).r = (iter A M b x0 k).r - alphaK A M b x0 k • (A *ᵥ (iter A M b x0 k).p) := by
  rw [iter_succ]; rfl

theorem p_succ (k : ℕ) : (iter A M b x0 (k + 1)).p = M *ᵥ (iter A M b x0 (k + 1)).r + (rhoK A M b x0 (k + 1) / rhoK A M b x0 k) • (iter A M b x0 k).p := by
  unfold rhoK
  rw [iter_succ]; rfl

theorem residual (k : ℕ) : (iter A M b x0 k).r = b - A *ᵥ (iter A M b x0 k).x := by
  induction k with
  | zero => rfl
  | succ k ih => rw [r_succ, x_succ, ih, mulVec_add, mulVec_smul]; abel

/-- The orthogonality relations up to index `k`. -/
structure Ortho (k : ℕ) : Prop where
  rr : ∀ i j, i < j → j ≤ k → (iter A M b x0 j).r ⬝ᵥ (M *ᵥ (iter A M b x0 i).r) = 0
  pp : ∀ i j, i < j → j ≤ k → (iter A M b x0 j).p ⬝ᵥ (A *ᵥ (iter A M b x0 i).p) = 0
  rp : ∀ i j, i < j → j ≤ k → (iter A M b x0 j).r ⬝ᵥ (iter A M b x0 i).p = 0
  rs : ∀ j ≤ k, (iter A M b x0 j).r ⬝ᵥ (iter A M b x0 j).p = rhoK A M b x0 j

variable {A M b x0}

theorem rho_pos (hM : Spd M) {k : ℕ} (h : (iter A M b x0 k).r ≠ 0) : 0 < rhoK A M b x0 k := hM.2 _ h

theorem p_ne (hM : Spd M) {k : ℕ} (ho : Ortho A M b x0 k) (h : (iter A M b x0 k).r ≠ 0) : (iter A M b x0 k).p ≠ 0 := by
  intro e
  have := ho.rs k le_rfl
  rw [e, dotProduct_zero] at this
  exact (rho_pos hM h).ne this

theorem alpha_pos (hA : Spd A) (hM : Spd M) {k : ℕ} (ho : Ortho A M b x0 k) (h : (iter A M b x0 k).r ≠ 0) : 0 < alphaK A M b x0 k :=
  div_pos (rho_pos hM h) (hA.2 _ (p_ne hM ho h))

theorem alpha_mul (hA : Spd A) (hM : Spd M) {k : ℕ} (ho : Ortho A M b x0 k) (h : (iter A M b x0 k).r ≠ 0) :
    alphaK A M b x0 k * ((iter A M b x0 k).p ⬝ᵥ (A *ᵥ (iter A M b x0 k).p)) = rhoK A M b x0 k :=
  div_mul_cancel₀ _ (hA.2 _ (p_ne hM ho h)).ne'

/-- `M r_i` in terms of directions: its product with `A p_j` for `i ≤ j` vanishes for `i < j` and is `p_j A p_j` for `i = j`. -/
theorem z_dot (hA : Spd A) {k : ℕ} (ho : Ortho A M b x0 k) {i j : ℕ} (hij : i ≤ j) (hj : j ≤ k) :
    (M *ᵥ (iter A M b x0 i).r) ⬝ᵥ (A *ᵥ (iter A M b x0 j).p) =
      if i = j then (iter A M b x0 j).p ⬝ᵥ (A *ᵥ (iter A M b x0 j).p) else 0 := by
  cases i with
  | zero =>
    have e : M *ᵥ (iter A M b x0 0).r = (iter A M b x0 0).p := rfl
    rw [e]
    split_ifs with h
    · rw [← h]
    · rw [hA.comm]
      exact ho.pp 0 j (by omega) hj
  | succ i =>
    have e : M *ᵥ (iter A M b x0 (i + 1)).r = (iter A M b x0 (i + 1)).p - (rhoK A M b x0 (i + 1) / rhoK A M b x0 i) • (iter A M b x0 i).p := by
      rw [p_succ]; abel
    rw [e, sub_dotProduct, smul_dotProduct, hA.comm (iter A M b x0 i).p, ho.pp i j (by omega) hj, smul_zero, sub_zero]
    split_ifs with h
    · rw [h]
    · rw [hA.comm]
      exact ho.pp (i + 1) j (by omega) hj

theorem ortho (hA : Spd A) (hM : Spd M) (k : ℕ) (h : ∀ i < k, (iter A M b x0 i).r ≠ 0) : Ortho A M b x0 k := by
  induction k with
  | zero =>
    refine ⟨fun i j h1 h2 => by omega, fun i j h1 h2 => by omega, fun i j h1 h2 => by omega, fun j hj => ?_⟩
    obtain rfl : j = 0 := by omega
    rfl
  | succ k ih =>
    have ho := ih fun i hi => h i (by omega)
    have hk := h k (by omega)
    -- r_{k+1} · z_i
    have rr : ∀ i ≤ k, (iter A M b x0 (k + 1)).r ⬝ᵥ (M *ᵥ (iter A M b x0 i).r) = 0 := by
      intro i hi
      rw [r_succ, sub_dotProduct, smul_dotProduct, dotProduct_comm (A *ᵥ _), z_dot hA ho hi le_rfl, smul_eq_mul]
      by_cases e : i = k
      · subst e
        rw [if_pos rfl, alpha_mul hA hM ho hk]
        exact sub_self _
      · rw [if_neg e, mul_zero, sub_zero]
        exact ho.rr i k (by omega) le_rfl
    have rp : ∀ i ≤ k, (iter A M b x0 (k + 1)).r ⬝ᵥ (iter A M b x0 i).p = 0 := by
      intro i hi
      rw [r_succ, sub_dotProduct, smul_dotProduct, dotProduct_comm (A *ᵥ _), smul_eq_mul]
      by_cases e : i = k
      · subst e
        rw [alpha_mul hA hM ho hk, ho.rs i le_rfl, sub_self]
      · rw [ho.rp i k (by omega) le_rfl, hA.comm, ho.pp i k (by omega) le_rfl, mul_zero, sub_zero]
    have pp : ∀ i ≤ k, (iter A M b x0 (k + 1)).p ⬝ᵥ (A *ᵥ (iter A M b x0 i).p) = 0 := by
      intro i hi
      have hi0 := h i (by omega)
      have hoi : Ortho A M b x0 i := ⟨fun a c h1 h2 => ho.rr a c h1 (by omega), fun a c h1 h2 => ho.pp a c h1 (by omega), fun a c h1 h2 => ho.rp a c h1 (by omega),
        fun c hc => ho.rs c (by omega)⟩
      have ha := alpha_pos hA hM hoi hi0
      -- α_i z_{k+1} · A p_i = z_{k+1} · r_i - z_{k+1} · r_{i+1}
      have key : alphaK A M b x0 i * ((M *ᵥ (iter A M b x0 (k + 1)).r) ⬝ᵥ (A *ᵥ (iter A M b x0 i).p)) =
          - ((iter A M b x0 (i + 1)).r ⬝ᵥ (M *ᵥ (iter A M b x0 (k + 1)).r)) := by
        have e : alphaK A M b x0 i • (A *ᵥ (iter A M b x0 i).p) = (iter A M b x0 i).r - (iter A M b x0 (i + 1)).r := by
          rw [r_succ]; abel
        rw [← smul_eq_mul, ← dotProduct_smul, e, dotProduct_sub, dotProduct_comm _ (iter A M b x0 i).r, hM.comm, rr i hi, dotProduct_comm _ (iter A M b x0 (i + 1)).r]
        ring
      rw [p_succ, add_dotProduct, smul_dotProduct, smul_eq_mul]
      by_cases e : i = k
      · subst e
        have hr : (iter A M b x0 (i + 1)).r ⬝ᵥ (M *ᵥ (iter A M b x0 (i + 1)).r) = rhoK A M b x0 (i + 1) := rfl
        rw [hr] at key
        have h1 := alpha_mul hA hM hoi hi0
        have hρ := rho_pos (A := A) (b := b) (x0 := x0) hM hi0
        have h2 : (M *ᵥ (iter A M b x0 (i + 1)).r) ⬝ᵥ (A *ᵥ (iter A M b x0 i).p) = - rhoK A M b x0 (i + 1) / alphaK A M b x0 i := by
          rw [← key]; field_simp
        rw [h2]
        have h3 : (iter A M b x0 i).p ⬝ᵥ (A *ᵥ (iter A M b x0 i).p) = rhoK A M b x0 i / alphaK A M b x0 i := by
          rw [← h1]; field_simp
        rw [h3]
        field_simp
        ring
      · rw [ho.pp i k (by omega) le_rfl, mul_zero, add_zero]
        have hz : (iter A M b x0 (i + 1)).r ⬝ᵥ (M *ᵥ (iter A M b x0 (k + 1)).r) = 0 := by
          rw [hM.comm]
          exact rr (i + 1) (by omega)
        rw [hz, neg_zero] at key
        exact (mul_eq_zero.1 key).resolve_left ha.ne'
    refine ⟨fun i j h1 h2 => ?_, fun i j h1 h2 => ?_, fun i j h1 h2 => ?_, fun j hj => ?_⟩
    · rcases Nat.lt_or_ge k j with hj | hj
      · obtain rfl : j = k + 1 := by omega
        exact rr i (by omega)
      · exact ho.rr i j h1 hj
    · rcases Nat.lt_or_ge k j with hj | hj
      · obtain rfl : j = k + 1 := by omega
        exact pp i (by omega)
      · exact ho.pp i j h1 hj
    · rcases Nat.lt_or_ge k j with hj | hj
      · obtain rfl : j = k + 1 := by omega
        exact rp i (by omega)
      · exact ho.rp i j h1 hj
    · rcases Nat.lt_or_ge k j with hj' | hj'
      · obtain rfl : j = k + 1 := by omega
        rw [p_succ, dotProduct_add, dotProduct_smul, rp k le_rfl, smul_zero, add_zero]
        rfl
      · exact ho.rs j hj'

/-- The increments are combinations of the directions, and so are orthogonal to the residual. -/
theorem galerkin (hA : Spd A) (hM : Spd M) (k : ℕ) (h : ∀ i < k, (iter A M b x0 i).r ≠ 0) :
    (iter A M b x0 k).r ⬝ᵥ ((iter A M b x0 k).x - x0) = 0 := by
  have ho := ortho hA hM k h
  have : ∀ m ≤ k, (iter A M b x0 k).r ⬝ᵥ ((iter A M b x0 m).x - x0) = 0 := by
    intro m hm
    induction m with
    | zero =>
      have : (iter A M b x0 0).x = x0 := rfl
      rw [this, sub_self, dotProduct_zero]
    | succ m ih =>
      have e : (iter A M b x0 (m + 1)).x - x0 = ((iter A M b x0 m).x - x0) + alphaK A M b x0 m • (iter A M b x0 m).p := by
        rw [x_succ]; abel
      rw [e, dotProduct_add, dotProduct_smul, ih (by omega), ho.rp m k (by omega) le_rfl, smul_zero, add_zero]
  exact this k le_rfl

/-- Within `n` iterations the residual is zero. -/
theorem some_zero (hA : Spd A) (hM : Spd M) : ∃ k ≤ n, (iter A M b x0 k).r = 0 := by
  by_contra hc
  push Not at hc
  have ho := ortho hA hM n fun i hi => hc i (by omega)
  have hli : LinearIndependent K fun i : Fin (n + 1) => (iter A M b x0 i).r := by
    rw [Fintype.linearIndependent_iff]
    intro g hg i
    have h1 : (∑ j, g j • (iter A M b x0 j).r) ⬝ᵥ (M *ᵥ (iter A M b x0 i).r) = 0 := by rw [hg, zero_dotProduct]
    rw [sum_dotProduct, Finset.sum_eq_single i] at h1
    · rw [smul_dotProduct, smul_eq_mul] at h1
      exact (mul_eq_zero.1 h1).resolve_right (hM.2 _ (hc i (by omega))).ne'
    · intro j _ hj
      rw [smul_dotProduct]
      have hne : (j : ℕ) ≠ (i : ℕ) := fun e => hj (Fin.ext e)
      rcases Nat.lt_or_gt_of_ne hne with hlt | hgt
      · rw [hM.comm, ho.rr j i hlt (by omega), smul_zero]
      · rw [ho.rr i j hgt (by omega), smul_zero]
    · intro hi; exact absurd (Finset.mem_univ i) hi
  have := hli.fintype_card_le_finrank
  rw [Fintype.card_fin, Module.finrank_fin_fun] at this
  omega

/-! ## The loop with its stopping test -/

theorem loop_spec (thr : K) (m k : ℕ) : ∃ j ≤ m, cgLoop A M thr m (iter A M b x0 k) = iter A M b x0 (k + j) ∧
    (∀ i, k ≤ i → i < k + j → thr < (iter A M b x0 i).r ⬝ᵥ (iter A M b x0 i).r) ∧
    (j < m → (iter A M b x0 (k + j)).r ⬝ᵥ (iter A M b x0 (k + j)).r ≤ thr) := by
  induction m generalizing k with
  | zero => exact ⟨0, le_rfl, rfl, fun i h1 h2 => by omega, fun h => by omega⟩
  | succ m ih =>
    unfold cgLoop
    split_ifs with h
    · exact ⟨0, Nat.zero_le _, rfl, fun i h1 h2 => by omega, fun _ => h⟩
    · rw [← iter_succ]
      obtain ⟨j, h1, h2, h3, h4⟩ := ih (k + 1)
      refine ⟨j + 1, by omega, ?_, ?_, ?_⟩
      · rw [h2]; congr 1; omega
      · intro i hi1 hi2
        rcases Nat.eq_or_lt_of_le hi1 with e | e
        · rw [← e]; exact lt_of_not_ge h
        · exact h3 i (by omega) (by omega)
      · intro hj
        have e : k + (j + 1) = k + 1 + j := by omega
        rw [e]
        exact h4 (by omega)

theorem dot_self_nonneg' (v : Fin n → K) : 0 ≤ v ⬝ᵥ v := Finset.sum_nonneg fun i _ => mul_self_nonneg _

theorem dot_self_zero {v : Fin n → K} (h : v ⬝ᵥ v ≤ 0) : v = 0 := by
  by_contra hc
  have := (spd_one (K := K) (n := n)).2 v hc
  rw [one_mulVec] at this
  exact absurd this (not_lt.2 h)

/-- What a call of conjugate gradients returns. -/
theorem cg_spec (hA : Spd A) (hM : Spd M) (tol : K) (ilimit : ℕ) (b x0 : Fin n → K) :
    (cg A M tol ilimit b x0 = x0 ∧ (b - A *ᵥ x0) ⬝ᵥ (b - A *ᵥ x0) ≤ tol ^ 2) ∨
    (tol ^ 2 < (b - A *ᵥ x0) ⬝ᵥ (b - A *ᵥ x0) ∧ ∃ k ≤ ilimit, cg A M tol ilimit b x0 = (iter A M b x0 k).x ∧ (∀ i < k, (iter A M b x0 i).r ≠ 0) ∧
      ((iter A M b x0 k).r ⬝ᵥ (iter A M b x0 k).r ≤ tol ^ 2 * (b ⬝ᵥ b) ∨ k = ilimit ∧ ilimit < n)) := by
  unfold cg
  dsimp only
  have hr : (cgStart A M b x0).r = b - A *ᵥ x0 := rfl
  rw [hr]
  split_ifs with h
  · exact Or.inl ⟨rfl, h⟩
  · refine Or.inr ⟨lt_of_not_ge h, ?_⟩
    have hthr : 0 ≤ tol ^ 2 * (b ⬝ᵥ b) := mul_nonneg (sq_nonneg _) (dot_self_nonneg' b)
    obtain ⟨j, h1, h2, h3, h4⟩ := loop_spec (A := A) (M := M) (b := b) (x0 := x0) (tol ^ 2 * (b ⬝ᵥ b)) ilimit 0
    rw [iter_zero] at h2
    simp only [Nat.zero_add] at h2 h3 h4
    have hne : ∀ i < j, (iter A M b x0 i).r ≠ 0 := by
      intro i hi e
      have := h3 i (Nat.zero_le _) hi
      rw [e, dotProduct_zero] at this
      exact absurd this (not_lt.2 hthr)
    refine ⟨j, h1, by rw [h2], hne, ?_⟩
    rcases Nat.lt_or_ge j ilimit with hj | hj
    · exact Or.inl (h4 hj)
    · have hje : j = ilimit := by omega
      rcases Nat.lt_or_ge ilimit n with hn | hn
      · exact Or.inr ⟨hje, hn⟩
      · left
        obtain ⟨k, hk, hk0⟩ := some_zero (b := b) (x0 := x0) hA hM
        have : k = j := by
          by_contra hkj
          exact hne k (by omega) hk0
        rw [← this, hk0, dotProduct_zero]
        exact hthr

end SMT.Solvers
