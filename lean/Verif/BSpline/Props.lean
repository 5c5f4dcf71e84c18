import Verif.BSpline.Model
import Mathlib.Analysis.Calculus.Deriv.Mul
import Mathlib.Analysis.Calculus.Deriv.Add
import Mathlib.Algebra.BigOperators.Fin
import Mathlib.Algebra.BigOperators.Intervals
import Mathlib.Tactic.Linarith
import Mathlib.Tactic.Ring
import Mathlib.Tactic.FieldSimp
import Mathlib.Tactic.NormNum

/-!
# Properties C23, C24: B-spline bases
-/
namespace SMT.BSpline
set_option linter.unusedSectionVars false
set_option linter.unusedSimpArgs false

variable {K : Type} [Field K] [LinearOrder K] [IsStrictOrderedRing K]

/-! ## Specification: the Cox-de Boor recursion -/

/-- `N k m i t`: B-spline basis function number `m` of degree `i` on the knots `k` (textbook recursion, with
`x / 0 = 0`). -/
def N (k : ℕ → K) (m : ℕ) : ℕ → K → K
  | 0, t => if k m ≤ t ∧ t < k (m + 1) then 1 else 0
  | i + 1, t => (t - k m) / (k (m + (i + 1)) - k m) * N k m i t +
      (k (m + (i + 1) + 1) - t) / (k (m + (i + 1) + 1) - k (m + 1)) * N k (m + 1) i t

/-! ## Support -/

theorem N_eq_zero (k : ℕ → K) (hk : Monotone k) (t : K) : ∀ i m, t < k m ∨ k (m + i + 1) ≤ t → N k m i t = 0 := by
  intro i
  induction i with
  | zero =>
    intro m h
    simp only [N]
    rw [if_neg]
    rintro ⟨h1, h2⟩
    rcases h with h | h
    · exact absurd h1 (not_le.2 h)
    · exact absurd h2 (not_lt.2 (by simpa using h))
  | succ i ih =>
    intro m h
    simp only [N]
    rcases h with h | h
    · rw [ih m (Or.inl h), ih (m + 1) (Or.inl (lt_of_lt_of_le h (hk (Nat.le_succ m))))]; ring
    · rw [ih m (Or.inr (le_trans (hk (by omega)) h)), ih (m + 1) (Or.inr (le_trans (hk (by omega)) h))]; ring

theorem N_nonneg (k : ℕ → K) (hk : Monotone k) (t : K) : ∀ i m, 0 ≤ N k m i t := by
  intro i
  induction i with
  | zero => intro m; simp only [N]; split <;> norm_num
  | succ i ih =>
    intro m
    simp only [N]
    apply add_nonneg
    · by_cases h : t < k m
      · rw [N_eq_zero k hk t i m (Or.inl h)]; simp
      · exact mul_nonneg (div_nonneg (by linarith [not_lt.1 h]) (by linarith [hk (show m ≤ m + (i + 1) by omega)])) (ih m)
    · by_cases h : k (m + 1 + i + 1) ≤ t
      · rw [N_eq_zero k hk t i (m + 1) (Or.inr h)]; simp
      · have e : m + 1 + i + 1 = m + (i + 1) + 1 := by omega
        rw [e] at h
        exact mul_nonneg (div_nonneg (by linarith [not_le.1 h])
          (by linarith [hk (show m + 1 ≤ m + (i + 1) + 1 by omega)])) (ih (m + 1))

/-- On the span `[k p, k (p+1))` the degree-`i` functions `p-i, …, p` sum to one. -/
theorem N_sum (k : ℕ → K) (hk : Monotone k) (t : K) (p : ℕ) (h1 : k p ≤ t) (h2 : t < k (p + 1)) :
    ∀ i, i ≤ p → ∑ j ∈ Finset.range (i + 1), N k (p - i + j) i t = 1 := by
  intro i
  induction i with
  | zero => intro _; rw [zero_add, Finset.sum_range_one]; simp [N, h1, h2]
  | succ i ih =>
    intro hi
    have ih' := ih (by omega)
    simp only [N]
    rw [Finset.sum_add_distrib]
    -- first sum: drop j = 0; second sum: drop j = i+1
    rw [Finset.sum_range_succ' (fun j => (t - k (p - (i + 1) + j)) / (k (p - (i + 1) + j + (i + 1)) - k (p - (i + 1) + j)) *
      N k (p - (i + 1) + j) i t)]
    rw [Finset.sum_range_succ (fun j => (k (p - (i + 1) + j + (i + 1) + 1) - t) /
      (k (p - (i + 1) + j + (i + 1) + 1) - k (p - (i + 1) + j + 1)) * N k (p - (i + 1) + j + 1) i t)]
    have z1 : N k (p - (i + 1) + 0) i t = 0 := N_eq_zero k hk t i _ (Or.inr (by
      have : p - (i + 1) + 0 + i + 1 = p := by omega
      rw [this]; exact h1))
    have z2 : N k (p - (i + 1) + (i + 1) + 1) i t = 0 := N_eq_zero k hk t i _ (Or.inl (by
      have : p - (i + 1) + (i + 1) + 1 = p + 1 := by omega
      rw [this]; exact h2))
    rw [z1, z2, mul_zero, mul_zero, add_zero, add_zero, ← Finset.sum_add_distrib]
    refine Eq.trans (Finset.sum_congr rfl fun j hj => ?_) ih'
    rw [Finset.mem_range] at hj
    have e1 : p - (i + 1) + (j + 1) = p - i + j := by omega
    have e2 : p - (i + 1) + j + (i + 1) + 1 = p - i + j + (i + 1) := by omega
    have e3 : p - (i + 1) + j + 1 = p - i + j := by omega
    rw [e1, e2, e3]
    have hlt : k (p - i + j) < k (p - i + j + (i + 1)) :=
      lt_of_le_of_lt ((hk (by omega)).trans h1) (lt_of_lt_of_le h2 (hk (by omega)))
    have hne : k (p - i + j + (i + 1)) - k (p - i + j) ≠ 0 := by linarith [hlt] |> fun h : 0 < _ - _ => ne_of_gt h
    rw [← add_mul, ← add_div]
    have : t - k (p - i + j) + (k (p - i + j + (i + 1)) - t) = k (p - i + j + (i + 1)) - k (p - i + j) := by ring
    rw [this, div_self hne, one_mul]

/-! ## The in-place loops compute the recursion -/

/-- An ascending in-place loop in which entry `j` is computed from entries `j` and `j + 1`. -/
theorem foldl_update {α : Type} (F : ℕ → α → α → α) : ∀ (m a : ℕ) (b : ℕ → α) (x : ℕ),
    ((List.range' a m).foldl (fun b j => Function.update b j (F j (b j) (b (j + 1)))) b) x =
      if a ≤ x ∧ x < a + m then F x (b x) (b (x + 1)) else b x := by
  intro m
  induction m with
  | zero => intro a b x; simp; try omega
  | succ m ih =>
    intro a b x
    rw [List.range'_succ, List.foldl_cons, ih]
    by_cases hx : x = a
    · subst hx
      simp
    · by_cases h : a + 1 ≤ x ∧ x < a + 1 + m
      · rw [if_pos h, if_pos (by omega), Function.update_of_ne hx, Function.update_of_ne (by omega)]
      · rw [if_neg h, if_neg (by omega), Function.update_of_ne hx]

/-- What the arrays hold after degree `i`. -/
theorem basis0_inv (k : ℕ → K) (hk : Monotone k) (t : K) (order s : ℕ) (ho : 1 ≤ order)
    (h1 : k (s + order - 1) ≤ t) (h2 : t < k (s + order)) : ∀ i, i + 1 ≤ order → ∀ j, j < order →
    (List.range' 1 i).foldl (fun b i => deg0 k t order s i b) (init0 order) j = N k (s + j) i t := by
  intro i
  induction i with
  | zero =>
    intro _ j hj
    simp only [List.range'_zero, List.foldl_nil, init0, N]
    by_cases hj' : j = order - 1
    · have e1 : s + j = s + order - 1 := by omega
      have e2 : s + order - 1 + 1 = s + order := by omega
      rw [hj', Function.update_self, if_pos]
      rw [← hj', e1, e2]; exact ⟨h1, h2⟩
    · rw [Function.update_of_ne hj', if_neg]
      rintro ⟨_, h⟩
      exact absurd h (not_lt.2 ((hk (by omega)).trans h1))
  | succ i ih =>
    intro hi j hj
    have ih' := ih (by omega)
    rw [List.range'_concat, List.foldl_append, List.foldl_cons, List.foldl_nil]
    set b := (List.range' 1 i).foldl (fun b i => deg0 k t order s i b) (init0 order) with hb
    have hi1 : 1 + 1 * i = i + 1 := by omega
    rw [hi1]
    unfold deg0
    set j1 := order - (i + 1) - 1 with hj1
    set b1 := Function.update b j1 (if k (s + j1 + (i + 1) + 1) ≠ k (s + j1 + 1) then
      (k (s + j1 + (i + 1) + 1) - t) / (k (s + j1 + (i + 1) + 1) - k (s + j1 + 1)) * b (j1 + 1) else 0) with hb1
    have hfold := foldl_update (mid0 k t s (i + 1)) (order - 1 - (j1 + 1)) (j1 + 1) b1
    have hrec : N k (s + j) (i + 1) t = (t - k (s + j)) / (k (s + j + (i + 1)) - k (s + j)) * N k (s + j) i t +
      (k (s + j + (i + 1) + 1) - t) / (k (s + j + (i + 1) + 1) - k (s + j + 1)) * N k (s + j + 1) i t := rfl
    by_cases hjlast : j = order - 1
    · -- last entry: the second term vanishes
      have hl := hfold (order - 1)
      rw [if_neg (by omega)] at hl
      rw [hjlast, Function.update_self, hl, hb1, Function.update_of_ne (by omega),
        ih' (order - 1) (by omega)]
      rw [← hjlast, hrec]
      have z : N k (s + j + 1) i t = 0 := N_eq_zero k hk t i _ (Or.inl (by
        have : s + j + 1 = s + order := by omega
        rw [this]; exact h2))
      rw [z, mul_zero, add_zero]
      split
      · rfl
      · rename_i h; rw [not_not.1 h]; simp
    · rw [Function.update_of_ne hjlast, hfold]
      by_cases hjm : j1 + 1 ≤ j ∧ j < j1 + 1 + (order - 1 - (j1 + 1))
      · rw [if_pos hjm, hb1, Function.update_of_ne (by omega), Function.update_of_ne (by omega),
          ih' j hj, ih' (j + 1) (by omega), hrec]
        have e : s + (j + 1) = s + j + 1 := by omega
        rw [e]
        unfold mid0
        dsimp only
        by_cases c1 : k (s + j + (i + 1)) = k (s + j)
        · by_cases c2 : k (s + j + (i + 1) + 1) = k (s + j + 1)
          · simp [c1, c2]
          · simp [c1, c2]
        · by_cases c2 : k (s + j + (i + 1) + 1) = k (s + j + 1)
          · simp [c1, c2]
          · simp [c1, c2]
      · rw [if_neg hjm, hb1]
        by_cases hjj : j = j1
        · -- first active entry: the first term vanishes
          rw [hjj, Function.update_self, ih' (j1 + 1) (by omega), ← hjj, hrec]
          have z : N k (s + j) i t = 0 := N_eq_zero k hk t i _ (Or.inr ((hk (by omega)).trans h1))
          have e : s + (j + 1) = s + j + 1 := by omega
          rw [z, mul_zero, zero_add, e]
          split
          · rfl
          · rename_i h; rw [not_not.1 h]; simp
        · -- inactive entries stay zero
          rw [Function.update_of_ne hjj, ih' j hj]
          rw [N_eq_zero k hk t i _ (Or.inr ((hk (by omega)).trans h1)),
            N_eq_zero k hk t (i + 1) _ (Or.inr ((hk (by omega)).trans h1))]

/-- **C23** For every non-decreasing knot vector, order and parameter in the span numbered `s`, the values
computed by `compute_basis_0` are exactly the textbook basis functions `s, …, s + order - 1` of degree
`order - 1`. -/
theorem C23_is_cox_de_boor (k : ℕ → K) (hk : Monotone k) (t : K) (order s : ℕ) (ho : 1 ≤ order)
    (h1 : k (s + order - 1) ≤ t) (h2 : t < k (s + order)) (j : ℕ) (hj : j < order) :
    basis0 k t order s j = N k (s + j) (order - 1) t :=
  basis0_inv k hk t order s ho h1 h2 (order - 1) (by omega) j hj

/-- **C23** All other basis functions vanish there: the returned entries are the whole basis. -/
theorem C23_local_support (k : ℕ → K) (hk : Monotone k) (t : K) (order s : ℕ) (ho : 1 ≤ order)
    (h1 : k (s + order - 1) ≤ t) (h2 : t < k (s + order)) (m : ℕ) (hm : m < s ∨ s + order ≤ m) :
    N k m (order - 1) t = 0 := by
  apply N_eq_zero k hk
  rcases hm with h | h
  · right; exact (hk (by omega)).trans h1
  · left; exact lt_of_lt_of_le h2 (hk h)

/-- **C23** Partition of unity with non-negative entries, hence every entry in `[0, 1]`. -/
theorem C23_partition_of_unity (k : ℕ → K) (hk : Monotone k) (t : K) (order s : ℕ) (ho : 1 ≤ order)
    (h1 : k (s + order - 1) ≤ t) (h2 : t < k (s + order)) :
    (∑ j ∈ Finset.range order, basis0 k t order s j = 1) ∧
      ∀ j, j < order → 0 ≤ basis0 k t order s j ∧ basis0 k t order s j ≤ 1 := by
  have hsum : ∑ j ∈ Finset.range order, basis0 k t order s j = 1 := by
    have := N_sum k hk t (s + order - 1) h1 (by have : s + order - 1 + 1 = s + order := by omega
                                                rw [this]; exact h2) (order - 1) (by omega)
    have e : order - 1 + 1 = order := by omega
    rw [e] at this
    rw [← this]
    refine Finset.sum_congr rfl fun j hj => ?_
    rw [Finset.mem_range] at hj
    rw [C23_is_cox_de_boor k hk t order s ho h1 h2 j hj]
    congr 1; omega
  have hnn : ∀ j, j < order → 0 ≤ basis0 k t order s j := fun j hj => by
    rw [C23_is_cox_de_boor k hk t order s ho h1 h2 j hj]; exact N_nonneg k hk t _ _
  refine ⟨hsum, fun j hj => ⟨hnn j hj, ?_⟩⟩
  rw [← hsum]
  exact Finset.single_le_sum (f := fun j => basis0 k t order s j)
    (fun i hi => hnn i (Finset.mem_range.1 hi)) (Finset.mem_range.2 hj)

/-! ## The uniform knots and the span search -/

theorem knotU_mono (order ncp : ℕ) (h : order ≤ ncp) : StrictMono (knotU order ncp : ℕ → K) := by
  intro a b hab
  unfold knotU
  have hd : (0 : K) < (((ncp : ℤ) - order + 1 : ℤ) : K) := by exact_mod_cast (by omega : (0 : ℤ) < (ncp : ℤ) - order + 1)
  rw [div_lt_div_iff_of_pos_right hd]
  exact_mod_cast (by omega : (a : ℤ) - order + 1 < (b : ℤ) - order + 1)

theorem knotU_first (order ncp : ℕ) (ho : 1 ≤ order) : (knotU order ncp (order - 1) : K) = 0 := by
  unfold knotU
  have : ((order - 1 : ℕ) : ℤ) - order + 1 = 0 := by omega
  rw [this]; simp

theorem knotU_last (order ncp : ℕ) (h : order ≤ ncp) : (knotU order ncp ncp : K) = 1 := by
  unfold knotU
  apply div_self
  exact_mod_cast (by omega : (ncp : ℤ) - order + 1 ≠ 0)

/-- The search loop returns the last matching span. -/
theorem search_spec (knots : ℕ → K) (hk : StrictMono knots) (t : K) (o : ℕ) : ∀ (m : ℕ), knots o ≤ t →
    (t < knots (o + m) → ∃ i, o ≤ i ∧ i < o + m ∧ knots i ≤ t ∧ t < knots (i + 1) ∧
      (List.range' o m).foldl (fun acc i => if knots i ≤ t ∧ t < knots (i + 1) then some (i - o) else acc) none
        = some (i - o)) ∧
    (knots (o + m) ≤ t →
      (List.range' o m).foldl (fun acc i => if knots i ≤ t ∧ t < knots (i + 1) then some (i - o) else acc) none
        = none) := by
  intro m
  induction m with
  | zero => intro h; exact ⟨fun h' => absurd h (not_le.2 h'), fun _ => rfl⟩
  | succ m ih =>
    intro h
    obtain ⟨iha, ihb⟩ := ih h
    rw [List.range'_concat, List.foldl_append, List.foldl_cons, List.foldl_nil, one_mul]
    by_cases hm : knots (o + m) ≤ t
    · constructor
      · intro hlt
        refine ⟨o + m, by omega, by omega, hm, hlt, ?_⟩
        rw [if_pos ⟨hm, hlt⟩]
      · intro hge
        rw [if_neg (fun hc => absurd hge (not_le.2 hc.2)), ihb hm]
    · have hm' := not_le.1 hm
      refine ⟨fun _ => ?_, fun hge => absurd (le_trans (hk.monotone (by omega)) hge) hm⟩
      obtain ⟨i, h1, h2, h3, h4, h5⟩ := iha hm'
      refine ⟨i, h1, by omega, h3, h4, ?_⟩
      rw [if_neg (fun hc => absurd hc.1 hm), h5]

/-- **C23** On the uniform knots, for every `1 ≤ order ≤ ncp` and every `t ∈ [0, 1)`, the span search
succeeds, the span contains `t`, and the `order` control points it selects are valid indices. -/
theorem C23_span_search (order ncp : ℕ) (ho : 1 ≤ order) (hn : order ≤ ncp) (t : K) (h0 : 0 ≤ t) (h1 : t < 1) :
    ∃ s, iStart order ncp t (knotU order ncp) = some s ∧ s + order ≤ ncp ∧
      (knotU order ncp (s + order - 1) : K) ≤ t ∧ t < knotU order ncp (s + order) := by
  have hk := knotU_mono (K := K) order ncp hn
  have hsp := search_spec (knotU order ncp) hk t (order - 1) (ncp - (order - 1))
    (by rw [knotU_first order ncp ho]; exact h0)
  have e : order - 1 + (ncp - (order - 1)) = ncp := by omega
  rw [e, knotU_last order ncp hn] at hsp
  obtain ⟨i, a, b, c, d, f⟩ := hsp.1 h1
  refine ⟨i - (order - 1), ?_, by omega, ?_, ?_⟩
  · unfold iStart
    dsimp only
    rw [if_neg, f]
    intro he
    have : (knotU order ncp ncp : K) ≤ knotU order ncp (order + ncp - 1) := hk.monotone (by omega)
    rw [knotU_last order ncp hn, ← he] at this
    exact absurd this (not_le.2 h1)
  · have : i - (order - 1) + order - 1 = i := by omega
    rw [this]; exact c
  · have : i - (order - 1) + order = i + 1 := by omega
    rw [this]; exact d

/-- **C23** Defect of the helper, masked by the caller's clamping of parameters to `[1e-15, 1 - 1e-15]`
(`rmtb.py` 107-108): at `t = 1` the span search fails for every order above 1, because the end-point test
compares with the last knot, which lies beyond 1. -/
theorem C23_right_end_not_found (order ncp : ℕ) (ho : 2 ≤ order) (hn : order ≤ ncp) :
    iStart order ncp (1 : K) (knotU order ncp) = none := by
  have hk := knotU_mono (K := K) order ncp hn
  have hsp := search_spec (knotU order ncp) hk (1 : K) (order - 1) (ncp - (order - 1))
    (by rw [knotU_first order ncp (by omega)]; norm_num)
  have e : order - 1 + (ncp - (order - 1)) = ncp := by omega
  rw [e, knotU_last order ncp hn] at hsp
  unfold iStart
  dsimp only
  rw [if_neg, hsp.2 (le_refl _)]
  intro he
  have : (knotU order ncp ncp : K) < knotU order ncp (order + ncp - 1) := hk (by omega)
  rw [knotU_last order ncp hn, ← he] at this
  exact absurd this (lt_irrefl _)

/-- **C23** The composed statement: the uniform basis at any `t ∈ [0,1)`. -/
theorem C23_uniform (order ncp : ℕ) (ho : 1 ≤ order) (hn : order ≤ ncp) (t : K) (h0 : 0 ≤ t) (h1 : t < 1) :
    ∃ s b, computeBasis0 order ncp t (knotU order ncp) = some (s, b) ∧ s + order ≤ ncp ∧
      (∑ j ∈ Finset.range order, b j = 1) ∧ (∀ j, j < order → 0 ≤ b j ∧ b j ≤ 1) ∧
      ∀ j, j < order → b j = N (knotU order ncp) (s + j) (order - 1) t := by
  obtain ⟨s, hs, h2, h3, h4⟩ := C23_span_search order ncp ho hn t h0 h1
  have hk := (knotU_mono (K := K) order ncp hn).monotone
  obtain ⟨h5, h6⟩ := C23_partition_of_unity _ hk t order s ho h3 h4
  exact ⟨s, _, by simp [computeBasis0, hs], h2, h5, h6,
    fun j hj => C23_is_cox_de_boor _ hk t order s ho h3 h4 j hj⟩

/-- Non-vacuity: the quadratic basis with 5 control points at `t = 1/2`. -/
example : ∃ b, computeBasis0 3 5 (1/2 : ℚ) (knotU 3 5) = some (1, b) ∧ b 0 = 1/8 ∧ b 1 = 3/4 ∧ b 2 = 1/8 := by
  refine ⟨basis0 (knotU 3 5) (1/2) 3 1, ?_, ?_, ?_, ?_⟩
  · have : iStart 3 5 (1/2 : ℚ) (knotU 3 5) = some 1 := by decide +kernel
    unfold computeBasis0; rw [this]; rfl
  all_goals decide +kernel

/-! ## C24: derivatives -/

/-- Formal first derivative of the recursion. -/
def D1 (k : ℕ → K) (m : ℕ) : ℕ → K → K
  | 0, _ => 0
  | i + 1, t => (N k m i t + (t - k m) * D1 k m i t) / (k (m + (i + 1)) - k m) +
      ((k (m + (i + 1) + 1) - t) * D1 k (m + 1) i t - N k (m + 1) i t) / (k (m + (i + 1) + 1) - k (m + 1))

/-- Formal second derivative of the recursion. -/
def D2 (k : ℕ → K) (m : ℕ) : ℕ → K → K
  | 0, _ => 0
  | i + 1, t => (2 * D1 k m i t + (t - k m) * D2 k m i t) / (k (m + (i + 1)) - k m) +
      ((k (m + (i + 1) + 1) - t) * D2 k (m + 1) i t - 2 * D1 k (m + 1) i t) /
        (k (m + (i + 1) + 1) - k (m + 1))

theorem D1_eq_zero (k : ℕ → K) (hk : Monotone k) (t : K) : ∀ i m, t < k m ∨ k (m + i + 1) ≤ t → D1 k m i t = 0 := by
  intro i
  induction i with
  | zero => intro m _; rfl
  | succ i ih =>
    intro m h
    simp only [D1]
    rcases h with h | h
    · have h' := lt_of_lt_of_le h (hk (Nat.le_succ m))
      rw [ih m (Or.inl h), ih (m + 1) (Or.inl h'), N_eq_zero k hk t i m (Or.inl h),
        N_eq_zero k hk t i (m + 1) (Or.inl h')]; simp
    · have ha : k (m + i + 1) ≤ t := le_trans (hk (by omega)) h
      have hb : k (m + 1 + i + 1) ≤ t := le_trans (hk (by omega)) h
      rw [ih m (Or.inr ha), ih (m + 1) (Or.inr hb), N_eq_zero k hk t i m (Or.inr ha),
        N_eq_zero k hk t i (m + 1) (Or.inr hb)]; simp

theorem D2_eq_zero (k : ℕ → K) (hk : Monotone k) (t : K) : ∀ i m, t < k m ∨ k (m + i + 1) ≤ t → D2 k m i t = 0 := by
  intro i
  induction i with
  | zero => intro m _; rfl
  | succ i ih =>
    intro m h
    simp only [D2]
    rcases h with h | h
    · have h' := lt_of_lt_of_le h (hk (Nat.le_succ m))
      rw [ih m (Or.inl h), ih (m + 1) (Or.inl h'), D1_eq_zero k hk t i m (Or.inl h),
        D1_eq_zero k hk t i (m + 1) (Or.inl h')]; simp
    · have ha : k (m + i + 1) ≤ t := le_trans (hk (by omega)) h
      have hb : k (m + 1 + i + 1) ≤ t := le_trans (hk (by omega)) h
      rw [ih m (Or.inr ha), ih (m + 1) (Or.inr hb), D1_eq_zero k hk t i m (Or.inr ha),
        D1_eq_zero k hk t i (m + 1) (Or.inr hb)]; simp

theorem basis1_inv (k : ℕ → K) (hk : Monotone k) (t : K) (order s : ℕ) (ho : 1 ≤ order)
    (h1 : k (s + order - 1) ≤ t) (h2 : t < k (s + order)) : ∀ i, i + 1 ≤ order → ∀ j, j < order →
    (List.range' 1 i).foldl (fun b i => deg1 k t order s i b)
      (Function.update (fun _ => ((0 : K), (0 : K))) (order - 1) (1, 0)) j = (N k (s + j) i t, D1 k (s + j) i t) := by
  intro i
  induction i with
  | zero =>
    intro _ j hj
    simp only [List.range'_zero, List.foldl_nil, N, D1]
    by_cases hj' : j = order - 1
    · have e1 : s + j = s + order - 1 := by omega
      have e2 : s + order - 1 + 1 = s + order := by omega
      rw [hj', Function.update_self, if_pos]
      rw [← hj', e1, e2]; exact ⟨h1, h2⟩
    · rw [Function.update_of_ne hj', if_neg]
      rintro ⟨_, h⟩
      exact absurd h (not_lt.2 ((hk (by omega)).trans h1))
  | succ i ih =>
    intro hi j hj
    have ih' := ih (by omega)
    rw [List.range'_concat, List.foldl_append, List.foldl_cons, List.foldl_nil]
    set b := (List.range' 1 i).foldl (fun b i => deg1 k t order s i b)
      (Function.update (fun _ => ((0 : K), (0 : K))) (order - 1) (1, 0)) with hb
    have hi1 : 1 + 1 * i = i + 1 := by omega
    rw [hi1]
    unfold deg1
    set j1 := order - (i + 1) - 1 with hj1
    have hfold := foldl_update (mid1 k t order s (i + 1)) (order - j1) j1 b j
    rw [hfold]
    by_cases hjm : j1 ≤ j ∧ j < j1 + (order - j1)
    · rw [if_pos hjm, ih' j hj]
      unfold mid1
      dsimp only
      by_cases hlast : j = order - 1
      · have z : N k (s + j + 1) i t = 0 := N_eq_zero k hk t i _ (Or.inl (by
          have : s + j + 1 = s + order := by omega
          rw [this]; exact h2))
        have z' : D1 k (s + j + 1) i t = 0 := D1_eq_zero k hk t i _ (Or.inl (by
          have : s + j + 1 = s + order := by omega
          rw [this]; exact h2))
        rw [if_neg (c := j ≠ order - 1 ∧ _) (by tauto)]
        simp only [N, D1, z, z', mul_zero, add_zero, sub_zero, zero_div]
        by_cases c1 : k (s + j + (i + 1)) = k (s + j)
        · simp [c1]
        · simp [c1]
      · rw [ih' (j + 1) (by omega)]
        have e : s + (j + 1) = s + j + 1 := by omega
        simp only [e, N, D1]
        by_cases c1 : k (s + j + (i + 1)) = k (s + j)
        · by_cases c2 : k (s + j + (i + 1) + 1) = k (s + j + 1)
          · simp [c1, c2]
          · simp [c1, c2, hlast]
        · by_cases c2 : k (s + j + (i + 1) + 1) = k (s + j + 1)
          · simp [c1, c2]
          · simp [c1, c2, hlast]
    · rw [if_neg hjm, ih' j hj]
      have hz : k (s + j + i + 1) ≤ t := (hk (by omega)).trans h1
      have hz' : k (s + j + (i + 1) + 1) ≤ t := (hk (by omega)).trans h1
      rw [N_eq_zero k hk t i _ (Or.inr hz), N_eq_zero k hk t (i + 1) _ (Or.inr hz'),
        D1_eq_zero k hk t i _ (Or.inr hz), D1_eq_zero k hk t (i + 1) _ (Or.inr hz')]

theorem basis2_inv (k : ℕ → K) (hk : Monotone k) (t : K) (order s : ℕ) (ho : 1 ≤ order)
    (h1 : k (s + order - 1) ≤ t) (h2 : t < k (s + order)) : ∀ i, i + 1 ≤ order → ∀ j, j < order →
    (List.range' 1 i).foldl (fun b i => deg2 k t order s i b)
      (Function.update (fun _ => ((0 : K), (0 : K), (0 : K))) (order - 1) (1, 0, 0)) j =
        (N k (s + j) i t, D1 k (s + j) i t, D2 k (s + j) i t) := by
  intro i
  induction i with
  | zero =>
    intro _ j hj
    simp only [List.range'_zero, List.foldl_nil, N, D1, D2]
    by_cases hj' : j = order - 1
    · have e1 : s + j = s + order - 1 := by omega
      have e2 : s + order - 1 + 1 = s + order := by omega
      rw [hj', Function.update_self, if_pos]
      rw [← hj', e1, e2]; exact ⟨h1, h2⟩
    · rw [Function.update_of_ne hj', if_neg]
      rintro ⟨_, h⟩
      exact absurd h (not_lt.2 ((hk (by omega)).trans h1))
  | succ i ih =>
    intro hi j hj
    have ih' := ih (by omega)
    rw [List.range'_concat, List.foldl_append, List.foldl_cons, List.foldl_nil]
    set b := (List.range' 1 i).foldl (fun b i => deg2 k t order s i b)
      (Function.update (fun _ => ((0 : K), (0 : K), (0 : K))) (order - 1) (1, 0, 0)) with hb
    have hi1 : 1 + 1 * i = i + 1 := by omega
    rw [hi1]
    unfold deg2
    set j1 := order - (i + 1) - 1 with hj1
    have hfold := foldl_update (mid2 k t order s (i + 1)) (order - j1) j1 b j
    rw [hfold]
    -- the second derivative of a degree-1 function is zero, as is the array when it is not written
    have hguard : ∀ x : K, (if 1 < i + 1 then x else D2 k (s + j) i t) = if i = 0 then 0 else x := by
      intro x
      by_cases hi0 : i = 0
      · subst hi0; simp [D2]
      · rw [if_pos (by omega), if_neg hi0]
    have hD20 : i = 0 → ∀ m, D2 k m i t = 0 := by intro h m; subst h; rfl
    have hD10 : i = 0 → ∀ m, D1 k m i t = 0 := by intro h m; subst h; rfl
    by_cases hjm : j1 ≤ j ∧ j < j1 + (order - j1)
    · rw [if_pos hjm, ih' j hj]
      unfold mid2
      dsimp only
      rw [hguard]
      by_cases hlast : j = order - 1
      · have hlt : t < k (s + j + 1) := by
          have : s + j + 1 = s + order := by omega
          rw [this]; exact h2
        have z : N k (s + j + 1) i t = 0 := N_eq_zero k hk t i _ (Or.inl hlt)
        have z' : D1 k (s + j + 1) i t = 0 := D1_eq_zero k hk t i _ (Or.inl hlt)
        have z'' : D2 k (s + j + 1) i t = 0 := D2_eq_zero k hk t i _ (Or.inl hlt)
        rw [if_neg (c := j ≠ order - 1 ∧ _) (by tauto)]
        simp only [N, D1, D2, z, z', z'', mul_zero, add_zero, sub_zero, zero_div]
        by_cases hi0 : i = 0
        · simp only [hi0, if_true, hD20 hi0, hD10 hi0]
          by_cases c1 : k (s + j + (i + 1)) = k (s + j)
          · subst hi0; simp [c1, D1, D2]
          · subst hi0; simp at c1; simp [c1, D1, D2]
        · simp only [hi0, if_false]
          by_cases c1 : k (s + j + (i + 1)) = k (s + j)
          · simp [c1]
          · simp [c1]
      · rw [ih' (j + 1) (by omega)]
        have e : s + (j + 1) = s + j + 1 := by omega
        simp only [e, N, D1, D2]
        by_cases hi0 : i = 0
        · subst hi0
          simp only [if_true, D1, D2, mul_zero, add_zero, sub_zero, zero_div, zero_add]
          by_cases c1 : k (s + j + 1) = k (s + j)
          · by_cases c2 : k (s + j + 1 + 1) = k (s + j + 1)
            · simp [c1, c2]
            · rw [c1] at c2; simp [c1, c2, hlast]
          · by_cases c2 : k (s + j + 1 + 1) = k (s + j + 1)
            · simp [c1, c2]
            · simp [c1, c2, hlast]
        · simp only [hi0, if_false]
          by_cases c1 : k (s + j + (i + 1)) = k (s + j)
          · by_cases c2 : k (s + j + (i + 1) + 1) = k (s + j + 1)
            · simp [c1, c2]
            · simp [c1, c2, hlast]
          · by_cases c2 : k (s + j + (i + 1) + 1) = k (s + j + 1)
            · simp [c1, c2]
            · simp [c1, c2, hlast]
    · rw [if_neg hjm, ih' j hj]
      have hz : k (s + j + i + 1) ≤ t := (hk (by omega)).trans h1
      have hz' : k (s + j + (i + 1) + 1) ≤ t := (hk (by omega)).trans h1
      rw [N_eq_zero k hk t i _ (Or.inr hz), N_eq_zero k hk t (i + 1) _ (Or.inr hz'),
        D1_eq_zero k hk t i _ (Or.inr hz), D1_eq_zero k hk t (i + 1) _ (Or.inr hz'),
        D2_eq_zero k hk t i _ (Or.inr hz), D2_eq_zero k hk t (i + 1) _ (Or.inr hz')]

/-! ### Analysis -/

theorem N_hasDeriv (k : ℕ → ℝ) (hk : Monotone k) (p : ℕ) (t : ℝ) (ht : t ∈ Set.Ico (k p) (k (p + 1))) :
    ∀ i m, HasDerivWithinAt (fun u => N k m i u) (D1 k m i t) (Set.Ico (k p) (k (p + 1))) t := by
  intro i
  induction i with
  | zero =>
    intro m
    have hconst : ∀ u ∈ Set.Ico (k p) (k (p + 1)), N k m 0 u = if m = p then 1 else 0 := by
      intro u hu
      simp only [N]
      by_cases hm : m = p
      · subst hm; rw [if_pos ⟨hu.1, hu.2⟩, if_pos rfl]
      · rw [if_neg hm, if_neg]
        rintro ⟨a, b⟩
        rcases Nat.lt_or_gt_of_ne hm with h | h
        · exact absurd b (not_lt.2 ((hk (show m + 1 ≤ p by omega)).trans hu.1))
        · exact absurd a (not_le.2 (lt_of_lt_of_le hu.2 (hk (show p + 1 ≤ m by omega))))
    simp only [D1]
    exact (hasDerivWithinAt_const t _ _).congr (fun u hu => hconst u hu) (hconst t ht)
  | succ i ih =>
    intro m
    have ha := ih m
    have hb := ih (m + 1)
    have e1 : HasDerivWithinAt (fun u => (u - k m) / (k (m + (i + 1)) - k m)) (1 / (k (m + (i + 1)) - k m))
        (Set.Ico (k p) (k (p + 1))) t := ((hasDerivWithinAt_id t _).sub_const (k m)).div_const _
    have e2 : HasDerivWithinAt (fun u => (k (m + (i + 1) + 1) - u) / (k (m + (i + 1) + 1) - k (m + 1)))
        (-1 / (k (m + (i + 1) + 1) - k (m + 1))) (Set.Ico (k p) (k (p + 1))) t :=
      ((hasDerivWithinAt_id t _).const_sub _).div_const _
    have := (e1.mul ha).add (e2.mul hb)
    refine this.congr_deriv ?_
    simp only [D1]
    ring

theorem D1_hasDeriv (k : ℕ → ℝ) (hk : Monotone k) (p : ℕ) (t : ℝ) (ht : t ∈ Set.Ico (k p) (k (p + 1))) :
    ∀ i m, HasDerivWithinAt (fun u => D1 k m i u) (D2 k m i t) (Set.Ico (k p) (k (p + 1))) t := by
  intro i
  induction i with
  | zero => intro m; simp only [D1, D2]; exact hasDerivWithinAt_const t _ _
  | succ i ih =>
    intro m
    have ha := ih m
    have hb := ih (m + 1)
    have na := N_hasDeriv k hk p t ht i m
    have nb := N_hasDeriv k hk p t ht i (m + 1)
    have e1 : HasDerivWithinAt (fun u => u - k m) 1 (Set.Ico (k p) (k (p + 1))) t :=
      (hasDerivWithinAt_id t _).sub_const (k m)
    have e2 : HasDerivWithinAt (fun u => k (m + (i + 1) + 1) - u) (-1) (Set.Ico (k p) (k (p + 1))) t :=
      (hasDerivWithinAt_id t _).const_sub _
    have := ((na.add (e1.mul ha)).div_const (k (m + (i + 1)) - k m)).add
      (((e2.mul hb).sub nb).div_const (k (m + (i + 1) + 1) - k (m + 1)))
    refine this.congr_deriv ?_
    simp only [D2]
    ring

/-- **C24** `compute_basis_1` returns the derivatives of the basis functions, on every half-open knot span of
every non-decreasing knot vector (two-sided inside the span, right derivative at its left end). -/
theorem C24_first_derivative (k : ℕ → ℝ) (hk : Monotone k) (t : ℝ) (order s : ℕ) (ho : 1 ≤ order)
    (ht : t ∈ Set.Ico (k (s + order - 1)) (k (s + order))) (j : ℕ) (hj : j < order) :
    HasDerivWithinAt (fun u => basis0 k u order s j) (basis1 k t order s j)
      (Set.Ico (k (s + order - 1)) (k (s + order))) t := by
  have e : s + order - 1 + 1 = s + order := by omega
  have h := N_hasDeriv k hk (s + order - 1) t (by rw [e]; exact ht) (order - 1) (s + j)
  rw [e] at h
  have hb : basis1 k t order s j = D1 k (s + j) (order - 1) t := by
    unfold basis1
    rw [basis1_inv k hk t order s ho ht.1 ht.2 (order - 1) (by omega) j hj]
  rw [hb]
  exact h.congr (fun u hu => C23_is_cox_de_boor k hk u order s ho hu.1 hu.2 j hj)
    (C23_is_cox_de_boor k hk t order s ho ht.1 ht.2 j hj)

/-- **C24** `compute_basis_2` returns the second derivatives. -/
theorem C24_second_derivative (k : ℕ → ℝ) (hk : Monotone k) (t : ℝ) (order s : ℕ) (ho : 1 ≤ order)
    (ht : t ∈ Set.Ico (k (s + order - 1)) (k (s + order))) (j : ℕ) (hj : j < order) :
    HasDerivWithinAt (fun u => basis1 k u order s j) (basis2 k t order s j)
      (Set.Ico (k (s + order - 1)) (k (s + order))) t := by
  have e : s + order - 1 + 1 = s + order := by omega
  have h := D1_hasDeriv k hk (s + order - 1) t (by rw [e]; exact ht) (order - 1) (s + j)
  rw [e] at h
  have hb : basis2 k t order s j = D2 k (s + j) (order - 1) t := by
    unfold basis2
    rw [basis2_inv k hk t order s ho ht.1 ht.2 (order - 1) (by omega) j hj]
  have hb1 : ∀ u ∈ Set.Ico (k (s + order - 1)) (k (s + order)),
      basis1 k u order s j = D1 k (s + j) (order - 1) u := by
    intro u hu
    unfold basis1
    rw [basis1_inv k hk u order s ho hu.1 hu.2 (order - 1) (by omega) j hj]
  rw [hb]
  exact h.congr hb1 (hb1 t ht)

/-- **C24** Strictly inside a span these are ordinary two-sided derivatives. -/
theorem C24_interior (k : ℕ → ℝ) (hk : Monotone k) (t : ℝ) (order s : ℕ) (ho : 1 ≤ order)
    (ht : t ∈ Set.Ioo (k (s + order - 1)) (k (s + order))) (j : ℕ) (hj : j < order) :
    HasDerivAt (fun u => basis0 k u order s j) (basis1 k t order s j) t ∧
    HasDerivAt (fun u => basis1 k u order s j) (basis2 k t order s j) t := by
  have hmem : Set.Ico (k (s + order - 1)) (k (s + order)) ∈ nhds t :=
    Filter.mem_of_superset (isOpen_Ioo.mem_nhds ht) Set.Ioo_subset_Ico_self
  have ht' := Set.Ioo_subset_Ico_self ht
  exact ⟨(C24_first_derivative k hk t order s ho ht' j hj).hasDerivAt hmem,
    (C24_second_derivative k hk t order s ho ht' j hj).hasDerivAt hmem⟩

/-- **C24** The derivative entries sum to zero (the basis sums to one on the span). -/
theorem C24_derivatives_sum_to_zero (k : ℕ → ℝ) (hk : Monotone k) (t : ℝ) (order s : ℕ) (ho : 1 ≤ order)
    (ht : t ∈ Set.Ioo (k (s + order - 1)) (k (s + order))) :
    ∑ j ∈ Finset.range order, basis1 k t order s j = 0 ∧ ∑ j ∈ Finset.range order, basis2 k t order s j = 0 := by
  have hmem : Set.Ioo (k (s + order - 1)) (k (s + order)) ∈ nhds t := isOpen_Ioo.mem_nhds ht
  have hsum1 : ∀ u ∈ Set.Ioo (k (s + order - 1)) (k (s + order)),
      HasDerivAt (fun u => ∑ j ∈ Finset.range order, basis0 k u order s j)
        (∑ j ∈ Finset.range order, basis1 k u order s j) u := by
    intro u hu
    have := HasDerivAt.fun_sum (u := Finset.range order) (A := fun j u => basis0 k u order s j)
      (A' := fun j => basis1 k u order s j) (x := u)
      (fun j hj => (C24_interior k hk u order s ho hu j (Finset.mem_range.1 hj)).1)
    exact this
  have hz : ∀ u ∈ Set.Ioo (k (s + order - 1)) (k (s + order)),
      ∑ j ∈ Finset.range order, basis1 k u order s j = 0 := by
    intro u hu
    have hc : HasDerivAt (fun u => ∑ j ∈ Finset.range order, basis0 k u order s j) 0 u :=
      (hasDerivAt_const u (1 : ℝ)).congr_of_eventuallyEq
        (Filter.eventually_of_mem (isOpen_Ioo.mem_nhds hu) fun v hv =>
          (C23_partition_of_unity k hk v order s ho (Set.Ioo_subset_Ico_self hv).1 hv.2).1)
    exact (hsum1 u hu).unique hc
  refine ⟨hz t ht, ?_⟩
  have h2 : HasDerivAt (fun u => ∑ j ∈ Finset.range order, basis1 k u order s j)
      (∑ j ∈ Finset.range order, basis2 k t order s j) t :=
    HasDerivAt.fun_sum (u := Finset.range order) (A := fun j u => basis1 k u order s j)
      (A' := fun j => basis2 k t order s j) (x := t)
      (fun j hj => (C24_interior k hk t order s ho ht j (Finset.mem_range.1 hj)).2)
  have hc : HasDerivAt (fun u => ∑ j ∈ Finset.range order, basis1 k u order s j) 0 t :=
    (hasDerivAt_const t (0 : ℝ)).congr_of_eventuallyEq (Filter.eventually_of_mem hmem fun v hv => hz v hv)
  exact h2.unique hc

/-- Non-vacuity: quadratic uniform basis on 5 control points, span 1, `t = 1/2`. -/
example : basis1 (knotU 3 5) (1/2 : ℚ) 3 1 0 = -3/2 ∧ basis1 (knotU 3 5) (1/2 : ℚ) 3 1 1 = 0 ∧
    basis1 (knotU 3 5) (1/2 : ℚ) 3 1 2 = 3/2 ∧ basis2 (knotU 3 5) (1/2 : ℚ) 3 1 0 = 9 := by decide +kernel

example : ((1 : ℝ) / 2) ∈ Set.Ioo (knotU 3 5 (1 + 3 - 1) : ℝ) (knotU 3 5 (1 + 3)) := by
  constructor <;> norm_num [knotU]

end SMT.BSpline
