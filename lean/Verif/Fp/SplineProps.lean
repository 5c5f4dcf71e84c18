import Verif.Fp.Spline
import Verif.Fp.Rel
import Verif.Rmtb.Props

/-!
# Property C102: B-spline values and RMTB predictions in rounded arithmetic

Specification: `N k m i t` (Cox–de Boor, C23) on the knots as computed, sums over all entries of a row, and `R.rho ^ n`, a factor
of `n` roundings (`(1 + u) / (1 - u)` each).
-/
namespace SMT.Fp
open SMT.BSpline SMT.Rmtb
set_option linter.unusedSectionVars false
set_option linter.unusedSimpArgs false
set_option linter.unusedVariables false

variable {K : Type} [Field K] [LinearOrder K] [IsStrictOrderedRing K] (R : Rounding K)

/-! ## Knots and span search -/

theorem knotF_mono (order ncp : ℕ) (h : order ≤ ncp) : Monotone (knotF R order ncp) := fun a b hab =>
  R.mono _ _ ((knotU_mono (K := K) order ncp h).monotone hab)

theorem knotF_first (order ncp : ℕ) (ho : 1 ≤ order) : knotF R order ncp (order - 1) = 0 := by
  have := knotU_first (K := K) order ncp ho
  unfold knotU at this
  rw [knotF, this, R.zero]

theorem knotF_last (order ncp : ℕ) (h : order ≤ ncp) : knotF R order ncp ncp = 1 := by
  have := knotU_last (K := K) order ncp h
  unfold knotU at this
  rw [knotF, this, R.one]

theorem search_mono (knots : ℕ → K) (hk : Monotone knots) (t : K) (o : ℕ) : ∀ (m : ℕ), knots o ≤ t →
    (t < knots (o + m) → ∃ i, o ≤ i ∧ i < o + m ∧ knots i ≤ t ∧ t < knots (i + 1) ∧
      (List.range' o m).foldl (fun acc i => if knots i ≤ t ∧ t < knots (i + 1) then some (i - o) else acc) none
        = some (i - o)) ∧
    (knots (o + m) ≤ t →
      (List.range' o m).foldl (fun acc i => if knots i ≤ t ∧ t < knots (i + 1) then some (i - o) else acc) none
        = none) := by
  intro m
  induction m with
  | zero => intro h; exact ⟨fun h' => absurd h (not_le.2 h'), fun _ => rfl⟩
  | succ m ih =>
    intro h
    obtain ⟨iha, ihb⟩ := ih h
    rw [List.range'_concat, List.foldl_append, List.foldl_cons, List.foldl_nil, one_mul]
    by_cases hm : knots (o + m) ≤ t
    · constructor
      · intro hlt
        refine ⟨o + m, by omega, by omega, hm, hlt, ?_⟩
        rw [if_pos ⟨hm, hlt⟩]
      · intro hge
        rw [if_neg (fun hc => absurd hge (not_le.2 hc.2)), ihb hm]
    · have hm' := not_le.1 hm
      refine ⟨fun _ => ?_, fun hge => absurd (le_trans (hk (by omega)) hge) hm⟩
      obtain ⟨i, h1, h2, h3, h4, h5⟩ := iha hm'
      refine ⟨i, h1, by omega, h3, h4, ?_⟩
      rw [if_neg (fun hc => absurd hc.1 hm), h5]

/-- **C102** Whatever the rounding, for every `1 ≤ order ≤ ncp` and parameter in `[0, 1)` the span search on the computed knots
succeeds: the span contains the parameter and its control points are valid indices. -/
theorem C102_span_search (order ncp : ℕ) (ho : 1 ≤ order) (hn : order ≤ ncp) (t : K) (h0 : 0 ≤ t) (h1 : t < 1) :
    ∃ s, iStart order ncp t (knotF R order ncp) = some s ∧ s + order ≤ ncp ∧
      knotF R order ncp (s + order - 1) ≤ t ∧ t < knotF R order ncp (s + order) := by
  have hk := knotF_mono R order ncp hn
  have hsp := search_mono (knotF R order ncp) hk t (order - 1) (ncp - (order - 1))
    (by rw [knotF_first R order ncp ho]; exact h0)
  have e : order - 1 + (ncp - (order - 1)) = ncp := by omega
  rw [e, knotF_last R order ncp hn] at hsp
  obtain ⟨i, a, b, c, d, f⟩ := hsp.1 h1
  refine ⟨i - (order - 1), ?_, by omega, ?_, ?_⟩
  · unfold iStart
    dsimp only
    rw [if_neg, f]
    intro he
    have : knotF R order ncp ncp ≤ knotF R order ncp (order + ncp - 1) := hk (by omega)
    rw [knotF_last R order ncp hn, ← he] at this
    linarith
  · rw [show i - (order - 1) + order - 1 = i by omega]; exact c
  · rw [show i - (order - 1) + order = i + 1 by omega]; exact d

/-- **C102** The computed knots are in order, `0` and `1` are exact at the ends of the domain, every knot is the rounding of
`(i - order + 1) / (ncp - order + 1)`. -/
theorem C102_knots (order ncp : ℕ) (ho : 1 ≤ order) (hn : order ≤ ncp) :
    Monotone (knotF R order ncp) ∧ knotF R order ncp (order - 1) = 0 ∧ knotF R order ncp ncp = 1 ∧
      ∀ i, knotF R order ncp i = R.rnd (knotU order ncp i) :=
  ⟨knotF_mono R order ncp hn, knotF_first R order ncp ho, knotF_last R order ncp hn, fun _ => rfl⟩

/-! ## Basis values -/

theorem term_close {a b c d x v : K} (hab : b ≤ a) (hcd : d ≤ c) {n : ℕ} (h : Close R n x v) :
    Close R (n + 4) ((a - b) / (c - d) * x) (termF R a b c d v) := by
  have h1 : Close R 1 (a - b) (R.rnd (a - b)) := Close.of_rnd (by linarith)
  have h2 : Close R 1 (c - d) (R.rnd (c - d)) := Close.of_rnd (by linarith)
  have h3 := ((h1.div h2).rnd.mul h).rnd
  exact Close.mono (by omega) h3

theorem close_zero (n : ℕ) : Close R n 0 0 := ⟨le_rfl, le_rfl, by simp, by simp⟩

theorem basis0F_inv (k : ℕ → K) (hk : Monotone k) (t : K) (order s : ℕ) (ho : 1 ≤ order)
    (h1 : k (s + order - 1) ≤ t) (h2 : t < k (s + order)) : ∀ i, i + 1 ≤ order → ∀ j, j < order →
    Close R (5 * i) (N k (s + j) i t) ((List.range' 1 i).foldl (fun b i => deg0F R k t order s i b) (init0 order) j) := by
  intro i
  induction i with
  | zero =>
    intro _ j hj
    have := basis0_inv k hk t order s ho h1 h2 0 (by omega) j hj
    simp only [List.range'_zero, List.foldl_nil] at this ⊢
    rw [this]
    exact Close.refl (N_nonneg k hk t _ _)
  | succ i ih =>
    intro hi j hj
    have ih' := ih (by omega)
    rw [List.range'_concat, List.foldl_append, List.foldl_cons, List.foldl_nil]
    set b := (List.range' 1 i).foldl (fun b i => deg0F R k t order s i b) (init0 order) with hb
    have hi1 : 1 + 1 * i = i + 1 := by omega
    rw [hi1]
    unfold deg0F
    set j1 := order - (i + 1) - 1 with hj1
    set b1 := Function.update b j1 (if k (s + j1 + (i + 1) + 1) ≠ k (s + j1 + 1) then
      termF R (k (s + j1 + (i + 1) + 1)) t (k (s + j1 + (i + 1) + 1)) (k (s + j1 + 1)) (b (j1 + 1)) else 0) with hb1
    have hfold := foldl_update (mid0F R k t s (i + 1)) (order - 1 - (j1 + 1)) (j1 + 1) b1
    have hrec : N k (s + j) (i + 1) t = (t - k (s + j)) / (k (s + j + (i + 1)) - k (s + j)) * N k (s + j) i t +
      (k (s + j + (i + 1) + 1) - t) / (k (s + j + (i + 1) + 1) - k (s + j + 1)) * N k (s + j + 1) i t := rfl
    have hkt : k (s + j) ≤ t := (hk (by omega)).trans h1
    by_cases hjlast : j = order - 1
    · have hl := hfold (order - 1)
      rw [if_neg (by omega)] at hl
      rw [hjlast, Function.update_self, hl, hb1, Function.update_of_ne (by omega)]
      have hc := ih' (order - 1) (by omega)
      rw [← hjlast] at hc ⊢
      rw [hrec]
      have z : N k (s + j + 1) i t = 0 := N_eq_zero k hk t i _ (Or.inl (by
        have : s + j + 1 = s + order := by omega
        rw [this]; exact h2))
      rw [z, mul_zero, add_zero]
      split
      · exact Close.mono (by omega) (term_close R hkt (hk (by omega)) hc)
      · rename_i h; rw [not_not.1 h]; simpa using close_zero R _
    · rw [Function.update_of_ne hjlast, hfold]
      by_cases hjm : j1 + 1 ≤ j ∧ j < j1 + 1 + (order - 1 - (j1 + 1))
      · rw [if_pos hjm, hb1, Function.update_of_ne (by omega), Function.update_of_ne (by omega), hrec]
        have hc := ih' j hj
        have hc' := ih' (j + 1) (by omega)
        rw [show s + (j + 1) = s + j + 1 by omega] at hc'
        have htk : t ≤ k (s + j + (i + 1) + 1) := h2.le.trans (hk (by omega))
        unfold mid0F
        dsimp only
        have hv : Close R (5 * i + 4) ((t - k (s + j)) / (k (s + j + (i + 1)) - k (s + j)) * N k (s + j) i t)
            (if k (s + j + (i + 1)) ≠ k (s + j) then termF R t (k (s + j)) (k (s + j + (i + 1))) (k (s + j)) (b j) else 0) := by
          split
          · exact term_close R hkt (hk (by omega)) hc
          · rename_i h; rw [not_not.1 h]; simpa using close_zero R _
        split
        · exact Close.mono (by omega) (hv.add (term_close R htk (hk (by omega)) hc')).rnd
        · rename_i h
          rw [not_not.1 h]
          simp only [sub_self, div_zero, zero_mul, add_zero]
          exact Close.mono (by omega) hv
      · rw [if_neg hjm, hb1]
        by_cases hjj : j = j1
        · have htk : t ≤ k (s + j + (i + 1) + 1) := h2.le.trans (hk (by omega))
          have hc := ih' (j1 + 1) (by omega)
          rw [show s + (j1 + 1) = s + j1 + 1 by omega] at hc
          rw [hjj, Function.update_self]
          rw [← hjj] at hc ⊢
          rw [hrec]
          have z : N k (s + j) i t = 0 := N_eq_zero k hk t i _ (Or.inr ((hk (by omega)).trans h1))
          rw [z, mul_zero, zero_add]
          split
          · exact Close.mono (by omega) (term_close R htk (hk (by omega)) hc)
          · rename_i h; rw [not_not.1 h]; simpa using close_zero R _
        · rw [Function.update_of_ne hjj]
          have hc := ih' j hj
          rw [N_eq_zero k hk t i _ (Or.inr ((hk (by omega)).trans h1))] at hc
          rw [N_eq_zero k hk t (i + 1) _ (Or.inr ((hk (by omega)).trans h1))]
          exact Close.mono (by omega) hc

/-- **C102** Every computed basis value equals the textbook value on the computed knots up to `5 (order - 1)` relative
roundings, for every non-decreasing knot vector. In particular values that should be zero are zero, and none is negative. -/
theorem C102_basis (k : ℕ → K) (hk : Monotone k) (t : K) (order s : ℕ) (ho : 1 ≤ order)
    (h1 : k (s + order - 1) ≤ t) (h2 : t < k (s + order)) (j : ℕ) (hj : j < order) :
    0 ≤ basis0F R k t order s j ∧ basis0F R k t order s j ≤ N k (s + j) (order - 1) t * R.rho ^ (5 * (order - 1)) ∧
      N k (s + j) (order - 1) t ≤ basis0F R k t order s j * R.rho ^ (5 * (order - 1)) ∧
      (basis0F R k t order s j = 0 ↔ N k (s + j) (order - 1) t = 0) := by
  obtain ⟨a, b, d, c⟩ := basis0F_inv R k hk t order s ho h1 h2 (order - 1) (by omega) j hj
  refine ⟨b, c, d, fun h => ?_, fun h => ?_⟩
  · rw [show (List.range' 1 (order - 1)).foldl (fun b i => deg0F R k t order s i b) (init0 order) j = 0 from h, zero_mul] at d
    exact le_antisymm d a
  · rw [h, zero_mul] at c
    exact le_antisymm c b

theorem basis_close (k : ℕ → K) (hk : Monotone k) (t : K) (order s : ℕ) (ho : 1 ≤ order)
    (h1 : k (s + order - 1) ≤ t) (h2 : t < k (s + order)) (j : ℕ) (hj : j < order) :
    Close R (5 * (order - 1)) (basis0 k t order s j) (basis0F R k t order s j) := by
  rw [C23_is_cox_de_boor k hk t order s ho h1 h2 j hj]
  exact basis0F_inv R k hk t order s ho h1 h2 (order - 1) (by omega) j hj

/-- **C102** The computed values sum to one up to `5 (order - 1)` relative roundings. -/
theorem C102_partition (k : ℕ → K) (hk : Monotone k) (t : K) (order s : ℕ) (ho : 1 ≤ order)
    (h1 : k (s + order - 1) ≤ t) (h2 : t < k (s + order)) :
    |∑ j ∈ Finset.range order, basis0F R k t order s j - 1| ≤ R.rho ^ (5 * (order - 1)) - 1 := by
  have hs := (C23_partition_of_unity k hk t order s ho h1 h2).1
  rw [← hs, ← Finset.sum_sub_distrib]
  refine (Finset.abs_sum_le_sum_abs _ _).trans ?_
  have : ∀ j ∈ Finset.range order, |basis0F R k t order s j - basis0 k t order s j| ≤
      basis0 k t order s j * (R.rho ^ (5 * (order - 1)) - 1) := fun j hj =>
    (basis_close R k hk t order s ho h1 h2 j (Finset.mem_range.1 hj)).abs_sub
  refine (Finset.sum_le_sum this).trans ?_
  rw [← Finset.sum_mul, hs, one_mul]

end SMT.Fp
