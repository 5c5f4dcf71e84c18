import Verif.Fp.BenchProps

/-!
# C123: Rosenbrock in IEEE arithmetic: NaN, range, minimum
-/
set_option linter.unusedSectionVars false
set_option linter.unusedSimpArgs false
set_option linter.unusedVariables false

namespace SMT.Fp.Bench
open SMT.Fp.Moe SMT.Fp.Corr

variable {K : Type} [Field K] [LinearOrder K] [IsStrictOrderedRing K]
variable (F : Format K)

/-- What makes a term NaN: a NaN, or `∞ - ∞` between the right column and the square of the left one. -/
def TermNan (a b : X K) : Prop := a = .nan ∨ b = .nan ∨ (b = .inf false ∧ sq F a = .inf false)

theorem mul_pos_nn {c : K} (hc : 0 < c) {v : X K} (hv : Nn F v) : Nn F (F.mulX (.fin c) v) := by
  cases v with
  | fin b => exact of_nn F (mul_nonneg hc.le hv.2)
  | inf s =>
    have hs : s = false := hv
    subst hs
    show Nn F (if c = 0 then X.nan else .inf (decide (c < 0) != false))
    rw [if_neg hc.ne', decide_eq_false (not_lt.2 hc.le)]
    exact rfl
  | nan => exact hv.elim

theorem term_range (a b : X K) : (term F a b = .nan ↔ TermNan F a b) ∧ (¬TermNan F a b → Nn F (term F a b)) := by
  have hn : ¬TermNan F a b → Nn F (term F a b) := by
    intro h
    have ha : a ≠ .nan := fun e => h (.inl e)
    have hb : b ≠ .nan := fun e => h (.inr (.inl e))
    have h1 : F.subX b (sq F a) ≠ .nan := by
      rw [Ne, SMT.Fp.Err.sub_nan]
      rintro (e | e | ⟨s, e1, e2⟩)
      · exact hb e
      · exact ha ((sq_nan F a).1 e)
      · have : s = false := by
          have := sq_nn F ha
          rw [e2] at this
          exact this
        subst this
        exact h (.inr (.inr ⟨e1, e2⟩))
    have h2 : F.subX (.fin 1) a ≠ .nan := by
      rw [Ne, SMT.Fp.Err.sub_nan]
      rintro (e | e | ⟨s, e1, e2⟩)
      · cases e
      · exact ha e
      · cases e1
    exact add_nn F (mul_pos_nn F (by norm_num) (sq_nn F h1)) (sq_nn F h2)
  refine ⟨⟨fun h => ?_, fun h => ?_⟩, hn⟩
  · by_contra hx
    have := hn hx
    rw [h] at this
    exact this
  · rcases h with rfl | rfl | ⟨rfl, e⟩
    · show F.addX _ (sq F (F.subX (.fin 1) .nan)) = _
      exact F.addX_nan_right _
    · exact F.addX_nan_left _
    · rw [term, e]
      exact F.addX_nan_left _

theorem fold_range (f : ℕ → X K) (P : ℕ → Prop) (hP : ∀ i, (f i = .nan ↔ P i) ∧ (¬P i → Nn F (f i))) (l : List ℕ) : ∀ s : X K, s = .nan ∨ Nn F s →
    (l.foldl (fun y i => F.addX y (f i)) s = .nan ↔ s = .nan ∨ ∃ i ∈ l, P i) ∧
    (s ≠ .nan → (∀ i ∈ l, ¬P i) → Nn F (l.foldl (fun y i => F.addX y (f i)) s)) := by
  induction l with
  | nil => exact fun s hs => ⟨by simp, fun h _ => hs.resolve_left h⟩
  | cons i l ih =>
    intro s hs
    rw [List.foldl_cons]
    have hnn : s ≠ .nan → ¬P i → Nn F (F.addX s (f i)) := fun h h' => add_nn F (hs.resolve_left h) ((hP i).2 h')
    have hst : F.addX s (f i) = .nan ↔ s = .nan ∨ P i := by
      constructor
      · intro e
        by_contra hc
        push Not at hc
        have := hnn hc.1 hc.2
        rw [e] at this
        exact this
      · rintro (rfl | e)
        · exact F.addX_nan_left _
        · rw [((hP i).1).2 e]; exact F.addX_nan_right _
    have hs' : F.addX s (f i) = .nan ∨ Nn F (F.addX s (f i)) := by
      by_cases hc : s = .nan ∨ P i
      · exact .inl (hst.2 hc)
      · push Not at hc
        exact .inr (hnn hc.1 hc.2)
    obtain ⟨i1, i2⟩ := ih _ hs'
    refine ⟨?_, fun hs1 hl => i2 (fun e => ?_) fun j hj => hl j (List.mem_cons_of_mem _ hj)⟩
    · rw [i1, hst]
      simp only [List.mem_cons, exists_eq_or_imp, or_assoc]
    · rcases hst.1 e with e | e
      · exact hs1 e
      · exact hl i List.mem_cons_self e

/-- For two columns or more the value is NaN exactly if some coordinate is NaN, or some coordinate is `+∞` and the square of its left neighbour is `+∞` too (infinite, or finite and overflowing).
Otherwise the value is a number that is not negative, or `+∞`. -/
theorem C123_rosenbrock_range (x : List (X K)) (h2 : 2 ≤ x.length) :
    (rosenbrock F x = .nan ↔ .nan ∈ x ∨ ∃ i, x[i + 1]? = some (.inf false) ∧ ∃ a, x[i]? = some a ∧ F.mulX a a = .inf false) ∧
    (rosenbrock F x = .nan ∨ Nn F (rosenbrock F x)) := by
  obtain ⟨h1, h3⟩ := fold_range F (fun i => term F (col x i) (col x (i + 1))) (fun i => TermNan F (col x i) (col x (i + 1))) (fun i => term_range F _ _)
    (List.range (x.length - 1)) (.fin 0) (.inr (nn_zero F))
  have hc : ∀ i, i < x.length → x[i]? = some (col x i) := fun i hi => by rw [col_of hi, List.getElem?_eq_getElem hi]
  refine ⟨?_, ?_⟩
  · rw [rosenbrock, h1]
    constructor
    · rintro (e | ⟨i, hi, e⟩)
      · cases e
      have hi := List.mem_range.1 hi
      rcases e with e | e | ⟨e1, e2⟩
      · exact .inl (List.mem_of_getElem? (by rw [hc i (by omega), e]))
      · exact .inl (List.mem_of_getElem? (by rw [hc (i + 1) (by omega), e]))
      · exact .inr ⟨i, by rw [hc (i + 1) (by omega), e1], _, hc i (by omega), e2⟩
    · rintro (e | ⟨i, e1, a, e2, e3⟩)
      · obtain ⟨i, hi, e⟩ := List.getElem_of_mem e
        by_cases h0 : i < x.length - 1
        · exact .inr ⟨i, List.mem_range.2 h0, .inl (by rw [col_of hi, e])⟩
        · refine .inr ⟨i - 1, List.mem_range.2 (by omega), .inr (.inl ?_)⟩
          rw [show i - 1 + 1 = i by omega, col_of hi, e]
      · obtain ⟨hi, _⟩ := List.getElem?_eq_some_iff.1 e1
        rw [hc _ hi] at e1
        rw [hc _ (by omega)] at e2
        injection e1 with e1
        injection e2 with e2
        subst e2
        exact .inr ⟨i, List.mem_range.2 (by omega), .inr (.inr ⟨e1, e3⟩)⟩
  · by_cases hx : ∃ i ∈ List.range (x.length - 1), TermNan F (col x i) (col x (i + 1))
    · exact .inl (h1.2 (.inr hx))
    · push Not at hx
      exact .inr (h3 (by simp) hx)

/-- The value of numbers is never NaN and never negative. -/
theorem C123_rosenbrock_numbers (x : List K) : Nn F (rosenbrock F (x.map .fin)) := by
  have hc : ∀ i, i < x.length → ∃ a, col (x.map X.fin) i = .fin a := fun i hi => ⟨x[i], by rw [col_of (by simpa using hi), List.getElem_map]⟩
  by_cases h2 : 2 ≤ x.length
  · rcases (C123_rosenbrock_range F (x.map .fin) (by simpa using h2)).2 with h | h
    · rcases ((C123_rosenbrock_range F (x.map .fin) (by simpa using h2)).1).1 h with h | ⟨i, h, _⟩
      · simp at h
      · rw [List.getElem?_map] at h
        cases e : x[i + 1]? <;> simp [e] at h
    · exact h
  · rw [rosenbrock, List.length_map, show x.length - 1 = 0 by omega]
    exact nn_zero F

/-- With a single column nothing is computed: the value and the derivative are zero, even at NaN and infinities. -/
theorem C123_rosenbrock_single (v : X K) : rosenbrock F [v] = .fin 0 ∧ rosenbrockDeriv F [v] 0 = .fin 0 := ⟨rfl, rfl⟩

theorem sub_self' (a : K) : F.subX (.fin a) (.fin a) = .fin 0 := by
  show F.of (a + -a) = _
  rw [add_neg_cancel, F.of_zero]

theorem sq_one : sq F (.fin 1) = .fin 1 := by
  show F.of (1 * 1) = _
  rw [mul_one, F.of_one]

theorem zero_add_zero : F.addX (.fin 0) (.fin (0 : K)) = .fin 0 := by
  show F.of (0 + 0) = _
  rw [add_zero, F.of_zero]

/-- At the point `(1, …, 1)` the value and all derivatives are zero, without a rounding error. -/
theorem C123_rosenbrock_minimum (n : ℕ) :
    rosenbrock F (List.replicate n (.fin 1)) = .fin 0 ∧ ∀ kx, kx < n → rosenbrockDeriv F (List.replicate n (.fin 1)) kx = .fin 0 := by
  have hc : ∀ i, i < n → col (List.replicate n (X.fin (1 : K))) i = .fin 1 := fun i hi => by
    rw [col_of (by simpa using hi), List.getElem_replicate]
  constructor
  · rw [rosenbrock, List.length_replicate]
    have ht : ∀ i ∈ List.range (n - 1), term F (col (List.replicate n (X.fin (1 : K))) i) (col (List.replicate n (X.fin (1 : K))) (i + 1)) = .fin 0 := by
      intro i hi
      have := List.mem_range.1 hi
      rw [hc i (by omega), hc (i + 1) (by omega), term, sq_one, sub_self', show sq F (.fin (0 : K)) = .fin 0 from mul_zero' F 0, mul_zero', zero_add_zero]
    have : ∀ l : List ℕ, (∀ i ∈ l, i ∈ List.range (n - 1)) →
        l.foldl (fun y i => F.addX y (term F (col (List.replicate n (X.fin (1 : K))) i) (col (List.replicate n (X.fin (1 : K))) (i + 1)))) (.fin 0) = .fin 0 := by
      intro l
      induction l with
      | nil => intro _; rfl
      | cons i l ih =>
        intro hl
        rw [List.foldl_cons, ht i (hl i List.mem_cons_self), zero_add_zero]
        exact ih fun j hj => hl j (List.mem_cons_of_mem _ hj)
    exact this _ fun i hi => hi
  · intro k hk
    have hr : slopeRight F (.fin 1) (.fin (1 : K)) = .fin 0 := by
      rw [slopeRight, sq_one, sub_self', mul_zero', zero_mul', mul_zero', sub_self']
    have hl : slopeLeft F (.fin 1) (.fin (1 : K)) = .fin 0 := by
      rw [slopeLeft, sq_one, sub_self', mul_zero']
    rw [rosenbrockDeriv, List.length_replicate]
    have hy : (if k < n - 1 then F.addX (.fin 0) (slopeRight F (col (List.replicate n (X.fin (1 : K))) k) (col (List.replicate n (X.fin 1)) (k + 1))) else X.fin 0) = .fin 0 := by
      split
      · rw [hc k (by omega), hc (k + 1) (by omega), hr, zero_add_zero]
      · rfl
    rw [hy]
    show (if 0 < k then _ else _) = _
    split
    · rw [hc k hk, hc (k - 1) (by omega), hl, zero_add_zero]
    · rfl

/-- The derivative for the first column is NaN at `(0, b, …)` for every `b` whose product with 400 overflows, although the value there is a number or `+∞`: the overflow is multiplied by zero. -/
theorem C123_rosenbrock_derivative_nan (b : K) (hb : F.Fin b) (hov : F.big < F.rnd (400 * |b|)) (xs : List K) :
    rosenbrockDeriv F (.fin 0 :: .fin b :: xs.map .fin) 0 = .nan ∧ Nn F (rosenbrock F (.fin 0 :: .fin b :: xs.map .fin)) := by
  refine ⟨?_, C123_rosenbrock_numbers F (0 :: b :: xs)⟩
  have h1 : F.subX (.fin b) (sq F (.fin (0 : K))) = .fin b := by
    rw [show sq F (.fin (0 : K)) = .fin 0 from mul_zero' F 0]
    show F.of (b + -0) = _
    rw [neg_zero, add_zero, F.of_fin hb]
  have h2 : ∃ s, F.mulX (.fin (-400)) (.fin b) = .inf s := by
    refine ⟨decide (-400 * b < 0), ?_⟩
    show F.of (-400 * b) = _
    unfold Format.of
    rw [if_neg]
    rw [not_le]
    refine lt_of_lt_of_le hov ?_
    rcases abs_cases b with ⟨e, _⟩ | ⟨e, _⟩
    · rw [e, show -400 * b = -(400 * b) by ring, F.odd, abs_neg]; exact le_abs_self _
    · rw [e, show 400 * -b = -400 * b by ring]; exact le_abs_self _
  obtain ⟨s, h2⟩ := h2
  have h3 : slopeRight F (.fin 0) (.fin b) = .nan := by
    rw [slopeRight, h1, h2, show F.mulX (.inf s) (.fin (0 : K)) = .nan from if_pos rfl]
    exact F.addX_nan_left _
  have e : rosenbrockDeriv F (.fin 0 :: .fin b :: xs.map .fin) 0 = F.addX (.fin 0) (slopeRight F (.fin 0) (.fin b)) := by
    simp [rosenbrockDeriv, col]
  rw [e, h3]; rfl

/-- At `(0, 2¹⁰²⁰)` the value is `+∞` and the derivative NaN. -/
example : rosenbrock binary64 [.fin 0, .fin (2 ^ 1020)] = .inf false ∧ rosenbrockDeriv binary64 [.fin 0, .fin (2 ^ 1020)] 0 = .nan := by decide +kernel
example : binary64.Fin (2 ^ 1020) ∧ binary64.big < binary64.rnd (400 * |2 ^ 1020|) := by unfold Format.Fin; decide +kernel
/-- `(1e200, +∞)`: NaN; `(-∞, 0)`: `+∞`. -/
example : rosenbrock binary64 [.fin (2 ^ 700), .inf false] = .nan ∧ rosenbrock binary64 [.inf true, .fin 0] = .inf false := by decide +kernel
/-- At `(1/2, 1/2, 2)`. -/
example : rosenbrock binary64 [.fin (1 / 2), .fin (1 / 2), .fin 2] = .fin 313 := by decide +kernel

end SMT.Fp.Bench
