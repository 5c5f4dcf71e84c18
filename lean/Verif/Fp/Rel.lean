import Verif.Fp.Core
import Mathlib.Algebra.BigOperators.Fin

/-!
# Relative closeness of non-negative quantities

`Close R n x c`: the computed `c` is the exact `x` up to `n` relative errors, in either direction:
`x ≤ c ρⁿ` and `c ≤ x ρⁿ` with `ρ = (1 + u) / (1 - u)`. Sums, products and quotients of non-negative quantities keep it.
-/
set_option linter.unusedSectionVars false
set_option linter.unusedSimpArgs false
set_option linter.unusedVariables false

namespace SMT.Fp

variable {K : Type} [Field K] [LinearOrder K] [IsStrictOrderedRing K] (R : Rounding K)

/-- One relative error in either direction. -/
def Rounding.rho : K := (1 + R.u) / (1 - R.u)

/-- Equal up to `n` relative errors. -/
def Close (n : ℕ) (x c : K) : Prop := 0 ≤ x ∧ 0 ≤ c ∧ x ≤ c * R.rho ^ n ∧ c ≤ x * R.rho ^ n

theorem one_sub_pos : 0 < 1 - R.u := by linarith [R.u_lt]

theorem rho_one_le : 1 ≤ R.rho := by
  rw [Rounding.rho, one_le_div (one_sub_pos R)]
  linarith [R.u_nonneg]

theorem rho_pos : 0 < R.rho := lt_of_lt_of_le one_pos (rho_one_le R)

theorem one_add_le_rho : 1 + R.u ≤ R.rho := by
  rw [Rounding.rho, le_div_iff₀ (one_sub_pos R)]
  nlinarith [R.u_nonneg]

theorem inv_le_rho : 1 ≤ (1 - R.u) * R.rho := by
  rw [Rounding.rho, mul_div_cancel₀ _ (one_sub_pos R).ne']
  linarith [R.u_nonneg]

variable {R}

theorem Close.refl {x : K} (h : 0 ≤ x) : Close R 0 x x := ⟨h, h, by simp, by simp⟩

theorem Close.mono {n m : ℕ} (h : n ≤ m) {x c : K} (hc : Close R n x c) : Close R m x c := by
  obtain ⟨h1, h2, h3, h4⟩ := hc
  have hp := pow_le_pow_right₀ (rho_one_le R) h
  exact ⟨h1, h2, h3.trans (mul_le_mul_of_nonneg_left hp h2), h4.trans (mul_le_mul_of_nonneg_left hp h1)⟩

theorem Close.rnd {n : ℕ} {x c : K} (hc : Close R n x c) : Close R (n + 1) x (R.rnd c) := by
  obtain ⟨h1, h2, h3, h4⟩ := hc
  have hp : 0 < R.rho ^ n := pow_pos (rho_pos R) n
  have hu := R.upper h2
  have hl := R.lower h2
  have a := one_add_le_rho R
  have b := inv_le_rho R
  have hr := rho_pos R
  refine ⟨h1, R.nonneg h2, ?_, ?_⟩
  · have : c ≤ R.rnd c * R.rho := by
      calc c ≤ c * ((1 - R.u) * R.rho) := by nlinarith
        _ = c * (1 - R.u) * R.rho := by ring
        _ ≤ R.rnd c * R.rho := mul_le_mul_of_nonneg_right hl hr.le
    calc x ≤ c * R.rho ^ n := h3
      _ ≤ R.rnd c * R.rho * R.rho ^ n := mul_le_mul_of_nonneg_right this hp.le
      _ = R.rnd c * R.rho ^ (n + 1) := by ring
  · have : R.rnd c ≤ c * R.rho := hu.trans (mul_le_mul_of_nonneg_left a h2)
    calc R.rnd c ≤ c * R.rho := this
      _ ≤ x * R.rho ^ n * R.rho := mul_le_mul_of_nonneg_right h4 hr.le
      _ = x * R.rho ^ (n + 1) := by ring

theorem Close.mul {n m : ℕ} {x c y d : K} (h : Close R n x c) (h' : Close R m y d) : Close R (n + m) (x * y) (c * d) := by
  obtain ⟨h1, h2, h3, h4⟩ := h
  obtain ⟨g1, g2, g3, g4⟩ := h'
  refine ⟨mul_nonneg h1 g1, mul_nonneg h2 g2, ?_, ?_⟩
  · refine (mul_le_mul h3 g3 g1 (mul_nonneg h2 (pow_nonneg (rho_pos R).le n))).trans (le_of_eq ?_)
    rw [pow_add]; ring
  · refine (mul_le_mul h4 g4 g2 (mul_nonneg h1 (pow_nonneg (rho_pos R).le n))).trans (le_of_eq ?_)
    rw [pow_add]; ring

theorem Close.inv {m : ℕ} {y d : K} (h : Close R m y d) : Close R m y⁻¹ d⁻¹ := by
  obtain ⟨g1, g2, g3, g4⟩ := h
  have hp : 0 < R.rho ^ m := pow_pos (rho_pos R) m
  by_cases hy : y = 0
  · have : d = 0 := by
      rw [hy, zero_mul] at g4
      linarith
    rw [hy, this]
    simp [Close]
  · have hd : d ≠ 0 := by
      intro e
      rw [e, zero_mul] at g3
      exact hy (le_antisymm g3 g1)
    have hy' : 0 < y := lt_of_le_of_ne g1 (Ne.symm hy)
    have hd' : 0 < d := lt_of_le_of_ne g2 (Ne.symm hd)
    refine ⟨(inv_pos.2 hy').le, (inv_pos.2 hd').le, ?_, ?_⟩
    · rw [inv_mul_eq_div, le_div_iff₀ hd', inv_mul_le_iff₀ hy']
      exact g4
    · rw [inv_mul_eq_div, le_div_iff₀ hy', inv_mul_le_iff₀ hd']
      exact g3

theorem Close.div {n m : ℕ} {x c y d : K} (h : Close R n x c) (h' : Close R m y d) : Close R (n + m) (x / y) (c / d) := by
  rw [div_eq_mul_inv, div_eq_mul_inv]
  exact h.mul h'.inv

theorem Close.add {n : ℕ} {x c y d : K} (h : Close R n x c) (h' : Close R n y d) : Close R n (x + y) (c + d) := by
  obtain ⟨h1, h2, h3, h4⟩ := h
  obtain ⟨g1, g2, g3, g4⟩ := h'
  exact ⟨add_nonneg h1 g1, add_nonneg h2 g2, by linarith [add_mul c d (R.rho ^ n)], by linarith [add_mul x y (R.rho ^ n)]⟩

theorem Close.of_rnd {x : K} (h : 0 ≤ x) : Close R 1 x (R.rnd x) := (Close.refl h).rnd

/-- A rounded sum, from the left. -/
theorem Close.foldl {n : ℕ} : ∀ (l l' : List K), List.Forall₂ (Close R n) l l' → ∀ (m : ℕ), n ≤ m → ∀ (a b : K), Close R m a b →
    Close R (m + l.length) (a + l.sum) (l'.foldl (fun s v => R.rnd (s + v)) b) := by
  intro l l' h
  induction h with
  | nil => intro m _ a b hab; simpa using hab
  | @cons x c l l' hx _ ih =>
    intro m hm a b hab
    have := ih (m + 1) (by omega) (a + x) (R.rnd (b + c)) ((hab.add (hx.mono hm)).rnd)
    simp only [List.foldl_cons, List.sum_cons, List.length_cons]
    rw [← add_assoc a x, show m + (l.length + 1) = m + 1 + l.length by omega]
    exact this

/-- `c` and `x` differ by at most `x (ρⁿ - 1)`... in absolute terms. -/
theorem Close.abs_sub {n : ℕ} {x c : K} (h : Close R n x c) : |c - x| ≤ x * (R.rho ^ n - 1) := by
  obtain ⟨h1, h2, h3, h4⟩ := h
  have hp : 1 ≤ R.rho ^ n := one_le_pow₀ (rho_one_le R)
  rw [abs_le]
  constructor
  · by_cases hc : x ≤ c
    · nlinarith
    · have hc := not_le.1 hc
      -- x ≤ c ρ ≤ ..., so x - c ≤ c (ρ - 1) ≤ x (ρ - 1)
      nlinarith
  · linarith

end SMT.Fp
