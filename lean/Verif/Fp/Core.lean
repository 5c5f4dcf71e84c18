import Verif.MixedInt.Props
import Mathlib.Data.Int.Log
import Mathlib.Tactic.Positivity
import Mathlib.Tactic.FieldSimp
import Mathlib.Algebra.Order.Field.Power

/-!
# Rounded arithmetic

The rest of the development computes with exact scalars. Here an arithmetic that rounds after every operation is
described by what the IEEE 754 basic operations (add, subtract, multiply, divide: the exact result, rounded) guarantee:
the rounding is monotone, odd, idempotent, keeps `1`, and has a relative error of at most `u`. Overflow,
underflow, infinities and NaN are not modelled (the exponent is unbounded).

`binary p` is the rounding to `p` significant bits, to nearest, ties to even; `binary 53` is that of the `double` of C and
of NumPy's `float64`, up to the range of the exponent. That it satisfies the description is proved below.
-/
set_option linter.unusedSectionVars false
set_option linter.unusedSimpArgs false
set_option linter.unusedVariables false

namespace SMT.Fp

open SMT.MixedInt (roundHalfEven)

/-- A rounding with unit round-off `u`. -/
structure Rounding (K : Type) [Field K] [LinearOrder K] [IsStrictOrderedRing K] where
  rnd : K → K
  u : K
  mono : ∀ x y, x ≤ y → rnd x ≤ rnd y
  odd : ∀ x, rnd (-x) = -rnd x
  idem : ∀ x, rnd (rnd x) = rnd x
  one : rnd 1 = 1
  rel : ∀ x, |rnd x - x| ≤ u * |x|
  u_nonneg : 0 ≤ u
  u_lt : u < 1

section
variable {K : Type} [Field K] [LinearOrder K] [IsStrictOrderedRing K]

/-- A number of the format. -/
def Rounding.Rep (R : Rounding K) (x : K) : Prop := R.rnd x = x

/-- Exact arithmetic. -/
def exact : Rounding K where
  rnd := id
  u := 0
  mono := fun _ _ h => h
  odd := fun _ => rfl
  idem := fun _ => rfl
  one := rfl
  rel := fun x => by simp
  u_nonneg := le_rfl
  u_lt := one_pos

namespace Rounding
variable (R : Rounding K)

theorem zero : R.rnd 0 = 0 := by
  have h := R.rel 0
  simp at h
  exact h

theorem eq_zero {x : K} : R.rnd x = 0 ↔ x = 0 := by
  constructor
  · intro h
    by_contra hx
    have h1 := R.rel x
    rw [h, zero_sub, abs_neg] at h1
    have h2 : 0 < |x| := abs_pos.2 hx
    nlinarith [R.u_lt]
  · rintro rfl
    exact R.zero

theorem nonneg {x : K} (h : 0 ≤ x) : 0 ≤ R.rnd x := by
  have := R.mono 0 x h
  rwa [R.zero] at this

theorem nonpos {x : K} (h : x ≤ 0) : R.rnd x ≤ 0 := by
  have := R.mono x 0 h
  rwa [R.zero] at this

theorem pos {x : K} (h : 0 < x) : 0 < R.rnd x := lt_of_le_of_ne (R.nonneg h.le) fun e => h.ne' (R.eq_zero.1 e.symm)

theorem neg {x : K} (h : x < 0) : R.rnd x < 0 := by
  have := R.pos (neg_pos.2 h)
  rw [R.odd] at this
  linarith

theorem le_one {x : K} (h : x ≤ 1) : R.rnd x ≤ 1 := by
  have := R.mono x 1 h
  rwa [R.one] at this

theorem le_rep {x y : K} (hy : R.Rep y) (h : x ≤ y) : R.rnd x ≤ y := by
  have := R.mono x y h
  rwa [show R.rnd y = y from hy] at this

theorem rep_le {x y : K} (hx : R.Rep x) (h : x ≤ y) : x ≤ R.rnd y := by
  have := R.mono x y h
  rwa [show R.rnd x = x from hx] at this

theorem upper {x : K} (h : 0 ≤ x) : R.rnd x ≤ x * (1 + R.u) := by
  have := (abs_le.1 (R.rel x)).2
  rw [abs_of_nonneg h] at this
  linarith

theorem lower {x : K} (h : 0 ≤ x) : x * (1 - R.u) ≤ R.rnd x := by
  have := (abs_le.1 (R.rel x)).1
  rw [abs_of_nonneg h] at this
  linarith

theorem rep_rnd (x : K) : R.Rep (R.rnd x) := R.idem x
theorem rep_zero : R.Rep 0 := R.zero
theorem rep_one : R.Rep 1 := R.one
theorem rep_neg {x : K} (h : R.Rep x) : R.Rep (-x) := by
  show R.rnd (-x) = -x
  rw [R.odd, show R.rnd x = x from h]

end Rounding
end

/-! ## Rounding to nearest with `p` bits -/

section
variable {K : Type} [Field K] [LinearOrder K] [IsStrictOrderedRing K] [FloorRing K]

theorem rhe_bounds (x : K) : (⌊x⌋ : K) ≤ x ∧ x < (⌊x⌋ : K) + 1 := ⟨Int.floor_le x, Int.lt_floor_add_one x⟩

theorem rhe_mono {x y : K} (h : x ≤ y) : roundHalfEven x ≤ roundHalfEven y := by
  have hf : ⌊x⌋ ≤ ⌊y⌋ := Int.floor_le_floor h
  rcases hf.lt_or_eq with hlt | he
  · have h1 : roundHalfEven x ≤ ⌊x⌋ + 1 := by
      unfold roundHalfEven
      split_ifs <;> omega
    have h2 : ⌊y⌋ ≤ roundHalfEven y := by
      unfold roundHalfEven
      split_ifs <;> omega
    omega
  · unfold roundHalfEven
    rw [← he]
    have h0 : x - (⌊x⌋ : K) ≤ y - (⌊x⌋ : K) := by linarith
    split_ifs <;> first | omega | (exfalso; linarith)

theorem rhe_intCast (k : ℤ) : roundHalfEven (k : K) = k := SMT.MixedInt.round_intCast k

theorem rhe_neg (x : K) : roundHalfEven (-x) = -roundHalfEven x := by
  by_cases hi : (⌊x⌋ : K) = x
  · rw [← hi, ← Int.cast_neg, rhe_intCast, rhe_intCast]
  · obtain ⟨h1, h2⟩ := rhe_bounds x
    have h1' : (⌊x⌋ : K) < x := lt_of_le_of_ne h1 hi
    have hn : ⌊-x⌋ = -⌊x⌋ - 1 := by
      rw [Int.floor_eq_iff]
      push_cast
      constructor <;> linarith
    unfold roundHalfEven
    rw [hn]
    push_cast
    have e : -x - (-(⌊x⌋ : K) - 1) = 1 - (x - (⌊x⌋ : K)) := by ring
    rw [e]
    generalize (x - (⌊x⌋ : K)) = f at *
    split_ifs <;> first | omega | (exfalso; linarith)

end

section
variable {K : Type} [Field K] [LinearOrder K] [IsStrictOrderedRing K] [FloorRing K]

/-- The distance between consecutive numbers of `p` bits around `x`. -/
def ulp (p : ℕ) (x : K) : K := (2 : K) ^ (Int.log 2 |x| - ((p : ℤ) - 1))

/-- Round to nearest with `p` bits, ties to even. -/
def rne (p : ℕ) (x : K) : K := (roundHalfEven (x / ulp p x) : K) * ulp p x

theorem ulp_pos (p : ℕ) (x : K) : 0 < ulp p x := zpow_pos two_pos _

theorem rne_zero (p : ℕ) : rne p (0 : K) = 0 := by
  have : roundHalfEven ((0 : K) / ulp p 0) = 0 := by
    rw [zero_div]
    exact_mod_cast rhe_intCast (K := K) 0
  rw [rne, this]
  simp

theorem rne_odd (p : ℕ) (x : K) : rne p (-x) = -rne p x := by
  have hu : ulp p (-x) = ulp p x := by simp only [ulp, abs_neg]
  rw [rne, rne, hu, neg_div, rhe_neg]
  push_cast
  ring

theorem two_cast : ((2 : ℕ) : K) = 2 := by norm_num

/-- The quotient by the unit in the last place. -/
theorem quot_bounds {p : ℕ} {x : K} (hx : 0 < x) : (2 : K) ^ ((p : ℤ) - 1) ≤ x / ulp p x ∧ x / ulp p x < (2 : K) ^ (p : ℤ) := by
  have h1 := Int.zpow_log_le_self (b := 2) (by norm_num) hx
  have h2 := Int.lt_zpow_succ_log_self (b := 2) (by norm_num) x
  rw [two_cast] at h1 h2
  have e : ulp p x = (2 : K) ^ (Int.log 2 x - ((p : ℤ) - 1)) := by rw [ulp, abs_of_pos hx]
  constructor
  · rw [le_div_iff₀ (ulp_pos p x), e, ← zpow_add₀ two_ne_zero]
    refine le_trans (le_of_eq ?_) h1
    congr 1
    ring
  · rw [div_lt_iff₀ (ulp_pos p x), e, ← zpow_add₀ two_ne_zero]
    refine lt_of_lt_of_eq h2 ?_
    congr 1
    ring

theorem two_zpow_nat (n : ℕ) : (2 : K) ^ (n : ℤ) = (((2 : ℤ) ^ n : ℤ) : K) := by
  rw [zpow_natCast]
  push_cast
  rfl

theorem pred_cast {p : ℕ} (hp : 1 ≤ p) : (p : ℤ) - 1 = ((p - 1 : ℕ) : ℤ) := by omega

/-- The integer significand. -/
theorem signif_bounds {p : ℕ} (hp : 1 ≤ p) {x : K} (hx : 0 < x) : (2 : ℤ) ^ (p - 1) ≤ roundHalfEven (x / ulp p x) ∧ roundHalfEven (x / ulp p x) ≤ (2 : ℤ) ^ p := by
  obtain ⟨h1, h2⟩ := quot_bounds (p := p) hx
  rw [pred_cast hp, two_zpow_nat] at h1
  rw [two_zpow_nat] at h2
  constructor
  · have := rhe_mono h1
    rwa [rhe_intCast] at this
  · have := rhe_mono h2.le
    rwa [rhe_intCast] at this

theorem rne_le_pow {p : ℕ} (hp : 1 ≤ p) {x : K} (hx : 0 < x) : (2 : K) ^ Int.log 2 x ≤ rne p x ∧ rne p x ≤ (2 : K) ^ (Int.log 2 x + 1) := by
  obtain ⟨h1, h2⟩ := signif_bounds hp hx
  have h1' : (((2 : ℤ) ^ (p - 1) : ℤ) : K) ≤ ((roundHalfEven (x / ulp p x) : ℤ) : K) := by exact_mod_cast h1
  have h2' : ((roundHalfEven (x / ulp p x) : ℤ) : K) ≤ (((2 : ℤ) ^ p : ℤ) : K) := by exact_mod_cast h2
  rw [← two_zpow_nat] at h1' h2'
  have hu := ulp_pos p x
  have e : ulp p x = (2 : K) ^ (Int.log 2 x - ((p : ℤ) - 1)) := by rw [ulp, abs_of_pos hx]
  constructor
  · refine le_trans (le_of_eq ?_) (mul_le_mul_of_nonneg_right h1' hu.le)
    rw [e, ← zpow_add₀ two_ne_zero, ← pred_cast hp]
    congr 1
    ring
  · refine le_trans (mul_le_mul_of_nonneg_right h2' hu.le) (le_of_eq ?_)
    rw [e, ← zpow_add₀ two_ne_zero]
    congr 1
    ring

theorem rne_mono_pos {p : ℕ} (hp : 1 ≤ p) {x y : K} (hx : 0 < x) (h : x ≤ y) : rne p x ≤ rne p y := by
  have hy : 0 < y := lt_of_lt_of_le hx h
  have hl : Int.log 2 x ≤ Int.log 2 y := Int.log_mono_right hx h
  rcases hl.lt_or_eq with hlt | he
  · calc rne p x ≤ (2 : K) ^ (Int.log 2 x + 1) := (rne_le_pow hp hx).2
      _ ≤ (2 : K) ^ Int.log 2 y := zpow_le_zpow_right₀ (by norm_num) (by omega)
      _ ≤ rne p y := (rne_le_pow hp hy).1
  · have hu : ulp p y = ulp p x := by rw [ulp, ulp, abs_of_pos hx, abs_of_pos hy, he]
    rw [rne, rne, hu]
    have h0 := ulp_pos p x
    refine mul_le_mul_of_nonneg_right ?_ h0.le
    have : x / ulp p x ≤ y / ulp p x := (div_le_div_iff_of_pos_right h0).2 h
    exact_mod_cast rhe_mono this

theorem rne_pos {p : ℕ} (hp : 1 ≤ p) {x : K} (hx : 0 < x) : 0 < rne p x := lt_of_lt_of_le (zpow_pos two_pos _) (rne_le_pow hp hx).1

theorem rne_mono {p : ℕ} (hp : 1 ≤ p) {x y : K} (h : x ≤ y) : rne p x ≤ rne p y := by
  rcases lt_trichotomy 0 x with hx | hx | hx
  · exact rne_mono_pos hp hx h
  · subst hx
    rw [rne_zero]
    rcases h.lt_or_eq with hy | hy
    · exact (rne_pos hp hy).le
    · rw [← hy, rne_zero]
  · have nx : 0 < -x := neg_pos.2 hx
    have hnx : rne p x = -rne p (-x) := by rw [rne_odd, neg_neg]
    rcases lt_trichotomy 0 y with hy | hy | hy
    · have := rne_pos hp hy
      have := rne_pos hp nx
      linarith
    · subst hy
      rw [rne_zero]
      have := rne_pos hp nx
      linarith
    · have hny : rne p y = -rne p (-y) := by rw [rne_odd, neg_neg]
      have := rne_mono_pos hp (neg_pos.2 hy) (neg_le_neg h)
      linarith

theorem rne_rel {p : ℕ} (hp : 1 ≤ p) (x : K) : |rne p x - x| ≤ (2 : K) ^ (-(p : ℤ)) * |x| := by
  wlog hx : 0 < x generalizing x with H
  · rcases (not_lt.1 hx).lt_or_eq with h | h
    · have := H (-x) (neg_pos.2 h)
      rw [rne_odd, abs_neg, show -rne p x - -x = -(rne p x - x) by ring, abs_neg] at this
      exact this
    · subst h
      simp [rne_zero]
  have hu := ulp_pos p x
  have h := SMT.MixedInt.round_near (x / ulp p x)
  have e : rne p x - x = -((x / ulp p x - (roundHalfEven (x / ulp p x) : K)) * ulp p x) := by
    rw [rne]
    field_simp
    ring
  rw [e, abs_neg, abs_mul, abs_of_pos hu, abs_of_pos hx]
  have h1 := (quot_bounds (p := p) hx).1
  rw [le_div_iff₀ hu] at h1
  have h2 : (1 / 2 : K) * ulp p x = (2 : K) ^ (-(p : ℤ)) * ((2 : K) ^ ((p : ℤ) - 1) * ulp p x) := by
    rw [← mul_assoc, ← zpow_add₀ two_ne_zero, show -(p : ℤ) + ((p : ℤ) - 1) = -1 by ring]
    norm_num
  calc |x / ulp p x - (roundHalfEven (x / ulp p x) : K)| * ulp p x ≤ 1 / 2 * ulp p x := mul_le_mul_of_nonneg_right h hu.le
    _ = (2 : K) ^ (-(p : ℤ)) * ((2 : K) ^ ((p : ℤ) - 1) * ulp p x) := h2
    _ ≤ (2 : K) ^ (-(p : ℤ)) * x := mul_le_mul_of_nonneg_left h1 (zpow_nonneg (by norm_num) _)

/-- An integer number of units in the last place is kept. -/
theorem rne_fixed {p : ℕ} {x : K} (m : ℤ) (h : x = m * ulp p x) : rne p x = x := by
  have hu := ulp_pos p x
  have : x / ulp p x = m := by
    rw [div_eq_iff hu.ne']
    exact h
  rw [rne, this, rhe_intCast, ← h]

theorem rne_zpow {p : ℕ} (hp : 1 ≤ p) (k : ℤ) : rne p ((2 : K) ^ k) = (2 : K) ^ k := by
  refine rne_fixed ((2 : ℤ) ^ (p - 1)) ?_
  have hl : Int.log 2 ((2 : K) ^ k) = k := by
    have := Int.log_zpow (R := K) (b := 2) (by norm_num) k
    rwa [two_cast] at this
  rw [ulp, abs_of_pos (zpow_pos two_pos k), hl, ← two_zpow_nat, ← zpow_add₀ two_ne_zero, ← pred_cast hp]
  congr 1
  ring

theorem rne_idem_pos {p : ℕ} (hp : 1 ≤ p) {x : K} (hx : 0 < x) : rne p (rne p x) = rne p x := by
  obtain ⟨h1, h2⟩ := rne_le_pow hp hx
  rcases h2.lt_or_eq with hlt | he
  · have hy := rne_pos hp hx
    have hl : Int.log 2 (rne p x) = Int.log 2 x := by
      apply le_antisymm
      · have := (Int.lt_zpow_iff_log_lt (b := 2) (by norm_num) (x := Int.log 2 x + 1) hy).1 (by rw [two_cast]; exact hlt)
        omega
      · exact (Int.zpow_le_iff_le_log (b := 2) (by norm_num) hy).1 (by rw [two_cast]; exact h1)
    have hu : ulp p (rne p x) = ulp p x := by rw [ulp, ulp, abs_of_pos hx, abs_of_pos hy, hl]
    refine rne_fixed (roundHalfEven (x / ulp p x)) ?_
    rw [hu, rne]
  · rw [he, rne_zpow hp]

theorem rne_idem {p : ℕ} (hp : 1 ≤ p) (x : K) : rne p (rne p x) = rne p x := by
  rcases lt_trichotomy 0 x with hx | hx | hx
  · exact rne_idem_pos hp hx
  · rw [← hx, rne_zero, rne_zero]
  · have h : rne p x = -rne p (-x) := by rw [rne_odd, neg_neg]
    rw [h, rne_odd, rne_idem_pos hp (neg_pos.2 hx)]

/-- Rounding to nearest with `p` bits is a rounding with unit round-off `2⁻ᵖ`. -/
def binary (p : ℕ) (hp : 1 ≤ p) : Rounding K where
  rnd := rne p
  u := (2 : K) ^ (-(p : ℤ))
  mono := fun _ _ h => rne_mono hp h
  odd := rne_odd p
  idem := rne_idem hp
  one := by simpa using rne_zpow (K := K) hp 0
  rel := rne_rel hp
  u_nonneg := zpow_nonneg (by norm_num) _
  u_lt := by
    rw [zpow_neg]
    apply inv_lt_one_of_one_lt₀
    exact one_lt_zpow₀ (by norm_num) (by omega)

/-- Integers of at most `p` bits are numbers of the format. -/
theorem binary_int {p : ℕ} (hp : 1 ≤ p) (i : ℤ) (h : |i| ≤ 2 ^ p) : (binary (K := K) p hp).Rep (i : K) := by
  show rne p (i : K) = i
  wlog hi : 0 < i generalizing i with H
  · rcases (not_lt.1 hi).lt_or_eq with h0 | h0
    · have := H (-i) (by rwa [abs_neg]) (by omega)
      rw [Int.cast_neg, rne_odd] at this
      linarith
    · subst h0
      simp [rne_zero]
  rw [abs_of_pos hi] at h
  have hi' : (0 : K) < (i : K) := by exact_mod_cast hi
  rcases h.lt_or_eq with hlt | he
  · have hl : Int.log 2 (i : K) < p := by
      refine (Int.lt_zpow_iff_log_lt (b := 2) (by norm_num) hi').1 ?_
      rw [two_cast, two_zpow_nat]
      exact_mod_cast hlt
    obtain ⟨d, hd⟩ : ∃ d : ℕ, (p : ℤ) - 1 - Int.log 2 (i : K) = d := ⟨((p : ℤ) - 1 - Int.log 2 (i : K)).toNat, by omega⟩
    refine rne_fixed (i * 2 ^ d) ?_
    have : ulp p (i : K) = (2 : K) ^ (-(d : ℤ)) := by
      rw [ulp, abs_of_pos hi']
      congr 1
      omega
    rw [this, zpow_neg, zpow_natCast]
    push_cast
    field_simp
  · have : (i : K) = (2 : K) ^ (p : ℤ) := by
      rw [he, two_zpow_nat]
    rw [this, rne_zpow hp]

end

/-- The `double` of C and `float64` of NumPy (unbounded exponent). -/
abbrev double : Rounding ℚ := binary 53 (by norm_num)

/-- `0.1 + 0.2` is not `0.3` in double precision. -/
example : double.rnd (double.rnd (1 / 10) + double.rnd (2 / 10)) ≠ double.rnd (3 / 10) := by decide +kernel
example : double.rnd (1 / 10) = 3602879701896397 / 36028797018963968 := by decide +kernel

end SMT.Fp
