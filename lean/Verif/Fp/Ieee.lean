import Verif.Fp.Core

/-!
# Arithmetic with overflow, underflow, infinities and NaN

`X K` are the values of a floating-point format: finite numbers, two infinities, NaN. Signs of zeros are not
distinguished: a zero divisor counts as `+0`. A `Format` gives the rounding of exact results (with gradual underflow) and the largest
finite number; results that round beyond it are infinite. `ieee p e big` is rounding to nearest, ties to even, with `p` bits and
smallest normal number `2 ^ e`; `binary64` is the `double` of C and NumPy's `float64`.
-/
set_option linter.unusedSectionVars false
set_option linter.unusedSimpArgs false
set_option linter.unusedVariables false

namespace SMT.Fp
open SMT.MixedInt (roundHalfEven)

/-- Values of a floating-point format; `inf true` is `-∞`. -/
inductive X (K : Type) where
  | fin : K → X K
  | inf : Bool → X K
  | nan : X K
deriving DecidableEq

/-- Rounding of exact results, and the largest finite number. -/
structure Format (K : Type) [Field K] [LinearOrder K] [IsStrictOrderedRing K] where
  rnd : K → K
  u : K
  tiny : K
  big : K
  mono : ∀ x y, x ≤ y → rnd x ≤ rnd y
  odd : ∀ x, rnd (-x) = -rnd x
  idem : ∀ x, rnd (rnd x) = rnd x
  one : rnd 1 = 1
  err : ∀ x, |rnd x - x| ≤ u * |x| + tiny
  /-- Sums do not underflow. -/
  add : ∀ x y, rnd x = x → rnd y = y → |rnd (x + y) - (x + y)| ≤ u * |x + y|
  u_nonneg : 0 ≤ u
  u_lt : u < 1
  tiny_nonneg : 0 ≤ tiny
  big_rep : rnd big = big
  one_le_big : 1 ≤ big

section
variable {K : Type} [Field K] [LinearOrder K] [IsStrictOrderedRing K]

namespace Format
variable (F : Format K)

theorem zero : F.rnd 0 = 0 := by
  have := F.odd 0
  rw [neg_zero] at this
  linarith

theorem nonneg {x : K} (h : 0 ≤ x) : 0 ≤ F.rnd x := by
  have := F.mono 0 x h
  rwa [F.zero] at this

theorem nonpos {x : K} (h : x ≤ 0) : F.rnd x ≤ 0 := by
  have := F.mono x 0 h
  rwa [F.zero] at this

theorem le_rep {x y : K} (hy : F.rnd y = y) (h : x ≤ y) : F.rnd x ≤ y := by
  have := F.mono x y h
  rwa [hy] at this

theorem rep_le {x y : K} (hx : F.rnd x = x) (h : x ≤ y) : x ≤ F.rnd y := by
  have := F.mono x y h
  rwa [hx] at this

theorem big_pos : 0 < F.big := lt_of_lt_of_le one_pos F.one_le_big

/-- A finite number of the format. -/
def Fin (x : K) : Prop := F.rnd x = x ∧ |x| ≤ F.big

/-- A value of the format. -/
def Val : X K → Prop
  | .fin x => F.Fin x
  | _ => True

/-- The rounded result of an operation: infinite if it is beyond the largest finite number. -/
def of (x : K) : X K := if |F.rnd x| ≤ F.big then .fin (F.rnd x) else .inf (decide (x < 0))

theorem fin_zero : F.Fin 0 := ⟨F.zero, by rw [abs_zero]; exact F.big_pos.le⟩
theorem fin_one : F.Fin 1 := ⟨F.one, by rw [abs_one]; exact F.one_le_big⟩

theorem of_val (x : K) : F.Val (F.of x) := by
  unfold of
  split
  · exact ⟨F.idem x, by assumption⟩
  · trivial

theorem of_fin {x : K} (h : F.Fin x) : F.of x = .fin x := by
  rw [of, h.1, if_pos h.2]

theorem of_zero : F.of 0 = .fin 0 := F.of_fin F.fin_zero
theorem of_one : F.of 1 = .fin 1 := F.of_fin F.fin_one

theorem of_small {x : K} (h : |x| ≤ F.big) : F.of x = .fin (F.rnd x) := by
  rw [of, if_pos]
  rw [abs_le] at h ⊢
  refine ⟨F.rep_le ?_ h.1, F.le_rep F.big_rep h.2⟩
  rw [F.odd, F.big_rep]

/-- `a + b`. -/
def addX : X K → X K → X K
  | .nan, _ => .nan
  | _, .nan => .nan
  | .fin a, .fin b => F.of (a + b)
  | .fin _, .inf s => .inf s
  | .inf s, .fin _ => .inf s
  | .inf s, .inf t => if s = t then .inf s else .nan

end Format

/-- `-a`. -/
def X.neg : X K → X K
  | .nan => .nan
  | .fin a => .fin (-a)
  | .inf s => .inf (!s)

/-- `a < b` (false if one of them is NaN). -/
def X.lt : X K → X K → Bool
  | .nan, _ => false
  | _, .nan => false
  | .fin a, .fin b => decide (a < b)
  | .fin _, .inf s => !s
  | .inf s, .fin _ => s
  | .inf s, .inf t => s && !t

namespace Format
variable (F : Format K)

/-- `a - b`. -/
def subX (a b : X K) : X K := F.addX a b.neg

/-- `a * b`. -/
def mulX : X K → X K → X K
  | .nan, _ => .nan
  | _, .nan => .nan
  | .fin a, .fin b => F.of (a * b)
  | .fin a, .inf s => if a = 0 then .nan else .inf (decide (a < 0) != s)
  | .inf s, .fin b => if b = 0 then .nan else .inf (decide (b < 0) != s)
  | .inf s, .inf t => .inf (s != t)

/-- `a / b`. -/
def divX : X K → X K → X K
  | .nan, _ => .nan
  | _, .nan => .nan
  | .fin a, .fin b => if b = 0 then (if a = 0 then .nan else .inf (decide (a < 0))) else F.of (a / b)
  | .fin _, .inf _ => .fin 0
  | .inf s, .fin b => .inf (decide (b < 0) != s)
  | .inf _, .inf _ => .nan

theorem addX_val : ∀ {a b : X K}, F.Val (F.addX a b)
  | .nan, .nan => trivial
  | .nan, .fin _ => trivial
  | .nan, .inf _ => trivial
  | .fin _, .nan => trivial
  | .inf _, .nan => trivial
  | .fin a, .fin b => F.of_val _
  | .fin _, .inf _ => trivial
  | .inf _, .fin _ => trivial
  | .inf s, .inf t => by
    show F.Val (if s = t then .inf s else .nan)
    by_cases h : s = t
    · rw [if_pos h]; trivial
    · rw [if_neg h]; trivial

theorem addX_nan_left (b : X K) : F.addX .nan b = .nan := by cases b <;> rfl
theorem addX_nan_right (a : X K) : F.addX a .nan = .nan := by cases a <;> rfl
theorem mulX_nan_left (b : X K) : F.mulX .nan b = .nan := by cases b <;> rfl
theorem mulX_nan_right (a : X K) : F.mulX a .nan = .nan := by cases a <;> rfl
theorem divX_nan_left (b : X K) : F.divX .nan b = .nan := by cases b <;> rfl
theorem divX_nan_right (a : X K) : F.divX a .nan = .nan := by cases a <;> rfl

end Format
end

/-! ## The format with `p` bits and smallest normal number `2 ^ e` -/

section
variable {K : Type} [Field K] [LinearOrder K] [IsStrictOrderedRing K] [FloorRing K]

/-- The smallest positive number. -/
def grid (p : ℕ) (e : ℤ) : K := (2 : K) ^ (e - ((p : ℤ) - 1))

/-- Round to nearest, ties to even, with gradual underflow below `2 ^ e`. -/
def rns (p : ℕ) (e : ℤ) (x : K) : K :=
  if |x| < (2 : K) ^ e then (roundHalfEven (x / grid p e) : K) * grid p e else rne p x

variable {p : ℕ} {e : ℤ}

theorem grid_pos : 0 < (grid p e : K) := zpow_pos two_pos _

theorem pow_e (hp : 1 ≤ p) : (2 : K) ^ e = (((2 : ℤ) ^ (p - 1) : ℤ) : K) * grid p e := by
  rw [← two_zpow_nat, grid, ← zpow_add₀ two_ne_zero, ← pred_cast hp]
  congr 1
  ring

theorem low_mono {x y : K} (h : x ≤ y) : (roundHalfEven (x / grid p e) : K) * grid p e ≤ (roundHalfEven (y / grid p e) : K) * grid p e := by
  refine mul_le_mul_of_nonneg_right ?_ grid_pos.le
  exact_mod_cast rhe_mono (div_le_div_of_nonneg_right h grid_pos.le)

theorem low_le (hp : 1 ≤ p) {x : K} (h : x ≤ (2 : K) ^ e) : (roundHalfEven (x / grid p e) : K) * grid p e ≤ (2 : K) ^ e := by
  refine (low_mono h).trans (le_of_eq ?_)
  rw [pow_e hp, mul_div_assoc, div_self grid_pos.ne', mul_one, rhe_intCast]

theorem rns_odd (x : K) : rns p e (-x) = -rns p e x := by
  unfold rns
  rw [abs_neg]
  split
  · rw [neg_div, rhe_neg]
    push_cast
    ring
  · exact rne_odd p x

theorem rne_ge (hp : 1 ≤ p) {y : K} (h : (2 : K) ^ e ≤ y) : (2 : K) ^ e ≤ rne p y := by
  have := rne_mono hp h
  rwa [rne_zpow hp] at this

theorem rns_mono (hp : 1 ≤ p) {x y : K} (h : x ≤ y) : rns p e x ≤ rns p e y := by
  have key : ∀ {x y : K}, x ≤ y → |x| < (2 : K) ^ e → ¬|y| < (2 : K) ^ e → rns p e x ≤ rns p e y := by
    intro x y h hx hy
    rw [rns, if_pos hx, rns, if_neg hy]
    have hy' : (2 : K) ^ e ≤ y := by
      rcases le_abs.1 (not_lt.1 hy) with h' | h'
      · exact h'
      · have := (abs_lt.1 hx).1
        linarith
    exact (low_le hp (abs_lt.1 hx).2.le).trans (rne_ge hp hy')
  by_cases hx : |x| < (2 : K) ^ e
  · by_cases hy : |y| < (2 : K) ^ e
    · rw [rns, if_pos hx, rns, if_pos hy]
      exact low_mono h
    · exact key h hx hy
  · by_cases hy : |y| < (2 : K) ^ e
    · have := key (neg_le_neg h) (by rwa [abs_neg]) (by rwa [abs_neg])
      rw [rns_odd, rns_odd] at this
      linarith
    · rw [rns, if_neg hx, rns, if_neg hy]
      exact rne_mono hp h

theorem rne_abs_ge (hp : 1 ≤ p) {x : K} (h : ¬|x| < (2 : K) ^ e) : ¬|rne p x| < (2 : K) ^ e := by
  rw [not_lt] at h ⊢
  rcases le_abs.1 h with h' | h'
  · exact (rne_ge hp h').trans (le_abs_self _)
  · have := rne_ge hp h'
    rw [rne_odd] at this
    exact this.trans (neg_le_abs _)

theorem rns_idem (hp : 1 ≤ p) (x : K) : rns p e (rns p e x) = rns p e x := by
  by_cases hx : |x| < (2 : K) ^ e
  · have e1 : rns p e x = (roundHalfEven (x / grid p e) : K) * grid p e := by rw [rns, if_pos hx]
    rw [e1]
    set m := roundHalfEven (x / (grid p e : K)) with hm
    by_cases hl : |(m : K) * grid p e| < (2 : K) ^ e
    · rw [rns, if_pos hl, mul_div_assoc, div_self grid_pos.ne', mul_one, rhe_intCast]
    · rw [rns, if_neg hl]
      have h1 := low_le hp (abs_lt.1 hx).2.le
      have h2 := low_le (p := p) hp (x := -x) (by linarith [(abs_lt.1 hx).1])
      rw [neg_div, rhe_neg, Int.cast_neg, ← hm] at h2
      rw [← hm] at h1
      rcases le_abs.1 (not_lt.1 hl) with h' | h'
      · rw [le_antisymm h1 h', rne_zpow hp]
      · have : (m : K) * grid p e = -(2 : K) ^ e := by linarith
        rw [this, rne_odd, rne_zpow hp]
  · have e1 : rns p e x = rne p x := by rw [rns, if_neg hx]
    rw [e1, rns, if_neg (rne_abs_ge hp hx), rne_idem hp]

theorem low_near (x : K) : |(roundHalfEven (x / grid p e) : K) * grid p e - x| ≤ grid p e := by
  have hg := grid_pos (K := K) (p := p) (e := e)
  have h := SMT.MixedInt.round_near (x / (grid p e : K))
  have e1 : (roundHalfEven (x / grid p e) : K) * grid p e - x = -((x / grid p e - (roundHalfEven (x / grid p e) : K)) * grid p e) := by
    rw [sub_mul, div_mul_cancel₀ _ hg.ne']
    ring
  rw [e1, abs_neg, abs_mul, abs_of_pos hg]
  nlinarith

theorem rns_err (hp : 1 ≤ p) (x : K) : |rns p e x - x| ≤ (2 : K) ^ (-(p : ℤ)) * |x| + grid p e := by
  have hg := grid_pos (K := K) (p := p) (e := e)
  unfold rns
  split
  · have := low_near (p := p) (e := e) x
    have h2 : 0 ≤ (2 : K) ^ (-(p : ℤ)) * |x| := mul_nonneg (zpow_nonneg (by norm_num) _) (abs_nonneg _)
    linarith
  · have := rne_rel hp x
    linarith

/-- Numbers of the format are integer multiples of the smallest positive one. -/
theorem rns_multiple (hp : 1 ≤ p) {x : K} (h : rns p e x = x) : ∃ m : ℤ, x = m * grid p e := by
  by_cases hx : |x| < (2 : K) ^ e
  · rw [rns, if_pos hx] at h
    exact ⟨_, h.symm⟩
  · rw [rns, if_neg hx] at h
    have hpos : 0 < |x| := lt_of_lt_of_le (zpow_pos two_pos e) (not_lt.1 hx)
    have hl : e ≤ Int.log 2 |x| := (Int.zpow_le_iff_le_log (b := 2) (by norm_num) hpos).1 (by rw [two_cast]; exact not_lt.1 hx)
    obtain ⟨d, hd⟩ : ∃ d : ℕ, Int.log 2 |x| - e = d := ⟨(Int.log 2 |x| - e).toNat, by omega⟩
    refine ⟨roundHalfEven (x / ulp p x) * 2 ^ d, ?_⟩
    have hu : (ulp p x : K) = (((2 : ℤ) ^ d : ℤ) : K) * grid p e := by
      rw [← two_zpow_nat, ulp, grid, ← zpow_add₀ two_ne_zero]
      congr 1
      omega
    have h3 : x = (roundHalfEven (x / ulp p x) : K) * ulp p x := h.symm
    generalize hm : roundHalfEven (x / ulp p x) = m at h3
    rw [h3, hu]
    push_cast
    ring

theorem rns_add (hp : 1 ≤ p) (x y : K) (hx : rns p e x = x) (hy : rns p e y = y) : |rns p e (x + y) - (x + y)| ≤ (2 : K) ^ (-(p : ℤ)) * |x + y| := by
  obtain ⟨m, hm⟩ := rns_multiple hp hx
  obtain ⟨n, hn⟩ := rns_multiple hp hy
  by_cases h : |x + y| < (2 : K) ^ e
  · have e1 : x + y = ((m + n : ℤ) : K) * grid p e := by
      rw [hm, hn]
      push_cast
      ring
    have : rns p e (x + y) = x + y := by
      rw [rns, if_pos h, e1, mul_div_assoc, div_self grid_pos.ne', mul_one, rhe_intCast]
    rw [this, sub_self, abs_zero]
    exact mul_nonneg (zpow_nonneg (by norm_num) _) (abs_nonneg _)
  · rw [rns, if_neg h]
    exact rne_rel hp _

/-- An IEEE format with `p` bits, smallest normal number `2 ^ e` and largest finite number `big`. -/
def ieee (p : ℕ) (hp : 1 ≤ p) (e : ℤ) (he : e ≤ 0) (big : K) (hb : rns p e big = big) (h1 : 1 ≤ big) : Format K where
  rnd := rns p e
  u := (2 : K) ^ (-(p : ℤ))
  tiny := grid p e
  big := big
  mono := fun _ _ h => rns_mono hp h
  odd := rns_odd
  idem := rns_idem hp
  one := by
    rw [rns, if_neg]
    · simpa using rne_zpow (K := K) hp 0
    · rw [not_lt, abs_one]
      exact zpow_le_one_of_nonpos₀ (by norm_num) he
  err := rns_err hp
  add := rns_add hp
  u_nonneg := zpow_nonneg (by norm_num) _
  u_lt := by
    rw [zpow_neg]
    apply inv_lt_one_of_one_lt₀
    exact one_lt_zpow₀ (by norm_num) (by omega)
  tiny_nonneg := grid_pos.le
  big_rep := hb
  one_le_big := h1

end

/-- `(2 - 2⁻⁵²) 2¹⁰²³`, the largest `double`. -/
def maxDouble : ℚ := (2 ^ 53 - 1) * 2 ^ 971

/-- The `double` of C and `float64` of NumPy. -/
def binary64 : Format ℚ := ieee 53 (by norm_num) (-1022) (by norm_num) maxDouble (by decide +kernel) (by decide +kernel)

/-- `1e308 * 10` is infinite, `2⁻¹⁰⁷⁴` is a number, half of it rounds to zero. -/
example : binary64.mulX (.fin (10 ^ 308)) (.fin 10) = .inf false := by decide +kernel
example : binary64.rnd (1 / 2 ^ 1074) = 1 / 2 ^ 1074 ∧ binary64.rnd (1 / 2 ^ 1075) = 0 := by decide +kernel
example : binary64.divX (.fin 0) (.fin 0) = .nan := by decide +kernel

end SMT.Fp
