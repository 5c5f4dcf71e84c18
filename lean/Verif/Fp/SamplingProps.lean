import Verif.Fp.Sampling
import Verif.Sampling.Props

/-!
# C101: sampling and bounds in rounded arithmetic

The statements hold for every rounding (`Rounding`), in particular `binary p`; the counterexamples are in double precision
(`double = binary 53`), for limits which are the double values of decimal literals.
-/
set_option linter.unusedSectionVars false
set_option linter.unusedSimpArgs false
set_option linter.unusedVariables false

namespace SMT.Fp

variable {K : Type} [Field K] [LinearOrder K] [IsStrictOrderedRing K] (R : Rounding K)

/-! ## Scaling to the limits -/

/-- In exact arithmetic this is the scaling of C10. -/
theorem C101_exact (lim : K × K) (s : K) : scaleF exact lim s = lim.1 + s * (lim.2 - lim.1) := rfl

theorem width_nonneg {lim : K × K} (h : lim.1 ≤ lim.2) : 0 ≤ R.rnd (lim.2 - lim.1) := R.nonneg (by linarith)

/-- The order of samples is kept. -/
theorem C101_monotone {lim : K × K} (h : lim.1 ≤ lim.2) {s s' : K} (hs : s ≤ s') : scaleF R lim s ≤ scaleF R lim s' := by
  apply R.mono
  have := R.mono _ _ (mul_le_mul_of_nonneg_right hs (width_nonneg R h))
  linarith

/-- The lower limit itself is sampled exactly. -/
theorem C101_lower_end {lim : K × K} (h : R.Rep lim.1) : scaleF R lim 0 = lim.1 := by
  rw [scaleF, zero_mul, R.zero, add_zero]
  exact h

/-- No sample is below the lower limit. -/
theorem C101_not_below {lim : K × K} (hr : R.Rep lim.1) (h : lim.1 ≤ lim.2) {s : K} (hs : 0 ≤ s) : lim.1 ≤ scaleF R lim s := by
  have := C101_monotone R h hs
  rwa [C101_lower_end R hr] at this

/-- The largest sample is not beyond `scaleF R lim 1`, and this misses the upper limit by roundings only. -/
theorem C101_upper_end {lim : K × K} (h : lim.1 ≤ lim.2) :
    |scaleF R lim 1 - lim.2| ≤ R.u * |lim.2| + (R.u + R.u ^ 2) * (lim.2 - lim.1) := by
  have hD : 0 ≤ lim.2 - lim.1 := by linarith
  have h1 := R.rel (lim.2 - lim.1)
  rw [abs_of_nonneg hD] at h1
  have e : scaleF R lim 1 = R.rnd (lim.1 + R.rnd (lim.2 - lim.1)) := by rw [scaleF, one_mul, R.idem]
  rw [e]
  set w := R.rnd (lim.2 - lim.1) with hw
  have h2 := R.rel (lim.1 + w)
  have h3 : |lim.1 + w - lim.2| ≤ R.u * (lim.2 - lim.1) := by
    rw [show lim.1 + w - lim.2 = w - (lim.2 - lim.1) by ring]
    exact h1
  have h4 : |lim.1 + w| ≤ |lim.2| + R.u * (lim.2 - lim.1) := by
    have := abs_add_le lim.2 (lim.1 + w - lim.2)
    rw [show lim.2 + (lim.1 + w - lim.2) = lim.1 + w by ring] at this
    linarith
  have h5 := abs_add_le (R.rnd (lim.1 + w) - (lim.1 + w)) (lim.1 + w - lim.2)
  rw [show R.rnd (lim.1 + w) - (lim.1 + w) + (lim.1 + w - lim.2) = R.rnd (lim.1 + w) - lim.2 by ring] at h5
  have h6 := mul_le_mul_of_nonneg_left h4 R.u_nonneg
  nlinarith

/-- If the width of the interval is a number of the format, samples stay inside the limits, and the upper limit is
sampled exactly. -/
theorem C101_exact_width {lim : K × K} (h1 : R.Rep lim.1) (h2 : R.Rep lim.2) (hw : R.Rep (lim.2 - lim.1)) (h : lim.1 ≤ lim.2) {s : K} (hs : 0 ≤ s)
    (hs' : s ≤ 1) : (lim.1 ≤ scaleF R lim s ∧ scaleF R lim s ≤ lim.2) ∧ scaleF R lim 1 = lim.2 := by
  have he : scaleF R lim 1 = lim.2 := by
    rw [scaleF, one_mul, show R.rnd (lim.2 - lim.1) = lim.2 - lim.1 from hw, show R.rnd (lim.2 - lim.1) = lim.2 - lim.1 from hw]
    rw [show lim.1 + (lim.2 - lim.1) = lim.2 by ring]
    exact h2
  refine ⟨⟨C101_not_below R h1 h hs, ?_⟩, he⟩
  rw [← he]
  exact C101_monotone R h hs'

/-- Integer limits of at most `p - 1` bits (all integers up to 2⁵² in double precision): samples stay inside. -/
theorem C101_integer_limits {p : ℕ} (hp : 1 ≤ p) {a b : ℤ} (ha : |a| ≤ 2 ^ (p - 1)) (hb : |b| ≤ 2 ^ (p - 1)) (h : a ≤ b) {s : ℚ} (hs : 0 ≤ s) (hs' : s ≤ 1) :
    (a : ℚ) ≤ scaleF (binary p hp) ((a : ℚ), (b : ℚ)) s ∧ scaleF (binary p hp) ((a : ℚ), (b : ℚ)) s ≤ b := by
  have e : (2 : ℤ) ^ p = 2 * 2 ^ (p - 1) := by
    conv_lhs => rw [show p = (p - 1) + 1 by omega, pow_succ]
    ring
  have hpos : (0 : ℤ) < 2 ^ (p - 1) := by positivity
  have h1 := binary_int (K := ℚ) hp a (by omega)
  have h2 := binary_int (K := ℚ) hp b (by omega)
  have h3 := binary_int (K := ℚ) hp (b - a) (by rw [abs_le] at *; omega)
  push_cast at h3
  exact (C101_exact_width (binary p hp) (lim := ((a : ℚ), (b : ℚ))) h1 h2 h3 (Int.cast_le.2 h) hs hs').1

/-- A sample clearly below `1` never gets beyond the upper limit, whatever the limits. -/
theorem C101_below_one {lim : K × K} (h2 : R.Rep lim.2) (h : lim.1 ≤ lim.2) {s : K} (hs : 0 ≤ s) (hs' : s * (1 + R.u) < 1) : scaleF R lim s ≤ lim.2 := by
  have hw := width_nonneg R h
  have hle : R.rnd (s * R.rnd (lim.2 - lim.1)) ≤ lim.2 - lim.1 := by
    rcases hw.lt_or_eq with hpos | h0
    · have hlt : R.rnd (s * R.rnd (lim.2 - lim.1)) < R.rnd (lim.2 - lim.1) := by
        have := R.upper (mul_nonneg hs hw)
        nlinarith
      by_contra hc
      have := R.mono _ _ (not_le.1 hc).le
      rw [R.idem] at this
      linarith
    · rw [← h0, mul_zero, R.zero]
      linarith
  apply R.le_rep h2
  linarith

/-- The numbers of `p` bits below `1` are at most `1 - 2⁻ᵖ`. -/
theorem below_one {p : ℕ} (hp : 1 ≤ p) {s : ℚ} (hr : (binary p hp).Rep s) (h0 : 0 ≤ s) (h : s < 1) : s * (1 + (binary (K := ℚ) p hp).u) < 1 := by
  show s * (1 + (2 : ℚ) ^ (-(p : ℤ))) < 1
  have hu : (2 : ℚ) ^ (-(p : ℤ)) ≤ 1 / 2 := by
    rw [zpow_neg, zpow_natCast, ← one_div]
    apply one_div_le_one_div_of_le (by norm_num)
    calc (2 : ℚ) = 2 ^ 1 := by norm_num
      _ ≤ 2 ^ p := pow_le_pow_right₀ (by norm_num) hp
  have hu0 : 0 < (2 : ℚ) ^ (-(p : ℤ)) := zpow_pos (by norm_num) _
  set v := (2 : ℚ) ^ (-(p : ℤ)) with hv
  by_cases hs : s ≤ 1 / 2
  · nlinarith
  · have hs := not_le.1 hs
    have hpos : 0 < s := by linarith
    have hl : Int.log 2 s = -1 := by
      apply le_antisymm
      · have := (Int.lt_zpow_iff_log_lt (b := 2) (by norm_num) (x := 0) hpos).1 (by simpa using h)
        omega
      · refine (Int.zpow_le_iff_le_log (b := 2) (by norm_num) hpos).1 ?_
        rw [two_cast]
        norm_num
        linarith
    have hulp : ulp p s = v := by
      rw [ulp, abs_of_pos hpos, hl, hv]
      congr 1
      ring
    have hm : (SMT.MixedInt.roundHalfEven (s / v) : ℚ) * v = s := by
      have : rne p s = s := hr
      rwa [rne, hulp] at this
    set m := SMT.MixedInt.roundHalfEven (s / v) with hmd
    have hv2 : ((2 ^ p : ℤ) : ℚ) * v = 1 := by
      rw [hv, zpow_neg, zpow_natCast]
      push_cast
      exact mul_inv_cancel₀ (by positivity)
    have hlt : (m : ℚ) < ((2 ^ p : ℤ) : ℚ) := by
      by_contra hc
      have := mul_le_mul_of_nonneg_right (not_lt.1 hc) hu0.le
      linarith
    have hlt' : m ≤ 2 ^ p - 1 := by
      have : m < 2 ^ p := by exact_mod_cast hlt
      omega
    have h3 : (m : ℚ) ≤ ((2 ^ p : ℤ) : ℚ) - 1 := by exact_mod_cast hlt'
    have h4 : s ≤ 1 - v := by
      have := mul_le_mul_of_nonneg_right h3 hu0.le
      linarith
    nlinarith

/-- In binary floating point with any number of bits, every sample with coordinates in `[0, 1)` (`Random`, Latin
hypercubes) stays inside any limits after scaling. -/
theorem C101_half_open {p : ℕ} (hp : 1 ≤ p) {lim : ℚ × ℚ} (h1 : (binary p hp).Rep lim.1) (h2 : (binary p hp).Rep lim.2) (h : lim.1 ≤ lim.2) {s : ℚ} (hr : (binary p hp).Rep s)
    (h0 : 0 ≤ s) (hs : s < 1) : lim.1 ≤ scaleF (binary p hp) lim s ∧ scaleF (binary p hp) lim s ≤ lim.2 :=
  ⟨C101_not_below _ h1 h h0, C101_below_one _ h2 h h0 (below_one hp hr h0 hs)⟩

/-- The rounded sample is close to the exact one. -/
theorem C101_error {lim : K × K} (h : lim.1 ≤ lim.2) {s : K} (hs : 0 ≤ s) (hs' : s ≤ 1) :
    |scaleF R lim s - (lim.1 + s * (lim.2 - lim.1))| ≤ R.u * max |lim.1| |lim.2| + (1 + R.u) * (2 * R.u + R.u ^ 2) * (lim.2 - lim.1) := by
  set D := lim.2 - lim.1 with hDd
  have hD : 0 ≤ D := by rw [hDd]; linarith
  have h1 := abs_le.1 (R.rel D)
  rw [abs_of_nonneg hD] at h1
  have hw : 0 ≤ R.rnd D := R.nonneg hD
  have h2 := abs_le.1 (R.rel (s * R.rnd D))
  rw [abs_of_nonneg (mul_nonneg hs hw)] at h2
  have hu := R.u_nonneg
  set w := R.rnd D with hwd
  set q := R.rnd (s * w) with hqd
  have hq : |q - s * D| ≤ (2 * R.u + R.u ^ 2) * D := by
    have a1 : s * w - s * D ≤ R.u * D := by nlinarith [mul_le_mul_of_nonneg_left h1.2 hs, mul_nonneg hu hD]
    have a2 : -(R.u * D) ≤ s * w - s * D := by nlinarith [mul_le_mul_of_nonneg_left h1.1 hs, mul_nonneg hu hD]
    have a3 : s * w ≤ (1 + R.u) * D := by nlinarith [mul_nonneg hu hD]
    have a4 : R.u * (s * w) ≤ R.u * ((1 + R.u) * D) := mul_le_mul_of_nonneg_left a3 hu
    rw [abs_le]
    constructor <;> nlinarith
  have hM : |lim.1 + s * D| ≤ max |lim.1| |lim.2| := by
    have e : lim.1 + s * D = (1 - s) * lim.1 + s * lim.2 := by rw [hDd]; ring
    rw [e]
    have b1 : |lim.1| ≤ max |lim.1| |lim.2| := le_max_left _ _
    have b2 : |lim.2| ≤ max |lim.1| |lim.2| := le_max_right _ _
    calc |(1 - s) * lim.1 + s * lim.2| ≤ |(1 - s) * lim.1| + |s * lim.2| := abs_add_le _ _
      _ = (1 - s) * |lim.1| + s * |lim.2| := by rw [abs_mul, abs_mul, abs_of_nonneg hs, abs_of_nonneg (by linarith : 0 ≤ 1 - s)]
      _ ≤ max |lim.1| |lim.2| := by nlinarith
  have h3 := R.rel (lim.1 + q)
  have h4 : |lim.1 + q| ≤ max |lim.1| |lim.2| + (2 * R.u + R.u ^ 2) * D := by
    have := abs_add_le (lim.1 + s * D) (q - s * D)
    rw [show lim.1 + s * D + (q - s * D) = lim.1 + q by ring] at this
    linarith
  have h5 := abs_add_le (R.rnd (lim.1 + q) - (lim.1 + q)) (q - s * D)
  rw [show R.rnd (lim.1 + q) - (lim.1 + q) + (q - s * D) = R.rnd (lim.1 + q) - (lim.1 + s * D) by ring] at h5
  have h6 := mul_le_mul_of_nonneg_left h4 hu
  show |R.rnd (lim.1 + q) - (lim.1 + s * D)| ≤ _
  nlinarith

/-! ## Full-factorial designs -/

theorem levelF_last {k : ℕ} (hk : 2 ≤ k) : levelF R k (k - 1) = 1 := by
  rw [levelF, if_neg (by omega), if_pos rfl]

/-- Levels: the first is `0`, the last is `1`, all are between, in increasing order. -/
theorem C101_levels {k : ℕ} (hk : (k : K) * R.u ≤ 1) {l l' : ℕ} (hl : l ≤ l') (hl' : l' < k) :
    levelF R k 0 = 0 ∧ (2 ≤ k → levelF R k (k - 1) = 1) ∧ 0 ≤ levelF R k l ∧ levelF R k l ≤ levelF R k l' ∧ levelF R k l' ≤ 1 := by
  have hcast : ∀ {k : ℕ}, 2 ≤ k → (0 : K) < ((k - 1 : ℕ) : K) := fun h => by exact_mod_cast (by omega : 0 < _ - 1)
  have h0 : levelF R k 0 = 0 := by
    unfold levelF
    split_ifs with h1 h2
    · rfl
    · omega
    · simp [R.zero]
  have hnn : ∀ l, 0 ≤ levelF R k l := by
    intro l
    unfold levelF
    split_ifs with h1 h2
    · exact le_rfl
    · exact zero_le_one
    · exact R.nonneg (mul_nonneg (Nat.cast_nonneg _) (R.nonneg (by positivity)))
  have hle1 : ∀ l, l < k → levelF R k l ≤ 1 := by
    intro l hlk
    unfold levelF
    split_ifs with h1 h2
    · exact zero_le_one
    · exact le_rfl
    · apply R.le_one
      have hp : (0 : K) < ((k - 1 : ℕ) : K) := hcast (by omega)
      have hup := R.upper (x := 1 / ((k - 1 : ℕ) : K)) (by positivity)
      have hlk' : (l : K) + 1 ≤ ((k - 1 : ℕ) : K) := by exact_mod_cast (by omega : l + 1 ≤ k - 1)
      have hkk : (l : K) * R.u ≤ 1 := by
        have : (l : K) ≤ (k : K) := by exact_mod_cast hlk.le
        nlinarith [R.u_nonneg]
      have hln : (0 : K) ≤ l := Nat.cast_nonneg _
      calc (l : K) * R.rnd (1 / ((k - 1 : ℕ) : K)) ≤ (l : K) * (1 / ((k - 1 : ℕ) : K) * (1 + R.u)) := mul_le_mul_of_nonneg_left hup hln
        _ = ((l : K) + (l : K) * R.u) / ((k - 1 : ℕ) : K) := by ring
        _ ≤ 1 := by
          rw [div_le_one hp]
          linarith
  refine ⟨h0, fun hk2 => levelF_last R hk2, hnn l, ?_, hle1 l' hl'⟩
  by_cases e : l' = k - 1
  · by_cases hk1 : k ≤ 1
    · have : l = l' := by omega
      rw [this]
    · rw [e, levelF_last R (by omega)]
      exact hle1 l (by omega)
  · by_cases hk1 : k ≤ 1
    · have : l = l' := by omega
      rw [this]
    · rw [levelF, levelF, if_neg hk1, if_neg (by omega), if_neg hk1, if_neg e]
      apply R.mono
      have : (l : K) ≤ (l' : K) := by exact_mod_cast hl
      exact mul_le_mul_of_nonneg_right this (R.nonneg (by positivity))

/-- A level is close to `l / (k - 1)`. -/
theorem C101_level_error {k l : ℕ} (hk : 2 ≤ k) (hl : l < k) : |levelF R k l - (l : K) / ((k - 1 : ℕ) : K)| ≤ 2 * R.u + R.u ^ 2 := by
  have hp : (0 : K) < ((k - 1 : ℕ) : K) := by exact_mod_cast (by omega : 0 < k - 1)
  have hu := R.u_nonneg
  by_cases e : l = k - 1
  · rw [e, levelF_last R hk, div_self hp.ne', sub_self, abs_zero]
    positivity
  · rw [levelF, if_neg (by omega), if_neg e]
    have hln : (0 : K) ≤ l := Nat.cast_nonneg _
    have hlk : (l : K) ≤ ((k - 1 : ℕ) : K) := by exact_mod_cast (by omega : l ≤ k - 1)
    set N := ((k - 1 : ℕ) : K) with hN
    have h1 := abs_le.1 (R.rel (1 / N))
    rw [abs_of_nonneg (by positivity : (0 : K) ≤ 1 / N)] at h1
    set a := R.rnd (1 / N) with ha
    have ha0 : 0 ≤ a := R.nonneg (by positivity)
    have h2 := abs_le.1 (R.rel (l * a))
    rw [abs_of_nonneg (mul_nonneg hln ha0)] at h2
    have hq0 : 0 ≤ (l : K) / N := by positivity
    have hq : (l : K) / N ≤ 1 := (div_le_one hp).2 hlk
    have e1 : (l : K) * (1 / N) = l / N := by ring
    have e2 : (l : K) * (R.u * (1 / N)) = R.u * (l / N) := by ring
    have a1 := mul_le_mul_of_nonneg_left h1.1 hln
    have a2 := mul_le_mul_of_nonneg_left h1.2 hln
    have a1' : -(R.u * (l / N)) ≤ l * a - l / N := by linarith [show (l : K) * (a - 1 / N) = l * a - l / N by ring, show (l : K) * -(R.u * (1 / N)) = -(R.u * (l / N)) by ring]
    have a2' : l * a - l / N ≤ R.u * (l / N) := by linarith [show (l : K) * (a - 1 / N) = l * a - l / N by ring]
    have b1 : R.u * (l / N) ≤ R.u := by nlinarith
    have b2 : (l : K) * a ≤ 1 + R.u := by linarith
    have b3 : R.u * (l * a) ≤ R.u * (1 + R.u) := mul_le_mul_of_nonneg_left b2 hu
    rw [abs_le]
    constructor <;> nlinarith

end SMT.Fp
