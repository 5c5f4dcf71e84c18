import Verif.Fp.Accur
import Verif.Fp.PolyProps
import Mathlib.Analysis.SpecialFunctions.Exp

/-!
# Property C119, second part: correlations, Kriging and RBF
-/
set_option linter.unusedSectionVars false
set_option linter.unusedSimpArgs false
set_option linter.unusedVariables false

namespace SMT.Fp.Accur

variable {K : Type} [Field K] [LinearOrder K] [IsStrictOrderedRing K] {R : Rounding K}

/-! ## Errors relative to a bound -/

/-- `c` is `x` up to the factor `κ`, relative to `T`, a bound of `|x|`. -/
def Upto (κ T x c : K) : Prop := 1 ≤ κ ∧ |x| ≤ T ∧ |c - x| ≤ (κ - 1) * T

theorem Upto.mono {κ κ' T x c : K} (h : Upto κ T x c) (hk : κ ≤ κ') : Upto κ' T x c := by
  obtain ⟨h0, h1, h2⟩ := h
  exact ⟨h0.trans hk, h1, h2.trans (mul_le_mul_of_nonneg_right (by linarith) ((abs_nonneg x).trans h1))⟩

theorem Upto.of_within {n : ℕ} {T x c : K} (h : Within R n T x c) : Upto (R.rho ^ n) T x c :=
  ⟨one_le_pow₀ (rho_one_le R), h.1, h.2⟩

theorem Upto.rnd {κ T x c : K} (h : Upto κ T x c) : Upto (κ * R.rho) T x (R.rnd c) := by
  obtain ⟨h0, h1, h2⟩ := h
  have hT : 0 ≤ T := (abs_nonneg x).trans h1
  have hr := rho_one_le R
  refine ⟨by nlinarith, h1, ?_⟩
  have hc : |c| ≤ κ * T := by
    have := abs_add_le (c - x) x
    rw [sub_add_cancel] at this
    linarith
  have h3 := R.rel c
  have h4 : |R.rnd c - x| ≤ |R.rnd c - c| + |c - x| := by
    have := abs_add_le (R.rnd c - c) (c - x)
    rwa [sub_add_sub_cancel] at this
  have h5 : R.u * |c| ≤ R.u * (κ * T) := mul_le_mul_of_nonneg_left hc R.u_nonneg
  have h6 : (1 + R.u) * (κ * T) ≤ R.rho * (κ * T) := mul_le_mul_of_nonneg_right (one_add_le_rho R) (mul_nonneg (by linarith) hT)
  linarith

theorem Upto.add {κ S T x c y d : K} (h : Upto κ S x c) (h' : Upto κ T y d) : Upto κ (S + T) (x + y) (c + d) := by
  obtain ⟨h0, h1, h2⟩ := h
  obtain ⟨-, g1, g2⟩ := h'
  refine ⟨h0, (abs_add_le x y).trans (by linarith), ?_⟩
  have : c + d - (x + y) = (c - x) + (d - y) := by ring
  rw [this, mul_add]
  exact (abs_add_le _ _).trans (by linarith)

theorem Upto.mul_left {κ T x c : K} (h : Upto κ T x c) {s : K} (hs : 0 ≤ s) : Upto κ (s * T) (s * x) (s * c) := by
  obtain ⟨h0, h1, h2⟩ := h
  refine ⟨h0, by rw [abs_mul, abs_of_nonneg hs]; exact mul_le_mul_of_nonneg_left h1 hs, ?_⟩
  rw [← mul_sub, abs_mul, abs_of_nonneg hs]
  calc s * |c - x| ≤ s * ((κ - 1) * T) := mul_le_mul_of_nonneg_left h2 hs
    _ = _ := by ring

theorem Upto.mul_right {κ T x c : K} (h : Upto κ T x c) (g : K) : Upto κ (T * |g|) (x * g) (c * g) := by
  obtain ⟨h0, h1, h2⟩ := h
  refine ⟨h0, by rw [abs_mul]; exact mul_le_mul_of_nonneg_right h1 (abs_nonneg g), ?_⟩
  rw [← sub_mul, abs_mul, ← mul_assoc]
  exact mul_le_mul_of_nonneg_right h2 (abs_nonneg g)

theorem rho_mul_mono {κ : K} (h : 0 ≤ κ) {a b : ℕ} (hab : a ≤ b) : κ * R.rho ^ a ≤ κ * R.rho ^ b :=
  mul_le_mul_of_nonneg_left (pow_le_pow_right₀ (rho_one_le R) hab) h

/-- Scalar products whose products are known up to `κ`. -/
theorem dot_upto {κ : K} (hκ : 1 ≤ κ) (T x f g : ℕ → K) (d : Dot) (h : ∀ i ∈ d.terms, Upto κ (T i) (x i) (f i * g i)) :
    Upto (κ * R.rho ^ d.terms.length) (d.terms.map T).sum (d.terms.map x).sum (d.eval R f g) := by
  have hκ0 : 0 ≤ κ := by linarith
  induction d with
  | mul i =>
    have := (h i (by simp [Dot.terms])).rnd (R := R)
    simpa [Dot.terms, Dot.eval] using this
  | add a b ha hb =>
    have p1 := a.terms_pos
    have p2 := b.terms_pos
    have h1 := ha fun i hi => h i (by simp [Dot.terms, hi])
    have h2 := hb fun i hi => h i (by simp [Dot.terms, hi])
    rw [Dot.terms, Dot.eval, List.map_append, List.map_append, List.sum_append, List.sum_append, List.length_append]
    have := ((h1.mono (rho_mul_mono (R := R) hκ0 (show a.terms.length ≤ a.terms.length + b.terms.length - 1 by omega))).add
      (h2.mono (rho_mul_mono (R := R) hκ0 (by omega)))).rnd (R := R)
    rwa [mul_assoc, ← pow_succ, show a.terms.length + b.terms.length - 1 + 1 = a.terms.length + b.terms.length by omega] at this
  | fma i a ha =>
    have h1 := ha fun j hj => h j (by simp [Dot.terms, hj])
    have h2 := h i (by simp [Dot.terms])
    rw [Dot.terms, Dot.eval, List.map_cons, List.map_cons, List.sum_cons, List.sum_cons, List.length_cons]
    have e : κ ≤ κ * R.rho ^ a.terms.length := le_mul_of_one_le_right hκ0 (one_le_pow₀ (rho_one_le R))
    have := ((h2.mono e).add h1).rnd (R := R)
    rwa [mul_assoc, ← pow_succ] at this

/-! ## The exponential of a computed sum -/

/-- What the theorems need of `exp`: positive results with a relative error of `q` roundings. -/
def ExpAcc (R : Rounding ℝ) (q : ℕ) (e : ℝ → ℝ) : Prop := ∀ x, Close R q (Real.exp x) (e x)

/-- The absolute error of a correlation whose exponent has `n` roundings. -/
noncomputable def slack (R : Rounding ℝ) (n q : ℕ) : ℝ := (R.rho ^ n - 1) / Real.exp 1 + (R.rho ^ q - 1)

theorem slack_nonneg (R : Rounding ℝ) (n q : ℕ) : 0 ≤ slack R n q := by
  have h1 : 1 ≤ R.rho ^ n := one_le_pow₀ (rho_one_le R)
  have h2 : 1 ≤ R.rho ^ q := one_le_pow₀ (rho_one_le R)
  have := div_nonneg (show 0 ≤ R.rho ^ n - 1 by linarith) (Real.exp_pos 1).le
  unfold slack
  linarith

theorem mul_exp_neg_le (y : ℝ) : y * Real.exp (-y) ≤ (Real.exp 1)⁻¹ := by
  have h := Real.add_one_le_exp (y - 1)
  rw [sub_add_cancel] at h
  have h2 : y * Real.exp (-y) ≤ Real.exp (y - 1) * Real.exp (-y) := mul_le_mul_of_nonneg_right h (Real.exp_pos _).le
  rw [← Real.exp_add, show y - 1 + -y = -1 by ring] at h2
  rw [← Real.exp_neg]
  exact h2

theorem exp_lipschitz {s s' c : ℝ} (hs : 0 ≤ s) (hc : 1 ≤ c) (h1 : s' ≤ s * c) : Real.exp (-s) - Real.exp (-s') ≤ (c - 1) / Real.exp 1 := by
  have a : Real.exp (-(s * c)) ≤ Real.exp (-s') := Real.exp_le_exp.2 (by linarith)
  have b : Real.exp (-s) * (1 - s * (c - 1)) ≤ Real.exp (-(s * c)) := by
    have h := Real.add_one_le_exp (-(s * (c - 1)))
    calc Real.exp (-s) * (1 - s * (c - 1)) ≤ Real.exp (-s) * Real.exp (-(s * (c - 1))) := mul_le_mul_of_nonneg_left (by linarith) (Real.exp_pos _).le
      _ = Real.exp (-(s * c)) := by rw [← Real.exp_add]; congr 1; ring
  have d : s * Real.exp (-s) * (c - 1) ≤ (Real.exp 1)⁻¹ * (c - 1) := mul_le_mul_of_nonneg_right (mul_exp_neg_le s) (by linarith)
  rw [div_eq_mul_inv]
  nlinarith

theorem exp_close {R : Rounding ℝ} {n q : ℕ} {e : ℝ → ℝ} (he : ExpAcc R q e) {s s' : ℝ} (h : Close R n s s') : |e (-s') - Real.exp (-s)| ≤ slack R n q := by
  obtain ⟨h1, h2, h3, h4⟩ := h
  have hn : 1 ≤ R.rho ^ n := one_le_pow₀ (rho_one_le R)
  have hq : 0 ≤ R.rho ^ q - 1 := by linarith [one_le_pow₀ (rho_one_le R) (n := q)]
  have a := exp_lipschitz h1 hn h4
  have b := exp_lipschitz h2 hn h3
  have c := (he (-s')).abs_sub
  have d : Real.exp (-s') ≤ 1 := Real.exp_le_one_iff.2 (by linarith)
  have c' : |e (-s') - Real.exp (-s')| ≤ R.rho ^ q - 1 := c.trans (mul_le_of_le_one_left hq d)
  have f : |Real.exp (-s') - Real.exp (-s)| ≤ (R.rho ^ n - 1) / Real.exp 1 := abs_le.2 ⟨by linarith, by linarith⟩
  have g := abs_add_le (e (-s') - Real.exp (-s')) (Real.exp (-s') - Real.exp (-s))
  rw [sub_add_sub_cancel] at g
  unfold slack
  linarith

/-! ## Kernels that are a polynomial times an exponential -/

/-- What the polynomial factor of a kernel needs: `z ↦ h z e⁻ᶻ` is at most 1, `z h z e⁻ᶻ` at most 2, and `h` grows at most quadratically. -/
structure Shape (h : ℝ → ℝ) : Prop where
  pos : ∀ z, 0 ≤ z → 0 < h z
  mono : ∀ z w, 0 ≤ z → z ≤ w → h z ≤ h w
  le_exp : ∀ z, 0 ≤ z → h z ≤ Real.exp z
  mul_le : ∀ z, 0 ≤ z → z * h z ≤ 2 * Real.exp z
  scale : ∀ z c, 0 ≤ z → 1 ≤ c → h (z * c) ≤ c ^ 2 * h z

theorem cubic_le_exp {z : ℝ} (hz : 0 ≤ z) : 1 + z + z ^ 2 / 2 + z ^ 3 / 6 ≤ Real.exp z := by
  have h := Real.sum_le_exp_of_nonneg hz 4
  simp only [Finset.sum_range_succ, Finset.sum_range_zero, Nat.factorial] at h
  norm_num at h
  linarith

theorem shape52 : Shape fun z => 1 + z + z ^ 2 / 3 where
  pos z hz := by positivity
  mono z w hz h := by nlinarith
  le_exp z hz := by have := cubic_le_exp hz; have : 0 ≤ z ^ 3 := by positivity
                    nlinarith [sq_nonneg z]
  mul_le z hz := by have := cubic_le_exp hz; nlinarith [sq_nonneg z]
  scale z c hz hc := by
    have h1 : c ≤ c ^ 2 := by nlinarith
    have h2 : z * c ≤ c ^ 2 * z := by nlinarith
    nlinarith

theorem shape32 : Shape fun z => 1 + z where
  pos z hz := by positivity
  mono z w hz h := by linarith
  le_exp z hz := by have := Real.add_one_le_exp z; linarith
  mul_le z hz := by have := cubic_le_exp hz; have : 0 ≤ z ^ 3 := by positivity
                    nlinarith [sq_nonneg z]
  scale z c hz hc := by
    have h1 : c ≤ c ^ 2 := by nlinarith
    have h2 : z * c ≤ c ^ 2 * z := by nlinarith
    nlinarith

/-- `Πᵢ h(zᵢ) · exp(-Σᵢ zᵢ)`. -/
noncomputable def bump (h : ℝ → ℝ) (m : ℕ) (z : ℕ → ℝ) : ℝ := (∏ i ∈ Finset.range m, h (z i)) * Real.exp (-∑ i ∈ Finset.range m, z i)

theorem bump_eq (h : ℝ → ℝ) (m : ℕ) (z : ℕ → ℝ) : bump h m z = ∏ i ∈ Finset.range m, h (z i) * Real.exp (-z i) := by
  rw [bump, ← Finset.sum_neg_distrib, Real.exp_sum, Finset.prod_mul_distrib]

theorem Shape.unit {h : ℝ → ℝ} (hh : Shape h) {z : ℝ} (hz : 0 ≤ z) : 0 ≤ h z * Real.exp (-z) ∧ h z * Real.exp (-z) ≤ 1 := by
  refine ⟨(mul_pos (hh.pos z hz) (Real.exp_pos _)).le, ?_⟩
  rw [Real.exp_neg, ← div_eq_mul_inv]
  exact (div_le_one (Real.exp_pos _)).2 (hh.le_exp z hz)

theorem bump_range {h : ℝ → ℝ} (hh : Shape h) {m : ℕ} {z : ℕ → ℝ} (hz : ∀ i ∈ Finset.range m, 0 ≤ z i) : 0 < bump h m z ∧ bump h m z ≤ 1 := by
  constructor
  · exact mul_pos (Finset.prod_pos fun i hi => hh.pos _ (hz i hi)) (Real.exp_pos _)
  · rw [bump_eq]
    exact Finset.prod_le_one (fun i hi => (hh.unit (hz i hi)).1) fun i hi => (hh.unit (hz i hi)).2

theorem bump_mul_sum {h : ℝ → ℝ} (hh : Shape h) {m : ℕ} {z : ℕ → ℝ} (hz : ∀ i ∈ Finset.range m, 0 ≤ z i) : (∑ i ∈ Finset.range m, z i) * bump h m z ≤ 2 * m := by
  rw [Finset.sum_mul]
  have : ∀ i ∈ Finset.range m, z i * bump h m z ≤ 2 := by
    intro i hi
    rw [bump_eq, ← Finset.mul_prod_erase _ _ hi, ← mul_assoc]
    have h1 : z i * (h (z i) * Real.exp (-z i)) ≤ 2 := by
      rw [Real.exp_neg, ← mul_assoc, ← div_eq_mul_inv, div_le_iff₀ (Real.exp_pos _)]
      exact hh.mul_le _ (hz i hi)
    have h2 : ∏ j ∈ (Finset.range m).erase i, h (z j) * Real.exp (-z j) ≤ 1 :=
      Finset.prod_le_one (fun j hj => (hh.unit (hz j (Finset.mem_of_mem_erase hj))).1) fun j hj => (hh.unit (hz j (Finset.mem_of_mem_erase hj))).2
    have h3 : 0 ≤ z i * (h (z i) * Real.exp (-z i)) := mul_nonneg (hz i hi) (hh.unit (hz i hi)).1
    calc _ ≤ z i * (h (z i) * Real.exp (-z i)) * 1 := mul_le_mul_of_nonneg_left h2 h3
      _ ≤ 2 := by linarith
  calc _ ≤ ∑ i ∈ Finset.range m, (2 : ℝ) := Finset.sum_le_sum this
    _ = 2 * m := by rw [Finset.sum_const, Finset.card_range, nsmul_eq_mul, mul_comm]

/-- The error of such a kernel: `N` errors in the products, `n` in the exponent, `m` inputs. -/
noncomputable def slackM (R : Rounding ℝ) (N n m : ℕ) : ℝ := R.rho ^ N * (R.rho ^ n) ^ (2 * m) * (1 + 2 * m * (R.rho ^ n - 1)) - 1

theorem slackM_nonneg (R : Rounding ℝ) (N n m : ℕ) : 0 ≤ slackM R N n m := by
  have h1 : 1 ≤ R.rho ^ N := one_le_pow₀ (rho_one_le R)
  have h2 : 1 ≤ R.rho ^ n := one_le_pow₀ (rho_one_le R)
  have h3 : 1 ≤ (R.rho ^ n) ^ (2 * m) := one_le_pow₀ h2
  have h4 : 1 ≤ 1 + 2 * m * (R.rho ^ n - 1) := by
    have := mul_nonneg (mul_nonneg (show (0 : ℝ) ≤ 2 by norm_num) (Nat.cast_nonneg m)) (show 0 ≤ R.rho ^ n - 1 by linarith)
    linarith
  have := one_le_mul_of_one_le_of_one_le (one_le_mul_of_one_le_of_one_le h1 h3) h4
  unfold slackM
  linarith

theorem bump_close {R : Rounding ℝ} {N n q m : ℕ} {e : ℝ → ℝ} (he : ExpAcc R q e) {h : ℝ → ℝ} (hh : Shape h) {z : ℕ → ℝ} (hz : ∀ i ∈ Finset.range m, 0 ≤ z i) {P s : ℝ}
    (hP : Close R N (∏ i ∈ Finset.range m, h (z i)) P) (hs : Close R n (∑ i ∈ Finset.range m, z i) s) :
    |R.rnd (P * e (-s)) - bump h m z| ≤ slackM R (N + q + 1) n m := by
  set c := R.rho ^ n with hc
  have h1c : 1 ≤ c := one_le_pow₀ (rho_one_le R)
  have h0c : 0 < c := by linarith
  set S := ∑ i ∈ Finset.range m, z i with hS
  set Q := ∏ i ∈ Finset.range m, h (z i) with hQ
  have hS0 : 0 ≤ S := Finset.sum_nonneg hz
  have hQ0 : 0 < Q := Finset.prod_pos fun i hi => hh.pos _ (hz i hi)
  obtain ⟨hb0, hb1⟩ := bump_range hh hz
  set ρN := R.rho ^ (N + q + 1) with hN
  have h1N : 1 ≤ ρN := one_le_pow₀ (rho_one_le R)
  -- the computed value against the polynomial times the exponential of the computed exponent
  obtain ⟨-, -, k3, k4⟩ := (hP.mul (he (-s))).rnd
  obtain ⟨-, hs0, s3, s4⟩ := hs
  have hδ : 0 ≤ 2 * m * (c - 1) := mul_nonneg (mul_nonneg (by norm_num) (Nat.cast_nonneg m)) (by linarith)
  -- below
  have hlow : bump h m z - 2 * m * (c - 1) ≤ Q * Real.exp (-s) := by
    have a : Real.exp (-(S * c)) ≤ Real.exp (-s) := Real.exp_le_exp.2 (by linarith)
    have b : Real.exp (-S) * (1 - S * (c - 1)) ≤ Real.exp (-(S * c)) := by
      have h := Real.add_one_le_exp (-(S * (c - 1)))
      calc Real.exp (-S) * (1 - S * (c - 1)) ≤ Real.exp (-S) * Real.exp (-(S * (c - 1))) := mul_le_mul_of_nonneg_left (by linarith) (Real.exp_pos _).le
        _ = Real.exp (-(S * c)) := by rw [← Real.exp_add]; congr 1; ring
    have d : S * bump h m z * (c - 1) ≤ 2 * m * (c - 1) := mul_le_mul_of_nonneg_right (bump_mul_sum hh hz) (by linarith)
    have f : Q * (Real.exp (-S) * (1 - S * (c - 1))) ≤ Q * Real.exp (-s) := mul_le_mul_of_nonneg_left (b.trans a) hQ0.le
    have g : Q * (Real.exp (-S) * (1 - S * (c - 1))) = bump h m z - S * bump h m z * (c - 1) := by
      rw [bump, ← hS, ← hQ]
      ring
    linarith
  -- above: shrink the point
  have hup : Q * Real.exp (-s) ≤ c ^ (2 * m) * (bump h m z + 2 * m * (c - 1)) := by
    set w : ℕ → ℝ := fun i => z i / c with hw
    have hw0 : ∀ i ∈ Finset.range m, 0 ≤ w i := fun i hi => div_nonneg (hz i hi) h0c.le
    have hwz : ∀ i, w i * c = z i := fun i => div_mul_cancel₀ _ h0c.ne'
    have hsw : ∑ i ∈ Finset.range m, w i = S / c := by rw [hw, hS, Finset.sum_div]
    have a : Real.exp (-s) ≤ Real.exp (-(S / c)) := Real.exp_le_exp.2 (neg_le_neg ((div_le_iff₀ h0c).2 s3))
    have b : Q ≤ c ^ (2 * m) * ∏ i ∈ Finset.range m, h (w i) := by
      calc Q ≤ ∏ i ∈ Finset.range m, c ^ 2 * h (w i) := Finset.prod_le_prod (fun i hi => (hh.pos _ (hz i hi)).le) fun i hi => by
            have := hh.scale (w i) c (hw0 i hi) h1c
            rwa [hwz] at this
        _ = _ := by rw [Finset.prod_mul_distrib, Finset.prod_const, Finset.card_range, ← pow_mul]
    have d : Q * Real.exp (-s) ≤ c ^ (2 * m) * bump h m w := by
      calc Q * Real.exp (-s) ≤ (c ^ (2 * m) * ∏ i ∈ Finset.range m, h (w i)) * Real.exp (-(S / c)) :=
            mul_le_mul b a (Real.exp_pos _).le (hQ0.le.trans b)
        _ = _ := by rw [bump, hsw, mul_assoc]
    have f : bump h m w ≤ bump h m z + 2 * m * (c - 1) := by
      have b1 : Real.exp (-(S / c)) * (1 - S / c * (c - 1)) ≤ Real.exp (-S) := by
        have h := Real.add_one_le_exp (-(S / c * (c - 1)))
        calc Real.exp (-(S / c)) * (1 - S / c * (c - 1)) ≤ Real.exp (-(S / c)) * Real.exp (-(S / c * (c - 1))) :=
              mul_le_mul_of_nonneg_left (by linarith) (Real.exp_pos _).le
          _ = Real.exp (-S) := by
              rw [← Real.exp_add]
              congr 1
              field_simp
              ring
      have b2 : ∏ i ∈ Finset.range m, h (w i) ≤ Q := Finset.prod_le_prod (fun i hi => (hh.pos _ (hw0 i hi)).le) fun i hi =>
        hh.mono _ _ (hw0 i hi) (div_le_self (hz i hi) h1c)
      have b3 := bump_mul_sum hh hw0
      rw [hsw] at b3
      have b4 : S / c * bump h m w * (c - 1) ≤ 2 * m * (c - 1) := mul_le_mul_of_nonneg_right b3 (by linarith)
      have b0 : 0 < ∏ i ∈ Finset.range m, h (w i) := Finset.prod_pos fun i hi => hh.pos _ (hw0 i hi)
      have b5 : bump h m w - S / c * bump h m w * (c - 1) ≤ bump h m z := by
        have e1 : bump h m w - S / c * bump h m w * (c - 1) = (∏ i ∈ Finset.range m, h (w i)) * (Real.exp (-(S / c)) * (1 - S / c * (c - 1))) := by
          rw [bump, hsw]
          ring
        rw [e1]
        calc _ ≤ (∏ i ∈ Finset.range m, h (w i)) * Real.exp (-S) := mul_le_mul_of_nonneg_left b1 b0.le
          _ ≤ Q * Real.exp (-S) := mul_le_mul_of_nonneg_right b2 (Real.exp_pos _).le
      linarith
    exact d.trans (mul_le_mul_of_nonneg_left f (pow_nonneg h0c.le _))
  have hA : 0 < Q * Real.exp (-s) := mul_pos hQ0 (Real.exp_pos _)
  set A := Q * Real.exp (-s) with hAd
  set r := R.rnd (P * e (-s)) with hr
  have hcm : 1 ≤ c ^ (2 * m) := one_le_pow₀ h1c
  have hN0 : 0 ≤ ρN := by linarith
  have up : r - bump h m z ≤ slackM R (N + q + 1) n m := by
    have k : r ≤ ρN * (c ^ (2 * m) * (bump h m z + 2 * m * (c - 1))) := by
      calc r ≤ A * ρN := k4
        _ = ρN * A := mul_comm _ _
        _ ≤ _ := mul_le_mul_of_nonneg_left hup hN0
    have kk : 1 ≤ ρN * c ^ (2 * m) := one_le_mul_of_one_le_of_one_le h1N hcm
    have k2 : bump h m z * (ρN * c ^ (2 * m) - 1) ≤ 1 * (ρN * c ^ (2 * m) - 1) := mul_le_mul_of_nonneg_right hb1 (by linarith)
    have k5 : slackM R (N + q + 1) n m = ρN * c ^ (2 * m) * (1 + 2 * m * (c - 1)) - 1 := rfl
    rw [k5]
    nlinarith
  have lo : bump h m z - r ≤ slackM R (N + q + 1) n m := by
    have k : bump h m z - 2 * m * (c - 1) ≤ r * ρN := hlow.trans k3
    have k5 : slackM R (N + q + 1) n m = ρN * c ^ (2 * m) * (1 + 2 * m * (c - 1)) - 1 := rfl
    have k6 : ρN * 1 * (1 + 2 * m * (c - 1)) ≤ ρN * c ^ (2 * m) * (1 + 2 * m * (c - 1)) :=
      mul_le_mul_of_nonneg_right (mul_le_mul_of_nonneg_left hcm hN0) (by linarith)
    have k7 : 2 * m * (c - 1) ≤ ρN * (2 * m * (c - 1)) := le_mul_of_one_le_left hδ h1N
    by_cases hr1 : r ≤ 1
    · have : r * (ρN - 1) ≤ 1 * (ρN - 1) := mul_le_mul_of_nonneg_right hr1 (by linarith)
      rw [k5]
      nlinarith
    · have := slackM_nonneg R (N + q + 1) n m
      linarith
  exact abs_le.2 ⟨by linarith, up⟩

/-! ## Kriging -/

/-- Specification of the correlations, with `dᵢ = θᵢ |aᵢ - bᵢ|`: `exp(-Σ dᵢ)`; `exp(-Σ θᵢ (aᵢ - bᵢ)²)`; `Π (1 + √5 dᵢ + 5/3 dᵢ²) exp(-√5 Σ dᵢ)`; `Π (1 + √3 dᵢ) exp(-√3 Σ dᵢ)`. -/
noncomputable def correlation (m : ℕ) (k : Kind) (theta a b : ℕ → ℝ) : ℝ :=
  let d : ℕ → ℝ := fun i => theta i * |a i - b i|
  match k with
  | .absExp => Real.exp (-∑ i ∈ Finset.range m, d i)
  | .squarExp => Real.exp (-∑ i ∈ Finset.range m, theta i * (a i - b i) ^ 2)
  | .matern52 => (∏ i ∈ Finset.range m, (1 + √5 * d i + 5 / 3 * d i ^ 2)) * Real.exp (-(√5 * ∑ i ∈ Finset.range m, d i))
  | .matern32 => (∏ i ∈ Finset.range m, (1 + √3 * d i)) * Real.exp (-(√3 * ∑ i ∈ Finset.range m, d i))

/-- What the theorems need of NumPy: an accurate exponential, constants that are correctly rounded, sums and products of `m` values. -/
structure LibOk (R : Rounding ℝ) (q m : ℕ) (L : Lib ℝ) : Prop where
  e : ExpAcc R q L.e
  s5 : L.s5 = R.rnd √5
  c53 : L.c53 = R.rnd (5 / 3)
  s3 : L.s3 = R.rnd √3
  ts : L.ts.Adds m
  tp : L.tp.Adds m

/-- The exact `theta * d`. -/
def llE (k : Kind) (theta a b : ℕ → K) (i : ℕ) : K := theta i * (if k = .squarExp then (a i - b i) ^ 2 else |a i - b i|)

theorem comp_close {R : Rounding K} (k : Kind) (a b : K) : Close R 3 (if k = .squarExp then (a - b) ^ 2 else |a - b|) (compF R k a b) := by
  have h1 : Close R 3 |a - b| |R.rnd (a - b)| := by
    rw [← abs_rnd]
    exact (Close.of_rnd (abs_nonneg _)).mono (by omega)
  cases k with
  | squarExp =>
    rw [if_pos rfl, compF, sq]
    exact (close_sq _).rnd
  | absExp => exact h1
  | matern52 => exact h1
  | matern32 => exact h1

theorem ll_close {R : Rounding K} {m : ℕ} (k : Kind) {theta : ℕ → K} (hth : ∀ i, i < m → 0 ≤ theta i) (a b : ℕ → K) {i : ℕ} (hi : i < m) :
    Close R 4 (llE k theta a b i) (llF R k theta a b i) := by
  have := ((Close.refl (R := R) (hth i hi)).mul (comp_close k (a i) (b i))).rnd
  rwa [show 0 + 3 + 1 = 4 by norm_num] at this

theorem exponent_close {R : Rounding K} {m : ℕ} {t : Tree} (ht : t.Adds m) (k : Kind) {theta : ℕ → K} (hth : ∀ i, i < m → 0 ≤ theta i) (a b : ℕ → K) :
    Close R (m + 3) (∑ i ∈ Finset.range m, llE k theta a b i) (t.eval R (llF R k theta a b)) := by
  have h := eval_close (R := R) 4 (llE k theta a b) (llF R k theta a b) t fun i hi => ll_close k hth a b (List.mem_range.1 (ht.mem_iff.1 hi))
  have hp := leaves_pos t
  rw [leaves_length ht] at h hp
  rw [(ht.map _).sum_eq, sum_range_list] at h
  rwa [show 4 + (m - 1) = m + 3 by omega] at h

theorem prod_range_list (n : ℕ) (f : ℕ → K) : ((List.range n).map f).prod = ∏ i ∈ Finset.range n, f i := rfl

theorem prod_close {R : Rounding K} (n : ℕ) (f g : ℕ → K) (t : Tree) (h : ∀ i ∈ t.leaves, Close R n (f i) (g i)) :
    Close R ((n + 1) * t.leaves.length) (t.leaves.map f).prod (prodF R g t) := by
  induction t with
  | leaf i =>
    have := (h i (by simp [Tree.leaves])).mono (show n ≤ (n + 1) * 1 by omega)
    simpa [Tree.leaves, prodF] using this
  | node a b ha hb =>
    have p1 := leaves_pos a
    have p2 := leaves_pos b
    -- one error of each factor is still free
    have h1 : ∀ (t : Tree), (∀ i ∈ t.leaves, Close R n (f i) (g i)) → Close R ((n + 1) * t.leaves.length - 1) (t.leaves.map f).prod (prodF R g t) := by
      intro t
      induction t with
      | leaf i =>
        intro h
        have := h i (by simp [Tree.leaves])
        simpa [Tree.leaves, prodF] using this
      | node a b ha hb =>
        intro h
        have p1 := leaves_pos a
        have p2 := leaves_pos b
        have q1 : 1 ≤ (n + 1) * a.leaves.length := Nat.mul_pos (by omega) p1
        have q2 : 1 ≤ (n + 1) * b.leaves.length := Nat.mul_pos (by omega) p2
        have := ((ha fun i hi => h i (by simp [Tree.leaves, hi])).mul (hb fun i hi => h i (by simp [Tree.leaves, hi]))).rnd
        rw [Tree.leaves, prodF, List.map_append, List.prod_append, List.length_append, Nat.mul_add]
        rwa [show (n + 1) * a.leaves.length - 1 + ((n + 1) * b.leaves.length - 1) + 1 = (n + 1) * a.leaves.length + (n + 1) * b.leaves.length - 1 by omega] at this
    exact (h1 _ h).mono (by omega)

/-- The error of a correlation: `m` inputs, an exponential with `q` errors. -/
noncomputable def slackOf (R : Rounding ℝ) (k : Kind) (m q : ℕ) : ℝ :=
  match k with
  | .absExp | .squarExp => slack R (m + 3) q
  | .matern52 => slackM R (13 * m + q + 1) (m + 5) m
  | .matern32 => slackM R (8 * m + q + 1) (m + 5) m

theorem slackOf_nonneg (R : Rounding ℝ) (k : Kind) (m q : ℕ) : 0 ≤ slackOf R k m q := by
  cases k
  · exact slack_nonneg R _ _
  · exact slack_nonneg R _ _
  · exact slackM_nonneg R _ _ _
  · exact slackM_nonneg R _ _ _

theorem matern_exponent {R : Rounding ℝ} {n m : ℕ} {t : Tree} (ht : t.Adds m) {f g : ℕ → ℝ} (h : Close R n (∑ i ∈ Finset.range m, f i) (t.eval R g)) {s s' : ℝ} (hs : 0 ≤ s) (hs' : s' = R.rnd s) :
    ∃ y, R.rnd (-s' * t.eval R g) = -y ∧ Close R (n + 2) (∑ i ∈ Finset.range m, s * f i) y := by
  refine ⟨R.rnd (s' * t.eval R g), by rw [neg_mul, R.odd], ?_⟩
  rw [← Finset.mul_sum, hs']
  have := ((Close.of_rnd (R := R) hs).mul h).rnd
  rwa [show 1 + n + 1 = n + 2 by omega] at this

/-- **C119** A computed correlation differs from the exact one by at most `slackOf R k m q`, whatever the points and the hyper-parameters are. -/
theorem C119_correlation {R : Rounding ℝ} {q m : ℕ} {L : Lib ℝ} (hL : LibOk R q m L) (k : Kind) (theta : ℕ → ℝ) (hth : ∀ i, i < m → 0 ≤ theta i) (a b : ℕ → ℝ) :
    |corrF R L k theta a b - correlation m k theta a b| ≤ slackOf R k m q := by
  have hx := exponent_close (R := R) hL.ts k hth a b
  cases k with
  | absExp => exact exp_close hL.e hx
  | squarExp => exact exp_close hL.e hx
  | matern52 =>
    obtain ⟨y, e1, e2⟩ := matern_exponent hL.ts hx (Real.sqrt_nonneg 5) hL.s5
    have h5 : √5 * √5 = (5 : ℝ) := Real.mul_self_sqrt (by norm_num)
    have hd : ∀ i ∈ Finset.range m, 0 ≤ √5 * llE .matern52 theta a b i := fun i hi =>
      mul_nonneg (Real.sqrt_nonneg 5) (ll_close (R := R) .matern52 hth a b (Finset.mem_range.1 hi)).1
    have hP : Close R (13 * m) (∏ i ∈ Finset.range m, (1 + √5 * llE .matern52 theta a b i + (√5 * llE .matern52 theta a b i) ^ 2 / 3))
        (prodF R (fun i => fac52 R L (llF R .matern52 theta a b i)) L.tp) := by
      have h := prod_close (R := R) 12 (fun i => 1 + √5 * llE .matern52 theta a b i + (√5 * llE .matern52 theta a b i) ^ 2 / 3)
        (fun i => fac52 R L (llF R .matern52 theta a b i)) L.tp fun i hi => by
          have hi : i < m := List.mem_range.1 (hL.tp.mem_iff.1 hi)
          have hl := ll_close (R := R) .matern52 hth a b hi
          have f1 := ((Close.of_rnd (R := R) (Real.sqrt_nonneg 5)).mul hl).rnd
          have f2 := ((((Close.refl (R := R) zero_le_one).mono (by omega)).add f1).rnd)
          have f3 := ((Close.of_rnd (R := R) (show (0 : ℝ) ≤ 5 / 3 by norm_num)).mul (hl.mul hl).rnd).rnd
          have f4 := ((f2.mono (m := 11) (by omega)).add (f3.mono (by omega))).rnd
          rw [fac52, hL.s5, hL.c53]
          have ee : (√5 * llE .matern52 theta a b i) ^ 2 / 3 = 5 / 3 * (llE .matern52 theta a b i * llE .matern52 theta a b i) := by
            rw [mul_pow, sq √5, h5]
            ring
          rw [ee]
          exact f4
      rw [(hL.tp.map _).prod_eq, prod_range_list, leaves_length hL.tp] at h
      exact h
    have h := bump_close hL.e shape52 hd hP e2
    have hb : bump (fun z => 1 + z + z ^ 2 / 3) m (fun i => √5 * llE .matern52 theta a b i) = correlation m .matern52 theta a b := by
      rw [bump, correlation, ← Finset.mul_sum]
      congr 1
      refine Finset.prod_congr rfl fun i _ => ?_
      show 1 + √5 * (theta i * |a i - b i|) + (√5 * (theta i * |a i - b i|)) ^ 2 / 3 = _
      rw [mul_pow, sq √5, h5]
      ring
    rw [hb] at h
    rw [corrF, e1]
    exact h
  | matern32 =>
    obtain ⟨y, e1, e2⟩ := matern_exponent hL.ts hx (Real.sqrt_nonneg 3) hL.s3
    have hd : ∀ i ∈ Finset.range m, 0 ≤ √3 * llE .matern32 theta a b i := fun i hi =>
      mul_nonneg (Real.sqrt_nonneg 3) (ll_close (R := R) .matern32 hth a b (Finset.mem_range.1 hi)).1
    have hP : Close R (8 * m) (∏ i ∈ Finset.range m, (1 + √3 * llE .matern32 theta a b i))
        (prodF R (fun i => fac32 R L (llF R .matern32 theta a b i)) L.tp) := by
      have h := prod_close (R := R) 7 (fun i => 1 + √3 * llE .matern32 theta a b i)
        (fun i => fac32 R L (llF R .matern32 theta a b i)) L.tp fun i hi => by
          have hi : i < m := List.mem_range.1 (hL.tp.mem_iff.1 hi)
          have f1 := ((Close.of_rnd (R := R) (Real.sqrt_nonneg 3)).mul (ll_close (R := R) .matern32 hth a b hi)).rnd
          have f2 := ((((Close.refl (R := R) zero_le_one).mono (by omega)).add f1).rnd)
          rw [fac32, hL.s3]
          exact f2
      rw [(hL.tp.map _).prod_eq, prod_range_list, leaves_length hL.tp] at h
      exact h
    have h := bump_close hL.e shape32 hd hP e2
    have hb : bump (fun z => 1 + z) m (fun i => √3 * llE .matern32 theta a b i) = correlation m .matern32 theta a b := by
      rw [bump, correlation, ← Finset.mul_sum]
      rfl
    rw [hb] at h
    rw [corrF, e1]
    exact h

theorem correlation_range (m : ℕ) (k : Kind) (theta : ℕ → ℝ) (hth : ∀ i, i < m → 0 ≤ theta i) (a b : ℕ → ℝ) : 0 < correlation m k theta a b ∧ correlation m k theta a b ≤ 1 := by
  have hd : ∀ i ∈ Finset.range m, 0 ≤ theta i * |a i - b i| := fun i hi => mul_nonneg (hth i (Finset.mem_range.1 hi)) (abs_nonneg _)
  cases k with
  | absExp => exact ⟨Real.exp_pos _, Real.exp_le_one_iff.2 (neg_nonpos.2 (Finset.sum_nonneg hd))⟩
  | squarExp => exact ⟨Real.exp_pos _, Real.exp_le_one_iff.2 (neg_nonpos.2 (Finset.sum_nonneg fun i hi => mul_nonneg (hth i (Finset.mem_range.1 hi)) (sq_nonneg _)))⟩
  | matern52 =>
    have h := bump_range shape52 (m := m) (z := fun i => √5 * (theta i * |a i - b i|)) fun i hi => mul_nonneg (Real.sqrt_nonneg 5) (hd i hi)
    have h5 : √5 * √5 = (5 : ℝ) := Real.mul_self_sqrt (by norm_num)
    have hb : bump (fun z => 1 + z + z ^ 2 / 3) m (fun i => √5 * (theta i * |a i - b i|)) = correlation m .matern52 theta a b := by
      rw [bump, correlation, ← Finset.mul_sum]
      congr 1
      refine Finset.prod_congr rfl fun i _ => ?_
      rw [mul_pow, sq √5, h5]
      ring
    rwa [hb] at h
  | matern32 =>
    have h := bump_range shape32 (m := m) (z := fun i => √3 * (theta i * |a i - b i|)) fun i hi => mul_nonneg (Real.sqrt_nonneg 3) (hd i hi)
    have hb : bump (fun z => 1 + z) m (fun i => √3 * (theta i * |a i - b i|)) = correlation m .matern32 theta a b := by
      rw [bump, correlation, ← Finset.mul_sum]
    rwa [hb] at h

/-- **C119** Kriging: the computed prediction differs from the exact value for the same coefficients by at most a factor times `|yMean| + yStd (Σ |fᵢ βᵢ| + Σ |γⱼ|)`; the factor depends on the
numbers of inputs, trend functions and training points, but neither on the points nor on the hyper-parameters. -/
theorem C119_kriging {R : Rounding ℝ} {q m p n : ℕ} {L : Lib ℝ} (hL : LibOk R q m L) {df dr : Dot} (hf : df.Computes p) (hr : dr.Computes n) (k : Kind) (theta : ℕ → ℝ)
    (hth : ∀ i, i < m → 0 ≤ theta i) (xt : ℕ → ℕ → ℝ) (f beta gamma : ℕ → ℝ) (yMean yStd : ℝ) (hs : 0 ≤ yStd) (x : ℕ → ℝ) :
    |krigingF R L df dr k theta xt f beta gamma yMean yStd x -
        (yMean + yStd * ((∑ i ∈ Finset.range p, f i * beta i) + ∑ j ∈ Finset.range n, correlation m k theta x (xt j) * gamma j))| ≤
      ((1 + slackOf R k m q) * R.rho ^ (p + n + 3) - 1) * (|yMean| + yStd * ((∑ i ∈ Finset.range p, |f i| * |beta i|) + ∑ j ∈ Finset.range n, |gamma j|)) := by
  set κ := 1 + slackOf R k m q with hκ
  have h1κ : 1 ≤ κ := by have := slackOf_nonneg R k m q; linarith
  have h0κ : 0 ≤ κ := by linarith
  have hd := dot_upto (R := R) h1κ (fun j => |gamma j|) (fun j => correlation m k theta x (xt j) * gamma j) (fun j => corrF R L k theta x (xt j)) gamma dr fun j _ => by
    have hc := correlation_range m k theta hth x (xt j)
    have : Upto κ 1 (correlation m k theta x (xt j)) (corrF R L k theta x (xt j)) :=
      ⟨h1κ, by rw [abs_of_pos hc.1]; exact hc.2, by
        have := C119_correlation hL k theta hth x (xt j)
        rw [hκ]
        linarith⟩
    simpa using this.mul_right (gamma j)
  have hb := Upto.of_within (Dot.eval_within (R := R) 0 (fun i => |f i * beta i|) (fun i => f i * beta i) f beta df fun i _ => within_self _)
  rw [Dot.sum_terms hr, Dot.sum_terms hr, Dot.terms_length hr] at hd
  rw [Dot.sum_terms hf, Dot.sum_terms hf, Dot.terms_length hf, zero_add] at hb
  have hb' : Upto (κ * R.rho ^ (p + n)) (∑ i ∈ Finset.range p, |f i * beta i|) (∑ i ∈ Finset.range p, f i * beta i) (df.eval R f beta) := by
    refine hb.mono ?_
    calc R.rho ^ p ≤ R.rho ^ (p + n) := pow_le_pow_right₀ (rho_one_le R) (by omega)
      _ ≤ κ * R.rho ^ (p + n) := le_mul_of_one_le_left (pow_nonneg (rho_pos R).le _) h1κ
  have h1 := ((hb'.add (hd.mono (rho_mul_mono h0κ (show n ≤ p + n by omega)))).rnd (R := R)).mul_left hs
  have h2 := h1.rnd (R := R)
  have hm : Upto (κ * R.rho ^ (p + n) * R.rho * R.rho) |yMean| yMean yMean := by
    have hone : (1 : ℝ) ≤ κ * R.rho ^ (p + n) * R.rho * R.rho := h2.1
    exact ⟨hone, le_rfl, by rw [sub_self, abs_zero]; exact mul_nonneg (by linarith) (abs_nonneg _)⟩
  have h3 := ((hm.add h2).rnd (R := R)).2.2
  simp only [abs_mul] at h3
  rw [show κ * R.rho ^ (p + n) * R.rho * R.rho * R.rho = κ * R.rho ^ (p + n + 3) by rw [pow_add R.rho (p + n) 3]; ring] at h3
  exact h3

/-! ## RBF -/

/-- Specification: `exp(-Σᵢ ((xᵢ - tᵢ) / d0ᵢ)²)`. -/
noncomputable def gaussian (nx : ℕ) (d0 x t : ℕ → ℝ) : ℝ := Real.exp (-∑ i ∈ Finset.range nx, ((x i - t i) / d0 i) ^ 2)

theorem ratio_close {R : Rounding K} (v d : K) : Close R 5 ((v / d) ^ 2) (R.rnd (R.rnd (R.rnd v / d) * R.rnd (R.rnd v / d))) := by
  have h1 : Close R 2 |v / d| |R.rnd (R.rnd v / d)| := by
    rw [← abs_rnd, abs_div, abs_div]
    have := ((Close.of_rnd (R := R) (abs_nonneg v)).div (Close.refl (abs_nonneg d))).rnd
    rwa [abs_rnd] at this
  have h2 := (h1.mul h1).rnd
  rwa [abs_mul_abs_self, abs_mul_abs_self, ← sq] at h2

theorem r2_close {R : Rounding K} (nx : ℕ) (d0 x t : ℕ → K) : Close R (nx + 5) (∑ i ∈ Finset.range nx, ((x i - t i) / d0 i) ^ 2) (r2F R nx d0 x t) := by
  have : ∀ (l : List ℕ) (n : ℕ), 5 ≤ n → ∀ s s' : K, Close R n s s' →
      Close R (n + l.length) (s + (l.map fun i => ((x i - t i) / d0 i) ^ 2).sum)
        (l.foldl (fun s i => R.rnd (s + R.rnd (R.rnd (R.rnd (x i - t i) / d0 i) * R.rnd (R.rnd (x i - t i) / d0 i)))) s') := by
    intro l
    induction l with
    | nil => intro n _ s s' h; simpa using h
    | cons i l ih =>
      intro n hn s s' h
      rw [List.foldl_cons, List.map_cons, List.sum_cons, ← add_assoc, List.length_cons, show n + (l.length + 1) = n + 1 + l.length by omega]
      exact ih (n + 1) (by omega) _ _ ((h.add ((ratio_close _ _).mono hn)).rnd)
  have h := this (List.range nx) 5 le_rfl 0 0 ((Close.refl le_rfl).mono (by omega))
  rwa [zero_add, List.length_range, sum_range_list, Nat.add_comm] at h

/-- **C119** RBF: a computed radial function differs from the exact one by at most `slack R (nx + 5) q`, whatever the points and the (non-zero) scaling are. -/
theorem C119_radial {R : Rounding ℝ} {q : ℕ} {e : ℝ → ℝ} (he : ExpAcc R q e) (nx nt : ℕ) (d0 : ℕ → ℝ) (xt : ℕ → ℕ → ℝ) (x : ℕ → ℝ) {j : ℕ} (hj : j < nt) :
    |rbfRowF R e nx nt d0 xt x j - gaussian nx d0 x (xt j)| ≤ slack R (nx + 5) q := by
  rw [rbfRowF, if_pos hj]
  exact exp_close he (r2_close nx d0 x (xt j))

/-- The exact row: the radial functions, then 1, then the inputs. -/
noncomputable def rbfRow (nx nt : ℕ) (d0 : ℕ → ℝ) (xt : ℕ → ℕ → ℝ) (x : ℕ → ℝ) (j : ℕ) : ℝ :=
  if j < nt then gaussian nx d0 x (xt j) else if j = nt then 1 else x (j - nt - 1)

/-- **C119** RBF: the computed prediction (`n` columns: the radial functions and as much of the polynomial as the degree asks for) differs from the exact value for the same coefficients by at most a
factor times `Σ |sol|` over the radial functions plus the absolute values of the terms of the polynomial; the factor depends on the numbers of inputs and columns only. -/
theorem C119_rbf {R : Rounding ℝ} {q : ℕ} {e : ℝ → ℝ} (he : ExpAcc R q e) (nx nt p : ℕ) {d : Dot} (hd : d.Computes (nt + p)) (d0 : ℕ → ℝ) (xt : ℕ → ℕ → ℝ) (sol x : ℕ → ℝ) :
    |rbfF R e d nx nt d0 xt sol x - ((∑ j ∈ Finset.range nt, gaussian nx d0 x (xt j) * sol j) + ∑ i ∈ Finset.range p, (if i = 0 then 1 else x (i - 1)) * sol (nt + i))| ≤
      ((1 + slack R (nx + 5) q) * R.rho ^ (nt + p) - 1) * ((∑ j ∈ Finset.range nt, |sol j|) + ∑ i ∈ Finset.range p, |if i = 0 then 1 else x (i - 1)| * |sol (nt + i)|) := by
  set κ := 1 + slack R (nx + 5) q with hκ
  have h1κ : 1 ≤ κ := by have := slack_nonneg R (nx + 5) q; linarith
  have h := dot_upto (R := R) h1κ (fun j => if j < nt then |sol j| else |if j = nt then 1 else x (j - nt - 1)| * |sol j|) (fun j => rbfRow nx nt d0 xt x j * sol j)
    (rbfRowF R e nx nt d0 xt x) sol d fun j _ => by
      by_cases hj : j < nt
      · have hg : Upto κ 1 (gaussian nx d0 x (xt j)) (rbfRowF R e nx nt d0 xt x j) :=
          ⟨h1κ, by
            rw [gaussian, Real.abs_exp]
            exact Real.exp_le_one_iff.2 (neg_nonpos.2 (Finset.sum_nonneg fun i _ => sq_nonneg _)), by
            have := C119_radial he nx nt d0 xt x hj
            rw [hκ]
            linarith⟩
        rw [if_pos hj, rbfRow, if_pos hj]
        simpa using hg.mul_right (sol j)
      · rw [if_neg hj, rbfRow, if_neg hj, rbfRowF, if_neg hj, ← abs_mul]
        exact ⟨h1κ, le_rfl, by rw [sub_self, abs_zero]; exact mul_nonneg (by linarith) (abs_nonneg _)⟩
  have key : ∀ F : ℕ → ℝ, (d.terms.map F).sum = (∑ j ∈ Finset.range nt, F j) + ∑ i ∈ Finset.range p, F (nt + i) := fun F => by
    rw [Dot.sum_terms hd, Finset.sum_range_add]
  rw [key, key, Dot.terms_length hd] at h
  have e1 : ∀ i, (if nt + i = nt then (1 : ℝ) else x (nt + i - nt - 1)) = if i = 0 then 1 else x (i - 1) := fun i => by
    by_cases hi : i = 0
    · simp [hi]
    · rw [if_neg (by omega), if_neg hi, show nt + i - nt - 1 = i - 1 by omega]
  have e2 : ∑ j ∈ Finset.range nt, rbfRow nx nt d0 xt x j * sol j = ∑ j ∈ Finset.range nt, gaussian nx d0 x (xt j) * sol j :=
    Finset.sum_congr rfl fun j hj => by rw [rbfRow, if_pos (Finset.mem_range.1 hj)]
  have e3 : ∑ i ∈ Finset.range p, rbfRow nx nt d0 xt x (nt + i) * sol (nt + i) = ∑ i ∈ Finset.range p, (if i = 0 then 1 else x (i - 1)) * sol (nt + i) :=
    Finset.sum_congr rfl fun i _ => by rw [rbfRow, if_neg (by omega), e1]
  have e4 : (∑ j ∈ Finset.range nt, if j < nt then |sol j| else |if j = nt then 1 else x (j - nt - 1)| * |sol j|) = ∑ j ∈ Finset.range nt, |sol j| :=
    Finset.sum_congr rfl fun j hj => by rw [if_pos (Finset.mem_range.1 hj)]
  have e5 : (∑ i ∈ Finset.range p, if nt + i < nt then |sol (nt + i)| else |if nt + i = nt then 1 else x (nt + i - nt - 1)| * |sol (nt + i)|) =
      ∑ i ∈ Finset.range p, |if i = 0 then 1 else x (i - 1)| * |sol (nt + i)| :=
    Finset.sum_congr rfl fun i _ => by rw [if_neg (by omega), e1]
  rw [e2, e3, e4, e5] at h
  exact h.2.2

/-! ## Double precision -/

/-- The `double` on real numbers. -/
noncomputable abbrev doubleR : Rounding ℝ := binary 53 (by norm_num)

theorem rho_doubleR : doubleR.rho = (2 ^ 53 + 1) / (2 ^ 53 - 1) := by
  have hu : doubleR.u = (2 ^ 53)⁻¹ := rfl
  rw [Rounding.rho, hu, div_eq_div_iff (by norm_num) (by norm_num)]
  norm_num

theorem pow_le_of (n : ℕ) (hn : n ≤ 1000000) : doubleR.rho ^ n ≤ 1 + 5 * n / 2 ^ 54 := by
  rw [rho_doubleR]
  have h : ∀ k : ℕ, k ≤ 1000000 → ((2 ^ 53 + 1) / (2 ^ 53 - 1) : ℝ) ^ k ≤ 1 + 5 * k / 2 ^ 54 := by
    intro k
    induction k with
    | zero => intro _; norm_num
    | succ k ih =>
      intro hk
      have hk' : (k : ℝ) ≤ 1000000 := by exact_mod_cast (show k ≤ 1000000 by omega)
      have h0 : (0 : ℝ) ≤ k := Nat.cast_nonneg k
      have e : ((2 ^ 53 + 1) / (2 ^ 53 - 1) : ℝ) ≤ 1 + 9 / 2 ^ 55 := by
        rw [div_le_iff₀ (by norm_num)]
        norm_num
      rw [pow_succ]
      calc ((2 ^ 53 + 1) / (2 ^ 53 - 1) : ℝ) ^ k * ((2 ^ 53 + 1) / (2 ^ 53 - 1)) ≤ (1 + 5 * k / 2 ^ 54) * (1 + 9 / 2 ^ 55) :=
            mul_le_mul (ih (by omega)) e (by norm_num) (by positivity)
        _ ≤ 1 + 5 * ((k + 1 : ℕ) : ℝ) / 2 ^ 54 := by
            push_cast
            have : (5 * k / 2 ^ 54 : ℝ) * (9 / 2 ^ 55) ≤ 1 / 2 ^ 55 := by
              rw [div_mul_div_comm, div_le_div_iff₀ (by norm_num) (by norm_num)]
              norm_num
              linarith
            linarith
  exact h n hn

theorem slackOf_double (k : Kind) {m : ℕ} (hm : m ≤ 10) : slackOf doubleR k m 2 ≤ 3 / 10 ^ 13 := by
  have up : ∀ (a b : ℕ), a ≤ b → b ≤ 1000000 → doubleR.rho ^ a ≤ 1 + 5 * b / 2 ^ 54 := fun a b h hb =>
    (pow_le_pow_right₀ (rho_one_le _) h).trans (pow_le_of b hb)
  have one : ∀ a : ℕ, 1 ≤ doubleR.rho ^ a := fun a => one_le_pow₀ (rho_one_le _)
  have hm' : (m : ℝ) ≤ 10 := by exact_mod_cast hm
  have hm0 : (0 : ℝ) ≤ m := Nat.cast_nonneg m
  have hE : slack doubleR (m + 3) 2 ≤ 3 / 10 ^ 13 := by
    have h1 := up (m + 3) 13 (by omega) (by norm_num)
    have h2 := up 2 2 le_rfl (by norm_num)
    have h4 : 1 ≤ Real.exp 1 := by have := Real.add_one_le_exp 1; linarith
    have h6 : (doubleR.rho ^ (m + 3) - 1) / Real.exp 1 ≤ doubleR.rho ^ (m + 3) - 1 := div_le_self (by linarith [one (m + 3)]) h4
    unfold slack
    norm_num at h1 h2 ⊢
    linarith
  have hM : ∀ N, N ≤ 133 → slackM doubleR N (m + 5) m ≤ 3 / 10 ^ 13 := by
    intro N hN
    have h1 := up N 133 hN (by norm_num)
    have h2 := up ((m + 5) * (2 * m)) 300 (by nlinarith) (by norm_num)
    have h3 := up (m + 5) 15 (by omega) (by norm_num)
    have h3' := one (m + 5)
    have h4 : 2 * m * (doubleR.rho ^ (m + 5) - 1) ≤ 20 * (5 * 15 / 2 ^ 54) := by
      refine mul_le_mul (by linarith) (by push_cast at h3; linarith) (by linarith) (by norm_num)
    have h5 : 1 + 2 * m * (doubleR.rho ^ (m + 5) - 1) ≤ 1 + 20 * (5 * 15 / 2 ^ 54) := by linarith
    have h6 : 0 ≤ 1 + 2 * m * (doubleR.rho ^ (m + 5) - 1) := by
      have := mul_nonneg (mul_nonneg (show (0 : ℝ) ≤ 2 by norm_num) hm0) (show 0 ≤ doubleR.rho ^ (m + 5) - 1 by linarith)
      linarith
    unfold slackM
    rw [← pow_mul]
    have h7 := mul_le_mul (mul_le_mul h1 h2 (by linarith [one ((m + 5) * (2 * m))]) (by positivity)) h5 h6 (by positivity)
    norm_num at h7 ⊢
    linarith
  cases k with
  | absExp => exact hE
  | squarExp => exact hE
  | matern52 => exact hM _ (by omega)
  | matern32 => exact hM _ (by omega)

/-- **C119** In double precision with an exponential that is off by at most two roundings, correlations of points with up to 10 inputs are accurate to `3e-13`, and a prediction
with up to 1000 training points and trend functions to `6e-13` times `|yMean| + yStd (Σ |fᵢ βᵢ| + Σ |γⱼ|)`. -/
theorem C119_kriging_double {m p n : ℕ} {L : Lib ℝ} (hL : LibOk doubleR 2 m L) (hm : m ≤ 10) (k : Kind) (theta : ℕ → ℝ) (hth : ∀ i, i < m → 0 ≤ theta i)
    (xt : ℕ → ℕ → ℝ) (x : ℕ → ℝ) :
    (∀ j, |corrF doubleR L k theta x (xt j) - correlation m k theta x (xt j)| ≤ 3 / 10 ^ 13) ∧
    ∀ (df dr : Dot), df.Computes p → dr.Computes n → p + n ≤ 1000 → ∀ (f beta gamma : ℕ → ℝ) (yMean yStd : ℝ), 0 ≤ yStd →
      |krigingF doubleR L df dr k theta xt f beta gamma yMean yStd x -
          (yMean + yStd * ((∑ i ∈ Finset.range p, f i * beta i) + ∑ j ∈ Finset.range n, correlation m k theta x (xt j) * gamma j))| ≤
        6 / 10 ^ 13 * (|yMean| + yStd * ((∑ i ∈ Finset.range p, |f i| * |beta i|) + ∑ j ∈ Finset.range n, |gamma j|)) := by
  have hsl := slackOf_double k hm
  refine ⟨fun j => (C119_correlation hL k theta hth x (xt j)).trans hsl, fun df dr hf hr hn f beta gamma yMean yStd hs => ?_⟩
  refine (C119_kriging hL hf hr k theta hth xt f beta gamma yMean yStd hs x).trans (mul_le_mul_of_nonneg_right ?_ ?_)
  · have h2 : doubleR.rho ^ (p + n + 3) ≤ 1 + 5 * (1003 : ℕ) / 2 ^ 54 :=
      (pow_le_pow_right₀ (rho_one_le _) (show p + n + 3 ≤ 1003 by omega)).trans (pow_le_of 1003 (by norm_num))
    have h4 : (0 : ℝ) ≤ doubleR.rho ^ (p + n + 3) := pow_nonneg (rho_pos _).le _
    have h5 := mul_le_mul (show 1 + slackOf doubleR k m 2 ≤ 1 + 3 / 10 ^ 13 by linarith) h2 h4 (by norm_num)
    norm_num at h5 ⊢
    linarith
  · have a : 0 ≤ ∑ i ∈ Finset.range p, |f i| * |beta i| := Finset.sum_nonneg fun i _ => by positivity
    have b : 0 ≤ ∑ j ∈ Finset.range n, |gamma j| := Finset.sum_nonneg fun j _ => abs_nonneg _
    have c := mul_nonneg hs (add_nonneg a b)
    have := abs_nonneg yMean
    linarith

/-! ## Examples -/

/-- The hypothesis about `exp`: the correctly rounded exponential. -/
example (R : Rounding ℝ) : ExpAcc R 1 fun x => R.rnd (Real.exp x) := fun x => Close.of_rnd (Real.exp_pos x).le
example {t : Tree} {m : ℕ} (ht : t.Adds m) : LibOk doubleR 2 m ⟨fun x => doubleR.rnd (Real.exp x), doubleR.rnd √5, doubleR.rnd (5 / 3), doubleR.rnd √3, t, t⟩ :=
  ⟨fun x => (Close.of_rnd (Real.exp_pos x).le).mono (by norm_num), rfl, rfl, rfl, ht, ht⟩

/-- Without rounding errors the computed prediction is the exact one. -/
example {t : Tree} (ht : t.Adds 2) (k : Kind) (xt : ℕ → ℕ → ℝ) (x f beta gamma : ℕ → ℝ) :
    krigingF exact ⟨Real.exp, √5, 5 / 3, √3, t, t⟩ (.left 0) (.left 4) k (fun _ => 1) xt f beta gamma 3 2 x =
      3 + 2 * ((∑ i ∈ Finset.range 1, f i * beta i) + ∑ j ∈ Finset.range 5, correlation 2 k (fun _ => 1) x (xt j) * gamma j) := by
  have hL : LibOk exact 0 2 ⟨Real.exp, √5, 5 / 3, √3, t, t⟩ := ⟨fun x => Close.refl (Real.exp_pos x).le, rfl, rfl, rfl, ht, ht⟩
  have h := C119_kriging hL (Dot.left_computes 0) (Dot.left_computes 4) k (fun _ => 1) (fun _ _ => zero_le_one) xt f beta gamma 3 2 (by norm_num) x
  have hr : (exact : Rounding ℝ).rho = 1 := by simp [Rounding.rho, exact]
  have hz : slackOf exact k 2 0 = 0 := by cases k <;> simp [slackOf, slack, slackM, hr]
  rw [hz, hr, one_pow, add_zero, mul_one, sub_self, zero_mul] at h
  exact sub_eq_zero.1 (abs_eq_zero.1 (le_antisymm h (abs_nonneg _)))

/-- Computed values: `r2` of `(3, 1)` and `(1, 0)` with the scaling `(2, 1)`; the exponents of the kernels and the factors of the Matérn kernels (with 2 in place of `√5` and `√3`). -/
example : r2F double 2 (fun i => [2, 1].getD i 0) (fun i => [3, 1].getD i 0) (fun i => [1, 0].getD i 0) = 2 ∧
    (Tree.left 1).eval double (llF double .squarExp (fun _ => 2) (fun i => [3, 1].getD i 0) fun i => [1, -1].getD i 0) = 16 ∧
    (Tree.left 1).eval double (llF double .absExp (fun _ => 2) (fun i => [3, 1].getD i 0) fun i => [1, -1].getD i 0) = 8 ∧
    fac52 double ⟨id, 2, 3 / 2, 2, .left 1, .left 1⟩ 3 = 41 / 2 ∧ fac32 double ⟨id, 2, 3 / 2, 2, .left 1, .left 1⟩ 3 = 7 := by decide +kernel

end SMT.Fp.Accur
