import Verif.Fp.NetX
import Verif.Fp.OptimProps3

/-!
# C121: the neural network in floating-point arithmetic: activations
-/
set_option linter.unusedSectionVars false
set_option linter.unusedSimpArgs false
set_option linter.unusedVariables false

namespace SMT.Fp.NetX
open SMT.Fp.Corr SMT.Fp.Optim

variable {K : Type} [Field K] [LinearOrder K] [IsStrictOrderedRing K] (F : Format K)

/-- What is assumed of `np.exp`: non-negative numbers of the format, non-decreasing, 1 at 0, with the usual values at the infinities and NaN. No accuracy. -/
structure ExpX (ex : X K → X K) : Prop where
  nan : ex .nan = .nan
  pinf : ex (.inf false) = .inf false
  ninf : ex (.inf true) = .fin 0
  nn : ∀ x : K, Nn F (ex (.fin x))
  zero : ex (.fin 0) = .fin 1
  mono : ∀ x y : K, x ≤ y → (ex (.fin x)).le (ex (.fin y)) = true

/-! ### The hyperbolic tangent -/

theorem le_fin {a : X K} {x : K} (h : Nn F a) (h' : a.le (.fin x) = true) : ∃ y, a = .fin y ∧ F.Fin y ∧ 0 ≤ y ∧ y ≤ x := by
  cases a with
  | fin y => exact ⟨y, rfl, h.1, h.2, of_decide_eq_true h'⟩
  | inf s => obtain rfl : s = false := h; cases h'
  | nan => exact h.elim

theorem div_neg_left : ∀ a b : X K, F.divX a.neg b = (F.divX a b).neg
  | .nan, b => by rw [F.divX_nan_left]; exact F.divX_nan_left _
  | .fin a, .nan => rfl
  | .inf a, .nan => rfl
  | .fin a, .fin b => by
    show (if b = 0 then (if -a = 0 then X.nan else X.inf (decide (-a < 0))) else F.of (-a / b)) = (if b = 0 then (if a = 0 then X.nan else X.inf (decide (a < 0))) else F.of (a / b)).neg
    by_cases h : b = 0
    · rw [if_pos h, if_pos h]
      by_cases ha : a = 0
      · rw [if_pos ha, if_pos (by rw [ha, neg_zero])]; rfl
      · rw [if_neg ha, if_neg (by simpa using ha)]
        show X.inf _ = X.inf _
        rcases lt_or_gt_of_ne ha with h' | h'
        · rw [decide_eq_false (by linarith), decide_eq_true h']; rfl
        · rw [decide_eq_true (by linarith), decide_eq_false (by linarith)]; rfl
    · rw [if_neg h, if_neg h, neg_div, of_neg]
  | .fin a, .inf s => by show X.fin 0 = X.fin (-0); rw [neg_zero]
  | .inf s, .fin b => by
    show X.inf (decide (b < 0) != !s) = X.inf (!(decide (b < 0) != s))
    cases s <;> cases decide (b < 0) <;> rfl
  | .inf s, .inf t => rfl

/-- The tangent computed from two finite exponentials, one of which is at least 1. -/
theorem quot {a b : K} (ha : F.Fin a) (hb : F.Fin b) (a0 : 0 ≤ a) (b0 : 0 ≤ b) (h1 : 1 ≤ a ∨ 1 ≤ b) :
    ∃ v, F.divX (F.subX (.fin a) (.fin b)) (F.addX (.fin a) (.fin b)) = .fin v ∧ F.Fin v ∧ |v| ≤ 1 ∧ (b ≤ a → 0 ≤ v) ∧ (F.rnd (a - b) = F.rnd (a + b) → |F.rnd (a + b)| ≤ F.big → v = 1) := by
  have ba := ha.2
  have bb := hb.2
  rw [abs_of_nonneg a0] at ba
  rw [abs_of_nonneg b0] at bb
  have hn : F.subX (.fin a) (.fin b) = .fin (F.rnd (a - b)) := by
    show F.of (a + -b) = _
    rw [← sub_eq_add_neg]
    exact F.of_small (by rw [abs_le]; constructor <;> linarith)
  have hs1 : 1 ≤ F.rnd (a + b) := F.rep_le F.one (by rcases h1 with h | h <;> linarith)
  rw [hn]
  show ∃ v, F.divX _ (F.of (a + b)) = _ ∧ _
  unfold Format.of
  split
  · have hpos : 0 < F.rnd (a + b) := lt_of_lt_of_le one_pos hs1
    have hle : |F.rnd (a - b)| ≤ F.rnd (a + b) := by
      rw [abs_le]
      constructor
      · rw [← F.odd]; exact F.mono _ _ (by linarith)
      · exact F.mono _ _ (by linarith)
    have hq : |F.rnd (a - b) / F.rnd (a + b)| ≤ 1 := by
      rw [abs_div, abs_of_pos hpos, div_le_one hpos]; exact hle
    refine ⟨F.rnd (F.rnd (a - b) / F.rnd (a + b)), ?_, ?_, ?_, ?_, ?_⟩
    · show (if F.rnd (a + b) = 0 then (if F.rnd (a - b) = 0 then X.nan else X.inf (decide (F.rnd (a - b) < 0))) else F.of (F.rnd (a - b) / F.rnd (a + b))) = _
      rw [if_neg hpos.ne']
      exact F.of_small (hq.trans F.one_le_big)
    · refine ⟨F.idem _, ?_⟩
      have := F.of_small (hq.trans F.one_le_big)
      have hv := F.of_val (F.rnd (a - b) / F.rnd (a + b))
      rw [this] at hv
      exact hv.2
    · rw [abs_le] at hq ⊢
      exact ⟨F.rep_le (by rw [F.odd, F.one]) hq.1, F.le_rep F.one hq.2⟩
    · intro h
      exact F.nonneg (div_nonneg (F.nonneg (by linarith)) hpos.le)
    · intro h _
      rw [h, div_self hpos.ne', F.one]
  · rename_i hb'
    refine ⟨0, rfl, F.fin_zero, by rw [abs_zero]; exact zero_le_one, fun _ => le_rfl, fun _ h => absurd h hb'⟩

/-- **C121** The tangent as computed is NaN exactly if its argument is NaN or one of the two exponentials overflows: for large arguments of either sign it is NaN, not 1 or -1. -/
theorem C121_tanh_nan {ex : X K → X K} (he : ExpX F ex) (z : X K) : tanh F ex z = .nan ↔ z = .nan ∨ ex z = .inf false ∨ ex z.neg = .inf false := by
  unfold tanh
  cases z with
  | nan => simp [he.nan, X.neg, sub_nan_left, F.divX_nan_left]
  | inf s =>
    constructor
    · intro _; cases s
      · exact Or.inr (Or.inl he.pinf)
      · exact Or.inr (Or.inr he.pinf)
    · intro _
      cases s
      · show F.divX (F.subX (ex (.inf false)) (ex (.inf true))) (F.addX (ex (.inf false)) (ex (.inf true))) = .nan
        rw [he.pinf, he.ninf]; rfl
      · show F.divX (F.subX (ex (.inf true)) (ex (.inf false))) (F.addX (ex (.inf true)) (ex (.inf false))) = .nan
        rw [he.pinf, he.ninf]; rfl
  | fin x =>
    have ha := he.nn x
    have hb := he.nn (-x)
    have h1 : (X.fin 1).le (ex (.fin x)) = true ∨ (X.fin 1).le (ex (.fin (-x))) = true := by
      rcases le_total 0 x with h | h
      · left; rw [← he.zero]; exact he.mono 0 x h
      · right; rw [← he.zero]; exact he.mono 0 (-x) (by linarith)
    show F.divX (F.subX (ex (.fin x)) (ex (.fin (-x)))) (F.addX (ex (.fin x)) (ex (.fin (-x)))) = .nan ↔ X.fin x = .nan ∨ ex (.fin x) = .inf false ∨ ex (.fin (-x)) = .inf false
    revert ha hb h1
    generalize ex (.fin x) = A
    generalize ex (.fin (-x)) = B
    intro ha hb h1
    cases A with
    | nan => exact ha.elim
    | inf s =>
      obtain rfl : s = false := ha
      cases B with
      | nan => exact hb.elim
      | inf t => obtain rfl : t = false := hb; exact ⟨fun _ => Or.inr (Or.inl rfl), fun _ => rfl⟩
      | fin b => exact ⟨fun _ => Or.inr (Or.inl rfl), fun _ => rfl⟩
    | fin a =>
      cases B with
      | nan => exact hb.elim
      | inf t => obtain rfl : t = false := hb; exact ⟨fun _ => Or.inr (Or.inr rfl), fun _ => rfl⟩
      | fin b =>
        obtain ⟨v, hv, -⟩ := quot F ha.1 hb.1 ha.2 hb.2 (h1.imp of_decide_eq_true of_decide_eq_true)
        rw [hv]
        simp

/-- **C121** Where the tangent as computed is not NaN it is a number between -1 and 1, with the sign of its argument. -/
theorem C121_tanh_range {ex : X K → X K} (he : ExpX F ex) (z : X K) : tanh F ex z = .nan ∨ ∃ v x, tanh F ex z = .fin v ∧ z = .fin x ∧ F.Fin v ∧ |v| ≤ 1 ∧ (0 ≤ x → 0 ≤ v) ∧ (x ≤ 0 → v ≤ 0) := by
  by_cases hnan : tanh F ex z = .nan
  · exact Or.inl hnan
  · right
    have hc := mt (C121_tanh_nan F he z).2 hnan
    push Not at hc
    obtain ⟨c1, c2, c3⟩ := hc
    cases z with
    | nan => exact absurd rfl c1
    | inf s =>
      cases s
      · exact absurd he.pinf c2
      · exact absurd he.pinf c3
    | fin x =>
      have ha := he.nn x
      have hb := he.nn (-x)
      have hm1 : 0 ≤ x → (ex (.fin (-x))).le (ex (.fin x)) = true := fun h => he.mono _ _ (by linarith)
      have hm2 : x ≤ 0 → (ex (.fin x)).le (ex (.fin (-x))) = true := fun h => he.mono _ _ (by linarith)
      have h1 : (X.fin 1).le (ex (.fin x)) = true ∨ (X.fin 1).le (ex (.fin (-x))) = true := by
        rcases le_total 0 x with h | h
        · left; rw [← he.zero]; exact he.mono 0 x h
        · right; rw [← he.zero]; exact he.mono 0 (-x) (by linarith)
      change ex (.fin (-x)) ≠ .inf false at c3
      show ∃ v y, F.divX (F.subX (ex (.fin x)) (ex (.fin (-x)))) (F.addX (ex (.fin x)) (ex (.fin (-x)))) = .fin v ∧ X.fin x = .fin y ∧ _
      clear hnan
      generalize ex (.fin x) = A at ha hb h1 hm1 hm2 c2 c3 ⊢
      generalize ex (.fin (-x)) = B at ha hb h1 hm1 hm2 c2 c3 ⊢
      cases A with
      | nan => exact ha.elim
      | inf s => obtain rfl : s = false := ha; exact absurd rfl c2
      | fin a =>
        cases B with
        | nan => exact hb.elim
        | inf t => obtain rfl : t = false := hb; exact absurd rfl c3
        | fin b =>
          obtain ⟨v, hv, fv, bv, sv, -⟩ := quot F ha.1 hb.1 ha.2 hb.2 (h1.imp of_decide_eq_true of_decide_eq_true)
          refine ⟨v, x, hv, rfl, fv, bv, fun h => sv (of_decide_eq_true (hm1 h)), fun h => ?_⟩
          obtain ⟨w, hw, -, -, sw, -⟩ := quot F hb.1 ha.1 hb.2 ha.2 (h1.symm.imp of_decide_eq_true of_decide_eq_true)
          have hneg : F.divX (F.subX (.fin b) (.fin a)) (F.addX (.fin b) (.fin a)) = .fin (-v) := by
            have e1 : F.subX (.fin b) (.fin a) = (F.subX (.fin a) (.fin b)).neg := sub_swap F _ _
            rw [e1, (C103_comm F (.fin b) (.fin a)).1]
            exact (div_neg_left F _ _).trans (by rw [hv]; rfl)
          rw [hneg] at hw
          cases hw
          have := sw (of_decide_eq_true (hm2 h))
          linarith

/-- **C121** The tangent as computed is exactly odd, and 0 at 0. -/
theorem C121_tanh_odd {ex : X K → X K} (he : ExpX F ex) (z : X K) : tanh F ex z.neg = (tanh F ex z).neg ∧ tanh F ex (.fin 0) = .fin 0 := by
  constructor
  · unfold tanh
    rw [neg_neg', sub_swap F (ex z.neg), (C103_comm F (ex z.neg) (ex z)).1, div_neg_left]
  · obtain h | ⟨v, x, h, hx, -, -, h1, h2⟩ := C121_tanh_range F he (.fin 0)
    · rw [C121_tanh_nan F he] at h
      simp only [X.neg, neg_zero, he.zero] at h
      simp at h
    · cases hx
      rw [h, le_antisymm (h2 le_rfl) (h1 le_rfl)]

/-- **C121** Once the smaller exponential is absorbed by the larger one, the tangent is exactly 1. -/
theorem C121_tanh_one {ex : X K → X K} (x a b : K) (hx : ex (.fin x) = .fin a) (hx' : ex (.fin (-x)) = .fin b) (ha : F.Fin a) (hb : F.Fin b) (a1 : 1 ≤ a) (b0 : 0 ≤ b)
    (hab : F.rnd (a - b) = F.rnd (a + b)) (hbig : |F.rnd (a + b)| ≤ F.big) : tanh F ex (.fin x) = .fin 1 := by
  obtain ⟨v, hv, -, -, -, h1⟩ := quot F ha hb (by linarith) b0 (Or.inl a1)
  have : tanh F ex (.fin x) = F.divX (F.subX (.fin a) (.fin b)) (F.addX (.fin a) (.fin b)) := by
    unfold tanh
    show F.divX (F.subX (ex (.fin x)) (ex (.fin (-x)))) (F.addX (ex (.fin x)) (ex (.fin (-x)))) = _
    rw [hx, hx']
  rw [this, hv, h1 hab hbig]

/-- **C121** The first derivative as computed is NaN with the value, otherwise a number between 0 and 1. -/
theorem C121_tanh_derivative {ex : X K → X K} (he : ExpX F ex) (z : X K) :
    (tanh F ex z = .nan → dTanh F ex z = .nan ∧ ddTanh F ex z = .nan) ∧ (tanh F ex z ≠ .nan → ∃ d, dTanh F ex z = .fin d ∧ F.Fin d ∧ 0 ≤ d ∧ d ≤ 1) := by
  have hd : ∀ {w : X K}, tanh F ex z = w → dTanh F ex z = F.subX (.fin 1) (F.mulX w w) := fun h => by unfold dTanh; rw [h]
  constructor
  · intro h
    have : dTanh F ex z = .nan := by rw [hd h, F.mulX_nan_left, sub_nan_right]
    exact ⟨this, by unfold ddTanh; rw [this, F.mulX_nan_right]⟩
  · intro h
    obtain h' | ⟨v, x, hv, -, fv, bv, -⟩ := C121_tanh_range F he z
    · exact absurd h' h
    · have hsq : v * v ≤ 1 := by rw [← abs_mul_abs_self]; exact mul_le_one₀ bv (abs_nonneg v) bv
      have h0 : 0 ≤ F.rnd (v * v) := F.nonneg (mul_self_nonneg v)
      have h1 : F.rnd (v * v) ≤ 1 := F.le_rep F.one hsq
      have hm : F.mulX (.fin v) (.fin v) = .fin (F.rnd (v * v)) := F.of_small (by rw [abs_of_nonneg (mul_self_nonneg v)]; exact hsq.trans F.one_le_big)
      have hb : |1 + -F.rnd (v * v)| ≤ F.big := by rw [abs_of_nonneg (by linarith)]; linarith [F.one_le_big]
      have hs : F.subX (.fin 1) (.fin (F.rnd (v * v))) = .fin (F.rnd (1 + -F.rnd (v * v))) := F.of_small hb
      refine ⟨F.rnd (1 + -F.rnd (v * v)), by rw [hd hv, hm, hs], ?_, F.nonneg (by linarith), F.le_rep F.one (by linarith)⟩
      have hval := F.of_val (1 + -F.rnd (v * v))
      rw [F.of_small hb] at hval
      exact hval

/-- **C121** Where the tangent has reached 1 or -1, both derivatives as computed are exactly 0: a saturated unit passes on no gradient. -/
theorem C121_saturated {ex : X K → X K} (h2 : 2 ≤ F.big) {z : X K} {v : K} (hz : tanh F ex z = .fin v) (hv : |v| = 1) : dTanh F ex z = .fin 0 ∧ ddTanh F ex z = .fin 0 := by
  have hsq : v * v = 1 := by rw [← abs_mul_abs_self, hv, one_mul]
  have hd : dTanh F ex z = .fin 0 := by
    unfold dTanh
    rw [hz]
    show F.subX (.fin 1) (F.of (v * v)) = _
    rw [hsq, F.of_one]
    show F.of (1 + -1) = _
    rw [add_neg_cancel, F.of_zero]
  refine ⟨hd, ?_⟩
  unfold ddTanh
  rw [hd, hz]
  have : F.mulX (.fin (-2)) (.fin v) = .fin (F.rnd (-2 * v)) := F.of_small (by rw [abs_mul, hv, abs_neg, mul_one, abs_of_nonneg (by norm_num)]; exact h2)
  rw [this]
  show F.of (_ * 0) = _
  rw [mul_zero, F.of_zero]

/-! ### The sigmoid -/

theorem den_ge {ex : X K → X K} (he : ExpX F ex) {z : X K} (hz : z ≠ .nan) : Nn F (ex z.neg) := by
  cases z with
  | nan => exact absurd rfl hz
  | inf s =>
    cases s
    · show Nn F (ex (.inf true)); rw [he.ninf]; exact nn_zero F
    · show Nn F (ex (.inf false)); rw [he.pinf]; rfl
  | fin x => exact he.nn (-x)

theorem recip {e : X K} (h : Nn F e) : (F.addX (.fin 1) e = .inf false ∧ F.divX (.fin 1) (F.addX (.fin 1) e) = .fin 0) ∨
    ∃ d, F.addX (.fin 1) e = .fin d ∧ 1 ≤ d ∧ F.divX (.fin 1) (F.addX (.fin 1) e) = .fin (F.rnd (1 / d)) := by
  cases e with
  | nan => exact h.elim
  | inf s => obtain rfl : s = false := h; exact Or.inl ⟨rfl, rfl⟩
  | fin y =>
    show (F.of (1 + y) = _ ∧ F.divX (.fin 1) (F.of (1 + y)) = _) ∨ ∃ d, F.of (1 + y) = _ ∧ _ ∧ F.divX (.fin 1) (F.of (1 + y)) = _
    unfold Format.of
    split
    · right
      have hd : 1 ≤ F.rnd (1 + y) := F.rep_le F.one (by linarith [h.2])
      refine ⟨F.rnd (1 + y), rfl, hd, ?_⟩
      show (if F.rnd (1 + y) = 0 then (if (1 : K) = 0 then X.nan else X.inf (decide ((1 : K) < 0))) else F.of (1 / F.rnd (1 + y))) = _
      rw [if_neg (by linarith)]
      refine F.of_small ?_
      rw [abs_of_nonneg (div_nonneg zero_le_one (by linarith))]
      exact ((div_le_one (by linarith)).2 hd).trans F.one_le_big
    · left
      rw [decide_eq_false (not_lt.2 (by linarith [h.2]))]
      exact ⟨rfl, rfl⟩

/-- **C121** The sigmoid as computed is a number between 0 and 1 for every argument but NaN (infinite ones and overflowing exponentials included), and so is its derivative. -/
theorem C121_sigmoid {ex : X K → X K} (he : ExpX F ex) (z : X K) : (z = .nan → sigmoid F ex z = .nan) ∧
    (z ≠ .nan → (∃ v, sigmoid F ex z = .fin v ∧ F.Fin v ∧ 0 ≤ v ∧ v ≤ 1) ∧ ∃ d, dSigmoid F ex z = .fin d ∧ 0 ≤ d ∧ d ≤ 1) := by
  constructor
  · rintro rfl
    show F.divX (.fin 1) (F.addX (.fin 1) (ex .nan)) = .nan
    rw [he.nan, F.addX_nan_right, F.divX_nan_right]
  · intro hz
    have hv : ∃ v, sigmoid F ex z = .fin v ∧ F.Fin v ∧ 0 ≤ v ∧ v ≤ 1 := by
      unfold sigmoid
      rcases recip F (den_ge F he hz) with ⟨-, h⟩ | ⟨d, -, hd, h⟩
      · exact ⟨0, h, F.fin_zero, le_rfl, zero_le_one⟩
      · have h0 : 0 ≤ 1 / d := div_nonneg zero_le_one (by linarith)
        have h1 : 1 / d ≤ 1 := (div_le_one (by linarith)).2 hd
        refine ⟨_, h, ⟨F.idem _, ?_⟩, F.nonneg h0, F.le_rep F.one h1⟩
        rw [abs_of_nonneg (F.nonneg h0)]
        exact (F.le_rep F.one h1).trans F.one_le_big
    refine ⟨hv, ?_⟩
    obtain ⟨v, e, fv, v0, v1⟩ := hv
    have hs : F.subX (.fin 1) (.fin v) = .fin (F.rnd (1 + -v)) := F.of_small (by rw [abs_of_nonneg (by linarith)]; linarith [F.one_le_big])
    have s0 : 0 ≤ F.rnd (1 + -v) := F.nonneg (by linarith)
    have s1 : F.rnd (1 + -v) ≤ 1 := F.le_rep F.one (by linarith)
    have hp : v * F.rnd (1 + -v) ≤ 1 := mul_le_one₀ v1 s0 s1
    refine ⟨F.rnd (v * F.rnd (1 + -v)), ?_, F.nonneg (mul_nonneg v0 s0), F.le_rep F.one hp⟩
    unfold dSigmoid
    dsimp only
    rw [e, hs]
    exact F.of_small (by rw [abs_of_nonneg (mul_nonneg v0 s0)]; exact hp.trans F.one_le_big)

/-- **C121** The sigmoid as computed never decreases. -/
theorem C121_sigmoid_monotone {ex : X K → X K} (he : ExpX F ex) (x y : K) (h : x ≤ y) : (sigmoid F ex (.fin x)).le (sigmoid F ex (.fin y)) = true := by
  have hx := he.nn (-x)
  have hy := he.nn (-y)
  have hm : (ex (.fin (-y))).le (ex (.fin (-x))) = true := he.mono _ _ (by linarith)
  have hadd := add_mono F (nn_one F) hy (nn_one F) hx (le_refl' F (nn_one F)) hm
  show (F.divX (.fin 1) (F.addX (.fin 1) (ex (.fin (-x))))).le (F.divX (.fin 1) (F.addX (.fin 1) (ex (.fin (-y))))) = true
  rcases recip F hx with ⟨-, h1⟩ | ⟨d, e1, hd, h1⟩
  · rw [h1]
    rcases recip F hy with ⟨-, h2⟩ | ⟨d', -, hd', h2⟩
    · rw [h2]; exact decide_eq_true le_rfl
    · rw [h2]; exact decide_eq_true (F.nonneg (div_nonneg zero_le_one (by linarith)))
  · rw [h1]
    rcases recip F hy with ⟨e2, h2⟩ | ⟨d', e2, hd', h2⟩
    · rw [e1, e2] at hadd; cases hadd
    · rw [h2]
      rw [e1, e2] at hadd
      have : d' ≤ d := of_decide_eq_true hadd
      exact decide_eq_true (F.mono _ _ (one_div_le_one_div_of_le (by linarith) this))

/-- **C121** The second derivative of the sigmoid as computed, in a format with the numbers 2 and 1/2, is a number between -1 and 1 for every argument but NaN, not negative where the value is at most 1/2 and
not positive where it is at least 1/2; at 0 the value is exactly 1/2 and the second derivative exactly 0. -/
theorem C121_sigmoid_second {ex : X K → X K} (he : ExpX F ex) (h2 : F.Fin 2) (hh : F.Fin (1 / 2)) :
    (∀ z, z ≠ .nan → ∃ a s, sigmoid F ex z = .fin a ∧ ddSigmoid F ex z = .fin s ∧ |s| ≤ 1 ∧ (a ≤ 1 / 2 → 0 ≤ s) ∧ (1 / 2 ≤ a → s ≤ 0)) ∧
      sigmoid F ex (.fin 0) = .fin (1 / 2) ∧ ddSigmoid F ex (.fin 0) = .fin 0 := by
  have main : ∀ z, z ≠ .nan → ∃ a s, sigmoid F ex z = .fin a ∧ ddSigmoid F ex z = .fin s ∧ |s| ≤ 1 ∧ (a ≤ 1 / 2 → 0 ≤ s) ∧ (1 / 2 ≤ a → s ≤ 0) := by
    intro z hz
    obtain ⟨⟨a, ea, fa, a0, a1⟩, d, ed, d0, d1⟩ := (C121_sigmoid F he z).2 hz
    have hb2 : |2 * a| ≤ F.big := by
      rw [abs_of_nonneg (by linarith)]
      have := h2.2
      rw [abs_of_nonneg (by norm_num)] at this
      linarith
    have e2 : F.mulX (.fin 2) (.fin a) = .fin (F.rnd (2 * a)) := F.of_small hb2
    have r0 : 0 ≤ F.rnd (2 * a) := F.nonneg (by linarith)
    have r2 : F.rnd (2 * a) ≤ 2 := F.le_rep h2.1 (by linarith)
    have hq : |1 + -F.rnd (2 * a)| ≤ 1 := by rw [abs_le]; constructor <;> linarith
    have e3 : F.subX (.fin 1) (.fin (F.rnd (2 * a))) = .fin (F.rnd (1 + -F.rnd (2 * a))) := F.of_small (hq.trans F.one_le_big)
    have hr : |F.rnd (1 + -F.rnd (2 * a))| ≤ 1 := by
      rw [abs_le] at hq ⊢
      exact ⟨F.rep_le (by rw [F.odd, F.one]) hq.1, F.le_rep F.one hq.2⟩
    have hp : |d * F.rnd (1 + -F.rnd (2 * a))| ≤ 1 := by
      rw [abs_mul, abs_of_nonneg d0]
      exact mul_le_one₀ d1 (abs_nonneg _) hr
    refine ⟨a, F.rnd (d * F.rnd (1 + -F.rnd (2 * a))), ea, ?_, ?_, ?_, ?_⟩
    · unfold ddSigmoid
      rw [ea, ed, e2, e3]
      exact F.of_small (hp.trans F.one_le_big)
    · rw [abs_le] at hp ⊢
      exact ⟨F.rep_le (by rw [F.odd, F.one]) hp.1, F.le_rep F.one hp.2⟩
    · intro h
      have : F.rnd (2 * a) ≤ 1 := F.le_rep F.one (by linarith)
      exact F.nonneg (mul_nonneg d0 (F.nonneg (by linarith)))
    · intro h
      have : 1 ≤ F.rnd (2 * a) := F.rep_le F.one (by linarith)
      have hz : F.rnd 0 = 0 := F.zero
      have h3 : F.rnd (1 + -F.rnd (2 * a)) ≤ 0 := F.le_rep hz (by linarith)
      exact F.le_rep hz (mul_nonpos_of_nonneg_of_nonpos d0 h3)
  have hs : sigmoid F ex (.fin 0) = .fin (1 / 2) := by
    show F.divX (.fin 1) (F.addX (.fin 1) (ex (.fin (-0)))) = _
    rw [neg_zero, he.zero]
    show F.divX (.fin 1) (F.of (1 + 1)) = _
    rw [one_add_one_eq_two, F.of_fin h2]
    show (if (2 : K) = 0 then (if (1 : K) = 0 then X.nan else X.inf (decide ((1 : K) < 0))) else F.of (1 / 2)) = _
    rw [if_neg (by norm_num), F.of_fin hh]
  refine ⟨main, hs, ?_⟩
  obtain ⟨a, s, ea, es, -, hp, hn⟩ := main (.fin 0) (by simp)
  rw [hs] at ea
  cases ea
  rw [es, le_antisymm (hn le_rfl) (hp le_rfl)]

end SMT.Fp.NetX
