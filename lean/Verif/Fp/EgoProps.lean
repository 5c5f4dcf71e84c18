import Verif.Fp.Ego

/-!
# C110: EGO in IEEE arithmetic - what NaN and infinities do to the acquisition function, the choices and the result
-/
set_option linter.unusedSectionVars false
set_option linter.unusedSimpArgs false
set_option linter.unusedVariables false

namespace SMT.Fp.Ego
open SMT.Fp

variable {K : Type} [Field K] [LinearOrder K] [IsStrictOrderedRing K]

/-! ## Specification -/

/-- Zero, positive or `+∞`. -/
def Nonneg : X K → Prop
  | .fin a => 0 ≤ a
  | .inf s => s = false
  | .nan => False

/-- What is assumed about `np.sqrt`, `norm.cdf` and `norm.pdf` (no accuracy). -/
structure Lib.Ok (F : Format K) (L : Lib K) : Prop where
  sqrt_nan : L.sqrt .nan = .nan
  sqrt_inf : L.sqrt (.inf false) = .inf false
  sqrt_zero : L.sqrt (.fin 0) = .fin 0
  sqrt_pos : ∀ a, F.Fin a → 0 < a → ∃ b, F.Fin b ∧ 0 < b ∧ L.sqrt (.fin a) = .fin b
  cdf_nan : L.cdf .nan = .nan
  cdf_low : L.cdf (.inf true) = .fin 0
  cdf_high : L.cdf (.inf false) = .fin 1
  cdf_fin : ∀ a, ∃ b, 0 ≤ b ∧ b ≤ 1 ∧ L.cdf (.fin a) = .fin b
  pdf_nan : L.pdf .nan = .nan
  pdf_inf : ∀ s, L.pdf (.inf s) = .fin 0
  pdf_fin : ∀ a, ∃ b, 0 ≤ b ∧ b ≤ 1 ∧ L.pdf (.fin a) = .fin b
  pdf_zero : ∃ b, 0 < b ∧ L.pdf (.fin 0) = .fin b

/-- A crude library that meets the assumptions (for the examples); `sqrt` is one Newton step from 1. -/
def demoLib : Lib ℚ where
  sqrt
    | .fin a => if a = 0 then .fin 0 else if 0 < a then .fin (binary64.rnd ((a + 1) / 2)) else .nan
    | .inf s => if s then .nan else .inf false
    | .nan => .nan
  cdf
    | .fin a => .fin (if a < 0 then 1 / (2 * (1 - a)) else 1 - 1 / (2 * (1 + a)))
    | .inf s => if s then .fin 0 else .fin 1
    | .nan => .nan
  pdf
    | .fin a => .fin (2 / 5 / (1 + a ^ 2))
    | .inf _ => .fin 0
    | .nan => .nan

theorem demoLib_ok : demoLib.Ok binary64 where
  sqrt_nan := rfl
  sqrt_inf := rfl
  sqrt_zero := rfl
  sqrt_pos a hf h := by
    have h1 : (a + 1) / 2 ≤ binary64.big := by
      have := (abs_le.1 hf.2).2
      have := binary64.one_le_big
      linarith
    have h2 : 1 / 2 ≤ binary64.rnd ((a + 1) / 2) := binary64.rep_le (by decide +kernel) (by linarith)
    refine ⟨binary64.rnd ((a + 1) / 2), ⟨binary64.idem _, ?_⟩, by linarith, by show (if a = 0 then _ else _) = _; rw [if_neg h.ne', if_pos h]⟩
    rw [abs_of_nonneg (by linarith)]
    exact binary64.le_rep binary64.big_rep h1
  cdf_nan := rfl
  cdf_low := rfl
  cdf_high := rfl
  cdf_fin a := by
    refine ⟨_, ?_, ?_, rfl⟩
    · split
      · apply div_nonneg <;> linarith
      · rw [sub_nonneg, div_le_one (by linarith)]; linarith
    · split
      · rw [div_le_one (by linarith)]; linarith
      · rw [sub_le_self_iff]; apply div_nonneg <;> linarith
  pdf_nan := rfl
  pdf_inf _ := rfl
  pdf_fin a := by
    refine ⟨_, ?_, ?_, rfl⟩
    · positivity
    · rw [div_le_one (by positivity)]; nlinarith [sq_nonneg a]
  pdf_zero := ⟨2 / 5 / (1 + 0 ^ 2), by norm_num, rfl⟩

variable {F : Format K} {L : Lib K}

/-! ## Variances -/

theorem clip_cases (v : X K) : (v = .nan ∧ clip v = .nan) ∨ (Nonneg v ∧ clip v = v) ∨ (v.lt (.fin 0) = true ∧ clip v = .fin 0) := by
  cases v with
  | nan => exact .inl ⟨rfl, rfl⟩
  | inf s =>
    cases s
    · exact .inr (.inl ⟨rfl, rfl⟩)
    · exact .inr (.inr ⟨rfl, rfl⟩)
  | fin a =>
    by_cases h : a < 0
    · exact .inr (.inr ⟨by simp [X.lt, h], by simp [clip, X.lt, h]⟩)
    · exact .inr (.inl ⟨not_lt.1 h, by simp [clip, X.lt, h]⟩)

/-- **C110** The variance a Kriging model returns is never negative - it is non-negative, infinite or NaN -, it is NaN exactly when the unclipped number is, and a non-negative number is not changed.
For every process variance and sums of squares, also infinite or NaN ones. -/
theorem C110_variance (F : Format K) (sigma2 s1 s2 : X K) :
    let v := F.mulX sigma2 (F.addX (F.subX (.fin 1) s1) s2)
    (mse F sigma2 s1 s2 = .nan ∨ Nonneg (mse F sigma2 s1 s2)) ∧ (mse F sigma2 s1 s2 = .nan ↔ v = .nan) ∧ (Nonneg v → mse F sigma2 s1 s2 = v) ∧
      (v.lt (.fin 0) = true → mse F sigma2 s1 s2 = .fin 0) := by
  intro v
  have e : mse F sigma2 s1 s2 = clip v := rfl
  rw [e]
  rcases clip_cases v with ⟨h, h'⟩ | ⟨h, h'⟩ | ⟨h, h'⟩
  · rw [h', h]
    exact ⟨.inl rfl, by simp, by simp, by simp [X.lt]⟩
  · rw [h']
    refine ⟨.inr h, Iff.rfl, fun _ => rfl, ?_⟩
    intro hl
    cases hv : v with
    | nan => rw [hv] at h; exact h.elim
    | inf s => rw [hv] at h hl; simp only [Nonneg] at h; simp [X.lt, h] at hl
    | fin a => rw [hv] at h hl; simp only [Nonneg] at h; simp only [X.lt, decide_eq_true_eq] at hl; exact absurd h (not_le.2 hl)
  · rw [h']
    refine ⟨.inr (le_refl (0 : K)), ?_, ?_, fun _ => rfl⟩
    · constructor
      · intro h; cases h
      · intro hv; rw [hv] at h; simp [X.lt] at h
    · intro hn
      cases hv : v with
      | nan => rw [hv] at h; simp [X.lt] at h
      | inf s => rw [hv] at h hn; simp only [Nonneg] at hn; simp [X.lt, hn] at h
      | fin a => rw [hv] at h hn; simp only [Nonneg] at hn; simp only [X.lt, decide_eq_true_eq] at h; exact absurd hn (not_le.2 h)

example : mse binary64 (.fin 2) (.fin (5 / 4)) (.fin (1 / 8)) = .fin 0 := by decide +kernel
example : mse binary64 (.fin 2) (.inf false) (.inf false) = .nan := by decide +kernel

/-! ## Expected improvement -/

theorem formula_nan_left (L : Lib K) (hL : L.Ok F) (sig : X K) : eiFormula F L .nan sig = .nan := by
  rw [eiFormula, F.mulX_nan_left, F.addX_nan_left]

theorem formula_nan_right (L : Lib K) (hL : L.Ok F) (d : X K) : eiFormula F L d .nan = .nan := by
  rw [eiFormula, F.mulX_nan_left, F.addX_nan_right]

/-- The value for a finite improvement and a finite positive deviation: finite or `+∞`, never below `min (d, 0)`. -/
theorem formula_fin (hL : L.Ok F) {a s : K} (ha : F.Fin a) (hs : F.Fin s) (h : 0 < s) :
    eiFormula F L (.fin a) (.fin s) = .inf false ∨ ∃ e, min a 0 ≤ e ∧ eiFormula F L (.fin a) (.fin s) = .fin e := by
  have hc : ∃ c, 0 ≤ c ∧ c ≤ 1 ∧ L.cdf (F.divX (.fin a) (.fin s)) = .fin c ∧ ∃ p, 0 ≤ p ∧ p ≤ 1 ∧ L.pdf (F.divX (.fin a) (.fin s)) = .fin p := by
    have e : F.divX (.fin a) (.fin s) = F.of (a / s) := by show (if s = 0 then _ else _) = _; rw [if_neg h.ne']
    rw [e, Format.of]
    split
    · obtain ⟨c, h1, h2, h3⟩ := hL.cdf_fin (F.rnd (a / s))
      obtain ⟨p, h4, h5, h6⟩ := hL.pdf_fin (F.rnd (a / s))
      exact ⟨c, h1, h2, h3, p, h4, h5, h6⟩
    · cases decide (a / s < 0)
      · exact ⟨1, zero_le_one, le_refl _, hL.cdf_high, 0, le_refl _, zero_le_one, hL.pdf_inf _⟩
      · exact ⟨0, le_refl _, zero_le_one, hL.cdf_low, 0, le_refl _, zero_le_one, hL.pdf_inf _⟩
  obtain ⟨c, c0, c1, hc, p, p0, p1, hp⟩ := hc
  have hm : |a * c| ≤ F.big := by
    rw [abs_mul, abs_of_nonneg c0]
    exact (mul_le_of_le_one_right (abs_nonneg _) c1).trans ha.2
  have hq : |s * p| ≤ F.big := by
    rw [abs_mul, abs_of_nonneg p0]
    exact (mul_le_of_le_one_right (abs_nonneg _) p1).trans hs.2
  have e : eiFormula F L (.fin a) (.fin s) = F.of (F.rnd (a * c) + F.rnd (s * p)) := by
    rw [eiFormula, hc, hp]
    show F.addX (F.of (a * c)) (F.of (s * p)) = _
    rw [F.of_small hm, F.of_small hq]
    rfl
  have h1 : min a 0 ≤ F.rnd (a * c) := by
    rcases le_total a 0 with h' | h'
    · rw [min_eq_left h']
      exact F.rep_le ha.1 (by nlinarith)
    · rw [min_eq_right h']
      exact F.nonneg (mul_nonneg h' c0)
  have h2 : 0 ≤ F.rnd (s * p) := F.nonneg (mul_nonneg h.le p0)
  have h3 : F.rnd (min a 0) = min a 0 := by
    rcases le_total a 0 with h' | h'
    · rw [min_eq_left h', ha.1]
    · rw [min_eq_right h', F.zero]
  have h4 : min a 0 ≤ F.rnd (F.rnd (a * c) + F.rnd (s * p)) := F.rep_le h3 (by linarith)
  rw [e, Format.of]
  split
  · exact .inr ⟨_, h4, rfl⟩
  · rename_i hb
    left
    have hbig : -F.big ≤ min a 0 := le_min (abs_le.1 ha.2).1 (by linarith [F.big_pos])
    have : ¬(F.rnd (a * c) + F.rnd (s * p) < 0) := by
      intro hneg
      apply hb
      rw [abs_le]
      exact ⟨hbig.trans h4, (F.nonpos hneg.le).trans F.big_pos.le⟩
    rw [decide_eq_false this]

theorem formula_sig_inf (hL : L.Ok F) {a : K} (ha : F.Fin a) : eiFormula F L (.fin a) (.inf false) = .inf false := by
  obtain ⟨p, hp, e⟩ := hL.pdf_zero
  obtain ⟨c, c0, c1, ec⟩ := hL.cdf_fin 0
  rw [eiFormula]
  show F.addX (F.mulX (.fin a) (L.cdf (.fin 0))) (F.mulX (.inf false) (L.pdf (.fin 0))) = _
  rw [e, ec]
  show F.addX (F.of (a * c)) (if p = 0 then .nan else .inf (decide (p < 0) != false)) = _
  have hm : |a * c| ≤ F.big := by
    rw [abs_mul, abs_of_nonneg c0]
    exact (mul_le_of_le_one_right (abs_nonneg _) c1).trans ha.2
  rw [if_neg hp.ne', decide_eq_false (not_lt.2 hp.le), F.of_small hm]
  rfl

theorem formula_neg_inf (hL : L.Ok F) {s : K} (h : 0 < s) : eiFormula F L (.inf true) (.fin s) = .nan := by
  have e : F.divX (.inf true) (.fin s) = .inf true := by show X.inf (decide (s < 0) != true) = _; rw [decide_eq_false (not_lt.2 h.le)]; rfl
  rw [eiFormula, e, hL.cdf_low]
  show F.addX (if (0 : K) = 0 then .nan else _) _ = _
  rw [if_pos rfl, F.addX_nan_left]

theorem formula_pos_inf (hL : L.Ok F) {s : K} (h : 0 < s) : eiFormula F L (.inf false) (.fin s) = .inf false := by
  have e : F.divX (.inf false) (.fin s) = .inf false := by show X.inf (decide (s < 0) != false) = _; rw [decide_eq_false (not_lt.2 h.le)]; rfl
  rw [eiFormula, e, hL.cdf_high, hL.pdf_inf]
  show F.addX (if (1 : K) = 0 then .nan else .inf (decide ((1 : K) < 0) != false)) (F.of (s * 0)) = _
  rw [if_neg one_ne_zero, decide_eq_false (not_lt.2 zero_le_one), mul_zero, F.of_zero]
  rfl

theorem formula_inf_inf (hL : L.Ok F) (t : Bool) : eiFormula F L (.inf t) (.inf false) = .nan := by
  rw [eiFormula]
  show F.addX (F.mulX (.inf t) (L.cdf .nan)) _ = _
  rw [hL.cdf_nan, F.mulX_nan_right, F.addX_nan_left]

theorem sub_val (F : Format K) (a b : X K) : F.Val (F.subX a b) := F.addX_val

theorem eiOne_eq (fMin pred var : X K) : eiOne F L fMin pred var = if L.sqrt var = .fin 0 then .fin 0 else eiFormula F L (F.subX fMin pred) (L.sqrt var) := rfl

/-- **C110** When the expected improvement at a point is NaN: for a variance that is non-negative, infinite or NaN (`C110_variance`), exactly when the variance is NaN, or it is not zero and
`f_min - pred` is NaN or `-∞`, or both are `+∞`. (With variance 0 the value is 0 whatever the prediction, even NaN.) -/
theorem C110_ei_nan_iff (hL : L.Ok F) (fMin pred : X K) {var : X K} (hv : F.Val var) (hn : var = .nan ∨ Nonneg var) :
    eiOne F L fMin pred var = .nan ↔ var = .nan ∨
      (var ≠ .fin 0 ∧ (F.subX fMin pred = .nan ∨ F.subX fMin pred = .inf true ∨ (F.subX fMin pred = .inf false ∧ var = .inf false))) := by
  have hd := sub_val F fMin pred
  rw [eiOne_eq]
  generalize F.subX fMin pred = d at hd
  cases var with
  | nan =>
    rw [hL.sqrt_nan, if_neg (by simp), formula_nan_right L hL]
    simp
  | inf s =>
    have hs : s = false := by simpa [Nonneg] using hn
    subst hs
    rw [hL.sqrt_inf, if_neg (by simp)]
    cases d with
    | nan => rw [formula_nan_left L hL]; simp
    | inf t => rw [formula_inf_inf hL]; cases t <;> simp
    | fin a => rw [formula_sig_inf hL hd]; simp
  | fin v =>
    have h0 : 0 ≤ v := by simpa [Nonneg] using hn
    rcases h0.eq_or_lt with h | h
    · rw [← h, hL.sqrt_zero, if_pos rfl]
      simp
    · obtain ⟨s, hs, hp, e⟩ := hL.sqrt_pos v hv h
      rw [e, if_neg (by simpa using hp.ne')]
      have hv0 : (X.fin v : X K) ≠ .fin 0 := by simpa using h.ne'
      cases d with
      | nan => rw [formula_nan_left L hL]; simp [h.ne']
      | inf t =>
        cases t
        · rw [formula_pos_inf hL hp]; simp
        · rw [formula_neg_inf hL hp]; simp [h.ne']
      | fin a =>
        rcases formula_fin hL hd hs hp with e' | ⟨_, _, e'⟩ <;> rw [e'] <;> simp

/-- **C110** With numbers only - `f_min`, `pred` and their difference finite, a finite variance - the expected improvement is never NaN; it is at least `min (f_min - pred, 0)`, so not negative where
the prediction is at most `f_min`. -/
theorem C110_ei_finite (hL : L.Ok F) {fMin pred : X K} {d v : K} (hd : F.subX fMin pred = .fin d) (hv : F.Fin v) (h0 : 0 ≤ v) :
    eiOne F L fMin pred (.fin v) = .inf false ∨ ∃ e, min d 0 ≤ e ∧ eiOne F L fMin pred (.fin v) = .fin e := by
  have hd' := sub_val F fMin pred
  rw [eiOne_eq]
  rw [hd] at hd' ⊢
  rcases h0.eq_or_lt with h | h
  · rw [← h, hL.sqrt_zero, if_pos rfl]
    exact .inr ⟨0, min_le_right _ _, rfl⟩
  · obtain ⟨s, hs, hp, e⟩ := hL.sqrt_pos v hv h
    rw [e, if_neg (by simpa using hp.ne')]
    exact formula_fin hL hd' hs hp

example : eiOne binary64 demoLib (.fin 3) (.fin 1) (.fin 4) ≠ .nan ∧ eiOne binary64 demoLib .nan (.fin 1) (.fin 0) = .fin 0 ∧
    eiOne binary64 demoLib (.fin (-(10 ^ 308))) (.fin (10 ^ 308)) (.fin 1) = .nan := by decide +kernel

theorem formula_zero_pos (hL : L.Ok F) {a : K} (ha : F.Fin a) (h : 0 < a) : eiFormula F L (.fin a) (.fin 0) = .fin a := by
  have e : F.divX (.fin a) (.fin 0) = .inf false := by
    show (if (0 : K) = 0 then (if a = 0 then X.nan else X.inf (decide (a < 0))) else _) = _
    rw [if_pos rfl, if_neg h.ne', decide_eq_false (not_lt.2 h.le)]
  rw [eiFormula, e, hL.cdf_high, hL.pdf_inf]
  show F.addX (F.of (a * 1)) (F.of (0 * 0)) = _
  rw [mul_one, mul_zero, F.of_zero, F.of_fin ha]
  show F.of (a + 0) = _
  rw [add_zero, F.of_fin ha]

theorem formula_zero_neg (hL : L.Ok F) {a : K} (h : a < 0) : eiFormula F L (.fin a) (.fin 0) = .fin 0 := by
  have e : F.divX (.fin a) (.fin 0) = .inf true := by
    show (if (0 : K) = 0 then (if a = 0 then X.nan else X.inf (decide (a < 0))) else _) = _
    rw [if_pos rfl, if_neg h.ne, decide_eq_true h]
  rw [eiFormula, e, hL.cdf_low, hL.pdf_inf]
  show F.addX (F.of (a * 0)) (F.of (0 * 0)) = _
  rw [mul_zero, mul_zero, F.of_zero]
  show F.of (0 + 0) = _
  rw [add_zero, F.of_zero]

theorem formula_zero_zero (hL : L.Ok F) : eiFormula F L (.fin 0) (.fin 0) = .nan := by
  have e : F.divX (.fin 0) (.fin 0) = .nan := by
    show (if (0 : K) = 0 then (if (0 : K) = 0 then X.nan else _) else _) = _
    rw [if_pos rfl, if_pos rfl]
  rw [eiFormula, e, hL.cdf_nan, F.mulX_nan_right, F.addX_nan_left]

/-- **C110** Several points at once: an entry is what a call for that point alone returns, except - if there is not exactly one point - at a point of variance 0. There the call for the point alone returns
0, but the array holds `f_min - pred` if this is positive, and NaN if it is 0, as it is at the best training point. -/
theorem C110_ei_array (hL : L.Ok F) (fMin : X K) (ps : List (X K × X K)) (i : ℕ) (pred var : X K) (hi : ps[i]? = some (pred, var)) :
    (L.sqrt var ≠ .fin 0 ∨ ps.length = 1 → (eiMany F L fMin ps)[i]? = some (eiOne F L fMin pred var)) ∧
    (L.sqrt var = .fin 0 → eiOne F L fMin pred var = .fin 0 ∧ (ps.length ≠ 1 → ∀ d, F.subX fMin pred = .fin d →
      (eiMany F L fMin ps)[i]? = some (if 0 < d then .fin d else if d = 0 then .nan else .fin 0))) := by
  have hmany : ps.length ≠ 1 → (eiMany F L fMin ps)[i]? = some (eiFormula F L (F.subX fMin pred) (L.sqrt var)) := by
    intro hne
    have e : eiMany F L fMin ps = ps.map fun p => eiFormula F L (F.subX fMin p.1) (L.sqrt p.2) := by
      match ps, hne with
      | [], _ => rfl
      | [p], h => exact absurd rfl h
      | _ :: _ :: _, _ => rfl
    rw [e, List.getElem?_map, hi]
    rfl
  have hone : ps.length = 1 → (eiMany F L fMin ps)[i]? = some (eiOne F L fMin pred var) := by
    intro h1
    obtain ⟨p, rfl⟩ := List.length_eq_one_iff.1 h1
    have : i = 0 := by
      have := (List.getElem?_eq_some_iff.1 hi).1
      simpa using this
    subst this
    simp only [List.getElem?_cons_zero, Option.some.injEq] at hi
    subst hi
    rfl
  refine ⟨?_, ?_⟩
  · intro h
    by_cases h1 : ps.length = 1
    · exact hone h1
    · rw [hmany h1, eiOne_eq, if_neg (h.resolve_right h1)]
  · intro h0
    refine ⟨by rw [eiOne_eq, if_pos h0], ?_⟩
    intro h1 d hd
    have hd' := sub_val F fMin pred
    rw [hd] at hd'
    rw [hmany h1, hd, h0]
    by_cases hp : 0 < d
    · rw [if_pos hp, formula_zero_pos hL hd' hp]
    · by_cases hz : d = 0
      · rw [if_neg hp, if_pos hz, hz, formula_zero_zero hL]
      · rw [if_neg hp, if_neg hz, formula_zero_neg hL (lt_of_le_of_ne (not_lt.1 hp) hz)]

example : eiMany binary64 demoLib (.fin 1) [(.fin 1, .fin 0), (.fin 3, .fin 0), (.fin 0, .fin 0)] = [.nan, .fin 0, .fin 1] ∧
    eiMany binary64 demoLib (.fin 1) [(.fin 0, .fin 0)] = [.fin 0] := by decide +kernel

/-! ## Tunneling -/

theorem clip_fin (a : K) : clip (.fin a) = .fin (max a 0) := by
  by_cases h : a < 0
  · simp [clip, X.lt, h, max_eq_right h.le]
  · simp [clip, X.lt, h, max_eq_left (not_lt.1 h)]

theorem clip_val {v : X K} (h : F.Val v) : F.Val (clip v) := by
  rcases clip_cases v with ⟨_, h'⟩ | ⟨_, h'⟩ | ⟨_, h'⟩ <;> rw [h'] <;> first | exact h | exact F.fin_zero | trivial

/-- One penalty: a finite value stays finite and does not grow (beyond 0). -/
theorem penalty_fin {e : K} (he : F.Fin e) (pena : X K) :
    ∃ c, F.Fin c ∧ 0 ≤ c ∧ c ≤ max e 0 ∧ clip (if (X.fin 0).lt pena then F.subX (.fin e) pena else .fin e) = .fin c := by
  have hmax : F.Fin (max e 0) := by
    rcases le_total e 0 with h | h
    · rw [max_eq_right h]; exact F.fin_zero
    · rw [max_eq_left h]; exact he
  have base : ∃ c, F.Fin c ∧ 0 ≤ c ∧ c ≤ max e 0 ∧ clip (X.fin e) = .fin c := ⟨_, hmax, le_max_right _ _, le_refl _, clip_fin e⟩
  cases pena with
  | nan => simpa [X.lt] using base
  | inf s =>
    cases s
    · refine ⟨0, F.fin_zero, le_refl _, le_max_right _ _, ?_⟩
      rfl
    · simpa [X.lt] using base
  | fin q =>
    by_cases hq : 0 < q
    · have e1 : (X.fin 0 : X K).lt (.fin q) = true := decide_eq_true hq
      rw [if_pos e1]
      have e2 : F.subX (.fin e) (.fin q) = F.of (e + -q) := rfl
      rw [e2, Format.of]
      split
      · rename_i hb
        have h1 : F.rnd (e + -q) ≤ e := F.le_rep he.1 (by linarith)
        have hf : F.Fin (F.rnd (e + -q)) := ⟨F.idem _, hb⟩
        refine ⟨max (F.rnd (e + -q)) 0, ?_, le_max_right _ _, max_le_max h1 (le_refl _), clip_fin _⟩
        rcases le_total (F.rnd (e + -q)) 0 with h | h
        · rw [max_eq_right h]; exact F.fin_zero
        · rw [max_eq_left h]; exact hf
      · rename_i hb
        have hneg : e + -q < 0 := by
          by_contra hc
          rw [not_lt] at hc
          apply hb
          rw [abs_of_nonneg (F.nonneg hc)]
          exact F.le_rep F.big_rep (by linarith [(abs_le.1 he.2).2])
        rw [decide_eq_true hneg]
        exact ⟨0, F.fin_zero, le_refl _, le_max_right _ _, rfl⟩
    · have e1 : (X.fin 0 : X K).lt (.fin q) = false := decide_eq_false hq
      rw [e1]
      exact base

/-- **C110** Tunneling: a finite value stays a finite number in `[0, max (e, 0)]`, whatever the penalties are - also infinite (a point so close that the fourth power of the distance underflows) or
NaN (a recorded point itself). -/
theorem C110_tunneling {e : K} (he : F.Fin e) (eip : X K) (qs : List (X K × X K)) :
    ∃ c, F.Fin c ∧ penalise F eip (.fin e) qs = .fin c ∧ c ≤ max e 0 ∧ (qs ≠ [] → 0 ≤ c) := by
  induction qs generalizing e with
  | nil => exact ⟨e, he, rfl, le_max_left _ _, by simp⟩
  | cons q qs ih =>
    obtain ⟨c, hc, c0, c1, e1⟩ := penalty_fin he (F.divX (F.subX eip q.1) q.2)
    obtain ⟨c', h1, h2, h3, h4⟩ := ih hc
    refine ⟨c', h1, ?_, ?_, ?_⟩
    · rw [penalise]
      rw [e1, h2]
    · rw [max_eq_left c0] at h3
      exact h3.trans c1
    · intro _
      by_cases hq : qs = []
      · subst hq
        have : c' = c := by simpa [penalise] using h2.symm
        rw [this]
        exact c0
      · exact h4 hq

theorem penalise_nan (eip : X K) (qs : List (X K × X K)) : penalise F eip .nan qs = .nan := by
  induction qs with
  | nil => rfl
  | cons q qs ih =>
    rw [penalise]
    rw [show F.subX .nan (F.divX (F.subX eip q.1) q.2) = .nan from F.addX_nan_left _, ite_self]
    exact ih

/-- **C110** Tunneling, the other values: NaN stays NaN (Python's `max(nan, 0)` is NaN), and `+∞` becomes NaN exactly when some penalty is `+∞`; otherwise it stays. -/
theorem C110_tunneling_special (eip : X K) (qs : List (X K × X K)) : penalise F eip .nan qs = .nan ∧
    penalise F eip (.inf false) qs = if ∃ q ∈ qs, F.divX (F.subX eip q.1) q.2 = .inf false then .nan else .inf false := by
  refine ⟨penalise_nan eip qs, ?_⟩
  induction qs with
  | nil => simp [penalise]
  | cons q qs ih =>
    rw [penalise]
    generalize hp : F.divX (F.subX eip q.1) q.2 = pena
    by_cases h : pena = .inf false
    · subst h
      have e : clip (if (X.fin (0 : K)).lt (.inf false) then F.subX (.inf false) (.inf false) else .inf false) = .nan := rfl
      rw [e, penalise_nan, if_pos ⟨q, by simp, hp⟩]
    · have e : clip (if (X.fin (0 : K)).lt pena then F.subX (.inf false) pena else .inf false) = .inf false := by
        cases pena with
        | nan => rfl
        | inf s => cases s <;> [exact absurd rfl h; rfl]
        | fin a => by_cases ha : 0 < a <;> simp [X.lt, ha, Format.subX, Format.addX, X.neg, clip]
      rw [e, ih]
      have : (∃ q' ∈ q :: qs, F.divX (F.subX eip q'.1) q'.2 = .inf false) ↔ ∃ q' ∈ qs, F.divX (F.subX eip q'.1) q'.2 = .inf false := by
        simp only [List.mem_cons, exists_eq_or_imp, hp, h, false_or]
      by_cases hx : ∃ q' ∈ qs, F.divX (F.subX eip q'.1) q'.2 = .inf false
      · rw [if_pos hx, if_pos (this.2 hx)]
      · rw [if_neg hx, if_neg fun c => hx (this.1 c)]

example : penalise binary64 (.fin 2) (.fin 2) [(.fin 0, .fin 1), (.fin 2, .fin 0)] = .fin 0 ∧ penalise binary64 (.fin 2) (.fin 2) [(.fin (3 / 2), .fin 1), (.fin 2, .fin 0)] = .fin (3 / 2) := by
  decide +kernel

/-- **C110** The upper confidence bound criterion `pred - 3 sig` is NaN exactly when one of them is NaN, or both are `+∞`. -/
theorem C110_ucb_nan_iff (hL : L.Ok F) {three : K} (h3 : F.Fin three) (hp3 : 1 ≤ three) (pred : X K) {var : X K} (hv : F.Val var) (hn : var = .nan ∨ Nonneg var) :
    (ucb F L (.fin three) pred var = .nan ↔ pred = .nan ∨ var = .nan ∨
      (pred = .inf false ∧ F.mulX (.fin three) (L.sqrt var) = .inf false)) := by
  have h30 : three ≠ 0 := by linarith
  have hm : (var = .nan ∧ F.mulX (.fin three) (L.sqrt var) = .nan) ∨ (var ≠ .nan ∧ (F.mulX (.fin three) (L.sqrt var) = .inf false ∨ ∃ c, F.mulX (.fin three) (L.sqrt var) = .fin c)) := by
    cases var with
    | nan => exact .inl ⟨rfl, by rw [hL.sqrt_nan, F.mulX_nan_right]⟩
    | inf s =>
      have hs : s = false := by simpa [Nonneg] using hn
      subst hs
      refine .inr ⟨by simp, .inl ?_⟩
      rw [hL.sqrt_inf]
      show (if three = 0 then X.nan else .inf (decide (three < 0) != false)) = _
      rw [if_neg h30, decide_eq_false (not_lt.2 (by linarith))]
      rfl
    | fin v =>
      refine .inr ⟨by simp, ?_⟩
      have h0 : 0 ≤ v := by simpa [Nonneg] using hn
      have key : ∀ s, 0 ≤ s → F.mulX (.fin three) (.fin s) = .inf false ∨ ∃ c, F.mulX (.fin three) (.fin s) = .fin c := by
        intro s hs
        show F.of (three * s) = _ ∨ ∃ c, F.of (three * s) = _
        rw [Format.of]
        split
        · exact .inr ⟨_, rfl⟩
        · left
          rw [decide_eq_false (not_lt.2 (mul_nonneg (by linarith) hs))]
      rcases h0.eq_or_lt with h | h
      · rw [← h, hL.sqrt_zero]; exact key 0 (le_refl _)
      · obtain ⟨s, _, hp, e⟩ := hL.sqrt_pos v hv h
        rw [e]; exact key s hp.le
  rw [ucb]
  rcases hm with ⟨h1, h2⟩ | ⟨h1, h2 | ⟨c, h2⟩⟩
  · rw [h2]
    have : F.subX pred .nan = .nan := F.addX_nan_right _
    rw [this]
    simp [h1]
  · rw [h2]
    cases pred with
    | nan => simp [Format.subX, Format.addX]
    | inf t => cases t <;> simp [Format.subX, Format.addX, X.neg, h1]
    | fin a => simp [Format.subX, Format.addX, X.neg, h1]
  · rw [h2]
    cases pred with
    | nan => simp [Format.subX, Format.addX]
    | inf t => simp [Format.subX, Format.addX, X.neg, h1]
    | fin a =>
      simp only [Format.subX, X.neg, Format.addX, h1, false_or]
      rw [Format.of]
      split <;> simp

example : ucb binary64 demoLib (.fin 3) (.fin 1) (.fin 4) = .fin (-13 / 2) := by decide +kernel

end SMT.Fp.Ego
