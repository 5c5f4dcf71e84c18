import Verif.Fp.ErrProps

/-!
# C118, continued: zero errors, the choice of experts and of the Heaviside factor, `grad_check`
-/
set_option linter.unusedSectionVars false
set_option linter.unusedSimpArgs false
set_option linter.unusedVariables false
set_option exponentiation.threshold 3000

namespace SMT.Fp.Err
open SMT.Fp.Corr SMT.Fp.Moe

variable {K : Type} [Field K] [LinearOrder K] [IsStrictOrderedRing K] {n : ℕ}
variable (F : Format K)

/-! ## A square root of the format, for the examples -/

/-- A square root for binary64: the root on the grid of the smallest positive number, rounded to the format. -/
def root64 : X ℚ → X ℚ
  | .fin v => if v < 0 then .nan else binary64.of ((Nat.sqrt ⌊v * 4 ^ 1074⌋₊ : ℚ) / 2 ^ 1074)
  | .inf true => .nan
  | .inf false => .inf false
  | .nan => .nan

theorem fin64_multiple {x : ℚ} (h : binary64.Fin x) : ∃ m : ℤ, x * 2 ^ 1074 = m := by
  obtain ⟨m, hm⟩ := rns_multiple (p := 53) (e := -1022) (by norm_num) (x := x) h.1
  refine ⟨m, ?_⟩
  rw [hm]
  have : (grid 53 (-1022) : ℚ) * 2 ^ 1074 = 1 := by
    unfold grid
    rw [show ((-1022 : ℤ) - (((53 : ℕ) : ℤ) - 1)) = -1074 by norm_num, zpow_neg]
    exact inv_mul_cancel₀ (by positivity)
  rw [mul_assoc, this, mul_one]

theorem two_pow_1074 : (4 : ℚ) ^ 1074 = 2 ^ 1074 * 2 ^ 1074 := by
  rw [← mul_pow]; norm_num

theorem root64_sq {v : ℚ} (hv : 0 ≤ v) : ((Nat.sqrt ⌊v * 4 ^ 1074⌋₊ : ℚ) / 2 ^ 1074) * ((Nat.sqrt ⌊v * 4 ^ 1074⌋₊ : ℚ) / 2 ^ 1074) ≤ v := by
  have h1 : ((Nat.sqrt ⌊v * 4 ^ 1074⌋₊ : ℚ)) * (Nat.sqrt ⌊v * 4 ^ 1074⌋₊ : ℚ) ≤ v * 4 ^ 1074 := by
    have h := Nat.sqrt_le ⌊v * 4 ^ 1074⌋₊
    have h' : ((Nat.sqrt ⌊v * 4 ^ 1074⌋₊ * Nat.sqrt ⌊v * 4 ^ 1074⌋₊ : ℕ) : ℚ) ≤ (⌊v * 4 ^ 1074⌋₊ : ℚ) := by exact_mod_cast h
    rw [Nat.cast_mul] at h'
    exact h'.trans (Nat.floor_le (mul_nonneg hv (by positivity)))
  rw [div_mul_div_comm, ← two_pow_1074, div_le_iff₀ (by positivity)]
  exact h1

theorem root64_small {v : ℚ} (hv : 0 ≤ v) (hb : v ≤ binary64.big) : |(Nat.sqrt ⌊v * 4 ^ 1074⌋₊ : ℚ) / 2 ^ 1074| ≤ binary64.big := by
  have h0 : (0 : ℚ) ≤ (Nat.sqrt ⌊v * 4 ^ 1074⌋₊ : ℚ) / 2 ^ 1074 := by positivity
  rw [abs_of_nonneg h0]
  have h := root64_sq hv
  generalize (Nat.sqrt ⌊v * 4 ^ 1074⌋₊ : ℚ) / 2 ^ 1074 = w at h h0
  by_contra hc
  push Not at hc
  have h1 : 1 < w := lt_of_le_of_lt binary64.one_le_big hc
  have : w ≤ w * w := le_mul_of_one_le_left h0 h1.le
  linarith

theorem root64_ok : SqrtOk binary64 root64 where
  nan := rfl
  inf := rfl
  zero := by
    show (if (0 : ℚ) < 0 then X.nan else binary64.of _) = _
    rw [if_neg (lt_irrefl _), zero_mul, Nat.floor_zero, Nat.sqrt_zero, Nat.cast_zero, zero_div, binary64.of_zero]
  pos := by
    intro v hv hp
    refine ⟨binary64.rnd ((Nat.sqrt ⌊v * 4 ^ 1074⌋₊ : ℚ) / 2 ^ 1074), ?_, ?_⟩
    · show (if v < 0 then X.nan else binary64.of _) = _
      rw [if_neg (not_lt.2 hp.le), binary64.of_small (root64_small hp.le (le_trans (le_abs_self v) hv.2))]
    · have hs := root64_small hp.le (le_trans (le_abs_self v) hv.2)
      have hof := binary64.of_small hs
      refine ⟨(of_eq_fin hof).2, ?_⟩
      obtain ⟨m, hm⟩ := fin64_multiple hv
      have hm1 : 1 ≤ m := by
        have : (0 : ℚ) < m := by rw [← hm]; positivity
        exact_mod_cast this
      have hN : (2 ^ 1074 : ℕ) ≤ ⌊v * 4 ^ 1074⌋₊ := by
        apply Nat.le_floor
        rw [two_pow_1074, ← mul_assoc, hm]
        push_cast
        have : (1 : ℚ) ≤ m := by exact_mod_cast hm1
        exact le_mul_of_one_le_left (by positivity) this
      have hS : 2 ^ 537 ≤ Nat.sqrt ⌊v * 4 ^ 1074⌋₊ := by
        rw [Nat.le_sqrt]
        rw [← pow_add]
        exact hN
      have hlow : (1 : ℚ) / 2 ^ 537 ≤ (Nat.sqrt ⌊v * 4 ^ 1074⌋₊ : ℚ) / 2 ^ 1074 := by
        rw [div_le_div_iff₀ (by positivity) (by positivity), one_mul, show (1074 : ℕ) = 537 + 537 by norm_num, pow_add]
        have : ((2 : ℚ) ^ 537) ≤ (Nat.sqrt ⌊v * 4 ^ (537 + 537)⌋₊ : ℚ) := by exact_mod_cast hS
        exact mul_le_mul_of_nonneg_right this (by positivity)
      have hr : binary64.rnd ((1 : ℚ) / 2 ^ 537) = 1 / 2 ^ 537 := by decide +kernel
      exact lt_of_lt_of_le (by positivity) (binary64.rep_le hr hlow)
  mono := by
    intro a b ha hb h
    cases a with
    | nan => exact absurd ha id
    | inf s =>
      obtain rfl : s = false := ha
      cases b with
      | nan => exact absurd hb id
      | inf s' => obtain rfl : s' = false := hb; rfl
      | fin y => cases h
    | fin x =>
      have hx : root64 (.fin x) = .fin (binary64.rnd ((Nat.sqrt ⌊x * 4 ^ 1074⌋₊ : ℚ) / 2 ^ 1074)) := by
        show (if x < 0 then X.nan else binary64.of _) = _
        rw [if_neg (not_lt.2 ha.2), binary64.of_small (root64_small ha.2 (le_trans (le_abs_self x) ha.1.2))]
      cases b with
      | nan => exact absurd hb id
      | inf s' => obtain rfl : s' = false := hb; rw [hx]; rfl
      | fin y =>
        have hy : root64 (.fin y) = .fin (binary64.rnd ((Nat.sqrt ⌊y * 4 ^ 1074⌋₊ : ℚ) / 2 ^ 1074)) := by
          show (if y < 0 then X.nan else binary64.of _) = _
          rw [if_neg (not_lt.2 hb.2), binary64.of_small (root64_small hb.2 (le_trans (le_abs_self y) hb.1.2))]
        rw [hx, hy]
        have hxy : x ≤ y := of_decide_eq_true h
        refine decide_eq_true (binary64.mono _ _ ?_)
        have : Nat.sqrt ⌊x * 4 ^ 1074⌋₊ ≤ Nat.sqrt ⌊y * 4 ^ 1074⌋₊ := Nat.sqrt_le_sqrt (Nat.floor_le_floor (mul_le_mul_of_nonneg_right hxy (by positivity)))
        have h' : ((Nat.sqrt ⌊x * 4 ^ 1074⌋₊ : ℕ) : ℚ) ≤ (Nat.sqrt ⌊y * 4 ^ 1074⌋₊ : ℕ) := by exact_mod_cast this
        exact div_le_div_of_nonneg_right h' (by positivity)
  exact := by
    intro w hw h0 hww
    show (if w * w < 0 then X.nan else binary64.of _) = _
    rw [if_neg (not_lt.2 (mul_nonneg h0 h0))]
    obtain ⟨m, hm⟩ := fin64_multiple hw
    have hm0 : 0 ≤ m := by
      have : (0 : ℚ) ≤ m := by rw [← hm]; positivity
      exact_mod_cast this
    obtain ⟨k, rfl⟩ := Int.eq_ofNat_of_zero_le hm0
    have e : w * w * 4 ^ 1074 = ((k * k : ℕ) : ℚ) := by
      rw [two_pow_1074, show w * w * (2 ^ 1074 * 2 ^ 1074) = w * 2 ^ 1074 * (w * 2 ^ 1074) by ring, hm]
      push_cast
      rfl
    rw [e, Nat.floor_natCast, Nat.sqrt_eq]
    have : ((k : ℕ) : ℚ) / 2 ^ 1074 = w := by
      rw [div_eq_iff (by positivity), hm]; push_cast; rfl
    rw [this, binary64.of_fin hw]

/-! ## When the error is zero -/

/-- **C118** The error is zero exactly if the differences have a norm which is zero, or a number while the norm of the reference values is infinite, or a number so small that the quotient underflows. -/
theorem C118_zero_iff {sq : X K → X K} (hs : SqrtOk F sq) {t t' : Tree} (ht : t.Adds n) (ht' : t'.Adds n) (a b : Fin n → X K) (hu : ¬Undefined a b) :
    relErr F sq t t' a b = .fin 0 ↔ ∃ x, norm F sq t (fun i => F.subX (a i) (b i)) = .fin x ∧
      (norm F sq t' b = .inf false ∨ ∃ y, norm F sq t' b = .fin y ∧ 0 < y ∧ F.rnd (x / y) = 0) := by
  have hN := C118_norm F hs ht fun i => F.subX (a i) (b i)
  have hD := C118_norm F hs ht' b
  have h1 : ∀ i, F.subX (a i) (b i) ≠ .nan := fun i hi => hu ⟨i, (sub_nan F _ _).1 hi⟩
  have h2 : ∀ i, b i ≠ .nan := fun i hi => hu ⟨i, Or.inr (Or.inl hi)⟩
  have hn := hN.2.1 h1
  have hd := hD.2.1 h2
  unfold relErr
  generalize norm F sq t (fun i => F.subX (a i) (b i)) = p at hn
  generalize norm F sq t' b = q at hd
  cases p with
  | nan => exact absurd hn id
  | inf s =>
    obtain rfl : s = false := hn
    cases q with
    | nan => exact absurd hd id
    | inf s' => simp [Format.divX]
    | fin y => simp [Format.divX]
  | fin x =>
    cases q with
    | nan => exact absurd hd id
    | inf s' => obtain rfl : s' = false := hd; simp [Format.divX]
    | fin y =>
      by_cases hy : y = 0
      · subst hy
        simp only [Format.divX, if_true]
        split_ifs <;> simp
      · have hy' : 0 < y := lt_of_le_of_ne hd.2 (Ne.symm hy)
        have e : F.divX (.fin x) (.fin y) = F.of (x / y) := by
          show (if y = 0 then _ else F.of (x / y)) = _
          rw [if_neg hy]
        rw [e]
        constructor
        · intro h
          exact ⟨x, rfl, Or.inr ⟨y, rfl, hy', (of_eq_fin h).1.symm⟩⟩
        · rintro ⟨x', hx, h | ⟨y', h, _, h'⟩⟩
          · cases h
          · injection hx with hx; injection h with h
            subst hx; subst h
            unfold Format.of
            rw [h', abs_zero, if_pos F.big_pos.le]

/-- **C118 (violation)** In double precision: one reference value `2 ^ 512` (about `1.3e154`), predicted as one and a half times that: the error is exactly 0. -/
theorem C118_overflow_example {sq : X ℚ → X ℚ} (hs : SqrtOk binary64 sq) :
    relErr binary64 sq (.leaf 0) (.leaf 0) (![.fin (3 * 2 ^ 511)] : Fin 1 → X ℚ) ![.fin (2 ^ 512)] = .fin 0 := by
  have hb : norm binary64 sq (.leaf 0) (![.fin (2 ^ 512)] : Fin 1 → X ℚ) = .inf false := by
    have : rowSum binary64 (.leaf 0) (fun i => binary64.mulX ((![.fin (2 ^ 512)] : Fin 1 → X ℚ) i) ((![.fin (2 ^ 512)] : Fin 1 → X ℚ) i)) = .inf false := by decide +kernel
    unfold norm
    rw [this, hs.inf]
  have ha : norm binary64 sq (.leaf 0) (fun i => binary64.subX ((![.fin (3 * 2 ^ 511)] : Fin 1 → X ℚ) i) ((![.fin (2 ^ 512)] : Fin 1 → X ℚ) i)) = .fin (2 ^ 511) := by
    have : rowSum binary64 (.leaf 0) (fun i => binary64.mulX (binary64.subX ((![.fin (3 * 2 ^ 511)] : Fin 1 → X ℚ) i) ((![.fin (2 ^ 512)] : Fin 1 → X ℚ) i)) (binary64.subX ((![.fin (3 * 2 ^ 511)] : Fin 1 → X ℚ) i) ((![.fin (2 ^ 512)] : Fin 1 → X ℚ) i))) =
        .fin (2 ^ 511 * 2 ^ 511) := by decide +kernel
    unfold norm
    rw [this]
    exact hs.exact _ ⟨by decide +kernel, by decide +kernel⟩ (by positivity) ⟨by decide +kernel, by decide +kernel⟩
  unfold relErr
  rw [ha, hb]
  rfl

/-! ## Choosing the least -/

theorem lt_of_not {a b c : X K} (h : a.lt b = true) (h' : c.lt b = false) (hc : c ≠ .nan) : a.lt c = true := by
  cases a with
  | nan => cases h
  | inf s =>
    cases b with
    | nan => cases s <;> cases h
    | inf s' =>
      cases c with
      | nan => exact absurd rfl hc
      | inf s'' => revert h h'; cases s <;> cases s' <;> cases s'' <;> simp [X.lt]
      | fin z => revert h h'; cases s <;> cases s' <;> simp [X.lt]
    | fin y =>
      cases c with
      | nan => exact absurd rfl hc
      | inf s'' => revert h h'; cases s <;> cases s'' <;> simp [X.lt]
      | fin z => exact h
  | fin x =>
    cases b with
    | nan => cases h
    | inf s' =>
      cases c with
      | nan => exact absurd rfl hc
      | inf s'' => revert h h'; cases s' <;> cases s'' <;> simp [X.lt]
      | fin z => revert h h'; cases s' <;> simp [X.lt]
    | fin y =>
      cases c with
      | nan => exact absurd rfl hc
      | inf s'' => revert h h'; cases s'' <;> simp [X.lt]
      | fin z =>
        have h1 : x < y := of_decide_eq_true h
        have h2 : ¬z < y := of_decide_eq_false h'
        exact decide_eq_true (lt_of_lt_of_le h1 (not_lt.1 h2))

theorem lt_irrefl' (a : X K) : a.lt a = false := by
  cases a with
  | nan => rfl
  | inf s => cases s <;> rfl
  | fin x => exact decide_eq_false (lt_irrefl x)

theorem lt_asymm' {a b : X K} (h : a.lt b = true) : b.lt a = false := by
  cases a with
  | nan => cases h
  | inf s => cases b with
    | nan => cases s <;> cases h
    | inf s' => revert h; cases s <;> cases s' <;> simp [X.lt]
    | fin y => revert h; cases s <;> simp [X.lt]
  | fin x => cases b with
    | nan => cases h
    | inf s' => revert h; cases s' <;> simp [X.lt]
    | fin y => exact decide_eq_false (not_lt.2 (of_decide_eq_true h : x < y).le)

theorem lt_nan_right (a : X K) : a.lt .nan = false := by cases a <;> rfl

theorem ne_nan_of_lt {a b : X K} (h : a.lt b = true) : a ≠ .nan ∧ b ≠ .nan := by
  constructor
  · rintro rfl; cases h
  · rintro rfl; rw [lt_nan_right] at h; cases h

/-- Keep the first, replace it by whatever is less. -/
def scan {α : Type} (f : α → X K) (b : α) (l : List α) : α := l.foldl (fun m v => if (f v).lt (f m) then v else m) b

theorem scan_spec {α : Type} (f : α → X K) : ∀ (l : List α) (b : α),
    (f b = .nan → scan f b l = b) ∧
    (f b ≠ .nan → f (scan f b l) ≠ .nan ∧ (∀ s ∈ b :: l, (f s).lt (f (scan f b l)) = false) ∧
      ∃ pre post, b :: l = pre ++ scan f b l :: post ∧ ∀ s ∈ pre, f s = .nan ∨ (f (scan f b l)).lt (f s) = true) := by
  intro l
  induction l with
  | nil =>
    intro b
    refine ⟨fun _ => rfl, fun h => ⟨h, fun s hs => ?_, [], [], rfl, fun s hs => (by cases hs)⟩⟩
    rw [List.mem_singleton] at hs
    rw [hs]; exact lt_irrefl' _
  | cons s l ih =>
    intro b
    have hstep : scan f b (s :: l) = scan f (if (f s).lt (f b) then s else b) l := rfl
    constructor
    · intro h
      rw [hstep, h, lt_nan_right]
      exact (ih b).1 h
    · intro h
      by_cases hsb : (f s).lt (f b) = true
      · rw [hstep, if_pos hsb]
        have hs := (ne_nan_of_lt hsb).1
        obtain ⟨h1, h2, pre, post, h3, h4⟩ := (ih s).2 hs
        have hlt : (f (scan f s l)).lt (f b) = true := by
          by_contra hc
          rw [Bool.not_eq_true] at hc
          have := lt_of_not hsb hc h1
          rw [h2 s (by simp)] at this
          cases this
        refine ⟨h1, ?_, b :: pre, post, congrArg (fun q => b :: q) h3, ?_⟩
        · intro v hv
          rcases List.mem_cons.1 hv with rfl | hv
          · exact lt_asymm' hlt
          · exact h2 v hv
        · intro v hv
          rcases List.mem_cons.1 hv with rfl | hv
          · exact Or.inr hlt
          · exact h4 v hv
      · rw [hstep, if_neg hsb]
        rw [Bool.not_eq_true] at hsb
        obtain ⟨h1, h2, pre, post, h3, h4⟩ := (ih b).2 h
        have hs2 : (f s).lt (f (scan f b l)) = false := by
          by_contra hc
          rw [Bool.not_eq_false] at hc
          have := lt_of_not hc (h2 b (by simp)) h
          rw [hsb] at this
          cases this
        refine ⟨h1, ?_, ?_⟩
        · intro v hv
          rcases List.mem_cons.1 hv with rfl | hv
          · exact h2 v (by simp)
          · rcases List.mem_cons.1 hv with rfl | hv
            · exact hs2
            · exact h2 v (by simp [hv])
        · cases pre with
          | nil =>
            simp only [List.nil_append, List.cons.injEq] at h3
            exact ⟨[], s :: l, by rw [← h3.1]; rfl, fun v hv => (by cases hv)⟩
          | cons p pre =>
            simp only [List.cons_append, List.cons.injEq] at h3
            obtain ⟨rfl, h3⟩ := h3
            have hb := h4 b (by simp)
            have hb : (f (scan f b l)).lt (f b) = true := hb.resolve_left h
            refine ⟨b :: s :: pre, post, congrArg (fun q => b :: s :: q) h3, fun v hv => ?_⟩
            rcases List.mem_cons.1 hv with rfl | hv
            · exact Or.inr hb
            · rcases List.mem_cons.1 hv with rfl | hv
              · by_cases hn : f v = .nan
                · exact Or.inl hn
                · exact Or.inr (lt_of_not hb hsb hn)
              · exact h4 v (by simp [hv])

/-! ## The experts of MOE -/

theorem bestOf_scan (s : String × X K) (l : List (String × X K)) : bestOf (s :: l) = some (scan Prod.snd s l) := by
  unfold bestOf scan
  rw [List.foldl_cons]
  show l.foldl bestStep (some s) = _
  induction l generalizing s with
  | nil => rfl
  | cons v l ih =>
    rw [List.foldl_cons, List.foldl_cons]
    have : bestStep (some s) v = some (if v.2.lt s.2 then v else s) := by
      unfold bestStep
      simp only
      split <;> rfl
    rw [this]
    exact ih _

/-- **C118** The choice of an expert: if the first score is NaN, the first expert is kept whatever the others score (violation); otherwise an expert is chosen whose score is not NaN, no score is less, and all scores before it are NaN or greater. -/
theorem C118_experts (s : String × X K) (l : List (String × X K)) :
    (s.2 = .nan → bestOf (s :: l) = some s) ∧
    (s.2 ≠ .nan → ∃ b, bestOf (s :: l) = some b ∧ b.2 ≠ .nan ∧ (∀ v ∈ s :: l, v.2.lt b.2 = false) ∧
      ∃ pre post, s :: l = pre ++ b :: post ∧ ∀ v ∈ pre, v.2 = .nan ∨ b.2.lt v.2 = true) := by
  have := scan_spec (Prod.snd : String × X K → X K) l s
  constructor
  · intro h; rw [bestOf_scan, this.1 h]
  · intro h; exact ⟨_, bestOf_scan s l, this.2 h⟩

/-! ## The Heaviside factor -/

theorem pyMin_scan (e : X K) (es : List (X K)) : pyMin e es = scan id e es := rfl

theorem lt_neg' (a b : X K) : b.neg.lt a.neg = a.lt b := by
  cases a with
  | nan => cases b <;> rfl
  | inf s => cases b with
    | nan => cases s <;> rfl
    | inf s' => cases s <;> cases s' <;> rfl
    | fin y => cases s <;> rfl
  | fin x => cases b with
    | nan => rfl
    | inf s' => cases s' <;> rfl
    | fin y => show decide (-y < -x) = decide (x < y); rw [decide_eq_decide]; exact neg_lt_neg_iff

theorem pyMax_scan (e : X K) (es : List (X K)) : pyMax e es = scan X.neg e es := by
  unfold pyMax scan
  congr 1
  funext m v
  rw [lt_neg']

theorem neg_nan (a : X K) : a.neg = .nan ↔ a = .nan := by cases a <;> simp [X.neg]

theorem findIdx_split (pre post : List (X K)) (m : X K) (h : ∀ v ∈ pre, v ≠ m) : (pre ++ m :: post).findIdx (fun v => decide (v = m)) = pre.length := by
  induction pre with
  | nil => simp [List.findIdx_cons]
  | cons p pre ih =>
    rw [List.cons_append, List.findIdx_cons, decide_eq_false (h p (by simp)), ih fun v hv => h v (by simp [hv])]
    rfl

/-- **C118** The Heaviside factor: if the error of the first factor is NaN, that factor is chosen whatever the others (violation). Otherwise `1.0` is chosen if all errors that are numbers (or infinite) are less than the tolerance — also if the error of `1.0` itself
is NaN (violation) — and else the first factor of least error among those that are not NaN. -/
theorem C118_heaviside (e : X K) (es : List (X K)) (tol : K) :
    (e = .nan → bestFactor e es tol = some 0) ∧
    (e ≠ .nan → (bestFactor e es tol = none ↔ ∀ v ∈ e :: es, v = .nan ∨ v.lt (.fin tol) = true)) ∧
    (e ≠ .nan → ∀ i, bestFactor e es tol = some i → ∃ b, (e :: es)[i]? = some b ∧ b ≠ .nan ∧ (∀ v ∈ e :: es, v.lt b = false) ∧
      ∀ j, j < i → ∀ v, (e :: es)[j]? = some v → v = .nan ∨ b.lt v = true) := by
  have hmin := scan_spec (id : X K → X K) es e
  have hmax := scan_spec (X.neg : X K → X K) es e
  rw [← pyMin_scan] at hmin
  rw [← pyMax_scan] at hmax
  refine ⟨fun h => ?_, fun h => ?_, fun h i hi => ?_⟩
  · have h1 := hmax.1 ((neg_nan e).2 h)
    have h2 := hmin.1 h
    unfold bestFactor
    rw [h1, h2, h]
    rfl
  · obtain ⟨h1, h2, pre, post, h3, -⟩ := hmax.2 fun hn => h ((neg_nan e).1 hn)
    have h1 : pyMax e es ≠ .nan := fun hn => h1 ((neg_nan _).2 hn)
    have h2 : ∀ v ∈ e :: es, (pyMax e es).lt v = false := fun v hv => by rw [← lt_neg']; exact h2 v hv
    have hmem : pyMax e es ∈ e :: es := by rw [h3]; simp
    unfold bestFactor
    constructor
    · intro hb v hv
      by_cases hn : v = .nan
      · exact Or.inl hn
      · have : (pyMax e es).lt (.fin tol) = true := by
          by_contra hc
          rw [if_neg hc] at hb
          cases hb
        refine Or.inr ?_
        by_contra hc
        rw [Bool.not_eq_true] at hc
        have := lt_of_not this hc hn
        rw [h2 v hv] at this
        cases this
    · intro hall
      rw [if_pos ((hall _ hmem).resolve_left h1)]
  · obtain ⟨h1, h2, pre, post, h3, h4⟩ := hmin.2 h
    have hidx : pyIndex (e :: es) (pyMin e es) = pre.length := by
      have : pyIndex (e :: es) (pyMin e es) = (e :: es).findIdx (fun v => decide (v = pyMin e es)) := by
        unfold pyIndex
        cases hm : pyMin e es with
        | nan => exact absurd hm h1
        | fin _ => rfl
        | inf _ => rfl
      rw [this]
      conv_lhs => rw [h3]
      refine findIdx_split pre post _ fun v hv hc => ?_
      rcases h4 v hv with hn | hl
      · exact h1 (hc ▸ hn)
      · have hl : (pyMin e es).lt v = true := hl
        rw [hc, lt_irrefl'] at hl; cases hl
    have : i = pre.length := by
      unfold bestFactor at hi
      split at hi
      · cases hi
      · rw [hidx] at hi; injection hi with hi; exact hi.symm
    subst this
    refine ⟨pyMin e es, ?_, h1, h2, fun j hj v hv => ?_⟩
    · rw [h3]; simp
    · rw [h3, List.getElem?_append_left hj] at hv
      exact h4 v (List.mem_of_getElem? hv)

/-! ## `grad_check` -/

/-- **C118** `grad_check` reports a gradient as correct only if the norm of the difference is a number (so never if an entry is NaN or equal infinities meet); equal finite gradients are reported correct; but so is every gradient if its norm overflows while the norm of the
difference is a number (violation). -/
theorem C118_grad_check {sq : X K → X K} (hs : SqrtOk F sq) {t1 t2 t3 : Tree} (h1 : t1.Adds n) (h2 : t2.Adds n) (h3 : t3.Adds n) {tol eps : K} (htol : 0 ≤ tol) (he : 0 ≤ eps) (g fd : Fin n → X K) :
    (verdict F sq t1 t2 t3 tol eps g fd = true → ¬Undefined g fd ∧ ∃ x, norm F sq t1 (fun i => F.subX (g i) (fd i)) = .fin x) ∧
    (Finite g → g = fd → verdict F sq t1 t2 t3 tol eps g fd = true) ∧
    (¬Undefined g fd → (norm F sq t2 g = .inf false ∨ norm F sq t3 fd = .inf false) → (∃ x, norm F sq t1 (fun i => F.subX (g i) (fd i)) = .fin x) → verdict F sq t1 t2 t3 tol eps g fd = true) := by
  have hN := C118_norm F hs h1 fun i => F.subX (g i) (fd i)
  have hle0 : (X.fin (0 : K)).le (.fin tol) = true := decide_eq_true htol
  refine ⟨fun h => ?_, fun hf hg => ?_, fun hu hi hx => ?_⟩
  · unfold verdict at h
    simp only [Bool.or_eq_true] at h
    have hnu : ¬Undefined g fd := by
      rintro ⟨i, hi⟩
      have e := hN.1.2 ⟨i, (sub_nan F _ _).2 hi⟩
      rw [e, F.divX_nan_left] at h
      rcases h with h | h <;> cases h
    refine ⟨hnu, ?_⟩
    have hn := hN.2.1 fun i hi => hnu ⟨i, (sub_nan F _ _).1 hi⟩
    have hg : Nn F (norm F sq t2 g) := (C118_norm F hs h2 g).2.1 fun i hi => hnu ⟨i, Or.inl hi⟩
    have hfd : Nn F (norm F sq t3 fd) := (C118_norm F hs h3 fd).2.1 fun i hi => hnu ⟨i, Or.inr (Or.inl hi)⟩
    have hden := add_nn F hg hfd
    revert h hn
    generalize norm F sq t1 (fun i => F.subX (g i) (fd i)) = p
    generalize F.addX (norm F sq t2 g) (norm F sq t3 fd) = q at hden
    intro h hn
    cases p with
    | fin x => exact ⟨x, rfl⟩
    | nan => exact absurd hn id
    | inf s =>
      obtain rfl : s = false := hn
      rcases h with h | h
      · cases q with
        | nan => exact absurd hden id
        | inf s' => cases h
        | fin y =>
          have hnn : Nn F (F.of (y + eps)) := of_nn F (add_nonneg hden.2 he)
          have e : F.addX (.fin y) (.fin eps) = F.of (y + eps) := rfl
          rw [e] at h
          revert h hnn
          cases F.of (y + eps) with
          | nan => intro h hnn; exact absurd hnn id
          | inf s' => intro h; cases h
          | fin z =>
            intro h hnn
            have : F.divX (.inf false) (.fin z) = .inf false := by
              show X.inf (decide (z < 0) != false) = _
              rw [decide_eq_false (not_lt.2 hnn.2)]; rfl
            rw [this] at h
            cases h
      · cases h
  · subst hg
    have h0 : ∀ i, F.subX (g i) (g i) = .fin 0 := fun i => by
      obtain ⟨v, hv⟩ := hf i
      rw [hv]
      show F.of (v + -v) = _
      rw [add_neg_cancel, F.of_zero]
    have e : norm F sq t1 (fun i => F.subX (g i) (g i)) = .fin 0 := hN.2.2.1.2 fun i => by rw [h0, mul_zero']
    unfold verdict
    simp only [Bool.or_eq_true]
    exact Or.inr (by rw [e]; exact hle0)
  · obtain ⟨x, hx⟩ := hx
    have hg : Nn F (norm F sq t2 g) := (C118_norm F hs h2 g).2.1 fun i hi => hu ⟨i, Or.inl hi⟩
    have hfd : Nn F (norm F sq t3 fd) := (C118_norm F hs h3 fd).2.1 fun i hi => hu ⟨i, Or.inr (Or.inl hi)⟩
    have hden : F.addX (norm F sq t2 g) (norm F sq t3 fd) = .inf false := by
      rcases hi with hi | hi
      · rw [hi]
        revert hfd
        cases norm F sq t3 fd with
        | nan => exact fun h => absurd h id
        | fin y => exact fun _ => rfl
        | inf s => intro h; obtain rfl : s = false := h; rfl
      · rw [hi]
        revert hg
        cases norm F sq t2 g with
        | nan => exact fun h => absurd h id
        | fin y => exact fun _ => rfl
        | inf s => intro h; obtain rfl : s = false := h; rfl
    unfold verdict
    simp only [Bool.or_eq_true]
    refine Or.inl ?_
    rw [hx, hden]
    exact hle0

/-! ## Examples -/

/-- A NaN score of the first expert wins over a perfect one; later it is ignored. -/
example : bestOf [("RBF", X.nan), ("KRG", .fin (0 : ℚ))] = some ("RBF", X.nan) ∧ bestOf [("KRG", .fin (1 : ℚ)), ("RBF", X.nan), ("QP", .fin 0)] = some ("QP", .fin 0) := by
  constructor <;> decide +kernel
example : bestFactor X.nan [.fin (0 : ℚ), .fin 1] (1 / 10 ^ 6) = some 0 ∧ bestFactor (.fin (3 : ℚ)) [X.nan, .fin 2, .fin 2] (1 / 10 ^ 6) = some 2 ∧ bestFactor (.fin (0 : ℚ)) [X.nan] (1 / 10 ^ 6) = none := by
  refine ⟨?_, ?_, ?_⟩ <;> decide +kernel
example : relErr binary64 root64 (.leaf 0) (.leaf 0) (![.fin (3 * 2 ^ 511)] : Fin 1 → X ℚ) ![.fin (2 ^ 512)] = .fin 0 := C118_overflow_example root64_ok
example : ¬Undefined (![.fin (3 : ℚ), .inf true] : Fin 2 → X ℚ) ![.inf false, .inf false] := by
  rintro ⟨i, h⟩
  fin_cases i <;> simp at h
example : (Tree.node (.leaf 0) (.leaf 1)).Adds 2 := List.Perm.refl _

end SMT.Fp.Err
