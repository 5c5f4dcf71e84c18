import Verif.Fp.Err
import Verif.Fp.CorrProps2

/-!
# C118: error measures and choices in IEEE arithmetic
-/
set_option linter.unusedSectionVars false
set_option linter.unusedSimpArgs false
set_option linter.unusedVariables false

namespace SMT.Fp.Err
open SMT.Fp.Corr SMT.Fp.Moe

variable {K : Type} [Field K] [LinearOrder K] [IsStrictOrderedRing K] {n : ℕ}
variable (F : Format K)

/-- What IEEE 754 requires of `sqrt`: special values, no overflow or underflow, monotone, exact where the root is a number of the format. -/
structure SqrtOk (sq : X K → X K) : Prop where
  nan : sq .nan = .nan
  inf : sq (.inf false) = .inf false
  zero : sq (.fin 0) = .fin 0
  pos : ∀ v, F.Fin v → 0 < v → ∃ w, sq (.fin v) = .fin w ∧ F.Fin w ∧ 0 < w
  mono : ∀ a b, Nn F a → Nn F b → a.le b = true → (sq a).le (sq b) = true
  exact : ∀ w, F.Fin w → 0 ≤ w → F.Fin (w * w) → sq (.fin (w * w)) = .fin w

/-! ## Norms -/

theorem sq_nn {sq : X K → X K} (hs : SqrtOk F sq) {a : X K} (ha : Nn F a) : Nn F (sq a) := by
  cases a with
  | fin v =>
    rcases lt_or_eq_of_le ha.2 with h | h
    · obtain ⟨w, e, hf, hw⟩ := hs.pos v ha.1 h
      rw [e]; exact ⟨hf, hw.le⟩
    · rw [← h, hs.zero]; exact nn_zero F
  | inf s =>
    have : s = false := ha
    rw [this, hs.inf]; exact rfl
  | nan => exact absurd ha id

theorem sq_zero {sq : X K → X K} (hs : SqrtOk F sq) {a : X K} (ha : Nn F a) : sq a = .fin 0 ↔ a = .fin 0 := by
  constructor
  · intro h
    cases a with
    | fin v =>
      rcases lt_or_eq_of_le ha.2 with h' | h'
      · obtain ⟨w, e, hf, hw⟩ := hs.pos v ha.1 h'
        rw [e] at h; injection h with h; exact absurd h hw.ne'
      · rw [← h']
    | inf s =>
      have : s = false := ha
      rw [this, hs.inf] at h; cases h
    | nan => exact absurd ha id
  · rintro rfl; exact hs.zero

theorem sq_inf {sq : X K → X K} (hs : SqrtOk F sq) {a : X K} (ha : Nn F a) : sq a = .inf false ↔ a = .inf false := by
  constructor
  · intro h
    cases a with
    | fin v =>
      rcases lt_or_eq_of_le ha.2 with h' | h'
      · obtain ⟨w, e, hf, hw⟩ := hs.pos v ha.1 h'
        rw [e] at h; cases h
      · rw [← h', hs.zero] at h; cases h
    | inf s =>
      have : s = false := ha
      rw [this]
    | nan => exact absurd ha id
  · rintro rfl; exact hs.inf

/-- **C118** The norm of an array is NaN exactly if an entry is; otherwise it is not negative (possibly infinite), it is zero exactly if every squared entry has underflowed, and it is at least the size of every entry whose square is a number of the format. -/
theorem C118_norm {sq : X K → X K} (hs : SqrtOk F sq) {t : Tree} (ht : t.Adds n) (v : Fin n → X K) :
    (norm F sq t v = .nan ↔ ∃ i, v i = .nan) ∧
    ((∀ i, v i ≠ .nan) → Nn F (norm F sq t v)) ∧
    (norm F sq t v = .fin 0 ↔ ∀ i, F.mulX (v i) (v i) = .fin 0) ∧
    (∀ i x, v i = .fin x → F.Fin x → F.Fin (x * x) → (∀ j, v j ≠ .nan) → (X.fin |x|).le (norm F sq t v) = true) := by
  have hnan : (∃ i, v i = .nan) → norm F sq t v = .nan := by
    rintro ⟨i, hi⟩
    unfold norm
    have : rowSum F t (fun i => F.mulX (v i) (v i)) = .nan := by
      refine Ego.evalX_nan F _ _ ⟨i, (mem_leaves ht).2 i.2, ?_⟩
      rw [dif_pos i.2]
      show F.mulX (v i) (v i) = _
      rw [hi]; rfl
    rw [this, hs.nan]
  have hnn : (∀ i, v i ≠ .nan) → Nn F (rowSum F t fun i => F.mulX (v i) (v i)) := fun h => rowSum_nn F ht _ fun i => mul_self_nn F (h i)
  have hnn' : (∀ i, v i ≠ .nan) → Nn F (norm F sq t v) := fun h => sq_nn F hs (hnn h)
  refine ⟨⟨fun h => ?_, hnan⟩, hnn', ⟨fun h => ?_, fun h => ?_⟩, fun i x hi hx hxx h => ?_⟩
  · by_contra hc
    push Not at hc
    have := hnn' hc
    rw [h] at this
    exact this
  · have hne : ∀ i, v i ≠ .nan := fun i hi => by rw [hnan ⟨i, hi⟩] at h; cases h
    have h0 := (sq_zero F hs (hnn hne)).1 h
    have := ((tree_nn (F := F) (fun i => if h : i < n then F.mulX (v ⟨i, h⟩) (v ⟨i, h⟩) else .nan) t fun i hi => by
      rw [dif_pos ((mem_leaves ht).1 hi)]; exact mul_self_nn F (hne _)).2).1 h0
    intro i
    have := this i ((mem_leaves ht).2 i.2)
    rwa [dif_pos i.2] at this
  · unfold norm
    rw [rowSum_const F ht _ h, hs.zero]
  · have h1 := rowSum_ge F ht (fun i => F.mulX (v i) (v i)) (fun i => mul_self_nn F (h i)) i
    have e : F.mulX (v i) (v i) = .fin (x * x) := by rw [hi]; exact F.of_fin hxx
    have h2 := hs.mono _ _ (mul_self_nn F (h i)) (hnn h) h1
    have hax : F.Fin |x| := by
      rcases abs_cases x with ⟨e, _⟩ | ⟨e, _⟩ <;> rw [e]
      · exact hx
      · exact ⟨by rw [F.odd, hx.1], by rw [abs_neg]; exact hx.2⟩
    have h3 := hs.exact |x| hax (abs_nonneg x) (by rw [abs_mul_abs_self]; exact hxx)
    rw [abs_mul_abs_self] at h3
    rw [e, h3] at h2
    exact h2

/-! ## The relative error -/

/-- `num / den` of two norms, as an error measure. -/
theorem div_nn {a b : X K} (ha : Nn F a) (hb : Nn F b) :
    (F.divX a b = .nan ↔ (a = .inf false ∧ b = .inf false) ∨ (a = .fin 0 ∧ b = .fin 0)) ∧ (F.divX a b ≠ .nan → Nn F (F.divX a b)) ∧
    (b = .fin 0 → a ≠ .fin 0 → F.divX a b = .inf false) ∧ (b = .inf false → ∀ x, a = .fin x → F.divX a b = .fin 0) ∧
    (a = .fin 0 → b ≠ .fin 0 → F.divX a b = .fin 0) := by
  cases a with
  | nan => exact absurd ha id
  | inf s =>
    obtain rfl : s = false := ha
    cases b with
    | nan => exact absurd hb id
    | inf s' =>
      obtain rfl : s' = false := hb
      exact ⟨by simp [Format.divX], fun h => absurd rfl h, fun h => (by cases h), fun _ x h => (by cases h), fun h => (by cases h)⟩
    | fin y =>
      have e : F.divX (.inf false) (.fin y) = .inf false := by
        show X.inf (decide (y < 0) != false) = _
        rw [decide_eq_false (not_lt.2 hb.2)]; rfl
      rw [e]
      refine ⟨by simp, fun _ => rfl, fun _ _ => rfl, fun h => (by cases h), fun h => (by cases h)⟩
  | fin x =>
    cases b with
    | nan => exact absurd hb id
    | inf s' =>
      obtain rfl : s' = false := hb
      have e : F.divX (.fin x) (.inf false) = .fin 0 := rfl
      rw [e]
      refine ⟨by simp, fun _ => nn_zero F, fun h => (by cases h), fun _ _ _ => rfl, fun _ _ => rfl⟩
    | fin y =>
      by_cases hy : y = 0
      · subst hy
        by_cases hx : x = 0
        · subst hx
          have e : F.divX (.fin (0 : K)) (.fin 0) = .nan := by
            show (if (0 : K) = 0 then (if (0 : K) = 0 then X.nan else _) else _) = _
            rw [if_pos rfl, if_pos rfl]
          rw [e]
          exact ⟨by simp, fun h => absurd rfl h, fun _ h => absurd rfl h, fun h => (by cases h), fun _ h => absurd rfl h⟩
        · have e : F.divX (.fin x) (.fin 0) = .inf false := by
            show (if (0 : K) = 0 then (if x = 0 then X.nan else X.inf (decide (x < 0))) else _) = _
            rw [if_pos rfl, if_neg hx, decide_eq_false (not_lt.2 ha.2)]
          rw [e]
          exact ⟨by simp [hx], fun _ => rfl, fun _ _ => rfl, fun h => (by cases h), fun _ h => absurd rfl h⟩
      · have e : F.divX (.fin x) (.fin y) = F.of (x / y) := by
          show (if y = 0 then _ else F.of (x / y)) = _
          rw [if_neg hy]
        have hnn : Nn F (F.of (x / y)) := of_nn F (div_nonneg ha.2 hb.2)
        rw [e]
        refine ⟨⟨fun h => ?_, ?_⟩, fun _ => hnn, fun h => ?_, fun h => (by cases h), fun h _ => ?_⟩
        · rw [h] at hnn; exact absurd hnn id
        · rintro (⟨h, _⟩ | ⟨_, h⟩)
          · cases h
          · injection h with h; exact absurd h hy
        · injection h with h; exact absurd h hy
        · injection h with h; rw [h, zero_div, F.of_zero]

/-- Somewhere the difference of prediction and reference is NaN: one of them is NaN, or they are equal infinities. -/
def Undefined (a b : Fin n → X K) : Prop := ∃ i, a i = .nan ∨ b i = .nan ∨ ∃ s, a i = .inf s ∧ b i = .inf s

theorem sub_nan (a b : X K) : F.subX a b = .nan ↔ a = .nan ∨ b = .nan ∨ ∃ s, a = .inf s ∧ b = .inf s := by
  unfold Format.subX
  cases a with
  | nan => simp [F.addX_nan_left]
  | inf s =>
    cases b with
    | nan => simp [X.neg, F.addX_nan_right]
    | inf s' => cases s <;> cases s' <;> simp [X.neg, Format.addX]
    | fin y => simp [X.neg, Format.addX]
  | fin x =>
    cases b with
    | nan => simp [X.neg, F.addX_nan_right]
    | inf s' => simp [X.neg, Format.addX]
    | fin y =>
      have := sub_fin_ne_nan F x y
      unfold Format.subX at this
      simp [this]

/-- **C118** `compute_rms_error` is NaN exactly if a prediction or reference value is NaN or two equal infinities meet, or both norms overflow, or both vanish; otherwise it is not negative (possibly infinite). -/
theorem C118_nan {sq : X K → X K} (hs : SqrtOk F sq) {t t' : Tree} (ht : t.Adds n) (ht' : t'.Adds n) (a b : Fin n → X K) :
    (relErr F sq t t' a b = .nan ↔ Undefined a b ∨ (norm F sq t (fun i => F.subX (a i) (b i)) = .inf false ∧ norm F sq t' b = .inf false) ∨
      (norm F sq t (fun i => F.subX (a i) (b i)) = .fin 0 ∧ norm F sq t' b = .fin 0)) ∧
    (relErr F sq t t' a b ≠ .nan → Nn F (relErr F sq t t' a b)) := by
  have hN := C118_norm F hs ht fun i => F.subX (a i) (b i)
  have hD := C118_norm F hs ht' b
  by_cases hu : Undefined a b
  · have e : norm F sq t (fun i => F.subX (a i) (b i)) = .nan := hN.1.2 (by obtain ⟨i, hi⟩ := hu; exact ⟨i, (sub_nan F _ _).2 hi⟩)
    have e' : relErr F sq t t' a b = .nan := by unfold relErr; rw [e, F.divX_nan_left]
    exact ⟨⟨fun _ => Or.inl hu, fun _ => e'⟩, fun h => absurd e' h⟩
  · have h1 : ∀ i, F.subX (a i) (b i) ≠ .nan := fun i hi => hu ⟨i, (sub_nan F _ _).1 hi⟩
    have h2 : ∀ i, b i ≠ .nan := fun i hi => hu ⟨i, Or.inr (Or.inl hi)⟩
    have := div_nn F (hN.2.1 h1) (hD.2.1 h2)
    refine ⟨⟨fun h => Or.inr (this.1.1 h), ?_⟩, this.2.1⟩
    rintro (h | h)
    · exact absurd h hu
    · exact this.1.2 h

/-- **C118** Exact predictions of finite values have error exactly 0, unless all squared values have underflowed, when the error is NaN. -/
theorem C118_exact {sq : X K → X K} (hs : SqrtOk F sq) {t t' : Tree} (ht : t.Adds n) (ht' : t'.Adds n) (b : Fin n → X K) (hb : Finite b) :
    relErr F sq t t' b b = if ∀ i, F.mulX (b i) (b i) = .fin 0 then .nan else .fin 0 := by
  have hN := C118_norm F hs ht fun i => F.subX (b i) (b i)
  have hD := C118_norm F hs ht' b
  have h0 : ∀ i, F.subX (b i) (b i) = .fin 0 := fun i => by
    obtain ⟨v, hv⟩ := hb i
    rw [hv]
    show F.of (v + -v) = _
    rw [add_neg_cancel, F.of_zero]
  have e : norm F sq t (fun i => F.subX (b i) (b i)) = .fin 0 := hN.2.2.1.2 fun i => by rw [h0, mul_zero']
  have h2 : ∀ i, b i ≠ .nan := fun i hi => by obtain ⟨v, hv⟩ := hb i; rw [hv] at hi; cases hi
  have := div_nn F (nn_zero F) (hD.2.1 h2)
  unfold relErr
  rw [e]
  split
  · rename_i h
    exact this.1.2 (Or.inr ⟨rfl, hD.2.2.1.2 h⟩)
  · rename_i h
    exact this.2.2.2.2 rfl fun h' => h (hD.2.2.1.1 h')

/-- **C118 (violation)** A zero error does not mean exact predictions: when the norm of the reference values overflows, every model whose differences have a finite norm has error exactly 0; and differences whose squares underflow count as none. -/
theorem C118_hidden_errors {sq : X K → X K} (hs : SqrtOk F sq) {t t' : Tree} (ht : t.Adds n) (ht' : t'.Adds n) (a b : Fin n → X K) (hu : ¬Undefined a b) :
    (norm F sq t' b = .inf false → (∃ x, norm F sq t (fun i => F.subX (a i) (b i)) = .fin x) → relErr F sq t t' a b = .fin 0) ∧
    (norm F sq t' b ≠ .fin 0 → (∀ i, F.mulX (F.subX (a i) (b i)) (F.subX (a i) (b i)) = .fin 0) → relErr F sq t t' a b = .fin 0) := by
  have hN := C118_norm F hs ht fun i => F.subX (a i) (b i)
  have hD := C118_norm F hs ht' b
  have h1 : ∀ i, F.subX (a i) (b i) ≠ .nan := fun i hi => hu ⟨i, (sub_nan F _ _).1 hi⟩
  have h2 : ∀ i, b i ≠ .nan := fun i hi => hu ⟨i, Or.inr (Or.inl hi)⟩
  have := div_nn F (hN.2.1 h1) (hD.2.1 h2)
  exact ⟨fun h ⟨x, hx⟩ => this.2.2.2.1 h x hx, fun h h' => this.2.2.2.2 (hN.2.2.1.2 h') h⟩

/-- **C118** Reference values whose squares all vanish: NaN if those of the differences vanish too, infinite otherwise. -/
theorem C118_zero_reference {sq : X K → X K} (hs : SqrtOk F sq) {t t' : Tree} (ht : t.Adds n) (ht' : t'.Adds n) (a b : Fin n → X K) (hu : ¬Undefined a b) (h0 : ∀ i, F.mulX (b i) (b i) = .fin 0) :
    relErr F sq t t' a b = if ∀ i, F.mulX (F.subX (a i) (b i)) (F.subX (a i) (b i)) = .fin 0 then .nan else .inf false := by
  have hN := C118_norm F hs ht fun i => F.subX (a i) (b i)
  have hD := C118_norm F hs ht' b
  have h1 : ∀ i, F.subX (a i) (b i) ≠ .nan := fun i hi => hu ⟨i, (sub_nan F _ _).1 hi⟩
  have h2 : ∀ i, b i ≠ .nan := fun i hi => hu ⟨i, Or.inr (Or.inl hi)⟩
  have := div_nn F (hN.2.1 h1) (hD.2.1 h2)
  have hd := hD.2.2.1.2 h0
  split
  · rename_i h
    exact this.1.2 (Or.inr ⟨hN.2.2.1.2 h, hd⟩)
  · rename_i h
    exact this.2.2.1 hd fun h' => h (hN.2.2.1.1 h')

end SMT.Fp.Err
