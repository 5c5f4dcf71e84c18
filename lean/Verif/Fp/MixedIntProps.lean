import Verif.Fp.MixedInt
import Verif.Fp.MoeProps3
import Verif.Fp.SamplingProps

/-!
# Property C115: mixed-integer functions on floating-point values

Specification of the maximum of a block (`IsTop`): an entry below no other. The rest is stated on rows.
-/
set_option linter.unusedSectionVars false
set_option linter.unusedSimpArgs false
set_option linter.unusedVariables false

namespace SMT.Fp.MixedInt
open SMT.MixedInt (XType Err Lim pyIndex truncInt sampleRow WellTyped width cast fold unfold castBlock roundHalfEven maxOf mask)
open SMT.Fp.Ego

variable {K : Type} [Field K] [LinearOrder K] [IsStrictOrderedRing K] [FloorRing K]

/-! ## Numbers: nothing is rounded -/

theorem maxGo_fin (as : List K) : ∀ a : K, maxGo (.fin a) (as.map .fin) = .fin (maxOf a as) := by
  induction as with
  | nil => intro a; rfl
  | cons b as ih =>
    intro a
    have : (if isNan (X.fin a) then X.fin a else if isNan (X.fin b) then X.fin b else if (X.fin a).lt (X.fin b) then X.fin b else X.fin a) = X.fin (max a b) := by
      show (if decide (a < b) = true then X.fin b else X.fin a) = X.fin (max a b)
      by_cases h : a < b
      · rw [if_pos (decide_eq_true h), max_eq_right h.le]
      · rw [if_neg (by simp [h]), max_eq_left (not_lt.1 h)]
    rw [List.map_cons, maxGo, this, ih]
    rfl

theorem castBlock_fin (b : List K) : castBlockX (b.map .fin) = (castBlock b).map (List.map .fin) := by
  cases b with
  | nil => rfl
  | cons a as =>
    simp only [List.map_cons, castBlockX, castBlock, Except.map]
    congr 1
    rw [maxGo_fin]
    have key : ∀ v : K, (if (X.fin v).lt (X.fin (maxOf a as)) then X.fin 0 else X.fin 1) = X.fin (if v < maxOf a as then (0 : K) else 1) := by
      intro v
      show (if decide (v < maxOf a as) = true then X.fin (0 : K) else X.fin 1) = _
      by_cases h : v < maxOf a as
      · simp [h]
      · simp [h]
    rw [List.map_map, List.map_map]
    exact congrArg₂ List.cons (key a) (List.map_congr_left fun v _ => key v)

theorem argmaxGo_fin (as : List K) : ∀ (m : K) (b i : ℕ), Moe.argmaxGo (.fin m) b i (as.map .fin) = Sampling.argmaxGo m b i as := by
  induction as with
  | nil => intro m b i; rfl
  | cons a as ih =>
    intro m b i
    rw [List.map_cons, Moe.argmaxGo, Sampling.argmaxGo, if_neg (by simp [isNan]), ih, ih]
    show (if decide (m < a) = true then _ else _) = _
    by_cases h : m < a
    · simp [h]
    · simp [h]

theorem argmax_fin (b : List K) (hb : b ≠ []) : Moe.argmaxX (b.map .fin) = some (Sampling.argmax b) := by
  cases b with
  | nil => exact absurd rfl hb
  | cons a as => simp [Moe.argmaxX, isNan, argmaxGo_fin, Sampling.argmax]

/-- **C115** On rows of numbers casting and folding are free of rounding: they return exactly what they return in exact arithmetic (so the statements of C15 to C18 and C111 hold of floating-point rows as they stand). Unfolding
too, for numbers that fit into 64 bits. -/
theorem C115_numbers (ts : List XType) : ∀ xs : List K, castX ts (xs.map .fin) = (cast ts xs).map (List.map .fin) ∧ foldX ts (xs.map .fin) = (fold ts xs).map (List.map .fin) ∧
    ∀ toInt : X K → ℤ, (∀ x ∈ xs, toInt (.fin x) = truncInt x) → unfoldX toInt ts (xs.map .fin) = (unfold ts xs).map (List.map .fin) := by
  induction ts with
  | nil => intro xs; exact ⟨rfl, rfl, fun _ _ => rfl⟩
  | cons t ts ih =>
    intro xs
    have em : ∀ (e : Except Err (List K)) (a : K), (e.map (List.map X.fin)).map (X.fin a :: ·) = (e.map (a :: ·)).map (List.map X.fin) := by
      intro e a; cases e <;> rfl
    have ea : ∀ (e : Except Err (List K)) (a : List K), (e.map (List.map X.fin)).map (a.map X.fin ++ ·) = (e.map (a ++ ·)).map (List.map X.fin) := by
      intro e a
      cases e with
      | error e => rfl
      | ok v => simp [Except.map]
    cases t with
    | float =>
      cases xs with
      | nil => exact ⟨(ih []).1, rfl, fun _ _ => rfl⟩
      | cons x rest =>
        refine ⟨?_, ?_, fun toInt hT => ?_⟩
        · show (castX ts (rest.map .fin)).map _ = _
          rw [(ih rest).1]; exact em _ x
        · show (foldX ts (rest.map .fin)).map _ = _
          rw [(ih rest).2.1]; exact em _ x
        · show (unfoldX toInt ts (rest.map .fin)).map _ = _
          rw [(ih rest).2.2 toInt fun y hy => hT y (by simp [hy])]; exact em _ x
    | int =>
      cases xs with
      | nil => exact ⟨rfl, rfl, fun _ _ => rfl⟩
      | cons x rest =>
        refine ⟨?_, ?_, fun toInt hT => ?_⟩
        · show (castX ts (rest.map .fin)).map _ = _
          rw [(ih rest).1]; exact em _ (roundHalfEven x : K)
        · show (foldX ts (rest.map .fin)).map _ = _
          rw [(ih rest).2.1]; exact em _ x
        · show (unfoldX toInt ts (rest.map .fin)).map _ = _
          rw [(ih rest).2.2 toInt fun y hy => hT y (by simp [hy])]; exact em _ x
    | enum n =>
      refine ⟨?_, ?_, fun toInt hT => ?_⟩
      · simp only [castX, SMT.MixedInt.cast, ← List.map_take, ← List.map_drop, castBlock_fin, (ih _).1]
        cases castBlock (xs.take n) with
        | error e => rfl
        | ok b => exact ea _ b
      · simp only [foldX, fold, ← List.map_take, ← List.map_drop, (ih _).2.1]
        by_cases hb : xs.take n = []
        · rw [hb, if_pos rfl]; rfl
        · rw [argmax_fin _ hb, if_neg hb]
          exact em _ _
      · cases xs with
        | nil => rfl
        | cons x rest =>
          simp only [unfoldX, unfold, List.map_cons, hT x (by simp), (ih rest).2.2 toInt fun y hy => hT y (by simp [hy])]
          cases pyIndex n (truncInt x) with
          | error e => rfl
          | ok j => exact ea _ _
    | badTuple n => exact ⟨rfl, rfl, fun _ _ => rfl⟩
    | bad => exact ⟨rfl, rfl, fun _ _ => rfl⟩

/-! ## Special values -/

/-- `m` is a largest value of the block. -/
def IsTop (b : List (X K)) (m : X K) : Prop := m ∈ b ∧ ∀ v ∈ b, m.lt v = false

theorem lt_nan_right (v : X K) : v.lt .nan = false := by cases v <;> rfl

theorem maxGo_spec (as : List (X K)) : ∀ a : X K, (.nan ∈ a :: as → maxGo a as = .nan) ∧ (.nan ∉ a :: as → IsTop (a :: as) (maxGo a as)) := by
  induction as with
  | nil =>
    intro a
    refine ⟨fun h => (List.mem_singleton.1 h).symm, fun h => ⟨by simp [maxGo], fun v hv => ?_⟩⟩
    rw [List.mem_singleton.1 hv]
    exact lt_irrefl' a
  | cons b as ih =>
    intro a
    rw [maxGo]
    by_cases ha : isNan a = true
    · rw [if_pos ha]
      rw [isNan_iff] at ha
      refine ⟨fun _ => (ih a).1 (by rw [ha]; simp), fun h => absurd (by rw [ha]; simp) h⟩
    · rw [if_neg ha]
      rw [isNan_iff] at ha
      by_cases hb : isNan b = true
      · rw [if_pos hb]
        rw [isNan_iff] at hb
        exact ⟨fun _ => (ih b).1 (by rw [hb]; simp), fun h => absurd (by rw [hb]; simp) h⟩
      · rw [if_neg hb]
        rw [isNan_iff] at hb
        have hmem : (X.nan : X K) ∈ a :: b :: as ↔ X.nan ∈ as := by
          simp [Ne.symm ha, Ne.symm hb]
        by_cases hl : a.lt b = true
        · rw [if_pos hl]
          refine ⟨fun h => (ih b).1 (List.mem_cons_of_mem _ (hmem.1 h)), fun h => ?_⟩
          have hT := (ih b).2 (by
            rw [List.mem_cons, not_or]
            exact ⟨Ne.symm hb, fun c => h (hmem.2 c)⟩)
          refine ⟨List.mem_cons_of_mem _ hT.1, fun v hv => ?_⟩
          rcases List.mem_cons.1 hv with rfl | hv
          · by_contra c
            rw [Bool.not_eq_false] at c
            have := lt_trans' c hl
            rw [hT.2 b (by simp)] at this
            cases this
          · exact hT.2 v hv
        · rw [if_neg hl]
          refine ⟨fun h => (ih a).1 (List.mem_cons_of_mem _ (hmem.1 h)), fun h => ?_⟩
          have hna : (X.nan : X K) ∉ a :: as := by
            rw [List.mem_cons, not_or]
            exact ⟨Ne.symm ha, fun c => h (hmem.2 c)⟩
          have hT := (ih a).2 hna
          have hmn : maxGo a as ≠ .nan := fun c => hna (c ▸ hT.1)
          have hsub : maxGo a as ∈ a :: b :: as := by
            rcases List.mem_cons.1 hT.1 with e | e
            · rw [e]; simp
            · simp [e]
          refine ⟨hsub, fun v hv => ?_⟩
          rcases List.mem_cons.1 hv with rfl | hv
          · exact hT.2 _ (by simp)
          · rcases List.mem_cons.1 hv with rfl | hv
            · rw [Bool.not_eq_true] at hl
              exact not_lt_trans ha hl (hT.2 a (by simp)) hmn hb
            · exact hT.2 v (by simp [hv])

/-- **C115** The block of an enumerated variable after casting: with a NaN in it, all ones (no choice at all); otherwise 1 for the largest entries (infinities included) and 0 for the others. -/
theorem C115_block (b : List (X K)) (hb : b ≠ []) : ∃ c, castBlockX b = .ok c ∧ (.nan ∈ b → c = List.replicate b.length (.fin 1)) ∧
    (.nan ∉ b → ∃ m, IsTop b m ∧ c = b.map fun v => if v.lt m then .fin 0 else .fin 1) := by
  cases b with
  | nil => exact absurd rfl hb
  | cons a as =>
    refine ⟨_, rfl, fun h => ?_, fun h => ⟨maxGo a as, (maxGo_spec as a).2 h, rfl⟩⟩
    rw [(maxGo_spec as a).1 h]
    simp only [lt_nan_right]
    simp [List.eq_replicate_iff]

theorem castX_nil_append (ts1 ts2 : List XType) : ∀ (x1 x2 : List (X K)), x1.length = (ts1.map width).sum → WellTyped ts1 →
    castX (ts1 ++ ts2) (x1 ++ x2) = match castX ts1 x1 with | .error e => .error e | .ok y1 => (castX ts2 x2).map (y1 ++ ·) := by
  induction ts1 with
  | nil =>
    intro x1 x2 h _
    simp at h; subst h
    simp [castX, Except.map]
    cases castX ts2 x2 <;> rfl
  | cons t ts ih =>
    intro x1 x2 h hw
    have hw' : WellTyped ts := fun s hs => hw s (by simp [hs])
    rcases hw t (by simp) with rfl | rfl | ⟨n, hn, rfl⟩
    · cases x1 with
      | nil => simp [width] at h; omega
      | cons a as =>
        simp only [List.cons_append, castX, ih as x2 (by simp [width] at h; omega) hw']
        cases castX ts as <;> simp [Except.map]
        cases castX ts2 x2 <;> simp
    · cases x1 with
      | nil => simp [width] at h; omega
      | cons a as =>
        simp only [List.cons_append, castX, ih as x2 (by simp [width] at h; omega) hw']
        cases castX ts as <;> simp [Except.map]
        cases castX ts2 x2 <;> simp
    · simp [width] at h
      simp only [List.cons_append, castX]
      rw [List.take_append_of_le_length (by omega), List.drop_append_of_le_length (by omega), ih (x1.drop n) x2 (by simp; omega) hw']
      cases castBlockX (x1.take n) with
      | error e => rfl
      | ok b =>
        simp only
        cases castX ts (x1.drop n) <;> simp [Except.map]
        cases castX ts2 x2 <;> simp

theorem take_ne_nil {α : Type} {x : List α} {n m : ℕ} (hn : 1 ≤ n) (h : x.length = n + m) : x.take n ≠ [] := by
  intro e
  have := congrArg List.length e
  simp at this
  rcases this with h' | h'
  · omega
  · rw [h'] at h; simp at h; omega

theorem castX_ok (ts : List XType) (hw : WellTyped ts) : ∀ x : List (X K), x.length = (ts.map width).sum → ∃ y, castX ts x = .ok y ∧ y.length = x.length := by
  induction ts with
  | nil => intro x h; exact ⟨x, rfl, rfl⟩
  | cons t ts ih =>
    intro x h
    have hw' : WellTyped ts := fun s hs => hw s (by simp [hs])
    rcases hw t (by simp) with rfl | rfl | ⟨n, hn, rfl⟩
    · cases x with
      | nil => simp [width] at h; omega
      | cons a as =>
        obtain ⟨y, h1, h2⟩ := ih hw' as (by simp [width] at h; omega)
        exact ⟨a :: y, by simp [castX, h1, Except.map], by simp [h2]⟩
    · cases x with
      | nil => simp [width] at h; omega
      | cons a as =>
        obtain ⟨y, h1, h2⟩ := ih hw' as (by simp [width] at h; omega)
        exact ⟨roundX a :: y, by simp [castX, h1, Except.map], by simp [h2]⟩
    · simp [width] at h
      obtain ⟨y, h1, h2⟩ := ih hw' (x.drop n) (by simp; omega)
      obtain ⟨c, hc, hc1, hc2⟩ := C115_block (x.take n) (take_ne_nil hn h)
      refine ⟨c ++ y, by simp [castX, hc, h1, Except.map], ?_⟩
      have hl : c.length = (x.take n).length := by
        by_cases hN : (.nan : X K) ∈ x.take n
        · rw [hc1 hN, List.length_replicate]
        · obtain ⟨m, -, e⟩ := hc2 hN
          rw [e, List.length_map]
      simp [hl, h2]; omega

/-- **C115** Casting a row of any values, block by block: a FLOAT column is returned as it is, NaN and infinities included; an INT column becomes the nearest integer, NaN and infinities stay; an ENUM block becomes the
indicator of its largest entries, or all ones if it holds a NaN. No special value makes casting raise. -/
theorem C115_cast_blockwise (ts1 ts2 : List XType) (t : XType) (hw : WellTyped (ts1 ++ t :: ts2)) (x1 b x2 : List (X K)) (h1 : x1.length = (ts1.map width).sum) (hb : b.length = width t)
    (h2 : x2.length = (ts2.map width).sum) :
    ∃ y1 c y2, castX (ts1 ++ t :: ts2) (x1 ++ (b ++ x2)) = .ok (y1 ++ (c ++ y2)) ∧ y1.length = x1.length ∧ c.length = b.length ∧ y2.length = x2.length ∧
      (t = .float → c = b) ∧
      (t = .int → (∃ v k, b = [.fin v] ∧ c = [.fin ((k : ℤ) : K)] ∧ |v - (k : K)| ≤ 1 / 2 ∧ (|v - (k : K)| = 1 / 2 → k % 2 = 0)) ∨ (c = b ∧ (b = [.nan] ∨ ∃ s, b = [.inf s]))) ∧
      (∀ n, t = .enum n → (.nan ∈ b → c = List.replicate n (.fin 1)) ∧ (.nan ∉ b → ∃ m, IsTop b m ∧ c = b.map fun v => if v.lt m then .fin 0 else .fin 1)) := by
  have hw1 : WellTyped ts1 := fun s hs => hw s (by simp [hs])
  have hw2 : WellTyped ts2 := fun s hs => hw s (by simp [hs])
  obtain ⟨y1, hy1, hl1⟩ := castX_ok ts1 hw1 x1 h1
  obtain ⟨y2, hy2, hl2⟩ := castX_ok ts2 hw2 x2 h2
  rw [castX_nil_append ts1 (t :: ts2) x1 (b ++ x2) h1 hw1, hy1]
  rcases hw t (by simp) with rfl | rfl | ⟨n, hn, rfl⟩
  · match b, hb with
    | [v], _ => exact ⟨y1, [v], y2, by simp [castX, hy2, Except.map], hl1, rfl, hl2, fun _ => rfl, by simp, by simp⟩
  · match b, hb with
    | [v], _ =>
      refine ⟨y1, [roundX v], y2, by simp [castX, hy2, Except.map], hl1, rfl, hl2, by simp, fun _ => ?_, by simp⟩
      cases v with
      | fin v => exact .inl ⟨v, roundHalfEven v, rfl, rfl, SMT.MixedInt.round_near v, SMT.MixedInt.round_tie_even v⟩
      | inf s => exact .inr ⟨rfl, .inr ⟨s, rfl⟩⟩
      | nan => exact .inr ⟨rfl, .inl rfl⟩
  · have hbn : b.length = n := hb
    have hne : b ≠ [] := by intro e; rw [e] at hbn; simp at hbn; omega
    obtain ⟨c, hc, hc1, hc2⟩ := C115_block b hne
    have ht : (b ++ x2).take n = b := by rw [List.take_append_of_le_length (by omega), List.take_of_length_le (by omega)]
    have hd : (b ++ x2).drop n = x2 := by rw [← hbn]; simp
    have hl : c.length = b.length := by
      by_cases hN : (.nan : X K) ∈ b
      · rw [hc1 hN, List.length_replicate]
      · obtain ⟨m, -, e⟩ := hc2 hN
        rw [e, List.length_map]
    refine ⟨y1, c, y2, by simp [castX, ht, hd, hc, hy2, Except.map], hl1, hl, hl2, by simp, by simp, fun k hk => ?_⟩
    injection hk with hk
    subst hk
    exact ⟨fun hN => by rw [hc1 hN, hbn], hc2⟩

end SMT.Fp.MixedInt
