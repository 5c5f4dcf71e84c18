import Verif.Fp.MixedIntProps

/-!
# Property C115: idempotence, folding, unfolding, and sampling in rounded arithmetic
-/
set_option linter.unusedSectionVars false
set_option linter.unusedSimpArgs false
set_option linter.unusedVariables false

namespace SMT.Fp.MixedInt
open SMT.MixedInt (XType Err Lim pyIndex truncInt sampleRow WellTyped width fold unfold castBlock roundHalfEven maxOf mask)
open SMT.Fp.Ego

variable {K : Type} [Field K] [LinearOrder K] [IsStrictOrderedRing K] [FloorRing K]

/-! ## Idempotence -/

theorem castBlock_fixed (d : List K) (h01 : ∀ v ∈ d, v = 0 ∨ v = 1) (h1 : (1 : K) ∈ d) : castBlock d = .ok d := by
  have hne : d ≠ [] := by intro e; rw [e] at h1; cases h1
  obtain ⟨m, c, hm, hall, hc, hc'⟩ := SMT.MixedInt.castBlock_spec d hne
  have hm1 : m = 1 := by
    rcases h01 m hm with e | e
    · have := hall 1 h1
      rw [e] at this
      exact absurd this (by norm_num)
    · exact e
  rw [hc, hc']
  congr 1
  conv_rhs => rw [← List.map_id d]
  apply List.map_congr_left
  intro v hv
  rcases h01 v hv with e | e
  · rw [e, hm1]; simp
  · rw [e, hm1]; simp

theorem castBlockX_out {b c : List (X K)} (h : castBlockX b = .ok c) : c.length = b.length ∧ castBlockX c = .ok c := by
  have hne : b ≠ [] := by intro e; rw [e] at h; cases h
  obtain ⟨c', hc, h1, h2⟩ := C115_block b hne
  rw [h] at hc
  injection hc with hc
  subst hc
  obtain ⟨d, hd, h01, hone⟩ : ∃ d : List K, c = d.map .fin ∧ (∀ v ∈ d, v = 0 ∨ v = 1) ∧ (1 : K) ∈ d := by
    by_cases hN : (.nan : X K) ∈ b
    · refine ⟨List.replicate b.length 1, by rw [h1 hN, List.map_replicate], fun v hv => .inr (List.eq_of_mem_replicate hv), ?_⟩
      rw [List.mem_replicate]
      exact ⟨by simpa using hne, rfl⟩
    · obtain ⟨m, hm, e⟩ := h2 hN
      refine ⟨b.map fun v => if v.lt m then 0 else 1, ?_, fun v hv => ?_, ?_⟩
      · rw [e, List.map_map]
        apply List.map_congr_left
        intro v _
        show _ = X.fin (if v.lt m = true then (0 : K) else 1)
        split <;> rfl
      · obtain ⟨a, -, rfl⟩ := List.mem_map.1 hv
        split
        · exact .inl rfl
        · exact .inr rfl
      · refine List.mem_map.2 ⟨m, hm.1, ?_⟩
        rw [lt_irrefl']
        simp
  refine ⟨?_, ?_⟩
  · by_cases hN : (.nan : X K) ∈ b
    · rw [h1 hN, List.length_replicate]
    · obtain ⟨m, -, e⟩ := h2 hN
      rw [e, List.length_map]
  · rw [hd, castBlock_fin, castBlock_fixed d h01 hone]
    rfl

theorem roundX_idem (v : X K) : roundX (roundX v) = roundX v := by
  cases v with
  | fin x =>
    show X.fin ((roundHalfEven ((roundHalfEven x : ℤ) : K) : ℤ) : K) = _
    rw [SMT.MixedInt.round_intCast]
    rfl
  | inf s => rfl
  | nan => rfl

/-- **C115** Casting is idempotent on rows of any values. -/
theorem C115_idempotent (ts : List XType) (hw : WellTyped ts) : ∀ (x y : List (X K)), x.length = (ts.map width).sum → castX ts x = .ok y → castX ts y = .ok y := by
  induction ts with
  | nil => intro x y _ h; rfl
  | cons t ts ih =>
    intro x y hl h
    have hw' : WellTyped ts := fun s hs => hw s (by simp [hs])
    rcases hw t (by simp) with rfl | rfl | ⟨n, hn, rfl⟩
    · cases x with
      | nil => simp [width] at hl; omega
      | cons a as =>
        simp only [castX] at h
        cases hc : castX ts as with
        | error e => simp [hc, Except.map] at h
        | ok z =>
          simp [hc, Except.map] at h
          subst h
          simp [castX, ih hw' as z (by simp [width] at hl; omega) hc, Except.map]
    · cases x with
      | nil => simp [width] at hl; omega
      | cons a as =>
        simp only [castX] at h
        cases hc : castX ts as with
        | error e => simp [hc, Except.map] at h
        | ok z =>
          simp [hc, Except.map] at h
          subst h
          simp [castX, ih hw' as z (by simp [width] at hl; omega) hc, Except.map, roundX_idem]
    · simp [width] at hl
      simp only [castX] at h
      cases hb : castBlockX (x.take n) with
      | error e => rw [hb] at h; cases h
      | ok c =>
        rw [hb] at h
        simp only at h
        cases hc : castX ts (x.drop n) with
        | error e => simp [hc, Except.map] at h
        | ok z =>
          simp [hc, Except.map] at h
          obtain ⟨l1, l2⟩ := castBlockX_out hb
          have hcn : c.length = n := by rw [l1]; simp; omega
          have ht : y.take n = c := by rw [← h, List.take_append_of_le_length (by omega), List.take_of_length_le (by omega)]
          have hd : y.drop n = z := by rw [← h, ← hcn]; simp
          simp only [castX, ht, hd, l2, ih hw' _ _ (by simp; omega) hc, Except.map, h]

/-! ## Folding -/

/-- What `np.argmax` returns: the place of the first NaN, or if there is none of the first largest value. -/
def IsFirstTop (ys : List (X K)) (i : ℕ) : Prop :=
  ∃ y, ys[i]? = some y ∧ ((y = .nan ∧ ∀ (j : ℕ) (v : X K), j < i → ys[j]? = some v → v ≠ .nan) ∨
    (.nan ∉ ys ∧ (∀ v ∈ ys, y.lt v = false) ∧ ∀ (j : ℕ) (v : X K), j < i → ys[j]? = some v → v.lt y = true))

theorem isFirstTop_iff (ys : List (X K)) (i : ℕ) : IsFirstTop ys i ↔ ∃ y, IsChoice (ys.map X.neg) i y := by
  have hmem : ∀ v : X K, v ∈ ys.map X.neg ↔ ∃ u ∈ ys, u.neg = v := by intro v; simp
  constructor
  · rintro ⟨y, h1, h2⟩
    refine ⟨y.neg, by rw [List.getElem?_map, h1]; rfl, ?_⟩
    rcases h2 with ⟨e, h2⟩ | ⟨h2, h3, h4⟩
    · refine .inl ⟨by rw [e]; rfl, fun j v hj hv c => ?_⟩
      rw [List.getElem?_map] at hv
      obtain ⟨u, hu, rfl⟩ := Option.map_eq_some_iff.1 hv
      exact h2 j u hj hu ((Moe.neg_nan u).1 c)
    · refine .inr ⟨fun c => ?_, fun v hv => ?_, fun j v hj hv => ?_⟩
      · obtain ⟨u, hu, e⟩ := (hmem _).1 c
        exact h2 ((Moe.neg_nan u).1 e ▸ hu)
      · obtain ⟨u, hu, rfl⟩ := (hmem _).1 hv
        rw [Moe.neg_lt]
        exact h3 u hu
      · rw [List.getElem?_map] at hv
        obtain ⟨u, hu, rfl⟩ := Option.map_eq_some_iff.1 hv
        rw [Moe.neg_lt]
        exact h4 j u hj hu
  · rintro ⟨y, h1, h2⟩
    rw [List.getElem?_map] at h1
    obtain ⟨u, hu, rfl⟩ := Option.map_eq_some_iff.1 h1
    refine ⟨u, hu, ?_⟩
    rcases h2 with ⟨e, h2⟩ | ⟨h2, h3, h4⟩
    · exact .inl ⟨(Moe.neg_nan u).1 e, fun j v hj hv c => h2 j v.neg hj (by rw [List.getElem?_map, hv]; rfl) ((Moe.neg_nan v).2 c)⟩
    · refine .inr ⟨fun c => h2 ((hmem _).2 ⟨.nan, c, rfl⟩), fun v hv => ?_, fun j v hj hv => ?_⟩
      · rw [← Moe.neg_lt]
        exact h3 _ ((hmem _).2 ⟨v, hv, rfl⟩)
      · rw [← Moe.neg_lt]
        exact h4 j v.neg hj (by rw [List.getElem?_map, hv]; rfl)

theorem argmaxX_spec (ys : List (X K)) (hy : ys ≠ []) : ∃ i, Moe.argmaxX ys = some i ∧ ∀ j, IsFirstTop ys j ↔ j = i := by
  have h := C110_argmin (ys.map X.neg)
  rw [← Moe.argmaxX_eq] at h
  cases e : Moe.argmaxX ys with
  | none => exact absurd (List.map_eq_nil_iff.1 (h.1.2 e)) hy
  | some i =>
    obtain ⟨y, hc⟩ := h.2 i e
    refine ⟨i, rfl, fun j => ⟨fun hj => ?_, fun hj => ?_⟩⟩
    · obtain ⟨z, hz⟩ := (isFirstTop_iff ys j).1 hj
      exact isChoice_unique hz hc
    · rw [hj]
      exact (isFirstTop_iff ys i).2 ⟨y, hc⟩

/-- **C115** The level an enum block stands for, before and after casting: without a NaN the same (the first largest entry). With one, the place of the first NaN before casting but level 0 after it. -/
theorem C115_level (b c : List (X K)) (h : castBlockX b = .ok c) :
    (.nan ∉ b → ∃ j, Moe.argmaxX b = some j ∧ Moe.argmaxX c = some j ∧ IsFirstTop b j) ∧
    (.nan ∈ b → Moe.argmaxX c = some 0 ∧ ∃ j, Moe.argmaxX b = some j ∧ b[j]? = some .nan ∧ ∀ (i : ℕ) (v : X K), i < j → b[i]? = some v → v ≠ .nan) := by
  have hne : b ≠ [] := by intro e; rw [e] at h; cases h
  obtain ⟨c', hc, h1, h2⟩ := C115_block b hne
  rw [h] at hc
  injection hc with hc
  subst hc
  have hcl := (castBlockX_out h).1
  have hcne : c ≠ [] := by intro e; rw [e] at hcl; exact hne (List.length_eq_zero_iff.1 hcl.symm)
  obtain ⟨i, hi, hi'⟩ := argmaxX_spec b hne
  obtain ⟨j, hj, hj'⟩ := argmaxX_spec c hcne
  constructor
  · intro hN
    obtain ⟨m, hm, e⟩ := h2 hN
    refine ⟨i, hi, ?_, (hi' i).2 rfl⟩
    rw [hj]
    congr 1
    refine ((hj' i).1 ?_).symm
    obtain ⟨y, hy, hy'⟩ := (hi' i).2 rfl
    obtain ⟨-, h3, h4⟩ := hy'.resolve_left fun c => hN (c.1 ▸ List.mem_of_getElem? hy)
    have hmn : m ≠ .nan := fun c => hN (c ▸ hm.1)
    have hyn : y ≠ .nan := fun c => hN (c ▸ List.mem_of_getElem? hy)
    have hym : y.lt m = false := h3 m hm.1
    refine ⟨.fin 1, by rw [e, List.getElem?_map, hy]; simp [hym], .inr ⟨fun c => ?_, fun v hv => ?_, fun k v hk hv => ?_⟩⟩
    · rw [e] at c
      obtain ⟨a, -, ha⟩ := List.mem_map.1 c
      split at ha <;> cases ha
    · rw [e] at hv
      obtain ⟨a, -, rfl⟩ := List.mem_map.1 hv
      split <;> simp [X.lt, not_lt.2 (zero_le_one (α := K))]
    · rw [e, List.getElem?_map] at hv
      obtain ⟨u, hu, rfl⟩ := Option.map_eq_some_iff.1 hv
      have hl := h4 k u hk hu
      have hlm : u.lt m = true := by
        by_contra c
        rw [Bool.not_eq_true] at c
        have hun : u ≠ .nan := fun c => hN (c ▸ List.mem_of_getElem? hu)
        have h5 := not_lt_trans (a := y) (b := m) (c := u) hmn (hm.2 y (List.mem_of_getElem? hy)) c hun hyn
        rw [hl] at h5
        cases h5
      rw [if_pos hlm]
      simp [X.lt]
  · intro hN
    have e := h1 hN
    refine ⟨?_, i, hi, ?_⟩
    · rw [hj]
      congr 1
      refine ((hj' 0).1 ?_).symm
      have hpos : 0 < b.length := List.length_pos_iff.2 hne
      refine ⟨.fin 1, by rw [e]; simp [hpos], .inr ⟨fun c => ?_, fun v hv => ?_, fun k v hk => by omega⟩⟩
      · rw [e] at c
        have := List.eq_of_mem_replicate c
        cases this
      · rw [e] at hv
        rw [List.eq_of_mem_replicate hv]
        exact lt_irrefl' _
    · obtain ⟨y, hy, hy'⟩ := (hi' i).2 rfl
      rcases hy' with ⟨e1, e2⟩ | ⟨c, -⟩
      · exact ⟨by rw [hy, e1], e2⟩
      · exact absurd hN c

theorem foldX_append (ts1 ts2 : List XType) : ∀ (x1 x2 : List (X K)), x1.length = (ts1.map width).sum → WellTyped ts1 →
    foldX (ts1 ++ ts2) (x1 ++ x2) = match foldX ts1 x1 with | .error e => .error e | .ok y1 => (foldX ts2 x2).map (y1 ++ ·) := by
  induction ts1 with
  | nil =>
    intro x1 x2 h _
    simp at h; subst h
    simp [foldX, Except.map]
    cases foldX ts2 x2 <;> rfl
  | cons t ts ih =>
    intro x1 x2 h hw
    have hw' : WellTyped ts := fun s hs => hw s (by simp [hs])
    rcases hw t (by simp) with rfl | rfl | ⟨n, hn, rfl⟩
    · cases x1 with
      | nil => simp [width] at h; omega
      | cons a as =>
        simp only [List.cons_append, foldX, ih as x2 (by simp [width] at h; omega) hw']
        cases foldX ts as <;> simp [Except.map]
        cases foldX ts2 x2 <;> simp
    · cases x1 with
      | nil => simp [width] at h; omega
      | cons a as =>
        simp only [List.cons_append, foldX, ih as x2 (by simp [width] at h; omega) hw']
        cases foldX ts as <;> simp [Except.map]
        cases foldX ts2 x2 <;> simp
    · simp [width] at h
      simp only [List.cons_append, foldX]
      rw [List.take_append_of_le_length (by omega), List.drop_append_of_le_length (by omega), ih (x1.drop n) x2 (by simp; omega) hw']
      cases Moe.argmaxX (x1.take n) with
      | none => rfl
      | some j =>
        simp only
        cases foldX ts (x1.drop n) <;> simp [Except.map]
        cases foldX ts2 x2 <;> simp

theorem foldX_ok (ts : List XType) (hw : WellTyped ts) : ∀ x : List (X K), x.length = (ts.map width).sum → ∃ y, foldX ts x = .ok y ∧ y.length = ts.length := by
  induction ts with
  | nil => intro x h; exact ⟨[], rfl, rfl⟩
  | cons t ts ih =>
    intro x h
    have hw' : WellTyped ts := fun s hs => hw s (by simp [hs])
    rcases hw t (by simp) with rfl | rfl | ⟨n, hn, rfl⟩
    · cases x with
      | nil => simp [width] at h; omega
      | cons a as =>
        obtain ⟨y, h1, h2⟩ := ih hw' as (by simp [width] at h; omega)
        exact ⟨a :: y, by simp [foldX, h1, Except.map], by simp [h2]⟩
    · cases x with
      | nil => simp [width] at h; omega
      | cons a as =>
        obtain ⟨y, h1, h2⟩ := ih hw' as (by simp [width] at h; omega)
        exact ⟨a :: y, by simp [foldX, h1, Except.map], by simp [h2]⟩
    · simp [width] at h
      obtain ⟨y, h1, h2⟩ := ih hw' (x.drop n) (by simp; omega)
      obtain ⟨i, hi, -⟩ := argmaxX_spec (x.take n) (take_ne_nil hn h)
      exact ⟨.fin (i : K) :: y, by simp [foldX, hi, h1, Except.map], by simp [h2]⟩

/-- **C115** Folding a row of any values, variable by variable: FLOAT and INT entries are kept, an ENUM block becomes the place of its first NaN, or if it has none of its first largest entry — always a valid level number. -/
theorem C115_fold_blockwise (ts1 ts2 : List XType) (t : XType) (hw : WellTyped (ts1 ++ t :: ts2)) (x1 b x2 : List (X K)) (h1 : x1.length = (ts1.map width).sum) (hb : b.length = width t)
    (h2 : x2.length = (ts2.map width).sum) :
    ∃ z1 f z2, foldX (ts1 ++ t :: ts2) (x1 ++ (b ++ x2)) = .ok (z1 ++ f :: z2) ∧ z1.length = ts1.length ∧ z2.length = ts2.length ∧
      (t = .float ∨ t = .int → b = [f]) ∧ (∀ n, t = .enum n → ∃ j : ℕ, j < n ∧ f = .fin (j : K) ∧ ∀ i, IsFirstTop b i ↔ i = j) := by
  have hw1 : WellTyped ts1 := fun s hs => hw s (by simp [hs])
  have hw2 : WellTyped ts2 := fun s hs => hw s (by simp [hs])
  obtain ⟨y1, hy1, hl1⟩ := foldX_ok ts1 hw1 x1 h1
  obtain ⟨y2, hy2, hl2⟩ := foldX_ok ts2 hw2 x2 h2
  rw [foldX_append ts1 (t :: ts2) x1 (b ++ x2) h1 hw1, hy1]
  rcases hw t (by simp) with rfl | rfl | ⟨n, hn, rfl⟩
  · match b, hb with
    | [v], _ => exact ⟨y1, v, y2, by simp [foldX, hy2, Except.map], hl1, hl2, fun _ => rfl, by simp⟩
  · match b, hb with
    | [v], _ => exact ⟨y1, v, y2, by simp [foldX, hy2, Except.map], hl1, hl2, fun _ => rfl, by simp⟩
  · have hbn : b.length = n := hb
    have hne : b ≠ [] := by intro e; rw [e] at hbn; simp at hbn; omega
    obtain ⟨i, hi, hi'⟩ := argmaxX_spec b hne
    have ht : (b ++ x2).take n = b := by rw [List.take_append_of_le_length (by omega), List.take_of_length_le (by omega)]
    have hd : (b ++ x2).drop n = x2 := by rw [← hbn]; simp
    refine ⟨y1, .fin (i : K), y2, by simp [foldX, ht, hd, hi, hy2, Except.map], hl1, hl2, by simp, fun k hk => ⟨i, ?_, rfl, hi'⟩⟩
    injection hk with hk
    subst hk
    obtain ⟨y, hy, -⟩ := (hi' i).2 rfl
    have := (List.getElem?_eq_some_iff.1 hy).1
    omega

/-! ## Unfolding and labels -/

/-- **C115** Unfolding an ENUM entry that is NaN, infinite or a number: whatever C's conversion makes of it decides. An integer below `-n` or from `n` on raises (on x86-64, where NaN and infinities become the least integer, they
always do), any other silently selects a level. -/
theorem C115_unfold (toInt : X K → ℤ) (ts : List XType) (n : ℕ) (v : X K) (rest : List (X K)) :
    ((toInt v < -(n : ℤ) ∨ (n : ℤ) ≤ toInt v) → unfoldX toInt (.enum n :: ts) (v :: rest) = .error .indexError) ∧
    (-(n : ℤ) ≤ toInt v → toInt v < n → ∃ j : ℕ, j < n ∧ ((j : ℤ) = toInt v ∨ (j : ℤ) = toInt v + n) ∧
      unfoldX toInt (.enum n :: ts) (v :: rest) = (unfoldX toInt ts rest).map ((mask n j).map .fin ++ ·)) := by
  constructor
  · intro h
    have : pyIndex n (toInt v) = .error .indexError := by
      unfold pyIndex
      rw [if_neg (by omega), if_neg (by omega)]
    simp only [unfoldX, this]
  · intro h1 h2
    by_cases h0 : 0 ≤ toInt v
    · have : pyIndex n (toInt v) = .ok (toInt v).toNat := by
        unfold pyIndex
        rw [if_pos ⟨h0, h2⟩]
      exact ⟨(toInt v).toNat, by omega, by omega, by simp only [unfoldX, this]⟩
    · have : pyIndex n (toInt v) = .ok (toInt v + n).toNat := by
        unfold pyIndex
        rw [if_neg (by omega), if_pos ⟨by omega, h1⟩]
      exact ⟨(toInt v + n).toNat, by omega, by omega, by simp only [unfoldX, this]⟩

/-- **C115** `cast_to_mixed_integer` never lets NaN or an infinity through as an integer or a level: it raises. FLOAT entries pass. -/
theorem C115_labels (ts : List XType) (x : List (X K)) (out : List (ItemX K)) (h : castToMixedIntegerX ts x = .ok out) :
    out.length = ts.length ∧ ∀ (i : ℕ) (t : XType), ts[i]? = some t → ∃ v o, x[i]? = some v ∧ out[i]? = some o ∧
      ((t = .float ∧ o = .num v) ∨ (t = .int ∧ ∃ r, v = .fin r ∧ o = .int (truncInt r)) ∨ ∃ n j r, t = .enum n ∧ v = .fin r ∧ o = .level j ∧ j < n ∧ ((j : ℤ) = truncInt r ∨ (j : ℤ) = truncInt r + n)) := by
  induction ts generalizing x out with
  | nil =>
    injection h with h
    subst h
    exact ⟨rfl, fun i t ht => by simp at ht⟩
  | cons t ts ih =>
    cases x with
    | nil => cases h
    | cons v xs =>
      have fin : ∀ (o : ItemX K), (castToMixedIntegerX ts xs).map (o :: ·) = .ok out →
          ((t = .float ∧ o = .num v) ∨ (t = .int ∧ ∃ r, v = .fin r ∧ o = .int (truncInt r)) ∨ ∃ n j r, t = .enum n ∧ v = .fin r ∧ o = .level j ∧ j < n ∧ ((j : ℤ) = truncInt r ∨ (j : ℤ) = truncInt r + n)) →
          out.length = (t :: ts).length ∧ ∀ (i : ℕ) (t' : XType), (t :: ts)[i]? = some t' → ∃ v' o', (v :: xs)[i]? = some v' ∧ out[i]? = some o' ∧
            ((t' = .float ∧ o' = .num v') ∨ (t' = .int ∧ ∃ r, v' = .fin r ∧ o' = .int (truncInt r)) ∨ ∃ n j r, t' = .enum n ∧ v' = .fin r ∧ o' = .level j ∧ j < n ∧ ((j : ℤ) = truncInt r ∨ (j : ℤ) = truncInt r + n)) := by
        intro o ho hP
        cases hc : castToMixedIntegerX ts xs with
        | error e => rw [hc] at ho; cases ho
        | ok z =>
          rw [hc] at ho
          injection ho with ho
          subst ho
          obtain ⟨l, hi⟩ := ih xs z hc
          refine ⟨by simp [l], fun i t' ht => ?_⟩
          cases i with
          | zero =>
            simp at ht
            subst ht
            exact ⟨v, o, rfl, rfl, hP⟩
          | succ i => exact hi i t' (by simpa using ht)
      cases t with
      | float => exact fin (.num v) h (.inl ⟨rfl, rfl⟩)
      | int =>
        cases v with
        | fin r => exact fin (.int (truncInt r)) h (.inr (.inl ⟨rfl, r, rfl, rfl⟩))
        | inf s => cases h
        | nan => cases h
      | enum n =>
        cases v with
        | fin r =>
          simp only [castToMixedIntegerX, pyInt] at h
          cases hp : pyIndex n (truncInt r) with
          | error e => rw [hp] at h; cases h
          | ok j =>
            rw [hp] at h
            have hj : j < n ∧ ((j : ℤ) = truncInt r ∨ (j : ℤ) = truncInt r + n) := by
              unfold pyIndex at hp
              split at hp
              · injection hp with hp; omega
              · split at hp
                · injection hp with hp; omega
                · cases hp
            exact fin (.level j) h (.inr (.inr ⟨n, j, r, rfl, rfl, rfl, hj.1, hj.2⟩))
        | inf s => cases h
        | nan => cases h
      | badTuple n => cases h
      | bad => cases h

end SMT.Fp.MixedInt
