import Verif.Fp.MixedIntProps2

/-!
# Property C115: mixed-integer sampling in rounded arithmetic
-/
set_option linter.unusedSectionVars false
set_option linter.unusedSimpArgs false
set_option linter.unusedVariables false

namespace SMT.Fp.MixedInt
open SMT.MixedInt (XType Err Lim pyIndex truncInt sampleRow WellTyped width fold unfold castBlock roundHalfEven maxOf mask)
open SMT.Fp.Ego

variable {K : Type} [Field K] [LinearOrder K] [IsStrictOrderedRing K] [FloorRing K]

/-- **C115** `np.round` of a number of the format is a number of the format: rounding to an integer needs no second rounding. -/
theorem C115_round_representable {p : ℕ} (hp : 1 ≤ p) {x : K} (hx : (binary p hp).Rep x) : (binary (K := K) p hp).Rep (roundHalfEven x : K) := by
  have hx' : rne p x = x := hx
  by_cases h0 : x = 0
  · rw [h0]
    have : roundHalfEven (0 : K) = 0 := by exact_mod_cast SMT.MixedInt.round_intCast (K := K) 0
    rw [this]
    exact binary_int hp 0 (by simp)
  · have hpos : 0 < |x| := abs_pos.2 h0
    by_cases hl : (p : ℤ) - 1 ≤ Int.log 2 |x|
    · -- an integer already
      obtain ⟨d, hd⟩ : ∃ d : ℕ, Int.log 2 |x| - ((p : ℤ) - 1) = d := ⟨(Int.log 2 |x| - ((p : ℤ) - 1)).toNat, by omega⟩
      have hu : ulp p x = ((2 ^ d : ℤ) : K) := by
        rw [ulp, hd, zpow_natCast]
        push_cast
        rfl
      have hi : x = ((roundHalfEven (x / ulp p x) * 2 ^ d : ℤ) : K) := by
        conv_lhs => rw [← hx', rne, hu]
        rw [hu]
        push_cast
        rfl
      have hr : (roundHalfEven x : K) = x := by
        conv_lhs => rw [hi, SMT.MixedInt.round_intCast]
        rw [← hi]
      rw [hr]
      exact hx
    · push Not at hl
      have hlt : |x| < (2 : K) ^ ((p : ℤ) - 1) := by
        have := (Int.lt_zpow_iff_log_lt (b := 2) (by norm_num) (x := (p : ℤ) - 1) hpos).2 hl
        rwa [two_cast] at this
      have hle : |x| ≤ (((2 : ℤ) ^ p : ℤ) : K) := by
        refine hlt.le.trans ?_
        push_cast
        rw [← zpow_natCast]
        exact zpow_le_zpow_right₀ (by norm_num) (by omega)
      have hb := abs_le.1 hle
      have := SMT.MixedInt.round_bounds x (-(2 ^ p)) (2 ^ p) (by push_cast at hb ⊢; exact hb.1) (by push_cast at hb ⊢; exact hb.2)
      exact binary_int hp _ (abs_le.2 this)

/-! ## Prediction -/

theorem unfoldX_total (toInt : X K → ℤ) (ts : List XType) (hw : WellTyped ts) : ∀ (row : List (X K)), row.length = ts.length →
    ((∃ (i n : ℕ) (v : X K), ts[i]? = some (.enum n) ∧ row[i]? = some v ∧ (toInt v < -(n : ℤ) ∨ (n : ℤ) ≤ toInt v)) → unfoldX toInt ts row = .error .indexError) ∧
    ((∀ (i n : ℕ) (v : X K), ts[i]? = some (.enum n) → row[i]? = some v → -(n : ℤ) ≤ toInt v ∧ toInt v < n) → ∃ u, unfoldX toInt ts row = .ok u ∧ u.length = (ts.map width).sum) := by
  induction ts with
  | nil =>
    intro row hl
    refine ⟨?_, fun _ => ⟨[], rfl, rfl⟩⟩
    rintro ⟨i, n, v, h, -⟩
    simp at h
  | cons t ts ih =>
    intro row hl
    have hw' : WellTyped ts := fun s hs => hw s (by simp [hs])
    cases row with
    | nil => simp at hl
    | cons x rest =>
      have hl' : rest.length = ts.length := by simpa using hl
      have num : (t = .float ∨ t = .int) → unfoldX toInt (t :: ts) (x :: rest) = (unfoldX toInt ts rest).map (x :: ·) := by
        rintro (rfl | rfl) <;> rfl
      have numcase : (t = .float ∨ t = .int) → _ := fun ht => by
        have hne : ∀ n, t ≠ .enum n := fun n c => by rcases ht with e | e <;> (rw [e] at c; cases c)
        have hwt : width t = 1 := by rcases ht with e | e <;> rw [e] <;> rfl
        show (((∃ (i n : ℕ) (v : X K), (t :: ts)[i]? = some (.enum n) ∧ (x :: rest)[i]? = some v ∧ (toInt v < -(n : ℤ) ∨ (n : ℤ) ≤ toInt v)) → unfoldX toInt (t :: ts) (x :: rest) = .error .indexError) ∧
          ((∀ (i n : ℕ) (v : X K), (t :: ts)[i]? = some (.enum n) → (x :: rest)[i]? = some v → -(n : ℤ) ≤ toInt v ∧ toInt v < n) → ∃ u, unfoldX toInt (t :: ts) (x :: rest) = .ok u ∧ u.length = ((t :: ts).map width).sum))
        rw [num ht]
        refine ⟨?_, fun h => ?_⟩
        · rintro ⟨i, n, v, h1, h2, h3⟩
          cases i with
          | zero => simp at h1; exact absurd h1 (hne n)
          | succ i =>
            rw [(ih hw' rest hl').1 ⟨i, n, v, by simpa using h1, by simpa using h2, h3⟩]
            rfl
        · obtain ⟨u, e, l⟩ := (ih hw' rest hl').2 fun i n v h1 h2 => h (i + 1) n v (by simpa using h1) (by simpa using h2)
          exact ⟨x :: u, by rw [e]; rfl, by simp [l, hwt]; omega⟩
      rcases hw t (by simp) with rfl | rfl | ⟨n, hn, rfl⟩
      · exact numcase (.inl rfl)
      · exact numcase (.inr rfl)
      · obtain ⟨o1, o2⟩ := C115_unfold toInt ts n x rest
        refine ⟨?_, fun h => ?_⟩
        · rintro ⟨i, m, v, h1, h2, h3⟩
          by_cases hx : toInt x < -(n : ℤ) ∨ (n : ℤ) ≤ toInt x
          · exact o1 hx
          · push Not at hx
            cases i with
            | zero =>
              simp at h1 h2
              subst h1 h2
              omega
            | succ i =>
              obtain ⟨j, -, -, e⟩ := o2 hx.1 hx.2
              rw [e, (ih hw' rest hl').1 ⟨i, m, v, by simpa using h1, by simpa using h2, h3⟩]
              rfl
        · have h0 := h 0 n x rfl rfl
          obtain ⟨j, -, -, e⟩ := o2 h0.1 h0.2
          obtain ⟨u, eu, l⟩ := (ih hw' rest hl').2 fun i n v h1 h2 => h (i + 1) n v (by simpa using h1) (by simpa using h2)
          exact ⟨(mask n j).map .fin ++ u, by rw [e, eu]; rfl, by simp [l, width, mask]⟩

/-- **C115** The row handed to the inner surrogate by `predict_values` and `predict_variances`. Unfolded input: always the cast row, so a NaN in an enum block is predicted as if all levels held at once. Folded input: an
IndexError exactly if the conversion of some ENUM entry to an integer is below `-n` or at least `n`; otherwise a row of the unfolded dimension. -/
theorem C115_prediction (toInt : X K → ℤ) (ts : List XType) (hw : WellTyped ts) :
    (∀ row : List (X K), predictionRowX toInt ts false row = castX ts row) ∧
    (∀ row : List (X K), row.length = ts.length →
      (predictionRowX toInt ts true row = .error .indexError ↔ ∃ (i n : ℕ) (v : X K), ts[i]? = some (.enum n) ∧ row[i]? = some v ∧ (toInt v < -(n : ℤ) ∨ (n : ℤ) ≤ toInt v)) ∧
      (predictionRowX toInt ts true row = .error .indexError ∨ ∃ u y, unfoldX toInt ts row = .ok u ∧ castX ts u = .ok y ∧ predictionRowX toInt ts true row = .ok y ∧ y.length = (ts.map width).sum)) := by
  refine ⟨fun row => rfl, fun row hl => ?_⟩
  obtain ⟨o1, o2⟩ := unfoldX_total toInt ts hw row hl
  have ep : predictionRowX toInt ts true row = (match unfoldX toInt ts row with | .error e => .error e | .ok u => castX ts u) := rfl
  by_cases hx : ∃ (i n : ℕ) (v : X K), ts[i]? = some (.enum n) ∧ row[i]? = some v ∧ (toInt v < -(n : ℤ) ∨ (n : ℤ) ≤ toInt v)
  · have e : predictionRowX toInt ts true row = .error .indexError := by rw [ep, o1 hx]
    exact ⟨⟨fun _ => hx, fun _ => e⟩, .inl e⟩
  · obtain ⟨u, eu, lu⟩ := o2 fun i n v h1 h2 => by
      by_contra c
      refine hx ⟨i, n, v, h1, h2, ?_⟩
      omega
    obtain ⟨y, ey, ly⟩ := castX_ok ts hw u lu
    have e : predictionRowX toInt ts true row = .ok y := by rw [ep, eu]; exact ey
    exact ⟨⟨fun c => (by rw [e] at c; cases c), fun c => absurd c hx⟩, .inr ⟨u, y, eu, ey, e, by rw [ly, lu]⟩⟩

variable (R : Rounding K)

/-! ## Sampling -/

/-- **C115** The columns of an enumerated variable have limits `[0, 1]`: scaling returns the unit design itself, so levels are chosen from it without any rounding. -/
theorem C115_unit_limits {s : K} (hs : R.Rep s) : scaleF R (0, 1) s = s := by
  show R.rnd (0 + R.rnd (s * R.rnd (1 - 0))) = s
  rw [sub_zero, R.one, mul_one, zero_add, R.idem]
  exact hs

theorem fold_append (ts1 ts2 : List XType) : ∀ (x1 x2 : List K), x1.length = (ts1.map width).sum → WellTyped ts1 →
    fold (ts1 ++ ts2) (x1 ++ x2) = match fold ts1 x1 with | .error e => .error e | .ok y1 => (fold ts2 x2).map (y1 ++ ·) := by
  induction ts1 with
  | nil =>
    intro x1 x2 h _
    simp at h; subst h
    simp [fold, Except.map]
    cases fold ts2 x2 <;> rfl
  | cons t ts ih =>
    intro x1 x2 h hw
    have hw' : WellTyped ts := fun s hs => hw s (by simp [hs])
    rcases hw t (by simp) with rfl | rfl | ⟨n, hn, rfl⟩
    · cases x1 with
      | nil => simp [width] at h; omega
      | cons a as =>
        simp only [List.cons_append, fold, ih as x2 (by simp [width] at h; omega) hw']
        cases fold ts as <;> simp [Except.map]
        cases fold ts2 x2 <;> simp
    · cases x1 with
      | nil => simp [width] at h; omega
      | cons a as =>
        simp only [List.cons_append, fold, ih as x2 (by simp [width] at h; omega) hw']
        cases fold ts as <;> simp [Except.map]
        cases fold ts2 x2 <;> simp
    · simp [width] at h
      simp only [List.cons_append, fold]
      have hne := take_ne_nil (x := x1) hn h
      rw [List.take_append_of_le_length (by omega), List.drop_append_of_le_length (by omega), ih (x1.drop n) x2 (by simp; omega) hw', if_neg hne, if_neg hne]
      cases fold ts (x1.drop n) <;> simp [Except.map]
      cases fold ts2 x2 <;> simp

theorem fold_ok (ts : List XType) (hw : WellTyped ts) : ∀ x : List K, x.length = (ts.map width).sum → ∃ y, fold ts x = .ok y ∧ y.length = ts.length := by
  intro x hx
  obtain ⟨y, h1, h2⟩ := foldX_ok ts hw (x.map .fin) (by simpa using hx)
  rw [(C115_numbers ts x).2.1] at h1
  cases h : fold ts x with
  | error e => rw [h] at h1; cases h1
  | ok z =>
    rw [h] at h1
    injection h1 with h1
    exact ⟨z, rfl, by rw [← h2, ← h1, List.length_map]⟩

theorem sampleRow_split (ts1 ts2 : List XType) (t : XType) (hw : WellTyped (ts1 ++ t :: ts2)) (x1 b x2 : List K) (h1 : x1.length = (ts1.map width).sum) (hb : b.length = width t)
    (h2 : x2.length = (ts2.map width).sum) :
    ∃ z1 f z2, sampleRow (ts1 ++ t :: ts2) true (x1 ++ (b ++ x2)) = .ok (z1 ++ f :: z2) ∧ z1.length = ts1.length ∧ z2.length = ts2.length ∧
      (t = .float → b = [f]) ∧ (t = .int → ∃ v, b = [v] ∧ f = (roundHalfEven v : K)) ∧
      (∀ n, t = .enum n → f = ((Sampling.argmax b : ℕ) : K) ∧ Sampling.argmax b < n) := by
  have hw1 : WellTyped ts1 := fun s hs => hw s (by simp [hs])
  have hw2 : WellTyped ts2 := fun s hs => hw s (by simp [hs])
  obtain ⟨y1, hy1, hl1⟩ := SMT.MixedInt.cast_ok ts1 hw1 x1 h1
  obtain ⟨y2, hy2, hl2⟩ := SMT.MixedInt.cast_ok ts2 hw2 x2 h2
  obtain ⟨z1, hz1, hm1⟩ := fold_ok ts1 hw1 y1 (by rw [hl1, h1])
  obtain ⟨z2, hz2, hm2⟩ := fold_ok ts2 hw2 y2 (by rw [hl2, h2])
  have hc := SMT.MixedInt.cast_nil_append ts1 (t :: ts2) x1 (b ++ x2) h1 hw1
  rw [hy1] at hc
  have key : ∀ (c : List K) (f : K), SMT.MixedInt.cast (t :: ts2) (b ++ x2) = .ok (c ++ y2) → fold (t :: ts2) (c ++ y2) = .ok (f :: z2) →
      sampleRow (ts1 ++ t :: ts2) true (x1 ++ (b ++ x2)) = .ok (z1 ++ f :: z2) := by
    intro c f e1 e2
    have hc' : SMT.MixedInt.cast (ts1 ++ t :: ts2) (x1 ++ (b ++ x2)) = .ok (y1 ++ (c ++ y2)) := by
      rw [hc, e1]; rfl
    have hf := fold_append ts1 (t :: ts2) y1 (c ++ y2) (by rw [hl1, h1]) hw1
    rw [hz1, e2] at hf
    show (match SMT.MixedInt.cast (ts1 ++ t :: ts2) (x1 ++ (b ++ x2)) with | Except.error e => Except.error e | Except.ok u => if true then fold (ts1 ++ t :: ts2) u else Except.ok u) = _
    rw [hc']
    exact hf
  rcases hw t (by simp) with rfl | rfl | ⟨n, hn, rfl⟩
  · match b, hb with
    | [v], _ => exact ⟨z1, v, z2, key [v] v (by simp [SMT.MixedInt.cast, hy2, Except.map]) (by simp [fold, hz2, Except.map]), hm1, hm2, fun _ => rfl, by simp, by simp⟩
  · match b, hb with
    | [v], _ =>
      exact ⟨z1, (roundHalfEven v : K), z2, key [(roundHalfEven v : K)] _ (by simp [SMT.MixedInt.cast, hy2, Except.map]) (by simp [fold, hz2, Except.map]), hm1, hm2, by simp, fun _ => ⟨v, rfl, rfl⟩, by simp⟩
  · have hbn : b.length = n := hb
    have hne : b ≠ [] := by intro e; rw [e] at hbn; simp at hbn; omega
    obtain ⟨m, c, hm, hall, hcb, hc'⟩ := SMT.MixedInt.castBlock_spec b hne
    have hcn : c.length = n := by rw [hc', List.length_map, hbn]
    have hcne : c ≠ [] := by intro e; rw [e] at hcn; simp at hcn; omega
    have hlev : Sampling.argmax c = Sampling.argmax b := by
      have hX := (C115_level (b.map .fin) (c.map .fin) (by rw [castBlock_fin, hcb]; rfl)).1 (by simp)
      obtain ⟨j, j1, j2, -⟩ := hX
      rw [argmax_fin b hne] at j1
      rw [argmax_fin c hcne] at j2
      rw [Option.some.inj j1, Option.some.inj j2]
    have ht : (b ++ x2).take n = b := by rw [List.take_append_of_le_length (by omega), List.take_of_length_le (by omega)]
    have hd : (b ++ x2).drop n = x2 := by rw [← hbn]; simp
    have ht' : (c ++ y2).take n = c := by rw [List.take_append_of_le_length (by omega), List.take_of_length_le (by omega)]
    have hd' : (c ++ y2).drop n = y2 := by rw [← hcn]; simp
    refine ⟨z1, ((Sampling.argmax b : ℕ) : K), z2, key c _ (by simp [SMT.MixedInt.cast, ht, hd, hcb, hy2, Except.map]) ?_, hm1, hm2, by simp, by simp, fun k hk => ⟨rfl, ?_⟩⟩
    · simp [fold, ht', hd', hcne, hlev, hz2, Except.map]
    · injection hk with hk
      subst hk
      rw [← hbn]
      exact SMT.MixedInt.argmax_lt b hne

/-- **C115** One row of a mixed-integer design, variable by variable, whatever the rounding: a FLOAT entry is the scaled sample, an INT entry the scaled sample rounded to an integer, an ENUM entry the number of the first
largest scaled sample of its block, always a valid level. -/
theorem C115_mixed_row (ts1 ts2 : List XType) (t : XType) (hw : WellTyped (ts1 ++ t :: ts2)) (l1 lb l2 : List (K × K)) (u1 ub u2 : List K)
    (h1 : u1.length = (ts1.map width).sum) (hb : ub.length = width t) (h2 : u2.length = (ts2.map width).sum) (g1 : l1.length = u1.length) (gb : lb.length = ub.length) (g2 : l2.length = u2.length) :
    ∃ z1 f z2, mixedRowF R (ts1 ++ t :: ts2) (l1 ++ (lb ++ l2)) (u1 ++ (ub ++ u2)) = .ok (z1 ++ f :: z2) ∧ z1.length = ts1.length ∧ z2.length = ts2.length ∧
      (t = .float → ∃ lim s, lb = [lim] ∧ ub = [s] ∧ f = scaleF R lim s) ∧ (t = .int → ∃ lim s, lb = [lim] ∧ ub = [s] ∧ f = (roundHalfEven (scaleF R lim s) : K)) ∧
      (∀ n, t = .enum n → ∃ j : ℕ, j < n ∧ f = (j : K) ∧ j = Sampling.argmax (List.zipWith (scaleF R) lb ub)) := by
  have e : scaleRowF R (l1 ++ (lb ++ l2)) (u1 ++ (ub ++ u2)) = scaleRowF R l1 u1 ++ (scaleRowF R lb ub ++ scaleRowF R l2 u2) := by
    unfold scaleRowF
    rw [List.zipWith_append g1, List.zipWith_append gb]
  have len : ∀ (l : List (K × K)) (u : List K), l.length = u.length → (scaleRowF R l u).length = u.length := by
    intro l u h
    unfold scaleRowF
    simp [h]
  obtain ⟨z1, f, z2, q1, q2, q3, q4, q5, q6⟩ := sampleRow_split ts1 ts2 t hw (scaleRowF R l1 u1) (scaleRowF R lb ub) (scaleRowF R l2 u2) (by rw [len _ _ g1, h1]) (by rw [len _ _ gb, hb]) (by rw [len _ _ g2, h2])
  refine ⟨z1, f, z2, ?_, q2, q3, fun ht => ?_, fun ht => ?_, fun n ht => ?_⟩
  · unfold mixedRowF
    rw [e]
    exact q1
  · subst ht
    have hub : ub.length = 1 := hb
    obtain ⟨s, rfl⟩ := List.length_eq_one_iff.1 hub
    obtain ⟨lim, rfl⟩ := List.length_eq_one_iff.1 (gb.trans hub)
    · have := q4 rfl
      exact ⟨lim, s, rfl, rfl, (List.head_eq_of_cons_eq this).symm⟩
  · subst ht
    have hub : ub.length = 1 := hb
    obtain ⟨s, rfl⟩ := List.length_eq_one_iff.1 hub
    obtain ⟨lim, rfl⟩ := List.length_eq_one_iff.1 (gb.trans hub)
    · obtain ⟨v, e1, e2⟩ := q5 rfl
      have : scaleF R lim s = v := List.head_eq_of_cons_eq e1
      exact ⟨lim, s, rfl, rfl, by rw [this, e2]⟩
  · obtain ⟨e1, e2⟩ := q6 n ht
    exact ⟨_, e2, e1, rfl⟩

/-- **C115** The level of an enumerated variable is the one exact arithmetic chooses: the first largest entry of the block of the unit design. -/
theorem C115_enum_exact (ub : List K) (h : ∀ s ∈ ub, R.Rep s) (lb : List (K × K)) (hl : lb = List.replicate ub.length (0, 1)) :
    List.zipWith (scaleF R) lb ub = ub := by
  subst hl
  induction ub with
  | nil => rfl
  | cons s ub ih =>
    simp only [List.length_cons, List.replicate_succ, List.zipWith_cons_cons]
    rw [C115_unit_limits R (h s (by simp)), ih fun v hv => h v (by simp [hv])]

/-- **C115** The level of an integer variable with integer limits `a ≤ b` (numbers of the format, with a width of the format): never outside the limits; at most one level from the level of exact arithmetic as long as
rounding errors are below 1; and the same unless the exact sample lies within the rounding error `d` of the midpoint between two levels. -/
theorem C115_int_level {a b : ℤ} (ha : R.Rep (a : K)) (hb : R.Rep (b : K)) (hw : R.Rep ((b : K) - a)) (h : a ≤ b) {s : K} (hs : 0 ≤ s) (hs' : s ≤ 1) {d : K}
    (hd : R.u * max |(a : K)| |(b : K)| + (1 + R.u) * (2 * R.u + R.u ^ 2) * ((b : K) - a) ≤ d) :
    (a ≤ roundHalfEven (scaleF R ((a : K), (b : K)) s) ∧ roundHalfEven (scaleF R ((a : K), (b : K)) s) ≤ b) ∧
    (d < 1 → |roundHalfEven (scaleF R ((a : K), (b : K)) s) - roundHalfEven ((a : K) + s * ((b : K) - a))| ≤ 1) ∧
    (∀ k : ℤ, |(a : K) + s * ((b : K) - a) - k| < 1 / 2 - d → roundHalfEven (scaleF R ((a : K), (b : K)) s) = k ∧ roundHalfEven ((a : K) + s * ((b : K) - a)) = k) := by
  have hab : (a : K) ≤ b := by exact_mod_cast h
  have h1 := (C101_exact_width R (lim := ((a : K), (b : K))) ha hb hw hab hs hs').1
  have h2 := C101_error R (lim := ((a : K), (b : K))) hab hs hs'
  have h3 : |scaleF R ((a : K), (b : K)) s - ((a : K) + s * ((b : K) - a))| ≤ d := h2.trans hd
  have hd0 : 0 ≤ d := (abs_nonneg _).trans h3
  refine ⟨SMT.MixedInt.round_bounds _ a b h1.1 h1.2, fun hd1 => ?_, fun k hk => ⟨?_, ?_⟩⟩
  · have n1 := abs_le.1 (SMT.MixedInt.round_near (scaleF R ((a : K), (b : K)) s))
    have n2 := abs_le.1 (SMT.MixedInt.round_near ((a : K) + s * ((b : K) - a)))
    have n3 := abs_le.1 h3
    have u1 : ((roundHalfEven (scaleF R ((a : K), (b : K)) s) - roundHalfEven ((a : K) + s * ((b : K) - a)) : ℤ) : K) < ((2 : ℤ) : K) := by
      push_cast
      linarith [n1.1, n2.2, n3.2]
    have u2 : ((-2 : ℤ) : K) < ((roundHalfEven (scaleF R ((a : K), (b : K)) s) - roundHalfEven ((a : K) + s * ((b : K) - a)) : ℤ) : K) := by
      push_cast
      linarith [n1.2, n2.1, n3.1]
    have v1 := Int.cast_lt.1 u1
    have v2 := Int.cast_lt.1 u2
    rw [abs_le]
    omega
  · refine SMT.MixedInt.round_unique _ k ?_
    have := abs_sub_le (scaleF R ((a : K), (b : K)) s) ((a : K) + s * ((b : K) - a)) k
    linarith
  · exact SMT.MixedInt.round_unique _ k (by linarith)

/-! ## Examples -/

/-- Double precision and limits of at most 52 bits: the conditions on the limits hold. -/
theorem C115_double_limits {a b : ℤ} (ha : |a| ≤ 2 ^ 52) (hb : |b| ≤ 2 ^ 52) : double.Rep (a : ℚ) ∧ double.Rep (b : ℚ) ∧ double.Rep ((b : ℚ) - a) := by
  have h1 := abs_le.1 ha
  have h2 := abs_le.1 hb
  refine ⟨binary_int (K := ℚ) (p := 53) (by norm_num) a (by omega), binary_int (K := ℚ) (p := 53) (by norm_num) b (by omega), ?_⟩
  have := binary_int (K := ℚ) (p := 53) (by norm_num) (b - a) (by rw [abs_le]; omega)
  push_cast at this
  exact this

-- limits of at most a million: the rounding error is below 1e-9
example : double.u * max |((-1000000 : ℤ) : ℚ)| |((1000000 : ℤ) : ℚ)| + (1 + double.u) * (2 * double.u + double.u ^ 2) * (((1000000 : ℤ) : ℚ) - (-1000000 : ℤ)) ≤ 1 / 10 ^ 9 := by decide +kernel

-- limits that are not integers: a sample inside [0.6, 1.4] is cast to 1, one of [0.4, 1.4] to 0, outside
example : sampleRow [.int] true [scaleF double (3 / 5, 7 / 5) 0] = .ok [1] ∧ sampleRow [.int] true [scaleF double (2 / 5, 7 / 5) 0] = .ok [0] := by
  refine ⟨by decide +kernel, by decide +kernel⟩

-- a NaN in an enum block: no level is chosen by casting, folding afterwards gives level 0, folding alone the place of the NaN
example : castX [.enum 3] [.fin (1 / 2 : ℚ), .nan, .fin 2] = .ok [.fin 1, .fin 1, .fin 1] := by rfl
example : Moe.argmaxX [.fin (1 / 2 : ℚ), .nan, .fin 2] = some 1 ∧ Moe.argmaxX [.fin (1 : ℚ), .fin 1, .fin 1] = some 0 := by decide +kernel

-- an infinite entry is a proper largest one
example : (castX [.int, .enum 2] [.inf true, .fin (3 : ℚ), .inf false]).toOption = some [.inf true, .fin 0, .fin 1] := by decide +kernel

end SMT.Fp.MixedInt
