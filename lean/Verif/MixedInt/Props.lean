import Verif.MixedInt.Model
import Mathlib.Tactic.Linarith
import Mathlib.Tactic.Ring
import Mathlib.Tactic.NormNum
import Mathlib.Data.Rat.Floor
import Mathlib.Algebra.Order.Floor.Semiring

/-!
# Properties C15-C18: mixed-integer encoding
-/
namespace SMT.MixedInt
set_option linter.unusedSectionVars false
set_option linter.unusedSimpArgs false

variable {K : Type} [Field K] [LinearOrder K] [IsStrictOrderedRing K] [FloorRing K]

/-! ## Specification -/

/-- Number of unfolded columns of one variable. -/
def width : XType → Nat
  | .enum n => n
  | _ => 1

/-- Only `FLOAT`, `INT` and `(ENUM, n)` with `n ≥ 1`. -/
def WellTyped (ts : List XType) : Prop :=
  ∀ t ∈ ts, t = .float ∨ t = .int ∨ ∃ n, 1 ≤ n ∧ t = .enum n

/-- `b` has length `n`, a single 1 at position `j` and zeros elsewhere. -/
def OneHot (n j : Nat) (b : List K) : Prop :=
  b.length = n ∧ j < n ∧ ∀ i, i < n → b[i]? = some (if i = j then 1 else 0)

/-- A folded point: one coordinate per variable; enum coordinates are valid level numbers. -/
def ValidFolded (ts : List XType) (x : List K) : Prop :=
  List.Forall₂ (fun t v => t = .float ∨ t = .int ∨ ∃ n j : Nat, t = .enum n ∧ j < n ∧ v = (j : K)) ts x

/-- An unfolded point: one coordinate per numeric variable, a one-hot block per enum variable. -/
inductive ValidUnfolded : List XType → List K → Prop
  | nil : ValidUnfolded [] []
  | float (ts u v) : ValidUnfolded ts u → ValidUnfolded (.float :: ts) (v :: u)
  | int (ts u v) : ValidUnfolded ts u → ValidUnfolded (.int :: ts) (v :: u)
  | enum (ts u n j) (b : List K) : OneHot n j b → ValidUnfolded ts u → ValidUnfolded (.enum n :: ts) (b ++ u)

/-! ## Helper facts -/

theorem mask_oneHot (n j : Nat) (h : j < n) : OneHot n j (mask n j : List K) := by
  refine ⟨by simp [mask], h, fun i hi => ?_⟩
  unfold mask
  rw [List.getElem?_set]
  by_cases hij : j = i
  · simp [hij, hi]
  · simp [hij, hi, Ne.symm hij]

theorem oneHot_unique (n j : Nat) (a b : List K) (ha : OneHot n j a) (hb : OneHot n j b) : a = b := by
  apply List.ext_getElem?
  intro i
  by_cases h : i < n
  · rw [ha.2.2 i h, hb.2.2 i h]
  · rw [List.getElem?_eq_none (by rw [ha.1]; omega), List.getElem?_eq_none (by rw [hb.1]; omega)]

theorem argmaxGo_spec (as : List K) : ∀ (m : K) (b i : Nat), b < i →
    let r := Sampling.argmaxGo m b i as
    (r = b ∧ ∀ a ∈ as, a ≤ m) ∨ (∃ t, t < as.length ∧ r = i + t ∧ ∃ v, as[t]? = some v ∧ m < v ∧
      (∀ a ∈ as, a ≤ v) ∧ ∀ s w, s < t → as[s]? = some w → w < v) := by
  induction as with
  | nil => intro m b i _; left; simp [Sampling.argmaxGo]
  | cons a as ih =>
    intro m b i hb
    simp only [Sampling.argmaxGo]
    by_cases hlt : m < a
    · rw [if_pos hlt]
      right
      rcases ih a i (i + 1) (by omega) with ⟨h1, h2⟩ | ⟨t, ht, hr, v, hv, hav, hall, hbef⟩
      · refine ⟨0, by simp, by rw [h1]; rfl, a, rfl, hlt, ?_, ?_⟩
        · intro c hc; rcases List.mem_cons.1 hc with rfl | hc
          · exact le_refl _
          · exact h2 c hc
        · intro s w hs; omega
      · refine ⟨t + 1, by simp; omega, by rw [hr]; omega, v, by simpa using hv, hlt.trans hav, ?_, ?_⟩
        · intro c hc; rcases List.mem_cons.1 hc with rfl | hc
          · exact hav.le
          · exact hall c hc
        · intro s w hs hw
          cases s with
          | zero => simp at hw; rw [← hw]; exact hav
          | succ s => exact hbef s w (by omega) (by simpa using hw)
    · rw [if_neg hlt]
      rcases ih m b (i + 1) (by omega) with ⟨h1, h2⟩ | ⟨t, ht, hr, v, hv, hav, hall, hbef⟩
      · left; refine ⟨h1, ?_⟩
        intro c hc; rcases List.mem_cons.1 hc with rfl | hc
        · exact not_lt.1 hlt
        · exact h2 c hc
      · right
        refine ⟨t + 1, by simp; omega, by rw [hr]; omega, v, by simpa using hv, hav, ?_, ?_⟩
        · intro c hc; rcases List.mem_cons.1 hc with rfl | hc
          · exact (not_lt.1 hlt).trans hav.le
          · exact hall c hc
        · intro s w hs hw
          cases s with
          | zero => simp at hw; rw [← hw]; exact lt_of_le_of_lt (not_lt.1 hlt) hav
          | succ s => exact hbef s w (by omega) (by simpa using hw)

/-- `np.argmax`: position of a maximal element, and the first such position. -/
theorem argmax_spec (l : List K) (hl : l ≠ []) : ∃ v, l[Sampling.argmax l]? = some v ∧ (∀ a ∈ l, a ≤ v) ∧
    ∀ s w, s < Sampling.argmax l → l[s]? = some w → w < v := by
  cases l with
  | nil => exact absurd rfl hl
  | cons a as =>
    simp only [Sampling.argmax]
    rcases argmaxGo_spec as a 0 1 (by omega) with ⟨h1, h2⟩ | ⟨t, ht, hr, v, hv, hav, hall, hbef⟩
    · refine ⟨a, by rw [h1]; rfl, ?_, by rw [h1]; intro s w hs; omega⟩
      intro c hc; rcases List.mem_cons.1 hc with rfl | hc
      · exact le_refl _
      · exact h2 c hc
    · refine ⟨v, by rw [hr, Nat.add_comm]; simpa using hv, ?_, ?_⟩
      · intro c hc; rcases List.mem_cons.1 hc with rfl | hc
        · exact hav.le
        · exact hall c hc
      · intro s w hs hw
        rw [hr] at hs
        cases s with
        | zero => simp at hw; rw [← hw]; exact hav
        | succ s => exact hbef s w (by omega) (by simpa using hw)

theorem argmax_lt (l : List K) (hl : l ≠ []) : Sampling.argmax l < l.length := by
  obtain ⟨v, hv, _⟩ := argmax_spec l hl
  by_contra h
  rw [List.getElem?_eq_none (by omega)] at hv
  simp at hv

theorem argmax_oneHot (n j : Nat) (b : List K) (h : OneHot n j b) : Sampling.argmax b = j := by
  have hne : b ≠ [] := by intro e; have := h.1; rw [e] at this; simp at this; have := h.2.1; omega
  obtain ⟨v, hv, hall, _⟩ := argmax_spec b hne
  have hlt := argmax_lt b hne
  rw [h.1] at hlt
  have hv1 : v = 1 := by
    have h1 : (1 : K) ∈ b := by
      have := h.2.2 j h.2.1
      simp at this
      exact List.mem_of_getElem? this
    have := hall 1 h1
    rw [h.2.2 _ hlt] at hv
    simp only [Option.some.injEq] at hv
    split at hv
    · exact hv.symm
    · rw [← hv] at this; exact absurd this (by norm_num)
  rw [h.2.2 _ hlt, hv1] at hv
  simp only [Option.some.injEq] at hv
  by_contra hc
  rw [if_neg hc] at hv
  exact absurd hv (by norm_num)

theorem truncInt_natCast (j : Nat) : truncInt (j : K) = j := by
  unfold truncInt; simp

theorem pyIndex_natCast (n j : Nat) (h : j < n) : pyIndex n (j : Int) = .ok j := by
  unfold pyIndex; simp [h]

/-! ## C15 -/

/-- **C15** Unfold then fold is the identity on every valid folded point, and the unfolded point has one
column per numeric variable and `n` per enum variable. -/
theorem C15_fold_unfold (ts : List XType) (x : List K) (h : ValidFolded ts x) :
    ∃ u, unfold ts x = .ok u ∧ ValidUnfolded ts u ∧ u.length = (ts.map width).sum ∧ fold ts u = .ok x := by
  induction h with
  | nil => exact ⟨[], rfl, .nil, rfl, rfl⟩
  | @cons t v ts xs ht _ ih =>
    obtain ⟨u, h1, h2, h3, h4⟩ := ih
    rcases ht with rfl | rfl | ⟨n, j, rfl, hj, rfl⟩
    · exact ⟨v :: u, by simp [unfold, h1, Except.map], .float _ _ _ h2, by simp [h3, width]; omega, by
        simp [fold, h4, Except.map]⟩
    · exact ⟨v :: u, by simp [unfold, h1, Except.map], .int _ _ _ h2, by simp [h3, width]; omega, by
        simp [fold, h4, Except.map]⟩
    · refine ⟨mask n j ++ u, by simp [unfold, h1, Except.map, truncInt_natCast, pyIndex_natCast n j hj],
        .enum _ _ _ j _ (mask_oneHot n j hj) h2, by simp [h3, width, mask], ?_⟩
      have hlen : (mask n j : List K).length = n := by simp [mask]
      have ht : (mask n j ++ u).take n = (mask n j : List K) := by
        rw [List.take_append_of_le_length (by omega), List.take_of_length_le (by omega)]
      have hd : (mask n j ++ u).drop n = u := List.drop_left' hlen
      have hne : (mask n j : List K) ≠ [] := by
        intro e; rw [e] at hlen; simp at hlen; omega
      simp only [fold, ht, hd, hne, if_false, h4, Except.map, argmax_oneHot n j _ (mask_oneHot n j hj)]

/-- **C15** Fold then unfold is the identity on every unfolded point whose enum blocks are one-hot, and the
folded point has one coordinate per variable. -/
theorem C15_unfold_fold (ts : List XType) (u : List K) (h : ValidUnfolded ts u) :
    ∃ x, fold ts u = .ok x ∧ ValidFolded ts x ∧ x.length = ts.length ∧ unfold ts x = .ok u := by
  induction h with
  | nil => exact ⟨[], rfl, .nil, rfl, rfl⟩
  | float ts u v _ ih =>
    obtain ⟨x, h1, h2, h3, h4⟩ := ih
    exact ⟨v :: x, by simp [fold, h1, Except.map], .cons (by simp) h2, by simp [h3], by
      simp [unfold, h4, Except.map]⟩
  | int ts u v _ ih =>
    obtain ⟨x, h1, h2, h3, h4⟩ := ih
    exact ⟨v :: x, by simp [fold, h1, Except.map], .cons (by simp) h2, by simp [h3], by
      simp [unfold, h4, Except.map]⟩
  | enum ts u n j b hb _ ih =>
    obtain ⟨x, h1, h2, h3, h4⟩ := ih
    have hlen := hb.1
    have ht : (b ++ u).take n = b := by
      rw [List.take_append_of_le_length (by omega), List.take_of_length_le (by omega)]
    have hd : (b ++ u).drop n = u := by rw [← hlen]; simp
    have hne : b ≠ [] := by intro e; rw [e] at hlen; simp at hlen; have := hb.2.1; omega
    refine ⟨(j : K) :: x, ?_, .cons (Or.inr (Or.inr ⟨n, j, rfl, hb.2.1, rfl⟩)) h2, by simp [h3], ?_⟩
    · simp only [fold, ht, hd, hne, if_false, h1, Except.map, argmax_oneHot n j b hb]
    · simp [unfold, h4, Except.map, truncInt_natCast, pyIndex_natCast n j hb.2.1,
        oneHot_unique n j _ _ (mask_oneHot n j hb.2.1) hb]

/-- Non-vacuity: a float, a three-level enum and an int. -/
example : unfold [.float, .enum 3, .int] [(1/2 : ℚ), 2, 7] = .ok [1/2, 0, 0, 1, 7] ∧
    fold [.float, .enum 3, .int] [(1/2 : ℚ), 0, 0, 1, 7] = .ok [1/2, 2, 7] := by
  constructor <;> decide +kernel

/-- The converse direction needs the enum coordinate to be valid: Python's negative index makes `-1` mean
the last level, so folding does not give `-1` back. -/
theorem C15_negative_index_wraps : unfold [.enum 3] [(-1 : ℚ)] = .ok [0, 0, 1] ∧
    fold [.enum 3] [(0 : ℚ), 0, 1] = .ok [2] := by constructor <;> decide +kernel

/-! ## C16 -/

theorem floor_facts (x : K) : (⌊x⌋ : K) ≤ x ∧ x < (⌊x⌋ : K) + 1 := ⟨Int.floor_le x, Int.lt_floor_add_one x⟩

/-- `np.round` returns an integer at distance at most 1/2. -/
theorem round_near (x : K) : |x - (roundHalfEven x : K)| ≤ 1 / 2 := by
  obtain ⟨h1, h2⟩ := floor_facts x
  unfold roundHalfEven
  rw [abs_le]
  split
  · rename_i h; constructor <;> linarith
  · rename_i h
    have h' := not_lt.1 h
    split
    · push_cast; constructor <;> linarith
    · rename_i hh
      have hh' := not_lt.1 hh
      split
      · constructor <;> linarith
      · push_cast; constructor <;> linarith

/-- Ties go to the even neighbour. -/
theorem round_tie_even (x : K) (h : |x - (roundHalfEven x : K)| = 1 / 2) : roundHalfEven x % 2 = 0 := by
  obtain ⟨h1, h2⟩ := floor_facts x
  unfold roundHalfEven at h ⊢
  split at h
  · rename_i hh; rw [abs_of_nonneg (by linarith)] at h; exact absurd h (ne_of_lt hh)
  · rename_i hh
    rw [if_neg hh]
    split at h
    · rename_i hh2
      rw [abs_of_nonpos (by push_cast; linarith)] at h; push_cast at h; exfalso; linarith
    · rename_i hh2
      rw [if_neg hh2]
      split
      · assumption
      · omega

theorem round_intCast (k : Int) : roundHalfEven (k : K) = k := by
  unfold roundHalfEven; simp

theorem round_bounds (x : K) (a b : Int) (ha : (a : K) ≤ x) (hb : x ≤ (b : K)) :
    a ≤ roundHalfEven x ∧ roundHalfEven x ≤ b := by
  have h := abs_le.1 (round_near x)
  constructor
  · have h1 : (a : K) - 1 < (roundHalfEven x : K) := by linarith [h.2]
    have h2 : ((a - 1 : Int) : K) < (roundHalfEven x : K) := by push_cast; exact h1
    have := Int.cast_lt.1 h2; omega
  · have h1 : (roundHalfEven x : K) < (b : K) + 1 := by linarith [h.1]
    have h2 : (roundHalfEven x : K) < ((b + 1 : Int) : K) := by push_cast; exact h1
    have := Int.cast_lt.1 h2; omega

theorem maxOf_spec (as : List K) : ∀ a, maxOf a as ∈ a :: as ∧ ∀ v ∈ a :: as, v ≤ maxOf a as := by
  induction as with
  | nil => intro a; simp [maxOf]
  | cons b bs ih =>
    intro a
    obtain ⟨h1, h2⟩ := ih (max a b)
    simp only [maxOf]
    constructor
    · rcases List.mem_cons.1 h1 with h | h
      · rw [h]; rcases max_choice a b with h | h <;> rw [h] <;> simp
      · simp [h]
    · intro v hv
      have hm := h2 (max a b) (by simp)
      rcases List.mem_cons.1 hv with rfl | hv
      · exact (le_max_left _ _).trans hm
      · rcases List.mem_cons.1 hv with rfl | hv
        · exact (le_max_right _ _).trans hm
        · exact h2 v (by simp [hv])

/-- What casting does to an enum block: 1 where the block attains its maximum, 0 elsewhere. -/
theorem castBlock_spec (b : List K) (hb : b ≠ []) : ∃ m c, m ∈ b ∧ (∀ v ∈ b, v ≤ m) ∧ castBlock b = .ok c ∧
    c = b.map (fun v => if v = m then 1 else 0) := by
  cases b with
  | nil => exact absurd rfl hb
  | cons a as =>
    obtain ⟨h1, h2⟩ := maxOf_spec as a
    refine ⟨maxOf a as, _, h1, h2, rfl, ?_⟩
    apply List.map_congr_left
    intro v hv
    have := h2 v hv
    by_cases hv' : v = maxOf a as
    · simp [hv']
    · rw [if_pos (lt_of_le_of_ne this hv'), if_neg hv']

theorem cast_nil_append (ts1 ts2 : List XType) : ∀ (x1 x2 : List K), x1.length = (ts1.map width).sum →
    WellTyped ts1 →
    cast (ts1 ++ ts2) (x1 ++ x2) =
      match cast ts1 x1 with
      | .error e => .error e
      | .ok y1 => (cast ts2 x2).map (y1 ++ ·) := by
  induction ts1 with
  | nil =>
    intro x1 x2 h _
    simp at h; subst h
    simp [cast, Except.map]
    cases cast ts2 x2 <;> rfl
  | cons t ts ih =>
    intro x1 x2 h hw
    have hw' : WellTyped ts := fun s hs => hw s (by simp [hs])
    rcases hw t (by simp) with rfl | rfl | ⟨n, hn, rfl⟩
    · cases x1 with
      | nil => simp [width] at h; omega
      | cons a as =>
        simp only [List.cons_append, cast, ih as x2 (by simp [width] at h; omega) hw']
        cases cast ts as <;> simp [Except.map]
        cases cast ts2 x2 <;> simp
    · cases x1 with
      | nil => simp [width] at h; omega
      | cons a as =>
        simp only [List.cons_append, cast, ih as x2 (by simp [width] at h; omega) hw']
        cases cast ts as <;> simp [Except.map]
        cases cast ts2 x2 <;> simp
    · simp [width] at h
      simp only [List.cons_append, cast]
      rw [List.take_append_of_le_length (by omega), List.drop_append_of_le_length (by omega),
        ih (x1.drop n) x2 (by simp; omega) hw']
      cases castBlock (x1.take n) with
      | error e => rfl
      | ok b =>
        simp only
        cases cast ts (x1.drop n) <;> simp [Except.map]
        cases cast ts2 x2 <;> simp

theorem cast_ok (ts : List XType) (hw : WellTyped ts) : ∀ x : List K, x.length = (ts.map width).sum →
    ∃ y, cast ts x = .ok y ∧ y.length = x.length := by
  induction ts with
  | nil => intro x h; exact ⟨x, rfl, rfl⟩
  | cons t ts ih =>
    intro x h
    have hw' : WellTyped ts := fun s hs => hw s (by simp [hs])
    rcases hw t (by simp) with rfl | rfl | ⟨n, hn, rfl⟩
    · cases x with
      | nil => simp [width] at h; omega
      | cons a as =>
        obtain ⟨y, h1, h2⟩ := ih hw' as (by simp [width] at h; omega)
        exact ⟨a :: y, by simp [cast, h1, Except.map], by simp [h2]⟩
    · cases x with
      | nil => simp [width] at h; omega
      | cons a as =>
        obtain ⟨y, h1, h2⟩ := ih hw' as (by simp [width] at h; omega)
        exact ⟨(roundHalfEven a : K) :: y, by simp [cast, h1, Except.map], by simp [h2]⟩
    · simp [width] at h
      obtain ⟨y, h1, h2⟩ := ih hw' (x.drop n) (by simp; omega)
      have hne : x.take n ≠ [] := by
        intro e; have := congrArg List.length e; simp at this; rcases this with h' | h'
        · omega
        · rw [h'] at h; simp at h; omega
      obtain ⟨m, c, _, _, hc, hc'⟩ := castBlock_spec (x.take n) hne
      refine ⟨c ++ y, by simp [cast, hc, h1, Except.map], ?_⟩
      simp [hc', h2]; omega

/-- **C16** For well-formed types and a row of the unfolded dimension, casting succeeds and acts block by
block: whatever the split of the variables around one variable `t`, the columns before and after keep their
number, and `t`'s own columns become: unchanged for a float; for an int the nearest integer (ties to even),
inside any integer bounds that contained it; for an enum the indicator of the block's maximum. -/
theorem C16_cast_blockwise (ts1 ts2 : List XType) (t : XType) (hw : WellTyped (ts1 ++ t :: ts2))
    (x1 b x2 : List K) (h1 : x1.length = (ts1.map width).sum) (hb : b.length = width t)
    (h2 : x2.length = (ts2.map width).sum) :
    ∃ y1 c y2, cast (ts1 ++ t :: ts2) (x1 ++ (b ++ x2)) = .ok (y1 ++ (c ++ y2)) ∧
      y1.length = x1.length ∧ c.length = b.length ∧ y2.length = x2.length ∧
      (t = .float → c = b) ∧
      (t = .int → ∃ v k, b = [v] ∧ c = [((k : Int) : K)] ∧ |v - (k : K)| ≤ 1 / 2 ∧
        (|v - (k : K)| = 1 / 2 → k % 2 = 0) ∧
        ∀ lo hi : Int, (lo : K) ≤ v → v ≤ (hi : K) → lo ≤ k ∧ k ≤ hi) ∧
      (∀ n, t = .enum n → ∃ m, m ∈ b ∧ (∀ v ∈ b, v ≤ m) ∧ c = b.map (fun v => if v = m then 1 else 0)) := by
  have hw1 : WellTyped ts1 := fun s hs => hw s (by simp [hs])
  have hw2 : WellTyped ts2 := fun s hs => hw s (by simp [hs])
  obtain ⟨y1, hy1, hl1⟩ := cast_ok ts1 hw1 x1 h1
  obtain ⟨y2, hy2, hl2⟩ := cast_ok ts2 hw2 x2 h2
  rw [cast_nil_append ts1 (t :: ts2) x1 (b ++ x2) h1 hw1, hy1]
  rcases hw t (by simp) with rfl | rfl | ⟨n, hn, rfl⟩
  · match b, hb with
    | [v], _ =>
      exact ⟨y1, [v], y2, by simp [cast, hy2, Except.map], hl1, rfl, hl2, fun _ => rfl, by simp, by simp⟩
  · match b, hb with
    | [v], _ =>
      refine ⟨y1, [(roundHalfEven v : K)], y2, by simp [cast, hy2, Except.map], hl1, rfl, hl2, by simp, ?_, by simp⟩
      intro _
      exact ⟨v, roundHalfEven v, rfl, rfl, round_near v, round_tie_even v,
        fun lo hi a b => round_bounds v lo hi a b⟩
  · have hbn : b.length = n := hb
    have hne : b ≠ [] := by intro e; rw [e] at hbn; simp at hbn; omega
    obtain ⟨m, c, hm, hall, hc, hc'⟩ := castBlock_spec b hne
    have ht : (b ++ x2).take n = b := by
      rw [List.take_append_of_le_length (by omega), List.take_of_length_le (by omega)]
    have hd : (b ++ x2).drop n = x2 := by rw [← hbn]; simp
    exact ⟨y1, c, y2, by simp [cast, ht, hd, hc, hy2, Except.map], hl1, by simp [hc'], hl2, by simp, by simp,
      fun k _ => ⟨m, hm, hall, hc'⟩⟩

/-- **C16** Casting is idempotent, on every row and every type list for which it succeeds. -/
theorem C16_idempotent (ts : List XType) : ∀ (x y : List K), cast ts x = .ok y → cast ts y = .ok y := by
  induction ts with
  | nil => intro x y h; rfl
  | cons t ts ih =>
    intro x y h
    cases t with
    | float =>
      cases x with
      | nil =>
        simp only [cast] at h ⊢
        have := ih [] y h
        have hy : y = [] := by
          have key : ∀ ts (y : List K), cast ts [] = .ok y → y = [] := by
            intro ts
            induction ts with
            | nil => intro y h; simp [cast] at h; exact h
            | cons t ts ih =>
              intro y h
              cases t with
              | float => exact ih y (by simpa [cast] using h)
              | int => simp [cast] at h
              | enum n => simp [cast, castBlock] at h
              | badTuple n => simp [cast] at h
              | bad => simp [cast] at h
          exact key ts y h
        subst hy; simpa [cast] using this
      | cons a as =>
        simp only [cast] at h
        cases hc : cast ts as with
        | error e => simp [hc, Except.map] at h
        | ok z =>
          simp [hc, Except.map] at h
          subst h
          simp [cast, ih as z hc, Except.map]
    | int =>
      cases x with
      | nil => simp [cast] at h
      | cons a as =>
        simp only [cast] at h
        cases hc : cast ts as with
        | error e => simp [hc, Except.map] at h
        | ok z =>
          simp [hc, Except.map] at h
          subst h
          simp [cast, ih as z hc, Except.map, round_intCast]
    | enum n =>
      simp only [cast] at h
      have hne : x.take n ≠ [] := by intro e; simp [e, castBlock] at h
      obtain ⟨m, c, hm, hall, hc, hc'⟩ := castBlock_spec (x.take n) hne
      rw [hc] at h
      simp only at h
      cases hz : cast ts (x.drop n) with
      | error e => simp [hz, Except.map] at h
      | ok z =>
        simp [hz, Except.map] at h
        have hcne : c ≠ [] := by rw [hc']; simpa using hne
        obtain ⟨m', c2, hm', hall', hc2, hc2'⟩ := castBlock_spec c hcne
        have hm1 : m' = 1 := by
          have h1 : (1 : K) ∈ c := by rw [hc']; exact List.mem_map.2 ⟨m, hm, by simp⟩
          have h2 := hall' 1 h1
          rw [hc'] at hm'
          obtain ⟨v, _, hv⟩ := List.mem_map.1 hm'
          split at hv
          · exact hv.symm
          · rw [← hv] at h2; exact absurd h2 (by norm_num)
        have hcc : c2 = c := by
          rw [hc2', hm1, hc', List.map_map]
          apply List.map_congr_left
          intro v _
          by_cases hv : v = m <;> simp [hv]
        by_cases hlen : c.length = n
        · have ht : y.take n = c := by
            rw [← h, List.take_append_of_le_length (by omega), List.take_of_length_le (by omega)]
          have hd : y.drop n = z := by rw [← h, ← hlen]; simp
          simp only [cast, ht, hd, hc2, hcc, ih _ _ hz, Except.map, h]
        · have hl : c.length < n := by
            have : c.length ≤ n := by rw [hc']; simp
            omega
          have hxl : x.length < n := by rw [hc'] at hl; simp at hl; omega
          have hz0 : x.drop n = [] := by simp; omega
          rw [hz0] at hz
          have hznil : z = [] := by
            have key : ∀ ts (y : List K), cast ts [] = .ok y → y = [] := by
              intro ts
              induction ts with
              | nil => intro y h; simp [cast] at h; exact h
              | cons t ts ih =>
                intro y h
                cases t with
                | float => exact ih y (by simpa [cast] using h)
                | int => simp [cast] at h
                | enum n => simp [cast, castBlock] at h
                | badTuple n => simp [cast] at h
                | bad => simp [cast] at h
            exact key ts z hz
          subst hznil
          simp at h
          subst h
          have ht : c.take n = c := List.take_of_length_le (by omega)
          have hd : c.drop n = [] := by simp; omega
          simp only [cast, ht, hd, hc2, hcc, hz, Except.map, List.append_nil]
    | badTuple n => simp [cast] at h
    | bad => simp [cast] at h

/-- **C16** The cast of an enum block is a valid one-hot choice exactly when its maximum is attained once. -/
theorem C16_one_hot_iff_unique_max (b c : List K) (hc : castBlock b = .ok c) :
    (∃ j, OneHot b.length j c) ↔ ∃ j, j < b.length ∧ ∀ (i : Nat) (v w : K), b[i]? = some v → b[j]? = some w →
      v ≤ w ∧ (v = w → i = j) := by
  have hne : b ≠ [] := by intro e; simp [e, castBlock] at hc
  obtain ⟨m, c', hm, hall, h1, h2⟩ := castBlock_spec b hne
  rw [hc] at h1
  simp only [Except.ok.injEq] at h1
  rw [← h1] at h2
  obtain ⟨j0, hj0, hj0'⟩ := List.mem_iff_getElem.1 hm
  have hget : ∀ (i : Nat) (v : K), b[i]? = some v → c[i]? = some (if v = m then 1 else 0) := by
    intro i v hv; rw [h2]; simp [hv]
  constructor
  · rintro ⟨j, hlen, hj, hone⟩
    have hbj : b[j]? = some b[j] := by simp [hj]
    have hjm : b[j] = m := by
      have h3 := hget j _ hbj
      rw [hone j hj] at h3
      by_contra hcon
      simp [hcon] at h3
    refine ⟨j, hj, fun i v w hi hw => ?_⟩
    rw [hbj] at hw
    simp only [Option.some.injEq] at hw
    rw [hjm] at hw
    subst hw
    refine ⟨hall v (List.mem_of_getElem? hi), fun hvw => ?_⟩
    have hilt : i < b.length := by
      by_contra hcon; rw [List.getElem?_eq_none (by omega)] at hi; simp at hi
    have h3 := hget i v hi
    rw [hone i hilt] at h3
    by_contra hcon
    simp [hcon, hvw] at h3
  · rintro ⟨j, hj, huniq⟩
    have hbj : b[j]? = some b[j] := by simp [hj]
    have hjm : b[j] = m := by
      have h3 := huniq j0 m b[j] (by simp [hj0, hj0']) hbj
      exact le_antisymm (hall _ (List.getElem_mem hj)) h3.1
    refine ⟨j, by rw [h2]; simp, hj, fun i hi => ?_⟩
    have hbi : b[i]? = some b[i] := by simp [hi]
    rw [hget i _ hbi]
    by_cases hij : i = j
    · subst hij; simp [hjm]
    · have h3 := huniq i b[i] b[j] hbi hbj
      have : b[i] ≠ m := fun e => hij (h3.2 (by rw [e, hjm]))
      simp [hij, this]

/-- **C16** With a tie the cast yields several ones: not a valid choice of level. -/
theorem C16_tie_not_one_hot : cast [.enum 3] [(1/2 : ℚ), 1/2, 0] = .ok [1, 1, 0] := by decide +kernel

example : cast [.float, .int, .enum 2] [(3/10 : ℚ), 5/2, 1/10, 9/10] = .ok [3/10, 2, 0, 1] := by decide +kernel

/-! ## C17 -/

/-- **C17** `check_xspec_consistency` accepts exactly the specifications with one limits entry per type,
two bounds for each float/int, and as many levels as declared for each enum. -/
theorem C17_check_accepts_iff (ts : List XType) (ls : List (Lim K)) :
    checkXspec ts ls = .ok () ↔
      List.Forall₂ (fun t l => ((t = .float ∨ t = .int) ∧ l.len = 2) ∨ t = .enum l.len) ts ls := by
  unfold checkXspec
  constructor
  · intro h
    split at h
    · simp at h
    · rename_i hlen
      simp at hlen
      induction ts generalizing ls with
      | nil => cases ls with
        | nil => exact .nil
        | cons l ls => simp at hlen
      | cons t ts ih =>
        cases ls with
        | nil => simp at hlen
        | cons l ls =>
          simp only [checkLoop] at h
          cases hc : checkOne t l with
          | error e => simp [hc] at h
          | ok u =>
            rw [hc] at h
            refine .cons ?_ (ih ls h (by simpa using hlen))
            cases t <;> simp [checkOne] at hc ⊢
            · exact hc
            · exact hc
            · exact hc.symm
  · intro h
    have hlen := h.length_eq
    rw [if_neg (by simp [hlen])]
    clear hlen
    induction h with
    | nil => rfl
    | @cons t l ts ls ht _ ih =>
      have : checkOne t l = .ok () := by
        rcases ht with ⟨rfl | rfl, hl⟩ | rfl
        · simp [checkOne, hl]
        · simp [checkOne, hl]
        · simp [checkOne]
      simp only [checkLoop, this]
      exact ih

/-- **C17** The declared unfolded dimension is the sum of the variables' widths. -/
theorem C17_dimension (ts : List XType) (hw : ∀ t ∈ ts, t = .float ∨ t = .int ∨ ∃ n, t = .enum n) :
    unfoldedDim ts = .ok (ts.map width).sum := by
  induction ts with
  | nil => rfl
  | cons t ts ih =>
    have h := ih (fun s hs => hw s (by simp [hs]))
    rcases hw t (by simp) with rfl | rfl | ⟨n, rfl⟩ <;> simp [unfoldedDim, h, Except.map, width]

/-- Numeric bounds wherever the type is float or int (the shape produced by the documented usage). -/
def NumericBounds (ts : List XType) (ls : List (Lim K)) : Prop :=
  List.Forall₂ (fun t l => (t = .float ∨ t = .int) → ∃ lo hi, l = .bounds [lo, hi]) ts ls

/-- A folded point inside the limits. -/
def InLimits (ts : List XType) (ls : List (Lim K)) (x : List K) : Prop :=
  ts.length = x.length ∧ ∀ (i : Nat) (lo hi v : K), (ts[i]? = some .float ∨ ts[i]? = some .int) →
    ls[i]? = some (.bounds [lo, hi]) → x[i]? = some v → lo ≤ v ∧ v ≤ hi

/-- **C17** For every accepted specification the unfolded limits exist, have exactly as many rows as an
unfolded point has columns, and every valid folded point inside the limits unfolds to a point inside the
unfolded limits, column by column. -/
theorem C17_unfolded_limits (ts : List XType) (ls : List (Lim K)) (hc : checkXspec ts ls = .ok ())
    (hn : NumericBounds ts ls) : ∃ rows, unfoldLimits ts ls = .ok rows ∧ rows.length = (ts.map width).sum ∧
      ∀ x, ValidFolded ts x → InLimits ts ls x → ∃ u, unfold ts x = .ok u ∧
        List.Forall₂ (fun r v => ∃ lo hi, r = [lo, hi] ∧ lo ≤ v ∧ v ≤ hi) rows u := by
  rw [C17_check_accepts_iff] at hc
  unfold NumericBounds at hn
  induction hc with
  | nil => exact ⟨[], rfl, rfl, fun x hx _ => by cases hx; exact ⟨[], rfl, .nil⟩⟩
  | @cons t l ts ls ht hrest ih =>
    cases hn with
    | cons hn1 hn2 =>
      obtain ⟨rows, h1, h2, h3⟩ := ih hn2
      have htail : ∀ v xs, InLimits (t :: ts) (l :: ls) (v :: xs) → InLimits ts ls xs := by
        intro v xs h
        refine ⟨by have := h.1; simp at this; omega, fun i lo hi w a b c => ?_⟩
        exact h.2 (i + 1) lo hi w (by simpa using a) (by simpa using b) (by simpa using c)
      by_cases hfi : t = .float ∨ t = .int
      · obtain ⟨lo, hi, rfl⟩ := hn1 hfi
        refine ⟨[lo, hi] :: rows, ?_, ?_, ?_⟩
        · rcases hfi with rfl | rfl <;> simp [unfoldLimits, h1, Except.map]
        · rcases hfi with rfl | rfl <;> simp [width, h2] <;> omega
        · intro x hx hin
          cases hx with
          | @cons _ v _ xs hv hxs =>
            obtain ⟨u, h4, h5⟩ := h3 xs hxs (htail v xs hin)
            refine ⟨v :: u, ?_, .cons ⟨lo, hi, rfl, hin.2 0 lo hi v (by simpa using hfi) rfl rfl⟩ h5⟩
            rcases hfi with rfl | rfl <;> simp [unfold, h4, Except.map]
      · have htl : t = .enum l.len := by
          rcases ht with ⟨h, _⟩ | h
          · exact absurd h hfi
          · exact h
        refine ⟨List.replicate l.len [0, 1] ++ rows, ?_, ?_, ?_⟩
        · rw [htl]; simp [unfoldLimits, h1, Except.map]
        · rw [htl]; simp [width, h2]
        · intro x hx hin
          cases hx with
          | @cons _ v _ xs hv hxs =>
            obtain ⟨u, h4, h5⟩ := h3 xs hxs (htail v xs hin)
            rcases hv with h | h | ⟨n, j, h, hj, rfl⟩
            · exact absurd (Or.inl h) hfi
            · exact absurd (Or.inr h) hfi
            · rw [h] at htl
              simp only [XType.enum.injEq] at htl
              subst htl
              refine ⟨mask l.len j ++ u, by
                rw [h]; simp [unfold, truncInt_natCast, pyIndex_natCast _ _ hj, h4, Except.map], ?_⟩
              refine List.rel_append ?_ h5
              rw [List.forall₂_iff_get]
              refine ⟨by simp [mask], fun i hi1 hi2 => ⟨0, 1, by simp, ?_⟩⟩
              have hoh := (mask_oneHot (K := K) l.len j hj).2.2 i (by simpa using hi1)
              have hg : (mask l.len j : List K).get ⟨i, hi2⟩ = if i = j then 1 else 0 := by
                have : (mask l.len j : List K)[i]? = some ((mask l.len j : List K).get ⟨i, hi2⟩) := by
                  simp [List.getElem?_eq_getElem hi2]
                rw [this] at hoh; simpa using hoh
              rw [hg]
              split <;> norm_num

example : checkXspec [.float, .enum 2, .int] [.bounds [(0 : ℚ), 1], .levels ["a", "b"], .bounds [2, 9]] = .ok ()
    ∧ unfoldLimits [.float, .enum 2, .int] [.bounds [(0 : ℚ), 1], .levels ["a", "b"], .bounds [2, 9]]
      = .ok [[0, 1], [0, 1], [0, 1], [2, 9]] := by constructor <;> decide +kernel

/-! ## C18 -/

/-- A folded point whose coordinates denote an actual choice: valid level numbers and integers. -/
def Discrete (ts : List XType) (x : List K) : Prop :=
  List.Forall₂ (fun t v => t = .float ∨ (t = .int ∧ ∃ k : Int, v = (k : K)) ∨
    ∃ n j : Nat, t = .enum n ∧ j < n ∧ v = (j : K)) ts x

/-- **C18** Mixed-integer sampling: whatever the wrapped method returns (rows of the unfolded dimension),
the folded design exists, has as many rows, and every row has one coordinate per variable, integer `INT`
coordinates and valid enum level numbers. Holds even when casting met a tie. -/
theorem C18_sampling_discrete (ts : List XType) (hw : WellTyped ts) (doe : List (List K))
    (hd : ∀ r ∈ doe, r.length = (ts.map width).sum) :
    ∃ out, sampling ts true doe = .ok out ∧ out.length = doe.length ∧ ∀ r ∈ out, Discrete ts r := by
  have key : ∀ (ts : List XType) (_ : WellTyped ts) (x : List K), x.length = (ts.map width).sum →
      ∃ u y, cast ts x = .ok u ∧ fold ts u = .ok y ∧ Discrete ts y := by
    intro ts
    induction ts with
    | nil => intro _ x _; exact ⟨x, [], rfl, rfl, .nil⟩
    | cons t ts ih =>
      intro hw x h
      have hw' : WellTyped ts := fun s hs => hw s (by simp [hs])
      rcases hw t (by simp) with rfl | rfl | ⟨n, hn, rfl⟩
      · cases x with
        | nil => simp [width] at h; omega
        | cons a as =>
          obtain ⟨u, y, h1, h2, h3⟩ := ih hw' as (by simp [width] at h; omega)
          exact ⟨a :: u, a :: y, by simp [cast, h1, Except.map], by simp [fold, h2, Except.map],
            .cons (Or.inl rfl) h3⟩
      · cases x with
        | nil => simp [width] at h; omega
        | cons a as =>
          obtain ⟨u, y, h1, h2, h3⟩ := ih hw' as (by simp [width] at h; omega)
          exact ⟨(roundHalfEven a : K) :: u, (roundHalfEven a : K) :: y, by simp [cast, h1, Except.map], by simp [fold, h2, Except.map],
            .cons (Or.inr (Or.inl ⟨rfl, roundHalfEven a, rfl⟩)) h3⟩
      · simp [width] at h
        obtain ⟨u, y, h1, h2, h3⟩ := ih hw' (x.drop n) (by simp; omega)
        have hne : x.take n ≠ [] := by
          intro e; have := congrArg List.length e; simp at this; rcases this with h' | h'
          · omega
          · rw [h'] at h; simp at h; omega
        obtain ⟨m, c, _, _, hc, hc'⟩ := castBlock_spec (x.take n) hne
        have hcl : c.length = n := by rw [hc']; simp; omega
        have hcne : c ≠ [] := by intro e; rw [e] at hcl; simp at hcl; omega
        have ht : (c ++ u).take n = c := by
          rw [List.take_append_of_le_length (by omega), List.take_of_length_le (by omega)]
        have hd : (c ++ u).drop n = u := by rw [← hcl]; simp
        refine ⟨c ++ u, ((Sampling.argmax c : Nat) : K) :: y, by simp [cast, hc, h1, Except.map],
          by simp only [fold, ht, hd, hcne, if_false, h2, Except.map], .cons ?_ h3⟩
        exact Or.inr (Or.inr ⟨n, _, rfl, by rw [← hcl]; exact argmax_lt c hcne, rfl⟩)
  unfold sampling
  induction doe with
  | nil => exact ⟨[], rfl, rfl, by simp⟩
  | cons r rs ih =>
    obtain ⟨out, h1, h2, h3⟩ := ih (fun q hq => hd q (by simp [hq]))
    obtain ⟨u, y, h4, h5, h6⟩ := key ts hw r (hd r (by simp))
    refine ⟨y :: out, ?_, by simp [h2], ?_⟩
    · rw [List.mapM_cons, h1]
      simp [sampleRow, h4, h5, bind, Except.bind, pure, Except.pure]
    · intro q hq
      rcases List.mem_cons.1 hq with rfl | hq
      · exact h6
      · exact h3 q hq

/-- Two folded rows denoting the same choice: equal floats, ints strictly within 1/2 of a common integer,
enum coordinates truncating to the same valid level. -/
def SameChoice (ts : List XType) (x x' : List K) : Prop :=
  ts.length = x.length ∧ ts.length = x'.length ∧ ∀ (i : Nat) (t : XType) (v w : K), ts[i]? = some t → x[i]? = some v → x'[i]? = some w →
    (t = .float ∧ v = w) ∨ (t = .int ∧ ∃ k : Int, |v - (k : K)| < 1 / 2 ∧ |w - (k : K)| < 1 / 2) ∨
    (∃ n j : Nat, t = .enum n ∧ j < n ∧ (j : K) ≤ v ∧ v < (j : K) + 1 ∧ (j : K) ≤ w ∧ w < (j : K) + 1)

theorem round_unique (v : K) (k : Int) (h : |v - (k : K)| < 1 / 2) : roundHalfEven v = k := by
  have h1 := abs_le.1 (round_near v)
  have h2 := abs_lt.1 h
  have a : ((roundHalfEven v - 1 : Int) : K) < (k : K) := by push_cast; linarith [h1.2, h2.1, h1.1, h2.2]
  have b : ((k - 1 : Int) : K) < (roundHalfEven v : K) := by push_cast; linarith [h1.2, h2.1, h1.1, h2.2]
  have a' := Int.cast_lt.1 a
  have b' := Int.cast_lt.1 b
  omega

theorem trunc_level (v : K) (j : Nat) (h1 : (j : K) ≤ v) (h2 : v < (j : K) + 1) : truncInt v = j := by
  unfold truncInt
  rw [if_pos ((Nat.cast_nonneg j).trans h1), Int.floor_eq_iff]
  exact ⟨by exact_mod_cast h1, by exact_mod_cast h2⟩

theorem sameChoice_row (ts : List XType) : ∀ (x x' : List K), SameChoice ts x x' →
    predictionRow ts true x = predictionRow ts true x' := by
  have key : ∀ (ts : List XType) (x x' : List K), SameChoice ts x x' → ∃ u u', unfold ts x = .ok u ∧
      unfold ts x' = .ok u' ∧ cast ts u = cast ts u' := by
    intro ts
    induction ts with
    | nil => intro x x' h; exact ⟨[], [], rfl, rfl, rfl⟩
    | cons t ts ih =>
      intro x x' h
      cases x with
      | nil => have := h.1; simp at this
      | cons a as =>
        cases x' with
        | nil => have := h.2.1; simp at this
        | cons a' as' =>
          obtain ⟨u, u', h1, h2, h3⟩ := ih as as' ⟨by have := h.1; simp at this; omega,
            by have := h.2.1; simp at this; omega, fun i s v w p q r => by
              exact h.2.2 (i + 1) s v w (by simpa using p) (by simpa using q) (by simpa using r)⟩
          rcases h.2.2 0 t a a' rfl rfl rfl with ⟨rfl, rfl⟩ | ⟨rfl, k, hk1, hk2⟩ | ⟨n, j, rfl, hj, p, q, r, s⟩
          · exact ⟨a :: u, a :: u', by simp [unfold, h1, Except.map], by simp [unfold, h2, Except.map], by
              simp [cast, h3]⟩
          · exact ⟨a :: u, a' :: u', by simp [unfold, h1, Except.map], by simp [unfold, h2, Except.map], by
              simp [cast, h3, round_unique a k hk1, round_unique a' k hk2]⟩
          · have hl : (mask n j : List K).length = n := by simp [mask]
            refine ⟨mask n j ++ u, mask n j ++ u', by
              simp [unfold, h1, Except.map, trunc_level a j p q, pyIndex_natCast n j hj], by
              simp [unfold, h2, Except.map, trunc_level a' j r s, pyIndex_natCast n j hj], ?_⟩
            have ht : ∀ z : List K, (mask n j ++ z).take n = (mask n j : List K) := by
              intro z; rw [List.take_append_of_le_length (by omega), List.take_of_length_le (by omega)]
            have hd : ∀ z : List K, (mask n j ++ z).drop n = z := fun z => List.drop_left' hl
            simp only [cast, ht, hd, h3]
  intro x x' h
  obtain ⟨u, u', h1, h2, h3⟩ := key ts x x' h
  simp [predictionRow, trainingRow, h1, h2, h3]

/-- **C18** A mixed-integer surrogate predicts the same at any two point sets that denote the same choices,
whatever the inner model. -/
theorem C18_same_choice_same_prediction {β : Type} (ts : List XType) (inner : List (List K) → β)
    (rows rows' : List (List K)) (h : List.Forall₂ (SameChoice ts) rows rows') :
    predictValues ts true inner rows = predictValues ts true inner rows' := by
  unfold predictValues
  congr 1
  induction h with
  | nil => rfl
  | cons h1 _ ih => rw [List.mapM_cons, List.mapM_cons, sameChoice_row ts _ _ h1, ih]

/-- **C18** In unfolded mode the prediction only depends on the cast of the point. -/
theorem C18_unfolded_prediction_of_cast {β : Type} (ts : List XType) (inner : List (List K) → β)
    (rows rows' : List (List K)) (h : List.Forall₂ (fun r r' => cast ts r = cast ts r') rows rows') :
    predictValues ts false inner rows = predictValues ts false inner rows' := by
  unfold predictValues
  congr 1
  induction h with
  | nil => rfl
  | cons h1 _ ih => rw [List.mapM_cons, List.mapM_cons, ih]; simp [predictionRow, trainingRow, h1]

/-- **C18** Training and prediction agree on discrete points: the inner model is evaluated at exactly the row
it was trained on, so an interpolating inner model gives an interpolating mixed model. -/
theorem C18_discrete_training_row_is_prediction_row (ts : List XType) : ∀ (x : List K), Discrete ts x →
    ∃ u, trainingRow ts true x = .ok u ∧ predictionRow ts true x = .ok u := by
  have key : ∀ (x : List K), Discrete ts x → ∃ u, unfold ts x = .ok u ∧ cast ts u = .ok u := by
    intro x h
    induction h with
    | nil => exact ⟨[], rfl, rfl⟩
    | @cons t v ts xs ht _ ih =>
      obtain ⟨u, h1, h2⟩ := ih
      rcases ht with rfl | ⟨rfl, k, rfl⟩ | ⟨n, j, rfl, hj, rfl⟩
      · exact ⟨v :: u, by simp [unfold, h1, Except.map], by simp [cast, h2, Except.map]⟩
      · exact ⟨(k : K) :: u, by simp [unfold, h1, Except.map], by simp [cast, h2, Except.map, round_intCast]⟩
      · have hl : (mask n j : List K).length = n := by simp [mask]
        have ht : (mask n j ++ u).take n = (mask n j : List K) := by
          rw [List.take_append_of_le_length (by omega), List.take_of_length_le (by omega)]
        have hd : (mask n j ++ u).drop n = u := List.drop_left' hl
        have hoh := mask_oneHot (K := K) n j hj
        have hne : (mask n j : List K) ≠ [] := by intro e; rw [e] at hl; simp at hl; omega
        obtain ⟨m, c, hm, hall, hc, hc'⟩ := castBlock_spec (mask n j : List K) hne
        have hm1 : m = 1 := by
          have h1' : (1 : K) ∈ (mask n j : List K) := by
            have := hoh.2.2 j hj; simp at this; exact List.mem_of_getElem? this
          have h2' := hall 1 h1'
          obtain ⟨i, hi, hi'⟩ := List.mem_iff_getElem.1 hm
          have := hoh.2.2 i (by omega)
          rw [List.getElem?_eq_getElem hi, hi'] at this
          simp only [Option.some.injEq] at this
          split at this
          · exact this
          · rw [this] at h2'; exact absurd h2' (by norm_num)
        have hcc : c = mask n j := by
          apply oneHot_unique n j _ _ _ hoh
          refine ⟨by rw [hc']; simpa using hl, hj, fun i hi => ?_⟩
          rw [hc', List.getElem?_map, hoh.2.2 i hi, hm1]
          by_cases hij : i = j <;> simp [hij]
        exact ⟨mask n j ++ u, by simp [unfold, h1, Except.map, truncInt_natCast, pyIndex_natCast n j hj],
          by simp [cast, ht, hd, hc, hcc, h2, Except.map]⟩
  intro x h
  obtain ⟨u, h1, h2⟩ := key x h
  exact ⟨u, by simp [trainingRow, h1], by simp [predictionRow, trainingRow, h1, h2]⟩

/-- **C18** Defect: training points are *not* cast. A non-integer `INT` coordinate is handed to the inner
model unrounded, while predicting at that very point evaluates the inner model at the rounded one. -/
theorem C18_training_not_cast : trainingRow [.int] true [(7/5 : ℚ)] = .ok [7/5] ∧
    predictionRow [.int] true [(7/5 : ℚ)] = .ok [1] := by constructor <;> decide +kernel

example : Discrete [.float, .int, .enum 3] [(1/2 : ℚ), 4, 2] :=
  .cons (Or.inl rfl) (.cons (Or.inr (Or.inl ⟨rfl, 4, by norm_num⟩)) (.cons (Or.inr (Or.inr ⟨3, 2, rfl, by norm_num, by norm_num⟩)) .nil))

example : sampling [.int, .enum 2] true [[(27/10 : ℚ), 1/2, 1/2], [1, 0, 1/3]] = .ok [[3, 0], [1, 1]] := by
  decide +kernel

/-! ## Level labels -/

/-- **C18** `cast_to_mixed_integer` on a discrete point names the right level for every enum coordinate. -/
theorem C18_level_labels (ts : List XType) (ls : List (Lim K)) (x : List K) (hx : Discrete ts x)
    (hl : List.Forall₂ (fun t l => ∀ n, t = .enum n → ∃ b, l = .levels b ∧ b.length = n) ts ls) :
    ∃ out, castToMixedInteger ts ls x = .ok out ∧ out.length = x.length ∧
      ∀ (i n : Nat) (b : List String) (j : Nat), ts[i]? = some (.enum n) → ls[i]? = some (.levels b) → x[i]? = some ((j : Nat) : K) → j < n →
        ∃ s, b[j]? = some s ∧ out[i]? = some (.level s) := by
  induction hx generalizing ls with
  | nil => exact ⟨[], rfl, rfl, by simp⟩
  | @cons t v ts xs ht _ ih =>
    cases hl with
    | @cons _ l _ ls h1 h2 =>
      obtain ⟨out, h3, h4, h5⟩ := ih ls h2
      have lift : ∀ w : Val K, (∀ n b j, t = .enum n → l = .levels b → v = ((j : Nat) : K) → j < n →
          ∃ s, b[j]? = some s ∧ w = .level s) →
          castToMixedInteger (t :: ts) (l :: ls) (v :: xs) = .ok (w :: out) →
          ∃ out', castToMixedInteger (t :: ts) (l :: ls) (v :: xs) = .ok out' ∧ out'.length = (v :: xs).length ∧
          ∀ (i n : Nat) (b : List String) (j : Nat), (t :: ts)[i]? = some (.enum n) → (l :: ls)[i]? = some (.levels b) →
            (v :: xs)[i]? = some ((j : Nat) : K) → j < n → ∃ s, b[j]? = some s ∧ out'[i]? = some (.level s) := by
        intro w hw hc
        refine ⟨w :: out, hc, by simp [h4], ?_⟩
        intro i n b j a c e f
        cases i with
        | zero =>
          simp at a c e
          obtain ⟨s, hs, hws⟩ := hw n b j a c e f
          exact ⟨s, hs, by simp [hws]⟩
        | succ i => exact h5 i n b j (by simpa using a) (by simpa using c) (by simpa using e) f
      rcases ht with rfl | ⟨rfl, k, rfl⟩ | ⟨n, j, rfl, hj, rfl⟩
      · exact lift (.num v) (by simp) (by simp [castToMixedInteger, h3, Except.map])
      · exact lift (.int (truncInt (k : K))) (by simp) (by simp [castToMixedInteger, h3, Except.map])
      · obtain ⟨b, rfl, hb⟩ := h1 n rfl
        obtain ⟨s, hs⟩ : ∃ s, b[j]? = some s := ⟨b[j]'(by omega), by simp [hb, hj]⟩
        refine lift (.level s) ?_ ?_
        · intro n' b' j' hn hb' hj' _
          simp at hb' hj'
          subst hb'; subst hj'
          exact ⟨s, hs, rfl⟩
        · simp [castToMixedInteger, Lim.len, truncInt_natCast, hb, pyIndex_natCast n j hj, h3, Except.map, hs]

end SMT.MixedInt
