import Verif.MixedInt.Props
import Verif.Sampling.Props
import Mathlib.Data.Fintype.Perm
import Mathlib.Order.Interval.Finset.Fin
import Mathlib.Data.Int.Interval
import Mathlib.Data.Fintype.Fin

/-!
# C111: how mixed-integer sampling covers the levels of integer and enumerated variables
-/
set_option linter.unusedSectionVars false
set_option linter.unusedSimpArgs false
set_option linter.unusedVariables false

namespace SMT.MixedInt

variable {K : Type} [Field K] [LinearOrder K] [IsStrictOrderedRing K] [FloorRing K]

/-! ## Model -/

/-- A `MixedIntegerSamplingMethod` object called with folded output: the wrapped method draws `unit` in the unit cube, `SamplingMethod.__call__` scales it to the unfolded limits (`sampling_method.py` 113-151,
model `scaleToXlimits`), `_compute` casts and folds the rows (`mixed_integer.py` 237-243, model `sampling`). The limits are `(lower, upper)` pairs. -/
def mixedDesign (ts : List XType) (lims : List (K × K)) (unit : List (List K)) : Except Err (List (List K)) :=
  sampling ts true (Sampling.scaleToXlimits unit lims)

/-! ## Specification -/

/-- Column `c` of a unit design of `n` points has the Latin hypercube property: each of the `n` slices `[k/n, (k+1)/n]` holds the value of exactly one point. -/
def LatinColumn (unit : List (List K)) (c : ℕ) : Prop :=
  ∃ π : Equiv.Perm (Fin unit.length), ∀ i, ∃ v, unit[i][c]? = some v ∧ ((π i : ℕ) : K) / unit.length ≤ v ∧ v ≤ (((π i : ℕ) : K) + 1) / unit.length

/-- The same with the values in the middle of the slices (`criterion="center"`). -/
def CentredColumn (unit : List (List K)) (c : ℕ) : Prop :=
  ∃ π : Equiv.Perm (Fin unit.length), ∀ i, unit[i][c]? = some ((((π i : ℕ) : K) + 1 / 2) / unit.length)

/-- Number of rows of a design whose coordinate `i` is `v`. -/
def countLevel (out : List (List K)) (i : ℕ) (v : K) : ℕ := out.countP fun r => decide (r[i]? = some v)

/-! ## Counting -/

theorem card_le_of_between {n : ℕ} (S : Finset (Fin n)) (a b : K) (hab : a ≤ b + 1) (h : ∀ j ∈ S, a ≤ ((j : ℕ) : K) ∧ ((j : ℕ) : K) ≤ b) : (S.card : K) ≤ b - a + 1 := by
  have h1 : S.card ≤ (Finset.Icc ⌈a⌉ ⌊b⌋).card := by
    refine Finset.card_le_card_of_injOn (fun j => ((j : ℕ) : ℤ)) ?_ ?_
    · intro j hj
      rw [Finset.mem_coe] at hj
      rw [Finset.mem_coe, Finset.mem_Icc, Int.ceil_le, Int.le_floor]
      have := h j hj
      refine ⟨?_, ?_⟩
      · simpa using this.1
      · simpa using this.2
    · intro i _ j _ hij
      have : (i : ℕ) = (j : ℕ) := by
        dsimp only at hij
        omega
      exact Fin.ext this
  rw [Int.card_Icc] at h1
  have h2 : ((S.card : ℤ)) ≤ max (⌊b⌋ + 1 - ⌈a⌉) 0 := by
    rw [← Int.toNat_eq_max]
    exact_mod_cast h1
  have h3 : (S.card : K) ≤ ((max (⌊b⌋ + 1 - ⌈a⌉) 0 : ℤ) : K) := by exact_mod_cast h2
  refine h3.trans ?_
  rcases le_total (⌊b⌋ + 1 - ⌈a⌉) 0 with hc | hc
  · rw [max_eq_right hc, Int.cast_zero]
    linarith
  · rw [max_eq_left hc]
    push_cast
    have := Int.floor_le b
    have := Int.le_ceil a
    linarith

theorem le_card_of_between {n : ℕ} (S : Finset (Fin n)) (a b : K) (ha : -1 ≤ a) (h : ∀ j : ℕ, a < (j : K) → (j : K) < b → ∃ hj : j < n, ⟨j, hj⟩ ∈ S) : b - a - 1 ≤ (S.card : K) := by
  have h1 : (Finset.Ioo ⌊a⌋ ⌈b⌉).card ≤ S.card := by
    refine Finset.card_le_card_of_surjOn (fun j : Fin n => ((j : ℕ) : ℤ)) ?_
    intro z hz
    rw [Finset.mem_coe, Finset.mem_Ioo, Int.floor_lt, Int.lt_ceil] at hz
    have hz0 : 0 ≤ z := by
      have : (-1 : K) < (z : K) := lt_of_le_of_lt ha hz.1
      have : (-1 : ℤ) < z := by exact_mod_cast this
      omega
    obtain ⟨j, rfl⟩ := Int.eq_ofNat_of_zero_le hz0
    obtain ⟨hj, hm⟩ := h j (by simpa using hz.1) (by simpa using hz.2)
    exact ⟨⟨j, hj⟩, hm, rfl⟩
  rw [Int.card_Ioo] at h1
  have h2 : ⌈b⌉ - ⌊a⌋ - 1 ≤ (S.card : ℤ) := by
    have := Int.self_le_toNat (⌈b⌉ - ⌊a⌋ - 1)
    omega
  have h3 : ((⌈b⌉ - ⌊a⌋ - 1 : ℤ) : K) ≤ (S.card : K) := by exact_mod_cast h2
  push_cast at h3
  have := Int.floor_le a
  have := Int.le_ceil b
  linarith

theorem countP_card {α : Type} (l : List α) (p : α → Bool) : l.countP p = (Finset.univ.filter fun i : Fin l.length => p l[i] = true).card := by
  induction l with
  | nil => simp
  | cons a l ih =>
    rw [List.countP_cons, ih]
    have := Fin.card_filter_univ_succ (fun i : Fin (l.length + 1) => p ((a :: l)[i]) = true)
    simp only [List.length_cons] at this ⊢
    rw [this]
    by_cases h : p a = true
    · simp [h]
    · simp [h]

/-! ## Rows -/

theorem cast_fold_int (ts2 : List XType) : ∀ (ts1 : List XType) (row u y : List K) (v : K), cast (ts1 ++ .int :: ts2) row = .ok u → fold (ts1 ++ .int :: ts2) u = .ok y →
    row[(ts1.map width).sum]? = some v → y[ts1.length]? = some ((roundHalfEven v : ℤ) : K) := by
  intro ts1
  induction ts1 with
  | nil =>
    intro row u y v hc hf hv
    cases row with
    | nil => simp at hv
    | cons a as =>
      simp at hv
      subst hv
      simp only [List.nil_append, cast] at hc
      cases h2 : cast ts2 as with
      | error e => simp [h2, Except.map] at hc
      | ok w =>
        simp only [h2, Except.map, Except.ok.injEq] at hc
        subst hc
        simp only [List.nil_append, fold] at hf
        cases h3 : fold ts2 w with
        | error e => simp [h3, Except.map] at hf
        | ok z =>
          simp only [h3, Except.map, Except.ok.injEq] at hf
          subst hf
          simp
  | cons t ts1 ih =>
    intro row u y v hc hf hv
    simp only [List.cons_append] at hc hf
    cases t with
    | float =>
      cases row with
      | nil => simp at hv
      | cons a as =>
        simp only [cast] at hc
        cases h2 : cast (ts1 ++ .int :: ts2) as with
        | error e => simp [h2, Except.map] at hc
        | ok w =>
          simp only [h2, Except.map, Except.ok.injEq] at hc
          subst hc
          simp only [fold] at hf
          cases h3 : fold (ts1 ++ .int :: ts2) w with
          | error e => simp [h3, Except.map] at hf
          | ok z =>
            simp only [h3, Except.map, Except.ok.injEq] at hf
            subst hf
            have := ih as w z v h2 h3 (by simpa [width, Nat.add_comm 1] using hv)
            simpa using this
    | int =>
      cases row with
      | nil => simp at hv
      | cons a as =>
        simp only [cast] at hc
        cases h2 : cast (ts1 ++ .int :: ts2) as with
        | error e => simp [h2, Except.map] at hc
        | ok w =>
          simp only [h2, Except.map, Except.ok.injEq] at hc
          subst hc
          simp only [fold] at hf
          cases h3 : fold (ts1 ++ .int :: ts2) w with
          | error e => simp [h3, Except.map] at hf
          | ok z =>
            simp only [h3, Except.map, Except.ok.injEq] at hf
            subst hf
            have := ih as w z v h2 h3 (by simpa [width, Nat.add_comm 1] using hv)
            simpa using this
    | enum n =>
      simp only [cast] at hc
      have hlen : n ≤ row.length := by
        have := (List.getElem?_eq_some_iff.1 hv).1
        simp [width] at this
        omega
      cases hb : castBlock (row.take n) with
      | error e => simp [hb] at hc
      | ok b =>
        simp only [hb] at hc
        have hbl : b.length = n := by
          have hne : row.take n ≠ [] := by
            intro h0
            rw [h0] at hb
            simp [castBlock] at hb
          obtain ⟨m, c, _, _, h1, h2⟩ := castBlock_spec (row.take n) hne
          rw [hb] at h1
          cases h1
          rw [h2]
          simp [hlen]
        cases h2 : cast (ts1 ++ .int :: ts2) (row.drop n) with
        | error e => simp [h2, Except.map] at hc
        | ok w =>
          simp only [h2, Except.map, Except.ok.injEq] at hc
          subst hc
          simp only [fold] at hf
          have hd : (b ++ w).drop n = w := by rw [← hbl]; simp
          rw [hd] at hf
          split at hf
          · cases hf
          · cases h3 : fold (ts1 ++ .int :: ts2) w with
            | error e => simp [h3, Except.map] at hf
            | ok z =>
              simp only [h3, Except.map, Except.ok.injEq] at hf
              subst hf
              have := ih (row.drop n) w z v h2 h3 (by simpa [width, List.getElem?_drop] using hv)
              simpa using this
    | _ => simp [cast] at hc

theorem sampleRow_int (ts1 ts2 : List XType) (row y : List K) (v : K) (h : sampleRow (ts1 ++ .int :: ts2) true row = .ok y) (hv : row[(ts1.map width).sum]? = some v) :
    y[ts1.length]? = some ((roundHalfEven v : ℤ) : K) := by
  unfold sampleRow at h
  cases hc : cast (ts1 ++ .int :: ts2) row with
  | error e => simp [hc] at h
  | ok u =>
    simp only [hc, if_true] at h
    exact cast_fold_int ts2 ts1 row u y v hc h hv

theorem mapM_get {α β ε : Type} (f : α → Except ε β) : ∀ (l : List α) (out : List β), l.mapM f = .ok out → out.length = l.length ∧ ∀ (i : ℕ) (a : α), l[i]? = some a → ∃ b, out[i]? = some b ∧ f a = .ok b := by
  intro l
  induction l with
  | nil => intro out h; cases h; simp
  | cons x xs ih =>
    intro out h
    rw [List.mapM_cons] at h
    cases hx : f x with
    | error e => simp [hx, bind, Except.bind] at h
    | ok b =>
      cases hxs : xs.mapM f with
      | error e => simp [hx, hxs, bind, Except.bind] at h
      | ok bs =>
        simp only [hx, hxs, bind, Except.bind, pure, Except.pure, Except.ok.injEq] at h
        subst h
        obtain ⟨h1, h2⟩ := ih bs hxs
        refine ⟨by simp [h1], ?_⟩
        intro i a hi
        cases i with
        | zero => simp at hi; subst hi; exact ⟨b, rfl, hx⟩
        | succ i => simpa using h2 i a (by simpa using hi)

/-- What the design holds in the column of an integer variable. -/
theorem design_int (ts1 ts2 : List XType) (lims : List (K × K)) (unit out : List (List K)) (h : mixedDesign (ts1 ++ .int :: ts2) lims unit = .ok out) (lo hi : K)
    (hl : lims[(ts1.map width).sum]? = some (lo, hi)) : out.length = unit.length ∧
    ∀ (i : ℕ) (r : List K) (v : K), unit[i]? = some r → r[(ts1.map width).sum]? = some v →
      ∃ y, out[i]? = some y ∧ y[ts1.length]? = some ((roundHalfEven ((1 - v) * lo + v * hi) : ℤ) : K) := by
  obtain ⟨h1, h2⟩ := mapM_get _ _ _ h
  rw [Sampling.C10_scale_length] at h1
  refine ⟨h1, ?_⟩
  intro i r v hr hv
  obtain ⟨hj, hlj⟩ := List.getElem?_eq_some_iff.1 hl
  have h3 := Sampling.C10_scale_entry unit lims i _ hj
  rw [hr, Option.bind_some, hv, hlj] at h3
  cases h4 : (Sampling.scaleToXlimits unit lims)[i]? with
  | none => simp [h4] at h3
  | some row =>
    obtain ⟨y, hy, hs⟩ := h2 i row h4
    rw [h4] at h3
    exact ⟨y, hy, sampleRow_int ts1 ts2 row y _ hs (by simpa using h3)⟩

/-- The count of a level, slice by slice. -/
theorem count_int (ts1 ts2 : List XType) (lims : List (K × K)) (unit out : List (List K)) (h : mixedDesign (ts1 ++ .int :: ts2) lims unit = .ok out) (lo hi z : ℤ)
    (hl : lims[(ts1.map width).sum]? = some ((lo : K), (hi : K))) (π : Equiv.Perm (Fin unit.length)) (w : Fin unit.length → K)
    (hw : ∀ i : Fin unit.length, unit[i][(ts1.map width).sum]? = some (w (π i))) :
    countLevel out ts1.length (z : K) = (Finset.univ.filter fun j => roundHalfEven ((1 - w j) * (lo : K) + w j * (hi : K)) = z).card := by
  obtain ⟨h1, h2⟩ := design_int ts1 ts2 lims unit out h lo hi hl
  rw [countLevel, countP_card]
  refine Finset.card_bij (fun i _ => π (Fin.cast h1 i)) ?_ ?_ ?_
  · intro i hi'
    have hu : unit[(i : ℕ)]? = some unit[Fin.cast h1 i] := by
      rw [List.getElem?_eq_some_iff]
      exact ⟨by have := i.2; omega, rfl⟩
    obtain ⟨y, hy, hyv⟩ := h2 i _ _ hu (hw (Fin.cast h1 i))
    have he : out[i] = y := by
      obtain ⟨_, h4⟩ := List.getElem?_eq_some_iff.1 hy
      exact h4
    simp only [Finset.mem_filter, Finset.mem_univ, true_and, decide_eq_true_eq] at hi' ⊢
    rw [he, hyv] at hi'
    have h5 := Option.some.inj hi'
    exact_mod_cast h5
  · intro a _ b _ hab
    have := π.injective hab
    exact Fin.cast_injective _ this
  · intro j hj
    refine ⟨Fin.cast h1.symm (π.symm j), ?_, by simp⟩
    have hu : unit[((π.symm j : Fin unit.length) : ℕ)]? = some unit[π.symm j] := by
      rw [List.getElem?_eq_some_iff]
      exact ⟨(π.symm j).2, rfl⟩
    obtain ⟨y, hy, hyv⟩ := h2 _ _ _ hu (hw (π.symm j))
    obtain ⟨h3, h4⟩ := List.getElem?_eq_some_iff.1 hy
    simp only [Finset.mem_filter, Finset.mem_univ, true_and, decide_eq_true_eq, Equiv.apply_symm_apply] at hj hyv ⊢
    have he : out[Fin.cast h1.symm (π.symm j)] = y := h4
    rw [he, hyv, hj]

theorem latin_w (unit : List (List K)) (c : ℕ) (h : LatinColumn unit c) : ∃ (π : Equiv.Perm (Fin unit.length)) (w : Fin unit.length → K),
    (∀ i : Fin unit.length, unit[i][c]? = some (w (π i))) ∧ ∀ j : Fin unit.length, ((j : ℕ) : K) / unit.length ≤ w j ∧ w j ≤ (((j : ℕ) : K) + 1) / unit.length := by
  obtain ⟨π, hπ⟩ := h
  choose v hv using hπ
  refine ⟨π, fun j => v (π.symm j), fun i => ?_, fun j => ?_⟩
  · simpa using (hv i).1
  · simpa using (hv (π.symm j)).2

/-- The counts for `n` values, one in each slice. -/
theorem slice_counts {n : ℕ} (w : Fin n → K) (hb : ∀ j : Fin n, ((j : ℕ) : K) / n ≤ w j ∧ w j ≤ (((j : ℕ) : K) + 1) / n) (lo hi z : ℤ) (hlt : lo < hi) :
    (lo < z → z < hi → |((Finset.univ.filter fun j : Fin n => roundHalfEven ((1 - w j) * (lo : K) + w j * (hi : K)) = z).card : K) - n / ((hi : K) - lo)| ≤ 2) ∧
    (z = lo ∨ z = hi → |((Finset.univ.filter fun j : Fin n => roundHalfEven ((1 - w j) * (lo : K) + w j * (hi : K)) = z).card : K) - n / (2 * ((hi : K) - lo))| ≤ 1) ∧
    (z < lo ∨ hi < z → (Finset.univ.filter fun j : Fin n => roundHalfEven ((1 - w j) * (lo : K) + w j * (hi : K)) = z).card = 0) := by
  set S := Finset.univ.filter fun j : Fin n => roundHalfEven ((1 - w j) * (lo : K) + w j * (hi : K)) = z with hS
  have hm : (0 : K) < (hi : K) - lo := by
    have : (lo : K) < hi := by exact_mod_cast hlt
    linarith
  set m : K := (hi : K) - lo with hmd
  set k : K := (z : K) - lo with hk
  have hrew : ∀ j, (1 - w j) * (lo : K) + w j * (hi : K) = lo + m * w j := by
    intro j
    rw [hmd]
    ring
  -- slices of the points at the level
  have hmem : ∀ j ∈ S, k - 1 / 2 ≤ m * w j ∧ m * w j ≤ k + 1 / 2 := by
    intro j hj
    have h1 : roundHalfEven ((1 - w j) * (lo : K) + w j * (hi : K)) = z := (Finset.mem_filter.1 hj).2
    have h2 := abs_le.1 (round_near ((1 - w j) * (lo : K) + w j * (hi : K)))
    rw [h1, hrew] at h2
    rw [hk]
    constructor <;> linarith [h2.1, h2.2]
  have hin : ∀ j, k - 1 / 2 < m * w j → m * w j < k + 1 / 2 → j ∈ S := by
    intro j h1 h2
    refine Finset.mem_filter.2 ⟨Finset.mem_univ _, round_unique _ _ ?_⟩
    rw [hrew, abs_lt]
    rw [hk] at h1 h2
    constructor <;> linarith
  have hn0 : ∀ j : Fin n, (0 : K) < n := by
    intro j
    have := j.2
    exact_mod_cast (by omega : 0 < n)
  -- the same bounds on the slice number
  have hlo : ∀ j : Fin n, m * ((j : ℕ) : K) ≤ (m * w j) * n := by
    intro j
    have := (div_le_iff₀ (hn0 j)).1 (hb j).1
    have := mul_le_mul_of_nonneg_left this hm.le
    linarith [mul_assoc m (w j) (n : K)]
  have hhi : ∀ j : Fin n, (m * w j) * n ≤ m * (((j : ℕ) : K) + 1) := by
    intro j
    have := (le_div_iff₀ (hn0 j)).1 (hb j).2
    have := mul_le_mul_of_nonneg_left this hm.le
    linarith [mul_assoc m (w j) (n : K)]
  have hnn : (0 : K) ≤ n := Nat.cast_nonneg _
  set A : K := n * (k - 1 / 2) / m with hA
  set B : K := n * (k + 1 / 2) / m with hB
  have hBA : B - A = n / m := by
    rw [hA, hB]
    field_simp
    ring
  have hupA : ∀ j ∈ S, A - 1 ≤ ((j : ℕ) : K) := by
    intro j hj
    have h1 := mul_le_mul_of_nonneg_right (hmem j hj).1 hnn
    have h2 := hhi j
    have : A ≤ ((j : ℕ) : K) + 1 := by
      rw [hA, div_le_iff₀ hm]
      linarith
    linarith
  have hupB : ∀ j ∈ S, ((j : ℕ) : K) ≤ B := by
    intro j hj
    have h1 := mul_le_mul_of_nonneg_right (hmem j hj).2 hnn
    have h2 := hlo j
    rw [hB, le_div_iff₀ hm]
    linarith
  have hdnA : ∀ j : Fin n, A < ((j : ℕ) : K) → k - 1 / 2 < m * w j := by
    intro j hj
    rw [hA, div_lt_iff₀ hm] at hj
    have h2 := hlo j
    have h3 : (k - 1 / 2) * n < (m * w j) * n := by linarith
    exact lt_of_mul_lt_mul_right h3 hnn
  have hdnB : ∀ j : Fin n, ((j : ℕ) : K) < B - 1 → m * w j < k + 1 / 2 := by
    intro j hj
    have hj' : ((j : ℕ) : K) + 1 < B := by linarith
    rw [hB, lt_div_iff₀ hm] at hj'
    have h2 := hhi j
    have h3 : (m * w j) * n < (k + 1 / 2) * n := by linarith
    exact lt_of_mul_lt_mul_right h3 hnn
  have hnm : (0 : K) ≤ n / m := div_nonneg hnn hm.le
  have hw0 : ∀ j, 0 ≤ m * w j := fun j => mul_nonneg hm.le (le_trans (div_nonneg (Nat.cast_nonneg _) hnn) (hb j).1)
  have hw1 : ∀ j, m * w j ≤ m := by
    intro j
    have h1 : w j ≤ 1 := by
      refine (hb j).2.trans ?_
      rw [div_le_one (hn0 j)]
      have := j.2
      exact_mod_cast (by omega : (j : ℕ) + 1 ≤ n)
    nlinarith
  have half : (n : K) / (2 * m) = n / m / 2 := by
    rw [div_div, mul_comm]
  refine ⟨?_, ?_, ?_⟩
  · intro hz1 hz2
    have hk1 : (1 : K) ≤ k := by
      have : ((lo + 1 : ℤ) : K) ≤ (z : K) := by exact_mod_cast hz1
      push_cast at this
      rw [hk]; linarith
    have hk2 : k + 1 ≤ m := by
      have : ((z + 1 : ℤ) : K) ≤ (hi : K) := by exact_mod_cast hz2
      push_cast at this
      rw [hk, hmd]; linarith
    have hA0 : 0 ≤ A := div_nonneg (mul_nonneg hnn (by linarith)) hm.le
    have hBn : B ≤ n := by
      rw [hB, div_le_iff₀ hm]
      exact mul_le_mul_of_nonneg_left (by linarith) hnn
    have hu := card_le_of_between S (A - 1) B (by linarith) (fun j hj => ⟨hupA j hj, hupB j hj⟩)
    have hd := le_card_of_between S A (B - 1) (by linarith) (fun j h1 h2 => by
      have hj : j < n := by
        have : (j : K) < n := by linarith
        exact_mod_cast this
      exact ⟨hj, hin ⟨j, hj⟩ (hdnA ⟨j, hj⟩ h1) (hdnB ⟨j, hj⟩ h2)⟩)
    rw [abs_le]
    constructor <;> linarith
  · rintro (hz | hz)
    · have hk0 : k = 0 := by rw [hk, hz]; ring
      have hA' : A = -(n / m) / 2 := by
        rw [hA, hk0]; ring
      have hB' : B = n / m / 2 := by
        rw [hB, hk0]; ring
      have hu := card_le_of_between S 0 B (by linarith) (fun j hj => ⟨Nat.cast_nonneg _, hupB j hj⟩)
      have hd := le_card_of_between S (-1) (B - 1) (by linarith) (fun j h1 h2 => by
        have hj : j < n := by
          by_contra hc
          have hc' : (n : K) ≤ j := by exact_mod_cast (not_lt.1 hc)
          have h3 : n / m / 2 ≤ n := by
            have hm1 : (1 : K) ≤ m := by
              have : ((lo + 1 : ℤ) : K) ≤ (hi : K) := by exact_mod_cast hlt
              push_cast at this
              rw [hmd]; linarith
            have : (n : K) / m ≤ n := div_le_self hnn hm1
            linarith
          linarith
        exact ⟨hj, hin ⟨j, hj⟩ (by have := hw0 ⟨j, hj⟩; rw [hk0]; linarith) (hdnB ⟨j, hj⟩ h2)⟩)
      rw [half, abs_le]
      constructor <;> linarith
    · have hk0 : k = m := by rw [hk, hz, hmd]
      have hA' : A = n - n / m / 2 := by
        rw [hA, hk0]
        field_simp
      have hu := card_le_of_between S (A - 1) ((n : K) - 1) (by linarith) (fun j hj => ⟨hupA j hj, by
        have := j.2
        have : ((j : ℕ) : K) + 1 ≤ n := by exact_mod_cast (by omega : (j : ℕ) + 1 ≤ n)
        linarith⟩)
      have hm1 : (1 : K) ≤ m := by
        have : ((lo + 1 : ℤ) : K) ≤ (hi : K) := by exact_mod_cast hlt
        push_cast at this
        rw [hmd]; linarith
      have hd := le_card_of_between S A (n : K) (by have : (n : K) / m ≤ n := div_le_self hnn hm1
                                                    linarith) (fun j h1 h2 => by
        have hj : j < n := by exact_mod_cast h2
        exact ⟨hj, hin ⟨j, hj⟩ (hdnA ⟨j, hj⟩ h1) (by have := hw1 ⟨j, hj⟩; rw [hk0]; linarith)⟩)
      rw [half, abs_le]
      constructor <;> linarith
  · intro hz
    rw [Finset.card_eq_zero, Finset.eq_empty_iff_forall_notMem]
    intro j hj
    have h1 : roundHalfEven ((1 - w j) * (lo : K) + w j * (hi : K)) = z := (Finset.mem_filter.1 hj).2
    have h2 := round_bounds ((1 - w j) * (lo : K) + w j * (hi : K)) lo hi (by rw [hrew]; linarith [hw0 j]) (by rw [hrew]; have := hw1 j; rw [hmd] at this; linarith)
    rw [h1] at h2
    omega

/-- **C111** How often an integer variable with limits `lo < hi` takes each of its levels in a Latin hypercube design of `n` points, `m = hi - lo`: an interior level between `n/m - 2` and `n/m + 2` times, an
extreme level between `n/(2m) - 1` and `n/(2m) + 1` times: the two extremes come up half as often as the others. -/
theorem C111_int_counts (ts1 ts2 : List XType) (lims : List (K × K)) (unit out : List (List K)) (h : mixedDesign (ts1 ++ .int :: ts2) lims unit = .ok out) (lo hi z : ℤ) (hlt : lo < hi)
    (hl : lims[(ts1.map width).sum]? = some ((lo : K), (hi : K))) (hlat : LatinColumn unit (ts1.map width).sum) :
    (lo < z → z < hi → |(countLevel out ts1.length (z : K) : K) - unit.length / ((hi : K) - lo)| ≤ 2) ∧
    (z = lo ∨ z = hi → |(countLevel out ts1.length (z : K) : K) - unit.length / (2 * ((hi : K) - lo))| ≤ 1) ∧
    (z < lo ∨ hi < z → countLevel out ts1.length (z : K) = 0) := by
  obtain ⟨π, w, hw, hb⟩ := latin_w unit _ hlat
  rw [count_int ts1 ts2 lims unit out h lo hi z hl π w hw]
  exact slice_counts w hb lo hi z hlt

/-- **C111** More than `2 (hi - lo)` points are enough for every level of an integer variable to occur in a Latin hypercube design. -/
theorem C111_int_covered (ts1 ts2 : List XType) (lims : List (K × K)) (unit out : List (List K)) (h : mixedDesign (ts1 ++ .int :: ts2) lims unit = .ok out) (lo hi z : ℤ) (hlt : lo < hi)
    (hl : lims[(ts1.map width).sum]? = some ((lo : K), (hi : K))) (hlat : LatinColumn unit (ts1.map width).sum) (hn : 2 * (hi - lo) < (unit.length : ℤ)) (h1 : lo ≤ z) (h2 : z ≤ hi) :
    ∃ r ∈ out, r[ts1.length]? = some (z : K) := by
  have hm : (0 : K) < (hi : K) - lo := by
    have : (lo : K) < hi := by exact_mod_cast hlt
    linarith
  have hn' : 2 * ((hi : K) - lo) < unit.length := by exact_mod_cast hn
  obtain ⟨ha, hb, _⟩ := C111_int_counts ts1 ts2 lims unit out h lo hi z hlt hl hlat
  have hpos : 0 < countLevel out ts1.length (z : K) := by
    have : (0 : K) < (countLevel out ts1.length (z : K) : K) := by
      by_cases hz : z = lo ∨ z = hi
      · have h3 := (abs_le.1 (hb hz)).1
        have : 1 < (unit.length : K) / (2 * ((hi : K) - lo)) := by
          rw [lt_div_iff₀ (by linarith)]
          linarith
        linarith
      · push Not at hz
        have h3 := (abs_le.1 (ha (lt_of_le_of_ne h1 (Ne.symm hz.1)) (lt_of_le_of_ne h2 hz.2))).1
        have : 2 < (unit.length : K) / ((hi : K) - lo) := by
          rw [lt_div_iff₀ hm]
          linarith
        linarith
    exact_mod_cast this
  rw [countLevel, List.countP_pos_iff] at hpos
  obtain ⟨r, hr, hr'⟩ := hpos
  exact ⟨r, hr, by simpa using hr'⟩

theorem centred_w (unit : List (List K)) (c : ℕ) (h : CentredColumn unit c) : ∃ π : Equiv.Perm (Fin unit.length),
    ∀ i : Fin unit.length, unit[i][c]? = some ((fun j : Fin unit.length => (((j : ℕ) : K) + 1 / 2) / unit.length) (π i)) := h

theorem centred_latin (unit : List (List K)) (c : ℕ) (h : CentredColumn unit c) : LatinColumn unit c := by
  obtain ⟨π, hπ⟩ := h
  refine ⟨π, fun i => ⟨_, hπ i, ?_, ?_⟩⟩
  · exact div_le_div_of_nonneg_right (by linarith) (Nat.cast_nonneg _)
  · exact div_le_div_of_nonneg_right (by linarith) (Nat.cast_nonneg _)

/-- The centred value of slice `j` of `n`, scaled to the limits. -/
theorem centred_value {n : ℕ} (hn : 0 < n) (lo hi : ℤ) (j : ℕ) : (1 - ((j : K) + 1 / 2) / n) * (lo : K) + ((j : K) + 1 / 2) / n * (hi : K) = lo + ((hi : K) - lo) * ((j : K) + 1 / 2) / n := by
  have : (n : K) ≠ 0 := by exact_mod_cast hn.ne'
  field_simp
  ring

theorem centred_pos {n : ℕ} (lo hi z : ℤ) (hlt : lo < hi) (hn : hi - lo < (n : ℤ)) (h1 : lo ≤ z) (h2 : z ≤ hi) :
    0 < (Finset.univ.filter fun j : Fin n => roundHalfEven ((1 - (((j : ℕ) : K) + 1 / 2) / n) * (lo : K) + (((j : ℕ) : K) + 1 / 2) / n * (hi : K)) = z).card := by
  have hn0 : 0 < n := by omega
  have hnK : (0 : K) < n := by exact_mod_cast hn0
  have hm : (0 : K) < (hi : K) - lo := by
    have : (lo : K) < hi := by exact_mod_cast hlt
    linarith
  have hnm : (hi : K) - lo < n := by exact_mod_cast hn
  have hin : ∀ (j : ℕ) (hj : j < n), |((hi : K) - lo) * ((j : K) + 1 / 2) / n - ((z : K) - lo)| < 1 / 2 →
      (⟨j, hj⟩ : Fin n) ∈ Finset.univ.filter fun j : Fin n => roundHalfEven ((1 - (((j : ℕ) : K) + 1 / 2) / n) * (lo : K) + (((j : ℕ) : K) + 1 / 2) / n * (hi : K)) = z := by
    intro j hj h
    refine Finset.mem_filter.2 ⟨Finset.mem_univ _, round_unique _ _ ?_⟩
    rw [centred_value hn0]
    rw [abs_lt] at h ⊢
    constructor <;> linarith [h.1, h.2]
  set m : K := (hi : K) - lo with hmd
  by_cases hz : z = lo
  · refine Finset.card_pos.2 ⟨⟨0, hn0⟩, hin 0 hn0 ?_⟩
    have e : m * (((0 : ℕ) : K) + 1 / 2) / n = (m / n) / 2 := by push_cast; ring
    have h3 : m / n < 1 := (div_lt_one hnK).2 hnm
    have h4 : 0 < m / n := div_pos hm hnK
    rw [e, hz, abs_lt]
    constructor <;> linarith
  · by_cases hz' : z = hi
    · refine Finset.card_pos.2 ⟨⟨n - 1, by omega⟩, hin (n - 1) (by omega) ?_⟩
      have e : m * (((n - 1 : ℕ) : K) + 1 / 2) / n = m - (m / n) / 2 := by
        rw [Nat.cast_sub hn0]
        field_simp
        push_cast
        ring
      have h3 : m / n < 1 := (div_lt_one hnK).2 hnm
      have h4 : 0 < m / n := div_pos hm hnK
      rw [e, hz', abs_lt]
      constructor <;> linarith
    · have hk1 : (1 : K) ≤ (z : K) - lo := by
        have : ((lo + 1 : ℤ) : K) ≤ (z : K) := by exact_mod_cast (by omega : lo + 1 ≤ z)
        push_cast at this
        linarith
      have hk2 : (z : K) - lo + 1 ≤ m := by
        have : ((z + 1 : ℤ) : K) ≤ (hi : K) := by exact_mod_cast (by omega : z + 1 ≤ hi)
        push_cast at this
        rw [hmd]; linarith
      set k : K := (z : K) - lo with hk
      have h3 := le_card_of_between (Finset.univ.filter fun j : Fin n => roundHalfEven ((1 - (((j : ℕ) : K) + 1 / 2) / n) * (lo : K) + (((j : ℕ) : K) + 1 / 2) / n * (hi : K)) = z)
        (n * (k - 1 / 2) / m - 1 / 2) (n * (k + 1 / 2) / m - 1 / 2) (by
          have : 0 ≤ (n : K) * (k - 1 / 2) / m := div_nonneg (mul_nonneg hnK.le (by linarith)) hm.le
          linarith) (fun j ha hb => by
          have ha' : (n : K) * (k - 1 / 2) / m < (j : K) + 1 / 2 := by linarith
          have hb' : (j : K) + 1 / 2 < (n : K) * (k + 1 / 2) / m := by linarith
          have hj : j < n := by
            have : (n : K) * (k + 1 / 2) / m ≤ n := by
              rw [div_le_iff₀ hm]
              exact mul_le_mul_of_nonneg_left (by linarith) hnK.le
            have : (j : K) < n := by linarith
            exact_mod_cast this
          refine ⟨hj, hin j hj ?_⟩
          rw [div_lt_iff₀ hm] at ha'
          rw [lt_div_iff₀ hm] at hb'
          have h5 : k - 1 / 2 < m * ((j : K) + 1 / 2) / n := by
            rw [lt_div_iff₀ hnK]; linarith
          have h6 : m * ((j : K) + 1 / 2) / n < k + 1 / 2 := by
            rw [div_lt_iff₀ hnK]; linarith
          rw [abs_lt]
          constructor <;> linarith)
      have h4 : (n : K) * (k + 1 / 2) / m - 1 / 2 - (n * (k - 1 / 2) / m - 1 / 2) = n / m := by
        field_simp
        ring
      have h5 : 1 < (n : K) / m := (one_lt_div hm).2 hnm
      have h6 : (0 : K) < ((Finset.univ.filter fun j : Fin n => roundHalfEven ((1 - (((j : ℕ) : K) + 1 / 2) / n) * (lo : K) + (((j : ℕ) : K) + 1 / 2) / n * (hi : K)) = z).card : K) := by
        linarith
      exact_mod_cast h6

/-- **C111** With centred values (`criterion="center"`), more than `hi - lo` points are enough: every level occurs. -/
theorem C111_center_covered (ts1 ts2 : List XType) (lims : List (K × K)) (unit out : List (List K)) (h : mixedDesign (ts1 ++ .int :: ts2) lims unit = .ok out) (lo hi z : ℤ) (hlt : lo < hi)
    (hl : lims[(ts1.map width).sum]? = some ((lo : K), (hi : K))) (hc : CentredColumn unit (ts1.map width).sum) (hn : hi - lo < (unit.length : ℤ)) (h1 : lo ≤ z) (h2 : z ≤ hi) :
    ∃ r ∈ out, r[ts1.length]? = some (z : K) := by
  obtain ⟨π, hw⟩ := centred_w unit _ hc
  have hpos : 0 < countLevel out ts1.length (z : K) := by
    rw [count_int ts1 ts2 lims unit out h lo hi z hl π (fun j : Fin unit.length => (((j : ℕ) : K) + 1 / 2) / unit.length) hw]
    exact centred_pos lo hi z hlt hn h1 h2
  rw [countLevel, List.countP_pos_iff] at hpos
  obtain ⟨r, hr, hr'⟩ := hpos
  exact ⟨r, hr, by simpa using hr'⟩

/-- **C111** With centred values and as many points as the variable has levels, `hi - lo + 1`, every level occurs exactly once. -/
theorem C111_center_once (ts1 ts2 : List XType) (lims : List (K × K)) (unit out : List (List K)) (h : mixedDesign (ts1 ++ .int :: ts2) lims unit = .ok out) (lo hi z : ℤ) (hlt : lo < hi)
    (hl : lims[(ts1.map width).sum]? = some ((lo : K), (hi : K))) (hc : CentredColumn unit (ts1.map width).sum) (hn : (unit.length : ℤ) = hi - lo + 1) (h1 : lo ≤ z) (h2 : z ≤ hi) :
    countLevel out ts1.length (z : K) = 1 := by
  obtain ⟨π, hw⟩ := centred_w unit _ hc
  rw [count_int ts1 ts2 lims unit out h lo hi z hl π (fun j : Fin unit.length => (((j : ℕ) : K) + 1 / 2) / unit.length) hw]
  have hsum := Finset.card_eq_sum_card_fiberwise (s := (Finset.univ : Finset (Fin unit.length))) (t := Finset.Icc lo hi)
    (f := fun j : Fin unit.length => roundHalfEven ((1 - (((j : ℕ) : K) + 1 / 2) / unit.length) * (lo : K) + (((j : ℕ) : K) + 1 / 2) / unit.length * (hi : K))) (by
      intro j _
      rw [Finset.mem_coe, Finset.mem_Icc]
      have hnK : (0 : K) < unit.length := by exact_mod_cast (by omega : 0 < unit.length)
      have hv0 : 0 ≤ (((j : ℕ) : K) + 1 / 2) / unit.length := div_nonneg (add_nonneg (Nat.cast_nonneg _) (by norm_num)) hnK.le
      have hv1 : (((j : ℕ) : K) + 1 / 2) / unit.length ≤ 1 := by
        rw [div_le_one hnK]
        have : ((j : ℕ) : K) + 1 ≤ unit.length := by exact_mod_cast j.2
        linarith
      have hlh : (lo : K) ≤ hi := by exact_mod_cast hlt.le
      refine round_bounds _ lo hi ?_ ?_
      · nlinarith
      · nlinarith)
  have hle : ∀ y ∈ Finset.Icc lo hi, 1 ≤ (Finset.univ.filter fun j : Fin unit.length => roundHalfEven ((1 - (((j : ℕ) : K) + 1 / 2) / unit.length) * (lo : K) + (((j : ℕ) : K) + 1 / 2) / unit.length * (hi : K)) = y).card := by
    intro y hy
    rw [Finset.mem_Icc] at hy
    exact centred_pos lo hi y hlt (by omega) hy.1 hy.2
  have heq : (∑ y ∈ Finset.Icc lo hi, 1) = ∑ y ∈ Finset.Icc lo hi, (Finset.univ.filter fun j : Fin unit.length => roundHalfEven ((1 - (((j : ℕ) : K) + 1 / 2) / unit.length) * (lo : K) + (((j : ℕ) : K) + 1 / 2) / unit.length * (hi : K)) = y).card := by
    rw [← hsum]
    simp
    omega
  exact ((Finset.sum_eq_sum_iff_of_le hle).1 heq z (Finset.mem_Icc.2 ⟨h1, h2⟩)).symm

/-- **C111** With one point fewer the centred design is at its worst: with `hi - lo` points every value lies exactly half-way between two levels, is rounded to the even one, and no odd level occurs. -/
theorem C111_center_ties (ts1 ts2 : List XType) (lims : List (K × K)) (unit out : List (List K)) (h : mixedDesign (ts1 ++ .int :: ts2) lims unit = .ok out) (lo hi : ℤ) (hlt : lo < hi)
    (hl : lims[(ts1.map width).sum]? = some ((lo : K), (hi : K))) (hc : CentredColumn unit (ts1.map width).sum) (hn : (unit.length : ℤ) = hi - lo) :
    ∀ r ∈ out, ∃ k : ℤ, r[ts1.length]? = some ((2 * k : ℤ) : K) := by
  obtain ⟨h1, h2⟩ := design_int ts1 ts2 lims unit out h lo hi hl
  obtain ⟨π, hw⟩ := centred_w unit _ hc
  intro r hr
  obtain ⟨i, hi', rfl⟩ := List.mem_iff_getElem.1 hr
  have hu : unit[i]? = some unit[(⟨i, by omega⟩ : Fin unit.length)] := List.getElem?_eq_some_iff.2 ⟨by omega, rfl⟩
  obtain ⟨y, hy, hyv⟩ := h2 i _ _ hu (hw ⟨i, by omega⟩)
  rw [List.getElem?_eq_getElem hi'] at hy
  rw [Option.some.inj hy]
  set j : ℕ := ((π ⟨i, by omega⟩ : Fin unit.length) : ℕ) with hj
  have hnK : (unit.length : K) = (hi : K) - lo := by exact_mod_cast hn
  have hne : (unit.length : K) ≠ 0 := by
    have : (0 : K) < unit.length := by exact_mod_cast (by omega : 0 < unit.length)
    exact this.ne'
  have hval : (1 - ((j : K) + 1 / 2) / unit.length) * (lo : K) + ((j : K) + 1 / 2) / unit.length * (hi : K) = ((lo + j : ℤ) : K) + 1 / 2 := by
    rw [centred_value (by omega), ← hnK]
    field_simp
    push_cast
    ring
  dsimp only at hyv
  rw [hval] at hyv
  set x : K := ((lo + j : ℤ) : K) + 1 / 2 with hx
  have hev : roundHalfEven x % 2 = 0 := by
    apply round_tie_even
    refine le_antisymm (round_near x) ?_
    rcases le_or_gt (roundHalfEven x) (lo + j) with hc' | hc'
    · have : ((roundHalfEven x : ℤ) : K) ≤ ((lo + j : ℤ) : K) := by exact_mod_cast hc'
      refine le_trans ?_ (le_abs_self _)
      rw [hx] at *
      linarith
    · have : ((lo + j + 1 : ℤ) : K) ≤ ((roundHalfEven x : ℤ) : K) := by exact_mod_cast hc'
      push_cast at this
      refine le_trans ?_ (neg_le_abs _)
      rw [hx] at *
      push_cast
      push_cast at this
      linarith
  refine ⟨roundHalfEven x / 2, ?_⟩
  rw [hyv]
  have : 2 * (roundHalfEven x / 2) = roundHalfEven x := by omega
  rw [this]

/-- **C111** The bound `2 (hi - lo)` cannot be improved: with fewer points there is a Latin hypercube design (values strictly inside their slices) in which the lower limit never occurs. -/
theorem C111_int_missed (lo hi : ℤ) (n : ℕ) (hn0 : 0 < n) (hn : (n : ℤ) < 2 * (hi - lo)) :
    ∃ unit out : List (List K), unit.length = n ∧ LatinColumn unit 0 ∧ (∀ (i : ℕ) (r : List K), unit[i]? = some r → ∃ v, r = [v] ∧ (i : K) / n < v ∧ v < ((i : K) + 1) / n) ∧
      mixedDesign [.int] [((lo : K), (hi : K))] unit = .ok out ∧ ∀ r ∈ out, r[0]? ≠ some (lo : K) := by
  have hnK : (0 : K) < n := by exact_mod_cast hn0
  have hlt : lo < hi := by omega
  have hm : (0 : K) < (hi : K) - lo := by
    have : (lo : K) < hi := by exact_mod_cast hlt
    linarith
  have hnm : (n : K) < 2 * ((hi : K) - lo) := by exact_mod_cast hn
  set m : K := (hi : K) - lo with hmd
  set t : K := (1 + n / (2 * m)) / 2 with ht
  have hq : (n : K) / (2 * m) < 1 := (div_lt_one (by linarith)).2 hnm
  have hq0 : 0 < (n : K) / (2 * m) := div_pos hnK (by linarith)
  have ht0 : 0 < t := by rw [ht]; linarith
  have ht1 : t < 1 := by rw [ht]; linarith
  set unit : List (List K) := List.ofFn fun i : Fin n => [(((i : ℕ) : K) + t) / n] with hu
  have hlen : unit.length = n := by simp [hu]
  have hget : ∀ (i : ℕ) (hi : i < unit.length), unit[i] = [((i : K) + t) / n] := by
    intro i hi
    simp [hu]
  have hslice : ∀ i : ℕ, (i : K) / n < ((i : K) + t) / n ∧ ((i : K) + t) / n < ((i : K) + 1) / n := by
    intro i
    exact ⟨div_lt_div_of_pos_right (by linarith) hnK, div_lt_div_of_pos_right (by linarith) hnK⟩
  have hlenK : (unit.length : K) = n := by rw [hlen]
  have hlat : LatinColumn unit 0 := by
    refine ⟨1, fun i => ⟨((i : ℕ) + t) / n, ?_, ?_, ?_⟩⟩
    · have := hget i i.2
      simp only [Fin.getElem_fin, this]
      simp
    · rw [hlenK]
      exact (hslice i).1.le
    · rw [hlenK]
      exact (hslice i).2.le
  have hrow : ∀ r ∈ Sampling.scaleToXlimits unit [((lo : K), (hi : K))], r.length = (([XType.int] : List XType).map width).sum := by
    intro r hr
    obtain ⟨i, hi', rfl⟩ := List.mem_iff_getElem.1 hr
    rw [Sampling.C10_scale_length] at hi'
    simp [Sampling.scaleToXlimits, Sampling.scaleFrom, Sampling.scaleColumn, hget, width, List.length_modify]
  obtain ⟨out, ho, _, _⟩ := C18_sampling_discrete [.int] (fun t ht => by simp at ht; subst ht; exact Or.inr (Or.inl rfl)) _ hrow
  refine ⟨unit, out, hlen, hlat, ?_, ho, ?_⟩
  · intro i r hr
    obtain ⟨h1, h2⟩ := List.getElem?_eq_some_iff.1 hr
    exact ⟨_, by rw [← h2, hget i h1], (hslice i).1, (hslice i).2⟩
  · intro r hr
    obtain ⟨i, hi', rfl⟩ := List.mem_iff_getElem.1 hr
    obtain ⟨h1, h2⟩ := design_int [] [] [((lo : K), (hi : K))] unit out ho lo hi rfl
    have hiu : i < unit.length := by omega
    obtain ⟨y, hy, hyv⟩ := h2 i [((i : K) + t) / n] (((i : K) + t) / n) (by rw [List.getElem?_eq_getElem hiu, hget i hiu]) rfl
    rw [List.getElem?_eq_getElem hi'] at hy
    rw [Option.some.inj hy]
    simp only [List.length_nil] at hyv
    rw [hyv]
    intro hcon
    have hcon' : roundHalfEven ((1 - ((i : K) + t) / n) * (lo : K) + ((i : K) + t) / n * (hi : K)) = lo := by
      exact_mod_cast Option.some.inj hcon
    have h3 := (abs_le.1 (round_near ((1 - ((i : K) + t) / n) * (lo : K) + ((i : K) + t) / n * (hi : K)))).2
    rw [hcon'] at h3
    have h4 : (1 - ((i : K) + t) / n) * (lo : K) + ((i : K) + t) / n * (hi : K) - lo = m * (((i : K) + t) / n) := by
      rw [hmd]; ring
    rw [h4] at h3
    have h5 : t / n ≤ ((i : K) + t) / n := div_le_div_of_nonneg_right (by have := Nat.cast_nonneg (α := K) i; linarith) hnK.le
    have h6 : m * (t / n) ≤ 1 / 2 := (mul_le_mul_of_nonneg_left h5 hm.le).trans h3
    have h7 : m * (t / n) = m / (2 * n) + 1 / 4 := by
      rw [ht]
      field_simp
      ring
    have h8 : 1 / 4 < m / (2 * n) := by
      rw [lt_div_iff₀ (by linarith)]
      linarith
    linarith

theorem scale_unit (s : List (List K)) : ∀ (k c : ℕ), Sampling.scaleFrom s c (List.replicate k ((0 : K), (1 : K))) = s := by
  intro k
  induction k with
  | zero => intro c; rfl
  | succ k ih =>
    intro c
    rw [List.replicate_succ, Sampling.scaleFrom]
    have : Sampling.scaleColumn s c ((0 : K), (1 : K)) = s := by
      unfold Sampling.scaleColumn
      conv_rhs => rw [← List.map_id s]
      apply List.map_congr_left
      intro r _
      have e : (fun v : K => (0 : K) + v * (1 - 0)) = id := by
        funext v
        simp
      show r.modify c (fun v : K => (0 : K) + v * (1 - 0)) = id r
      rw [e, List.modify_id]
      rfl
    rw [this]
    exact ih _

/-- One row of an enumerated variable whose largest entry is at `j` only. -/
theorem sampleRow_enum (k : ℕ) (row : List K) (hk : row.length = k) (j : ℕ) (hj : j < k) (hmax : ∀ (c : ℕ) (v w : K), c ≠ j → row[c]? = some v → row[j]? = some w → v < w) :
    sampleRow [.enum k] true row = .ok [(j : K)] := by
  have hne : row ≠ [] := by
    intro e
    rw [e] at hk
    simp at hk
    omega
  obtain ⟨m, b, hm, hall, hb, hb'⟩ := castBlock_spec row hne
  have hjr : row[j]? = some row[j] := List.getElem?_eq_getElem (by omega)
  have hmj : m = row[j] := by
    obtain ⟨c, hc, rfl⟩ := List.mem_iff_getElem.1 hm
    by_cases hcj : c = j
    · subst hcj; rfl
    · have h1 := hmax c row[c] row[j] hcj (List.getElem?_eq_getElem hc) hjr
      have h2 := hall row[j] (List.getElem_mem _)
      exact absurd h1 (not_lt.2 h2)
  have hbl : b.length = k := by rw [hb']; simp [hk]
  have hoh : OneHot k j b := by
    refine ⟨hbl, hj, fun c hc => ?_⟩
    rw [hb', List.getElem?_map, List.getElem?_eq_getElem (by omega), Option.map_some]
    by_cases hcj : c = j
    · subst hcj
      simp [hmj]
    · have h1 := hmax c row[c] row[j] hcj (List.getElem?_eq_getElem (by omega)) hjr
      rw [hmj, if_neg h1.ne, if_neg hcj]
  have hbne : b ≠ [] := by
    intro e
    rw [e] at hbl
    simp at hbl
    omega
  have ht : row.take k = row := List.take_of_length_le (by omega)
  have htb : b.take k = b := List.take_of_length_le (by omega)
  have hdr : row.drop k = [] := List.drop_eq_nil_of_le (by omega)
  simp only [sampleRow, cast, ht, hb, hdr, Except.map, if_true, List.append_nil, fold, htb, hbne, if_false, argmax_oneHot k j b hoh]

/-- **C111** For an enumerated variable there is no such guarantee, whatever the number of points: for every sequence of levels there is a design, Latin hypercube in every column (values strictly inside their
slices), from which exactly that sequence comes out. In particular all points may get the same level. -/
theorem C111_enum_any (n k : ℕ) (hn : 0 < n) (lev : Fin n → Fin k) :
    ∃ unit : List (List K), unit.length = n ∧ (∀ c, c < k → LatinColumn unit c) ∧
      (∀ (i c : ℕ) (r : List K) (v : K), unit[i]? = some r → r[c]? = some v → c < k ∧ (i : K) / n < v ∧ v < ((i : K) + 1) / n) ∧
      mixedDesign [.enum k] (List.replicate k (0, 1)) unit = .ok (List.ofFn fun i => [((lev i : ℕ) : K)]) := by
  have hnK : (0 : K) < n := by exact_mod_cast hn
  set f : ℕ → ℕ → ℕ → K := fun i l c => ((i : K) + if c = l then 3 / 4 else 1 / 4) / n with hf
  have hslice : ∀ i l c : ℕ, (i : K) / n < f i l c ∧ f i l c < ((i : K) + 1) / n := by
    intro i l c
    simp only [hf]
    constructor
    · refine div_lt_div_of_pos_right ?_ hnK
      split <;> linarith
    · refine div_lt_div_of_pos_right ?_ hnK
      split <;> linarith
  set unit : List (List K) := List.ofFn fun i : Fin n => List.ofFn fun c : Fin k => f i (lev i) c with hu
  have hlen : unit.length = n := by simp [hu]
  have hlenK : (unit.length : K) = n := by rw [hlen]
  have hget : ∀ (i : ℕ) (hi : i < n) (c : ℕ) (hc : c < k) (hi' : i < unit.length), unit[i][c]? = some (f i (lev ⟨i, hi⟩) c) := by
    intro i hi c hc hi'
    simp [hu, hc]
  refine ⟨unit, hlen, ?_, ?_, ?_⟩
  · intro c hc
    refine ⟨1, fun i => ⟨f i (lev ⟨i, by have := i.2; omega⟩) c, ?_, ?_, ?_⟩⟩
    · exact hget i (by have := i.2; omega) c hc i.2
    · rw [hlenK]
      exact (hslice _ _ _).1.le
    · rw [hlenK]
      exact (hslice _ _ _).2.le
  · intro i c r v hr hv
    obtain ⟨h1, h2⟩ := List.getElem?_eq_some_iff.1 hr
    have hin : i < n := by omega
    have hrk : r = List.ofFn fun c : Fin k => f i (lev ⟨i, hin⟩) c := by
      rw [← h2]
      simp [hu]
    have hc : c < k := by
      have := (List.getElem?_eq_some_iff.1 hv).1
      rw [hrk] at this
      simpa using this
    have h3 := hget i hin c hc h1
    rw [h2, hv] at h3
    rw [Option.some.inj h3]
    exact ⟨hc, hslice _ _ _⟩
  · unfold mixedDesign Sampling.scaleToXlimits sampling
    rw [scale_unit, hu]
    have hrow : ∀ i : Fin n, sampleRow [.enum k] true (List.ofFn fun c : Fin k => f i (lev i) c) = .ok [((lev i : ℕ) : K)] := by
      intro i
      refine sampleRow_enum k _ (by simp) (lev i) (lev i).2 ?_
      intro c v w hc hv hw
      have hck : c < k := by
        have := (List.getElem?_eq_some_iff.1 hv).1
        simpa using this
      have h1 : f i (lev i) c = v := by simpa [hck] using hv
      have h2 : f i (lev i) (lev i) = w := by simpa using hw
      rw [← h1, ← h2]
      simp only [hf, if_neg hc, if_true]
      exact div_lt_div_of_pos_right (by linarith) hnK
    have : ∀ (l : List (Fin n)), (l.map fun i : Fin n => List.ofFn fun c : Fin k => f i (lev i) c).mapM (sampleRow [.enum k] true) = .ok (l.map fun i => [((lev i : ℕ) : K)]) := by
      intro l
      induction l with
      | nil => rfl
      | cons a l ih =>
        rw [List.map_cons, List.mapM_cons, ih, hrow]
        rfl
    have h2 := this (List.finRange n)
    rw [← List.ofFn_eq_map, ← List.ofFn_eq_map] at h2
    exact h2

/-! ## Non-vacuity -/

/-- Five centred points, an integer variable with the five levels 1 to 5 after a two-level enumerated one: each level once. -/
example : (mixedDesign [.enum 2, .int] [((0 : ℚ), 1), (0, 1), (1, 5)] [[1 / 10, 3 / 10, 5 / 10], [3 / 10, 1 / 10, 1 / 10], [5 / 10, 9 / 10, 9 / 10], [7 / 10, 5 / 10, 3 / 10], [9 / 10, 7 / 10, 7 / 10]]).toOption =
    some [[1, 3], [0, 1], [1, 5], [0, 2], [0, 4]] := by decide +kernel

/-- Four centred points for the same five levels: 1, 3 and 5 are lost. -/
example : (mixedDesign [.int] [((1 : ℚ), 5)] [[3 / 8], [1 / 8], [7 / 8], [5 / 8]]).toOption = some [[2], [2], [4], [4]] := by decide +kernel

/-- The column of the first example is Latin. -/
example : CentredColumn [[(3 : ℚ) / 8], [1 / 8], [7 / 8], [5 / 8]] 0 := by
  refine ⟨(Equiv.swap 0 1).trans (Equiv.swap 2 3), ?_⟩
  decide +kernel

example : LatinColumn [[(3 : ℚ) / 8], [1 / 8], [7 / 8], [5 / 8]] 0 := by
  refine centred_latin _ _ ⟨(Equiv.swap 0 1).trans (Equiv.swap 2 3), ?_⟩
  decide +kernel

/-- Three points, two levels, all three at the first. -/
example : (mixedDesign [.enum 2] [((0 : ℚ), 1), (0, 1)] [[1 / 4, 1 / 12], [7 / 12, 5 / 12], [11 / 12, 9 / 12]]).toOption = some [[0], [0], [0]] := by decide +kernel

end SMT.MixedInt
