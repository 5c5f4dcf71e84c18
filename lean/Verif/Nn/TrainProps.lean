import Verif.Nn.Train
import Mathlib.Tactic.Ring
import Mathlib.Tactic.Linarith
import Mathlib.Tactic.NormNum
import Mathlib.Tactic.FieldSimp
import Mathlib.Tactic.Positivity
import Mathlib.Algebra.Order.Archimedean.Basic
import Mathlib.Data.List.Perm.Basic

set_option linter.unusedSectionVars false
set_option linter.unusedSimpArgs false
set_option linter.unusedVariables false

/-!
# C67, C68: mini-batches and optimiser of the neural network
-/
namespace SMT.Nn

/-! ### C67 mini-batches -/

section batches
variable {α β γ : Type}

theorem filterMap_take (f : ℕ → Option α) (l : List ℕ) (h : ∀ i ∈ l, (f i).isSome) (n : ℕ) : (l.filterMap f).take n = (l.take n).filterMap f := by
  induction l generalizing n with
  | nil => simp
  | cons a l ih =>
    cases n with
    | zero => simp
    | succ n =>
      obtain ⟨b, hb⟩ := Option.isSome_iff_exists.1 (h a (by simp))
      simp [List.filterMap_cons, hb, ih (fun i hi => h i (by simp [hi]))]

theorem filterMap_drop (f : ℕ → Option α) (l : List ℕ) (h : ∀ i ∈ l, (f i).isSome) (n : ℕ) : (l.filterMap f).drop n = (l.drop n).filterMap f := by
  induction l generalizing n with
  | nil => simp
  | cons a l ih =>
    cases n with
    | zero => simp
    | succ n =>
      obtain ⟨b, hb⟩ := Option.isSome_iff_exists.1 (h a (by simp))
      simp [List.filterMap_cons, hb, ih (fun i hi => h i (by simp [hi]))]

theorem filterMap_length (f : ℕ → Option α) (l : List ℕ) (h : ∀ i ∈ l, (f i).isSome) : (l.filterMap f).length = l.length := by
  induction l with
  | nil => simp
  | cons a l ih =>
    obtain ⟨b, hb⟩ := Option.isSome_iff_exists.1 (h a (by simp))
    simp [List.filterMap_cons, hb, ih (fun i hi => h i (by simp [hi]))]

theorem slice_shuffle (perm : List ℕ) (A : List α) (h : ∀ i ∈ perm, i < A.length) (lo hi : ℕ) : slice (shuffle perm A) lo hi = shuffle (slice perm lo hi) A := by
  have h' : ∀ i ∈ perm, (A[i]?).isSome := fun i hi => by simp [h i hi]
  unfold slice shuffle
  rw [filterMap_take _ _ h', filterMap_drop]
  exact fun i hi => h' i (List.mem_of_mem_take hi)

theorem drop_shuffle (perm : List ℕ) (A : List α) (h : ∀ i ∈ perm, i < A.length) (lo : ℕ) : (shuffle perm A).drop lo = shuffle (perm.drop lo) A := by
  unfold shuffle
  rw [filterMap_drop]
  exact fun i hi => by simp [h i hi]

/-- Index lists of the batches. -/
def chunks (perm : List ℕ) (s : ℕ) : List (List ℕ) :=
  let m := perm.length
  (List.range (m / s)).map (fun k => slice perm (k * s) ((k + 1) * s)) ++ if m % s ≠ 0 then [perm.drop (m / s * s)] else []

theorem flatten_slices (l : List ℕ) (s n : ℕ) : ((List.range n).map fun k => slice l (k * s) ((k + 1) * s)).flatten = l.take (n * s) := by
  induction n with
  | zero => simp
  | succ n ih =>
    rw [List.range_succ, List.map_append, List.flatten_append, ih]
    simp only [List.map_cons, List.map_nil, List.flatten_cons, List.flatten_nil, List.append_nil, slice]
    have : l.take (n * s) = (l.take ((n + 1) * s)).take (n * s) := by
      rw [List.take_take, Nat.min_eq_left]; exact Nat.mul_le_mul_right s (Nat.le_succ n)
    rw [this, List.take_append_drop]

theorem chunks_flatten (perm : List ℕ) (s : ℕ) : (chunks perm s).flatten = perm := by
  unfold chunks
  simp only [List.flatten_append, flatten_slices]
  split_ifs with h
  · simp
  · have h0 : perm.length % s = 0 := by simpa using h
    have : perm.length / s * s = perm.length := Nat.div_mul_cancel (Nat.dvd_of_mod_eq_zero h0)
    simp [this]

theorem miniBatches_eq (perm : List ℕ) (X : List α) (Y : List β) (J : Option (List γ)) (size : ℕ) (hp : perm.Perm (List.range X.length)) (hY : Y.length = X.length)
    (hJ : ∀ J', J = some J' → J'.length = X.length) (hm : X ≠ []) (hs : 0 < size) :
    miniBatches perm X Y J size
      = some ((chunks perm (min size X.length)).map fun I => (shuffle I X, shuffle I Y, J.map (shuffle I))) := by
  have hl : perm.length = X.length := by simpa using hp.length_eq
  have hX0 : 0 < X.length := List.length_pos_iff.2 hm
  have hi : ∀ i ∈ perm, i < X.length := fun i h => by simpa using hp.mem_iff.1 h
  have hiY : ∀ i ∈ perm, i < Y.length := fun i h => hY ▸ hi i h
  have hms : 0 < min size X.length := by omega
  have hq : 0 < X.length / min size X.length := Nat.div_pos (by omega) hms
  have hk : X.length / min size X.length - 1 + 1 = X.length / min size X.length := by omega
  unfold miniBatches chunks
  simp only [hl, if_neg hms.ne', slice_shuffle perm X hi, slice_shuffle perm Y hiY, hk, drop_shuffle perm X hi, drop_shuffle perm Y hiY]
  cases J with
  | none =>
    by_cases h : X.length % min size X.length = 0
    · simp [h, Function.comp_def]
    · simp [h, Function.comp_def]
  | some J =>
    have hiJ : ∀ i ∈ perm, i < J.length := fun i h => (hJ J rfl) ▸ hi i h
    by_cases h : X.length % min size X.length = 0
    · simp [h, Function.comp_def, slice_shuffle perm J hiJ, drop_shuffle perm J hiJ]
    · simp [h, Function.comp_def, slice_shuffle perm J hiJ, drop_shuffle perm J hiJ]

theorem chunks_sizes (perm : List ℕ) (s : ℕ) (hs : 0 < s) :
    (∀ I ∈ chunks perm s, 0 < I.length ∧ I.length ≤ s) ∧ (∀ I ∈ (chunks perm s).dropLast, I.length = s) ∧ (chunks perm s).length = (perm.length + s - 1) / s := by
  have hdm := Nat.div_add_mod perm.length s
  have hmod := Nat.mod_lt perm.length hs
  have hslice : ∀ k < perm.length / s, (slice perm (k * s) ((k + 1) * s)).length = s := by
    intro k hk
    have : (k + 1) * s ≤ perm.length := by
      calc (k + 1) * s ≤ (perm.length / s) * s := Nat.mul_le_mul_right s hk
        _ ≤ perm.length := Nat.div_mul_le_self _ _
    unfold slice
    rw [List.length_drop, List.length_take, Nat.min_eq_left this, Nat.add_mul]
    omega
  have hfull : ∀ I ∈ (List.range (perm.length / s)).map (fun k => slice perm (k * s) ((k + 1) * s)), I.length = s := by
    intro I hI
    obtain ⟨k, hk, rfl⟩ := List.mem_map.1 hI
    exact hslice k (List.mem_range.1 hk)
  unfold chunks
  by_cases h : perm.length % s = 0
  · simp only [h, ne_eq, not_true, if_false, List.append_nil]
    refine ⟨fun I hI => ?_, fun I hI => hfull I (List.mem_of_mem_dropLast hI), ?_⟩
    · rw [hfull I hI]; omega
    · have : perm.length + s - 1 = (s - 1) + s * (perm.length / s) := by omega
      rw [this, Nat.add_mul_div_left _ _ hs, Nat.div_eq_of_lt (by omega : s - 1 < s)]
      simp
  · simp only [ne_eq, h, not_false_eq_true, if_true]
    have hr : (perm.drop (perm.length / s * s)).length = perm.length % s := by
      rw [List.length_drop, mul_comm]; omega
    refine ⟨fun I hI => ?_, fun I hI => ?_, ?_⟩
    · rcases List.mem_append.1 hI with h1 | h1
      · rw [hfull I h1]; omega
      · rw [List.mem_singleton.1 h1, hr]; omega
    · rw [List.dropLast_concat] at hI
      exact hfull I hI
    · have : perm.length + s - 1 = (perm.length % s - 1) + s * (perm.length / s + 1) := by rw [Nat.mul_add]; omega
      rw [this, Nat.add_mul_div_left _ _ hs, Nat.div_eq_of_lt (by omega : perm.length % s - 1 < s)]
      simp

/-- **C67** For every drawn permutation the mini-batches are given by one splitting of the example indices `0 .. m-1` into consecutive lists: every index occurs in exactly one batch, once;
inputs, outputs and derivatives of one batch are those of the same indices; every batch is non-empty and has at most `size` examples, all but the last have exactly `size`, and there
are `⌈m / size⌉` of them. -/
theorem C67_batches (perm : List ℕ) (X : List α) (Y : List β) (J : Option (List γ)) (size : ℕ) (hp : perm.Perm (List.range X.length)) (hY : Y.length = X.length)
    (hJ : ∀ J', J = some J' → J'.length = X.length) (hm : X ≠ []) (hs : 0 < size) :
    ∃ parts : List (List ℕ),
      miniBatches perm X Y J size
        = some (parts.map fun I => (I.filterMap (fun i => X[i]?), I.filterMap (fun i => Y[i]?), J.map fun J => I.filterMap (fun i => J[i]?))) ∧
      parts.flatten.Perm (List.range X.length) ∧
      (∀ I ∈ parts, 0 < I.length ∧ I.length ≤ size ∧ (I.filterMap (fun i => X[i]?)).length = I.length ∧ (I.filterMap (fun i => Y[i]?)).length = I.length) ∧
      (∀ I ∈ parts.dropLast, I.length = size) ∧
      parts.length = (X.length + size - 1) / size := by
  have hl : perm.length = X.length := by simpa using hp.length_eq
  have hX0 : 0 < X.length := List.length_pos_iff.2 hm
  have hms : 0 < min size X.length := by omega
  obtain ⟨h1, h2, h3⟩ := chunks_sizes perm (min size X.length) hms
  have hf := chunks_flatten perm (min size X.length)
  refine ⟨chunks perm (min size X.length), miniBatches_eq perm X Y J size hp hY hJ hm hs, by rw [hf]; exact hp, fun I hI => ?_, fun I hI => ?_, ?_⟩
  · have hin : ∀ i ∈ I, i < X.length := fun i hi => by
      have : i ∈ perm := hf ▸ List.mem_flatten.2 ⟨I, hI, hi⟩
      simpa using hp.mem_iff.1 this
    refine ⟨(h1 I hI).1, (h1 I hI).2.trans (min_le_left _ _), filterMap_length _ _ fun i hi => ?_, filterMap_length _ _ fun i hi => ?_⟩
    · simp [hin i hi]
    · simp [hY, hin i hi]
  · rcases Nat.lt_or_ge size X.length with h | h
    · rw [h2 I hI]; omega
    · exfalso
      have h4 : min size X.length = X.length := by omega
      have h5 : (chunks perm (min size X.length)).length = 1 := by
        rw [h3, h4, hl]
        have : X.length + X.length - 1 = (X.length - 1) + X.length * 1 := by omega
        rw [this, Nat.add_mul_div_left _ _ hX0, Nat.div_eq_of_lt (by omega)]
      have : (chunks perm (min size X.length)).dropLast = [] := by
        apply List.length_eq_zero_iff.1; rw [List.length_dropLast, h5]
      rw [this] at hI; simp at hI
  · rcases Nat.lt_or_ge size X.length with h | h
    · rw [h3, hl, Nat.min_eq_left h.le]
    · rw [h3, hl, Nat.min_eq_right h]
      have e1 : X.length + X.length - 1 = (X.length - 1) + X.length * 1 := by omega
      have e2 : X.length + size - 1 = (X.length - 1) + size * 1 := by omega
      rw [e1, e2, Nat.add_mul_div_left _ _ hX0, Nat.add_mul_div_left _ _ hs, Nat.div_eq_of_lt (by omega), Nat.div_eq_of_lt (by omega)]

theorem zip_pick (I : List ℕ) (X : List α) (Y : List β) (hX : ∀ i ∈ I, i < X.length) (hY : ∀ i ∈ I, i < Y.length) :
    (I.filterMap (fun i => X[i]?)).zip (I.filterMap (fun i => Y[i]?)) = I.filterMap (fun i => (X.zip Y)[i]?) := by
  induction I with
  | nil => simp
  | cons a I ih =>
    have h1 := hX a (by simp)
    have h2 := hY a (by simp)
    have h3 : a < (X.zip Y).length := by simp; omega
    rw [List.filterMap_cons_some (List.getElem?_eq_getElem h1), List.filterMap_cons_some (List.getElem?_eq_getElem h2), List.filterMap_cons_some (List.getElem?_eq_getElem h3),
      List.zip_cons_cons, ih (fun i hi => hX i (by simp [hi])) (fun i hi => hY i (by simp [hi]))]
    simp

theorem pick_range (X : List α) : (List.range X.length).filterMap (fun i => X[i]?) = X := by
  induction X with
  | nil => simp
  | cons a X ih =>
    rw [List.length_cons, List.range_succ_eq_map, List.filterMap_cons_some (b := a) (by simp), List.filterMap_map]
    simpa [Function.comp_def] using ih

/-- **C67** No example is lost, duplicated or paired with another example's output: the (input, output) pairs of all batches are a rearrangement of the training pairs. -/
theorem C67_pairs_preserved (perm : List ℕ) (X : List α) (Y : List β) (J : Option (List γ)) (size : ℕ) (hp : perm.Perm (List.range X.length)) (hY : Y.length = X.length)
    (hJ : ∀ J', J = some J' → J'.length = X.length) (bs : List (List α × List β × Option (List γ))) (h : miniBatches perm X Y J size = some bs) :
    (bs.flatMap fun b => b.1.zip b.2.1).Perm (X.zip Y) := by
  rcases Nat.eq_zero_or_pos (min size X.length) with h0 | h0
  · unfold miniBatches at h; simp [h0] at h
  · have hm : X ≠ [] := List.length_pos_iff.1 (by omega)
    obtain ⟨parts, h1, h2, -⟩ := C67_batches perm X Y J size hp hY hJ hm (by omega)
    rw [h1, Option.some.injEq] at h
    subst h
    have hin : ∀ I ∈ parts, ∀ i ∈ I, i < X.length := fun I hI i hi => by simpa using h2.mem_iff.1 (List.mem_flatten.2 ⟨I, hI, hi⟩)
    have e : (parts.map fun I => (I.filterMap (fun i => X[i]?), I.filterMap (fun i => Y[i]?), J.map fun J => I.filterMap (fun i => J[i]?))).flatMap (fun b => b.1.zip b.2.1)
        = parts.flatten.filterMap (fun i => (X.zip Y)[i]?) := by
      clear h1 h2
      induction parts with
      | nil => simp
      | cons I parts ih =>
        rw [List.map_cons, List.flatMap_cons, ih (fun I' h' => hin I' (by simp [h'])), List.flatten_cons, List.filterMap_append]
        rw [zip_pick I X Y (hin I (by simp)) (fun i hi => hY ▸ hin I (by simp) i hi)]
    rw [e]
    have hz : (X.zip Y).length = X.length := by simp [hY]
    have := h2.filterMap (fun i => (X.zip Y)[i]?)
    rwa [← hz, pick_range] at this

/-- **C67** With the inputs alone: the batches rearrange the training inputs, and (third component) the derivatives are paired like the inputs. -/
theorem C67_derivatives_preserved (perm : List ℕ) (X : List α) (Y : List β) (J : List γ) (size : ℕ) (hp : perm.Perm (List.range X.length)) (hY : Y.length = X.length)
    (hJ : J.length = X.length) (bs : List (List α × List β × Option (List γ))) (h : miniBatches perm X Y (some J) size = some bs) :
    (bs.flatMap fun b => b.1.zip (b.2.2.getD [])).Perm (X.zip J) := by
  rcases Nat.eq_zero_or_pos (min size X.length) with h0 | h0
  · unfold miniBatches at h; simp [h0] at h
  · have hm : X ≠ [] := List.length_pos_iff.1 (by omega)
    obtain ⟨parts, h1, h2, -⟩ := C67_batches perm X Y (some J) size hp hY (by simpa using hJ) hm (by omega)
    rw [h1, Option.some.injEq] at h
    subst h
    have hin : ∀ I ∈ parts, ∀ i ∈ I, i < X.length := fun I hI i hi => by simpa using h2.mem_iff.1 (List.mem_flatten.2 ⟨I, hI, hi⟩)
    have e : (parts.map fun I => (I.filterMap (fun i => X[i]?), I.filterMap (fun i => Y[i]?), (some J).map fun J => I.filterMap (fun i => J[i]?))).flatMap
          (fun b => b.1.zip (b.2.2.getD []))
        = parts.flatten.filterMap (fun i => (X.zip J)[i]?) := by
      clear h1 h2
      induction parts with
      | nil => simp
      | cons I parts ih =>
        rw [List.map_cons, List.flatMap_cons, ih (fun I' h' => hin I' (by simp [h'])), List.flatten_cons, List.filterMap_append]
        simp only [Option.map_some, Option.getD_some]
        rw [zip_pick I X J (hin I (by simp)) (fun i hi => hJ ▸ hin I (by simp) i hi)]
    rw [e]
    have hz : (X.zip J).length = X.length := by simp [hJ]
    have := h2.filterMap (fun i => (X.zip J)[i]?)
    rwa [← hz, pick_range] at this

/-- **C67** Splitting fails (`ZeroDivisionError`) exactly without examples or with batch size 0. -/
theorem C67_fails_iff (perm : List ℕ) (X : List α) (Y : List β) (J : Option (List γ)) (size : ℕ) : miniBatches perm X Y J size = none ↔ X = [] ∨ size = 0 := by
  unfold miniBatches
  by_cases h : min size X.length = 0
  · simp only [h, if_true, true_iff]
    rcases Nat.eq_zero_or_pos size with h1 | h1
    · exact Or.inr h1
    · exact Or.inl (List.length_eq_zero_iff.1 (by omega))
  · simp only [h, if_false]
    have : ¬(X = [] ∨ size = 0) := by
      rintro (h1 | h1)
      · subst h1; simp at h
      · subst h1; simp at h
    simp only [this, iff_false]
    split_ifs <;> simp

/-- **C67** A batch of a single example (which the gradient of the cost function rejects, `C53_failures`) appears as soon as the number of examples exceeds the batch size by one modulo the
batch size: e.g. 65 examples with the default batch size 64. -/
theorem C67_single_example_batch (perm : List ℕ) (X : List α) (Y : List β) (J : Option (List γ)) (size : ℕ) (hp : perm.Perm (List.range X.length)) (hY : Y.length = X.length)
    (hJ : ∀ J', J = some J' → J'.length = X.length) (hs : 0 < size) (h1 : size < X.length) (h2 : X.length % size = 1) :
    ∃ bs b, miniBatches perm X Y J size = some (bs ++ [b]) ∧ b.1.length = 1 := by
  have hl : perm.length = X.length := by simpa using hp.length_eq
  have hm : X ≠ [] := List.length_pos_iff.1 (by omega)
  rw [miniBatches_eq perm X Y J size hp hY hJ hm hs, Nat.min_eq_left h1.le]
  unfold chunks
  simp only [hl, h2, ne_eq, one_ne_zero, not_false_eq_true, if_true, List.map_append, List.map_cons, List.map_nil]
  refine ⟨_, _, rfl, ?_⟩
  have : (shuffle (perm.drop (X.length / size * size)) X).length = (perm.drop (X.length / size * size)).length :=
    filterMap_length _ _ fun i hi => by
      have := hp.mem_iff.1 (List.mem_of_mem_drop hi)
      simpa using this
  rw [this, List.length_drop, hl]
  have := Nat.div_add_mod X.length size
  rw [mul_comm]; omega

example : miniBatches [3, 0, 4, 1, 2] [10, 11, 12, 13, 14] ["a", "b", "c", "d", "e"] (none : Option (List ℕ)) 2
    = some [([13, 10], ["d", "a"], none), ([14, 11], ["e", "b"], none), ([12], ["c"], none)] := by decide +kernel

example : [3, 0, 4, 1, 2].Perm (List.range [10, 11, 12, 13, 14].length) := by decide

end batches

/-! ### C68 optimiser -/

section opt
variable {K ι : Type} [Field K] [LinearOrder K] [IsStrictOrderedRing K]

theorem lsLoop_terminates (f : (ι → K) → K) (upd : K → Opt K ι → Opt K ι) (rate : K) (n : ℕ) : ∀ (tau : K) (o : Opt K ι), rate * tau ^ 2 ^ n < 1 / 1000000 →
    (lsLoop f upd rate (n + 1) tau o).isSome := by
  induction n with
  | zero =>
    intro tau o h
    simp only [pow_zero, pow_one] at h
    unfold lsLoop
    simp only [h, if_true]
    split_ifs <;> rfl
  | succ n ih =>
    intro tau o h
    rw [lsLoop]
    split_ifs
    · rfl
    · rfl
    · apply ih
      rwa [← pow_two, ← pow_mul, ← pow_succ']

theorem half_clip : max (0 : K) (min 1 (1 / 2)) = 1 / 2 := by
  rw [min_eq_right (by norm_num), max_eq_right (by norm_num)]

/-- **C68** The line search always terminates: whatever the objective, the update rule and the learning rate; after `n + 1` trials if `rate < 10⁻⁶ · 2^(2^n)`. -/
theorem C68_line_search_terminates [Archimedean K] (f : (ι → K) → K) (upd : K → Opt K ι → Opt K ι) (rate : K) :
    ∃ fuel, ∀ o, (lineSearch fuel f upd rate o).isSome := by
  obtain ⟨n, hn⟩ := pow_unbounded_of_one_lt (rate * 1000000) (one_lt_two : (1 : K) < 2)
  refine ⟨n + 1, fun o => ?_⟩
  unfold lineSearch
  rw [half_clip]
  apply lsLoop_terminates
  have h2 : (2 : K) ^ n ≤ 2 ^ 2 ^ n := pow_le_pow_right₀ (by norm_num) (Nat.lt_two_pow_self).le
  have hp : (0 : K) < 2 ^ 2 ^ n := by positivity
  rw [one_div, inv_pow, ← div_eq_mul_inv, div_lt_iff₀ hp]
  linarith

/-- **C68** For learning rates up to 4000 (the default is 0.05) six trials always suffice. -/
theorem C68_six_trials (f : (ι → K) → K) (upd : K → Opt K ι → Opt K ι) (rate : K) (hr : rate ≤ 4000) (o : Opt K ι) : (lineSearch 6 f upd rate o).isSome := by
  unfold lineSearch
  rw [half_clip]
  apply lsLoop_terminates (n := 5)
  have : rate * (1 / 2) ^ 2 ^ 5 ≤ 4000 * (1 / 2) ^ 2 ^ 5 := mul_le_mul_of_nonneg_right hr (by positivity)
  refine this.trans_lt ?_
  norm_num

theorem lsLoop_gd (f : (ι → K) → K) (rate : K) : ∀ (fuel : ℕ) (tau : K) (o o' : Opt K ι), lsLoop f gdUpdate rate fuel tau o = some o' →
    ∃ k, o' = { o with cur := fun i => o.prev i - rate * tau ^ 2 ^ k * o.dir i } ∧ (f o'.cur < f o.prev ∨ rate * tau ^ 2 ^ k < 1 / 1000000) ∧
      ∀ j < k, ¬ f (fun i => o.prev i - rate * tau ^ 2 ^ j * o.dir i) < f o.prev := by
  intro fuel
  induction fuel with
  | zero => intro tau o o' h; simp [lsLoop] at h
  | succ n ih =>
    intro tau o o' h
    rw [lsLoop] at h
    split_ifs at h with h1 h2
    · rw [Option.some.injEq] at h
      subst h
      exact ⟨0, by simp [gdUpdate], Or.inl (by simpa [gdUpdate] using h1), by simp⟩
    · rw [Option.some.injEq] at h
      subst h
      exact ⟨0, by simp [gdUpdate], Or.inr (by simpa using h2), by simp⟩
    · obtain ⟨k, e1, e2, e3⟩ := ih _ _ _ h
      have ek : ∀ k, (tau * tau) ^ 2 ^ k = tau ^ 2 ^ (k + 1) := fun k => by rw [← pow_two, ← pow_mul, ← pow_succ']
      simp only [ek] at e1 e2 e3
      refine ⟨k + 1, e1, e2, fun j hj => ?_⟩
      cases j with
      | zero => simpa [gdUpdate] using h1
      | succ j => exact e3 j (by omega)

/-- **C68** One pass of the gradient-descent optimiser moves from the current design `x` to `x - s·∇f(x)` for a step `s = rate · 2^(-2^k)`, where either the cost decreased, or the step
was below `10⁻⁶` and was taken regardless; all longer steps of the sequence were tried and did not decrease the cost. The cost and the design are appended to the histories. -/
theorem C68_gd_step (fuel : ℕ) (f : (ι → K) → K) (g : (ι → K) → ι → K) (rate : K) (i : ℕ) (o o' : Opt K ι) (h : optStep fuel f g gdUpdate rate i o = some o') :
    ∃ k : ℕ, o'.cur = (fun j => o.cur j - rate * (1 / 2) ^ 2 ^ k * g o.cur j) ∧
      (f o'.cur < f o.cur ∨ rate * (1 / 2) ^ 2 ^ k < 1 / 1000000) ∧
      (∀ j < k, f o.cur ≤ f (fun e => o.cur e - rate * (1 / 2) ^ 2 ^ j * g o.cur e)) ∧
      o'.costs = o.costs ++ [f o'.cur] ∧ o'.designs = o.designs ++ [o'.cur] := by
  unfold optStep at h
  obtain ⟨o1, h1, rfl⟩ := Option.map_eq_some_iff.1 h
  unfold lineSearch at h1
  rw [half_clip] at h1
  obtain ⟨k, e1, e2, e3⟩ := lsLoop_gd f rate _ _ _ _ h1
  subst e1
  exact ⟨k, rfl, e2, fun j hj => not_lt.1 (e3 j hj), rfl, rfl⟩

/-- Gradient descent update as an instance: five trials on `f = x²` with rate 8: the first decreasing step is 1/2 (`8 · 2^(-4)`). -/
example : (optStep 6 (fun x : Unit → ℚ => x () ^ 2) (fun x _ => 2 * x ()) gdUpdate 8 0
    { cur := fun _ => 1, prev := fun _ => 1, dir := fun _ => 0, iter := 0, beta1 := 0, beta2 := 0, v := none, s := none, costs := [1], designs := [] }).map
      (fun o => (o.cur (), o.costs)) = some (0, [1, 0]) := by decide +kernel

/-- **C68** The bound 10⁻⁶ is no guarantee of decrease: on the convex `f = 10¹² x²` one pass of gradient descent from `x = 1` multiplies the cost by more than 200000, and the result of
the optimisation is this last design, not the best design of the history. -/
theorem C68_may_return_worse : ∃ (f : (Unit → ℚ) → ℚ) (g : (Unit → ℚ) → Unit → ℚ) (x0 : Unit → ℚ) (o : Opt ℚ Unit),
    (∀ x, f x = 10 ^ 12 * x () ^ 2) ∧ (∀ x u, g x u = 2 * 10 ^ 12 * x ()) ∧ optimize 10 f g gdUpdate 1 (9 / 10) (99 / 100) 1 x0 = some o ∧ 200000 * f x0 < f o.cur := by
  refine ⟨fun x => 10 ^ 12 * x () ^ 2, fun x _ => 2 * 10 ^ 12 * x (), fun _ => 1, ?_⟩
  have h : ((optimize 10 (fun x : Unit → ℚ => 10 ^ 12 * x () ^ 2) (fun x _ => 2 * 10 ^ 12 * x ()) gdUpdate 1 (9 / 10) (99 / 100) 1 (fun _ => 1)).any
      (fun o => decide (200000 * (10 ^ 12 * (1 : ℚ) ^ 2) < 10 ^ 12 * o.cur () ^ 2))) = true := by decide +kernel
  cases he : optimize 10 (fun x : Unit → ℚ => 10 ^ 12 * x () ^ 2) (fun x _ => 2 * 10 ^ 12 * x ()) gdUpdate 1 (9 / 10) (99 / 100) 1 (fun _ => 1) with
  | none => rw [he] at h; simp at h
  | some o =>
    rw [he] at h
    exact ⟨o, fun _ => rfl, fun _ _ => rfl, rfl, by simpa using h⟩

/-! Adam -/

/-- Equal up to the two coefficients. -/
def SameButBetas (o p : Opt K ι) : Prop := p = { o with beta1 := p.beta1, beta2 := p.beta2 }

theorem same_adam (root : K → K) (eps rate : K) (o p : Opt K ι) (h : SameButBetas o p) : SameButBetas (adamUpdate root eps rate o) (adamUpdate root eps rate p) := by
  unfold SameButBetas at h ⊢
  rw [h]; rfl

/-- Same outcome of two computations, up to the coefficients. -/
def SameOut (a b : Option (Opt K ι)) : Prop := (a = none ∧ b = none) ∨ ∃ o p, a = some o ∧ b = some p ∧ SameButBetas o p

theorem same_lsLoop (root : K → K) (eps : K) (f : (ι → K) → K) (rate : K) : ∀ (fuel : ℕ) (tau : K) (o p : Opt K ι), SameButBetas o p →
    SameOut (lsLoop f (adamUpdate root eps) rate fuel tau o) (lsLoop f (adamUpdate root eps) rate fuel tau p) := by
  intro fuel
  induction fuel with
  | zero => intro tau o p h; exact Or.inl ⟨rfl, rfl⟩
  | succ n ih =>
    intro tau o p h
    have h' := same_adam root eps (rate * tau) o p h
    have ec : (adamUpdate root eps (rate * tau) p).cur = (adamUpdate root eps (rate * tau) o).cur := by rw [h']
    have ep : (adamUpdate root eps (rate * tau) p).prev = (adamUpdate root eps (rate * tau) o).prev := by rw [h']
    rw [lsLoop, lsLoop]
    simp only [ec, ep]
    split_ifs
    · exact Or.inr ⟨_, _, rfl, rfl, h'⟩
    · exact Or.inr ⟨_, _, rfl, rfl, h'⟩
    · exact ih _ _ _ h'

theorem same_optStep (root : K → K) (eps : K) (f : (ι → K) → K) (g : (ι → K) → ι → K) (rate : K) (fuel i : ℕ) (o p : Opt K ι) (h : SameButBetas o p) :
    SameOut (optStep fuel f g (adamUpdate root eps) rate i o) (optStep fuel f g (adamUpdate root eps) rate i p) := by
  have hh : SameButBetas ({ { o with iter := i, dir := g o.cur } with prev := o.cur } : Opt K ι) { { p with iter := i, dir := g p.cur } with prev := p.cur } := by
    unfold SameButBetas at h ⊢
    rw [h]
  unfold optStep lineSearch
  rcases same_lsLoop root eps f rate fuel _ _ _ hh with ⟨h1, h2⟩ | ⟨a, b, h1, h2, h3⟩
  · exact Or.inl ⟨by rw [h1]; rfl, by rw [h2]; rfl⟩
  · refine Or.inr ⟨_, _, by rw [h1]; rfl, by rw [h2]; rfl, ?_⟩
    unfold SameButBetas at h3 ⊢
    rw [h3]

theorem same_optLoop (root : K → K) (eps : K) (f : (ι → K) → K) (g : (ι → K) → ι → K) (rate : K) (fuel : ℕ) : ∀ (left i : ℕ) (n : ℕ × ℕ) (o p : Opt K ι), SameButBetas o p →
    SameOut (optLoop fuel f g (adamUpdate root eps) rate left i n o) (optLoop fuel f g (adamUpdate root eps) rate left i n p) := by
  intro left
  induction left with
  | zero => intro i n o p h; exact Or.inr ⟨_, _, rfl, rfl, h⟩
  | succ left ih =>
    intro i n o p h
    rw [optLoop, optLoop]
    rcases same_optStep root eps f g rate fuel i o p h with ⟨h1, h2⟩ | ⟨a, b, h1, h2, h3⟩
    · rw [h1, h2]; exact Or.inl ⟨rfl, rfl⟩
    · rw [h1, h2]
      have hc : b.costs = a.costs := by rw [h3]
      simp only [hc]
      split_ifs
      · exact Or.inr ⟨_, _, rfl, rfl, h3⟩
      · exact ih _ _ _ _ h3

/-- **C68** The options `beta1`, `beta2` have no effect: with the Adam optimiser any two choices give the same cost history, the same design history and the same optimum (or
both run out of time). -/
theorem C68_betas_ignored (root : K → K) (eps : K) (fuel : ℕ) (f : (ι → K) → K) (g : (ι → K) → ι → K) (rate b1 b2 c1 c2 : K) (maxIter : ℕ) (x0 : ι → K) :
    (optimize fuel f g (adamUpdate root eps) rate b1 b2 maxIter x0).map (fun o => (o.costs, o.designs, o.cur))
      = (optimize fuel f g (adamUpdate root eps) rate c1 c2 maxIter x0).map (fun o => (o.costs, o.designs, o.cur)) := by
  unfold optimize
  rcases same_optLoop root eps f g rate fuel maxIter 0 (0, 0)
    { cur := x0, prev := x0, dir := fun _ => 0, iter := 0, beta1 := b1, beta2 := b2, v := none, s := none, costs := [f x0], designs := [x0] }
    { cur := x0, prev := x0, dir := fun _ => 0, iter := 0, beta1 := c1, beta2 := c2, v := none, s := none, costs := [f x0], designs := [x0] } rfl with
      ⟨h1, h2⟩ | ⟨a, b, h1, h2, h3⟩
  · rw [h1, h2]
  · rw [h1, h2, h3]; rfl

theorem lsLoop_adam (root : K → K) (eps : K) (f : (ι → K) → K) (rate : K) : ∀ (fuel : ℕ) (tau : K) (o o' : Opt K ι), lsLoop f (adamUpdate root eps) rate fuel tau o = some o' →
    o'.prev = o.prev ∧ o'.dir = o.dir ∧ o'.iter = o.iter ∧ o'.costs = o.costs ∧ o'.designs = o.designs ∧
    ∃ k, (f o'.cur < f o.prev ∨ rate * tau ^ 2 ^ k < 1 / 1000000) ∧
      (∀ i, (o'.v.getD fun _ => 0) i = (9 / 10) ^ (k + 1) * (o.v.getD fun _ => 0) i + (1 - (9 / 10) ^ (k + 1)) * o.dir i) ∧
      (∀ i, (o'.s.getD fun _ => 0) i = (99 / 100) ^ (k + 1) * (o.s.getD fun _ => 0) i + (1 - (99 / 100) ^ (k + 1)) * o.dir i ^ 2) ∧
      ∀ i, o'.cur i = o.prev i - rate * tau ^ 2 ^ k * ((o'.v.getD fun _ => 0) i / (1 - (9 / 10) ^ (o.iter + 1)))
        / (root ((o'.s.getD fun _ => 0) i / (1 - (99 / 100) ^ (o.iter + 1))) + eps) := by
  intro fuel
  induction fuel with
  | zero => intro tau o o' h; simp [lsLoop] at h
  | succ n ih =>
    intro tau o o' h
    rw [lsLoop] at h
    split_ifs at h with h1 h2
    · rw [Option.some.injEq] at h
      subst h
      refine ⟨rfl, rfl, rfl, rfl, rfl, 0, Or.inl h1, fun i => ?_, fun i => ?_, fun i => ?_⟩
      · simp [adamUpdate]
      · simp [adamUpdate]
      · simp [adamUpdate]
    · rw [Option.some.injEq] at h
      subst h
      refine ⟨rfl, rfl, rfl, rfl, rfl, 0, Or.inr (by simpa using h2), fun i => ?_, fun i => ?_, fun i => ?_⟩
      · simp [adamUpdate]
      · simp [adamUpdate]
      · simp [adamUpdate]
    · obtain ⟨a1, a2, a3, a4, a5, k, e1, e2, e3, e4⟩ := ih _ _ _ h
      have ek : (tau * tau) ^ 2 ^ k = tau ^ 2 ^ (k + 1) := by rw [← pow_two, ← pow_mul, ← pow_succ']
      rw [ek] at e1
      simp only [ek] at e4
      refine ⟨a1, a2, a3, a4, a5, k + 1, e1, fun i => ?_, fun i => ?_, fun i => e4 i⟩
      · rw [e2 i]
        simp only [adamUpdate, Option.getD_some]
        ring
      · rw [e3 i]
        simp only [adamUpdate, Option.getD_some]
        ring

/-- **C68** The line search calls the Adam update once per trial, and every call updates the moment estimates: when the accepted step of a pass was the `(k+1)`-th trial, the gradient has been
averaged into the moments `k + 1` times, while the bias correction counts the pass once. -/
theorem C68_adam_step (root : K → K) (eps : K) (fuel : ℕ) (f : (ι → K) → K) (g : (ι → K) → ι → K) (rate : K) (i : ℕ) (o o' : Opt K ι)
    (h : optStep fuel f g (adamUpdate root eps) rate i o = some o') :
    ∃ k : ℕ, (f o'.cur < f o.cur ∨ rate * (1 / 2) ^ 2 ^ k < 1 / 1000000) ∧
      (∀ j, (o'.v.getD fun _ => 0) j = (9 / 10) ^ (k + 1) * (o.v.getD fun _ => 0) j + (1 - (9 / 10) ^ (k + 1)) * g o.cur j) ∧
      (∀ j, (o'.s.getD fun _ => 0) j = (99 / 100) ^ (k + 1) * (o.s.getD fun _ => 0) j + (1 - (99 / 100) ^ (k + 1)) * g o.cur j ^ 2) ∧
      (∀ j, o'.cur j = o.cur j - rate * (1 / 2) ^ 2 ^ k * ((o'.v.getD fun _ => 0) j / (1 - (9 / 10) ^ (i + 1)))
        / (root ((o'.s.getD fun _ => 0) j / (1 - (99 / 100) ^ (i + 1))) + eps)) ∧
      o'.costs = o.costs ++ [f o'.cur] ∧ o'.designs = o.designs ++ [o'.cur] := by
  unfold optStep at h
  obtain ⟨o1, h1, rfl⟩ := Option.map_eq_some_iff.1 h
  unfold lineSearch at h1
  rw [half_clip] at h1
  obtain ⟨a1, a2, a3, a4, a5, k, e1, e2, e3, e4⟩ := lsLoop_adam root eps f rate _ _ _ _ h1
  exact ⟨k, e1, e2, e3, e4, by simp [a4], by simp [a5]⟩

/-! Histories and stopping -/

/-- The update rules of the code do not touch the histories. -/
def Keeps (upd : K → Opt K ι → Opt K ι) : Prop := ∀ r o, (upd r o).costs = o.costs ∧ (upd r o).designs = o.designs

theorem keeps_gd : Keeps (gdUpdate (K := K) (ι := ι)) := fun _ _ => ⟨rfl, rfl⟩
theorem keeps_adam (root : K → K) (eps : K) : Keeps (adamUpdate (ι := ι) root eps) := fun _ _ => ⟨rfl, rfl⟩

theorem keeps_lsLoop (upd : K → Opt K ι → Opt K ι) (hu : Keeps upd) (f : (ι → K) → K) (rate : K) : ∀ (fuel : ℕ) (tau : K) (o o' : Opt K ι), lsLoop f upd rate fuel tau o = some o' →
    o'.costs = o.costs ∧ o'.designs = o.designs := by
  intro fuel
  induction fuel with
  | zero => intro tau o o' h; simp [lsLoop] at h
  | succ n ih =>
    intro tau o o' h
    rw [lsLoop] at h
    split_ifs at h with h1 h2
    · rw [Option.some.injEq] at h; subst h; exact hu _ _
    · rw [Option.some.injEq] at h; subst h; exact hu _ _
    · obtain ⟨a, b⟩ := ih _ _ _ h
      exact ⟨a.trans (hu _ _).1, b.trans (hu _ _).2⟩

theorem optStep_hist (upd : K → Opt K ι → Opt K ι) (hu : Keeps upd) (f : (ι → K) → K) (g : (ι → K) → ι → K) (rate : K) (fuel i : ℕ) (o o' : Opt K ι)
    (h : optStep fuel f g upd rate i o = some o') : o'.costs = o.costs ++ [f o'.cur] ∧ o'.designs = o.designs ++ [o'.cur] := by
  unfold optStep at h
  obtain ⟨o1, h1, rfl⟩ := Option.map_eq_some_iff.1 h
  obtain ⟨a, b⟩ := keeps_lsLoop upd hu f rate _ _ _ _ h1
  exact ⟨by simp [a], by simp [b]⟩

/-- Specification of the two stopping criteria on a cost history: step `k` (from cost `k-1` to cost `k`) is small in absolute (relative to the first cost) or relative terms. -/
def SmallAbs (c : List K) (k : ℕ) : Prop := |c.getD k 0 - c.getD (k - 1) 0| < 1 / 10000000 * c.getD 0 0
def SmallRel (c : List K) (k : ℕ) : Prop := |c.getD k 0 - c.getD (k - 1) 0| / max |c.getD k 0| (1 / 1000000) < 1 / 10000000

instance (c : List K) (k : ℕ) : Decidable (SmallAbs c k) := by unfold SmallAbs; infer_instance
instance (c : List K) (k : ℕ) : Decidable (SmallRel c k) := by unfold SmallRel; infer_instance

/-- What the optimiser should have stopped on: the last 101 steps, none of them the first or second, are all small by one of the criteria. -/
def Converged (c : List K) : Prop := 104 ≤ c.length ∧ ((∀ k, c.length - 101 ≤ k → k < c.length → SmallAbs c k) ∨ ∀ k, c.length - 101 ≤ k → k < c.length → SmallRel c k)

theorem getD_append_left (c d : List K) (k : ℕ) (h : k < c.length) : (c ++ d).getD k 0 = c.getD k 0 := by
  simp [List.getD_eq_getElem?_getD, List.getElem?_append_left h]

/-- Meaning of the counters after pass `i - 1`: trailing numbers of small steps, among the steps from pass 2 on. `i + 1` is the number of recorded costs. -/
def CountOk (i : ℕ) (n : ℕ × ℕ) (c : List K) : Prop :=
  c.length = i + 1 ∧ (∀ t, t ≤ n.1 ↔ t ≤ i - 2 ∧ ∀ k, c.length - t ≤ k → k < c.length → SmallAbs c k) ∧
    ∀ t, t ≤ n.2 ↔ t ≤ i - 2 ∧ ∀ k, c.length - t ≤ k → k < c.length → SmallRel c k

theorem trail_step (P P' : ℕ → Prop) (i n L : ℕ) (hP : ∀ k < L, k ≠ 0 → (P' k ↔ P k)) (hL : L = i + 1) (hi : 2 ≤ i) (h : ∀ t, t ≤ n ↔ t ≤ i - 2 ∧ ∀ k, L - t ≤ k → k < L → P k) [Decidable (P' L)] :
    ∀ t, t ≤ (if P' L then n + 1 else 0) ↔ t ≤ i + 1 - 2 ∧ ∀ k, L + 1 - t ≤ k → k < L + 1 → P' k := by
  have hn : n ≤ i - 2 := ((h n).1 le_rfl).1
  intro t
  by_cases hp : P' L
  · rw [if_pos hp]
    cases t with
    | zero => simp; omega
    | succ t =>
      have := h t
      constructor
      · intro ht
        obtain ⟨a, b⟩ := this.1 (by omega)
        refine ⟨by omega, fun k hk1 hk2 => ?_⟩
        by_cases hk : k = L
        · rw [hk]; exact hp
        · exact (hP k (by omega) (by omega)).2 (b k (by omega) (by omega))
      · rintro ⟨a, b⟩
        have := this.2 ⟨by omega, fun k hk1 hk2 => (hP k hk2 (by omega)).1 (b k (by omega) (by omega))⟩
        omega
  · rw [if_neg hp]
    constructor
    · intro ht
      have : t = 0 := by omega
      subst this
      exact ⟨by omega, fun k hk1 hk2 => by omega⟩
    · rintro ⟨a, b⟩
      by_contra hc
      exact hp (b L (by omega) (by omega))

theorem counters_ok (i : ℕ) (n : ℕ × ℕ) (c : List K) (x : K) (h : CountOk i n c) : CountOk (i + 1) (counters i n (c ++ [x])) (c ++ [x]) := by
  obtain ⟨h1, h2, h3⟩ := h
  refine ⟨by simp [h1], ?_⟩
  by_cases hi : i > 1
  · have hA : ∀ k < c.length, k ≠ 0 → (SmallAbs (c ++ [x]) k ↔ SmallAbs c k) := fun k hk _ => by
      unfold SmallAbs
      rw [getD_append_left c _ k hk, getD_append_left c _ (k - 1) (by omega), getD_append_left c _ 0 (by omega)]
    have hR : ∀ k < c.length, k ≠ 0 → (SmallRel (c ++ [x]) k ↔ SmallRel c k) := fun k hk _ => by
      unfold SmallRel
      rw [getD_append_left c _ k hk, getD_append_left c _ (k - 1) (by omega)]
    unfold counters
    rw [if_pos hi]
    have e : (c ++ [x]).length = c.length + 1 := by simp
    have e1 : c.length + 1 - 1 = c.length := by omega
    have e2 : c.length + 1 - 2 = c.length - 1 := by omega
    simp only [e, e1, e2]
    constructor
    · exact trail_step (SmallAbs c) (SmallAbs (c ++ [x])) i n.1 c.length hA h1 hi h2
    · exact trail_step (SmallRel c) (SmallRel (c ++ [x])) i n.2 c.length hR h1 hi h3
  · unfold counters
    rw [if_neg hi]
    have e : i - 2 = 0 := by omega
    have e' : i + 1 - 2 = 0 := by omega
    rw [e] at h2 h3
    have a1 : ∀ t, t ≤ n.1 ↔ t = 0 := fun t => by
      rw [h2 t]
      constructor
      · rintro ⟨a, -⟩; omega
      · rintro rfl; exact ⟨le_rfl, fun k hk1 hk2 => by omega⟩
    have a2 : ∀ t, t ≤ n.2 ↔ t = 0 := fun t => by
      rw [h3 t]
      constructor
      · rintro ⟨a, -⟩; omega
      · rintro rfl; exact ⟨le_rfl, fun k hk1 hk2 => by omega⟩
    rw [e']
    refine ⟨fun t => ?_, fun t => ?_⟩
    · rw [a1]
      exact ⟨by rintro rfl; exact ⟨le_rfl, fun k hk1 hk2 => by omega⟩, fun ⟨a, _⟩ => by omega⟩
    · rw [a2]
      exact ⟨by rintro rfl; exact ⟨le_rfl, fun k hk1 hk2 => by omega⟩, fun ⟨a, _⟩ => by omega⟩

theorem stop_iff (i : ℕ) (n : ℕ × ℕ) (c : List K) (h : CountOk (i + 1) n c) : (i > 1 ∧ (n.1 > 100 ∨ n.2 > 100)) ↔ Converged c := by
  obtain ⟨h1, h2, h3⟩ := h
  unfold Converged
  have a := h2 101
  have b := h3 101
  constructor
  · rintro ⟨hi, hh⟩
    rcases hh with hh | hh
    · obtain ⟨p, q⟩ := a.1 hh
      exact ⟨by omega, Or.inl q⟩
    · obtain ⟨p, q⟩ := b.1 hh
      exact ⟨by omega, Or.inr q⟩
  · rintro ⟨hl, hh⟩
    refine ⟨by omega, ?_⟩
    rcases hh with hh | hh
    · exact Or.inl (a.2 ⟨by omega, hh⟩)
    · exact Or.inr (b.2 ⟨by omega, hh⟩)

theorem optLoop_spec (upd : K → Opt K ι → Opt K ι) (hu : Keeps upd) (f : (ι → K) → K) (g : (ι → K) → ι → K) (rate : K) (fuel : ℕ) : ∀ (left i : ℕ) (n : ℕ × ℕ) (o o' : Opt K ι),
    CountOk i n o.costs → o.costs = o.designs.map f → o.designs.getLast? = some o.cur → (∀ l, l < o.costs.length → 0 < l → ¬Converged (o.costs.take (l + 1))) →
    optLoop fuel f g upd rate left i n o = some o' →
    o.designs <+: o'.designs ∧ o'.costs = o'.designs.map f ∧ o'.designs.getLast? = some o'.cur ∧ o'.costs.length ≤ i + left + 1 ∧
      (o'.costs.length < i + left + 1 → Converged o'.costs) ∧ (∀ l, 0 < l → l + 1 < o'.costs.length → ¬Converged (o'.costs.take (l + 1))) := by
  intro left
  induction left with
  | zero =>
    intro i n o o' hc hd hl hn h
    rw [optLoop, Option.some.injEq] at h
    subst h
    exact ⟨List.prefix_rfl, hd, hl, by rw [hc.1], fun h => by rw [hc.1] at h; omega, fun l h0 h1 => hn l (by omega) h0⟩
  | succ left ih =>
    intro i n o o' hc hd hl hn h
    rw [optLoop] at h
    cases hs : optStep fuel f g upd rate i o with
    | none => rw [hs] at h; simp at h
    | some o1 =>
      rw [hs] at h
      obtain ⟨e1, e2⟩ := optStep_hist upd hu f g rate fuel i o o1 hs
      have hc1 : CountOk (i + 1) (counters i n o1.costs) o1.costs := by rw [e1]; exact counters_ok i n o.costs _ hc
      have hst := stop_iff i _ _ hc1
      have hd1 : o1.costs = o1.designs.map f := by rw [e1, e2, List.map_append, hd]; rfl
      have hl1 : o1.designs.getLast? = some o1.cur := by rw [e2]; simp
      have hlen : o1.costs.length = i + 2 := hc1.1
      have hlen0 : o.costs.length = i + 1 := hc.1
      have hpre : o.designs <+: o1.designs := by rw [e2]; exact List.prefix_append _ _
      have htake : ∀ l, l < o.costs.length → o1.costs.take (l + 1) = o.costs.take (l + 1) := fun l hl => by
        rw [e1, List.take_append_of_le_length (by omega)]
      simp only at h
      by_cases hstop : i > 1 ∧ ((counters i n o1.costs).1 > 100 ∨ (counters i n o1.costs).2 > 100)
      · rw [if_pos hstop, Option.some.injEq] at h
        subst h
        refine ⟨hpre, hd1, hl1, by omega, fun _ => hst.1 hstop, fun l h0 h1 => ?_⟩
        rw [htake l (by omega)]
        exact hn l (by omega) h0
      · rw [if_neg hstop] at h
        obtain ⟨p1, p2, p3, p4, p5, p6⟩ := ih (i + 1) _ o1 o' hc1 hd1 hl1 (fun l h1 h0 => by
          by_cases hle : l < o.costs.length
          · rw [htake l hle]; exact hn l hle h0
          · rw [List.take_of_length_le (by omega)]
            exact fun hcv => hstop (hst.2 hcv)) h
        exact ⟨hpre.trans p1, p2, p3, by omega, fun hh => p5 (by omega), p6⟩

/-- **C68** Histories of an optimisation (gradient descent or Adam): the design history starts with the initial design and ends with the returned design; the cost history is the cost of each design
of the history; there are at most `max_iter + 1` entries; if there are fewer, then the last 101 steps were all below one of the two tolerances; and the optimiser stops the first time
this is the case. -/
theorem C68_history (upd : K → Opt K ι → Opt K ι) (hupd : upd = gdUpdate ∨ ∃ root eps, upd = adamUpdate root eps) (fuel : ℕ) (f : (ι → K) → K) (g : (ι → K) → ι → K)
    (rate b1 b2 : K) (maxIter : ℕ) (x0 : ι → K) (o : Opt K ι) (h : optimize fuel f g upd rate b1 b2 maxIter x0 = some o) :
    o.designs.head? = some x0 ∧ o.designs.getLast? = some o.cur ∧ o.costs = o.designs.map f ∧ o.costs.length ≤ maxIter + 1 ∧
      (o.costs.length < maxIter + 1 → Converged o.costs) ∧ (∀ l, 0 < l → l + 1 < o.costs.length → ¬Converged (o.costs.take (l + 1))) := by
  have hu : Keeps upd := by
    rcases hupd with rfl | ⟨root, eps, rfl⟩
    · exact keeps_gd
    · exact keeps_adam root eps
  unfold optimize at h
  obtain ⟨p1, p2, p3, p4, p5, p6⟩ := optLoop_spec upd hu f g rate fuel maxIter 0 (0, 0) _ o
    ⟨rfl, fun t => ⟨fun ht => ⟨ht, fun k h1 h2 => by simp at ht h1 h2; omega⟩, fun ht => ht.1⟩, fun t => ⟨fun ht => ⟨ht, fun k h1 h2 => by simp at ht h1 h2; omega⟩, fun ht => ht.1⟩⟩
    rfl rfl (fun l h1 h2 => by simp at h1; omega) h
  refine ⟨?_, p3, p2, by omega, fun hh => p5 (by omega), p6⟩
  obtain ⟨t, ht⟩ := p1
  rw [← ht]; rfl

/-- **C68** With at most 103 iterations (the default of the option `num_iterations` is 100) the optimiser never stops early: it makes exactly `max_iter` passes. -/
theorem C68_no_early_stop (upd : K → Opt K ι → Opt K ι) (hupd : upd = gdUpdate ∨ ∃ root eps, upd = adamUpdate root eps) (fuel : ℕ) (f : (ι → K) → K) (g : (ι → K) → ι → K)
    (rate b1 b2 : K) (maxIter : ℕ) (hm : maxIter ≤ 103) (x0 : ι → K) (o : Opt K ι) (h : optimize fuel f g upd rate b1 b2 maxIter x0 = some o) :
    o.costs.length = maxIter + 1 := by
  obtain ⟨-, -, -, h4, h5, -⟩ := C68_history upd hupd fuel f g rate b1 b2 maxIter x0 o h
  by_contra hne
  have := (h5 (by omega)).1
  omega

theorem optLoop_isSome (upd : K → Opt K ι → Opt K ι) (f : (ι → K) → K) (g : (ι → K) → ι → K) (rate : K) (fuel : ℕ) (hf : ∀ o, (lineSearch fuel f upd rate o).isSome) :
    ∀ (left i : ℕ) (n : ℕ × ℕ) (o : Opt K ι), (optLoop fuel f g upd rate left i n o).isSome := by
  intro left
  induction left with
  | zero => intro i n o; rfl
  | succ left ih =>
    intro i n o
    rw [optLoop]
    have : (optStep fuel f g upd rate i o).isSome := by
      unfold optStep; rw [Option.isSome_map]; exact hf _
    obtain ⟨o1, h1⟩ := Option.isSome_iff_exists.1 this
    rw [h1]
    simp only
    split_ifs
    · rfl
    · exact ih _ _ _

/-- **C68** The optimisation always terminates. -/
theorem C68_terminates [Archimedean K] (upd : K → Opt K ι → Opt K ι) (f : (ι → K) → K) (g : (ι → K) → ι → K) (rate b1 b2 : K) :
    ∃ fuel, ∀ (maxIter : ℕ) (x0 : ι → K), (optimize fuel f g upd rate b1 b2 maxIter x0).isSome := by
  obtain ⟨fuel, hf⟩ := C68_line_search_terminates f upd rate
  exact ⟨fuel, fun maxIter x0 => optLoop_isSome upd f g rate fuel hf _ _ _ _⟩

/-- A run: gradient descent with rate 1 on `x²`, three passes. -/
example : (optimize 6 (fun x : Unit → ℚ => x () ^ 2) (fun x _ => 2 * x ()) gdUpdate (1 / 2) (9 / 10) (99 / 100) 3 (fun _ => 8)).map (fun o => (o.costs, o.cur ()))
    = some ([64, 16, 4, 1], 1) := by decide +kernel

/-- An early stop: a constant cost stops after 103 of 200 passes. -/
example : (optimize 6 (fun _ : Unit → ℚ => 1) (fun x _ => 0) gdUpdate (1 / 2) (9 / 10) (99 / 100) 200 (fun _ => 8)).map (fun o => o.costs.length) = some 104 := by decide +kernel

end opt

end SMT.Nn
