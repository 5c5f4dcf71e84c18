import Verif.Fp.BenchProps2

/-!
# C123: the minimum of Rosenbrock is unique in double precision; values and derivatives in the domain
-/
set_option linter.unusedSectionVars false
set_option linter.unusedSimpArgs false
set_option linter.unusedVariables false

namespace SMT.Fp.Bench
open SMT.Fp.Moe SMT.Fp.Corr

/-! ## Numbers of binary64 -/

theorem rep_int (i : ℤ) (h : |i| ≤ 2 ^ 53) : binary64.rnd (i : ℚ) = i := by
  show rns 53 (-1022) (i : ℚ) = i
  by_cases h0 : i = 0
  · subst h0
    rw [Int.cast_zero]
    exact binary64.zero
  · rw [rns, if_neg]
    · exact binary_int (K := ℚ) (p := 53) (by norm_num) i h
    · rw [not_lt]
      have h1 : (1 : ℚ) ≤ |(i : ℚ)| := by
        rw [← Int.cast_abs]
        exact_mod_cast Int.one_le_abs h0
      exact (zpow_le_one_of_nonpos₀ (by norm_num) (by norm_num)).trans h1

theorem int_le_big {k : ℕ} (hk : k ≤ 2 ^ 53) : (k : ℚ) ≤ binary64.big := by
  have h1 : (k : ℚ) ≤ 2 ^ 53 := by exact_mod_cast hk
  exact h1.trans (by show (2 : ℚ) ^ 53 ≤ maxDouble; decide +kernel)

/-- A result of absolute value at most `k` is rounded to a number of absolute value at most `k`. -/
theorem of_le {k : ℕ} (hk : k ≤ 2 ^ 53) {v : ℚ} (hv : |v| ≤ k) : ∃ a, binary64.of v = .fin a ∧ |a| ≤ k := by
  have hr : binary64.rnd (k : ℚ) = k := by
    have := rep_int (k : ℤ) (by rw [abs_of_nonneg (by positivity)]; exact_mod_cast hk)
    simpa using this
  refine ⟨_, binary64.of_small (hv.trans (int_le_big hk)), ?_⟩
  rw [abs_le] at hv ⊢
  refine ⟨binary64.rep_le ?_ hv.1, binary64.le_rep hr hv.2⟩
  rw [binary64.odd, hr]

/-- A number of the format other than 1 is at least `2⁻⁵³` away from 1. -/
theorem away_from_one {x : ℚ} (hx : binary64.rnd x = x) (h1 : x ≠ 1) : 1 / 2 ^ 53 ≤ |1 - x| := by
  by_cases hlo : x ≤ 1 / 2
  · rw [abs_of_nonneg (by linarith)]
    have : (1 : ℚ) / 2 ^ 53 ≤ 1 / 2 := by norm_num
    linarith
  by_cases hhi : 2 ≤ x
  · rw [abs_of_nonpos (by linarith)]
    have : (1 : ℚ) / 2 ^ 53 ≤ 1 := by norm_num
    linarith
  push Not at hlo hhi
  have hpos : 0 < |x| := by rw [abs_of_pos (by linarith)]; linarith
  have hx' : rns 53 (-1022) x = x := hx
  rw [rns, if_neg (by
    rw [not_lt, abs_of_pos (by linarith)]
    have : ((2 : ℚ) ^ (-1022 : ℤ)) ≤ 2 ^ (-1 : ℤ) := zpow_le_zpow_right₀ (by norm_num) (by norm_num)
    refine this.trans ?_
    rw [show ((2 : ℚ) ^ (-1 : ℤ)) = 1 / 2 by norm_num]
    exact hlo.le)] at hx'
  have hl : -1 ≤ Int.log 2 |x| := (Int.zpow_le_iff_le_log (b := 2) (by norm_num) hpos).1 (by
    rw [abs_of_pos (by linarith)]; norm_num; linarith)
  obtain ⟨d, hd⟩ : ∃ d : ℕ, Int.log 2 |x| + 1 = d := ⟨(Int.log 2 |x| + 1).toNat, by omega⟩
  have hu : ulp 53 x * 2 ^ 53 = (((2 : ℤ) ^ d : ℤ) : ℚ) := by
    rw [← two_zpow_nat, ulp, show (2 : ℚ) ^ 53 = 2 ^ (53 : ℤ) by norm_num, ← zpow_add₀ two_ne_zero]
    congr 1
    push_cast
    omega
  have h3 : x = (SMT.MixedInt.roundHalfEven (x / ulp 53 x) : ℚ) * ulp 53 x := hx'.symm
  generalize SMT.MixedInt.roundHalfEven (x / ulp 53 x) = m at h3
  have h4 : (1 - x) * 2 ^ 53 = ((2 ^ 53 - m * 2 ^ d : ℤ) : ℚ) := by
    push_cast at hu ⊢
    rw [← hu]
    linear_combination (-(2 : ℚ) ^ 53) * h3
  have hne : (2 ^ 53 - m * 2 ^ d : ℤ) ≠ 0 := by
    intro e
    rw [e, Int.cast_zero] at h4
    rcases mul_eq_zero.1 h4 with h | h
    · exact h1 (by linarith)
    · norm_num at h
  have h5 : (1 : ℚ) ≤ |1 - x| * 2 ^ 53 := by
    have := Int.one_le_abs hne
    rw [← abs_of_pos (show (0 : ℚ) < 2 ^ 53 by norm_num), ← abs_mul, h4, ← Int.cast_abs]
    exact_mod_cast this
  rw [div_le_iff₀ (by norm_num)]
  exact h5

theorem rep_small : binary64.rnd (1 / 2 ^ 53) = 1 / 2 ^ 53 := by decide +kernel
theorem rep_tiny : binary64.rnd (1 / 2 ^ 106) = 1 / 2 ^ 106 := by decide +kernel

/-- The square of a difference from 1 does not vanish. -/
theorem sq_sub_one {x : ℚ} (hx : binary64.Fin x) (h : sq binary64 (.fin (binary64.rnd (1 - x))) = .fin 0) : x = 1 := by
  by_contra h1
  have h2 := away_from_one hx.1 h1
  have h3 : 1 / 2 ^ 53 ≤ |binary64.rnd (1 - x)| := by
    rcases le_abs.1 h2 with h2 | h2
    · exact (binary64.rep_le rep_small h2).trans (le_abs_self _)
    · refine (binary64.rep_le rep_small h2).trans ?_
      rw [binary64.odd]
      exact neg_le_abs _
  have h4 := (of_zero_iff binary64 _).1 h
  have h5 : (1 : ℚ) / 2 ^ 106 ≤ binary64.rnd (1 - x) * binary64.rnd (1 - x) := by
    rw [← abs_mul_abs_self]
    calc (1 : ℚ) / 2 ^ 106 = (1 / 2 ^ 53) * (1 / 2 ^ 53) := by norm_num
      _ ≤ _ := mul_self_le_mul_self (by norm_num) h3
  have h6 := binary64.rep_le rep_tiny h5
  rw [h4] at h6
  norm_num at h6

theorem sub_cases (a b : ℚ) : binary64.subX (.fin a) (.fin b) = .fin (binary64.rnd (a - b)) ∨ ∃ s, binary64.subX (.fin a) (.fin b) = .inf s := by
  show binary64.of (a + -b) = _ ∨ _
  rw [← sub_eq_add_neg]
  unfold Format.of
  split
  · exact .inl rfl
  · exact .inr ⟨_, show binary64.of (a + -b) = _ by rw [← sub_eq_add_neg]; unfold Format.of; rw [if_neg (by assumption)]⟩

theorem hundred_zero {v : X ℚ} (h : binary64.mulX (.fin 100) (sq binary64 v) = .fin 0) (hv : v ≠ .nan) : sq binary64 v = .fin 0 := by
  have hn := sq_nn binary64 hv
  cases e : sq binary64 v with
  | fin a =>
    rw [e] at h hn
    have h1 : binary64.rnd (100 * a) = 0 := (of_zero_iff binary64 _).1 h
    have h2 : a ≤ binary64.rnd (100 * a) := binary64.rep_le hn.1.1 (by linarith [hn.2])
    rw [h1] at h2
    rw [le_antisymm h2 hn.2]
  | inf s =>
    rw [e] at h
    change (if (100 : ℚ) = 0 then X.nan else .inf (decide ((100 : ℚ) < 0) != s)) = .fin 0 at h
    rw [if_neg (by norm_num)] at h
    cases h
  | nan => rw [e] at hn; exact hn.elim

theorem sub_one_sq {a b : ℚ} (hb : binary64.Fin b) (e : a = 1) (h : sq binary64 (binary64.subX (.fin b) (.fin a)) = .fin 0) : b = 1 := by
  subst e
  rw [sub_swap] at h
  have hs : ∀ v : X ℚ, sq binary64 v.neg = sq binary64 v := fun v => by rw [sq, mul_neg_left, mul_neg_right, neg_neg', sq]
  rw [hs] at h
  rcases sub_cases 1 b with e | ⟨s, e⟩
  · rw [e] at h; exact sq_sub_one hb h
  · rw [e] at h; cases h

theorem term_zero {a b : ℚ} (ha : binary64.Fin a) (hb : binary64.Fin b) (h : term binary64 (.fin a) (.fin b) = .fin 0) : a = 1 ∧ b = 1 := by
  have n1 : ∀ p q : ℚ, binary64.subX (.fin p) (.fin q) ≠ .nan := fun p q => sub_fin_ne_nan binary64 p q
  have n2 : binary64.subX (.fin b) (sq binary64 (.fin a)) ≠ .nan := by
    rw [Ne, SMT.Fp.Err.sub_nan]
    rintro (e | e | ⟨s, e, _⟩)
    · cases e
    · rw [sq_nan] at e; cases e
    · cases e
  obtain ⟨h1, h2⟩ := (add_nn_zero binary64 (mul_pos_nn binary64 (by norm_num) (sq_nn binary64 n2)) (sq_nn binary64 (n1 1 a))).1 h
  have ea : a = 1 := by
    rcases sub_cases 1 a with e | ⟨s, e⟩
    · rw [e] at h2; exact sq_sub_one ha h2
    · rw [e] at h2; cases h2
  have h3 := hundred_zero h1 n2
  subst ea
  rw [sq_one] at h3
  exact ⟨rfl, sub_one_sq hb rfl h3⟩

theorem fold_zero (f : ℕ → X ℚ) (l : List ℕ) (hf : ∀ i ∈ l, Nn binary64 (f i)) : ∀ s, Nn binary64 s → l.foldl (fun y i => binary64.addX y (f i)) s = .fin 0 → s = .fin 0 ∧ ∀ i ∈ l, f i = .fin 0 := by
  induction l with
  | nil => exact fun s _ h => ⟨h, by simp⟩
  | cons i l ih =>
    intro s hs h
    rw [List.foldl_cons] at h
    have hi := hf i List.mem_cons_self
    obtain ⟨h1, h2⟩ := ih (fun j hj => hf j (List.mem_cons_of_mem _ hj)) _ (add_nn binary64 hs hi) h
    obtain ⟨h3, h4⟩ := (add_nn_zero binary64 hs hi).1 h1
    refine ⟨h3, fun j hj => ?_⟩
    rcases List.mem_cons.1 hj with rfl | hj
    · exact h4
    · exact h2 j hj

/-- In double precision `(1, …, 1)` is the only point at which the value is zero: no other value underflows to the minimum. -/
theorem C123_rosenbrock_unique (x : List ℚ) (hx : ∀ a ∈ x, binary64.Fin a) (h2 : 2 ≤ x.length) :
    rosenbrock binary64 (x.map .fin) = .fin 0 ↔ ∀ a ∈ x, a = 1 := by
  constructor
  · intro h
    have hc : ∀ i (hi : i < x.length), col (x.map X.fin) i = .fin x[i] := fun i hi => by rw [col_of (by simpa using hi), List.getElem_map]
    rw [rosenbrock, List.length_map] at h
    have ht : ∀ i ∈ List.range (x.length - 1), Nn binary64 (term binary64 (col (x.map X.fin) i) (col (x.map X.fin) (i + 1))) := fun i hi => by
      have := List.mem_range.1 hi
      refine (term_range binary64 _ _).2 ?_
      rw [hc i (by omega), hc (i + 1) (by omega)]
      rintro (e | e | ⟨e, _⟩) <;> cases e
    have hz := (fold_zero (fun i => term binary64 (col (x.map X.fin) i) (col (x.map X.fin) (i + 1))) _ ht _ (nn_zero binary64) h).2
    have key : ∀ i (hi : i + 1 < x.length), x[i] = 1 ∧ x[i + 1] = 1 := fun i hi => by
      have := hz i (List.mem_range.2 (by omega))
      rw [hc i (by omega), hc (i + 1) hi] at this
      exact term_zero (hx _ (List.getElem_mem _)) (hx _ (List.getElem_mem _)) this
    intro a ha
    obtain ⟨i, hi, rfl⟩ := List.getElem_of_mem ha
    by_cases h0 : i + 1 < x.length
    · exact (key i h0).1
    · obtain ⟨j, rfl⟩ : ∃ j, i = j + 1 := ⟨i - 1, by omega⟩
      exact (key j hi).2
  · intro h
    have : x = List.replicate x.length 1 := List.eq_replicate_of_mem h
    rw [this, List.map_replicate]
    exact (C123_rosenbrock_minimum binary64 _).1

/-! ## Values and derivatives in the domain -/

/-- A number of absolute value at most `k`. -/
def Bd (k : ℕ) (v : X ℚ) : Prop := ∃ a, v = .fin a ∧ |a| ≤ k

theorem Bd.add {j k : ℕ} {v w : X ℚ} (h : Bd j v) (h' : Bd k w) (hk : j + k ≤ 2 ^ 53) : Bd (j + k) (binary64.addX v w) := by
  obtain ⟨a, rfl, ha⟩ := h
  obtain ⟨b, rfl, hb⟩ := h'
  exact of_le hk ((abs_add_le a b).trans (by push_cast; linarith))

theorem Bd.neg {k : ℕ} {v : X ℚ} (h : Bd k v) : Bd k v.neg := by
  obtain ⟨a, rfl, ha⟩ := h
  exact ⟨-a, rfl, by rwa [abs_neg]⟩

theorem Bd.sub {j k : ℕ} {v w : X ℚ} (h : Bd j v) (h' : Bd k w) (hk : j + k ≤ 2 ^ 53) : Bd (j + k) (binary64.subX v w) := h.add h'.neg hk

theorem Bd.mul {j k : ℕ} {v w : X ℚ} (h : Bd j v) (h' : Bd k w) (hk : j * k ≤ 2 ^ 53) : Bd (j * k) (binary64.mulX v w) := by
  obtain ⟨a, rfl, ha⟩ := h
  obtain ⟨b, rfl, hb⟩ := h'
  refine of_le hk ?_
  rw [abs_mul]
  push_cast
  exact mul_le_mul ha hb (abs_nonneg _) (by positivity)

theorem Bd.mono {j k : ℕ} (hk : j ≤ k) {v : X ℚ} (h : Bd j v) : Bd k v := by
  obtain ⟨a, rfl, ha⟩ := h
  exact ⟨a, rfl, ha.trans (by exact_mod_cast hk)⟩

theorem bd_nat (k : ℕ) : Bd k (.fin (k : ℚ)) := ⟨_, rfl, by rw [abs_of_nonneg (by positivity)]⟩

theorem bd_term {a b : X ℚ} (ha : Bd 2 a) (hb : Bd 2 b) : Bd 3609 (term binary64 a b) := by
  have h1 : Bd 6 (binary64.subX b (sq binary64 a)) := hb.sub (ha.mul ha (by norm_num)) (by norm_num)
  have h2 : Bd 3 (binary64.subX (.fin 1) a) := (by simpa using bd_nat 1 : Bd 1 (.fin 1)).sub ha (by norm_num)
  exact ((by simpa using bd_nat 100 : Bd 100 (.fin 100)).mul (h1.mul h1 (by norm_num)) (by norm_num)).add (h2.mul h2 (by norm_num)) (by norm_num)

theorem bd_right {a b : X ℚ} (ha : Bd 2 a) (hb : Bd 2 b) : Bd 4806 (slopeRight binary64 a b) := by
  have h1 : Bd 6 (binary64.subX b (sq binary64 a)) := hb.sub (ha.mul ha (by norm_num)) (by norm_num)
  have h2 : Bd 3 (binary64.subX (.fin 1) a) := (by simpa using bd_nat 1 : Bd 1 (.fin 1)).sub ha (by norm_num)
  have h4 : Bd 400 (.fin (-400)) := by simpa [X.neg] using (bd_nat 400).neg
  exact ((h4.mul h1 (by norm_num)).mul ha (by norm_num)).sub ((by simpa using bd_nat 2 : Bd 2 (.fin 2)).mul h2 (by norm_num)) (by norm_num)

theorem bd_left {a b : X ℚ} (ha : Bd 2 a) (hb : Bd 2 b) : Bd 1200 (slopeLeft binary64 a b) := by
  have h1 : Bd 6 (binary64.subX b (sq binary64 a)) := hb.sub (ha.mul ha (by norm_num)) (by norm_num)
  exact (by simpa using bd_nat 200 : Bd 200 (.fin 200)).mul h1 (by norm_num)

theorem bd_fold (f : ℕ → X ℚ) (c : ℕ) (l : List ℕ) (hf : ∀ i ∈ l, Bd c (f i)) : ∀ (k : ℕ) (s : X ℚ), Bd k s → k + l.length * c ≤ 2 ^ 53 →
    Bd (k + l.length * c) (l.foldl (fun y i => binary64.addX y (f i)) s) := by
  induction l with
  | nil => exact fun k s hs _ => by simpa using hs
  | cons i l ih =>
    intro k s hs hk
    rw [List.length_cons] at hk ⊢
    rw [List.foldl_cons, show k + (l.length + 1) * c = (k + c) + l.length * c by ring]
    exact ih (fun j hj => hf j (List.mem_cons_of_mem _ hj)) _ _ (hs.add (hf i List.mem_cons_self) (by nlinarith)) (by nlinarith)

/-- In the domain `[-2, 2]ⁿ` no operation of Rosenbrock overflows: the value is a number between 0 and `3609 (n - 1)`, and every derivative a number between -6006 and 6006. -/
theorem C123_rosenbrock_domain (x : List ℚ) (hx : ∀ a ∈ x, |a| ≤ 2) (h1 : 1 ≤ x.length) (hn : x.length ≤ 2 ^ 40) :
    (∃ v, rosenbrock binary64 (x.map .fin) = .fin v ∧ 0 ≤ v ∧ v ≤ 3609 * (x.length - 1)) ∧
    ∀ kx, kx < x.length → ∃ d, rosenbrockDeriv binary64 (x.map .fin) kx = .fin d ∧ |d| ≤ 6006 := by
  have hc : ∀ i, i < x.length → Bd 2 (col (x.map X.fin) i) := fun i hi => by
    rw [col_of (by simpa using hi), List.getElem_map]
    exact ⟨_, rfl, by simpa using hx _ (List.getElem_mem _)⟩
  have h0 : Bd 0 (.fin 0) := by simpa using bd_nat 0
  constructor
  · have hb := bd_fold (fun i => term binary64 (col (x.map X.fin) i) (col (x.map X.fin) (i + 1))) 3609 (List.range (x.length - 1)) (fun i hi => by
      have := List.mem_range.1 hi
      exact bd_term (hc _ (by omega)) (hc _ (by omega))) 0 (.fin 0) h0 (by rw [List.length_range]; omega)
    have hr : rosenbrock binary64 (x.map .fin) = (List.range (x.length - 1)).foldl (fun y i => binary64.addX y (term binary64 (col (x.map X.fin) i) (col (x.map X.fin) (i + 1)))) (.fin 0) := by
      rw [rosenbrock, List.length_map]
    rw [← hr] at hb
    obtain ⟨v, e, hv⟩ := hb
    have hn := C123_rosenbrock_numbers binary64 x
    rw [e] at hn
    refine ⟨v, e, hn.2, ?_⟩
    rw [abs_of_nonneg hn.2, List.length_range] at hv
    rw [zero_add] at hv
    push_cast [Nat.cast_sub h1] at hv
    linarith
  · intro k hk
    rw [rosenbrockDeriv, List.length_map]
    have hy : Bd 4806 (if k < x.length - 1 then binary64.addX (.fin 0) (slopeRight binary64 (col (x.map X.fin) k) (col (x.map X.fin) (k + 1))) else X.fin 0) := by
      split
      · simpa using h0.add (bd_right (hc k (by omega)) (hc (k + 1) (by omega))) (by norm_num)
      · exact h0.mono (by norm_num)
    have : Bd 6006 (if 0 < k then binary64.addX (if k < x.length - 1 then binary64.addX (.fin 0) (slopeRight binary64 (col (x.map X.fin) k) (col (x.map X.fin) (k + 1))) else X.fin 0)
        (slopeLeft binary64 (col (x.map X.fin) (k - 1)) (col (x.map X.fin) k)) else
        (if k < x.length - 1 then binary64.addX (.fin 0) (slopeRight binary64 (col (x.map X.fin) k) (col (x.map X.fin) (k + 1))) else X.fin 0)) := by
      split
      · exact hy.add (bd_left (hc _ (by omega)) (hc _ hk)) (by norm_num)
      · exact hy.mono (by norm_num)
    obtain ⟨d, e, hd⟩ := this
    exact ⟨d, e, by simpa using hd⟩

/-- In the domain `[-10, 10]ⁿ` of Sphere the value is a number between 0 and `100 n`, and every derivative a number between -20 and 20. -/
theorem C123_sphere_domain (t : Tree) (x : List ℚ) (ht : t.Adds x.length) (hx : ∀ a ∈ x, |a| ≤ 10) (hn : x.length ≤ 2 ^ 40) :
    (∃ v, sphere binary64 t (x.map .fin) = .fin v ∧ 0 ≤ v ∧ v ≤ 100 * x.length) ∧
    ∀ kx, kx < x.length → ∃ d, sphereDeriv binary64 (x.map .fin) kx = .fin d ∧ |d| ≤ 20 := by
  have hc : ∀ i, i < x.length → Bd 10 (col (x.map X.fin) i) := fun i hi => by
    rw [col_of (by simpa using hi), List.getElem_map]
    exact ⟨_, rfl, by simpa using hx _ (List.getElem_mem _)⟩
  have hlen : t.leaves.length = x.length := by rw [ht.length_eq, List.length_range]
  constructor
  · have key : ∀ s : Tree, (∀ i ∈ s.leaves, i < x.length) → s.leaves.length * 100 ≤ 2 ^ 53 → Bd (s.leaves.length * 100) (s.evalX binary64 fun i => sq binary64 (col (x.map X.fin) i)) := by
      intro s
      induction s with
      | leaf i =>
        intro hi _
        have h1 := hc i (hi i (by simp [Tree.leaves]))
        have h2 : Bd (10 * 10) (sq binary64 (col (x.map X.fin) i)) := h1.mul h1 (by norm_num)
        have e : (Tree.leaf i).leaves.length * 100 = 10 * 10 := by simp [Tree.leaves]
        rw [e, Tree.evalX]
        exact h2
      | node a b ha hb =>
        intro hi hl
        have e : (Tree.node a b).leaves.length = a.leaves.length + b.leaves.length := by simp [Tree.leaves]
        rw [e] at hl ⊢
        rw [add_mul]
        exact (ha (fun i h => hi i (by simp [Tree.leaves, h])) (by omega)).add (hb (fun i h => hi i (by simp [Tree.leaves, h])) (by omega)) (by omega)
    obtain ⟨v, e, hv⟩ := key t (fun i hi => List.mem_range.1 (ht.mem_iff.1 hi)) (by rw [hlen]; omega)
    have hn := (C123_sphere_range binary64 t (x.map .fin) (by simpa using ht)).2 (by simp)
    have e' : sphere binary64 t (x.map .fin) = .fin v := e
    rw [e'] at hn
    refine ⟨v, e', hn.2, ?_⟩
    rw [abs_of_nonneg hn.2, hlen] at hv
    push_cast at hv
    linarith
  · intro k hk
    obtain ⟨d, e, hd⟩ := (by simpa using bd_nat 2 : Bd 2 (.fin 2)).mul (hc k hk) (by norm_num)
    exact ⟨d, e, by push_cast at hd; linarith⟩

/-- The bound of Rosenbrock is attained at `(-2, -2)`, the bounds of Sphere at a corner. -/
example : rosenbrock binary64 [.fin (-2), .fin (-2)] = .fin 3609 ∧ rosenbrockDeriv binary64 [.fin (-2), .fin (-2)] 0 = .fin (-4806) := by decide +kernel
example : sphere binary64 (.node (.leaf 0) (.leaf 1)) [.fin (-10), .fin 10] = .fin 200 ∧ sphereDeriv binary64 [.fin (-10), .fin 10] 0 = .fin (-20) := by decide +kernel
/-- Next to the minimum the value is not zero: at `(1 - 2⁻⁵³, 1)`. -/
example : rosenbrock binary64 [.fin (1 - 1 / 2 ^ 53), .fin 1] ≠ .fin 0 := by decide +kernel
example : (∀ a ∈ [(-2 : ℚ), 1 / 2], |a| ≤ 2) ∧ ∀ a ∈ [(-2 : ℚ), 1 / 2], binary64.Fin a := by unfold Format.Fin; decide +kernel

end SMT.Fp.Bench
