import Verif.Fp.BenchProps3

/-!
# C123: Sphere and Rosenbrock are exact at integer points
-/
set_option linter.unusedSectionVars false
set_option linter.unusedSimpArgs false
set_option linter.unusedVariables false

namespace SMT.Fp.Bench
open SMT.Fp.Moe SMT.Fp.Corr

/-- The integer `z`, of absolute value at most `k`, as a value. -/
def IsInt (k : ℕ) (v : X ℚ) (z : ℤ) : Prop := v = .fin (z : ℚ) ∧ |z| ≤ (k : ℤ)

theorem of_int {k : ℕ} (hk : k ≤ 2 ^ 53) {z : ℤ} (hz : |z| ≤ (k : ℤ)) : IsInt k (binary64.of (z : ℚ)) z := by
  have hz' : |z| ≤ 2 ^ 53 := hz.trans (by exact_mod_cast hk)
  refine ⟨?_, hz⟩
  rw [binary64.of_small, rep_int z hz']
  rw [← Int.cast_abs]
  refine le_trans ?_ (int_le_big hk)
  exact_mod_cast hz

theorem IsInt.add {j k : ℕ} {v w : X ℚ} {y z : ℤ} (h : IsInt j v y) (h' : IsInt k w z) (hk : j + k ≤ 2 ^ 53) : IsInt (j + k) (binary64.addX v w) (y + z) := by
  obtain ⟨rfl, hy⟩ := h
  obtain ⟨rfl, hz⟩ := h'
  have := of_int hk (z := y + z) ((abs_add_le y z).trans (by push_cast; linarith))
  rw [Int.cast_add] at this
  exact this

theorem IsInt.neg {k : ℕ} {v : X ℚ} {z : ℤ} (h : IsInt k v z) : IsInt k v.neg (-z) := by
  obtain ⟨rfl, hz⟩ := h
  exact ⟨by rw [Int.cast_neg]; rfl, by rwa [abs_neg]⟩

theorem IsInt.sub {j k : ℕ} {v w : X ℚ} {y z : ℤ} (h : IsInt j v y) (h' : IsInt k w z) (hk : j + k ≤ 2 ^ 53) : IsInt (j + k) (binary64.subX v w) (y - z) := by
  rw [sub_eq_add_neg]
  exact h.add h'.neg hk

theorem IsInt.mul {j k : ℕ} {v w : X ℚ} {y z : ℤ} (h : IsInt j v y) (h' : IsInt k w z) (hk : j * k ≤ 2 ^ 53) : IsInt (j * k) (binary64.mulX v w) (y * z) := by
  obtain ⟨rfl, hy⟩ := h
  obtain ⟨rfl, hz⟩ := h'
  have := of_int hk (z := y * z) (by
    rw [abs_mul]; push_cast
    exact mul_le_mul hy hz (abs_nonneg _) (by positivity))
  rw [Int.cast_mul] at this
  exact this

theorem int_nat (k : ℕ) : IsInt k (.fin (k : ℚ)) k := ⟨by simp, by rw [abs_of_nonneg (by positivity)]⟩
theorem int_one : IsInt 1 (.fin 1) 1 := by simpa using int_nat 1
theorem int_two : IsInt 2 (.fin 2) 2 := by simpa using int_nat 2
theorem int_100 : IsInt 100 (.fin 100) 100 := by simpa using int_nat 100
theorem int_200 : IsInt 200 (.fin 200) 200 := by simpa using int_nat 200
theorem int_400 : IsInt 400 (.fin (-400)) (-400) := by simpa [X.neg] using (int_nat 400).neg

/-- The size of one term of Rosenbrock for coordinates of absolute value at most `M`. -/
def size (M : ℕ) : ℕ := 100 * ((M + M * M) * (M + M * M)) + (1 + M) * (1 + M)

theorem int_term {M : ℕ} (hM : size M ≤ 2 ^ 53) {v w : X ℚ} {a b : ℤ} (ha : IsInt M v a) (hb : IsInt M w b) :
    IsInt (size M) (term binary64 v w) (100 * ((b - a * a) * (b - a * a)) + (1 - a) * (1 - a)) := by
  have hs : size M = 100 * ((M + M * M) * (M + M * M)) + (1 + M) * (1 + M) := rfl
  have e1 : M + M * M ≤ (M + M * M) * (M + M * M) := Nat.le_mul_self _
  have e2 : 1 + M ≤ (1 + M) * (1 + M) := Nat.le_mul_self _
  have e3 : M * M ≤ M + M * M := Nat.le_add_left _ _
  have h1 := hb.sub (ha.mul ha (by omega)) (by omega)
  have h2 := int_one.sub ha (by omega)
  exact (int_100.mul (h1.mul h1 (by omega)) (by omega)).add (h2.mul h2 (by omega)) (by omega)

theorem int_right {M : ℕ} (h1 : 1 ≤ M) (hM : 400 * (M + M * M) * M + 2 * (1 + M) ≤ 2 ^ 53) {v w : X ℚ} {a b : ℤ} (ha : IsInt M v a) (hb : IsInt M w b) :
    IsInt (400 * (M + M * M) * M + 2 * (1 + M)) (slopeRight binary64 v w) (-400 * (b - a * a) * a - 2 * (1 - a)) := by
  have e1 : 400 * (M + M * M) ≤ 400 * (M + M * M) * M := Nat.le_mul_of_pos_right _ h1
  have e3 : M * M ≤ M + M * M := Nat.le_add_left _ _
  have g1 := hb.sub (ha.mul ha (by omega)) (by omega)
  exact ((int_400.mul g1 (by omega)).mul ha (by omega)).sub (int_two.mul (int_one.sub ha (by omega)) (by omega)) (by omega)

theorem int_left {M : ℕ} (hM : 200 * (M + M * M) ≤ 2 ^ 53) {v w : X ℚ} {a b : ℤ} (ha : IsInt M v a) (hb : IsInt M w b) :
    IsInt (200 * (M + M * M)) (slopeLeft binary64 v w) (200 * (b - a * a)) := by
  have e3 : M * M ≤ M + M * M := Nat.le_add_left _ _
  exact int_200.mul (hb.sub (ha.mul ha (by omega)) (by omega)) (by omega)

theorem int_fold (f : ℕ → X ℚ) (g : ℕ → ℤ) (c : ℕ) (l : List ℕ) (hf : ∀ i ∈ l, IsInt c (f i) (g i)) : ∀ (k : ℕ) (s : X ℚ) (z : ℤ), IsInt k s z → k + l.length * c ≤ 2 ^ 53 →
    IsInt (k + l.length * c) (l.foldl (fun y i => binary64.addX y (f i)) s) (z + (l.map g).sum) := by
  induction l with
  | nil => exact fun k s z hs _ => by simpa using hs
  | cons i l ih =>
    intro k s z hs hk
    rw [List.length_cons] at hk ⊢
    rw [List.foldl_cons, List.map_cons, List.sum_cons, ← add_assoc, show k + (l.length + 1) * c = (k + c) + l.length * c by ring]
    exact ih (fun j hj => hf j (List.mem_cons_of_mem _ hj)) _ _ _ (hs.add (hf i List.mem_cons_self) (by nlinarith)) (by nlinarith)

theorem int_tree (f : ℕ → X ℚ) (g : ℕ → ℤ) (c : ℕ) (t : Tree) (hf : ∀ i ∈ t.leaves, IsInt c (f i) (g i)) (hk : t.leaves.length * c ≤ 2 ^ 53) :
    IsInt (t.leaves.length * c) (t.evalX binary64 f) (t.leaves.map g).sum := by
  induction t with
  | leaf i => simpa [Tree.leaves, Tree.evalX] using hf i (by simp [Tree.leaves])
  | node a b ha hb =>
    have e : (Tree.node a b).leaves = a.leaves ++ b.leaves := rfl
    rw [e] at hf hk ⊢
    rw [List.length_append, add_mul] at hk ⊢
    rw [List.map_append, List.sum_append]
    exact (ha (fun i h => hf i (List.mem_append_left _ h)) (by omega)).add (hb (fun i h => hf i (List.mem_append_right _ h)) (by omega)) hk

/-- A point of integers, as a row of doubles. -/
def ints (x : List ℤ) : List (X ℚ) := x.map fun z : ℤ => X.fin (z : ℚ)

theorem col_int {M : ℕ} {x : List ℤ} (hx : ∀ z ∈ x, |z| ≤ (M : ℤ)) {i : ℕ} (hi : i < x.length) : IsInt M (col (ints x) i) (x.getD i 0) := by
  rw [ints, col_of (by simpa using hi), List.getElem_map, List.getD_eq_getElem?_getD, List.getElem?_eq_getElem hi]
  exact ⟨rfl, hx _ (List.getElem_mem _)⟩

/-- At integer points (all coordinates at most `M` in absolute value, all partial sums at most `2⁵³`) Sphere makes no rounding error: the value is the sum of squares, in whatever order it is taken, and the derivative is twice the coordinate. -/
theorem C123_sphere_integers (t : Tree) (x : List ℤ) (ht : t.Adds x.length) (M : ℕ) (hx : ∀ z ∈ x, |z| ≤ (M : ℤ)) (hM : x.length * (M * M) ≤ 2 ^ 53) :
    sphere binary64 t (ints x) = .fin ((x.map fun z => z * z).sum : ℤ) ∧
    ∀ kx, kx < x.length → 2 * M ≤ 2 ^ 53 → sphereDeriv binary64 (ints x) kx = .fin ((2 * x.getD kx 0 : ℤ) : ℚ) := by
  constructor
  · by_cases h0 : x.length = 0
    · have := ht.length_eq
      rw [h0, List.length_range] at this
      exfalso
      have hpos : 0 < t.leaves.length := by
        clear * -
        induction t with
        | leaf i => simp [Tree.leaves]
        | node a b ha hb => simp only [Tree.leaves, List.length_append]; omega
      omega
    have hlen : t.leaves.length = x.length := by rw [ht.length_eq, List.length_range]
    have hMM : M * M ≤ 2 ^ 53 := le_trans (Nat.le_mul_of_pos_left _ (by omega)) hM
    have h := (int_tree (fun i => sq binary64 (col (ints x) i)) (fun i => x.getD i 0 * x.getD i 0) (M * M) t (fun i hi => by
      have := col_int hx (List.mem_range.1 (ht.mem_iff.1 hi))
      exact this.mul this hMM) (by rw [hlen]; exact hM)).1
    have hsum : (t.leaves.map fun i => x.getD i 0 * x.getD i 0).sum = (x.map fun z => z * z).sum := by
      rw [(ht.map _).sum_eq]
      congr 1
      refine List.ext_getElem (by simp) fun i h h' => ?_
      have hi : i < x.length := by simpa using h'
      rw [List.getElem_map, List.getElem_range, List.getElem_map, List.getD_eq_getElem?_getD, List.getElem?_eq_getElem hi]
      rfl
    rw [hsum] at h
    exact h
  · intro k hk h2
    exact (int_two.mul (col_int hx hk) h2).1

/-- At integer points Rosenbrock makes no rounding error: its value is `Σ 100 (x_{i+1} - x_i²)² + (1 - x_i)²` and its derivatives are the partial derivatives of that polynomial. -/
theorem C123_rosenbrock_integers (x : List ℤ) (M : ℕ) (h1 : 1 ≤ M) (hx : ∀ z ∈ x, |z| ≤ (M : ℤ)) (hM : (x.length - 1) * size M ≤ 2 ^ 53) (hS : size M ≤ 2 ^ 53) :
    rosenbrock binary64 (ints x) =
      .fin ((∑ i ∈ Finset.range (x.length - 1), (100 * (x.getD (i + 1) 0 - x.getD i 0 ^ 2) ^ 2 + (1 - x.getD i 0) ^ 2) : ℤ) : ℚ) ∧
    ∀ kx, kx < x.length → rosenbrockDeriv binary64 (ints x) kx =
      .fin (((if kx + 1 < x.length then -400 * (x.getD (kx + 1) 0 - x.getD kx 0 ^ 2) * x.getD kx 0 - 2 * (1 - x.getD kx 0) else 0) +
        (if 0 < kx then 200 * (x.getD kx 0 - x.getD (kx - 1) 0 ^ 2) else 0) : ℤ) : ℚ) := by
  have hlen : (ints x).length = x.length := by simp [ints]
  have h0 : IsInt 0 (.fin 0) 0 := by simpa using int_nat 0
  constructor
  · have h := (int_fold (fun i => term binary64 (col (ints x) i) (col (ints x) (i + 1)))
      (fun i => 100 * ((x.getD (i + 1) 0 - x.getD i 0 * x.getD i 0) * (x.getD (i + 1) 0 - x.getD i 0 * x.getD i 0)) + (1 - x.getD i 0) * (1 - x.getD i 0)) (size M)
      (List.range (x.length - 1)) (fun i hi => by
        have := List.mem_range.1 hi
        exact int_term hS (col_int hx (by omega)) (col_int hx (by omega))) 0 (.fin 0) 0 h0 (by rw [List.length_range]; omega)).1
    rw [rosenbrock, hlen, h, zero_add]
    congr 2
    rw [show ∀ g : ℕ → ℤ, ((List.range (x.length - 1)).map g).sum = ∑ i ∈ Finset.range (x.length - 1), g i from fun g => rfl]
    refine Finset.sum_congr rfl fun i _ => ?_
    ring
  · intro k hk
    have hM' : M ≤ 3080 := by
      by_contra hc
      have hc : 3081 ≤ M := by omega
      have c1 : 9495642 ≤ M + M * M := by nlinarith
      have c2 : 9495642 * 9495642 ≤ (M + M * M) * (M + M * M) := Nat.mul_le_mul c1 c1
      have hs : size M = 100 * ((M + M * M) * (M + M * M)) + (1 + M) * (1 + M) := rfl
      omega
    have c1 : M + M * M ≤ 9489480 := by nlinarith
    have c2 : (M + M * M) * M ≤ 9489480 * 3080 := Nat.mul_le_mul c1 hM'
    have c3 : 400 * (M + M * M) * M = 400 * ((M + M * M) * M) := by ring
    have hy : IsInt (400 * (M + M * M) * M + 2 * (1 + M))
        (if k < x.length - 1 then binary64.addX (.fin 0) (slopeRight binary64 (col (ints x) k) (col (ints x) (k + 1))) else X.fin 0)
        (if k + 1 < x.length then -400 * (x.getD (k + 1) 0 - x.getD k 0 ^ 2) * x.getD k 0 - 2 * (1 - x.getD k 0) else 0) := by
      by_cases hc : k + 1 < x.length
      · rw [if_pos hc, if_pos (by omega)]
        have := h0.add (int_right h1 (by omega) (col_int hx (by omega : k < x.length)) (col_int hx hc)) (by omega)
        rw [zero_add, zero_add] at this
        rwa [pow_two]
      · rw [if_neg hc, if_neg (by omega)]
        exact ⟨h0.1, by rw [abs_zero]; positivity⟩
    rw [rosenbrockDeriv, hlen]
    show (if 0 < k then binary64.addX _ _ else _) = _
    by_cases hc : 0 < k
    · rw [if_pos hc, if_pos hc]
      have := (hy.add (int_left (by omega) (col_int hx (by omega : k - 1 < x.length)) (col_int hx hk)) (by omega)).1
      rw [← pow_two (x.getD (k - 1) 0)] at this
      exact this
    · rw [if_neg hc, if_neg hc, add_zero]
      exact hy.1

/-- The hypotheses hold for all points with coordinates up to 100 in up to a hundred dimensions. -/
example : (100 - 1) * size 100 ≤ 2 ^ 53 ∧ size 100 ≤ 2 ^ 53 := by decide +kernel
example : rosenbrock binary64 (ints [3, -7, 2]) = .fin 246568 ∧ rosenbrockDeriv binary64 (ints [3, -7, 2]) 1 = .fin (-134816) := by decide +kernel

end SMT.Fp.Bench
