import Verif.Kriging.Prep
import Mathlib.Algebra.BigOperators.Field
import Mathlib.Tactic.Ring
import Mathlib.Tactic.Linarith
import Mathlib.Tactic.FieldSimp
import Mathlib.Tactic.Positivity
import Mathlib.Data.List.Sort

/-!
# Properties C37 (pair table and correlation matrix), C38 (standardisation), C43 (trend functions)
-/
namespace SMT.Krg
set_option linter.unusedSectionVars false
set_option linter.unusedSimpArgs false
set_option linter.unusedVariables false

variable {K : Type}

/-! ## C37 -/

/-- Specification: all pairs `k < l < n` in lexicographic order, first `m` values of `k`. -/
def pairsUpTo (n m : ℕ) : List (ℕ × ℕ) := (List.range m).flatMap fun k => (List.range' (k + 1) (n - (k + 1))).map fun l => (k, l)

def pairs (n : ℕ) : List (ℕ × ℕ) := pairsUpTo n n

theorem pairsUpTo_succ (n m : ℕ) : pairsUpTo n (m + 1) = pairsUpTo n m ++ (List.range' (m + 1) (n - (m + 1))).map fun l => (m, l) := by
  simp [pairsUpTo, List.range_succ, List.flatMap_append]

theorem pairs_eq (n : ℕ) : pairs n = pairsUpTo n (n - 1) := by
  rcases Nat.eq_zero_or_pos n with h | h
  · subst h; rfl
  · obtain ⟨k, rfl⟩ : ∃ k, n = k + 1 := ⟨n - 1, by omega⟩
    rw [pairs, pairsUpTo_succ]; simp

theorem two_mul_length (n : ℕ) : ∀ m, m ≤ n → (2 : ℤ) * (pairsUpTo n m).length = 2 * n * m - m * (m + 1) := by
  intro m
  induction m with
  | zero => intro _; simp [pairsUpTo]
  | succ m ih =>
    intro h
    rw [pairsUpTo_succ, List.length_append, List.length_map, List.length_range']
    have := ih (by omega)
    push_cast [Nat.cast_sub h]
    linarith

theorem length_pairs (n : ℕ) : (pairs n).length = n * (n - 1) / 2 := by
  have h := two_mul_length n n le_rfl
  have h2 : 2 * (pairs n).length = n * (n - 1) := by
    rcases Nat.eq_zero_or_pos n with h0 | h0
    · subst h0; rfl
    · zify [h0]; rw [pairs]; linarith
  omega

theorem length_pairsUpTo_le (n m : ℕ) (h : m ≤ n) : (pairsUpTo n m).length ≤ (pairs n).length := by
  unfold pairs
  obtain ⟨k, rfl⟩ := Nat.exists_eq_add_of_le h
  clear h
  induction k with
  | zero => simp
  | succ k ih =>
    have e : ∀ a b, pairsUpTo a (b + 1) = pairsUpTo a b ++ (List.range' (b + 1) (a - (b + 1))).map fun l => (b, l) := pairsUpTo_succ
    have : ∀ q, (pairsUpTo (m + (k + 1)) m).length ≤ (pairsUpTo (m + (k + 1)) (m + q)).length := by
      intro q
      induction q with
      | zero => simp
      | succ q ihq => rw [show m + (q + 1) = (m + q) + 1 from rfl, e, List.length_append]; omega
    exact this (k + 1)

theorem assign_prefix {α : Type} (pre new : List α) (N : ℕ) (z : α) (h : pre.length + new.length ≤ N) :
    assignRange (pre ++ List.replicate (N - pre.length) z) pre.length new =
      some ((pre ++ new) ++ List.replicate (N - (pre ++ new).length) z) := by
  unfold assignRange
  rw [if_pos (by simp; omega)]
  congr 1
  rw [List.take_left, List.append_assoc]
  congr 2
  rw [List.drop_append, List.drop_of_length_le (by omega), List.nil_append, List.drop_replicate]
  congr 1
  simp; omega

theorem cd_fold [Sub K] [Zero K] {m : ℕ} (n : ℕ) (X : ℕ → Fin m → K) : ∀ q, q ≤ n - 1 →
    (List.range q).foldlM (cdStep n X) ⟨0, List.replicate (n * (n - 1) / 2) (0, 0), List.replicate (n * (n - 1) / 2) 0⟩ =
      some ⟨(pairsUpTo n q).length,
        pairsUpTo n q ++ List.replicate (n * (n - 1) / 2 - (pairsUpTo n q).length) (0, 0),
        ((pairsUpTo n q).map fun p j => X p.1 j - X p.2 j) ++ List.replicate (n * (n - 1) / 2 - (pairsUpTo n q).length) 0⟩ := by
  intro q
  induction q with
  | zero => intro _; simp [pairsUpTo]
  | succ q ih =>
    intro h
    rw [List.range_succ, List.foldlM_append, ih (by omega)]
    have hlen := length_pairsUpTo_le n (q + 1) (by omega)
    rw [length_pairs, pairsUpTo_succ, List.length_append, List.length_map, List.length_range'] at hlen
    show (some _ : Option (CDState K m)).bind _ = _
    rw [Option.bind_some, List.foldlM_cons]
    have hstep : cdStep n X ⟨(pairsUpTo n q).length,
        pairsUpTo n q ++ List.replicate (n * (n - 1) / 2 - (pairsUpTo n q).length) (0, 0),
        ((pairsUpTo n q).map fun p j => X p.1 j - X p.2 j) ++ List.replicate (n * (n - 1) / 2 - (pairsUpTo n q).length) 0⟩ q =
        some ⟨(pairsUpTo n (q + 1)).length,
          pairsUpTo n (q + 1) ++ List.replicate (n * (n - 1) / 2 - (pairsUpTo n (q + 1)).length) (0, 0),
          ((pairsUpTo n (q + 1)).map fun p j => X p.1 j - X p.2 j) ++ List.replicate (n * (n - 1) / 2 - (pairsUpTo n (q + 1)).length) 0⟩ := by
      unfold cdStep
      simp only []
      rw [if_neg (by rw [not_not, List.length_range']; omega)]
      have a1 := assign_prefix (pairsUpTo n q) ((List.range' (q + 1) (n - (q + 1))).map fun l => (q, l)) (n * (n - 1) / 2) (0, 0)
        (by simp; omega)
      have a2 := assign_prefix ((pairsUpTo n q).map fun p j => X p.1 j - X p.2 j)
        ((List.range' (q + 1) (n - (q + 1))).map fun l j => X q j - X l j) (n * (n - 1) / 2) (0 : Fin m → K) (by simp; omega)
      rw [List.length_map] at a2
      rw [a1, a2]
      show some _ = some _
      congr 2
      · rw [pairsUpTo_succ]; simp; omega
      · rw [pairsUpTo_succ]
      · rw [pairsUpTo_succ, List.map_append, List.map_map]
        simp [Function.comp_def]
    rw [hstep]; rfl

/-- **C37** The table: never fails, and lists the pairs in lexicographic order with the differences of those very samples. -/
theorem C37_table [Sub K] [Zero K] {m : ℕ} (n : ℕ) (X : ℕ → Fin m → K) :
    crossDistances n X = some ((pairs n).map (fun p j => X p.1 j - X p.2 j), pairs n) := by
  unfold crossDistances
  simp only []
  rw [cd_fold n X (n - 1) le_rfl, ← pairs_eq, length_pairs, Nat.sub_self]
  simp

/-- **C37** Each unordered pair of distinct samples occurs exactly once, and nothing else. -/
theorem C37_pairs (n : ℕ) : (pairs n).Nodup ∧ (∀ k l, (k, l) ∈ pairs n ↔ k < l ∧ l < n) ∧
    (pairs n).Pairwise (fun p q => p.1 < q.1 ∨ p.1 = q.1 ∧ p.2 < q.2) ∧ (pairs n).length = n * (n - 1) / 2 := by
  have hs : (pairs n).Pairwise (fun p q => p.1 < q.1 ∨ p.1 = q.1 ∧ p.2 < q.2) := by
    unfold pairs
    have : ∀ m, (pairsUpTo n m).Pairwise (fun p q => p.1 < q.1 ∨ p.1 = q.1 ∧ p.2 < q.2) ∧ ∀ p ∈ pairsUpTo n m, p.1 < m := by
      intro m
      induction m with
      | zero => simp [pairsUpTo]
      | succ m ih =>
        rw [pairsUpTo_succ]
        refine ⟨List.pairwise_append.2 ⟨ih.1, ?_, ?_⟩, ?_⟩
        · rw [List.pairwise_map]
          exact (List.pairwise_lt_range' (s := m + 1) (n := n - (m + 1))).imp fun h => Or.inr ⟨rfl, h⟩
        · intro p hp q hq
          obtain ⟨l, _, rfl⟩ := List.mem_map.1 hq
          exact Or.inl (ih.2 p hp)
        · intro p hp
          rcases List.mem_append.1 hp with hp | hp
          · have := ih.2 p hp; omega
          · obtain ⟨l, _, rfl⟩ := List.mem_map.1 hp; simp
    exact (this n).1
  refine ⟨?_, ?_, hs, length_pairs n⟩
  · refine hs.imp fun {p q} h e => ?_
    subst e; omega
  · intro k l
    simp only [pairs, pairsUpTo, List.mem_flatMap, List.mem_range, List.mem_map, List.mem_range'_1, Prod.mk.injEq]
    constructor
    · rintro ⟨k', hk, l', ⟨h1, h2⟩, rfl, rfl⟩; omega
    · rintro ⟨h1, h2⟩; exact ⟨k, by omega, l, ⟨by omega, by omega⟩, rfl, rfl⟩

theorem fold_write_not_mem (sw : ℕ × ℕ → ℕ × ℕ) (i j : ℕ) : ∀ (l : List ((ℕ × ℕ) × K)) (R : ℕ → ℕ → K), (∀ p ∈ l, sw p.1 ≠ (i, j)) →
    l.foldl (fun R p i j => if i = (sw p.1).1 ∧ j = (sw p.1).2 then p.2 else R i j) R i j = R i j := by
  intro l
  induction l with
  | nil => intro R _; rfl
  | cons a l ih =>
    intro R h
    rw [List.foldl_cons, ih _ fun p hp => h p (List.mem_cons_of_mem _ hp), if_neg]
    rintro ⟨h1, h2⟩
    exact h a List.mem_cons_self (by rw [h1, h2])

theorem fold_write_mem (sw : ℕ × ℕ → ℕ × ℕ) (f : ℕ × ℕ → K) (i j : ℕ) (p0 : ℕ × ℕ) (hsw : sw p0 = (i, j)) :
    ∀ (l : List (ℕ × ℕ)) (R : ℕ → ℕ → K), (∀ p ∈ l, sw p = (i, j) → p = p0) → p0 ∈ l →
    (l.zip (l.map f)).foldl (fun R p i j => if i = (sw p.1).1 ∧ j = (sw p.1).2 then p.2 else R i j) R i j = f p0 := by
  intro l
  induction l with
  | nil => intro R _ h; simp at h
  | cons a l ih =>
    intro R hu hm
    rw [List.map_cons, List.zip_cons_cons, List.foldl_cons]
    by_cases hl : p0 ∈ l
    · exact ih _ (fun p hp => hu p (List.mem_cons_of_mem _ hp)) hl
    · have ha : a = p0 := by rcases List.mem_cons.1 hm with h | h; exacts [h.symm, absurd h hl]
      subst ha
      rw [fold_write_not_mem sw i j]
      · simp [hsw]
      · intro p hp e
        have h1 : p.1 ∈ l := (List.of_mem_zip hp).1
        exact hl (by rw [← hu p.1 (List.mem_cons_of_mem _ h1) e]; exact h1)

/-- **C37** The correlation matrix: assembled from the pair table and the kernel values `r` of the difference rows, it has
`1 + nugget + noise` on the diagonal, the kernel of `X[i] - X[j]` above it and the mirrored value below: symmetric. -/
theorem C37_matrix [Field K] {m : ℕ} (n : ℕ) (X : ℕ → Fin m → K) (kern : (Fin m → K) → K) (nugget : K) (noise : ℕ → K) :
    ∃ D ij, crossDistances n X = some (D, ij) ∧ ∀ i j, i < n → j < n →
      corrMatrix nugget noise ij (D.map kern) i j =
        if i = j then 1 + nugget + noise i
        else if i < j then kern (fun q => X i q - X j q) else kern (fun q => X j q - X i q) := by
  refine ⟨_, _, C37_table n X, ?_⟩
  intro i j hi hj
  have hmem := (C37_pairs n).2.1
  rw [List.map_map]
  set f : ℕ × ℕ → K := kern ∘ fun p q => X p.1 q - X p.2 q with hf
  unfold corrMatrix
  have up := fun (R : ℕ → ℕ → K) => fold_write_not_mem (K := K) (fun p => p) i j ((pairs n).zip ((pairs n).map f)) R
  have lo := fun (R : ℕ → ℕ → K) => fold_write_not_mem (K := K) (fun p => (p.2, p.1)) i j ((pairs n).zip ((pairs n).map f)) R
  rcases lt_trichotomy i j with h | h | h
  · rw [if_neg (by omega), if_pos h, lo]
    · exact fold_write_mem (fun p => p) f i j (i, j) rfl (pairs n) _ (fun p _ e => e) ((hmem i j).2 ⟨h, hj⟩)
    · intro p hp e
      have := (hmem p.1.1 p.1.2).1 (List.of_mem_zip hp).1
      have e1 : p.1.2 = i := congrArg Prod.fst e
      have e2 : p.1.1 = j := congrArg Prod.snd e
      omega
  · subst h
    rw [if_pos rfl, lo, up]
    · simp
    · intro p hp e
      have := (hmem p.1.1 p.1.2).1 (List.of_mem_zip hp).1
      rw [e] at this
      have := this.1
      simp at this
    · intro p hp e
      have := (hmem p.1.1 p.1.2).1 (List.of_mem_zip hp).1
      have e1 : p.1.2 = i := congrArg Prod.fst e
      have e2 : p.1.1 = i := congrArg Prod.snd e
      omega
  · rw [if_neg (by omega), if_neg (by omega)]
    exact fold_write_mem (fun p => (p.2, p.1)) f i j (j, i) rfl (pairs n) _ (fun p _ e => by
      have e1 : p.2 = i := congrArg Prod.fst e
      have e2 : p.1 = j := congrArg Prod.snd e
      exact Prod.ext e2 e1) ((hmem j i).2 ⟨h, hi⟩)

/-- **C37** With a kernel that does not see the sign of the differences, the matrix entry is the kernel of `X[i] - X[j]` whichever
index is larger. -/
theorem C37_symmetric [Field K] {m : ℕ} (n : ℕ) (X : ℕ → Fin m → K) (kern : (Fin m → K) → K) (heven : ∀ d, kern (fun q => -d q) = kern d)
    (nugget : K) (noise : ℕ → K) :
    ∃ D ij, crossDistances n X = some (D, ij) ∧ ∀ i j, i < n → j < n →
      corrMatrix nugget noise ij (D.map kern) i j = corrMatrix nugget noise ij (D.map kern) j i ∧
      (i ≠ j → corrMatrix nugget noise ij (D.map kern) i j = kern (fun q => X i q - X j q)) := by
  obtain ⟨D, ij, h1, h2⟩ := C37_matrix n X kern nugget noise
  refine ⟨D, ij, h1, fun i j hi hj => ?_⟩
  have hk : ∀ a b, kern (fun q => X a q - X b q) = kern (fun q => X b q - X a q) := by
    intro a b
    rw [← heven]; congr 1; funext q; ring
  rw [h2 i j hi hj, h2 j i hj hi]
  refine ⟨?_, ?_⟩
  · by_cases h : i = j
    · simp [h]
    · rw [if_neg h, if_neg (Ne.symm h)]
      rcases lt_or_gt_of_ne h with h' | h'
      · rw [if_pos h', if_neg (by omega)]
      · rw [if_neg (by omega), if_pos h']
  · intro h
    rw [if_neg h]
    split_ifs with h'
    · rfl
    · exact hk j i

theorem getElem?_flatMap_map {α β γ : Type} (g : α → β → γ) (Y : List β) : ∀ (X : List α) (a b : ℕ) (x : α) (y : β),
    X[a]? = some x → Y[b]? = some y → (X.flatMap fun x => Y.map (g x))[a * Y.length + b]? = some (g x y) := by
  intro X
  induction X with
  | nil => intro a b x y h; simp at h
  | cons x0 X ih =>
    intro a b x y hx hy
    have hb : b < Y.length := by
      by_contra hc
      rw [List.getElem?_eq_none (by omega)] at hy; simp at hy
    rw [List.flatMap_cons]
    cases a with
    | zero =>
      rw [Nat.zero_mul, Nat.zero_add, List.getElem?_append_left (by simpa using hb), List.getElem?_map, hy]
      simp at hx; subst hx; rfl
    | succ a =>
      rw [List.getElem?_append_right (by simp [Nat.add_mul]; omega)]
      have : (a + 1) * Y.length + b - (Y.map (g x0)).length = a * Y.length + b := by
        rw [List.length_map, Nat.add_mul, Nat.one_mul]; omega
      rw [this]
      exact ih a b x y (by simpa using hx) hy

/-- **C37** `differences`: after `reshape(n_eval, nt)`, entry `(a, b)` is computed from `X[a] - Y[b]`. -/
theorem C37_differences [Sub K] {m : ℕ} (X Y : List (Fin m → K)) (a b : ℕ) (x y : Fin m → K) (hx : X[a]? = some x) (hy : Y[b]? = some y) :
    (differences X Y)[a * Y.length + b]? = some (fun j => x j - y j) ∧ (differences X Y).length = X.length * Y.length := by
  refine ⟨getElem?_flatMap_map (fun (x y : Fin m → K) (j : Fin m) => x j - y j) Y X a b x y hx hy, ?_⟩
  unfold differences
  rw [List.length_flatMap]
  simp

/-! ## C43 -/

/-- A monomial is the sorted list of its variable numbers; its value is the product. -/
def monoVal [Semiring K] (x : List K) (s : List ℕ) : K := (s.map fun i => x.getD i 0).prod

theorem map_getD_range [Semiring K] (x : List K) : x = (List.range x.length).map fun i => x.getD i 0 := by
  refine List.ext_getElem (by simp) fun i h1 h2 => ?_
  simp [List.getD_eq_getElem?_getD, h1]

theorem drop_eq_range' [Semiring K] (x : List K) (k : ℕ) : x.drop k = (List.range' k (x.length - k)).map fun i => x.getD i 0 := by
  refine List.ext_getElem (by simp) fun i h1 h2 => ?_
  simp only [List.length_drop] at h1
  have : k + i < x.length := by omega
  simp [List.getD_eq_getElem?_getD, this]

/-- The monomials of degree at most two in `n` variables, in the order of the columns. -/
def monos (n : ℕ) : List (List ℕ) :=
  [[]] ++ (List.range n).map (fun i => [i]) ++ (List.range n).flatMap fun k => (List.range' k (n - k)).map fun l => [k, l]

theorem quad_fold [Semiring K] (x init : List K) (q : ℕ) :
    (List.range q).foldl (fun f k => f ++ (x.drop k).map (fun v => x.getD k 0 * v)) init =
      init ++ ((List.range q).flatMap fun k => (List.range' k (x.length - k)).map fun l => [k, l]).map (monoVal x) := by
  induction q with
  | zero => simp
  | succ q ih =>
    rw [List.range_succ, List.foldl_append, ih, List.flatMap_append, List.map_append, ← List.append_assoc]
    simp only [List.foldl_cons, List.foldl_nil, List.flatMap_cons, List.flatMap_nil, List.append_nil]
    congr 1
    rw [drop_eq_range', List.map_map, List.map_map]
    refine List.map_congr_left fun l _ => ?_
    simp [monoVal]

/-- **C43** `constant`, `linear` and `quadratic` return the values of the monomials of degree 0, ≤ 1, ≤ 2. -/
theorem C43_columns [Semiring K] (x : List K) :
    constantRow x = [monoVal x []] ∧
    linearRow x = ([[]] ++ (List.range x.length).map fun i => [i]).map (monoVal x) ∧
    quadraticRow x = (monos x.length).map (monoVal x) := by
  have hl : linearRow x = ([[]] ++ (List.range x.length).map fun i => [i]).map (monoVal x) := by
    unfold linearRow
    have e : (List.range x.length).map (monoVal x ∘ fun i => [i]) = x := by
      conv_rhs => rw [map_getD_range x]
      refine List.map_congr_left fun i _ => ?_
      simp [monoVal]
    rw [List.map_append, List.map_map, e]
    simp [monoVal]
  refine ⟨by simp [constantRow, monoVal], hl, ?_⟩
  unfold quadraticRow monos
  rw [quad_fold]
  rw [List.map_append (l₁ := [[]] ++ _), ← hl]
  rfl

/-- **C43** Each monomial of degree at most two appears in exactly one column: the list has no repetition, contains exactly the
sorted index lists of length at most two, and has `(n+1)(n+2)/2` entries. -/
theorem C43_monomials (n : ℕ) : (monos n).Nodup ∧ (∀ s, s ∈ monos n ↔ s.Pairwise (· ≤ ·) ∧ s.length ≤ 2 ∧ ∀ i ∈ s, i < n) ∧
    2 * (monos n).length = (n + 1) * (n + 2) := by
  refine ⟨?_, ?_, ?_⟩
  · unfold monos
    refine List.Nodup.append (List.Nodup.append (by simp) ?_ ?_) ?_ ?_
    · exact (List.nodup_range).map (fun a b h => by simpa using h)
    · intro a h1 h2; simp at h1; subst h1; simp at h2
    · rw [List.nodup_flatMap]
      refine ⟨fun k _ => (List.nodup_range').map (fun a b h => by simpa using h), ?_⟩
      refine List.nodup_range.imp fun {a b} hab => ?_
      intro s h1 h2
      simp only [List.mem_map] at h1 h2
      obtain ⟨l1, _, rfl⟩ := h1
      obtain ⟨l2, _, h⟩ := h2
      simp at h; exact hab h.1.symm
    · intro s h1 h2
      simp only [List.mem_flatMap, List.mem_map] at h2
      obtain ⟨k, _, l, _, rfl⟩ := h2
      simp at h1
  · intro s
    simp only [monos, List.mem_append, List.mem_singleton, List.mem_map, List.mem_range, List.mem_flatMap, List.mem_range'_1]
    constructor
    · rintro ((rfl | ⟨i, hi, rfl⟩) | ⟨k, hk, l, hl, rfl⟩)
      · simp
      · simpa using hi
      · simp; omega
    · rintro ⟨h1, h2, h3⟩
      match s, h1, h2, h3 with
      | [], _, _, _ => exact Or.inl (Or.inl rfl)
      | [i], _, _, h3 => exact Or.inl (Or.inr ⟨i, h3 i (by simp), rfl⟩)
      | [k, l], h1, _, h3 =>
        have a := h3 k (by simp)
        have b := h3 l (by simp)
        simp at h1
        exact Or.inr ⟨k, a, l, ⟨h1, by omega⟩, rfl⟩
      | _ :: _ :: _ :: _, _, h2, _ => simp at h2
  · have : ∀ q, q ≤ n → (2 : ℤ) * ((List.range q).flatMap fun k => (List.range' k (n - k)).map fun l => [k, l]).length = 2 * n * q - q * (q - 1) := by
      intro q
      induction q with
      | zero => intro _; simp
      | succ q ih =>
        intro h
        rw [List.range_succ, List.flatMap_append, List.length_append]
        have := ih (by omega)
        simp only [List.flatMap_cons, List.flatMap_nil, List.append_nil, List.length_map, List.length_range']
        push_cast [Nat.cast_sub (by omega : q ≤ n)]
        linarith
    have h := this n le_rfl
    unfold monos
    rw [List.length_append, List.length_append, List.length_map, List.length_range]
    zify
    simp only [List.length_singleton]
    push_cast
    linarith

/-! ## C38 -/

theorem scaling_ne {n : ℕ} (x : Fin n → ℝ) : (scaling x).2 ≠ 0 := by
  unfold scaling
  simp only []
  split_ifs with h
  · exact one_ne_zero
  · exact h

/-- **C38** Round trip: de-normalising a normalised value (training or prediction, for inputs and outputs) returns it, for
every data column, including constant ones. -/
theorem C38_roundtrip {n : ℕ} (x : Fin n → ℝ) (v : ℝ) :
    denormalise (scaling x) (normalise (scaling x) v) = v ∧ normalise (scaling x) (denormalise (scaling x) v) = v := by
  have := scaling_ne x
  unfold denormalise normalise
  constructor
  · field_simp; ring
  · rw [add_sub_cancel_left]; field_simp

/-- **C38** Standardised columns have mean 0. -/
theorem C38_centred {n : ℕ} (hn : 0 < n) (x : Fin n → ℝ) : ∑ i, normalise (scaling x) (x i) = 0 := by
  unfold normalise
  rw [← Finset.sum_div]
  have : ∑ i, (x i - (scaling x).1) = 0 := by
    have hn' : (n : ℝ) ≠ 0 := by exact_mod_cast hn.ne'
    simp only [scaling, mean, Finset.sum_sub_distrib, Finset.sum_const, Finset.card_univ, Fintype.card_fin, nsmul_eq_mul]
    field_simp; ring
  rw [this, zero_div]

/-- **C38** Non-constant columns get unit sample variance; constant columns are mapped to 0. (At least two samples, since
`ddof=1`.) -/
theorem C38_unit_variance {n : ℕ} (hn : 2 ≤ n) (x : Fin n → ℝ) :
    ((∃ i j, x i ≠ x j) → (∑ i, normalise (scaling x) (x i) ^ 2) / ((n : ℝ) - 1) = 1) ∧
    ((∀ i j, x i = x j) → ∀ i, normalise (scaling x) (x i) = 0) := by
  have hn1 : (0 : ℝ) < (n : ℝ) - 1 := by
    have : (2 : ℝ) ≤ n := by exact_mod_cast hn
    linarith
  have hn0 : (n : ℝ) ≠ 0 := by
    have : (2 : ℝ) ≤ n := by exact_mod_cast hn
    linarith
  constructor
  · rintro ⟨i, j, hij⟩
    have hS : 0 < ∑ i, (x i - mean x) ^ 2 := by
      refine lt_of_le_of_ne (Finset.sum_nonneg fun i _ => sq_nonneg _) fun h => hij ?_
      have h0 := (Finset.sum_eq_zero_iff_of_nonneg fun i _ => sq_nonneg (x i - mean x)).1 h.symm
      have hi := pow_eq_zero_iff (two_ne_zero) |>.1 (h0 i (Finset.mem_univ i))
      have hj := pow_eq_zero_iff (two_ne_zero) |>.1 (h0 j (Finset.mem_univ j))
      linarith
    have hs2 : std1 x ^ 2 = (∑ i, (x i - mean x) ^ 2) / ((n : ℝ) - 1) := Real.sq_sqrt (by positivity)
    have hs : std1 x ≠ 0 := by
      intro h; rw [h] at hs2
      have : 0 < (∑ i, (x i - mean x) ^ 2) / ((n : ℝ) - 1) := by positivity
      rw [← hs2] at this; norm_num at this
    have hsc : scaling x = (mean x, std1 x) := by simp [scaling, hs]
    rw [hsc]
    unfold normalise
    simp only [div_pow, ← Finset.sum_div, hs2]
    field_simp
  · intro h i
    have : (scaling x).1 = x i := by
      have e : ∑ j, x j = n * x i := by
        rw [Finset.sum_congr rfl fun j _ => h j i]; simp
      simp only [scaling, mean, e]
      field_simp
    unfold normalise
    rw [this, sub_self, zero_div]

/-- **C38** With `scale_X_to_unit`, non-constant columns are mapped onto `[0, 1]` and the round trip holds; for a constant
column the scale is zero, so the code divides by zero. -/
theorem C38_unit {n : ℕ} (x : Fin (n + 1) → ℝ) :
    ((∃ i j, x i ≠ x j) → (∀ i, 0 ≤ normalise (scalingUnit x) (x i) ∧ normalise (scalingUnit x) (x i) ≤ 1) ∧
      (∃ i, normalise (scalingUnit x) (x i) = 0) ∧ (∃ i, normalise (scalingUnit x) (x i) = 1) ∧
      ∀ v, denormalise (scalingUnit x) (normalise (scalingUnit x) v) = v) ∧
    ((∀ i j, x i = x j) → (scalingUnit x).2 = 0) := by
  obtain ⟨a, -, ha⟩ := Finset.exists_mem_eq_inf' Finset.univ_nonempty x
  obtain ⟨b, -, hb⟩ := Finset.exists_mem_eq_sup' Finset.univ_nonempty x
  have hsc : scalingUnit x = (x a, x b - x a) := by unfold scalingUnit; simp only []; rw [ha, hb]
  have hlo : ∀ i, x a ≤ x i := fun i => by rw [← ha]; exact Finset.inf'_le _ (Finset.mem_univ i)
  have hhi : ∀ i, x i ≤ x b := fun i => by rw [← hb]; exact Finset.le_sup' _ (Finset.mem_univ i)
  rw [hsc]
  constructor
  · rintro ⟨i, j, hij⟩
    have hpos : 0 < x b - x a := by
      rcases lt_or_gt_of_ne hij with h | h
      · linarith [hlo i, hhi j]
      · linarith [hlo j, hhi i]
    unfold normalise denormalise
    refine ⟨fun q => ⟨div_nonneg (by linarith [hlo q]) hpos.le, (div_le_one hpos).2 (by linarith [hhi q])⟩, ⟨a, by simp⟩,
      ⟨b, div_self hpos.ne'⟩, fun v => ?_⟩
    simp only []
    rw [mul_div_cancel₀ _ hpos.ne']; ring
  · intro h
    simp only []
    rw [h b a, sub_self]

/-! ## Non-vacuity -/

example : pairs 4 = [(0, 1), (0, 2), (0, 3), (1, 2), (1, 3), (2, 3)] := by decide

example : quadraticRow [(2 : ℚ), 3, 5] = [1, 2, 3, 5, 4, 6, 10, 9, 15, 25] := by decide +kernel

/-- An even kernel (squared distance) for `C37_symmetric`. -/
example : ∀ d : Fin 2 → ℚ, (d 0 * d 0 + d 1 * d 1) = ((-d 0) * (-d 0) + (-d 1) * (-d 1)) := by intro d; ring

example : ∃ i j : Fin 3, (![1, 2, 2] : Fin 3 → ℝ) i ≠ ![1, 2, 2] j := ⟨0, 1, by norm_num⟩

end SMT.Krg
