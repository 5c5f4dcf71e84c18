import Verif.Fp.Moe
import Verif.Fp.IdwProps
import Verif.Fp.StandardProps2
import Mathlib.Algebra.Order.BigOperators.Ring.Finset
import Mathlib.Algebra.Order.Field.Power

/-!
# Property C114: recombination of a mixture of experts in floating-point arithmetic

Specification: `p j` is the product weight × density of cluster `j` as rounded, `S` the exact sum of these numbers; the membership probability meant is `p j / S` and the prediction meant `∑ j, e j * (p j / S)`.
-/
set_option linter.unusedSectionVars false
set_option linter.unusedSimpArgs false
set_option linter.unusedVariables false

namespace SMT.Fp.Moe
open SMT.Fp.Ego

variable {K : Type} [Field K] [LinearOrder K] [IsStrictOrderedRing K] {F : Format K} {k : ℕ}

/-- The number of a finite value. -/
def num : X K → K
  | .fin x => x
  | _ => 0

/-! ## Sums of non-negative values -/

theorem tree_nn (g : ℕ → X K) (t : Tree) (h : ∀ i ∈ t.leaves, Nn F (g i)) :
    Nn F (t.evalX F g) ∧ (t.evalX F g = .fin 0 ↔ ∀ i ∈ t.leaves, g i = .fin 0) := by
  induction t with
  | leaf i => simpa [Tree.evalX, Tree.leaves] using h
  | node a b ha hb =>
    have h1 := ha fun i hi => h i (by simp [Tree.leaves, hi])
    have h2 := hb fun i hi => h i (by simp [Tree.leaves, hi])
    refine ⟨add_nn F h1.1 h2.1, ?_⟩
    rw [Tree.evalX, add_nn_zero F h1.1 h2.1, h1.2, h2.2]
    simp only [Tree.leaves, List.mem_append]
    exact ⟨fun ⟨x, y⟩ i hi => hi.elim (x i) (y i), fun x => ⟨fun i hi => x i (.inl hi), fun i hi => x i (.inr hi)⟩⟩

theorem of_eq_fin {x r : K} (h : F.of x = .fin r) : r = F.rnd x ∧ F.Fin r := by
  unfold Format.of at h
  split at h
  · rename_i hb
    injection h with h
    exact ⟨h.symm, h ▸ ⟨F.idem x, hb⟩⟩
  · cases h

theorem tree_fin (g : ℕ → X K) (t : Tree) (h : ∀ i ∈ t.leaves, Nn F (g i)) {r : K} (e : t.evalX F g = .fin r) :
    F.Fin r ∧ (∀ i ∈ t.leaves, g i = .fin (num (g i)) ∧ F.Fin (num (g i)) ∧ 0 ≤ num (g i) ∧ num (g i) ≤ r) ∧
      (1 - F.u) ^ (t.leaves.length - 1) * (t.leaves.map fun i => num (g i)).sum ≤ r ∧
      r ≤ (1 + F.u) ^ (t.leaves.length - 1) * (t.leaves.map fun i => num (g i)).sum := by
  induction t generalizing r with
  | leaf i =>
    have hi := h i (by simp [Tree.leaves])
    have e' : g i = .fin r := e
    rw [e'] at hi
    simp [Tree.leaves, e', num, hi.1, hi.2]
  | node a b ha hb =>
    have na : ∀ i ∈ a.leaves, Nn F (g i) := fun i hi => h i (by simp [Tree.leaves, hi])
    have nb : ∀ i ∈ b.leaves, Nn F (g i) := fun i hi => h i (by simp [Tree.leaves, hi])
    obtain ⟨x, ex⟩ : ∃ x, a.evalX F g = .fin x := by
      have := (tree_nn (F := F) g a na).1
      rw [Tree.evalX] at e
      cases hx : a.evalX F g with
      | fin x => exact ⟨x, rfl⟩
      | nan => rw [hx, F.addX_nan_left] at e; cases e
      | inf s =>
        have hn := (tree_nn (F := F) g b nb).1
        rw [hx] at e this
        cases hy : b.evalX F g with
        | fin y => rw [hy] at e; cases e
        | nan => rw [hy, F.addX_nan_right] at e; cases e
        | inf s' =>
          rw [hy] at e hn
          have h1 : s = false := this
          have h2 : s' = false := hn
          subst h1 h2
          cases e
    obtain ⟨y, ey⟩ : ∃ y, b.evalX F g = .fin y := by
      rw [Tree.evalX, ex] at e
      cases hy : b.evalX F g with
      | fin y => exact ⟨y, rfl⟩
      | nan => rw [hy] at e; cases e
      | inf s => rw [hy] at e; cases e
    obtain ⟨fx, lx, x1, x2⟩ := ha na ex
    obtain ⟨fy, ly, y1, y2⟩ := hb nb ey
    have e1 : F.of (x + y) = .fin r := by
      rw [Tree.evalX, ex, ey] at e
      exact e
    obtain ⟨er, fr⟩ := of_eq_fin e1
    have hx0 : 0 ≤ x := by
      have := (tree_nn (F := F) g a na).1
      rw [ex] at this
      exact this.2
    have hy0 : 0 ≤ y := by
      have := (tree_nn (F := F) g b nb).1
      rw [ey] at this
      exact this.2
    have hxr : x ≤ r := er ▸ F.rep_le fx.1 (by linarith)
    have hyr : y ≤ r := er ▸ F.rep_le fy.1 (by linarith)
    refine ⟨fr, ?_, ?_⟩
    · intro i hi
      rw [Tree.leaves, List.mem_append] at hi
      rcases hi with hi | hi
      · obtain ⟨u1, u2, u3, u4⟩ := lx i hi
        exact ⟨u1, u2, u3, u4.trans hxr⟩
      · obtain ⟨u1, u2, u3, u4⟩ := ly i hi
        exact ⟨u1, u2, u3, u4.trans hyr⟩
    · have hadd := F.add x y fx.1 fy.1
      rw [← er, abs_of_nonneg (add_nonneg hx0 hy0), abs_le] at hadd
      have pa := leaves_pos a
      have pb := leaves_pos b
      have sa : 0 ≤ (a.leaves.map fun i => num (g i)).sum := List.sum_nonneg (by
        intro v hv
        obtain ⟨i, hi, rfl⟩ := List.mem_map.1 hv
        exact (lx i hi).2.2.1)
      have sb : 0 ≤ (b.leaves.map fun i => num (g i)).sum := List.sum_nonneg (by
        intro v hv
        obtain ⟨i, hi, rfl⟩ := List.mem_map.1 hv
        exact (ly i hi).2.2.1)
      have u0 := F.u_nonneg
      have u1 := F.u_lt
      have el : (Tree.node a b).leaves.length - 1 = (a.leaves.length - 1 + (b.leaves.length - 1)) + 1 := by
        rw [Tree.leaves, List.length_append]
        omega
      have es : ((Tree.node a b).leaves.map fun i => num (g i)).sum = (a.leaves.map fun i => num (g i)).sum + (b.leaves.map fun i => num (g i)).sum := by
        rw [Tree.leaves, List.map_append, List.sum_append]
      rw [el, es]
      generalize a.leaves.length - 1 = m at *
      generalize b.leaves.length - 1 = n at *
      generalize (a.leaves.map fun i => num (g i)).sum = A at *
      generalize (b.leaves.map fun i => num (g i)).sum = B at *
      constructor
      · have h1 : (1 - F.u) ^ (m + n) * A ≤ (1 - F.u) ^ m * A :=
          mul_le_mul_of_nonneg_right (pow_le_pow_of_le_one (by linarith) (by linarith) (by omega)) sa
        have h2 : (1 - F.u) ^ (m + n) * B ≤ (1 - F.u) ^ n * B :=
          mul_le_mul_of_nonneg_right (pow_le_pow_of_le_one (by linarith) (by linarith) (by omega)) sb
        calc (1 - F.u) ^ (m + n + 1) * (A + B) = (1 - F.u) * ((1 - F.u) ^ (m + n) * A + (1 - F.u) ^ (m + n) * B) := by ring
          _ ≤ (1 - F.u) * (x + y) := mul_le_mul_of_nonneg_left (by linarith) (by linarith)
          _ ≤ r := by linarith [hadd.1]
      · have h1 : (1 + F.u) ^ m * A ≤ (1 + F.u) ^ (m + n) * A :=
          mul_le_mul_of_nonneg_right (pow_le_pow_right₀ (by linarith) (by omega)) sa
        have h2 : (1 + F.u) ^ n * B ≤ (1 + F.u) ^ (m + n) * B :=
          mul_le_mul_of_nonneg_right (pow_le_pow_right₀ (by linarith) (by omega)) sb
        calc r ≤ (1 + F.u) * (x + y) := by linarith [hadd.2]
          _ ≤ (1 + F.u) * ((1 + F.u) ^ (m + n) * A + (1 + F.u) ^ (m + n) * B) := mul_le_mul_of_nonneg_left (by linarith) (by linarith)
          _ = (1 + F.u) ^ (m + n + 1) * (A + B) := by ring

/-! ## The products and their sum -/

/-- Inputs as scikit-learn and SciPy give them: weights that are non-negative numbers, densities that are non-negative numbers or `+∞`. -/
structure Inputs (F : Format K) (w : Fin k → K) (pdf : Fin k → X K) : Prop where
  w_fin : ∀ j, F.Fin (w j)
  w_nonneg : ∀ j, 0 ≤ w j
  pdf_nn : ∀ j, Nn F (pdf j)

theorem product_nn {w : Fin k → K} {pdf : Fin k → X K} (h : Inputs F w pdf) (j : Fin k) : Nn F (products F w pdf j) ∨ products F w pdf j = .nan := by
  have hw := h.w_nonneg j
  have hp := h.pdf_nn j
  unfold products
  cases e : pdf j with
  | nan => rw [e] at hp; exact hp.elim
  | fin f =>
    rw [e] at hp
    left
    show Nn F (F.of (w j * f))
    unfold Format.of
    split
    · exact ⟨⟨F.idem _, by assumption⟩, F.nonneg (mul_nonneg hw hp.2)⟩
    · exact decide_eq_false (not_lt.2 (mul_nonneg hw hp.2))
  | inf s =>
    rw [e] at hp
    have hs : s = false := hp
    subst hs
    show Nn F (if w j = 0 then X.nan else X.inf (decide (w j < 0) != false)) ∨ (if w j = 0 then X.nan else X.inf (decide (w j < 0) != false)) = X.nan
    by_cases h0 : w j = 0
    · right; rw [if_pos h0]
    · left
      rw [if_neg h0]
      show (decide (w j < 0) != false) = false
      simp [hw]

/-- **C114** The product of weight and density: rounded once, so that it is off by at most `u` times its size plus the smallest step `tiny`; a zero weight with an infinite density is NaN, a positive one `+∞`. -/
theorem C114_product (w : Fin k → K) (pdf : Fin k → X K) (j : Fin k) :
    (∀ f, pdf j = .fin f → ∀ p, products F w pdf j = .fin p → |p - w j * f| ≤ F.u * |w j * f| + F.tiny) ∧
    (∀ f, pdf j = .fin f → |w j * f| ≤ F.big → ∃ p, products F w pdf j = .fin p) ∧
    (pdf j = .inf false → w j = 0 → products F w pdf j = .nan) ∧ (pdf j = .inf false → 0 < w j → products F w pdf j = .inf false) := by
  refine ⟨fun f e p h => ?_, fun f e h => ?_, fun e h => ?_, fun e h => ?_⟩
  · have h' : F.of (w j * f) = .fin p := by
      unfold products at h
      rw [e] at h
      exact h
    rw [(of_eq_fin h').1]
    exact F.err _
  · refine ⟨F.rnd (w j * f), ?_⟩
    unfold products
    rw [e]
    exact F.of_small h
  · unfold products
    rw [e]
    exact if_pos h
  · unfold products
    rw [e]
    show (if w j = 0 then X.nan else X.inf (decide (w j < 0) != false)) = X.inf false
    rw [if_neg h.ne']
    simp [h.le]

theorem mem_leaves {t : Tree} (ht : t.Adds k) {i : ℕ} : i ∈ t.leaves ↔ i < k := by
  rw [ht.mem_iff, List.mem_range]

theorem leaves_sum {t : Tree} (ht : t.Adds k) (f : ℕ → K) (g : Fin k → K) (h : ∀ j : Fin k, f j = g j) : (t.leaves.map f).sum = ∑ j, g j := by
  rw [(ht.map f).sum_eq]
  have : ∀ n, ((List.range n).map f).sum = ∑ i : Fin n, f i := by
    intro n
    induction n with
    | zero => simp
    | succ n ih => rw [List.range_succ, List.map_append, List.sum_append, ih, Fin.sum_univ_castSucc]; simp
  rw [this]
  exact Finset.sum_congr rfl fun j _ => h j

/-- The family read by `total`. -/
theorem at_index (p : Fin k → X K) (j : Fin k) : (if h : (j : ℕ) < k then p ⟨j, h⟩ else .nan) = p j := dif_pos j.2

theorem adds_pos {t : Tree} (ht : t.Adds k) : 1 ≤ k := by
  have := leaves_pos t
  rw [leaves_length ht] at this
  exact this

/-- **C114** The sum of the products: NaN exactly if a product is, zero exactly if all of them are, otherwise a positive number or `+∞` (which it is whenever a product is). This is so in whatever order NumPy adds. -/
theorem C114_total {w : Fin k → K} {pdf : Fin k → X K} (h : Inputs F w pdf) {t : Tree} (ht : t.Adds k) :
    (total F t (products F w pdf) = .nan ↔ ∃ j, products F w pdf j = .nan) ∧
    (total F t (products F w pdf) = .fin 0 ↔ ∀ j, products F w pdf j = .fin 0) ∧
    ((∃ j, products F w pdf j = .nan) ∨ (∀ j, products F w pdf j = .fin 0) ∨ total F t (products F w pdf) = .inf false ∨ ∃ r, 0 < r ∧ F.Fin r ∧ total F t (products F w pdf) = .fin r) ∧
    ((∀ j, products F w pdf j ≠ .nan) → (∃ j, products F w pdf j = .inf false) → total F t (products F w pdf) = .inf false) := by
  generalize hp : products F w pdf = p
  have hn : ∀ j, Nn F (p j) ∨ p j = .nan := hp ▸ product_nn h
  have hleaf : ∀ i ∈ t.leaves, ∃ j : Fin k, (j : ℕ) = i := fun i hi => ⟨⟨i, (mem_leaves ht).1 hi⟩, rfl⟩
  have nan1 : (∃ j, p j = .nan) → total F t p = .nan := by
    rintro ⟨j, hj⟩
    exact evalX_nan F _ t ⟨j, (mem_leaves ht).2 j.2, by rw [at_index, hj]⟩
  by_cases hnan : ∃ j, p j = .nan
  · refine ⟨⟨fun _ => hnan, nan1⟩, ⟨fun e => ?_, fun e => ?_⟩, .inl hnan, fun e => ?_⟩
    · rw [nan1 hnan] at e; cases e
    · obtain ⟨j, hj⟩ := hnan
      rw [e j] at hj; cases hj
    · obtain ⟨j, hj⟩ := hnan
      exact absurd hj (e j)
  · push Not at hnan
    have hnn : ∀ j, Nn F (p j) := fun j => (hn j).resolve_right (hnan j)
    have hl : ∀ i ∈ t.leaves, Nn F (if h : i < k then p ⟨i, h⟩ else .nan) := by
      intro i hi
      obtain ⟨j, rfl⟩ := hleaf i hi
      rw [at_index]
      exact hnn j
    obtain ⟨h1, h2⟩ := tree_nn (F := F) _ t hl
    have hz : total F t p = .fin 0 ↔ ∀ j, p j = .fin 0 := by
      refine h2.trans ⟨fun e j => ?_, fun e i hi => ?_⟩
      · have := e j ((mem_leaves ht).2 j.2)
        rwa [at_index] at this
      · obtain ⟨j, rfl⟩ := hleaf i hi
        rw [at_index, e j]
    have h1' : Nn F (total F t p) := h1
    refine ⟨⟨fun e => ?_, nan1⟩, hz, ?_, fun _ ⟨j, hj⟩ => ?_⟩
    · rw [e] at h1'; exact h1'.elim
    · by_cases h0 : total F t p = .fin 0
      · exact .inr (.inl (hz.1 h0))
      · cases e : total F t p with
        | nan => rw [e] at h1'; exact h1'.elim
        | inf s =>
          rw [e] at h1'
          have hs : s = false := h1'
          exact .inr (.inr (.inl (by rw [hs])))
        | fin r =>
          rw [e] at h1' h0
          exact .inr (.inr (.inr ⟨r, lt_of_le_of_ne h1'.2 fun c => h0 (by rw [← c]), h1'.1, rfl⟩))
    · cases e : total F t p with
      | nan => rw [e] at h1'; exact h1'.elim
      | inf s =>
        rw [e] at h1'
        have hs : s = false := h1'
        rw [hs]
      | fin r =>
        have := (tree_fin (F := F) _ t hl e).2.1 j ((mem_leaves ht).2 j.2)
        rw [at_index, hj] at this
        cases this.1

end SMT.Fp.Moe
