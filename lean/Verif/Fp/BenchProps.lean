import Verif.Fp.Bench
import Verif.Fp.ErrProps2
import Verif.Fp.MoeProps
import Verif.Fp.EgoProps2

/-!
# C123: Sphere and Rosenbrock in IEEE arithmetic: range, symmetry, minimum
-/
set_option linter.unusedSectionVars false
set_option linter.unusedSimpArgs false
set_option linter.unusedVariables false

namespace SMT.Fp.Bench
open SMT.Fp.Moe SMT.Fp.Corr

variable {K : Type} [Field K] [LinearOrder K] [IsStrictOrderedRing K]
variable (F : Format K)

/-! ## Sphere -/

theorem sq_nan (v : X K) : sq F v = .nan ↔ v = .nan := by
  constructor
  · intro h
    by_contra hv
    have := mul_self_nn F hv
    rw [sq] at h
    rw [h] at this
    exact this
  · rintro rfl; rfl

theorem sq_nn {v : X K} (h : v ≠ .nan) : Nn F (sq F v) := mul_self_nn F h

theorem col_of {x : List (X K)} {i : ℕ} (h : i < x.length) : col x i = x[i] := by
  rw [col, List.getD_eq_getElem?_getD, List.getElem?_eq_getElem h]; rfl

/-- The value of Sphere is NaN exactly if a coordinate is NaN; otherwise it is a number that is not negative, or `+∞` (also for infinite coordinates). -/
theorem C123_sphere_range (t : Tree) (x : List (X K)) (ht : t.Adds x.length) :
    (sphere F t x = .nan ↔ .nan ∈ x) ∧ (.nan ∉ x → Nn F (sphere F t x)) := by
  have hn : .nan ∉ x → Nn F (sphere F t x) := fun hx => by
    refine (tree_nn (F := F) _ t fun i hi => ?_).1
    have hi' := List.mem_range.1 (ht.mem_iff.1 hi)
    exact sq_nn F fun e => hx (by rw [← e, col_of hi']; exact List.getElem_mem _)
  refine ⟨⟨fun h => ?_, fun h => ?_⟩, hn⟩
  · by_contra hx
    have := hn hx
    rw [h] at this
    exact this
  · obtain ⟨i, hi, e⟩ := List.getElem_of_mem h
    exact SMT.Fp.Ego.evalX_nan F _ t ⟨i, ht.mem_iff.2 (List.mem_range.2 hi), by rw [col_of hi, e]; rfl⟩

theorem of_zero_iff (a : K) : F.of a = .fin 0 ↔ F.rnd a = 0 := by
  unfold Format.of
  constructor
  · intro h
    split at h
    · exact X.fin.inj h
    · cases h
  · intro h
    rw [h, abs_zero, if_pos F.big_pos.le]

/-- The value is zero exactly if all coordinates are numbers whose squares underflow to zero. -/
theorem C123_sphere_zero (t : Tree) (x : List (X K)) (ht : t.Adds x.length) :
    sphere F t x = .fin 0 ↔ ∀ v ∈ x, ∃ a, v = .fin a ∧ F.rnd (a * a) = 0 := by
  have hz : ∀ v : X K, sq F v = .fin 0 ↔ ∃ a, v = .fin a ∧ F.rnd (a * a) = 0 := by
    intro v
    cases v with
    | fin a =>
      show F.of (a * a) = .fin 0 ↔ _
      rw [of_zero_iff]
      exact ⟨fun h => ⟨a, rfl, h⟩, fun ⟨b, e, h⟩ => by injection e with e; rw [e]; exact h⟩
    | inf s => exact ⟨fun h => (by cases h), fun ⟨b, e, _⟩ => (by cases e)⟩
    | nan => exact ⟨fun h => (by cases h), fun ⟨b, e, _⟩ => (by cases e)⟩
  by_cases hx : .nan ∈ x
  · rw [((C123_sphere_range F t x ht).1).2 hx]
    constructor
    · intro h; cases h
    · intro h
      obtain ⟨a, e, _⟩ := h _ hx
      cases e
  · have h2 := (tree_nn (F := F) (fun i => sq F (col x i)) t fun i hi => ?_).2
    · rw [sphere, h2]
      constructor
      · intro h v hv
        obtain ⟨i, hi, rfl⟩ := List.getElem_of_mem hv
        have := h i (ht.mem_iff.2 (List.mem_range.2 hi))
        rw [col_of hi] at this
        exact (hz _).1 this
      · intro h i hi
        have hi' := List.mem_range.1 (ht.mem_iff.1 hi)
        rw [hz, col_of hi']
        exact h _ (List.getElem_mem _)
    · have hi' := List.mem_range.1 (ht.mem_iff.1 hi)
      exact sq_nn F fun e => hx (by rw [← e, col_of hi']; exact List.getElem_mem _)

/-- Changing the signs of any coordinates changes the value in no bit. -/
theorem C123_sphere_even (t : Tree) {x y : List (X K)} (ht : t.Adds x.length) (h : List.Forall₂ (fun v w => w = v ∨ w = X.neg v) x y) : sphere F t y = sphere F t x := by
  have hs : ∀ v w : X K, w = v ∨ w = X.neg v → sq F w = sq F v := by
    rintro v w (rfl | rfl)
    · rfl
    · rw [sq, mul_neg_left, mul_neg_right, neg_neg', sq]
  have hl := h.length_eq
  have : ∀ s : Tree, (∀ i ∈ s.leaves, i < x.length) → (s.evalX F fun i => sq F (col y i)) = s.evalX F fun i => sq F (col x i) := by
    intro s
    induction s with
    | leaf i =>
      intro hi
      have hi := hi i (by simp [Tree.leaves])
      show sq F (col y i) = sq F (col x i)
      rw [col_of hi, col_of (hl ▸ hi)]
      exact hs _ _ (by simpa using (List.forall₂_iff_get.1 h).2 i hi (hl ▸ hi))
    | node a b ha hb =>
      intro hi
      show F.addX _ _ = F.addX _ _
      rw [ha fun i h => hi i (by simp [Tree.leaves, h]), hb fun i h => hi i (by simp [Tree.leaves, h])]
  exact this t fun i hi => List.mem_range.1 (ht.mem_iff.1 hi)

/-- Moving every coordinate away from zero never lowers the value. -/
theorem C123_sphere_monotone (t : Tree) {x y : List K} (ht : t.Adds x.length) (h : List.Forall₂ (fun a b => |a| ≤ |b|) x y) :
    (sphere F t (x.map .fin)).le (sphere F t (y.map .fin)) = true := by
  have hl := h.length_eq
  have hx : ∀ i ∈ t.leaves, i < x.length := fun i hi => List.mem_range.1 (ht.mem_iff.1 hi)
  refine tree_mono F _ _ t (fun i hi => sq_nn F ?_) (fun i hi => sq_nn F ?_) fun i hi => ?_
  · rw [col_of (by simpa using hx i hi), List.getElem_map]; simp
  · rw [col_of (by simpa using hl ▸ hx i hi), List.getElem_map]; simp
  · rw [col_of (by simpa using hx i hi), col_of (by simpa using hl ▸ hx i hi), List.getElem_map, List.getElem_map]
    have := (List.forall₂_iff_get.1 h).2 i (hx i hi) (hl ▸ hx i hi)
    refine of_mono F (mul_self_nonneg _) ?_
    rw [← abs_mul_abs_self, ← abs_mul_abs_self (y[i]'_)]
    exact mul_self_le_mul_self (abs_nonneg _) (by simpa using this)

/-- The derivative is at least as far from zero as the coordinate, on the same side, or the infinity of that side; it is zero at zero (and so at zero only), and NaN exactly for a NaN. -/
theorem C123_sphere_derivative (x : List (X K)) (kx : ℕ) (hk : kx < x.length) :
    (∀ a, F.Fin a → x[kx] = .fin a → (0 < a → (∃ d, a ≤ d ∧ sphereDeriv F x kx = .fin d) ∨ sphereDeriv F x kx = .inf false) ∧
      (a < 0 → (∃ d, d ≤ a ∧ sphereDeriv F x kx = .fin d) ∨ sphereDeriv F x kx = .inf true) ∧ (a = 0 → sphereDeriv F x kx = .fin 0)) ∧
    (∀ s, x[kx] = .inf s → sphereDeriv F x kx = .inf s) ∧ (sphereDeriv F x kx = .nan ↔ x[kx] = .nan) := by
  have h2 : ¬(2 : K) < 0 := by norm_num
  rw [sphereDeriv, col_of hk]
  refine ⟨fun a ha e => ?_, fun s e => ?_, ?_⟩
  · rw [e]
    refine ⟨fun h => ?_, fun h => ?_, fun h => ?_⟩
    · show (∃ d, a ≤ d ∧ F.of (2 * a) = .fin d) ∨ F.of (2 * a) = .inf false
      unfold Format.of
      split
      · exact Or.inl ⟨_, F.rep_le ha.1 (by linarith), rfl⟩
      · refine Or.inr ?_
        rw [decide_eq_false (by linarith)]
    · show (∃ d, d ≤ a ∧ F.of (2 * a) = .fin d) ∨ F.of (2 * a) = .inf true
      unfold Format.of
      split
      · exact Or.inl ⟨_, F.le_rep ha.1 (by linarith), rfl⟩
      · refine Or.inr ?_
        rw [decide_eq_true (by linarith)]
    · rw [h]; exact mul_zero' F 2
  · rw [e]
    show (if (2 : K) = 0 then X.nan else .inf (decide ((2 : K) < 0) != s)) = .inf s
    rw [if_neg two_ne_zero, decide_eq_false h2]
    cases s <;> rfl
  · cases e : x[kx] with
    | fin a =>
      refine ⟨fun h => ?_, fun h => by cases h⟩
      change F.of (2 * a) = .nan at h
      unfold Format.of at h
      split at h <;> cases h
    | inf s =>
      refine ⟨fun h => ?_, fun h => by cases h⟩
      change (if (2 : K) = 0 then X.nan else .inf (decide ((2 : K) < 0) != s)) = .nan at h
      rw [if_neg two_ne_zero] at h
      cases h
    | nan => exact ⟨fun _ => rfl, fun _ => rfl⟩

/-- Sums of numbers that differ from given ones by little. -/
theorem sum_bounds {α : Type} (f g : α → K) (u w : K) (l : List α) (h : ∀ i ∈ l, |f i - g i| ≤ u * g i + w) :
    (1 - u) * (l.map g).sum - l.length * w ≤ (l.map f).sum ∧ (l.map f).sum ≤ (1 + u) * (l.map g).sum + l.length * w := by
  induction l with
  | nil => simp
  | cons a l ih =>
    obtain ⟨h1, h2⟩ := ih fun i hi => h i (List.mem_cons_of_mem _ hi)
    have := abs_le.1 (h a List.mem_cons_self)
    rw [List.map_cons, List.sum_cons, List.map_cons, List.sum_cons, List.length_cons]
    push_cast
    constructor <;> nlinarith [this.1, this.2]

/-- Rounding: a value that is a number differs from the exact sum of squares by a factor between `(1 - u)ⁿ` and `(1 + u)ⁿ`, apart from squares that underflow (at most `tiny` each). -/
theorem C123_sphere_accuracy (t : Tree) (x : List K) (ht : t.Adds x.length) {v : K} (hv : sphere F t (x.map .fin) = .fin v) :
    (1 - F.u) ^ (x.length - 1) * ((1 - F.u) * (x.map fun a => a * a).sum - x.length * F.tiny) ≤ v ∧
    v ≤ (1 + F.u) ^ (x.length - 1) * ((1 + F.u) * (x.map fun a => a * a).sum + x.length * F.tiny) := by
  have hlt : ∀ i ∈ t.leaves, i < x.length := fun i hi => List.mem_range.1 (ht.mem_iff.1 hi)
  have hcol : ∀ i ∈ t.leaves, sq F (col (x.map .fin) i) = F.of (x.getD i 0 * x.getD i 0) := fun i hi => by
    have hi' := hlt i hi
    rw [col_of (by simpa using hi'), List.getElem_map, List.getD_eq_getElem?_getD, List.getElem?_eq_getElem hi']
    rfl
  obtain ⟨h1, h2, h3, h4⟩ := tree_fin (F := F) (fun i => sq F (col (x.map .fin) i)) t (fun i hi => by
    rw [hcol i hi]; exact of_nn F (mul_self_nonneg _)) hv
  have hlen : t.leaves.length = x.length := by rw [ht.length_eq, List.length_range]
  have hsum : (t.leaves.map fun i => x.getD i 0 * x.getD i 0).sum = (x.map fun a => a * a).sum := by
    rw [(ht.map _).sum_eq]
    congr 1
    refine List.ext_getElem (by simp) fun i h h' => ?_
    have hi : i < x.length := by simpa using h'
    rw [List.getElem_map, List.getElem_range, List.getElem_map, List.getD_eq_getElem?_getD, List.getElem?_eq_getElem hi]
    rfl
  obtain ⟨b1, b2⟩ := sum_bounds (fun i => num (sq F (col (x.map .fin) i))) (fun i => x.getD i 0 * x.getD i 0) F.u F.tiny t.leaves (fun i hi => by
    have e := (h2 i hi).1
    rw [hcol i hi] at e
    have e' : F.of (x.getD i 0 * x.getD i 0) = .fin (F.rnd (x.getD i 0 * x.getD i 0)) := by
      unfold Format.of at e ⊢
      split at e
      · rw [if_pos (by assumption)]
      · cases e
    show |num (sq F (col (x.map .fin) i)) - _| ≤ _
    rw [hcol i hi, e']
    have := F.err (x.getD i 0 * x.getD i 0)
    rwa [abs_of_nonneg (mul_self_nonneg (x.getD i 0))] at this)
  rw [hsum, hlen] at b1 b2
  rw [hlen] at h3 h4
  have hu : 0 ≤ (1 - F.u) ^ (x.length - 1) := pow_nonneg (by linarith [F.u_lt]) _
  have hu' : 0 ≤ (1 + F.u) ^ (x.length - 1) := pow_nonneg (by linarith [F.u_nonneg]) _
  exact ⟨(mul_le_mul_of_nonneg_left b1 hu).trans h3, h4.trans (mul_le_mul_of_nonneg_left b2 hu')⟩

/-- `(1e-200, -1e-170)` has value zero, `(1e155, 1)` has value `+∞`, `(3, -4)` has value 25. -/
example : sphere binary64 (.node (.leaf 0) (.leaf 1)) [.fin (1 / 2 ^ 700), .fin (-1 / 2 ^ 600)] = .fin 0 := by decide +kernel
example : sphere binary64 (.node (.leaf 0) (.leaf 1)) [.fin (10 ^ 155), .fin 1] = .inf false := by decide +kernel
example : sphere binary64 (.node (.leaf 0) (.leaf 1)) [.fin 3, .fin (-4)] = .fin 25 := by decide +kernel
example : (Tree.node (.leaf 0) (.leaf 1)).Adds ([X.fin (3 : ℚ), .fin (-4)]).length := List.Perm.refl _

end SMT.Fp.Bench
