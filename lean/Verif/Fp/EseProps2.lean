import Verif.Fp.EseProps

/-!
# Property C106: the ESE optimisation in rounded arithmetic. The error of the recorded criterion.

The power `p` is even, `p = 2 q` (the library uses `p = 10`), so that the `p`-th power of a distance is the `q`-th power of the sum of squares.
-/
set_option linter.unusedSectionVars false
set_option linter.unusedSimpArgs false
set_option linter.unusedVariables false

namespace SMT.Fp.Ese

variable {K : Type} [Field K] [LinearOrder K] [IsStrictOrderedRing K] {n d : ℕ}

/-! ## Specification -/

/-- The squared Euclidean distance. -/
def sqd (u v : Fin d → K) : K := ∑ c, (u c - v c) ^ 2

/-- The `p`-th power of the criterion PhiP, `p = 2 q`: the sum over the pairs of points of `distance ^ (-p)`. -/
def crit (q : ℕ) (P : Design K n d) : K :=
  ∑ a ∈ (Finset.univ : Finset (Fin n × Fin n)).filter (fun a => a.1 < a.2), (sqd (P a.1) (P a.2) ^ q)⁻¹

/-- What the functions of NumPy and of the C library guarantee: the results are those of exact arithmetic, up to `e` roundings
(for the root: its `p`-th power is); every sum adds each of its values once. -/
structure Good (A : Arith K) (q e : ℕ) : Prop where
  sqrt : Sqrt A.R A.sq
  npow : ∀ x, 0 < x → Close A.R e (((x * x) ^ q)⁻¹) (A.npow x)
  ppow : ∀ x, 0 ≤ x → Close A.R e ((x * x) ^ q) (A.ppow x)
  root_nonneg : ∀ y, 0 ≤ y → 0 ≤ A.root y
  root : ∀ y, 0 ≤ y → Close A.R e y ((A.root y * A.root y) ^ q)
  tree : ∀ m, 1 ≤ m → (A.tree m).Adds m

/-- The squared distances between different points are between `lo` and `hi`. -/
def Spread (lo hi : K) (P : Design K n d) : Prop := ∀ i j, i ≠ j → lo ≤ sqd (P i) (P j) ∧ sqd (P i) (P j) ≤ hi

/-! ## Closeness -/

end SMT.Fp.Ese

namespace SMT.Fp
section
variable {K : Type} [Field K] [LinearOrder K] [IsStrictOrderedRing K] {R : Rounding K}

theorem Close.pow {n : ℕ} {x c : K} (h : Close R n x c) (q : ℕ) : Close R (n * q) (x ^ q) (c ^ q) := by
  obtain ⟨h1, h2, h3, h4⟩ := h
  refine ⟨pow_nonneg h1 q, pow_nonneg h2 q, ?_, ?_⟩
  · rw [pow_mul, ← mul_pow]
    exact pow_le_pow_left₀ h1 h3 q
  · rw [pow_mul, ← mul_pow]
    exact pow_le_pow_left₀ h2 h4 q

theorem Close.toWithin {n : ℕ} {x c : K} (h : Close R n x c) : Within R n x x c :=
  ⟨by rw [abs_of_nonneg h.1], by rw [mul_comm]; exact h.abs_sub⟩

theorem Within.neg {n : ℕ} {T x c : K} (h : Within R n T x c) : Within R n T (-x) (-c) := by
  obtain ⟨h1, h2⟩ := h
  refine ⟨by rwa [abs_neg], ?_⟩
  rw [show -c - -x = -(c - x) by ring, abs_neg]
  exact h2

theorem Within.sub {n : ℕ} {S T x c y e : K} (h : Within R n S x c) (h' : Within R n T y e) : Within R n (S + T) (x - y) (c - e) := by
  rw [sub_eq_add_neg, sub_eq_add_neg]
  exact h.add h'.neg

theorem Within.weaken {n : ℕ} {S T x c : K} (h : Within R n S x c) (hT : S ≤ T) : Within R n T x c := by
  refine ⟨h.1.trans hT, h.2.trans (mul_le_mul_of_nonneg_left hT ?_)⟩
  linarith [one_le_pow₀ (rho_one_le R) (n := n)]

theorem eval_within' (n : ℕ) (T x c : ℕ → K) (t : Tree) (h : ∀ i ∈ t.leaves, Within R n (T i) (x i) (c i)) :
    Within R (n + (t.leaves.length - 1)) (t.leaves.map T).sum (t.leaves.map x).sum (t.eval R c) := by
  induction t with
  | leaf i => simpa [Tree.leaves, Tree.eval] using h i (by simp [Tree.leaves])
  | node a b ha hb =>
    have p1 := leaves_pos a
    have p2 := leaves_pos b
    have h1 := ha fun i hi => h i (by simp [Tree.leaves, hi])
    have h2 := hb fun i hi => h i (by simp [Tree.leaves, hi])
    rw [Tree.leaves, Tree.eval, List.map_append, List.map_append, List.sum_append, List.sum_append, List.length_append]
    have := ((h1.mono (m := n + (a.leaves.length + b.leaves.length - 2)) (by omega)).add (h2.mono (by omega))).rnd
    rwa [show n + (a.leaves.length + b.leaves.length - 2) + 1 = n + (a.leaves.length + b.leaves.length - 1) by omega] at this

/-- A signed error that is small relative to a positive exact value. -/
theorem close_of_abs {m : ℕ} {x c η : K} (hx : 0 < x) (h : |c - x| ≤ η * x) (hη : η ≤ 1 - (R.rho ^ m)⁻¹) : Close R m x c := by
  have hp : 0 < R.rho ^ m := pow_pos (rho_pos R) m
  have h1 : 1 ≤ R.rho ^ m := one_le_pow₀ (rho_one_le R)
  have hinv : (R.rho ^ m)⁻¹ * R.rho ^ m = 1 := inv_mul_cancel₀ hp.ne'
  have hi0 : 0 < (R.rho ^ m)⁻¹ := inv_pos.2 hp
  obtain ⟨h2, h3⟩ := abs_le.1 h
  have h4 : η * x ≤ (1 - (R.rho ^ m)⁻¹) * x := mul_le_mul_of_nonneg_right hη hx.le
  have h5 : (R.rho ^ m)⁻¹ * x ≤ c := by linarith
  refine ⟨hx.le, (mul_pos hi0 hx).le.trans h5, ?_, ?_⟩
  · have := mul_le_mul_of_nonneg_right h5 hp.le
    calc x = (R.rho ^ m)⁻¹ * R.rho ^ m * x := by rw [hinv, one_mul]
      _ = (R.rho ^ m)⁻¹ * x * R.rho ^ m := by ring
      _ ≤ c * R.rho ^ m := this
  · have h6 : 2 - (R.rho ^ m)⁻¹ ≤ R.rho ^ m := by
      generalize hr : R.rho ^ m = r at *
      have : 0 ≤ (r - 1) * (r - 1) * r⁻¹ := mul_nonneg (mul_self_nonneg _) hi0.le
      have e : (r - 1) * (r - 1) * r⁻¹ = r - 2 + r⁻¹ := by
        field_simp
        ring
      linarith
    have := mul_le_mul_of_nonneg_right h6 hx.le
    linarith

end
end SMT.Fp

namespace SMT.Fp.Ese

variable {K : Type} [Field K] [LinearOrder K] [IsStrictOrderedRing K] {n d : ℕ}

variable {A : Arith K} {q e : ℕ}

theorem sqd_nonneg (u v : Fin d → K) : 0 ≤ sqd u v := Finset.sum_nonneg fun _ _ => sq_nonneg _

theorem sqd_comm (u v : Fin d → K) : sqd u v = sqd v u := Finset.sum_congr rfl fun _ _ => by ring

theorem sqr_close (x : K) : Close A.R 3 (x ^ 2) (sqr A (A.R.rnd x)) := by
  rw [pow_two]
  exact (close_sq x).rnd

theorem sqDist_close [NeZero d] (hA : Good A q e) (u v : Fin d → K) : Close A.R (d + 2) (sqd u v) (sqDist A u v) := by
  have hd : 1 ≤ d := Nat.one_le_iff_ne_zero.2 (NeZero.ne d)
  have ht := hA.tree d hd
  have h := eval_close (R := A.R) 3 (fun c => if h : c < d then (u ⟨c, h⟩ - v ⟨c, h⟩) ^ 2 else 0)
    (fun c => if h : c < d then sqr A (A.R.rnd (u ⟨c, h⟩ - v ⟨c, h⟩)) else 0) (A.tree d) (by
      intro c hc
      have hcd : c < d := by
        have := ht.mem_iff.1 hc
        simpa using this
      rw [dif_pos hcd, dif_pos hcd]
      exact sqr_close _)
  rw [leaves_length ht, (ht.map _).sum_eq] at h
  have hs : ((List.range d).map fun c => if h : c < d then (u ⟨c, h⟩ - v ⟨c, h⟩) ^ 2 else 0).sum = sqd u v := by
    have h1 : ((List.range d).map fun c => if h : c < d then (u ⟨c, h⟩ - v ⟨c, h⟩) ^ 2 else 0).sum =
        ∑ c ∈ Finset.range d, (if h : c < d then (u ⟨c, h⟩ - v ⟨c, h⟩) ^ 2 else 0) := rfl
    rw [h1, Finset.sum_range, sqd]
    exact Finset.sum_congr rfl fun c _ => by rw [dif_pos c.2]
  rw [hs, show 3 + (d - 1) = d + 2 by omega] at h
  exact h

theorem dist_close [NeZero d] (hA : Good A q e) (u v : Fin d → K) : Close A.R (d + 4) (sqd u v) (dist A u v * dist A u v) := by
  have h := sqDist_close hA u v
  exact h.trans (hA.sqrt.close _ h.2.1)

theorem dist_nonneg [NeZero d] (hA : Good A q e) (u v : Fin d → K) : 0 ≤ dist A u v := hA.sqrt.nonneg _ (sqDist_close hA u v).2.1

/-- A computed root whose square is close to a positive number, raised to `-p`. -/
theorem npowX_close (hA : Good A q e) {m : ℕ} {s r : K} (hs : 0 < s) (hr : 0 ≤ r) (h : Close A.R m s (r * r)) :
    ∃ w, npowX A (.fin r) = .fin w ∧ Close A.R (m * q + e) ((s ^ q)⁻¹) w := by
  have hr0 : r ≠ 0 := by
    intro e
    rw [e, mul_zero] at h
    exact hs.ne' (h.zero_iff.2 rfl)
  refine ⟨A.npow r, by rw [npowX, if_neg hr0], ?_⟩
  exact (h.pow q).inv.trans (hA.npow r (lt_of_le_of_ne hr (Ne.symm hr0)))

theorem oldPow_close [NeZero d] (hA : Good A q e) (u v : Fin d → K) (h : 0 < sqd u v) :
    ∃ w, npowX A (.fin (dist A u v)) = .fin w ∧ Close A.R ((d + 4) * q + e) ((sqd u v ^ q)⁻¹) w :=
  npowX_close hA h (dist_nonneg hA u v) (dist_close hA u v)

/-- Square roots of close numbers, raised to `-p`. -/
theorem newPow_close (hA : Good A q e) {m : ℕ} {s c : K} (hs : 0 < s) (h : Close A.R m s c) :
    ∃ w, npowX A (sqrtX A c) = .fin w ∧ Close A.R ((m + 2) * q + e) ((s ^ q)⁻¹) w := by
  rw [sqrtX, if_neg (not_lt.2 h.2.1)]
  exact npowX_close hA hs (hA.sqrt.nonneg _ h.2.1) (h.trans (hA.sqrt.close _ h.2.1))

/-! ## The new distances -/

theorem sqd_split (u v : Fin d → K) (k : Fin d) : sqd u v = (u k - v k) ^ 2 + ∑ c ∈ Finset.univ.erase k, (u c - v c) ^ 2 := by
  exact (Finset.add_sum_erase Finset.univ (fun c => (u c - v c) ^ 2) (Finset.mem_univ k)).symm

section
variable (P : Design K n d) (k : Fin d) (i1 i2 : Fin n)

theorem swap_other {j : Fin n} (h1 : j ≠ i1) (h2 : j ≠ i2) : swapEntry P k i1 i2 j = P j := by
  funext c
  rw [swapEntry_apply, Equiv.swap_apply_of_ne_of_ne h1 h2]
  split
  · rename_i hc; rw [hc]
  · rfl

theorem new_sqd1 {j : Fin n} (h1 : j ≠ i1) (h2 : j ≠ i2) :
    sqd (swapEntry P k i1 i2 i1) (swapEntry P k i1 i2 j) = sqd (P i1) (P j) + (P i2 k - P j k) ^ 2 - (P i1 k - P j k) ^ 2 := by
  rw [swap_other P k i1 i2 h1 h2, sqd_split _ _ k, sqd_split (P i1) (P j) k, swapEntry_apply, if_pos rfl, Equiv.swap_apply_left,
    Finset.sum_congr rfl (g := fun c => (P i1 c - P j c) ^ 2) (fun c hc => by rw [swapEntry_apply, if_neg (Finset.ne_of_mem_erase hc)])]
  ring

theorem new_sqd2 {j : Fin n} (h1 : j ≠ i1) (h2 : j ≠ i2) :
    sqd (swapEntry P k i1 i2 i2) (swapEntry P k i1 i2 j) = sqd (P i2) (P j) - (P i2 k - P j k) ^ 2 + (P i1 k - P j k) ^ 2 := by
  rw [swap_other P k i1 i2 h1 h2, sqd_split _ _ k, sqd_split (P i2) (P j) k, swapEntry_apply, if_pos rfl, Equiv.swap_apply_right,
    Finset.sum_congr rfl (g := fun c => (P i2 c - P j c) ^ 2) (fun c hc => by rw [swapEntry_apply, if_neg (Finset.ne_of_mem_erase hc)])]
  ring

theorem new_sqd12 : sqd (swapEntry P k i1 i2 i1) (swapEntry P k i1 i2 i2) = sqd (P i1) (P i2) := by
  refine Finset.sum_congr rfl fun c _ => ?_
  rw [swapEntry_apply, swapEntry_apply, Equiv.swap_apply_left, Equiv.swap_apply_right]
  by_cases hc : c = k
  · subst hc; simp; ring
  · simp [hc]

theorem part_le (u v : Fin d → K) : (u k - v k) ^ 2 ≤ sqd u v := by
  rw [sqd_split u v k]
  have := Finset.sum_nonneg (s := Finset.univ.erase k) (f := fun c => (u c - v c) ^ 2) fun _ _ => sq_nonneg _
  linarith

/-- `m` roundings cover the cancellation in the squared distances after an exchange. -/
def Covers (A : Arith K) (d m : ℕ) (lo hi : K) : Prop := (A.R.rho ^ (d + 7) - 1) * (2 * hi + lo) ≤ (1 - (A.R.rho ^ m)⁻¹) * lo

/-- The cancellation in `dist² + a² - b²`. -/
theorem cancel {m : ℕ} {lo hi s a b s' c : K} (hlo : 0 < lo) (hm : Covers A d m lo hi) (hs : s ≤ hi) (hs' : lo ≤ s') (ha : a ≤ s') (hb : b ≤ s)
    (h : Within A.R (d + 7) (s + a + b) s' c) : Close A.R m s' c := by
  have h1 : 0 ≤ A.R.rho ^ (d + 7) - 1 := by linarith [one_le_pow₀ (rho_one_le A.R) (n := d + 7)]
  have hsp : 0 < s' := hlo.trans_le hs'
  refine close_of_abs (η := (A.R.rho ^ (d + 7) - 1) * (2 * hi + lo) / lo) hsp ?_ ((div_le_iff₀ hlo).2 hm)
  refine h.2.trans ?_
  rw [mul_div_assoc, mul_assoc]
  refine mul_le_mul_of_nonneg_left ?_ h1
  have e : (2 * hi + lo) / lo * s' = 2 * hi * (s' / lo) + s' := by field_simp
  rw [e]
  have h2 : 1 ≤ s' / lo := (one_le_div hlo).2 hs'
  have h3 : 0 ≤ s := by
    rcases le_or_gt 0 s with h | h'
    · exact h
    · have := h.1
      exfalso
      have hb' := abs_nonneg s'
      have : s + a + b < s' := by linarith
      exact absurd ((le_abs_self s').trans h.1) (not_le.2 this)
  have h4 : 2 * s ≤ 2 * hi * (s' / lo) := by
    calc 2 * s ≤ 2 * hi := by linarith
      _ = 2 * hi * 1 := by ring
      _ ≤ 2 * hi * (s' / lo) := mul_le_mul_of_nonneg_left h2 (by linarith)
  linarith

variable {P k i1 i2}

theorem d1_close [NeZero d] (hA : Good A q e) {m : ℕ} {lo hi : K} (hlo : 0 < lo) (hm : Covers A d m lo hi) {j : Fin n} (h1 : j ≠ i1) (h2 : j ≠ i2)
    (hs : sqd (P i1) (P j) ≤ hi) (hs' : lo ≤ sqd (swapEntry P k i1 i2 i1) (swapEntry P k i1 i2 j)) :
    ∃ w, npowX A (d1 A P k i1 i2 j) = .fin w ∧
      Close A.R ((m + 2) * q + e) ((sqd (swapEntry P k i1 i2 i1) (swapEntry P k i1 i2 j) ^ q)⁻¹) w := by
  refine newPow_close hA (hlo.trans_le hs') (cancel (hi := hi) (a := (P i2 k - P j k) ^ 2) hlo hm hs hs' ?_ (part_le k (P i1) (P j)) ?_)
  · have := part_le k (swapEntry P k i1 i2 i1) (swapEntry P k i1 i2 j)
    rw [swapEntry_apply, if_pos rfl, Equiv.swap_apply_left, swap_other P k i1 i2 h1 h2] at this
    rw [swap_other P k i1 i2 h1 h2]
    exact this
  · rw [new_sqd1 P k i1 i2 h1 h2]
    have c0 := (dist_close hA (P i1) (P j)).rnd.toWithin
    have c1 := (sqr_close (A := A) (P i2 k - P j k)).toWithin.mono (m := d + 5) (by have := NeZero.ne d; omega)
    have c2 := (sqr_close (A := A) (P i1 k - P j k)).toWithin.mono (m := d + 6) (by omega)
    exact ((c0.add c1).rnd.sub c2).rnd

theorem d2_close [NeZero d] (hA : Good A q e) {m : ℕ} {lo hi : K} (hlo : 0 < lo) (hm : Covers A d m lo hi) {j : Fin n} (h1 : j ≠ i1) (h2 : j ≠ i2)
    (hs : sqd (P i2) (P j) ≤ hi) (hs' : lo ≤ sqd (swapEntry P k i1 i2 i2) (swapEntry P k i1 i2 j)) :
    ∃ w, npowX A (d2 A P k i1 i2 j) = .fin w ∧
      Close A.R ((m + 2) * q + e) ((sqd (swapEntry P k i1 i2 i2) (swapEntry P k i1 i2 j) ^ q)⁻¹) w := by
  refine newPow_close hA (hlo.trans_le hs') (cancel (hi := hi) (a := (P i1 k - P j k) ^ 2) hlo hm hs hs' ?_ (part_le k (P i2) (P j)) ?_)
  · have := part_le k (swapEntry P k i1 i2 i2) (swapEntry P k i1 i2 j)
    rw [swapEntry_apply, if_pos rfl, Equiv.swap_apply_right, swap_other P k i1 i2 h1 h2] at this
    rw [swap_other P k i1 i2 h1 h2]
    exact this
  · rw [new_sqd2 P k i1 i2 h1 h2]
    have c0 := (dist_close hA (P i2) (P j)).rnd.toWithin
    have c1 := (sqr_close (A := A) (P i2 k - P j k)).toWithin.mono (m := d + 5) (by have := NeZero.ne d; omega)
    have c2 := (sqr_close (A := A) (P i1 k - P j k)).toWithin.mono (m := d + 6) (by omega)
    refine ((c0.sub c1).rnd.add c2).rnd.weaken (le_of_eq ?_)
    ring

/-- The difference of the powers for one row, `w1' - w1 + w2' - w2`. -/
def gain (q : ℕ) (P : Design K n d) (k : Fin d) (i1 i2 j : Fin n) : K :=
  (sqd (swapEntry P k i1 i2 i1) (swapEntry P k i1 i2 j) ^ q)⁻¹ - (sqd (P i1) (P j) ^ q)⁻¹ +
    (sqd (swapEntry P k i1 i2 i2) (swapEntry P k i1 i2 j) ^ q)⁻¹ - (sqd (P i2) (P j) ^ q)⁻¹

/-- The sum of the same powers. -/
def mass (q : ℕ) (P : Design K n d) (k : Fin d) (i1 i2 j : Fin n) : K :=
  (sqd (swapEntry P k i1 i2 i1) (swapEntry P k i1 i2 j) ^ q)⁻¹ + (sqd (P i1) (P j) ^ q)⁻¹ +
    (sqd (swapEntry P k i1 i2 i2) (swapEntry P k i1 i2 j) ^ q)⁻¹ + (sqd (P i2) (P j) ^ q)⁻¹

theorem term_within [NeZero d] (hA : Good A q e) {m : ℕ} {lo hi : K} (hlo : 0 < lo) (hm : Covers A d m lo hi) (hne : i1 ≠ i2) {j : Fin n} (h1 : j ≠ i1) (h2 : j ≠ i2)
    (hP : Spread lo hi P) (hQ : Spread lo hi (swapEntry P k i1 i2)) :
    ∃ t, term A P k i1 i2 j = .fin t ∧ Within A.R ((d + m + 6) * q + e + 3) (mass q P k i1 i2 j) (gain q P k i1 i2 j) t := by
  obtain ⟨w1', e1', c1'⟩ := d1_close hA hlo hm h1 h2 (hP i1 j (Ne.symm h1)).2 (hQ i1 j (Ne.symm h1)).1
  obtain ⟨w2', e2', c2'⟩ := d2_close hA hlo hm h1 h2 (hP i2 j (Ne.symm h2)).2 (hQ i2 j (Ne.symm h2)).1
  obtain ⟨w1, e1, c1⟩ := oldPow_close hA (P i1) (P j) (hlo.trans_le (hP i1 j (Ne.symm h1)).1)
  obtain ⟨w2, e2, c2⟩ := oldPow_close hA (P i2) (P j) (hlo.trans_le (hP i2 j (Ne.symm h2)).1)
  refine ⟨A.R.rnd (A.R.rnd (A.R.rnd (w1' + -w1) + w2') + -w2), ?_, ?_⟩
  · rw [term, e1', e2', e1, e2]
    rfl
  · have a1 : (m + 2) * q + e ≤ (d + m + 6) * q + e := Nat.add_le_add_right (Nat.mul_le_mul_right q (by omega)) e
    have a2 : (d + 4) * q + e ≤ (d + m + 6) * q + e := Nat.add_le_add_right (Nat.mul_le_mul_right q (by omega)) e
    have b1' := c1'.toWithin.mono a1
    have b2' := c2'.toWithin.mono a1
    have b1 := c1.toWithin.mono a2
    have b2 := c2.toWithin.mono a2
    have := (((b1'.add b1.neg).rnd.add (b2'.mono (by omega))).rnd.add (b2.neg.mono (by omega))).rnd
    rw [gain, mass, sub_eq_add_neg _ ((sqd (P i2) (P j) ^ q)⁻¹), sub_eq_add_neg _ ((sqd (P i1) (P j) ^ q)⁻¹)]
    exact this
end

/-! ## Sums -/

theorem evalR_fin (R : Rounding K) (f : ℕ → X K) (g : ℕ → K) (t : Tree) (h : ∀ i ∈ t.leaves, f i = .fin (g i)) : t.evalR R f = .fin (t.eval R g) := by
  induction t with
  | leaf i => exact h i (by simp [Tree.leaves])
  | node a b ha hb =>
    rw [Tree.evalR, Tree.eval, ha fun i hi => h i (by simp [Tree.leaves, hi]), hb fun i hi => h i (by simp [Tree.leaves, hi])]
    rfl

/-- A sum of computed values, each within the errors of its exact value. -/
theorem sumX_within {α : Type} (hA : Good A q e) {N : ℕ} (l : List α) (f : α → X K) (T x : α → K)
    (h : ∀ a ∈ l, ∃ c, f a = .fin c ∧ Within A.R N (T a) (x a) c) :
    ∃ c, sumX A (l.map f) = .fin c ∧ Within A.R (N + l.length) (l.map T).sum (l.map x).sum c := by
  rcases l with _ | ⟨a0, l0⟩
  · exact ⟨0, by simp [sumX], by simpa using within_zero (R := A.R) N⟩
  · generalize hl : a0 :: l0 = l at *
    have hne : l ≠ [] := by rw [← hl]; simp
    have hlen : 1 ≤ l.length := List.length_pos_iff.2 hne
    have ht := hA.tree l.length hlen
    choose! g hg using h
    have hidx : ∀ i ∈ (A.tree l.length).leaves, i < l.length := by
      intro i hi
      have := ht.mem_iff.1 hi
      simpa using this
    refine ⟨(A.tree l.length).eval A.R fun i => (l.map g).getD i 0, ?_, ?_⟩
    · rw [sumX, if_neg (by simpa using hne), List.length_map]
      refine evalR_fin A.R _ _ _ fun i hi => ?_
      have hi' := hidx i hi
      simp only [List.getD_eq_getElem?_getD, List.getElem?_map, List.getElem?_eq_getElem hi', Option.map_some, Option.getD_some]
      exact (hg _ (List.getElem_mem hi')).1
    · have := eval_within' (R := A.R) N (fun i => (l.map T).getD i 0) (fun i => (l.map x).getD i 0) (fun i => (l.map g).getD i 0) (A.tree l.length) (by
        intro i hi
        have hi' := hidx i hi
        simp only [List.getD_eq_getElem?_getD, List.getElem?_map, List.getElem?_eq_getElem hi', Option.map_some, Option.getD_some]
        exact (hg _ (List.getElem_mem hi')).2)
      have ht1 : (A.tree l.length).Adds (l.map T).length := by rw [List.length_map]; exact ht
      have ht2 : (A.tree l.length).Adds (l.map x).length := by rw [List.length_map]; exact ht
      have s1 := leaves_getD ht1 0 (fun v => v)
      have s2 := leaves_getD ht2 0 (fun v => v)
      rw [List.map_id'] at s1 s2
      rw [s1, s2, leaves_length ht] at this
      exact this.mono (by omega)

end SMT.Fp.Ese
