import Verif.Fp.LpNorm
import Verif.Fp.ErrProps2

/-!
# C124: LpNorm in IEEE arithmetic
-/
set_option linter.unusedSectionVars false
set_option linter.unusedSimpArgs false
set_option linter.unusedVariables false

namespace SMT.Fp.LpNorm
open SMT.Fp.Corr SMT.Fp.Moe SMT.Fp.Err

variable {K : Type} [Field K] [LinearOrder K] [IsStrictOrderedRing K] {n : ℕ}
variable (F : Format K)

theorem abs_sq (v : X K) : F.mulX (X.abs v) (X.abs v) = F.mulX v v := by
  cases v with
  | fin a =>
    show F.of (|a| * |a|) = F.of (a * a)
    rw [abs_mul_abs_self]
  | inf s => cases s <;> rfl
  | nan => rfl

theorem lp2_norm (sq : X K → X K) (t : Tree) (x : Fin n → X K) : lp2 F sq t x = SMT.Fp.Err.norm F sq t x := by
  unfold lp2 SMT.Fp.Err.norm
  simp only [abs_sq]

theorem abs_fin {a : K} (h : F.Fin a) : F.Fin |a| := by
  rcases abs_cases a with ⟨e, _⟩ | ⟨e, _⟩ <;> rw [e]
  · exact h
  · exact ⟨by rw [F.odd, h.1], by rw [abs_neg]; exact h.2⟩

theorem abs_nn {v : X K} (hv : F.Val v) (h : v ≠ .nan) : Nn F (X.abs v) := by
  cases v with
  | fin a => exact ⟨abs_fin F hv, abs_nonneg a⟩
  | inf s => exact rfl
  | nan => exact absurd rfl h

/-- Order 2: the value is NaN exactly if a coordinate is, otherwise not negative (possibly infinite), zero exactly if every square underflows, and at least the size of each coordinate whose square
is a number of the format. -/
theorem C124_order_two {sq : X K → X K} (hs : SqrtOk F sq) {t : Tree} (ht : t.Adds n) (x : Fin n → X K) :
    (lp2 F sq t x = .nan ↔ ∃ i, x i = .nan) ∧ ((∀ i, x i ≠ .nan) → Nn F (lp2 F sq t x)) ∧ (lp2 F sq t x = .fin 0 ↔ ∀ i, F.mulX (x i) (x i) = .fin 0) ∧
    (∀ i a, x i = .fin a → F.Fin a → F.Fin (a * a) → (∀ j, x j ≠ .nan) → (X.fin |a|).le (lp2 F sq t x) = true) := by
  rw [lp2_norm]
  exact C118_norm F hs ht x

/-- Order 1: the value is NaN exactly if a coordinate is, otherwise not negative (possibly infinite), zero exactly at the origin (nothing underflows), and at least the size of each coordinate. -/
theorem C124_order_one {t : Tree} (ht : t.Adds n) (x : Fin n → X K) (hx : ∀ i, F.Val (x i)) :
    (lp1 F t x = .nan ↔ ∃ i, x i = .nan) ∧ ((∀ i, x i ≠ .nan) → Nn F (lp1 F t x)) ∧ (lp1 F t x = .fin 0 ↔ ∀ i, x i = .fin 0) ∧
    ((∀ j, x j ≠ .nan) → ∀ i, (X.abs (x i)).le (lp1 F t x) = true) := by
  have hnan : (∃ i, x i = .nan) → lp1 F t x = .nan := by
    rintro ⟨i, hi⟩
    refine Ego.evalX_nan F _ _ ⟨i, (mem_leaves ht).2 i.2, ?_⟩
    rw [dif_pos i.2]
    show X.abs (x i) = _
    rw [hi]; rfl
  have hnn : (∀ i, x i ≠ .nan) → Nn F (lp1 F t x) := fun h => rowSum_nn F ht _ fun i => abs_nn F (hx i) (h i)
  refine ⟨⟨fun h => ?_, hnan⟩, hnn, ⟨fun h => ?_, fun h => ?_⟩, fun h => rowSum_ge F ht _ fun i => abs_nn F (hx i) (h i)⟩
  · by_contra hc
    push Not at hc
    have := hnn hc
    rw [h] at this
    exact this
  · have hne : ∀ i, x i ≠ .nan := fun i hi => by rw [hnan ⟨i, hi⟩] at h; cases h
    have h0 := ((tree_nn (F := F) (fun i => if h : i < n then X.abs (x ⟨i, h⟩) else .nan) t fun i hi => by
      rw [dif_pos ((mem_leaves ht).1 hi)]; exact abs_nn F (hx _) (hne _)).2).1 h
    intro i
    have := h0 i ((mem_leaves ht).2 i.2)
    rw [dif_pos i.2] at this
    cases e : x i with
    | fin a =>
      have e' : x ⟨i, i.2⟩ = .fin a := e
      rw [e'] at this
      have : |a| = 0 := X.fin.inj this
      rw [abs_eq_zero.1 this]
    | inf s =>
      have e' : x ⟨i, i.2⟩ = .inf s := e
      rw [e'] at this
      cases this
    | nan => exact absurd e (hne i)
  · exact rowSum_const F ht _ fun i => by rw [h i]; show X.fin |(0 : K)| = _; rw [abs_zero]

/-- Changing the signs of any coordinates changes the values of both orders in no bit. -/
theorem C124_even {sq : X K → X K} (t : Tree) (x y : Fin n → X K) (h : ∀ i, y i = x i ∨ y i = (x i).neg) : lp2 F sq t y = lp2 F sq t x ∧ lp1 F t y = lp1 F t x := by
  have : (fun i => X.abs (y i)) = fun i => X.abs (x i) := by
    funext i
    rcases h i with e | e <;> rw [e]
    cases x i with
    | fin a => show X.fin |-a| = _; rw [abs_neg]; rfl
    | inf s => rfl
    | nan => rfl
  have h2 : ∀ i, X.abs (y i) = X.abs (x i) := fun i => congrFun this i
  unfold lp2 lp1
  simp only [h2]
  exact ⟨trivial, trivial⟩

/-- Moving the coordinates away from zero lowers neither value. -/
theorem C124_monotone {sq : X K → X K} (hs : SqrtOk F sq) {t : Tree} (ht : t.Adds n) (a b : Fin n → K) (ha : ∀ i, F.Fin (a i)) (hb : ∀ i, F.Fin (b i)) (h : ∀ i, |a i| ≤ |b i|) :
    (lp2 F sq t fun i => .fin (a i)).le (lp2 F sq t fun i => .fin (b i)) = true ∧ (lp1 F t fun i => .fin (a i)).le (lp1 F t fun i => .fin (b i)) = true := by
  have key : ∀ f g : Fin n → X K, (∀ i, Nn F (f i)) → (∀ i, Nn F (g i)) → (∀ i, (f i).le (g i) = true) → (rowSum F t f).le (rowSum F t g) = true := by
    intro f g hf hg hfg
    refine tree_mono F _ _ t (fun i hi => ?_) (fun i hi => ?_) fun i hi => ?_
    · rw [dif_pos ((mem_leaves ht).1 hi)]; exact hf _
    · rw [dif_pos ((mem_leaves ht).1 hi)]; exact hg _
    · rw [dif_pos ((mem_leaves ht).1 hi), dif_pos ((mem_leaves ht).1 hi)]; exact hfg _
  constructor
  · refine hs.mono _ _ (rowSum_nn F ht _ fun i => of_nn F (by positivity)) (rowSum_nn F ht _ fun i => of_nn F (by positivity)) (key _ _ (fun i => of_nn F (by positivity)) (fun i => of_nn F (by positivity)) fun i => ?_)
    exact of_mono F (by positivity) (mul_self_le_mul_self (abs_nonneg _) (h i))
  · exact key _ _ (fun i => abs_nn F (ha i) (by simp)) (fun i => abs_nn F (hb i) (by simp)) fun i => decide_eq_true (h i)

/-- Order 1: the derivative of finite coordinates is -1, 0 or 1, the sign of the coordinate, exactly, also if the value is zero or overflows. -/
theorem C124_derivative_one (t : Tree) (x : Fin n → X K) (kx : Fin n) (a : K) (h : x kx = .fin a) :
    (0 < a → deriv1 F t x kx = .fin 1) ∧ (a < 0 → deriv1 F t x kx = .fin (-1)) ∧ (a = 0 → deriv1 F t x kx = .fin 0) := by
  have hm : F.of (-1) = .fin (-1) := F.of_fin ⟨by rw [F.odd, F.one], by rw [abs_neg, abs_one]; exact F.one_le_big⟩
  rw [deriv1, h]
  refine ⟨fun h => ?_, fun h => ?_, fun h => ?_⟩
  · show F.of ((if a < 0 then -1 else if a = 0 then 0 else 1) * 1) = _
    rw [if_neg (not_lt.2 h.le), if_neg h.ne', mul_one, F.of_one]
  · show F.of ((if a < 0 then -1 else if a = 0 then 0 else 1) * 1) = _
    rw [if_pos h, mul_one, hm]
  · show F.of ((if a < 0 then -1 else if a = 0 then 0 else 1) * 1) = _
    rw [if_neg (by rw [h]; exact lt_irrefl 0), if_pos h, zero_mul, F.of_zero]

/-- Order 1: at an infinite coordinate the derivative is 1 or -1, at a NaN it is NaN, whatever the other coordinates are. -/
theorem C124_derivative_one_special (t : Tree) (x : Fin n → X K) (kx : Fin n) :
    (x kx = .inf false → deriv1 F t x kx = .fin 1) ∧ (x kx = .inf true → deriv1 F t x kx = .fin (-1)) ∧ (x kx = .nan → deriv1 F t x kx = .nan) := by
  have hm : F.of (-1) = .fin (-1) := F.of_fin ⟨by rw [F.odd, F.one], by rw [abs_neg, abs_one]; exact F.one_le_big⟩
  refine ⟨fun h => ?_, fun h => ?_, fun h => ?_⟩ <;> rw [deriv1, h]
  · show F.of ((if false = true then -1 else 1) * 1) = _
    rw [if_neg (by simp), mul_one, F.of_one]
  · show F.of ((if true = true then -1 else 1) * 1) = _
    rw [if_pos rfl, mul_one, hm]
  · rfl

/-- Order 2, finite coordinates, one case for each kind of value: if the squares all underflow, the derivative is NaN for a zero coordinate and infinite (with the sign of the coordinate) for the others;
if the value overflows it is zero for every coordinate; otherwise it is zero for a zero coordinate, and has the sign of the coordinate or is zero for the others. -/
theorem C124_derivative_two {sq : X K → X K} (hs : SqrtOk F sq) {t : Tree} (ht : t.Adds n) (x : Fin n → K) (kx : Fin n) :
    let v := lp2 F sq t fun i => .fin (x i)
    let d := deriv2 F sq t (fun i => .fin (x i)) kx
    (v = .fin 0 ∧ (x kx = 0 → d = .nan) ∧ (0 < x kx → d = .inf false) ∧ (x kx < 0 → d = .inf true)) ∨
    (v = .inf false ∧ d = .fin 0) ∨
    ∃ r, v = .fin r ∧ 0 < r ∧ (x kx = 0 → d = .fin 0) ∧ (0 < x kx → Nn F d) ∧ (x kx < 0 → Nn F d.neg) := by
  intro v d
  have hnn : Nn F v := (C124_order_two F hs ht fun i => .fin (x i)).2.1 (by simp)
  have hd : d = F.mulX (.fin (if x kx < 0 then -1 else if x kx = 0 then 0 else 1)) (F.divX (.fin |x kx|) v) := rfl
  have hone : ∀ w : X K, Nn F w → F.mulX (.fin 1) w = w := by
    intro w hw
    cases w with
    | fin a => show F.of (1 * a) = _; rw [one_mul, F.of_fin hw.1]
    | inf s =>
      have hs : s = false := hw
      subst hs
      show (if (1 : K) = 0 then X.nan else .inf (decide ((1 : K) < 0) != false)) = _
      rw [if_neg one_ne_zero, decide_eq_false (not_lt.2 zero_le_one)]; rfl
    | nan => exact hw.elim
  have hmone : ∀ w : X K, Nn F w → F.mulX (.fin (-1)) w = w.neg := by
    intro w hw
    have := mul_neg_left F (.fin 1) w
    rw [hone w hw] at this
    exact this
  cases e : v with
  | nan => rw [e] at hnn; exact hnn.elim
  | inf s =>
    rw [e] at hnn
    have hs : s = false := hnn
    subst hs
    refine .inr (.inl ⟨rfl, ?_⟩)
    rw [hd, e]
    exact mul_zero' F _
  | fin r =>
    rw [e] at hnn
    by_cases hr : r = 0
    · subst hr
      refine .inl ⟨rfl, fun h => ?_, fun h => ?_, fun h => ?_⟩
      · rw [hd, e, h, abs_zero]
        show F.mulX _ (if (0 : K) = 0 then (if (0 : K) = 0 then X.nan else _) else _) = _
        have e1 : (if (0 : K) = 0 then (if (0 : K) = 0 then X.nan else .inf (decide ((0 : K) < 0))) else F.of (0 / 0)) = .nan := by rw [if_pos rfl, if_pos rfl]
        exact (congrArg _ e1).trans (F.mulX_nan_right _)
      · rw [hd, e, if_neg (not_lt.2 h.le), if_neg h.ne']
        have : F.divX (.fin |x kx|) (.fin 0) = .inf false := by
          show (if (0 : K) = 0 then (if |x kx| = 0 then X.nan else .inf (decide (|x kx| < 0))) else _) = _
          rw [if_pos rfl, if_neg (abs_pos.2 h.ne').ne', decide_eq_false (not_lt.2 (abs_nonneg _))]
        rw [this, hone _ (show Nn F (X.inf false) from Eq.refl false)]
      · rw [hd, e, if_pos h]
        have : F.divX (.fin |x kx|) (.fin 0) = .inf false := by
          show (if (0 : K) = 0 then (if |x kx| = 0 then X.nan else .inf (decide (|x kx| < 0))) else _) = _
          rw [if_pos rfl, if_neg (abs_pos.2 h.ne).ne', decide_eq_false (not_lt.2 (abs_nonneg _))]
        rw [this, hmone _ (show Nn F (X.inf false) from Eq.refl false)]; rfl
    · have hr' : 0 < r := lt_of_le_of_ne hnn.2 (Ne.symm hr)
      have hq : F.divX (.fin |x kx|) (.fin r) = F.of (|x kx| / r) := if_neg hr
      have hqn : Nn F (F.of (|x kx| / r)) := of_nn F (by positivity)
      refine .inr (.inr ⟨r, rfl, hr', fun h => ?_, fun h => ?_, fun h => ?_⟩)
      · rw [hd, e, hq, h, abs_zero, zero_div, F.of_zero]
        exact mul_zero' F _
      · rw [hd, e, hq, if_neg (not_lt.2 h.le), if_neg h.ne', hone _ hqn]
        exact hqn
      · rw [hd, e, hq, if_pos h, hmone _ hqn, neg_neg']
        exact hqn

/-- Order 2: a derivative in a coordinate whose square is a nonzero number of the format is a number between -1 and 1. -/
theorem C124_derivative_bounded {sq : X K → X K} (hs : SqrtOk F sq) {t : Tree} (ht : t.Adds n) (x : Fin n → K) (kx : Fin n) (hx : F.Fin (x kx)) (hxx : F.Fin (x kx * x kx)) (h0 : x kx ≠ 0) :
    ∃ r, deriv2 F sq t (fun i => .fin (x i)) kx = .fin r ∧ |r| ≤ 1 := by
  have hge := (C124_order_two F hs ht fun i => .fin (x i)).2.2.2 kx (x kx) rfl hx hxx (by simp)
  have hm : ∀ s : K, |s| ≤ 1 → ∃ r, F.of s = .fin r ∧ |r| ≤ 1 := by
    intro s h
    refine ⟨_, F.of_small (h.trans F.one_le_big), ?_⟩
    rw [abs_le] at h ⊢
    exact ⟨F.rep_le (by rw [F.odd, F.one]) h.1, F.le_rep F.one h.2⟩
  have hsg : |(if x kx < 0 then -1 else if x kx = 0 then 0 else 1 : K)| ≤ 1 := by
    split
    · simp
    · simp
  have hd : deriv2 F sq t (fun i => .fin (x i)) kx = F.mulX (.fin (if x kx < 0 then -1 else if x kx = 0 then 0 else 1)) (F.divX (.fin |x kx|) (lp2 F sq t fun i => .fin (x i))) := rfl
  cases e : lp2 F sq t fun i => .fin (x i) with
  | nan => rw [e] at hge; cases hge
  | inf s =>
    refine ⟨0, ?_, by rw [abs_zero]; exact zero_le_one⟩
    rw [hd, e]
    exact mul_zero' F _
  | fin r =>
    rw [e] at hge
    have hr : |x kx| ≤ r := of_decide_eq_true hge
    have hr0 : 0 < r := lt_of_lt_of_le (abs_pos.2 h0) hr
    obtain ⟨q, e1, hq⟩ := hm (|x kx| / r) (by rw [abs_of_nonneg (by positivity)]; exact (div_le_one hr0).2 hr)
    have hq' : F.divX (.fin |x kx|) (.fin r) = .fin q := (if_neg hr0.ne').trans e1
    rw [hd, e, hq']
    exact hm _ (by rw [abs_mul]; exact mul_le_one₀ hsg (abs_nonneg _) hq)

theorem tree_single (f : ℕ → X K) (k : ℕ) {a : K} (ha : F.Fin a) (hk : f k = .fin a) (t : Tree) (h : ∀ i ∈ t.leaves, i ≠ k → f i = .fin 0) (hn : t.leaves.Nodup) :
    t.evalX F f = if k ∈ t.leaves then .fin a else .fin 0 := by
  induction t with
  | leaf i =>
    by_cases e : i = k
    · subst e; simpa [Tree.evalX, Tree.leaves] using hk
    · rw [if_neg (by simpa [Tree.leaves] using fun h => e h.symm)]
      exact h i (by simp [Tree.leaves]) e
  | node l r hl hr =>
    have e : (Tree.node l r).leaves = l.leaves ++ r.leaves := rfl
    rw [e] at h hn
    have hn' := List.nodup_append.1 hn
    have h1 := hl (fun i hi => h i (List.mem_append_left _ hi)) hn'.1
    have h2 := hr (fun i hi => h i (List.mem_append_right _ hi)) hn'.2.1
    show F.addX (l.evalX F f) (r.evalX F f) = _
    rw [h1, h2, e]
    by_cases c1 : k ∈ l.leaves
    · have c2 : k ∉ r.leaves := fun c => hn'.2.2 k c1 k c rfl
      rw [if_pos c1, if_neg c2, if_pos (List.mem_append_left _ c1)]
      show F.of (a + 0) = _
      rw [add_zero, F.of_fin ha]
    · by_cases c2 : k ∈ r.leaves
      · rw [if_neg c1, if_pos c2, if_pos (List.mem_append_right _ c2)]
        show F.of (0 + a) = _
        rw [zero_add, F.of_fin ha]
      · rw [if_neg c1, if_neg c2, if_neg (by simp [c1, c2])]
        show F.of (0 + 0) = _
        rw [zero_add, F.of_zero]

/-- On an axis (all coordinates but one are zero, the square of that one is a number of the format) there is no rounding error: both values are the size of the coordinate, and the derivative of order 2 is
its sign, and zero in the other coordinates. -/
theorem C124_axis {sq : X K → X K} (hs : SqrtOk F sq) {t : Tree} (ht : t.Adds n) (k : Fin n) (a : K) (ha : F.Fin a) (haa : F.Fin (a * a)) (h0 : a ≠ 0) :
    let x : Fin n → X K := fun i => if i = k then .fin a else .fin 0
    lp1 F t x = .fin |a| ∧ lp2 F sq t x = .fin |a| ∧ deriv2 F sq t x k = .fin (if a < 0 then -1 else 1) ∧ ∀ j, j ≠ k → deriv2 F sq t x j = .fin 0 := by
  intro x
  have hx : x k = .fin a := if_pos rfl
  have hx0 : ∀ j, j ≠ k → x j = .fin 0 := fun j hj => if_neg hj
  have hmem : (k : ℕ) ∈ t.leaves := (mem_leaves ht).2 k.2
  have hnd : t.leaves.Nodup := ht.nodup_iff.2 List.nodup_range
  have hsum : ∀ (g : X K → X K) (b : K), F.Fin b → g (.fin a) = .fin b → g (.fin 0) = .fin 0 → rowSum F t (fun i => g (x i)) = .fin b := by
    intro g b hb hg hg0
    have := tree_single F (fun i => if h : i < n then g (x ⟨i, h⟩) else .nan) k hb (by rw [dif_pos k.2]; show g (x k) = _; rw [hx, hg]) t (fun i hi hik => by
      rw [dif_pos ((mem_leaves ht).1 hi), hx0 _ (fun e => hik (congrArg Fin.val e)), hg0]) hnd
    rw [if_pos hmem] at this
    exact this
  have h1 : lp1 F t x = .fin |a| := hsum X.abs |a| (abs_fin F ha) rfl (by show X.fin |(0 : K)| = _; rw [abs_zero])
  have h2 : lp2 F sq t x = .fin |a| := by
    have := hsum (fun v => F.mulX (X.abs v) (X.abs v)) (a * a) haa (by rw [abs_sq]; exact F.of_fin haa) (by rw [abs_sq]; exact mul_zero' F 0)
    unfold lp2
    rw [this, ← abs_mul_abs_self]
    exact hs.exact _ (abs_fin F ha) (abs_nonneg _) (by rw [abs_mul_abs_self]; exact haa)
  have hm : F.of (-1) = .fin (-1) := F.of_fin ⟨by rw [F.odd, F.one], by rw [abs_neg, abs_one]; exact F.one_le_big⟩
  have hp : |a| ≠ 0 := (abs_pos.2 h0).ne'
  refine ⟨h1, h2, ?_, fun j hj => ?_⟩
  · rw [deriv2, hx, h2]
    have hq : F.divX (X.abs (.fin a)) (.fin |a|) = .fin 1 := (if_neg hp).trans (by rw [div_self hp, F.of_one])
    rw [hq]
    show F.of ((if a < 0 then -1 else if a = 0 then 0 else 1) * 1) = _
    rw [mul_one, if_neg h0]
    split
    · exact hm
    · exact F.of_one
  · rw [deriv2, hx0 j hj, h2]
    have hq : F.divX (X.abs (.fin 0)) (.fin |a|) = .fin 0 := (if_neg hp).trans (by rw [abs_zero, zero_div, F.of_zero])
    rw [hq]
    exact mul_zero' F _

/-- Order 2: where the value is a positive number the derivative is the quotient of the coordinate and the value, rounded once. -/
theorem C124_quotient {sq : X K → X K} (t : Tree) (x : Fin n → K) (kx : Fin n) {r : K} (hv : lp2 F sq t (fun i => .fin (x i)) = .fin r) (hr : 0 < r) :
    deriv2 F sq t (fun i => .fin (x i)) kx = F.divX (.fin (x kx)) (.fin r) := by
  have hone : ∀ w : X K, Nn F w → F.mulX (.fin 1) w = w := by
    intro w hw
    cases w with
    | fin a => show F.of (1 * a) = _; rw [one_mul, F.of_fin hw.1]
    | inf s =>
      have hs : s = false := hw
      subst hs
      show (if (1 : K) = 0 then X.nan else .inf (decide ((1 : K) < 0) != false)) = _
      rw [if_neg one_ne_zero, decide_eq_false (not_lt.2 zero_le_one)]; rfl
    | nan => exact hw.elim
  have hq : ∀ y : K, F.divX (.fin y) (.fin r) = F.of (y / r) := fun y => if_neg hr.ne'
  have hn : Nn F (F.of (|x kx| / r)) := of_nn F (by positivity)
  have hd : deriv2 F sq t (fun i => .fin (x i)) kx = F.mulX (.fin (if x kx < 0 then -1 else if x kx = 0 then 0 else 1)) (F.of (|x kx| / r)) := by
    rw [deriv2, hv]
    show F.mulX _ (F.divX (.fin |x kx|) (.fin r)) = _
    rw [hq]
    rfl
  rw [hd, hq]
  rcases lt_trichotomy (x kx) 0 with h | h | h
  · rw [if_pos h]
    have := mul_neg_left F (.fin 1) (F.of (|x kx| / r))
    rw [hone _ hn, abs_of_neg h, neg_div, of_neg, neg_neg'] at this
    rw [abs_of_neg h, neg_div, of_neg]
    exact this
  · rw [h, abs_zero, zero_div, F.of_zero]
    exact mul_zero' F _
  · rw [if_neg (not_lt.2 h.le), if_neg h.ne', hone _ hn, abs_of_pos h]

/-- At `(0, 2⁻⁷⁰⁰)` the value is zero, the derivatives are NaN and `+∞`; at `(2⁷⁰⁰, 1)` the value is `+∞` and the derivatives zero; at `(3, -4)` all is as in exact arithmetic. -/
example : lp2 binary64 root64 (.node (.leaf 0) (.leaf 1)) ![X.fin 3, .fin (-4)] = .fin 5 ∧
    deriv2 binary64 root64 (.node (.leaf 0) (.leaf 1)) ![X.fin (-4), .fin 0] 0 = .fin (-1) ∧ deriv1 binary64 (.node (.leaf 0) (.leaf 1)) ![X.fin 3, .fin (-4)] 1 = .fin (-1) := by decide +kernel
example : SqrtOk binary64 root64 := root64_ok
example : deriv2 binary64 root64 (.node (.leaf 0) (.leaf 1)) ![X.fin 0, .fin (1 / 2 ^ 700)] 0 = .nan ∧
    deriv2 binary64 root64 (.node (.leaf 0) (.leaf 1)) ![X.fin 0, .fin (1 / 2 ^ 700)] 1 = .inf false ∧
    deriv2 binary64 root64 (.node (.leaf 0) (.leaf 1)) ![X.fin (2 ^ 700), .fin 1] 0 = .fin 0 := by decide +kernel
example : binary64.Fin (-4) ∧ binary64.Fin ((-4) * (-4)) := by unfold Format.Fin; decide +kernel

end SMT.Fp.LpNorm
