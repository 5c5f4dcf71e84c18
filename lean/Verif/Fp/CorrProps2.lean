import Verif.Fp.CorrProps

/-!
# C116: the range of the exponential kernels, monotonicity, points far away
-/
set_option linter.unusedSectionVars false
set_option linter.unusedSimpArgs false
set_option linter.unusedVariables false

namespace SMT.Fp.Corr
open SMT.Fp.Moe

variable {K : Type} [Field K] [LinearOrder K] [IsStrictOrderedRing K] {n m c : ℕ}
variable (F : Format K)

/-! ## The order of values that are not negative -/

theorem le_refl' : ∀ {a : X K}, Nn F a → a.le a = true
  | .fin a, _ => decide_eq_true le_rfl
  | .inf false, _ => rfl
  | .inf true, h => absurd h (by show ¬(true = false); simp)
  | .nan, h => h.elim

theorem le_trans' : ∀ {a b c : X K}, a.le b = true → b.le c = true → a.le c = true
  | .fin a, .fin b, .fin c, h, h' => decide_eq_true ((of_decide_eq_true h).trans (of_decide_eq_true h'))
  | .fin _, .fin _, .inf s, h, h' => h'
  | .fin _, .inf false, .fin _, h, h' => by cases h'
  | .fin _, .inf true, _, h, h' => by cases h
  | .fin _, .inf false, .inf false, h, h' => rfl
  | .fin _, .inf false, .inf true, h, h' => by cases h'
  | .inf true, .fin _, .fin _, h, h' => rfl
  | .inf false, .fin _, _, h, h' => by cases h
  | .inf true, .fin _, .inf s, h, h' => rfl
  | .inf true, .inf _, .fin _, h, h' => rfl
  | .inf true, .inf _, .inf _, h, h' => rfl
  | .inf false, .inf false, .fin _, h, h' => h'
  | .inf false, .inf false, .inf _, h, h' => h'
  | .inf false, .inf true, _, h, h' => by cases h
  | .nan, _, _, h, _ => by cases h
  | .fin _, .nan, _, h, _ => by cases h
  | .inf _, .nan, _, h, _ => by cases h
  | .fin _, .fin _, .nan, _, h => by cases h
  | .fin _, .inf _, .nan, _, h => by cases h
  | .inf _, .fin _, .nan, _, h => by cases h
  | .inf _, .inf _, .nan, _, h => by cases h

theorem of_mono {x y : K} (hx : 0 ≤ x) (h : x ≤ y) : (F.of x).le (F.of y) = true := by
  have hy := hx.trans h
  unfold Format.of
  have hm := F.mono x y h
  rw [abs_of_nonneg (F.nonneg hx), abs_of_nonneg (F.nonneg hy)]
  by_cases h1 : F.rnd y ≤ F.big
  · rw [if_pos h1, if_pos (hm.trans h1)]
    exact decide_eq_true hm
  · rw [if_neg h1, decide_eq_false (not_lt.2 hy)]
    split
    · rfl
    · rw [decide_eq_false (not_lt.2 hx)]; rfl

theorem of_nn {x : K} (hx : 0 ≤ x) : Nn F (F.of x) := by
  unfold Format.of
  split
  · exact ⟨⟨F.idem _, by assumption⟩, F.nonneg hx⟩
  · exact decide_eq_false (not_lt.2 hx)

theorem add_mono : ∀ {a b a' b' : X K}, Nn F a → Nn F b → Nn F a' → Nn F b' → a.le a' = true → b.le b' = true → (F.addX a b).le (F.addX a' b') = true := by
  intro a b a' b' ha hb ha' hb' h h'
  have top : ∀ {v : X K}, Nn F v → v.le (.inf false) = true := by
    intro v hv
    cases v with
    | fin v => rfl
    | inf s => cases s <;> rfl
    | nan => exact hv.elim
  have key : F.addX a' b' = .inf false ∨ ∃ x y x' y', a = .fin x ∧ b = .fin y ∧ a' = .fin x' ∧ b' = .fin y' := by
    cases a' with
    | nan => exact ha'.elim
    | inf s =>
      have hs : s = false := ha'
      subst hs
      left
      cases b' with
      | nan => exact hb'.elim
      | inf t => have ht : t = false := hb'; subst ht; rfl
      | fin y => rfl
    | fin x' =>
      cases b' with
      | nan => exact hb'.elim
      | inf t => have ht : t = false := hb'; subst ht; left; rfl
      | fin y' =>
        right
        cases a with
        | nan => exact ha.elim
        | inf s => have hs : s = false := ha; subst hs; cases h
        | fin x =>
          cases b with
          | nan => exact hb.elim
          | inf s => have hs : s = false := hb; subst hs; cases h'
          | fin y => exact ⟨x, y, x', y', rfl, rfl, rfl, rfl⟩
  rcases key with e | ⟨x, y, x', y', rfl, rfl, rfl, rfl⟩
  · rw [e]; exact top (add_nn F ha hb)
  · exact of_mono F (add_nonneg ha.2 hb.2) (add_le_add (of_decide_eq_true h) (of_decide_eq_true h'))

theorem mul_pos_nn {q : K} (hq : 0 < q) : ∀ {a : X K}, Nn F a → Nn F (F.mulX (.fin q) a)
  | .fin a, h => of_nn F (mul_nonneg hq.le h.2)
  | .inf s, h => by
    show Nn F (if q = 0 then X.nan else X.inf (decide (q < 0) != s))
    have hs : s = false := h
    rw [if_neg hq.ne', hs, decide_eq_false (not_lt.2 hq.le)]
    rfl
  | .nan, h => h.elim

theorem mul_pos_mono {q : K} (hq : 0 < q) : ∀ {a b : X K}, Nn F a → Nn F b → a.le b = true → (F.mulX (.fin q) a).le (F.mulX (.fin q) b) = true
  | .fin a, .fin b, ha, hb, h => of_mono F (mul_nonneg hq.le ha.2) (mul_le_mul_of_nonneg_left (of_decide_eq_true h) hq.le)
  | a, .inf s, ha, hb, h => by
    have hs : s = false := hb
    have : F.mulX (.fin q) (.inf s) = .inf false := by
      show (if q = 0 then X.nan else X.inf (decide (q < 0) != s)) = _
      rw [if_neg hq.ne', hs, decide_eq_false (not_lt.2 hq.le)]
      rfl
    rw [this]
    have hn := mul_pos_nn F hq ha
    cases hm : F.mulX (.fin q) a with
    | fin v => rfl
    | inf s => cases s <;> rfl
    | nan => rw [hm] at hn; exact hn.elim
  | .inf s, .fin b, ha, hb, h => by
    have hs : s = false := ha
    subst hs
    cases h
  | .nan, .fin _, ha, _, _ => ha.elim
  | _, .nan, _, hb, _ => hb.elim

theorem tree_mono (f g : ℕ → X K) (t : Tree) (hf : ∀ i ∈ t.leaves, Nn F (f i)) (hg : ∀ i ∈ t.leaves, Nn F (g i)) (h : ∀ i ∈ t.leaves, (f i).le (g i) = true) :
    (t.evalX F f).le (t.evalX F g) = true := by
  induction t with
  | leaf i => exact h i (by simp [Tree.leaves])
  | node a b ha hb =>
    have la : ∀ i ∈ a.leaves, i ∈ (Tree.node a b).leaves := fun i hi => by simp [Tree.leaves, hi]
    have lb : ∀ i ∈ b.leaves, i ∈ (Tree.node a b).leaves := fun i hi => by simp [Tree.leaves, hi]
    exact add_mono F (tree_nn f a fun i hi => hf i (la i hi)).1 (tree_nn f b fun i hi => hf i (lb i hi)).1 (tree_nn g a fun i hi => hg i (la i hi)).1
      (tree_nn g b fun i hi => hg i (lb i hi)).1 (ha (fun i hi => hf i (la i hi)) (fun i hi => hg i (la i hi)) fun i hi => h i (la i hi))
      (hb (fun i hi => hf i (lb i hi)) (fun i hi => hg i (lb i hi)) fun i hi => h i (lb i hi))

theorem add_ge_left : ∀ {a b : X K}, Nn F a → Nn F b → a.le (F.addX a b) = true
  | .fin a, .fin b, ha, hb => by
    have := of_mono F (x := a) (y := a + b) ha.2 (by linarith [hb.2])
    rwa [F.of_fin ha.1] at this
  | .fin a, .inf s, ha, hb => by have hs : s = false := hb; subst hs; rfl
  | .inf s, .fin b, ha, hb => by have hs : s = false := ha; subst hs; rfl
  | .inf s, .inf t, ha, hb => by
    have hs : s = false := ha
    have ht : t = false := hb
    subst hs ht
    rfl
  | .nan, _, h, _ => h.elim
  | .fin _, .nan, _, h => h.elim
  | .inf _, .nan, _, h => h.elim

theorem tree_ge (f : ℕ → X K) (t : Tree) (hf : ∀ i ∈ t.leaves, Nn F (f i)) {i : ℕ} (hi : i ∈ t.leaves) : (f i).le (t.evalX F f) = true := by
  induction t with
  | leaf j =>
    simp [Tree.leaves] at hi
    subst hi
    exact le_refl' F (hf _ (by simp [Tree.leaves]))
  | node a b ha hb =>
    have la : ∀ i ∈ a.leaves, i ∈ (Tree.node a b).leaves := fun i hi => by simp [Tree.leaves, hi]
    have lb : ∀ i ∈ b.leaves, i ∈ (Tree.node a b).leaves := fun i hi => by simp [Tree.leaves, hi]
    have na := (tree_nn f a fun i hi => hf i (la i hi)).1
    have nb := (tree_nn f b fun i hi => hf i (lb i hi)).1
    rw [Tree.leaves, List.mem_append] at hi
    rcases hi with hi | hi
    · exact le_trans' (ha (fun i hi => hf i (la i hi)) hi) (add_ge_left F na nb)
    · refine le_trans' (hb (fun i hi => hf i (lb i hi)) hi) ?_
      rw [Tree.evalX, (C103_comm F _ _).1]
      exact add_ge_left F nb na

/-! ## Distances -/

/-- The two exponential kernels. -/
def Kind.IsExp : Kind → Prop
  | .absExp | .squarExp => True
  | _ => False

theorem compDist_nn (k : Kind) (d : Fin m → X K) (hd : ∀ i, d i ≠ .nan) (hv : ∀ i, F.Val (d i)) (i : Fin m) : Nn F (compDist F k d i) := by
  have ab : Nn F (d i).abs := by
    have h1 := hd i
    have h2 := hv i
    cases h : d i with
    | fin a =>
      rw [h] at h2
      refine ⟨⟨?_, ?_⟩, abs_nonneg a⟩
      · rcases le_total 0 a with ha | ha
        · rw [abs_of_nonneg ha]; exact h2.1
        · rw [abs_of_nonpos ha, F.odd]; exact congrArg Neg.neg h2.1
      · rw [abs_abs]; exact h2.2
    | inf s => rfl
    | nan => exact absurd h h1
  cases k
  · exact ab
  · exact mul_self_nn F (hd i)
  · exact ab
  · exact ab

theorem rowSum_nn {t : Tree} (ht : t.Adds m) (v : Fin m → X K) (hv : ∀ i, Nn F (v i)) : Nn F (rowSum F t v) :=
  (tree_nn _ t fun i hi => by rw [dif_pos ((mem_leaves ht).1 hi)]; exact hv _).1

theorem rowSum_mono {t : Tree} (ht : t.Adds m) (v w : Fin m → X K) (hv : ∀ i, Nn F (v i)) (hw : ∀ i, Nn F (w i)) (h : ∀ i, (v i).le (w i) = true) :
    (rowSum F t v).le (rowSum F t w) = true := by
  refine tree_mono F _ _ t (fun i hi => ?_) (fun i hi => ?_) (fun i hi => ?_) <;> have hi' := (mem_leaves ht).1 hi
  · rw [dif_pos hi']; exact hv _
  · rw [dif_pos hi']; exact hw _
  · rw [dif_pos hi', dif_pos hi']; exact h _

theorem rowSum_ge {t : Tree} (ht : t.Adds m) (v : Fin m → X K) (hv : ∀ i, Nn F (v i)) (i : Fin m) : (v i).le (rowSum F t v) = true := by
  have := tree_ge F (fun i => if h : i < m then v ⟨i, h⟩ else .nan) t (fun i hi => by rw [dif_pos ((mem_leaves ht).1 hi)]; exact hv _) (i := i) ((mem_leaves ht).2 i.2)
  rwa [dif_pos i.2] at this

theorem ex_neg_range {ex : X K → X K} {cut : K} (hx : ExpOk F ex cut) {s : X K} (hs : Nn F s) : Unit01 F (ex s.neg) := by
  cases s with
  | fin s => exact hx.range (-s) (by linarith [hs.2])
  | inf b =>
    have hb : b = false := hs
    subst hb
    exact ⟨0, hx.ninf, F.fin_zero, le_rfl, zero_le_one⟩
  | nan => exact hs.elim

/-- **C116** With positive hyperparameters the exponential kernels are numbers in `[0, 1]` for all differences that are values of the format and not NaN, infinite ones included. -/
theorem C116_exp_range {L : Lib K} {cut : K} (hx : ExpOk F L.ex cut) (hr : Rows L m) (k : Kind) (hk : k.IsExp) (theta : Fin m → K) (hth : ∀ i, 0 < theta i)
    (d : Fin m → X K) (hd : ∀ i, d i ≠ .nan) (hv : ∀ i, F.Val (d i)) : Unit01 F (corr F L k theta d) := by
  have hs : Nn F (rowSum F L.ts (scaled F theta (compDist F k d))) := rowSum_nn F hr.ts _ fun i => mul_pos_nn F (hth i) (compDist_nn F k d hd hv i)
  have := ex_neg_range F hx hs
  cases k
  · exact this
  · exact this
  · exact hk.elim
  · exact hk.elim

/-- **C116** For finite points the difference of two points is never NaN, so their correlation under an exponential kernel is a number in `[0, 1]`, however far they are from each other. -/
theorem C116_finite_points {L : Lib K} {cut : K} (hx : ExpOk F L.ex cut) (hr : Rows L m) (k : Kind) (hk : k.IsExp) (theta : Fin m → K) (hth : ∀ i, 0 < theta i)
    (a b : Fin m → X K) (ha : Finite a) (hb : Finite b) : Unit01 F (corr F L k theta (diff F a b)) := by
  refine C116_exp_range F hx hr k hk theta hth _ (fun i => ?_) fun i => F.addX_val
  obtain ⟨u, hu⟩ := ha i
  obtain ⟨v, hv⟩ := hb i
  show F.subX (a i) (b i) ≠ _
  rw [hu, hv]
  exact sub_fin_ne_nan F u v

/-- **C116** Exactly a hyperparameter `0` with an infinite distance spoils an exponential kernel: with hyperparameters that are not negative the correlation is NaN if and only if
that occurs in some coordinate. -/
theorem C116_exp_nan {L : Lib K} {cut : K} (hx : ExpOk F L.ex cut) (hr : Rows L m) (k : Kind) (hk : k.IsExp) (theta : Fin m → K) (hth : ∀ i, 0 ≤ theta i)
    (d : Fin m → X K) (hd : ∀ i, d i ≠ .nan) (hv : ∀ i, F.Val (d i)) :
    (corr F L k theta d = .nan ↔ ∃ i, theta i = 0 ∧ compDist F k d i = .inf false) ∧ (corr F L k theta d ≠ .nan → Unit01 F (corr F L k theta d)) := by
  have hc := compDist_nn F k d hd hv
  have hterm : ∀ i, scaled F theta (compDist F k d) i = .nan ↔ theta i = 0 ∧ compDist F k d i = .inf false := by
    intro i
    rcases (hth i).lt_or_eq with h | h
    · have := mul_pos_nn F h (hc i)
      refine ⟨fun e => ?_, fun e => absurd e.1 h.ne'⟩
      have e' : F.mulX (.fin (theta i)) (compDist F k d i) = .nan := e
      rw [e'] at this
      exact this.elim
    · have h' := hc i
      refine ⟨fun e => ⟨h.symm, ?_⟩, fun e => ?_⟩
      · have e' : F.mulX (.fin (theta i)) (compDist F k d i) = .nan := e
        rw [← h] at e'
        cases hq : compDist F k d i with
        | fin v => rw [hq, zero_mul'] at e'; cases e'
        | inf s => rw [hq] at h'; have hs : s = false := h'; rw [hs]
        | nan => rw [hq] at h'; exact h'.elim
      · show F.mulX (.fin (theta i)) (compDist F k d i) = _
        rw [e.2, e.1]
        exact if_pos rfl
  have hex : corr F L k theta d = L.ex (rowSum F L.ts (scaled F theta (compDist F k d))).neg := by
    cases k
    · rfl
    · rfl
    · exact hk.elim
    · exact hk.elim
  by_cases h : ∃ i, theta i = 0 ∧ compDist F k d i = .inf false
  · obtain ⟨i, hi⟩ := h
    have : rowSum F L.ts (scaled F theta (compDist F k d)) = .nan := by
      refine Ego.evalX_nan F _ _ ⟨i, (mem_leaves hr.ts).2 i.2, ?_⟩
      rw [dif_pos i.2]
      exact (hterm i).2 hi
    have e : corr F L k theta d = .nan := by rw [hex, this]; exact hx.nan
    exact ⟨⟨fun _ => ⟨i, hi⟩, fun _ => e⟩, fun e' => absurd e e'⟩
  · have hs : Nn F (rowSum F L.ts (scaled F theta (compDist F k d))) := by
      refine rowSum_nn F hr.ts _ fun i => ?_
      rcases (hth i).lt_or_eq with h1 | h1
      · exact mul_pos_nn F h1 (hc i)
      · have h' := hc i
        show Nn F (F.mulX (.fin (theta i)) (compDist F k d i))
        cases hq : compDist F k d i with
        | fin v => rw [← h1, zero_mul']; exact nn_zero F
        | inf s => rw [hq] at h'; have hs : s = false := h'; exact absurd ⟨i, h1.symm, by rw [hq, hs]⟩ h
        | nan => rw [hq] at h'; exact h'.elim
    have := ex_neg_range F hx hs
    rw [← hex] at this
    obtain ⟨v, hv, _⟩ := this
    refine ⟨⟨fun e => ?_, fun e => absurd e h⟩, fun _ => ?_⟩
    · rw [hv] at e; cases e
    · rw [hex]; exact ex_neg_range F hx hs

theorem mul_self_mono : ∀ {a b : X K}, F.Val a → F.Val b → a.abs.le b.abs = true → (F.mulX a a).le (F.mulX b b) = true
  | .fin a, .fin b, _, _, h => of_mono F (mul_self_nonneg a) (abs_le_abs_iff_mul (of_decide_eq_true h))
  | .fin a, .inf s, _, _, h => by
    have : F.mulX (.inf s) (.inf s) = .inf false := by show X.inf (s != s) = X.inf false; cases s <;> rfl
    rw [this]
    have hn := mul_self_nn F (d := .fin a) (by simp)
    cases hm : F.mulX (.fin a) (.fin a) with
    | fin v => rfl
    | inf s => cases s <;> rfl
    | nan => rw [hm] at hn; exact hn.elim
  | .inf s, .fin b, _, _, h => by cases h
  | .inf s, .inf t, _, _, h => by cases s <;> cases t <;> rfl
  | .nan, _, _, _, h => by cases h
  | .fin _, .nan, _, _, h => by cases h
  | .inf _, .nan, _, _, h => by cases h
where
  abs_le_abs_iff_mul {a b : K} (h : |a| ≤ |b|) : a * a ≤ b * b := by
    rw [← abs_mul_abs_self a, ← abs_mul_abs_self b]
    exact mul_le_mul h h (abs_nonneg a) (abs_nonneg b)

/-- **C116** If `np.exp` is monotone, the exponential kernels never grow with the distance: enlarging coordinates of the difference, in absolute value, does not enlarge the computed correlation. -/
theorem C116_monotone {L : Lib K} {cut : K} (hx : ExpOk F L.ex cut) (hmono : ∀ x y : K, x ≤ y → y ≤ 0 → (L.ex (.fin x)).le (L.ex (.fin y)) = true) (hr : Rows L m)
    (k : Kind) (hk : k.IsExp) (theta : Fin m → K) (hth : ∀ i, 0 < theta i) (d e : Fin m → X K) (hv : ∀ i, F.Val (d i)) (hw : ∀ i, F.Val (e i))
    (h : ∀ i, (d i).abs.le (e i).abs = true) : (corr F L k theta e).le (corr F L k theta d) = true := by
  have hd : ∀ i, d i ≠ .nan := fun i q => by have := h i; rw [q] at this; cases this
  have he : ∀ i, e i ≠ .nan := fun i q => by
    have := h i
    rw [q] at this
    cases hq : (d i).abs <;> rw [hq] at this <;> cases this
  have hc : ∀ i, (compDist F k d i).le (compDist F k e i) = true := by
    intro i
    cases k
    · exact h i
    · exact mul_self_mono F (hv i) (hw i) (h i)
    · exact h i
    · exact h i
  have nd := compDist_nn F k d hd hv
  have ne := compDist_nn F k e he hw
  have hs := rowSum_mono F hr.ts (scaled F theta (compDist F k d)) (scaled F theta (compDist F k e)) (fun i => mul_pos_nn F (hth i) (nd i)) (fun i => mul_pos_nn F (hth i) (ne i))
    fun i => mul_pos_mono F (hth i) (nd i) (ne i) (hc i)
  have n1 : Nn F (rowSum F L.ts (scaled F theta (compDist F k d))) := rowSum_nn F hr.ts _ fun i => mul_pos_nn F (hth i) (nd i)
  have n2 : Nn F (rowSum F L.ts (scaled F theta (compDist F k e))) := rowSum_nn F hr.ts _ fun i => mul_pos_nn F (hth i) (ne i)
  have main : (L.ex (rowSum F L.ts (scaled F theta (compDist F k e))).neg).le (L.ex (rowSum F L.ts (scaled F theta (compDist F k d))).neg) = true := by
    revert hs n1 n2
    generalize rowSum F L.ts (scaled F theta (compDist F k d)) = a
    generalize rowSum F L.ts (scaled F theta (compDist F k e)) = b
    intro hs n1 n2
    cases b with
    | nan => exact n2.elim
    | inf s =>
      have q : s = false := n2
      subst q
      obtain ⟨v, hv, _, h0, _⟩ := ex_neg_range F hx n1
      show (L.ex (.inf true)).le _ = true
      rw [hx.ninf, hv]
      exact decide_eq_true h0
    | fin b =>
      cases a with
      | nan => exact n1.elim
      | inf s => have q : s = false := n1; subst q; cases hs
      | fin a => exact hmono (-b) (-a) (by have := of_decide_eq_true hs; linarith) (by linarith [n1.2])
  cases k
  · exact main
  · exact main
  · exact hk.elim
  · exact hk.elim

/-! ## Points far away from the data -/

theorem ex_far {ex : X K → X K} {cut : K} (hx : ExpOk F ex cut) {s : X K} (hs : (X.fin (-cut)).le s = true) : ex s.neg = .fin 0 := by
  cases s with
  | nan => cases hs
  | inf b => cases b with
    | true => cases hs
    | false => exact hx.ninf
  | fin s => exact hx.under (-s) (by have := of_decide_eq_true hs; linarith)

/-- **C116** If in one coordinate the scaled distance of two points reaches `-cut` (746 for doubles), their correlation under an exponential kernel is exactly zero. -/
theorem C116_far_zero {L : Lib K} {cut : K} (hx : ExpOk F L.ex cut) (hr : Rows L m) (k : Kind) (hk : k.IsExp) (theta : Fin m → K) (hth : ∀ i, 0 < theta i)
    (d : Fin m → X K) (hd : ∀ i, d i ≠ .nan) (hv : ∀ i, F.Val (d i)) (i : Fin m) (hi : (X.fin (-cut)).le (F.mulX (.fin (theta i)) (compDist F k d i)) = true) :
    corr F L k theta d = .fin 0 := by
  have h := rowSum_ge F hr.ts (scaled F theta (compDist F k d)) (fun i => mul_pos_nn F (hth i) (compDist_nn F k d hd hv i)) i
  have := ex_far F hx (le_trans' hi h)
  cases k
  · exact this
  · exact this
  · exact hk.elim
  · exact hk.elim

theorem dot_zero {t : Tree} (ht : t.Adds n) (r gamma : Fin n → X K) (hr : ∀ i, r i = .fin 0) (hg : Finite gamma) : dotG F t r gamma = .fin 0 := by
  refine rowSum_const F ht _ fun i => ?_
  obtain ⟨g, hg⟩ := hg i
  rw [hr, hg, zero_mul']

theorem add_zero' : ∀ {a : X K}, F.Val a → F.addX a (.fin 0) = a
  | .fin a, h => by show F.of (a + 0) = _; rw [add_zero, F.of_fin h]
  | .inf s, _ => rfl
  | .nan, _ => rfl

/-- **C116** A point all of whose correlations are zero is predicted by the trend alone, and the derivative there is that of the trend: nothing is lost to rounding, whatever the (finite) weights. -/
theorem C116_far_trend {t : Tree} (ht : t.Adds n) (yMean yStd trend : X K) (hv : F.Val trend) (r gamma : Fin n → X K) (hr : ∀ i, r i = .fin 0) (hg : Finite gamma) :
    predictX F t yMean yStd trend r gamma = F.addX yMean (F.mulX yStd trend) ∧
    ∀ (dfdx : X K) (th scale : X K) (dk : Fin n → X K), F.Val dfdx → (∃ v, F.mulX (.fin 2) th = .fin v) → Finite dk →
      derivX F t dfdx th yStd scale dk r gamma = F.divX (F.mulX dfdx yStd) scale := by
  constructor
  · unfold predictX
    rw [dot_zero F ht r gamma hr hg, add_zero' F hv]
  · intro dfdx th scale dk h1 ⟨v, h2⟩ h3
    unfold derivX
    rw [dot_zero F ht _ gamma (fun i => ?_) hg, h2, mul_zero']
    · show F.divX (F.mulX (F.addX dfdx (X.fin 0).neg) yStd) scale = _
      rw [neg_zero', add_zero' F h1]
    · obtain ⟨w, hw⟩ := h3 i
      rw [hr, hw, mul_zero']

/-- **C116** One correlation that is NaN makes the prediction NaN, and makes `predict_variances` raise. -/
theorem C116_nan_spreads {t : Tree} (ht : t.Adds n) (yMean yStd trend : X K) (r gamma : Fin n → X K) (i : Fin n) (hr : r i = .nan) {β : Type} (solve : (Fin n → X K) → β) :
    predictX F t yMean yStd trend r gamma = .nan ∧ varSolve solve r = .error () := by
  constructor
  · have : dotG F t r gamma = .nan := by
      refine Ego.evalX_nan F _ _ ⟨i, (mem_leaves ht).2 i.2, ?_⟩
      rw [dif_pos i.2]
      show F.mulX (r i) (gamma i) = _
      rw [hr, F.mulX_nan_left]
    unfold predictX
    rw [this, F.addX_nan_right, F.mulX_nan_right, F.addX_nan_right]
  · have : allFinite (List.ofFn r) = false := by
      unfold allFinite
      rw [List.all_eq_false]
      refine ⟨r i, List.mem_ofFn.2 ⟨i, rfl⟩, ?_⟩
      rw [hr]
      simp
    unfold varSolve
    rw [this]
    rfl

/-- **C116** `predict_variances` raises exactly if a correlation is infinite or NaN; otherwise it solves with the correlations as they are. -/
theorem C116_variance_raises {β : Type} (solve : (Fin n → X K) → β) (r : Fin n → X K) :
    (varSolve solve r = .error () ↔ ∃ i, r i = .nan ∨ ∃ b, r i = .inf b) ∧ ((∀ i, ∃ v, r i = .fin v) → varSolve solve r = .ok (solve r)) := by
  have hall : allFinite (List.ofFn r) = true ↔ ∀ i, ∃ v, r i = .fin v := by
    unfold allFinite
    rw [List.all_eq_true]
    constructor
    · intro h i
      have := h (r i) (List.mem_ofFn.2 ⟨i, rfl⟩)
      cases hr : r i with
      | fin v => exact ⟨v, rfl⟩
      | inf b => rw [hr] at this; simp at this
      | nan => rw [hr] at this; simp at this
    · intro h a ha
      obtain ⟨i, rfl⟩ := List.mem_ofFn.1 ha
      obtain ⟨v, hv⟩ := h i
      rw [hv]
  constructor
  · unfold varSolve
    constructor
    · intro h
      by_contra hn
      push Not at hn
      rw [if_pos (hall.2 fun i => ?_)] at h
      · cases h
      · cases hr : r i with
        | fin v => exact ⟨v, rfl⟩
        | inf b => exact absurd hr ((hn i).2 b)
        | nan => exact absurd hr (hn i).1
    · rintro ⟨i, h⟩
      rw [if_neg]
      rw [hall]
      intro hf
      obtain ⟨v, hv⟩ := hf i
      rcases h with h | ⟨b, h⟩ <;> rw [h] at hv <;> cases hv
  · intro h
    unfold varSolve
    rw [if_pos (hall.2 h)]

example : varSolve (fun r => r 0) (![.fin 1, .inf true] : Fin 2 → X ℚ) = .error () ∧ varSolve (fun r => r 0) (![.fin 1, .fin 3] : Fin 2 → X ℚ) = .ok (.fin 1) := by
  constructor <;> decide +kernel

end SMT.Fp.Corr
