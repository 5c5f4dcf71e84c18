import Verif.Fp.Var
import Verif.Fp.CorrProps2
import Verif.Fp.EgoProps

/-!
# C116, continued: the variance far from the data
-/
set_option linter.unusedSectionVars false
set_option linter.unusedSimpArgs false
set_option linter.unusedVariables false

namespace SMT.Fp.Var
open SMT.Fp.Corr SMT.Fp.Moe

variable {K : Type} [Field K] [LinearOrder K] [IsStrictOrderedRing K] {n p : ℕ}
variable (F : Format K)

/-- What a Cholesky factor is at least: numbers, none of them zero on the diagonal. -/
def FactorOk (L : Fin n → Fin n → X K) : Prop := (∀ i j, ∃ v, L i j = .fin v) ∧ ∀ i, L i i ≠ .fin 0

theorem elimLower_zero {L : Fin n → Fin n → X K} (hL : FactorOk L) (k : Fin n) : elimLower F L (fun _ => .fin 0) k = fun _ => .fin 0 := by
  funext i
  obtain ⟨v, hv⟩ := hL.1 k k
  have hv0 : v ≠ 0 := fun h => hL.2 k (by rw [hv, h])
  have hx : F.divX (.fin 0) (L k k) = .fin 0 := by
    rw [hv]
    show (if v = 0 then _ else F.of (0 / v)) = _
    rw [if_neg hv0, zero_div, F.of_zero]
  obtain ⟨w, hw⟩ := hL.1 i k
  unfold elimLower
  simp only [hx, hw]
  rw [zero_mul']
  have : F.subX (.fin (0 : K)) (.fin 0) = .fin 0 := by
    show F.of (0 + -0) = _
    rw [neg_zero, add_zero, F.of_zero]
  rw [this]
  simp

theorem solveLower_zero {L : Fin n → Fin n → X K} (hL : FactorOk L) : solveLower F L (fun _ => .fin 0) = fun _ => .fin 0 := by
  unfold solveLower
  induction List.finRange n with
  | nil => rfl
  | cons k l ih => rw [List.foldl_cons, elimLower_zero F hL k]; exact ih

theorem mse_ge {q : K} (hq : 0 < q) (hqf : F.Fin q) {s2 : X K} (h2 : Nn F s2) : (X.fin q).le (Ego.mse F (.fin q) (.fin 0) s2) = true ∧ Ego.mse F (.fin q) (.fin 0) s2 = F.mulX (.fin q) (F.addX (.fin 1) s2) := by
  have e1 : F.subX (.fin 1) (.fin (0 : K)) = .fin 1 := by
    show F.of (1 + -0) = _
    rw [neg_zero, add_zero, F.of_one]
  have h1 : Nn F (F.addX (.fin 1) s2) := add_nn F (nn_one F) h2
  have hge := add_ge_left F (nn_one F) h2
  have hm := mul_pos_mono F hq (nn_one F) h1 hge
  have hm1 : F.mulX (.fin q) (.fin 1) = .fin q := by
    show F.of (q * 1) = _
    rw [mul_one, F.of_fin hqf]
  rw [hm1] at hm
  have hnn := mul_pos_nn F hq h1
  have hclip : Ego.mse F (.fin q) (.fin 0) s2 = F.mulX (.fin q) (F.addX (.fin 1) s2) := by
    unfold Ego.mse Ego.clip
    rw [e1]
    rw [if_neg]
    revert hnn
    cases F.mulX (.fin q) (F.addX (.fin 1) s2) with
    | nan => exact fun h => absurd h id
    | inf s => intro h; obtain rfl : s = false := h; simp [X.lt]
    | fin v => intro h; simp only [X.lt, decide_eq_true_eq]; exact not_lt.2 h.2
  exact ⟨by rw [hclip]; exact hm, hclip⟩

/-- **C116** Far from the data (all correlations zero) the triangular solve returns exactly zeros, and the variance, unless the trend part is NaN, is at least the process variance: it is the rounded `σ² · (1 + ∑ uₐ²)`. -/
theorem C116_far_variance {td t1 t2 : Tree} (h1 : t1.Adds n) (h2 : t2.Adds p) {C : Fin n → Fin n → X K} (hC : FactorOk C) (Ft : Fin n → Fin p → X K) (G : Fin p → Fin p → X K) {q : K} (hq : 0 < q) (hqf : F.Fin q)
    (f : Fin p → X K) (r : Fin n → X K) (hr : ∀ i, r i = .fin 0) (hu : ∀ a, uVec F td Ft G f (fun _ => .fin 0) a ≠ .nan) :
    (X.fin q).le (predictVar F td t1 t2 C Ft G (.fin q) f r) = true ∧
    predictVar F td t1 t2 C Ft G (.fin q) f r =
      F.mulX (.fin q) (F.addX (.fin 1) (rowSum F t2 fun a => F.mulX (uVec F td Ft G f (fun _ => .fin 0) a) (uVec F td Ft G f (fun _ => .fin 0) a))) := by
  have hr' : r = fun _ => .fin 0 := funext hr
  have h0 : rowSum F t1 (fun _ : Fin n => F.mulX (.fin (0 : K)) (.fin 0)) = .fin 0 := rowSum_const F h1 _ fun _ => mul_zero' F 0
  have hs2 := rowSum_nn F h2 (fun a => F.mulX (uVec F td Ft G f (fun _ => .fin 0) a) (uVec F td Ft G f (fun _ => .fin 0) a)) fun a => mul_self_nn F (hu a)
  unfold predictVar
  simp only [hr', solveLower_zero F hC, h0]
  exact mse_ge F hq hqf hs2

/-- **C116** With a constant trend: for a regression factor `g ≠ 0` the variance far from the data is the rounded `σ² (1 + 1/g²)`. -/
theorem C116_far_variance_constant {td t1 : Tree} (hd : td.Adds n) (h1 : t1.Adds n) {C : Fin n → Fin n → X K} (hC : FactorOk C) (Ft : Fin n → Fin 1 → X K) (hFt : ∀ i a, ∃ v, Ft i a = .fin v) {g : K} (hg : g ≠ 0) {q : K} (hq : 0 < q) (hqf : F.Fin q)
    (r : Fin n → X K) (hr : ∀ i, r i = .fin 0) :
    predictVar F td t1 (.leaf 0) C Ft (fun _ _ => .fin g) (.fin q) (fun _ => .fin 1) r = F.mulX (.fin q) (F.addX (.fin 1) (F.mulX (F.of (-1 / g)) (F.of (-1 / g)))) ∧
    (X.fin q).le (predictVar F td t1 (.leaf 0) C Ft (fun _ _ => .fin g) (.fin q) (fun _ => .fin 1) r) = true := by
  have hu : ∀ a, uVec F td Ft (fun _ _ => .fin g) (fun _ => .fin 1) (fun _ => .fin 0) a = F.of (-1 / g) := by
    intro a
    have hdot : rowSum F td (fun i => F.mulX (Ft i 0) (.fin 0)) = .fin 0 := rowSum_const F hd _ fun i => by
      obtain ⟨v, hv⟩ := hFt i 0
      rw [hv, mul_zero']
    have hsub : F.subX (.fin 0) (.fin (1 : K)) = .fin (-1) := by
      show F.of (0 + -1) = _
      rw [zero_add]
      exact F.of_fin ⟨by rw [F.odd, F.one], by rw [abs_neg, abs_one]; exact F.one_le_big⟩
    have ha : a = 0 := Subsingleton.elim _ _
    subst ha
    unfold uVec solveUpper
    have hl : (List.finRange 1).reverse = [0] := rfl
    rw [hl]
    simp only [List.foldl_cons, List.foldl_nil, elimUpper, if_true]
    rw [hdot, hsub]
    show (if g = 0 then _ else F.of (-1 / g)) = _
    rw [if_neg hg]
  have hne : F.of (-1 / g) ≠ .nan := by unfold Format.of; split <;> simp
  have := C116_far_variance F (p := 1) (td := td) (t2 := .leaf 0) h1 (show (Tree.leaf 0).Adds 1 from List.Perm.refl _) hC Ft (fun _ _ => .fin g) hq hqf (fun _ => .fin 1) r hr fun a => by rw [hu a]; exact hne
  refine ⟨?_, this.1⟩
  rw [this.2]
  congr 2
  show F.mulX (uVec F td Ft (fun _ _ => .fin g) (fun _ => .fin 1) (fun _ => .fin 0) ⟨0, _⟩) (uVec F td Ft (fun _ _ => .fin g) (fun _ => .fin 1) (fun _ => .fin 0) ⟨0, _⟩) = _
  rw [hu]

/-- The sums of squares of the variance. -/
theorem sub_le_one {s1 : X K} (h : Nn F s1) : F.subX (.fin 1) s1 = .inf true ∨ ∃ v, F.subX (.fin 1) s1 = .fin v ∧ F.Fin v ∧ v ≤ 1 := by
  cases s1 with
  | nan => exact absurd h id
  | inf s => obtain rfl : s = false := h; exact Or.inl rfl
  | fin x =>
    have e : F.subX (.fin 1) (.fin x) = F.of (1 + -x) := rfl
    rw [e]
    unfold Format.of
    split
    · rename_i hb
      refine Or.inr ⟨_, rfl, ⟨F.idem _, hb⟩, ?_⟩
      have := F.mono (1 + -x) 1 (by linarith [h.2])
      rwa [F.one] at this
    · rename_i hb
      left
      congr 1
      refine decide_eq_true ?_
      by_contra hc
      push Not at hc
      apply hb
      have h1 := F.mono (1 + -x) 1 (by linarith [h.2])
      rw [F.one] at h1
      rw [abs_of_nonneg (F.nonneg hc)]
      exact h1.trans F.one_le_big

/-- **C116** The variance is never more than its value with all correlations zero and the same trend part: it lies between 0 and the rounded `σ² (1 + s₂)`, unless it is NaN. -/
theorem C116_variance_bounded {q : K} (hq : 0 < q) {s1 s2 : X K} (h1 : Nn F s1) (h2 : Nn F s2) :
    (Ego.mse F (.fin q) s1 s2 = .nan ↔ F.subX (.fin 1) s1 = .inf true ∧ s2 = .inf false) ∧
    (Ego.mse F (.fin q) s1 s2 ≠ .nan → Nn F (Ego.mse F (.fin q) s1 s2) ∧ (Ego.mse F (.fin q) s1 s2).le (F.mulX (.fin q) (F.addX (.fin 1) s2)) = true) := by
  have hB1 : Nn F (F.addX (.fin 1) s2) := add_nn F (nn_one F) h2
  have hM1 := mul_pos_nn F hq hB1
  have zle : ∀ {m : X K}, Nn F m → (X.fin (0 : K)).le m = true := by
    intro m hm
    cases m with
    | nan => exact absurd hm id
    | inf s => obtain rfl : s = false := hm; rfl
    | fin v => exact decide_eq_true hm.2
  have clipNn : ∀ {m : X K}, Nn F m → Ego.clip m = m := by
    intro m hm
    unfold Ego.clip
    rw [if_neg]
    cases m with
    | nan => exact absurd hm id
    | inf s => obtain rfl : s = false := hm; simp [X.lt]
    | fin v => simp only [X.lt, decide_eq_true_eq]; exact not_lt.2 hm.2
  have hinf : F.subX (.fin 1) (.inf false) = .inf true := rfl
  rcases sub_le_one F h1 with hs | ⟨v, hs, hvf, hv1⟩
  · -- the first sum is infinite or beyond the format
    cases s2 with
    | nan => exact absurd h2 id
    | inf s =>
      obtain rfl : s = false := h2
      have e : Ego.mse F (.fin q) s1 (.inf false) = .nan := by
        unfold Ego.mse
        rw [hs]
        rfl
      rw [e]
      exact ⟨by simp [hs], fun h => absurd rfl h⟩
    | fin y =>
      have e : Ego.mse F (.fin q) s1 (.fin y) = .fin 0 := by
        unfold Ego.mse
        rw [hs]
        have : F.mulX (.fin q) (F.addX (.inf true) (.fin y)) = .inf true := by
          show (if q = 0 then X.nan else X.inf (decide (q < 0) != true)) = _
          rw [if_neg hq.ne', decide_eq_false (not_lt.2 hq.le)]
          rfl
        rw [this]
        rfl
      rw [e]
      exact ⟨by simp, fun _ => ⟨nn_zero F, zle hM1⟩⟩
  · have hs1 : s1 ≠ .inf false := by rintro rfl; rw [hinf] at hs; cases hs
    have hnn2 : F.subX (.fin 1) s1 ≠ .inf true := by rw [hs]; simp
    cases s2 with
    | nan => exact absurd h2 id
    | inf s =>
      obtain rfl : s = false := h2
      have hadd : F.addX (.fin v) (.inf false) = F.addX (.fin 1) (.inf false) := rfl
      have e : Ego.mse F (.fin q) s1 (.inf false) = F.mulX (.fin q) (F.addX (.fin 1) (.inf false)) := by
        unfold Ego.mse
        rw [hs, hadd, clipNn hM1]
      rw [e]
      refine ⟨⟨fun h => ?_, ?_⟩, fun _ => ⟨hM1, le_refl' F hM1⟩⟩
      · rw [h] at hM1; exact absurd hM1 id
      · rintro ⟨h, _⟩
        exact absurd h hnn2
    | fin y =>
      have e : Ego.mse F (.fin q) s1 (.fin y) = Ego.clip (F.mulX (.fin q) (F.of (v + y))) := by
        unfold Ego.mse
        rw [hs]
        rfl
      have e1 : F.addX (.fin 1) (.fin y) = F.of (1 + y) := rfl
      rw [e1] at hM1 hB1 ⊢
      rw [e]
      by_cases hvy : 0 ≤ v + y
      · have hnn : Nn F (F.of (v + y)) := of_nn F hvy
        have hm := mul_pos_nn F hq hnn
        rw [clipNn hm]
        refine ⟨⟨fun h => ?_, ?_⟩, fun _ => ⟨hm, mul_pos_mono F hq hnn hB1 (of_mono F hvy (by linarith))⟩⟩
        · rw [h] at hm; exact absurd hm id
        · rintro ⟨h, _⟩
          exact absurd h hnn2
      · push Not at hvy
        have hneg : Ego.clip (F.mulX (.fin q) (F.of (v + y))) = .fin 0 := by
          have hr : F.rnd (v + y) ≤ 0 := F.nonpos hvy.le
          unfold Format.of
          split
          · have e2 : F.mulX (.fin q) (.fin (F.rnd (v + y))) = F.of (q * F.rnd (v + y)) := rfl
            rw [e2]
            have hle : q * F.rnd (v + y) ≤ 0 := mul_nonpos_of_nonneg_of_nonpos hq.le hr
            unfold Format.of
            split
            · unfold Ego.clip
              have h3 := F.nonpos hle
              rcases lt_or_eq_of_le h3 with h4 | h4
              · rw [if_pos (by simp only [X.lt, decide_eq_true_eq]; exact h4)]
              · rw [h4]; simp
            · rename_i hb
              have h4 : q * F.rnd (v + y) < 0 := by
                rcases lt_or_eq_of_le hle with h5 | h5
                · exact h5
                · rw [h5, F.zero, abs_zero] at hb; exact absurd F.big_pos.le hb
              rw [decide_eq_true h4]
              rfl
          · rw [decide_eq_true hvy]
            have : F.mulX (.fin q) (.inf true) = .inf true := by
              show (if q = 0 then X.nan else X.inf (decide (q < 0) != true)) = _
              rw [if_neg hq.ne', decide_eq_false (not_lt.2 hq.le)]
              rfl
            rw [this]
            rfl
        rw [hneg]
        refine ⟨⟨fun h => (by cases h), ?_⟩, fun _ => ⟨nn_zero F, zle hM1⟩⟩
        rintro ⟨h, _⟩
        exact absurd h hnn2

/-! ## The substitutions -/

/-- Elimination in the order of a relation. -/
def elimR (r : Fin n → Fin n → Prop) [DecidableRel r] (L : Fin n → Fin n → X K) (b : Fin n → X K) (k : Fin n) : Fin n → X K :=
  fun i => if i = k then F.divX (b k) (L k k) else if r k i then F.subX (b i) (F.mulX (F.divX (b k) (L k k)) (L i k)) else b i

theorem elimR_spec (r : Fin n → Fin n → Prop) [DecidableRel r] (hr : ∀ i j, r i j → ¬r j i ∧ i ≠ j) (L : Fin n → Fin n → X K) (b : Fin n → X K) (l : List (Fin n)) :
    l.Pairwise r → ∀ i,
      l.foldl (elimR F r L) b i =
        (if i ∈ l then (fun v => F.divX v (L i i)) else id) ((l.filter fun j => decide (r j i)).foldl (fun acc j => F.subX acc (F.mulX (l.foldl (elimR F r L) b j) (L i j))) (b i)) := by
  induction l using List.reverseRecOn with
  | nil => intro _ i; simp
  | append_singleton l k ih =>
    intro hp i
    rw [List.pairwise_append] at hp
    obtain ⟨hp1, -, hp2⟩ := hp
    have hbefore : ∀ j ∈ l, r j k := fun j hj => hp2 j hj k (by simp)
    have hkl : k ∉ l := fun h => (hr k k (hbefore k h)).2 rfl
    have ih := ih hp1
    set s' := l.foldl (elimR F r L) b with hs'
    have hs : (l ++ [k]).foldl (elimR F r L) b = elimR F r L s' k := by rw [List.foldl_append]; rfl
    rw [hs]
    have hold : ∀ j ∈ l, elimR F r L s' k j = s' j := by
      intro j hj
      unfold elimR
      have h1 := hr j k (hbefore j hj)
      rw [if_neg h1.2, if_neg h1.1]
    have hfold : ∀ (m : List (Fin n)) (f g : Fin n → X K) (acc : X K) (i : Fin n), (∀ j ∈ m, f j = g j) →
        m.foldl (fun acc j => F.subX acc (F.mulX (f j) (L i j))) acc = m.foldl (fun acc j => F.subX acc (F.mulX (g j) (L i j))) acc := by
      intro m
      induction m with
      | nil => intros; rfl
      | cons a m ihm =>
        intro f g acc i h
        rw [List.foldl_cons, List.foldl_cons, h a (by simp)]
        exact ihm f g _ i fun j hj => h j (by simp [hj])
    have hfilt : ∀ i, (l.filter fun j => decide (r j i)).foldl (fun acc j => F.subX acc (F.mulX (elimR F r L s' k j) (L i j))) (b i) =
        (l.filter fun j => decide (r j i)).foldl (fun acc j => F.subX acc (F.mulX (s' j) (L i j))) (b i) :=
      fun i => hfold _ _ _ _ _ fun j hj => hold j (List.mem_of_mem_filter hj)
    rw [List.filter_append, List.foldl_append]
    by_cases hik : i = k
    · subst hik
      have h1 : (l ++ [i]).filter (fun j => decide (r j i)) = l.filter (fun j => decide (r j i)) := by
        rw [List.filter_append]
        have : decide (r i i) = false := decide_eq_false fun h => (hr i i h).2 rfl
        simp [this]
      have h0 : List.filter (fun j => decide (r j i)) [i] = [] := by
        have : decide (r i i) = false := decide_eq_false fun h => (hr i i h).2 rfl
        simp [this]
      rw [h0, List.foldl_nil, hfilt, if_pos (by simp)]
      have := ih i
      rw [if_neg hkl] at this
      unfold elimR
      rw [if_pos rfl, this]
      rfl
    · by_cases hil : i ∈ l
      · have hn : decide (r k i) = false := decide_eq_false (hr i k (hbefore i hil)).1
        have h0 : List.filter (fun j => decide (r j i)) [k] = [] := by simp [hn]
        rw [h0, List.foldl_nil, hfilt, if_pos (by simp [hil]), hold i hil, ih i, if_pos hil]
      · rw [if_neg (by simp [hil, hik]), hfilt]
        have hi := ih i
        rw [if_neg hil] at hi
        by_cases hki : r k i
        · have h0 : List.filter (fun j => decide (r j i)) [k] = [k] := by simp [hki]
          rw [h0, List.foldl_cons, List.foldl_nil]
          unfold elimR
          rw [if_neg hik, if_pos hki, if_pos rfl, hi]
          rfl
        · have h0 : List.filter (fun j => decide (r j i)) [k] = [] := by simp [hki]
          rw [h0, List.foldl_nil]
          unfold elimR
          rw [if_neg hik, if_neg hki, hi]

/-- **C116** What the two solves compute, rounding included: each unknown is its right-hand side, less the products with the unknowns before it one after the other, over the diagonal entry. With `lower=False` the factor is read on and above the diagonal. -/
theorem C116_substitution (L : Fin n → Fin n → X K) (b : Fin n → X K) (i : Fin n) :
    solveLower F L b i = F.divX (((List.finRange n).filter fun j => decide (j < i)).foldl (fun acc j => F.subX acc (F.mulX (solveLower F L b j) (L i j))) (b i)) (L i i) ∧
    solveUpper F L b i = F.divX (((List.finRange n).reverse.filter fun j => decide (i < j)).foldl (fun acc j => F.subX acc (F.mulX (solveUpper F L b j) (L i j))) (b i)) (L i i) := by
  constructor
  · have := elimR_spec F (fun k i => k < i) (fun i j h => ⟨not_lt.2 h.le, h.ne⟩) L b (List.finRange n) (List.pairwise_lt_finRange n) i
    rw [if_pos (List.mem_finRange i)] at this
    exact this
  · have := elimR_spec F (fun k i => i < k) (fun i j h => ⟨not_lt.2 h.le, h.ne'⟩) L b (List.finRange n).reverse (List.pairwise_reverse.2 (List.pairwise_lt_finRange n)) i
    rw [if_pos (by simp)] at this
    exact this

theorem fold_sub_zero (l : List (Fin p)) (u z : Fin p → X K) (hu : ∀ j ∈ l, ∃ v, u j = .fin v) (hz : ∀ j ∈ l, z j = .fin 0) (acc : X K) (ha : F.Val acc) :
    l.foldl (fun acc j => F.subX acc (F.mulX (u j) (z j))) acc = acc := by
  induction l with
  | nil => rfl
  | cons j l ih =>
    obtain ⟨v, hv⟩ := hu j (by simp)
    have : F.subX acc (F.mulX (u j) (z j)) = acc := by
      rw [hz j (by simp), hv, mul_zero']
      show F.addX acc (X.fin (-0)) = acc
      rw [neg_zero, add_zero' F ha]
    rw [List.foldl_cons, this]
    exact ih (fun j hj => hu j (by simp [hj])) (fun j hj => hz j (by simp [hj]))

/-- **C116 (violation)** What `_predict_variances` computes from the correlations, rounding included: `rt` by forward substitution with the Cholesky factor; but for the trend, with a regression factor that is zero below its diagonal (as `qr` returns it) and as long as
nothing overflows, each entry of `u` is merely divided by the diagonal entry of `G`: the entries above the diagonal are never used, whatever they are (see `C41`). -/
theorem C116_variance (td t1 t2 : Tree) (C : Fin n → Fin n → X K) (Ft : Fin n → Fin p → X K) (G : Fin p → Fin p → X K) (sigma2 : X K) (f : Fin p → X K) (r : Fin n → X K) :
    ∃ (rt : Fin n → X K) (u : Fin p → X K),
      (∀ i, rt i = F.divX (((List.finRange n).filter fun j => decide (j < i)).foldl (fun acc j => F.subX acc (F.mulX (rt j) (C i j))) (r i)) (C i i)) ∧
      ((∀ a b, b < a → G a b = .fin 0) → (∀ a, ∃ v, u a = .fin v) → ∀ a, u a = F.divX (F.subX (rowSum F td fun i => F.mulX (Ft i a) (rt i)) (f a)) (G a a)) ∧
      predictVar F td t1 t2 C Ft G sigma2 f r = Ego.mse F sigma2 (rowSum F t1 fun i => F.mulX (rt i) (rt i)) (rowSum F t2 fun a => F.mulX (u a) (u a)) := by
  refine ⟨solveLower F C r, uVec F td Ft G f (solveLower F C r), fun i => (C116_substitution F C r i).1, fun hG hu a => ?_, rfl⟩
  have h := (C116_substitution F (fun a b => G b a) (fun a => F.subX (rowSum F td fun i => F.mulX (Ft i a) (solveLower F C r i)) (f a)) a).2
  have e : uVec F td Ft G f (solveLower F C r) a = solveUpper F (fun a b => G b a) (fun a => F.subX (rowSum F td fun i => F.mulX (Ft i a) (solveLower F C r i)) (f a)) a := rfl
  rw [e, h]
  congr 1
  refine fold_sub_zero F _ _ _ (fun j _ => hu j) (fun j hj => ?_) _ (Ego.sub_val F _ _)
  have := (List.mem_filter.1 hj).2
  exact hG j a (of_decide_eq_true this)

/-- Two trend functions, `G = (1, 5; 0, 2)`, in doubles: the `5` does not matter. -/
example : uVec binary64 (.leaf 0) ![![.fin 1, .fin 3]] ![![.fin 1, .fin 5], ![.fin 0, .fin 2]] ![.fin 1, .fin 4] (![.fin 1] : Fin 1 → X ℚ) 1 = .fin (-1/2) ∧
    uVec binary64 (.leaf 0) ![![.fin 1, .fin 3]] ![![.fin 1, .fin 7], ![.fin 0, .fin 2]] ![.fin 1, .fin 4] (![.fin 1] : Fin 1 → X ℚ) 1 = .fin (-1/2) := by
  constructor <;> decide +kernel

/-- Far from the data in doubles: two points, a constant trend, `σ² = 2`, `g = 1`. -/
example : predictVar binary64 (.node (.leaf 0) (.leaf 1)) (.node (.leaf 0) (.leaf 1)) (.leaf 0) ![![.fin 1, .fin 0], ![.fin (1/2), .fin 3]] ![![.fin 1], ![.fin 2]] (fun _ _ => .fin 1) (.fin 2) (fun _ => .fin 1) ![.fin 0, .fin 0] = .fin 4 := by
  decide +kernel
example : FactorOk (![![.fin 1, .fin 0], ![.fin (1/2), .fin 3]] : Fin 2 → Fin 2 → X ℚ) := ⟨fun i j => by fin_cases i <;> fin_cases j <;> exact ⟨_, rfl⟩, fun i => by fin_cases i <;> simp⟩
/-- Closer: `r = (1/2, 1/4)`. -/
example : predictVar binary64 (.node (.leaf 0) (.leaf 1)) (.node (.leaf 0) (.leaf 1)) (.leaf 0) ![![.fin 1, .fin 0], ![.fin (1/2), .fin 2]] ![![.fin 1], ![.fin 2]] (fun _ _ => .fin 1) (.fin 2) (fun _ => .fin 1) ![.fin (1/2), .fin (1/4)] = .fin 2 := by
  decide +kernel

end SMT.Fp.Var
