import Verif.Fp.MoeProps2

/-!
# Property C114: degenerate probabilities, variances, and the hard recombination
-/
set_option linter.unusedSectionVars false
set_option linter.unusedSimpArgs false
set_option linter.unusedVariables false

namespace SMT.Fp.Moe
open SMT.Fp.Ego

variable {K : Type} [Field K] [LinearOrder K] [IsStrictOrderedRing K] {F : Format K} {k : ℕ} {w : Fin k → K} {pdf : Fin k → X K} {t : Tree}

/-! ## `np.argmax` -/

/-- What `np.argmax` returns: the place of the first NaN, or if there is none of the first largest value. -/
def IsLargest (q : Fin k → X K) (j : Fin k) : Prop :=
  (q j = .nan ∧ ∀ i, i < j → q i ≠ .nan) ∨ ((∀ i, q i ≠ .nan) ∧ (∀ i, (q j).lt (q i) = false) ∧ ∀ i, i < j → (q i).lt (q j) = true)

theorem neg_lt (a b : X K) : a.neg.lt b.neg = b.lt a := by
  cases a <;> cases b <;> simp [X.neg, X.lt, Bool.and_comm]

theorem neg_nan (a : X K) : a.neg = .nan ↔ a = .nan := by cases a <;> simp [X.neg]

theorem isNan_neg (a : X K) : isNan a.neg = isNan a := by cases a <;> rfl

theorem argmaxGo_eq (as : List (X K)) : ∀ (m : X K) (b i : ℕ), argmaxGo m b i as = argminGo m.neg b i (as.map X.neg) := by
  induction as with
  | nil => intro m b i; rfl
  | cons a as ih =>
    intro m b i
    simp only [argmaxGo, argminGo, List.map_cons, isNan_neg, neg_lt, ih]

theorem argmaxX_eq (ys : List (X K)) : argmaxX ys = argmin (ys.map X.neg) := by
  cases ys with
  | nil => rfl
  | cons a as => simp only [argmaxX, argmin, List.map_cons, isNan_neg, argmaxGo_eq]

/-- **C114** `np.argmax` over the clusters, and with it the hard recombination: the output of exactly one expert, of the first cluster with a NaN probability if there is one, otherwise of the first one whose probability
is largest. -/
theorem C114_hard (hk : 0 < k) (q e : Fin k → X K) : ∃ j, IsLargest q j ∧ (∀ i, IsLargest q i → i = j) ∧ hardX q e = some (e j) := by
  have hne : (List.finRange k).map q ≠ [] := by
    intro c
    have := congrArg List.length c
    simp at this
    omega
  have hlen : ((List.finRange k).map q).length = k := by simp
  have hA := C110_argmin (((List.finRange k).map q).map X.neg)
  rw [← argmaxX_eq] at hA
  obtain ⟨n, hn⟩ : ∃ n, argmaxX ((List.finRange k).map q) = some n := by
    cases h : argmaxX ((List.finRange k).map q) with
    | none =>
      have := hA.1.2 h
      rw [List.map_eq_nil_iff] at this
      exact absurd this hne
    | some n => exact ⟨n, rfl⟩
  obtain ⟨y, hy⟩ := hA.2 n hn
  have hget : ∀ i : Fin k, (((List.finRange k).map q).map X.neg)[(i : ℕ)]? = some (q i).neg := by
    intro i
    simp
  have hnk : n < k := by
    have := (List.getElem?_eq_some_iff.1 hy.1).1
    simpa using this
  have hyj : y = (q ⟨n, hnk⟩).neg := by
    have := hy.1.symm.trans (hget ⟨n, hnk⟩)
    simpa using this
  have key : ∀ j : Fin k, IsLargest q j ↔ IsChoice (((List.finRange k).map q).map X.neg) j (q j).neg := by
    intro j
    unfold IsLargest IsChoice
    have hmem : ∀ v, v ∈ ((List.finRange k).map q).map X.neg ↔ ∃ i, (q i).neg = v := by
      intro v
      simp
    constructor
    · rintro (⟨h1, h2⟩ | ⟨h1, h2, h3⟩)
      · refine ⟨hget j, .inl ⟨by rw [h1]; rfl, fun i v hi hv => ?_⟩⟩
        have hv' := hget ⟨i, hi.trans j.2⟩
        rw [hv] at hv'
        injection hv' with hv'
        rw [hv', Ne, neg_nan]
        exact h2 _ hi
      · refine ⟨hget j, .inr ⟨fun c => ?_, fun v hv => ?_, fun i v hi hv => ?_⟩⟩
        · obtain ⟨i, hi⟩ := (hmem _).1 c
          exact h1 i ((neg_nan _).1 hi)
        · obtain ⟨i, rfl⟩ := (hmem _).1 hv
          rw [neg_lt]
          exact h2 i
        · have hv' := hget ⟨i, hi.trans j.2⟩
          rw [hv] at hv'
          injection hv' with hv'
          rw [hv', neg_lt]
          exact h3 _ hi
    · rintro ⟨-, ⟨h1, h2⟩ | ⟨h1, h2, h3⟩⟩
      · exact .inl ⟨(neg_nan _).1 h1, fun i hi c => h2 i _ hi (hget i) ((neg_nan _).2 c)⟩
      · refine .inr ⟨fun i c => h1 ((hmem _).2 ⟨i, (neg_nan _).2 c⟩), fun i => ?_, fun i hi => ?_⟩
        · rw [← neg_lt]
          exact h2 _ ((hmem _).2 ⟨i, rfl⟩)
        · rw [← neg_lt]
          exact h3 i _ hi (hget i)
  refine ⟨⟨n, hnk⟩, (key _).2 (hyj ▸ hy), fun i hi => ?_, ?_⟩
  · exact Fin.ext (isChoice_unique ((key i).1 hi) hy)
  · unfold hardX
    rw [hn]
    exact dif_pos hnk

/-- **C114** The hard recombination in the regular case (`p`: the products as rounded, `r` their sum as rounded): the cluster chosen has the largest product up to rounding; so it is the most probable cluster whenever that
one is ahead of all others by more than rounding. -/
theorem C114_hard_regular (h : Inputs F w pdf) (ht : t.Adds k) (hk : k ≠ 1) {r : K} (hr : 0 < r) (er : total F t (products F w pdf) = .fin r) (e : Fin k → X K) :
    ∃ (p : Fin k → K) (j : Fin k), (∀ i, products F w pdf i = .fin (p i)) ∧ hardX (probaX F t w pdf) e = some (e j) ∧ (∀ i, (1 - F.u) * p i ≤ (1 + F.u) * p j + 2 * F.tiny * r) ∧
      ∀ m, (∀ i, i ≠ m → (1 + F.u) * p i + 2 * F.tiny * r < (1 - F.u) * p m) → j = m := by
  obtain ⟨p, q, hR, -, -, -⟩ := C114_probabilities h ht hk hr er
  obtain ⟨j, hj, hu, hh⟩ := C114_hard (adds_pos ht) (probaX F t w pdf) e
  have hq : ∀ i, q i = F.rnd (p i / r) := by
    intro i
    have h1 := hR.prob i
    rw [probaX_eq hk, er, if_pos (show (X.fin (0 : K)).lt (X.fin r) = true from decide_eq_true hr), hR.prod i] at h1
    have h2 : (if r = 0 then (if p i = 0 then X.nan else X.inf (decide (p i < 0))) else F.of (p i / r)) = X.fin (q i) := h1
    rw [if_neg hr.ne'] at h2
    exact (of_eq_fin h2).1
  have hmax : ∀ i, q i ≤ q j := by
    rcases hj with ⟨c, -⟩ | ⟨-, h2, -⟩
    · rw [hR.prob j] at c; cases c
    · intro i
      have := h2 i
      rw [hR.prob i, hR.prob j] at this
      exact not_lt.1 (of_decide_eq_false this)
  have hb : ∀ i, (1 - F.u) * p i ≤ (1 + F.u) * p j + 2 * F.tiny * r := by
    intro i
    have h1 := abs_le.1 (F.err (p i / r))
    have h2 := abs_le.1 (F.err (p j / r))
    rw [abs_of_nonneg (div_nonneg (hR.prod_nonneg i) hr.le)] at h1
    rw [abs_of_nonneg (div_nonneg (hR.prod_nonneg j) hr.le)] at h2
    have h3 := hmax i
    rw [hq i, hq j] at h3
    have h4 : (1 - F.u) * (p i / r) ≤ (1 + F.u) * (p j / r) + 2 * F.tiny := by linarith [h1.1, h2.2]
    have h5 := mul_le_mul_of_nonneg_right h4 hr.le
    have e1 : (1 - F.u) * (p i / r) * r = (1 - F.u) * p i := by field_simp
    have e2 : ((1 + F.u) * (p j / r) + 2 * F.tiny) * r = (1 + F.u) * p j + 2 * F.tiny * r := by field_simp
    rw [e1, e2] at h5
    exact h5
  refine ⟨p, j, hR.prod, hh, hb, fun m hm => ?_⟩
  by_contra c
  have := hm j c
  linarith [hb m]

/-! ## Degenerate probabilities -/

theorem fold_nan {α : Type} (f : α → X K) : ∀ (l : List α) (s : X K), (s = .nan ∨ ∃ a ∈ l, f a = .nan) → l.foldl (fun r a => F.addX r (f a)) s = .nan := by
  intro l
  induction l with
  | nil => rintro s (h | ⟨a, ha, -⟩); exacts [h, by cases ha]
  | cons a l ih =>
    rintro s (h | ⟨b, hb, h⟩)
    · rw [List.foldl_cons, h, F.addX_nan_left]
      exact ih _ (.inl rfl)
    · rw [List.foldl_cons]
      rcases List.mem_cons.1 hb with rfl | hb
      · rw [h, F.addX_nan_right]
        exact ih _ (.inl rfl)
      · exact ih _ (.inr ⟨b, hb, h⟩)

/-- **C114** The smooth prediction is NaN as soon as one probability or one expert's output is NaN, or an expert's output is infinite where its probability is zero — however small that expert's probability. -/
theorem C114_nan (q e : Fin k → X K) (j : Fin k) (h : e j = .nan ∨ q j = .nan ∨ ∃ s, e j = .inf s ∧ q j = .fin 0) :
    smoothX F q e = .nan ∧ smoothVarX F q e = .nan := by
  have h1 : F.mulX (e j) (q j) = .nan := by
    rcases h with h | h | ⟨s, h1, h2⟩
    · rw [h, F.mulX_nan_left]
    · rw [h, F.mulX_nan_right]
    · rw [h1, h2]
      exact if_pos rfl
  have h2 : F.mulX (e j) (F.mulX (q j) (q j)) = .nan := by
    rcases h with h | h | ⟨s, h1, h2⟩
    · rw [h, F.mulX_nan_left]
    · rw [h, F.mulX_nan_left, F.mulX_nan_right]
    · rw [h1, h2]
      have : F.mulX (.fin 0) (.fin (0 : K)) = .fin 0 := by
        show F.of (0 * 0) = _
        rw [mul_zero, F.of_zero]
      rw [this]
      exact if_pos rfl
  exact ⟨fold_nan _ _ _ (.inr ⟨j, List.mem_finRange j, h1⟩), fold_nan _ _ _ (.inr ⟨j, List.mem_finRange j, h2⟩)⟩

theorem fold_zero {α : Type} (f : α → X K) (l : List α) (h : ∀ a ∈ l, f a = .fin 0) : l.foldl (fun r a => F.addX r (f a)) (.fin 0) = .fin 0 := by
  induction l with
  | nil => rfl
  | cons a l ih =>
    rw [List.foldl_cons, h a (by simp)]
    have : F.addX (.fin 0) (.fin (0 : K)) = .fin 0 := by
      show F.of (0 + 0) = _
      rw [add_zero, F.of_zero]
    rw [this]
    exact ih fun b hb => h b (by simp [hb])

/-- **C114** Lost probabilities. If all products underflow to zero, or all are numbers but their sum overflows, the smooth prediction and its variance are 0 whatever the experts predict, and the hard one is the first
expert's; if no product is NaN but one is infinite the smooth prediction is NaN; so it is if a product is NaN. -/
theorem C114_lost (h : Inputs F w pdf) (ht : t.Adds k) (hk : k ≠ 1) (e : Fin k → K) :
    (((∀ j, products F w pdf j = .fin 0) ∨ (total F t (products F w pdf) = .inf false ∧ ∀ j, products F w pdf j ≠ .inf false)) →
      smoothX F (probaX F t w pdf) (fun j => .fin (e j)) = .fin 0 ∧ smoothVarX F (probaX F t w pdf) (fun j => .fin (e j)) = .fin 0 ∧
      hardX (probaX F t w pdf) (fun j => .fin (e j)) = some (.fin (e ⟨0, adds_pos ht⟩))) ∧
    ((∃ j, products F w pdf j = .nan ∨ products F w pdf j = .inf false) →
      smoothX F (probaX F t w pdf) (fun j => .fin (e j)) = .nan ∧ smoothVarX F (probaX F t w pdf) (fun j => .fin (e j)) = .nan) := by
  obtain ⟨s1, s2, s3⟩ := C114_special h ht hk
  have hT := C114_total h ht
  constructor
  · intro hz
    have hq : ∀ j, probaX F t w pdf j = .fin 0 := by
      rcases hz with hz | ⟨hz, hn⟩
      · exact s2 hz
      · intro j
        rcases s3 hz j with ⟨c, -⟩ | ⟨-, c⟩
        · exact absurd c (hn j)
        · exact c
    have z : ∀ a : K, F.mulX (.fin a) (.fin 0) = .fin 0 := fun a => by
      show F.of (a * 0) = _
      rw [mul_zero, F.of_zero]
    refine ⟨fold_zero _ _ fun j _ => ?_, fold_zero _ _ fun j _ => ?_, ?_⟩
    · dsimp only
      rw [hq, z]
    · dsimp only
      rw [hq, z, z]
    · obtain ⟨j, hj, -, hh⟩ := C114_hard (adds_pos ht) (probaX F t w pdf) (fun j => .fin (e j))
      rw [hh]
      rcases hj with ⟨c, -⟩ | ⟨-, -, h3⟩
      · rw [hq j] at c; cases c
      · have hj0 : j = ⟨0, adds_pos ht⟩ := by
          by_contra c
          have hlt : (⟨0, adds_pos ht⟩ : Fin k) < j := by
            rw [Fin.lt_def]
            have : (j : ℕ) ≠ 0 := fun c' => c (Fin.ext c')
            show 0 < (j : ℕ)
            omega
          have := h3 _ hlt
          rw [hq, hq, lt_irrefl'] at this
          cases this
        rw [hj0]
  · rintro ⟨j, hj⟩
    by_cases hn : ∃ i, products F w pdf i = .nan
    · obtain ⟨i, hi⟩ := hn
      exact C114_nan _ _ i (.inr (.inl ((s1 ⟨i, hi⟩ i).trans hi)))
    · push Not at hn
      have hj' := hj.resolve_left (hn j)
      have := s3 (hT.2.2.2 hn ⟨j, hj'⟩) j
      rcases this with ⟨-, c⟩ | ⟨c, -⟩
      · exact C114_nan _ _ j (.inr (.inl c))
      · exact absurd hj' c

/-! ## Variances -/

/-- The bound on the error of a variance with `k` clusters and variances of the experts of size at most `V`. -/
def gVar (F : Format K) (k : ℕ) (V : K) : K :=
  ((1 + F.u) ^ (k + 1) - 1) * (V * (1 + gProb F k)) + (1 + F.u) ^ k * (k * F.tiny) + V * (F.u * (1 + gProb F k) + k * F.tiny + 2 * gProb F k)

/-- **C114** The variance of the smooth prediction in the regular case, for variances of the experts between 0 and `V`: a number, never negative, at most `gVar` away from `∑ v j (p j / S) ^ 2`. -/
theorem C114_variance (h : Inputs F w pdf) (ht : t.Adds k) (hk : k ≠ 1) {r : K} (hr : 0 < r) (er : total F t (products F w pdf) = .fin r)
    {v : Fin k → K} {V : K} (hv : ∀ j, 0 ≤ v j ∧ v j ≤ V) (hb : (1 + F.u) ^ k * ((1 + F.u) * (V * (1 + gProb F k)) + k * F.tiny) ≤ F.big) :
    ∃ (p : Fin k → K) (c : K), (∀ j, products F w pdf j = .fin (p j) ∧ 0 ≤ p j) ∧ 0 < ∑ j, p j ∧ smoothVarX F (probaX F t w pdf) (fun j => .fin (v j)) = .fin c ∧ F.Fin c ∧ 0 ≤ c ∧
      |c - ∑ j, v j * (p j / ∑ i, p i) ^ 2| ≤ gVar F k V := by
  obtain ⟨p, q, hR, -, hq2, hq3⟩ := C114_probabilities h ht hk hr er
  have hk0 : 0 < k := adds_pos ht
  have hV : 0 ≤ V := (hv ⟨0, hk0⟩).1.trans (hv ⟨0, hk0⟩).2
  have hS := hR.sum_pos
  have hsq : ∀ j, F.rnd (q j * q j) ≤ q j := fun j => F.le_rep (hR.prob_fin j).1 (mul_le_of_le_one_left (hR.nonneg j) (hR.le_one j))
  have hsq0 : ∀ j, 0 ≤ F.rnd (q j * q j) := fun j => F.nonneg (mul_self_nonneg _)
  have hqs : ∑ j, q j ≤ 1 + gProb F k := by linarith [(abs_le.1 hq3).2]
  have hmul : ∀ j, F.mulX (.fin (q j)) (.fin (q j)) = .fin (F.rnd (q j * q j)) := fun j => by
    refine F.of_small ?_
    rw [abs_of_nonneg (mul_self_nonneg _)]
    have h1 := mul_le_of_le_one_left (hR.nonneg j) (hR.le_one j)
    linarith [hR.le_one j, F.one_le_big]
  obtain ⟨c, ec, fc, hc⟩ := C114_smooth_sum (F := F) (E := V) (Q := 1 + gProb F k) (e := v) (q := fun j => F.rnd (q j * q j)) (fun j => by rw [abs_of_nonneg (hv j).1]; exact (hv j).2) hsq0
    ((Finset.sum_le_sum fun j _ => hsq j).trans hqs) hV hb
  have evar : smoothVarX F (probaX F t w pdf) (fun j => .fin (v j)) = .fin c := by
    rw [← ec, show probaX F t w pdf = fun j => .fin (q j) from funext hR.prob]
    unfold smoothVarX smoothX
    simp only [hmul]
  have hc0 : 0 ≤ c := by
    have hnn := fold_nn F (fun j : Fin k => F.mulX (.fin (v j)) (.fin (F.rnd (q j * q j)))) (List.finRange k) (by
      intro j _
      show Nn F (F.of (v j * F.rnd (q j * q j)))
      unfold Format.of
      split
      · exact ⟨⟨F.idem _, by assumption⟩, F.nonneg (mul_nonneg (hv j).1 (hsq0 j))⟩
      · exact decide_eq_false (not_lt.2 (mul_nonneg (hv j).1 (hsq0 j)))) (.fin 0) ⟨F.fin_zero, le_refl _⟩
    have h1 := hnn.1
    have h2 : (List.finRange k).foldl (fun s j => F.addX s (F.mulX (.fin (v j)) (.fin (F.rnd (q j * q j))))) (.fin 0) = .fin c := ec
    rw [h2] at h1
    exact h1.2
  refine ⟨p, c, fun j => ⟨hR.prod j, hR.prod_nonneg j⟩, hS, evar, fc, hc0, ?_⟩
  have a0 : ∀ j, 0 ≤ p j / ∑ i, p i := fun j => div_nonneg (hR.prod_nonneg j) hS.le
  have a1 : ∀ j, p j / ∑ i, p i ≤ 1 := fun j => (div_le_one hS).2 (Finset.single_le_sum (f := p) (fun i _ => hR.prod_nonneg i) (Finset.mem_univ j))
  have h1 : |∑ j, v j * F.rnd (q j * q j) - ∑ j, v j * (p j / ∑ i, p i) ^ 2| ≤ V * (F.u * (1 + gProb F k) + k * F.tiny + 2 * gProb F k) := by
    rw [← Finset.sum_sub_distrib]
    refine (Finset.abs_sum_le_sum_abs _ _).trans ?_
    have each : ∀ j, |v j * F.rnd (q j * q j) - v j * (p j / ∑ i, p i) ^ 2| ≤ V * (F.u * q j + F.tiny + 2 * |q j - p j / ∑ i, p i|) := by
      intro j
      rw [← mul_sub, abs_mul, abs_of_nonneg (hv j).1]
      have b1 := F.err (q j * q j)
      rw [abs_of_nonneg (mul_self_nonneg (q j))] at b1
      have b2 : F.u * (q j * q j) ≤ F.u * q j := mul_le_mul_of_nonneg_left (mul_le_of_le_one_left (hR.nonneg j) (hR.le_one j)) F.u_nonneg
      have b3 : |q j * q j - (p j / ∑ i, p i) ^ 2| ≤ 2 * |q j - p j / ∑ i, p i| := by
        rw [show q j * q j - (p j / ∑ i, p i) ^ 2 = (q j + p j / ∑ i, p i) * (q j - p j / ∑ i, p i) by ring, abs_mul, abs_of_nonneg (add_nonneg (hR.nonneg j) (a0 j))]
        exact mul_le_mul_of_nonneg_right (by linarith [hR.le_one j, a1 j]) (abs_nonneg _)
      have b4 := abs_sub_le (F.rnd (q j * q j)) (q j * q j) ((p j / ∑ i, p i) ^ 2)
      exact mul_le_mul (hv j).2 (by linarith) (abs_nonneg _) hV
    refine (Finset.sum_le_sum fun j _ => each j).trans ?_
    rw [← Finset.mul_sum, Finset.sum_add_distrib, Finset.sum_add_distrib, ← Finset.mul_sum, ← Finset.mul_sum, Finset.sum_const, Finset.card_univ, Fintype.card_fin, nsmul_eq_mul]
    have b5 := mul_le_mul_of_nonneg_left hqs F.u_nonneg
    exact mul_le_mul_of_nonneg_left (by linarith) hV
  have h2 := abs_sub_le c (∑ j, v j * F.rnd (q j * q j)) (∑ j, v j * (p j / ∑ i, p i) ^ 2)
  unfold gVar
  linarith

/-! ## Against the unrounded products -/

/-- **C114** The probabilities meant, from products as rounded, against those of the unrounded products `w j * f j` with sum `T`: all differences together are at most `2 (u T + k tiny) / S`, which is about `2 u` as long as
the sum is far above the underflow threshold and says nothing near it. -/
theorem C114_unrounded (h : Inputs F w pdf) {f p : Fin k → K} (hf : ∀ j, pdf j = .fin (f j)) (hp : ∀ j, products F w pdf j = .fin (p j)) (hS : 0 < ∑ j, p j) (hT : 0 < ∑ j, w j * f j) :
    ∑ j, |p j / ∑ i, p i - w j * f j / ∑ i, w i * f i| ≤ 2 * (F.u * (∑ i, w i * f i) + k * F.tiny) / ∑ i, p i := by
  have hP0 : ∀ j, 0 ≤ w j * f j := fun j => mul_nonneg (h.w_nonneg j) (by
    have := h.pdf_nn j
    rw [hf j] at this
    exact this.2)
  have hd : ∀ j, |p j - w j * f j| ≤ F.u * (w j * f j) + F.tiny := fun j => by
    have := (C114_product (F := F) w pdf j).1 (f j) (hf j) (p j) (hp j)
    rwa [abs_of_nonneg (hP0 j)] at this
  have hsum : ∑ j, |p j - w j * f j| ≤ F.u * (∑ i, w i * f i) + k * F.tiny := by
    refine (Finset.sum_le_sum fun j _ => hd j).trans (le_of_eq ?_)
    rw [Finset.sum_add_distrib, ← Finset.mul_sum, Finset.sum_const, Finset.card_univ, Fintype.card_fin, nsmul_eq_mul]
  have hST : |∑ i, w i * f i - ∑ i, p i| ≤ F.u * (∑ i, w i * f i) + k * F.tiny := by
    rw [abs_sub_comm, ← Finset.sum_sub_distrib]
    exact (Finset.abs_sum_le_sum_abs _ _).trans hsum
  generalize hSe : ∑ i, p i = S at *
  generalize hTe : ∑ i, w i * f i = T at *
  generalize hD : F.u * T + k * F.tiny = D at *
  have each : ∀ j, |p j / S - w j * f j / T| ≤ |p j - w j * f j| / S + w j * f j / T * (|T - S| / S) := by
    intro j
    have e1 : p j / S - w j * f j / T = (p j - w j * f j) / S + w j * f j / T * ((T - S) / S) := by
      field_simp
      ring
    rw [e1]
    refine (abs_add_le _ _).trans (le_of_eq ?_)
    rw [abs_div, abs_of_pos hS, abs_mul, abs_of_nonneg (div_nonneg (hP0 j) hT.le), abs_div, abs_of_pos hS]
  refine (Finset.sum_le_sum fun j _ => each j).trans ?_
  rw [Finset.sum_add_distrib, ← Finset.sum_div, ← Finset.sum_mul, ← Finset.sum_div, hTe, div_self hT.ne', one_mul, ← add_div]
  exact div_le_div_of_nonneg_right (by linarith) hS.le

/-- **C114** The smooth prediction against the convex combination of the experts' outputs with the unrounded probabilities `w j f j / T`. -/
theorem C114_smooth_unrounded (h : Inputs F w pdf) (ht : t.Adds k) (hk : k ≠ 1) {r : K} (hr : 0 < r) (er : total F t (products F w pdf) = .fin r) {f : Fin k → K} (hf : ∀ j, pdf j = .fin (f j))
    (hT : 0 < ∑ j, w j * f j) {e : Fin k → K} {E : K} (he : ∀ j, |e j| ≤ E) (hb : (1 + F.u) ^ k * ((1 + F.u) * (E * (1 + gProb F k)) + k * F.tiny) ≤ F.big) :
    ∃ c S, smoothX F (probaX F t w pdf) (fun j => .fin (e j)) = .fin c ∧ 0 < S ∧ |S - ∑ i, w i * f i| ≤ F.u * (∑ i, w i * f i) + k * F.tiny ∧
      |c - ∑ j, e j * (w j * f j / ∑ i, w i * f i)| ≤ gPred F k E + E * (2 * (F.u * (∑ i, w i * f i) + k * F.tiny) / S) := by
  obtain ⟨p, c, hp, hS, ec, -, hc, -⟩ := C114_smooth h ht hk hr er he hb
  have hE : 0 ≤ E := (abs_nonneg _).trans (he ⟨0, adds_pos ht⟩)
  have hun := C114_unrounded h hf (fun j => (hp j).1) hS hT
  refine ⟨c, ∑ i, p i, ec, hS, ?_, ?_⟩
  · rw [← Finset.sum_sub_distrib]
    refine (Finset.abs_sum_le_sum_abs _ _).trans ((Finset.sum_le_sum fun j _ => (C114_product (F := F) w pdf j).1 (f j) (hf j) (p j) (hp j).1).trans (le_of_eq ?_))
    rw [Finset.sum_add_distrib, ← Finset.mul_sum, Finset.sum_const, Finset.card_univ, Fintype.card_fin, nsmul_eq_mul]
    have : ∀ j, |w j * f j| = w j * f j := fun j => abs_of_nonneg (mul_nonneg (h.w_nonneg j) (by
      have := h.pdf_nn j
      rw [hf j] at this
      exact this.2))
    simp only [this]
  · have h1 : |∑ j, e j * (p j / ∑ i, p i) - ∑ j, e j * (w j * f j / ∑ i, w i * f i)| ≤ E * (2 * (F.u * (∑ i, w i * f i) + k * F.tiny) / ∑ i, p i) := by
      rw [← Finset.sum_sub_distrib]
      refine (Finset.abs_sum_le_sum_abs _ _).trans ?_
      refine le_trans ?_ (mul_le_mul_of_nonneg_left hun hE)
      rw [Finset.mul_sum]
      refine Finset.sum_le_sum fun j _ => ?_
      rw [← mul_sub, abs_mul]
      exact mul_le_mul_of_nonneg_right (he j) (abs_nonneg _)
    have h2 := abs_sub_le c (∑ j, e j * (p j / ∑ i, p i)) (∑ j, e j * (w j * f j / ∑ i, w i * f i))
    linarith

/-! ## Examples in binary64 -/

/-- Two clusters of equal weight. -/
def half : Fin 2 → ℚ := fun _ => 1 / 2

/-- Densities. -/
def dens (a b : X ℚ) : Fin 2 → X ℚ := ![a, b]

/-- The order of addition. -/
def pair : Tree := .node (.leaf 0) (.leaf 1)

theorem pair_adds : pair.Adds 2 := by
  show [0, 1].Perm (List.range 2)
  decide

theorem half_inputs {a b : ℚ} (ha : binary64.Fin a ∧ 0 ≤ a) (hb : binary64.Fin b ∧ 0 ≤ b) : Inputs binary64 half (dens (.fin a) (.fin b)) :=
  ⟨fun _ => ⟨(by decide +kernel : binary64.rnd (1 / 2) = 1 / 2), (by decide +kernel : |(1 / 2 : ℚ)| ≤ binary64.big)⟩, fun _ => (by decide +kernel : (0 : ℚ) ≤ 1 / 2), fun j => by fin_cases j; exacts [ha, hb]⟩

-- an ordinary point: the hypotheses of the regular case hold, and the prediction is a proper mean
example : Inputs binary64 half (dens (.fin 3) (.fin 1)) ∧ total binary64 pair (products binary64 half (dens (.fin 3) (.fin 1))) = .fin 2 ∧
    smoothX binary64 (probaX binary64 pair half (dens (.fin 3) (.fin 1))) ![.fin 10, .fin 20] = .fin (25 / 2) ∧
    smoothVarX binary64 (probaX binary64 pair half (dens (.fin 3) (.fin 1))) ![.fin 16, .fin 16] = .fin 10 ∧
    hardX (probaX binary64 pair half (dens (.fin 3) (.fin 1))) ![.fin 10, .fin 20] = some (.fin 10) :=
  ⟨half_inputs ⟨⟨by decide +kernel, by decide +kernel⟩, by decide⟩ ⟨⟨by decide +kernel, by decide +kernel⟩, by decide⟩, by decide +kernel, by decide +kernel, by decide +kernel, by decide +kernel⟩

-- what the bounds say there: outputs of size at most 20 are off by less than 1e-13
example : gPred binary64 2 20 < 1 / 10 ^ 13 ∧ gVar binary64 2 16 < 1 / 10 ^ 13 ∧ (1 + binary64.u) ^ 2 * ((1 + binary64.u) * (20 * (1 + gProb binary64 2)) + (2 : ℕ) * binary64.tiny) ≤ binary64.big := by
  decide +kernel

-- underflow: both densities are the least positive number, both products round to zero, and two experts that say 10 and 20 give 0
example : Inputs binary64 half (dens (.fin (1 / 2 ^ 1074)) (.fin (1 / 2 ^ 1074))) ∧
    smoothX binary64 (probaX binary64 pair half (dens (.fin (1 / 2 ^ 1074)) (.fin (1 / 2 ^ 1074)))) ![.fin 10, .fin 20] = .fin 0 :=
  ⟨half_inputs ⟨⟨by decide +kernel, by decide +kernel⟩, by decide +kernel⟩ ⟨⟨by decide +kernel, by decide +kernel⟩, by decide +kernel⟩, by decide +kernel⟩

-- an infinite density: NaN
example : smoothX binary64 (probaX binary64 pair half (dens (.inf false) (.fin 1))) ![.fin 10, .fin 20] = .nan := by decide +kernel

-- the hard recombination takes the first of two clusters although the product of the second is larger: both probabilities round to the same number
example : products binary64 (fun _ : Fin 4 => 1 / 4) ![.fin (8 - 2 / 2 ^ 50), .fin (8 - 1 / 2 ^ 50), .fin 7, .fin 7] 0 = .fin (2 - 2 / 2 ^ 52) ∧
    products binary64 (fun _ : Fin 4 => 1 / 4) ![.fin (8 - 2 / 2 ^ 50), .fin (8 - 1 / 2 ^ 50), .fin 7, .fin 7] 1 = .fin (2 - 1 / 2 ^ 52) ∧
    hardX (probaX binary64 (.node (.node (.node (.leaf 0) (.leaf 1)) (.leaf 2)) (.leaf 3)) (fun _ : Fin 4 => 1 / 4) ![.fin (8 - 2 / 2 ^ 50), .fin (8 - 1 / 2 ^ 50), .fin 7, .fin 7])
      ![.fin 10, .fin 20, .fin 30, .fin 40] = some (.fin 10) := by
  refine ⟨by decide +kernel, by decide +kernel, by decide +kernel⟩

end SMT.Fp.Moe
