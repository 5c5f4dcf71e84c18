import Verif.Fp.EseProps2

/-!
# Property C106: the ESE optimisation in rounded arithmetic. Exchanges and runs.
-/
set_option linter.unusedSectionVars false
set_option linter.unusedSimpArgs false
set_option linter.unusedVariables false

namespace SMT.Fp.Ese

variable {K : Type} [Field K] [LinearOrder K] [IsStrictOrderedRing K] {n d : ℕ} {A : Arith K} {q e : ℕ}

/-! ## The criterion before and after an exchange -/

/-- The table of the powers. -/
def tab (q : ℕ) (P : Design K n d) (i j : Fin n) : K := if i = j then 0 else (sqd (P i) (P j) ^ q)⁻¹

theorem tab_comm (P : Design K n d) (i j : Fin n) : tab q P i j = tab q P j i := by
  simp only [tab, eq_comm (a := i) (b := j), sqd_comm (P i) (P j)]

theorem tab_nonneg (P : Design K n d) (i j : Fin n) : 0 ≤ tab q P i j := by
  rw [tab]
  split
  · exact le_rfl
  · exact inv_nonneg.2 (pow_nonneg (sqd_nonneg _ _) q)

theorem two_crit (P : Design K n d) : 2 * crit q P = ∑ i, ∑ j, tab q P i j := by
  rw [← SMT.Ese.pair_sum (tab q P) (tab_comm P) (fun i => by simp [tab])]
  congr 1
  refine Finset.sum_congr rfl fun a ha => ?_
  simp only [Finset.mem_filter] at ha
  rw [tab, if_neg (ne_of_lt ha.2)]

theorem crit_nonneg (P : Design K n d) : 0 ≤ crit q P := Finset.sum_nonneg fun _ _ => inv_nonneg.2 (pow_nonneg (sqd_nonneg _ _) q)

theorem others_sum (i1 i2 : Fin n) (g : Fin n → K) :
    ((others i1 i2).map g).sum = ∑ j ∈ (Finset.univ : Finset (Fin n)).filter (fun j => j ≠ i1 ∧ j ≠ i2), g j := by
  have hn : (others i1 i2).Nodup := (List.nodup_finRange n).filter _
  rw [← List.sum_toFinset g hn]
  refine Finset.sum_congr ?_ fun _ _ => rfl
  ext j
  simp [others]

theorem mem_others {i1 i2 j : Fin n} : j ∈ others i1 i2 ↔ j ≠ i1 ∧ j ≠ i2 := by simp [others]

theorem others_length (i1 i2 : Fin n) : (others i1 i2).length ≤ n := by
  have := List.length_filter_le (fun j => decide (j ≠ i1 ∧ j ≠ i2)) (List.finRange n)
  rwa [List.length_finRange] at this

theorem crit_diff (P : Design K n d) (k : Fin d) {i1 i2 : Fin n} (hne : i1 ≠ i2) :
    ((others i1 i2).map (gain q P k i1 i2)).sum = crit q (swapEntry P k i1 i2) - crit q P := by
  set Q := swapEntry P k i1 i2 with hQ
  have h2 : 2 * (crit q Q - crit q P) = ∑ i, ∑ j, (tab q Q i j - tab q P i j) := by
    simp only [Finset.sum_sub_distrib]
    rw [← two_crit, ← two_crit]; ring
  rw [SMT.Ese.two_row_sum _ i1 i2 hne (fun i j => by rw [tab_comm Q, tab_comm P]) (by simp [tab]) (by simp [tab])
    (by rw [tab, tab, if_neg hne, if_neg hne, hQ, new_sqd12, sub_self])
    (fun i j a b c e => by
      rw [tab, tab, hQ, swap_other P k i1 i2 a b, swap_other P k i1 i2 c e, sub_self])] at h2
  rw [others_sum, mul_left_cancel₀ two_ne_zero h2]
  refine Finset.sum_congr rfl fun j hj => ?_
  simp only [Finset.mem_filter, Finset.mem_univ, true_and] at hj
  rw [gain, tab, tab, tab, tab, if_neg (Ne.symm hj.1), if_neg (Ne.symm hj.2), if_neg (Ne.symm hj.1), if_neg (Ne.symm hj.2)]
  ring

theorem mass_le (P : Design K n d) (k : Fin d) {i1 i2 : Fin n} (hne : i1 ≠ i2) :
    ((others i1 i2).map (mass q P k i1 i2)).sum ≤ crit q (swapEntry P k i1 i2) + crit q P := by
  set Q := swapEntry P k i1 i2 with hQ
  let m : Fin n → Prop := fun i => i = i1 ∨ i = i2
  have hsum := SMT.Ese.two_row_sum (fun i j => if (m i ↔ m j) then 0 else tab q Q i j + tab q P i j) i1 i2 hne
    (fun i j => by
      by_cases h : (m i ↔ m j)
      · simp only [if_pos h, if_pos h.symm]
      · have h' : ¬ (m j ↔ m i) := fun x => h x.symm
        simp only [if_neg h, if_neg h', tab_comm Q i j, tab_comm P i j])
    (by simp) (by simp) (by simp [m]) (fun i j a b c e => by simp [m, a, b, c, e])
  have hle : ∑ i, ∑ j, (if (m i ↔ m j) then (0 : K) else tab q Q i j + tab q P i j) ≤ ∑ i, ∑ j, (tab q Q i j + tab q P i j) := by
    refine Finset.sum_le_sum fun i _ => Finset.sum_le_sum fun j _ => ?_
    split
    · exact add_nonneg (tab_nonneg Q i j) (tab_nonneg P i j)
    · exact le_rfl
  simp only [Finset.sum_add_distrib] at hle
  rw [← two_crit, ← two_crit] at hle
  rw [hsum] at hle
  have hm : ((others i1 i2).map (mass q P k i1 i2)).sum =
      ∑ j ∈ (Finset.univ : Finset (Fin n)).filter (fun j => j ≠ i1 ∧ j ≠ i2), ((if (m i1 ↔ m j) then (0 : K) else tab q Q i1 j + tab q P i1 j) + (if (m i2 ↔ m j) then (0 : K) else tab q Q i2 j + tab q P i2 j)) := by
    rw [others_sum]
    refine Finset.sum_congr rfl fun j hj => ?_
    simp only [Finset.mem_filter, Finset.mem_univ, true_and] at hj
    have n1 : ¬ (m i1 ↔ m j) := by simp [m, hj.1, hj.2]
    have n2 : ¬ (m i2 ↔ m j) := by simp [m, hj.1, hj.2]
    rw [if_neg n1, if_neg n2, mass, tab, tab, tab, tab, if_neg (Ne.symm hj.1), if_neg (Ne.symm hj.2), if_neg (Ne.symm hj.1), if_neg (Ne.symm hj.2)]
    ring
  rw [hm]
  linarith

/-! ## The theorems -/

/-- **C106** The incremental criterion of an exchange. `φ` is the recorded criterion of the design `P`, `Q` is the exchanged design, and the squared distances
in both are between `lo` and `hi`. The recorded criterion of `Q` has at most the error of that of `P`, plus roundings relative to the criteria of *both* designs; it is NaN only
if the criterion of `Q` is itself not larger than that error. -/
theorem C106_exchange [NeZero d] (hA : Good A q e) {m : ℕ} {lo hi : K} (hlo : 0 < lo) (hm : Covers A d m lo hi) (P : Design K n d) (k : Fin d) {i1 i2 : Fin n}
    (hne : i1 ≠ i2) (hP : Spread lo hi P) (hQ : Spread lo hi (swapEntry P k i1 i2)) (φ : K) (hφ : 0 ≤ φ) :
    let Q := swapEntry P k i1 i2
    let err := |(φ * φ) ^ q - crit q P| + (A.R.rho ^ ((d + m + 6) * q + 2 * e + n + 4) - 1) * ((φ * φ) ^ q + crit q P + crit q Q)
    (∃ φ', exchangeVal A P k i1 i2 (.fin φ) = .fin φ' ∧ 0 ≤ φ' ∧ |(φ' * φ') ^ q - crit q Q| ≤ err) ∨
    (exchangeVal A P k i1 i2 (.fin φ) = .nan ∧ crit q Q ≤ err) := by
  intro Q err
  obtain ⟨c, hc, hw⟩ := sumX_within hA (others i1 i2) (term A P k i1 i2) (mass q P k i1 i2) (gain q P k i1 i2)
    (fun j hj => term_within hA hlo hm hne (mem_others.1 hj).1 (mem_others.1 hj).2 hP hQ)
  have hp := hA.ppow φ hφ
  have hl := others_length i1 i2
  have hw1 := ((hp.toWithin.mono (m := (d + m + 6) * q + e + 3 + n) (by omega)).add (hw.mono (by omega))).rnd
  rw [crit_diff P k hne] at hw1
  have hw2 := hw1.weaken (T := (φ * φ) ^ q + crit q P + crit q Q) (by
    have := mass_le (q := q) P k hne
    show _ ≤ (φ * φ) ^ q + crit q P + crit q (swapEntry P k i1 i2)
    linarith)
  have hval : exchangeVal A P k i1 i2 (.fin φ) = rootX A (.fin (A.R.rnd (A.ppow φ + c))) := by
    rw [exchangeVal, hc]
    rfl
  set y := A.R.rnd (A.ppow φ + c) with hy
  set x := (φ * φ) ^ q + (crit q Q - crit q P) with hx
  set B := (φ * φ) ^ q + crit q P + crit q Q with hB
  set r := A.R.rho ^ ((d + m + 6) * q + e + 3 + n + 1) with hr
  have hr1 : 1 ≤ r := one_le_pow₀ (rho_one_le A.R)
  have hre : 1 ≤ A.R.rho ^ e := one_le_pow₀ (rho_one_le A.R)
  have hB0 : 0 ≤ B := (abs_nonneg _).trans hw2.1
  have hrr : A.R.rho ^ ((d + m + 6) * q + 2 * e + n + 4) = r * A.R.rho ^ e := by
    rw [hr, ← pow_add]
    congr 1
    ring
  have hxQ : |x - crit q Q| = |(φ * φ) ^ q - crit q P| := by
    rw [hx]
    congr 1
    ring
  have herr : err = |x - crit q Q| + (r * A.R.rho ^ e - 1) * B := by rw [hxQ, ← hrr]
  have hyx : |y - x| ≤ (r - 1) * B := hw2.2
  rw [hval, rootX]
  by_cases hneg : y < 0
  · rw [if_pos hneg]
    refine .inr ⟨rfl, ?_⟩
    rw [herr]
    have h1 : (r - 1) * B ≤ (r * A.R.rho ^ e - 1) * B := mul_le_mul_of_nonneg_right (by nlinarith) hB0
    have h2 := (abs_le.1 hyx).1
    have h3 := (abs_le.1 (le_refl |x - crit q Q|)).1
    linarith
  · rw [if_neg hneg]
    have hy0 : 0 ≤ y := not_lt.1 hneg
    refine .inl ⟨A.root y, rfl, hA.root_nonneg y hy0, ?_⟩
    have hroot := (hA.root y hy0).abs_sub
    have hyB : y ≤ r * B := by
      have h1 := (abs_le.1 hyx).2
      have h2 := (le_abs_self x).trans hw2.1
      linarith
    have h3 : y * (A.R.rho ^ e - 1) ≤ r * B * (A.R.rho ^ e - 1) := mul_le_mul_of_nonneg_right hyB (by linarith)
    have h4 : |(A.root y * A.root y) ^ q - crit q Q| ≤ |(A.root y * A.root y) ^ q - y| + |y - x| + |x - crit q Q| := by
      have a1 := abs_add_le ((A.root y * A.root y) ^ q - y) (y - x)
      have a2 := abs_add_le ((A.root y * A.root y) ^ q - y + (y - x)) (x - crit q Q)
      have : (A.root y * A.root y) ^ q - y + (y - x) + (x - crit q Q) = (A.root y * A.root y) ^ q - crit q Q := by ring
      rw [this] at a2
      linarith
    rw [herr]
    linarith

theorem pairs_sum (g : Fin n × Fin n → K) : ((pairs n).map g).sum = ∑ a ∈ (Finset.univ : Finset (Fin n × Fin n)).filter (fun a => a.1 < a.2), g a := by
  have hn : (pairs n).Nodup := ((List.nodup_finRange n).product (List.nodup_finRange n)).filter _
  rw [← List.sum_toFinset g hn]
  refine Finset.sum_congr ?_ fun _ _ => rfl
  ext ⟨a, b⟩
  simp only [pairs, List.toFinset_filter, Finset.mem_filter, List.mem_toFinset, Finset.mem_univ, true_and, decide_eq_true_eq]
  exact ⟨fun h => h.2, fun h => ⟨List.mem_product.2 ⟨List.mem_finRange a, List.mem_finRange b⟩, h⟩⟩

theorem pairs_length (n : ℕ) : (pairs n).length ≤ n * n := by
  have := List.length_filter_le (fun q : Fin n × Fin n => decide (q.1 < q.2)) (List.finRange n ×ˢ List.finRange n)
  rw [List.length_product, List.length_finRange] at this
  exact this

/-- **C106** The criterion of the initial design is computed from scratch, with a relative error. -/
theorem C106_initial [NeZero d] (hA : Good A q e) (P : Design K n d) (hP : ∀ i j, i ≠ j → P i ≠ P j) :
    ∃ φ, phiP A P = .fin φ ∧ 0 ≤ φ ∧ Close A.R ((d + 4) * q + 2 * e + n * n) (crit q P) ((φ * φ) ^ q) := by
  have hpos : ∀ i j, i ≠ j → 0 < sqd (P i) (P j) := by
    intro i j hij
    refine lt_of_le_of_ne (sqd_nonneg _ _) fun h0 => hP i j hij ?_
    funext c
    have := (Finset.sum_eq_zero_iff_of_nonneg (fun c _ => sq_nonneg (P i c - P j c))).1 h0.symm c (Finset.mem_univ c)
    have := pow_eq_zero_iff (two_ne_zero) |>.1 this
    linarith
  have hmem : ∀ a ∈ pairs n, a.1 ≠ a.2 := by
    intro a ha
    simp only [pairs, List.mem_filter, decide_eq_true_eq] at ha
    exact ne_of_lt ha.2
  -- all powers are finite and close
  have h := fun a (ha : a ∈ pairs n) => oldPow_close hA (P a.1) (P a.2) (hpos _ _ (hmem a ha))
  have hsum : ∃ c, sumX A ((pairs n).map fun a => npowX A (.fin (dist A (P a.1) (P a.2)))) = .fin c ∧
      Close A.R ((d + 4) * q + e + n * n) (crit q P) c := by
    have hlen := pairs_length n
    by_cases hnil : pairs n = []
    · refine ⟨0, by simp [sumX, hnil], ?_⟩
      have : crit q P = 0 := by
        have h0 := pairs_sum (n := n) (fun a => (sqd (P a.1) (P a.2) ^ q)⁻¹)
        rw [hnil] at h0
        exact h0.symm
      rw [this]
      exact (Close.refl le_rfl).mono (by omega)
    · have hl1 : 1 ≤ (pairs n).length := List.length_pos_iff.2 hnil
      have ht := hA.tree _ hl1
      choose! g hg using h
      have hidx : ∀ i ∈ (A.tree (pairs n).length).leaves, i < (pairs n).length := by
        intro i hi
        have := ht.mem_iff.1 hi
        simpa using this
      refine ⟨(A.tree (pairs n).length).eval A.R fun i => ((pairs n).map g).getD i 0, ?_, ?_⟩
      · rw [sumX, if_neg (by simpa using hnil), List.length_map]
        refine evalR_fin A.R _ _ _ fun i hi => ?_
        have hi' := hidx i hi
        simp only [List.getD_eq_getElem?_getD, List.getElem?_map, List.getElem?_eq_getElem hi', Option.map_some, Option.getD_some]
        exact (hg _ (List.getElem_mem hi')).1
      · have := eval_close (R := A.R) ((d + 4) * q + e) (fun i => ((pairs n).map fun a => (sqd (P a.1) (P a.2) ^ q)⁻¹).getD i 0) (fun i => ((pairs n).map g).getD i 0) (A.tree (pairs n).length) (by
          intro i hi
          have hi' := hidx i hi
          simp only [List.getD_eq_getElem?_getD, List.getElem?_map, List.getElem?_eq_getElem hi', Option.map_some, Option.getD_some]
          exact (hg _ (List.getElem_mem hi')).2)
        have ht1 : (A.tree (pairs n).length).Adds ((pairs n).map fun a => (sqd (P a.1) (P a.2) ^ q)⁻¹).length := by rw [List.length_map]; exact ht
        have s1 := leaves_getD ht1 0 (fun v => v)
        rw [List.map_id'] at s1
        rw [s1, leaves_length ht, pairs_sum] at this
        exact this.mono (by omega)
  obtain ⟨c, hc, hcl⟩ := hsum
  refine ⟨A.root c, ?_, hA.root_nonneg c hcl.2.1, ?_⟩
  · rw [phiP, hc, rootX, if_neg (not_lt.2 hcl.2.1)]
  · exact (hcl.trans (hA.root c hcl.2.1)).mono (by omega)

/-! ## Runs -/

/-- Gaps and ranges of the columns: in column `k` the values of different points differ by at least `g k` and at most `r k`. -/
def Gaps (g r : Fin d → K) (P : Design K n d) : Prop := ∀ k i j, i ≠ j → g k ≤ |P i k - P j k| ∧ |P i k - P j k| ≤ r k

theorem gaps_rearranged {g r : Fin d → K} {P Q : Design K n d} (h : Gaps g r P) (hQ : ColumnsRearranged P Q) : Gaps g r Q := by
  intro k i j hij
  obtain ⟨π, hπ⟩ := hQ k
  rw [hπ, hπ]
  exact h k (π i) (π j) fun e => hij (π.injective e)

theorem gaps_spread {g r : Fin d → K} {P : Design K n d} (hg : ∀ k, 0 ≤ g k) (h : Gaps g r P) : Spread (∑ k, g k ^ 2) (∑ k, r k ^ 2) P := by
  intro i j hij
  constructor
  · refine Finset.sum_le_sum fun k _ => ?_
    rw [← sq_abs (P i k - P j k)]
    exact pow_le_pow_left₀ (hg k) (h k i j hij).1 2
  · refine Finset.sum_le_sum fun k _ => ?_
    rw [← sq_abs (P i k - P j k)]
    exact pow_le_pow_left₀ (abs_nonneg _) (h k i j hij).2 2

/-- **C106** A bound of the criterion of all designs with these columns. -/
theorem C106_bound {g r : Fin d → K} (hg : ∀ k, 0 ≤ g k) (hlo : 0 < ∑ k, g k ^ 2) (P0 Q : Design K n d) (h : Gaps g r P0) (hQ : ColumnsRearranged P0 Q) :
    crit q Q ≤ (n * (n - 1) / 2) * ((∑ k, g k ^ 2) ^ q)⁻¹ := by
  have hs := gaps_spread hg (gaps_rearranged h hQ)
  have h2 : 2 * crit q Q ≤ (n * (n - 1)) * ((∑ k, g k ^ 2) ^ q)⁻¹ := by
    rw [two_crit]
    have hb : ∀ i j, tab q Q i j ≤ if i = j then 0 else ((∑ k, g k ^ 2) ^ q)⁻¹ := by
      intro i j
      rw [tab]
      by_cases hij : i = j
      · rw [if_pos hij, if_pos hij]
      · rw [if_neg hij, if_neg hij]
        exact inv_anti₀ (pow_pos hlo q) (pow_le_pow_left₀ hlo.le (hs i j hij).1 q)
    refine (Finset.sum_le_sum fun i _ => Finset.sum_le_sum fun j _ => hb i j).trans (le_of_eq ?_)
    have : ∀ i : Fin n, ∑ j, (if i = j then 0 else ((∑ k, g k ^ 2) ^ q)⁻¹) = (n - 1 : K) * ((∑ k, g k ^ 2) ^ q)⁻¹ := by
      intro i
      have e : ∀ j, (if i = j then 0 else ((∑ k, g k ^ 2) ^ q)⁻¹) = ((∑ k, g k ^ 2) ^ q)⁻¹ - if i = j then ((∑ k, g k ^ 2) ^ q)⁻¹ else 0 := by
        intro j
        split <;> simp
      rw [Finset.sum_congr rfl fun j _ => e j, Finset.sum_sub_distrib]
      simp
      ring
    rw [Finset.sum_congr rfl fun i _ => this i]
    simp
    ring
  linarith

variable (q) in
/-- The invariant of a run. -/
structure Rec (G : Rng K n) (P0 : Design K n d) (E : ℕ → K) (k : ℕ) (st : St K G d) : Prop where
  cols : ColumnsRearranged P0 st.P
  phi : ∃ φ, st.phi = .fin φ ∧ 0 ≤ φ ∧ |(φ * φ) ^ q - crit q st.P| ≤ E k
  best : ∃ φ, st.phiBest = .fin φ ∧ 0 ≤ φ ∧ |(φ * φ) ^ q - crit q st.best| ≤ E k

/-- **C106** The result of a run: `g k` and `r k` bound the gaps and the range of column `k` of the initial design, `m` roundings cover the cancellation in the distances,
and `B` bounds the criterion of the designs with these columns. The recorded criterion of the returned design is exact up to `3 B` times the relative error of
`N₀ + outer · inner · N` roundings, and the returned design is no worse than the initial one, up to twice that. -/
theorem C106_result [NeZero d] (hA : Good A q e) {m : ℕ} {g r : Fin d → K} (hg : ∀ k, 0 ≤ g k) (hlo : 0 < ∑ k, g k ^ 2)
    (hm : Covers A d m (∑ k, g k ^ 2) (∑ k, r k ^ 2)) (G : Rng K n) (fuel : ℕ) (P0 : Design K n d) (hP0 : Gaps g r P0)
    (B : K) (hB : ∀ Q, ColumnsRearranged P0 Q → crit q Q ≤ B) (T0 : Option (X K)) (outer inner J : ℕ) (tol : K) (fixed : List (Fin n)) (seed : G.σ)
    (Q : Design K n d) (hist : List (X K)) (h : maximinESE A G fuel P0 T0 outer inner J tol fixed seed = some (Q, hist)) :
    let N₀ := (d + 4) * q + 2 * e + n * n
    let N := (d + m + 6) * q + 2 * e + n + 4
    let E := 3 * B * (A.R.rho ^ (N₀ + outer * inner * N) - 1)
    (∃ φ, hist.getLast? = some (.fin φ) ∧ 0 ≤ φ ∧ |(φ * φ) ^ q - crit q Q| ≤ E) ∧ crit q Q ≤ crit q P0 + 2 * E := by
  intro N₀ N E
  have hB0 : 0 ≤ B := (crit_nonneg P0).trans (hB P0 (rearranged_refl P0))
  let F : ℕ → K := fun k => 3 * B * (A.R.rho ^ (N₀ + k * N) - 1)
  have hmono : ∀ k l, k ≤ l → F k ≤ F l := by
    intro k l hkl
    have : A.R.rho ^ (N₀ + k * N) ≤ A.R.rho ^ (N₀ + l * N) :=
      pow_le_pow_right₀ (rho_one_le A.R) (Nat.add_le_add_left (Nat.mul_le_mul_right N hkl) N₀)
    exact mul_le_mul_of_nonneg_left (by linarith) (by linarith)
  have hdist : ∀ i j, i ≠ j → P0 i ≠ P0 j := by
    intro i j hij he
    have := (gaps_spread hg hP0 i j hij).1
    rw [he] at this
    have h0 : sqd (P0 j) (P0 j) = 0 := by simp [sqd]
    linarith
  obtain ⟨φ0, h0, hφ0, hc0⟩ := C106_initial hA P0 hdist
  have hF0 : |(φ0 * φ0) ^ q - crit q P0| ≤ F 0 := by
    refine hc0.abs_sub.trans ?_
    show _ ≤ 3 * B * (A.R.rho ^ (N₀ + 0 * N) - 1)
    rw [Nat.zero_mul, Nat.add_zero]
    refine mul_le_mul_of_nonneg_right ?_ (by linarith [one_le_pow₀ (rho_one_le A.R) (n := N₀)])
    linarith [hB P0 (rearranged_refl P0)]
  have hstep : ∀ T k i (st st' : St K G d), Rec q G P0 F k st → innerStep A G fuel fixed J T i st = some st' → Rec q G P0 F (k + 1) st' := by
    intro T k i st st' hI hs
    have hF := hmono k (k + 1) (by omega)
    obtain ⟨φ, p1, p2, p3⟩ := hI.phi
    obtain ⟨b, b1, b2, b3⟩ := hI.best
    rcases innerStep_cases A G fuel fixed J T i st st' hs with ⟨a1, a2, a3, a4, a5⟩ | ⟨i1, i2, hne, _, _, e1, e2, hn, hb⟩
    · exact ⟨a1 ▸ hI.cols, ⟨φ, a2.trans p1, p2, by rw [a1]; exact p3.trans hF⟩, ⟨b, a4.trans b1, b2, by rw [a3]; exact b3.trans hF⟩⟩
    · have c1 := rearranged_swap P0 st.P hI.cols (Fin.ofNat d (i + 1)) i1 i2
      have key := C106_exchange hA hlo hm st.P (Fin.ofNat d (i + 1)) hne (gaps_spread hg (gaps_rearranged hP0 hI.cols))
        (gaps_spread hg (gaps_rearranged hP0 c1)) φ p2
      rw [← p1, ← e2, ← e1] at key
      rw [← e1] at c1
      have hQ := hB _ c1
      have hP := hB _ hI.cols
      rcases key with ⟨φ', q1, q2, q3⟩ | ⟨q1, _⟩
      · have hphi : |(φ' * φ') ^ q - crit q st'.P| ≤ F (k + 1) := by
          refine q3.trans ?_
          have hφB : (φ * φ) ^ q ≤ B + F k := by
            have := (abs_le.1 p3).2
            linarith
          have hr1 : 0 ≤ A.R.rho ^ N - 1 := by linarith [one_le_pow₀ (rho_one_le A.R) (n := N)]
          have h1 : (A.R.rho ^ N - 1) * ((φ * φ) ^ q + crit q st.P + crit q st'.P) ≤ (A.R.rho ^ N - 1) * (3 * B + F k) :=
            mul_le_mul_of_nonneg_left (by linarith) hr1
          have h2 : F (k + 1) = F k + (A.R.rho ^ N - 1) * (3 * B + F k) := by
            show 3 * B * (A.R.rho ^ (N₀ + (k + 1) * N) - 1) = 3 * B * (A.R.rho ^ (N₀ + k * N) - 1) + (A.R.rho ^ N - 1) * (3 * B + 3 * B * (A.R.rho ^ (N₀ + k * N) - 1))
            rw [show N₀ + (k + 1) * N = N₀ + k * N + N by ring, pow_add A.R.rho (N₀ + k * N) N]
            ring
          rw [h2]
          exact add_le_add p3 h1
        rcases hb with ⟨w1, w2, w3, w4⟩ | ⟨w1, w2, w3, w4⟩
        · exact ⟨c1, ⟨φ', q1, q2, hphi⟩, ⟨φ', w3.trans q1, q2, by rw [w2]; exact hphi⟩⟩
        · exact ⟨c1, ⟨φ', q1, q2, hphi⟩, ⟨b, w3.trans b1, b2, by rw [w2]; exact b3.trans hF⟩⟩
      · exact absurd q1 hn
  obtain ⟨st, ⟨hR, hK⟩, rfl, rfl⟩ := run_ind A G fuel P0 T0 outer inner J tol fixed seed
    (fun k st => Rec q G P0 F k st ∧ Kept G fixed P0 (phiP A P0) k st)
    ⟨⟨rearranged_refl P0, ⟨φ0, h0, hφ0, hF0⟩, ⟨φ0, h0, hφ0, hF0⟩⟩, kept_init G fixed P0 _ seed⟩
    (fun T k i st st' hI hs => ⟨hstep T k i st st' hI.1 hs, kept_step A G fuel fixed J P0 _ T k i st st' hI.2 hs⟩)
    (fun k st hI => ⟨⟨hI.1.cols, hI.1.phi, hI.1.best⟩, ⟨hI.2.cols, hI.2.rows, hI.2.bcols, hI.2.brows, hI.2.len, hI.2.head, hI.2.last, hI.2.desc⟩⟩)
    Q hist h
  obtain ⟨b, b1, b2, b3⟩ := hR.best
  refine ⟨⟨b, by rw [hK.last, b1], b2, b3⟩, ?_⟩
  -- the last recorded value is not above the first one
  have hna : NotAbove (phiP A P0) st.phiBest := by
    rcases hl : st.hist with _ | ⟨a, l⟩
    · have := hK.len
      rw [hl] at this
      simp at this
    · have hh := hK.head
      rw [hl] at hh
      have ha : a = phiP A P0 := by simpa using hh
      have hlast := hK.last
      rw [hl] at hlast
      rcases l with _ | ⟨a', l'⟩
      · have : a = st.phiBest := by simpa using hlast
        exact .inl (by rw [← this, ha])
      · have hpw := hK.desc
        rw [hl] at hpw
        have hmem : st.phiBest ∈ a' :: l' := by
          rw [List.getLast?_cons_cons] at hlast
          exact List.mem_of_getLast? hlast
        rw [← ha]
        exact (List.pairwise_cons.1 hpw).1 _ hmem
  have hle : b ≤ φ0 := by
    rw [h0, b1] at hna
    rcases hna with hna | hna
    · exact le_of_eq (X.fin.inj hna)
    · simp only [X.lt, decide_eq_true_eq] at hna
      exact hna.le
  have hpow : (b * b) ^ q ≤ (φ0 * φ0) ^ q := pow_le_pow_left₀ (mul_nonneg b2 b2) (mul_le_mul hle hle b2 hφ0) q
  have hE0 : F 0 ≤ E := hmono 0 (outer * inner) (by omega)
  have h1 := (abs_le.1 b3).1
  have h2 := (abs_le.1 hF0).2
  have hEE : F (outer * inner) = E := rfl
  linarith

end SMT.Fp.Ese
