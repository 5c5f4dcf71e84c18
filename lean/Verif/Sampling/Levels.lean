import Verif.Sampling.Props

/-!
# Property C108: how many levels a full-factorial design gives each input

Specification, for level counts `k_1 .. k_nx` with sum `N` and weights `w_1 .. w_nx` with sum `W`: the share `w_j / W * N`.
-/
namespace SMT.Sampling
set_option linter.unusedSectionVars false
set_option linter.unusedSimpArgs false
set_option linter.unusedVariables false

variable {K : Type} [Field K] [LinearOrder K] [IsStrictOrderedRing K]

/-- The search of `np.argmax`. -/
theorem argmaxGo_max (as : List K) : ∀ (m : K) (b i : Nat), b < i →
    let r := argmaxGo m b i as
    (r = b ∧ ∀ a ∈ as, a ≤ m) ∨ (∃ t, t < as.length ∧ r = i + t ∧ ∃ v, as[t]? = some v ∧ m < v ∧
      (∀ a ∈ as, a ≤ v) ∧ ∀ s w, s < t → as[s]? = some w → w < v) := by
  induction as with
  | nil => intro m b i _; left; simp [argmaxGo]
  | cons a as ih =>
    intro m b i hb
    simp only [argmaxGo]
    by_cases hlt : m < a
    · rw [if_pos hlt]
      right
      rcases ih a i (i + 1) (by omega) with ⟨h1, h2⟩ | ⟨t, ht, hr, v, hv, hav, hall, hbef⟩
      · refine ⟨0, by simp, by rw [h1]; rfl, a, rfl, hlt, ?_, ?_⟩
        · intro c hc; rcases List.mem_cons.1 hc with rfl | hc
          · exact le_refl _
          · exact h2 c hc
        · intro s w hs; omega
      · refine ⟨t + 1, by simp; omega, by rw [hr]; omega, v, by simpa using hv, hlt.trans hav, ?_, ?_⟩
        · intro c hc; rcases List.mem_cons.1 hc with rfl | hc
          · exact hav.le
          · exact hall c hc
        · intro s w hs hw
          cases s with
          | zero => simp at hw; rw [← hw]; exact hav
          | succ s => exact hbef s w (by omega) (by simpa using hw)
    · rw [if_neg hlt]
      rcases ih m b (i + 1) (by omega) with ⟨h1, h2⟩ | ⟨t, ht, hr, v, hv, hav, hall, hbef⟩
      · left; refine ⟨h1, ?_⟩
        intro c hc; rcases List.mem_cons.1 hc with rfl | hc
        · exact not_lt.1 hlt
        · exact h2 c hc
      · right
        refine ⟨t + 1, by simp; omega, by rw [hr]; omega, v, by simpa using hv, hav, ?_, ?_⟩
        · intro c hc; rcases List.mem_cons.1 hc with rfl | hc
          · exact (not_lt.1 hlt).trans hav.le
          · exact hall c hc
        · intro s w hs hw
          cases s with
          | zero => simp at hw; rw [← hw]; exact lt_of_le_of_lt (not_lt.1 hlt) hav
          | succ s => exact hbef s w (by omega) (by simpa using hw)

/-- `np.argmax`: an index of a largest entry, the first of them. -/
theorem argmax_max (l : List K) (j : ℕ) (v : K) (h : l[j]? = some v) :
    ∃ m, l[argmax l]? = some m ∧ v ≤ m ∧ (j < argmax l → v < m) := by
  cases l with
  | nil => simp at h
  | cons a as =>
    rw [argmax]
    rcases argmaxGo_max as a 0 1 (by omega) with ⟨h1, h2⟩ | ⟨t, ht, hr, m, hm, ham, hall, hbef⟩
    · rw [h1]
      refine ⟨a, rfl, ?_, fun h => by omega⟩
      cases j with
      | zero => simp at h; exact h.ge
      | succ j => exact h2 v (List.mem_of_getElem? (by simpa using h))
    · rw [hr]
      refine ⟨m, by rw [show 1 + t = t + 1 by omega]; simpa using hm, ?_, ?_⟩
      · cases j with
        | zero => simp at h; rw [← h]; exact ham.le
        | succ j => exact hall v (List.mem_of_getElem? (by simpa using h))
      · intro hj
        cases j with
        | zero => simp at h; rw [← h]; exact ham
        | succ j => exact hbef j v (by omega) (by simpa using h)

/-- A property kept by every round holds at the end. -/
theorem levelLoop_inv (w : List K) (nt : ℕ) (P : List ℕ → Prop) (hs : ∀ nums, P nums → nums.prod < nt → P (levelStep w nums)) :
    ∀ (fuel : ℕ) (nums r : List ℕ), P nums → levelLoop w nt fuel nums = some r → P r := by
  intro fuel
  induction fuel with
  | zero =>
    intro nums r h0 h
    unfold levelLoop at h
    split at h
    · cases h
    · injection h with h; exact h ▸ h0
  | succ fuel ih =>
    intro nums r h0 h
    unfold levelLoop at h
    split at h
    · rename_i hc
      exact ih _ _ (hs nums h0 hc) h
    · injection h with h; exact h ▸ h0

theorem sum_modify (nums : List ℕ) : ∀ (i : ℕ), i < nums.length → (nums.modify i (· + 1)).sum = nums.sum + 1 := by
  induction nums with
  | nil => intro i h; simp at h
  | cons n ns ih =>
    intro i h
    cases i with
    | zero => simp [List.modify_zero_cons]; omega
    | succ i =>
      simp only [List.modify_succ_cons, List.sum_cons]
      rw [ih i (by simpa using h)]
      omega

theorem scores_sum (N : K) : ∀ (w : List K) (nums : List ℕ), w.length = nums.length →
    (List.zipWith (fun (w : K) (n : ℕ) => w - (n : K) / N) w nums).sum = w.sum - (nums.sum : ℕ) / N := by
  intro w
  induction w with
  | nil => intro nums h; cases nums <;> simp at h ⊢
  | cons a w ih =>
    intro nums h
    cases nums with
    | nil => simp at h
    | cons n ns =>
      simp only [List.zipWith_cons_cons, List.sum_cons]
      rw [ih ns (by simpa using h)]
      push_cast
      ring

/-- If a list has sum zero its largest entry is not negative. -/
theorem argmax_nonneg (l : List K) (hne : l ≠ []) (hs : 0 ≤ l.sum) : ∃ m, l[argmax l]? = some m ∧ 0 ≤ m := by
  have h0 : ∃ v ∈ l, 0 ≤ v := by
    by_contra hc
    push Not at hc
    have : ∀ (l : List K), l ≠ [] → (∀ v ∈ l, v < 0) → l.sum < 0 := by
      intro l
      induction l with
      | nil => intro h; exact absurd rfl h
      | cons a l ih =>
        intro _ h
        rw [List.sum_cons]
        have ha := h a (List.mem_cons_self ..)
        by_cases hl : l = []
        · subst hl; simpa using ha
        · linarith [ih hl (fun v hv => h v (List.mem_cons_of_mem _ hv))]
    linarith [this l hne hc]
  obtain ⟨v, hv, hv0⟩ := h0
  obtain ⟨j, hj, rfl⟩ := List.getElem_of_mem hv
  obtain ⟨m, hm, hle, -⟩ := argmax_max l j l[j] (List.getElem?_eq_getElem hj)
  exact ⟨m, hm, hv0.trans hle⟩

theorem getD_modify (nums : List ℕ) (i j : ℕ) (hi : i < nums.length) :
    (nums.modify i (· + 1)).getD j 0 = if i = j then nums.getD j 0 + 1 else nums.getD j 0 := by
  rw [List.getD_eq_getElem?_getD, List.getD_eq_getElem?_getD, List.getElem?_modify]
  by_cases h : i = j
  · subst h
    rw [if_pos rfl, List.getElem?_eq_getElem hi]
    simp
  · rw [if_neg h]
    simp [h]

theorem sum_diff : ∀ (a : List ℕ) (b : List K), a.length = b.length → (∀ j < a.length, (a.getD j 0 : K) ≤ b.getD j 0) → ∀ i < a.length,
    (a.sum : ℕ) - (a.getD i 0 : K) ≤ b.sum - b.getD i 0 := by
  intro a
  induction a with
  | nil => intro b h _ i hi; simp at hi
  | cons x a ih =>
    intro b h hle i hi
    cases b with
    | nil => simp at h
    | cons y b =>
      have hx : (x : K) ≤ y := by simpa using hle 0 (by simp)
      have hrest : ∀ j < a.length, (a.getD j 0 : K) ≤ b.getD j 0 := fun j hj => by simpa using hle (j + 1) (by simpa using hj)
      have hsum : ∀ (a : List ℕ) (b : List K), a.length = b.length → (∀ j < a.length, (a.getD j 0 : K) ≤ b.getD j 0) → ((a.sum : ℕ) : K) ≤ b.sum := by
        intro a
        induction a with
        | nil => intro b h _; cases b <;> simp at h ⊢
        | cons x a ih =>
          intro b h hle
          cases b with
          | nil => simp at h
          | cons y b =>
            have := ih b (by simpa using h) (fun j hj => by simpa using hle (j + 1) (by simpa using hj))
            have hx : (x : K) ≤ y := by simpa using hle 0 (by simp)
            simp only [List.sum_cons]
            push_cast
            linarith
      cases i with
      | zero =>
        have := hsum a b (by simpa using h) hrest
        simp only [List.sum_cons, List.getD_cons_zero]
        push_cast
        linarith
      | succ i =>
        have := ih b (by simpa using h) hrest i (by simpa using hi)
        simp only [List.sum_cons, List.getD_cons_succ]
        push_cast
        linarith

theorem normWeights_spec (nx : ℕ) (hnx : 0 < nx) (w : Option (List K)) (hw : ∀ l, w = some l → l.length = nx ∧ (∀ v ∈ l, 0 ≤ v) ∧ 0 < l.sum) :
    (normWeights nx w).length = nx ∧ (∀ v ∈ normWeights nx w, 0 ≤ v) ∧ (normWeights nx w).sum = 1 := by
  cases w with
  | none =>
    refine ⟨by simp [normWeights], ?_, ?_⟩
    · intro v hv
      rw [normWeights, List.mem_replicate] at hv
      rw [hv.2]; positivity
    · have : (nx : K) ≠ 0 := by exact_mod_cast hnx.ne'
      simp [normWeights, this]
  | some l =>
    obtain ⟨h1, h2, h3⟩ := hw l rfl
    refine ⟨by simp [normWeights, h1], ?_, ?_⟩
    · intro v hv
      rw [normWeights, List.mem_map] at hv
      obtain ⟨u, hu, rfl⟩ := hv
      exact div_nonneg (h2 u hu) h3.le
    · rw [normWeights]
      have : ∀ (m : List K) (s : K), (m.map (· / s)).sum = m.sum / s := by
        intro m s
        induction m with
        | nil => simp
        | cons a m ih => simp only [List.map_cons, List.sum_cons]; rw [ih]; ring
      rw [this, div_self h3.ne']

/-- The weight of input `j`, as a fraction of the sum of all weights; equal weights by default. -/
def share (nx : ℕ) (w : Option (List K)) (j : ℕ) : K :=
  match w with
  | none => 1 / nx
  | some l => l.getD j 0 / l.sum

theorem share_eq (nx : ℕ) (w : Option (List K)) (j : ℕ) (hj : j < nx) : (normWeights nx w).getD j 0 = share nx w j := by
  cases w with
  | none =>
    rw [normWeights, share, List.getD_eq_getElem?_getD, List.getElem?_replicate, if_pos hj]
    rfl
  | some l =>
    rw [normWeights, share]
    simp only [List.getD_eq_getElem?_getD, List.getElem?_map]
    cases l[j]? <;> simp

/-- **C108** The level counts are proportional to the weights up to one level above and `nx - 1` levels below: with `N` levels in all and
non-negative weights of positive sum, input `j` has at most `share * N + 1` and at least `share * N - (nx - 1)` levels. -/
theorem C108_quota (nx nt fuel : ℕ) (hnx : 0 < nx) (w : Option (List K)) (hw : ∀ l, w = some l → l.length = nx ∧ (∀ v ∈ l, 0 ≤ v) ∧ 0 < l.sum)
    (nums : List ℕ) (h : levelLoop (normWeights nx w) nt fuel (List.replicate nx 1) = some nums) :
    ∀ j < nx, (nums.getD j 0 : K) ≤ share nx w j * (nums.sum : ℕ) + 1 ∧ share nx w j * (nums.sum : ℕ) - (nx - 1) ≤ nums.getD j 0 := by
  obtain ⟨hl, hn, hs⟩ := normWeights_spec nx hnx w hw
  set W := normWeights nx w with hW
  have hWn : ∀ j, 0 ≤ W.getD j 0 := by
    intro j
    rw [List.getD_eq_getElem?_getD]
    cases hj : W[j]? with
    | none => simp
    | some v => exact hn v (List.mem_of_getElem? hj)
  have inv : nums.length = nx ∧ 0 < nums.sum ∧ ∀ j < nx, (nums.getD j 0 : K) ≤ W.getD j 0 * (nums.sum : ℕ) + 1 := by
    refine levelLoop_inv W nt (fun nums => nums.length = nx ∧ 0 < nums.sum ∧ ∀ j < nx, (nums.getD j 0 : K) ≤ W.getD j 0 * (nums.sum : ℕ) + 1) ?_ fuel _ nums ?_ h
    · rintro nums ⟨h1, h2, h3⟩ -
      have hlen : (scores W nums).length = nx := by simp [scores, hl, h1]
      have hne : scores W nums ≠ [] := by intro e; rw [e] at hlen; simp at hlen; omega
      have hi : argmax (scores W nums) < nums.length := by rw [h1, ← hlen]; exact argmax_lt _ hne
      have hN : (0 : K) < (nums.sum : ℕ) := by exact_mod_cast h2
      obtain ⟨m, hm, hm0⟩ := argmax_nonneg (scores W nums) hne (by
        rw [scores, scores_sum _ _ _ (by rw [hl, h1]), hs, div_self hN.ne', sub_self])
      have hsum : (levelStep W nums).sum = nums.sum + 1 := sum_modify nums _ hi
      refine ⟨by simp [levelStep, h1], by rw [hsum]; omega, ?_⟩
      intro j hj
      rw [hsum]
      have hb := h3 j hj
      have hw0 := hWn j
      rw [levelStep, getD_modify _ _ _ hi]
      by_cases hij : argmax (scores W nums) = j
      · rw [if_pos hij]
        rw [hij, scores, List.getElem?_zipWith] at hm
        have e1 : W[j]? = some (W.getD j 0) := by
          rw [List.getD_eq_getElem?_getD, List.getElem?_eq_getElem (by omega)]; rfl
        have e2 : nums[j]? = some (nums.getD j 0) := by
          rw [List.getD_eq_getElem?_getD, List.getElem?_eq_getElem (by omega)]; rfl
        rw [e1, e2] at hm
        simp only [Option.some.injEq] at hm
        rw [← hm] at hm0
        have h4 : (nums.getD j 0 : K) / (nums.sum : ℕ) ≤ W.getD j 0 := by linarith
        rw [div_le_iff₀ hN] at h4
        push_cast
        nlinarith
      · rw [if_neg hij]
        push_cast
        nlinarith
    · refine ⟨by simp, by simpa using hnx, ?_⟩
      intro j hj
      rw [List.getD_eq_getElem?_getD, List.getElem?_replicate, if_pos hj]
      have := hWn j
      have h5 : (0 : K) ≤ W.getD j 0 * ((List.replicate nx 1).sum : ℕ) := by positivity
      simp only [Option.getD_some, Nat.cast_one]
      linarith
  obtain ⟨h1, h2, h3⟩ := inv
  intro j hj
  rw [← share_eq nx w j hj, ← hW]
  refine ⟨h3 j hj, ?_⟩
  have key := sum_diff (K := K) nums (W.map fun v => v * (nums.sum : ℕ) + 1) (by simp [hl, h1]) (by
    intro i hi
    rw [List.getD_eq_getElem?_getD (l := W.map _), List.getElem?_map]
    have e1 : W[i]? = some (W.getD i 0) := by
      rw [List.getD_eq_getElem?_getD, List.getElem?_eq_getElem (by omega)]; rfl
    rw [e1]
    exact h3 i (by omega)) j (by omega)
  have hsum : (W.map fun v => v * ((nums.sum : ℕ) : K) + 1).sum = W.sum * (nums.sum : ℕ) + W.length := by
    generalize ((nums.sum : ℕ) : K) = N
    induction W with
    | nil => simp
    | cons a W ih => simp only [List.map_cons, List.sum_cons, List.length_cons]; rw [ih]; push_cast; ring
  have hget : (W.map fun v => v * ((nums.sum : ℕ) : K) + 1).getD j 0 = W.getD j 0 * (nums.sum : ℕ) + 1 := by
    rw [List.getD_eq_getElem?_getD, List.getElem?_map]
    have e1 : W[j]? = some (W.getD j 0) := by
      rw [List.getD_eq_getElem?_getD, List.getElem?_eq_getElem (by omega)]; rfl
    rw [e1]
    rfl
  rw [hsum, hget, hs, hl] at key
  linarith

/-- **C108** With the default weights the level counts differ by at most one, and earlier inputs get the extra level. -/
theorem C108_balanced (nx nt fuel : ℕ) (nums : List ℕ) (h : levelLoop (normWeights (K := K) nx none) nt fuel (List.replicate nx 1) = some nums) :
    ∀ i < nx, ∀ j < nx, nums.getD i 0 ≤ nums.getD j 0 + 1 ∧ (i ≤ j → nums.getD j 0 ≤ nums.getD i 0) := by
  have inv : nums.length = nx ∧ 0 < nums.sum + (1 - nx) ∧ ∀ i < nx, ∀ j < nx, nums.getD i 0 ≤ nums.getD j 0 + 1 ∧ (i ≤ j → nums.getD j 0 ≤ nums.getD i 0) := by
    refine levelLoop_inv (normWeights (K := K) nx none) nt (fun nums => nums.length = nx ∧ 0 < nums.sum + (1 - nx) ∧
      ∀ i < nx, ∀ j < nx, nums.getD i 0 ≤ nums.getD j 0 + 1 ∧ (i ≤ j → nums.getD j 0 ≤ nums.getD i 0)) ?_ fuel _ nums ?_ h
    · rintro nums ⟨h1, h2, h3⟩ -
      set W := normWeights (K := K) nx none with hW
      have hl : W.length = nx := by simp [hW, normWeights]
      rcases Nat.eq_zero_or_pos nx with h0 | hnx
      · refine ⟨by simp [levelStep, h1], by rw [h0]; omega, fun i hi => by omega⟩
      have hlen : (scores W nums).length = nx := by simp [scores, hl, h1]
      have hne : scores W nums ≠ [] := by intro e; rw [e] at hlen; simp at hlen; omega
      set t := argmax (scores W nums) with ht
      have hi : t < nums.length := by rw [h1, ← hlen]; exact argmax_lt _ hne
      have hN0 : 0 < nums.sum := by omega
      have hN : (0 : K) < (nums.sum : ℕ) := by exact_mod_cast hN0
      have hsc : ∀ j < nx, (scores W nums)[j]? = some (1 / (nx : K) - (nums.getD j 0 : K) / (nums.sum : ℕ)) := by
        intro j hj
        rw [scores, List.getElem?_zipWith]
        have e1 : W[j]? = some (1 / (nx : K)) := by
          rw [hW, normWeights, List.getElem?_replicate, if_pos hj]
        have e2 : nums[j]? = some (nums.getD j 0) := by
          rw [List.getD_eq_getElem?_getD, List.getElem?_eq_getElem (by omega)]; rfl
        rw [e1, e2]
      have hmin : ∀ j < nx, nums.getD t 0 ≤ nums.getD j 0 ∧ (j < t → nums.getD t 0 < nums.getD j 0) := by
        intro j hj
        obtain ⟨m, hm, hle, hlt⟩ := argmax_max _ j _ (hsc j hj)
        rw [hsc t (by omega)] at hm
        injection hm with hm
        rw [← hm] at hle hlt
        constructor
        · have h4 : (nums.getD t 0 : K) / (nums.sum : ℕ) ≤ (nums.getD j 0 : K) / (nums.sum : ℕ) := by linarith
          rw [div_le_div_iff_of_pos_right hN] at h4
          exact_mod_cast h4
        · intro hj'
          have h4 : (nums.getD t 0 : K) / (nums.sum : ℕ) < (nums.getD j 0 : K) / (nums.sum : ℕ) := by linarith [hlt hj']
          rw [div_lt_div_iff_of_pos_right hN] at h4
          exact_mod_cast h4
      refine ⟨by simp [levelStep, h1], by rw [show (levelStep W nums).sum = nums.sum + 1 from sum_modify nums _ hi]; omega, ?_⟩
      intro i hi' j hj'
      rw [levelStep, getD_modify _ _ _ hi, getD_modify _ _ _ hi]
      have a1 := h3 i hi' j hj'
      have a2 := hmin i hi'
      have a3 := hmin j hj'
      constructor
      · split_ifs with c1 c2 c2
        · omega
        · subst c1; omega
        · omega
        · exact a1.1
      · intro hij
        split_ifs with c1 c2 c2
        · omega
        · subst c1
          have := a2.2 (by omega)
          omega
        · have := a1.2 hij; omega
        · exact a1.2 hij
    · refine ⟨by simp, by simp; omega, ?_⟩
      intro i hi j hj
      simp only [List.getD_eq_getElem?_getD, List.getElem?_replicate, if_pos hi, if_pos hj]
      simp
  exact inv.2.2

/-- **C108** No superfluous level: unless one point was asked for, some input has a level without which the grid would be too small; and if
at most one point was asked for, every input has one level. -/
theorem C108_minimal (nx nt fuel : ℕ) (hnx : 0 < nx) (w : List K) (hw : w.length = nx) (nums : List ℕ) (h : levelLoop w nt fuel (List.replicate nx 1) = some nums) :
    (nt ≤ 1 → nums = List.replicate nx 1) ∧
    (1 < nt → ∃ i < nx, 2 ≤ nums.getD i 0 ∧ (nums.modify i (· - 1)).prod < nt ∧ nt ≤ nums.prod) := by
  have hend : ∀ (fuel : ℕ) (nums r : List ℕ), levelLoop w nt fuel nums = some r → nt ≤ r.prod := by
    intro fuel
    induction fuel with
    | zero =>
      intro nums r h
      unfold levelLoop at h
      split at h
      · cases h
      · injection h with h; subst h; omega
    | succ fuel ih =>
      intro nums r h
      unfold levelLoop at h
      split at h
      · exact ih _ _ h
      · injection h with h; subst h; omega
  constructor
  · intro h1
    unfold levelLoop at h
    rw [if_neg (by simp; omega)] at h
    injection h with h
    exact h.symm
  · intro h1
    have inv := levelLoop_inv w nt (fun nums => nums.length = nx ∧ (∀ n ∈ nums, 0 < n) ∧ (nums = List.replicate nx 1 ∨ ∃ i < nx, 2 ≤ nums.getD i 0 ∧ (nums.modify i (· - 1)).prod < nt))
      (by
        rintro nums ⟨hl, hpos, -⟩ hlt
        have hlen : (scores w nums).length = nx := by simp [scores, hw, hl]
        have hne : scores w nums ≠ [] := by intro e; rw [e] at hlen; simp at hlen; omega
        have hi : argmax (scores w nums) < nums.length := by rw [hl, ← hlen]; exact argmax_lt _ hne
        refine ⟨by simp [levelStep, hl], pos_modify _ hpos _, Or.inr ⟨argmax (scores w nums), by omega, ?_, ?_⟩⟩
        · rw [levelStep, getD_modify _ _ _ hi, if_pos rfl]
          have : 0 < nums.getD (argmax (scores w nums)) 0 := by
            rw [List.getD_eq_getElem?_getD, List.getElem?_eq_getElem hi]
            exact hpos _ (List.getElem_mem hi)
          omega
        · have : (levelStep w nums).modify (argmax (scores w nums)) (· - 1) = nums := by
            unfold levelStep
            apply List.ext_getElem?
            intro j
            rw [List.getElem?_modify, List.getElem?_modify]
            by_cases hj : argmax (scores w nums) = j
            · subst hj
              simp only [if_pos]
              rw [List.getElem?_eq_getElem hi]
              simp
            · simp [hj]
          rw [this]
          exact hlt) fuel _ nums ⟨by simp, by simp, Or.inl rfl⟩ h
    have he := hend _ _ _ h
    rcases inv.2.2 with h2 | ⟨i, hi, h2, h3⟩
    · rw [h2] at he
      simp at he
      omega
    · exact ⟨i, hi, h2, h3, he⟩

/-- Two inputs with weights 3 : 1 and 20 points: seven and three levels; three inputs with equal weights and 10 points. -/
example : levelLoop (normWeights (K := ℚ) 2 (some [3, 1])) 20 20 [1, 1] = some [7, 3] := by decide +kernel
example : levelLoop (normWeights (K := ℚ) 3 none) 10 10 [1, 1, 1] = some [3, 2, 2] := by decide +kernel

end SMT.Sampling
