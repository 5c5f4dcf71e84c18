import Verif.Fp.SamplingProps2
import Verif.Sampling.Levels

/-!
# Property C108 in rounded arithmetic: weights, the input that is refined next, balanced designs
-/
set_option linter.unusedSectionVars false
set_option linter.unusedSimpArgs false
set_option linter.unusedVariables false

namespace SMT.Fp

open SMT.Sampling (argmax argmax_lt argmax_max share getD_modify sum_modify pos_modify)

variable {K : Type} [Field K] [LinearOrder K] [IsStrictOrderedRing K] (R : Rounding K)

/-- **C108** The computed weights are the shares up to as many roundings as there are inputs, and one more (the sum is taken from the left). -/
theorem C108_rounded_weights (nx : ℕ) (w : Option (List K)) (hw : ∀ l, w = some l → l.length = nx ∧ ∀ v ∈ l, 0 ≤ v) :
    (normWeightsF R nx w).length = nx ∧ ∀ j < nx, Close R (nx + 1) (share nx w j) ((normWeightsF R nx w).getD j 0) := by
  cases w with
  | none =>
    refine ⟨by simp [normWeightsF], fun j hj => ?_⟩
    rw [normWeightsF, List.getD_eq_getElem?_getD, List.getElem?_replicate, if_pos hj]
    exact (Close.of_rnd (by unfold share; positivity)).mono (by omega)
  | some l =>
    obtain ⟨hl, hn⟩ := hw l rfl
    refine ⟨by simp [normWeightsF, hl], fun j hj => ?_⟩
    have hs : Close R nx l.sum (sumF R l) := by
      have := Close.foldl (R := R) (n := 0) l l (List.forall₂_same.2 fun v hv => Close.refl (hn v hv)) 0 le_rfl 0 0 (Close.refl le_rfl)
      rw [zero_add, zero_add, hl] at this
      exact this
    have hj' : j < l.length := by omega
    have e : (normWeightsF R nx (some l)).getD j 0 = R.rnd (l.getD j 0 / sumF R l) := by
      simp only [normWeightsF, List.getD_eq_getElem?_getD, List.getElem?_map, List.getElem?_eq_getElem hj']
      rfl
    rw [e]
    have hv : 0 ≤ l.getD j 0 := by
      rw [List.getD_eq_getElem?_getD, List.getElem?_eq_getElem hj']
      exact hn _ (List.getElem_mem hj')
    have := ((Close.refl (R := R) hv).div hs).rnd
    rw [show 0 + nx + 1 = nx + 1 by omega] at this
    exact this

/-- The computed score of an input differs from `w - n / N` by at most three roundings. -/
theorem score_err {w : K} {n N : ℕ} (hn : n ≤ N) (hN : 0 < N) (hw : 0 ≤ w) (hw1 : w ≤ 1) :
    |R.rnd (w - R.rnd ((n : K) / (N : K))) - (w - (n : K) / (N : K))| ≤ 3 * R.u := by
  have hN' : (0 : K) < N := by exact_mod_cast hN
  have hq0 : (0 : K) ≤ (n : K) / N := by positivity
  have hq1 : (n : K) / N ≤ 1 := by
    rw [div_le_one hN']; exact_mod_cast hn
  set q := (n : K) / (N : K)
  have h1 := R.rel q
  have h2 := R.rel (w - R.rnd q)
  have hr0 : 0 ≤ R.rnd q := R.nonneg hq0
  have hr1 : R.rnd q ≤ 1 := R.le_one hq1
  have hu := R.u_nonneg
  have h3 : |w - R.rnd q| ≤ 1 := by rw [abs_le]; constructor <;> linarith
  have h4 : |q| ≤ 1 := by rw [abs_of_nonneg hq0]; exact hq1
  have h5 : |R.rnd q - q| ≤ R.u := h1.trans (by nlinarith)
  have h6 : |R.rnd (w - R.rnd q) - (w - R.rnd q)| ≤ R.u := h2.trans (by nlinarith)
  have h5' := abs_le.1 h5
  have h6' := abs_le.1 h6
  rw [abs_le]
  constructor <;> linarith [h5'.1, h5'.2, h6'.1, h6'.2]

theorem scoresF_get (w : List K) (nums : List ℕ) (hl : w.length = nums.length) (j : ℕ) (hj : j < nums.length) :
    (scoresF R w nums)[j]? = some (R.rnd (w.getD j 0 - R.rnd ((nums.getD j 0 : ℕ) / ((nums.sum : ℕ) : K)))) := by
  rw [scoresF, List.getElem?_zipWith]
  have e1 : w[j]? = some (w.getD j 0) := by
    rw [List.getD_eq_getElem?_getD, List.getElem?_eq_getElem (by omega)]; rfl
  have e2 : nums[j]? = some (nums.getD j 0) := by
    rw [List.getD_eq_getElem?_getD, List.getElem?_eq_getElem (by omega)]; rfl
  rw [e1, e2]

theorem le_sum (nums : List ℕ) : ∀ j, nums.getD j 0 ≤ nums.sum := by
  induction nums with
  | nil => intro j; simp
  | cons a l ih =>
    intro j
    cases j with
    | zero => simp
    | succ j => have := ih j; simp only [List.getD_cons_succ, List.sum_cons]; omega

/-- **C108** Each round adds a level to an input whose shortfall `w - n / N` is the largest up to six roundings. -/
theorem C108_refined (w : List K) (nt fuel : ℕ) (nums : List ℕ) (hl : w.length = nums.length) (hw : ∀ j, 0 ≤ w.getD j 0 ∧ w.getD j 0 ≤ 1)
    (hne : nums ≠ []) (hpos : 0 < nums.sum) (hlt : nums.prod < nt) :
    ∃ i < nums.length, levelLoopF R w nt (fuel + 1) nums = levelLoopF R w nt fuel (nums.modify i (· + 1)) ∧
      ∀ j < nums.length, w.getD j 0 - (nums.getD j 0 : K) / (nums.sum : ℕ) ≤ w.getD i 0 - (nums.getD i 0 : K) / (nums.sum : ℕ) + 6 * R.u := by
  have hsc : (scoresF R w nums).length = nums.length := by simp [scoresF, hl]
  have hi : argmax (scoresF R w nums) < nums.length := by
    rw [← hsc]
    exact argmax_lt _ (by intro h; rw [h] at hsc; simp at hsc; exact hne (List.eq_nil_of_length_eq_zero hsc.symm))
  refine ⟨argmax (scoresF R w nums), hi, ?_, ?_⟩
  · rw [levelLoopF, if_pos hlt]
  · intro j hj
    obtain ⟨m, hm, hle, -⟩ := argmax_max _ j _ (scoresF_get R w nums hl j hj)
    rw [scoresF_get R w nums hl _ hi] at hm
    injection hm with hm
    rw [← hm] at hle
    have e1 := abs_le.1 (score_err R (le_sum nums j) hpos (hw j).1 (hw j).2)
    have e2 := abs_le.1 (score_err R (le_sum nums (argmax (scoresF R w nums))) hpos (hw (argmax (scoresF R w nums))).1 (hw (argmax (scoresF R w nums))).2)
    linarith [e1.1, e2.2]

theorem levelLoopF_inv (w : List K) (nt : ℕ) (P : List ℕ → Prop)
    (hs : ∀ nums, P nums → nums.prod < nt → P (nums.modify (argmax (scoresF R w nums)) (· + 1))) :
    ∀ (fuel : ℕ) (nums r : List ℕ), P nums → levelLoopF R w nt fuel nums = some r → P r := by
  intro fuel
  induction fuel with
  | zero =>
    intro nums r h0 h
    unfold levelLoopF at h
    split at h
    · cases h
    · injection h with h; exact h ▸ h0
  | succ fuel ih =>
    intro nums r h0 h
    unfold levelLoopF at h
    split at h
    · rename_i hc
      exact ih _ _ (hs nums h0 hc) h
    · injection h with h; exact h ▸ h0

theorem sum_le_prod : ∀ (nums : List ℕ), (∀ n ∈ nums, 0 < n) → nums.sum + 1 ≤ nums.prod + nums.length := by
  intro nums
  induction nums with
  | nil => intro _; simp
  | cons a l ih =>
    intro h
    have h1 := ih fun n hn => h n (List.mem_cons_of_mem _ hn)
    have h2 := h a (List.mem_cons_self ..)
    have h3 : 0 < l.prod := Index.prod_pos_of fun n hn => h n (List.mem_cons_of_mem _ hn)
    simp only [List.sum_cons, List.prod_cons, List.length_cons]
    nlinarith

/-- **C108** With the default weights the level counts differ by at most one, the earlier inputs having the extra level, in rounded arithmetic too,
as long as `6 (nt + nx) u < 1` (in double precision: up to `10^15` points). -/
theorem C108_rounded_balanced (nx nt fuel : ℕ) (hu : 6 * ((nt + nx : ℕ) : K) * R.u < 1) (nums : List ℕ)
    (h : levelLoopF R (normWeightsF R nx none) nt fuel (List.replicate nx 1) = some nums) :
    ∀ i < nx, ∀ j < nx, nums.getD i 0 ≤ nums.getD j 0 + 1 ∧ (i ≤ j → nums.getD j 0 ≤ nums.getD i 0) := by
  have inv : nums.length = nx ∧ (∀ n ∈ nums, 0 < n) ∧ ∀ i < nx, ∀ j < nx, nums.getD i 0 ≤ nums.getD j 0 + 1 ∧ (i ≤ j → nums.getD j 0 ≤ nums.getD i 0) := by
    refine levelLoopF_inv R (normWeightsF R nx none) nt (fun nums => nums.length = nx ∧ (∀ n ∈ nums, 0 < n) ∧
      ∀ i < nx, ∀ j < nx, nums.getD i 0 ≤ nums.getD j 0 + 1 ∧ (i ≤ j → nums.getD j 0 ≤ nums.getD i 0)) ?_ fuel _ nums ?_ h
    · rintro nums ⟨h1, h2, h3⟩ hlt
      set W := normWeightsF R nx none with hW
      have hl : W.length = nx := by simp [hW, normWeightsF]
      rcases Nat.eq_zero_or_pos nx with h0 | hnx
      · refine ⟨by simp [h1], pos_modify _ h2 _, fun i hi => by omega⟩
      have hlen : (scoresF R W nums).length = nx := by simp [scoresF, hl, h1]
      have hne : scoresF R W nums ≠ [] := by intro e; rw [e] at hlen; simp at hlen; omega
      set t := argmax (scoresF R W nums) with ht
      have hi : t < nums.length := by rw [h1, ← hlen]; exact argmax_lt _ hne
      have hlow : nums.length ≤ nums.sum := by
        clear * - h2
        induction nums with
        | nil => simp
        | cons a l ih =>
          have := ih fun n hn => h2 n (List.mem_cons_of_mem _ hn)
          have := h2 a (List.mem_cons_self ..)
          simp only [List.length_cons, List.sum_cons]; omega
      have hN0 : 0 < nums.sum := by omega
      have hN : (0 : K) < (nums.sum : ℕ) := by exact_mod_cast hN0
      have hsp := sum_le_prod nums h2
      have hNle : nums.sum ≤ nt + nx := by omega
      have hsmall : 6 * R.u < 1 / ((nums.sum : ℕ) : K) := by
        rw [lt_div_iff₀ hN]
        have h7 : ((nums.sum : ℕ) : K) ≤ ((nt + nx : ℕ) : K) := by exact_mod_cast hNle
        nlinarith [R.u_nonneg]
      have hWj : ∀ j < nx, W.getD j 0 = R.rnd (1 / (nx : K)) := by
        intro j hj
        rw [hW, normWeightsF, List.getD_eq_getElem?_getD, List.getElem?_replicate, if_pos hj]
        rfl
      have hnx1 : (1 : K) ≤ nx := by exact_mod_cast hnx
      have hw0 : 0 ≤ R.rnd (1 / (nx : K)) := R.nonneg (by positivity)
      have hw1 : R.rnd (1 / (nx : K)) ≤ 1 := R.le_one (by rw [div_le_one (by linarith)]; exact hnx1)
      have hmin : ∀ j < nx, nums.getD t 0 ≤ nums.getD j 0 ∧ (j < t → nums.getD t 0 < nums.getD j 0) := by
        intro j hj
        obtain ⟨m, hm, hle, hlt'⟩ := argmax_max _ j _ (scoresF_get R W nums (by rw [hl, h1]) j (by omega))
        rw [scoresF_get R W nums (by rw [hl, h1]) _ hi] at hm
        injection hm with hm
        rw [← hm, hWj j hj, hWj t (by omega)] at hle hlt'
        constructor
        · by_contra hc
          have hc : nums.getD j 0 + 1 ≤ nums.getD t 0 := by omega
          have e1 := abs_le.1 (score_err R (le_sum nums j) hN0 hw0 hw1)
          have e2 := abs_le.1 (score_err R (le_sum nums t) hN0 hw0 hw1)
          have h8 : (nums.getD j 0 : K) / (nums.sum : ℕ) + 1 / (nums.sum : ℕ) ≤ (nums.getD t 0 : K) / (nums.sum : ℕ) := by
            rw [← add_div, div_le_div_iff_of_pos_right hN]
            exact_mod_cast hc
          linarith [e1.1, e2.2]
        · intro hj'
          by_contra hc
          have h9 := hlt' hj'
          have h8 : (nums.getD j 0 : K) / (nums.sum : ℕ) ≤ (nums.getD t 0 : K) / (nums.sum : ℕ) := by
            rw [div_le_div_iff_of_pos_right hN]
            exact_mod_cast not_lt.1 hc
          have h10 := R.mono _ _ h8
          have h11 := R.mono _ _ (show R.rnd (1 / (nx : K)) - R.rnd ((nums.getD t 0 : K) / (nums.sum : ℕ)) ≤
            R.rnd (1 / (nx : K)) - R.rnd ((nums.getD j 0 : K) / (nums.sum : ℕ)) by linarith)
          linarith
      refine ⟨by simp [h1], pos_modify _ h2 _, ?_⟩
      intro i hi' j hj'
      rw [getD_modify _ _ _ hi, getD_modify _ _ _ hi]
      have a1 := h3 i hi' j hj'
      have a2 := hmin i hi'
      have a3 := hmin j hj'
      constructor
      · split_ifs with c1 c2 c2
        · omega
        · subst c1; omega
        · omega
        · exact a1.1
      · intro hij
        split_ifs with c1 c2 c2
        · omega
        · subst c1
          have := a2.2 (by omega)
          omega
        · have := a1.2 hij; omega
        · exact a1.2 hij
    · refine ⟨by simp, by simp, ?_⟩
      intro i hi j hj
      simp only [List.getD_eq_getElem?_getD, List.getElem?_replicate, if_pos hi, if_pos hj]
      simp
  exact inv.2.2

/-- The hypothesis for a million points in ten inputs in double precision, and a design of 10 points in three inputs. -/
example : 6 * ((10 ^ 6 + 10 : ℕ) : ℚ) * double.u < 1 := by decide +kernel
example : levelLoopF double (normWeightsF double 3 none) 10 10 [1, 1, 1] = some [3, 2, 2] := by decide +kernel
example : normWeightsF double 2 (some [3, 1]) = [3 / 4, 1 / 4] := by decide +kernel

end SMT.Fp
