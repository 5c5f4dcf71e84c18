import Verif.Sampling.Model
import Verif.Index.Props
import Mathlib.Tactic.FieldSimp
import Mathlib.Tactic.Positivity
import Mathlib.Algebra.Order.Field.Rat
import Mathlib.Tactic.NormNum

/-!
# Properties C10, C11, C12: scaled sampling and full-factorial designs
-/
namespace SMT.Sampling
set_option linter.unusedSectionVars false

variable {K : Type} [Field K] [LinearOrder K] [IsStrictOrderedRing K]

/-! ## C10 -/

theorem scaleFrom_length (lims : List (K × K)) : ∀ (s : List (List K)) (k : Nat),
    (scaleFrom s k lims).length = s.length := by
  induction lims with
  | nil => intro s k; rfl
  | cons l ls ih => intro s k; simp [scaleFrom, ih, scaleColumn]

/-- Effect of the column loop on one entry. -/
theorem scaleFrom_get (lims : List (K × K)) : ∀ (s : List (List K)) (k : Nat) (i j : Nat),
    ((scaleFrom s k lims)[i]?).bind (·[j]?) =
      match (s[i]?).bind (·[j]?) with
      | none => none
      | some v => some (if h : k ≤ j ∧ j - k < lims.length then
          lims[j - k].1 + v * (lims[j - k].2 - lims[j - k].1) else v) := by
  induction lims with
  | nil =>
    intro s k i j
    simp only [scaleFrom]
    cases (s[i]?).bind (·[j]?) <;> simp
  | cons l ls ih =>
    intro s k i j
    simp only [scaleFrom, ih]
    have hcol : ((scaleColumn s k l)[i]?).bind (·[j]?) =
        ((s[i]?).bind (·[j]?)).map (fun v => if k = j then l.1 + v * (l.2 - l.1) else v) := by
      simp only [scaleColumn, List.getElem?_map]
      cases s[i]? with
      | none => simp
      | some row => simp [List.getElem?_modify]
    rw [hcol]
    cases (s[i]?).bind (·[j]?) with
    | none => simp
    | some v =>
      simp only [Option.map_some]
      by_cases hkj : k = j
      · subst hkj; simp
      · simp only [hkj, if_false]
        by_cases h1 : k ≤ j ∧ j - k < (l :: ls).length
        · have h2 : k + 1 ≤ j ∧ j - (k + 1) < ls.length := by
            simp only [List.length_cons] at h1; omega
          rw [dif_pos h1, dif_pos h2]
          have h3 : j - k = (j - (k + 1)) + 1 := by omega
          simp [h3]
        · have h2 : ¬ (k + 1 ≤ j ∧ j - (k + 1) < ls.length) := by
            simp only [List.length_cons] at h1; omega
          rw [dif_neg h1, dif_neg h2]

/-- **C10** Scaling maps entry `(i, j)` affinely: 0 to the lower limit, 1 to the upper limit; the design
keeps its shape (an entry exists after iff it exists before). -/
theorem C10_scale_entry (s : List (List K)) (lims : List (K × K)) (i j : Nat) (hj : j < lims.length) :
    ((scaleToXlimits s lims)[i]?).bind (·[j]?) =
      ((s[i]?).bind (·[j]?)).map (fun v => (1 - v) * lims[j].1 + v * lims[j].2) := by
  unfold scaleToXlimits
  rw [scaleFrom_get]
  cases (s[i]?).bind (·[j]?) with
  | none => rfl
  | some v => simp [hj]; ring

/-- **C10** The number of samples is unchanged. -/
theorem C10_scale_length (s : List (List K)) (lims : List (K × K)) :
    (scaleToXlimits s lims).length = s.length := scaleFrom_length lims s 0

/-- **C10** Unit-cube samples are mapped inside the limits. -/
theorem C10_in_bounds (s : List (List K)) (lims : List (K × K)) (i j : Nat) (hj : j < lims.length)
    (hlim : lims[j].1 ≤ lims[j].2)
    (hunit : ∀ v, (s[i]?).bind (·[j]?) = some v → 0 ≤ v ∧ v ≤ 1) (w : K)
    (hw : ((scaleToXlimits s lims)[i]?).bind (·[j]?) = some w) : lims[j].1 ≤ w ∧ w ≤ lims[j].2 := by
  rw [C10_scale_entry s lims i j hj] at hw
  cases hv : (s[i]?).bind (·[j]?) with
  | none => simp [hv] at hw
  | some v =>
    obtain ⟨h0, h1⟩ := hunit v hv
    simp [hv] at hw
    subst hw
    constructor <;> nlinarith

/-- **C10** Scaling is strictly monotone in each column with `lower < upper`: distinct levels stay
distinct and keep their order. -/
theorem C10_monotone (s : List (List K)) (lims : List (K × K)) (i i' j : Nat) (hj : j < lims.length)
    (hlim : lims[j].1 < lims[j].2) (v v' w w' : K)
    (hv : (s[i]?).bind (·[j]?) = some v) (hv' : (s[i']?).bind (·[j]?) = some v')
    (hw : ((scaleToXlimits s lims)[i]?).bind (·[j]?) = some w)
    (hw' : ((scaleToXlimits s lims)[i']?).bind (·[j]?) = some w') : w < w' ↔ v < v' := by
  rw [C10_scale_entry s lims _ j hj] at hw hw'
  rw [hv] at hw; rw [hv'] at hw'
  simp at hw hw'
  subst hw; subst hw'
  have hd : 0 < lims[j].2 - lims[j].1 := by linarith
  constructor
  · intro h
    by_contra hc
    have : (v - v') * (lims[j].2 - lims[j].1) ≥ 0 := mul_nonneg (by linarith [not_lt.1 hc]) hd.le
    nlinarith
  · intro h
    have : (v' - v) * (lims[j].2 - lims[j].1) > 0 := mul_pos (by linarith) hd
    nlinarith

/-- **C10** Random sampling: `nt` rows of `nx` entries, all inside the limits, for every generator with
values in the unit interval. -/
theorem C10_random (rand : Nat → Nat → K) (hr : ∀ i j, 0 ≤ rand i j ∧ rand i j ≤ 1) (nt : Nat)
    (lims : List (K × K)) (hlim : ∀ l ∈ lims, l.1 ≤ l.2) :
    (scaleToXlimits (randomDesign rand nt lims.length) lims).length = nt ∧
    ∀ (i j : Nat) (w : K), ((scaleToXlimits (randomDesign rand nt lims.length) lims)[i]?).bind (fun r => r[j]?) = some w →
      ∃ h : j < lims.length, lims[j].1 ≤ w ∧ w ≤ lims[j].2 := by
  refine ⟨by rw [C10_scale_length]; simp [randomDesign], ?_⟩
  intro i j w hw
  have hget : ((randomDesign rand nt lims.length)[i]?).bind (·[j]?) =
      if i < nt ∧ j < lims.length then some (rand i j) else none := by
    simp only [randomDesign, List.getElem?_map, List.getElem?_range']
    by_cases hi : i < nt
    · by_cases hj : j < lims.length
      · simp [hi, hj]
      · simp [hi, hj, List.getElem?_eq_none]
    · simp [hi, List.getElem?_eq_none]
  have hj : j < lims.length := by
    by_contra hc
    unfold scaleToXlimits at hw
    rw [scaleFrom_get, hget] at hw
    simp [hc] at hw
  exact ⟨hj, C10_in_bounds _ _ i j hj (hlim _ (List.getElem_mem hj))
    (fun v hv => by rw [hget] at hv; split at hv <;> simp at hv; subst hv; exact hr i j) w hw⟩

example : scaleToXlimits [[(0 : ℚ), 1], [1, 1/2]] [(-1, 3), (10, 20)] = [[-1, 20], [3, 15]] := by
  norm_num [scaleToXlimits, scaleFrom, scaleColumn, List.modify, List.modifyTailIdx, List.modifyTailIdx.go,
    List.modifyHead]

/-! ## C11 -/

theorem argmaxGo_lt (as : List K) : ∀ (m : K) (b i : Nat), b < i → argmaxGo m b i as < i + as.length := by
  induction as with
  | nil => intro m b i h; simpa [argmaxGo] using h
  | cons a as ih =>
    intro m b i h
    simp only [argmaxGo, List.length_cons]
    split
    · have := ih a i (i + 1) (by omega); omega
    · have := ih m b (i + 1) (by omega); omega

theorem argmax_lt (l : List K) (h : l ≠ []) : argmax l < l.length := by
  cases l with
  | nil => exact absurd rfl h
  | cons a as => have := argmaxGo_lt as a 0 1 (by omega); simp [argmax]; omega

theorem prod_modify_lt (nums : List Nat) (hpos : ∀ n ∈ nums, 0 < n) (i : Nat) (hi : i < nums.length) :
    nums.prod < (nums.modify i (· + 1)).prod := by
  induction nums generalizing i with
  | nil => simp at hi
  | cons n ns ih =>
    have hp : 0 < ns.prod := Index.prod_pos_of (fun m hm => hpos m (by simp [hm]))
    cases i with
    | zero => simp [List.modify_zero_cons]; nlinarith
    | succ i =>
      simp only [List.modify_succ_cons, List.prod_cons]
      have h1 := ih (fun m hm => hpos m (by simp [hm])) i (by simpa using hi)
      have hn := hpos n (by simp)
      exact Nat.mul_lt_mul_of_pos_left h1 hn

theorem pos_modify (nums : List Nat) (hpos : ∀ n ∈ nums, 0 < n) (i : Nat) :
    ∀ n ∈ nums.modify i (· + 1), 0 < n := by
  induction nums generalizing i with
  | nil => simp
  | cons n ns ih =>
    cases i with
    | zero =>
      intro m hm; simp [List.modify_zero_cons] at hm
      rcases hm with rfl | hm
      · omega
      · exact hpos m (by simp [hm])
    | succ i =>
      intro m hm; simp [List.modify_succ_cons] at hm
      rcases hm with rfl | hm
      · exact hpos m (by simp)
      · exact ih (fun m hm => hpos m (by simp [hm])) i m hm

theorem levelLoop_some (w : List K) (nt : Nat) : ∀ (fuel : Nat) (nums : List Nat), nums ≠ [] →
    w.length = nums.length → (∀ n ∈ nums, 0 < n) → nt ≤ nums.prod + fuel →
    ∃ r, levelLoop w nt fuel nums = some r ∧ nt ≤ r.prod ∧ r.length = nums.length ∧ (∀ n ∈ r, 0 < n) := by
  intro fuel
  induction fuel with
  | zero =>
    intro nums hne hlen hpos hle
    have : ¬ nums.prod < nt := by omega
    exact ⟨nums, by simp [levelLoop, this], by omega, rfl, hpos⟩
  | succ fuel ih =>
    intro nums hne hlen hpos hle
    by_cases hlt : nums.prod < nt
    · have hsc : (scores w nums).length = nums.length := by simp [scores, hlen]
      have hidx : argmax (scores w nums) < nums.length := by
        rw [← hsc]; exact argmax_lt _ (by intro h; rw [h] at hsc; simp at hsc; exact hne (List.eq_nil_of_length_eq_zero hsc.symm))
      have h1 := prod_modify_lt nums hpos _ hidx
      obtain ⟨r, hr, h2, h3, h4⟩ := ih (levelStep w nums)
        (by intro h; have := congrArg List.length h; simp [levelStep] at this; exact hne this)
        (by simp [levelStep, hlen]) (pos_modify nums hpos _)
        (by unfold levelStep; omega)
      refine ⟨r, ?_, h2, by rw [h3]; simp [levelStep], h4⟩
      unfold levelLoop; rw [if_pos hlt]; exact hr
    · exact ⟨nums, by unfold levelLoop; rw [if_neg hlt], by omega, rfl, hpos⟩

theorem levelLoop_mono (w : List K) (nt : Nat) : ∀ (fuel : Nat) (nums r : List Nat),
    levelLoop w nt fuel nums = some r → ∀ fuel', fuel ≤ fuel' → levelLoop w nt fuel' nums = some r := by
  intro fuel
  induction fuel with
  | zero =>
    intro nums r h fuel' _
    unfold levelLoop at h ⊢
    split at h
    · simp at h
    · rename_i hc; rw [if_neg hc]; exact h
  | succ fuel ih =>
    intro nums r h fuel' hf
    unfold levelLoop at h ⊢
    split at h
    · rename_i hc
      rw [if_pos hc]
      cases fuel' with
      | zero => omega
      | succ f' => exact ih _ _ h f' (by omega)
    · rename_i hc; rw [if_neg hc]; exact h

/-- **C11** The level loop terminates within `nt` rounds for every number of dimensions ≥ 1, every
weight vector of that length and every request; the resulting grid has at least `nt` points and at least
one level per dimension, and running longer changes nothing. -/
theorem C11_level_loop_terminates (nx nt : Nat) (hnx : 0 < nx) (w : List K) (hw : w.length = nx) :
    ∃ nums : List Nat, nums.length = nx ∧ (∀ n ∈ nums, 1 ≤ n) ∧ nt ≤ nums.prod ∧
      ∀ fuel, nt ≤ fuel → levelLoop w nt fuel (List.replicate nx 1) = some nums := by
  obtain ⟨r, h1, h2, h3, h4⟩ := levelLoop_some w nt nt (List.replicate nx 1)
    (by intro h; have := congrArg List.length h; simp at this; omega) (by simp [hw])
    (by intro n hn; simp at hn; omega) (by omega)
  exact ⟨r, by simpa using h3, h4, h2, fun fuel hf => levelLoop_mono w nt nt _ r h1 fuel hf⟩

/-- **C11** The call returns exactly `nt` points (the whole grid, at least `nt` points, with `clip`). -/
theorem C11_number_of_points (nx nt : Nat) (hnx : 0 < nx) (w : Option (List K))
    (hw : ∀ l, w = some l → l.length = nx) (clip : Bool) (fuel : Nat) (hf : nt ≤ fuel) :
    ∃ rows, fullFactorial fuel nx w clip nt = .ok rows ∧
      (clip = false → rows.length = nt) ∧ nt ≤ rows.length ∧ ∀ r ∈ rows, r.length = nx := by
  have hlen : (normWeights nx w).length = nx := by
    cases w with
    | none => simp [normWeights]
    | some l => simp [normWeights, hw l rfl]
  obtain ⟨nums, h1, h2, h3, h4⟩ := C11_level_loop_terminates nx nt hnx (normWeights nx w) hlen
  have hne : ¬ (nx = 0 ∧ 1 < nt) := by omega
  refine ⟨_, by unfold fullFactorial; rw [if_neg hne, h4 fuel hf], ?_, ?_, ?_⟩
  · intro hc; simp [hc]
  · cases clip <;> simp [h3]
  · intro r hr
    simp at hr
    obtain ⟨t, _, rfl⟩ := hr
    simp [gridRow, Index.expand_length, h1]

/-! ## C12 -/

theorem level_inj (k l l' : Nat) (hl : l < k) (hl' : l' < k) (h : (level k l : K) = level k l') : l = l' := by
  unfold level at h
  split at h
  · omega
  · rename_i hk
    have hne : ((k - 1 : Nat) : K) ≠ 0 := by
      have : (k - 1 : Nat) ≠ 0 := by omega
      exact_mod_cast this
    rw [div_left_inj' hne] at h
    exact_mod_cast h

theorem level_bounds (k l : Nat) (hl : l < k) : (0 : K) ≤ level k l ∧ (level k l : K) ≤ 1 := by
  unfold level
  split
  · exact ⟨le_refl _, zero_le_one⟩
  · rename_i hk
    have hpos : (0 : K) < ((k - 1 : Nat) : K) := by
      have : 0 < k - 1 := by omega
      exact_mod_cast this
    refine ⟨div_nonneg (Nat.cast_nonneg _) hpos.le, ?_⟩
    rw [div_le_one hpos]
    have : l ≤ k - 1 := by omega
    exact_mod_cast this

theorem gridRow_inj (nums : List Nat) (hpos : ∀ n ∈ nums, 0 < n) (t t' : Nat) (ht : t < nums.prod)
    (ht' : t' < nums.prod) (h : (gridRow nums t : List K) = gridRow nums t') : t = t' := by
  have h1 := Index.C22_expand_in_shape nums hpos t ht
  have h2 := Index.C22_expand_in_shape nums hpos t' ht'
  have key : ∀ (ns is js : List Nat), Index.InShape ns is → Index.InShape ns js →
      List.zipWith (fun k l => (level k l : K)) ns is = List.zipWith (fun k l => (level k l : K)) ns js →
      is = js := by
    intro ns is js hi
    induction hi generalizing js with
    | nil => intro hj _; cases hj; rfl
    | cons hlt hrest ih =>
      intro hj heq
      cases hj with
      | cons hlt' hrest' =>
        simp at heq
        rw [level_inj _ _ _ hlt hlt' heq.1, ih _ hrest' heq.2]
  have h3 := key nums _ _ h1 h2 h
  rw [← Index.C22_contract_expand nums hpos t ht, h3, Index.C22_contract_expand nums hpos t' ht']

/-- **C12** Every full-factorial design: there are level counts `k₁..k_nx ≥ 1` with product ≥ nt such
that the returned rows are pairwise distinct and each is a vector of levels `l_j/(k_j-1)`, `0 ≤ l_j < k_j`
(the single level is 0), hence in the unit cube; with `clip` every combination of levels appears. -/
theorem C12_distinct_grid_points (nx nt : Nat) (hnx : 0 < nx) (w : Option (List K))
    (hw : ∀ l, w = some l → l.length = nx) (clip : Bool) (fuel : Nat) (hf : nt ≤ fuel)
    (rows : List (List K)) (hrows : fullFactorial fuel nx w clip nt = .ok rows) :
    ∃ nums : List Nat, nums.length = nx ∧ (∀ n ∈ nums, 1 ≤ n) ∧ nt ≤ nums.prod ∧
      rows.Nodup ∧
      (∀ r ∈ rows, ∃ ls, Index.InShape nums ls ∧
        r = List.zipWith (fun (k l : Nat) => if k = 1 then (0 : K) else (l : K) / ((k : K) - 1)) nums ls) ∧
      (∀ r ∈ rows, ∀ v ∈ r, 0 ≤ v ∧ v ≤ 1) ∧
      (clip = true → rows.length = nums.prod ∧ ∀ ls, Index.InShape nums ls →
        List.zipWith (fun (k l : Nat) => if k = 1 then (0 : K) else (l : K) / ((k : K) - 1)) nums ls ∈ rows) := by
  have hlen : (normWeights nx w).length = nx := by
    cases w with
    | none => simp [normWeights]
    | some l => simp [normWeights, hw l rfl]
  obtain ⟨nums, h1, h2, h3, h4⟩ := C11_level_loop_terminates nx nt hnx (normWeights nx w) hlen
  have hne : ¬ (nx = 0 ∧ 1 < nt) := by omega
  unfold fullFactorial at hrows
  rw [if_neg hne, h4 fuel hf] at hrows
  simp only [Except.ok.injEq] at hrows
  have hle : (if clip then nums.prod else nt) ≤ nums.prod := by split <;> omega
  have hlevel : ∀ ns ls, Index.InShape ns ls → List.zipWith (fun k l => (level k l : K)) ns ls =
      List.zipWith (fun (k l : Nat) => if k = 1 then (0 : K) else (l : K) / ((k : K) - 1)) ns ls := by
    intro ns ls h
    induction h with
    | nil => rfl
    | @cons n l ns ls hlt hrest ih =>
      simp only [List.zipWith_cons_cons, ih]
      congr 1
      unfold level
      by_cases hn : n = 1
      · simp [hn]
      · have : ¬ n ≤ 1 := by omega
        rw [if_neg this, if_neg hn, Nat.cast_sub (by omega)]; simp
  refine ⟨nums, h1, h2, h3, ?_, ?_, ?_, ?_⟩
  · rw [← hrows]
    refine (List.nodup_map_iff_inj_on List.nodup_range).2 ?_
    intro t ht t' ht' heq
    simp at ht ht'
    exact gridRow_inj nums h2 t t' (by omega) (by omega) heq
  · intro r hr
    rw [← hrows] at hr
    simp at hr
    obtain ⟨t, ht, rfl⟩ := hr
    have hs := Index.C22_expand_in_shape nums h2 t (by omega)
    exact ⟨_, hs, hlevel _ _ hs⟩
  · intro r hr v hv
    rw [← hrows] at hr
    simp at hr
    obtain ⟨t, ht, rfl⟩ := hr
    have hs := Index.C22_expand_in_shape nums h2 t (by omega)
    have key : ∀ ns ls, Index.InShape ns ls → ∀ v ∈ List.zipWith (fun k l => (level k l : K)) ns ls,
        0 ≤ v ∧ v ≤ 1 := by
      intro ns ls h
      induction h with
      | nil => intro v hv; simp at hv
      | cons hlt hrest ih =>
        intro v hv
        simp at hv
        rcases hv with rfl | hv
        · exact level_bounds _ _ hlt
        · exact ih v (by simpa using hv)
    exact key _ _ hs v hv
  · intro hc
    rw [← hrows, hc]
    refine ⟨by simp, ?_⟩
    intro ls hls
    simp only [if_true, List.mem_map, List.mem_range]
    obtain ⟨ha, hb⟩ := Index.C22_expand_contract nums ls hls
    exact ⟨Index.contract nums ls, ha, by unfold gridRow; rw [hb]; exact hlevel _ _ hls⟩

/-- Non-vacuity: 5 points requested in 2 dimensions with weights 2:1. -/
example : fullFactorial 5 2 (some [(2 : ℚ), 1]) false 5 =
    .ok [[0, 0], [0, 1], [1/2, 0], [1/2, 1], [1, 0]] := by
  decide +kernel

end SMT.Sampling
