import Verif.Fp.SamplingProps
import Verif.Fp.Rel

/-!
# C101: full-factorial designs, the bounds check, cells of RMTC
-/
set_option linter.unusedSectionVars false
set_option linter.unusedSimpArgs false
set_option linter.unusedVariables false

namespace SMT.Fp

open SMT.Sampling (argmax argmax_lt prod_modify_lt pos_modify)

variable {K : Type} [Field K] [LinearOrder K] [IsStrictOrderedRing K] (R : Rounding K)

/-! ## Designs -/

theorem levelLoopF_some (w : List K) (nt : ℕ) : ∀ (fuel : ℕ) (nums : List ℕ), nums ≠ [] → w.length = nums.length → (∀ n ∈ nums, 0 < n) → nt ≤ nums.prod + fuel →
    ∃ r, levelLoopF R w nt fuel nums = some r ∧ nt ≤ r.prod ∧ r.length = nums.length ∧ (∀ n ∈ r, 0 < n) := by
  intro fuel
  induction fuel with
  | zero =>
    intro nums hne hlen hpos hle
    have : ¬ nums.prod < nt := by omega
    exact ⟨nums, by simp [levelLoopF, this], by omega, rfl, hpos⟩
  | succ fuel ih =>
    intro nums hne hlen hpos hle
    by_cases hlt : nums.prod < nt
    · have hsc : (scoresF R w nums).length = nums.length := by simp [scoresF, hlen]
      have hidx : argmax (scoresF R w nums) < nums.length := by
        rw [← hsc]; exact argmax_lt _ (by intro h; rw [h] at hsc; simp at hsc; exact hne (List.eq_nil_of_length_eq_zero hsc.symm))
      have h1 := prod_modify_lt nums hpos _ hidx
      obtain ⟨r, hr, h2, h3, h4⟩ := ih (nums.modify (argmax (scoresF R w nums)) (· + 1))
        (by intro h; have := congrArg List.length h; simp at this; exact hne this)
        (by simp [hlen]) (pos_modify nums hpos _) (by omega)
      refine ⟨r, ?_, h2, by rw [h3]; simp, h4⟩
      unfold levelLoopF; rw [if_pos hlt]; exact hr
    · exact ⟨nums, by unfold levelLoopF; rw [if_neg hlt], by omega, rfl, hpos⟩

/-- Whatever the rounding, `FullFactorial(...)(nt)` ends and returns `nt` points (with `clip`: the whole grid): there are
numbers of levels, and the points are the first of the grid of these levels in row-major order. -/
theorem C101_design (limits : List (K × K)) (hne : limits ≠ []) (weights : Option (List K)) (hw : ∀ w, weights = some w → w.length = limits.length) (clip : Bool) (nt : ℕ) :
    ∃ nums : List ℕ, nums.length = limits.length ∧ (∀ n ∈ nums, 1 ≤ n) ∧ nt ≤ nums.prod ∧
      fullFactorialF R nt limits weights clip nt = some ((List.range (if clip then nums.prod else nt)).map (gridRowF R limits nums)) := by
  have hl : 0 < limits.length := List.length_pos_of_ne_nil hne
  have hlen : (normWeightsF R limits.length weights).length = limits.length := by
    cases weights with
    | none => simp [normWeightsF]
    | some w => simp [normWeightsF, hw w rfl]
  obtain ⟨r, h1, h2, h3, h4⟩ := levelLoopF_some R (normWeightsF R limits.length weights) nt nt (List.replicate limits.length 1)
    (by intro h; have := congrArg List.length h; simp at this; exact hne this) (by simp [hlen]) (by intro n hn; simp at hn; omega) (by omega)
  refine ⟨r, by simpa using h3, h4, h2, ?_⟩
  unfold fullFactorialF
  rw [h1]

/-- A row of the grid, as a list of levels. -/
theorem gridRowF_get (limits : List (K × K)) (nums : List ℕ) (t : ℕ) (j : ℕ) (hj : j < limits.length) (hj' : j < nums.length) (he : j < (Index.expand nums t).length) :
    (gridRowF R limits nums t)[j]? = some (scaleF R limits[j] (levelF R nums[j] (Index.expand nums t)[j])) := by
  simp [gridRowF, scaleRowF, List.getElem?_zipWith, hj, hj', he]

theorem expand_lt (nums : List ℕ) (hpos : ∀ n ∈ nums, 0 < n) (t : ℕ) (ht : t < nums.prod) (j : ℕ) (hj : j < nums.length) (he : j < (Index.expand nums t).length) :
    (Index.expand nums t)[j] < nums[j] := by
  have h := Index.C22_expand_in_shape nums hpos t ht
  have key : ∀ (ns is : List ℕ), Index.InShape ns is → ∀ j (h1 : j < ns.length) (h2 : j < is.length), is[j] < ns[j] := by
    intro ns is h
    induction h with
    | nil => intro j h1; simp at h1
    | cons hlt _ ih =>
      intro j h1 h2
      cases j with
      | zero => simpa using hlt
      | succ j => simpa using ih j (by simpa using h1) (by simpa using h2)
  exact key _ _ h j hj he

/-- The check of RMTS as a statement about all points and inputs. -/
theorem C101_check_iff (limits : List (K × K)) (xt : List (List K)) : boundsCheck limits xt = true ↔
    ∀ row ∈ xt, ∀ (j : ℕ) (lim : K × K) (x : K), limits[j]? = some lim → row[j]? = some x → lim.1 ≤ x ∧ x ≤ lim.2 := by
  unfold boundsCheck
  rw [List.all_eq_true]
  refine forall₂_congr fun row _ => ?_
  rw [List.all_eq_true]
  constructor
  · intro h j lim x h1 h2
    have := h (decide (lim.1 ≤ x) && decide (x ≤ lim.2)) (by
      apply List.mem_of_getElem? (i := j)
      rw [List.getElem?_zipWith, h1, h2])
    simpa using this
  · intro h b hb
    obtain ⟨j, hj⟩ := List.getElem?_of_mem hb
    rw [List.getElem?_zipWith] at hj
    cases h1 : limits[j]? with
    | none => rw [h1] at hj; simp at hj
    | some lim =>
      cases h2 : row[j]? with
      | none => rw [h1, h2] at hj; simp at hj
      | some x =>
        rw [h1, h2] at hj
        simp only [Option.some.injEq] at hj
        obtain ⟨a, b'⟩ := h j lim x h1 h2
        rw [← hj]
        simp [a, b']

/-- **The design is accepted as training inputs by RMTB and RMTC with the same limits exactly if, for every input with at least
two levels, the upper end `lower + (upper - lower)` computed with rounding is not above the upper limit.** (Whole grid; the
first `nt` points pass if the whole grid does.) -/
theorem C101_grid_accepted_iff (limits : List (K × K)) (hr : ∀ lim ∈ limits, R.Rep lim.1 ∧ lim.1 ≤ lim.2) (nums : List ℕ) (hn : nums.length = limits.length)
    (hpos : ∀ n ∈ nums, 1 ≤ n) (hsmall : ∀ n ∈ nums, (n : K) * R.u ≤ 1) :
    boundsCheck limits ((List.range nums.prod).map (gridRowF R limits nums)) = true ↔
      ∀ (j : ℕ) (lim : K × K) (k : ℕ), limits[j]? = some lim → nums[j]? = some k → 2 ≤ k → R.rnd (lim.1 + R.rnd (lim.2 - lim.1)) ≤ lim.2 := by
  have e1 : ∀ lim : K × K, scaleF R lim 1 = R.rnd (lim.1 + R.rnd (lim.2 - lim.1)) := fun lim => by rw [scaleF, one_mul, R.idem]
  rw [C101_check_iff]
  constructor
  · intro h j lim k hj hk h2
    obtain ⟨hjl, rfl⟩ := List.getElem?_eq_some_iff.1 hj
    obtain ⟨hjn, rfl⟩ := List.getElem?_eq_some_iff.1 hk
    -- the last row of the grid has the last level of every input
    have hprod : 0 < nums.prod := Index.prod_pos_of fun n hn => hpos n hn
    have hex : ∃ ls, Index.InShape nums ls ∧ ∃ hl : j < ls.length, ls[j] = nums[j] - 1 := by
      have key : ∀ (ns : List ℕ), (∀ n ∈ ns, 1 ≤ n) → Index.InShape ns (ns.map (· - 1)) := by
        intro ns
        induction ns with
        | nil => intro _; exact .nil
        | cons n ns ih =>
          intro hp
          refine .cons ?_ (ih fun m hm => hp m (by simp [hm]))
          have := hp n (by simp)
          show n - 1 < n
          omega
      exact ⟨nums.map (· - 1), key nums hpos, by simpa using hjn, by simp⟩
    obtain ⟨ls, hsh, hl, hlast⟩ := hex
    have hlt := Index.contract_lt hsh
    have hexp := (Index.C22_expand_contract nums ls hsh).2
    have hrow := h _ (List.mem_map.2 ⟨Index.contract nums ls, List.mem_range.2 hlt, rfl⟩) j _ _ hj (gridRowF_get R limits nums _ j hjl hjn (by rw [hexp]; exact hl))
    have hlv : (Index.expand nums (Index.contract nums ls))[j]'(by rw [hexp]; exact hl) = nums[j] - 1 := by
      rw [← hlast]
      congr 1
    rw [hlv, levelF_last R h2, e1] at hrow
    exact hrow.2
  · intro h row hrow j lim x hj hx
    obtain ⟨t, ht, rfl⟩ := List.mem_map.1 hrow
    rw [List.mem_range] at ht
    obtain ⟨hjl, rfl⟩ := List.getElem?_eq_some_iff.1 hj
    have hjn : j < nums.length := by omega
    have he : j < (Index.expand nums t).length := by rw [Index.expand_length]; exact hjn
    rw [gridRowF_get R limits nums t j hjl hjn he] at hx
    simp only [Option.some.injEq] at hx
    subst hx
    obtain ⟨h1, h2⟩ := hr limits[j] (List.getElem_mem hjl)
    have hlt := expand_lt nums (fun n hn => hpos n hn) t ht j hjn he
    obtain ⟨a1, a2, a3, a4, a5⟩ := C101_levels R (hsmall nums[j] (List.getElem_mem hjn)) (le_refl _) hlt
    refine ⟨C101_not_below R h1 h2 a3, ?_⟩
    by_cases hk : 2 ≤ nums[j]
    · refine (C101_monotone R h2 a5).trans ?_
      rw [e1]
      exact h j _ _ hj (List.getElem?_eq_getElem hjn) hk
    · have h0 : (Index.expand nums t)[j] = 0 := by
        have := hpos nums[j] (List.getElem_mem hjn)
        omega
      rw [h0, a1, C101_lower_end R h1]
      exact h2

/-! ## Double precision -/

/-- The double values of `-0.3` and `0.1`. -/
def limA : ℚ × ℚ := (double.rnd (-3 / 10), double.rnd (1 / 10))

/-- **In double precision a full-factorial design of `[-0.3, 0.1]` is outside its limits**: its largest level is above `0.1`, so
that RMTB and RMTC with `xlimits = [[-0.3, 0.1]]` refuse it as training inputs, whatever the number of levels from `2`. -/
theorem C101_overshoot : limA.2 < scaleF double limA 1 ∧
    ∀ k : ℕ, 2 ≤ k → (k : ℚ) * double.u ≤ 1 → boundsCheck [limA] ((List.range k).map (gridRowF double [limA] [k])) = false := by
  have h : limA.2 < scaleF double limA 1 := by decide +kernel
  refine ⟨h, fun k hk hu => ?_⟩
  have hr : ∀ lim ∈ [limA], double.Rep lim.1 ∧ lim.1 ≤ lim.2 := by
    intro lim hl
    rw [List.mem_singleton.1 hl]
    exact ⟨double.rep_rnd _, by decide +kernel⟩
  have key := C101_grid_accepted_iff double [limA] hr [k] rfl (by simp; omega) (by simpa using hu)
  rw [Bool.eq_false_iff]
  intro hc
  rw [List.prod_singleton] at key
  have := key.1 hc 0 limA k rfl rfl hk
  rw [scaleF, one_mul, double.idem] at h
  linarith

theorem levelLoopF_single (w : K) (nt : ℕ) : ∀ (fuel m : ℕ), 1 ≤ m → m ≤ nt → nt ≤ m + fuel → levelLoopF R [w] nt fuel [m] = some [nt] := by
  intro fuel
  induction fuel with
  | zero =>
    intro m h1 h2 h3
    have : m = nt := by omega
    subst this
    simp [levelLoopF]
  | succ fuel ih =>
    intro m h1 h2 h3
    unfold levelLoopF
    by_cases hlt : m < nt
    · rw [if_pos (by simpa using hlt)]
      have : [m].modify (argmax (scoresF R [w] [m])) (· + 1) = [m + 1] := by simp [scoresF, argmax, Sampling.argmaxGo, List.modify_zero_cons]
      simp only [this]
      exact ih (m + 1) (by omega) (by omega) (by omega)
    · have : m = nt := by omega
      subst this
      simp

/-- With one input a design of `nt` points has `nt` levels. -/
theorem C101_single_input (lim : K × K) (nt : ℕ) (h : 1 ≤ nt) (clip : Bool) :
    fullFactorialF R nt [lim] none clip nt = some ((List.range nt).map (gridRowF R [lim] [nt])) := by
  unfold fullFactorialF
  have e : levelLoopF R (normWeightsF R [lim].length none) nt nt (List.replicate [lim].length 1) = some [nt] :=
    levelLoopF_single R _ nt nt 1 le_rfl h (by omega)
  rw [e]
  cases clip <;> simp

/-- From the call to the exception: `FullFactorial(xlimits=[[-0.3, 0.1]])(nt)` in double precision, then RMTS training with the same limits
(any number of points from `2` to `2⁵³`). -/
theorem C101_full_factorial_refused (nt : ℕ) (h : 2 ≤ nt) (hs : nt ≤ 2 ^ 53) (clip : Bool) :
    ∃ xt, fullFactorialF double nt [limA] none clip nt = some xt ∧ boundsCheck [limA] xt = false := by
  refine ⟨_, C101_single_input double limA nt (by omega) clip, C101_overshoot.2 nt h ?_⟩
  show (nt : ℚ) * (2 : ℚ) ^ (-((53 : ℕ) : ℤ)) ≤ 1
  rw [zpow_neg, zpow_natCast, ← div_eq_mul_inv, div_le_one (by positivity)]
  exact_mod_cast hs

/-- The upper limit `-3.9` of `[-10, -3.9]` is not sampled: the largest level is below it. -/
theorem C101_undershoot : scaleF double (double.rnd (-10), double.rnd (-39 / 10)) 1 < double.rnd (-39 / 10) := by decide +kernel

/-- Three levels on `[1, 1 + 2⁻⁵²]` (two consecutive doubles): two of the three points coincide. -/
theorem C101_collapse : gridRowF double [(1, 1 + 1 / 4503599627370496)] [3] 0 = gridRowF double [(1, 1 + 1 / 4503599627370496)] [3] 1 ∧
    double.Rep (1 + 1 / 4503599627370496) := ⟨by decide +kernel, by unfold Rounding.Rep; decide +kernel⟩

/-! ## Distinct points -/

/-- Two levels of an interval that is wide compared with the roundings of its ends. -/
theorem C101_levels_apart {lim : K × K} (h : lim.1 ≤ lim.2) (hu : R.u ≤ 1 / 2) {k : ℕ} (hk : 2 ≤ k) (hwide : 32 * R.u * max |lim.1| |lim.2| * ((k - 1 : ℕ) : K) < lim.2 - lim.1)
    {l l' : ℕ} (hl : l < l') (hl' : l' < k) : scaleF R lim (levelF R k l) < scaleF R lim (levelF R k l') := by
  have hN : (1 : K) ≤ ((k - 1 : ℕ) : K) := by exact_mod_cast (by omega : 1 ≤ k - 1)
  set N := ((k - 1 : ℕ) : K) with hNd
  set M := max |lim.1| |lim.2| with hM
  set D := lim.2 - lim.1 with hD
  have hu0 := R.u_nonneg
  have hM0 : 0 ≤ M := le_max_of_le_left (abs_nonneg _)
  have hDM : D ≤ 2 * M := by
    have a := le_max_left |lim.1| |lim.2|
    have b := le_max_right |lim.1| |lim.2|
    have c := neg_abs_le lim.1
    have d := le_abs_self lim.2
    rw [hD]
    linarith
  have hD0 : 0 < D := lt_of_le_of_lt (by positivity) hwide
  have hMpos : 0 < M := by linarith
  have hku : (k : K) * R.u ≤ 1 := by
    have hkN : (k : K) = N + 1 := by
      rw [hNd, ← Nat.cast_succ]
      congr 1
      omega
    have : 16 * R.u * N < 1 := by
      by_contra hc
      have hc := not_lt.1 hc
      have : 2 * M * 1 ≤ 2 * M * (16 * R.u * N) := mul_le_mul_of_nonneg_left hc (by linarith)
      nlinarith
    rw [hkN]
    nlinarith
  obtain ⟨-, -, a3, a4, a5⟩ := C101_levels R hku hl.le hl'
  have e1 := abs_le.1 (C101_error R h a3 (a4.trans a5))
  have e2 := abs_le.1 (C101_error R h (a3.trans a4) a5)
  have f1 := abs_le.1 (C101_level_error R hk (hl.trans hl'))
  have f2 := abs_le.1 (C101_level_error R hk hl')
  rw [← hNd] at f1 f2
  rw [← hM, ← hD] at e1 e2
  have hgap : 1 / N ≤ (l' : K) / N - (l : K) / N := by
    rw [← sub_div, div_le_div_iff_of_pos_right (by linarith)]
    have : (l : K) + 1 ≤ (l' : K) := by exact_mod_cast hl
    linarith
  have hstep : 32 * R.u * M < D * (1 / N) := by
    rw [mul_one_div, lt_div_iff₀ (by linarith)]
    exact hwide
  set a := levelF R k l
  set b := levelF R k l'
  have hab : 1 / N - 2 * (2 * R.u + R.u ^ 2) ≤ b - a := by linarith
  have hab' := mul_le_mul_of_nonneg_right hab hD0.le
  have g1 : (2 * R.u + R.u ^ 2) * D ≤ (2 * R.u + R.u ^ 2) * (2 * M) := mul_le_mul_of_nonneg_left hDM (by positivity)
  have g2 : (1 + R.u) * (2 * R.u + R.u ^ 2) * D ≤ (1 + R.u) * (2 * R.u + R.u ^ 2) * (2 * M) := mul_le_mul_of_nonneg_left hDM (by positivity)
  have g5 : 0 ≤ R.u * M := mul_nonneg hu0 hM0
  have g3 : R.u ^ 2 * M ≤ R.u * M * (1 / 2) := by
    calc R.u ^ 2 * M = R.u * M * R.u := by ring
      _ ≤ R.u * M * (1 / 2) := mul_le_mul_of_nonneg_left hu g5
  have g4 : R.u ^ 3 * M ≤ R.u * M * (1 / 4) := by
    have h4 : R.u * R.u ≤ 1 / 4 := by nlinarith
    calc R.u ^ 3 * M = R.u * M * (R.u * R.u) := by ring
      _ ≤ R.u * M * (1 / 4) := mul_le_mul_of_nonneg_left h4 g5
  have q1 : (2 * R.u + R.u ^ 2) * D ≤ 4 * (R.u * M) + 2 * (R.u ^ 2 * M) := g1.trans (le_of_eq (by ring))
  have q2 : (1 + R.u) * (2 * R.u + R.u ^ 2) * D ≤ 4 * (R.u * M) + 6 * (R.u ^ 2 * M) + 2 * (R.u ^ 3 * M) := g2.trans (le_of_eq (by ring))
  have q3 : D * (1 / N) - 2 * ((2 * R.u + R.u ^ 2) * D) ≤ b * D - a * D := by
    calc D * (1 / N) - 2 * ((2 * R.u + R.u ^ 2) * D) = (1 / N - 2 * (2 * R.u + R.u ^ 2)) * D := by ring
      _ ≤ (b - a) * D := hab'
      _ = b * D - a * D := by ring
  have q4 : 32 * (R.u * M) < D * (1 / N) := by
    rw [← mul_assoc]
    exact hstep
  linarith [e1.2, e2.1]

/-- The points of a full-factorial design are distinct after scaling, if every interval with several levels is wide
compared with the roundings. -/
theorem C101_distinct (limits : List (K × K)) (hu : R.u ≤ 1 / 2) (nums : List ℕ) (hn : nums.length = limits.length) (hpos : ∀ n ∈ nums, 1 ≤ n)
    (hwide : ∀ (j : ℕ) (lim : K × K) (k : ℕ), limits[j]? = some lim → nums[j]? = some k → 2 ≤ k → lim.1 ≤ lim.2 ∧ 32 * R.u * max |lim.1| |lim.2| * ((k - 1 : ℕ) : K) < lim.2 - lim.1) :
    ((List.range nums.prod).map (gridRowF R limits nums)).Nodup := by
  refine List.Nodup.map_on ?_ List.nodup_range
  intro t ht t' ht' heq
  rw [List.mem_range] at ht ht'
  have hp : ∀ n ∈ nums, 0 < n := fun n hn => hpos n hn
  have hexp : Index.expand nums t = Index.expand nums t' := by
    apply List.ext_getElem (by rw [Index.expand_length, Index.expand_length])
    intro j h1 h2
    have hjn : j < nums.length := by rw [Index.expand_length] at h1; exact h1
    have hjl : j < limits.length := by omega
    have g := gridRowF_get R limits nums t j hjl hjn h1
    rw [heq, gridRowF_get R limits nums t' j hjl hjn h2] at g
    simp only [Option.some.injEq] at g
    have b1 := expand_lt nums hp t ht j hjn h1
    have b2 := expand_lt nums hp t' ht' j hjn h2
    by_cases hk : 2 ≤ nums[j]
    · obtain ⟨w1, w2⟩ := hwide j _ _ (List.getElem?_eq_getElem hjl) (List.getElem?_eq_getElem hjn) hk
      rcases lt_trichotomy (Index.expand nums t)[j] (Index.expand nums t')[j] with hlt | he | hlt
      · have := C101_levels_apart R w1 hu hk w2 hlt b2
        rw [g] at this
        exact absurd this (lt_irrefl _)
      · exact he
      · have := C101_levels_apart R w1 hu hk w2 hlt b1
        rw [g] at this
        exact absurd this (lt_irrefl _)
    · omega
  rw [← Index.C22_contract_expand nums hp t ht, hexp, Index.C22_contract_expand nums hp t' ht']

/-! ## Regularised splines -/

/-- The extrapolation distance is `0` exactly inside the limits, positive exactly above, negative exactly below. -/
theorem C101_ext_dist {lim : K × K} (h : lim.1 ≤ lim.2) (x : K) :
    (extF R lim x = 0 ↔ lim.1 ≤ x ∧ x ≤ lim.2) ∧ (0 < extF R lim x ↔ lim.2 < x) ∧ (extF R lim x < 0 ↔ x < lim.1) := by
  rcases lt_or_ge lim.2 x with h2 | h2
  · have e : x - min lim.2 (max lim.1 x) = x - lim.2 := by rw [max_eq_right (h.trans h2.le), min_eq_left h2.le]
    have hp : 0 < extF R lim x := by rw [extF, e]; exact R.pos (by linarith)
    exact ⟨⟨fun h' => by linarith, fun h' => by linarith [h'.2]⟩, ⟨fun _ => h2, fun _ => hp⟩, ⟨fun h' => by linarith, fun h' => by linarith⟩⟩
  · rcases lt_or_ge x lim.1 with h1 | h1
    · have e : x - min lim.2 (max lim.1 x) = x - lim.1 := by rw [max_eq_left h1.le, min_eq_right h]
      have hp : extF R lim x < 0 := by rw [extF, e]; exact R.neg (by linarith)
      exact ⟨⟨fun h' => by linarith, fun h' => by linarith [h'.1]⟩, ⟨fun h' => by linarith, fun h' => by linarith⟩, ⟨fun _ => h1, fun _ => hp⟩⟩
    · have e : x - min lim.2 (max lim.1 x) = 0 := by rw [max_eq_right h1, min_eq_right h2, sub_self]
      have hp : extF R lim x = 0 := by rw [extF, e, R.zero]
      exact ⟨⟨fun _ => ⟨h1, h2⟩, fun _ => hp⟩, ⟨fun h' => by linarith, fun h' => by linarith⟩, ⟨fun h' => by linarith, fun h' => by linarith⟩⟩

/-- Inside the limits the argument of `ceil` in `find_interval` is between `0` and the number of cells (so that the conversion
to `int` is defined), and the cell found is the exact one or a neighbour. -/
theorem C101_cell [FloorRing K] {lim : K × K} (h : lim.1 < lim.2) {num : ℕ} (hn : 1 ≤ num) (hr : R.Rep (num : K)) {x : K} (h1 : lim.1 ≤ x) (h2 : x ≤ lim.2) :
    (0 ≤ cellF R lim num x ∧ cellF R lim num x ≤ num) ∧
      ((num : K) * (R.rho ^ 4 - 1) < 1 → |⌈cellF R lim num x⌉ - ⌈(x - lim.1) / (lim.2 - lim.1) * num⌉| ≤ 1) := by
  have hd : 0 < R.rnd (lim.2 - lim.1) := R.pos (by linarith)
  have ha : 0 ≤ R.rnd (x - lim.1) := R.nonneg (by linarith)
  have hle : R.rnd (x - lim.1) ≤ R.rnd (lim.2 - lim.1) := R.mono _ _ (by linarith)
  have hq : R.rnd (R.rnd (x - lim.1) / R.rnd (lim.2 - lim.1)) ≤ 1 := R.le_one ((div_le_one hd).2 hle)
  have hq0 : 0 ≤ R.rnd (R.rnd (x - lim.1) / R.rnd (lim.2 - lim.1)) := R.nonneg (div_nonneg ha hd.le)
  have hnum : (0 : K) ≤ num := Nat.cast_nonneg _
  refine ⟨⟨R.nonneg (mul_nonneg hq0 hnum), R.le_rep hr (by nlinarith)⟩, fun hsmall => ?_⟩
  have c1 : Close R 1 (x - lim.1) (R.rnd (x - lim.1)) := Close.of_rnd (by linarith)
  have c2 : Close R 1 (lim.2 - lim.1) (R.rnd (lim.2 - lim.1)) := Close.of_rnd (by linarith)
  have c3 := ((c1.div c2).rnd.mul (Close.refl (R := R) hnum)).rnd
  have hex : (x - lim.1) / (lim.2 - lim.1) * num ≤ num := by
    have : (x - lim.1) / (lim.2 - lim.1) ≤ 1 := (div_le_one (by linarith)).2 (by linarith)
    nlinarith
  have hdist := c3.abs_sub
  have hp : 0 ≤ R.rho ^ 4 - 1 := sub_nonneg.2 (one_le_pow₀ (rho_one_le R))
  have hlt : |cellF R lim num x - (x - lim.1) / (lim.2 - lim.1) * num| < 1 := by
    refine lt_of_le_of_lt hdist (lt_of_le_of_lt ?_ hsmall)
    exact mul_le_mul_of_nonneg_right hex hp
  set A := cellF R lim num x
  set B := (x - lim.1) / (lim.2 - lim.1) * num
  obtain ⟨b1, b2⟩ := abs_lt.1 hlt
  have i1 : ⌈A⌉ ≤ ⌈B⌉ + 1 := by
    rw [Int.ceil_le]
    push_cast
    linarith [Int.le_ceil B]
  have i2 : ⌈B⌉ ≤ ⌈A⌉ + 1 := by
    rw [Int.ceil_le]
    push_cast
    linarith [Int.le_ceil A]
  rw [abs_le]
  omega

/-- The cell is always one of the `num` cells, wherever the point is. -/
theorem C101_cell_valid [FloorRing K] (lim : K × K) {num : ℕ} (hn : 1 ≤ num) (x : K) : 0 ≤ cellIndexF R lim num x ∧ cellIndexF R lim num x < num := by
  unfold cellIndexF
  omega

/-- The cell found contains the point up to rounding: in units of cells the exact position is between the index and the index plus one, with an error of at most
`num (rho⁴ - 1)`, `rho` being the relative error factor of one rounding. -/
theorem C101_cell_position [FloorRing K] {lim : K × K} (h : lim.1 < lim.2) {num : ℕ} (hn : 1 ≤ num) (hr : R.Rep (num : K)) {x : K} (h1 : lim.1 ≤ x) (h2 : x ≤ lim.2) :
    (cellIndexF R lim num x : K) - num * (R.rho ^ 4 - 1) ≤ (x - lim.1) / (lim.2 - lim.1) * num ∧
      (x - lim.1) / (lim.2 - lim.1) * num ≤ (cellIndexF R lim num x : K) + 1 + num * (R.rho ^ 4 - 1) := by
  obtain ⟨⟨ha, hb⟩, -⟩ := C101_cell R h hn hr h1 h2
  have hnum : (0 : K) ≤ num := Nat.cast_nonneg _
  have c1 : Close R 1 (x - lim.1) (R.rnd (x - lim.1)) := Close.of_rnd (by linarith)
  have c2 : Close R 1 (lim.2 - lim.1) (R.rnd (lim.2 - lim.1)) := Close.of_rnd (by linarith)
  have c3 := ((c1.div c2).rnd.mul (Close.refl (R := R) hnum)).rnd
  have hex : (x - lim.1) / (lim.2 - lim.1) * num ≤ num := by
    have : (x - lim.1) / (lim.2 - lim.1) ≤ 1 := (div_le_one (by linarith)).2 (by linarith)
    nlinarith
  have hp : 0 ≤ R.rho ^ 4 - 1 := sub_nonneg.2 (one_le_pow₀ (rho_one_le R))
  have hle : |cellF R lim num x - (x - lim.1) / (lim.2 - lim.1) * num| ≤ num * (R.rho ^ 4 - 1) := c3.abs_sub.trans (mul_le_mul_of_nonneg_right hex hp)
  obtain ⟨b1, b2⟩ := abs_le.1 hle
  unfold cellIndexF
  set A := cellF R lim num x
  have hc : ⌈A⌉ ≤ (num : ℤ) := Int.ceil_le.2 (by exact_mod_cast hb)
  rcases lt_or_ge ⌈A⌉ 1 with hA | hA
  · rw [max_eq_left hA.le, min_eq_right (by exact_mod_cast hn)]
    have : A ≤ 0 := by
      have h := Int.ceil_le.1 (show ⌈A⌉ ≤ 0 by omega)
      exact_mod_cast h
    push_cast
    constructor <;> linarith
  · rw [max_eq_right hA, min_eq_right hc]
    have l1 := Int.le_ceil A
    have l2 := Int.ceil_lt_add_one A
    push_cast
    constructor <;> linarith

/-- Quadrature points are inside the limits. -/
theorem C101_quadrature {lim : K × K} (h1 : R.Rep lim.1) (h2 : R.Rep lim.2) (h : lim.1 ≤ lim.2) {n i : ℕ} (hi : i < n) (hodd : R.Rep (1 + 2 * (i : K))) (heven : R.Rep (2 * (i : K)))
    (hsmall : 8 * (n : K) * R.u < 1) : lim.1 ≤ quadF R lim n i ∧ quadF R lim n i ≤ lim.2 := by
  have hn0 : (0 : K) < n := by exact_mod_cast (by omega : 0 < n)
  have hi0 : (0 : K) ≤ i := Nat.cast_nonneg _
  have hu := R.u_nonneg
  have hin : (i : K) + 1 ≤ n := by exact_mod_cast hi
  have e1 : R.rnd (1 + R.rnd (2 * (i : K))) = 1 + 2 * (i : K) := by
    rw [show R.rnd (2 * (i : K)) = 2 * (i : K) from heven]
    exact hodd
  have hu1 : R.u ≤ 1 / 8 := by
    have : (1 : K) ≤ n := by linarith
    nlinarith
  set a := R.rnd ((1 + 2 * (i : K)) / 2) with ha
  have ha0 : 0 ≤ a := R.nonneg (by positivity)
  have ha1 := R.upper (x := (1 + 2 * (i : K)) / 2) (by positivity)
  set b := R.rnd (a / (n : K)) with hb
  have hb0 : 0 ≤ b := R.nonneg (by positivity)
  have hb1 := R.upper (x := a / (n : K)) (by positivity)
  have hq : quadF R lim n i = scaleF R lim b := by rw [quadF, e1]
  rw [hq]
  refine ⟨C101_not_below R h1 h hb0, C101_below_one R h2 h hb0 ?_⟩
  have hbn : b * (n : K) ≤ a * (1 + R.u) := by
    have := mul_le_mul_of_nonneg_right hb1 hn0.le
    rwa [show a / (n : K) * (1 + R.u) * (n : K) = a * (1 + R.u) by field_simp] at this
  have key : b * (1 + R.u) * (n : K) < 1 * (n : K) := by
    have s1 : b * (1 + R.u) * (n : K) ≤ a * (1 + R.u) * (1 + R.u) := by nlinarith
    have s2 : a * ((1 + R.u) * (1 + R.u)) ≤ (1 + 2 * (i : K)) / 2 * (1 + R.u) * ((1 + R.u) * (1 + R.u)) := mul_le_mul_of_nonneg_right ha1 (by positivity)
    have s3 : (1 + R.u) * ((1 + R.u) * (1 + R.u)) ≤ 1 + 4 * R.u := by nlinarith [mul_nonneg hu hu]
    have s4 : (1 + 2 * (i : K)) / 2 * ((1 + R.u) * ((1 + R.u) * (1 + R.u))) ≤ ((n : K) - 1 / 2) * (1 + 4 * R.u) := mul_le_mul (by linarith) s3 (by positivity) (by linarith)
    nlinarith
  exact lt_of_mul_lt_mul_right key hn0.le

/-! ## Instances -/

-- A sample just below `1` in the interval of `C101_overshoot` stays inside.
example : double.Rep (1 - 1 / 9007199254740992) ∧ (0 : ℚ) ≤ 1 - 1 / 9007199254740992 ∧ (1 - 1 / 9007199254740992 : ℚ) < 1 := ⟨by unfold Rounding.Rep; decide +kernel, by norm_num, by norm_num⟩
example : limA.1 ≤ scaleF double limA (1 - 1 / 9007199254740992) ∧ scaleF double limA (1 - 1 / 9007199254740992) ≤ limA.2 :=
  C101_half_open (p := 53) (by norm_num) (lim := limA) (double.idem (-3 / 10)) (double.idem (1 / 10)) (by decide +kernel) (s := 1 - 1 / 9007199254740992)
    (by show double.rnd (1 - 1 / 9007199254740992) = 1 - 1 / 9007199254740992; decide +kernel) (by norm_num) (by norm_num)
-- A design whose points are distinct and accepted: two inputs with limits `[0, 0.7]` and `[-5, 10]`.
example : boundsCheck [(0, double.rnd (7 / 10)), (-5, 10)] ((List.range 6).map (gridRowF double [(0, double.rnd (7 / 10)), (-5, 10)] [3, 2])) = true := by decide +kernel
example : (fullFactorialF double 6 [(0, double.rnd (7 / 10)), (-5, 10)] none false 6).map (fun xt => (xt.length, boundsCheck [(0, double.rnd (7 / 10)), (-5, 10)] xt)) = some (6, true) := by decide +kernel
example : double.u ≤ 1 / 2 ∧ 32 * double.u * max |(-5 : ℚ)| |10| * ((100 - 1 : ℕ) : ℚ) < 10 - -5 := ⟨by decide +kernel, by decide +kernel⟩
example : double.Rep ((100 : ℕ) : ℚ) ∧ ((100 : ℕ) : ℚ) * (double.rho ^ 4 - 1) < 1 := ⟨by unfold Rounding.Rep; decide +kernel, by decide +kernel⟩
example : double.Rep (1 + 2 * ((7 : ℕ) : ℚ)) ∧ double.Rep (2 * ((7 : ℕ) : ℚ)) ∧ 8 * ((20 : ℕ) : ℚ) * double.u < 1 := ⟨by unfold Rounding.Rep; decide +kernel, by unfold Rounding.Rep; decide +kernel, by decide +kernel⟩
-- The cell found in double precision can differ from the exact one.
example : cellIndexF double (0, double.rnd (3 / 10)) 3 (double.rnd (1 / 10)) ≠ cellIndexF exact (0, double.rnd (3 / 10)) 3 (double.rnd (1 / 10)) := by decide +kernel

end SMT.Fp
