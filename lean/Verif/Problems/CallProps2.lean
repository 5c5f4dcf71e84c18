import Verif.Problems.CallProps

set_option linter.unusedSectionVars false
set_option linter.unusedSimpArgs false
set_option linter.unusedVariables false

/-!
# C94: reduced problems given by integers, negative ones included
-/
namespace SMT.Problems

open SMT.Surrogate (NdArray PyObj ensure2d)

noncomputable section

/-- Specification: input that an integer of `dims` names: itself, or counted from the end when negative. -/
def named (n : ℕ) (d : ℤ) : ℕ := if 0 ≤ d then d.toNat else (d + n).toNat

lemma pyIdx_named (n : ℕ) (d : ℤ) (h : -(n : ℤ) ≤ d) (h' : d < n) : pyIdx n d = .ok (named n d) := by
  unfold named
  by_cases h0 : 0 ≤ d
  · unfold pyIdx; rw [if_pos ⟨h0, h'⟩, if_pos h0]
  · rw [pyIdx_neg n d (by omega) h, if_neg h0]

lemma named_lt (n : ℕ) (d : ℤ) (h : -(n : ℤ) ≤ d) (h' : d < n) : named n d < n := by
  unfold named; split_ifs <;> omega

lemma pyIdx_low (n : ℕ) (d : ℤ) (h : d < -(n : ℤ)) : pyIdx n d = .error .index := by
  unfold pyIdx; rw [if_neg (by omega), if_neg (by omega)]

lemma resolve_ok (n : ℕ) (dims : List ℤ) (h : ∀ d ∈ dims, -(n : ℤ) ≤ d ∧ d < n) : resolve n dims = .ok (dims.map (named n)) := by
  unfold resolve
  rw [mapM_ok]
  induction dims with
  | nil => exact .nil
  | cons d l ih => exact .cons (pyIdx_named n d (h d List.mem_cons_self).1 (h d List.mem_cons_self).2) (ih fun d' hd => h d' (List.mem_cons_of_mem _ hd))

lemma resolve_err (n : ℕ) (dims : List ℤ) (h : ∀ d ∈ dims, d < n) (h' : ∃ d ∈ dims, d < -(n : ℤ)) : resolve n dims = .error .index := by
  unfold resolve
  induction dims with
  | nil => simp at h'
  | cons d l ih =>
    rw [List.mapM_cons]
    by_cases hd : d < -(n : ℤ)
    · rw [pyIdx_low n d hd]; rfl
    · rw [pyIdx_named n d (by omega) (h d List.mem_cons_self)]
      obtain ⟨d', hm, hl⟩ := h'
      have hm' : d' ∈ l := by
        rcases List.mem_cons.1 hm with rfl | hm
        · exact absurd hl hd
        · exact hm
      rw [show l.mapM (pyIdx n) = .error .index from ih (fun e he => h e (List.mem_cons_of_mem _ he)) ⟨d', hm', hl⟩]
      rfl

/-- **C94** `ReducedProblem` accepts exactly the non-empty lists of integers between `-ndim` and `ndim - 1`; an empty list raises `ValueError`, an index that is too large
`AssertionError`, one that is too negative `IndexError`. -/
theorem C94_reduced_accepted (o : Obj) (dims : List ℤ) (w : ℝ) :
    ((∃ q, reducedZ o dims w = .ok q) ↔ dims ≠ [] ∧ ∀ d ∈ dims, -(o.ndim : ℤ) ≤ d ∧ d < o.ndim) ∧
    reducedZ o [] w = .error .value ∧
    ((∃ d ∈ dims, (o.ndim : ℤ) ≤ d) → reducedZ o dims w = .error .assertion) ∧
    ((∀ d ∈ dims, d < (o.ndim : ℤ)) → (∃ d ∈ dims, d < -(o.ndim : ℤ)) → reducedZ o dims w = .error .index) := by
  have h3 : (∃ d ∈ dims, (o.ndim : ℤ) ≤ d) → reducedZ o dims w = .error .assertion := by
    intro h
    unfold reducedZ
    rw [if_neg (by rintro rfl; simp at h), if_pos h]
  have h4 : (∀ d ∈ dims, d < (o.ndim : ℤ)) → (∃ d ∈ dims, d < -(o.ndim : ℤ)) → reducedZ o dims w = .error .index := by
    intro h h'
    unfold reducedZ
    rw [if_neg (by rintro rfl; simp at h'), if_neg (by rintro ⟨d, hd, hl⟩; have := h d hd; omega), resolve_err _ _ h h']
  refine ⟨⟨?_, ?_⟩, rfl, h3, h4⟩
  · rintro ⟨q, hq⟩
    by_cases he : dims = []
    · subst he; simp [reducedZ] at hq
    · refine ⟨he, fun d hd => ?_⟩
      have hall : ∀ d ∈ dims, d < (o.ndim : ℤ) := by
        intro d hd
        by_contra hc
        rw [h3 ⟨d, hd, by omega⟩] at hq; cases hq
      refine ⟨?_, hall d hd⟩
      by_contra hc
      rw [h4 hall ⟨d, hd, by omega⟩] at hq; cases hq
  · rintro ⟨he, h⟩
    unfold reducedZ
    rw [if_neg he, if_neg (by rintro ⟨d, hd, hl⟩; have := h d hd; omega), resolve_ok _ _ h]
    exact ⟨_, rfl⟩

/-- **C94** The value of a reduced problem: with integers naming distinct inputs, that of the full problem at the point with the named inputs taken from `x` and all others at the weighted
mean of their limits; the limits are those of the named inputs. Derivative `k` is whatever the full problem answers *for the integer `dims[k]` as it was given*; `k` out of range raises
`IndexError`. -/
theorem C94_reduced_value (o : Obj) (dims : List ℤ) (w : ℝ) (q : Obj) (hq : reducedZ o dims w = .ok q) (hn : (dims.map (named o.ndim)).Nodup) (e : Eval) :
    q.ndim = dims.length ∧ (∀ i (h : i < dims.length), q.xlimits i = o.xlimits (named o.ndim dims[i])) ∧
    ∀ x, ∃ z, Placed ⟨o.ndim, o.xlimits, e⟩ w (dims.map (named o.ndim)) x z ∧ q.eval x none = o.eval z none ∧
      (∀ k (h : k < dims.length), q.eval x (some (k : ℤ)) = o.eval z (some dims[k])) ∧ ∀ k : ℤ, (dims.length : ℤ) ≤ k → q.eval x (some k) = .error .index := by
  obtain ⟨he, hd⟩ := ((C94_reduced_accepted o dims w).1).1 ⟨q, hq⟩
  unfold reducedZ at hq
  rw [if_neg he, if_neg (by rintro ⟨d, hm, hl⟩; have := hd d hm; omega), resolve_ok _ _ hd] at hq
  simp only [Except.ok.injEq] at hq
  subst hq
  refine ⟨rfl, fun i h => by simp [List.getD_eq_getElem?_getD, h], fun x => ⟨_, expand_placed ⟨o.ndim, o.xlimits, e⟩ w _ hn x, rfl, fun k h => ?_, fun k h => ?_⟩⟩
  · simp only [pyIdx_nat _ k h]
    rw [List.getD_eq_getElem?_getD, List.getElem?_eq_getElem h]
    rfl
  · simp only [pyIdx_big _ k h]

/-- **C94** With non-negative integers, the reduced problem returns what C52 says of it: its derivatives are exact wherever those of the full problem are. -/
theorem C94_reduced_nonneg (o : Obj) (e : Eval) (ho : Listed o e) (dims : List ℕ) (w : ℝ) (q : Prob) (hq : reduced ⟨o.ndim, o.xlimits, e⟩ dims w = some q) (hn : dims.Nodup) :
    ∃ r, reducedZ o (dims.map (↑)) w = .ok r ∧ r.ndim = q.ndim ∧ (∀ i < r.ndim, r.xlimits i = q.xlimits i) ∧ Listed r q.eval := by
  have hacc := (C52_accepted ⟨o.ndim, o.xlimits, e⟩ dims w).1 (by rw [hq]; rfl)
  have hd : ∀ d ∈ dims.map (fun a : ℕ => (a : ℤ)), -(o.ndim : ℤ) ≤ d ∧ d < o.ndim := by
    intro d hd
    obtain ⟨a, ha, rfl⟩ := List.mem_map.1 hd
    have : a < o.ndim := hacc.2 a ha
    omega
  have hnm : (dims.map (fun a : ℕ => (a : ℤ))).map (named o.ndim) = dims := by
    rw [List.map_map]
    conv_rhs => rw [← List.map_id dims]
    refine List.map_congr_left fun a _ => ?_
    simp [named]
  obtain ⟨r, hr⟩ := ((C94_reduced_accepted o (dims.map (fun a : ℕ => (a : ℤ))) w).1).2 ⟨by simpa using hacc.1, hd⟩
  obtain ⟨h1, h2, h3⟩ := C94_reduced_value o _ w r hr (by rw [hnm]; exact hn) e
  obtain ⟨g1, g2, g3⟩ := C52_reduced _ dims w q hq hn
  refine ⟨r, hr, by rw [h1, g1, List.length_map], fun i hi => ?_, fun x => ?_⟩
  · rw [h1, List.length_map] at hi
    rw [h2 i (by simpa using hi), g2 i hi]
    simp [named]
  · obtain ⟨z, hz, a1, a2, -⟩ := h3 x
    rw [hnm] at hz
    obtain ⟨z', hz', hu, b1, b2⟩ := g3 x
    have := hu z hz; subst this
    refine ⟨by rw [a1, b1, (ho _).1], fun k hk => ?_⟩
    rw [h1, List.length_map] at hk
    rw [a2 k (by simpa using hk), b2 k hk]
    simp only [List.getElem_map]
    exact (ho _).2 _ (hacc.2 _ (List.getElem_mem hk))

/-! ## Negative integers: right derivatives for some problems, wrong ones for others -/

/-- **C94** Sphere, the Lp norm and the problems with complex-step derivatives answer a negative index as the input it names: reduced problems with negative integers have the derivatives
they should. -/
theorem C94_negative_right (x : ℕ → ℝ) (n : ℕ) (d : ℤ) (h : -(n : ℤ) ≤ d) (h' : d < 0) :
    (sphereO n).eval x (some d) = (sphereO n).eval x (some (named n d : ℕ)) ∧
    (∀ p, (lpO p n).eval x (some d) = (lpO p n).eval x (some (named n d : ℕ))) ∧
    (∀ (e : CStep.Expr n) (lo hi : Fin n → ℝ) (useFD : Bool) (ch dx : ℝ), (stepO e lo hi useFD ch dx).eval x (some d) = (stepO e lo hi useFD ch dx).eval x (some (named n d : ℕ))) := by
  have e1 := pyIdx_named n d h (by omega)
  have e2 := pyIdx_nat n (named n d) (named_lt n d h (by omega))
  refine ⟨?_, fun p => ?_, fun e lo hi useFD ch dx => ?_⟩
  · show sphereZ n x (some d) = sphereZ n x (some (named n d : ℕ))
    simp only [sphereZ, e1, e2]
  · show lpZ p n x (some d) = lpZ p n x (some (named n d : ℕ))
    simp only [lpZ, e1, e2]
  · show stepZ e useFD ch dx x (some d) = stepZ e useFD ch dx x (some (named n d : ℕ))
    simp only [stepZ, e1, e2]

/-- **C94** Branin refuses a negative index, so that a reduced Branin with one has values but no derivative with respect to it. -/
theorem C94_negative_branin (x : ℕ → ℝ) (d : ℤ) (h : d < 0) : braninO.eval x (some d) = .error .assertion := by
  show braninZ x (some d) = _
  simp only [braninZ]; rw [if_neg (by omega)]

/-- **C94** A tensor product answers a negative index with the function value. -/
theorem C94_negative_tensor (fn : Func) (a : ℝ) (n : ℕ) (x : ℕ → ℝ) (d : ℤ) (h : d < 0) : (tensorO fn a n).eval x (some d) = (tensorO fn a n).eval x none := by
  show tensorZ fn a n x (some d) = tensorZ fn a n x none
  simp only [tensorZ]
  rw [← C51_tensor_product_out_of_range fn a n n le_rfl x]
  simp only [tensorProduct]
  congr 1
  refine List.foldl_ext _ _ _ fun y ix hix => ?_
  have : ix < n := by simpa using hix
  rw [if_neg (by omega), if_neg (by omega)]

/-- **C94** Rosenbrock: the last input as `-1` mixes in the first one; the other inputs counted from the end lose the second term of the derivative. -/
theorem C94_negative_rosenbrock (n : ℕ) (x : ℕ → ℝ) (d : ℤ) (h : -(n : ℤ) ≤ d) (h' : d < 0) :
    (d = -1 → (rosenbrockO n).eval x (some d) = .ok (-400 * (x 0 - x (n - 1) ^ 2) * x (n - 1) - 2 * (1 - x (n - 1)))) ∧
    (d < -1 → (rosenbrockO n).eval x (some d) = .ok (-400 * (x (named n d + 1) - x (named n d) ^ 2) * x (named n d) - 2 * (1 - x (named n d))) ∧
      (0 < named n d → rosenbrock n x (some (named n d)) =
        (-400 * (x (named n d + 1) - x (named n d) ^ 2) * x (named n d) - 2 * (1 - x (named n d))) + 200 * (x (named n d) - x (named n d - 1) ^ 2))) := by
  have e1 := pyIdx_named n d h (by omega)
  have hl := named_lt n d h (by omega)
  have hB : rosenB n x d = .ok 0 := by unfold rosenB; rw [if_neg (by omega)]
  constructor
  · rintro rfl
    have e0 : pyIdx n (-1 + 1) = .ok 0 := pyIdx_of (by simp) (by omega)
    have hnm : named n (-1) = n - 1 := by unfold named; rw [if_neg (by omega)]; omega
    have hA : rosenA n x (-1) = .ok (-400 * (x 0 - x (n - 1) ^ 2) * x (n - 1) - 2 * (1 - x (n - 1))) := by
      unfold rosenA; rw [if_pos (by omega), e0, e1, hnm]
    show rosenbrockZ n x (some (-1)) = _
    simp only [rosenbrockZ, hA, hB]
    congr 1; ring
  · intro hd
    have hnm : named n d = (d + n).toNat := by unfold named; rw [if_neg (by omega)]
    have e0 : pyIdx n (d + 1) = .ok (named n d + 1) := by
      rw [pyIdx_neg n (d + 1) (by omega) (by omega), hnm]
      congr 1; omega
    have hA : rosenA n x d = .ok (-400 * (x (named n d + 1) - x (named n d) ^ 2) * x (named n d) - 2 * (1 - x (named n d))) := by
      unfold rosenA; rw [if_pos (by omega), e0, e1]
    constructor
    · show rosenbrockZ n x (some d) = _
      simp only [rosenbrockZ, hA, hB]
      congr 1; ring
    · intro hp
      simp only [rosenbrock]
      rw [if_pos (show named n d < n - 1 by omega), if_pos hp]
      ring

/-- **C94** Cantilever beam: a length counted from the end has derivative 0. -/
theorem C94_negative_cantilever (P E : ℝ) (n : ℕ) (x : ℕ → ℝ) (d : ℤ) (h' : d < 0) (h2 : d % 3 = 2) : (cantileverO P E n).eval x (some d) = .ok 0 := by
  show cantileverZ P E n x (some d) = _
  simp only [cantileverZ, beamD]
  rw [if_neg (by omega), if_neg (by omega)]
  have : (d / 3 + 1).toNat = 0 := by omega
  rw [this]
  simp [Except.map]

/-- **C94** Robot arm: every angle counted from the end is answered with the derivative for the *first* angle. -/
theorem C94_negative_robot_arm (n : ℕ) (x : ℕ → ℝ) (d : ℤ) (h' : d < 0) (h2 : d % 2 = 1) : (robotArmO n).eval x (some d) = .ok (robotArm n x (some 1)) := by
  show robotArmZ n x (some d) = _
  simp only [robotArmZ, robotArm]
  rw [if_neg (by omega), if_neg (by norm_num)]
  have hk : ∀ s : ℕ, (d / 2 ≤ (s : ℤ)) := fun s => by omega
  simp only [hk, if_true, show (1 : ℕ) / 2 = 0 from rfl, Nat.zero_le]

/-- **C94** Robot arm, lengths: counted from the end they are answered as the inputs they name, except the last one, for which `-2` gives the derivative as if the last segment pointed along the first axis. -/
theorem C94_negative_robot_arm_length (n : ℕ) (hn : n % 2 = 0) (x : ℕ → ℝ) (d : ℤ) (h : -(n : ℤ) ≤ d) (h' : d < 0) (h2 : d % 2 = 0) :
    (d ≠ -2 → (robotArmO n).eval x (some d) = .ok (robotArm n x (some (named n d)))) ∧
    (d = -2 → (robotArmO n).eval x (some d) = .ok (armX n x / √(armX n x ^ 2 + armY n x ^ 2))) := by
  constructor
  · intro hd
    have hnm : named n d = (d + n).toNat := by unfold named; rw [if_neg (by omega)]
    have ha : angle n x (d / 2) = strideSum 1 (2 * (named n d / 2) + 2) 2 x := by
      unfold angle sliceBound
      rw [if_pos (by omega), hnm]
      congr 1; omega
    show robotArmZ n x (some d) = _
    simp only [robotArmZ, robotArm]
    rw [if_pos h2, if_pos (show named n d % 2 = 0 by omega), ha]
  · rintro rfl
    have ha : angle n x (-2 / 2) = 0 := by
      unfold angle sliceBound
      rw [if_neg (by norm_num)]
      simp [strideSum]
    show robotArmZ n x (some (-2)) = _
    simp only [robotArmZ]
    rw [if_pos (by norm_num), ha, arm_pos Real.cos, arm_pos Real.sin]
    simp [armX, armY, stride_odd]

/-- **C94** Cantilever beam, widths and heights: counted from the end they are answered as the inputs they name, except those of the last element, where the cube of the total length is subtracted. -/
theorem C94_negative_cantilever_section (P E : ℝ) (n : ℕ) (hn : n % 3 = 0) (x : ℕ → ℝ) (d : ℤ) (h : -(n : ℤ) ≤ d) (h' : d < 0) (h2 : d % 3 ≠ 2) :
    (d < -3 → (cantileverO P E n).eval x (some d) = .ok (cantilever P E n x (some (named n d)))) ∧
    (d = -3 → (cantileverO P E n).eval x (some d) =
      .ok (P / 3 / E * (-12 / x (n - 3) ^ 2 / x (n - 2) ^ 3 * (x (n - 1) ^ 3 - (∑ e ∈ Finset.range (n / 3), x (3 * e + 2)) ^ 3)))) ∧
    (d = -2 → (cantileverO P E n).eval x (some d) =
      .ok (P / 3 / E * (-36 / x (n - 3) / x (n - 2) ^ 4 * (x (n - 1) ^ 3 - (∑ e ∈ Finset.range (n / 3), x (3 * e + 2)) ^ 3)))) := by
  have hb : ∀ k : ℤ, -(n : ℤ) ≤ 3 * k → k < 0 → pyIdx n (3 * k) = .ok (3 * k + n).toNat := fun k h h' => pyIdx_neg n _ (by omega) h
  have hh : ∀ k : ℤ, -(n : ℤ) ≤ 3 * k → k < 0 → pyIdx n (3 * k + 1) = .ok (3 * k + n + 1).toNat := fun k h h' => by
    rw [pyIdx_neg n _ (by omega) (by omega)]; congr 1; omega
  have hS : ∀ s : ℤ, -(n : ℤ) ≤ s → s < 0 → tailSum n x s = strideSum (s + n).toNat n 3 x := fun s h h' => by
    unfold tailSum sliceBound; rw [if_pos h']
  have last : strideSum (n - 1) n 3 x = x (n - 1) := by
    rw [strideSum_eq]
    have : (Finset.range n).filter (fun i => n - 1 ≤ i ∧ (i - (n - 1)) % 3 = 0) = {n - 1} := by
      ext i; simp only [Finset.mem_filter, Finset.mem_range, Finset.mem_singleton]; omega
    simp only [Finset.sum_ite, Finset.sum_const_zero, add_zero, this, Finset.sum_singleton]
  have whole : strideSum 2 n 3 x = ∑ e ∈ Finset.range (n / 3), x (3 * e + 2) := by
    obtain ⟨m, rfl⟩ : ∃ m, n = 3 * m := ⟨n / 3, by omega⟩
    rw [strideSum_eq, Nat.mul_div_cancel_left m (by norm_num)]
    clear hb hh hS last h hn
    induction m with
    | zero => simp
    | succ m ih =>
      rw [show 3 * (m + 1) = 3 * m + 1 + 1 + 1 by ring, Finset.sum_range_succ, Finset.sum_range_succ, Finset.sum_range_succ, ih, Finset.sum_range_succ _ m,
        if_neg (by omega), if_neg (by omega), if_pos (by omega), add_zero, add_zero]
  have hnm : named n d = (d + n).toNat := by unfold named; rw [if_neg (by omega)]
  refine ⟨fun hd => ?_, ?_, ?_⟩
  · have h3 : -(n : ℤ) ≤ 3 * (d / 3) := by omega
    have i1 : (3 * (d / 3) + n).toNat = 3 * (named n d / 3) + 0 := by omega
    have i2 : (3 * (d / 3) + n + 1).toNat = 3 * (named n d / 3) + 1 := by omega
    have s1 : (2 + 3 * (d / 3) + n).toNat = 2 + 3 * (named n d / 3) := by omega
    have s2 : (5 + 3 * (d / 3) + n).toNat = 5 + 3 * (named n d / 3) := by omega
    show cantileverZ P E n x (some d) = _
    simp only [cantileverZ, beamD, cantilever]
    rw [hb _ h3 (by omega), hh _ h3 (by omega), hS _ (by omega) (by omega), hS _ (by omega) (by omega), i1, i2, s1, s2]
    by_cases h0 : d % 3 = 0
    · rw [if_pos h0, if_pos (show named n d % 3 = 0 by omega)]; rfl
    · rw [if_neg h0, if_pos (show d % 3 = 1 by omega), if_neg (show ¬ named n d % 3 = 0 by omega), if_pos (show named n d % 3 = 1 by omega)]; rfl
  · rintro rfl
    have h5 : tailSum n x (5 + 3 * (-3 / 3)) = strideSum 2 n 3 x := tailSum_nat n x 2
    show cantileverZ P E n x (some (-3)) = _
    simp only [cantileverZ, beamD]
    rw [hb _ (by omega) (by omega), hh _ (by omega) (by omega), hS (2 + 3 * (-3 / 3)) (by omega) (by omega), h5, whole, if_pos (by norm_num),
      show (3 * (-3 / 3) + (n : ℤ)).toNat = n - 3 by omega, show (3 * (-3 / 3) + (n : ℤ) + 1).toNat = n - 2 by omega,
      show (2 + 3 * (-3 / 3) + (n : ℤ)).toNat = n - 1 by omega, last]
    simp only [Except.map]
    congr 1; ring
  · rintro rfl
    have h5 : tailSum n x (5 + 3 * (-2 / 3)) = strideSum 2 n 3 x := tailSum_nat n x 2
    show cantileverZ P E n x (some (-2)) = _
    simp only [cantileverZ, beamD]
    rw [hb _ (by omega) (by omega), hh _ (by omega) (by omega), hS (2 + 3 * (-2 / 3)) (by omega) (by omega), h5, whole, if_neg (by norm_num), if_pos (by norm_num),
      show (3 * (-2 / 3) + (n : ℤ)).toNat = n - 3 by omega, show (3 * (-2 / 3) + (n : ℤ) + 1).toNat = n - 2 by omega,
      show (2 + 3 * (-2 / 3) + (n : ℤ)).toNat = n - 1 by omega, last]
    simp only [Except.map]
    congr 1; ring

/-- Concrete case: a two-element beam, width of the last element; the two-segment arm, length of the first segment. -/
example (x : ℕ → ℝ) : (cantileverO 1 1 6).eval x (some (-6)) = .ok (cantilever 1 1 6 x (some 0)) ∧ (robotArmO 4).eval x (some (-4)) = .ok (robotArm 4 x (some 0)) :=
  ⟨(C94_negative_cantilever_section 1 1 6 rfl x (-6) (by norm_num) (by norm_num) (by norm_num)).1 (by norm_num),
   (C94_negative_robot_arm_length 4 rfl x (-4) (by norm_num) (by norm_num) (by norm_num)).1 (by norm_num)⟩

/-- **C94** Taken together with C51: calling with an index in range returns, at every point, the partial derivative of the function that calling without an index evaluates. -/
theorem C94_exact (o : Obj) (e : Eval) (ho : Listed o e) (x : PyObj ℝ) (n : ℕ) (p : ℕ → ℕ → ℝ) (hp : Points x n o.ndim p) (hn : 0 < n) (hx : ∀ i < n, ExactAt o.ndim e (p i)) :
    ∃ f : (ℕ → ℝ) → ℝ, (∀ x' n' p', Points x' n' o.ndim p' → 0 < n' → callProblem o x' .none = .ok ⟨[n', 1], (List.range n').map fun i => f (p' i)⟩) ∧
      ∀ k < o.ndim, ∃ d : ℕ → ℝ, callProblem o x (.int k) = .ok ⟨[n, 1], (List.range n).map d⟩ ∧ ∀ i < n, PartialAt f (p i) k (d i) :=
  ⟨fun z => e z none, fun x' n' p' hp' hn' => (C94_in_range o e ho x' n' p' hp' hn').1,
   fun k hk => ⟨_, (C94_in_range o e ho x n p hp hn).2 k hk, fun i hi => hx i hi k hk⟩⟩

/-- **C94** For the sphere, Rosenbrock, Branin and the tensor product that is so at every point. -/
theorem C94_exact_everywhere (o : Obj) (h : (∃ n, o = sphereO n) ∨ (∃ n, o = rosenbrockO n) ∨ o = braninO ∨ ∃ fn a n, o = tensorO fn a n) :
    ∃ f : (ℕ → ℝ) → ℝ, (∀ x n p, Points x n o.ndim p → 0 < n → callProblem o x .none = .ok ⟨[n, 1], (List.range n).map fun i => f (p i)⟩) ∧
      ∀ x n p, Points x n o.ndim p → 0 < n → ∀ k < o.ndim, ∃ d : ℕ → ℝ, callProblem o x (.int k) = .ok ⟨[n, 1], (List.range n).map d⟩ ∧ ∀ i < n, PartialAt f (p i) k (d i) := by
  have key : ∀ e : Eval, Listed o e → (∀ z, ExactAt o.ndim e z) → ∃ f : (ℕ → ℝ) → ℝ, (∀ x n p, Points x n o.ndim p → 0 < n → callProblem o x .none = .ok ⟨[n, 1], (List.range n).map fun i => f (p i)⟩) ∧
      ∀ x n p, Points x n o.ndim p → 0 < n → ∀ k < o.ndim, ∃ d : ℕ → ℝ, callProblem o x (.int k) = .ok ⟨[n, 1], (List.range n).map d⟩ ∧ ∀ i < n, PartialAt f (p i) k (d i) :=
    fun e ho hz => ⟨fun z => e z none, fun x n p hp hn => (C94_in_range o e ho x n p hp hn).1,
      fun x n p hp hn k hk => ⟨_, (C94_in_range o e ho x n p hp hn).2 k hk, fun i hi => hz _ k hk⟩⟩
  rcases h with ⟨n, rfl⟩ | ⟨n, rfl⟩ | rfl | ⟨fn, a, n, rfl⟩
  · exact key _ (C94_sphere n) (C51_sphere n)
  · exact key _ (C94_rosenbrock n) (C51_rosenbrock n)
  · exact key _ C94_branin C51_branin
  · exact key _ (C94_tensor_product fn a n) (C51_tensor_product fn a n)

/-! ## Arrays without rows, and limits -/

/-- **C94** An array without rows: the result has shape `(0, 1)`. A bad index still raises where the code works on whole columns, not where it loops over the points; the derivative of the Lp norm of
order 2 raises `ValueError` for every index. -/
theorem C94_no_rows (d : List ℝ) (n : ℕ) (k : ℤ) (hk : 0 ≤ k) :
    (∀ o : Obj, o.ndim = n → o.onEmpty none = .ok () → callProblem o (.nd ⟨[0, n], d⟩) .none = .ok ⟨[0, 1], []⟩) ∧
    ((sphereO n).onEmpty none = .ok () ∧ (rosenbrockO n).onEmpty none = .ok () ∧ braninO.onEmpty none = .ok () ∧ (∀ fn a, (tensorO fn a n).onEmpty none = .ok ()) ∧
      (∀ P E, (cantileverO P E n).onEmpty none = .ok ()) ∧ (robotArmO n).onEmpty none = .ok () ∧ ∀ p, 0 < p → (lpO p n).onEmpty none = .ok ()) ∧
    ((n : ℤ) ≤ k → callProblem (sphereO n) (.nd ⟨[0, n], d⟩) (.int k) = .error .index) ∧
    (k < n → callProblem (sphereO n) (.nd ⟨[0, n], d⟩) (.int k) = .ok ⟨[0, 1], []⟩) ∧
    (callProblem (lpO 2 n) (.nd ⟨[0, n], d⟩) (.int k) = .error .value) ∧
    (k < n → callProblem (lpO 1 n) (.nd ⟨[0, n], d⟩) (.int k) = .ok ⟨[0, 1], []⟩) ∧
    (∀ (e : CStep.Expr n) (lo hi : Fin n → ℝ) (useFD : Bool) (ch dx : ℝ), callProblem (stepO e lo hi useFD ch dx) (.nd ⟨[0, n], d⟩) (.int k) = .ok ⟨[0, 1], []⟩) := by
  have hcall : ∀ (o : Obj) (kx : KArg) (j : Option ℤ), o.ndim = n → checkK kx = .ok j → callProblem o (.nd ⟨[0, n], d⟩) kx = (o.onEmpty j).map fun _ => ⟨[0, 1], []⟩ := by
    intro o kx j ho hj
    unfold callProblem
    simp only [ensure2d]
    rw [if_neg (by rw [ho]; exact fun h => h rfl), hj]
    simp only
    have : rowsOf (⟨[0, n], d⟩ : NdArray ℝ) = [] := rfl
    rw [this]
    unfold evaluateAll
    simp only
    cases o.onEmpty j <;> rfl
  have hki : checkK (.int k) = .ok (some k) := checkK_ok.2 ⟨hk, rfl⟩
  refine ⟨fun o ho he => ?_, ⟨rfl, rfl, rfl, fun _ _ => rfl, fun _ _ => rfl, rfl, fun p hp => ?_⟩, fun h => ?_, fun h => ?_, ?_, fun h => ?_, fun e lo hi useFD ch dx => ?_⟩
  · rw [hcall o .none none ho rfl, he]; rfl
  · show (lpZ p n (fun _ => 0) none).map (fun _ => ()) = .ok ()
    unfold lpZ; rw [if_neg (by omega)]; rfl
  · rw [hcall _ _ (some k) rfl hki]
    show ((sphereZ n (fun _ => 0) (some k)).map fun _ => ()).map _ = _
    simp only [sphereZ, pyIdx_big n k h]; rfl
  · rw [hcall _ _ (some k) rfl hki]
    show ((sphereZ n (fun _ => 0) (some k)).map fun _ => ()).map _ = _
    simp only [sphereZ, pyIdx_named n k (by omega) h]; rfl
  · rw [hcall _ _ (some k) rfl hki]; rfl
  · rw [hcall _ _ (some k) rfl hki]
    show ((lpZ 1 n (fun _ => 0) (some k)).map fun _ => ()).map _ = _
    unfold lpZ
    rw [if_neg (by norm_num)]
    simp only [pyIdx_named n k (by omega) h]
    rfl
  · rw [hcall _ _ (some k) rfl hki]; rfl

/-- **C94** The documented domains. -/
theorem C94_limits (n i : ℕ) (P E : ℝ) (fn : Func) (a : ℝ) (p : ℕ) :
    (sphereO n).xlimits i = (-10, 10) ∧ (rosenbrockO n).xlimits i = (-2, 2) ∧ braninO.xlimits 0 = (-5, 10) ∧ braninO.xlimits 1 = (0, 15) ∧ (tensorO fn a n).xlimits i = (-1, 1) ∧
    (lpO p n).xlimits i = (-1, 1) ∧ (robotArmO n).xlimits (2 * i) = (0, 1) ∧ (robotArmO n).xlimits (2 * i + 1) = (0, 2 * Real.pi) ∧
    (cantileverO P E n).xlimits (3 * i) = (0.01, 0.05) ∧ (cantileverO P E n).xlimits (3 * i + 1) = (0.3, 0.65) ∧ (cantileverO P E n).xlimits (3 * i + 2) = (0.5, 1) := by
  refine ⟨rfl, rfl, rfl, rfl, rfl, rfl, if_pos (by omega), if_neg (by omega), if_pos (by omega), ?_, ?_⟩
  · exact (if_neg (by omega)).trans (if_pos (by omega))
  · exact (if_neg (by omega)).trans (if_neg (by omega))

/-! ## Concrete cases -/

/-- Two points of the sphere in two dimensions. -/
example : callProblem (sphereO 2) (.nd ⟨[2, 2], [1, 2, 3, 4]⟩) .none = .ok ⟨[2, 1], [5, 25]⟩ ∧
    callProblem (sphereO 2) (.nd ⟨[2, 2], [1, 2, 3, 4]⟩) (.int 1) = .ok ⟨[2, 1], [4, 8]⟩ ∧
    callProblem (sphereO 2) (.nd ⟨[2, 2], [1, 2, 3, 4]⟩) (.int 2) = .error .index ∧
    callProblem (sphereO 2) (.nd ⟨[2, 2], [1, 2, 3, 4]⟩) (.int (-1)) = .error .type ∧
    callProblem (sphereO 2) (.nd ⟨[2], [1, 2]⟩) .none = .error .value := by
  have hp : Points (.nd ⟨[2, 2], [1, 2, 3, 4]⟩) 2 (sphereO 2).ndim fun i j => ([1, 2, 3, 4] : List ℝ).getD (i * 2 + j) 0 := ⟨_, rfl, Or.inl rfl, rfl⟩
  have h := C94_in_range (sphereO 2) _ (C94_sphere 2) _ 2 _ hp (by norm_num)
  refine ⟨h.1.trans ?_, (h.2 1 (by show 1 < 2; norm_num)).trans ?_, (C94_call (sphereO 2) _ (.int 2) 2 _ _ hp ⟨by norm_num, rfl⟩ (by norm_num)).2 _
    (fun i _ => (C94_out_of_range _ 2 2 (by norm_num)).1), (C94_index _ _ ⟨_, _, hp⟩).1 (-1) (by norm_num), (C94_shapes (sphereO 2) .none).2.2.2.1 _ le_rfl⟩
  · simp [List.range_succ, sphere]; norm_num
  · simp [List.range_succ, sphere]; norm_num

/-- `ReducedProblem(TensorProduct(ndim=1, func='cos', width=1), [-1])` at 0: derivative 1, where the function has derivative 0. -/
example : ∃ q, reducedZ (tensorO .cos 1 1) [-1] 0.2 = .ok q ∧ q.eval (fun _ => 0) (some 0) = .ok 1 ∧ PartialAt (fun z => tensorProduct .cos 1 1 z none) (fun _ => 0) 0 0 := by
  obtain ⟨q, hq⟩ := ((C94_reduced_accepted (tensorO .cos 1 1) [-1] 0.2).1).2 ⟨by simp, by intro d hd; simp at hd; subst hd; simp [tensorO]⟩
  obtain ⟨-, -, h3⟩ := C94_reduced_value _ _ _ q hq (by simp) (fun _ _ => 0)
  obtain ⟨z, hz, -, h4, -⟩ := h3 (fun _ => 0)
  refine ⟨q, hq, ?_, ?_⟩
  · have := h4 0 (by simp)
    simp only [List.getElem_cons_zero, Nat.cast_zero] at this
    rw [this, C94_negative_tensor _ _ _ _ _ (by norm_num)]
    have h0 := hz.listed 0 (by simp)
    simp [named, tensorO] at h0
    simp [tensorO, tensorZ, tensorProduct, Func.f, List.range_succ, h0]
  · have := C51_tensor_product .cos 1 1 (fun _ => 0) 0 (by norm_num)
    simpa [tensorProduct, Func.df, List.range_succ] using this

/-- Rosenbrock in two dimensions at (2, 1), input `-1`: -400 (2 - 1) instead of 200 (1 - 4). -/
example : (rosenbrockO 2).eval (fun i => if i = 0 then 2 else 1) (some (-1)) = .ok (-400) ∧ rosenbrock 2 (fun i => if i = 0 then 2 else 1) (some 1) = -600 := by
  refine ⟨((C94_negative_rosenbrock 2 _ (-1) (by norm_num) (by norm_num)).1 rfl).trans ?_, ?_⟩
  · norm_num
  · norm_num [rosenbrock]

/-- Cantilever beam with one element of unit width and height, derivative with respect to its length 1. -/
example : (cantileverO 1 1 3).eval (fun _ => 1) (some (-1)) = .ok 0 ∧ cantilever 1 1 3 (fun _ => 1) (some 2) = 12 := by
  refine ⟨C94_negative_cantilever 1 1 3 _ _ (by norm_num) (by norm_num), ?_⟩
  have h2 : strideSum 2 3 3 (fun _ => 1) = 1 := by simp [strideSum, List.range_succ, List.filterMap]
  simp [cantilever, List.range_succ, h2]; norm_num

end
end SMT.Problems
