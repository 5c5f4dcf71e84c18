import Verif.Fp.Optim
import Verif.Fp.IdwProps

/-!
# C120: the optimiser of the neural network in floating-point arithmetic: histories, stopping, undefined costs
-/
set_option linter.unusedSectionVars false
set_option linter.unusedSimpArgs false
set_option linter.unusedVariables false

namespace SMT.Fp.Optim
open SMT.Nn

variable {K ι : Type} [Field K] [LinearOrder K] [IsStrictOrderedRing K] (F : Format K)

/-! ### Histories -/

/-- The update rules of the code do not touch the histories. -/
def KeepsX (upd : X K → Opt (X K) ι → Opt (X K) ι) : Prop := ∀ r o, (upd r o).costs = o.costs ∧ (upd r o).designs = o.designs ∧ (upd r o).prev = o.prev ∧ (upd r o).dir = o.dir ∧ (upd r o).iter = o.iter

/-- Gradient descent or Adam, with any square root and power and any constant. -/
def Rule (upd : X K → Opt (X K) ι → Opt (X K) ι) : Prop := upd = gdX F ∨ ∃ root pow eps, upd = adamX F root pow eps

theorem Rule.keeps {upd : X K → Opt (X K) ι → Opt (X K) ι} (h : Rule F upd) : KeepsX upd := by
  rcases h with rfl | ⟨root, pow, eps, rfl⟩
  · exact fun _ _ => ⟨rfl, rfl, rfl, rfl, rfl⟩
  · exact fun _ _ => ⟨rfl, rfl, rfl, rfl, rfl⟩

theorem keeps_ls (upd : X K → Opt (X K) ι → Opt (X K) ι) (hu : KeepsX upd) (f : (ι → X K) → X K) (rate : X K) : ∀ (fuel : ℕ) (tau : X K) (o o' : Opt (X K) ι),
    lsLoopX F f upd rate fuel tau o = some o' → o'.costs = o.costs ∧ o'.designs = o.designs := by
  intro fuel
  induction fuel with
  | zero => intro tau o o' h; simp [lsLoopX] at h
  | succ n ih =>
    intro tau o o' h
    rw [lsLoopX] at h
    split_ifs at h with h1 h2
    · rw [Option.some.injEq] at h; subst h; exact ⟨(hu _ _).1, (hu _ _).2.1⟩
    · rw [Option.some.injEq] at h; subst h; exact ⟨(hu _ _).1, (hu _ _).2.1⟩
    · obtain ⟨a, b⟩ := ih _ _ _ h
      exact ⟨a.trans (hu _ _).1, b.trans (hu _ _).2.1⟩

theorem step_hist (upd : X K → Opt (X K) ι → Opt (X K) ι) (hu : KeepsX upd) (f : (ι → X K) → X K) (g : (ι → X K) → ι → X K) (rate : X K) (fuel i : ℕ) (o o' : Opt (X K) ι)
    (h : optStepX F fuel f g upd rate i o = some o') : o'.costs = o.costs ++ [f o'.cur] ∧ o'.designs = o.designs ++ [o'.cur] := by
  unfold optStepX at h
  obtain ⟨o1, h1, rfl⟩ := Option.map_eq_some_iff.1 h
  obtain ⟨a, b⟩ := keeps_ls F upd hu f rate _ _ _ _ h1
  exact ⟨by simp [a], by simp [b]⟩

/-- Specification of the two stopping criteria, with the arithmetic and comparisons of the format: step `k` (from cost `k-1` to cost `k`) is small relative to the first cost, or
relative to the cost (at least `1e-6`) itself. -/
def SmallAbs (c : List (X K)) (k : ℕ) : Prop :=
  (F.subX (c.getD k .nan) (c.getD (k - 1) .nan)).abs.lt (F.mulX (F.of (1 / 10000000)) (c.getD 0 .nan)) = true
def SmallRel (c : List (X K)) (k : ℕ) : Prop :=
  (F.divX (F.subX (c.getD k .nan) (c.getD (k - 1) .nan)).abs (pyMax (c.getD k .nan).abs (F.of (1 / 1000000)))).lt (F.of (1 / 10000000)) = true

instance (c : List (X K)) (k : ℕ) : Decidable (SmallAbs F c k) := by unfold SmallAbs; infer_instance
instance (c : List (X K)) (k : ℕ) : Decidable (SmallRel F c k) := by unfold SmallRel; infer_instance

/-- What the optimiser stops on: the last 101 steps, none of them the first or second, are all small by one of the criteria. -/
def Converged (c : List (X K)) : Prop :=
  104 ≤ c.length ∧ ((∀ k, c.length - 101 ≤ k → k < c.length → SmallAbs F c k) ∨ ∀ k, c.length - 101 ≤ k → k < c.length → SmallRel F c k)

theorem getD_app (c d : List (X K)) (k : ℕ) (h : k < c.length) : (c ++ d).getD k .nan = c.getD k .nan := by
  simp [List.getD_eq_getElem?_getD, List.getElem?_append_left h]

/-- Meaning of the counters after pass `i - 1`. -/
def CountOk (i : ℕ) (n : ℕ × ℕ) (c : List (X K)) : Prop :=
  c.length = i + 1 ∧ (∀ t, t ≤ n.1 ↔ t ≤ i - 2 ∧ ∀ k, c.length - t ≤ k → k < c.length → SmallAbs F c k) ∧
    ∀ t, t ≤ n.2 ↔ t ≤ i - 2 ∧ ∀ k, c.length - t ≤ k → k < c.length → SmallRel F c k

theorem trail_step (P P' : ℕ → Prop) (i n L : ℕ) (hP : ∀ k < L, k ≠ 0 → (P' k ↔ P k)) (hL : L = i + 1) (hi : 2 ≤ i) (h : ∀ t, t ≤ n ↔ t ≤ i - 2 ∧ ∀ k, L - t ≤ k → k < L → P k) [Decidable (P' L)] :
    ∀ t, t ≤ (if P' L then n + 1 else 0) ↔ t ≤ i + 1 - 2 ∧ ∀ k, L + 1 - t ≤ k → k < L + 1 → P' k := by
  have hn : n ≤ i - 2 := ((h n).1 le_rfl).1
  intro t
  by_cases hp : P' L
  · rw [if_pos hp]
    cases t with
    | zero => simp; omega
    | succ t =>
      have := h t
      constructor
      · intro ht
        obtain ⟨a, b⟩ := this.1 (by omega)
        refine ⟨by omega, fun k hk1 hk2 => ?_⟩
        by_cases hk : k = L
        · rw [hk]; exact hp
        · exact (hP k (by omega) (by omega)).2 (b k (by omega) (by omega))
      · rintro ⟨a, b⟩
        have := this.2 ⟨by omega, fun k hk1 hk2 => (hP k hk2 (by omega)).1 (b k (by omega) (by omega))⟩
        omega
  · rw [if_neg hp]
    constructor
    · intro ht
      have : t = 0 := by omega
      subst this
      exact ⟨by omega, fun k hk1 hk2 => by omega⟩
    · rintro ⟨a, b⟩
      by_contra hc
      exact hp (b L (by omega) (by omega))

theorem counters_ok (i : ℕ) (n : ℕ × ℕ) (c : List (X K)) (x : X K) (h : CountOk F i n c) : CountOk F (i + 1) (countersX F i n (c ++ [x])) (c ++ [x]) := by
  obtain ⟨h1, h2, h3⟩ := h
  refine ⟨by simp [h1], ?_⟩
  by_cases hi : i > 1
  · have hA : ∀ k < c.length, k ≠ 0 → (SmallAbs F (c ++ [x]) k ↔ SmallAbs F c k) := fun k hk _ => by
      unfold SmallAbs
      rw [getD_app c _ k hk, getD_app c _ (k - 1) (by omega), getD_app c _ 0 (by omega)]
    have hR : ∀ k < c.length, k ≠ 0 → (SmallRel F (c ++ [x]) k ↔ SmallRel F c k) := fun k hk _ => by
      unfold SmallRel
      rw [getD_app c _ k hk, getD_app c _ (k - 1) (by omega)]
    unfold countersX
    rw [if_pos hi]
    have e : (c ++ [x]).length = c.length + 1 := by simp
    have e1 : c.length + 1 - 1 = c.length := by omega
    have e2 : c.length + 1 - 2 = c.length - 1 := by omega
    simp only [e, e1, e2]
    constructor
    · exact trail_step (SmallAbs F c) (SmallAbs F (c ++ [x])) i n.1 c.length hA h1 hi h2
    · exact trail_step (SmallRel F c) (SmallRel F (c ++ [x])) i n.2 c.length hR h1 hi h3
  · unfold countersX
    rw [if_neg hi]
    have e : i - 2 = 0 := by omega
    have e' : i + 1 - 2 = 0 := by omega
    rw [e] at h2 h3
    have a1 : ∀ t, t ≤ n.1 ↔ t = 0 := fun t => by
      rw [h2 t]
      constructor
      · rintro ⟨a, -⟩; omega
      · rintro rfl; exact ⟨le_rfl, fun k hk1 hk2 => by omega⟩
    have a2 : ∀ t, t ≤ n.2 ↔ t = 0 := fun t => by
      rw [h3 t]
      constructor
      · rintro ⟨a, -⟩; omega
      · rintro rfl; exact ⟨le_rfl, fun k hk1 hk2 => by omega⟩
    rw [e']
    refine ⟨fun t => ?_, fun t => ?_⟩
    · rw [a1]
      exact ⟨by rintro rfl; exact ⟨le_rfl, fun k hk1 hk2 => by omega⟩, fun ⟨a, _⟩ => by omega⟩
    · rw [a2]
      exact ⟨by rintro rfl; exact ⟨le_rfl, fun k hk1 hk2 => by omega⟩, fun ⟨a, _⟩ => by omega⟩

theorem stop_iff (i : ℕ) (n : ℕ × ℕ) (c : List (X K)) (h : CountOk F (i + 1) n c) : (i > 1 ∧ (n.1 > 100 ∨ n.2 > 100)) ↔ Converged F c := by
  obtain ⟨h1, h2, h3⟩ := h
  unfold Converged
  have a := h2 101
  have b := h3 101
  constructor
  · rintro ⟨hi, hh⟩
    rcases hh with hh | hh
    · obtain ⟨p, q⟩ := a.1 hh
      exact ⟨by omega, Or.inl q⟩
    · obtain ⟨p, q⟩ := b.1 hh
      exact ⟨by omega, Or.inr q⟩
  · rintro ⟨hl, hh⟩
    refine ⟨by omega, ?_⟩
    rcases hh with hh | hh
    · exact Or.inl (a.2 ⟨by omega, hh⟩)
    · exact Or.inr (b.2 ⟨by omega, hh⟩)

theorem loop_spec (upd : X K → Opt (X K) ι → Opt (X K) ι) (hu : KeepsX upd) (f : (ι → X K) → X K) (g : (ι → X K) → ι → X K) (rate : X K) (fuel : ℕ) :
    ∀ (left i : ℕ) (n : ℕ × ℕ) (o o' : Opt (X K) ι),
    CountOk F i n o.costs → o.costs = o.designs.map f → o.designs.getLast? = some o.cur → (∀ l, l < o.costs.length → 0 < l → ¬Converged F (o.costs.take (l + 1))) →
    optLoopX F fuel f g upd rate left i n o = some o' →
    o.designs <+: o'.designs ∧ o'.costs = o'.designs.map f ∧ o'.designs.getLast? = some o'.cur ∧ o'.costs.length ≤ i + left + 1 ∧
      (o'.costs.length < i + left + 1 → Converged F o'.costs) ∧ (∀ l, 0 < l → l + 1 < o'.costs.length → ¬Converged F (o'.costs.take (l + 1))) := by
  intro left
  induction left with
  | zero =>
    intro i n o o' hc hd hl hn h
    rw [optLoopX, Option.some.injEq] at h
    subst h
    exact ⟨List.prefix_rfl, hd, hl, by rw [hc.1], fun h => by rw [hc.1] at h; omega, fun l h0 h1 => hn l (by omega) h0⟩
  | succ left ih =>
    intro i n o o' hc hd hl hn h
    rw [optLoopX] at h
    cases hs : optStepX F fuel f g upd rate i o with
    | none => rw [hs] at h; simp at h
    | some o1 =>
      rw [hs] at h
      obtain ⟨e1, e2⟩ := step_hist F upd hu f g rate fuel i o o1 hs
      have hc1 : CountOk F (i + 1) (countersX F i n o1.costs) o1.costs := by rw [e1]; exact counters_ok F i n o.costs _ hc
      have hst := stop_iff F i _ _ hc1
      have hd1 : o1.costs = o1.designs.map f := by rw [e1, e2, List.map_append, hd]; rfl
      have hl1 : o1.designs.getLast? = some o1.cur := by rw [e2]; simp
      have hlen : o1.costs.length = i + 2 := hc1.1
      have hlen0 : o.costs.length = i + 1 := hc.1
      have hpre : o.designs <+: o1.designs := by rw [e2]; exact List.prefix_append _ _
      have htake : ∀ l, l < o.costs.length → o1.costs.take (l + 1) = o.costs.take (l + 1) := fun l hl => by
        rw [e1, List.take_append_of_le_length (by omega)]
      simp only at h
      by_cases hstop : i > 1 ∧ ((countersX F i n o1.costs).1 > 100 ∨ (countersX F i n o1.costs).2 > 100)
      · rw [if_pos hstop, Option.some.injEq] at h
        subst h
        refine ⟨hpre, hd1, hl1, by omega, fun _ => hst.1 hstop, fun l h0 h1 => ?_⟩
        rw [htake l (by omega)]
        exact hn l (by omega) h0
      · rw [if_neg hstop] at h
        obtain ⟨p1, p2, p3, p4, p5, p6⟩ := ih (i + 1) _ o1 o' hc1 hd1 hl1 (fun l h1 h0 => by
          by_cases hle : l < o.costs.length
          · rw [htake l hle]; exact hn l hle h0
          · rw [List.take_of_length_le (by omega)]
            exact fun hcv => hstop (hst.2 hcv)) h
        exact ⟨hpre.trans p1, p2, p3, by omega, fun hh => p5 (by omega), p6⟩

/-- **C120** Histories of an optimisation in floating-point arithmetic: the design history starts with the initial design and ends with the returned design; the cost history is the cost of
each design; there are at most `max_iter + 1` entries; if there are fewer, then the last 101 steps were all below one of the two tolerances; and the optimiser stops the first time this
is the case. -/
theorem C120_history {upd : X K → Opt (X K) ι → Opt (X K) ι} (hr : Rule F upd) (fuel : ℕ) (f : (ι → X K) → X K) (g : (ι → X K) → ι → X K) (rate : X K) (maxIter : ℕ) (x0 : ι → X K)
    (o : Opt (X K) ι) (h : optimizeX F fuel f g upd rate maxIter x0 = some o) :
    o.designs.head? = some x0 ∧ o.designs.getLast? = some o.cur ∧ o.costs = o.designs.map f ∧ o.costs.length ≤ maxIter + 1 ∧
      (o.costs.length < maxIter + 1 → Converged F o.costs) ∧ (∀ l, 0 < l → l + 1 < o.costs.length → ¬Converged F (o.costs.take (l + 1))) := by
  unfold optimizeX at h
  obtain ⟨p1, p2, p3, p4, p5, p6⟩ := loop_spec F upd (hr.keeps F) f g rate fuel maxIter 0 (0, 0) _ o
    ⟨rfl, fun t => ⟨fun ht => ⟨ht, fun k h1 h2 => by simp at ht h1 h2; omega⟩, fun ht => ht.1⟩, fun t => ⟨fun ht => ⟨ht, fun k h1 h2 => by simp at ht h1 h2; omega⟩, fun ht => ht.1⟩⟩
    rfl rfl (fun l h1 h2 => by simp at h1; omega) h
  refine ⟨?_, p3, p2, by omega, fun hh => p5 (by omega), p6⟩
  obtain ⟨t, ht⟩ := p1
  rw [← ht]; rfl

/-! ### Undefined and infinite costs -/

theorem abs_nan : (X.nan : X K).abs = .nan := rfl
theorem lt_nan_right (a : X K) : a.lt .nan = false := by cases a <;> rfl
theorem lt_nan_left (a : X K) : (X.nan : X K).lt a = false := rfl

theorem sub_nan_left (b : X K) : F.subX .nan b = .nan := F.addX_nan_left _
theorem sub_nan_right (a : X K) : F.subX a .nan = .nan := F.addX_nan_right _

/-- A difference that is NaN is never small. -/
theorem not_small_of_nan {c : List (X K)} {k : ℕ} (h : F.subX (c.getD k .nan) (c.getD (k - 1) .nan) = .nan) : ¬SmallAbs F c k ∧ ¬SmallRel F c k := by
  unfold SmallAbs SmallRel
  rw [h, abs_nan, F.divX_nan_left, lt_nan_left, lt_nan_left]
  exact ⟨by simp, by simp⟩

/-- **C120** A step from or to an undefined cost, or between two equal infinite costs, is never small: both counters restart. -/
theorem C120_undefined_step {c : List (X K)} {k : ℕ}
    (h : c.getD k .nan = .nan ∨ c.getD (k - 1) .nan = .nan ∨ ∃ s, c.getD k .nan = .inf s ∧ c.getD (k - 1) .nan = .inf s) : ¬SmallAbs F c k ∧ ¬SmallRel F c k := by
  refine not_small_of_nan F ?_
  rcases h with h | h | ⟨s, h1, h2⟩
  · rw [h]; exact sub_nan_left F _
  · rw [h]; exact sub_nan_right F _
  · rw [h1, h2]
    show (if s = !s then X.inf s else X.nan) = X.nan
    rw [if_neg (by cases s <;> decide)]

/-- **C120** Whatever the costs do, the optimiser does not stop within the 101 passes after an undefined cost: if cost `k` is NaN and the run stops before `max_iter` passes, at least 102 more
costs follow. -/
theorem C120_nan_delays {upd : X K → Opt (X K) ι → Opt (X K) ι} (hr : Rule F upd) (fuel : ℕ) (f : (ι → X K) → X K) (g : (ι → X K) → ι → X K) (rate : X K) (maxIter : ℕ) (x0 : ι → X K)
    (o : Opt (X K) ι) (h : optimizeX F fuel f g upd rate maxIter x0 = some o) {k : ℕ} (hk : k < o.costs.length) (hn : o.costs.getD k .nan = .nan) :
    o.costs.length = maxIter + 1 ∨ k + 102 < o.costs.length := by
  obtain ⟨-, -, -, h4, h5, -⟩ := C120_history F hr fuel f g rate maxIter x0 o h
  by_cases hl : o.costs.length < maxIter + 1
  · right
    obtain ⟨hlen, hc⟩ := h5 hl
    by_contra hcon
    by_cases hk2 : o.costs.length - 101 ≤ k
    · have := C120_undefined_step F (Or.inl hn)
      rcases hc with hc | hc
      · exact this.1 (hc k hk2 hk)
      · exact this.2 (hc k hk2 hk)
    · have hk3 : k + 1 - 1 = k := by omega
      have := C120_undefined_step F (c := o.costs) (k := k + 1) (Or.inr (Or.inl (by rw [hk3]; exact hn)))
      rcases hc with hc | hc
      · exact this.1 (hc (k + 1) (by omega) (by omega))
      · exact this.2 (hc (k + 1) (by omega) (by omega))
  · left; omega

theorem abs_lt_nonpos {a : X K} {b : X K} (hb : b = .nan ∨ b = .inf true ∨ ∃ y, b = .fin y ∧ y ≤ 0) : a.abs.lt b = false := by
  rcases hb with rfl | rfl | ⟨y, rfl, hy⟩
  · exact lt_nan_right _
  · cases a <;> rfl
  · cases a with
    | fin x => exact decide_eq_false (not_lt.2 (hy.trans (abs_nonneg x)))
    | inf s => rfl
    | nan => rfl

/-- **C120** If the first cost is NaN, minus infinity or not positive, no step ever meets the absolute criterion, so the absolute criterion never stops the run. -/
theorem C120_absolute_never {c : List (X K)} (h : c.getD 0 .nan = .nan ∨ c.getD 0 .nan = .inf true ∨ ∃ y, c.getD 0 .nan = .fin y ∧ y ≤ 0) (k : ℕ) : ¬SmallAbs F c k := by
  unfold SmallAbs
  rw [abs_lt_nonpos]
  · simp
  have hp : 0 ≤ (1 / 10000000 : K) := by norm_num
  rcases h with h | h | ⟨y, h, hy⟩
  · left; rw [h]; exact F.mulX_nan_right _
  · rw [h]
    rw [F.of_small (by rw [abs_of_nonneg hp]; exact le_trans (by norm_num) F.one_le_big)]
    have e : F.mulX (X.fin (F.rnd (1 / 10000000))) (X.inf true)
        = if F.rnd (1 / 10000000) = 0 then X.nan else X.inf (decide (F.rnd (1 / 10000000) < 0) != true) := rfl
    rw [e]
    by_cases hz : F.rnd (1 / 10000000) = 0
    · left; rw [if_pos hz]
    · right; left
      rw [if_neg hz, decide_eq_false (not_lt.2 (F.nonneg hp))]; rfl
  · rw [h]
    rw [F.of_small (by rw [abs_of_nonneg hp]; exact le_trans (by norm_num) F.one_le_big)]
    have h0 : F.rnd (1 / 10000000) * y ≤ 0 := mul_nonpos_of_nonneg_of_nonpos (F.nonneg hp) hy
    show F.of _ = X.nan ∨ F.of _ = X.inf true ∨ ∃ z, F.of _ = X.fin z ∧ z ≤ 0
    unfold Format.of
    split
    · right; right; exact ⟨_, rfl, F.nonpos h0⟩
    · rename_i hb
      right; left
      rw [decide_eq_true]
      rcases h0.lt_or_eq with h1 | h1
      · exact h1
      · rw [h1, F.zero, abs_zero] at hb
        exact absurd F.big_pos.le hb

/-- **C120** If the first cost overflowed to infinity, every step between finite costs whose difference is finite is small, however large it is. -/
theorem C120_overflow_small (hpos : 0 < F.rnd (1 / 10000000)) {c : List (X K)} (h : c.getD 0 .nan = .inf false) (k : ℕ) {d : K}
    (hd : F.subX (c.getD k .nan) (c.getD (k - 1) .nan) = .fin d) : SmallAbs F c k := by
  unfold SmallAbs
  rw [hd, h, F.of_small (by rw [abs_of_nonneg (by norm_num)]; exact le_trans (by norm_num) F.one_le_big)]
  show X.lt (X.fin |d|) (if F.rnd (1 / 10000000) = 0 then X.nan else X.inf (decide (F.rnd (1 / 10000000) < 0) != false)) = true
  rw [if_neg hpos.ne', decide_eq_false (not_lt.2 hpos.le)]
  rfl

/-- The difference of two finite numbers of the same sign does not overflow. -/
theorem sub_nonneg_fin {x y : K} (hx : F.Fin x) (hy : F.Fin y) (h0 : 0 ≤ x) (h1 : 0 ≤ y) : ∃ d, F.subX (.fin x) (.fin y) = .fin d := by
  have hb : |x + -y| ≤ F.big := by
    have a := hx.2
    have b := hy.2
    rw [abs_of_nonneg h0] at a
    rw [abs_of_nonneg h1] at b
    rw [abs_le]
    constructor <;> linarith
  exact ⟨_, F.of_small hb⟩

/-- **C120** If the first cost overflows to infinity and every cost from the third one on is a finite non-negative number, the optimiser stops after exactly 103 passes (or `max_iter` if that is
fewer), whether or not the costs still change. -/
theorem C120_overflow_start {upd : X K → Opt (X K) ι → Opt (X K) ι} (hr : Rule F upd) (hpos : 0 < F.rnd (1 / 10000000)) (fuel : ℕ) (f : (ι → X K) → X K) (g : (ι → X K) → ι → X K)
    (rate : X K) (maxIter : ℕ) (x0 : ι → X K) (o : Opt (X K) ι) (h : optimizeX F fuel f g upd rate maxIter x0 = some o) (h0 : f x0 = .inf false)
    (hc : ∀ k, 2 ≤ k → k < o.costs.length → ∃ y, o.costs.getD k .nan = .fin y ∧ F.Fin y ∧ 0 ≤ y) : o.costs.length = min (maxIter + 1) 104 := by
  obtain ⟨h1, h2, h3, h4, h5, h6⟩ := C120_history F hr fuel f g rate maxIter x0 o h
  have hfirst : o.costs.getD 0 .nan = .inf false := by
    rw [h3]
    obtain ⟨l, hl⟩ : ∃ l, o.designs = x0 :: l := by
      cases hd : o.designs with
      | nil => rw [hd] at h1; simp at h1
      | cons a l => rw [hd] at h1; simp at h1; exact ⟨l, by rw [h1]⟩
    rw [hl]
    exact h0
  by_cases hl : o.costs.length < maxIter + 1
  · have hge := (h5 hl).1
    have hle : o.costs.length ≤ 104 := by
      by_contra hcon
      refine h6 103 (by norm_num) (by omega) ?_
      refine ⟨by rw [List.length_take]; omega, Or.inl fun k hk1 hk2 => ?_⟩
      rw [List.length_take] at hk1 hk2
      have e : ∀ j, j < 104 → (o.costs.take (103 + 1)).getD j .nan = o.costs.getD j .nan := fun j hj => by
        simp only [List.getD_eq_getElem?_getD]
        rw [List.getElem?_take_of_lt hj]
      obtain ⟨y, hy, fy, py⟩ := hc k (by omega) (by omega)
      obtain ⟨z, hz, fz, pz⟩ := hc (k - 1) (by omega) (by omega)
      obtain ⟨d, hd⟩ := sub_nonneg_fin F fy fz py pz
      refine C120_overflow_small F hpos (by rw [e 0 (by norm_num)]; exact hfirst) k (d := d) ?_
      rw [e k (by omega), e (k - 1) (by omega), hy, hz]
      exact hd
    omega
  · by_cases hle : o.costs.length ≤ 104
    · omega
    · exfalso
      refine h6 103 (by norm_num) (by omega) ?_
      refine ⟨by rw [List.length_take]; omega, Or.inl fun k hk1 hk2 => ?_⟩
      rw [List.length_take] at hk1 hk2
      have e : ∀ j, j < 104 → (o.costs.take (103 + 1)).getD j .nan = o.costs.getD j .nan := fun j hj => by
        simp only [List.getD_eq_getElem?_getD]
        rw [List.getElem?_take_of_lt hj]
      obtain ⟨y, hy, fy, py⟩ := hc k (by omega) (by omega)
      obtain ⟨z, hz, fz, pz⟩ := hc (k - 1) (by omega) (by omega)
      obtain ⟨d, hd⟩ := sub_nonneg_fin F fy fz py pz
      refine C120_overflow_small F hpos (by rw [e 0 (by norm_num)]; exact hfirst) k (d := d) ?_
      rw [e k (by omega), e (k - 1) (by omega), hy, hz]
      exact hd

end SMT.Fp.Optim
