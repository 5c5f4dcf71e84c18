import Verif.Fp.EgoProps
import Verif.Ego.Props
import Verif.Kriging.OptimProps

/-!
# C110 (continued): choices and results of a run whose objective, predictions or criteria may be NaN
-/
set_option linter.unusedSectionVars false
set_option linter.unusedSimpArgs false
set_option linter.unusedVariables false

namespace SMT.Fp.Ego
open SMT.Fp

variable {K : Type} [Field K] [LinearOrder K] [IsStrictOrderedRing K]

theorem isNan_iff (v : X K) : isNan v = true ↔ v = .nan := by cases v <;> simp [isNan]

theorem lt_irrefl' (a : X K) : a.lt a = false := by
  cases a with
  | nan => rfl
  | inf s => cases s <;> rfl
  | fin a => exact decide_eq_false (lt_irrefl _)

theorem lt_trans' {a b c : X K} (h1 : a.lt b = true) (h2 : b.lt c = true) : a.lt c = true := by
  cases a with
  | nan => simp [X.lt] at h1
  | inf s =>
    cases b with
    | nan => simp [X.lt] at h1
    | inf t => cases c <;> cases s <;> cases t <;> simp_all [X.lt]
    | fin b => cases c with
      | nan => simp [X.lt] at h2
      | inf t => cases s <;> cases t <;> simp_all [X.lt]
      | fin c => simp_all [X.lt]
  | fin a =>
    cases b with
    | nan => simp [X.lt] at h1
    | inf t => cases c <;> cases t <;> simp_all [X.lt]
    | fin b => cases c with
      | nan => simp [X.lt] at h2
      | inf t => simp_all [X.lt]
      | fin c =>
        simp only [X.lt, decide_eq_true_eq] at h1 h2 ⊢
        exact h1.trans h2

theorem not_lt_trans {a b c : X K} (hb : b ≠ .nan) (h1 : b.lt a = false) (h2 : c.lt b = false) (hc : c ≠ .nan) (ha : a ≠ .nan) : c.lt a = false := by
  cases a with
  | nan => exact absurd rfl ha
  | inf s =>
    cases b with
    | nan => exact absurd rfl hb
    | inf t => cases c <;> cases s <;> cases t <;> simp_all [X.lt]
    | fin b => cases c with
      | nan => exact absurd rfl hc
      | inf t => cases s <;> cases t <;> simp_all [X.lt]
      | fin c => cases s <;> simp_all [X.lt]
  | fin a =>
    cases b with
    | nan => exact absurd rfl hb
    | inf t => cases c with
      | nan => exact absurd rfl hc
      | inf s => cases s <;> cases t <;> simp_all [X.lt]
      | fin c => cases t <;> simp_all [X.lt]
    | fin b => cases c with
      | nan => exact absurd rfl hc
      | inf t => cases t <;> simp_all [X.lt]
      | fin c =>
        simp only [X.lt, decide_eq_false_iff_not, not_lt] at h1 h2 ⊢
        exact h1.trans h2

/-! ## `np.argmin` and `np.min` -/

/-- What `np.argmin` returns: the place of the first NaN, or if there is none of the first least value. -/
def IsChoice (ys : List (X K)) (i : ℕ) (y : X K) : Prop :=
  ys[i]? = some y ∧ ((y = .nan ∧ ∀ (j : ℕ) (v : X K), j < i → ys[j]? = some v → v ≠ .nan) ∨
    (.nan ∉ ys ∧ (∀ v ∈ ys, v.lt y = false) ∧ ∀ (j : ℕ) (v : X K), j < i → ys[j]? = some v → y.lt v = true))

theorem argminGo_spec (pre : List (X K)) (hpre : .nan ∉ pre) (m : X K) (best : ℕ) (hb : IsChoice pre best m) (rest : List (X K)) :
    ∃ y, IsChoice (pre ++ rest) (argminGo m best pre.length rest) y := by
  induction rest generalizing pre m best with
  | nil => exact ⟨m, by simpa [argminGo] using hb⟩
  | cons a rest ih =>
    obtain ⟨hb1, hb2⟩ := hb
    have hm : m ≠ .nan := fun h => hpre (h ▸ List.mem_of_getElem? hb1)
    have hb3 := hb2.resolve_left fun h => hm h.1
    rw [argminGo]
    by_cases hn : isNan a = true
    · rw [if_pos hn]
      rw [isNan_iff] at hn
      refine ⟨.nan, ?_, .inl ⟨rfl, ?_⟩⟩
      · rw [List.getElem?_append_right (le_refl _), hn]; simp
      · intro j v hj hv h
        rw [List.getElem?_append_left hj] at hv
        exact hpre (h ▸ List.mem_of_getElem? hv)
    · rw [if_neg hn]
      rw [isNan_iff] at hn
      have hpre' : (.nan : X K) ∉ pre ++ [a] := by
        rw [List.mem_append, not_or]
        exact ⟨hpre, fun h => hn (List.mem_singleton.1 h).symm⟩
      have hl : (pre ++ [a]).length = pre.length + 1 := by simp
      have happ : pre ++ a :: rest = (pre ++ [a]) ++ rest := by simp
      have hbl : best < pre.length := (List.getElem?_eq_some_iff.1 hb1).1
      by_cases hlt : a.lt m = true
      · rw [if_pos hlt, ← hl, happ]
        refine ih (pre ++ [a]) hpre' a pre.length ⟨by simp, .inr ⟨hpre', ?_, ?_⟩⟩
        · intro v hv
          rcases List.mem_append.1 hv with hv | hv
          · by_contra hc
            rw [Bool.not_eq_false] at hc
            have := lt_trans' hc hlt
            rw [hb3.2.1 v hv] at this
            exact absurd this (by simp)
          · rw [List.mem_singleton.1 hv]; exact lt_irrefl' a
        · intro j v hj hv
          rw [List.getElem?_append_left hj] at hv
          have h1 := hb3.2.1 v (List.mem_of_getElem? hv)
          have hvn : v ≠ .nan := fun h => hpre (h ▸ List.mem_of_getElem? hv)
          by_contra hc
          rw [Bool.not_eq_true] at hc
          have := not_lt_trans hvn h1 hc hn hm
          rw [this] at hlt
          exact absurd hlt (by simp)
      · rw [if_neg hlt, ← hl, happ]
        rw [Bool.not_eq_true] at hlt
        refine ih (pre ++ [a]) hpre' m best ⟨?_, .inr ⟨hpre', ?_, ?_⟩⟩
        · rw [List.getElem?_append_left hbl]; exact hb1
        · intro v hv
          rcases List.mem_append.1 hv with hv | hv
          · exact hb3.2.1 v hv
          · rw [List.mem_singleton.1 hv]; exact hlt
        · intro j v hj hv
          rw [List.getElem?_append_left (by omega)] at hv
          exact hb3.2.2 j v hj hv

/-- **C110** `np.argmin` of an array that may hold NaN and infinities: the first NaN if there is one, otherwise the first least value. -/
theorem C110_argmin (ys : List (X K)) : (ys = [] ↔ argmin ys = none) ∧ ∀ i, argmin ys = some i → ∃ y, IsChoice ys i y := by
  cases ys with
  | nil => exact ⟨by simp [argmin], by simp [argmin]⟩
  | cons a as =>
    refine ⟨by simp [argmin], ?_⟩
    intro i hi
    simp only [argmin, Option.some.injEq] at hi
    by_cases hn : isNan a = true
    · rw [if_pos hn] at hi
      rw [isNan_iff] at hn
      subst hi
      exact ⟨.nan, by simp [hn], .inl ⟨rfl, by simp⟩⟩
    · rw [if_neg hn] at hi
      rw [isNan_iff] at hn
      have := argminGo_spec [a] (by simpa using Ne.symm hn) a 0 ⟨rfl, .inr ⟨by simpa using Ne.symm hn, by simpa using lt_irrefl' a, by simp⟩⟩ as
      rw [← hi]
      exact this

theorem isChoice_unique {ys : List (X K)} {i j : ℕ} {y z : X K} (h1 : IsChoice ys i y) (h2 : IsChoice ys j z) : i = j := by
  wlog h : i < j generalizing i j y z with H
  · rcases lt_trichotomy i j with h' | h' | h'
    · exact absurd h' h
    · exact h'
    · exact (H h2 h1 h').symm
  · exfalso
    rcases h1.2 with ⟨e1, _⟩ | ⟨n1, l1, _⟩ <;> rcases h2.2 with ⟨e2, f2⟩ | ⟨n2, l2, f2⟩
    · exact f2 i y h h1.1 e1
    · exact n2 (e1 ▸ List.mem_of_getElem? h1.1)
    · exact n1 (e2 ▸ List.mem_of_getElem? h2.1)
    · have := f2 i y h h1.1
      rw [l1 z (List.mem_of_getElem? h2.1)] at this
      exact absurd this (by simp)

theorem minGo_spec (as : List (X K)) : ∀ m : X K, (minGo m as = .nan ↔ m = .nan ∨ .nan ∈ as) ∧
    (m ≠ .nan → .nan ∉ as → minGo m as ∈ m :: as ∧ ∀ v ∈ m :: as, v.lt (minGo m as) = false) := by
  induction as with
  | nil => intro m; exact ⟨by simp [minGo], fun _ _ => ⟨by simp [minGo], by intro v hv; simp at hv; rw [hv, minGo]; exact lt_irrefl' m⟩⟩
  | cons a as ih =>
    intro m
    rw [minGo]
    by_cases hm : isNan m = true
    · rw [if_pos hm]
      rw [isNan_iff] at hm
      refine ⟨by rw [(ih m).1]; simp [hm], fun h => absurd hm h⟩
    · rw [if_neg hm]
      rw [isNan_iff] at hm
      by_cases hn : isNan a = true
      · rw [if_pos hn]
        rw [isNan_iff] at hn
        refine ⟨by rw [(ih a).1]; simp [hn], fun _ h => absurd (by simp [hn]) h⟩
      · rw [if_neg hn]
        rw [isNan_iff] at hn
        have hc : (if a.lt m then a else m) ≠ .nan := by split <;> assumption
        obtain ⟨h1, h2⟩ := ih (if a.lt m then a else m)
        refine ⟨by rw [h1]; simp [hc, hm, Ne.symm hn], ?_⟩
        intro _ hnot
        rw [List.mem_cons, not_or] at hnot
        obtain ⟨h3, h4⟩ := h2 hc hnot.2
        generalize hg : minGo (if a.lt m then a else m) as = r at h3 h4
        have hr : r ≠ .nan := by rw [← hg]; intro h; rcases h1.1 h with h | h; exacts [hc h, hnot.2 h]
        refine ⟨?_, ?_⟩
        · rcases List.mem_cons.1 h3 with h | h
          · rw [h]; split <;> simp
          · simp [h]
        · intro v hv
          rcases List.mem_cons.1 hv with h | hv
          · subst h
            have := h4 _ (List.mem_cons_self)
            by_cases hl : a.lt v = true
            · rw [if_pos hl] at this
              by_contra hx
              rw [Bool.not_eq_false] at hx
              have := lt_trans' hl hx
              simp_all
            · rw [if_neg hl] at this; exact this
          · rcases List.mem_cons.1 hv with h | hv
            · subst h
              have := h4 _ (List.mem_cons_self)
              by_cases hl : v.lt m = true
              · rw [if_pos hl] at this; exact this
              · rw [if_neg hl] at this
                rw [Bool.not_eq_true] at hl
                exact not_lt_trans hm this hl hn hr
            · exact h4 v (List.mem_cons_of_mem _ hv)

/-- **C110** `np.min`, hence the current best value `f_min` of the expected improvement: NaN exactly when some recorded value is, otherwise a least one. -/
theorem C110_min (ys : List (X K)) (m : X K) (h : npMin ys = some m) : (m = .nan ↔ .nan ∈ ys) ∧ (.nan ∉ ys → m ∈ ys ∧ ∀ v ∈ ys, v.lt m = false) := by
  cases ys with
  | nil => simp [npMin] at h
  | cons a as =>
    simp only [npMin, Option.some.injEq] at h
    subst h
    obtain ⟨h1, h2⟩ := minGo_spec as a
    refine ⟨?_, ?_⟩
    · rw [h1]; simp [eq_comm]
    · intro hn
      rw [List.mem_cons, not_or] at hn
      exact h2 (Ne.symm hn.1) hn.2

example : npMin [.fin (3 : ℚ), .inf true, .fin 1] = some (.inf true) ∧ npMin [.fin (3 : ℚ), .nan, .fin 1] = some .nan := by decide +kernel
example : argmin [.fin (3 : ℚ), .fin 1, .nan, .fin 1, .nan] = some 2 ∧ argmin [.fin (3 : ℚ), .fin 1, .inf false, .fin 1] = some 1 := by decide +kernel

variable {P Q σ ε : Type}

/-- **C110** The next point: among the successful runs of the internal optimiser, one whose criterion is NaN is chosen if there is one (the first), in preference to every number; otherwise the first with a
least criterion. -/
theorem C110_next_point (runs : List (X K × P)) (h : runs ≠ []) :
    ∃ i v p, runs[i]? = some (v, p) ∧ choose runs = some p ∧ IsChoice (runs.map (·.1)) i v := by
  have hne : argmin (runs.map (·.1)) ≠ none := fun hc => h (by simpa using (C110_argmin _).1.2 hc)
  obtain ⟨i, hi⟩ := Option.ne_none_iff_exists'.1 hne
  obtain ⟨y, hy⟩ := (C110_argmin _).2 i hi
  have h1 := hy.1
  rw [List.getElem?_map] at h1
  cases hr : runs[i]? with
  | none => rw [hr] at h1; simp at h1
  | some q =>
    rw [hr] at h1
    simp only [Option.map_some, Option.some.injEq] at h1
    refine ⟨i, q.1, q.2, hr, ?_, by rw [h1]; exact hy⟩
    rw [choose, hi]
    simp [hr]

example : choose [(.fin (-3 : ℚ), "a"), (.nan, "b"), (.fin (-7), "c")] = some "b" := by decide +kernel

/-! ## Runs -/

/-- `_find_best_point` raises when a training value is NaN (see `C110_training_raises`). -/
def RaisesOnNan (O : Oracle P K σ ε) : Prop := ∀ s xs ys, .nan ∈ ys → ∃ e, O.find s xs ys = .error e

theorem optimize_ok {O : Oracle P K σ ε} {f : Q → X K} {fold : P → Q} {nIter nPar : ℕ} {xdoe : List P} {ydoe : List (X K)} {s : σ} {r : SMT.Ego.Result P Q (X K)}
    (h : optimize O f fold nIter nPar xdoe ydoe s = .ok (some r)) : (∃ s', loop O f fold nPar nIter xdoe ydoe s = .ok ((r.xData, r.yData), s')) ∧
      argmin r.yData = some r.ind ∧ (∃ x, r.xData[r.ind]? = some x ∧ r.xOpt = fold x) ∧ r.yData[r.ind]? = some r.yOpt := by
  unfold optimize at h
  split at h
  · cases h
  · rename_i xs ys s' hl
    simp only [Except.ok.injEq] at h
    split at h
    · cases h
    · rename_i i hi
      split at h
      · rename_i x y hx hy
        simp only [Option.some.injEq] at h
        subst h
        exact ⟨⟨s', hl⟩, hi, ⟨x, hx, rfl⟩, hy⟩
      · cases h

/-- **C110** The result of a run, whatever the surrogate, the optimiser, the objective and the exceptions: if a recorded value is NaN the reported optimum is NaN - the first of them - even if all the other
values are numbers; otherwise it is the first least recorded value. -/
theorem C110_result {O : Oracle P K σ ε} {f : Q → X K} {fold : P → Q} {nIter nPar : ℕ} {xdoe : List P} {ydoe : List (X K)} {s : σ} {r : SMT.Ego.Result P Q (X K)}
    (h : optimize O f fold nIter nPar xdoe ydoe s = .ok (some r)) : IsChoice r.yData r.ind r.yOpt ∧ (r.yOpt = .nan ↔ .nan ∈ r.yData) ∧ (∃ x, r.xData[r.ind]? = some x ∧ r.xOpt = fold x) := by
  obtain ⟨_, h1, h2, h3⟩ := optimize_ok h
  obtain ⟨y, hy⟩ := (C110_argmin _).2 _ h1
  have : y = r.yOpt := by
    have := hy.1
    rw [h3] at this
    exact (Option.some.injEq _ _ ▸ this).symm
  subst this
  refine ⟨hy, ⟨fun e => e ▸ List.mem_of_getElem? h3, ?_⟩, h2⟩
  intro hm
  rcases hy.2 with ⟨e, _⟩ | ⟨e, _⟩
  · exact e
  · exact absurd hm e

theorem enrich_spec {O : Oracle P K σ ε} : ∀ (p : ℕ) (xs : List P) (ys : List (X K)) (s : σ) (r : (List P × List (X K)) × σ), xs.length = ys.length → enrich O p xs ys s = .ok r →
    ∃ nx ny, r.1 = (xs ++ nx, ys ++ ny) ∧ nx.length = ny.length ∧ nx.length ≤ p := by
  intro p
  induction p with
  | zero =>
    intro xs ys s r hl h
    simp only [enrich, Except.ok.injEq] at h
    subst h
    exact ⟨[], [], by simp, rfl, by simp⟩
  | succ p ih =>
    intro xs ys s r hl h
    rw [enrich] at h
    split at h
    · cases h
    · simp only [Except.ok.injEq] at h
      subst h
      exact ⟨[], [], by simp, rfl, by simp⟩
    · rename_i x s' hf
      split at h
      · cases h
      · rename_i v s'' hv
        obtain ⟨nx, ny, h1, h2, h3⟩ := ih _ _ _ _ (by simp [hl]) h
        exact ⟨x :: nx, v :: ny, by rw [h1]; simp, by simp [h2], by simp; omega⟩

theorem enrich_raises {O : Oracle P K σ ε} (hO : RaisesOnNan O) {p : ℕ} (hp : 1 ≤ p) {xs : List P} {ys : List (X K)} (s : σ) (hn : .nan ∈ ys) : ∃ e, enrich O p xs ys s = .error e := by
  obtain ⟨p, rfl⟩ : ∃ q, p = q + 1 := ⟨p - 1, by omega⟩
  obtain ⟨e, he⟩ := hO s xs ys hn
  exact ⟨e, by rw [enrich, he]⟩

/-- **C110** A NaN before the last iteration ends the run with an exception: if a recorded value is NaN and at least one iteration remains, `optimize` raises (all evaluations so far are lost). -/
theorem C110_nan_raises {O : Oracle P K σ ε} (hO : RaisesOnNan O) (f : Q → X K) (fold : P → Q) {nPar k : ℕ} (hp : 1 ≤ nPar) (hk : 1 ≤ k) (xs : List P) (ys : List (X K)) (s : σ) (hn : .nan ∈ ys) :
    ∃ e, optimize O f fold k nPar xs ys s = .error e := by
  obtain ⟨k, rfl⟩ : ∃ q, k = q + 1 := ⟨k - 1, by omega⟩
  obtain ⟨e, he⟩ := enrich_raises hO hp (xs := xs) s hn
  exact ⟨e, by rw [optimize, loop, he]⟩

theorem loop_late {O : Oracle P K σ ε} (hO : RaisesOnNan O) {f : Q → X K} {fold : P → Q} {nPar : ℕ} (hp : 1 ≤ nPar) : ∀ (k : ℕ) (xs : List P) (ys : List (X K)) (s : σ) (r : (List P × List (X K)) × σ),
    xs.length = ys.length → 1 ≤ k → loop O f fold nPar k xs ys s = .ok r → r.1.1.length = r.1.2.length ∧ ∀ i : ℕ, r.1.2[i]? = some .nan → r.1.2.length - nPar ≤ i := by
  intro k
  induction k with
  | zero => intro xs ys s r _ h; omega
  | succ k ih =>
    intro xs ys s r hl _ h
    rw [loop] at h
    split at h
    · cases h
    · rename_i xs' ys' s' he
      have hn : (.nan : X K) ∉ ys := by
        intro hn
        obtain ⟨e, h'⟩ := enrich_raises (O := O) hO hp (xs := xs) s hn
        rw [h'] at he
        cases he
      obtain ⟨nx, ny, h1, h2, h3⟩ := enrich_spec nPar xs ys s _ hl he
      simp only [Prod.mk.injEq] at h1
      obtain ⟨rfl, rfl⟩ := h1
      have hlen : (xs ++ nx).length = (ys ++ ny).length := by simp [hl, h2]
      have hset : (SMT.Ego.setLastN nPar (ys ++ ny) ((SMT.Ego.lastN nPar (xs ++ nx)).map fun x => f (fold x))).length = (ys ++ ny).length := by
        unfold SMT.Ego.setLastN SMT.Ego.lastN
        rw [if_neg (by omega), if_neg (by omega)]
        simp only [List.length_append, List.length_take, List.length_map, List.length_drop]
        simp only [List.length_append] at hlen
        omega
      have hb : ((SMT.Ego.lastN nPar (xs ++ nx)).map fun x => f (fold x)).length = (SMT.Ego.lastN nPar (ys ++ ny)).length := by
        unfold SMT.Ego.lastN
        rw [if_neg (by omega), if_neg (by omega), List.length_map, List.length_drop, List.length_drop, hlen]
      by_cases hk : 1 ≤ k
      · exact ih _ _ _ _ (by rw [hset, hlen]) hk h
      · have : k = 0 := by omega
        subst this
        simp only [loop, Except.ok.injEq] at h
        subst h
        refine ⟨by rw [hset, hlen], ?_⟩
        intro i hi
        by_contra hc
        rw [not_le, hset] at hc
        dsimp only at hi
        rw [SMT.Ego.setLast_get nPar _ _ hb, if_neg (by omega), if_pos hc] at hi
        have : i < ys.length := by
          simp only [List.length_append] at hc
          omega
        rw [List.getElem?_append_left this] at hi
        exact hn (List.mem_of_getElem? hi)

/-- **C110** Hence, when a run with iterations returns at all, only values of the last batch can be NaN; and if one is, the run reports NaN although every value recorded before is a number. -/
theorem C110_nan_only_last {O : Oracle P K σ ε} (hO : RaisesOnNan O) {f : Q → X K} {fold : P → Q} {nIter nPar : ℕ} (hp : 1 ≤ nPar) (hk : 1 ≤ nIter) {xdoe : List P} {ydoe : List (X K)}
    (hl : xdoe.length = ydoe.length) {s : σ} {r : SMT.Ego.Result P Q (X K)} (h : optimize O f fold nIter nPar xdoe ydoe s = .ok (some r)) :
    (∀ i : ℕ, r.yData[i]? = some .nan → r.yData.length - nPar ≤ i) ∧ (r.yOpt = .nan → r.yData.length - nPar ≤ r.ind) := by
  obtain ⟨⟨s', h1⟩, _, _, h4⟩ := optimize_ok h
  obtain ⟨_, h2⟩ := loop_late hO hp nIter xdoe ydoe s _ hl hk h1
  exact ⟨h2, fun e => h2 _ (by rw [h4, e])⟩

/-! ## Why `_find_best_point` raises: training the surrogate on NaN -/

theorem evalX_nan (F : Format K) (g : ℕ → X K) (t : Tree) (h : ∃ i ∈ t.leaves, g i = .nan) : t.evalX F g = .nan := by
  induction t with
  | leaf i =>
    obtain ⟨j, hj, e⟩ := h
    simp only [Tree.leaves, List.mem_singleton] at hj
    rw [← hj, Tree.evalX]
    exact e
  | node a b ha hb =>
    obtain ⟨j, hj, e⟩ := h
    rw [Tree.leaves, List.mem_append] at hj
    rw [Tree.evalX]
    rcases hj with hj | hj
    · rw [ha ⟨j, hj, e⟩, F.addX_nan_left]
    · rw [hb ⟨j, hj, e⟩, F.addX_nan_right]

/-- **C110** One NaN among the training outputs makes every standardised output NaN, in whatever order NumPy adds them and whatever the standard deviation is. So `solve_triangular` (`check_finite`) is given
NaN for every hyper-parameter vector and raises `ValueError` before the likelihood has a value: every attempt of the hyper-parameter optimisation raises without an evaluation, and then training raises, after
`nb_ill_matrix + 1` attempts. -/
theorem C110_training_raises (F : Format K) {t : Tree} {ys : List (X K)} (ht : t.Adds ys.length) (s : X K) (hn : .nan ∈ ys) :
    (∀ v ∈ standardY F t s ys, v = .nan) ∧
    ∀ {Θ V : Type} [LinearOrder V] (rlf : Θ → SMT.Krg.Optim.Val V) (floor : V) (nb fuel : ℕ), nb + 1 ≤ fuel →
      ∃ st, SMT.Krg.Optim.optimize rlf floor nb fuel (fun _ => .raises []) = some (.failed st (nb + 1)) := by
  refine ⟨?_, ?_⟩
  · intro v hv
    obtain ⟨i, hi⟩ := List.mem_iff_getElem?.1 hn
    have hlt : i < ys.length := (List.getElem?_eq_some_iff.1 hi).1
    have e : t.evalX F (fun i => ys.getD i .nan) = .nan := evalX_nan F _ t ⟨i, ht.mem_iff.2 (List.mem_range.2 hlt), by rw [List.getD_eq_getElem?_getD, hi]; rfl⟩
    rw [standardY] at hv
    rw [e, F.divX_nan_left] at hv
    obtain ⟨y, _, rfl⟩ := List.mem_map.1 hv
    rw [show F.subX y .nan = .nan from F.addX_nan_right _, F.divX_nan_left]
  · intro Θ V _ rlf floor nb fuel hf
    obtain ⟨st, h | ⟨θ, _, _, hs, _⟩⟩ := SMT.Krg.Optim.C65_all_raise (rlf := rlf) (floor := floor) (nb := nb) (fuel := fuel) (att := fun _ => .raises []) (fun _ => ⟨[], rfl⟩) hf
    · exact ⟨st, h.1⟩
    · exfalso
      obtain ⟨j, hj, h⟩ := hs
      simp [SMT.Krg.Optim.evaluated] at h

/-! ## Examples -/

/-- A surrogate that proposes `x + 1` after the last recorded `x`, predicts 0, and raises on NaN. -/
def demoOracle : Oracle ℚ ℚ Unit Unit where
  find _ xs ys := if ys.any isNan then .error () else .ok (some (xs.getLastD 0 + 1), ())
  virt _ _ _ := .ok (.fin 0, ())

example : RaisesOnNan demoOracle := by
  intro s xs ys h
  refine ⟨(), ?_⟩
  show (if ys.any isNan then _ else _) = _
  rw [if_pos]
  exact List.any_eq_true.2 ⟨.nan, h, rfl⟩

/-- An objective that fails at 3. -/
def demoFun (x : ℚ) : X ℚ := if x = 3 then .nan else .fin (5 - x)

/-- Two iterations from `{0, 1}` evaluate 2 and 3: the reported optimum is NaN, at 3, although 2 has value 3. One iteration reports 3 at 2; three raise. -/
example : ((optimize demoOracle demoFun id 2 1 [0, 1] [.fin 5, .fin 4] ()).toOption.bind fun r => r.map fun r => (r.xOpt, r.yOpt, r.ind)) = some (3, .nan, 3) ∧
    ((optimize demoOracle demoFun id 1 1 [0, 1] [.fin 5, .fin 4] ()).toOption.bind fun r => r.map fun r => (r.xOpt, r.yOpt, r.ind)) = some (2, .fin 3, 2) ∧
    (optimize demoOracle demoFun id 3 1 [0, 1] [.fin 5, .fin 4] ()).toOption.isNone = true := by decide +kernel

end SMT.Fp.Ego
