import Verif.Ego.Model
import Verif.MixedInt.Props
import Mathlib.Analysis.SpecialFunctions.Gaussian.GaussianIntegral
import Mathlib.MeasureTheory.Integral.IntegralEqImproper

/-!
# Properties C19, C20, C21: efficient global optimisation
-/
namespace SMT.Ego
set_option linter.unusedSectionVars false
set_option linter.unusedSimpArgs false

variable {P Q K σ : Type} [LinearOrder K]

/-! ## argmin -/

theorem argminGo_spec (as : List K) : ∀ (m : K) (b i : Nat), b < i →
    let r := argminGo m b i as
    (r = b ∧ ∀ a ∈ as, m ≤ a) ∨ (∃ t, r = i + t ∧ ∃ v, as[t]? = some v ∧ v < m ∧
      (∀ a ∈ as, v ≤ a) ∧ ∀ (s : Nat) w, s < t → as[s]? = some w → v < w) := by
  induction as with
  | nil => intro m b i _; left; simp [argminGo]
  | cons a as ih =>
    intro m b i hb
    simp only [argminGo]
    by_cases hlt : a < m
    · rw [if_pos hlt]
      right
      rcases ih a i (i + 1) (by omega) with ⟨h1, h2⟩ | ⟨t, hr, v, hv, hav, hall, hbef⟩
      · refine ⟨0, by rw [h1]; rfl, a, rfl, hlt, ?_, ?_⟩
        · intro c hc; rcases List.mem_cons.1 hc with rfl | hc
          · exact le_refl _
          · exact h2 c hc
        · intro s w hs; omega
      · refine ⟨t + 1, by rw [hr]; omega, v, by simpa using hv, hav.trans hlt, ?_, ?_⟩
        · intro c hc; rcases List.mem_cons.1 hc with rfl | hc
          · exact hav.le
          · exact hall c hc
        · intro s w hs hw
          cases s with
          | zero => simp at hw; rw [← hw]; exact hav
          | succ s => exact hbef s w (by omega) (by simpa using hw)
    · rw [if_neg hlt]
      rcases ih m b (i + 1) (by omega) with ⟨h1, h2⟩ | ⟨t, hr, v, hv, hav, hall, hbef⟩
      · left; refine ⟨h1, ?_⟩
        intro c hc; rcases List.mem_cons.1 hc with rfl | hc
        · exact not_lt.1 hlt
        · exact h2 c hc
      · right
        refine ⟨t + 1, by rw [hr]; omega, v, by simpa using hv, hav, ?_, ?_⟩
        · intro c hc; rcases List.mem_cons.1 hc with rfl | hc
          · exact hav.le.trans (not_lt.1 hlt)
          · exact hall c hc
        · intro s w hs hw
          cases s with
          | zero => simp at hw; rw [← hw]; exact lt_of_lt_of_le hav (not_lt.1 hlt)
          | succ s => exact hbef s w (by omega) (by simpa using hw)

/-- `np.argmin` returns the first position of the least element, and fails only on the empty array. -/
theorem argmin_spec (l : List K) (hl : l ≠ []) : ∃ i v, argmin l = some i ∧ l[i]? = some v ∧
    (∀ a ∈ l, v ≤ a) ∧ ∀ (s : Nat) w, s < i → l[s]? = some w → v < w := by
  cases l with
  | nil => exact absurd rfl hl
  | cons a as =>
    simp only [argmin]
    rcases argminGo_spec as a 0 1 (by omega) with ⟨h1, h2⟩ | ⟨t, hr, v, hv, hav, hall, hbef⟩
    · refine ⟨_, a, rfl, by rw [h1]; rfl, ?_, by rw [h1]; intro s w hs; omega⟩
      intro c hc; rcases List.mem_cons.1 hc with rfl | hc
      · exact le_refl _
      · exact h2 c hc
    · refine ⟨_, v, rfl, by rw [hr, Nat.add_comm]; simpa using hv, ?_, ?_⟩
      · intro c hc; rcases List.mem_cons.1 hc with rfl | hc
        · exact hav.le
        · exact hall c hc
      · intro s w hs hw
        rw [hr] at hs
        cases s with
        | zero => simp at hw; rw [← hw]; exact hav
        | succ s => exact hbef s w (by omega) (by simpa using hw)

/-! ## The internal optimisation loop -/

/-- State before attempt number `k` (1-based) when all earlier attempts are made. -/
def stateBefore (attempt : σ → List (Option (K × P)) × σ) (s : σ) : Nat → σ
  | 0 => s
  | k + 1 => (attempt (stateBefore attempt s k)).2

/-- Successful runs of attempt number `k + 1`. -/
def succRuns (attempt : σ → List (Option (K × P)) × σ) (s : σ) (k : Nat) : List (K × P) :=
  ((attempt (stateBefore attempt s k)).1).filterMap id

theorem stateBefore_succ (attempt : σ → List (Option (K × P)) × σ) (s : σ) (k : Nat) :
    stateBefore attempt (attempt s).2 k = stateBefore attempt s (k + 1) := by
  induction k with
  | zero => rfl
  | succ k ih => simp only [stateBefore] at ih ⊢; rw [ih]

theorem attemptLoop_spec (attempt : σ → List (Option (K × P)) × σ) (nMax : Nat) : ∀ (fuel n : Nat) (s : σ),
    1 ≤ n → n ≤ nMax + 1 → nMax + 1 ≤ fuel + n →
    (∃ k, n + k ≤ nMax ∧ (∀ j < k, succRuns attempt s j = []) ∧ succRuns attempt s k ≠ [] ∧
      (attemptLoop attempt nMax fuel n s).1 = (n + k, succRuns attempt s k)) ∨
    ((∀ j, n + j ≤ nMax → succRuns attempt s j = []) ∧
      (attemptLoop attempt nMax fuel n s).1 = (nMax + 1, [])) := by
  intro fuel
  induction fuel with
  | zero => intro n s h1 h2 h3; right; exact ⟨fun j hj => by omega, by simp [attemptLoop]; omega⟩
  | succ fuel ih =>
    intro n s h1 h2 h3
    unfold attemptLoop
    by_cases hle : n ≤ nMax
    · rw [if_pos hle]
      dsimp only
      by_cases he : ((attempt s).1.filterMap id).isEmpty = true
      · rw [if_pos he]
        have he' : succRuns attempt s 0 = [] := by simpa [succRuns, stateBefore] using he
        have hshift : ∀ j, succRuns attempt (attempt s).2 j = succRuns attempt s (j + 1) := by
          intro j; unfold succRuns; rw [stateBefore_succ]
        rcases ih (n + 1) (attempt s).2 (by omega) (by omega) (by omega) with ⟨k, hk, h4, h5, h6⟩ | ⟨h4, h5⟩
        · left
          refine ⟨k + 1, by omega, ?_, by rw [← hshift]; exact h5, by rw [h6, hshift]; congr 1; omega⟩
          intro j hj
          cases j with
          | zero => exact he'
          | succ j => rw [← hshift]; exact h4 j (by omega)
        · right
          refine ⟨fun j hj => ?_, h5⟩
          cases j with
          | zero => exact he'
          | succ j => rw [← hshift]; exact h4 j (by omega)
      · rw [if_neg he]
        left
        refine ⟨0, by omega, by intro j hj; omega, ?_, rfl⟩
        intro h; apply he; unfold succRuns at h; simpa [stateBefore] using h
    · rw [if_neg hle]
      right
      exact ⟨fun j hj => by omega, by simp; omega⟩

/-- **C20** The internal optimisation succeeds exactly when one of the first `n_max_optim - 1` attempts
contains a successful run; it then returns the first best of the successful runs of the first such attempt.
In particular the last permitted attempt is always wasted, and with `n_max_optim = 1` EGO never finds a
point. -/
theorem C20_find_best_point (attempt : σ → List (Option (K × P)) × σ) (nMax : Nat) (s : σ) :
    ((∃ k, k + 1 < nMax ∧ succRuns attempt s k ≠ []) ↔ (findBestPoint attempt nMax s).1 ≠ none) ∧
    ∀ x, (findBestPoint attempt nMax s).1 = some x → ∃ k v, k + 1 < nMax ∧ (v, x) ∈ succRuns attempt s k ∧
      (∀ r ∈ succRuns attempt s k, v ≤ r.1) ∧ ∀ j < k, succRuns attempt s j = [] := by
  have hspec := attemptLoop_spec attempt nMax (nMax + 1) 1 s (le_refl _) (by omega) (by omega)
  unfold findBestPoint
  dsimp only
  rcases hspec with ⟨k, hk, h4, h5, h6⟩ | ⟨h4, h5⟩
  · rw [h6]
    dsimp only
    by_cases hc : nMax ≤ 1 + k
    · rw [if_pos hc]
      refine ⟨⟨?_, by simp⟩, by simp⟩
      rintro ⟨k', hk', hne⟩
      exact absurd (h4 k' (by omega)) hne
    · rw [if_neg hc]
      obtain ⟨i, v, hi, hv, hall, _⟩ := argmin_spec ((succRuns attempt s k).map (·.1)) (by simpa using h5)
      rw [hi]
      dsimp only
      rw [List.getElem?_map] at hv
      cases hr : (succRuns attempt s k)[i]? with
      | none => simp [hr] at hv
      | some r =>
        simp [hr] at hv
        refine ⟨⟨fun _ => by simp, fun _ => ⟨k, by omega, h5⟩⟩, fun x hx => ?_⟩
        simp at hx
        refine ⟨k, v, by omega, ?_, fun r' hr' => hall _ (List.mem_map.2 ⟨r', hr', rfl⟩), h4⟩
        rw [← hx, ← hv]; exact List.mem_of_getElem? hr
  · rw [h5]
    simp only [Nat.le_succ, if_true]
    refine ⟨⟨?_, by simp⟩, by simp⟩
    rintro ⟨k, hk, hne⟩
    exact absurd (h4 k (by omega)) hne

/-- **C20** With `n_max_optim = 1` no point is ever found, whatever the optimiser returns. -/
theorem C20_single_attempt_always_fails (attempt : σ → List (Option (K × P)) × σ) (s : σ) :
    (findBestPoint attempt 1 s).1 = none := by
  by_contra h
  obtain ⟨k, hk, _⟩ := (C20_find_best_point attempt 1 s).1.2 h
  omega

/-! ## C19: history -/

/-- Consistency of the recorded data w.r.t. the objective `g` and the initial design: the initial points are a
prefix; every later value is the true objective value; a value of the initial design is either the one given
or the true one. -/
structure Hist (g : P → K) (x0 : List P) (y0 : List K) (xs : List P) (ys : List K) : Prop where
  len : xs.length = ys.length
  pre : ∃ new, xs = x0 ++ new
  late : ∀ (i : Nat) x, x0.length ≤ i → xs[i]? = some x → ys[i]? = some (g x)
  early : ∀ (i : Nat) x, i < x0.length → xs[i]? = some x → ys[i]? = y0[i]? ∨ ys[i]? = some (g x)

theorem enrich_spec (O : Oracle P K σ) : ∀ (p : Nat) (xs : List P) (ys : List K) (s : σ), xs.length = ys.length →
    ∃ nx ny, (enrich O p xs ys s).1 = (xs ++ nx, ys ++ ny) ∧ nx.length = ny.length ∧ nx.length ≤ p := by
  intro p
  induction p with
  | zero => intro xs ys s h; exact ⟨[], [], by simp [enrich], rfl, by simp⟩
  | succ p ih =>
    intro xs ys s h
    unfold enrich
    dsimp only
    cases hf : (O.find s xs ys).1 with
    | none => exact ⟨[], [], by simp, rfl, by simp⟩
    | some x =>
      dsimp only
      obtain ⟨nx, ny, h1, h2, h3⟩ := ih (xs ++ [x]) (ys ++ [(O.virt (O.find s xs ys).2 x ys).1])
        (O.virt (O.find s xs ys).2 x ys).2 (by simp [h])
      exact ⟨x :: nx, (O.virt (O.find s xs ys).2 x ys).1 :: ny, by rw [h1]; simp, by simp [h2], by simp; omega⟩

theorem setLast_get {α : Type} (n : Nat) (l b : List α) (hb : b.length = (lastN n l).length) (i : Nat) :
    (setLastN n l b)[i]? = if n = 0 then b[i]? else
      if i < l.length - n then l[i]? else b[i - (l.length - n)]? := by
  unfold setLastN
  split
  · rfl
  · rename_i h
    by_cases hi : i < l.length - n
    · rw [List.getElem?_append_left (by simp; omega), if_pos hi, List.getElem?_take, if_pos hi]
    · rw [List.getElem?_append_right (by simp; omega), if_neg hi]; simp

theorem iteration_hist (O : Oracle P K σ) (f : Q → K) (fold : P → Q) (nPar : Nat) (x0 : List P) (y0 : List K)
    (xs : List P) (ys : List K) (s : σ) (h : Hist (fun x => f (fold x)) x0 y0 xs ys) :
    Hist (fun x => f (fold x)) x0 y0 (iteration O f fold nPar xs ys s).1.1 (iteration O f fold nPar xs ys s).1.2 ∧
    (∃ new, (iteration O f fold nPar xs ys s).1.1 = xs ++ new ∧ new.length ≤ nPar) := by
  obtain ⟨nx, ny, h1, h2, h3⟩ := enrich_spec O nPar xs ys s h.len
  unfold iteration
  dsimp only
  rw [h1]
  dsimp only
  set X := xs ++ nx with hX
  set Y := ys ++ ny with hY
  have hlen : X.length = Y.length := by simp [hX, hY, h.len, h2]
  have hb : ((lastN nPar X).map fun x => f (fold x)).length = (lastN nPar Y).length := by
    unfold lastN; split <;> simp [hlen]
  -- value at i after the real evaluation
  have hval : ∀ (i : Nat) x, X[i]? = some x → (nPar = 0 ∨ X.length - nPar ≤ i) →
      (setLastN nPar Y ((lastN nPar X).map fun x => f (fold x)))[i]? = some (f (fold x)) := by
    intro i x hx hc
    rw [setLast_get nPar Y _ hb]
    by_cases hn : nPar = 0
    · simp [hn, lastN, hx]
    · have hge : X.length - nPar ≤ i := by rcases hc with h | h; exact absurd h hn; exact h
      rw [if_neg hn, if_neg (by omega), List.getElem?_map, lastN, if_neg hn, List.getElem?_drop, ← hlen,
        Nat.add_sub_cancel' hge, hx]; rfl
  have hold : ∀ i, nPar ≠ 0 → i < X.length - nPar →
      (setLastN nPar Y ((lastN nPar X).map fun x => f (fold x)))[i]? = Y[i]? := by
    intro i hn hi
    rw [setLast_get nPar Y _ hb, if_neg hn, if_pos (by omega)]
  refine ⟨⟨?_, ?_, ?_, ?_⟩, nx, rfl, h3⟩
  · have : (setLastN nPar Y ((lastN nPar X).map fun x => f (fold x))).length = Y.length := by
      unfold setLastN lastN
      split
      · simp [hlen]
      · simp [hlen]
    rw [this, hlen]
  · obtain ⟨new, hnew⟩ := h.pre
    exact ⟨new ++ nx, by rw [hX, hnew]; simp⟩
  · intro i x hi hx
    by_cases hc : nPar = 0 ∨ X.length - nPar ≤ i
    · exact hval i x hx hc
    · push Not at hc
      have hxs : i < xs.length := by simp [hX] at hc; omega
      rw [hold i hc.1 hc.2, hY, List.getElem?_append_left (by rw [← h.len]; exact hxs)]
      rw [hX, List.getElem?_append_left hxs] at hx
      exact h.late i x hi hx
  · intro i x hi hx
    by_cases hc : nPar = 0 ∨ X.length - nPar ≤ i
    · right; exact hval i x hx hc
    · push Not at hc
      have hxs : i < xs.length := by simp [hX] at hc; omega
      rw [hold i hc.1 hc.2, hY, List.getElem?_append_left (by rw [← h.len]; exact hxs)]
      rw [hX, List.getElem?_append_left hxs] at hx
      exact h.early i x hi hx

theorem loop_hist (O : Oracle P K σ) (f : Q → K) (fold : P → Q) (nPar : Nat) (x0 : List P) (y0 : List K) :
    ∀ (k : Nat) (xs : List P) (ys : List K) (s : σ), Hist (fun x => f (fold x)) x0 y0 xs ys →
    Hist (fun x => f (fold x)) x0 y0 (loop O f fold nPar k xs ys s).1.1 (loop O f fold nPar k xs ys s).1.2 ∧
    (loop O f fold nPar k xs ys s).1.1.length ≤ xs.length + k * nPar := by
  intro k
  induction k with
  | zero => intro xs ys s h; exact ⟨h, by simp [loop]⟩
  | succ k ih =>
    intro xs ys s h
    obtain ⟨h1, new, h2, h3⟩ := iteration_hist O f fold nPar x0 y0 xs ys s h
    unfold loop
    dsimp only
    obtain ⟨h4, h5⟩ := ih _ _ (iteration O f fold nPar xs ys s).2 h1
    refine ⟨h4, h5.trans ?_⟩
    rw [h2]
    simp only [List.length_append]
    rw [Nat.add_mul]; omega

theorem hist_init (g : P → K) (x0 : List P) (y0 : List K) (h : x0.length = y0.length) : Hist g x0 y0 x0 y0 :=
  ⟨h, ⟨[], by simp⟩, fun i x hi hx => by rw [List.getElem?_eq_none (by omega)] at hx; simp at hx,
    fun i x _ _ => Or.inl rfl⟩

theorem optimize_some (O : Oracle P K σ) (f : Q → K) (fold : P → Q) (nIter nPar : Nat) (xdoe : List P)
    (ydoe : List K) (s : σ) (r : Result P Q K) (hr : optimize O f fold nIter nPar xdoe ydoe s = some r) :
    r.xData = (loop O f fold nPar nIter xdoe ydoe s).1.1 ∧
    r.yData = (loop O f fold nPar nIter xdoe ydoe s).1.2 ∧
    argmin r.yData = some r.ind ∧ (∃ x, r.xData[r.ind]? = some x ∧ r.xOpt = fold x) ∧
    r.yData[r.ind]? = some r.yOpt := by
  unfold optimize at hr
  dsimp only at hr
  split at hr
  · simp at hr
  · rename_i i hi
    split at hr
    · rename_i x y hx hy
      simp at hr
      subst hr
      exact ⟨rfl, rfl, hi, ⟨x, hx, rfl⟩, hy⟩
    · simp at hr

/-- **C19** For every surrogate, optimiser and random behaviour, every iteration count and batch size: the
returned history has as many values as points, starts with the initial design, never holds a virtual
(predicted) value for an added point — each is the user's function at that point — and holds at most
`n_iter * n_parallel` added points. A value of the initial design is the given one or the true one. -/
theorem C19_history_consistent (O : Oracle P K σ) (f : Q → K) (fold : P → Q) (nIter nPar : Nat) (xdoe : List P)
    (ydoe : List K) (hd : xdoe.length = ydoe.length) (s : σ) (r : Result P Q K)
    (hr : optimize O f fold nIter nPar xdoe ydoe s = some r) :
    r.xData.length = r.yData.length ∧ (∃ new, r.xData = xdoe ++ new ∧ new.length ≤ nIter * nPar) ∧
    (∀ (i : Nat) x, xdoe.length ≤ i → r.xData[i]? = some x → r.yData[i]? = some (f (fold x))) ∧
    (∀ (i : Nat) x, i < xdoe.length → r.xData[i]? = some x →
      r.yData[i]? = ydoe[i]? ∨ r.yData[i]? = some (f (fold x))) := by
  obtain ⟨h1, h2, _⟩ := optimize_some O f fold nIter nPar xdoe ydoe s r hr
  obtain ⟨h3, h4⟩ := loop_hist O f fold nPar xdoe ydoe nIter xdoe ydoe s (hist_init _ _ _ hd)
  rw [← h1] at h3 h4
  rw [← h2] at h3
  obtain ⟨new, hnew⟩ := h3.pre
  exact ⟨h3.len, ⟨new, hnew, by rw [hnew] at h4; simp at h4; exact h4⟩, h3.late, h3.early⟩

/-- **C19** If the initial values are the objective's values (as when EGO evaluates the design itself), the
whole history is `y = f(x)`. -/
theorem C19_history_exact (O : Oracle P K σ) (f : Q → K) (fold : P → Q) (nIter nPar : Nat) (xdoe : List P)
    (s : σ) (r : Result P Q K)
    (hr : optimize O f fold nIter nPar xdoe (xdoe.map fun x => f (fold x)) s = some r) :
    r.yData = r.xData.map fun x => f (fold x) := by
  obtain ⟨h1, h2, h3, h4⟩ := C19_history_consistent O f fold nIter nPar xdoe _ (by simp) s r hr
  apply List.ext_getElem?
  intro i
  rw [List.getElem?_map]
  cases hx : r.xData[i]? with
  | none =>
    have hxl : r.xData.length ≤ i := List.getElem?_eq_none_iff.1 hx
    rw [List.getElem?_eq_none (by omega)]; rfl
  | some x =>
    by_cases hi : xdoe.length ≤ i
    · rw [h3 i x hi hx]; rfl
    · rcases h4 i x (by omega) hx with h | h
      · obtain ⟨new, hnew, _⟩ := h2
        rw [hnew, List.getElem?_append_left (by omega)] at hx
        rw [h, List.getElem?_map, hx]
      · rw [h]; rfl

/-- **C19** When every internal optimisation succeeds the budget is used exactly. -/
theorem C19_full_budget (O : Oracle P K σ) (hO : ∀ s xs ys, (O.find s xs ys).1 ≠ none) (f : Q → K) (fold : P → Q)
    (nIter nPar : Nat) (xdoe : List P) (ydoe : List K) (hd : xdoe.length = ydoe.length) (s : σ)
    (r : Result P Q K) (hr : optimize O f fold nIter nPar xdoe ydoe s = some r) :
    r.xData.length = xdoe.length + nIter * nPar := by
  obtain ⟨h1, _⟩ := optimize_some O f fold nIter nPar xdoe ydoe s r hr
  rw [h1]
  have henr : ∀ (p : Nat) (xs : List P) (ys : List K) (s : σ), (enrich O p xs ys s).1.1.length = xs.length + p := by
    intro p
    induction p with
    | zero => intro xs ys s; simp [enrich]
    | succ p ih =>
      intro xs ys s
      unfold enrich
      dsimp only
      cases hf : (O.find s xs ys).1 with
      | none => exact absurd hf (hO s xs ys)
      | some x => dsimp only; rw [ih]; simp; omega
  clear h1 hr hd
  have hloop : ∀ (k : Nat) (xs : List P) (ys : List K) (s : σ),
      (loop O f fold nPar k xs ys s).1.1.length = xs.length + k * nPar := by
    intro k
    induction k with
    | zero => intro xs ys s; simp [loop]
    | succ k ih =>
      intro xs ys s
      unfold loop
      dsimp only
      rw [ih]
      unfold iteration
      dsimp only
      rw [henr, Nat.add_mul]; omega
  exact hloop nIter xdoe ydoe s

/-- **C20** The returned optimum is recorded in the history at the returned index, no recorded value is
smaller, earlier recorded values are strictly larger, and it is the function's value at the returned point
whenever it belongs to an added point. -/
theorem C20_returns_best (O : Oracle P K σ) (f : Q → K) (fold : P → Q) (nIter nPar : Nat) (xdoe : List P)
    (ydoe : List K) (hd : xdoe.length = ydoe.length) (s : σ) (r : Result P Q K)
    (hr : optimize O f fold nIter nPar xdoe ydoe s = some r) :
    (∃ x, r.xData[r.ind]? = some x ∧ r.xOpt = fold x) ∧ r.yData[r.ind]? = some r.yOpt ∧
    (∀ v ∈ r.yData, r.yOpt ≤ v) ∧ (∀ (j : Nat) v, j < r.ind → r.yData[j]? = some v → r.yOpt < v) ∧
    (xdoe.length ≤ r.ind → r.yOpt = f r.xOpt) := by
  obtain ⟨h1, h2, h3, h4, h5⟩ := optimize_some O f fold nIter nPar xdoe ydoe s r hr
  have hne : r.yData ≠ [] := by intro e; rw [e] at h5; simp at h5
  obtain ⟨i, v, ha, hb, hc, hd'⟩ := argmin_spec r.yData hne
  rw [h3] at ha
  simp at ha
  subst ha
  rw [h5] at hb
  simp at hb
  subst hb
  refine ⟨h4, h5, hc, hd', fun hi => ?_⟩
  obtain ⟨x, hx, hxo⟩ := h4
  have := (C19_history_consistent O f fold nIter nPar xdoe ydoe hd s r hr).2.2.1 r.ind x hi hx
  rw [h5] at this
  simp at this
  rw [this, hxo]

/-- **C20** On a non-empty initial design evaluated with the objective, EGO returns, the optimum is the
objective at the returned point, and it is at most every initial value. -/
theorem C20_never_worse_than_initial (O : Oracle P K σ) (f : Q → K) (fold : P → Q) (nIter nPar : Nat)
    (xdoe : List P) (hne : xdoe ≠ []) (s : σ) :
    ∃ r, optimize O f fold nIter nPar xdoe (xdoe.map fun x => f (fold x)) s = some r ∧
      r.yOpt = f r.xOpt ∧ ∀ x ∈ xdoe, r.yOpt ≤ f (fold x) := by
  set ydoe := xdoe.map fun x => f (fold x) with hyd
  obtain ⟨h3, _⟩ := loop_hist O f fold nPar xdoe ydoe nIter xdoe ydoe s (hist_init _ _ _ (by simp [hyd]))
  have hl : (loop O f fold nPar nIter xdoe ydoe s).1.2 ≠ [] := by
    obtain ⟨new, hnew⟩ := h3.pre
    intro e
    have := h3.len
    rw [e, hnew] at this
    simp at this
    exact hne this.1
  obtain ⟨i, v, ha, hb, hc, _⟩ := argmin_spec _ hl
  have hi : i < (loop O f fold nPar nIter xdoe ydoe s).1.1.length := by
    rw [h3.len]
    by_contra hcon
    rw [List.getElem?_eq_none (by omega)] at hb; simp at hb
  obtain ⟨x, hx⟩ : ∃ x, (loop O f fold nPar nIter xdoe ydoe s).1.1[i]? = some x := ⟨_, List.getElem?_eq_getElem hi⟩
  have hopt : optimize O f fold nIter nPar xdoe ydoe s = some ⟨fold x, v, i,
      (loop O f fold nPar nIter xdoe ydoe s).1.1, (loop O f fold nPar nIter xdoe ydoe s).1.2⟩ := by
    unfold optimize
    simp only [ha, hx, hb]
  refine ⟨_, hopt, ?_, ?_⟩
  · have hex := C19_history_exact O f fold nIter nPar xdoe s _ hopt
    dsimp only at hex ⊢
    rw [hex, List.getElem?_map, hx] at hb
    simpa using hb.symm
  · intro z hz
    dsimp only
    have hex := C19_history_exact O f fold nIter nPar xdoe s _ hopt
    dsimp only at hex
    apply hc
    rw [hex]
    obtain ⟨new, hnew⟩ := h3.pre
    exact List.mem_map.2 ⟨z, by rw [hnew]; simp [hz], rfl⟩

/-- Non-vacuity: minimise `x ↦ (x - 3)²` from `{0, 10}`, the "optimiser" proposing 1, 2, 3, ... and the virtual
values being far off. -/
def demo : Oracle ℤ ℤ ℤ := ⟨fun s _ _ => (some (s + 1), s + 1), fun s _ _ => (-1000, s)⟩

example : (optimize demo (fun x => (x - 3) * (x - 3)) id 2 2 [0, 10] [9, 49] 0).map
    (fun r => (r.xOpt, r.yOpt, r.ind, r.xData, r.yData)) =
    some (3, 0, 4, [0, 10, 1, 2, 3, 4], [9, 49, 4, 1, 0, 1]) := by decide +kernel

/-- **C19** Defect, mixed-integer problems: the optimiser works in the relaxed unfolded space and the point it
proposes is folded but never rounded, so the user's function receives (and the result reports) non-integer
values for integer variables. -/
theorem C19_mixed_integer_not_rounded (ts : List MixedInt.XType) (u x : List ℚ) (h : MixedInt.fold ts u = .ok x) (i : ℕ)
    (hi : ts[i]? = some .int) : x[i]? = u[((ts.take i).map MixedInt.width).sum]? := by
  induction ts generalizing u x i with
  | nil => simp at hi
  | cons t ts ih =>
    cases t with
    | bad => simp [MixedInt.fold] at h
    | badTuple n => simp [MixedInt.fold] at h
    | enum n =>
      cases i with
      | zero => simp at hi
      | succ i =>
        rw [MixedInt.fold] at h
        by_cases h0 : u.take n = []
        · simp [h0] at h
        · simp only [h0, if_false] at h
          cases hf : MixedInt.fold ts (u.drop n) with
          | error e => rw [hf] at h; cases h
          | ok y =>
            rw [hf] at h
            have e := Except.ok.inj h
            subst e
            have := ih (u.drop n) y hf i (by simpa using hi)
            rw [List.getElem?_cons_succ, this, List.getElem?_drop]
            simp [MixedInt.width]
    | float =>
      cases u with
      | nil => simp [MixedInt.fold] at h
      | cons a u =>
        rw [MixedInt.fold] at h
        cases hf : MixedInt.fold ts u with
        | error e => simp [hf, Except.map] at h
        | ok y =>
          simp only [hf, Except.map] at h
          have e := Except.ok.inj h
          subst e
          cases i with
          | zero => simp at hi
          | succ i =>
            rw [List.getElem?_cons_succ, ih u y hf i (by simpa using hi)]
            simp [MixedInt.width, add_comm 1]
    | int =>
      cases u with
      | nil => simp [MixedInt.fold] at h
      | cons a u =>
        rw [MixedInt.fold] at h
        cases hf : MixedInt.fold ts u with
        | error e => simp [hf, Except.map] at h
        | ok y =>
          simp only [hf, Except.map] at h
          have e := Except.ok.inj h
          subst e
          cases i with
          | zero => simp
          | succ i =>
            rw [List.getElem?_cons_succ, ih u y hf i (by simpa using hi)]
            simp [MixedInt.width, add_comm 1]

example : MixedInt.fold [.int, .enum 2] [(7/5 : ℚ), 1/10, 3/10] = .ok [7/5, 1] := by decide +kernel

/-- **C19** Such a value reaches the user's function and is reported as the optimum: an integer variable and a categorical one, an inner optimiser that proposes
`1.4` for the integer. -/
theorem C19_reports_non_integer : (optimize (σ := Unit) (P := List ℚ) (K := ℚ)
    ⟨fun s _ _ => (some [7/5, 1/10, 3/10], s), fun s _ _ => (0, s)⟩ (fun x : List ℚ => (x.headD 0 - 3/2) ^ 2) (fun u => ((MixedInt.fold [.int, .enum 2] u).toOption).getD [])
    1 1 [[0, 1, 0], [3, 1, 0]] [9/4, 9/4] ()).map (fun r => (r.xOpt, r.yOpt)) = some ([7/5, 1], 1/100) := by decide +kernel

/-- **C19** Defect, mixed-integer problems: with no `ydoe`, `_setup_optimizer` (`ego.py` 286-291) evaluates the
*unfolded* design rows, whereas the loop evaluates folded rows; the two differ in width as soon as some enum
variable has a number of levels other than one. -/
theorem C19_initial_design_evaluated_unfolded (ts : List MixedInt.XType) (x : List ℚ)
    (h : MixedInt.ValidFolded ts x) (hex : ∃ n, 2 ≤ n ∧ MixedInt.XType.enum n ∈ ts)
    (hpos : ∀ t ∈ ts, 1 ≤ MixedInt.width t) :
    ∃ u, MixedInt.unfold ts x = .ok u ∧ x.length < u.length := by
  obtain ⟨u, h1, h2, h3, h4⟩ := MixedInt.C15_fold_unfold ts x h
  refine ⟨u, h1, ?_⟩
  rw [h3, ← h.length_eq]
  clear h1 h2 h3 h4 h
  induction ts with
  | nil => obtain ⟨n, _, hn⟩ := hex; simp at hn
  | cons t ts ih =>
    have hw : ∀ l : List MixedInt.XType, (∀ t ∈ l, 1 ≤ MixedInt.width t) → l.length ≤ (l.map MixedInt.width).sum := by
      intro l
      induction l with
      | nil => simp
      | cons a l ih => intro h; have h1 := h a (by simp); have := ih (fun t ht => h t (by simp [ht])); simp; omega
    obtain ⟨n, hn, hmem⟩ := hex
    rcases List.mem_cons.1 hmem with hmt | hmem
    · subst hmt
      have := hw ts (fun t ht => hpos t (by simp [ht]))
      simp [MixedInt.width]; omega
    · have := ih ⟨n, hn, hmem⟩ (fun t ht => hpos t (by simp [ht]))
      have h1 := hpos t (by simp)
      simp only [List.length_cons, List.map_cons, List.sum_cons]; omega

/-! ## C21: expected improvement -/

open ProbabilityTheory MeasureTheory Filter Set

theorem pdf_eq (t : ℝ) : pdf t = (Real.sqrt (2 * Real.pi))⁻¹ * Real.exp (-t ^ 2 / 2) := by
  unfold pdf gaussianPDFReal; simp

theorem pdf_nonneg (t : ℝ) : 0 ≤ pdf t := gaussianPDFReal_nonneg _ _ _

theorem pdf_deriv (t : ℝ) : HasDerivAt pdf (-(t * pdf t)) t := by
  have h : HasDerivAt (fun t : ℝ => (Real.sqrt (2 * Real.pi))⁻¹ * Real.exp (-t ^ 2 / 2))
      ((Real.sqrt (2 * Real.pi))⁻¹ * (Real.exp (-t ^ 2 / 2) * (-(2 * t) / 2))) t := by
    apply HasDerivAt.const_mul
    apply HasDerivAt.exp
    have := ((hasDerivAt_pow 2 t).neg).div_const 2
    simpa using this
  have he : pdf = fun t : ℝ => (Real.sqrt (2 * Real.pi))⁻¹ * Real.exp (-t ^ 2 / 2) := funext pdf_eq
  rw [he]
  convert h using 1
  ring

theorem pdf_integrable : Integrable pdf := integrable_gaussianPDFReal 0 1

theorem mul_pdf_integrable : Integrable fun t : ℝ => t * pdf t := by
  have h := integrable_mul_exp_neg_mul_sq (b := 1 / 2) (by norm_num)
  have h2 := h.const_mul (Real.sqrt (2 * Real.pi))⁻¹
  refine h2.congr (Eventually.of_forall fun t => ?_)
  simp only
  rw [pdf_eq]
  have : -(1 / 2 : ℝ) * t ^ 2 = -t ^ 2 / 2 := by ring
  rw [this]; ring

theorem pdf_tendsto_atBot : Tendsto pdf atBot (nhds 0) := by
  have he : pdf = fun t : ℝ => (Real.sqrt (2 * Real.pi))⁻¹ * Real.exp (-t ^ 2 / 2) := funext pdf_eq
  rw [he]
  have : Tendsto (fun t : ℝ => -t ^ 2 / 2) atBot atBot := by
    have h1 : Tendsto (fun t : ℝ => t ^ 2) atBot atTop := by
      have := (tendsto_pow_atTop (α := ℝ) (n := 2) (by norm_num)).comp tendsto_neg_atBot_atTop
      refine this.congr fun t => ?_
      simp
    have h2 : Tendsto (fun t : ℝ => -(t ^ 2)) atBot atBot := tendsto_neg_atTop_atBot.comp h1
    exact h2.atBot_div_const (by norm_num)
  have h3 := (Real.tendsto_exp_atBot.comp this).const_mul (Real.sqrt (2 * Real.pi))⁻¹
  simpa using h3

/-- `∫_{-∞}^z t φ(t) dt = -φ(z)`. -/
theorem integral_mul_pdf (z : ℝ) : ∫ t in Iic z, t * pdf t = -pdf z := by
  have h := integral_Iic_of_hasDerivAt_of_tendsto (a := z) (m := 0) (f := fun t => -pdf t)
    (f' := fun t => t * pdf t) ((pdf_deriv z).neg.continuousAt.continuousWithinAt)
    (fun t _ => by have := (pdf_deriv t).fun_neg; simpa using this) (mul_pdf_integrable.integrableOn)
    (by simpa using pdf_tendsto_atBot.neg)
  rw [h]; ring

/-- **C21** The closed formula is the expected improvement: if the prediction is Gaussian with mean `pred` and
standard deviation `sig > 0`, the value equals the expectation of `max(f_min - Y, 0)`. -/
theorem C21_is_expected_improvement (fMin pred sig : ℝ) (hs : 0 < sig) :
    ei fMin pred sig = ∫ t, max (fMin - (pred + sig * t)) 0 ∂(gaussianReal 0 1) := by
  rw [integral_gaussianReal_eq_integral_smul (by norm_num)]
  set z := (fMin - pred) / sig with hz
  have hfz : fMin - pred = sig * z := by rw [hz]; field_simp
  have h1 : (fun t => gaussianPDFReal 0 1 t • max (fMin - (pred + sig * t)) 0) =
      (Iic z).indicator (fun t => sig * z * pdf t - sig * (t * pdf t)) := by
    funext t
    by_cases ht : t ≤ z
    · rw [indicator_of_mem (by exact ht)]
      have : 0 ≤ fMin - (pred + sig * t) := by nlinarith
      rw [max_eq_left this]
      show pdf t * _ = _
      have : fMin - (pred + sig * t) = sig * z - sig * t := by linarith
      rw [this]; ring
    · rw [indicator_of_notMem (by simpa using ht)]
      have : fMin - (pred + sig * t) ≤ 0 := by nlinarith [not_le.1 ht]
      rw [max_eq_right this]; simp
  rw [h1, integral_indicator measurableSet_Iic, integral_sub, integral_const_mul, integral_const_mul,
    integral_mul_pdf]
  · unfold ei
    rw [if_neg (ne_of_gt hs), ← hz, hfz]
    unfold cdf
    ring
  · exact (pdf_integrable.const_mul _).integrableOn
  · exact (mul_pdf_integrable.const_mul _).integrableOn

/-- **C21** Expected improvement is never negative and is zero without uncertainty. -/
theorem C21_nonneg (fMin pred sig : ℝ) (hs : 0 ≤ sig) : 0 ≤ ei fMin pred sig := by
  rcases hs.eq_or_lt with h | h
  · simp [ei, ← h]
  · rw [C21_is_expected_improvement fMin pred sig h]
    exact integral_nonneg fun t => le_max_right _ _

theorem C21_zero_without_uncertainty (fMin pred : ℝ) : ei fMin pred 0 = 0 := by simp [ei]

theorem integrable_improvement (fMin pred sig : ℝ) :
    Integrable (fun t => max (fMin - (pred + sig * t)) 0) (gaussianReal 0 1) := by
  have h : Integrable (fun t : ℝ => fMin - (pred + sig * t)) (gaussianReal 0 1) := by
    have hid : Integrable (fun t : ℝ => t) (gaussianReal 0 1) := by
      have := memLp_id_gaussianReal (μ := 0) (v := 1) 1
      exact this.integrable (by norm_num)
    exact (integrable_const fMin).sub ((integrable_const pred).add (hid.const_mul sig))
  exact h.pos_part

/-- **C21** Expected improvement dominates the plain predicted improvement, grows with the best known value
and shrinks when the prediction gets worse. -/
theorem C21_monotone (f f' m m' sig : ℝ) (hs : 0 < sig) (hf : f ≤ f') (hm : m' ≤ m) :
    ei f m sig ≤ ei f' m' sig := by
  rw [C21_is_expected_improvement f m sig hs, C21_is_expected_improvement f' m' sig hs]
  refine integral_mono (integrable_improvement _ _ _) (integrable_improvement _ _ _) fun t => ?_
  simp only
  exact max_le_max (by linarith) le_rfl

/-- **C21** Expected improvement is at least the improvement predicted by the mean. -/
theorem C21_at_least_mean_improvement (fMin pred sig : ℝ) (hs : 0 < sig) : fMin - pred ≤ ei fMin pred sig := by
  rw [C21_is_expected_improvement fMin pred sig hs]
  have hid : Integrable (fun t : ℝ => t) (gaussianReal 0 1) := by
    have := memLp_id_gaussianReal (μ := 0) (v := 1) 1
    exact this.integrable (by norm_num)
  have h1 : ∫ t, (fMin - (pred + sig * t)) ∂(gaussianReal 0 1) = fMin - pred := by
    have e1 : Integrable (fun t : ℝ => pred + sig * t) (gaussianReal 0 1) :=
      (integrable_const pred).add (hid.const_mul sig)
    rw [integral_sub (integrable_const _) e1,
      integral_add (integrable_const _) (hid.const_mul _), integral_const_mul]
    simp
  rw [← h1]
  refine integral_mono ((integrable_const fMin).sub ((integrable_const pred).add (hid.const_mul sig)))
    (integrable_improvement _ _ _) fun t => ?_
  exact le_max_left _ _

theorem tunnel_bounds {P : Type} (eiAt : P → ℝ) (dist : P → P → ℝ) (p : P) (xs : List P) : ∀ e, 0 ≤ e →
    0 ≤ tunnel eiAt dist p e xs ∧ tunnel eiAt dist p e xs ≤ e := by
  induction xs with
  | nil => intro e he; exact ⟨he, le_refl _⟩
  | cons x xs ih =>
    intro e he
    simp only [tunnel]
    obtain ⟨h1, h2⟩ := ih (max (if 0 < (eiAt p - eiAt x) / dist p x ^ 4 then
      e - (eiAt p - eiAt x) / dist p x ^ 4 else e) 0) (le_max_right _ _)
    refine ⟨h1, h2.trans ?_⟩
    apply max_le _ he
    split <;> linarith

/-- **C21** With tunneling the criterion stays between 0 and the plain expected improvement, for every data
set and every surrogate. -/
theorem C21_tunneling_bounds {P : Type} (fMin : ℝ) (pred sig : P → ℝ) (hs : ∀ q, 0 ≤ sig q) (dist : P → P → ℝ)
    (xData : List P) (p : P) : 0 ≤ eiTunnel fMin pred sig dist xData p ∧
      eiTunnel fMin pred sig dist xData p ≤ ei fMin (pred p) (sig p) := by
  unfold eiTunnel
  split
  · rename_i h; rw [h, C21_zero_without_uncertainty]; simp
  · exact tunnel_bounds _ _ _ _ _ (C21_nonneg _ _ _ (hs p))

/-- **C21** The lower-confidence criterion and the virtual points bracket the prediction. -/
theorem C21_virtual_points_ordered (pred var z yMin : ℝ) :
    virtualPoint .KBLB pred var z yMin ≤ virtualPoint .KB pred var z yMin ∧
    virtualPoint .KB pred var z yMin ≤ virtualPoint .KBUB pred var z yMin ∧
    ucb pred var = virtualPoint .KBLB pred var z yMin ∧ virtualPoint .CLmin pred var z yMin = yMin ∧
    (|z| ≤ 3 → virtualPoint .KBLB pred var z yMin ≤ virtualPoint .KBRand pred var z yMin ∧
      virtualPoint .KBRand pred var z yMin ≤ virtualPoint .KBUB pred var z yMin) := by
  have h := Real.sqrt_nonneg var
  simp only [virtualPoint, ucb]
  refine ⟨by linarith, by linarith, by ring, trivial, fun hz => ?_⟩
  obtain ⟨h1, h2⟩ := abs_le.1 hz
  constructor <;> nlinarith

end SMT.Ego
