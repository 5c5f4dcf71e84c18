import Verif.Ego.LifeProps

set_option linter.unusedSectionVars false
set_option linter.unusedSimpArgs false
set_option linter.unusedVariables false

/-!
# C92, continued: the searches, the criterion, the seed and repeated runs
-/
namespace SMT.Ego.Life

open SMT.Ego

variable {P K μ γ : Type} [Field K] [LinearOrder K]

/-! ## A search minimises the selected criterion -/

/-- Specification: what the three documented criteria minimise, for a surrogate `m`: minus the expected
improvement on the best value of the data, the predicted mean, the mean minus three standard deviations. -/
inductive Selects (E : Env P K μ γ) (m : μ) (xs : List P) (ys : List K) (tun : Bool) : String → (P → K) → Prop
  | ei : Selects E m xs ys tun "EI" fun p => -eiFull E m ys tun xs p
  | sbo : Selects E m xs ys tun "SBO" fun p => E.mean m p
  | ucb : Selects E m xs ys tun "UCB" fun p => E.mean m p - 3 * E.sqrt (E.var m p)

/-- `x` is the result of a local search on `obj` from one of the `starts`, and none of the other successful
searches from these starts ended lower. -/
def BestRun (E : Env P K μ γ) (obj : P → K) (starts : List P) (x : P) : Prop :=
  ∃ x0 ∈ starts, ∃ v, E.slsqp obj x0 = some (v, x) ∧ ∀ x1 ∈ starts, ∀ r, E.slsqp obj x1 = some r → v ≤ r.1

theorem stateBefore_inv (E : Env P K μ γ) (o : Opts P) (c : Option (Closure P K)) (s : St P K μ γ) (k : Nat) :
    (stateBefore (attempt E o c) s k).model = s.model := by
  induction k with
  | zero => rfl
  | succ k ih => exact ((sample_same E o.randomState _ o.nStart).2.1).trans ih

theorem mem_succRuns (E : Env P K μ γ) (o : Opts P) (c : Closure P K) (s : St P K μ γ) (k : Nat) (r : K × P) :
    r ∈ succRuns (attempt E o (some c)) s k ↔
    ∃ x0 ∈ (sample E o.randomState (stateBefore (attempt E o (some c)) s k) o.nStart).1,
      E.slsqp (objective E s.model c) x0 = some r := by
  unfold succRuns
  rw [List.mem_filterMap]
  constructor
  · rintro ⟨a, ha, hr⟩
    unfold attempt at ha
    obtain ⟨x0, hx0, rfl⟩ := List.mem_map.1 ha
    refine ⟨x0, hx0, ?_⟩
    rw [← stateBefore_inv E o (some c) s k]
    exact hr
  · rintro ⟨x0, hx0, hr⟩
    refine ⟨_, ?_, show id (some r) = some r from rfl⟩
    refine List.mem_map.2 ⟨x0, hx0, ?_⟩
    show E.slsqp (objective E (stateBefore (attempt E o (some c)) s k).model c) x0 = some r
    rw [stateBefore_inv E o (some c) s k]
    exact hr

/-- The search with a stored criterion `c`. -/
theorem search_some (E : Env P K μ γ) (o : Opts P) (s : St P K μ γ) (c : Closure P K) (hc : s.objK = some c)
    (x : P) (h : (search E o s).1 = .ok (some x)) :
    ∃ t : St P K μ γ, BestRun E (objective E s.model c) (sample E o.randomState t o.nStart).1 x := by
  unfold search at h
  rw [hc] at h
  simp only [Option.isNone_some, Bool.false_and, Bool.false_eq_true, if_false, Except.ok.injEq] at h
  obtain ⟨k, v, hk, hv, hmin, _⟩ := (C20_find_best_point (attempt E o (some c)) o.nMax s).2 x h
  rw [mem_succRuns] at hv
  obtain ⟨x0, hx0, hr⟩ := hv
  refine ⟨_, x0, hx0, v, hr, fun x1 hx1 r hr1 => ?_⟩
  exact hmin r ((mem_succRuns E o c s k r).2 ⟨x1, hx1, hr1⟩)

theorem setObj_selects (E : Env P K μ γ) (m : μ) (xs : List P) (ys : List K) (tun : Bool) (crit : String)
    (old : Option (Closure P K)) (obj : P → K) (h : Selects E m xs ys tun crit obj) :
    ∃ c, setObj crit old xs ys tun = some c ∧ objective E m c = obj := by
  cases h with
  | ei => exact ⟨.ei ys tun xs, rfl, rfl⟩
  | sbo => exact ⟨.sbo, rfl, rfl⟩
  | ucb => exact ⟨.ucb, rfl, rfl⟩

/-- **C92** With a documented criterion, whatever happened before on the object, the point a search proposes
is the best local minimum found, from one set of start points, of that criterion for the surrogate trained on
the data of this very search (virtual points included). -/
theorem C92_proposal (E : Env P K μ γ) (o : Opts P) (xs : List P) (ys : List K) (s s' : St P K μ γ) (x : P)
    (h : find E o xs ys s = (.ok (some x), s')) (obj : P → K)
    (hc : Selects E (E.train s.model xs ys) xs ys o.tunneling o.criterion obj) :
    ∃ t : St P K μ γ, BestRun E obj (sample E o.randomState t o.nStart).1 x := by
  unfold find at h
  by_cases hf : fits xs ys = true
  · rw [if_pos hf] at h
    obtain ⟨c, h1, h2⟩ := setObj_selects E _ xs ys o.tunneling o.criterion s.objK obj hc
    have := search_some E o (prepare E o xs ys s) c h1 x (by rw [h])
    have hm : objective E (prepare E o xs ys s).model c = obj := h2
    rw [hm] at this
    exact this
  · rw [if_neg hf] at h; simp at h

/-! ## The seed -/

theorem seed_stateBefore (E : Env P K μ γ) (o : Opts P) (c : Option (Closure P K)) (s : St P K μ γ) (k : ℤ)
    (hk : o.randomState = .seed k) (j : Nat) : stateBefore (attempt E o c) s j = s := by
  induction j with
  | zero => rfl
  | succ j ih =>
    unfold stateBefore
    rw [ih]
    unfold attempt
    rw [hk]
    rfl

/-- **C92** With an integer `random_state` every retry starts from the same points, so retrying is useless: a
search succeeds exactly when `n_max_optim` is at least 2 and one of the first runs succeeds; and the proposed
point is the best run from these points, the same in every search of every iteration. -/
theorem C92_seeded_retries (E : Env P K μ γ) (o : Opts P) (xs : List P) (ys : List K) (s s' : St P K μ γ)
    (k : ℤ) (hk : o.randomState = .seed k) (obj : P → K)
    (hc : Selects E (E.train s.model xs ys) xs ys o.tunneling o.criterion obj) (res : Option P)
    (h : find E o xs ys s = (.ok res, s')) :
    (res ≠ none ↔ 2 ≤ o.nMax ∧ ∃ x0 ∈ E.lhs (E.ofSeed k) o.nStart, (E.slsqp obj x0).isSome) ∧
    ∀ x, res = some x → BestRun E obj (E.lhs (E.ofSeed k) o.nStart) x := by
  have hsample : ∀ t : St P K μ γ, (sample E o.randomState t o.nStart).1 = E.lhs (E.ofSeed k) o.nStart := by
    intro t; rw [hk]; rfl
  refine ⟨?_, ?_⟩
  · unfold find at h
    by_cases hf : fits xs ys = true
    · rw [if_pos hf] at h
      obtain ⟨c, h1, h2⟩ := setObj_selects E _ xs ys o.tunneling o.criterion s.objK obj hc
      have hob : (prepare E o xs ys s).objK = some c := h1
      unfold search at h
      rw [hob] at h
      simp only [Option.isNone_some, Bool.false_and, Bool.false_eq_true, if_false, Prod.mk.injEq,
        Except.ok.injEq] at h
      rw [← h.1, ← (C20_find_best_point (attempt E o (some c)) o.nMax (prepare E o xs ys s)).1]
      have hm : objective E (prepare E o xs ys s).model c = obj := h2
      constructor
      · rintro ⟨j, hj, hne⟩
        refine ⟨by omega, ?_⟩
        obtain ⟨r, hr⟩ := List.exists_mem_of_ne_nil _ hne
        rw [mem_succRuns, hm, hsample] at hr
        obtain ⟨x0, hx0, hr⟩ := hr
        exact ⟨x0, hx0, by rw [hr]; rfl⟩
      · rintro ⟨hn, x0, hx0, hr⟩
        obtain ⟨r, hr⟩ := Option.isSome_iff_exists.1 hr
        refine ⟨0, by omega, List.ne_nil_of_mem (a := r) ?_⟩
        rw [mem_succRuns, hm, hsample]
        exact ⟨x0, hx0, hr⟩
    · rw [if_neg hf] at h; simp at h
  · rintro x rfl
    obtain ⟨t, ht⟩ := C92_proposal E o xs ys s s' x h obj hc
    rw [hsample t] at ht
    exact ht

/-- **C92** With an integer `random_state` and `n_start = n_doe`, the start points of every search are the
points of the initial design, the very points where the expected improvement vanishes with the variance. -/
theorem C92_seeded_starts_are_design (E : Env P K μ γ) (o : Opts P) (f : P → K) (s s1 : St P K μ γ)
    (k : ℤ) (hk : o.randomState = .seed k) (hx : o.xdoe = none) (hn : o.nDoe = some o.nStart) (d : Data P K)
    (hd : setup E o f s = (.ok d, s1)) (xs : List P) (ys : List K) (t t' : St P K μ γ) (x : P) (obj : P → K)
    (hc : Selects E (E.train t.model xs ys) xs ys o.tunneling o.criterion obj)
    (h : find E o xs ys t = (.ok (some x), t')) : BestRun E obj d.xs x := by
  obtain ⟨x0, y0, b, h1, h2, _⟩ := (C92_setup E o f s).2.2.1 o.nStart hx hn
  rw [hd] at h1
  simp only [Except.ok.injEq] at h1
  have hdx : d.xs = x0 := by rw [h1]
  rw [hdx, h2, hk]
  exact (C92_seeded_retries E o xs ys t t' k hk obj hc (some x) h).2 x rfl

/-! ## Misspelt options -/

/-- **C92** `criterion` and `qEI` accept any string. On a new object an unknown criterion raises
`AttributeError` at the first search, after the initial design has been evaluated. -/
theorem C92_unknown_criterion_new (E : Env P K μ γ) (o : Opts P) (f : P → K) (s s1 : St P K μ γ)
    (hcr : o.criterion ∉ ["EI", "SBO", "UCB"]) (hnew : s.objK = none) (d : Data P K)
    (hd : setup E o f s = (.ok d, s1)) (hfit : fits d.xs d.ys = true) (n p : Nat) (hn : o.nIter = some (n + 1))
    (hp : o.nPar = p + 1) (hs : 0 < o.nStart) (hm : 0 < o.nMax) :
    (optimize E o f s).1 = .error .attribute ∧ (optimize E o f s).2.calls = s1.calls := by
  simp only [List.mem_cons, List.not_mem_nil, or_false, not_or] at hcr
  have ho1 : s1.objK = none := by
    unfold setup at hd
    rcases hde : design E o s with ⟨z, t⟩
    have ht : t.objK = s.objK := by
      unfold design at hde
      split at hde
      · simp only [Prod.mk.injEq] at hde; obtain ⟨_, rfl⟩ := hde; rfl
      · split at hde
        · simp only [Prod.mk.injEq] at hde; obtain ⟨_, rfl⟩ := hde; rfl
        · rename_i m _
          simp only [Prod.mk.injEq] at hde; obtain ⟨_, rfl⟩ := hde
          exact (sample_same E o.randomState s m).2.2
    rw [hde] at hd
    rcases z with e | xs
    · simp at hd
    · dsimp only at hd
      split at hd
      · simp only [Prod.mk.injEq] at hd; rw [← hd.2, ht, hnew]
      · simp only [Prod.mk.injEq] at hd; rw [← hd.2]; exact ht.trans hnew
  have hob : (prepare E o d.xs d.ys s1).objK = none := by
    show setObj o.criterion s1.objK d.xs d.ys o.tunneling = none
    unfold setObj
    rw [if_neg hcr.1, if_neg hcr.2.1, if_neg hcr.2.2, ho1]
  have hfind : find E o d.xs d.ys s1 = (.error .attribute, prepare E o d.xs d.ys s1) := by
    unfold find
    rw [if_pos hfit]
    unfold search
    rw [hob]
    simp [hs, hm]
  unfold optimize
  rw [hd]
  simp only [hn]
  unfold loop
  rw [hp]
  unfold enrich
  rw [hfind]
  exact ⟨rfl, rfl⟩

/-- **C92** On an object used before, an unknown criterion is accepted silently: the search minimises whatever
was stored by the last one. After `"SBO"` or `"UCB"` this is that criterion; after `"EI"` it is the expected
improvement on the best value of the *old* data, computed with the new surrogate. -/
theorem C92_unknown_criterion_used (E : Env P K μ γ) (o : Opts P) (xs : List P) (ys : List K) (s s' : St P K μ γ)
    (hcr : o.criterion ∉ ["EI", "SBO", "UCB"]) (x : P) (h : find E o xs ys s = (.ok (some x), s')) :
    (∀ (xs0 : List P) (ys0 : List K) tun, s.objK = some (.ei ys0 tun xs0) → ∃ t : St P K μ γ,
      BestRun E (fun p => -eiFull E (E.train s.model xs ys) ys0 tun xs0 p) (sample E o.randomState t o.nStart).1 x) ∧
    (s.objK = some .sbo → ∃ t : St P K μ γ,
      BestRun E (fun p => E.mean (E.train s.model xs ys) p) (sample E o.randomState t o.nStart).1 x) ∧
    (s.objK = some .ucb → ∃ t : St P K μ γ,
      BestRun E (fun p => E.mean (E.train s.model xs ys) p - 3 * E.sqrt (E.var (E.train s.model xs ys) p))
        (sample E o.randomState t o.nStart).1 x) := by
  simp only [List.mem_cons, List.not_mem_nil, or_false, not_or] at hcr
  unfold find at h
  by_cases hf : fits xs ys = true
  · rw [if_pos hf] at h
    have hob : ∀ c, s.objK = some c → (prepare E o xs ys s).objK = some c := by
      intro c hc
      show setObj o.criterion s.objK xs ys o.tunneling = some c
      unfold setObj
      rw [if_neg hcr.1, if_neg hcr.2.1, if_neg hcr.2.2, hc]
    refine ⟨fun xs0 ys0 tun hc => ?_, fun hc => ?_, fun hc => ?_⟩
    · exact search_some E o (prepare E o xs ys s) _ (hob _ hc) x (by rw [h])
    · exact search_some E o (prepare E o xs ys s) _ (hob _ hc) x (by rw [h])
    · exact search_some E o (prepare E o xs ys s) _ (hob _ hc) x (by rw [h])
  · rw [if_neg hf] at h; simp at h

/-- What the last search of a run leaves in the object. -/
theorem C92_criterion_kept (E : Env P K μ γ) (o : Opts P) (xs : List P) (ys : List K) (s s' : St P K μ γ)
    (r : Option P) (h : find E o xs ys s = (.ok r, s')) :
    (o.criterion = "EI" → s'.objK = some (.ei ys o.tunneling xs)) ∧ (o.criterion = "SBO" → s'.objK = some .sbo) ∧
    (o.criterion = "UCB" → s'.objK = some .ucb) ∧
    (o.criterion ∉ ["EI", "SBO", "UCB"] → s'.objK = s.objK) := by
  have := (find_trained E o xs ys s r (by rw [h])).2.2
  rw [h] at this
  dsimp only at this
  refine ⟨fun hc => ?_, fun hc => ?_, fun hc => ?_, fun hc => ?_⟩
  · rw [this, hc]; rfl
  · rw [this, hc]; rfl
  · rw [this, hc]; rfl
  · simp only [List.mem_cons, List.not_mem_nil, or_false, not_or] at hc
    rw [this]
    unfold setObj
    rw [if_neg hc.1, if_neg hc.2.1, if_neg hc.2.2]

/-- **C92** An unknown `qEI` never gives a result with a new point: as soon as a search succeeds the run fails
with `UnboundLocalError`, even with `n_parallel = 1`, where the virtual value would not be used. -/
theorem C92_unknown_qei (E : Env P K μ γ) (o : Opts P)
    (hq : o.qEI ∉ ["CLmin", "KB", "KBUB", "KBLB", "KBRand"]) :
    (∀ (p : Nat) (d : Data P K) (s s1 : St P K μ γ) (x : P), find E o d.xs d.ys s = (.ok (some x), s1) →
      enrich E o (p + 1) d s = (.error .unbound, s1)) ∧
    ∀ (f : P → K) (s s' : St P K μ γ) (r : Result P P K), optimize E o f s = (.ok r, s') →
      ∃ d s1, setup E o f s = (.ok d, s1) ∧ r.xData = d.xs := by
  simp only [List.mem_cons, List.not_mem_nil, or_false, not_or] at hq
  obtain ⟨q1, q2, q3, q4, q5⟩ := hq
  have hv : ∀ (x : P) (ys : List K) (s : St P K μ γ), virt E o x ys s = (.error .unbound, s) := by
    intro x ys s
    unfold virt
    rw [if_neg q1, if_neg q2, if_neg q3, if_neg q4, if_neg q5]
  have henr : ∀ (p : Nat) (d : Data P K) (s s1 : St P K μ γ) (x : P), find E o d.xs d.ys s = (.ok (some x), s1) →
      enrich E o (p + 1) d s = (.error .unbound, s1) := by
    intro p d s s1 x h
    unfold enrich
    rw [h]
    dsimp only
    rw [hv]
  refine ⟨henr, fun f s s' r h => ?_⟩
  have hen : ∀ (p : Nat) (d d1 : Data P K) (s s1 : St P K μ γ), enrich E o p d s = (.ok d1, s1) → d1 = d := by
    intro p d d1 s s1 h
    cases p with
    | zero => simp only [enrich, Prod.mk.injEq, Except.ok.injEq] at h; exact h.1.symm
    | succ p =>
      rcases hf : find E o d.xs d.ys s with ⟨a, t⟩
      rcases a with e | a
      · unfold enrich at h; rw [hf] at h; simp at h
      · rcases a with _ | x
        · unfold enrich at h; rw [hf] at h
          simp only [Prod.mk.injEq, Except.ok.injEq] at h; exact h.1.symm
        · rw [henr p d s t x hf] at h; simp at h
  have hlo : ∀ (n : Nat) (d d1 : Data P K) (s s1 : St P K μ γ), loop E o f n d s = (.ok d1, s1) → d1.xs = d.xs := by
    intro n
    induction n with
    | zero => intro d d1 s s1 h; simp only [loop, Prod.mk.injEq, Except.ok.injEq] at h; rw [h.1]
    | succ n ih =>
      intro d d1 s s1 h
      unfold loop at h
      rcases he : enrich E o o.nPar d s with ⟨a, t⟩
      rw [he] at h
      rcases a with e | d2
      · simp at h
      · dsimp only at h
        have h2 := ih _ _ _ _ h
        have h3 := hen _ _ _ _ _ he
        subst h3
        exact h2
  unfold optimize at h
  rcases hs : setup E o f s with ⟨x, s1⟩
  rw [hs] at h
  rcases x with e | d
  · simp at h
  · dsimp only at h
    rcases hn : o.nIter with _ | n
    · rw [hn] at h; simp at h
    · rw [hn] at h
      dsimp only at h
      rcases hl : loop E o f n d s1 with ⟨y, s2⟩
      rw [hl] at h
      rcases y with e | d2
      · simp at h
      · simp only [Prod.mk.injEq] at h
        refine ⟨d, s1, rfl, ?_⟩
        rw [← hlo n d d2 s1 s2 hl]
        have hfin := h.1
        unfold finish at hfin
        split at hfin
        · simp at hfin
        · split at hfin
          · simp only [Except.ok.injEq] at hfin; subst hfin; rfl
          · simp at hfin

end SMT.Ego.Life
