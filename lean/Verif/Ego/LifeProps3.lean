import Verif.Ego.LifeProps2

set_option linter.unusedSectionVars false
set_option linter.unusedSimpArgs false
set_option linter.unusedVariables false

/-!
# C92, continued: bounds, the user's array, sequential runs, repeated and longer runs
-/
namespace SMT.Ego.Life

open SMT.Ego

variable {P K μ γ : Type} [Field K] [LinearOrder K]

/-- The pieces of a run that returns. -/
theorem optimize_ok (E : Env P K μ γ) (o : Opts P) (f : P → K) (s s' : St P K μ γ) (r : Result P P K) :
    optimize E o f s = (.ok r, s') ↔ ∃ d s1 n d2, setup E o f s = (.ok d, s1) ∧ o.nIter = some n ∧
      loop E o f n d s1 = (.ok d2, s') ∧ finish o d2 = .ok r := by
  constructor
  · intro h
    unfold optimize at h
    rcases hs : setup E o f s with ⟨x, s1⟩
    rw [hs] at h
    rcases x with e | d
    · simp at h
    · dsimp only at h
      rcases hn : o.nIter with _ | n
      · rw [hn] at h; simp at h
      · rw [hn] at h
        dsimp only at h
        rcases hl : loop E o f n d s1 with ⟨y, s2⟩
        rw [hl] at h
        rcases y with e | d2
        · simp at h
        · simp only [Prod.mk.injEq] at h
          exact ⟨d, s1, n, d2, rfl, rfl, by rw [hl, h.2], h.1⟩
  · rintro ⟨d, s1, n, d2, h1, h2, h3, h4⟩
    unfold optimize
    rw [h1]
    simp only [h2, h3, h4]

theorem finish_ok (o : Opts P) (d : Data P K) (r : Result P P K) (h : finish o d = .ok r) :
    r.xData = d.xs ∧ r.yData = d.ys ∧ argmin d.ys = some r.ind ∧ d.ys[r.ind]? = some r.yOpt ∧
    ∃ x, d.xs[r.ind]? = some x ∧ r.xOpt = o.fold x := by
  unfold finish at h
  cases ha : argmin d.ys with
  | none => rw [ha] at h; simp at h
  | some i =>
    rw [ha] at h
    dsimp only at h
    cases hx : d.xs[i]? with
    | none => rw [hx] at h; simp at h
    | some x =>
      cases hy : d.ys[i]? with
      | none => rw [hx, hy] at h; simp at h
      | some y =>
        rw [hx, hy] at h
        simp only [Except.ok.injEq] at h
        subst h
        exact ⟨rfl, rfl, rfl, hy, x, hx, rfl⟩

/-! ## Bounds -/

theorem find_in (E : Env P K μ γ) (o : Opts P) (B : P → Prop)
    (hB : ∀ obj x0 v x, E.slsqp obj x0 = some (v, x) → B x) (xs : List P) (ys : List K) (s s1 : St P K μ γ) (x : P)
    (h : find E o xs ys s = (.ok (some x), s1)) : B x := by
  unfold find at h
  by_cases hf : fits xs ys = true
  · rw [if_pos hf] at h
    cases hc : (prepare E o xs ys s).objK with
    | some c =>
      obtain ⟨t, x0, _, v, hv, _⟩ := search_some E o _ c hc x (by rw [h])
      exact hB _ _ _ _ hv
    | none =>
      unfold search at h
      rw [hc] at h
      simp only [Option.isNone_none, Bool.true_and] at h
      split at h
      · simp at h
      · simp only [Prod.mk.injEq, Except.ok.injEq] at h
        obtain ⟨k, v, _, hv, _⟩ := (C20_find_best_point (attempt E o none) o.nMax _).2 x h.1
        exfalso
        unfold succRuns at hv
        rw [List.mem_filterMap] at hv
        obtain ⟨a, ha, hr⟩ := hv
        obtain ⟨x0, _, rfl⟩ := List.mem_map.1 ha
        simp at hr
  · rw [if_neg hf] at h; simp at h

/-- **C92** If the local optimiser returns points of a set `B` (it is given the limits as bounds), every point
EGO adds to the design is in `B`, and the function is only called on the initial design and on (folded) points
of the initial design or of `B`. -/
theorem C92_bounds (E : Env P K μ γ) (o : Opts P) (f : P → K) (B : P → Prop)
    (hB : ∀ obj x0 v x, E.slsqp obj x0 = some (v, x) → B x) (s s' : St P K μ γ) (r : Result P P K)
    (h : optimize E o f s = (.ok r, s')) :
    ∃ d s1, setup E o f s = (.ok d, s1) ∧ (∃ new, r.xData = d.xs ++ new ∧ ∀ x ∈ new, B x) ∧
      ∃ batches, s'.calls = s1.calls ++ batches ∧ ∀ b ∈ batches, ∀ q ∈ b, ∃ x, q = o.fold x ∧ (x ∈ d.xs ∨ B x) := by
  obtain ⟨d, s1, n, d2, h1, h2, h3, h4⟩ := (optimize_ok E o f s s' r).1 h
  have henr : ∀ (p : Nat) (d d1 : Data P K) (s s1 : St P K μ γ), enrich E o p d s = (.ok d1, s1) →
      ∃ new, d1.xs = d.xs ++ new ∧ ∀ x ∈ new, B x := by
    intro p
    induction p with
    | zero =>
      intro d d1 s s1 h
      simp only [enrich, Prod.mk.injEq, Except.ok.injEq] at h
      exact ⟨[], by rw [h.1]; simp, by simp⟩
    | succ p ih =>
      intro d d1 s s1 h
      unfold enrich at h
      rcases hf : find E o d.xs d.ys s with ⟨a, t⟩
      rw [hf] at h
      rcases a with e | a
      · simp at h
      · rcases a with _ | x
        · simp only [Prod.mk.injEq, Except.ok.injEq] at h
          exact ⟨[], by rw [h.1]; simp, by simp⟩
        · dsimp only at h
          rcases hv : virt E o x d.ys t with ⟨v, t2⟩
          rw [hv] at h
          rcases v with e | v
          · simp at h
          · dsimp only at h
            obtain ⟨new, g1, g2⟩ := ih _ _ _ _ h
            refine ⟨x :: new, by rw [g1]; simp, ?_⟩
            intro z hz
            rcases List.mem_cons.1 hz with rfl | hz
            · exact find_in E o B hB _ _ _ _ _ hf
            · exact g2 z hz
  have hloop : ∀ (n : Nat) (d d1 : Data P K) (s s1 : St P K μ γ), loop E o f n d s = (.ok d1, s1) →
      ∃ new, d1.xs = d.xs ++ new ∧ ∀ x ∈ new, B x := by
    intro n
    induction n with
    | zero =>
      intro d d1 s s1 h
      simp only [loop, Prod.mk.injEq, Except.ok.injEq] at h
      exact ⟨[], by rw [h.1]; simp, by simp⟩
    | succ n ih =>
      intro d d1 s s1 h
      unfold loop at h
      rcases he : enrich E o o.nPar d s with ⟨a, t⟩
      rw [he] at h
      rcases a with e | d2
      · simp at h
      · dsimp only at h
        obtain ⟨new, g1, g2⟩ := henr _ _ _ _ _ he
        obtain ⟨new2, g3, g4⟩ := ih _ _ _ _ h
        have hx : (evaluate o f d2 t).1.xs = d2.xs := rfl
        rw [hx, g1] at g3
        refine ⟨new ++ new2, by rw [g3]; simp, ?_⟩
        intro z hz
        rcases List.mem_append.1 hz with hz | hz
        · exact g2 z hz
        · exact g4 z hz
  obtain ⟨new, g1, g2⟩ := hloop n d d2 s1 s' h3
  obtain ⟨_, batches, g3, _, g4⟩ := loop_calls E o f n d d2 s1 s' h3
  refine ⟨d, s1, h1, ⟨new, by rw [(finish_ok o d2 r h4).1, g1], g2⟩, batches, g3, ?_⟩
  intro b hb q hq
  obtain ⟨x, hx, rfl⟩ := (g4 b hb).1 q hq
  refine ⟨x, rfl, ?_⟩
  rw [g1] at hx
  rcases List.mem_append.1 hx with hx | hx
  · exact Or.inl hx
  · exact Or.inr (g2 x hx)

/-! ## The user's array of initial values -/

theorem setLastN_idem (n : Nat) (l b : List K) (hb : b.length = (lastN n l).length) :
    setLastN n (setLastN n l b) b = setLastN n l b := by
  unfold setLastN lastN at *
  by_cases hn : n = 0
  · simp [hn]
  · simp only [if_neg hn] at hb ⊢
    simp only [List.length_drop] at hb
    have hlen : (l.take (l.length - n) ++ b).length = l.length := by
      simp; omega
    rw [hlen]
    congr 1
    rw [List.take_append_of_le_length (by simp)]
    rw [List.take_take]
    simp

theorem loop_notown (E : Env P K μ γ) (o : Opts P) (f : P → K) : ∀ (n : Nat) (d d1 : Data P K) (s s1 : St P K μ γ),
    d.own = false → loop E o f n d s = (.ok d1, s1) → s1.ydoe = s.ydoe := by
  intro n
  induction n with
  | zero => intro d d1 s s1 _ h; simp only [loop, Prod.mk.injEq] at h; rw [h.2]
  | succ n ih =>
    intro d d1 s s1 ho h
    unfold loop at h
    rcases he : enrich E o o.nPar d s with ⟨a, t⟩
    rw [he] at h
    rcases a with e | d2
    · simp at h
    · dsimp only at h
      obtain ⟨⟨new, vals, _, _, _, _, e5⟩, _, e7⟩ := enrich_spec' E o o.nPar d d2 s t he
      rw [ho] at e5
      have e5' : d2.own = false := by simpa using e5
      have hk : (evaluate o f d2 t).2.ydoe = t.ydoe := by
        unfold evaluate; simp [e5']
      rw [ih _ _ _ _ (show (evaluate o f d2 t).1.own = false from e5') h, hk, e7]

/-- The user's array after the loop: the last `n_parallel` values are replaced by the function's if the first
search fails. -/
theorem loop_own (E : Env P K μ γ) (o : Opts P) (f : P → K) : ∀ (n : Nat) (d d1 : Data P K) (s s1 : St P K μ γ),
    d.own = true → s.ydoe = some d.ys → d.xs.length = d.ys.length → loop E o f n d s = (.ok d1, s1) →
    s1.ydoe = some d.ys ∨
      s1.ydoe = some (setLastN o.nPar d.ys ((lastN o.nPar d.xs).map fun x => f (o.fold x))) := by
  intro n
  induction n with
  | zero =>
    intro d d1 s s1 ho hy hlen h
    simp only [loop, Prod.mk.injEq] at h; rw [← h.2]; exact Or.inl hy
  | succ n ih =>
    intro d d1 s s1 ho hy hlen h
    unfold loop at h
    rcases he : enrich E o o.nPar d s with ⟨a, t⟩
    rw [he] at h
    rcases a with e | d2
    · simp at h
    · dsimp only at h
      obtain ⟨⟨new, vals, e1, e2, e3, _, e5⟩, _, e7⟩ := enrich_spec' E o o.nPar d d2 s t he
      rw [ho] at e5
      rcases new with _ | ⟨x, new⟩
      · have hv : vals = [] := by simpa using e3.symm
        rw [hv] at e2
        simp at e1 e2 e5
        have hev := evaluate_fst o f d2 t
        rw [e1, e2] at hev
        have hk : (evaluate o f d2 t).2.ydoe = some (evaluate o f d2 t).1.ys := by
          unfold evaluate; simp [e5]
        have hl : ((lastN o.nPar d.xs).map fun x => f (o.fold x)).length = (lastN o.nPar d.ys).length := by
          unfold lastN; split <;> simp [hlen]
        have := ih _ _ _ _ (show (evaluate o f d2 t).1.own = true from e5) hk (by
          rw [hev.1, hev.2.1]
          unfold setLastN lastN
          split
          · simp
          · simp; omega) h
        rw [hev.1, hev.2.1, setLastN_idem _ _ _ hl] at this
        right
        rcases this with h | h <;> exact h
      · have e5' : d2.own = false := by simpa using e5
        have hk : (evaluate o f d2 t).2.ydoe = t.ydoe := by
          unfold evaluate; simp [e5']
        left
        rw [loop_notown E o f n _ _ _ _ (show (evaluate o f d2 t).1.own = false from e5') h, hk, e7, hy]

/-- **C92** The array passed as `ydoe` can be modified by `optimize`. Precisely: if the first search of a run
with at least one iteration fails (or `n_parallel = 0`), its last `n_parallel` values (all of them for 0) are
overwritten with the function's values; otherwise, and without iterations, it is left alone. -/
theorem C92_user_array (E : Env P K μ γ) (o : Opts P) (f : P → K) (s s' : St P K μ γ) (r : Result P P K)
    (xd : List P) (yd : List K) (hx : o.xdoe = some xd) (hy : s.ydoe = some yd) (hlen : xd.length = yd.length)
    (h : optimize E o f s = (.ok r, s')) :
    (o.nIter = some 0 → s'.ydoe = some yd) ∧
    (∀ n p x s1, o.nIter = some (n + 1) → o.nPar = p + 1 →
      find E o (xd.map o.unfold) yd s = (.ok (some x), s1) → s'.ydoe = some yd) ∧
    (∀ n, o.nIter = some (n + 1) →
      (o.nPar = 0 ∨ ∃ s1, find E o (xd.map o.unfold) yd s = (.ok none, s1)) →
      s'.ydoe = some (setLastN o.nPar yd ((lastN o.nPar (xd.map o.unfold)).map fun x => f (o.fold x)))) := by
  obtain ⟨d, s1, n, d2, h1, h2, h3, h4⟩ := (optimize_ok E o f s s' r).1 h
  rw [(C92_setup E o f s).1 xd yd hx hy] at h1
  simp only [Prod.mk.injEq, Except.ok.injEq] at h1
  obtain ⟨rfl, rfl⟩ := h1
  refine ⟨?_, ?_, ?_⟩
  · intro hn
    rw [hn] at h2
    simp only [Option.some.injEq] at h2
    subst h2
    simp only [loop, Prod.mk.injEq] at h3
    rw [← h3.2, hy]
  · intro m p x s2 hn hp hf
    rw [hn] at h2
    simp only [Option.some.injEq] at h2
    subst h2
    unfold loop at h3
    rcases he : enrich E o o.nPar ⟨xd.map o.unfold, yd, true⟩ s with ⟨a, t⟩
    rw [he] at h3
    rcases a with e | d3
    · simp at h3
    · dsimp only at h3
      obtain ⟨⟨new, vals, e1, e2, e3, _, e5⟩, _, e7⟩ := enrich_spec' E o o.nPar _ d3 s t he
      have hown : d3.own = false := by
        rw [hp] at he
        unfold enrich at he
        rw [hf] at he
        dsimp only at he
        rcases hv : virt E o x yd s2 with ⟨v, t2⟩
        rw [hv] at he
        rcases v with e | v
        · simp at he
        · dsimp only at he
          obtain ⟨⟨_, _, _, _, _, _, g5⟩, _⟩ := enrich_spec' E o p _ d3 t2 t he
          simpa using g5
      have hk : (evaluate o f d3 t).2.ydoe = t.ydoe := by
        unfold evaluate; simp [hown]
      rw [loop_notown E o f m _ _ _ _ (show (evaluate o f d3 t).1.own = false from hown) h3, hk, e7, hy]
  · intro m hn hfail
    rw [hn] at h2
    simp only [Option.some.injEq] at h2
    subst h2
    have he : ∃ t, enrich E o o.nPar ⟨xd.map o.unfold, yd, true⟩ s = (.ok ⟨xd.map o.unfold, yd, true⟩, t) := by
      rcases hfail with h0 | ⟨s2, hf⟩
      · rw [h0]; exact ⟨s, rfl⟩
      · rcases hp : o.nPar with _ | p
        · exact ⟨s, rfl⟩
        · refine ⟨s2, ?_⟩
          unfold enrich
          rw [hf]
    obtain ⟨t, he⟩ := he
    unfold loop at h3
    rw [he] at h3
    dsimp only at h3
    have hev := evaluate_fst o f ⟨xd.map o.unfold, yd, true⟩ t
    have hl : ((lastN o.nPar (xd.map o.unfold)).map fun x => f (o.fold x)).length = (lastN o.nPar yd).length := by
      unfold lastN; split <;> simp [hlen]
    have := loop_own E o f m _ _ _ _ (show (evaluate o f ⟨xd.map o.unfold, yd, true⟩ t).1.own = true from rfl)
      (by unfold evaluate; rfl) (by
        rw [hev.1, hev.2.1]
        unfold setLastN lastN
        split
        · simp
        · simp; omega) h3
    rw [hev.1, hev.2.1] at this
    dsimp only at this
    rw [setLastN_idem _ _ _ hl] at this
    rcases this with h | h <;> exact h

end SMT.Ego.Life
