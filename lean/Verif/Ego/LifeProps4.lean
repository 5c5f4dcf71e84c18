import Verif.Ego.LifeProps3

set_option linter.unusedSectionVars false
set_option linter.unusedSimpArgs false
set_option linter.unusedVariables false

/-!
# C92, continued: sequential runs, repeated runs, longer runs, and the real-valued criteria
-/
namespace SMT.Ego.Life

open SMT.Ego

variable {P K μ γ : Type} [Field K] [LinearOrder K]

/-! ## One point at a time: the virtual-point strategy does not matter -/

/-- The documented values of `qEI`. -/
def qEIs : List String := ["CLmin", "KB", "KBUB", "KBLB", "KBRand"]

theorem virt_valid (E : Env P K μ γ) (o : Opts P) (hq : o.qEI ∈ qEIs) (x : P) (ys : List K) (s : St P K μ γ) :
    ∃ v u, virt E o x ys s = (.ok v, mark s.calls s.ydoe u s) := by
  unfold virt
  split_ifs with h1 h2 h3 h4 h5
  · exact ⟨_, s.used, rfl⟩
  · exact ⟨_, s.used, rfl⟩
  · exact ⟨_, s.used, rfl⟩
  · exact ⟨_, s.used, rfl⟩
  · exact ⟨_, s.used + 1, rfl⟩
  · exfalso
    simp [qEIs, h1, h2, h3, h4, h5] at hq

theorem setLastN_one (l : List K) (a b : K) : setLastN 1 (l ++ [a]) [b] = l ++ [b] := by
  simp [setLastN]

theorem lastN_one {α : Type} (l : List α) (a : α) : lastN 1 (l ++ [a]) = [a] := by
  simp [lastN]

theorem seq_loop (E : Env P K μ γ) (o o' : Opts P) (f : P → K)
    (hfi : ∀ xs ys (s : St P K μ γ), find E o' xs ys s = find E o xs ys s)
    (hev : ∀ (d : Data P K) (s : St P K μ γ), evaluate o' f d s = evaluate o f d s)
    (h1 : o.nPar = 1) (h1' : o'.nPar = 1) (hq : o.qEI ∈ qEIs) (hq' : o'.qEI ∈ qEIs) :
    ∀ (n : Nat) (d : Data P K) (s : St P K μ γ) (u : Nat),
    ∃ u', loop E o' f n d (mark s.calls s.ydoe u s) =
      ((loop E o f n d s).1, mark (loop E o f n d s).2.calls (loop E o f n d s).2.ydoe u' (loop E o f n d s).2) := by
  intro n
  induction n with
  | zero => intro d s u; exact ⟨u, rfl⟩
  | succ n ih =>
    intro d s u
    have hfind : find E o' d.xs d.ys (mark s.calls s.ydoe u s) =
        ((find E o d.xs d.ys s).1, mark s.calls s.ydoe u (find E o d.xs d.ys s).2) := by
      rw [hfi]; exact find_mark E o d.xs d.ys s.calls s.ydoe u s
    unfold loop
    rw [h1', h1]
    unfold enrich
    rw [hfind]
    have hsame := find_same E o d.xs d.ys s
    rcases hf : find E o d.xs d.ys s with ⟨a, t⟩
    rw [hf] at hsame
    dsimp only at hsame
    rcases a with e | a
    · exact ⟨u, by dsimp only; rw [hsame.calls, hsame.ydoe]⟩
    · rcases a with _ | x
      · dsimp only
        have := ih (evaluate o f d t).1 (evaluate o f d t).2 u
        have he : evaluate o' f d (mark s.calls s.ydoe u t) =
            ((evaluate o f d t).1, mark (evaluate o f d t).2.calls (evaluate o f d t).2.ydoe u (evaluate o f d t).2) := by
          rw [hev]
          unfold evaluate
          rw [← hsame.calls, ← hsame.ydoe]
          rfl
        rw [he]
        exact this
      · dsimp only
        obtain ⟨v, u1, hv⟩ := virt_valid E o hq x d.ys t
        obtain ⟨v', u2, hv'⟩ := virt_valid E o' hq' x d.ys (mark s.calls s.ydoe u t)
        rw [hv, hv']
        dsimp only
        unfold enrich
        dsimp only
        have he : evaluate o' f ⟨d.xs ++ [x], d.ys ++ [v'], false⟩
              (mark (mark s.calls s.ydoe u t).calls (mark s.calls s.ydoe u t).ydoe u2 (mark s.calls s.ydoe u t)) =
            ((evaluate o f ⟨d.xs ++ [x], d.ys ++ [v], false⟩ (mark t.calls t.ydoe u1 t)).1,
              mark (evaluate o f ⟨d.xs ++ [x], d.ys ++ [v], false⟩ (mark t.calls t.ydoe u1 t)).2.calls
                (evaluate o f ⟨d.xs ++ [x], d.ys ++ [v], false⟩ (mark t.calls t.ydoe u1 t)).2.ydoe u2
                (evaluate o f ⟨d.xs ++ [x], d.ys ++ [v], false⟩ (mark t.calls t.ydoe u1 t)).2) := by
          rw [hev]
          unfold evaluate
          dsimp only
          rw [h1, lastN_one]
          simp only [List.map_cons, List.map_nil]
          rw [setLastN_one, setLastN_one]
          rw [← hsame.calls, ← hsame.ydoe]
          rfl
        rw [he]
        exact ih _ _ u2

theorem sequential_aux (E : Env P K μ γ) (o o' : Opts P) (f : P → K) (s : St P K μ γ)
    (hfi : ∀ xs ys (s : St P K μ γ), find E o' xs ys s = find E o xs ys s)
    (hev : ∀ (d : Data P K) (s : St P K μ γ), evaluate o' f d s = evaluate o f d s)
    (hset : setup E o' f s = setup E o f s) (hni : o'.nIter = o.nIter)
    (hfin : ∀ d : Data P K, finish o' d = finish o d)
    (h1 : o.nPar = 1) (h1' : o'.nPar = 1) (hq : o.qEI ∈ qEIs) (hq' : o'.qEI ∈ qEIs) :
    (optimize E o' f s).1 = (optimize E o f s).1 ∧ (optimize E o' f s).2.calls = (optimize E o f s).2.calls := by
  unfold optimize
  rw [hset, hni]
  rcases setup E o f s with ⟨a, t⟩
  rcases a with e | d
  · exact ⟨rfl, rfl⟩
  · dsimp only
    rcases hn : o.nIter with _ | n
    · exact ⟨rfl, rfl⟩
    · dsimp only
      obtain ⟨u', hu⟩ := seq_loop E o o' f hfi hev h1 h1' hq hq' n d t t.used
      have hmk : mark t.calls t.ydoe t.used t = t := rfl
      rw [hmk] at hu
      rw [hu]
      rcases hl : loop E o f n d t with ⟨b, t2⟩
      rcases b with e | d2
      · exact ⟨rfl, rfl⟩
      · exact ⟨hfin d2, rfl⟩

/-- **C92** With `n_parallel = 1` the choice of `qEI` among the documented strategies has no effect on the
result or on the points evaluated: the virtual value is replaced before anything reads it. -/
theorem C92_sequential_ignores_qei (E : Env P K μ γ) (o : Opts P) (q : String) (f : P → K) (s : St P K μ γ)
    (h1 : o.nPar = 1) (hq : o.qEI ∈ qEIs) (hq' : q ∈ qEIs) :
    (optimize E { o with qEI := q } f s).1 = (optimize E o f s).1 ∧
    (optimize E { o with qEI := q } f s).2.calls = (optimize E o f s).2.calls :=
  sequential_aux E o { o with qEI := q } f s (fun _ _ _ => rfl) (fun _ _ => rfl) rfl rfl (fun _ => rfl) h1 h1 hq hq'

/-! ## Repeating a run -/

theorem seed_find (E : Env P K μ γ) (o : Opts P) (k : ℤ) (hk : o.randomState = .seed k)
    (hcr : o.criterion ∈ ["EI", "SBO", "UCB"]) (htr : ∀ m m' xs ys, E.train m xs ys = E.train m' xs ys)
    (xs : List P) (ys : List K) (s t : St P K μ γ) : (find E o xs ys s).1 = (find E o xs ys t).1 := by
  have hset : ∀ old old' : Option (Closure P K),
      setObj o.criterion old xs ys o.tunneling = setObj o.criterion old' xs ys o.tunneling := by
    intro old old'
    unfold setObj
    split_ifs with a b c
    · rfl
    · rfl
    · rfl
    · simp [a, b, c] at hcr
  unfold find
  split
  · have hp : prepare E o xs ys t = (fun u : St P K μ γ => ({ t with model := u.model, objK := u.objK } : St P K μ γ)) (prepare E o xs ys s) := by
      unfold prepare
      rw [htr t.model s.model, hset t.objK s.objK]
    rw [hp]
    unfold search
    dsimp only
    split
    · rfl
    · have := findBestPoint_map (fun u : St P K μ γ => ({ t with model := u.model, objK := u.objK } : St P K μ γ))
        (attempt E o (prepare E o xs ys s).objK) (fun u => by
          unfold attempt
          rw [hk]
          rfl) o.nMax (prepare E o xs ys s)
      rw [this]
  · rfl

theorem virt_model (E : Env P K μ γ) (o : Opts P) (hq : o.qEI ≠ "KBRand") (x : P) (ys : List K) (s t : St P K μ γ)
    (hm : s.model = t.model) : (virt E o x ys s).1 = (virt E o x ys t).1 := by
  unfold virt
  rw [hm]
  split_ifs <;> rfl

theorem seed_enrich (E : Env P K μ γ) (o : Opts P) (k : ℤ) (hk : o.randomState = .seed k)
    (hcr : o.criterion ∈ ["EI", "SBO", "UCB"]) (htr : ∀ m m' xs ys, E.train m xs ys = E.train m' xs ys)
    (hq : o.qEI ≠ "KBRand") : ∀ (p : Nat) (d : Data P K) (s t : St P K μ γ),
    (enrich E o p d s).1 = (enrich E o p d t).1 := by
  intro p
  induction p with
  | zero => intro d s t; rfl
  | succ p ih =>
    intro d s t
    unfold enrich
    have h := seed_find E o k hk hcr htr d.xs d.ys s t
    rcases hf : find E o d.xs d.ys s with ⟨a, s1⟩
    rcases hg : find E o d.xs d.ys t with ⟨b, t1⟩
    rw [hf, hg] at h
    dsimp only at h
    subst h
    rcases a with e | a
    · rfl
    · have hm : s1.model = t1.model := by
        have m1 := (find_trained E o d.xs d.ys s a (by rw [hf])).2.1
        have m2 := (find_trained E o d.xs d.ys t a (by rw [hg])).2.1
        rw [hf] at m1
        rw [hg] at m2
        rw [m1, m2]
        exact htr _ _ _ _
      rcases a with _ | x
      · rfl
      · dsimp only
        have hv := virt_model E o hq x d.ys s1 t1 hm
        rcases hv1 : virt E o x d.ys s1 with ⟨v, s2⟩
        rcases hv2 : virt E o x d.ys t1 with ⟨w, t2⟩
        rw [hv1, hv2] at hv
        dsimp only at hv
        subst hv
        rcases v with e | v
        · rfl
        · exact ih _ _ _

theorem seed_loop (E : Env P K μ γ) (o : Opts P) (f : P → K) (k : ℤ) (hk : o.randomState = .seed k)
    (hcr : o.criterion ∈ ["EI", "SBO", "UCB"]) (htr : ∀ m m' xs ys, E.train m xs ys = E.train m' xs ys)
    (hq : o.qEI ≠ "KBRand") : ∀ (n : Nat) (d : Data P K) (s t : St P K μ γ),
    (loop E o f n d s).1 = (loop E o f n d t).1 := by
  intro n
  induction n with
  | zero => intro d s t; rfl
  | succ n ih =>
    intro d s t
    unfold loop
    have h := seed_enrich E o k hk hcr htr hq o.nPar d s t
    rcases hf : enrich E o o.nPar d s with ⟨a, s1⟩
    rcases hg : enrich E o o.nPar d t with ⟨b, t1⟩
    rw [hf, hg] at h
    dsimp only at h
    subst h
    rcases a with e | d2
    · rfl
    · exact ih _ _ _

/-- **C92** With an integer `random_state`, a documented criterion, a strategy other than `"KBRand"` and a
surrogate whose training depends only on the data, the outcome of `optimize` (result or exception) does not
depend on anything done with the object before, only on the options and the current `ydoe` array. -/
theorem C92_reproducible (E : Env P K μ γ) (o : Opts P) (f : P → K) (k : ℤ) (hk : o.randomState = .seed k)
    (hcr : o.criterion ∈ ["EI", "SBO", "UCB"]) (htr : ∀ m m' xs ys, E.train m xs ys = E.train m' xs ys)
    (hq : o.qEI ≠ "KBRand") (s t : St P K μ γ) (hy : s.ydoe = t.ydoe) :
    (optimize E o f s).1 = (optimize E o f t).1 := by
  have hset : (setup E o f s).1 = (setup E o f t).1 := by
    unfold setup design
    rw [hk]
    rcases o.xdoe with _ | xd
    · rcases o.nDoe with _ | n
      · rfl
      · simp only [sample]
        rw [hy]
        rcases t.ydoe with _ | yd <;> rfl
    · simp only
      rw [hy]
      rcases t.ydoe with _ | yd <;> rfl
  unfold optimize
  rcases hs : setup E o f s with ⟨a, s1⟩
  rcases ht : setup E o f t with ⟨b, t1⟩
  rw [hs, ht] at hset
  dsimp only at hset
  subst hset
  rcases a with e | d
  · rfl
  · dsimp only
    rcases o.nIter with _ | n
    · rfl
    · dsimp only
      have h := seed_loop E o f k hk hcr htr hq n d s1 t1
      rcases hf : loop E o f n d s1 with ⟨a, s2⟩
      rcases hg : loop E o f n d t1 with ⟨b, t2⟩
      rw [hf, hg] at h
      dsimp only at h
      subst h
      rcases a with e | d2 <;> rfl

theorem setLastN_lastN {α : Type} (n : Nat) (l : List α) : setLastN n l (lastN n l) = l := by
  unfold setLastN lastN
  split
  · rfl
  · exact List.take_append_drop _ _

theorem lastN_map {α β : Type} (n : Nat) (l : List α) (g : α → β) : lastN n (l.map g) = (lastN n l).map g := by
  unfold lastN
  split
  · rfl
  · simp [List.map_drop]

/-- **C92** Under the same conditions, calling `optimize` again on the same object gives the same result,
provided no initial values were given or the given ones are the function's. -/
theorem C92_repeat (E : Env P K μ γ) (o : Opts P) (f : P → K) (k : ℤ) (hk : o.randomState = .seed k)
    (hcr : o.criterion ∈ ["EI", "SBO", "UCB"]) (htr : ∀ m m' xs ys, E.train m xs ys = E.train m' xs ys)
    (hq : o.qEI ≠ "KBRand") (s s' : St P K μ γ) (r : Result P P K)
    (hy : s.ydoe = none ∨
      ∃ xd, o.xdoe = some xd ∧ s.ydoe = some ((xd.map o.unfold).map fun x => f (o.fold x)))
    (h : optimize E o f s = (.ok r, s')) : (optimize E o f s').1 = .ok r := by
  have hkeep : s'.ydoe = s.ydoe := by
    obtain ⟨d, s1, n, d2, h1, h2, h3, h4⟩ := (optimize_ok E o f s s' r).1 h
    rcases hy with hy | ⟨xd, hx, hy⟩
    · have hown : d.own = false ∧ s1.ydoe = none := by
        unfold setup at h1
        rcases hde : design E o s with ⟨z, t⟩
        have ht : t.ydoe = s.ydoe := by
          unfold design at hde
          split at hde
          · simp only [Prod.mk.injEq] at hde; rw [← hde.2]
          · split at hde
            · simp only [Prod.mk.injEq] at hde; rw [← hde.2]
            · rename_i m _
              simp only [Prod.mk.injEq] at hde; rw [← hde.2]
              exact (sample_same E o.randomState s m).1.ydoe
        rw [hde] at h1
        rcases z with e | xs
        · simp at h1
        · dsimp only at h1
          rw [ht, hy] at h1
          simp only [Prod.mk.injEq, Except.ok.injEq] at h1
          rw [← h1.1, ← h1.2]
          exact ⟨rfl, rfl⟩
      rw [loop_notown E o f n d d2 s1 s' hown.1 h3, hown.2, hy]
    · rw [(C92_setup E o f s).1 xd _ hx hy] at h1
      simp only [Prod.mk.injEq, Except.ok.injEq] at h1
      obtain ⟨rfl, rfl⟩ := h1
      have := loop_own E o f n _ d2 _ s' rfl hy (by simp) h3
      dsimp only at this
      rw [← lastN_map o.nPar (xd.map o.unfold) (fun x => f (o.fold x)), setLastN_lastN] at this
      rw [hy]
      rcases this with h | h <;> exact h
  rw [C92_reproducible E o f k hk hcr htr hq s' s hkeep, h]

/-! ## More iterations -/

theorem enrich_nIter (E : Env P K μ γ) (o : Opts P) (m : Option Nat) : ∀ (p : Nat) (d : Data P K) (s : St P K μ γ),
    enrich E { o with nIter := m } p d s = enrich E o p d s := by
  intro p
  induction p with
  | zero => intro d s; rfl
  | succ p ih =>
    intro d s
    unfold enrich
    have h1 : ∀ xs ys (s : St P K μ γ), find E { o with nIter := m } xs ys s = find E o xs ys s := fun _ _ _ => rfl
    have h2 : ∀ x ys (s : St P K μ γ), virt E { o with nIter := m } x ys s = virt E o x ys s := fun _ _ _ => rfl
    simp only [h1, h2, ih]

theorem loop_nIter (E : Env P K μ γ) (o : Opts P) (f : P → K) (m : Option Nat) :
    ∀ (n : Nat) (d : Data P K) (s : St P K μ γ), loop E { o with nIter := m } f n d s = loop E o f n d s := by
  intro n
  induction n with
  | zero => intro d s; rfl
  | succ n ih =>
    intro d s
    unfold loop
    have h1 : ∀ (d : Data P K) (s : St P K μ γ), evaluate { o with nIter := m } f d s = evaluate o f d s := fun _ _ => rfl
    simp only [enrich_nIter, h1, ih]

theorem loop_last (E : Env P K μ γ) (o : Opts P) (f : P → K) : ∀ (n : Nat) (d d2 : Data P K) (s s2 : St P K μ γ),
    loop E o f (n + 1) d s = (.ok d2, s2) →
    ∃ d1 s1, loop E o f n d s = (.ok d1, s1) ∧ loop E o f 1 d1 s1 = (.ok d2, s2) := by
  intro n
  induction n with
  | zero => intro d d2 s s2 h; exact ⟨d, s, rfl, h⟩
  | succ n ih =>
    intro d d2 s s2 h
    unfold loop at h
    rcases he : enrich E o o.nPar d s with ⟨a, t⟩
    rw [he] at h
    rcases a with e | d3
    · simp at h
    · dsimp only at h
      obtain ⟨d1, s1, h1, h2⟩ := ih _ _ _ _ h
      refine ⟨d1, s1, ?_, h2⟩
      conv_lhs => unfold loop
      rw [he]
      exact h1

/-- **C92** More iterations never hurt: when the run with `n + 1` iterations returns, so does the one with `n`,
its design is a prefix of the longer one's, and, if the initial values are the function's, the optimum found
is at least as good. -/
theorem C92_more_iterations (E : Env P K μ γ) (o : Opts P) (f : P → K) (n : Nat) (s s2 : St P K μ γ)
    (r2 : Result P P K) (h : optimize E { o with nIter := some (n + 1) } f s = (.ok r2, s2)) (d : Data P K)
    (s0 : St P K μ γ) (hd : setup E o f s = (.ok d, s0)) (hne : d.xs ≠ []) (hlen : d.xs.length = d.ys.length) :
    ∃ r1 s1, optimize E { o with nIter := some n } f s = (.ok r1, s1) ∧ r1.xData <+: r2.xData ∧
      (d.ys = (d.xs.map fun x => f (o.fold x)) → r2.yOpt ≤ r1.yOpt) := by
  obtain ⟨d', s0', m, d2, h1, h2, h3, h4⟩ := (optimize_ok E _ f s s2 r2).1 h
  have hd' : setup E { o with nIter := some (n + 1) } f s = (.ok d, s0) := hd
  rw [hd'] at h1
  simp only [Prod.mk.injEq, Except.ok.injEq] at h1
  obtain ⟨rfl, rfl⟩ := h1
  simp only [Option.some.injEq] at h2
  subst h2
  have h3' := h3
  rw [loop_nIter] at h3
  obtain ⟨d1, s1, h5, h6⟩ := loop_last E o f n d d2 s0 s2 h3
  have hhist := (loop_hist (oracle E o) f o.fold o.nPar d.xs d.ys n d.xs d.ys (core s0) (hist_init _ _ _ hlen)).1
  rw [loop_refines E o f n d d1 s0 s1 h5] at hhist
  dsimp only at hhist
  have hne1 : d1.ys ≠ [] := by
    obtain ⟨new, hnew⟩ := hhist.pre
    intro e
    have := hhist.len
    rw [e, hnew] at this
    simp at this
    exact hne this.1
  obtain ⟨i, v, ha, hb, _⟩ := argmin_spec d1.ys hne1
  have hi : i < d1.xs.length := by
    rw [hhist.len]
    by_contra hcon
    rw [List.getElem?_eq_none (by omega)] at hb; simp at hb
  obtain ⟨x, hx⟩ : ∃ x, d1.xs[i]? = some x := ⟨_, List.getElem?_eq_getElem hi⟩
  have hfin : finish { o with nIter := some n } d1 = .ok ⟨o.fold x, v, i, d1.xs, d1.ys⟩ := by
    unfold finish
    simp only [ha, hx, hb]
  have hopt : optimize E { o with nIter := some n } f s = (.ok ⟨o.fold x, v, i, d1.xs, d1.ys⟩, s1) :=
    (optimize_ok E _ f s s1 _).2 ⟨d, s0, n, d1, hd, rfl, by rw [loop_nIter]; exact h5, hfin⟩
  obtain ⟨hx2, hy2, _, _, _⟩ := finish_ok _ d2 r2 h4
  obtain ⟨⟨new, hnew⟩, _⟩ := loop_calls E o f 1 d1 d2 s1 s2 h6
  refine ⟨_, s1, hopt, ⟨new, by rw [hx2, hnew]⟩, ?_⟩
  intro hex
  dsimp only
  obtain ⟨_, _, _, _, c1, c2, _, _, c3, _⟩ := C92_history E _ f s s2 r2 h d s0 hd hlen
  apply c3
  have hlast : ∀ (n : Nat) (d1 : Data P K) (s1 : St P K μ γ), loop E o f n d s0 = (.ok d1, s1) →
      d1.ys = d1.xs.map fun x => f (o.fold x) := by
    intro n d1 s1 hl
    have hh := (loop_hist (oracle E o) f o.fold o.nPar d.xs d.ys n d.xs d.ys (core s0) (hist_init _ _ _ hlen)).1
    rw [loop_refines E o f n d d1 s0 s1 hl] at hh
    dsimp only at hh
    apply List.ext_getElem?
    intro j
    rw [List.getElem?_map]
    cases hxj : d1.xs[j]? with
    | none =>
      have : d1.xs.length ≤ j := List.getElem?_eq_none_iff.1 hxj
      have hl := hh.len
      rw [List.getElem?_eq_none (by omega)]; rfl
    | some z =>
      by_cases hj : d.xs.length ≤ j
      · rw [hh.late j z hj hxj]; rfl
      · rcases hh.early j z (by omega) hxj with h | h
        · obtain ⟨nw, hnw⟩ := hh.pre
          rw [hnw, List.getElem?_append_left (by omega)] at hxj
          rw [h, hex, List.getElem?_map, hxj]
        · rw [h]; rfl
  rw [hy2, hlast (n + 1) d2 s2 h3, hnew, List.map_append]
  refine List.mem_append_left _ ?_
  rw [← hlast n d1 s1 h5]
  exact List.mem_of_getElem? hb

end SMT.Ego.Life
