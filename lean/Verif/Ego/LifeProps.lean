import Verif.Ego.Life
import Verif.Ego.Props

set_option linter.unusedSectionVars false
set_option linter.unusedSimpArgs false
set_option linter.unusedVariables false

/-!
# C92: an EGO run, from the options to the returned arrays
-/
namespace SMT.Ego.Life

open SMT.Ego

variable {P K μ γ : Type} [Field K] [LinearOrder K]

/-! ## What a search leaves alone -/

/-- Bookkeeping a search neither reads nor writes. -/
def mark (c : List (List P)) (y : Option (List K)) (u : Nat) (s : St P K μ γ) : St P K μ γ :=
  { s with calls := c, ydoe := y, used := u }

theorem attemptLoop_map {σ : Type} (h : σ → σ) (att : σ → List (Option (K × P)) × σ)
    (hc : ∀ s, att (h s) = ((att s).1, h (att s).2)) (nMax : Nat) : ∀ (fuel n : Nat) (s : σ),
    attemptLoop att nMax fuel n (h s) = ((attemptLoop att nMax fuel n s).1, h (attemptLoop att nMax fuel n s).2) := by
  intro fuel
  induction fuel with
  | zero => intro n s; rfl
  | succ fuel ih =>
    intro n s
    unfold attemptLoop
    by_cases hn : n ≤ nMax
    · simp only [if_pos hn, hc]
      by_cases he : ((att s).1.filterMap id).isEmpty
      · simp only [if_pos he, ih]
      · simp only [if_neg he, Bool.false_eq_true, if_false]
    · simp only [if_neg hn]

theorem findBestPoint_map {σ : Type} (h : σ → σ) (att : σ → List (Option (K × P)) × σ)
    (hc : ∀ s, att (h s) = ((att s).1, h (att s).2)) (nMax : Nat) (s : σ) :
    findBestPoint att nMax (h s) = ((findBestPoint att nMax s).1, h (findBestPoint att nMax s).2) := by
  unfold findBestPoint
  simp only [attemptLoop_map h att hc]
  split
  · rfl
  · split <;> rfl

theorem attemptLoop_inv {σ : Type} (I : σ → Prop) (att : σ → List (Option (K × P)) × σ)
    (hc : ∀ s, I s → I (att s).2) (nMax : Nat) : ∀ (fuel n : Nat) (s : σ), I s →
    I (attemptLoop att nMax fuel n s).2 := by
  intro fuel
  induction fuel with
  | zero => intro n s hs; exact hs
  | succ fuel ih =>
    intro n s hs
    unfold attemptLoop
    by_cases hn : n ≤ nMax
    · simp only [if_pos hn]
      by_cases he : ((att s).1.filterMap id).isEmpty
      · simp only [if_pos he]; exact ih _ _ (hc s hs)
      · simp only [if_neg he, Bool.false_eq_true, if_false]; exact hc s hs
    · simp only [if_neg hn]; exact hs

theorem findBestPoint_inv {σ : Type} (I : σ → Prop) (att : σ → List (Option (K × P)) × σ)
    (hc : ∀ s, I s → I (att s).2) (nMax : Nat) (s : σ) (hs : I s) : I (findBestPoint att nMax s).2 := by
  unfold findBestPoint
  have := attemptLoop_inv I att hc nMax (nMax + 1) 1 s hs
  dsimp only
  split
  · exact this
  · split <;> exact this

theorem sample_mark (E : Env P K μ γ) (rs : RS) (c : List (List P)) (y : Option (List K)) (u : Nat)
    (s : St P K μ γ) (n : Nat) : sample E rs (mark c y u s) n = ((sample E rs s n).1, mark c y u (sample E rs s n).2) := by
  cases rs <;> rfl

theorem attempt_mark (E : Env P K μ γ) (o : Opts P) (cl : Option (Closure P K)) (c : List (List P))
    (y : Option (List K)) (u : Nat) (s : St P K μ γ) :
    attempt E o cl (mark c y u s) = ((attempt E o cl s).1, mark c y u (attempt E o cl s).2) := by
  unfold attempt
  simp only [sample_mark]
  rfl

theorem search_mark (E : Env P K μ γ) (o : Opts P) (c : List (List P)) (y : Option (List K)) (u : Nat)
    (t : St P K μ γ) : search E o (mark c y u t) = ((search E o t).1, mark c y u (search E o t).2) := by
  unfold search
  have ho : (mark c y u t).objK = t.objK := rfl
  rw [ho]
  split
  · rfl
  · rw [findBestPoint_map (mark c y u) _ (attempt_mark E o t.objK c y u)]

/-- A search does not depend on the evaluations recorded, on the user's array or on the normal draws. -/
theorem find_mark (E : Env P K μ γ) (o : Opts P) (xs : List P) (ys : List K) (c : List (List P))
    (y : Option (List K)) (u : Nat) (s : St P K μ γ) :
    find E o xs ys (mark c y u s) = ((find E o xs ys s).1, mark c y u (find E o xs ys s).2) := by
  unfold find
  have hp : prepare E o xs ys (mark c y u s) = mark c y u (prepare E o xs ys s) := rfl
  rw [hp, search_mark]
  split <;> rfl

/-- What a search preserves. -/
structure Same (s t : St P K μ γ) : Prop where
  calls : t.calls = s.calls
  ydoe : t.ydoe = s.ydoe
  used : t.used = s.used
  normal : t.normal = s.normal
  entropy : t.entropy = s.entropy

theorem sample_same (E : Env P K μ γ) (rs : RS) (s : St P K μ γ) (n : Nat) :
    Same s (sample E rs s n).2 ∧ (sample E rs s n).2.model = s.model ∧ (sample E rs s n).2.objK = s.objK := by
  cases rs <;> exact ⟨⟨rfl, rfl, rfl, rfl, rfl⟩, rfl, rfl⟩

theorem search_same (E : Env P K μ γ) (o : Opts P) (s : St P K μ γ) :
    Same s (search E o s).2 ∧ (search E o s).2.model = s.model ∧ (search E o s).2.objK = s.objK := by
  unfold search
  split
  · exact ⟨⟨rfl, rfl, rfl, rfl, rfl⟩, rfl, rfl⟩
  · exact findBestPoint_inv (fun t : St P K μ γ => Same s t ∧ t.model = s.model ∧ t.objK = s.objK) _
      (fun t ht => by
        obtain ⟨h1, h2, h3⟩ := sample_same E o.randomState t o.nStart
        exact ⟨⟨h1.calls.trans ht.1.calls, h1.ydoe.trans ht.1.ydoe, h1.used.trans ht.1.used,
          h1.normal.trans ht.1.normal, h1.entropy.trans ht.1.entropy⟩, h2.trans ht.2.1, h3.trans ht.2.2⟩)
      o.nMax s ⟨⟨rfl, rfl, rfl, rfl, rfl⟩, rfl, rfl⟩

theorem find_same (E : Env P K μ γ) (o : Opts P) (xs : List P) (ys : List K) (s : St P K μ γ) :
    Same s (find E o xs ys s).2 := by
  unfold find
  split
  · have h := (search_same E o (prepare E o xs ys s)).1
    exact ⟨h.calls, h.ydoe, h.used, h.normal, h.entropy⟩
  · exact ⟨rfl, rfl, rfl, rfl, rfl⟩

/-- After a search that raised nothing, the surrogate is trained on the data of the search, and the stored
criterion is the selected one. -/
theorem find_trained (E : Env P K μ γ) (o : Opts P) (xs : List P) (ys : List K) (s : St P K μ γ) (r : Option P)
    (h : (find E o xs ys s).1 = .ok r) :
    fits xs ys = true ∧ (find E o xs ys s).2.model = E.train s.model xs ys ∧
    (find E o xs ys s).2.objK = setObj o.criterion s.objK xs ys o.tunneling := by
  unfold find at h ⊢
  by_cases hf : fits xs ys = true
  · simp only [if_pos hf] at h ⊢
    exact ⟨hf, (search_same E o (prepare E o xs ys s)).2⟩
  · rw [if_neg hf] at h; simp at h

theorem virt_same (E : Env P K μ γ) (o : Opts P) (x : P) (ys : List K) (s : St P K μ γ) :
    (virt E o x ys s).2 = mark s.calls s.ydoe (virt E o x ys s).2.used s := by
  unfold virt
  split_ifs <;> rfl

theorem virt_mark (E : Env P K μ γ) (o : Opts P) (x : P) (ys : List K) (c : List (List P))
    (y : Option (List K)) (s : St P K μ γ) :
    virt E o x ys (mark c y s.used s) = ((virt E o x ys s).1, mark c y (virt E o x ys s).2.used (virt E o x ys s).2) := by
  unfold virt
  split_ifs <;> rfl

/-! ## Enrichment -/

/-- Enrichment appends points, leaves the record of evaluations and the user's array alone, and keeps the
user's array in use exactly when it appended nothing. -/
theorem enrich_spec' (E : Env P K μ γ) (o : Opts P) : ∀ (p : Nat) (d d1 : Data P K) (s s1 : St P K μ γ),
    enrich E o p d s = (.ok d1, s1) →
    (∃ new vals, d1.xs = d.xs ++ new ∧ d1.ys = d.ys ++ vals ∧ new.length = vals.length ∧ new.length ≤ p ∧
      (d1.own = (d.own && new.isEmpty))) ∧ s1.calls = s.calls ∧ s1.ydoe = s.ydoe := by
  intro p
  induction p with
  | zero =>
    intro d d1 s s1 h
    simp only [enrich, Prod.mk.injEq, Except.ok.injEq] at h
    obtain ⟨rfl, rfl⟩ := h
    exact ⟨⟨[], [], by simp, by simp, rfl, le_rfl, by simp⟩, rfl, rfl⟩
  | succ p ih =>
    intro d d1 s s1 h
    unfold enrich at h
    have hsame := find_same E o d.xs d.ys s
    rcases hf : find E o d.xs d.ys s with ⟨r, t⟩
    rw [hf] at h hsame
    rcases r with e | r
    · simp at h
    · rcases r with _ | x
      · simp only [Prod.mk.injEq, Except.ok.injEq] at h
        obtain ⟨rfl, rfl⟩ := h
        exact ⟨⟨[], [], by simp, by simp, rfl, by simp, by simp⟩, hsame.calls, hsame.ydoe⟩
      · dsimp only at h hsame
        have hv := virt_same E o x d.ys t
        rcases hvv : virt E o x d.ys t with ⟨v, t2⟩
        rw [hvv] at h hv
        rcases v with e | v
        · simp at h
        · dsimp only at h hv
          obtain ⟨⟨new, vals, h1, h2, h3, h4, h5⟩, h6, h7⟩ := ih _ _ _ _ h
          refine ⟨⟨x :: new, v :: vals, ?_, ?_, ?_, ?_, ?_⟩, ?_, ?_⟩
          · rw [h1]; simp
          · rw [h2]; simp
          · simp [h3]
          · simp; omega
          · rw [h5]; simp
          · rw [h6, hv]; exact hsame.calls
          · rw [h7, hv]; exact hsame.ydoe

/-! ## The run of `Verif/Ego/Model.lean` -/

/-- State without the bookkeeping. -/
def core (s : St P K μ γ) : St P K μ γ := mark [] none s.used s

/-- The search and virtual-point functions of the object, as the state machines of `Verif/Ego/Model.lean`. -/
def oracle (E : Env P K μ γ) (o : Opts P) : Oracle P K (St P K μ γ) where
  find s xs ys := ((find E o xs ys s).1.toOption.join, (find E o xs ys s).2)
  virt s x ys := ((virt E o x ys s).1.toOption.getD 0, (virt E o x ys s).2)

theorem find_core (E : Env P K μ γ) (o : Opts P) (xs : List P) (ys : List K) (s : St P K μ γ) :
    find E o xs ys (core s) = ((find E o xs ys s).1, core (find E o xs ys s).2) := by
  unfold core
  rw [find_mark, (find_same E o xs ys s).used]

theorem virt_core (E : Env P K μ γ) (o : Opts P) (x : P) (ys : List K) (s : St P K μ γ) :
    virt E o x ys (core s) = ((virt E o x ys s).1, core (virt E o x ys s).2) := by
  unfold core
  rw [virt_mark]

theorem enrich_refines (E : Env P K μ γ) (o : Opts P) : ∀ (p : Nat) (d d1 : Data P K) (s s1 : St P K μ γ),
    enrich E o p d s = (.ok d1, s1) →
    Ego.enrich (oracle E o) p d.xs d.ys (core s) = ((d1.xs, d1.ys), core s1) := by
  intro p
  induction p with
  | zero =>
    intro d d1 s s1 h
    simp only [enrich, Prod.mk.injEq, Except.ok.injEq] at h
    obtain ⟨rfl, rfl⟩ := h
    rfl
  | succ p ih =>
    intro d d1 s s1 h
    unfold enrich at h
    unfold Ego.enrich
    simp only [oracle, find_core]
    rcases hf : find E o d.xs d.ys s with ⟨r, t⟩
    rw [hf] at h
    rcases r with e | r
    · simp at h
    · rcases r with _ | x
      · simp only [Prod.mk.injEq, Except.ok.injEq] at h
        obtain ⟨rfl, rfl⟩ := h
        rfl
      · dsimp only at h
        simp only [Except.toOption, Option.join, Option.bind, id, virt_core]
        rcases hvv : virt E o x d.ys t with ⟨v, t2⟩
        rw [hvv] at h
        rcases v with e | v
        · simp at h
        · dsimp only at h
          exact ih _ _ _ _ h

theorem evaluate_fst (o : Opts P) (f : P → K) (d : Data P K) (s : St P K μ γ) :
    (evaluate o f d s).1.xs = d.xs ∧
    (evaluate o f d s).1.ys = setLastN o.nPar d.ys ((lastN o.nPar d.xs).map fun x => f (o.fold x)) ∧
    (evaluate o f d s).1.own = d.own := by
  refine ⟨rfl, ?_, rfl⟩
  unfold evaluate
  simp only [List.map_map]
  rfl

theorem loop_refines (E : Env P K μ γ) (o : Opts P) (f : P → K) : ∀ (n : Nat) (d d1 : Data P K) (s s1 : St P K μ γ),
    loop E o f n d s = (.ok d1, s1) →
    Ego.loop (oracle E o) f o.fold o.nPar n d.xs d.ys (core s) = ((d1.xs, d1.ys), core s1) := by
  intro n
  induction n with
  | zero =>
    intro d d1 s s1 h
    simp only [loop, Prod.mk.injEq, Except.ok.injEq] at h
    obtain ⟨rfl, rfl⟩ := h
    rfl
  | succ n ih =>
    intro d d1 s s1 h
    unfold loop at h
    unfold Ego.loop Ego.iteration
    rcases he : enrich E o o.nPar d s with ⟨r, t⟩
    rw [he] at h
    rcases r with e | d2
    · simp at h
    · dsimp only at h
      have h1 := enrich_refines E o o.nPar d d2 s t he
      have h2 := ih _ _ _ _ h
      obtain ⟨ha, hb, _⟩ := evaluate_fst o f d2 t
      rw [ha, hb] at h2
      have hcore : core (evaluate o f d2 t).2 = core t := rfl
      rw [hcore] at h2
      rw [h1]
      exact h2

/-- A run that returns is a run of `Verif/Ego/Model.lean` from the data of the set-up. -/
theorem C92_refines (E : Env P K μ γ) (o : Opts P) (f : P → K) (s s' : St P K μ γ) (r : Result P P K)
    (h : optimize E o f s = (.ok r, s')) :
    ∃ d s1 n, setup E o f s = (.ok d, s1) ∧ o.nIter = some n ∧
      Ego.optimize (oracle E o) f o.fold n o.nPar d.xs d.ys (core s1) = some r := by
  unfold optimize at h
  rcases hs : setup E o f s with ⟨x, s1⟩
  rw [hs] at h
  rcases x with e | d
  · simp at h
  · dsimp only at h
    rcases hn : o.nIter with _ | n
    · rw [hn] at h; simp at h
    · rw [hn] at h
      dsimp only at h
      rcases hl : loop E o f n d s1 with ⟨y, s2⟩
      rw [hl] at h
      rcases y with e | d2
      · simp at h
      · dsimp only at h
        refine ⟨d, s1, n, rfl, rfl, ?_⟩
        have hr := loop_refines E o f n d d2 s1 s2 hl
        unfold Ego.optimize
        rw [hr]
        simp only [Prod.mk.injEq] at h
        obtain ⟨h, _⟩ := h
        unfold finish at h
        dsimp only
        cases ha : argmin d2.ys with
        | none => rw [ha] at h; simp at h
        | some i =>
          rw [ha] at h
          dsimp only at h ⊢
          cases hx : d2.xs[i]? with
          | none => rw [hx] at h; simp at h
          | some x =>
            cases hy : d2.ys[i]? with
            | none => rw [hx, hy] at h; simp at h
            | some y =>
              rw [hx, hy] at h
              simp only [Except.ok.injEq] at h
              subst h
              rfl

/-! ## Set-up -/

/-- **C92** The set-up. A given design is used (unfolded when the problem is mixed-integer), otherwise `n_doe`
points are sampled; given values are used without calling the function, otherwise the function is called once,
on the whole design. With neither a design nor `n_doe`, `TypeError` and no call. -/
theorem C92_setup (E : Env P K μ γ) (o : Opts P) (f : P → K) (s : St P K μ γ) :
    (∀ xd yd, o.xdoe = some xd → s.ydoe = some yd →
      setup E o f s = (.ok ⟨xd.map o.unfold, yd, true⟩, s)) ∧
    (∀ xd, o.xdoe = some xd → s.ydoe = none →
      setup E o f s = (.ok ⟨xd.map o.unfold, (xd.map o.unfold).map f, false⟩,
        { s with calls := s.calls ++ [xd.map o.unfold] })) ∧
    (∀ n, o.xdoe = none → o.nDoe = some n → ∃ x0 y0 b, (setup E o f s).1 = .ok ⟨x0, y0, b⟩ ∧
      x0 = (sample E o.randomState s n).1 ∧
      (s.ydoe = none → y0 = x0.map f ∧ (setup E o f s).2.calls = s.calls ++ [x0]) ∧
      (∀ yd, s.ydoe = some yd → y0 = yd ∧ (setup E o f s).2.calls = s.calls)) ∧
    (o.xdoe = none → o.nDoe = none → setup E o f s = (.error .type, s)) := by
  refine ⟨?_, ?_, ?_, ?_⟩
  · intro xd yd h1 h2
    simp only [setup, design, h1, h2]
  · intro xd h1 h2
    simp only [setup, design, h1, h2]
  · intro n h1 h2
    have hsm := (sample_same E o.randomState s n).1
    simp only [setup, design, h1, h2]
    cases hy : s.ydoe with
    | none =>
      have : (sample E o.randomState s n).2.ydoe = none := hsm.ydoe.trans hy
      simp only [this]
      exact ⟨_, _, _, rfl, rfl, fun _ => ⟨rfl, by rw [hsm.calls]⟩, fun yd hyd => by simp at hyd⟩
    | some yd =>
      have : (sample E o.randomState s n).2.ydoe = some yd := hsm.ydoe.trans hy
      simp only [this]
      refine ⟨_, _, _, rfl, rfl, fun h => by simp at h, fun yd' hyd => ?_⟩
      simp only [Option.some.injEq] at hyd
      exact ⟨hyd, hsm.calls⟩
  · intro h1 h2
    simp only [setup, design, h1, h2]

/-- **C92** Without `n_iter` the run fails with `TypeError`, but only after the initial design has been sampled
and evaluated. -/
theorem C92_n_iter_required (E : Env P K μ γ) (o : Opts P) (f : P → K) (s : St P K μ γ) (hn : o.nIter = none)
    (xd : List P) (hx : o.xdoe = some xd) (hy : s.ydoe = none) :
    (optimize E o f s).1 = .error .type ∧ (optimize E o f s).2.calls = s.calls ++ [xd.map o.unfold] := by
  have := (C92_setup E o f s).2.1 xd hx hy
  unfold optimize
  rw [this]
  simp only [hn]
  exact ⟨trivial, trivial⟩

/-- **C92** The history of a run: the returned arrays start with the initial design, every added value is the
function at the (folded) added point, at most `n_iter * n_parallel` points are added, and the optimum is the
first smallest recorded value, returned with the folded point it belongs to. -/
theorem C92_history (E : Env P K μ γ) (o : Opts P) (f : P → K) (s s' : St P K μ γ) (r : Result P P K)
    (h : optimize E o f s = (.ok r, s')) (d : Data P K) (s1 : St P K μ γ) (hd : setup E o f s = (.ok d, s1))
    (hlen : d.xs.length = d.ys.length) :
    ∃ n, o.nIter = some n ∧ (∃ new, r.xData = d.xs ++ new ∧ new.length ≤ n * o.nPar) ∧
      r.xData.length = r.yData.length ∧
      (∀ (i : Nat) x, d.xs.length ≤ i → r.xData[i]? = some x → r.yData[i]? = some (f (o.fold x))) ∧
      (∀ (i : Nat) x, i < d.xs.length → r.xData[i]? = some x →
        r.yData[i]? = d.ys[i]? ∨ r.yData[i]? = some (f (o.fold x))) ∧
      (∃ x, r.xData[r.ind]? = some x ∧ r.xOpt = o.fold x) ∧ r.yData[r.ind]? = some r.yOpt ∧
      (∀ v ∈ r.yData, r.yOpt ≤ v) ∧ (∀ (j : Nat) v, j < r.ind → r.yData[j]? = some v → r.yOpt < v) := by
  obtain ⟨d', s1', n, h1, h2, h3⟩ := C92_refines E o f s s' r h
  rw [hd] at h1
  simp only [Prod.mk.injEq, Except.ok.injEq] at h1
  obtain ⟨rfl, rfl⟩ := h1
  obtain ⟨a1, a2, a3, a4⟩ := C19_history_consistent _ f o.fold n o.nPar d.xs d.ys hlen _ r h3
  obtain ⟨b1, b2, b3, b4, _⟩ := C20_returns_best _ f o.fold n o.nPar d.xs d.ys hlen _ r h3
  exact ⟨n, h2, a2, a1, a3, a4, b1, b2, b3, b4⟩

/-! ## How often the function is called -/

theorem loop_calls (E : Env P K μ γ) (o : Opts P) (f : P → K) : ∀ (n : Nat) (d d1 : Data P K) (s s1 : St P K μ γ),
    loop E o f n d s = (.ok d1, s1) →
    (∃ new, d1.xs = d.xs ++ new) ∧ ∃ batches : List (List P), s1.calls = s.calls ++ batches ∧ batches.length = n ∧
      ∀ b ∈ batches, (∀ q ∈ b, ∃ x ∈ d1.xs, q = o.fold x) ∧
        (0 < o.nPar → o.nPar ≤ d.xs.length → b.length = o.nPar) := by
  intro n
  induction n with
  | zero =>
    intro d d1 s s1 h
    simp only [loop, Prod.mk.injEq, Except.ok.injEq] at h
    obtain ⟨rfl, rfl⟩ := h
    exact ⟨⟨[], by simp⟩, [], by simp, rfl, by simp⟩
  | succ n ih =>
    intro d d1 s s1 h
    unfold loop at h
    rcases he : enrich E o o.nPar d s with ⟨r, t⟩
    rw [he] at h
    rcases r with e | d2
    · simp at h
    · dsimp only at h
      obtain ⟨⟨new, vals, e1, e2, e3, e4, e5⟩, e6, e7⟩ := enrich_spec' E o o.nPar d d2 s t he
      obtain ⟨⟨new2, g1⟩, batches, g2, g3, g4⟩ := ih _ _ _ _ h
      have hx : (evaluate o f d2 t).1.xs = d2.xs := rfl
      have hc : (evaluate o f d2 t).2.calls = t.calls ++ [(lastN o.nPar d2.xs).map o.fold] := rfl
      rw [hx] at g1 g4
      rw [hc, e6] at g2
      refine ⟨⟨new ++ new2, by rw [g1, e1]; simp⟩, (lastN o.nPar d2.xs).map o.fold :: batches, ?_, ?_, ?_⟩
      · rw [g2]; simp
      · simp [g3]
      · intro b hb
        rcases List.mem_cons.1 hb with rfl | hb
        · refine ⟨?_, ?_⟩
          · intro q hq
            obtain ⟨x, hx, rfl⟩ := List.mem_map.1 hq
            refine ⟨x, ?_, rfl⟩
            rw [g1]
            refine List.mem_append_left _ ?_
            unfold lastN at hx
            split at hx
            · exact hx
            · exact List.mem_of_mem_drop hx
          · intro hp hl
            have : d.xs.length ≤ d2.xs.length := by rw [e1]; simp
            unfold lastN
            rw [if_neg (by omega)]
            simp
            omega
        · obtain ⟨k1, k2⟩ := g4 b hb
          refine ⟨k1, fun hp hl => k2 hp ?_⟩
          rw [e1]; simp; omega

/-- **C92** The evaluation budget is spent whatever the searches do. A run that returns has called the function
on the initial design (only if no values were given) and then exactly `n_iter` times, each time on points of
the returned design; with at least `n_parallel` initial points every one of these calls is on exactly
`n_parallel` points, even in iterations whose search failed and which therefore evaluate old points again. -/
theorem C92_evaluation_budget (E : Env P K μ γ) (o : Opts P) (f : P → K) (s s' : St P K μ γ) (r : Result P P K)
    (h : optimize E o f s = (.ok r, s')) :
    ∃ (n : Nat) (x0 : List P) (batches : List (List P)), o.nIter = some n ∧ x0 <+: r.xData ∧
      s'.calls = s.calls ++ (if s.ydoe = none then [x0] else []) ++ batches ∧ batches.length = n ∧
      ∀ b ∈ batches, (∀ q ∈ b, ∃ x ∈ r.xData, q = o.fold x) ∧
        (0 < o.nPar → o.nPar ≤ x0.length → b.length = o.nPar) := by
  unfold optimize at h
  rcases hs : setup E o f s with ⟨x, s1⟩
  rw [hs] at h
  rcases x with e | d
  · simp at h
  · dsimp only at h
    rcases hn : o.nIter with _ | n
    · rw [hn] at h; simp at h
    · rw [hn] at h
      dsimp only at h
      rcases hl : loop E o f n d s1 with ⟨y, s2⟩
      rw [hl] at h
      rcases y with e | d2
      · simp at h
      · simp only [Prod.mk.injEq] at h
        obtain ⟨hfin, rfl⟩ := h
        obtain ⟨⟨new, g1⟩, batches, g2, g3, g4⟩ := loop_calls E o f n d d2 s1 s2 hl
        have hrx : r.xData = d2.xs := by
          unfold finish at hfin
          split at hfin
          · simp at hfin
          · split at hfin
            · simp only [Except.ok.injEq] at hfin; subst hfin; rfl
            · simp at hfin
        have hcalls : s1.calls = s.calls ++ (if s.ydoe = none then [d.xs] else []) := by
          unfold setup at hs
          rcases hd : design E o s with ⟨z, t⟩
          have ht : t.calls = s.calls ∧ t.ydoe = s.ydoe := by
            unfold design at hd
            split at hd
            · simp only [Prod.mk.injEq] at hd; obtain ⟨_, rfl⟩ := hd; exact ⟨rfl, rfl⟩
            · split at hd
              · simp only [Prod.mk.injEq] at hd; obtain ⟨_, rfl⟩ := hd; exact ⟨rfl, rfl⟩
              · rename_i m _
                simp only [Prod.mk.injEq] at hd; obtain ⟨_, rfl⟩ := hd
                exact ⟨(sample_same E o.randomState s m).1.calls, (sample_same E o.randomState s m).1.ydoe⟩
          rw [hd] at hs
          rcases z with e | xs
          · simp at hs
          · dsimp only at hs
            rcases hy : t.ydoe with _ | yd
            · rw [hy] at hs
              simp only [Prod.mk.injEq, Except.ok.injEq] at hs
              obtain ⟨rfl, rfl⟩ := hs
              rw [if_pos (ht.2 ▸ hy)]
              simp [ht.1]
            · rw [hy] at hs
              simp only [Prod.mk.injEq, Except.ok.injEq] at hs
              obtain ⟨rfl, rfl⟩ := hs
              rw [if_neg (by rw [← ht.2, hy]; simp)]
              simp [ht.1]
        rw [hrx]
        exact ⟨n, d.xs, batches, rfl, ⟨new, g1.symm⟩, by rw [g2, hcalls], g3, g4⟩

end SMT.Ego.Life
