import Mathlib.Tactic
import Verif.Ego.LifeProps5

set_option linter.unusedSectionVars false
set_option linter.unusedSimpArgs false
set_option linter.unusedVariables false

/-!
# C92, continued: virtual points, refused data, start points without a seed
-/
namespace SMT.Ego.Life

open SMT.Ego

variable {P K μ γ : Type} [Field K] [LinearOrder K]

/-! ## Virtual points -/

/-- Specification: the documented values a pending point `x` is given while a batch is being built: the smallest value of the data (`CLmin`), the surrogate's mean, the mean plus or minus three
standard deviations, or the mean plus a normal draw `z` times the standard deviation. -/
inductive Believed (E : Env P K μ γ) (m : μ) (ys : List K) (z : K) (x : P) : String → K → Prop
  | clmin (v : K) : v ∈ ys → (∀ y ∈ ys, v ≤ y) → Believed E m ys z x "CLmin" v
  | kb : Believed E m ys z x "KB" (E.mean m x)
  | kbub : Believed E m ys z x "KBUB" (E.mean m x + 3 * E.sqrt (E.var m x))
  | kblb : Believed E m ys z x "KBLB" (E.mean m x - 3 * E.sqrt (E.var m x))
  | kbrand : Believed E m ys z x "KBRand" (E.mean m x + z * E.sqrt (E.var m x))

theorem foldl_min_spec6 (as : List K) : ∀ a : K, (as.foldl min a = a ∨ as.foldl min a ∈ as) ∧ as.foldl min a ≤ a ∧ ∀ y ∈ as, as.foldl min a ≤ y := by
  induction as with
  | nil => intro a; simp
  | cons b as ih =>
    intro a
    obtain ⟨h1, h2, h3⟩ := ih (min a b)
    rw [List.foldl_cons]
    refine ⟨?_, h2.trans (min_le_left _ _), ?_⟩
    · rcases h1 with h1 | h1
      · rw [h1]
        rcases min_choice a b with h | h <;> rw [h] <;> simp
      · right; simp [h1]
    · intro y hy
      rcases List.mem_cons.1 hy with rfl | hy
      · exact h2.trans (min_le_right _ _)
      · exact h3 y hy

theorem minOf_spec6 (ys : List K) (h : ys ≠ []) : minOf ys ∈ ys ∧ ∀ y ∈ ys, minOf ys ≤ y := by
  cases ys with
  | nil => exact absurd rfl h
  | cons a as =>
    obtain ⟨h1, h2, h3⟩ := foldl_min_spec6 as a
    show as.foldl min a ∈ a :: as ∧ ∀ y ∈ a :: as, as.foldl min a ≤ y
    refine ⟨?_, ?_⟩
    · rcases h1 with h1 | h1
      · rw [h1]; simp
      · simp [h1]
    · intro y hy
      rcases List.mem_cons.1 hy with rfl | hy
      · exact h2
      · exact h3 y hy

/-- What a search leaves of the state: the surrogate trained on the data. -/
theorem find_state (E : Env P K μ γ) (o : Opts P) (xs : List P) (ys : List K) (s s' : St P K μ γ) (r : Option P) (h : find E o xs ys s = (.ok r, s')) :
    s'.model = E.train s.model xs ys ∧ s'.normal = s.normal ∧ s'.used = s.used ∧ xs.length = ys.length ∧ ys ≠ [] := by
  have step : ∀ (c : Option (Closure P K)) (t : St P K μ γ), (attempt E o c t).2.model = t.model ∧ (attempt E o c t).2.normal = t.normal ∧ (attempt E o c t).2.used = t.used := by
    intro c t
    unfold attempt sample
    cases o.randomState <;> exact ⟨rfl, rfl, rfl⟩
  have hl : ∀ (c : Option (Closure P K)) (fuel k : ℕ) (t : St P K μ γ), let q := attemptLoop (attempt E o c) o.nMax fuel k t
      q.2.model = t.model ∧ q.2.normal = t.normal ∧ q.2.used = t.used := by
    intro c fuel
    induction fuel with
    | zero => intro k t; exact ⟨rfl, rfl, rfl⟩
    | succ fuel ih =>
      intro k t
      simp only [attemptLoop]
      split
      · split
        · obtain ⟨a, b, d⟩ := ih (k + 1) (attempt E o c t).2
          obtain ⟨a', b', d'⟩ := step c t
          exact ⟨a.trans a', b.trans b', d.trans d'⟩
        · exact step c t
      · exact ⟨rfl, rfl, rfl⟩
  unfold find at h
  split at h
  · rename_i hf
    have hf' : xs.length = ys.length ∧ ys ≠ [] := by
      simp only [fits, Bool.and_eq_true, beq_iff_eq, Bool.not_eq_true', List.isEmpty_eq_false_iff] at hf
      refine ⟨hf.1, ?_⟩
      intro e; rw [e] at hf; exact hf.2 (List.length_eq_zero_iff.1 hf.1)
    unfold search at h
    split at h
    · cases h
    · simp only [Prod.mk.injEq, Except.ok.injEq] at h
      obtain ⟨-, rfl⟩ := h
      have := hl (prepare E o xs ys s).objK (o.nMax + 1) 1 (prepare E o xs ys s)
      simp only at this
      have e : (findBestPoint (attempt E o (prepare E o xs ys s).objK) o.nMax (prepare E o xs ys s)).2 = (attemptLoop (attempt E o (prepare E o xs ys s).objK) o.nMax (o.nMax + 1) 1 (prepare E o xs ys s)).2 := by
        unfold findBestPoint
        simp only
        split
        · rfl
        · split <;> rfl
      rw [e]
      exact ⟨this.1, this.2.1, this.2.2, hf'⟩
  · cases h

theorem virt_believed (E : Env P K μ γ) (o : Opts P) (x : P) (ys : List K) (s s' : St P K μ γ) (v : K) (hy : ys ≠ []) (h : virt E o x ys s = (.ok v, s')) :
    Believed E s.model ys (s.normal s.used) x o.qEI v ∧ s'.normal = s.normal ∧ s'.used = (if o.qEI = "KBRand" then s.used + 1 else s.used) := by
  unfold virt at h
  split at h
  · rename_i hq
    simp only [Prod.mk.injEq, Except.ok.injEq] at h
    obtain ⟨rfl, rfl⟩ := h
    rw [hq]
    exact ⟨.clmin _ (minOf_spec6 ys hy).1 (minOf_spec6 ys hy).2, rfl, rfl⟩
  · split at h
    · rename_i hq
      simp only [Prod.mk.injEq, Except.ok.injEq] at h
      obtain ⟨rfl, rfl⟩ := h
      rw [hq]
      exact ⟨.kb, rfl, rfl⟩
    · split at h
      · rename_i hq
        simp only [Prod.mk.injEq, Except.ok.injEq] at h
        obtain ⟨rfl, rfl⟩ := h
        rw [hq]
        exact ⟨.kbub, rfl, rfl⟩
      · split at h
        · rename_i hq
          simp only [Prod.mk.injEq, Except.ok.injEq] at h
          obtain ⟨rfl, rfl⟩ := h
          rw [hq, neg_mul, ← sub_eq_add_neg]
          exact ⟨.kblb, rfl, rfl⟩
        · split at h
          · rename_i hq
            simp only [Prod.mk.injEq, Except.ok.injEq] at h
            obtain ⟨rfl, rfl⟩ := h
            rw [hq]
            exact ⟨.kbrand, rfl, rfl⟩
          · simp at h

/-- **C92** The values given to the pending points of a batch are the documented ones: if building a batch gives the data `d'` from `d`, then `d'` continues `d`, and the value of the `i`-th pending
point is the one of the option `qEI` for the surrogate trained on `d` and the pending points before it, with the `i`-th normal draw not used before for `KBRand`. -/
theorem C92_virtual_values (E : Env P K μ γ) (o : Opts P) (p : ℕ) (d d' : Data P K) (s s' : St P K μ γ) (h : enrich E o p d s = (.ok d', s')) :
    ∃ k ≤ p, d'.xs.take d.xs.length = d.xs ∧ d'.ys.take d.ys.length = d.ys ∧ d'.xs.length = d.xs.length + k ∧ d'.ys.length = d.ys.length + k ∧
      ∀ i < k, ∃ m x v, d'.xs[d.xs.length + i]? = some x ∧ d'.ys[d.ys.length + i]? = some v ∧
        Believed E (E.train m (d'.xs.take (d.xs.length + i)) (d'.ys.take (d.ys.length + i))) (d'.ys.take (d.ys.length + i)) (s.normal (s.used + i)) x o.qEI v := by
  induction p generalizing d s with
  | zero =>
    simp only [enrich, Prod.mk.injEq, Except.ok.injEq] at h
    obtain ⟨rfl, -⟩ := h
    exact ⟨0, le_refl 0, by simp, by simp, rfl, rfl, fun i hi => absurd hi (by omega)⟩
  | succ p ih =>
    unfold enrich at h
    rcases hf : find E o d.xs d.ys s with ⟨r, s1⟩
    rw [hf] at h
    rcases r with e | r
    · simp at h
    · cases r with
      | none =>
        simp only [Prod.mk.injEq, Except.ok.injEq] at h
        obtain ⟨rfl, -⟩ := h
        exact ⟨0, by omega, by simp, by simp, rfl, rfl, fun i hi => absurd hi (by omega)⟩
      | some x =>
        simp only at h
        obtain ⟨f1, f2, f3, f4, f5⟩ := find_state E o d.xs d.ys s s1 _ hf
        rcases hv : virt E o x d.ys s1 with ⟨r2, s2⟩
        rw [hv] at h
        rcases r2 with e | v
        · simp at h
        · simp only at h
          obtain ⟨v1, v2, v3⟩ := virt_believed E o x d.ys s1 s2 v f5 hv
          obtain ⟨k, hk, a1, a2, a3, a4, a5⟩ := ih ⟨d.xs ++ [x], d.ys ++ [v], false⟩ s2 h
          simp only [List.length_append, List.length_singleton] at a1 a2 a3 a4 a5
          have b1 : d'.xs.take d.xs.length = d.xs := by
            have := congrArg (List.take d.xs.length) a1
            rwa [List.take_take, min_eq_left (by omega), List.take_left] at this
          have b2 : d'.ys.take d.ys.length = d.ys := by
            have := congrArg (List.take d.ys.length) a2
            rwa [List.take_take, min_eq_left (by omega), List.take_left] at this
          refine ⟨k + 1, by omega, b1, b2, by omega, by omega, ?_⟩
          intro i hi
          cases i with
          | zero =>
            refine ⟨s.model, x, v, ?_, ?_, ?_⟩
            · have := congrArg (fun l => l[d.xs.length]?) a1
              simp only [List.getElem?_append_right (le_refl _), Nat.sub_self, List.getElem?_cons_zero] at this
              rw [List.getElem?_take, if_pos (by omega)] at this
              exact this
            · have := congrArg (fun l => l[d.ys.length]?) a2
              simp only [List.getElem?_append_right (le_refl _), Nat.sub_self, List.getElem?_cons_zero] at this
              rw [List.getElem?_take, if_pos (by omega)] at this
              exact this
            · rw [Nat.add_zero, Nat.add_zero, Nat.add_zero, b1, b2, ← f1, ← f2, ← f3]
              exact v1
          | succ i =>
            obtain ⟨m, x', v', c1, c2, c3⟩ := a5 i (by omega)
            refine ⟨m, x', v', by rw [← c1]; congr 1; omega, by rw [← c2]; congr 1; omega, ?_⟩
            have e1 : d.xs.length + 1 + i = d.xs.length + (i + 1) := by omega
            have e2 : d.ys.length + 1 + i = d.ys.length + (i + 1) := by omega
            rw [e1, e2] at c3
            by_cases hq : o.qEI = "KBRand"
            · rw [if_pos hq] at v3
              rw [v2, f2, v3, f3, Nat.add_assoc, Nat.add_comm 1 i] at c3
              exact c3
            · generalize s2.normal (s2.used + i) = z at c3
              generalize s.normal (s.used + (i + 1)) = z'
              generalize o.qEI = q at c3 hq
              cases c3 with
              | clmin _ h1 h2 => exact .clmin _ h1 h2
              | kb => exact .kb
              | kbub => exact .kbub
              | kblb => exact .kblb
              | kbrand => exact absurd rfl hq

/-! ## Refused data -/

/-- **C92** If the values given in `ydoe` are not as many as the points of the design (or there are no points), `optimize` with at least one iteration raises `ValueError` without ever calling the function, training
the surrogate or changing the stored criterion. -/
theorem C92_bad_design (E : Env P K μ γ) (o : Opts P) (f : P → K) (s s1 : St P K μ γ) (xs : List P) (ys : List K) (hd : design E o s = (.ok xs, s1)) (hy : s1.ydoe = some ys)
    (hbad : xs.length ≠ ys.length ∨ xs = []) (n p : ℕ) (hn : o.nIter = some (n + 1)) (hp : o.nPar = p + 1) : optimize E o f s = (.error .value, s1) := by
  have hf : fits xs ys = false := by
    rcases hbad with h | h
    · simp [fits, h]
    · simp [fits, h]
  unfold optimize setup
  simp only [hd, hy, hn]
  unfold loop
  rw [hp]
  unfold enrich find
  simp only [hf, Bool.false_eq_true, if_false]

/-- **C92** A run on an empty design (`n_doe = 0`, or an empty `xdoe`) without values raises `ValueError`, whatever `n_iter` and `n_parallel`. -/
theorem C92_empty_design (E : Env P K μ γ) (o : Opts P) (f : P → K) (s s1 : St P K μ γ) (hd : design E o s = (.ok [], s1)) (hy : s1.ydoe = none ∨ s1.ydoe = some []) (n : ℕ) (hn : o.nIter = some n) :
    (optimize E o f s).1 = .error .value := by
  have key : ∀ (n : ℕ) (b : Bool) (t : St P K μ γ), (loop E o f n ⟨[], [], b⟩ t).1 = .error .value ∨ ∃ b' t', loop E o f n ⟨[], [], b⟩ t = (.ok ⟨[], [], b'⟩, t') := by
    intro n
    induction n with
    | zero => intro b t; right; exact ⟨b, t, rfl⟩
    | succ n ih =>
      intro b t
      unfold loop
      cases hp : o.nPar with
      | zero =>
        unfold enrich
        have e : ∀ t, (evaluate o f ⟨[], [], b⟩ t : Data P K × St P K μ γ).1 = ⟨[], [], b⟩ := by
          intro t; unfold evaluate; simp [lastN, setLastN]
        simp only [e]
        exact ih b _
      | succ p =>
        left
        unfold enrich find
        simp [fits]
  have fin : ∀ (d : Data P K) (t : St P K μ γ), d.xs = [] → d.ys = [] → (match loop E o f n d t with
      | (.error e, s2) => ((.error e, s2) : Except Err (Result P P K) × St P K μ γ)
      | (.ok d2, s2) => (finish o d2, s2)).1 = .error .value := by
    rintro ⟨xs, ys, b⟩ t rfl rfl
    rcases key n b t with h | ⟨b', t', h⟩
    · rcases hl : loop E o f n ⟨[], [], b⟩ t with ⟨r, t2⟩
      rw [hl] at h
      simp only at h
      subst h
      rfl
    · rw [h]; rfl
  unfold optimize setup
  rcases hy with hy | hy
  · simp only [hd, hy, hn, List.map_nil]
    exact fin _ _ rfl rfl
  · simp only [hd, hy, hn]
    exact fin _ _ rfl rfl

/-- An empty design. -/
example : (show' (optimize toy { toyOpts with nDoe := some 0, nIter := some 0 } toyF toySt)).1 = .inl .value := by decide +kernel

/-! ## No attempts, no starts -/

/-- **C92** With `n_max_optim = 0` or `n_start = 0` no local search is run: nothing is proposed and nothing raises, whatever the criterion (even unknown), if the data fit. -/
theorem C92_no_attempt (E : Env P K μ γ) (o : Opts P) (xs : List P) (ys : List K) (s : St P K μ γ) (hf : xs.length = ys.length) (hne : xs ≠ [])
    (h : o.nMax = 0 ∨ (o.nStart = 0 ∧ ∀ g, E.lhs g 0 = [])) : (find E o xs ys s).1 = .ok none := by
  have hfit : fits xs ys = true := by simp [fits, hf, hne]
  unfold find
  rw [if_pos hfit]
  unfold search
  have hc : ((prepare E o xs ys s).objK.isNone && decide (0 < o.nMax) && decide (0 < o.nStart)) = false := by
    rcases h with h | h
    · simp [h]
    · simp [h.1]
  rw [hc]
  simp only [Bool.false_eq_true, if_false, Except.ok.injEq]
  rcases h with h | ⟨h, hl⟩
  · simp [findBestPoint, h]
  · have hall : ∀ (c : Option (Closure P K)) (t : St P K μ γ), (attempt E o c t).1 = [] := by
      intro c t
      unfold attempt sample
      rw [h]
      cases o.randomState <;> simp [hl]
    by_contra hcon
    obtain ⟨j, -, hne'⟩ := (C20_find_best_point (attempt E o (prepare E o xs ys s).objK) o.nMax (prepare E o xs ys s)).1.2 hcon
    apply hne'
    unfold succRuns
    rw [hall]; rfl

/-! ## Start points without a seed -/

/-- The generators of `n` draws of `m` points from one generator. -/
def gens (E : Env P K μ γ) (m : ℕ) (g : γ) : ℕ → γ
  | 0 => g
  | n + 1 => E.advance (gens E m g n) m

theorem fresh_before (E : Env P K μ γ) (o : Opts P) (c : Option (Closure P K)) (s : St P K μ γ) (hk : o.randomState = .none) (j : ℕ) :
    stateBefore (attempt E o c) s j = { s with fresh := s.fresh + j } := by
  induction j with
  | zero => rfl
  | succ j ih =>
    unfold stateBefore
    rw [ih]
    unfold attempt
    rw [hk]
    rfl

theorem gen_before (E : Env P K μ γ) (o : Opts P) (c : Option (Closure P K)) (s : St P K μ γ) (hk : o.randomState = .object) (j : ℕ) :
    stateBefore (attempt E o c) s j = { s with gen := gens E o.nStart s.gen j } := by
  induction j with
  | zero => rfl
  | succ j ih =>
    unfold stateBefore
    rw [ih]
    unfold attempt
    rw [hk]
    rfl

/-- **C92** Without a seed retrying helps: a search succeeds exactly when one of its first `n_max_optim - 1` sets of start points has a successful run, where the sets come from the next generators the
operating system seeds (`random_state=None`), or are drawn one after the other from the user's `RandomState`. -/
theorem C92_unseeded_retries (E : Env P K μ γ) (o : Opts P) (xs : List P) (ys : List K) (s s' : St P K μ γ) (obj : P → K)
    (hc : Selects E (E.train s.model xs ys) xs ys o.tunneling o.criterion obj) (res : Option P) (h : find E o xs ys s = (.ok res, s')) :
    (o.randomState = .none → (res ≠ none ↔ ∃ j, j + 1 < o.nMax ∧ ∃ x0 ∈ E.lhs (s.entropy (s.fresh + j)) o.nStart, (E.slsqp obj x0).isSome)) ∧
    (o.randomState = .object → (res ≠ none ↔ ∃ j, j + 1 < o.nMax ∧ ∃ x0 ∈ E.lhs (gens E o.nStart s.gen j) o.nStart, (E.slsqp obj x0).isSome)) := by
  unfold find at h
  by_cases hf : fits xs ys = true
  · rw [if_pos hf] at h
    obtain ⟨c, h1, h2⟩ := setObj_selects E _ xs ys o.tunneling o.criterion s.objK obj hc
    have hob : (prepare E o xs ys s).objK = some c := h1
    unfold search at h
    rw [hob] at h
    simp only [Option.isNone_some, Bool.false_and, Bool.false_eq_true, if_false, Prod.mk.injEq, Except.ok.injEq] at h
    have hm : objective E (prepare E o xs ys s).model c = obj := h2
    have key : ∀ (starts : ℕ → List P), (∀ j, (sample E o.randomState (stateBefore (attempt E o (some c)) (prepare E o xs ys s) j) o.nStart).1 = starts j) →
        (res ≠ none ↔ ∃ j, j + 1 < o.nMax ∧ ∃ x0 ∈ starts j, (E.slsqp obj x0).isSome) := by
      intro starts hst
      rw [← h.1, ← (C20_find_best_point (attempt E o (some c)) o.nMax (prepare E o xs ys s)).1]
      constructor
      · rintro ⟨j, hj, hne⟩
        refine ⟨j, hj, ?_⟩
        obtain ⟨r, hr⟩ := List.exists_mem_of_ne_nil _ hne
        rw [mem_succRuns, hm, hst] at hr
        obtain ⟨x0, hx0, hr⟩ := hr
        exact ⟨x0, hx0, by rw [hr]; rfl⟩
      · rintro ⟨j, hj, x0, hx0, hr⟩
        obtain ⟨r, hr⟩ := Option.isSome_iff_exists.1 hr
        refine ⟨j, hj, List.ne_nil_of_mem (a := r) ?_⟩
        rw [mem_succRuns, hm, hst]
        exact ⟨x0, hx0, hr⟩
    constructor
    · intro hk
      apply key
      intro j
      rw [fresh_before E o (some c) _ hk, hk]
      rfl
    · intro hk
      apply key
      intro j
      rw [gen_before E o (some c) _ hk, hk]
      rfl
  · rw [if_neg hf] at h; simp at h

/-! ## Which generators a run uses -/

/-- Specification: between two states only the generator that belongs to the option `random_state` was drawn from, and normal deviates only with `"KBRand"`. -/
structure Drawn (o : Opts P) (s s' : St P K μ γ) : Prop where
  entropy : s'.entropy = s.entropy
  normal : s'.normal = s.normal
  gen : o.randomState ≠ .object → s'.gen = s.gen
  fresh : o.randomState ≠ .none → s'.fresh = s.fresh
  used : o.qEI ≠ "KBRand" → s'.used = s.used

theorem Drawn.rfl' (o : Opts P) (s : St P K μ γ) : Drawn o s s := ⟨rfl, rfl, fun _ => rfl, fun _ => rfl, fun _ => rfl⟩

theorem Drawn.trans {o : Opts P} {s t u : St P K μ γ} (h : Drawn o s t) (h' : Drawn o t u) : Drawn o s u :=
  ⟨h'.entropy.trans h.entropy, h'.normal.trans h.normal, fun a => (h'.gen a).trans (h.gen a), fun a => (h'.fresh a).trans (h.fresh a), fun a => (h'.used a).trans (h.used a)⟩

theorem drawn_sample (E : Env P K μ γ) (o : Opts P) (s : St P K μ γ) (n : ℕ) : Drawn o s (sample E o.randomState s n).2 := by
  cases h : o.randomState with
  | seed k => exact Drawn.rfl' o s
  | object => exact ⟨rfl, rfl, fun a => absurd h a, fun _ => rfl, fun _ => rfl⟩
  | none => exact ⟨rfl, rfl, fun _ => rfl, fun a => absurd h a, fun _ => rfl⟩

theorem drawn_find (E : Env P K μ γ) (o : Opts P) (xs : List P) (ys : List K) (s : St P K μ γ) : Drawn o s (find E o xs ys s).2 := by
  unfold find
  split
  · have hp : Drawn o s (prepare E o xs ys s) := ⟨rfl, rfl, fun _ => rfl, fun _ => rfl, fun _ => rfl⟩
    unfold search
    split
    · exact hp
    · exact findBestPoint_inv (fun t => Drawn o s t) (attempt E o (prepare E o xs ys s).objK) (fun t ht => ht.trans (drawn_sample E o t o.nStart)) o.nMax _ hp
  · exact Drawn.rfl' o s

theorem drawn_virt (E : Env P K μ γ) (o : Opts P) (x : P) (ys : List K) (s : St P K μ γ) : Drawn o s (virt E o x ys s).2 := by
  unfold virt
  split_ifs with h1 h2 h3 h4 h5
  · exact Drawn.rfl' o s
  · exact Drawn.rfl' o s
  · exact Drawn.rfl' o s
  · exact Drawn.rfl' o s
  · exact ⟨rfl, rfl, fun _ => rfl, fun _ => rfl, fun a => absurd h5 a⟩
  · exact Drawn.rfl' o s

theorem drawn_enrich (E : Env P K μ γ) (o : Opts P) (p : ℕ) (d : Data P K) (s : St P K μ γ) : Drawn o s (enrich E o p d s).2 := by
  induction p generalizing d s with
  | zero => exact Drawn.rfl' o s
  | succ p ih =>
    have hf := drawn_find E o d.xs d.ys s
    unfold enrich
    rcases h : find E o d.xs d.ys s with ⟨a, s1⟩
    rw [h] at hf
    rcases a with e | _ | x
    · exact hf
    · exact hf
    · have hv := drawn_virt E o x d.ys s1
      dsimp only
      rcases h2 : virt E o x d.ys s1 with ⟨v, s2⟩
      rw [h2] at hv
      rcases v with e | v
      · exact hf.trans hv
      · exact (hf.trans hv).trans (ih _ _)

theorem drawn_loop (E : Env P K μ γ) (o : Opts P) (f : P → K) (n : ℕ) (d : Data P K) (s : St P K μ γ) : Drawn o s (loop E o f n d s).2 := by
  induction n generalizing d s with
  | zero => exact Drawn.rfl' o s
  | succ n ih =>
    have hf := drawn_enrich E o o.nPar d s
    unfold loop
    rcases h : enrich E o o.nPar d s with ⟨a, s1⟩
    rw [h] at hf
    rcases a with e | d1
    · exact hf
    · have : Drawn o s1 (evaluate o f d1 s1).2 := ⟨rfl, rfl, fun _ => rfl, fun _ => rfl, fun _ => rfl⟩
      exact (hf.trans this).trans (ih _ _)

/-- **C92** Whatever the outcome, `optimize` draws only from the generator that belongs to the option `random_state` (none at all with an integer seed: the user's own generators are left as
they were), and draws normal deviates from NumPy's global generator only with the strategy `"KBRand"`. -/
theorem C92_generators (E : Env P K μ γ) (o : Opts P) (f : P → K) (s : St P K μ γ) : Drawn o s (optimize E o f s).2 := by
  have hs : Drawn o s (setup E o f s).2 := by
    have hd : Drawn o s (design E o s).2 := by
      unfold design
      rcases o.xdoe with _ | xd
      · rcases o.nDoe with _ | n
        · exact Drawn.rfl' o s
        · exact drawn_sample E o s n
      · exact Drawn.rfl' o s
    unfold setup
    rcases h : design E o s with ⟨a, s1⟩
    rw [h] at hd
    rcases a with e | xs
    · exact hd
    · dsimp only
      rcases s1.ydoe with _ | ys
      · exact hd.trans ⟨rfl, rfl, fun _ => rfl, fun _ => rfl, fun _ => rfl⟩
      · exact hd
  unfold optimize
  rcases h : setup E o f s with ⟨a, s1⟩
  rw [h] at hs
  rcases a with e | d
  · exact hs
  · dsimp only
    rcases o.nIter with _ | n
    · exact hs
    · dsimp only
      have hl := drawn_loop E o f n d s1
      rcases h2 : loop E o f n d s1 with ⟨b, s2⟩
      rw [h2] at hl
      rcases b with e | d2
      · exact hs.trans hl
      · exact hs.trans hl

/-! ## Cases -/

/-- The data after a batch. -/
def batch (r : Except Err (Data ℚ ℚ) × St ℚ ℚ (List ℚ × List ℚ) ℤ) : Option (List ℚ × List ℚ) := match r.1 with
  | .ok d => some (d.xs, d.ys)
  | .error _ => none

/-- Batches of two with two of the options. -/
example : batch (enrich toy toyOpts 2 ⟨[1, 2, 3], [1, 0, 1], false⟩ toySt) = some ([1, 2, 3, 5 / 2, 5 / 2], [1, 0, 1, -5 / 2, -11 / 2]) := by decide +kernel
example : batch (enrich toy { toyOpts with qEI := "CLmin" } 2 ⟨[1, 2, 3], [1, 0, 1], false⟩ toySt) = some ([1, 2, 3, 5 / 2, 5 / 2], [1, 0, 1, 0, 0]) := by decide +kernel

/-- Two values for three points. -/
example : (show' (optimize toy { toyOpts with xdoe := some [1, 2, 3] } toyF { toySt with ydoe := some [7, 8] })).1 = .inl .value := by decide +kernel

/-- No attempts: an unknown criterion goes unnoticed. -/
example : (match (find toy { toyOpts with criterion := "LCB", nMax := 0 } [1, 2, 3] [1, 0, 1] toySt).1 with
    | .ok none => true
    | _ => false) = true := by decide +kernel

end SMT.Ego.Life
