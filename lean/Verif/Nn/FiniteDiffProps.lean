import Verif.Nn.FiniteDiff
import Mathlib.Analysis.Calculus.Deriv.Basic
import Mathlib.Analysis.Calculus.Deriv.Slope
import Mathlib.Tactic.Linarith
import Mathlib.Tactic.FieldSimp
import Mathlib.Tactic.LinearCombination

set_option linter.unusedSectionVars false
set_option linter.unusedSimpArgs false
set_option linter.unusedVariables false

/-!
# C97: gradients by finite differences in the network optimiser
-/
namespace SMT.Nn.FD

/-! ## Specification -/

section spec
variable {K : Type} [Field K]

/-- A design with the array under one key replaced. -/
def put (V : View K) (k : String) (A : Arr K) : View K := V.map fun q => if q.1 = k then (k, A) else q

/-- An array with one entry changed by `δ`. -/
def bump (A : Arr K) (i j : ℕ) (δ : K) : Arr K := A.set i j (A.e i j + δ)

/-- The central difference quotient of `f` in the entry `(i, j)` of the array under the key `k`. -/
def quotient (f : View K → K) (dx : K) (V : View K) (k : String) (A : Arr K) (i j : ℕ) : K := (f (put V k (bump A i j dx)) - f (put V k (bump A i j (-dx)))) / (2 * dx)

/-- The array of the central difference quotients in the entries of the array `A` under the key `k`. -/
def quotients (f : View K → K) (dx : K) (V : View K) (k : String) (A : Arr K) : Arr K :=
  { n := A.n, p := A.p, e := fun i j => if i < A.n ∧ j < A.p then quotient f dx V k A i j else 0 }

/-- All central differences. -/
def centralDifferences (f : View K → K) (dx : K) (V : View K) : View K := V.map fun q => (q.1, quotients f dx V q.1 q.2)

/-- The damage: entry `(0, 0)` increased by `dx` (no entries: nothing). -/
def shifted (dx : K) (A : Arr K) : Arr K := if 0 < A.n ∧ 0 < A.p then bump A 0 0 dx else A

/-- A well-formed dictionary: different keys, different arrays, all allocated. -/
structure WF (s : Heap K × Dict) : Prop where
  keys : (s.2.map Prod.fst).Nodup
  refs : (s.2.map Prod.snd).Nodup
  alloc : ∀ q ∈ s.2, q.2 < s.1.next

end spec

section heap
variable {K : Type} [Field K]

theorem getKey_iff {d : Dict} (hd : (d.map Prod.fst).Nodup) (k : String) (a : ℕ) : getKey d k = some a ↔ (k, a) ∈ d := by
  induction d with
  | nil => simp [getKey]
  | cons q d ih =>
    simp only [List.map_cons, List.nodup_cons] at hd
    have ih := ih hd.2
    unfold getKey at ih ⊢
    rw [List.find?_cons]
    by_cases h : q.1 = k
    · subst h
      simp only [decide_true, Option.map_some, Option.some.injEq, List.mem_cons]
      constructor
      · rintro rfl; exact Or.inl rfl
      · rintro (h | h)
        · rw [← h]
        · exact absurd (List.mem_map.2 ⟨_, h, rfl⟩) hd.1
    · simp only [h, decide_false, List.mem_cons]
      rw [ih]
      constructor
      · exact Or.inr
      · rintro (h' | h')
        · exact absurd (by rw [← h']) h
        · exact h'

theorem setKey_fst (d : Dict) (k : String) (a : ℕ) : (setKey d k a).map Prod.fst = d.map Prod.fst := by
  unfold setKey
  rw [List.map_map]
  refine List.map_congr_left fun q _ => ?_
  simp only [Function.comp]
  split
  · rename_i h; exact h.symm
  · rfl

theorem mem_setKey {d : Dict} (hd : (d.map Prod.fst).Nodup) {k : String} {a b : ℕ} (ha : (k, a) ∈ d) (q : String × ℕ) : q ∈ setKey d k b ↔ q = (k, b) ∨ (q.1 ≠ k ∧ q ∈ d) := by
  unfold setKey
  rw [List.mem_map]
  constructor
  · rintro ⟨q', hq', rfl⟩
    split
    · exact Or.inl rfl
    · rename_i h; exact Or.inr ⟨h, hq'⟩
  · rintro (rfl | ⟨h, hq⟩)
    · exact ⟨(k, a), ha, by simp⟩
    · exact ⟨q, hq, by simp [h]⟩

theorem key_unique {d : Dict} (hd : (d.map Prod.fst).Nodup) {k : String} {a b : ℕ} (ha : (k, a) ∈ d) (hb : (k, b) ∈ d) : a = b := by
  have h1 := (getKey_iff hd k a).2 ha
  have h2 := (getKey_iff hd k b).2 hb
  exact Option.some.inj (h1.symm.trans h2)

theorem ref_unique {d : Dict} (hd : (d.map Prod.snd).Nodup) {q q' : String × ℕ} (hq : q ∈ d) (hq' : q' ∈ d) (h : q.2 = q'.2) : q = q' := List.inj_on_of_nodup_map hd hq hq' h

/-- The state after a probe. -/
theorem probe_spec {f : View K → K} {k : String} {x : Arr K} {i j : ℕ} {v : K} {s : Heap K × Dict} (hs : WF s) {a : ℕ} (ha : (k, a) ∈ s.2) (hx : s.1.mem a = x) :
    ∃ s', probe f k x i j v s = some (s', f (put (view s.1 s.2) k (x.set i j v))) ∧ WF s' ∧ s'.2 = setKey s.2 k s.1.next ∧ s'.1.next = s.1.next + 1 ∧ s'.1.mem s.1.next = x ∧
      s'.1.mem a = x.set i j v ∧ (∀ c, c < s.1.next → c ≠ a → s'.1.mem c = s.1.mem c) ∧ view s'.1 s'.2 = view s.1 s.2 := by
  have hal := hs.alloc _ ha
  simp only at hal
  have hview : view (s.1.write a ((s.1.mem a).set i j v)) s.2 = put (view s.1 s.2) k (x.set i j v) := by
    unfold view put
    rw [List.map_map]
    refine List.map_congr_left fun q hq => ?_
    simp only [Function.comp, Heap.write]
    by_cases h : q.1 = k
    · have : q.2 = a := key_unique hs.keys (by rw [← h]; exact hq) ha
      simp only [h, this, if_true, hx]
    · have : q.2 ≠ a := fun h' => h (by rw [ref_unique hs.refs hq ha h'])
      simp only [h, this, if_false]
  refine ⟨((s.1.write a ((s.1.mem a).set i j v)).alloc x, setKey s.2 k s.1.next), ?_, ⟨?_, ?_, ?_⟩, rfl, rfl, ?_, ?_, ?_, ?_⟩
  · unfold probe
    rw [(getKey_iff hs.keys k a).2 ha]
    simp only [hview]
    rfl
  · show ((setKey s.2 k s.1.next).map Prod.fst).Nodup
    rw [setKey_fst]; exact hs.keys
  · show ((setKey s.2 k s.1.next).map Prod.snd).Nodup
    refine List.Nodup.map_on (fun q hq q' hq' h => ?_) ?_
    · rw [mem_setKey hs.keys ha] at hq hq'
      rcases hq with rfl | ⟨h1, h2⟩ <;> rcases hq' with rfl | ⟨h3, h4⟩
      · rfl
      · exact absurd (hs.alloc _ h4) (by simp only at h; omega)
      · exact absurd (hs.alloc _ h2) (by simp only at h; omega)
      · exact ref_unique hs.refs h2 h4 h
    · exact List.Nodup.of_map Prod.fst (by rw [setKey_fst]; exact hs.keys)
  · intro q hq
    have hq : q ∈ setKey s.2 k s.1.next := hq
    show q.2 < s.1.next + 1
    rw [mem_setKey hs.keys ha] at hq
    rcases hq with rfl | ⟨h1, h2⟩
    · exact Nat.lt_succ_self _
    · exact Nat.lt_succ_of_lt (hs.alloc _ h2)
  · simp [Heap.alloc, Heap.write]
  · simp [Heap.alloc, Heap.write, hal.ne, hx]
  · intro c hc hca
    simp [Heap.alloc, Heap.write, hc.ne, hca]
  · show view ((s.1.write a ((s.1.mem a).set i j v)).alloc x) (setKey s.2 k s.1.next) = _
    unfold view setKey
    rw [List.map_map]
    refine List.map_congr_left fun q hq => ?_
    simp only [Function.comp]
    by_cases h : q.1 = k
    · have : q.2 = a := key_unique hs.keys (by rw [← h]; exact hq) ha
      simp [h, this, Heap.alloc, Heap.write, hx]
    · have h1 : q.2 ≠ a := fun h' => h (by rw [ref_unique hs.refs hq ha h'])
      have h2 : q.2 ≠ s.1.next := (hs.alloc _ hq).ne
      simp [h, h1, h2, Heap.alloc, Heap.write]

theorem set_eq_bump (x : Arr K) (i j : ℕ) (δ : K) : x.set i j (x.e i j + δ) = bump x i j δ := rfl

/-- The state after the two probes of one entry. -/
theorem cell_spec {f : View K → K} {dx : K} {k : String} {x : Arr K} {i j : ℕ} {s : Heap K × Dict} (hs : WF s) {a : ℕ} (ha : (k, a) ∈ s.2) (hx : s.1.mem a = x) :
    ∃ s' b, cell f dx k x i j s = some (s', quotient f dx (view s.1 s.2) k x i j) ∧ WF s' ∧ s'.2 = setKey s.2 k b ∧ s.1.next ≤ b ∧ s.1.next ≤ s'.1.next ∧ s'.1.mem b = x ∧
      s'.1.mem a = bump x i j dx ∧ (∀ c, c < s.1.next → c ≠ a → s'.1.mem c = s.1.mem c) ∧ view s'.1 s'.2 = view s.1 s.2 := by
  obtain ⟨s1, e1, w1, d1, n1, m1, a1, o1, v1⟩ := probe_spec (f := f) (i := i) (j := j) (v := x.e i j + dx) hs ha hx
  have hk1 : (k, s.1.next) ∈ s1.2 := by rw [d1, mem_setKey hs.keys ha]; exact Or.inl rfl
  obtain ⟨s2, e2, w2, d2, n2, m2, a2, o2, v2⟩ := probe_spec (f := f) (i := i) (j := j) (v := x.e i j - dx) w1 hk1 m1
  have hal := hs.alloc _ ha
  simp only at hal
  refine ⟨s2, s1.1.next, ?_, w2, ?_, by omega, by omega, m2, ?_, fun c hc hca => ?_, v2.trans v1⟩
  · unfold cell
    rw [e1]
    simp only [Option.bind_some]
    rw [e2, v1]
    simp only [Option.map_some]
    rw [sub_eq_add_neg (x.e i j)]
    rfl
  · rw [d2, d1]
    unfold setKey
    rw [List.map_map]
    refine List.map_congr_left fun q _ => ?_
    simp only [Function.comp]
    by_cases h : q.1 = k <;> simp [h]
  · rw [o2 a (by omega) (by omega), a1]; rfl
  · rw [o2 c (by omega) (by omega), o1 c hc hca]

theorem setKey_setKey (d : Dict) (k : String) (a b : ℕ) : setKey (setKey d k a) k b = setKey d k b := by
  unfold setKey
  rw [List.map_map]
  refine List.map_congr_left fun q _ => ?_
  simp only [Function.comp]
  by_cases h : q.1 = k <;> simp [h]

/-- The differences of a list of entries, written into `dy`. -/
def fill (g : ℕ → ℕ → K) (l : List (ℕ × ℕ)) (dy : Arr K) : Arr K := l.foldl (fun A c => A.set c.1 c.2 (g c.1 c.2)) dy

/-- The state after a list of entries. -/
theorem cells_spec {f : View K → K} {dx : K} {k : String} {x : Arr K} (l : List (ℕ × ℕ)) : ∀ {s : Heap K × Dict} (hs : WF s) {a : ℕ} (ha : (k, a) ∈ s.2) (hx : s.1.mem a = x) (dy : Arr K),
    ∃ s' b, cells f dx k x l (s, dy) = some (s', fill (quotient f dx (view s.1 s.2) k x) l dy) ∧ WF s' ∧ s'.2 = setKey s.2 k b ∧ s.1.next ≤ s'.1.next ∧
      s'.1.mem b = x ∧ s'.1.mem a = (match l with | [] => x | c :: _ => bump x c.1 c.2 dx) ∧ (∀ c, c < s.1.next → c ≠ a → s'.1.mem c = s.1.mem c) ∧ view s'.1 s'.2 = view s.1 s.2 := by
  induction l with
  | nil =>
    intro s hs a ha hx dy
    refine ⟨s, a, rfl, hs, ?_, le_refl _, hx, hx, fun _ _ _ => rfl, rfl⟩
    unfold setKey
    conv_lhs => rw [← List.map_id s.2]
    refine List.map_congr_left fun q hq => ?_
    by_cases h : q.1 = k
    · have : q.2 = a := key_unique hs.keys (by rw [← h]; exact hq) ha
      simp [← h, ← this]
    · simp [h]
  | cons c l ih =>
    intro s hs a ha hx dy
    obtain ⟨s1, b1, e1, w1, d1, lb, n1, m1, a1, o1, v1⟩ := cell_spec (f := f) (dx := dx) (i := c.1) (j := c.2) hs ha hx
    have hk1 : (k, b1) ∈ s1.2 := by rw [d1, mem_setKey hs.keys ha]; exact Or.inl rfl
    have hal := hs.alloc _ ha
    simp only at hal
    obtain ⟨s2, b2, e2, w2, d2, n2, m2, a2, o2, v2⟩ := ih w1 hk1 m1 (dy.set c.1 c.2 (quotient f dx (view s.1 s.2) k x c.1 c.2))
    refine ⟨s2, b2, ?_, w2, ?_, n1.trans n2, m2, ?_, fun c' hc hca => ?_, v2.trans v1⟩
    · unfold cells
      rw [e1]
      simp only [Option.bind_some]
      rw [e2, v1]
      rfl
    · rw [d2, d1, setKey_setKey]
    · rw [o2 a (by omega) (by omega), a1]
    · rw [o2 c' (by omega) (by omega), o1 c' hc hca]

theorem entries_mem (n p i j : ℕ) : (i, j) ∈ entries n p ↔ i < n ∧ j < p := by
  simp [entries]

theorem fill_e (g : ℕ → ℕ → K) (l : List (ℕ × ℕ)) : ∀ dy : Arr K, (fill g l dy).n = dy.n ∧ (fill g l dy).p = dy.p ∧ ∀ i j, (fill g l dy).e i j = if (i, j) ∈ l then g i j else dy.e i j := by
  induction l with
  | nil => intro dy; exact ⟨rfl, rfl, fun i j => by simp [fill]⟩
  | cons c l ih =>
    intro dy
    obtain ⟨h1, h2, h3⟩ := ih (dy.set c.1 c.2 (g c.1 c.2))
    refine ⟨h1, h2, fun i j => ?_⟩
    have := h3 i j
    show (fill g l (dy.set c.1 c.2 (g c.1 c.2))).e i j = _
    rw [this]
    by_cases h : (i, j) ∈ l
    · simp [h]
    · by_cases h' : i = c.1 ∧ j = c.2
      · obtain ⟨rfl, rfl⟩ := h'
        simp [h, Arr.set]
      · have : (i, j) ≠ c := fun e => h' ⟨by rw [← e], by rw [← e]⟩
        simp [h, this, Arr.set, h']

theorem entries_head (n p : ℕ) : entries n p = [] ∨ ∃ l, entries n p = (0, 0) :: l := by
  unfold entries
  cases n with
  | zero => left; rfl
  | succ n =>
    cases p with
    | zero => left; simp
    | succ p =>
      right
      rw [List.range_succ_eq_map (n := n), List.flatMap_cons, List.range_succ_eq_map (n := p)]
      exact ⟨_, rfl⟩

theorem entries_nil (n p : ℕ) : entries n p = [] ↔ ¬(0 < n ∧ 0 < p) := by
  constructor
  · intro h hnp
    have := (entries_mem n p 0 0).2 hnp
    rw [h] at this; simp at this
  · intro h
    by_contra hne
    obtain ⟨c, hc⟩ := List.exists_mem_of_ne_nil _ hne
    have := (entries_mem n p c.1 c.2).1 hc
    exact h ⟨by omega, by omega⟩

/-- The state after one key. -/
theorem perKey_spec {f : View K → K} {dx : K} {k : String} {s : Heap K × Dict} (hs : WF s) {a : ℕ} (ha : (k, a) ∈ s.2) :
    ∃ s' b, perKey f dx k s = some (s', quotients f dx (view s.1 s.2) k (s.1.mem a)) ∧
      WF s' ∧ s'.2 = setKey s.2 k b ∧ s.1.next ≤ s'.1.next ∧ s'.1.mem a = shifted dx (s.1.mem a) ∧ (∀ c, c < s.1.next → c ≠ a → s'.1.mem c = s.1.mem c) ∧
      view s'.1 s'.2 = view s.1 s.2 := by
  set x := s.1.mem a with hx
  obtain ⟨s', b, e, w, d, n, m, m', o, v⟩ := cells_spec (f := f) (dx := dx) (entries x.n x.p) hs ha hx.symm { n := x.n, p := x.p, e := fun _ _ => 0 }
  refine ⟨s', b, ?_, w, d, n, ?_, o, v⟩
  · unfold perKey
    rw [(getKey_iff hs.keys k a).2 ha]
    simp only [← hx]
    rw [e]
    obtain ⟨h1, h2, h3⟩ := fill_e (quotient f dx (view s.1 s.2) k x) (entries x.n x.p) { n := x.n, p := x.p, e := fun _ _ => 0 }
    congr 2
    cases hfill : fill (quotient f dx (view s.1 s.2) k x) (entries x.n x.p) { n := x.n, p := x.p, e := fun _ _ => 0 } with
    | mk n p e =>
      rw [hfill] at h1 h2 h3
      simp only at h1 h2 h3
      subst h1
      subst h2
      unfold quotients
      congr 1
      funext i j
      rw [h3 i j]
      simp only [entries_mem]
  · rw [m']
    unfold shifted
    rcases entries_head x.n x.p with h | ⟨l, h⟩
    · rw [h, if_neg ((entries_nil _ _).1 h)]
    · rw [h]
      have : 0 < x.n ∧ 0 < x.p := by
        by_contra hc
        rw [(entries_nil _ _).2 hc] at h; simp at h
      rw [if_pos this]

/-- The state after a list of keys. -/
theorem perKeys_spec {f : View K → K} {dx : K} (ps : List (String × ℕ)) : ∀ {s : Heap K × Dict} (hs : WF s) (hks : (ps.map Prod.fst).Nodup) (hk : ∀ q ∈ ps, q ∈ s.2),
    ∃ s', perKeys f dx (ps.map Prod.fst) s = some (s', ps.map fun q => (q.1, quotients f dx (view s.1 s.2) q.1 (s.1.mem q.2))) ∧ WF s' ∧ s'.2.map Prod.fst = s.2.map Prod.fst ∧
      s.1.next ≤ s'.1.next ∧ view s'.1 s'.2 = view s.1 s.2 ∧
      (∀ q ∈ ps, s'.1.mem q.2 = shifted dx (s.1.mem q.2)) ∧ (∀ c, c < s.1.next → (∀ q ∈ ps, q.2 ≠ c) → s'.1.mem c = s.1.mem c) := by
  induction ps with
  | nil => intro s hs _ _; exact ⟨s, rfl, hs, rfl, le_refl _, rfl, by simp, fun _ _ _ => rfl⟩
  | cons q ps ih =>
    intro s hs hks hk
    obtain ⟨k, a⟩ := q
    rw [List.map_cons, List.nodup_cons] at hks
    have ha : (k, a) ∈ s.2 := hk _ (by simp)
    have hal := hs.alloc _ ha
    simp only at hal
    obtain ⟨s1, b, e1, w1, d1, n1, m1, o1, v1⟩ := perKey_spec (f := f) (dx := dx) hs ha
    have hne : ∀ q ∈ ps, q.1 ≠ k := fun q h e => hks.1 (List.mem_map.2 ⟨q, h, e⟩)
    have hin : ∀ q ∈ ps, q ∈ s.2 := fun q hq => hk q (List.mem_cons_of_mem _ hq)
    have hin1 : ∀ q ∈ ps, q ∈ s1.2 := fun q hq => by
      rw [d1, mem_setKey hs.keys ha]; exact Or.inr ⟨hne q hq, hin q hq⟩
    have href : ∀ q ∈ ps, q.2 ≠ a := fun q hq e => hne q hq (Prod.ext_iff.1 (ref_unique hs.refs (hin q hq) ha e)).1
    have hmem : ∀ q ∈ ps, s1.1.mem q.2 = s.1.mem q.2 := fun q hq => o1 _ (hs.alloc _ (hin q hq)) (href q hq)
    obtain ⟨s2, e2, w2, d2, n2, v2, m2, o2⟩ := ih w1 hks.2 hin1
    refine ⟨s2, ?_, w2, ?_, n1.trans n2, v2.trans v1, ?_, ?_⟩
    · rw [List.map_cons]
      unfold perKeys
      rw [e1]
      simp only [Option.bind_some]
      rw [e2, v1]
      simp only [Option.map_some, List.map_cons]
      congr 3
      refine List.map_congr_left fun q hq => ?_
      rw [hmem q hq]
    · rw [d2, d1, setKey_fst]
    · intro q hq
      rcases List.mem_cons.1 hq with rfl | hq
      · rw [o2 a (by omega) href, m1]
      · rw [m2 q hq, hmem q hq]
    · intro c hc hnot
      rw [o2 c (by omega) fun q hq => hnot q (List.mem_cons_of_mem _ hq)]
      exact o1 c hc fun hca => hnot (k, a) (by simp) hca.symm

theorem finiteDifference_spec {f : View K → K} {dx : K} {s : Heap K × Dict} (hs : WF s) :
    ∃ s', finiteDifference f dx s = some (s', centralDifferences f dx (view s.1 s.2)) ∧ WF s' ∧ s'.2.map Prod.fst = s.2.map Prod.fst ∧ s.1.next ≤ s'.1.next ∧
      view s'.1 s'.2 = view s.1 s.2 ∧ (∀ q ∈ s.2, s'.1.mem q.2 = shifted dx (s.1.mem q.2)) ∧ (∀ c, c < s.1.next → (∀ q ∈ s.2, q.2 ≠ c) → s'.1.mem c = s.1.mem c) := by
  obtain ⟨s', e, h⟩ := perKeys_spec (f := f) (dx := dx) s.2 hs hs.keys fun q hq => hq
  refine ⟨s', ?_, h⟩
  unfold finiteDifference
  rw [e]
  unfold centralDifferences view
  rw [List.map_map]
  rfl

/-! ## Theorems -/

/-- **C97** Without a user gradient the optimiser's gradient is the array of central difference quotients of the cost at the current design - every entry of every array, one at a time, the
others at their current values - and the design the dictionary holds afterwards has the values it had before. -/
theorem C97_central_differences {f : View K → K} {dx : K} {s : Heap K × Dict} (hs : WF s) :
    ∃ s', finiteDifference f dx s = some (s', centralDifferences f dx (view s.1 s.2)) ∧ view s'.1 s'.2 = view s.1 s.2 ∧ WF s' := by
  obtain ⟨s', e, w, -, -, v, -⟩ := finiteDifference_spec (f := f) (dx := dx) hs
  exact ⟨s', e, v, w⟩

/-- **C97** But it writes into the caller's arrays: anyone who holds the arrays of the dictionary (for instance through a copy of the dictionary) finds the entry `(0, 0)` of every non-empty array
increased by `dx`. Arrays that are not in the dictionary are untouched. -/
theorem C97_callers_arrays {f : View K → K} {dx : K} {s s' : Heap K × Dict} {g : View K} (hs : WF s) (h : finiteDifference f dx s = some (s', g)) :
    view s'.1 s.2 = (view s.1 s.2).map (fun q => (q.1, shifted dx q.2)) ∧
      ∀ d : Dict, (∀ q ∈ d, q.2 < s.1.next ∧ ∀ q' ∈ s.2, q'.2 ≠ q.2) → view s'.1 d = view s.1 d := by
  obtain ⟨s1, e, w, -, -, v, m, o⟩ := finiteDifference_spec (f := f) (dx := dx) hs
  rw [e] at h
  obtain ⟨rfl, -⟩ := Prod.ext_iff.1 (Option.some.inj h)
  constructor
  · unfold view
    rw [List.map_map]
    refine List.map_congr_left fun q hq => ?_
    simp only [Function.comp]
    rw [m q hq]
  · intro d hd
    unfold view
    refine List.map_congr_left fun q hq => ?_
    rw [o q.2 (hd q hq).1 (hd q hq).2]

end heap
end SMT.Nn.FD
