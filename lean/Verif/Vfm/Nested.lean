import Verif.Vfm.Model
import Mathlib.Data.List.Nodup
import Mathlib.Data.List.Perm.Subperm
import Mathlib.Data.Rat.Defs
import Mathlib.Algebra.Order.Ring.Rat
import Mathlib.Tactic.Linarith
import Mathlib.Tactic.NormNum
import Mathlib.Tactic.Positivity
import Mathlib.Algebra.Order.Field.Basic
import Mathlib.Algebra.Order.Field.Rat

set_option linter.unusedSectionVars false
set_option linter.unusedSimpArgs false
set_option linter.unusedVariables false

/-!
# C50: nested Latin hypercube designs
-/
namespace SMT.NestedLhs

variable {P K : Type} [LinearOrder K]

lemma pickLoop_some (row : List K) (ind : List ℕ) : ∀ (ks : List K) (l : ℕ), pickLoop row ind ks = some l →
    l ∉ ind ∧ ∃ pre k post, ks = pre ++ k :: post ∧ l = row.idxOf k ∧ ∀ k' ∈ pre, row.idxOf k' ∈ ind
  | [], l, h => by simp [pickLoop] at h
  | k :: ks, l, h => by
    unfold pickLoop at h
    simp only at h
    split at h
    · rename_i hin
      obtain ⟨h1, pre, k', post, h2, h3, h4⟩ := pickLoop_some row ind ks l h
      exact ⟨h1, k :: pre, k', post, by rw [h2]; rfl, h3, List.forall_mem_cons.2 ⟨hin, h4⟩⟩
    · rename_i hin
      simp at h
      exact ⟨h ▸ hin, [], k, ks, rfl, h.symm, by simp⟩

lemma pickLoop_none (row : List K) (ind : List ℕ) : ∀ (ks : List K), pickLoop row ind ks = none ↔ ∀ k ∈ ks, row.idxOf k ∈ ind
  | [] => by simp [pickLoop]
  | k :: ks => by
    unfold pickLoop
    simp only
    split
    · rename_i h; rw [pickLoop_none row ind ks]; simp [h]
    · rename_i h; simp [h]

lemma sort_mem (row : List K) (k : K) : k ∈ row.insertionSort (· ≤ ·) ↔ k ∈ row := (List.perm_insertionSort _ row).mem_iff

lemma pick_lt (row : List K) (ind : List ℕ) (l : ℕ) (h : pick row ind = some l) : l ∉ ind ∧ l < row.length := by
  obtain ⟨h1, pre, k, post, h2, h3, -⟩ := pickLoop_some row ind _ l h
  refine ⟨h1, ?_⟩
  rw [h3, List.idxOf_lt_length_iff]
  rw [← sort_mem, h2]; simp

/-- **C50** When the distances of a point to the coarser plan are all different, the removed neighbour is the nearest one not removed before, and there
is one as long as fewer points were removed than the plan has. -/
theorem C50_nearest_unused (row : List K) (ind : List ℕ) (hnd : row.Nodup) :
    (ind.length < row.length → (pick row ind).isSome) ∧
    ∀ l, pick row ind = some l → l ∉ ind ∧ ∃ h : l < row.length, ∀ l' (h' : l' < row.length), l' ∉ ind → row[l] ≤ row[l'] := by
  have hidx : ∀ i (hi : i < row.length), row.idxOf row[i] = i := fun i hi => hnd.idxOf_getElem i hi
  constructor
  · intro hlen
    by_contra hc
    rw [Bool.not_eq_true, Option.isSome_eq_false_iff, Option.isNone_iff_eq_none] at hc
    rw [pick, pickLoop_none] at hc
    have hsub : List.range row.length ⊆ ind := by
      intro i hi
      have hi' : i < row.length := by simpa using hi
      have := hc row[i] ((sort_mem _ _).2 (List.getElem_mem hi'))
      rwa [hidx i hi'] at this
    have := (List.nodup_range.subperm hsub).length_le
    simp at this
    omega
  · intro l h
    obtain ⟨h1, hl⟩ := pick_lt row ind l h
    refine ⟨h1, hl, fun l' h' hn => ?_⟩
    obtain ⟨-, pre, k, post, h2, h3, h4⟩ := pickLoop_some row ind _ l h
    have hk : k ∈ row := by rw [← sort_mem, h2]; simp
    have hkl : row[l] = k := by
      have := List.getElem_idxOf (List.idxOf_lt_length_iff.2 hk)
      simpa [← h3] using this
    have hmem : row[l'] ∈ pre ++ k :: post := by rw [← h2, sort_mem]; exact List.getElem_mem h'
    have hsorted : List.Pairwise (· ≤ ·) (pre ++ k :: post) := by
      rw [← h2]
      exact List.pairwise_insertionSort (· ≤ ·) row
    rcases List.mem_append.1 hmem with hm | hm
    · have := h4 _ hm
      rw [hidx l' h'] at this
      exact absurd this hn
    · rw [hkl]
      rcases List.mem_cons.1 hm with hm | hm
      · exact hm.ge
      · have := (List.pairwise_append.1 hsorted).2.1
        exact (List.pairwise_cons.1 this).1 _ hm

lemma pickAll_spec (dist : P → P → K) (lower : List P) : ∀ (ps : List P) (ind r : List ℕ), pickAll dist lower ps ind = some r →
    ind.Nodup → (∀ i ∈ ind, i < lower.length) →
    r.length = ind.length + ps.length ∧ r.Nodup ∧ ∀ i ∈ r, i < lower.length
  | [], ind, r, h, h1, h2 => by simp [pickAll] at h; subst h; exact ⟨by simp, h1, h2⟩
  | p :: ps, ind, r, h, h1, h2 => by
    rw [pickAll] at h
    obtain ⟨l, hl, hr⟩ := Option.bind_eq_some_iff.1 h
    obtain ⟨a, b⟩ := pick_lt _ _ _ hl
    have := pickAll_spec dist lower ps (ind ++ [l]) r hr (by
      rw [List.nodup_append]; exact ⟨h1, by simp, by rintro x hx y hy rfl; simp at hy; exact a (hy ▸ hx)⟩) (by
      intro i hi
      rcases List.mem_append.1 hi with hi | hi
      · exact h2 i hi
      · simp at hi; subst hi; simpa using b)
    refine ⟨?_, this.2⟩
    rw [this.1]; simp; omega

lemma pickAll_total (dist : P → P → K) (lower : List P) : ∀ (ps : List P) (ind : List ℕ), ind.length + ps.length ≤ lower.length →
    (∀ p ∈ ps, (lower.map (dist p)).Nodup) → (pickAll dist lower ps ind).isSome
  | [], ind, _, _ => by simp [pickAll]
  | p :: ps, ind, h, hd => by
    rw [pickAll]
    have := (C50_nearest_unused (lower.map (dist p)) ind (hd p (by simp))).1 (by simp at h ⊢; omega)
    obtain ⟨l, hl⟩ := Option.isSome_iff_exists.1 this
    rw [hl, Option.bind_some]
    exact pickAll_total dist lower ps (ind ++ [l]) (by simp at h ⊢; omega) fun q hq => hd q (by simp [hq])

lemma delete_length (a : List P) (ind : List ℕ) (h1 : ind.Nodup) (h2 : ∀ i ∈ ind, i < a.length) : (delete a ind).length + ind.length = a.length := by
  unfold delete
  rw [List.length_map]
  have e : (a.zipIdx.filter fun q => decide (q.2 ∉ ind)).length = ((List.range a.length).filter fun i => decide (i ∉ ind)).length := by
    have : (a.zipIdx.filter fun q => decide (q.2 ∉ ind)).map (·.2) = (List.range a.length).filter fun i => decide (i ∉ ind) := by
      have h5 : ∀ (l : List P) (k : ℕ), ((l.zipIdx k).filter fun q => decide (q.2 ∉ ind)).map (·.2) = (List.range' k l.length).filter fun i => decide (i ∉ ind) := by
        intro l
        induction l with
        | nil => intro k; simp
        | cons x l ih =>
          intro k
          rw [List.zipIdx_cons, List.length_cons, List.range'_succ, List.filter_cons, List.filter_cons]
          by_cases hk : k ∈ ind
          · simpa [hk] using ih (k + 1)
          · simpa [hk] using ih (k + 1)
      rw [h5, List.range_eq_range']
    rw [← this, List.length_map]
  rw [e]
  have hp : ((List.range a.length).filter fun i => decide (i ∈ ind)).Perm ind := by
    rw [List.perm_ext_iff_of_nodup (List.nodup_range.filter _) h1]
    intro i; simp; exact h2 i
  have h3 := (List.filter_append_perm (fun i => decide (i ∈ ind)) (List.range a.length)).length_eq
  rw [List.length_append, hp.length_eq, List.length_range] at h3
  have h4 : ((List.range a.length).filter fun i => decide (i ∉ ind)) = (List.range a.length).filter fun i => !decide (i ∈ ind) := by
    apply List.filter_congr; intro i _; simp
  rw [h4]; omega

lemma delete_sublist (a : List P) (ind : List ℕ) : (delete a ind).Sublist a := by
  have := (List.filter_sublist (l := a.zipIdx) (p := fun q => decide (q.2 ∉ ind))).map (·.1)
  rwa [List.zipIdx_map_fst] at this

lemma nestInto_spec (dist : P → P → K) (lower upper r : List P) (h : nestInto dist lower upper = some r) :
    r.length = lower.length ∧ ∃ kept, kept.Sublist lower ∧ r = kept ++ upper := by
  unfold nestInto at h
  obtain ⟨ind, hi, hr⟩ := Option.map_eq_some_iff.1 h
  obtain ⟨h1, h2, h3⟩ := pickAll_spec dist lower upper [] ind hi (by simp) (by simp)
  refine ⟨?_, delete lower ind, delete_sublist _ _, hr.symm⟩
  have := delete_length lower ind h2 h3
  rw [← hr]; simp at h1 ⊢; omega

/-- What the nesting loop does to a list of plans. -/
lemma nest_spec (dist : P → P → K) : ∀ (plans r : List (List P)), nest dist plans = some r →
    r.length = plans.length ∧
    (∀ i a b, plans[i]? = some a → r[i]? = some b → b.length = a.length ∧ ∃ kept, kept.Sublist a ∧
      ∃ rest, b = kept ++ rest ∧ (∀ c, r[i + 1]? = some c → rest = c) ∧ (r[i + 1]? = none → kept = a ∧ rest = []))
  | [], r, h => by simp [nest] at h; subst h; simp
  | [d], r, h => by
    simp [nest] at h; subst h
    refine ⟨rfl, ?_⟩
    intro i a b h1 h2
    cases i with
    | zero => simp at h1 h2; subst h1 h2; exact ⟨rfl, d, List.Sublist.refl _, [], by simp⟩
    | succ i => simp at h1
  | d :: e :: ds, r, h => by
    rw [nest] at h
    obtain ⟨r', hr', h⟩ := Option.bind_eq_some_iff.1 h
    obtain ⟨l1, l3⟩ := nest_spec dist (e :: ds) r' hr'
    cases r' with
    | nil => simp at h
    | cons u r' =>
      obtain ⟨d', hd', h⟩ := Option.map_eq_some_iff.1 h
      subst h
      obtain ⟨n1, kept, n2, n3⟩ := nestInto_spec dist d u d' hd'
      refine ⟨by simpa using l1, ?_⟩
      intro i a b h1 h2
      cases i with
      | zero =>
        simp at h1 h2; subst h1 h2
        exact ⟨n1, kept, n2, u, n3, by simp, by simp⟩
      | succ i =>
        rw [List.getElem?_cons_succ] at h1 h2
        obtain ⟨q1, q2⟩ := l3 i a b h1 h2
        refine ⟨q1, ?_⟩
        simpa using q2

lemma nest_from (dist : P → P → K) : ∀ (plans r : List (List P)), nest dist plans = some r →
    ∀ (i : ℕ) (b : List P) (p : P), r[i]? = some b → p ∈ b → ∃ j, i ≤ j ∧ ∃ a, plans[j]? = some a ∧ p ∈ a
  | [], r, h => by simp [nest] at h; subst h; simp
  | [d], r, h => by
    simp [nest] at h; subst h
    intro i b p hb hp
    exact ⟨i, le_rfl, b, hb, hp⟩
  | d :: e :: ds, r, h => by
    rw [nest] at h
    obtain ⟨r', hr', h⟩ := Option.bind_eq_some_iff.1 h
    have ih := nest_from dist (e :: ds) r' hr'
    cases r' with
    | nil => simp at h
    | cons u r' =>
      obtain ⟨d', hd', h⟩ := Option.map_eq_some_iff.1 h
      subst h
      obtain ⟨n1, kept, n2, n3⟩ := nestInto_spec dist d u d' hd'
      intro i b p hb hp
      cases i with
      | zero =>
        simp at hb; subst hb
        rw [n3] at hp
        rcases List.mem_append.1 hp with hp | hp
        · exact ⟨0, le_rfl, d, rfl, n2.subset hp⟩
        · obtain ⟨j, -, a, h1, h2⟩ := ih 0 u p rfl hp
          exact ⟨j + 1, by omega, a, by simpa using h1, h2⟩
      | succ i =>
        obtain ⟨j, h0, a, h1, h2⟩ := ih i b p (by simpa using hb) hp
        exact ⟨j + 1, by omega, a, by simpa using h1, h2⟩

lemma nest_total (dist : P → P → K) : ∀ (plans : List (List P)),
    (∀ (i : ℕ) (a b : List P), plans[i]? = some a → plans[i + 1]? = some b → b.length ≤ a.length) →
    (∀ (i j : ℕ) (a b : List P), i < j → plans[i]? = some a → plans[j]? = some b → ∀ p ∈ b, (a.map (dist p)).Nodup) → (nest dist plans).isSome
  | [], _, _ => rfl
  | [d], _, _ => rfl
  | d :: e :: ds, h1, h2 => by
    have ih := nest_total dist (e :: ds) (fun i a b ha hb => h1 (i + 1) a b (by simpa using ha) (by simpa using hb))
      (fun i j a b hij ha hb => h2 (i + 1) (j + 1) a b (by omega) (by simpa using ha) (by simpa using hb))
    obtain ⟨r, hr⟩ := Option.isSome_iff_exists.1 ih
    obtain ⟨l1, l3⟩ := nest_spec dist (e :: ds) r hr
    have hfrom := nest_from dist (e :: ds) r hr
    rw [nest, hr, Option.bind_some]
    cases r with
    | nil => simp at l1
    | cons u r =>
      have hlen : u.length = e.length := (l3 0 e u rfl rfl).1
      have hde := h1 0 d e rfl rfl
      have := pickAll_total dist d u [] (by simp; omega) (by
        intro p hp
        obtain ⟨j, -, a, ha, hpa⟩ := hfrom 0 u p rfl hp
        exact h2 0 (j + 1) d a (by omega) rfl (by simpa using ha) p hpa)
      obtain ⟨ind, hi⟩ := Option.isSome_iff_exists.1 this
      simp [nestInto, hi]

lemma sizes_getElem? (nlevel hifi i : ℕ) (hi : i < nlevel) : (sizes nlevel hifi)[i]? = some (2 ^ (nlevel - 1 - i) * hifi) := by
  unfold sizes
  rw [List.getElem?_reverse (by simpa using hi)]
  simp
  exact ⟨nlevel - 1 - i, by rw [List.getElem?_range (by omega)], Or.inl rfl⟩

lemma plans_getElem? (lhs : ℕ → ℕ → List P) (nlevel hifi i : ℕ) :
    ((sizes nlevel hifi).zipIdx.map fun q => lhs q.2 q.1)[i]? = if i < nlevel then some (lhs i (2 ^ (nlevel - 1 - i) * hifi)) else none := by
  split
  · rename_i hi
    rw [List.getElem?_map, List.getElem?_zipIdx, sizes_getElem? nlevel hifi i hi]
    simp
  · rename_i hi
    rw [List.getElem?_eq_none]
    simp [sizes]; omega

/-- **C50** Whenever `NestedLHS` returns, it returns one plan per level, from low to high fidelity; plan `i` has `2^(nlevel-1-i)` times the requested
number of high-fidelity points; every plan contains the next finer one (as its last rows, the others being points of the plan drawn for its level); the finest plan is the one drawn for it; and
every point of plan `i` belongs to a plan drawn for level `i` or finer, hence lies within the limits. -/
theorem C50_nested (dist : P → P → K) (lhs : ℕ → ℕ → List P) (hl : ∀ i n, (lhs i n).length = n) (nlevel hifi : ℕ) (doe : List (List P))
    (h : nestedLHS dist lhs nlevel hifi = some doe) :
    doe.length = nlevel ∧
    (∀ i d, doe[i]? = some d → d.length = 2 ^ (nlevel - 1 - i) * hifi) ∧
    (∀ i d e, doe[i]? = some d → doe[i + 1]? = some e → ∃ kept, kept.Sublist (lhs i (2 ^ (nlevel - 1 - i) * hifi)) ∧ d = kept ++ e) ∧
    doe[nlevel - 1]? = some (lhs (nlevel - 1) hifi) ∧
    (∀ i d p, doe[i]? = some d → p ∈ d → ∃ j n, i ≤ j ∧ p ∈ lhs j n) := by
  unfold nestedLHS at h
  split at h
  · simp at h
  rename_i hn
  obtain ⟨l1, l3⟩ := nest_spec dist _ _ h
  have hfrom := nest_from dist _ _ h
  have hlen : doe.length = nlevel := by rw [l1]; simp [sizes]
  have hsome : ∀ i d, doe[i]? = some d → i < nlevel := by
    intro i d hd
    rw [← hlen]; exact (List.getElem?_eq_some_iff.1 hd).1
  refine ⟨hlen, ?_, ?_, ?_, ?_⟩
  · intro i d hd
    have := (l3 i _ d (by rw [plans_getElem?, if_pos (hsome i d hd)]) hd).1
    rw [this, hl]
  · intro i d e hd he
    obtain ⟨-, kept, hk, rest, hr, hc, -⟩ := l3 i _ d (by rw [plans_getElem?, if_pos (hsome i d hd)]) hd
    exact ⟨kept, hk, by rw [hr, hc e he]⟩
  · have hlt : nlevel - 1 < doe.length := by omega
    have hd : doe[nlevel - 1]? = some doe[nlevel - 1] := List.getElem?_eq_getElem hlt
    obtain ⟨-, kept, hk, rest, hr, -, hlast⟩ := l3 (nlevel - 1) _ _ (by rw [plans_getElem?, if_pos (by omega)]) hd
    obtain ⟨a1, a2⟩ := hlast (List.getElem?_eq_none (by omega))
    rw [hd, hr, a1, a2]; simp
  · intro i d p hd hp
    obtain ⟨j, h0, a, ha, hpa⟩ := hfrom i d p hd hp
    rw [plans_getElem?] at ha
    split at ha
    · simp at ha; exact ⟨j, _, h0, ha ▸ hpa⟩
    · simp at ha

/-- **C50** It returns whenever no point of a finer plan has two equal distances to a coarser plan. -/
theorem C50_total (dist : P → P → K) (lhs : ℕ → ℕ → List P) (hl : ∀ i n, (lhs i n).length = n) (nlevel hifi : ℕ) (h0 : 0 < nlevel)
    (hd : ∀ i j m n, i < j → ∀ p ∈ lhs j n, ((lhs i m).map (dist p)).Nodup) : (nestedLHS dist lhs nlevel hifi).isSome := by
  unfold nestedLHS
  rw [if_neg (by omega)]
  apply nest_total
  · intro i a b ha hb
    rw [plans_getElem?] at ha hb
    split at ha
    · split at hb
      · simp at ha hb
        rw [← ha, ← hb, hl, hl]
        exact Nat.mul_le_mul_right _ (Nat.pow_le_pow_right (by omega) (by omega))
      · simp at hb
    · simp at ha
  · intro i j a b hij ha hb p hp
    rw [plans_getElem?] at ha hb
    split at ha
    · split at hb
      · simp at ha hb
        rw [← ha]
        exact hd i j _ _ hij p (hb ▸ hp)
      · simp at hb
    · simp at ha

/-- **C50 (violation)** With ties only the first of several equidistant points can be found: the search fails with `IndexError` exactly when the *first* point at each occurring
distance has been removed, however many others are left. -/
theorem C50_ties_fail (row : List K) (ind : List ℕ) : pick row ind = none ↔ ∀ k ∈ row, row.idxOf k ∈ ind := by
  rw [pick, pickLoop_none]
  exact ⟨fun h k hk => h k ((sort_mem _ _).2 hk), fun h k hk => h k ((sort_mem _ _).1 hk)⟩

/-- **C50 (violation)** For instance two fine points that are equidistant from all coarse points make the call fail, for any number of levels above. -/
theorem C50_equidistant_fails (dist : P → P → K) (c : K) (lower : List P) (p q : P) (ps : List P) (hne : lower ≠ [])
    (hp : ∀ z ∈ lower, dist p z = c) (hq : ∀ z ∈ lower, dist q z = c) : nestInto dist lower (p :: q :: ps) = none := by
  have hrow : ∀ w, (∀ z ∈ lower, dist w z = c) → lower.map (dist w) = List.replicate lower.length c := by
    intro w hw
    rw [List.eq_replicate_iff]; simpa using hw
  have hi : ∀ n, 0 < n → (List.replicate n c).idxOf c = 0 := by
    intro n hn
    cases n with
    | zero => omega
    | succ n => simp [List.replicate_succ]
  have hpos : 0 < lower.length := List.length_pos_iff.2 hne
  have h1 : pick (lower.map (dist p)) [] = some 0 := by
    cases hh : pick (lower.map (dist p)) [] with
    | none =>
      rw [C50_ties_fail, hrow p hp] at hh
      exact absurd (hh c (by simp; omega)) (by simp)
    | some l =>
      obtain ⟨-, pre, k, post, h2, h3, -⟩ := pickLoop_some _ _ _ _ hh
      have hk : k ∈ lower.map (dist p) := by rw [← sort_mem, h2]; simp
      rw [hrow p hp] at hk h3
      have : k = c := List.eq_of_mem_replicate hk
      rw [this, hi _ hpos] at h3
      rw [h3]
  have h2 : pick (lower.map (dist q)) [0] = none := by
    rw [C50_ties_fail, hrow q hq]
    intro k hk
    rw [List.eq_of_mem_replicate hk, hi _ hpos]; simp
  simp [nestInto, pickAll, h1, h2]

/-! ## Concrete cases -/

/-- Coarse plan 0, 4, 9, 20 and fine plan 5, 7 on a line: 4 and 9 are removed. -/
example : nestInto (fun p q : ℚ => |p - q|) [0, 4, 9, 20] [5, 7] = some [0, 20, 5, 7] := by decide +kernel
/-- Three levels. -/
example : nestedLHS (fun p q : ℚ => |p - q|) (fun i n => ((List.range n).map fun (k : ℕ) => ((k : ℚ) * (k + 1) * (k + 2) + i / 7))) 3 1 =
    some [[24, 60, 43 / 7, 2 / 7], [43 / 7, 2 / 7], [2 / 7]] := by decide +kernel
/-- The hypotheses of `C50_total` are met, e.g., by plans on a line where each finer level lies to the left of the coarser ones. -/
example (nlevel hifi : ℕ) (h0 : 0 < nlevel) :
    (nestedLHS (fun p q : ℚ => |p - q|) (fun i n => (List.range n).map fun (k : ℕ) => -(i : ℚ) + (k : ℚ) / (n + 1)) nlevel hifi).isSome := by
  refine C50_total _ _ (by simp) nlevel hifi h0 ?_
  intro i j m n hij p hp
  obtain ⟨k, hk, rfl⟩ := List.mem_map.1 hp
  have hk' : (k : ℚ) / (n + 1) < 1 := by
    rw [div_lt_one (by positivity)]
    have : k < n := by simpa using hk
    exact_mod_cast Nat.lt_succ_of_lt this
  have hij' : (i : ℚ) + 1 ≤ j := by exact_mod_cast hij
  rw [List.map_map]
  refine List.Nodup.map_on ?_ List.nodup_range
  intro a _ b _ hab
  have hpos : ∀ c : ℕ, (0 : ℚ) ≤ (c : ℚ) / (m + 1) := fun c => by positivity
  simp only [Function.comp] at hab
  rw [abs_of_neg (by linarith [hpos a]), abs_of_neg (by linarith [hpos b])] at hab
  have h1 : (a : ℚ) / (m + 1) = b / (m + 1) := by linarith
  have h2 : (0 : ℚ) < m + 1 := by positivity
  rw [div_left_inj' h2.ne'] at h1
  exact_mod_cast h1

end SMT.NestedLhs
