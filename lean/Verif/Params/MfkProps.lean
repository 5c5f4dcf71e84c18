import Verif.Params.Props
import Mathlib.Data.List.Range
import Mathlib.Tactic.NormNum
set_option linter.unusedSectionVars false
set_option linter.unusedSimpArgs false
set_option linter.unusedVariables false

/-!
# C72, multi-fidelity: start values per level, training again, training after a failure
-/
namespace SMT.Params

variable {F : Type}

/-- The `d` start values of level `lvl` meant by the list `l`: a list of length `d` gives them for every level; otherwise a single value serves everywhere; otherwise a list with one value per
level gives each level its value. -/
inductive Meant (nlvl d : ℕ) (l : List F) (lvl : ℕ) : List F → Prop
  | perInput : l.length = d → Meant nlvl d l lvl l
  | single (x : F) : l = [x] → Meant nlvl d l lvl (List.replicate d x)
  | perLevel (x : F) : l.length ≠ d → l.length = nlvl → l[lvl]? = some x → Meant nlvl d l lvl (List.replicate d x)

theorem row_arr2 (r c lvl : ℕ) (a : ℕ → ℕ → F) (h : lvl < r) : (T0.arr2 r c a).row lvl = some ((List.range c).map (a lvl)) := by simp [T0.row, h]

theorem map_range_getD (l : List F) (x : F) : (List.range l.length).map (fun j => l.getD j x) = l := by
  apply List.ext_getElem <;> simp
  intro i h; simp [h]

theorem checkTheta_arr (x : F) (nlvl d : ℕ) (t t' : T0 F) (h : checkTheta x nlvl d t = some t') : ∃ a, t' = .arr2 nlvl d a := by
  unfold checkTheta at h
  split at h
  · cases h
  · rename_i r c a
    by_cases hc : (r, c) = (nlvl, d)
    · rw [if_neg (not_not.2 hc)] at h
      obtain ⟨rfl, rfl⟩ := Prod.mk.inj hc
      exact ⟨a, (Option.some.inj h).symm⟩
    · rw [if_pos hc] at h; cases h
  · split at h
    · split at h
      · exact ⟨_, (Option.some.inj h).symm⟩
      · split at h
        · exact ⟨_, (Option.some.inj h).symm⟩
        · cases h
    · exact ⟨_, (Option.some.inj h).symm⟩

theorem checkTheta_arr2 (x : F) (nlvl d : ℕ) (a : ℕ → ℕ → F) : checkTheta x nlvl d (.arr2 nlvl d a) = some (.arr2 nlvl d a) := by simp [checkTheta]

theorem checkTheta_list (x : F) (nlvl d : ℕ) (l : List F) (t' : T0 F) (h : checkTheta x nlvl d (.list l) = some t') (lvl : ℕ) (hl : lvl < nlvl) :
    ∃ t, t'.row lvl = some t ∧ Meant nlvl d l lvl t := by
  unfold checkTheta at h
  simp only at h
  by_cases h1 : l.length = d
  · rw [if_neg (not_not.2 h1)] at h
    obtain rfl := Option.some.inj h
    exact ⟨l, by rw [row_arr2 _ _ _ _ hl]; subst h1; rw [map_range_getD], .perInput h1⟩
  · rw [if_pos h1] at h
    by_cases h2 : l.length = 1
    · rw [if_pos h2] at h
      obtain rfl := Option.some.inj h
      obtain ⟨y, rfl⟩ := List.length_eq_one_iff.1 h2
      exact ⟨List.replicate d y, by rw [row_arr2 _ _ _ _ hl]; simp, .single y rfl⟩
    · rw [if_neg h2] at h
      by_cases h3 : l.length = nlvl
      · rw [if_pos h3] at h
        obtain rfl := Option.some.inj h
        have hll : lvl < l.length := by omega
        refine ⟨List.replicate d l[lvl], ?_, .perLevel _ h1 h3 (by simp [hll])⟩
        rw [row_arr2 _ _ _ _ hl]; simp [hll]
      · rw [if_neg h3] at h; cases h

theorem checkTheta_list_isSome (x : F) (nlvl d : ℕ) (l : List F) : (checkTheta x nlvl d (.list l)).isSome = true ↔ l.length = d ∨ l.length = 1 ∨ l.length = nlvl := by
  unfold checkTheta
  simp only
  by_cases h1 : l.length = d <;> by_cases h2 : l.length = 1 <;> by_cases h3 : l.length = nlvl <;> simp_all

theorem checkNoiseLen_length (nlvl : ℕ) (n n' : List (N0 F)) (h : checkNoiseLen nlvl n = some n') : n'.length = nlvl := by
  unfold checkNoiseLen at h
  split at h
  · split at h <;> first | (obtain rfl := Option.some.inj h; simp) | cases h
  · rename_i hn
    obtain rfl := Option.some.inj h
    simpa using hn

theorem checkNoiseLen_self (n : List (N0 F)) : checkNoiseLen n.length n = some n := by simp [checkNoiseLen]

theorem checkEntries_length (c : MCfg) (i : ℕ) (n : List (N0 F)) : (checkEntries c i n).1.length = n.length := by
  induction n generalizing i with
  | nil => rfl
  | cons e n ih =>
    unfold checkEntries
    split
    · rfl
    · simp [ih]

theorem checkEntry_again (het uniq : Bool) (nt : ℕ) (e e' : N0 F) (h : checkEntry het uniq nt e = some e') : checkEntry het uniq nt e' = some e' := by
  unfold checkEntry at *
  cases het with
  | false =>
    cases hl : e.len with
    | none => simp [hl] at h
    | some k =>
      by_cases hk : k = 1
      · simp [hl, hk] at h; subst h; simp [hl, hk]
      · simp [hl, hk] at h
  | true =>
    cases uniq with
    | false => rfl
    | true =>
      simp only [if_true] at *
      cases hl : e.len with
      | none => simp [hl] at h
      | some k =>
        simp only [hl] at h
        by_cases hk : k = nt
        · simp [hk] at h; subst h; simp [hl, hk]
        · simp only [ne_eq, hk, not_false_eq_true, if_true] at h
          match e, h with
          | .vec [x], h => obtain rfl := Option.some.inj h; simp [N0.len]
          | .nest [x], h =>
            obtain rfl := Option.some.inj h
            have hk' : 1 ≠ nt := by have : (some 1 : Option ℕ) = some k := hl; intro e; exact hk (by rw [← Option.some.inj this, e])
            simp only [N0.len, ne_eq, hk', not_false_eq_true, if_true]
            match hr : List.replicate nt x with
            | [] => have := congrArg List.length hr; simp at this; subst this; simp
            | [y] => have := congrArg List.length hr; simp at this; exact absurd this.symm hk'
            | y :: z :: w => have := congrArg List.length hr; simp only [List.length_replicate, List.length_cons] at this; simp [this]
          | .nest [], h =>
            have hk' : 1 ≠ nt := by have : (some 1 : Option ℕ) = some k := hl; intro e; exact hk (by rw [← Option.some.inj this, e])
            simp only at h
            by_cases h0 : ([] : List F).length = nt
            · rw [if_pos h0] at h; obtain rfl := Option.some.inj h; simp [N0.len, hk', h0]
            · rw [if_neg h0] at h; cases h
          | .nest (y :: z :: w), h =>
            have hk' : 1 ≠ nt := by have : (some 1 : Option ℕ) = some k := hl; intro e; exact hk (by rw [← Option.some.inj this, e])
            simp only at h
            by_cases h0 : (y :: z :: w).length = nt
            · rw [if_pos h0] at h; obtain rfl := Option.some.inj h; simp only [N0.len, ne_eq, hk', not_false_eq_true, if_true, h0]
            · rw [if_neg h0] at h; cases h

theorem checkEntries_none (c : MCfg) (i : ℕ) (e : N0 F) (n : List (N0 F)) (he : checkEntry c.het (c.uniq i) (c.nt.getD i 0) e = none) : checkEntries c i (e :: n) = (e :: n, false) := by
  conv_lhs => unfold checkEntries
  simp only [he]

theorem checkEntries_some (c : MCfg) (i : ℕ) (e e' : N0 F) (n : List (N0 F)) (he : checkEntry c.het (c.uniq i) (c.nt.getD i 0) e = some e') :
    checkEntries c i (e :: n) = (e' :: (checkEntries c (i + 1) n).1, (checkEntries c (i + 1) n).2) := by
  conv_lhs => unfold checkEntries
  simp only [he]

theorem checkEntries_again (c : MCfg) (i : ℕ) (n : List (N0 F)) (h : (checkEntries c i n).2 = true) : checkEntries c i (checkEntries c i n).1 = ((checkEntries c i n).1, true) := by
  induction n generalizing i with
  | nil => rfl
  | cons e n ih =>
    cases he : checkEntry c.het (c.uniq i) (c.nt.getD i 0) e with
    | none => rw [checkEntries_none c i e n he] at h; cases h
    | some e' =>
      rw [checkEntries_some c i e e' n he] at h ⊢
      simp only at h ⊢
      rw [checkEntries_some c i e' e' _ (checkEntry_again _ _ _ _ _ he), ih (i + 1) h]

theorem checkMfk_ok (x : F) (c : MCfg) (o o' : MOpts F) (h : checkMfk x c o = (o', true)) :
    (∃ a, o'.theta0 = .arr2 c.nlvl c.d a) ∧ o'.noise0.length = c.nlvl ∧ checkTheta x c.nlvl c.d o.theta0 = some o'.theta0 ∧ o'.evalNoise = o.evalNoise ∧ checkMfk x c o' = (o', true) := by
  unfold checkMfk at h
  cases ht : checkTheta x c.nlvl c.d o.theta0 with
  | none => simp [ht] at h
  | some t =>
    simp only [ht] at h
    cases hn : checkNoiseLen c.nlvl o.noise0 with
    | none => simp [hn] at h
    | some n =>
      simp only [hn] at h
      have h2 : (checkEntries c 0 n).2 = true := congrArg Prod.snd h
      have h1 := congrArg Prod.fst h
      simp only at h1
      subst h1
      obtain ⟨a, rfl⟩ := checkTheta_arr x _ _ _ _ ht
      have hl : (checkEntries c 0 n).1.length = c.nlvl := by rw [checkEntries_length, checkNoiseLen_length _ _ _ hn]
      refine ⟨⟨a, rfl⟩, hl, rfl, rfl, ?_⟩
      have hs := checkNoiseLen_self (checkEntries c 0 n).1
      rw [hl] at hs
      unfold checkMfk
      simp only [checkTheta_arr2, hs, checkEntries_again c 0 n h2]

/-- The start values read from checked options. -/
def startsOf (o : MOpts F) (lvl : ℕ) : Start F := { theta := (o.theta0.row lvl).getD [], noise := ((o.noise0[lvl]?).map N0.flatten).getD [] }

theorem levels_ok (fails : ℕ → Bool) (o : MOpts F) (r c : ℕ) (a : ℕ → ℕ → F) (ho : o.theta0 = .arr2 r c a) (hn : o.noise0.length = r) (k lvl : ℕ) (hk : lvl + k ≤ r)
    (hf : ∀ i, lvl ≤ i → i < lvl + k → fails i = false) : levels fails o lvl k = (o, true, (List.range' lvl k).map (startsOf o)) := by
  induction k generalizing lvl with
  | zero => rfl
  | succ k ih =>
    have h1 : o.noise0[lvl]? = some o.noise0[lvl] := List.getElem?_eq_getElem (by omega)
    have h2 : o.theta0.row lvl = some ((List.range c).map (a lvl)) := by rw [ho]; exact row_arr2 _ _ _ _ (by omega)
    unfold levels
    simp only [h1, h2, hf lvl le_rfl (by omega), Bool.false_eq_true, if_false]
    rw [ih (lvl + 1) (by omega) fun i hi hi' => hf i (by omega) (by omega)]
    simp [List.range'_succ, startsOf, h1, h2]

theorem levels_fail (fails : ℕ → Bool) (o : MOpts F) (r c : ℕ) (a : ℕ → ℕ → F) (ho : o.theta0 = .arr2 r c a) (hn : o.noise0.length = r) (k lvl : ℕ) (hk : lvl + k ≤ r)
    (hf : ∃ i, lvl ≤ i ∧ i < lvl + k ∧ fails i = true) : (levels fails o lvl k).2.1 = false ∧ ∃ t, (levels fails o lvl k).1.theta0 = .arr1 t := by
  induction k generalizing lvl with
  | zero => obtain ⟨i, h1, h2, -⟩ := hf; omega
  | succ k ih =>
    have h1 : o.noise0[lvl]? = some o.noise0[lvl] := List.getElem?_eq_getElem (by omega)
    have h2 : o.theta0.row lvl = some ((List.range c).map (a lvl)) := by rw [ho]; exact row_arr2 _ _ _ _ (by omega)
    unfold levels
    cases hfl : fails lvl with
    | true => simp only [h1, h2, hfl, if_true]; exact ⟨trivial, _, rfl⟩
    | false =>
      simp only [h1, h2, hfl, Bool.false_eq_true, if_false]
      refine ih (lvl + 1) (by omega) ?_
      obtain ⟨i, a1, a2, a3⟩ := hf
      refine ⟨i, ?_, by omega, a3⟩
      rcases Nat.lt_or_ge lvl i with h | h
      · omega
      · have : i = lvl := by omega
        subst this; rw [hfl] at a3; cases a3

theorem trainOnce_ok (x : F) (c : MCfg) (fails : ℕ → Bool) (o o' : MOpts F) (s : List (Start F)) (h : trainOnce x c fails o = (o', true, s)) :
    checkMfk x c o = (o', true) ∧ (∀ i < c.nlvl, fails i = false) ∧ s = (List.range c.nlvl).map (startsOf o') := by
  unfold trainOnce at h
  split at h
  · cases h
  · rename_i o1 h1
    obtain ⟨⟨a, ha⟩, hl, -⟩ := checkMfk_ok _ _ _ _ h1
    by_cases hf : ∀ i < c.nlvl, fails i = false
    · rw [levels_ok fails o1 _ _ a ha hl c.nlvl 0 (by omega) fun i _ hi => hf i (by omega)] at h
      simp only [Prod.mk.injEq, true_and] at h
      obtain ⟨rfl, rfl⟩ := h
      exact ⟨h1, hf, by rw [List.range_eq_range']⟩
    · push Not at hf
      obtain ⟨i, hi, hfi⟩ := hf
      have := (levels_fail fails o1 _ _ a ha hl c.nlvl 0 (by omega) ⟨i, by omega, by omega, by simpa using hfi⟩).1
      rw [h] at this; cases this

theorem trainOnce_of (x : F) (c : MCfg) (fails : ℕ → Bool) (o o' : MOpts F) (h1 : checkMfk x c o = (o', true)) (hf : ∀ i < c.nlvl, fails i = false) :
    trainOnce x c fails o = (o', true, (List.range c.nlvl).map (startsOf o')) := by
  obtain ⟨⟨a, ha⟩, hl, -⟩ := checkMfk_ok _ _ _ _ h1
  unfold trainOnce
  rw [h1]
  simp only
  rw [levels_ok fails o' _ _ a ha hl c.nlvl 0 (by omega) fun i _ hi => hf i (by omega), List.range_eq_range']

theorem trainMfk_ok (x : F) (c : MCfg) (f f2 : ℕ → Bool) (o o' : MOpts F) (s : List (Start F)) (h : trainMfk x c f f2 o = (o', true, s)) :
    (∃ a, o'.theta0 = .arr2 c.nlvl c.d a) ∧ o'.noise0.length = c.nlvl ∧ checkTheta x c.nlvl c.d o.theta0 = some o'.theta0 ∧ checkMfk x c o' = (o', true) ∧
      s = (List.range c.nlvl).map (startsOf o') ∧ (∀ i < c.nlvl, f i = false) ∧ o'.evalNoise = (o.evalNoise && !c.optimVar) := by
  unfold trainMfk at h
  split at h
  · cases h
  · rename_i o1 s1 h1
    obtain ⟨k1, k2, k3⟩ := trainOnce_ok _ _ _ _ _ _ h1
    obtain ⟨⟨a, ha⟩, b2, b3, b4, b5⟩ := checkMfk_ok _ _ _ _ k1
    split at h
    · rename_i hh
      obtain ⟨m1, m2, m3⟩ := trainOnce_ok _ _ _ _ _ _ h
      obtain ⟨c1, c2, c3, c4, c5⟩ := checkMfk_ok _ _ _ _ m1
      refine ⟨c1, c2, ?_, c5, m3, k2, ?_⟩
      · simp only [ha, checkTheta_arr2] at c3; rw [b3, ha]; exact c3
      · simp only [Bool.and_eq_true] at hh; rw [c4]; simp [hh.2]
    · rename_i hh
      simp only [Prod.mk.injEq, true_and] at h
      obtain ⟨rfl, rfl⟩ := h
      refine ⟨⟨a, ha⟩, b2, b3, b5, k3, k2, ?_⟩
      rw [b4] at hh ⊢
      revert hh
      cases o.evalNoise <;> cases c.optimVar <;> simp

/-! ## The property -/

/-- **C72** (MFK) The accepted lengths of a list `theta0`: number of inputs, one, number of levels. With any other length training raises. -/
theorem C72_mfk_theta_lengths (x : F) (c : MCfg) (f f2 : ℕ → Bool) (o : MOpts F) (l : List F) (ho : o.theta0 = .list l) (h : (trainMfk x c f f2 o).2.1 = true) :
    l.length = c.d ∨ l.length = 1 ∨ l.length = c.nlvl := by
  rcases hr : trainMfk x c f f2 o with ⟨o', b, s⟩
  rw [hr] at h; simp only at h; subst h
  have := (trainMfk_ok _ _ _ _ _ _ _ hr).2.2.1
  rw [ho] at this
  exact (checkTheta_list_isSome x c.nlvl c.d l).1 (by rw [this]; rfl)

/-- **C72** (MFK) Noise taken as homoscedastic, `theta0` a list: training reaches the end (if no level fails for other reasons) exactly if `theta0` has an accepted length and `noise0` is either
one entry for several levels, or one entry per level each of which is itself a list of length one. -/
theorem C72_mfk_passes (x : F) (c : MCfg) (o : MOpts F) (l : List F) (ho : o.theta0 = .list l) (hh : c.het = false) :
    (trainMfk x c (fun _ => false) (fun _ => false) o).2.1 = true ↔ (l.length = c.d ∨ l.length = 1 ∨ l.length = c.nlvl) ∧
      ((o.noise0.length = c.nlvl ∧ ∀ e ∈ o.noise0, e.len = some 1) ∨ (o.noise0.length = 1 ∧ c.nlvl ≠ 1)) := by
  have ent : ∀ (n : List (N0 F)) (i : ℕ), (checkEntries c i n).2 = true ↔ ∀ e ∈ n, e.len = some 1 := by
    intro n
    induction n with
    | nil => intro i; simp [checkEntries]
    | cons e n ih =>
      intro i
      rw [List.forall_mem_cons]
      cases hl : e.len with
      | none => rw [checkEntries_none c i e n (by simp [checkEntry, hh, hl])]; simp
      | some k =>
        by_cases hk : k = 1
        · rw [checkEntries_some c i e e n (by simp [checkEntry, hh, hl, hk])]; simp [hk, ih]
        · rw [checkEntries_none c i e n (by simp [checkEntry, hh, hl, hk])]; simp [hk]
  have nl : (∃ n, checkNoiseLen c.nlvl o.noise0 = some n ∧ ∀ e ∈ n, e.len = some 1) ↔
      ((o.noise0.length = c.nlvl ∧ ∀ e ∈ o.noise0, e.len = some 1) ∨ (o.noise0.length = 1 ∧ c.nlvl ≠ 1)) := by
    by_cases hn : o.noise0.length = c.nlvl
    · constructor
      · rintro ⟨n, h1, h2⟩
        rw [← hn, checkNoiseLen_self] at h1
        obtain rfl := Option.some.inj h1
        exact Or.inl ⟨hn, h2⟩
      · rintro (h | ⟨h1, h2⟩)
        · exact ⟨o.noise0, by rw [← hn, checkNoiseLen_self], h.2⟩
        · exact absurd (hn ▸ h1) h2
    · constructor
      · rintro ⟨n, h1, h2⟩
        right
        unfold checkNoiseLen at h1
        rw [if_pos hn] at h1
        have : o.noise0.length = 1 := by
          split at h1
          · rename_i e; rw [e]; rfl
          · rename_i e; rw [e]; rfl
          · rename_i e; rw [e]; rfl
          · rename_i e; rw [e]; rfl
          · cases h1
        exact ⟨this, fun e => hn (by rw [this, e])⟩
      · rintro (h | ⟨h1, h2⟩)
        · exact absurd h.1 hn
        · obtain ⟨e, he⟩ := List.length_eq_one_iff.1 h1
          unfold checkNoiseLen
          rw [if_pos hn, he]
          cases e with
          | num y => exact ⟨_, rfl, fun e he => by rw [List.eq_of_mem_replicate he]; rfl⟩
          | vec y => exact ⟨_, rfl, fun e he => by rw [List.eq_of_mem_replicate he]; rfl⟩
          | arr y => exact ⟨_, rfl, fun e he => by rw [List.eq_of_mem_replicate he]; rfl⟩
          | nest y => exact ⟨_, rfl, fun e he => by rw [List.eq_of_mem_replicate he]; rfl⟩
  rw [← nl, ← checkTheta_list_isSome x c.nlvl c.d l]
  have chk : (checkMfk x c o).2 = true ↔ (checkTheta x c.nlvl c.d (.list l)).isSome = true ∧ ∃ n, checkNoiseLen c.nlvl o.noise0 = some n ∧ ∀ e ∈ n, e.len = some 1 := by
    unfold checkMfk
    rw [ho]
    cases checkTheta x c.nlvl c.d (.list l) with
    | none => simp
    | some t =>
      simp only [Option.isSome_some, true_and]
      cases checkNoiseLen c.nlvl o.noise0 with
      | none => simp
      | some n => simp [ent]
  rw [← chk]
  constructor
  · intro h
    rcases hr : trainMfk x c (fun _ => false) (fun _ => false) o with ⟨o', b, s⟩
    rw [hr] at h; simp only at h; subst h
    unfold trainMfk at hr
    split at hr
    · cases hr
    · rename_i o1 s1 h1; rw [(trainOnce_ok _ _ _ _ _ _ h1).1]
  · intro h
    rcases hr : checkMfk x c o with ⟨o1, b⟩
    rw [hr] at h; simp only at h; subst h
    unfold trainMfk
    rw [trainOnce_of x c (fun _ => false) o o1 hr fun _ _ => rfl]
    simp only
    split
    · obtain ⟨⟨a, ha⟩, b2, b3, b4, b5⟩ := checkMfk_ok _ _ _ _ hr
      have : checkMfk x c { o1 with evalNoise := false } = ({ o1 with evalNoise := false }, true) := by
        have b6 := b5
        unfold checkMfk at b5 ⊢
        simp only [ha, checkTheta_arr2] at b5 ⊢
        cases hn : checkNoiseLen c.nlvl o1.noise0 with
        | none => simp [hn] at b5
        | some n =>
          simp only [hn] at b5 ⊢
          have e1 : (checkEntries c 0 n).1 = o1.noise0 := by have := congrArg (fun r => r.1.noise0) b5; simpa using this
          have e2 : (checkEntries c 0 n).2 = true := by have := congrArg (fun r => r.2) b5; simpa using this
          rw [e1, e2]
      rw [trainOnce_of x c (fun _ => false) _ _ this fun _ _ => rfl]
    · rfl

/-- **C72** (MFK) A successful training begins the optimisation of every level, with the start values meant by the list `theta0`. -/
theorem C72_mfk_starts (x : F) (c : MCfg) (f f2 : ℕ → Bool) (o o' : MOpts F) (s : List (Start F)) (l : List F) (ho : o.theta0 = .list l) (h : trainMfk x c f f2 o = (o', true, s)) :
    s.length = c.nlvl ∧ ∀ lvl (hl : lvl < s.length), Meant c.nlvl c.d l lvl s[lvl].theta := by
  obtain ⟨h1, h2, h3, h4, rfl, h6, h7⟩ := trainMfk_ok _ _ _ _ _ _ _ h
  refine ⟨by simp, fun lvl hl => ?_⟩
  rw [ho] at h3
  have hl' : lvl < c.nlvl := by simpa using hl
  obtain ⟨t, ht, hm⟩ := checkTheta_list x c.nlvl c.d l o'.theta0 h3 lvl hl'
  simpa [startsOf, ht] using hm

/-- **C72** (MFK) Training again on data of the same sizes (noise not estimated and variance not forced to zero at once) begins from the same start values and leaves the options as they are. -/
theorem C72_mfk_again (x : F) (c : MCfg) (f f2 : ℕ → Bool) (o o' : MOpts F) (s : List (Start F)) (h : trainMfk x c f f2 o = (o', true, s)) (g g2 : ℕ → Bool) (hg : ∀ i < c.nlvl, g i = false) :
    trainMfk x c g g2 o' = (o', true, s) := by
  obtain ⟨h1, h2, h3, h4, rfl, h6, h7⟩ := trainMfk_ok _ _ _ _ _ _ _ h
  unfold trainMfk
  rw [trainOnce_of x c g o' o' h4 hg]
  have : (o'.evalNoise && c.optimVar) = false := by rw [h7]; cases o.evalNoise <;> cases c.optimVar <;> rfl
  simp [this]

/-- **C72** (MFK) After a successful training the model cannot be trained with another number of levels or of hyper-parameters per level, until the user sets `theta0` again. -/
theorem C72_mfk_other_sizes (x : F) (c c' : MCfg) (f f2 g g2 : ℕ → Bool) (o o' : MOpts F) (s : List (Start F)) (h : trainMfk x c f f2 o = (o', true, s)) (hne : (c.nlvl, c.d) ≠ (c'.nlvl, c'.d)) :
    trainMfk x c' g g2 o' = (o', false, []) := by
  obtain ⟨⟨a, ha⟩, -⟩ := trainMfk_ok _ _ _ _ _ _ _ h
  unfold trainMfk trainOnce checkMfk
  simp only [ha, checkTheta, if_pos hne]

theorem trainMfk_arr1 (x : F) (c : MCfg) (f f2 : ℕ → Bool) (o : MOpts F) (t : List F) (ho : o.theta0 = .arr1 t) : trainMfk x c f f2 o = (o, false, []) := by
  unfold trainMfk trainOnce checkMfk
  simp only [ho, checkTheta]

/-- **C72** (MFK) A one-dimensional array is never accepted as `theta0`, whatever its length. -/
theorem C72_mfk_array (x : F) (c : MCfg) (f f2 : ℕ → Bool) (o : MOpts F) (t : List F) (ho : o.theta0 = .arr1 t) : (trainMfk x c f f2 o).2.1 = false := by
  rw [trainMfk_arr1 x c f f2 o t ho]

/-- **C72** (MFK) If the checks pass but the training of a level raises, the options keep that level's row; every later training, on any data, raises, until the user sets `theta0` again. -/
theorem C72_mfk_failure_locks (x : F) (c : MCfg) (f f2 : ℕ → Bool) (o : MOpts F) (hc : (checkMfk x c o).2 = true) (hf : ∃ i < c.nlvl, f i = true)
    (runs : List (MCfg × (ℕ → Bool) × (ℕ → Bool))) (r : MCfg × (ℕ → Bool) × (ℕ → Bool)) :
    (trainMfk x c f f2 o).2.1 = false ∧
      (trainMfk x r.1 r.2.1 r.2.2 (runs.foldl (fun o r => (trainMfk x r.1 r.2.1 r.2.2 o).1) (trainMfk x c f f2 o).1)).2.1 = false := by
  rcases hr : checkMfk x c o with ⟨o1, b⟩
  rw [hr] at hc; simp only at hc; subst hc
  obtain ⟨⟨a, ha⟩, hl, -⟩ := checkMfk_ok _ _ _ _ hr
  obtain ⟨i, hi, hfi⟩ := hf
  obtain ⟨k1, t, k2⟩ := levels_fail f o1 _ _ a ha hl c.nlvl 0 (by omega) ⟨i, by omega, by omega, hfi⟩
  have e : trainMfk x c f f2 o = ((levels f o1 0 c.nlvl).1, false, (levels f o1 0 c.nlvl).2.2) := by
    unfold trainMfk trainOnce
    rw [hr]
    simp only
    rcases hv : levels f o1 0 c.nlvl with ⟨u, v, w⟩
    rw [hv] at k1
    simp only at k1; subst k1; rfl
  rw [e]
  refine ⟨rfl, ?_⟩
  simp only
  have key : ∀ (runs : List (MCfg × (ℕ → Bool) × (ℕ → Bool))) (o : MOpts F), o.theta0 = .arr1 t → (runs.foldl (fun o r => (trainMfk x r.1 r.2.1 r.2.2 o).1) o).theta0 = .arr1 t := by
    intro runs
    induction runs with
    | nil => intro o ho; exact ho
    | cons q runs ih => intro o ho; rw [List.foldl_cons, trainMfk_arr1 x _ _ _ o t ho]; exact ih o ho
  rw [trainMfk_arr1 x _ _ _ _ t (key runs _ k2)]

/-- **C72** (MFK) One level only, `noise0` a list with one number - its default value: training always raises (the number is asked for its length), unless the noise is heteroscedastic and the
inputs are not all different numbers. -/
theorem C72_mfk_one_level (x y : F) (c : MCfg) (f f2 : ℕ → Bool) (o : MOpts F) (h1 : c.nlvl = 1) (hn : o.noise0 = [.num y]) (hh : c.het = false ∨ c.uniq 0 = true) :
    (trainMfk x c f f2 o).2.1 = false := by
  have : (checkMfk x c o).2 = false := by
    unfold checkMfk
    cases checkTheta x c.nlvl c.d o.theta0 with
    | none => rfl
    | some t =>
      have : checkNoiseLen c.nlvl o.noise0 = some [.num y] := by rw [h1, hn]; rfl
      simp only [this]
      unfold checkEntries checkEntry
      rcases hh with hh | hh
      · simp [hh, N0.len]
      · cases c.het <;> simp [hh, N0.len]
  unfold trainMfk trainOnce
  rcases hr : checkMfk x c o with ⟨o1, b⟩
  rw [hr] at this; simp only at this; subst this
  rfl

/-- **C72** (MFK) With `eval_noise` and `optim_var` a training that ends well leaves `eval_noise` switched off in the options: a later training does not estimate the noise. Otherwise the option is
unchanged. -/
theorem C72_mfk_eval_noise (x : F) (c : MCfg) (f f2 : ℕ → Bool) (o o' : MOpts F) (s : List (Start F)) (h : trainMfk x c f f2 o = (o', true, s)) :
    o'.evalNoise = (o.evalNoise && !c.optimVar) := (trainMfk_ok _ _ _ _ _ _ _ h).2.2.2.2.2.2

/-- **C72** (MFK) Given noise variances, one list per level, heteroscedastic: a level whose inputs are all different numbers needs one variance or one per point; other levels are not looked at. -/
theorem C72_mfk_het (x : F) (c : MCfg) (o : MOpts F) (v : List (List F)) (hn : o.noise0 = v.map .vec) (hv : v.length = c.nlvl) (hh : c.het = true) (ht : (checkTheta x c.nlvl c.d o.theta0).isSome = true) :
    (trainOnce x c (fun _ => false) o).2.1 = true ↔ ∀ lvl (h : lvl < v.length), c.uniq lvl = true → v[lvl].length = c.nt.getD lvl 0 ∨ v[lvl].length = 1 := by
  have ent : ∀ (v : List (List F)) (i : ℕ), (checkEntries c i (v.map .vec)).2 = true ↔ ∀ lvl (h : lvl < v.length), c.uniq (i + lvl) = true → v[lvl].length = c.nt.getD (i + lvl) 0 ∨ v[lvl].length = 1 := by
    intro v
    induction v with
    | nil => intro i; simp [checkEntries]
    | cons e n ih =>
      intro i
      have step : (∀ lvl (h : lvl < (e :: n).length), c.uniq (i + lvl) = true → (e :: n)[lvl].length = c.nt.getD (i + lvl) 0 ∨ (e :: n)[lvl].length = 1) ↔
          (c.uniq i = true → e.length = c.nt.getD i 0 ∨ e.length = 1) ∧
            ∀ lvl (h : lvl < n.length), c.uniq (i + 1 + lvl) = true → n[lvl].length = c.nt.getD (i + 1 + lvl) 0 ∨ n[lvl].length = 1 := by
        constructor
        · intro h
          refine ⟨h 0 (by simp), fun lvl hl => ?_⟩
          have := h (lvl + 1) (by simpa using hl)
          rw [show i + (lvl + 1) = i + 1 + lvl by omega] at this
          simpa using this
        · rintro ⟨h1, h2⟩ lvl hl
          cases lvl with
          | zero => exact h1
          | succ lvl =>
            have := h2 lvl (by simpa using hl)
            rw [show i + (lvl + 1) = i + 1 + lvl by omega]
            simpa using this
      rw [step, ← ih (i + 1)]
      rw [List.map_cons]
      cases hu : c.uniq i with
      | false => rw [checkEntries_some c i (.vec e) (.vec e) _ (by simp [checkEntry, hh, hu])]; simp
      | true =>
        by_cases hk : e.length = c.nt.getD i 0
        · rw [checkEntries_some c i (.vec e) (.vec e) _ (by unfold checkEntry; rw [hh, hu]; simp only [N0.len, hk, if_true, ne_eq, not_true_eq_false, if_false])]
          simp only [hk, true_or, implies_true, true_and]
        · simp only [hk, false_or, forall_const]
          match e, hk with
          | [], hk => rw [checkEntries_none c i (.vec []) _ (by unfold checkEntry; rw [hh, hu]; simp only [N0.len, if_true, ne_eq, hk, not_false_eq_true])]; simp
          | [y], hk => rw [checkEntries_some c i (.vec [y]) _ _ (by unfold checkEntry; rw [hh, hu]; simp only [N0.len, if_true, ne_eq, hk, not_false_eq_true]; rfl)]; simp
          | y :: z :: w, hk => rw [checkEntries_none c i (.vec (y :: z :: w)) _ (by unfold checkEntry; rw [hh, hu]; simp only [N0.len, if_true, ne_eq, hk, not_false_eq_true])]; simp
  have h0 := ent v 0
  simp only [Nat.zero_add] at h0
  rw [← h0]
  obtain ⟨t, ht⟩ := Option.isSome_iff_exists.1 ht
  have hs : checkNoiseLen c.nlvl o.noise0 = some o.noise0 := by rw [← hv, show v.length = o.noise0.length by rw [hn]; simp, checkNoiseLen_self]
  have chk : (checkMfk x c o).2 = (checkEntries c 0 (v.map .vec)).2 := by
    unfold checkMfk
    simp only [ht, hs]
    rw [hn]
  rw [← chk]
  constructor
  · intro h
    rcases hr : trainOnce x c (fun _ => false) o with ⟨o', b, s⟩
    rw [hr] at h; simp only at h; subst h
    rw [(trainOnce_ok _ _ _ _ _ _ hr).1]
  · intro h
    rcases hr : checkMfk x c o with ⟨o1, b⟩
    rw [hr] at h; simp only at h; subst h
    rw [trainOnce_of x c (fun _ => false) o o1 hr fun _ _ => rfl]

theorem checkEntries_iff (c : MCfg) : ∀ (n : List (N0 F)) (i : ℕ), (checkEntries c i n).2 = true ↔
    ∀ j (h : j < n.length), (checkEntry c.het (c.uniq (i + j)) (c.nt.getD (i + j) 0) n[j]).isSome = true := by
  intro n
  induction n with
  | nil => intro i; simp [checkEntries]
  | cons e n ih =>
    intro i
    cases he : checkEntry c.het (c.uniq i) (c.nt.getD i 0) e with
    | none =>
      rw [checkEntries_none c i e n he]
      simp only [Bool.false_eq_true, false_iff, not_forall]
      exact ⟨0, by simp, by simp only [Nat.add_zero, List.getElem_cons_zero, he]; simp⟩
    | some e' =>
      rw [checkEntries_some c i e e' n he]
      simp only
      rw [ih (i + 1)]
      constructor
      · intro h j hj
        cases j with
        | zero => simp only [Nat.add_zero, List.getElem_cons_zero, he]; rfl
        | succ j =>
          have := h j (by simpa using hj)
          rw [show i + (j + 1) = i + 1 + j by omega]
          simpa using this
      · intro h j hj
        have := h (j + 1) (by simpa using hj)
        rw [show i + (j + 1) = i + 1 + j by omega] at this
        simpa using this

/-- **C72** (MFK) The same with one array per level: an array of one variance is not accepted any more (unless the level has one point); the array must have one variance per point. -/
theorem C72_mfk_het_arrays (x : F) (c : MCfg) (o : MOpts F) (v : List (List F)) (hn : o.noise0 = v.map .arr) (hv : v.length = c.nlvl) (hh : c.het = true) (ht : (checkTheta x c.nlvl c.d o.theta0).isSome = true) :
    (trainOnce x c (fun _ => false) o).2.1 = true ↔ ∀ lvl (h : lvl < v.length), c.uniq lvl = true → v[lvl].length = c.nt.getD lvl 0 := by
  obtain ⟨t, ht⟩ := Option.isSome_iff_exists.1 ht
  have hs : checkNoiseLen c.nlvl o.noise0 = some o.noise0 := by rw [← hv, show v.length = o.noise0.length by rw [hn]; simp, checkNoiseLen_self]
  have chk : (checkMfk x c o).2 = (checkEntries c 0 (v.map .arr)).2 := by
    unfold checkMfk
    simp only [ht, hs]
    rw [hn]
  have ent : (checkEntries c 0 (v.map .arr)).2 = true ↔ ∀ lvl (h : lvl < v.length), c.uniq lvl = true → v[lvl].length = c.nt.getD lvl 0 := by
    rw [checkEntries_iff]
    have one : ∀ (u : Bool) (k : ℕ) (l : List F), (checkEntry c.het u k (.arr l)).isSome = true ↔ (u = true → l.length = k) := by
      intro u k l
      unfold checkEntry
      rw [hh]
      cases u with
      | false => simp
      | true =>
        by_cases hk : l.length = k
        · simp [N0.len, hk]
        · simp [N0.len, hk]
    constructor
    · intro h lvl hl
      have := h lvl (by simpa using hl)
      simp only [Nat.zero_add, List.getElem_map, one] at this
      exact this
    · intro h lvl hl
      simp only [Nat.zero_add, List.getElem_map, one]
      exact h lvl (by simpa using hl)
  rw [← ent, ← chk]
  constructor
  · intro h
    rcases hr : trainOnce x c (fun _ => false) o with ⟨o', b, s⟩
    rw [hr] at h; simp only at h; subst h
    rw [(trainOnce_ok _ _ _ _ _ _ hr).1]
  · intro h
    rcases hr : checkMfk x c o with ⟨o1, b⟩
    rw [hr] at h; simp only at h; subst h
    rw [trainOnce_of x c (fun _ => false) o o1 hr fun _ _ => rfl]

/-! ## Examples -/

/-- Heteroscedastic noise of two levels with 2 and 3 points: one variance as a list is spread, as an array it raises. -/
example : ((trainOnce 0 { d := 1, nt := [2, 3], uniq := fun _ => true, het := true, optimVar := false } (fun _ => false) (⟨.list [1], [.vec [5], .vec [6]], false⟩ : MOpts ℕ)).2.1,
    (trainOnce 0 { d := 1, nt := [2, 3], uniq := fun _ => true, het := true, optimVar := false } (fun _ => false) (⟨.list [1], [.vec [5], .arr [6]], false⟩ : MOpts ℕ)).2.1,
    (trainOnce 0 { d := 1, nt := [2, 3], uniq := fun _ => true, het := true, optimVar := false } (fun _ => false) (⟨.list [1], [.vec [5], .arr [6, 7, 8]], false⟩ : MOpts ℕ)).2.1) = (true, false, true) := by decide

/-- Two levels, three inputs, one start value, default noise. -/
def exM : MCfg := { d := 3, nt := [10, 5], uniq := fun _ => true, het := false, optimVar := false }

example : (trainMfk 0 exM (fun _ => false) (fun _ => false) ⟨.list [7], [.num 0], false⟩).2 = (true, [(⟨[7, 7, 7], [0]⟩ : Start ℕ), ⟨[7, 7, 7], [0]⟩]) := by decide
example : (trainMfk 0 exM (fun _ => false) (fun _ => false) ⟨.list [7, 8], [.num 0], false⟩).2 = (true, [(⟨[7, 7, 7], [0]⟩ : Start ℕ), ⟨[8, 8, 8], [0]⟩]) := by decide
example : (trainMfk 0 exM (fun _ => false) (fun _ => false) ⟨.list [1, 2, 3], [.num 0], false⟩).2 = (true, [(⟨[1, 2, 3], [0]⟩ : Start ℕ), ⟨[1, 2, 3], [0]⟩]) := by decide
/-- The second level raises. -/
example : (checkMfk 0 exM (⟨.list [7], [.num 0], false⟩ : MOpts ℕ)).2 = true ∧ ∃ i < exM.nlvl, (fun i => i == 1) i = true := by exact ⟨by decide, 1, by decide, rfl⟩
/-- Two numbers as `noise0` for two levels. -/
example : (trainMfk 0 exM (fun _ => false) (fun _ => false) (⟨.list [7], [.num 0, .num 0], false⟩ : MOpts ℕ)).2.1 = false := by decide
/-- One level. -/
example : (trainMfk 0 { exM with nt := [10] } (fun _ => false) (fun _ => false) (⟨.list [7], [.num 0], false⟩ : MOpts ℕ)).2.1 = false := by decide
example : (trainMfk 0 { exM with nt := [10] } (fun _ => false) (fun _ => false) (⟨.list [7], [.vec [0]], false⟩ : MOpts ℕ)).2.1 = true := by decide

theorem checkEntries_get (c : MCfg) : ∀ (n : List (N0 F)) (i : ℕ), (checkEntries c i n).2 = true → ∀ (j : ℕ) (e : N0 F), n[j]? = some e →
    ∃ e', (checkEntries c i n).1[j]? = some e' ∧ checkEntry c.het (c.uniq (i + j)) (c.nt.getD (i + j) 0) e = some e' := by
  intro n
  induction n with
  | nil => intro i _ j e h; simp at h
  | cons a n ih =>
    intro i h j e hj
    cases ha : checkEntry c.het (c.uniq i) (c.nt.getD i 0) a with
    | none => rw [checkEntries_none c i a n ha] at h; cases h
    | some a' =>
      rw [checkEntries_some c i a a' n ha] at h ⊢
      cases j with
      | zero => simp only [List.getElem?_cons_zero, Option.some.injEq] at hj; subst hj; exact ⟨a', rfl, ha⟩
      | succ j =>
        obtain ⟨e', h1, h2⟩ := ih (i + 1) h j e (by simpa using hj)
        refine ⟨e', by simpa using h1, ?_⟩
        rw [show i + (j + 1) = i + 1 + j by omega]; exact h2

theorem trainMfk_noise (x : F) (c : MCfg) (f f2 : ℕ → Bool) (o o' : MOpts F) (s : List (Start F)) (h : trainMfk x c f f2 o = (o', true, s)) :
    ∃ n, checkNoiseLen c.nlvl o.noise0 = some n ∧ (checkEntries c 0 n).2 = true ∧ o'.noise0 = (checkEntries c 0 n).1 := by
  have chk : ∀ o1 o2 : MOpts F, checkMfk x c o1 = (o2, true) → ∃ n, checkNoiseLen c.nlvl o1.noise0 = some n ∧ (checkEntries c 0 n).2 = true ∧ o2.noise0 = (checkEntries c 0 n).1 := by
    intro o1 o2 h
    unfold checkMfk at h
    split at h
    · cases h
    · cases hn : checkNoiseLen c.nlvl o1.noise0 with
      | none => simp [hn] at h
      | some n =>
        simp only [hn, Prod.mk.injEq] at h
        exact ⟨n, rfl, h.2, by rw [← h.1]⟩
  unfold trainMfk at h
  split at h
  · cases h
  · rename_i o1 s1 h1
    obtain ⟨k1, -, -⟩ := trainOnce_ok _ _ _ _ _ _ h1
    obtain ⟨n, a1, a2, a3⟩ := chk _ _ k1
    split at h
    · obtain ⟨m1, -, -⟩ := trainOnce_ok _ _ _ _ _ _ h
      obtain ⟨n', b1, b2, b3⟩ := chk _ _ m1
      have hl : (checkEntries c 0 n).1.length = c.nlvl := by rw [checkEntries_length, checkNoiseLen_length _ _ _ a1]
      have hs := checkNoiseLen_self (checkEntries c 0 n).1
      rw [hl] at hs
      simp only [a3, hs, Option.some.injEq] at b1
      subst b1
      rw [checkEntries_again c 0 n a2] at b3
      exact ⟨n, a1, a2, b3⟩
    · simp only [Prod.mk.injEq] at h
      rw [← h.1]; exact ⟨n, a1, a2, a3⟩

/-- The noise variances `got` a level is trained with when the user gave it `g`: a single variance is repeated for every point if the noise is heteroscedastic and the inputs of the level are all
different numbers; otherwise they are taken as given, in their order. -/
def NoiseUsed (c : MCfg) (lvl : ℕ) (g got : List F) : Prop :=
  (∀ y, c.het = true → c.uniq lvl = true → g = [y] → got = List.replicate (c.nt.getD lvl 0) y) ∧ (¬ (c.het = true ∧ c.uniq lvl = true ∧ g.length = 1) → got = g)

theorem checkEntry_vec (c : MCfg) (lvl : ℕ) (g : List F) (e : N0 F) (h : checkEntry c.het (c.uniq lvl) (c.nt.getD lvl 0) (.vec g) = some e) : NoiseUsed c lvl g e.flatten := by
  unfold checkEntry at h
  cases hh : c.het <;> cases hu : c.uniq lvl <;> simp only [hh, hu, Bool.false_eq_true, if_false, if_true, N0.len] at h
  · split at h
    · cases h
    · obtain rfl := Option.some.inj h; simp [NoiseUsed, hh, N0.flatten]
  · split at h
    · cases h
    · obtain rfl := Option.some.inj h; simp [NoiseUsed, hh, N0.flatten]
  · obtain rfl := Option.some.inj h; simp [NoiseUsed, hu, N0.flatten]
  · split at h
    · split at h
      · rename_i y hy; obtain rfl := Option.some.inj h; simp only [N0.vec.injEq] at hy; subst hy; simp [NoiseUsed, N0.flatten, hh, hu]
      · rename_i hc; cases hc
      · rename_i hc; cases hc
      · cases h
    · rename_i hk
      obtain rfl := Option.some.inj h
      simp only [ne_eq, not_not] at hk
      refine ⟨fun y _ _ hy => ?_, fun _ => rfl⟩
      subst hy; simp only [List.length_singleton] at hk; rw [← hk]; rfl

theorem checkEntry_nest (c : MCfg) (lvl : ℕ) (g : List F) (e : N0 F) (h : checkEntry c.het (c.uniq lvl) (c.nt.getD lvl 0) (.nest g) = some e) : NoiseUsed c lvl g e.flatten := by
  unfold checkEntry at h
  cases hh : c.het <;> cases hu : c.uniq lvl <;> simp only [hh, hu, Bool.false_eq_true, if_false, if_true, N0.len] at h
  · split at h
    · cases h
    · obtain rfl := Option.some.inj h; simp [NoiseUsed, hh, N0.flatten]
  · split at h
    · cases h
    · obtain rfl := Option.some.inj h; simp [NoiseUsed, hh, N0.flatten]
  · obtain rfl := Option.some.inj h; simp [NoiseUsed, hu, N0.flatten]
  · split at h
    · split at h
      · rename_i hc; cases hc
      · rename_i y hy; obtain rfl := Option.some.inj h; simp only [N0.nest.injEq] at hy; subst hy; simp [NoiseUsed, N0.flatten, hh, hu]
      · rename_i l hne hl
        simp only [N0.nest.injEq] at hl
        subst hl
        split at h
        · rename_i hk
          obtain rfl := Option.some.inj h
          refine ⟨fun y _ _ hy => ?_, fun _ => rfl⟩
          subst hy; simp only [List.length_singleton] at hk; rw [← hk]; rfl
        · cases h
      · cases h
    · rename_i hk
      obtain rfl := Option.some.inj h
      simp only [ne_eq, not_not] at hk
      refine ⟨fun y _ _ hy => ?_, fun _ => rfl⟩
      subst hy; rw [← hk]; rfl

/-- **C72** (MFK) The noise variances a successful training uses for each level: those of the level's list when `noise0` has one list per level, those of the only entry when there are several levels
and `noise0` has one entry (a number or a list), with single variances repeated where `NoiseUsed` says so. -/
theorem C72_mfk_noise (x : F) (c : MCfg) (f f2 : ℕ → Bool) (o o' : MOpts F) (s : List (Start F)) (h : trainMfk x c f f2 o = (o', true, s)) :
    (∀ v : List (List F), o.noise0 = v.map .vec → v.length = c.nlvl → ∀ lvl (hl : lvl < s.length) (hv : lvl < v.length), NoiseUsed c lvl v[lvl] s[lvl].noise) ∧
    (∀ g : List F, o.noise0 = [.vec g] → c.nlvl ≠ 1 → ∀ lvl (hl : lvl < s.length), NoiseUsed c lvl g s[lvl].noise) ∧
    (∀ y : F, o.noise0 = [.num y] → c.nlvl ≠ 1 → ∀ lvl (hl : lvl < s.length), NoiseUsed c lvl [y] s[lvl].noise) := by
  obtain ⟨n, k1, k2, k3⟩ := trainMfk_noise _ _ _ _ _ _ _ h
  obtain ⟨-, -, -, -, rfl, -, -⟩ := trainMfk_ok _ _ _ _ _ _ _ h
  have get : ∀ (lvl : ℕ) (e : N0 F), n[lvl]? = some e → ∃ e', checkEntry c.het (c.uniq lvl) (c.nt.getD lvl 0) e = some e' ∧ (startsOf o' lvl).noise = e'.flatten := by
    intro lvl e he
    obtain ⟨e', h1, h2⟩ := checkEntries_get c n 0 k2 lvl e he
    rw [Nat.zero_add] at h2
    refine ⟨e', h2, ?_⟩
    simp [startsOf, k3, h1]
  refine ⟨fun v hv hl lvl h1 h2 => ?_, fun g hg hn lvl h1 => ?_, fun y hy hn lvl h1 => ?_⟩
  · have : n = v.map .vec := by
      have := checkNoiseLen_self (v.map (.vec (F := F)))
      rw [List.length_map, hl, ← hv, k1] at this
      rw [Option.some.inj this, hv]
    obtain ⟨e', a1, a2⟩ := get lvl (.vec v[lvl]) (by rw [this]; simp [h2])
    simp only [List.getElem_map, List.getElem_range, a2]
    exact checkEntry_vec _ _ _ _ a1
  · have hl : lvl < c.nlvl := by simpa using h1
    have : n = List.replicate c.nlvl (.nest g) := by
      unfold checkNoiseLen at k1
      rw [hg, if_pos (by simpa using Ne.symm hn)] at k1
      exact (Option.some.inj k1).symm
    obtain ⟨e', a1, a2⟩ := get lvl (.nest g) (by rw [this]; simp [hl])
    simp only [List.getElem_map, List.getElem_range, a2]
    exact checkEntry_nest _ _ _ _ a1
  · have hl : lvl < c.nlvl := by simpa using h1
    have : n = List.replicate c.nlvl (.vec [y]) := by
      unfold checkNoiseLen at k1
      rw [hy, if_pos (by simpa using Ne.symm hn)] at k1
      exact (Option.some.inj k1).symm
    obtain ⟨e', a1, a2⟩ := get lvl (.vec [y]) (by rw [this]; simp [hl])
    simp only [List.getElem_map, List.getElem_range, a2]
    exact checkEntry_vec _ _ _ _ a1

/-- Two levels of three and two points, one variance for the first, two for the second. -/
example : ((trainMfk (1 : ℚ) { d := 1, nt := [3, 2], uniq := fun _ => true, het := true, optimVar := false } (fun _ => false) (fun _ => false)
    { theta0 := .list [1], noise0 := [.vec [5], .vec [6, 7]], evalNoise := false }).2.2.map Start.noise, (trainMfk (1 : ℚ) { d := 1, nt := [2, 2], uniq := fun _ => true, het := true, optimVar := false }
    (fun _ => false) (fun _ => false) { theta0 := .list [1], noise0 := [.vec [6, 7]], evalNoise := false }).2.2.map Start.noise) = ([[5, 5, 5], [6, 7]], [[6, 7], [6, 7]]) := by decide +kernel

end SMT.Params
