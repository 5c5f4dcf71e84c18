import Verif.Mfk.Data
import Mathlib.Tactic.Linarith
import Mathlib.Data.List.Nodup
import Mathlib.Data.List.Perm.Subperm
import Mathlib.Data.List.Range
import Mathlib.Tactic.Choose
import Mathlib.Data.Rat.Init
import Mathlib.Algebra.Field.Rat

/-!
# Property C109: the data that a multi-fidelity Kriging model is trained on
-/
set_option linter.unusedSectionVars false
set_option linter.unusedSimpArgs false
set_option linter.unusedVariables false

namespace SMT.MfkData

variable {K O M : Type}

/-! ## Specification -/

/-- The data under a name after the calls of a history, newest call first: those of the last `set_training_values` with as many inputs as outputs, with the outputs of
the last later `update_training_values` with as many outputs. -/
def latest (n : Name) : List (Op K O) → Option (Tab K × Tab K)
  | [] => none
  | .set x y m :: h => if m = n ∧ x.rows.length = y.rows.length then some (x, y) else latest n h
  | .update y m :: h => match latest n h with
    | some (x, y0) => if m = n ∧ x.rows.length = y.rows.length then some (x, y) else some (x, y0)
    | none => none
  | _ :: h => latest n h

/-- The name never occurs in the history in a call that sets data, or that updates some. -/
def Unused (n : Name) (h : List (Op K O)) : Prop :=
  (∀ x y, .set x y n ∈ h → x.rows.length ≠ y.rows.length) ∧ ∀ y, .update y n ∉ h

/-- The levels of fidelity, lowest first: the data under the names `0, 1, …` up to the first number that is not used, then those without name. -/
def Levels (h : List (Op K O)) (ls : List (Tab K × Tab K)) : Prop :=
  ∃ k, ls.length = k + 1 ∧ (∀ i < k, ∃ d, ls[i]? = some d ∧ latest (.int i) h.reverse = some d) ∧ Unused (.int k) h ∧
    ∃ d, ls[k]? = some d ∧ latest .none h.reverse = some d

/-- Each level has one output, and all have the same number of inputs. (A level without points can have any number of outputs.) -/
def Usable (ls : List (Tab K × Tab K)) : Prop :=
  (∀ d ∈ ls, d.2.rows.flatten.length = d.1.rows.length) ∧ ∀ d ∈ ls, ∀ e ∈ ls, d.1.cols = e.1.cols

/-- The inputs and the outputs, as a vector, of every level. -/
def vectors (ls : List (Tab K × Tab K)) : List (Tab K × List K) := ls.map fun d => (d.1, d.2.rows.flatten)

/-- In the histories considered first, `eval_noise` and `optim_var` are never both set. -/
def Plain (o : Opts O) : Prop := (o.evalNoise && o.optimVar) = false

/-! ## The dictionary -/

theorem lookup_filter (tp : Dict K) (n m : Name) : (tp.filter fun p => p.1 ≠ n).lookup m = if m = n then none else tp.lookup m := by
  induction tp with
  | nil => simp
  | cons p tp ih =>
    obtain ⟨a, v⟩ := p
    by_cases h : a = n
    · subst h
      rw [List.filter_cons_of_neg (by simp), ih]
      by_cases h2 : m = a
      · simp [h2]
      · rw [if_neg h2, if_neg h2, List.lookup_cons, beq_eq_false_iff_ne.2 h2]
    · rw [List.filter_cons_of_pos (by simpa using h), List.lookup_cons, List.lookup_cons, ih]
      by_cases h2 : m = a
      · subst h2; simp [h]
      · rw [beq_eq_false_iff_ne.2 h2]

theorem lookup_put (tp : Dict K) (n m : Name) (v : Option (Tab K × Tab K)) : (put tp n v).lookup m = if m = n then some v else tp.lookup m := by
  unfold put
  rw [List.lookup_cons]
  by_cases h : m = n
  · subst h; simp
  · rw [beq_eq_false_iff_ne.2 h, if_neg h]
    dsimp only
    rw [lookup_filter, if_neg h]

theorem lookup_touch (tp : Dict K) (n m : Name) : (touch tp n).lookup m = if m = n ∧ tp.lookup n = none then some none else tp.lookup m := by
  unfold touch
  split
  · rename_i h
    rw [lookup_put]
    by_cases h2 : m = n <;> simp [h2, h]
  · rename_i h
    rw [if_neg (by simp [h])]

/-- A dictionary has no more keys than entries. -/
theorem names_le (tp : Dict K) : ∀ (k : ℕ), (∀ i < k, tp.lookup (.int (i : ℕ)) ≠ none) → k ≤ tp.length := by
  intro k h
  have h1 : ((List.range k).map fun i : ℕ => Name.int i).Nodup := by
    refine List.Nodup.map ?_ List.nodup_range
    intro a b hab
    simpa using hab
  have h2 : ((List.range k).map fun i : ℕ => Name.int i) ⊆ tp.map (·.1) := by
    intro n hn
    obtain ⟨i, hi, rfl⟩ := List.mem_map.1 hn
    have := h i (List.mem_range.1 hi)
    rw [Ne, List.lookup_eq_none_iff] at this
    push Not at this
    obtain ⟨p, hp, he⟩ := this
    refine List.mem_map.2 ⟨p, hp, ?_⟩
    exact (beq_iff_eq.1 (by simpa using he)).symm
  have := (h1.subperm h2).length_le
  simpa using this

/-! ## The loop over the names -/

theorem gather_ok (tp : Dict K) : ∀ (fuel i : ℕ) (ds : List (Tab K × Tab K)), gather tp fuel i = .ok ds →
    (∀ j < ds.length, ∃ d, ds[j]? = some d ∧ tp.lookup (.int (i + j : ℕ)) = some (some d)) ∧ tp.lookup (.int (i + ds.length : ℕ)) = none
  | 0, i, ds, h => by cases h
  | fuel + 1, i, ds, h => by
    unfold gather at h
    split at h
    · rename_i e
      cases h
      exact ⟨fun j hj => by simp at hj, e⟩
    · cases h
    · rename_i d e
      split at h
      · cases h
      · rename_i ds' e'
        cases h
        obtain ⟨h1, h2⟩ := gather_ok tp fuel (i + 1) ds' e'
        refine ⟨fun j hj => ?_, ?_⟩
        · cases j with
          | zero => exact ⟨d, rfl, e⟩
          | succ j =>
            obtain ⟨d', a, b⟩ := h1 j (by simpa using hj)
            exact ⟨d', by simpa using a, by rw [show i + (j + 1) = i + 1 + j by omega]; exact b⟩
        · rw [List.length_cons, show i + (ds'.length + 1) = i + 1 + ds'.length by omega]
          exact h2

theorem gather_complete (tp : Dict K) : ∀ (ds : List (Tab K × Tab K)) (fuel i : ℕ), ds.length < fuel →
    (∀ j < ds.length, ∃ d, ds[j]? = some d ∧ tp.lookup (.int (i + j : ℕ)) = some (some d)) → tp.lookup (.int (i + ds.length : ℕ)) = none →
    gather tp fuel i = .ok ds
  | [], fuel + 1, i, _, _, h2 => by
    unfold gather
    rw [show tp.lookup (.int (i : ℕ)) = none from h2]
  | d :: ds, fuel + 1, i, hf, h1, h2 => by
    obtain ⟨d', a, b⟩ := h1 0 (by simp)
    obtain rfl : d = d' := by simpa using a
    unfold gather
    rw [show tp.lookup (.int (i : ℕ)) = some (some d) from b]
    dsimp only
    rw [gather_complete tp ds fuel (i + 1) (by simpa using hf) (fun j hj => by
      obtain ⟨d', a, b⟩ := h1 (j + 1) (by simpa using hj)
      exact ⟨d', by simpa using a, by rw [show i + 1 + j = i + (j + 1) by omega]; exact b⟩) (by
      rw [show i + 1 + ds.length = i + (ds.length + 1) by omega]; exact h2)]

/-- Where the loop raises: at the first name that is in the dictionary without data. -/
theorem gather_key (tp : Dict K) : ∀ (k fuel i : ℕ), k < fuel → (∀ j < k, ∃ d, tp.lookup (.int (i + j : ℕ)) = some (some d)) →
    tp.lookup (.int (i + k : ℕ)) = some none → gather tp fuel i = .error .key
  | 0, fuel + 1, i, _, _, h2 => by
    unfold gather
    rw [show tp.lookup (.int (i : ℕ)) = some none from h2]
  | k + 1, fuel + 1, i, hf, h1, h2 => by
    obtain ⟨d, b⟩ := h1 0 (by simp)
    unfold gather
    rw [show tp.lookup (.int (i : ℕ)) = some (some d) from b]
    dsimp only
    rw [gather_key tp k fuel (i + 1) (by omega) (fun j hj => by
      obtain ⟨d', b⟩ := h1 (j + 1) (by omega)
      exact ⟨d', by rw [show i + 1 + j = i + (j + 1) by omega]; exact b⟩) (by
      rw [show i + 1 + k = i + (k + 1) by omega]; exact h2)]

/-- The levels of a dictionary. -/
def StoreLevels (tp : Dict K) (ls : List (Tab K × Tab K)) : Prop :=
  ∃ k, ls.length = k + 1 ∧ (∀ i < k, ∃ d, ls[i]? = some d ∧ tp.lookup (.int (i : ℕ)) = some (some d)) ∧ tp.lookup (.int (k : ℕ)) = none ∧
    ∃ d, ls[k]? = some d ∧ tp.lookup .none = some (some d)

theorem allLevels_iff (tp : Dict K) (ls : List (Tab K × Tab K)) : allLevels tp = .ok ls ↔ StoreLevels tp ls := by
  constructor
  · intro h
    unfold allLevels at h
    split at h
    · cases h
    · rename_i ds e
      split at h
      · rename_i d e2
        cases h
        obtain ⟨h1, h2⟩ := gather_ok tp _ _ ds e
        simp only [Nat.zero_add] at h1 h2
        refine ⟨ds.length, by simp, fun i hi => ?_, h2, d, by simp, e2⟩
        obtain ⟨d', a, b⟩ := h1 i hi
        exact ⟨d', by rw [List.getElem?_append_left hi]; exact a, b⟩
      · cases h
  · rintro ⟨k, hl, h1, h2, d, hd, hn⟩
    have hk : k ≤ tp.length := names_le tp k fun i hi => by
      obtain ⟨d, -, e⟩ := h1 i hi
      rw [e]; simp
    have hls : ls = ls.take k ++ [d] := by
      apply List.ext_getElem?
      intro i
      rcases lt_trichotomy i k with hi | hi | hi
      · rw [List.getElem?_append_left (by simp; omega), List.getElem?_take_of_lt hi]
      · subst hi
        rw [List.getElem?_append_right (by simp), hd]
        simp [hl]
      · rw [List.getElem?_eq_none (by omega), List.getElem?_eq_none (by simp; omega)]
    have ht : (ls.take k).length = k := by simp [hl]
    have hg : gather tp (tp.length + 1) 0 = .ok (ls.take k) := by
      apply gather_complete
      · omega
      · intro j hj
        rw [ht] at hj
        obtain ⟨d', a, b⟩ := h1 j hj
        exact ⟨d', by rw [List.getElem?_take_of_lt hj]; exact a, by simpa using b⟩
      · rw [ht]; simpa using h2
    unfold allLevels
    rw [hg]
    dsimp only
    rw [hn]
    dsimp only
    rw [← hls]

/-- The loop over the names always ends. -/
theorem allLevels_or (tp : Dict K) : (∃ ls, allLevels tp = .ok ls) ∨ allLevels tp = .error .key := by
  have key : ∃ k ≤ tp.length, (∀ j < k, ∃ d, tp.lookup (.int (j : ℕ)) = some (some d)) ∧ (tp.lookup (.int (k : ℕ)) = none ∨ tp.lookup (.int (k : ℕ)) = some none) := by
    by_contra hc
    push Not at hc
    have : ∀ k ≤ tp.length + 1, ∀ j < k, ∃ d, tp.lookup (.int (j : ℕ)) = some (some d) := by
      intro k
      induction k with
      | zero => intro _ j hj; omega
      | succ k ih =>
        intro hk j hj
        rcases Nat.lt_succ_iff_lt_or_eq.1 hj with h | h
        · exact ih (by omega) j h
        · subst h
          obtain ⟨h1, h2⟩ := hc j (by omega) (ih (by omega))
          match e : tp.lookup (.int (j : ℕ)) with
          | some (some d) => exact ⟨d, e⟩
          | some none => exact absurd e h2
          | none => exact absurd e h1
    have := names_le tp (tp.length + 1) fun i hi => by
      obtain ⟨d, e⟩ := this _ le_rfl i hi
      rw [e]; simp
    omega
  obtain ⟨k, hk, h1, h2⟩ := key
  rcases h2 with h2 | h2
  · have : Nonempty (Tab K × Tab K) := ⟨⟨[], 0⟩, ⟨[], 0⟩⟩
    choose! f hf using h1
    have hg : gather tp (tp.length + 1) 0 = .ok ((List.range k).map f) := by
      apply gather_complete
      · simp; omega
      · intro j hj
        have hj' : j < k := by simpa using hj
        exact ⟨f j, by simp [hj'], by simpa using hf j hj'⟩
      · simpa using h2
    unfold allLevels
    rw [hg]
    dsimp only
    split
    · exact .inl ⟨_, rfl⟩
    · exact .inr rfl
  · right
    unfold allLevels
    rw [gather_key tp k (tp.length + 1) 0 (by omega) (fun j hj => by simpa using h1 j hj) (by simpa using h2)]

/-! ## The checks -/

theorem checkLevels_some : ∀ (ls : List (Tab K × Tab K)) (i prev : ℕ) (cs : List (Tab K × List K)), checkLevels i prev ls = some cs →
    cs = vectors ls ∧ ∀ d ∈ ls, d.2.rows.flatten.length = d.1.rows.length
  | [], i, prev, cs, h => by cases h; exact ⟨rfl, by simp⟩
  | d :: ds, i, prev, cs, h => by
    unfold checkLevels at h
    split at h
    · cases h
    · rename_i c hc
      unfold checkLevel at hc
      dsimp only at hc
      split at hc
      · cases hc
      · split at hc
        · cases hc
        · rename_i hne
          cases hc
          obtain ⟨cs', h1, rfl⟩ := Option.map_eq_some_iff.1 h
          obtain ⟨rfl, h3⟩ := checkLevels_some ds _ _ cs' h1
          refine ⟨rfl, fun e he => ?_⟩
          rcases List.mem_cons.1 he with rfl | he
          · exact (not_not.1 hne).symm
          · exact h3 e he

theorem checkLevels_ok : ∀ (ls : List (Tab K × Tab K)) (i prev : ℕ), (∀ d ∈ ls, d.2.rows.flatten.length = d.1.rows.length) →
    (1 < i → ∀ d ∈ ls.head?, d.1.cols = prev) → (∀ j, 1 ≤ i + j → ∀ d e, ls[j]? = some d → ls[j + 1]? = some e → e.1.cols = d.1.cols) → checkLevels i prev ls = some (vectors ls)
  | [], i, prev, _, _, _ => rfl
  | d :: ds, i, prev, hy, hp, hc => by
    unfold checkLevels
    have h1 : checkLevel i prev d = some (d.1, d.2.rows.flatten) := by
      unfold checkLevel
      rw [if_neg (by rintro ⟨h, h'⟩; exact h' (hp h d (by simp)))]
      dsimp only
      rw [if_neg (by rw [hy d (by simp)]; simp)]
    rw [h1]
    dsimp only
    rw [checkLevels_ok ds (i + 1) d.1.cols (fun e he => hy e (List.mem_cons_of_mem _ he)) (fun hi e he => by
      have : ds[0]? = some e := by simpa [List.head?_eq_getElem?] using he
      exact hc 0 (by omega) d e (by simp) (by simpa using this)) (fun j hj a b ha hb => hc (j + 1) (by omega) a b (by simpa using ha) (by simpa using hb))]
    rfl

theorem sameCols_iff (ls : List (Tab K × Tab K)) : sameCols ls = true ↔ ∀ d ∈ ls, ∀ e ∈ ls, d.1.cols = e.1.cols := by
  cases ls with
  | nil => simp [sameCols]
  | cons a ls =>
    unfold sameCols firstCols
    simp only [List.all_eq_true, beq_iff_eq]
    constructor
    · intro h d hd e he; rw [h d hd, h e he]
    · intro h d hd; exact h d hd a (by simp)

/-! ## Training -/

/-- What a training without replacement of the data does, from the levels of the dictionary. -/
theorem newTrain_eq (W : World K O M) (s : St K O M) :
    (∀ ls, allLevels s.tp = .ok ls → Usable ls →
      (∀ r e, W.check (vectors ls) s.opts = (r, some e) → (newTrain W s).2 = .error e ∧ (newTrain W s).1.opts = { s.opts with rest := r } ∧ (newTrain W s).1.model = s.model) ∧
      (∀ r, W.check (vectors ls) s.opts = (r, none) →
        (newTrain W s).2 = (W.fit (vectors ls) { s.opts with rest := r }).2 ∧ (newTrain W s).1.opts = { s.opts with rest := (W.fit (vectors ls) { s.opts with rest := r }).1 } ∧
          (∀ m, (newTrain W s).2 = .ok m → (newTrain W s).1.model = some m) ∧ ∀ e, (newTrain W s).2 = .error e → (newTrain W s).1.model = s.model)) ∧
    (∀ ls, allLevels s.tp = .ok ls → ¬ Usable ls → ∃ e, (newTrain W s).2 = .error e ∧ (newTrain W s).1.model = s.model) ∧
    (allLevels s.tp = .error .key → newTrain W s = (s, .error .key)) ∧ (newTrain W s).1.tp = s.tp ∧ (newTrain W s).1.opts.evalNoise = s.opts.evalNoise ∧
      (newTrain W s).1.opts.optimVar = s.opts.optimVar := by
  refine ⟨fun ls h hu => ?_, fun ls h hu => ?_, fun h => ?_, ?_, ?_, ?_⟩
  · have hc : checkLevels 0 0 ls = some (vectors ls) := checkLevels_ok ls 0 0 hu.1 (by omega) (fun j _ d e hd he =>
      hu.2 e (List.mem_of_getElem? he) d (List.mem_of_getElem? hd))
    have hs : sameCols ls = true := (sameCols_iff ls).2 hu.2
    constructor
    · intro r e hr
      unfold newTrain
      rw [h]; dsimp only; rw [hc]; dsimp only; rw [hr]
      exact ⟨rfl, rfl, rfl⟩
    · intro r hr
      unfold newTrain
      rw [h]; dsimp only; rw [hc]; dsimp only; rw [hr]; dsimp only; rw [if_neg (by rw [hs]; simp)]
      split
      · rename_i r' e hf
        rw [hf]
        exact ⟨rfl, rfl, fun m hm => (by cases hm), fun e _ => rfl⟩
      · rename_i r' m hf
        rw [hf]
        exact ⟨rfl, rfl, fun m hm => (by cases hm; rfl), fun e he => (by cases he)⟩
  · unfold newTrain
    rw [h]; dsimp only
    split
    · exact ⟨_, rfl, rfl⟩
    · rename_i cs hc
      split
      · exact ⟨_, rfl, rfl⟩
      · have hs : sameCols ls = false := by
          by_contra hc'
          rw [Bool.not_eq_false] at hc'
          exact hu ⟨(checkLevels_some ls 0 0 cs hc).2, (sameCols_iff ls).1 hc'⟩
        rw [if_pos hs]
        exact ⟨_, rfl, rfl⟩
  · unfold newTrain
    rw [h]
  all_goals
    unfold newTrain
    split
    · rfl
    · split
      · rfl
      · dsimp only
        split
        · rfl
        · split
          · rfl
          · split <;> rfl

/-- `train` when `eval_noise` and `optim_var` are not both set. -/
theorem train_plain (W : World K O M) (s : St K O M) (hp : Plain s.opts) :
    (train W s).1.tp = touch s.tp .none ∧ (train W s).1.opts.evalNoise = s.opts.evalNoise ∧ (train W s).1.opts.optimVar = s.opts.optimVar ∧
    ((∀ d, s.tp.lookup .none ≠ some (some d)) → (train W s).2 = some .key ∧ (train W s).1.opts = s.opts ∧ (train W s).1.model = s.model) ∧
    ((∃ d, s.tp.lookup .none = some (some d)) → (train W s).1 = (newTrain W s).1 ∧ ((train W s).2 = none ↔ ∃ m, (newTrain W s).2 = .ok m) ∧
      ∀ e, (train W s).2 = some e ↔ (newTrain W s).2 = .error e) := by
  have hl := lookup_touch s.tp .none .none
  by_cases hd : ∃ d, s.tp.lookup .none = some (some d)
  · obtain ⟨d, hd⟩ := hd
    have ht : touch s.tp .none = s.tp := by unfold touch; rw [hd]
    have hs : ({ s with tp := touch s.tp .none } : St K O M) = s := by rw [ht]
    obtain ⟨-, -, -, h1, h2, h3⟩ := newTrain_eq W s
    have key : (train W s).1 = (newTrain W s).1 ∧ ((train W s).2 = none ↔ ∃ m, (newTrain W s).2 = .ok m) ∧ ∀ e, (train W s).2 = some e ↔ (newTrain W s).2 = .error e := by
      unfold train
      rw [hs]
      dsimp only
      rw [hd]
      dsimp only
      split
      · rename_i s' e he
        rw [he]
        simp
      · rename_i s' m he
        have : (s'.opts.evalNoise && s'.opts.optimVar) = false := by
          rw [he] at h2 h3
          dsimp only at h2 h3
          rw [h2, h3]; exact hp
        rw [if_neg (by rw [this]; simp), he]
        simp
    refine ⟨?_, ?_, ?_, fun hn => absurd hd (hn d), fun _ => key⟩
    · rw [key.1, h1, ht]
    · rw [key.1, h2]
    · rw [key.1, h3]
  · have hn : ∀ d, s.tp.lookup .none ≠ some (some d) := fun d h => hd ⟨d, h⟩
    have hl2 : (touch s.tp .none).lookup .none = some none := by
      rw [hl]
      match e : s.tp.lookup .none with
      | none => rw [if_pos ⟨rfl, e⟩]
      | some none => rw [e]; rfl
      | some (some d) => exact absurd e (hn d)
    have e : train W s = ({ s with tp := touch s.tp .none }, some .key) := by
      unfold train
      dsimp only
      rw [hl2]
    rw [e]
    exact ⟨rfl, rfl, rfl, fun _ => ⟨rfl, rfl, rfl⟩, fun h => absurd h hd⟩

/-- In a history the options are never set to both `eval_noise` and `optim_var`. -/
def PlainHistory (h : List (Op K O)) : Prop := ∀ o, .options o ∈ h → Plain o

theorem run_append (W : World K O M) (o : Opts O) (h : List (Op K O)) (c : Op K O) : run W o (h ++ [c]) = (step W (run W o h) c).1 := by
  unfold run
  rw [List.foldl_append]
  rfl

theorem latest_none_mono (n : Name) (h : List (Op K O)) (hu : Unused n h.reverse) : latest n h = none := by
  induction h with
  | nil => rfl
  | cons c h ih =>
    have hu' : Unused n h.reverse := ⟨fun x y hm => hu.1 x y (by simp at hm ⊢; exact .inl hm), fun y hm => hu.2 y (by simp at hm ⊢; exact .inl hm)⟩
    cases c with
    | set x y m =>
      unfold latest
      rw [if_neg, ih hu']
      rintro ⟨rfl, h2⟩
      exact hu.1 x y (by simp) h2
    | update y m => unfold latest; rw [ih hu']
    | options o => exact ih hu'
    | train => exact ih hu'

/-- The store after a history. -/
theorem store (W : World K O M) (o : Opts O) (ho : Plain o) (h : List (Op K O)) (hp : PlainHistory h) : Plain (run W o h).opts ∧
    (∀ n d, (run W o h).tp.lookup n = some (some d) ↔ latest n h.reverse = some d) ∧
    ∀ n, n ≠ .none → ((run W o h).tp.lookup n = none ↔ Unused n h) := by
  induction h using List.reverseRecOn with
  | nil => exact ⟨ho, by simp [run, new, latest], by simp [run, new, Unused]⟩
  | append_singleton h c ih =>
    obtain ⟨i1, i2, i3⟩ := ih fun o ho => hp o (by simp [ho])
    rw [run_append, List.reverse_append, List.reverse_singleton, List.singleton_append]
    cases c with
    | options o' =>
      refine ⟨hp o' (by simp), fun n d => ?_, fun n hn => ?_⟩
      · exact i2 n d
      · exact (i3 n hn).trans (by simp [Unused])
    | train =>
      obtain ⟨h1, h2, h3, -⟩ := train_plain W (run W o h) i1
      refine ⟨?_, fun n d => ?_, fun n hn => ?_⟩
      · show ((train W (run W o h)).1.opts.evalNoise && (train W (run W o h)).1.opts.optimVar) = false
        rw [h2, h3]; exact i1
      · show (train W (run W o h)).1.tp.lookup n = _ ↔ latest n h.reverse = some d
        rw [h1, lookup_touch, ← i2 n d]
        split
        · rename_i hc; rw [hc.1, hc.2]; simp
        · rfl
      · show (train W (run W o h)).1.tp.lookup n = none ↔ _
        rw [h1, lookup_touch, if_neg (by tauto), i3 n hn]
        simp [Unused]
    | set x y m =>
      by_cases hxy : x.rows.length = y.rows.length
      · have e : (step W (run W o h) (.set x y m)).1 = { run W o h with tp := put (run W o h).tp m (some (x, y)), dims := some (x.rows.length, x.cols, y.cols) } := by
          show (setValues _ x y m).1 = _
          unfold setValues; rw [if_neg (by simpa using hxy)]
        rw [e]
        refine ⟨i1, fun n d => ?_, fun n hn => ?_⟩
        · dsimp only
          rw [lookup_put, latest]
          by_cases hm : n = m
          · subst hm; rw [if_pos rfl, if_pos ⟨rfl, hxy⟩]; simp
          · rw [if_neg hm, if_neg (by rintro ⟨h, -⟩; exact hm h.symm)]; exact i2 n d
        · dsimp only
          rw [lookup_put]
          by_cases hm : n = m
          · subst hm
            rw [if_pos rfl]
            simp only [reduceCtorEq, false_iff]
            rintro ⟨hu, -⟩
            exact hu x y (by simp) hxy
          · rw [if_neg hm, i3 n hn]
            constructor
            · rintro ⟨a, b⟩
              refine ⟨fun x' y' hx => ?_, fun y' hy => b y' (by simpa using hy)⟩
              rcases List.mem_append.1 hx with hx | hx
              · exact a x' y' hx
              · simp at hx; exact absurd hx.2.2 hm
            · rintro ⟨a, b⟩
              exact ⟨fun x' y' hx => a x' y' (by simp [hx]), fun y' hy => b y' (by simp [hy])⟩
      · have e : (step W (run W o h) (.set x y m)).1 = run W o h := by
          show (setValues _ x y m).1 = _
          unfold setValues; rw [if_pos (by simpa using hxy)]
        rw [e]
        refine ⟨i1, fun n d => ?_, fun n hn => ?_⟩
        · rw [latest, if_neg (by tauto)]; exact i2 n d
        · rw [i3 n hn]
          constructor
          · rintro ⟨a, b⟩
            refine ⟨fun x' y' hx => ?_, fun y' hy => b y' (by simpa using hy)⟩
            rcases List.mem_append.1 hx with hx | hx
            · exact a x' y' hx
            · simp at hx; obtain ⟨rfl, rfl, -⟩ := hx; exact hxy
          · rintro ⟨a, b⟩
            exact ⟨fun x' y' hx => a x' y' (by simp [hx]), fun y' hy => b y' (by simp [hy])⟩
    | update y m =>
      have hopts : (step W (run W o h) (.update y m)).1.opts = (run W o h).opts := by
        show (updateValues _ y m).1.opts = _
        unfold updateValues
        dsimp only
        split
        · split <;> rfl
        · rfl
      have hl : ∀ n, (step W (run W o h) (.update y m)).1.tp.lookup n =
          if n = m then (match (run W o h).tp.lookup m with
            | some (some (x, y0)) => some (some (x, if x.rows.length = y.rows.length then y else y0))
            | _ => some none) else (run W o h).tp.lookup n := by
        intro n
        show (updateValues _ y m).1.tp.lookup n = _
        unfold updateValues
        dsimp only
        have ht := lookup_touch (run W o h).tp m m
        match e : (run W o h).tp.lookup m with
        | none =>
          rw [e] at ht
          simp only [true_and, if_true] at ht
          rw [ht]
          dsimp only
          rw [lookup_touch, e]
          by_cases hn : n = m <;> simp [hn]
        | some none =>
          rw [e] at ht
          simp only [reduceCtorEq, and_false, if_false] at ht
          rw [ht]
          dsimp only
          rw [lookup_touch, e]
          by_cases hn : n = m <;> simp [hn, e]
        | some (some (x, y0)) =>
          rw [e] at ht
          simp only [reduceCtorEq, and_false, if_false] at ht
          rw [ht]
          dsimp only
          by_cases hx : x.rows.length = y.rows.length
          · rw [if_neg (by simpa using hx), if_pos hx]
            dsimp only
            rw [lookup_put, lookup_touch, e]
            by_cases hn : n = m <;> simp [hn]
          · rw [if_pos (by simpa using hx), if_neg hx]
            dsimp only
            rw [lookup_touch, e]
            by_cases hn : n = m <;> simp [hn, e]
      refine ⟨by rw [hopts]; exact i1, fun n d => ?_, fun n hn => ?_⟩
      · rw [hl, latest]
        by_cases hm : n = m
        · subst hm
          rw [if_pos rfl]
          match e : (run W o h).tp.lookup n with
          | some (some (x, y0)) =>
            rw [(i2 n (x, y0)).1 e]
            dsimp only
            by_cases hx : x.rows.length = y.rows.length
            · rw [if_pos hx, if_pos ⟨rfl, hx⟩]; simp
            · rw [if_neg hx, if_neg (by tauto)]; simp
          | some none =>
            have : latest n h.reverse = none := by
              match e2 : latest n h.reverse with
              | none => rfl
              | some d => rw [(i2 n d).2 e2] at e; simp at e
            rw [this]; simp
          | none =>
            have : latest n h.reverse = none := by
              match e2 : latest n h.reverse with
              | none => rfl
              | some d => rw [(i2 n d).2 e2] at e; simp at e
            rw [this]; simp
        · rw [if_neg hm, i2 n d]
          match latest n h.reverse with
          | none => simp
          | some (x, y0) => simp [show m ≠ n from fun h => hm h.symm]
      · rw [hl]
        by_cases hm : n = m
        · subst hm
          rw [if_pos rfl]
          constructor
          · intro hc
            split at hc <;> simp at hc
          · rintro ⟨-, hu⟩
            exact absurd (by simp) (hu y)
        · rw [if_neg hm, i3 n hn]
          constructor
          · rintro ⟨a, b⟩
            refine ⟨fun x' y' hx => a x' y' (by simpa using hx), fun y' hy => ?_⟩
            rcases List.mem_append.1 hy with hy | hy
            · exact b y' hy
            · simp at hy; exact hm hy.2
          · rintro ⟨a, b⟩
            exact ⟨fun x' y' hx => a x' y' (by simp [hx]), fun y' hy => b y' (by simp [hy])⟩

theorem levels_iff (W : World K O M) (o : Opts O) (ho : Plain o) (h : List (Op K O)) (hp : PlainHistory h) (ls : List (Tab K × Tab K)) :
    allLevels (run W o h).tp = .ok ls ↔ Levels h ls := by
  obtain ⟨-, i2, i3⟩ := store W o ho h hp
  rw [allLevels_iff]
  unfold StoreLevels Levels
  refine exists_congr fun k => and_congr_right fun _ => and_congr (forall_congr' fun i => ?_) (and_congr ?_ ?_)
  · refine imp_congr_right fun _ => exists_congr fun d => and_congr_right fun _ => i2 _ d
  · exact i3 _ (by simp)
  · exact exists_congr fun d => and_congr_right fun _ => i2 _ d

end SMT.MfkData
