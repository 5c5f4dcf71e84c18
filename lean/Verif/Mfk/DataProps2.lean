import Verif.Mfk.DataProps

/-!
# Property C109: theorems
-/
set_option linter.unusedSectionVars false
set_option linter.unusedSimpArgs false
set_option linter.unusedVariables false

namespace SMT.MfkData

variable {K O M : Type}

theorem store_levels_unique {tp : Dict K} {ls ls' : List (Tab K × Tab K)} (h : allLevels tp = .ok ls) (h' : allLevels tp = .ok ls') : ls = ls' := by
  rw [h] at h'; cases h'; rfl

/-- **C109** The levels are determined by the history. -/
theorem C109_levels_unique (W : World K O M) {h : List (Op K O)} (hp : PlainHistory h) {ls ls' : List (Tab K × Tab K)} (h1 : Levels h ls) (h2 : Levels h ls') (o : Opts O) (ho : Plain o) : ls = ls' :=
  store_levels_unique ((levels_iff W o ho h hp ls).2 h1) ((levels_iff W o ho h hp ls').2 h2)

/-- **C109** After any history of calls (`eval_noise` and `optim_var` never both set), `train` succeeds exactly if there are levels with one output and the same number of inputs, the options are accepted
for them and the fit succeeds; the fit then gets the inputs and outputs of exactly these levels, lowest first, and its result is the trained model. -/
theorem C109_trained (W : World K O M) (o : Opts O) (ho : Plain o) (h : List (Op K O)) (hp : PlainHistory h) (m : M) :
    ((train W (run W o h)).2 = none ∧ (train W (run W o h)).1.model = some m) ↔
      ∃ ls r, Levels h ls ∧ Usable ls ∧ W.check (vectors ls) (run W o h).opts = (r, none) ∧ (W.fit (vectors ls) { (run W o h).opts with rest := r }).2 = .ok m := by
  obtain ⟨i1, i2, i3⟩ := store W o ho h hp
  obtain ⟨-, -, -, t1, t2⟩ := train_plain W (run W o h) i1
  obtain ⟨n1, n2, n3, -⟩ := newTrain_eq W (run W o h)
  constructor
  · rintro ⟨h1, h2⟩
    by_cases hd : ∃ d, (run W o h).tp.lookup .none = some (some d)
    · obtain ⟨t3, t4, -⟩ := t2 hd
      obtain ⟨m', hm'⟩ := t4.1 h1
      rcases allLevels_or (run W o h).tp with ⟨ls, hl⟩ | hl
      · by_cases hu : Usable ls
        · obtain ⟨c1, c2⟩ := n1 ls hl hu
          match hc : W.check (vectors ls) (run W o h).opts with
          | (r, some e) => rw [(c1 r e hc).1] at hm'; cases hm'
          | (r, none) =>
            obtain ⟨f1, f2, f3, f4⟩ := c2 r hc
            refine ⟨ls, r, (levels_iff W o ho h hp ls).1 hl, hu, hc, ?_⟩
            rw [← f1, hm']
            have := f3 m' hm'
            rw [← t3, h2] at this
            rw [Option.some.inj this]
        · obtain ⟨e, he, -⟩ := n2 ls hl hu
          rw [he] at hm'; cases hm'
      · rw [n3 hl] at hm'; cases hm'
    · have := (t1 fun d hd' => hd ⟨d, hd'⟩).1
      rw [h1] at this; cases this
  · rintro ⟨ls, r, hl, hu, hc, hf⟩
    have hd : ∃ d, (run W o h).tp.lookup .none = some (some d) := by
      obtain ⟨k, -, -, -, d, -, e⟩ := hl
      exact ⟨d, (i2 _ _).2 e⟩
    obtain ⟨t3, t4, -⟩ := t2 hd
    obtain ⟨f1, f2, f3, f4⟩ := (n1 ls ((levels_iff W o ho h hp ls).2 hl) hu).2 r hc
    rw [hf] at f1
    exact ⟨t4.2 ⟨m, f1⟩, by rw [t3]; exact f3 m f1⟩

/-- **C109** Without unnamed data `train` raises `KeyError`, whatever named data there are, and changes neither options nor model. -/
theorem C109_no_high_fidelity (W : World K O M) (o : Opts O) (ho : Plain o) (h : List (Op K O)) (hp : PlainHistory h) (hn : latest .none h.reverse = none) :
    (train W (run W o h)).2 = some .key ∧ (train W (run W o h)).1.opts = (run W o h).opts ∧ (train W (run W o h)).1.model = (run W o h).model := by
  obtain ⟨i1, i2, i3⟩ := store W o ho h hp
  obtain ⟨-, -, -, t1, t2⟩ := train_plain W (run W o h) i1
  exact t1 fun d hd => by rw [(i2 _ _).1 hd] at hn; cases hn

/-- **C109** `update_training_values` for a level that has no data raises `ValueError`; from then on `train` raises `KeyError`, whatever else is done, until that level is given data. (If all the levels below it have
data.) -/
theorem C109_rejected_update (W : World K O M) (o : Opts O) (ho : Plain o) (h : List (Op K O)) (hp : PlainHistory h) (k : ℕ) (y : Tab K) (hy : .update y (.int k) ∈ h)
    (hk : latest (.int k) h.reverse = none) (hlow : ∀ i < k, latest (.int i) h.reverse ≠ none) :
    (updateValues (run W o h) y (.int k)).2 = some .value ∧ (train W (run W o h)).2 = some .key := by
  obtain ⟨i1, i2, i3⟩ := store W o ho h hp
  obtain ⟨-, -, -, t1, t2⟩ := train_plain W (run W o h) i1
  have hs : (run W o h).tp.lookup (.int k) = some none := by
    match e : (run W o h).tp.lookup (.int k) with
    | none => exact absurd hy (((i3 _ (by simp)).1 e).2 y)
    | some none => exact e
    | some (some d) => rw [(i2 _ _).1 e] at hk; cases hk
  constructor
  · unfold updateValues
    dsimp only
    rw [lookup_touch, hs]
    simp
  · by_cases hd : ∃ d, (run W o h).tp.lookup .none = some (some d)
    · rw [(t2 hd).2.2]
      have hd' : ∀ j < k, ∃ d, (run W o h).tp.lookup (.int (j : ℕ)) = some (some d) := fun j hj => by
        obtain ⟨d, e⟩ := Option.ne_none_iff_exists'.1 (hlow j hj)
        exact ⟨d, (i2 _ _).2 e⟩
      have hle := names_le (run W o h).tp k fun i hi => by
        obtain ⟨d, e⟩ := hd' i hi
        rw [e]; simp
      have hl : allLevels (run W o h).tp = .error .key := by
        unfold allLevels
        rw [gather_key (run W o h).tp k _ 0 (by omega) (fun j hj => by simpa using hd' j hj) (by simpa using hs)]
      rw [(newTrain_eq W (run W o h)).2.2.1 hl]
    · exact (t1 fun d hd' => hd ⟨d, hd'⟩).1

/-- **C109** With levels of several outputs (and some point), or of different numbers of inputs, training raises and keeps the model. -/
theorem C109_unusable (W : World K O M) (o : Opts O) (ho : Plain o) (h : List (Op K O)) (hp : PlainHistory h) (ls : List (Tab K × Tab K)) (hl : Levels h ls) (hu : ¬ Usable ls) :
    (train W (run W o h)).2 ≠ none ∧ (train W (run W o h)).1.model = (run W o h).model := by
  obtain ⟨i1, i2, i3⟩ := store W o ho h hp
  obtain ⟨-, -, -, t1, t2⟩ := train_plain W (run W o h) i1
  have hd : ∃ d, (run W o h).tp.lookup .none = some (some d) := by
    obtain ⟨k, -, -, -, d, -, e⟩ := hl
    exact ⟨d, (i2 _ _).2 e⟩
  obtain ⟨t3, t4, t5⟩ := t2 hd
  obtain ⟨e, he, hm⟩ := (newTrain_eq W (run W o h)).2.1 ls ((levels_iff W o ho h hp ls).2 hl) hu
  refine ⟨?_, by rw [t3, hm]⟩
  rw [(t5 e).2 he]; simp

/-- **C109** Several outputs in a level with points: `ValueError`, before the options are looked at. -/
theorem C109_outputs (W : World K O M) (o : Opts O) (ho : Plain o) (h : List (Op K O)) (hp : PlainHistory h) (ls : List (Tab K × Tab K)) (hl : Levels h ls)
    (d : Tab K × Tab K) (hd : d ∈ ls) (hy : d.2.rows.flatten.length ≠ d.1.rows.length) :
    (train W (run W o h)).2 = some .value ∧ (train W (run W o h)).1.opts = (run W o h).opts := by
  obtain ⟨i1, i2, i3⟩ := store W o ho h hp
  obtain ⟨-, -, -, t1, t2⟩ := train_plain W (run W o h) i1
  obtain ⟨t3, t4, t5⟩ := t2 (by
    obtain ⟨k, -, -, -, d, -, e⟩ := hl
    exact ⟨d, (i2 _ _).2 e⟩)
  have hn : newTrain W (run W o h) = (run W o h, .error .value) := by
    unfold newTrain
    rw [(levels_iff W o ho h hp ls).2 hl]
    dsimp only
    match hc : checkLevels 0 0 ls with
    | none => rfl
    | some cs => exact absurd ((checkLevels_some ls 0 0 cs hc).2 d hd) hy
  rw [t3, (t5 .value).2 (by rw [hn]), hn]
  exact ⟨rfl, rfl⟩

/-- **C109** If only the second level differs from the first in the number of inputs (the levels from the second on agree), the check for it is skipped: the start values in the options have been replaced, for the number of
inputs of the first level, when `train` raises. -/
theorem C109_second_level_columns (W : World K O M) (o : Opts O) (ho : Plain o) (h : List (Op K O)) (hp : PlainHistory h) (d : Tab K × Tab K) (ls : List (Tab K × Tab K)) (hl : Levels h (d :: ls))
    (hy : ∀ e ∈ d :: ls, e.2.rows.flatten.length = e.1.rows.length) (n : ℕ) (hn : ∀ e ∈ ls, e.1.cols = n) (hne : ls ≠ []) (hd : d.1.cols ≠ n) :
    (train W (run W o h)).1.opts = { (run W o h).opts with rest := (W.check (vectors (d :: ls)) (run W o h).opts).1 } ∧
      ((W.check (vectors (d :: ls)) (run W o h).opts).2 = none → (train W (run W o h)).2 = some .value) ∧
      ∀ e, (W.check (vectors (d :: ls)) (run W o h).opts).2 = some e → (train W (run W o h)).2 = some e := by
  obtain ⟨i1, i2, i3⟩ := store W o ho h hp
  obtain ⟨-, -, -, t1, t2⟩ := train_plain W (run W o h) i1
  obtain ⟨t3, t4, t5⟩ := t2 (by
    obtain ⟨k, -, -, -, d, -, e⟩ := hl
    exact ⟨d, (i2 _ _).2 e⟩)
  have hc : checkLevels 0 0 (d :: ls) = some (vectors (d :: ls)) := checkLevels_ok _ 0 0 hy (by omega) (fun j hj a b ha hb => by
    obtain ⟨j, rfl⟩ : ∃ j', j = j' + 1 := ⟨j - 1, by omega⟩
    rw [hn a (List.mem_of_getElem? (by simpa using ha)), hn b (List.mem_of_getElem? (by simpa using hb))])
  have hs : sameCols (d :: ls) = false := by
    by_contra h1
    rw [Bool.not_eq_false, sameCols_iff] at h1
    obtain ⟨e, he⟩ := List.exists_mem_of_ne_nil _ hne
    exact hd ((h1 d (by simp) e (by simp [he])).trans (hn e he))
  match hk : W.check (vectors (d :: ls)) (run W o h).opts with
  | (r, some e) =>
    have hnt : (newTrain W (run W o h)).2 = .error e ∧ (newTrain W (run W o h)).1.opts = { (run W o h).opts with rest := r } := by
      unfold newTrain
      rw [(levels_iff W o ho h hp _).2 hl]; dsimp only; rw [hc]; dsimp only; rw [hk]
      exact ⟨rfl, rfl⟩
    rw [t3, hnt.2]
    exact ⟨rfl, fun h => (by cases h), fun e' he' => by cases he'; exact (t5 e).2 hnt.1⟩
  | (r, none) =>
    have hnt : (newTrain W (run W o h)).2 = .error .value ∧ (newTrain W (run W o h)).1.opts = { (run W o h).opts with rest := r } := by
      unfold newTrain
      rw [(levels_iff W o ho h hp _).2 hl]; dsimp only; rw [hc]; dsimp only; rw [hk]; dsimp only; rw [if_pos hs]
      exact ⟨rfl, rfl⟩
    rw [t3, hnt.2]
    exact ⟨rfl, fun _ => (t5 .value).2 hnt.1, fun e' he' => by cases he'⟩

/-- The name of a call that writes data. -/
def Op.name : Op K O → Option Name
  | .set _ _ n => some n
  | .update _ n => some n
  | _ => none

/-- **C109** Data under a name that is not one of the levels (a string, a negative number, a number beyond the first unused one) have no effect: the levels are the same with and without
such a call. -/
theorem C109_other_names (h h' : List (Op K O)) (c : Op K O) (n : Name) (hc : c.name = some n) (ls : List (Tab K × Tab K)) (hl : Levels (h ++ h') ls)
    (hn : n ≠ .none) (hi : ∀ i < ls.length, n ≠ .int i) : Levels (h ++ c :: h') ls := by
  have hlat : ∀ m, m ≠ n → ∀ (a b : List (Op K O)), latest m (b ++ c :: a) = latest m (b ++ a) := by
    intro m hm a b
    induction b with
    | nil =>
      rw [List.nil_append, List.nil_append]
      cases c with
      | set x y m' =>
        cases hc
        rw [latest, if_neg (by rintro ⟨h, -⟩; exact hm h.symm)]
      | update y m' =>
        cases hc
        rw [latest]
        match latest m a with
        | none => rfl
        | some (x, y0) => dsimp only; rw [if_neg (by rintro ⟨h, -⟩; exact hm h.symm)]
      | options o => cases hc
      | train => cases hc
    | cons e b ih =>
      rw [List.cons_append, List.cons_append]
      cases e with
      | set x y m' => rw [latest, latest, ih]
      | update y m' => rw [latest, latest, ih]
      | options o => exact ih
      | train => exact ih
  have hrev : (h ++ c :: h').reverse = h'.reverse ++ c :: h.reverse := by simp
  have hrev' : (h ++ h').reverse = h'.reverse ++ h.reverse := by simp
  obtain ⟨k, e1, e2, e3, d, e4, e5⟩ := hl
  refine ⟨k, e1, fun i hik => ?_, ?_, d, e4, ?_⟩
  · obtain ⟨d, a, b⟩ := e2 i hik
    refine ⟨d, a, ?_⟩
    rw [hrev, hlat _ (fun h => hi i (by omega) h.symm), ← hrev']
    exact b
  · have hkn : (.int (k : ℕ) : Name) ≠ n := fun h => hi k (by omega) h.symm
    refine ⟨fun x y hx => ?_, fun y hy => ?_⟩
    · rcases List.mem_append.1 hx with hx | hx
      · exact e3.1 x y (by simp [hx])
      · rcases List.mem_cons.1 hx with hx | hx
        · rw [← hx] at hc; cases hc; exact absurd rfl hkn
        · exact e3.1 x y (by simp [hx])
    · rcases List.mem_append.1 hy with hy | hy
      · exact e3.2 y (by simp [hy])
      · rcases List.mem_cons.1 hy with hy | hy
        · rw [← hy] at hc; cases hc; exact absurd rfl hkn
        · exact e3.2 y (by simp [hy])
  · rw [hrev, hlat _ (fun h => hn h.symm), ← hrev']
    exact e5

end SMT.MfkData
