import Verif.Mfk.DataProps3

/-!
# C109: the dimensions after training
-/
set_option linter.unusedSectionVars false
set_option linter.unusedSimpArgs false
set_option linter.unusedVariables false

namespace SMT.MfkData

variable {K O M : Type}

theorem newTrain_dims (W : World K O M) (s : St K O M) {ls : List (Tab K × Tab K)} (h : allLevels s.tp = .ok ls) {m : M} (hm : (newTrain W s).2 = .ok m) :
    (newTrain W s).1.dims = s.dims.map fun d => (d.1, firstCols ls, 1) := by
  unfold newTrain at hm ⊢
  rw [h] at hm ⊢
  dsimp only at hm ⊢
  cases hc : checkLevels 0 0 ls with
  | none => rw [hc] at hm; cases hm
  | some cs =>
    rw [hc] at hm
    dsimp only at hm ⊢
    split at hm
    · cases hm
    · rename_i r hr
      try rw [hr]
      try dsimp only
      split at hm
      · cases hm
      · rename_i hs
        try rw [if_neg hs]
        split at hm
        · cases hm
        · rename_i r' m' hf
          first | rfl | rw [hf]

theorem newTrain_known (W : World K O M) (s : St K O M) (h : s.dims ≠ none) : (newTrain W s).1.dims ≠ none := by
  have h1 : ∀ n : ℕ, (s.dims.map fun (d : ℕ × ℕ × ℕ) => (d.1, n, 1)) ≠ none := fun n h2 => h (by simpa using h2)
  unfold newTrain
  split
  · exact h
  · split
    · exact h
    · dsimp only
      split
      · exact h1 _
      · split
        · exact h1 _
        · split <;> exact h1 _

theorem train_known (W : World K O M) (s : St K O M) (h : s.dims ≠ none) : (train W s).1.dims ≠ none := by
  have h0 : ({ s with tp := touch s.tp .none } : St K O M).dims ≠ none := h
  have h1 := newTrain_known W { s with tp := touch s.tp .none } h0
  unfold train
  dsimp only
  split
  · split
    · rename_i hh; rw [hh] at h1; exact h1
    · rename_i s' m hh
      rw [hh] at h1
      split
      · split
        · exact h1
        · rename_i ls hls
          have h2 := newTrain_known W { s' with tp := refill W m s'.tp 0 (ls.map (·.1)), opts := { s'.opts with evalNoise := false } } h1
          split
          · rename_i hh2; rw [hh2] at h2; exact h2
          · rename_i hh2; rw [hh2] at h2; exact h2
      · exact h1
  · exact h0

/-- Where there are data, the dimensions have been set. -/
theorem dims_known (W : World K O M) (o : Opts O) (h : List (Op K O)) {n : Name} {d : Tab K × Tab K} (hd : (run W o h).tp.lookup n = some (some d)) : (run W o h).dims ≠ none := by
  have inv : ∀ (h : List (Op K O)), (run W o h).dims = none → ∀ n d, (run W o h).tp.lookup n ≠ some (some d) := by
    intro h
    induction h using List.reverseRecOn with
    | nil => intro _ n d h; simp [run, new] at h
    | append_singleton h c ih =>
      have e : run W o (h ++ [c]) = (step W (run W o h) c).1 := by unfold run; rw [List.foldl_append]; rfl
      rw [e]
      cases c with
      | set x y m =>
        show (setValues (run W o h) x y m).1.dims = none → ∀ n d, (setValues (run W o h) x y m).1.tp.lookup n ≠ some (some d)
        unfold setValues
        split_ifs
        · exact ih
        · intro h; cases h
      | update y m =>
        intro hn n d
        unfold step updateValues at hn ⊢
        dsimp only at hn ⊢
        have ht : ∀ n d, (touch (run W o h).tp m).lookup n ≠ some (some d) := by
          intro n d hl
          have hn0 : (run W o h).dims = none := by
            split at hn
            · split_ifs at hn <;> exact hn
            · exact hn
          rw [lookup_touch] at hl
          have := ih hn0 n d
          split_ifs at hl
          · cases hl
          · exact this hl
        split at hn
        · rename_i x y' hx
          exact absurd hx (ht _ _)
        · rename_i hx
          exact ht n d
      | options o' => exact ih
      | train =>
        intro hn n d
        have hn0 : (run W o h).dims = none := by
          by_contra hne
          exact train_known W _ hne hn
        have hno := ih hn0 .none
        have ht := lookup_touch (run W o h).tp .none
        have hst : (step W (run W o h) (.train : Op K O)).1.tp = touch (run W o h).tp .none := by
          unfold step train
          dsimp only
          split
          · rename_i d' hd'
            rw [ht] at hd'
            split_ifs at hd'
            · cases hd'
            · exact absurd hd' (hno _)
          · rfl
        rw [hst, ht]
        split_ifs
        · intro h; cases h
        · exact ih hn0 n d
  exact fun hn => inv h hn n d hd

/-- **C109** After a training that succeeds the object has one output and the number of inputs of its levels, and has known both since the data were given. -/
theorem C109_dimensions (W : World K O M) (o : Opts O) (ho : Plain o) (h : List (Op K O)) (hp : PlainHistory h) (ls : List (Tab K × Tab K)) (hl : Levels h ls) (ht : (train W (run W o h)).2 = none) :
    ∃ nt nx, (train W (run W o h)).1.dims = some (nt, nx, 1) ∧ ∀ d ∈ ls, d.1.cols = nx := by
  obtain ⟨i1, i2, i3⟩ := store W o ho h hp
  obtain ⟨-, -, -, t1, t2⟩ := train_plain W (run W o h) i1
  have hd : ∃ d, (run W o h).tp.lookup .none = some (some d) := by
    obtain ⟨k, -, -, -, d, -, e⟩ := hl
    exact ⟨d, (i2 _ _).2 e⟩
  obtain ⟨t3, t4, -⟩ := t2 hd
  obtain ⟨m, hm⟩ := t4.1 ht
  have hal := (levels_iff W o ho h hp ls).2 hl
  have hdim := newTrain_dims W _ hal hm
  obtain ⟨d, hd⟩ := hd
  obtain ⟨v, hv⟩ := Option.ne_none_iff_exists'.1 (dims_known W o h hd)
  have hu : Usable ls := by
    by_contra hu
    obtain ⟨e, he, -⟩ := (newTrain_eq W (run W o h)).2.1 ls hal hu
    rw [hm] at he
    cases he
  refine ⟨v.1, firstCols ls, by rw [t3, hdim, hv]; rfl, fun d hd => ?_⟩
  cases ls with
  | nil => cases hd
  | cons a ls => exact hu.2 d hd a (by simp)

/-- The history of `C109_gap`: three attributes after training. -/
example : (train toy (run toy plain gap)).1.dims.map (fun d => d.2) = some (xA.cols, 1) := by decide +kernel

end SMT.MfkData
