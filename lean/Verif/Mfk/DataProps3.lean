import Verif.Mfk.DataProps2

/-!
# Property C109: `optim_var`, and instances
-/
set_option linter.unusedSectionVars false
set_option linter.unusedSimpArgs false
set_option linter.unusedVariables false

namespace SMT.MfkData

variable {K O M : Type}

/-- **C109** A last call with a name that is not a level changes nothing for the training. -/
theorem C109_other_names_train (W : World K O M) (o : Opts O) (ho : Plain o) (h : List (Op K O)) (hp : PlainHistory h) (c : Op K O) (n : Name) (hc : c.name = some n) (ls : List (Tab K × Tab K))
    (hl : Levels h ls) (hn : n ≠ .none) (hi : ∀ i < ls.length, n ≠ .int i) (m : M) :
    ((train W (run W o (h ++ [c]))).2 = none ∧ (train W (run W o (h ++ [c]))).1.model = some m) ↔ ((train W (run W o h)).2 = none ∧ (train W (run W o h)).1.model = some m) := by
  have hp' : PlainHistory (h ++ [c]) := fun o' ho' => by
    rcases List.mem_append.1 ho' with h1 | h1
    · exact hp o' h1
    · rw [List.mem_singleton] at h1; rw [← h1] at hc; cases hc
  have hl' : Levels (h ++ [c]) ls := C109_other_names h [] c n hc ls (by simpa using hl) hn hi
  have hopts : (run W o (h ++ [c])).opts = (run W o h).opts := by
    rw [run_append]
    cases c with
    | set x y m => show (setValues _ x y m).1.opts = _; unfold setValues; split <;> rfl
    | update y m =>
      show (updateValues _ y m).1.opts = _
      unfold updateValues
      dsimp only
      split
      · split <;> rfl
      · rfl
    | options o => cases hc
    | train => cases hc
  rw [C109_trained W o ho (h ++ [c]) hp' m, C109_trained W o ho h hp m, hopts]
  constructor
  · rintro ⟨ls', r, a, b⟩
    exact ⟨ls', r, C109_levels_unique W hp' hl' a o ho ▸ hl, b⟩
  · rintro ⟨ls', r, a, b⟩
    exact ⟨ls', r, C109_levels_unique W hp hl a o ho ▸ hl', b⟩

/-! ## `eval_noise` with `optim_var` -/

/-- The levels with the outputs replaced by the predictions of a model, each at its own level. -/
def predicted (W : World K O M) (m : M) (ls : List (Tab K × Tab K)) : List (Tab K × Tab K) :=
  ls.mapIdx fun i d => (d.1, ⟨d.1.rows.map fun x => [W.predict m (i + 1) x], 1⟩)

theorem refill_lookup (W : World K O M) (m : M) : ∀ (xs : List (Tab K)) (tp : Dict K) (l : ℕ),
    (∀ j x, j + 1 < xs.length → xs[j]? = some x → (refill W m tp l xs).lookup (.int (l + j : ℕ)) = some (some (x, ⟨x.rows.map fun r => [W.predict m (l + j + 1) r], 1⟩))) ∧
    (∀ x, xs.getLast? = some x → (refill W m tp l xs).lookup .none = some (some (x, ⟨x.rows.map fun r => [W.predict m (l + xs.length) r], 1⟩))) ∧
    ∀ n, n ≠ .none → (∀ j, j + 1 < xs.length → n ≠ .int (l + j : ℕ)) → (refill W m tp l xs).lookup n = tp.lookup n
  | [], tp, l => ⟨fun j x hj => by simp at hj, fun x hx => by simp at hx, fun n _ _ => rfl⟩
  | [x], tp, l => by
    refine ⟨fun j x hj => by simp at hj, fun x' hx => ?_, fun n hn _ => ?_⟩
    · obtain rfl : x = x' := by simpa using hx
      unfold refill refill1
      rw [lookup_put, if_pos rfl]
      rfl
    · unfold refill refill1
      rw [lookup_put, if_neg hn]
  | x :: x2 :: xs, tp, l => by
    obtain ⟨h1, h2, h3⟩ := refill_lookup W m (x2 :: xs) (refill1 W m tp (.int l) l x) (l + 1)
    have e : refill W m tp l (x :: x2 :: xs) = refill W m (refill1 W m tp (.int l) l x) (l + 1) (x2 :: xs) := rfl
    rw [e]
    refine ⟨fun j x' hj hx => ?_, fun x' hx => ?_, fun n hn hj => ?_⟩
    · cases j with
      | zero =>
        obtain rfl : x = x' := by simpa using hx
        rw [h3 _ (by simp) (fun j hj h => by
          simp only [Name.int.injEq] at h
          omega)]
        unfold refill1
        rw [lookup_put, if_pos (by simp)]
      | succ j =>
        have := h1 j x' (by simpa using hj) (by simpa using hx)
        rw [show l + 1 + j = l + (j + 1) by omega] at this
        exact this
    · have := h2 x' (by simpa using hx)
      rw [show l + 1 + (x2 :: xs).length = l + (x :: x2 :: xs).length by simp; omega] at this
      exact this
    · rw [h3 n hn (fun j hj' => by
        have := hj (j + 1) (by simpa using hj')
        rwa [show l + (j + 1) = l + 1 + j by omega] at this)]
      unfold refill1
      rw [lookup_put, if_neg (by simpa using hj 0 (by simp))]

theorem refill_levels (W : World K O M) (m : M) (tp : Dict K) (ls : List (Tab K × Tab K)) (h : StoreLevels tp ls) :
    StoreLevels (refill W m tp 0 (ls.map (·.1))) (predicted W m ls) := by
  obtain ⟨k, hl, h1, h2, d, hd, hn⟩ := h
  obtain ⟨r1, r2, r3⟩ := refill_lookup W m (ls.map (·.1)) tp 0
  refine ⟨k, by simp [predicted, hl], fun i hi => ?_, ?_, (d.1, ⟨d.1.rows.map fun x => [W.predict m (k + 1) x], 1⟩), ?_, ?_⟩
  · obtain ⟨d, a, b⟩ := h1 i hi
    refine ⟨(d.1, ⟨d.1.rows.map fun x => [W.predict m (i + 1) x], 1⟩), by simp [predicted, a], ?_⟩
    have := r1 i d.1 (by simp [hl]; omega) (by simp [a])
    simpa using this
  · rw [r3 _ (by simp) (fun j hj h => by
      simp only [Name.int.injEq, List.length_map, hl] at h hj
      omega)]
    exact h2
  · simp [predicted, hd]
  · have hlast : (ls.map (·.1)).getLast? = some d.1 := by
      rw [List.getLast?_eq_getElem?, List.length_map, hl, Nat.add_sub_cancel, List.getElem?_map, hd]
      rfl
    have := r2 d.1 hlast
    simpa [hl] using this

/-- **C109** With `eval_noise` and `optim_var`, once the first fit has succeeded the training data are replaced, whatever happens afterwards: the outputs of every level are now the predictions of the first
model at that level, and `eval_noise` is off. The model is then trained again on these data: `train` succeeds exactly if this second training does, and then the trained model is that of the second fit. Later
trainings use the replaced data too; data under other names are kept. -/
theorem C109_optim_var (W : World K O M) (s : St K O M) (ls : List (Tab K × Tab K)) (hl : StoreLevels s.tp ls) (he : s.opts.evalNoise = true) (hv : s.opts.optimVar = true) (hu : Usable ls)
    (r r' : O) (m : M) (hc : W.check (vectors ls) s.opts = (r, none)) (hf : W.fit (vectors ls) { s.opts with rest := r } = (r', .ok m)) :
    StoreLevels (train W s).1.tp (predicted W m ls) ∧ (train W s).1.opts.evalNoise = false ∧ Usable (predicted W m ls) ∧
    (∀ n, n ≠ .none → (∀ i < ls.length, n ≠ .int i) → (train W s).1.tp.lookup n = s.tp.lookup n) ∧
    ∀ m2, ((train W s).2 = none ∧ (train W s).1.model = some m2) ↔
      ∃ r2, W.check (vectors (predicted W m ls)) ⟨false, true, r'⟩ = (r2, none) ∧ (W.fit (vectors (predicted W m ls)) ⟨false, true, r2⟩).2 = .ok m2 := by
  have hal := (allLevels_iff s.tp ls).2 hl
  obtain ⟨n1, -, -, n4, n5, n6⟩ := newTrain_eq W s
  obtain ⟨f1, f2, f3, f4⟩ := (n1 ls hal hu).2 r hc
  rw [hf] at f1 f2
  have hd : ∃ d, s.tp.lookup .none = some (some d) := by
    obtain ⟨k, -, -, -, d, -, e⟩ := hl
    exact ⟨d, e⟩
  obtain ⟨d, hd⟩ := hd
  have ht : touch s.tp .none = s.tp := by unfold touch; rw [hd]
  have hs : ({ s with tp := touch s.tp .none } : St K O M) = s := by rw [ht]
  set s1 := (newTrain W s).1 with hs1
  have hnt : newTrain W s = (s1, .ok m) := Prod.ext rfl f1
  set s2 : St K O M := { s1 with tp := refill W m s1.tp 0 (ls.map (·.1)), opts := { s1.opts with evalNoise := false } } with hs2
  have hO : s2.opts = ⟨false, true, r'⟩ := by
    rw [hs2]
    dsimp only
    rw [f2]
    dsimp only
    rw [hv]
  have htp : s2.tp = refill W m s.tp 0 (ls.map (·.1)) := by rw [hs2]; dsimp only; rw [n4]
  have hp2 : StoreLevels s2.tp (predicted W m ls) := by rw [htp]; exact refill_levels W m s.tp ls hl
  have htr : (train W s).1 = (newTrain W s2).1 ∧ ((train W s).2 = none ↔ ∃ m, (newTrain W s2).2 = .ok m) := by
    unfold train
    rw [hs]
    dsimp only
    rw [hd]
    dsimp only
    rw [hnt]
    dsimp only
    rw [if_pos (by rw [n5, n6, he, hv]; rfl), n4, hal]
    dsimp only
    have h2 : newTrain W { s1 with tp := refill W m s.tp 0 (ls.map (·.1)), opts := { s1.opts with evalNoise := false } } = newTrain W s2 := by
      rw [hs2, n4]
    rw [h2]
    split
    · rename_i s' e he'
      rw [he']; simp
    · rename_i s' m' he'
      rw [he']; simp
  obtain ⟨p1, p2, p3, p4, p5, p6⟩ := newTrain_eq W s2
  have hup : Usable (predicted W m ls) := by
    have hmem : ∀ e ∈ predicted W m ls, ∃ d ∈ ls, e.1 = d.1 ∧ e.2.rows.flatten.length = e.1.rows.length := by
      intro e he
      obtain ⟨i, hi⟩ := List.getElem?_of_mem he
      simp only [predicted, List.getElem?_mapIdx, Option.map_eq_some_iff] at hi
      obtain ⟨d, hd, rfl⟩ := hi
      refine ⟨d, List.mem_of_getElem? hd, rfl, ?_⟩
      dsimp only
      induction d.1.rows with
      | nil => rfl
      | cons a t ih =>
        rw [List.map_cons, List.flatten_cons, List.length_append, ih, List.length_cons]
        simp; omega
    refine ⟨fun e he => ?_, fun e he e' he' => ?_⟩
    · obtain ⟨d, -, -, h⟩ := hmem e he; exact h
    · obtain ⟨d, hd, h1, -⟩ := hmem e he
      obtain ⟨d', hd', h1', -⟩ := hmem e' he'
      rw [h1, h1']; exact hu.2 d hd d' hd'
  refine ⟨?_, ?_, hup, ?_, fun m2 => ?_⟩
  · rw [htr.1, p4]; exact hp2
  · rw [htr.1, p5, hO]
  · intro n hn hi
    rw [htr.1, p4, htp]
    exact (refill_lookup W m (ls.map (·.1)) s.tp 0).2.2 n hn fun j hj => by
      rw [Nat.zero_add]
      exact hi j (by simp at hj; omega)
  · have hal2 := (allLevels_iff s2.tp _).2 hp2
    obtain ⟨c1, c2⟩ := p1 _ hal2 hup
    rw [hO] at c1 c2
    rw [htr.1, htr.2]
    constructor
    · rintro ⟨⟨m', hm'⟩, h2⟩
      match hk : W.check (vectors (predicted W m ls)) ⟨false, true, r'⟩ with
      | (r2, some e) => rw [(c1 r2 e hk).1] at hm'; cases hm'
      | (r2, none) =>
        obtain ⟨g1, g2, g3, -⟩ := c2 r2 hk
        refine ⟨r2, rfl, ?_⟩
        have := g3 m' hm'
        rw [h2] at this
        rw [← g1, hm', Option.some.inj this]
    · rintro ⟨r2, hk, hm⟩
      obtain ⟨g1, g2, g3, -⟩ := c2 r2 hk
      have g1' := g1.trans hm
      exact ⟨⟨m2, g1'⟩, g3 m2 g1'⟩

/-! ## Instances -/

/-- A fit that only remembers its data, and always predicts zero. -/
def toy : World ℚ Unit (List (Tab ℚ × List ℚ)) where
  check _ o := (o.rest, none)
  fit cs o := (o.rest, .ok cs)
  predict _ _ _ := 0

def xA : Tab ℚ := ⟨[[0], [1], [2]], 1⟩
def yA : Tab ℚ := ⟨[[5], [6], [7]], 1⟩
def xB : Tab ℚ := ⟨[[0], [2]], 1⟩
def yB : Tab ℚ := ⟨[[1], [2]], 1⟩
def yB' : Tab ℚ := ⟨[[3], [4]], 1⟩

def plain : Opts Unit := ⟨false, false, ()⟩

/-- Data for level 0, for a level 2 without a level 1, and without name, updated later. -/
def gap : List (Op ℚ Unit) := [.set xA yA (.int 0), .set xA yB (.int 0), .set xB yB (.int 2), .set xB yB .none, .update yB' .none, .update yA .none]

/-- The set under the name 2 is ignored, silently. -/
theorem C109_gap : Levels gap [(xA, yA), (xB, yB')] ∧ (train toy (run toy plain gap)).2 = none ∧
    (train toy (run toy plain gap)).1.model = some [(xA, [5, 6, 7]), (xB, [3, 4])] := by
  have hl : Levels gap [(xA, yA), (xB, yB')] := by
    refine ⟨1, rfl, fun i hi => ?_, ?_, ?_⟩
    · obtain rfl : i = 0 := by omega
      exact ⟨_, rfl, by decide +kernel⟩
    · constructor
      · intro x y h
        simp [gap] at h
      · intro y h
        simp [gap] at h
    · exact ⟨_, rfl, by decide +kernel⟩
  refine ⟨hl, ?_⟩
  apply (C109_trained toy plain rfl gap (by intro o h; simp [gap] at h) _).2
  refine ⟨_, (), hl, ⟨by simp [xA, yA, xB, yB'], by simp [xA, xB]⟩, rfl, rfl⟩

/-- A rejected update for a level without data, then the training: `KeyError`, although the unnamed data are complete. -/
example : (step toy (run toy plain [.set xB yB .none]) (.update yB (.int 0))).2 = some .value ∧
    (train toy (run toy plain [.set xB yB .none])).2 = none ∧ (train toy (run toy plain [.set xB yB .none, .update yB (.int 0)])).2 = some .key ∧
    (train toy (run toy plain [.set xB yB .none, .update yB (.int 0), .set xA yA (.int 0)])).2 = none := by decide +kernel

/-- Two outputs; different numbers of inputs in the two levels. -/
example : (train toy (run toy plain [.set xB ⟨[[1, 2], [3, 4]], 2⟩ .none])).2 = some .value ∧
    (train toy (run toy plain [.set ⟨[[0, 1]], 2⟩ ⟨[[1]], 1⟩ (.int 0), .set xB yB .none])).2 = some .value := by decide +kernel

/-- `optim_var`: the outputs in the store are the predictions (zero here), and they stay after `optim_var` is switched off. -/
example : (train toy (run toy ⟨true, true, ()⟩ [.set xA yA (.int 0), .set xB yB .none])).1.model = some [(xA, [0, 0, 0]), (xB, [0, 0])] ∧
    (train toy (run toy ⟨true, true, ()⟩ [.set xA yA (.int 0), .set xB yB .none, .train, .options plain])).1.model = some [(xA, [0, 0, 0]), (xB, [0, 0])] := by decide +kernel

end SMT.MfkData
