import Verif.Printer.Model

/-!
# Property C09: printer bookkeeping
-/
namespace SMT.Printer

/-! ## Specification -/

/-- No command of the program raises. -/
def NoRaise : Cmd → Prop
  | .raise => False
  | .seq a b => NoRaise a ∧ NoRaise b
  | .ctx _ _ c => NoRaise c
  | .tryExcept c => NoRaise c
  | _ => True

/-- The program does not touch the `active` flag. -/
def NoToggle : Cmd → Prop
  | .setActive _ => False
  | .seq a b => NoToggle a ∧ NoToggle b
  | .ctx _ _ c => NoToggle c
  | .tryExcept c => NoToggle c
  | _ => True

/-- Deepest nesting of contexts. -/
def nesting : Cmd → Nat
  | .seq a b => max (nesting a) (nesting b)
  | .ctx _ _ c => nesting c + 1
  | .tryExcept c => nesting c
  | _ => 0

/-- The lines a program prints when started at depth `d` with an active printer, in order: a print nested
in `k` contexts is indented `d + k` units, messages of a context are indented like their surroundings. -/
def lines (d : Nat) : Cmd → List (Nat × String)
  | .print t n => [(if n then 0 else d, t)]
  | .seq a b => lines d a ++ lines d b
  | .ctx (some l) _ c => [(d, l ++ " ...")] ++ lines (d + 1) c ++ [(d, l ++ " - done.")]
  | .ctx none _ c => lines (d + 1) c
  | .tryExcept c => lines d c
  | _ => []

/-- How many contexts with key `k` the program contains. -/
def keyCount (k : String) : Cmd → Nat
  | .seq a b => keyCount k a + keyCount k b
  | .ctx _ key c => keyCount k c + (if key = some k then 1 else 0)
  | .tryExcept c => keyCount k c
  | _ => 0

/-- Number of contexts open at the point where the exception that escapes is raised (`none` when no
exception escapes). -/
def escapeDepth : Cmd → Option Nat
  | .raise => some 0
  | .seq a b => (escapeDepth a).or ((escapeDepth b).map (· + caught a))
  | .ctx _ _ c => (escapeDepth c).map (· + 1)
  | _ => none
where
  /-- Depth left behind by exceptions already caught inside a program that completes. -/
  caught : Cmd → Nat
    | .seq a b => caught a + caught b
    | .ctx _ _ c => caught c
    | .tryExcept c => (escapeDepth c).getD (caught c)
    | _ => 0

/-! ## Lemmas -/

@[simp] theorem emit_depth (s t n) : (emit s t n).depth = s.depth := by unfold emit; split <;> rfl
@[simp] theorem emit_active (s t n) : (emit s t n).active = s.active := by unfold emit; split <;> rfl
@[simp] theorem emit_max (s t n) : (emit s t n).maxDepth = s.maxDepth := by unfold emit; split <;> rfl
@[simp] theorem emit_times (s t n) : (emit s t n).times = s.times := by unfold emit; split <;> rfl
@[simp] theorem emitOpt_depth (s t n) : (emitOpt s t n).depth = s.depth := by unfold emitOpt; split <;> simp
@[simp] theorem emitOpt_active (s t n) : (emitOpt s t n).active = s.active := by unfold emitOpt; split <;> simp
@[simp] theorem emitOpt_max (s t n) : (emitOpt s t n).maxDepth = s.maxDepth := by unfold emitOpt; split <;> simp
@[simp] theorem emitOpt_times (s t n) : (emitOpt s t n).times = s.times := by unfold emitOpt; split <;> simp
@[simp] theorem recordTime_depth (s k) : (recordTime s k).depth = s.depth := by unfold recordTime; split <;> rfl
@[simp] theorem recordTime_active (s k) : (recordTime s k).active = s.active := by unfold recordTime; split <;> rfl
@[simp] theorem recordTime_max (s k) : (recordTime s k).maxDepth = s.maxDepth := by unfold recordTime; split <;> rfl
@[simp] theorem recordTime_out (s k) : (recordTime s k).out = s.out := by unfold recordTime; split <;> rfl

theorem exec_max (c : Cmd) : ∀ s, (exec c s).1.maxDepth = s.maxDepth := by
  induction c with
  | skip => intro s; rfl
  | print t n => intro s; simp [exec]
  | setActive b => intro s; rfl
  | raise => intro s; rfl
  | tryExcept c ih => intro s; simp [exec, ih]
  | seq a b iha ihb =>
    intro s
    have h := iha s
    unfold exec
    split
    · rename_i s1 heq; rw [heq] at h; exact h
    · rename_i s1 heq; rw [heq] at h; rw [ihb]; exact h
  | ctx l k c ih =>
    intro s
    have h := ih { emitOpt s l " ..." with depth := (emitOpt s l " ...").depth + 1 }
    unfold exec
    dsimp only
    split
    · rename_i s1 heq; rw [heq] at h; simpa using h
    · rename_i s1 heq; rw [heq] at h; simpa using h

theorem exec_noRaise (c : Cmd) (h : NoRaise c) : ∀ s, (exec c s).2 = false := by
  induction c with
  | skip => intro s; rfl
  | print t n => intro s; rfl
  | setActive b => intro s; rfl
  | raise => exact absurd h id
  | tryExcept c ih => intro s; rfl
  | seq a b iha ihb =>
    intro s
    have h1 := iha h.1 s
    unfold exec
    split
    · rename_i s1 heq; rw [heq] at h1; exact h1
    · exact ihb h.2 _
  | ctx l k c ih =>
    intro s
    have h1 := ih h { emitOpt s l " ..." with depth := (emitOpt s l " ...").depth + 1 }
    unfold exec
    dsimp only
    split
    · rename_i s1 heq; rw [heq] at h1; exact h1
    · rfl

/-! ## C09 -/

/-- **C09** Exact depth bookkeeping for every program: a program that completes leaves the depth
unchanged except for contexts left by exceptions it swallowed; a program that raises leaves it increased
by the number of contexts open where the exception was raised. -/
theorem C09_depth (c : Cmd) (s : St) :
    (exec c s).2 = (escapeDepth c).isSome ∧
    (exec c s).1.depth = s.depth + (escapeDepth c).getD (escapeDepth.caught c) := by
  induction c generalizing s with
  | skip => simp [exec, escapeDepth, escapeDepth.caught]
  | print t n => simp [exec, escapeDepth, escapeDepth.caught]
  | setActive b => simp [exec, escapeDepth, escapeDepth.caught]
  | raise => simp [exec, escapeDepth]
  | tryExcept c ih => simp [exec, escapeDepth, escapeDepth.caught, ih]
  | seq a b iha ihb =>
    have ha := iha s
    unfold exec
    split
    · rename_i s1 heq
      rw [heq] at ha
      cases he : escapeDepth a with
      | none => simp [he] at ha
      | some d => simp [he] at ha; simp [escapeDepth, he, ha]
    · rename_i s1 heq
      rw [heq] at ha
      cases he : escapeDepth a with
      | some d => simp [he] at ha
      | none =>
        simp [he] at ha
        have hb := ihb s1
        rw [hb.1, hb.2, ha]
        cases hb' : escapeDepth b with
        | none => simp [escapeDepth, he, hb', escapeDepth.caught]; omega
        | some d => simp [escapeDepth, he, hb'] <;> omega
  | ctx l k c ih =>
    have h := ih { emitOpt s l " ..." with depth := (emitOpt s l " ...").depth + 1 }
    unfold exec
    dsimp only
    split
    · rename_i s1 heq
      rw [heq] at h
      cases he : escapeDepth c with
      | none => simp [he] at h
      | some d => simp [he] at h; simp [escapeDepth, he, h] <;> omega
    · rename_i s1 heq
      rw [heq] at h
      cases he : escapeDepth c with
      | some d => simp [he] at h
      | none => simp [he] at h; simp [escapeDepth, he, h, escapeDepth.caught] <;> omega

theorem escape_none_of_noRaise (c : Cmd) (h : NoRaise c) :
    escapeDepth c = none ∧ escapeDepth.caught c = 0 := by
  induction c with
  | skip => simp [escapeDepth, escapeDepth.caught]
  | print t n => simp [escapeDepth, escapeDepth.caught]
  | setActive b => simp [escapeDepth, escapeDepth.caught]
  | raise => exact absurd h id
  | tryExcept c ih => have := ih h; simp [escapeDepth, escapeDepth.caught, this]
  | seq a b iha ihb =>
    have ha := iha h.1; have hb := ihb h.2
    simp [escapeDepth, escapeDepth.caught, ha, hb]
  | ctx l k c ih => have := ih h; simp [escapeDepth, escapeDepth.caught, this]

/-- **C09** Without exceptions the depth after any nesting of contexts is the depth before. -/
theorem C09_balanced (c : Cmd) (h : NoRaise c) (s : St) :
    (exec c s).2 = false ∧ (exec c s).1.depth = s.depth := by
  have h1 := C09_depth c s
  have h2 := escape_none_of_noRaise c h
  rw [h1.1, h1.2, h2.1, h2.2]; simp

/-- **C09** With an active printer, a program without exceptions prints exactly its lines, in order, each
indented by the nesting depth (as long as the maximum print depth is not exceeded). -/
theorem C09_output (c : Cmd) (h : NoRaise c) (ht : NoToggle c) (s : St) (ha : s.active = true)
    (hm : s.depth + nesting c ≤ s.maxDepth) :
    (exec c s).1.out = s.out ++ lines s.depth c ∧ (exec c s).1.active = true := by
  induction c generalizing s with
  | skip => simp [exec, lines, ha]
  | print t n =>
    simp [nesting] at hm
    simp [exec, emit, ha, hm, lines]
  | setActive b => exact absurd ht id
  | raise => exact absurd h id
  | tryExcept c ih =>
    simpa [exec, lines] using ih h ht s ha hm
  | seq a b iha ihb =>
    simp only [nesting] at hm
    have e1 := iha h.1 ht.1 s ha (by omega)
    have e2 := C09_balanced a h.1 s
    have e3 := exec_max a s
    unfold exec
    split
    · rename_i s1 heq; rw [heq] at e2; simp at e2
    · rename_i s1 heq
      rw [heq] at e1 e2 e3
      simp only at e1 e2 e3
      have := ihb h.2 ht.2 s1 e1.2 (by rw [e2.2, e3]; omega)
      rw [e2.2, e1.1] at this
      simpa [lines, List.append_assoc] using this
  | ctx l k c ih =>
    simp only [nesting] at hm
    have hs1 : ∀ suf, (emitOpt s l suf).out = s.out ++ (match l with | none => [] | some x => [(s.depth, x ++ suf)]) := by
      intro suf
      cases l with
      | none => simp [emitOpt]
      | some x =>
        have : s.depth ≤ s.maxDepth := by omega
        simp [emitOpt, emit, ha, this]
    have e1 := ih h ht { emitOpt s l " ..." with depth := (emitOpt s l " ...").depth + 1 }
      (by simpa using ha) (by simp; omega)
    have e2 := C09_balanced c h { emitOpt s l " ..." with depth := (emitOpt s l " ...").depth + 1 }
    have e3 := exec_max c { emitOpt s l " ..." with depth := (emitOpt s l " ...").depth + 1 }
    unfold exec
    dsimp only
    split
    · rename_i s1 heq; rw [heq] at e2; simp at e2
    · rename_i s1 heq
      rw [heq] at e1 e2 e3
      simp at e1 e2 e3
      rw [hs1] at e1
      have hd : s.depth ≤ s.maxDepth := by omega
      cases l with
      | none => simp [emitOpt, lines, e1]
      | some x => simp [emitOpt, lines, emit, e1, hd, e2, e3]

/-- **C09** An inactive printer prints nothing, whatever the program (as long as it does not activate it). -/
theorem C09_inactive (c : Cmd) (ht : NoToggle c) (s : St) (ha : s.active = false) :
    (exec c s).1.out = s.out ∧ (exec c s).1.active = false := by
  have hem : ∀ (s : St) t n, s.active = false → (emit s t n).out = s.out := by
    intro s t n h; simp [emit, h]
  have hemo : ∀ (s : St) l t, s.active = false → (emitOpt s l t).out = s.out := by
    intro s l t h; unfold emitOpt; split
    · rfl
    · exact hem _ _ _ h
  induction c generalizing s with
  | skip => simp [exec, ha]
  | print t n => simp [exec, hem, ha]
  | setActive b => exact absurd ht id
  | raise => simp [exec, ha]
  | tryExcept c ih => simpa [exec] using ih ht s ha
  | seq a b iha ihb =>
    have e1 := iha ht.1 s ha
    unfold exec
    split
    · rename_i s1 heq; rw [heq] at e1; exact e1
    · rename_i s1 heq; rw [heq] at e1
      have := ihb ht.2 s1 e1.2; rw [this.1, this.2, e1.1]; simp
  | ctx l k c ih =>
    have e1 := ih ht { emitOpt s l " ..." with depth := (emitOpt s l " ...").depth + 1 } (by simpa using ha)
    have e0 := hemo s l " ..." ha
    unfold exec
    dsimp only
    split
    · rename_i s1 heq; rw [heq] at e1; rw [e1.1, e1.2]; exact ⟨e0, rfl⟩
    · rename_i s1 heq; rw [heq] at e1
      simp only at e1
      rw [e0] at e1
      refine ⟨?_, by simp [e1.2]⟩
      rw [recordTime_out, hemo _ _ _ (by exact e1.2)]
      exact e1.1

/-- **C09** Without exceptions each keyed context records exactly one time under its key. -/
theorem C09_times (c : Cmd) (h : NoRaise c) (s : St) (k : String) :
    (exec c s).1.times k = s.times k + keyCount k c := by
  induction c generalizing s with
  | skip => simp [exec, keyCount]
  | print t n => simp [exec, keyCount]
  | setActive b => simp [exec, keyCount]
  | raise => exact absurd h id
  | tryExcept c ih => simpa [exec, keyCount] using ih h s
  | seq a b iha ihb =>
    have e1 := iha h.1 s
    have e2 := C09_balanced a h.1 s
    unfold exec
    split
    · rename_i s1 heq; rw [heq] at e2; simp at e2
    · rename_i s1 heq; rw [heq] at e1
      rw [ihb h.2, e1]; simp [keyCount]; omega
  | ctx l key c ih =>
    have e1 := ih h { emitOpt s l " ..." with depth := (emitOpt s l " ...").depth + 1 }
    have e2 := C09_balanced c h { emitOpt s l " ..." with depth := (emitOpt s l " ...").depth + 1 }
    unfold exec
    dsimp only
    split
    · rename_i s1 heq; rw [heq] at e2; simp at e2
    · rename_i s1 heq; rw [heq] at e1
      simp at e1
      cases key with
      | none => simp [recordTime, e1, keyCount]
      | some k' =>
        by_cases hk : k = k'
        · subst hk; simp [recordTime, e1, keyCount]; omega
        · have : ¬ k' = k := fun h => hk h.symm
          simp [recordTime, e1, keyCount, hk, this]

/-- **C09 (violation of balance)** An exception inside a context that the caller swallows leaves every
later print indented one unit too far, for ever. -/
theorem C09_exception_leaks_depth (l : String) (k : Option String) (s : St) :
    (exec (.tryExcept (.ctx (some l) k .raise)) s).2 = false ∧
    (exec (.tryExcept (.ctx (some l) k .raise)) s).1.depth = s.depth + 1 := by
  have h := C09_depth (.tryExcept (.ctx (some l) k .raise)) s
  simpa [escapeDepth, escapeDepth.caught] using h

/-- A program with nested labelled contexts. -/
def demo : Cmd :=
  .seq (.ctx (some "Training") (some "training") (.ctx (some "Solve") none (.print "it" false)))
    (.print "end" false)

/-- Non-vacuity: nested labelled contexts with an active printer at the initial depth. -/
example : NoRaise demo ∧ NoToggle demo ∧ lines 1 demo = [(1, "Training ..."), (2, "Solve ..."), (3, "it"),
      (2, "Solve - done."), (1, "Training - done."), (1, "end")] ∧
    (exec demo { St.init with active := true }).1.out = lines 1 demo := by
  refine ⟨by simp [demo, NoRaise], by simp [demo, NoToggle], by decide, by decide⟩

end SMT.Printer
