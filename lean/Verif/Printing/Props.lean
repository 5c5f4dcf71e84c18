import Verif.Printing.Model

set_option linter.unusedSectionVars false
set_option linter.unusedSimpArgs false
set_option linter.unusedVariables false

/-!
# C95: what a surrogate prints, over histories of calls
-/
namespace SMT.Printing

variable (C : Clock) (num : ℕ → String)

/-- Specification: how many timed contexts are open when the program raises (`none`: it does not raise). -/
def fails : Prog → Option ℕ
  | .done => none
  | .raise => some 0
  | .say _ r => fails r
  | .timed _ _ b r => match fails b with
    | some k => some (k + 1)
    | none => fails r
  | .active _ b r => match fails b with
    | some k => some k
    | none => fails r
  | .setMax _ r => fails r

/-! ## Lemmas about the printer -/

lemma say_inactive {p : Pr} (h : p.active = false) (s : String) (b : Bool) : say s b p = p := by unfold say; rw [if_neg (by simp [h])]

lemma say_deep {p : Pr} (h : p.maxDepth < p.depth) (s : String) (b : Bool) : say s b p = p := by unfold say; rw [if_neg (by omega)]

@[simp] lemma say_active (s : String) (b : Bool) (p : Pr) : (say s b p).active = p.active := by unfold say; split_ifs <;> rfl
@[simp] lemma say_depth (s : String) (b : Bool) (p : Pr) : (say s b p).depth = p.depth := by unfold say; split_ifs <;> rfl
@[simp] lemma say_max (s : String) (b : Bool) (p : Pr) : (say s b p).maxDepth = p.maxDepth := by unfold say; split_ifs <;> rfl
@[simp] lemma say_times (s : String) (b : Bool) (p : Pr) : (say s b p).times = p.times := by unfold say; split_ifs <;> rfl
@[simp] lemma say_tick (s : String) (b : Bool) (p : Pr) : (say s b p).tick = p.tick := by unfold say; split_ifs <;> rfl
lemma say_out (s : String) (b : Bool) (p : Pr) : ∃ l, (say s b p).out = p.out ++ l := by
  unfold say
  by_cases h : p.active = true ∧ (p.depth : ℤ) ≤ p.maxDepth
  · rw [if_pos h]; exact ⟨_, rfl⟩
  · rw [if_neg h]; exact ⟨[], by simp⟩

@[simp] lemma openT_active (s : Option String) (p : Pr) : (openT s p).active = p.active := by cases s <;> simp [openT]
@[simp] lemma openT_depth (s : Option String) (p : Pr) : (openT s p).depth = p.depth + 1 := by cases s <;> simp [openT]
@[simp] lemma openT_max (s : Option String) (p : Pr) : (openT s p).maxDepth = p.maxDepth := by cases s <;> simp [openT]
@[simp] lemma openT_times (s : Option String) (p : Pr) : (openT s p).times = p.times := by cases s <;> simp [openT]
@[simp] lemma closeT_active (s k : Option String) (n : ℕ) (p : Pr) : (closeT C s k n p).active = p.active := by cases s <;> cases k <;> simp [closeT]
@[simp] lemma closeT_depth (s k : Option String) (n : ℕ) (p : Pr) : (closeT C s k n p).depth = p.depth - 1 := by cases s <;> cases k <;> simp [closeT]
@[simp] lemma closeT_max (s k : Option String) (n : ℕ) (p : Pr) : (closeT C s k n p).maxDepth = p.maxDepth := by cases s <;> cases k <;> simp [closeT]

lemma openT_inactive {p : Pr} (h : p.active = false) (s : Option String) : (openT s p).out = p.out := by
  cases s <;> simp [openT, say_inactive h]

lemma openT_deep {p : Pr} (h : p.maxDepth < p.depth) (s : Option String) : (openT s p).out = p.out := by
  cases s <;> simp [openT, say_deep h]

lemma closeT_inactive {p : Pr} (h : p.active = false) (s k : Option String) (n : ℕ) : (closeT C s k n p).out = p.out := by
  have h' : ({ p with depth := p.depth - 1, tick := p.tick + 1 } : Pr).active = false := h
  cases s <;> cases k <;> simp [closeT, say_inactive h']

lemma closeT_deep {p : Pr} (h : p.maxDepth < (p.depth : ℤ) - 1) (s k : Option String) (n : ℕ) : (closeT C s k n p).out = p.out := by
  have h' : ({ p with depth := p.depth - 1, tick := p.tick + 1 } : Pr).maxDepth < (({ p with depth := p.depth - 1, tick := p.tick + 1 } : Pr).depth : ℤ) := by
    show p.maxDepth < ((p.depth - 1 : ℕ) : ℤ); omega
  cases s <;> cases k <;> simp [closeT, say_deep h']

/-! ## Programs -/

lemma run_silent (g : Prog) (p : Pr) (h : p.active = false) : (run C g p).1.out = p.out ∧ (run C g p).1.active = false := by
  induction g generalizing p with
  | done => exact ⟨rfl, h⟩
  | raise => exact ⟨rfl, h⟩
  | say s r ih => unfold run; rw [say_inactive h]; exact ih p h
  | timed s k b r ihb ihr =>
    unfold run
    have hb := ihb (openT s p) (by simpa using h)
    rcases hr : run C b (openT s p) with ⟨p1, e⟩
    rw [hr] at hb
    cases e with
    | true => exact ⟨hb.1.trans (openT_inactive h s), hb.2⟩
    | false =>
      have := ihr (closeT C s k ((openT s p).tick - 1) p1) (by simpa using hb.2)
      exact ⟨this.1.trans ((closeT_inactive C hb.2 _ _ _).trans (hb.1.trans (openT_inactive h s))), this.2⟩
  | active a b r ihb ihr =>
    unfold run
    have hb := ihb { p with active := p.active && a } (by simp [h])
    rcases hr : run C b { p with active := p.active && a } with ⟨p1, e⟩
    rw [hr] at hb
    cases e with
    | true => exact ⟨hb.1, hb.2⟩
    | false =>
      have := ihr { p1 with active := p.active } h
      exact ⟨this.1.trans hb.1, this.2⟩
  | setMax m r ih => unfold run; exact ih _ h

/-- Whether a program raises does not depend on the printer; contexts that end restore depth and flag, and each timed context left by an exception leaves the depth one higher. -/
lemma run_depth (g : Prog) (p : Pr) : (run C g p).2 = (fails g).isSome ∧ (run C g p).1.depth = p.depth + (fails g).getD 0 ∧ (fails g = none → (run C g p).1.active = p.active) := by
  induction g generalizing p with
  | done => exact ⟨rfl, rfl, fun _ => rfl⟩
  | raise => exact ⟨rfl, rfl, fun h => by simp [fails] at h⟩
  | say s r ih =>
    unfold run fails
    obtain ⟨a, b, c⟩ := ih (say s false p)
    exact ⟨a, by simpa using b, fun h => by simpa using c h⟩
  | timed s k b r ihb ihr =>
    unfold run fails
    obtain ⟨a1, a2, a3⟩ := ihb (openT s p)
    rcases hr : run C b (openT s p) with ⟨p1, e⟩
    rw [hr] at a1 a2 a3
    dsimp only at a1 a2 a3
    cases hf : fails b with
    | some j =>
      rw [hf] at a1 a2
      simp only [Option.isSome_some] at a1
      subst a1
      refine ⟨rfl, ?_, by simp⟩
      simp only [Option.getD_some, openT_depth] at a2 ⊢
      omega
    | none =>
      rw [hf] at a1 a2
      simp only [Option.isSome_none] at a1
      subst a1
      dsimp only
      obtain ⟨b1, b2, b3⟩ := ihr (closeT C s k ((openT s p).tick - 1) p1)
      refine ⟨b1, ?_, fun h => ?_⟩
      · rw [b2]; simp only [Option.getD_none, openT_depth, closeT_depth] at a2 ⊢; omega
      · rw [b3 h, closeT_active, a3 hf, openT_active]
  | active a b r ihb ihr =>
    unfold run fails
    obtain ⟨a1, a2, a3⟩ := ihb { p with active := p.active && a }
    rcases hr : run C b { p with active := p.active && a } with ⟨p1, e⟩
    rw [hr] at a1 a2 a3
    dsimp only at a1 a2 a3
    cases hf : fails b with
    | some j =>
      rw [hf] at a1 a2
      simp only [Option.isSome_some] at a1
      subst a1
      exact ⟨rfl, a2, by simp⟩
    | none =>
      rw [hf] at a1 a2
      simp only [Option.isSome_none] at a1
      subst a1
      dsimp only
      obtain ⟨b1, b2, b3⟩ := ihr { p1 with active := p.active }
      refine ⟨b1, ?_, fun h => b3 h⟩
      rw [b2]; simp only [Option.getD_none] at a2; show p1.depth + _ = _; omega
  | setMax m r ih => unfold run fails; exact ih _

/-- Specification: the code never sets `max_print_depth` to `d` or more. -/
def MaxBelow (d : ℕ) : Prog → Prop
  | .done => True
  | .raise => True
  | .say _ r => MaxBelow d r
  | .timed _ _ b r => MaxBelow d b ∧ MaxBelow d r
  | .active _ b r => MaxBelow d b ∧ MaxBelow d r
  | .setMax m r => m < d ∧ MaxBelow d r

lemma run_deep (d : ℕ) (g : Prog) (p : Pr) (hg : MaxBelow d g) (hd : d ≤ p.depth) (h : p.maxDepth < d) :
    (run C g p).1.out = p.out ∧ (run C g p).1.maxDepth < d := by
  induction g generalizing p with
  | done => exact ⟨rfl, h⟩
  | raise => exact ⟨rfl, h⟩
  | say s r ih => unfold run; rw [say_deep (by omega)]; exact ih p hg hd h
  | timed s k b r ihb ihr =>
    unfold run
    have hb := ihb (openT s p) hg.1 (by simp; omega) (by simpa using h)
    have hdp := run_depth C b (openT s p)
    rcases hr : run C b (openT s p) with ⟨p1, e⟩
    rw [hr] at hb hdp
    dsimp only at hb hdp
    have ho : (openT s p).out = p.out := openT_deep (by omega) s
    cases e with
    | true => exact ⟨hb.1.trans ho, hb.2⟩
    | false =>
      have hd1 : d ≤ p1.depth - 1 := by rw [hdp.2.1]; simp; omega
      have := ihr (closeT C s k ((openT s p).tick - 1) p1) hg.2 (by simpa using hd1) (by simpa using hb.2)
      refine ⟨this.1.trans ((closeT_deep C (by rw [hdp.2.1, openT_depth]; push_cast; omega) _ _ _).trans (hb.1.trans ho)), this.2⟩
  | active a b r ihb ihr =>
    unfold run
    have hb := ihb { p with active := p.active && a } hg.1 hd h
    have hdp := run_depth C b { p with active := p.active && a }
    rcases hr : run C b { p with active := p.active && a } with ⟨p1, e⟩
    rw [hr] at hb hdp
    dsimp only at hb hdp
    cases e with
    | true => exact hb
    | false =>
      have := ihr { p1 with active := p.active } hg.2 (by show d ≤ p1.depth; omega) hb.2
      exact ⟨this.1.trans hb.1, this.2⟩
  | setMax m r ih => unfold run; exact ih _ hg.2 hd hg.1

/-! ## Calls -/

lemma trainHead_depth (o : Opts) (n : ℕ) (p : Pr) : (trainHead num o n p).depth = p.depth ∧ (trainHead num o n p).active = (o.global && o.training) ∧ (trainHead num o n p).maxDepth = p.maxDepth ∧
    (trainHead num o n p).times = p.times := by
  simp [trainHead, title, lineBreak, center]

lemma predictHead_depth (o : Opts) (n : ℕ) (p : Pr) : (predictHead num o n p).depth = p.depth ∧ (predictHead num o n p).active = (o.global && o.prediction) ∧
    (predictHead num o n p).maxDepth = p.maxDepth ∧ (predictHead num o n p).times = p.times := by
  simp [predictHead, title, lineBreak]

lemma trainHead_silent (o : Opts) (h : o.global = false) (n : ℕ) (p : Pr) : (trainHead num o n p).out = p.out := by
  simp [trainHead, title, lineBreak, center, say_inactive, h]

lemma predictHead_silent (o : Opts) (h : (o.global && o.prediction) = false) (n : ℕ) (p : Pr) : (predictHead num o n p).out = p.out := by
  simp [predictHead, title, lineBreak, say_inactive, h]

lemma trainHead_deep (o : Opts) (n : ℕ) (p : Pr) (h : p.maxDepth < p.depth) : (trainHead num o n p).out = p.out := by
  simp [trainHead, title, lineBreak, center, say_deep, h]

lemma predictHead_deep (o : Opts) (n : ℕ) (p : Pr) (h : p.maxDepth < p.depth) : (predictHead num o n p).out = p.out := by
  simp [predictHead, title, lineBreak, say_deep, h]

/-- **C95** `print_global=False` silences training and predictions completely, whatever the surrogate does inside, whether or not an exception is raised and whatever happened before; so does
`print_prediction=False` for predictions, and with `print_training=False` training prints only the name and the problem size. -/
theorem C95_silent (p : Pr) :
    (∀ o d b, o.global = false → (train C num o d b p).1.out = p.out) ∧
    (∀ o v n b, o.global = false ∨ o.prediction = false → (predict C num o v n b p).1.out = p.out) ∧
    (∀ o n b, o.training = false → (train C num o (some n) b p).1.out = (trainHead num o n p).out) ∧
    (∀ v, (call C num (.variances v) p).1.out = p.out) := by
  have htr : ∀ o n b, (o.global && o.training) = false → (train C num o (some n) b p).1.out = (trainHead num o n p).out := fun o n b h =>
    (run_silent C _ (trainHead num o n p) ((trainHead_depth num o n p).2.1.trans h)).1
  refine ⟨fun o d b h => ?_, fun o v n b h => ?_, fun o n b h => htr o n b (by simp [h]), fun v => rfl⟩
  · cases d with
    | none => rfl
    | some n => rw [htr o n b (by simp [h]), trainHead_silent num o h]
  · unfold predict
    have hg : (o.global && o.prediction) = false := by rcases h with h | h <;> simp [h]
    cases v with
    | false => rfl
    | true =>
      rw [if_pos rfl]
      have hs := run_silent C (.timed (some "Predicting") (some "prediction") b .done) (predictHead num o n p) ((predictHead_depth num o n p).2.1.trans hg)
      rcases hr : run C (.timed (some "Predicting") (some "prediction") b .done) (predictHead num o n p) with ⟨p1, e⟩
      rw [hr] at hs
      dsimp only at hs
      cases e with
      | true => exact hs.1.trans (predictHead_silent num o hg n p)
      | false =>
        dsimp only
        split
        · exact hs.1.trans (predictHead_silent num o hg n p)
        · rw [say_inactive hs.2, say_inactive hs.2, say_inactive hs.2]
          exact hs.1.trans (predictHead_silent num o hg n p)

/-- **C95** The option `print_solver` changes nothing. -/
theorem C95_print_solver_ignored (o : Opts) (b : Bool) (p : Pr) :
    (∀ d g, train C num { o with solver := b } d g p = train C num o d g p) ∧ ∀ v n g, predict C num { o with solver := b } v n g p = predict C num o v n g p :=
  ⟨fun _ _ => rfl, fun _ _ _ => rfl⟩

/-- Specification: timed contexts a call leaves open: none if it returns. -/
def left : Call → ℕ
  | .train _ none _ => 0
  | .train _ (some _) b => match fails b with
    | some k => k + 1
    | none => 0
  | .predict _ v _ b => if v then (match fails b with
    | some k => k + 1
    | none => 0) else 0
  | .variances _ => 0
  | .output v b => if v then (fails b).getD 0 else 0

lemma timed_depth (s k : Option String) (b : Prog) (p : Pr) : (run C (.timed s k b .done) p).1.depth = p.depth + (match fails b with | some j => j + 1 | none => 0) ∧
    (run C (.timed s k b .done) p).2 = (fails b).isSome := by
  obtain ⟨a1, a2, -⟩ := run_depth C (.timed s k b .done) p
  have e : fails (.timed s k b .done) = match fails b with | some k => some (k + 1) | none => none := rfl
  rw [a1, a2, e]
  cases fails b <;> exact ⟨rfl, rfl⟩

lemma call_depth (c : Call) (p : Pr) : (call C num c p).1.depth = p.depth + left c := by
  cases c with
  | train o d b =>
    cases d with
    | none => rfl
    | some n =>
      show (run C _ (trainHead num o n p)).1.depth = _
      rw [(timed_depth C _ _ b _).1, (trainHead_depth num o n p).1]; rfl
  | predict o v n b =>
    show (predict C num o v n b p).1.depth = _
    unfold predict
    cases v with
    | false => rfl
    | true =>
      rw [if_pos rfl, show left (.predict o true n b) = (match fails b with | some k => k + 1 | none => 0) from rfl]
      have hd := timed_depth C (some "Predicting") (some "prediction") b (predictHead num o n p)
      rcases hr : run C (.timed (some "Predicting") (some "prediction") b .done) (predictHead num o n p) with ⟨p1, e⟩
      rw [hr] at hd
      have h1 := hd.1
      rw [(predictHead_depth num o n p).1] at h1
      dsimp only at h1
      cases e with
      | true => exact h1
      | false =>
        dsimp only
        split
        · exact h1
        · simpa using h1
  | variances v => rfl
  | output v b =>
    show (if v then run C b p else (p, true)).1.depth = _
    unfold left
    cases v with
    | false => rfl
    | true => exact (run_depth C b p).2.1

/-- **C95** When a call raises: training without values or when `_train` raises; a prediction with a refused argument, when `_predict_*` raises, or for *no points at all* (the time per point is then a
division by zero, after everything has been computed). -/
theorem C95_raises (p : Pr) :
    (∀ o d b, (call C num (.train o d b) p).2 = true ↔ d = none ∨ (fails b).isSome) ∧
    (∀ o v n b, (call C num (.predict o v n b) p).2 = true ↔ v = false ∨ (fails b).isSome ∨ n = 0) ∧
    (∀ v, (call C num (.variances v) p).2 = true ↔ v = false) ∧
    (∀ v b, (call C num (.output v b) p).2 = true ↔ v = false ∨ (fails b).isSome) := by
  refine ⟨fun o d b => ?_, fun o v n b => ?_, fun v => by cases v <;> simp [call], fun v b => ?_⟩
  · cases d with
    | none => simp [call, train]
    | some n =>
      show (run C (.timed (some "Training") (some "training") b .done) (trainHead num o n p)).2 = true ↔ _
      rw [(timed_depth C _ _ b _).2]; simp
  · cases v with
    | false => simp [call, predict]
    | true =>
      have h := (timed_depth C (some "Predicting") (some "prediction") b (predictHead num o n p)).2
      show (predict C num o true n b p).2 = true ↔ _
      unfold predict
      rw [if_pos rfl]
      generalize run C (.timed (some "Predicting") (some "prediction") b .done) (predictHead num o n p) = q at h ⊢
      obtain ⟨p1, e⟩ := q
      dsimp only at h
      cases e with
      | true => simp [← h]
      | false =>
        dsimp only
        by_cases hn : n = 0 <;> simp [hn, ← h]
  · cases v with
    | false => simp [call]
    | true =>
      show (run C b p).2 = true ↔ _
      rw [(run_depth C b p).1]; simp

/-- Concrete case: no points. -/
example (o : Opts) (p : Pr) : (call C num (.predict o true 0 .done) p).2 = true ∧ (call C num (.predict o true 3 .done) p).2 = false :=
  ⟨((C95_raises C num p).2.1 o true 0 .done).2 (.inr (.inr rfl)), by
    rw [← Bool.not_eq_true, (C95_raises C num p).2.1 o true 3 .done]; simp [fails]⟩

/-- **C95** Over any history the nesting depth (and with it the indentation) is one plus the number of timed contexts left open by the calls that raised: calls that return do not change it, calls
that raise inside `_train` or `_predict_*` increase it for good. -/
theorem C95_depth (cs : List Call) : (history C num cs Pr.new).depth = 1 + (cs.map left).sum := by
  have : ∀ (cs : List Call) (p : Pr), (history C num cs p).depth = p.depth + (cs.map left).sum := by
    intro cs
    induction cs with
    | nil => intro p; rfl
    | cons c cs ih =>
      intro p
      show (history C num cs (call C num c p).1).depth = _
      rw [ih, call_depth]
      simp [add_assoc]
  exact this cs Pr.new

/-- Specification: none of the code run by the call sets `max_print_depth` to `d` or more. -/
def CallBelow (d : ℕ) : Call → Prop
  | .train _ _ b => MaxBelow d b
  | .predict _ _ _ b => MaxBelow d b
  | .variances _ => True
  | .output _ b => MaxBelow d b

lemma call_deep (d : ℕ) (c : Call) (p : Pr) (hc : CallBelow d c) (hd : d ≤ p.depth) (h : p.maxDepth < d) :
    (call C num c p).1.out = p.out ∧ (call C num c p).1.maxDepth < d := by
  cases c with
  | train o n b =>
    cases n with
    | none => exact ⟨rfl, h⟩
    | some n =>
      have h1 := trainHead_depth num o n p
      have := run_deep C d (.timed (some "Training") (some "training") b .done) (trainHead num o n p) ⟨hc, trivial⟩ (by rw [h1.1]; exact hd) (by rw [h1.2.2.1]; exact h)
      exact ⟨this.1.trans (trainHead_deep num o n p (by omega)), this.2⟩
  | predict o v n b =>
    show (predict C num o v n b p).1.out = _ ∧ (predict C num o v n b p).1.maxDepth < d
    unfold predict
    cases v with
    | false => exact ⟨rfl, h⟩
    | true =>
      rw [if_pos rfl]
      have h1 := predictHead_depth num o n p
      have hr' := run_deep C d (.timed (some "Predicting") (some "prediction") b .done) (predictHead num o n p) ⟨hc, trivial⟩ (by rw [h1.1]; exact hd) (by rw [h1.2.2.1]; exact h)
      have hdp := timed_depth C (some "Predicting") (some "prediction") b (predictHead num o n p)
      rcases hr : run C (.timed (some "Predicting") (some "prediction") b .done) (predictHead num o n p) with ⟨p1, e⟩
      rw [hr] at hr' hdp
      dsimp only at hr' hdp
      have ho := hr'.1.trans (predictHead_deep num o n p (by omega))
      cases e with
      | true => exact ⟨ho, hr'.2⟩
      | false =>
        dsimp only
        split
        · exact ⟨ho, hr'.2⟩
        · have hdeep : p1.maxDepth < (p1.depth : ℤ) := by rw [hdp.1, h1.1]; push_cast; have := hr'.2; omega
          rw [say_deep hdeep, say_deep hdeep, say_deep hdeep]
          exact ⟨ho, hr'.2⟩
  | variances v => exact ⟨rfl, h⟩
  | output v b =>
    show (if v then run C b p else (p, true)).1.out = _ ∧ (if v then run C b p else (p, true)).1.maxDepth < d
    cases v with
    | false => exact ⟨rfl, h⟩
    | true => exact run_deep C d b p hc hd h

/-- **C95** Once the depth exceeds `max_print_depth` (and no later code raises that limit to the depth), the object never prints again, whatever the options. -/
theorem C95_gone_silent (d : ℕ) (cs cs' : List Call) (hd : d ≤ 1 + (cs.map left).sum) (hm : (history C num cs Pr.new).maxDepth < d) (hc : ∀ c ∈ cs', CallBelow d c) :
    (history C num (cs ++ cs') Pr.new).out = (history C num cs Pr.new).out := by
  have key : ∀ (cs' : List Call) (p : Pr), (∀ c ∈ cs', CallBelow d c) → d ≤ p.depth → p.maxDepth < d → (history C num cs' p).out = p.out := by
    intro cs'
    induction cs' with
    | nil => intro p _ _ _; rfl
    | cons c cs' ih =>
      intro p hc hd hm
      obtain ⟨h1, h2⟩ := call_deep C num d c p (hc c List.mem_cons_self) hd hm
      show (history C num cs' (call C num c p).1).out = _
      rw [ih _ (fun c' h' => hc c' (List.mem_cons_of_mem _ h')) (by rw [call_depth]; omega) h2, h1]
  have : history C num (cs ++ cs') Pr.new = history C num cs' (history C num cs Pr.new) := List.foldl_append
  rw [this]
  exact key cs' _ hc (by rw [C95_depth]; exact hd) hm

/-- **C95** `predict_output_derivatives` prints by the flag the previous call left: after a training that returned, it is what the options said *then*; turning `print_global` off afterwards
does not silence it. -/
theorem C95_output_derivatives_stale (o : Opts) (n : ℕ) (b g : Prog) (p : Pr) (hf : fails b = none) :
    (call C num (.output true g) (train C num o (some n) b p).1).1 = (run C g (train C num o (some n) b p).1).1 ∧
    (train C num o (some n) b p).1.active = (o.global && o.training) ∧
    ((o.global && o.training) = false → (run C g (train C num o (some n) b p).1).1.out = (train C num o (some n) b p).1.out) ∧
    ((o.global && o.training) = true → ∀ s r, g = .say s r → ((train C num o (some n) b p).1.depth : ℤ) ≤ (train C num o (some n) b p).1.maxDepth →
      ∃ l, (run C g (train C num o (some n) b p).1).1.out = (train C num o (some n) b p).1.out ++ (spaces (3 * p.depth) ++ s) :: l) := by
  have hact : (train C num o (some n) b p).1.active = (o.global && o.training) := by
    show (run C (.timed (some "Training") (some "training") b .done) (trainHead num o n p)).1.active = _
    rw [(run_depth C _ _).2.2 (by simp [fails, hf]), (trainHead_depth num o n p).2.1]
  have hdep : (train C num o (some n) b p).1.depth = p.depth := by
    have := call_depth C num (.train o (some n) b) p
    simp only [left, hf, Nat.add_zero] at this
    exact this
  refine ⟨rfl, hact, fun h => (run_silent C g _ (hact.trans h)).1, fun h s r hg hd => ?_⟩
  subst hg
  have mono : ∀ (g : Prog) (p : Pr), ∃ l, (run C g p).1.out = p.out ++ l := by
    intro g
    induction g with
    | done => intro p; exact ⟨[], by simp [run]⟩
    | raise => intro p; exact ⟨[], by simp [run]⟩
    | say s r ih =>
      intro p
      unfold run
      obtain ⟨l, hl⟩ := ih (say s false p)
      obtain ⟨l', hl'⟩ := say_out s false p
      exact ⟨l' ++ l, by rw [hl, hl', List.append_assoc]⟩
    | timed s k b r ihb ihr =>
      intro p
      unfold run
      have ho : ∃ l, (openT s p).out = p.out ++ l := by
        cases s with
        | none => exact ⟨[], by simp [openT]⟩
        | some s => exact say_out (s ++ " ...") false p
      obtain ⟨l1, h1⟩ := ho
      obtain ⟨l2, h2⟩ := ihb (openT s p)
      rcases hr : run C b (openT s p) with ⟨p1, e⟩
      rw [hr] at h2
      dsimp only at h2
      cases e with
      | true => exact ⟨l1 ++ l2, by rw [h2, h1, List.append_assoc]⟩
      | false =>
        dsimp only
        obtain ⟨l3, h3⟩ := ihr (closeT C s k ((openT s p).tick - 1) p1)
        have hc : ∃ l, (closeT C s k ((openT s p).tick - 1) p1).out = p1.out ++ l := by
          cases s with
          | none => cases k <;> exact ⟨[], by simp [closeT]⟩
          | some s => cases k <;> exact say_out _ _ _
        obtain ⟨l4, h4⟩ := hc
        exact ⟨l1 ++ l2 ++ l4 ++ l3, by rw [h3, h4, h2, h1]; simp [List.append_assoc]⟩
    | active a b r ihb ihr =>
      intro p
      unfold run
      obtain ⟨l2, h2⟩ := ihb { p with active := p.active && a }
      rcases hr : run C b { p with active := p.active && a } with ⟨p1, e⟩
      rw [hr] at h2
      dsimp only at h2
      cases e with
      | true => exact ⟨l2, h2⟩
      | false =>
        dsimp only
        obtain ⟨l3, h3⟩ := ihr { p1 with active := p.active }
        exact ⟨l2 ++ l3, by rw [h3]; show p1.out ++ l3 = _; rw [h2, List.append_assoc]⟩
    | setMax m r ih => intro p; unfold run; exact ih _
  unfold run
  obtain ⟨l, hl⟩ := mono r (say s false (train C num o (some n) b p).1)
  refine ⟨l, ?_⟩
  rw [hl]
  unfold say
  rw [if_pos ⟨hact.trans h, hd⟩]
  simp [hdep]

end SMT.Printing
