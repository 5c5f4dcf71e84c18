import Mathlib.Data.List.Induction
import Verif.Printing.Props

set_option linter.unusedSectionVars false
set_option linter.unusedSimpArgs false
set_option linter.unusedVariables false

/-!
# C95: the lines that are printed, recorded times
-/
namespace SMT.Printing

variable (C : Clock) (num : ℕ → String)

/-- Specification: an indented line. -/
def ind (d : ℕ) (s : String) : String := spaces (3 * d) ++ s

/-- Specification: a title block. -/
def titleLines (d : ℕ) (s : String) : List String := [rule 75, ind d "", " " ++ s, ind d ""]

lemma say_on {p : Pr} (ha : p.active = true) (hd : (p.depth : ℤ) ≤ p.maxDepth) (s : String) : (say s false p).out = p.out ++ [ind p.depth s] := by
  unfold say; rw [if_pos ⟨ha, hd⟩]; rfl

lemma say_on' {p : Pr} (ha : p.active = true) (hd : (p.depth : ℤ) ≤ p.maxDepth) (s : String) : (say s true p).out = p.out ++ [s] := by
  unfold say; rw [if_pos ⟨ha, hd⟩]; rfl

lemma title_out (p : Pr) (hd : (p.depth : ℤ) ≤ p.maxDepth) (s : String) : (title s p).out = p.out ++ if p.active then titleLines p.depth s else [] := by
  cases ha : p.active with
  | false => simp [title, lineBreak, say_inactive ha]
  | true =>
    unfold title lineBreak
    rw [say_on (by simpa using ha) (by simpa using hd), say_on' (by simpa using ha) (by simpa using hd), say_on (by simpa using ha) (by simpa using hd), say_on' ha hd]
    simp [titleLines]

/-- **C95** The lines printed before a training starts, for every combination of the options, when the depth does not exceed `max_print_depth`. -/
theorem C95_train_header (o : Opts) (n : ℕ) (p : Pr) (hd : (p.depth : ℤ) ≤ p.maxDepth) :
    (trainHead num o n p).out = p.out ++
      (if o.global then [rule 75, ind p.depth "", spaces ((75 - o.name.length) / 2) ++ o.name] else []) ++
      (if o.global ∧ o.problem then titleLines p.depth "Problem size" ++ [ind p.depth ("   # training points.        : " ++ num n), ind p.depth ""] else []) ++
      (if o.global ∧ o.training then titleLines p.depth (if o.name = "MixExp" then "Training of the Mixture of experts" else "Training") else []) := by
  unfold trainHead
  rw [title_out _ (by simpa [title, lineBreak, center] using hd)]
  cases hg : o.global with
  | false => simp [title, lineBreak, center, say_inactive]
  | true =>
    have h1 : (center o.name (lineBreak { p with active := true })).out = p.out ++ [rule 75, ind p.depth "", spaces ((75 - o.name.length) / 2) ++ o.name] := by
      unfold center lineBreak
      rw [say_on' (by simp) (by simpa using hd), say_on (by simp) (by simpa using hd), say_on' (by simp) (by simpa using hd)]
      simp
    cases hp : o.problem with
    | false =>
      have h3 : (say "" false (say ("   # training points.        : " ++ num n) false (title "Problem size" { center o.name (lineBreak { p with active := true }) with active := false }))).out =
          (center o.name (lineBreak { p with active := true })).out := by simp [title, lineBreak, say_inactive]
      simp only [Bool.true_and]
      rw [show ∀ (q : Pr) (b : Bool), ({ q with active := b } : Pr).out = q.out from fun _ _ => rfl, h3, h1]
      cases ht : o.training <;> simp [title, lineBreak, center]
    | true =>
      have h2 : ∀ q : Pr, q.active = true → q.depth = p.depth → q.maxDepth = p.maxDepth →
          (say "" false (say ("   # training points.        : " ++ num n) false (title "Problem size" q))).out =
          q.out ++ titleLines p.depth "Problem size" ++ [ind p.depth ("   # training points.        : " ++ num n), ind p.depth ""] := by
        intro q ha hqd hqm
        have hd' : (q.depth : ℤ) ≤ q.maxDepth := by rw [hqd, hqm]; exact hd
        rw [say_on (by simpa [title, lineBreak] using ha) (by simpa [title, lineBreak] using hd'), say_on (by simpa [title, lineBreak] using ha) (by simpa [title, lineBreak] using hd'),
          title_out _ hd', ha]
        simp [title, lineBreak, hqd]
      simp only [Bool.and_self, Bool.true_and]
      rw [show ∀ (q : Pr) (b : Bool), ({ q with active := b } : Pr).out = q.out from fun _ _ => rfl, h2 _ rfl (by simp [center, lineBreak]) (by simp [center, lineBreak])]
      rw [show ∀ (q : Pr) (b : Bool), ({ q with active := b } : Pr).out = q.out from fun _ _ => rfl, h1]
      cases ht : o.training <;> simp [title, lineBreak, center]

lemma openT_on {q : Pr} (ha : q.active = true) (hd : (q.depth : ℤ) ≤ q.maxDepth) (s : String) : (openT (some s) q).out = q.out ++ [ind q.depth (s ++ " ...")] := by
  show (say (s ++ " ...") false q).out = _
  exact say_on ha hd _

/-- Times after a context that ended. -/
def logged (key : Option String) (t : ℕ) (f : String → List ℕ) : String → List ℕ := fun j => if key = some j then f j ++ [t] else f j

lemma timed_on {q p1 : Pr} (s : String) (key : Option String) (b r : Prog) (ha : q.active = true) (hd : (q.depth : ℤ) ≤ q.maxDepth)
    (hr : run C b (openT (some s) q) = (p1, false)) (hm : p1.maxDepth = q.maxDepth) :
    ∃ q2 t, run C (.timed (some s) key b r) q = run C r q2 ∧ q2.out = p1.out ++ [ind q.depth (s ++ " - done. Time (sec): " ++ C.fmt t)] ∧ q2.depth = q.depth ∧ q2.active = true ∧
      q2.maxDepth = q.maxDepth ∧ q2.times = logged key t p1.times := by
  have hdp := run_depth C b (openT (some s) q)
  rw [hr] at hdp
  dsimp only at hdp
  have hf : fails b = none := by
    have := hdp.1
    cases h : fails b with
    | none => rfl
    | some j => rw [h] at this; simp at this
  have hp1d : p1.depth = q.depth + 1 := by rw [hdp.2.1, hf]; simp
  have hp1a : p1.active = true := by rw [hdp.2.2 hf]; simpa using ha
  refine ⟨closeT C (some s) key ((openT (some s) q).tick - 1) p1, C.read p1.tick - C.read ((openT (some s) q).tick - 1), ?_, ?_, ?_, ?_, ?_, ?_⟩
  · rw [run.eq_def]
    simp only [hr]
  · have : (say (s ++ " - done. Time (sec): " ++ C.fmt (C.read p1.tick - C.read ((openT (some s) q).tick - 1))) false { p1 with depth := p1.depth - 1, tick := p1.tick + 1 }).out =
        p1.out ++ [ind q.depth (s ++ " - done. Time (sec): " ++ C.fmt (C.read p1.tick - C.read ((openT (some s) q).tick - 1)))] := by
      rw [say_on (p := { p1 with depth := p1.depth - 1, tick := p1.tick + 1 }) hp1a (by show ((p1.depth - 1 : ℕ) : ℤ) ≤ p1.maxDepth; rw [hp1d, hm]; simpa using hd)]
      show p1.out ++ [ind (p1.depth - 1) _] = _
      rw [hp1d]; rfl
    cases key <;> exact this
  · rw [closeT_depth, hp1d]; rfl
  · rw [closeT_active, hp1a]
  · rw [closeT_max, hm]
  · cases key with
    | none => funext j; simp [closeT, logged]
    | some k =>
      funext j
      simp only [closeT, logged, say_times, Option.some.injEq]
      by_cases h : j = k
      · subst h; simp
      · rw [if_neg h, if_neg (fun e => h e.symm)]

/-- **C95** The lines of a prediction that returns, when the code inside prints nothing (no surrogate of the library uses its printer there). -/
theorem C95_prediction_lines (o : Opts) (n : ℕ) (hn : n ≠ 0) (p : Pr) (hd : (p.depth : ℤ) ≤ p.maxDepth) (hg : o.global = true) (hp : o.prediction = true) :
    ∃ t, (predict C num o true n .done p).2 = false ∧ (predict C num o true n .done p).1.out = p.out ++
      titleLines p.depth (if o.name = "MixExp" then "Evaluation of the Mixture of experts" else "Evaluation") ++
      [ind p.depth ("   # eval points. : " ++ num n), ind p.depth "", ind p.depth "Predicting ...", ind p.depth ("Predicting - done. Time (sec): " ++ C.fmt t),
       ind p.depth "", ind p.depth ("Prediction time/pt. (sec) : " ++ C.perPoint t n), ind p.depth ""] := by
  obtain ⟨q1, q2, q3, q4⟩ := predictHead_depth num o n p
  have hq : (predictHead num o n p).out = p.out ++ titleLines p.depth (if o.name = "MixExp" then "Evaluation of the Mixture of experts" else "Evaluation") ++
      [ind p.depth ("   # eval points. : " ++ num n), ind p.depth ""] := by
    unfold predictHead
    rw [say_on (by simp [title, lineBreak, hg, hp]) (by simpa [title, lineBreak] using hd), say_on (by simp [title, lineBreak, hg, hp]) (by simpa [title, lineBreak] using hd),
      title_out _ (by simpa using hd)]
    simp [hg, hp, title, lineBreak]
  generalize hqq : predictHead num o n p = q at q1 q2 q3 q4 hq ⊢
  have qa : q.active = true := by rw [q2, hg, hp]; rfl
  have qd : (q.depth : ℤ) ≤ q.maxDepth := by rw [q1, q3]; exact hd
  obtain ⟨q2, t, h1, h2, h3, h4, h5, h6⟩ := timed_on C "Predicting" (some "prediction") .done .done qa qd (p1 := openT (some "Predicting") q) rfl (by simp)
  have hr : run C (.timed (some "Predicting") (some "prediction") .done .done) q = (q2, false) := h1.trans rfl
  have ht : ((q2.times "prediction").getLast?).getD 0 = t := by rw [h6]; simp [logged]
  rw [openT_on qa qd, hq, q1] at h2
  have d2 : (q2.depth : ℤ) ≤ q2.maxDepth := by rw [h3, h5]; exact qd
  refine ⟨t, ?_⟩
  unfold predict
  rw [if_pos rfl]
  simp only [hqq, hr, hn, if_false, ht]
  refine ⟨trivial, ?_⟩
  rw [say_on (by simpa using h4) (by simpa using d2), say_on (by simpa using h4) (by simpa using d2), say_on h4 d2, h2]
  simp [h3, q1]

/-! ## RBF -/

/-- Specification: lines for one right-hand side. -/
def colLines (d dof : ℕ) (t : ℕ → ℕ) (i : ℕ) : List String :=
  [ind (d + 1) ("Solving linear system (col. " ++ num i ++ ")" ++ " ..."),
   ind (d + 2) ("Back solving (" ++ num dof ++ " x " ++ num dof ++ " mtx)" ++ " ..."),
   ind (d + 2) ("Back solving (" ++ num dof ++ " x " ++ num dof ++ " mtx)" ++ " - done. Time (sec): " ++ C.fmt (t (2 * i))),
   ind (d + 1) ("Solving linear system (col. " ++ num i ++ ")" ++ " - done. Time (sec): " ++ C.fmt (t (2 * i + 1)))]

lemma active_run (b r : Prog) (q : Pr) (ha : q.active = true) (p1 : Pr) (h : run C b q = (p1, false)) : run C (.active true b r) q = run C r { p1 with active := true } := by
  rw [run.eq_def]
  have : ({ q with active := q.active && true } : Pr) = q := by cases q; simp
  dsimp only
  rw [this, h]
  dsimp only
  rw [ha]

lemma inner_on (msg : String) (q : Pr) (ha : q.active = true) (hd : (q.depth : ℤ) ≤ q.maxDepth) :
    ∃ q2 t, run C (.active true (.timed (some msg) none .done .done) .done) q = (q2, false) ∧
      q2.out = q.out ++ [ind q.depth (msg ++ " ..."), ind q.depth (msg ++ " - done. Time (sec): " ++ C.fmt t)] ∧ q2.depth = q.depth ∧ q2.active = true ∧ q2.maxDepth = q.maxDepth ∧ q2.times = q.times := by
  obtain ⟨q2, t, h1, h2, h3, h4, h5, h6⟩ := timed_on C msg none .done .done ha hd (p1 := openT (some msg) q) rfl (by simp)
  refine ⟨{ q2 with active := true }, t, ?_, ?_, h3, rfl, h5, ?_⟩
  · rw [active_run C _ _ q ha q2 (h1.trans rfl)]; rfl
  · show q2.out = _
    rw [h2, openT_on ha hd]; simp
  · show q2.times = _
    rw [h6]; funext j; simp [logged]

lemma block_on (a msg : String) (r : Prog) (q : Pr) (ha : q.active = true) (hd : (q.depth : ℤ) + 1 ≤ q.maxDepth) :
    ∃ q2 t t', run C (.timed (some a) none (.active true (.timed (some msg) none .done .done) .done) r) q = run C r q2 ∧
      q2.out = q.out ++ [ind q.depth (a ++ " ..."), ind (q.depth + 1) (msg ++ " ..."), ind (q.depth + 1) (msg ++ " - done. Time (sec): " ++ C.fmt t),
        ind q.depth (a ++ " - done. Time (sec): " ++ C.fmt t')] ∧ q2.depth = q.depth ∧ q2.active = true ∧ q2.maxDepth = q.maxDepth ∧ q2.times = q.times := by
  obtain ⟨p1, t, a1, a2, a3, a4, a5, a6⟩ := inner_on C msg (openT (some a) q) (by simpa using ha) (by simpa using hd)
  obtain ⟨q2, t', h1, h2, h3, h4, h5, h6⟩ := timed_on C a none _ r ha (by omega) a1 (by rw [a5]; simp)
  refine ⟨q2, t, t', h1, ?_, h3, h4, h5, ?_⟩
  · rw [h2, a2, openT_on ha (by omega)]; simp
  · rw [h6, ← openT_times (some a) q, ← a6]; funext j; simp [logged]

lemma cols_on (dof : ℕ) (m k : ℕ) (q : Pr) (ha : q.active = true) (d : ℕ) (hq : q.depth = d + 1) (hd : (d : ℤ) + 2 ≤ q.maxDepth) :
    ∃ q2 t, run C (rbfCols num dof (List.range' k m)) q = (q2, false) ∧ q2.out = q.out ++ (List.range' k m).flatMap (colLines C num d dof t) ∧
      q2.depth = q.depth ∧ q2.active = true ∧ q2.maxDepth = q.maxDepth := by
  induction m generalizing k q with
  | zero => exact ⟨q, fun _ => 0, rfl, by simp, rfl, ha, rfl⟩
  | succ m ih =>
    rw [List.range'_succ]
    obtain ⟨q2, t, t', h1, h2, h3, h4, h5, -⟩ := block_on C ("Solving linear system (col. " ++ num k ++ ")") ("Back solving (" ++ num dof ++ " x " ++ num dof ++ " mtx)")
      (rbfCols num dof (List.range' (k + 1) m)) q ha (by rw [hq]; push_cast; omega)
    obtain ⟨q3, u, g1, g2, g3, g4, g5⟩ := ih (k + 1) q2 h4 (by rw [h3, hq]) (by rw [h5]; exact hd)
    refine ⟨q3, fun j => if j = 2 * k then t else if j = 2 * k + 1 then t' else u j, ?_, ?_, by rw [g3, h3], g4, by rw [g5, h5]⟩
    · show run C (.timed _ none (directSolve true _ .done) (rbfCols num dof (List.range' (k + 1) m))) q = _
      unfold directSolve
      rw [h1, g1]
    · rw [g2, h2, List.flatMap_cons, List.append_assoc]
      congr 1
      congr 1
      · simp [colLines, hq]
      · refine List.flatMap_congr fun i hi => ?_
        have : k + 1 ≤ i := by simp [List.mem_range'] at hi; omega
        simp only [colLines]
        rw [if_neg (by omega), if_neg (by omega), if_neg (by omega), if_neg (by omega)]

/-- **C95** Everything `RBF.train()` prints when it succeeds: the header, then one block for the factorisation and one per output, properly nested, all inside the "Training" block. -/
theorem C95_rbf_transcript (o : Opts) (hg : o.global = true) (ht : o.training = true) (n dof ny : ℕ) (m : ℤ) (p : Pr) (hd : (p.depth : ℤ) ≤ p.maxDepth) (hm : (p.depth : ℤ) + 2 ≤ m) :
    ∃ (t : ℕ → ℕ) (t1 t2 t3 : ℕ), (train C num o (some n) (rbfProg num m dof ny false) p).2 = false ∧
    (train C num o (some n) (rbfProg num m dof ny false) p).1.out = (trainHead num o n p).out ++ [ind p.depth "Training ...",
      ind (p.depth + 1) "Initializing linear solver ...", ind (p.depth + 2) ("Performing LU fact. (" ++ num dof ++ " x " ++ num dof ++ " mtx)" ++ " ..."),
      ind (p.depth + 2) ("Performing LU fact. (" ++ num dof ++ " x " ++ num dof ++ " mtx)" ++ " - done. Time (sec): " ++ C.fmt t1),
      ind (p.depth + 1) ("Initializing linear solver - done. Time (sec): " ++ C.fmt t2)] ++
      (List.range ny).flatMap (colLines C num p.depth dof t) ++ [ind p.depth ("Training - done. Time (sec): " ++ C.fmt t3)] := by
  obtain ⟨q1, q2, q3, q4⟩ := trainHead_depth num o n p
  have qa : (trainHead num o n p).active = true := by rw [q2, hg, ht]; rfl
  have qd : ((trainHead num o n p).depth : ℤ) ≤ (trainHead num o n p).maxDepth := by rw [q1, q3]; exact hd
  generalize hq : trainHead num o n p = q at q1 q2 q3 q4 qa qd ⊢
  set p0 : Pr := { openT (some "Training") q with maxDepth := m } with hp0
  obtain ⟨r1, t1, t2, h1, h2, h3, h4, h5, -⟩ := block_on C "Initializing linear solver" ("Performing LU fact. (" ++ num dof ++ " x " ++ num dof ++ " mtx)")
    (rbfCols num dof (List.range ny)) p0 (by show (openT (some "Training") q).active = true; simpa using qa) (by show ((openT (some "Training") q).depth : ℤ) + 1 ≤ m; rw [openT_depth, q1]; push_cast; omega)
  have hp0d : p0.depth = p.depth + 1 := by show (openT (some "Training") q).depth = _; rw [openT_depth, q1]
  rw [List.range_eq_range'] at h1
  obtain ⟨r2, t, g1, g2, g3, g4, g5⟩ := cols_on C num dof ny 0 r1 h4 p.depth (by rw [h3, hp0d]) (by rw [h5]; exact hm)
  have hbody : run C (rbfProg num m dof ny false) (openT (some "Training") q) = (r2, false) := by
    show run C (.timed _ none (directSetup true _ false .done) (rbfCols num dof (List.range ny))) p0 = _
    unfold directSetup
    rw [List.range_eq_range']
    exact h1.trans g1
  have hclose : ∃ q2 t3, run C (.timed (some "Training") (some "training") (rbfProg num m dof ny false) .done) q = (q2, false) ∧
      q2.out = r2.out ++ [ind p.depth ("Training - done. Time (sec): " ++ C.fmt t3)] := by
    refine ⟨closeT C (some "Training") (some "training") ((openT (some "Training") q).tick - 1) r2, C.read r2.tick - C.read ((openT (some "Training") q).tick - 1), ?_, ?_⟩
    · rw [run.eq_def]; simp only [hbody]; rfl
    · show (say _ false { r2 with depth := r2.depth - 1, tick := r2.tick + 1 }).out = _
      rw [say_on (p := { r2 with depth := r2.depth - 1, tick := r2.tick + 1 }) g4
        (by show ((r2.depth - 1 : ℕ) : ℤ) ≤ r2.maxDepth; rw [g3, h3, hp0d, g5, h5]; show ((p.depth + 1 - 1 : ℕ) : ℤ) ≤ m; omega)]
      show r2.out ++ [ind (r2.depth - 1) _] = _
      rw [g3, h3, hp0d]; rfl
  obtain ⟨z, t3, z1, z2⟩ := hclose
  refine ⟨t, t1, t2, t3, ?_, ?_⟩
  · show (run C _ (trainHead num o n p)).2 = false
    rw [hq, z1]
  · show (run C _ (trainHead num o n p)).1.out = _
    rw [hq, z1]
    show z.out = _
    rw [z2, g2, h2, ← List.range_eq_range']
    have : p0.out = q.out ++ [ind p.depth "Training ..."] := by
      show (openT (some "Training") q).out = _
      rw [openT_on qa qd, q1]; rfl
    rw [this, hp0d]
    simp

lemma cols_fails (dof : ℕ) (l : List ℕ) : fails (rbfCols num dof l) = none := by
  induction l with
  | nil => rfl
  | cons i is ih => simp [rbfCols, fails, directSolve, ih]

lemma cols_below (d dof : ℕ) (l : List ℕ) : MaxBelow d (rbfCols num dof l) := by
  induction l with
  | nil => trivial
  | cons i is ih => exact ⟨⟨⟨trivial, trivial⟩, trivial⟩, ih⟩

/-- **C95** An RBF whose training fails `k` times in the factorisation (data with `nan`, for example) with `max_print_depth < 1 + 3 k` (twice, with the default 5) never prints anything again, however often it
is then trained and used with success. -/
theorem C95_rbf_goes_silent (m : ℤ) (k : ℕ) (hk : 0 < k) (hm : m < 1 + 3 * (k : ℤ)) (calls : List (Opts × ℕ × ℕ × ℕ × Bool)) (hc : calls.length = k) (hf : ∀ c ∈ calls, c.2.2.2.2 = true) (later : List Call)
    (hl : ∀ c ∈ later, (∃ o d dof ny f, c = .train o d (rbfProg num m dof ny f)) ∨ (∃ o v n, c = .predict o v n .done) ∨ ∃ v, c = .variances v) :
    let first := calls.map fun c => Call.train c.1 (some c.2.1) (rbfProg num m c.2.2.1 c.2.2.2.1 c.2.2.2.2)
    (history C num (first ++ later) Pr.new).out = (history C num first Pr.new).out := by
  intro first
  have hleft : (first.map left).sum = 3 * k := by
    rw [← hc]
    clear hl hc
    revert hf
    show (∀ c ∈ calls, c.2.2.2.2 = true) → ((calls.map fun c => Call.train c.1 (some c.2.1) (rbfProg num m c.2.2.1 c.2.2.2.1 c.2.2.2.2)).map left).sum = 3 * calls.length
    clear first
    induction calls with
    | nil => intro _; rfl
    | cons c cs ih =>
      intro hf
      simp only [List.map_cons, List.sum_cons, List.length_cons]
      rw [ih fun c' h' => hf c' (List.mem_cons_of_mem _ h')]
      have : left (.train c.1 (some c.2.1) (rbfProg num m c.2.2.1 c.2.2.2.1 c.2.2.2.2)) = 3 := by
        rw [hf c List.mem_cons_self]; rfl
      rw [this]; omega
  have hmax : (history C num first Pr.new).maxDepth = m := by
    have step : ∀ (o : Opts) (n dof ny : ℕ) (f : Bool) (p : Pr), (call C num (.train o (some n) (rbfProg num m dof ny f)) p).1.maxDepth = m := by
      intro o n dof ny f p
      have keep : ∀ (g : Prog), (∀ q : Pr, q.maxDepth = m → (run C g q).1.maxDepth = m) → ∀ (s key : Option String) (r : Prog), (∀ q : Pr, q.maxDepth = m → (run C r q).1.maxDepth = m) →
          ∀ q : Pr, q.maxDepth = m → (run C (.timed s key g r) q).1.maxDepth = m := by
        intro g hg s key r hr q hq
        rw [run.eq_def]
        dsimp only
        have := hg (openT s q) (by simpa using hq)
        rcases he : run C g (openT s q) with ⟨p1, e⟩
        rw [he] at this
        cases e with
        | true => exact this
        | false => exact hr _ (by simpa using this)
      have keepA : ∀ (g : Prog), (∀ q : Pr, q.maxDepth = m → (run C g q).1.maxDepth = m) → ∀ (a : Bool) (r : Prog), (∀ q : Pr, q.maxDepth = m → (run C r q).1.maxDepth = m) →
          ∀ q : Pr, q.maxDepth = m → (run C (.active a g r) q).1.maxDepth = m := by
        intro g hg a r hr q hq
        rw [run.eq_def]
        dsimp only
        have := hg { q with active := q.active && a } hq
        rcases he : run C g { q with active := q.active && a } with ⟨p1, e⟩
        rw [he] at this
        cases e with
        | true => exact this
        | false => exact hr _ this
      have kd : ∀ q : Pr, q.maxDepth = m → (run C .done q).1.maxDepth = m := fun q h => h
      have kr : ∀ q : Pr, q.maxDepth = m → (run C .raise q).1.maxDepth = m := fun q h => h
      have kc : ∀ l : List ℕ, ∀ q : Pr, q.maxDepth = m → (run C (rbfCols num dof l) q).1.maxDepth = m := by
        intro l
        induction l with
        | nil => exact kd
        | cons i is ih => exact keep _ (keepA _ (keep _ kd _ _ _ kd) _ _ kd) _ _ _ ih
      have ki : ∀ q : Pr, q.maxDepth = m → (run C (if f then Prog.raise else Prog.done) q).1.maxDepth = m := by cases f; exacts [kd, kr]
      show (run C (.timed (some "Training") (some "training") (rbfProg num m dof ny f) .done) (trainHead num o n p)).1.maxDepth = m
      rw [run.eq_def]
      dsimp only
      have hb : ∀ q, (run C (rbfProg num m dof ny f) q).1.maxDepth = m := fun q =>
        keep _ (keepA _ (keep _ ki _ _ _ kd) _ _ kd) _ _ _ (kc _) { q with maxDepth := m } rfl
      have := hb (openT (some "Training") (trainHead num o n p))
      rcases he : run C (rbfProg num m dof ny f) (openT (some "Training") (trainHead num o n p)) with ⟨p1, e⟩
      rw [he] at this
      cases e with
      | true => exact this
      | false => show (closeT C _ _ _ p1).maxDepth = m; simpa using this
    have hne : calls ≠ [] := by rintro rfl; simp at hc; omega
    obtain ⟨cs, c, rfl⟩ : ∃ cs c, calls = cs ++ [c] := ⟨calls.dropLast, calls.getLast hne, (List.dropLast_append_getLast hne).symm⟩
    show ((((cs ++ [c]).map fun c => Call.train c.1 (some c.2.1) (rbfProg num m c.2.2.1 c.2.2.2.1 c.2.2.2.2)).foldl (fun p c => (call C num c p).1) Pr.new)).maxDepth = m
    rw [List.map_append, List.foldl_append]
    exact step _ _ _ _ _ _
  refine C95_gone_silent C num (1 + 3 * k) first later (by rw [hleft]) (by rw [hmax]; push_cast; exact hm) fun c hcl => ?_
  rcases hl c hcl with ⟨o, d, dof, ny, f, rfl⟩ | ⟨o, v, n, rfl⟩ | ⟨v, rfl⟩
  · exact ⟨by push_cast; exact hm, ⟨⟨by cases f <;> trivial, trivial⟩, trivial⟩, cols_below num _ _ _⟩
  · trivial
  · trivial

/-! ## Recorded times -/

/-- Specification: the code does not use the key. -/
def NoKey (k : String) : Prog → Prop
  | .done => True
  | .raise => True
  | .say _ r => NoKey k r
  | .timed _ key b r => key ≠ some k ∧ NoKey k b ∧ NoKey k r
  | .active _ b r => NoKey k b ∧ NoKey k r
  | .setMax _ r => NoKey k r

lemma closeT_times (s key : Option String) (n : ℕ) (p : Pr) (k : String) (h : key ≠ some k) : (closeT C s key n p).times k = p.times k := by
  cases key with
  | none => cases s <;> simp [closeT]
  | some j =>
    have : k ≠ j := fun e => h (by rw [e])
    cases s <;> simp [closeT, this]

lemma closeT_times_key (s : Option String) (n : ℕ) (p : Pr) (k : String) : ((closeT C s (some k) n p).times k).length = (p.times k).length + 1 := by
  cases s <;> simp [closeT]

lemma run_times (k : String) (g : Prog) (h : NoKey k g) (p : Pr) : (run C g p).1.times k = p.times k := by
  induction g generalizing p with
  | done => rfl
  | raise => rfl
  | say s r ih => unfold run; rw [ih h]; simp
  | timed s key b r ihb ihr =>
    unfold run
    have hb := ihb h.2.1 (openT s p)
    rcases hr : run C b (openT s p) with ⟨p1, e⟩
    rw [hr] at hb
    dsimp only at hb
    cases e with
    | true => exact hb.trans (by simp)
    | false => dsimp only; rw [ihr h.2.2, closeT_times C s key _ p1 k h.1, hb]; simp
  | active a b r ihb ihr =>
    unfold run
    have hb := ihb h.1 { p with active := p.active && a }
    rcases hr : run C b { p with active := p.active && a } with ⟨p1, e⟩
    rw [hr] at hb
    dsimp only at hb
    cases e with
    | true => exact hb
    | false => dsimp only; rw [ihr h.2]; exact hb
  | setMax m r ih => unfold run; exact ih h _

/-- Specification: the code run by a call does not use the two keys of the base class. -/
def CallNoKey : Call → Prop
  | .train _ _ b => NoKey "training" b ∧ NoKey "prediction" b
  | .predict _ _ _ b => NoKey "training" b ∧ NoKey "prediction" b
  | .variances _ => True
  | .output _ b => NoKey "training" b ∧ NoKey "prediction" b

/-- Specification: the call is a training whose `_train` completes. -/
def isTrained : Call → Bool
  | .train _ (some _) b => (fails b).isNone
  | _ => false

/-- Specification: the call is a prediction whose `_predict_…` completes (also when the array has no points and the call raises afterwards). -/
def isPredicted : Call → Bool
  | .predict _ v _ b => v && (fails b).isNone
  | _ => false

lemma timed_times (s : String) (k j : String) (b : Prog) (p : Pr) (hb : NoKey k b) (hj : NoKey j b) (hkj : k ≠ j) :
    ((run C (.timed (some s) (some k) b .done) p).1.times k).length = (p.times k).length + (if (fails b).isNone then 1 else 0) ∧
    (run C (.timed (some s) (some k) b .done) p).1.times j = p.times j := by
  constructor
  · unfold run
    have h1 := run_times C k b hb (openT (some s) p)
    have h2 := (run_depth C b (openT (some s) p)).1
    rcases hr : run C b (openT (some s) p) with ⟨p1, e⟩
    rw [hr] at h1 h2
    dsimp only at h1 h2
    cases hf : fails b with
    | some i =>
      rw [hf] at h2; simp only [Option.isSome_some] at h2; subst h2
      dsimp only; rw [h1]; simp
    | none =>
      rw [hf] at h2; simp only [Option.isSome_none] at h2; subst h2
      show ((closeT C (some s) (some k) _ p1).times k).length = _
      rw [closeT_times_key, h1]; simp
  · exact run_times C j (.timed (some s) (some k) b .done) ⟨by simpa using hkj, hj, trivial⟩ p

/-- **C95** The recorded wall times: one entry "training" per training that completed and one entry "prediction" per prediction that completed, over any history. -/
theorem C95_times (cs : List Call) (h : ∀ c ∈ cs, CallNoKey c) :
    ((history C num cs Pr.new).times "training").length = cs.countP isTrained ∧ ((history C num cs Pr.new).times "prediction").length = cs.countP isPredicted := by
  have step : ∀ (c : Call) (p : Pr), CallNoKey c → ((call C num c p).1.times "training").length = (p.times "training").length + (if isTrained c then 1 else 0) ∧
      ((call C num c p).1.times "prediction").length = (p.times "prediction").length + (if isPredicted c then 1 else 0) := by
    intro c p hc
    cases c with
    | train o d b =>
      cases d with
      | none => exact ⟨rfl, rfl⟩
      | some n =>
        have := timed_times C "Training" "training" "prediction" b (trainHead num o n p) hc.1 hc.2 (by decide)
        rw [(trainHead_depth num o n p).2.2.2] at this
        exact ⟨this.1, by show (List.length _) = _; rw [show (call C num (.train o (some n) b) p).1.times "prediction" = _ from this.2]; rfl⟩
    | predict o v n b =>
      cases v with
      | false => exact ⟨rfl, rfl⟩
      | true =>
        have := timed_times C "Predicting" "prediction" "training" b (predictHead num o n p) hc.2 hc.1 (by decide)
        rw [(predictHead_depth num o n p).2.2.2] at this
        show ((predict C num o true n b p).1.times "training").length = _ ∧ ((predict C num o true n b p).1.times "prediction").length = _
        have hp : (predict C num o true n b p).1.times = (run C (.timed (some "Predicting") (some "prediction") b .done) (predictHead num o n p)).1.times := by
          unfold predict
          rw [if_pos rfl]
          rcases hr : run C (.timed (some "Predicting") (some "prediction") b .done) (predictHead num o n p) with ⟨p1, e⟩
          cases e with
          | true => rfl
          | false =>
            dsimp only
            split
            · rfl
            · simp
        rw [hp, this.2, this.1]
        exact ⟨rfl, by simp [isPredicted]⟩
    | variances v => exact ⟨rfl, rfl⟩
    | output v b =>
      cases v with
      | false => exact ⟨rfl, rfl⟩
      | true =>
        show ((run C b p).1.times "training").length = _ ∧ ((run C b p).1.times "prediction").length = _
        rw [run_times C _ b hc.1, run_times C _ b hc.2]
        exact ⟨rfl, rfl⟩
  have key : ∀ (cs : List Call) (p : Pr), (∀ c ∈ cs, CallNoKey c) → ((history C num cs p).times "training").length = (p.times "training").length + cs.countP isTrained ∧
      ((history C num cs p).times "prediction").length = (p.times "prediction").length + cs.countP isPredicted := by
    intro cs
    induction cs with
    | nil => intro p _; exact ⟨rfl, rfl⟩
    | cons c cs ih =>
      intro p h
      have h1 := step c p (h c List.mem_cons_self)
      have h2 := ih (call C num c p).1 fun c' hc' => h c' (List.mem_cons_of_mem _ hc')
      show ((history C num cs (call C num c p).1).times "training").length = _ ∧ ((history C num cs (call C num c p).1).times "prediction").length = _
      rw [h2.1, h2.2, h1.1, h1.2, List.countP_cons, List.countP_cons]
      constructor <;> omega
  have := key cs Pr.new h
  simpa [Pr.new] using this

/-! ## The solvers' callback -/

/-- **C95** The residual norms `n_0, n_1, …` a linear solver reports (with an interval of at least 1): one line for each number that is a multiple of the interval, with the norm and the *first*
norm reported; so ⌈count / interval⌉ lines. -/
theorem C95_callback {K : Type} (line : ℕ → K → K → String) (interval : ℕ) (hi : 0 < interval) (n0 : K) (norms : List K) :
    ∃ ls, callback line interval (n0 :: norms) = some ls ∧ ls.length = ((n0 :: norms).length + interval - 1) / interval ∧
      ∀ s, s ∈ ls ↔ ∃ (j : ℕ) (v : K), (n0 :: norms)[j]? = some v ∧ interval ∣ j ∧ s = line j v n0 := by
  refine ⟨_, if_neg (by omega), ?_, fun s => ?_⟩
  · have : ∀ l : List K, (l.zipIdx.filterMap fun q => if q.2 % interval = 0 then some (line q.2 q.1 ((n0 :: norms).headD q.1)) else none).length = (l.length + interval - 1) / interval := by
      intro l
      induction l using List.reverseRecOn with
      | nil => simp only [List.zipIdx_nil, List.filterMap_nil, List.length_nil]; exact (Nat.div_eq_of_lt (by omega)).symm
      | append_singleton l a ih =>
        rw [List.zipIdx_append, List.filterMap_append, List.length_append, ih, List.length_append, List.length_singleton]
        have e : l.length + 1 + interval - 1 = (l.length + interval - 1) + 1 := by omega
        rw [e, Nat.succ_div]
        congr 1
        have : interval ∣ l.length + interval - 1 + 1 ↔ l.length % interval = 0 := by
          rw [show l.length + interval - 1 + 1 = l.length + interval by omega, Nat.dvd_add_self_right]
          exact Nat.dvd_iff_mod_eq_zero
        by_cases h : l.length % interval = 0
        · simp [h, this]
        · simp [h, this]
    exact this _
  · rw [List.mem_filterMap]
    constructor
    · rintro ⟨⟨v, j⟩, hq, h⟩
      rw [List.mk_mem_zipIdx_iff_getElem?] at hq
      dsimp only at h
      split_ifs at h with hm
      exact ⟨j, v, hq, Nat.dvd_of_mod_eq_zero hm, by simpa using h.symm⟩
    · rintro ⟨j, v, hq, hd, rfl⟩
      refine ⟨(v, j), by rw [List.mk_mem_zipIdx_iff_getElem?]; exact hq, ?_⟩
      rw [if_pos (Nat.mod_eq_zero_of_dvd hd)]; rfl

/-! ## Cases -/

/-- A clock for the examples. -/
def clk : Clock := ⟨fun n => n, fun _ => "t", fun _ _ => "u"⟩

/-- An RBF with default options that failed twice is silent, before that it prints. -/
example : (history clk (fun _ => "n") [.train ⟨true, true, true, true, true, "RBF"⟩ (some 3) (rbfProg (fun _ => "n") 5 3 1 true)] Pr.new).out.length = 16 ∧
    (history clk (fun _ => "n") [.train ⟨true, true, true, true, true, "RBF"⟩ (some 3) (rbfProg (fun _ => "n") 5 3 1 true)] Pr.new).depth = 4 := by decide +kernel

/-- Options switched off after the training do not silence output derivatives. -/
example : (history clk (fun _ => "n") [.train ⟨true, true, true, false, true, "RMTB"⟩ (some 3) .done, .output true (.say "Performing LU" .done)] Pr.new).out.getLast? = some "   Performing LU" := by
  decide +kernel

end SMT.Printing
