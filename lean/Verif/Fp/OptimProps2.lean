import Verif.Fp.OptimProps

/-!
# C120: the optimiser of the neural network in floating-point arithmetic: line search, traces, NaN
-/
set_option linter.unusedSectionVars false
set_option linter.unusedSimpArgs false
set_option linter.unusedVariables false

namespace SMT.Fp.Optim
open SMT.Nn

variable {K ι : Type} [Field K] [LinearOrder K] [IsStrictOrderedRing K] (F : Format K)

/-! ### The line search -/

/-- Specification of the reductions: one half, its square, the square of that, ... in the arithmetic of the format. -/
def tau : ℕ → X K
  | 0 => .fin (1 / 2)
  | k + 1 => F.mulX (tau k) (tau k)

/-- Trial `k` is too short to continue. -/
def Short (rate : X K) (k : ℕ) : Prop := (F.mulX rate (tau F k)).lt (F.of (1 / 1000000)) = true

instance (rate : X K) (k : ℕ) : Decidable (Short F rate k) := by unfold Short; infer_instance

/-- The state after trials `s` to `s + k`. -/
def tried (upd : X K → Opt (X K) ι → Opt (X K) ι) (rate : X K) : ℕ → ℕ → Opt (X K) ι → Opt (X K) ι
  | s, 0, o => upd (F.mulX rate (tau F s)) o
  | s, k + 1, o => tried upd rate (s + 1) k (upd (F.mulX rate (tau F s)) o)

theorem start_tau : pyMax (X.fin (0 : K)) (if (X.fin (1 / 2 : K)).lt (X.fin (1 : K)) then X.fin (1 / 2 : K) else X.fin (1 : K)) = tau F 0 := by
  have h1 : (X.fin (1 / 2 : K)).lt (X.fin 1) = true := decide_eq_true (by norm_num)
  have h2 : (X.fin (0 : K)).lt (X.fin (1 / 2)) = true := decide_eq_true (by norm_num)
  rw [if_pos h1, pyMax, if_pos h2, tau]

theorem ls_start (fuel : ℕ) (f : (ι → X K) → X K) (upd : X K → Opt (X K) ι → Opt (X K) ι) (rate : X K) (o : Opt (X K) ι) :
    lineSearchX F fuel f upd rate o = lsLoopX F f upd rate fuel (tau F 0) { o with prev := o.cur } := by
  rw [← start_tau F]
  rfl

theorem tried_keeps {upd : X K → Opt (X K) ι → Opt (X K) ι} (hu : KeepsX upd) (rate : X K) : ∀ (k s : ℕ) (o : Opt (X K) ι),
    (tried F upd rate s k o).prev = o.prev ∧ (tried F upd rate s k o).dir = o.dir ∧ (tried F upd rate s k o).iter = o.iter := by
  intro k
  induction k with
  | zero => intro s o; exact ⟨(hu _ _).2.2.1, (hu _ _).2.2.2.1, (hu _ _).2.2.2.2⟩
  | succ k ih =>
    intro s o
    obtain ⟨a, b, c⟩ := ih (s + 1) (upd (F.mulX rate (tau F s)) o)
    exact ⟨a.trans (hu _ _).2.2.1, b.trans (hu _ _).2.2.2.1, c.trans (hu _ _).2.2.2.2⟩

theorem ls_spec {upd : X K → Opt (X K) ι → Opt (X K) ι} (hu : KeepsX upd) (f : (ι → X K) → X K) (rate : X K) : ∀ (fuel s : ℕ) (o o' : Opt (X K) ι),
    lsLoopX F f upd rate fuel (tau F s) o = some o' →
    ∃ k, o' = tried F upd rate s k o ∧ ((f o'.cur).lt (f o.prev) = true ∨ Short F rate (s + k)) ∧
      ∀ j < k, (f (tried F upd rate s j o).cur).lt (f o.prev) = false ∧ ¬Short F rate (s + j) := by
  intro fuel
  induction fuel with
  | zero => intro s o o' h; simp [lsLoopX] at h
  | succ n ih =>
    intro s o o' h
    rw [lsLoopX] at h
    rw [(hu _ _).2.2.1] at h
    split_ifs at h with h1 h2
    · rw [Option.some.injEq] at h; subst h; exact ⟨0, rfl, Or.inl h1, fun j hj => by omega⟩
    · rw [Option.some.injEq] at h; subst h; exact ⟨0, rfl, Or.inr h2, fun j hj => by omega⟩
    · obtain ⟨k, e, a, b⟩ := ih (s + 1) _ _ h
      rw [(hu _ _).2.2.1] at a b
      refine ⟨k + 1, e, ?_, fun j hj => ?_⟩
      · rwa [show s + (k + 1) = s + 1 + k by omega]
      · cases j with
        | zero => exact ⟨Bool.eq_false_iff.2 h1, h2⟩
        | succ j =>
          have := b j (by omega)
          rwa [show s + 1 + j = s + (j + 1) by omega] at this

theorem ls_stops {upd : X K → Opt (X K) ι → Opt (X K) ι} (f : (ι → X K) → X K) (rate : X K) : ∀ (n s : ℕ) (o : Opt (X K) ι), Short F rate (s + n) →
    (lsLoopX F f upd rate (n + 1) (tau F s) o).isSome := by
  intro n
  induction n with
  | zero =>
    intro s o h
    rw [lsLoopX]
    split_ifs with h1 h2
    · rfl
    · rfl
    · exact absurd h h2
  | succ n ih =>
    intro s o h
    rw [lsLoopX]
    split_ifs with h1 h2
    · rfl
    · rfl
    · exact ih (s + 1) _ (by rwa [show s + 1 + n = s + (n + 1) by omega])

/-- What a pass starts from: the previous design is the current one, the direction its gradient. -/
def start (g : (ι → X K) → ι → X K) (i : ℕ) (o : Opt (X K) ι) : Opt (X K) ι := { o with iter := i, dir := g o.cur, prev := o.cur }

/-- **C120** A pass accepts the first trial whose cost is below that of the previous design or whose length is below `1e-6`, comparisons with NaN counting as false; this holds for gradient
descent and Adam. -/
theorem C120_pass {upd : X K → Opt (X K) ι → Opt (X K) ι} (hr : Rule F upd) (fuel : ℕ) (f : (ι → X K) → X K) (g : (ι → X K) → ι → X K) (rate : X K) (i : ℕ) (o o' : Opt (X K) ι)
    (h : optStepX F fuel f g upd rate i o = some o') :
    ∃ k, o'.cur = (tried F upd rate 0 k (start g i o)).cur ∧ o'.v = (tried F upd rate 0 k (start g i o)).v ∧ o'.s = (tried F upd rate 0 k (start g i o)).s ∧
      ((f o'.cur).lt (f o.cur) = true ∨ Short F rate k) ∧
      ∀ j < k, (f (tried F upd rate 0 j (start g i o)).cur).lt (f o.cur) = false ∧ ¬Short F rate j := by
  unfold optStepX at h
  obtain ⟨o1, h1, rfl⟩ := Option.map_eq_some_iff.1 h
  rw [ls_start] at h1
  obtain ⟨k, e, a, b⟩ := ls_spec F (hr.keeps F) f rate _ _ _ _ h1
  refine ⟨k, by rw [e]; rfl, by rw [e]; rfl, by rw [e]; rfl, ?_, ?_⟩
  · rw [zero_add] at a; exact a
  · intro j hj
    have := b j hj
    rw [zero_add] at this
    exact this

theorem tried_gd (rate : X K) : ∀ (k s : ℕ) (o : Opt (X K) ι), (tried F (gdX F) rate s k o).cur = fun j => F.subX (o.prev j) (F.mulX (F.mulX rate (tau F (s + k))) (o.dir j)) := by
  intro k
  induction k with
  | zero => intro s o; rfl
  | succ k ih =>
    intro s o
    rw [tried, ih, show s + 1 + k = s + (k + 1) by omega]
    rfl

/-- **C120** A pass of gradient descent: the step of the first trial that decreases the cost or is shorter than `1e-6`. -/
theorem C120_gd_pass (fuel : ℕ) (f : (ι → X K) → X K) (g : (ι → X K) → ι → X K) (rate : X K) (i : ℕ) (o o' : Opt (X K) ι) (h : optStepX F fuel f g (gdX F) rate i o = some o') :
    ∃ k, o'.cur = (fun j => F.subX (o.cur j) (F.mulX (F.mulX rate (tau F k)) (g o.cur j))) ∧
      ((f o'.cur).lt (f o.cur) = true ∨ Short F rate k) ∧
      ∀ j < k, (f fun e => F.subX (o.cur e) (F.mulX (F.mulX rate (tau F j)) (g o.cur e))).lt (f o.cur) = false ∧ ¬Short F rate j := by
  obtain ⟨k, a, -, -, b, c⟩ := C120_pass F (Or.inl rfl) fuel f g rate i o o' h
  refine ⟨k, ?_, b, fun j hj => ?_⟩
  · rw [a, tried_gd, zero_add]; rfl
  · have := c j hj
    rwa [tried_gd, zero_add] at this

/-- A moving average as computed: `b * x + (1 - b) * y`. -/
def mom (b y x : X K) : X K := F.addX (F.mulX b x) (F.mulX (F.subX (.fin 1) b) y)

/-- An entry of a design after a step of Adam as computed. -/
def adamEntry (root : X K → X K) (pow : X K → ℕ → X K) (eps rate p v s : X K) (t : ℕ) : X K :=
  F.subX p (F.divX (F.mulX rate (F.divX v (F.subX (.fin 1) (pow (F.of (9 / 10)) t)))) (F.addX (root (F.divX s (F.subX (.fin 1) (pow (F.of (99 / 100)) t)))) eps))

theorem tried_adam (root : X K → X K) (pow : X K → ℕ → X K) (eps rate : X K) (j : ι) : ∀ (k s : ℕ) (o : Opt (X K) ι),
    ((tried F (adamX F root pow eps) rate s k o).v.getD fun _ => .fin 0) j = (mom F (F.of (9 / 10)) (o.dir j))^[k + 1] ((o.v.getD fun _ => .fin 0) j) ∧
      ((tried F (adamX F root pow eps) rate s k o).s.getD fun _ => .fin 0) j = (mom F (F.of (99 / 100)) (F.mulX (o.dir j) (o.dir j)))^[k + 1] ((o.s.getD fun _ => .fin 0) j) ∧
      (tried F (adamX F root pow eps) rate s k o).cur j = adamEntry F root pow eps (F.mulX rate (tau F (s + k))) (o.prev j)
        (((tried F (adamX F root pow eps) rate s k o).v.getD fun _ => .fin 0) j) (((tried F (adamX F root pow eps) rate s k o).s.getD fun _ => .fin 0) j) (o.iter + 1) := by
  intro k
  induction k with
  | zero => intro s o; exact ⟨rfl, rfl, rfl⟩
  | succ k ih =>
    intro s o
    obtain ⟨a, b, c⟩ := ih (s + 1) (adamX F root pow eps (F.mulX rate (tau F s)) o)
    rw [tried]
    refine ⟨?_, ?_, ?_⟩
    · rw [a, Function.iterate_succ_apply _ (k + 1)]; rfl
    · rw [b, Function.iterate_succ_apply _ (k + 1)]; rfl
    · rw [c, show s + 1 + k = s + (k + 1) by omega]; rfl

/-- **C120** A pass of Adam: with `k` rejected trials both moments have been averaged `k + 1` times with the gradient (its square), and the accepted step is the one computed from them with the
reduction of trial `k`. -/
theorem C120_adam_pass (root : X K → X K) (pow : X K → ℕ → X K) (eps : X K) (fuel : ℕ) (f : (ι → X K) → X K) (g : (ι → X K) → ι → X K) (rate : X K) (i : ℕ) (o o' : Opt (X K) ι)
    (h : optStepX F fuel f g (adamX F root pow eps) rate i o = some o') :
    ∃ k, ((f o'.cur).lt (f o.cur) = true ∨ Short F rate k) ∧ ∀ j,
      (o'.v.getD fun _ => .fin 0) j = (mom F (F.of (9 / 10)) (g o.cur j))^[k + 1] ((o.v.getD fun _ => .fin 0) j) ∧
      (o'.s.getD fun _ => .fin 0) j = (mom F (F.of (99 / 100)) (F.mulX (g o.cur j) (g o.cur j)))^[k + 1] ((o.s.getD fun _ => .fin 0) j) ∧
      o'.cur j = adamEntry F root pow eps (F.mulX rate (tau F k)) (o.cur j) ((o'.v.getD fun _ => .fin 0) j) ((o'.s.getD fun _ => .fin 0) j) (i + 1) := by
  obtain ⟨k, a, b, c, d, -⟩ := C120_pass F (Or.inr ⟨root, pow, eps, rfl⟩) fuel f g rate i o o' h
  refine ⟨k, d, fun j => ?_⟩
  obtain ⟨t1, t2, t3⟩ := tried_adam F root pow eps rate j k 0 (start g i o)
  rw [a, b, c]
  rw [zero_add] at t3
  exact ⟨t1, t2, t3⟩

/-- **C120** From a design whose cost is undefined, a pass takes the first trial shorter than `1e-6`: no other trial counts, whatever its cost, even if that is finite. -/
theorem C120_undefined_pass {upd : X K → Opt (X K) ι → Opt (X K) ι} (hr : Rule F upd) (fuel : ℕ) (f : (ι → X K) → X K) (g : (ι → X K) → ι → X K) (rate : X K) (i : ℕ) (o o' : Opt (X K) ι)
    (h : optStepX F fuel f g upd rate i o = some o') (hn : f o.cur = .nan) :
    ∃ k, o'.cur = (tried F upd rate 0 k (start g i o)).cur ∧ Short F rate k ∧ ∀ j < k, ¬Short F rate j := by
  obtain ⟨k, a, -, -, b, c⟩ := C120_pass F hr fuel f g rate i o o' h
  refine ⟨k, a, ?_, fun j hj => (c j hj).2⟩
  rcases b with b | b
  · rw [hn, lt_nan_right] at b; exact absurd b (by simp)
  · exact b

/-- **C120** A trial with an undefined cost is never accepted for its cost: a pass that ends at an undefined cost took a step shorter than `1e-6`. -/
theorem C120_ends_undefined {upd : X K → Opt (X K) ι → Opt (X K) ι} (hr : Rule F upd) (fuel : ℕ) (f : (ι → X K) → X K) (g : (ι → X K) → ι → X K) (rate : X K) (i : ℕ) (o o' : Opt (X K) ι)
    (h : optStepX F fuel f g upd rate i o = some o') (hn : f o'.cur = .nan) :
    ∃ k, o'.cur = (tried F upd rate 0 k (start g i o)).cur ∧ Short F rate k ∧
      ∀ j < k, (f (tried F upd rate 0 j (start g i o)).cur).lt (f o.cur) = false ∧ ¬Short F rate j := by
  obtain ⟨k, a, -, -, b, c⟩ := C120_pass F hr fuel f g rate i o o' h
  refine ⟨k, a, ?_, c⟩
  rcases b with b | b
  · rw [hn, lt_nan_left] at b; exact absurd b (by simp)
  · exact b

/-! ### Traces -/

theorem loop_trace (upd : X K → Opt (X K) ι → Opt (X K) ι) (f : (ι → X K) → X K) (g : (ι → X K) → ι → X K) (rate : X K) (fuel : ℕ) : ∀ (left i : ℕ) (n : ℕ × ℕ) (o o' : Opt (X K) ι),
    optLoopX F fuel f g upd rate left i n o = some o' →
    ∃ (N : ℕ) (st : ℕ → Opt (X K) ι), N ≤ left ∧ st 0 = o ∧ st N = o' ∧ ∀ k < N, optStepX F fuel f g upd rate (i + k) (st k) = some (st (k + 1)) := by
  intro left
  induction left with
  | zero =>
    intro i n o o' h
    rw [optLoopX, Option.some.injEq] at h
    exact ⟨0, fun _ => o, le_rfl, rfl, h, fun k hk => by omega⟩
  | succ left ih =>
    intro i n o o' h
    rw [optLoopX] at h
    cases hs : optStepX F fuel f g upd rate i o with
    | none => rw [hs] at h; simp at h
    | some o1 =>
      rw [hs] at h
      simp only at h
      split_ifs at h with hstop
      · rw [Option.some.injEq] at h
        refine ⟨1, fun k => if k = 0 then o else o1, by omega, rfl, h, fun k hk => ?_⟩
        obtain rfl : k = 0 := by omega
        exact hs
      · obtain ⟨N, st, a, b, c, d⟩ := ih _ _ _ _ h
        refine ⟨N + 1, fun k => if k = 0 then o else st (k - 1), by omega, rfl, ?_, fun k hk => ?_⟩
        · dsimp only; rw [if_neg (by omega)]; exact c
        · cases k with
          | zero => simpa [b] using hs
          | succ k =>
            have := d k (by omega)
            dsimp only
            rw [if_neg (by omega), if_neg (by omega)]
            rwa [show i + (k + 1) = i + 1 + k by omega]

/-- The optimiser as it starts. -/
def init (f : (ι → X K) → X K) (x0 : ι → X K) : Opt (X K) ι :=
  { cur := x0, prev := x0, dir := fun _ => .fin 0, iter := 0, beta1 := .fin 0, beta2 := .fin 0, v := none, s := none, costs := [f x0], designs := [x0] }

theorem trace {upd : X K → Opt (X K) ι → Opt (X K) ι} (hr : Rule F upd) (f : (ι → X K) → X K) (g : (ι → X K) → ι → X K) (rate : X K) (fuel maxIter : ℕ) (x0 : ι → X K) (o : Opt (X K) ι)
    (h : optimizeX F fuel f g upd rate maxIter x0 = some o) :
    ∃ (N : ℕ) (st : ℕ → Opt (X K) ι), N ≤ maxIter ∧ st 0 = init f x0 ∧ st N = o ∧ (∀ k < N, optStepX F fuel f g upd rate k (st k) = some (st (k + 1))) ∧
      o.designs = (List.range (N + 1)).map fun k => (st k).cur := by
  obtain ⟨N, st, a, b, c, d⟩ := loop_trace F upd f g rate fuel maxIter 0 (0, 0) _ o h
  refine ⟨N, st, a, b, c, fun k hk => by simpa using d k hk, ?_⟩
  have : ∀ k ≤ N, (st k).designs = (List.range (k + 1)).map fun k => (st k).cur := by
    intro k
    induction k with
    | zero => intro _; rw [b]; simp [init, b]
    | succ k ih =>
      intro hk
      rw [List.range_succ, List.map_append, ← ih (by omega), (step_hist F upd (hr.keeps F) f g rate fuel _ _ _ (d k (by omega))).2]
      rfl
  rw [← c]
  exact this N le_rfl

theorem trace_get {N : ℕ} {st : ℕ → Opt (X K) ι} {L : List (ι → X K)} (h : L = (List.range (N + 1)).map fun k => (st k).cur) {m : ℕ} {d : ι → X K} (hd : L[m]? = some d) :
    m ≤ N ∧ d = (st m).cur := by
  rw [h, List.getElem?_map] at hd
  have hm : m < N + 1 := by
    by_contra hc
    rw [List.getElem?_eq_none (by rw [List.length_range]; omega)] at hd
    simp at hd
  rw [List.getElem?_range hm] at hd
  simp at hd
  exact ⟨by omega, hd.symm⟩

/-! ### NaN entries -/

theorem Rule.nan {upd : X K → Opt (X K) ι → Opt (X K) ι} (hr : Rule F upd) (r : X K) (o : Opt (X K) ι) (j : ι) (h : o.prev j = .nan ∨ o.dir j = .nan) : (upd r o).cur j = .nan := by
  rcases hr with rfl | ⟨root, pow, eps, rfl⟩
  · show F.subX (o.prev j) (F.mulX r (o.dir j)) = X.nan
    rcases h with h | h
    · rw [h, sub_nan_left]
    · rw [h, F.mulX_nan_right, sub_nan_right]
  · rcases h with h | h
    · show F.subX (o.prev j) _ = X.nan
      rw [h, sub_nan_left]
    · unfold adamX
      dsimp only
      rw [h, F.mulX_nan_right, F.addX_nan_right, F.divX_nan_left, F.mulX_nan_right, F.divX_nan_left, sub_nan_right]

theorem tried_nan {upd : X K → Opt (X K) ι → Opt (X K) ι} (hr : Rule F upd) (rate : X K) (j : ι) : ∀ (k s : ℕ) (o : Opt (X K) ι), (o.prev j = .nan ∨ o.dir j = .nan) →
    (tried F upd rate s k o).cur j = .nan := by
  intro k
  induction k with
  | zero => intro s o h; exact hr.nan F _ o j h
  | succ k ih =>
    intro s o h
    refine ih (s + 1) _ ?_
    rw [((hr.keeps F) _ _).2.2.1, ((hr.keeps F) _ _).2.2.2.1]
    exact h

/-- **C120** NaN spreads and stays: once an entry of the design or of the gradient at a design is NaN, this entry is NaN in every later design of the history (so in the returned design). -/
theorem C120_nan_stays {upd : X K → Opt (X K) ι → Opt (X K) ι} (hr : Rule F upd) (f : (ι → X K) → X K) (g : (ι → X K) → ι → X K) (rate : X K) (fuel maxIter : ℕ) (x0 : ι → X K)
    (o : Opt (X K) ι) (h : optimizeX F fuel f g upd rate maxIter x0 = some o) (j : ι) {m m' : ℕ} {d d' : ι → X K} (hm : o.designs[m]? = some d) (hb : d j = .nan ∨ g d j = .nan)
    (hlt : m < m') (hm' : o.designs[m']? = some d') : d' j = .nan := by
  obtain ⟨N, st, -, -, -, hs, hd⟩ := trace F hr f g rate fuel maxIter x0 o h
  obtain ⟨a, rfl⟩ := trace_get hd hm
  obtain ⟨a', rfl⟩ := trace_get hd hm'
  clear hm hm'
  have step : ∀ k < N, ((st k).cur j = .nan ∨ g (st k).cur j = .nan) → (st (k + 1)).cur j = .nan := by
    intro k hk hb
    obtain ⟨t, e, -⟩ := C120_pass F hr fuel f g rate k _ _ (hs k hk)
    rw [e]
    exact tried_nan F hr rate j t 0 _ hb
  induction m' with
  | zero => omega
  | succ m' ih =>
    by_cases hmm : m = m'
    · subst hmm; exact step m (by omega) hb
    · exact step m' (by omega) (Or.inl (ih (by omega) (by omega)))

/-- **C120** If the cost of a design with a NaN entry is NaN, and an entry of the design or gradient of design `m` is NaN, then all later costs are NaN and the optimiser makes all `max_iter`
passes. -/
theorem C120_nan_runs_all {upd : X K → Opt (X K) ι → Opt (X K) ι} (hr : Rule F upd) (f : (ι → X K) → X K) (hf : ∀ x j, x j = .nan → f x = .nan) (g : (ι → X K) → ι → X K) (rate : X K)
    (fuel maxIter : ℕ) (x0 : ι → X K) (o : Opt (X K) ι) (h : optimizeX F fuel f g upd rate maxIter x0 = some o) (j : ι) {m : ℕ} {d : ι → X K} (hm : o.designs[m]? = some d)
    (hb : d j = .nan ∨ g d j = .nan) (hlast : m + 1 < o.designs.length) : o.costs.length = maxIter + 1 ∧ ∀ k, m < k → k < o.costs.length → o.costs.getD k .nan = .nan := by
  obtain ⟨h1, h2, h3, h4, h5, -⟩ := C120_history F hr fuel f g rate maxIter x0 o h
  have hlen : o.costs.length = o.designs.length := by rw [h3, List.length_map]
  have hall : ∀ k, m < k → k < o.costs.length → o.costs.getD k .nan = .nan := by
    intro k hk hkl
    have hd' : o.designs[k]? = some (o.designs[k]'(by omega)) := List.getElem?_eq_getElem (by omega)
    have := C120_nan_stays F hr f g rate fuel maxIter x0 o h j hm hb hk hd'
    rw [List.getD_eq_getElem?_getD, h3, List.getElem?_map, hd']
    exact hf _ j this
  refine ⟨?_, hall⟩
  rcases C120_nan_delays F hr fuel f g rate maxIter x0 o h (k := o.costs.length - 1) (by omega) (hall _ (by omega) (by omega)) with hh | hh
  · exact hh
  · omega

end SMT.Fp.Optim
