import Verif.Fp.OptimProps2
import Verif.Fp.ErrProps2

/-!
# C120: the optimiser of the neural network in floating-point arithmetic: termination, entries that Adam freezes, a run
-/
set_option linter.unusedSectionVars false
set_option linter.unusedSimpArgs false
set_option linter.unusedVariables false
set_option exponentiation.threshold 3000

namespace SMT.Fp.Optim
open SMT.Nn

/-! ### Learning rates that are not finite -/

section
variable {K ι : Type} [Field K] [LinearOrder K] [IsStrictOrderedRing K] (F : Format K)

theorem tau_fin : ∀ k, ∃ t : K, tau F k = .fin t ∧ 0 ≤ t ∧ t ≤ 1 := by
  intro k
  induction k with
  | zero => exact ⟨1 / 2, rfl, by norm_num, by norm_num⟩
  | succ k ih =>
    obtain ⟨t, e, h0, h1⟩ := ih
    have hb : t * t ≤ 1 := mul_le_one₀ h1 h0 h1
    refine ⟨F.rnd (t * t), ?_, F.nonneg (mul_nonneg h0 h0), F.le_rep F.one hb⟩
    rw [tau, e]
    exact F.of_small (by rw [abs_of_nonneg (mul_nonneg h0 h0)]; exact hb.trans F.one_le_big)

/-- Not a number, or infinite. -/
def Off (a : X K) : Prop := a = .nan ∨ ∃ s, a = .inf s

theorem off_mul {a : X K} (h : Off a) (b : X K) : Off (F.mulX a b) := by
  rcases h with rfl | ⟨s, rfl⟩
  · left; exact F.mulX_nan_left b
  · cases b with
    | fin y =>
      show Off (if y = 0 then X.nan else X.inf (decide (y < 0) != s))
      split
      · left; rfl
      · right; exact ⟨_, rfl⟩
    | inf t => right; exact ⟨_, rfl⟩
    | nan => left; rfl

theorem off_div {a : X K} (h : Off a) (b : X K) : Off (F.divX a b) := by
  rcases h with rfl | ⟨s, rfl⟩
  · left; exact F.divX_nan_left b
  · cases b with
    | fin y => right; exact ⟨_, rfl⟩
    | inf t => left; rfl
    | nan => left; rfl

theorem off_sub {a : X K} (h : Off a) (b : X K) : Off (F.subX b a) := by
  rcases h with rfl | ⟨s, rfl⟩
  · left; exact sub_nan_right F b
  · cases b with
    | fin y => right; exact ⟨_, rfl⟩
    | inf t =>
      show Off (if t = !s then X.inf t else X.nan)
      split
      · right; exact ⟨_, rfl⟩
      · left; rfl
    | nan => left; rfl

theorem Rule.off {upd : X K → Opt (X K) ι → Opt (X K) ι} (hr : Rule F upd) {r : X K} (h : Off r) (o : Opt (X K) ι) (j : ι) : Off ((upd r o).cur j) := by
  rcases hr with rfl | ⟨root, pow, eps, rfl⟩
  · exact off_sub F (off_mul F h _) _
  · exact off_sub F (off_div F (off_mul F h _) _) _

theorem not_short {rate : X K} (h : rate = .nan ∨ rate = .inf false) (k : ℕ) : Off (F.mulX rate (tau F k)) ∧ ¬Short F rate k := by
  obtain ⟨t, e, h0, -⟩ := tau_fin F k
  refine ⟨off_mul F (h.imp id fun h => ⟨_, h⟩) _, ?_⟩
  unfold Short
  rw [e]
  rcases h with rfl | rfl
  · rw [F.mulX_nan_left, lt_nan_left]; simp
  · have : F.mulX (.inf false) (.fin t) = if t = 0 then X.nan else X.inf (decide (t < 0) != false) := rfl
    rw [this]
    split
    · rw [lt_nan_left]; simp
    · rw [decide_eq_false (not_lt.2 h0)]
      cases F.of (1 / 1000000) <;> simp [X.lt]

theorem ls_never {upd : X K → Opt (X K) ι → Opt (X K) ι} (hr : Rule F upd) {rate : X K} (h : rate = .nan ∨ rate = .inf false) (f : (ι → X K) → X K) (c : X K)
    (hf : ∀ y : ι → X K, (∀ j, Off (y j)) → (f y).lt c = false) : ∀ (fuel s : ℕ) (o : Opt (X K) ι), f o.prev = c → lsLoopX F f upd rate fuel (tau F s) o = none := by
  intro fuel
  induction fuel with
  | zero => intro s o _; rfl
  | succ n ih =>
    intro s o ho
    have hs := not_short F h s
    have e1 : (f (upd (F.mulX rate (tau F s)) o).cur).lt (f (upd (F.mulX rate (tau F s)) o).prev) = false := by
      rw [((hr.keeps F) _ _).2.2.1, ho]
      exact hf _ fun j => hr.off F hs.1 o j
    rw [lsLoopX]
    rw [if_neg (by rw [e1]; simp), if_neg (show ¬(F.mulX rate (tau F s)).lt (F.of (1 / 1000000)) = true from hs.2)]
    refine ih (s + 1) _ ?_
    rw [((hr.keeps F) _ _).2.2.1, ho]

/-- **C120** With a learning rate that is NaN or plus infinity the line search never returns, unless a design all of whose entries are NaN or infinite has a smaller cost than the initial one:
training does not end, however long it runs. -/
theorem C120_rate_not_finite {upd : X K → Opt (X K) ι → Opt (X K) ι} (hr : Rule F upd) {rate : X K} (h : rate = .nan ∨ rate = .inf false) (f : (ι → X K) → X K) (g : (ι → X K) → ι → X K)
    (x0 : ι → X K) (hf : ∀ y : ι → X K, (∀ j, y j = .nan ∨ ∃ s, y j = .inf s) → (f y).lt (f x0) = false) (fuel maxIter : ℕ) :
    optimizeX F fuel f g upd rate (maxIter + 1) x0 = none := by
  unfold optimizeX
  rw [optLoopX, optStepX, ls_start, ls_never F hr h f (f x0) hf _ _ _ rfl]
  rfl

end

/-! ### Termination in double precision -/

variable {ι : Type}

theorem small64 : binary64.of (1 / 1000000) = .fin (binary64.rnd (1 / 1000000)) := binary64.of_small (by rw [abs_of_nonneg (by norm_num)]; exact le_trans (by norm_num) binary64.one_le_big)

theorem tau5 : tau binary64 5 = .fin (1 / 2 ^ 32) := by decide +kernel
theorem tau11 : tau binary64 11 = .fin 0 := by decide +kernel

theorem short11 (r : ℚ) : Short binary64 (.fin r) 11 := by
  unfold Short
  rw [tau11, small64]
  have : binary64.mulX (.fin r) (.fin 0) = .fin 0 := by
    show binary64.of (r * 0) = _
    rw [mul_zero, binary64.of_zero]
  rw [this]
  exact decide_eq_true (by decide +kernel)

theorem short5 (r : ℚ) (hr : r ≤ 4000) : Short binary64 (.fin r) 5 := by
  unfold Short
  rw [tau5, small64]
  have hm : binary64.rnd (r * (1 / 2 ^ 32)) ≤ binary64.rnd (4000 * (1 / 2 ^ 32)) := binary64.mono _ _ (mul_le_mul_of_nonneg_right hr (by positivity))
  have hc : binary64.rnd (4000 * (1 / 2 ^ 32)) < binary64.rnd (1 / 1000000) := by decide +kernel
  show X.lt (binary64.of (r * (1 / 2 ^ 32))) (.fin (binary64.rnd (1 / 1000000))) = true
  unfold Format.of
  split
  · exact decide_eq_true (hm.trans_lt hc)
  · rename_i hb
    have : r * (1 / 2 ^ 32) < 0 := by
      by_contra hcon
      have h0 := not_lt.1 hcon
      refine hb ?_
      rw [abs_of_nonneg (binary64.nonneg h0)]
      exact hm.trans (hc.le.trans (binary64.le_rep binary64.big_rep (le_trans (by norm_num) binary64.one_le_big)))
    rw [decide_eq_true this]
    rfl

/-- **C120** In double precision, with a finite learning rate, every line search ends after at most 12 trials, whatever the cost, its gradient and the update rule (NaN included); at most 6
if the rate is at most 4000. -/
theorem C120_trials (f : (ι → X ℚ) → X ℚ) (upd : X ℚ → Opt (X ℚ) ι → Opt (X ℚ) ι) (r : ℚ) (o : Opt (X ℚ) ι) :
    (lineSearchX binary64 12 f upd (.fin r) o).isSome ∧ (r ≤ 4000 → (lineSearchX binary64 6 f upd (.fin r) o).isSome) := by
  rw [ls_start, ls_start]
  exact ⟨ls_stops binary64 f (.fin r) 11 0 _ (by simpa using short11 r), fun h => ls_stops binary64 f (.fin r) 5 0 _ (by simpa using short5 r h)⟩

theorem loop_isSome (upd : X ℚ → Opt (X ℚ) ι → Opt (X ℚ) ι) (f : (ι → X ℚ) → X ℚ) (g : (ι → X ℚ) → ι → X ℚ) (rate : X ℚ) (fuel : ℕ)
    (hf : ∀ o, (lineSearchX binary64 fuel f upd rate o).isSome) : ∀ (left i : ℕ) (n : ℕ × ℕ) (o : Opt (X ℚ) ι), (optLoopX binary64 fuel f g upd rate left i n o).isSome := by
  intro left
  induction left with
  | zero => intro i n o; rfl
  | succ left ih =>
    intro i n o
    rw [optLoopX]
    have : (optStepX binary64 fuel f g upd rate i o).isSome := by
      unfold optStepX; rw [Option.isSome_map]; exact hf _
    obtain ⟨o1, h1⟩ := Option.isSome_iff_exists.1 this
    rw [h1]
    simp only
    split_ifs
    · rfl
    · exact ih _ _ _

/-- **C120** In double precision, with a finite learning rate, the optimisation always ends, whatever the cost and its gradient compute. -/
theorem C120_terminates (f : (ι → X ℚ) → X ℚ) (g : (ι → X ℚ) → ι → X ℚ) (upd : X ℚ → Opt (X ℚ) ι → Opt (X ℚ) ι) (r : ℚ) (maxIter : ℕ) (x0 : ι → X ℚ) :
    (optimizeX binary64 12 f g upd (.fin r) maxIter x0).isSome :=
  loop_isSome upd f g _ 12 (fun o => (C120_trials f upd r o).1) _ _ _ _

/-- **C120** With the default learning rate 0.5, a pass of gradient descent from a design whose cost is undefined moves by `2 ^ (-33)` times the gradient: all longer steps are tried and
rejected, whatever their costs. -/
theorem C120_default_undefined (fuel : ℕ) (f : (ι → X ℚ) → X ℚ) (g : (ι → X ℚ) → ι → X ℚ) (i : ℕ) (o o' : Opt (X ℚ) ι)
    (h : optStepX binary64 fuel f g (gdX binary64) (.fin (1 / 2)) i o = some o') (hn : f o.cur = .nan) :
    o'.cur = fun j => binary64.subX (o.cur j) (binary64.mulX (.fin (1 / 2 ^ 33)) (g o.cur j)) := by
  obtain ⟨k, a, b, c⟩ := C120_undefined_pass binary64 (Or.inl rfl) fuel f g _ i o o' h hn
  have h5 : Short binary64 (.fin (1 / 2)) 5 := short5 _ (by norm_num)
  have hn4 : ∀ j < 5, ¬Short binary64 (.fin (1 / 2)) j := by decide +kernel
  have hk : k = 5 := by
    by_contra hne
    rcases Nat.lt_or_gt_of_ne hne with hlt | hgt
    · exact hn4 k hlt b
    · exact c 5 hgt h5
  subst hk
  rw [a, tried_gd, zero_add]
  have : binary64.mulX (.fin (1 / 2)) (tau binary64 5) = .fin (1 / 2 ^ 33) := by decide +kernel
  rw [this]
  rfl

/-! ### Entries that Adam freezes -/

/-- What is assumed of `**` for a floating-point base in `[0, 1]` and a positive integer exponent: a number between 0 and the base. -/
def PowOk (pow : X ℚ → ℕ → X ℚ) : Prop := ∀ b : ℚ, 0 ≤ b → b ≤ 1 → binary64.rnd b = b → ∀ t, 1 ≤ t → ∃ p, pow (.fin b) t = .fin p ∧ 0 ≤ p ∧ p ≤ b

abbrev β1 : ℚ := binary64.rnd (9 / 10)
abbrev β2 : ℚ := binary64.rnd (99 / 100)

theorem b1_of : binary64.of (9 / 10) = .fin β1 := binary64.of_small (by decide +kernel)
theorem b2_of : binary64.of (99 / 100) = .fin β2 := binary64.of_small (by decide +kernel)
theorem c1_of : binary64.subX (.fin 1) (.fin β1) = .fin (1 - β1) := by decide +kernel
theorem c2_of : binary64.subX (.fin 1) (.fin β2) = .fin (1 - β2) := by decide +kernel

theorem rnd_abs_le {x y : ℚ} (hy : binary64.rnd y = y) (h : |x| ≤ y) : |binary64.rnd x| ≤ y := by
  rw [abs_le] at h ⊢
  refine ⟨binary64.rep_le (by rw [binary64.odd, hy]) h.1, binary64.le_rep hy h.2⟩

theorem of_abs_le {x y : ℚ} (hy : binary64.rnd y = y) (hb : y ≤ binary64.big) (h : |x| ≤ y) : ∃ z, binary64.of x = .fin z ∧ |z| ≤ y :=
  ⟨_, binary64.of_small (h.trans hb), rnd_abs_le hy h⟩

/-- Averages of numbers of size at most `2 ^ 1000` stay so. -/
theorem v_bound {v y : ℚ} (hv : |v| ≤ 2 ^ 1000) (hy : |y| ≤ 2 ^ 1000) :
    ∃ w, binary64.addX (binary64.mulX (.fin β1) (.fin v)) (binary64.mulX (.fin (1 - β1)) (.fin y)) = .fin w ∧ |w| ≤ 2 ^ 1000 := by
  have e1 : binary64.rnd (β1 * 2 ^ 1000) = β1 * 2 ^ 1000 := by decide +kernel
  have e2 : binary64.rnd ((1 - β1) * 2 ^ 1000) = (1 - β1) * 2 ^ 1000 := by decide +kernel
  have e3 : binary64.rnd (2 ^ 1000) = 2 ^ 1000 := by decide +kernel
  have g1 : β1 * 2 ^ 1000 ≤ binary64.big := by decide +kernel
  have g2 : (1 - β1) * 2 ^ 1000 ≤ binary64.big := by decide +kernel
  have g3 : (2 : ℚ) ^ 1000 ≤ binary64.big := by decide +kernel
  have p1 : 0 ≤ β1 := binary64.nonneg (by norm_num)
  have p2 : 0 ≤ 1 - β1 := by decide +kernel
  obtain ⟨a, ha, ba⟩ := of_abs_le e1 g1 (x := β1 * v) (by rw [abs_mul, abs_of_nonneg p1]; exact mul_le_mul_of_nonneg_left hv p1)
  obtain ⟨b, hb, bb⟩ := of_abs_le e2 g2 (x := (1 - β1) * y) (by rw [abs_mul, abs_of_nonneg p2]; exact mul_le_mul_of_nonneg_left hy p2)
  have hs : |a + b| ≤ 2 ^ 1000 := by
    calc |a + b| ≤ |a| + |b| := abs_add_le a b
      _ ≤ β1 * 2 ^ 1000 + (1 - β1) * 2 ^ 1000 := add_le_add ba bb
      _ = 2 ^ 1000 := by rw [← add_mul, add_sub_cancel, one_mul]
  obtain ⟨w, hw, bw⟩ := of_abs_le e3 g3 hs
  refine ⟨w, ?_, bw⟩
  show binary64.addX (binary64.of (β1 * v)) (binary64.of ((1 - β1) * y)) = _
  rw [ha, hb]
  exact hw

/-- A number divided by one minus a power of `0.9`, times a step of at most 1024. -/
theorem step_bound {pow : X ℚ → ℕ → X ℚ} (hp : PowOk pow) {w ρ : ℚ} (hw : |w| ≤ 2 ^ 1000) (hρ : |ρ| ≤ 2 ^ 10) {t : ℕ} (ht : 1 ≤ t) :
    ∃ z, binary64.mulX (.fin ρ) (binary64.divX (.fin w) (binary64.subX (.fin 1) (pow (.fin β1) t))) = .fin z := by
  obtain ⟨p, e, p0, p1⟩ := hp β1 (binary64.nonneg (by norm_num)) (binary64.le_rep binary64.one (by norm_num)) (binary64.idem _) t ht
  have hβ : β1 ≤ 1 := binary64.le_rep binary64.one (by norm_num)
  have hq : |1 + -p| ≤ 1 := by rw [abs_le]; constructor <;> linarith
  have eq : binary64.subX (.fin 1) (.fin p) = .fin (binary64.rnd (1 + -p)) := binary64.of_small (hq.trans binary64.one_le_big)
  have lo : (1 / 16 : ℚ) ≤ binary64.rnd (1 + -p) := by
    refine binary64.rep_le (by decide +kernel) ?_
    have : (1 / 16 : ℚ) ≤ 1 - β1 := by decide +kernel
    linarith
  have hpos : (0 : ℚ) < binary64.rnd (1 + -p) := lt_of_lt_of_le (by norm_num) lo
  have hd : |w / binary64.rnd (1 + -p)| ≤ 2 ^ 1004 := by
    rw [abs_div, abs_of_pos hpos, div_le_iff₀ hpos]
    have h1 : (2 : ℚ) ^ 1004 * (1 / 16) ≤ 2 ^ 1004 * binary64.rnd (1 + -p) := mul_le_mul_of_nonneg_left lo (by positivity)
    have h2 : (2 : ℚ) ^ 1004 * (1 / 16) = 2 ^ 1000 := by decide +kernel
    linarith
  obtain ⟨a, ha, ba⟩ := of_abs_le (y := 2 ^ 1004) (by decide +kernel) (by decide +kernel) hd
  have hm : |ρ * a| ≤ 2 ^ 1014 := by
    rw [abs_mul]
    calc |ρ| * |a| ≤ 2 ^ 10 * 2 ^ 1004 := mul_le_mul hρ ba (abs_nonneg _) (by positivity)
      _ = 2 ^ 1014 := by rw [← pow_add]
  obtain ⟨z, hz, -⟩ := of_abs_le (y := 2 ^ 1014) (by decide +kernel) (by decide +kernel) hm
  refine ⟨z, ?_⟩
  rw [e, eq]
  show binary64.mulX (.fin ρ) (if binary64.rnd (1 + -p) = 0 then (if w = 0 then X.nan else X.inf (decide (w < 0))) else binary64.of (w / binary64.rnd (1 + -p))) = _
  rw [if_neg hpos.ne', ha]
  exact hz

/-- What holds of entry `j` of the two moments as long as the gradient is finite. -/
def Tame (j : ι) (o : Opt (X ℚ) ι) : Prop := (∃ v, (o.v.getD fun _ => .fin 0) j = .fin v ∧ |v| ≤ 2 ^ 1000) ∧ Nn binary64 ((o.s.getD fun _ => .fin 0) j)

theorem of_nonneg {x : ℚ} (h : 0 ≤ x) : Nn binary64 (binary64.of x) := by
  unfold Format.of
  split
  · rename_i hb
    exact ⟨⟨binary64.idem x, hb⟩, binary64.nonneg h⟩
  · exact decide_eq_false (not_lt.2 h)

theorem scale_nn {c : ℚ} (hc : 0 < c) {s : X ℚ} (hs : Nn binary64 s) : Nn binary64 (binary64.mulX (.fin c) s) ∧ (s = .inf false → binary64.mulX (.fin c) s = .inf false) := by
  have hinf : binary64.mulX (.fin c) (.inf false) = .inf false := by
    show (if c = 0 then X.nan else X.inf (decide (c < 0) != false)) = X.inf false
    rw [if_neg hc.ne', decide_eq_false (not_lt.2 hc.le)]
    rfl
  cases s with
  | fin x => exact ⟨of_nonneg (mul_nonneg hc.le hs.2), fun h => by cases h⟩
  | inf b =>
    obtain rfl : b = false := hs
    exact ⟨by rw [hinf]; rfl, fun _ => hinf⟩
  | nan => exact absurd hs id

theorem inf_add {a : X ℚ} (h : Nn binary64 a) : binary64.addX (.inf false) a = .inf false ∧ binary64.addX a (.inf false) = .inf false := by
  cases a with
  | fin x => exact ⟨rfl, rfl⟩
  | inf b => obtain rfl : b = false := h; exact ⟨rfl, rfl⟩
  | nan => exact absurd h id

theorem square_over {y : ℚ} (h : 2 ^ 512 ≤ |y|) : binary64.mulX (.fin y) (.fin y) = .inf false := by
  have h1 : (2 : ℚ) ^ 1024 ≤ y * y := by
    rw [← abs_mul_abs_self y]
    calc (2 : ℚ) ^ 1024 = 2 ^ 512 * 2 ^ 512 := by rw [← pow_add]
      _ ≤ |y| * |y| := mul_le_mul h h (by positivity) (abs_nonneg y)
  have h2 : (2 : ℚ) ^ 1024 ≤ binary64.rnd (y * y) := binary64.rep_le (by decide +kernel) h1
  have h3 : binary64.big < 2 ^ 1024 := by decide +kernel
  show binary64.of (y * y) = _
  unfold Format.of
  rw [if_neg, decide_eq_false (not_lt.2 (mul_self_nonneg y))]
  rw [abs_of_nonneg (binary64.nonneg (mul_self_nonneg y))]
  exact not_le.2 (h3.trans_le h2)

theorem s_next {s : X ℚ} (hs : Nn binary64 s) (y : ℚ) :
    Nn binary64 (binary64.addX (binary64.mulX (.fin β2) s) (binary64.mulX (.fin (1 - β2)) (binary64.mulX (.fin y) (.fin y)))) ∧
      (s = .inf false ∨ 2 ^ 512 ≤ |y| →
        binary64.addX (binary64.mulX (.fin β2) s) (binary64.mulX (.fin (1 - β2)) (binary64.mulX (.fin y) (.fin y))) = .inf false) := by
  have p1 : 0 < β2 := by decide +kernel
  have p2 : 0 < 1 - β2 := by decide +kernel
  have hy : Nn binary64 (binary64.mulX (.fin y) (.fin y)) := of_nonneg (mul_self_nonneg y)
  obtain ⟨a1, a2⟩ := scale_nn p1 hs
  obtain ⟨b1, b2⟩ := scale_nn p2 hy
  refine ⟨add_nn binary64 a1 b1, fun h => ?_⟩
  rcases h with h | h
  · rw [a2 h]; exact (inf_add b1).1
  · rw [b2 (square_over h)]; exact (inf_add a1).2

theorem sub_zero' {p : X ℚ} (hp : binary64.Val p) : binary64.subX p (.fin 0) = p := by
  cases p with
  | fin x =>
    show binary64.of (x + -0) = _
    rw [neg_zero, add_zero, binary64.of_fin hp]
  | inf s => rfl
  | nan => rfl

/-- One update of Adam. -/
theorem adam_step {root : X ℚ → X ℚ} (hroot : root (.inf false) = .inf false) {pow : X ℚ → ℕ → X ℚ} (hp : PowOk pow) {eps ρ : ℚ} (hρ : |ρ| ≤ 2 ^ 10) (j : ι) (o : Opt (X ℚ) ι)
    (ho : Tame j o) {y : ℚ} (hd : o.dir j = .fin y) (hy : |y| ≤ 2 ^ 1000) (hv : binary64.Val (o.prev j)) :
    Tame j (adamX binary64 root pow (.fin eps) (.fin ρ) o) ∧ ((o.s.getD fun _ => .fin 0) j = .inf false ∨ 2 ^ 512 ≤ |y| →
      ((adamX binary64 root pow (.fin eps) (.fin ρ) o).s.getD fun _ => .fin 0) j = .inf false ∧ (adamX binary64 root pow (.fin eps) (.fin ρ) o).cur j = o.prev j) := by
  obtain ⟨⟨v, ev, bv⟩, hs⟩ := ho
  obtain ⟨w, ew, bw⟩ := v_bound bv hy
  obtain ⟨n1, n2⟩ := s_next hs y
  have hvn : ((adamX binary64 root pow (.fin eps) (.fin ρ) o).v.getD fun _ => .fin 0) j = .fin w := by
    show binary64.addX (binary64.mulX (binary64.of (9 / 10)) ((o.v.getD fun _ => .fin 0) j)) (binary64.mulX (binary64.subX (.fin 1) (binary64.of (9 / 10))) (o.dir j)) = _
    rw [b1_of, c1_of, ev, hd, ew]
  have hsn : ((adamX binary64 root pow (.fin eps) (.fin ρ) o).s.getD fun _ => .fin 0) j
      = binary64.addX (binary64.mulX (.fin β2) ((o.s.getD fun _ => .fin 0) j)) (binary64.mulX (.fin (1 - β2)) (binary64.mulX (.fin y) (.fin y))) := by
    show binary64.addX (binary64.mulX (binary64.of (99 / 100)) ((o.s.getD fun _ => .fin 0) j))
      (binary64.mulX (binary64.subX (.fin 1) (binary64.of (99 / 100))) (binary64.mulX (o.dir j) (o.dir j))) = _
    rw [b2_of, c2_of, hd]
  refine ⟨⟨⟨w, hvn, bw⟩, by rw [hsn]; exact n1⟩, fun h => ?_⟩
  have hsi := n2 h
  refine ⟨by rw [hsn]; exact hsi, ?_⟩
  obtain ⟨z, hz⟩ := step_bound hp bw hρ (t := o.iter + 1) (by omega)
  obtain ⟨p, e, p0, p1⟩ := hp β2 (binary64.nonneg (by norm_num)) (binary64.le_rep binary64.one (by norm_num)) (binary64.idem _) (o.iter + 1) (by omega)
  have hβ : β2 < 1 := by decide +kernel
  have hq : |1 + -p| ≤ 1 := by rw [abs_le]; constructor <;> linarith
  have eq : binary64.subX (.fin 1) (.fin p) = .fin (binary64.rnd (1 + -p)) := binary64.of_small (hq.trans binary64.one_le_big)
  have q0 : 0 ≤ binary64.rnd (1 + -p) := binary64.nonneg (by linarith)
  have hden : binary64.addX (root (binary64.divX (.inf false) (binary64.subX (.fin 1) (pow (.fin β2) (o.iter + 1))))) (.fin eps) = .inf false := by
    have : binary64.divX (.inf false) (binary64.subX (.fin 1) (pow (.fin β2) (o.iter + 1))) = .inf false := by
      rw [e, eq]
      show X.inf (decide (binary64.rnd (1 + -p) < 0) != false) = X.inf false
      rw [decide_eq_false (not_lt.2 q0)]
      rfl
    rw [this, hroot]
    rfl
  have hcur : (adamX binary64 root pow (.fin eps) (.fin ρ) o).cur j
      = binary64.subX (o.prev j) (binary64.divX (binary64.mulX (.fin ρ) (binary64.divX (((adamX binary64 root pow (.fin eps) (.fin ρ) o).v.getD fun _ => .fin 0) j)
          (binary64.subX (.fin 1) (pow (binary64.of (9 / 10)) (o.iter + 1)))))
        (binary64.addX (root (binary64.divX (((adamX binary64 root pow (.fin eps) (.fin ρ) o).s.getD fun _ => .fin 0) j)
          (binary64.subX (.fin 1) (pow (binary64.of (99 / 100)) (o.iter + 1))))) (.fin eps))) := rfl
  rw [hcur, hvn, hsn, hsi, b1_of, b2_of, hz, hden]
  exact sub_zero' hv

theorem adam_tried {root : X ℚ → X ℚ} (hroot : root (.inf false) = .inf false) {pow : X ℚ → ℕ → X ℚ} (hp : PowOk pow) {eps r : ℚ} (hr : |r| ≤ 2 ^ 10) (j : ι) : ∀ (k s : ℕ) (o : Opt (X ℚ) ι),
    Tame j o → ∀ {y : ℚ}, o.dir j = .fin y → |y| ≤ 2 ^ 1000 → binary64.Val (o.prev j) →
    Tame j (tried binary64 (adamX binary64 root pow (.fin eps)) (.fin r) s k o) ∧ ((o.s.getD fun _ => .fin 0) j = .inf false ∨ 2 ^ 512 ≤ |y| →
      ((tried binary64 (adamX binary64 root pow (.fin eps)) (.fin r) s k o).s.getD fun _ => .fin 0) j = .inf false ∧
        (tried binary64 (adamX binary64 root pow (.fin eps)) (.fin r) s k o).cur j = o.prev j) := by
  intro k
  have hρ : ∀ s, ∃ ρ, binary64.mulX (.fin r) (tau binary64 s) = .fin ρ ∧ |ρ| ≤ 2 ^ 10 := by
    intro s
    obtain ⟨t, e, t0, t1⟩ := tau_fin binary64 s
    rw [e]
    refine of_abs_le (by decide +kernel) (by decide +kernel) ?_
    rw [abs_mul, abs_of_nonneg t0]
    calc |r| * t ≤ |r| * 1 := mul_le_mul_of_nonneg_left t1 (abs_nonneg r)
      _ ≤ 2 ^ 10 := by rw [mul_one]; exact hr
  induction k with
  | zero =>
    intro s o ho y hd hy hv
    obtain ⟨ρ, e, b⟩ := hρ s
    rw [tried, e]
    exact adam_step hroot hp b j o ho hd hy hv
  | succ k ih =>
    intro s o ho y hd hy hv
    obtain ⟨ρ, e, b⟩ := hρ s
    rw [tried, e]
    obtain ⟨a1, a2⟩ := adam_step hroot hp (eps := eps) b j o ho hd hy hv
    obtain ⟨b1, b2⟩ := ih (s + 1) (adamX binary64 root pow (.fin eps) (.fin ρ) o) a1 (y := y) hd hy hv
    exact ⟨b1, fun h => b2 (Or.inl (a2 h).1)⟩

/-- **C120** Adam freezes entries whose gradient is too large to be squared: if entry `j` of the gradient is at least `2 ^ 512` in size at some design of the history (and the gradients are
finite, at most `2 ^ 1000`), then entry `j` of the design never changes again. Learning rate at most 1024. -/
theorem C120_adam_frozen {root : X ℚ → X ℚ} (hroot : root (.inf false) = .inf false) {pow : X ℚ → ℕ → X ℚ} (hp : PowOk pow) {eps r : ℚ} (hr : |r| ≤ 2 ^ 10) (f : (ι → X ℚ) → X ℚ)
    (g : (ι → X ℚ) → ι → X ℚ) (fuel maxIter : ℕ) (x0 : ι → X ℚ) (j : ι) (hx : binary64.Val (x0 j)) (o : Opt (X ℚ) ι)
    (h : optimizeX binary64 fuel f g (adamX binary64 root pow (.fin eps)) (.fin r) maxIter x0 = some o) (hg : ∀ d ∈ o.designs, ∃ y, g d j = .fin y ∧ |y| ≤ 2 ^ 1000)
    {m m' : ℕ} {d d' : ι → X ℚ} (hm : o.designs[m]? = some d) (hbig : ∃ y, g d j = .fin y ∧ 2 ^ 512 ≤ |y|) (hle : m ≤ m') (hm' : o.designs[m']? = some d') : d' j = d j := by
  have hrule : Rule binary64 (adamX (ι := ι) binary64 root pow (.fin eps)) := Or.inr ⟨_, _, _, rfl⟩
  obtain ⟨N, st, -, h0, -, hs, hd⟩ := trace binary64 hrule f g (.fin r) fuel maxIter x0 o h
  obtain ⟨a, rfl⟩ := trace_get hd hm
  obtain ⟨a', rfl⟩ := trace_get hd hm'
  have hgk : ∀ k ≤ N, ∃ y, g (st k).cur j = .fin y ∧ |y| ≤ 2 ^ 1000 := fun k hk => hg _ (by
    rw [hd]; exact List.mem_map.2 ⟨k, List.mem_range.2 (by omega), rfl⟩)
  have inv : ∀ k ≤ N, Tame j (st k) ∧ binary64.Val ((st k).cur j) := by
    intro k
    induction k with
    | zero =>
      intro _
      rw [h0]
      exact ⟨⟨⟨0, rfl, by norm_num⟩, ⟨binary64.fin_zero, le_rfl⟩⟩, hx⟩
    | succ k ih =>
      intro hk
      obtain ⟨i1, i2⟩ := ih (by omega)
      obtain ⟨y, ey, by'⟩ := hgk k (by omega)
      obtain ⟨t, c1, c2, c3, -⟩ := C120_pass binary64 hrule fuel f g _ k _ _ (hs k (by omega))
      obtain ⟨p1, -⟩ := adam_tried hroot hp (eps := eps) hr j t 0 (start g k (st k)) i1 (y := y) ey by' i2
      refine ⟨?_, ?_⟩
      · unfold Tame; rw [c2, c3]; exact p1
      · rw [c1]
        have hval : ∀ (t s : ℕ) (o : Opt (X ℚ) ι), binary64.Val ((tried binary64 (adamX binary64 root pow (.fin eps)) (.fin r) s t o).cur j) := by
          intro t
          induction t with
          | zero => intro s o; exact binary64.addX_val
          | succ t iht => intro s o; exact iht _ _
        exact hval _ _ _
  have step : ∀ k < N, (((st k).s.getD fun _ => .fin 0) j = .inf false ∨ ∃ y, g (st k).cur j = .fin y ∧ 2 ^ 512 ≤ |y|) →
      ((st (k + 1)).s.getD fun _ => .fin 0) j = .inf false ∧ (st (k + 1)).cur j = (st k).cur j := by
    intro k hk hor
    obtain ⟨i1, i2⟩ := inv k (by omega)
    obtain ⟨y, ey, by'⟩ := hgk k (by omega)
    obtain ⟨t, c1, c2, c3, -⟩ := C120_pass binary64 hrule fuel f g _ k _ _ (hs k hk)
    obtain ⟨-, p2⟩ := adam_tried hroot hp (eps := eps) hr j t 0 (start g k (st k)) i1 (y := y) ey by' i2
    obtain ⟨q1, q2⟩ := p2 (hor.imp id fun ⟨z, ez, bz⟩ => by
      rw [ey] at ez
      cases ez
      exact bz)
    rw [c1, c3]
    exact ⟨q1, q2⟩
  have main : ∀ k, m ≤ k → k ≤ N → (k = m ∨ ((st k).s.getD fun _ => .fin 0) j = .inf false) ∧ (st k).cur j = (st m).cur j := by
    intro k
    induction k with
    | zero =>
      intro hk _
      obtain rfl : m = 0 := by omega
      exact ⟨Or.inl rfl, rfl⟩
    | succ k ih =>
      intro hk hN
      by_cases hmk : m = k + 1
      · subst hmk; exact ⟨Or.inl rfl, rfl⟩
      · obtain ⟨u1, u2⟩ := ih (by omega) (by omega)
        obtain ⟨w1, w2⟩ := step k (by omega) (by
          rcases u1 with u1 | u1
          · subst u1; exact Or.inr hbig
          · exact Or.inl u1)
        exact ⟨Or.inr w1, w2.trans u2⟩
  exact (main m' hle a').2

/-! ### Cases -/

/-- `**` in double precision, correctly rounded. -/
def pow64 : X ℚ → ℕ → X ℚ
  | .fin b, t => binary64.of (b ^ t)
  | .inf s, _ => .inf s
  | .nan, _ => .nan

theorem pow64_ok : PowOk pow64 := by
  intro b h0 h1 hb t ht
  have hle : b ^ t ≤ b := by
    calc b ^ t ≤ b ^ 1 := pow_le_pow_of_le_one h0 h1 ht
      _ = b := pow_one b
  have h0' : 0 ≤ b ^ t := pow_nonneg h0 t
  refine ⟨binary64.rnd (b ^ t), binary64.of_small (by rw [abs_of_nonneg h0']; exact (hle.trans h1).trans binary64.one_le_big), binary64.nonneg h0', binary64.le_rep hb hle⟩

/-- `x²` in double precision, and its gradient. -/
def sqCost (x : Unit → X ℚ) : X ℚ := binary64.mulX (x ()) (x ())
def sqGrad (x : Unit → X ℚ) : Unit → X ℚ := fun u => binary64.mulX (.fin 2) (x u)

/-- Gradient descent on `x²` from 8, three passes: the hypotheses of `C120_history`, `C120_pass` and `C120_terminates`. -/
example : (optimizeX binary64 12 sqCost sqGrad (gdX binary64) (.fin 1) 3 (fun _ => .fin 8)).map (fun o => (o.costs, o.cur ())) = some ([.fin 64, .fin 0, .fin 0, .fin 0], .fin 0) := by
  decide +kernel

/-- From `2 ^ 600` the cost overflows, and NaN gradients spread: the hypotheses of `C120_nan_stays` and `C120_nan_runs_all`. -/
example : (optimizeX binary64 12 sqCost (fun x u => binary64.subX (sqCost x) (sqCost x)) (gdX binary64) (.fin 1) 3 (fun _ => .fin (2 ^ 600))).map (fun o => (o.costs, o.cur ()))
    = some ([.inf false, .nan, .nan, .nan], .nan) := by decide +kernel

/-- An undefined first cost: the default rate moves by `2 ^ (-33)` (the hypotheses of `C120_default_undefined`), though the first trial has a finite cost. -/
example : (optStepX binary64 12 (fun x : Unit → X ℚ => if x () = .fin 1 then .nan else .fin 0) (fun _ _ => .fin 1) (gdX binary64) (.fin (1 / 2)) 0
    (init (fun x : Unit → X ℚ => if x () = .fin 1 then .nan else .fin 0) fun _ => .fin 1)).map (fun o => (o.costs, o.cur ())) = some ([.nan, .fin 0], .fin (1 - 1 / 2 ^ 33)) := by
  decide +kernel

/-- A first cost that overflows: the hypotheses of `C120_overflow_start`; the run of 120 passes stops after 103, still moving. -/
example : (optimizeX binary64 12 (fun x : Unit → X ℚ => if x () = .fin (2 ^ 20) then .inf false else (x ()).abs) (fun _ _ => .fin 1) (gdX binary64) (.fin 1) 120 (fun _ => .fin (2 ^ 20))).map
    (fun o => (o.costs.length, o.cur ())) = some (104, .fin (2 ^ 20 - 103 / 2)) ∧ 0 < binary64.rnd (1 / 10000000) := by decide +kernel

/-- `C120_rate_not_finite`: for `x²` no design whose entry is NaN or infinite is better. -/
example (fuel maxIter : ℕ) : optimizeX binary64 fuel sqCost sqGrad (gdX binary64) .nan (maxIter + 1) (fun _ => .fin 8) = none :=
  C120_rate_not_finite binary64 (Or.inl rfl) (Or.inl rfl) sqCost sqGrad _ (fun y hy => by
    rcases hy () with h | ⟨s, h⟩
    · unfold sqCost; rw [h]; rfl
    · unfold sqCost; rw [h]; clear h hy; revert s; decide +kernel) fuel maxIter

/-- Adam on a gradient of `2 ^ 600`: the hypotheses of `C120_adam_frozen`; the entry stays at 1. -/
example : (optimizeX binary64 12 sqCost (fun _ _ => .fin (2 ^ 600)) (adamX binary64 Err.root64 pow64 (.fin (1 / 2 ^ 52))) (.fin (1 / 2)) 2 (fun _ => .fin 1)).map (fun o => (o.costs, o.cur ()))
    = some ([.fin 1, .fin 1, .fin 1], .fin 1) ∧ PowOk pow64 ∧ Err.root64 (.inf false) = .inf false := ⟨by decide +kernel, pow64_ok, rfl⟩

/-- The other criterion and the counters: three costs, the last step small relative to the first cost (the last hypothesis of `C120_absolute_never` fails for a positive first cost). -/
example : SmallAbs binary64 [.fin 4, .fin 1, .fin 1] 2 ∧ ¬SmallAbs binary64 [.fin (-4), .fin 1, .fin 1] 2 ∧ SmallRel binary64 [.fin (-4), .fin 1, .fin 1] 2 ∧ ¬SmallRel binary64 [.fin 1, .nan, .fin 1] 2 := by
  decide +kernel

end SMT.Fp.Optim
