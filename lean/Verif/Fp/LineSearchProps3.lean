import Verif.Fp.LineSearchProps2

/-!
# Property C107: training of regularised splines with backtracking in double precision; searches that hang
-/
set_option linter.unusedSectionVars false
set_option linter.unusedSimpArgs false
set_option linter.unusedVariables false

namespace SMT.Fp
open Srch

section
variable {K : Type} [Field K] [LinearOrder K] [IsStrictOrderedRing K] {n : ℕ} (F : Format K)

/-- All entries are finite numbers of the format. -/
def FinV (v : Vec K n) : Prop := ∀ i, ∃ a, v i = .fin a ∧ F.Fin a

/-- With finite vectors the point at step length zero is the start. -/
theorem pt_zero (L : Srch K n) (hx : FinV F L.x) (hd : FinV F L.dx) : L.pt F (.fin 0) = L.x := by
  funext i
  obtain ⟨a, ha, hf⟩ := hx i
  obtain ⟨b, hb, -⟩ := hd i
  unfold Srch.pt
  rw [ha, hb]
  show F.addX (.fin a) (F.of (0 * b)) = _
  rw [zero_mul, F.of_zero]
  exact add_zero_val F hf

/-- **C107** If the linear solver returns a direction with a NaN or an infinity and the objective of a vector with a NaN is NaN, training with the
default line search never returns once a pass is made. -/
theorem C107_newton_hangs (dot : Vec K n → Vec K n → X K) (tol : X K) (o : Obj K n) (it : ℕ) (st : NwSt K n) (hn : tol.lt (o.norm st.sol) = true) (d : Vec K n)
    (hd : o.dir st.sol st.d = some d) (hb : ∃ i, d i = .nan ∨ ∃ s, d i = .inf s) (hf : ∀ v : Vec K n, (∃ i, v i = .nan) → o.func v = .nan) :
    ∀ fuel, newtonX F dot (backX F fuel) tol o (it + 1) st = .hang := by
  intro fuel
  rw [newtonX, if_pos hn, hd]
  dsimp only
  have : backX F fuel (mkSrch F dot o st.sol d) = .hang := by
    unfold backX
    rw [C107_direction_hangs F (mkSrch F dot o st.sol d) hf hb]
  rw [this]
  rfl

/-- **C107** A bracketed search that finds no bracket within its 20 extensions makes the unknowns of that output NaN. -/
theorem C107_no_bracket_nan (dot : Vec K n → Vec K n → X K) (tol : X K) (o : Obj K n) (it : ℕ) (st : NwSt K n) (hn : tol.lt (o.norm st.sol) = true)
    (d : Vec K n) (hd : o.dir st.sol st.d = some d) (cm : Srch K n → Tr K → Tr K → Option (Tr K)) (fuel : ℕ)
    (hb : (mkSrch F dot o st.sol d).bracketed F (cm (mkSrch F dot o st.sol d)) fuel (.fin 1) = .nothing)
    (hf : o.norm (fun _ => .nan) = .nan) :
    newtonX F dot (bracketX F cm fuel) tol o (it + 1) st = .done ⟨fun _ => .nan, d, true⟩ := by
  rw [newtonX, if_pos hn, hd]
  dsimp only
  have : bracketX F cm fuel (mkSrch F dot o st.sol d) = .done fun _ => .nan := by
    unfold bracketX
    rw [hb]
  rw [this]
  exact C107_newton_nan F dot _ tol o it ⟨fun _ => .nan, d, true⟩ hf

end

/-- **C107** Training one output with the default line search in double precision. Suppose that wherever the computed objective
is at most `B` the vector is finite and the objective is a finite double, and that there the solver returns a finite direction along which the
computed derivative is not positive. Then the Newton loop, started where the objective is at most `B`, ends (1076 evaluations per search
suffice), and the computed objective at its result is at most the one at its start. -/
theorem C107_newton_returns {n : ℕ} (dot : Vec ℚ n → Vec ℚ n → X ℚ) (tol : X ℚ) (o : Obj ℚ n) (B : ℚ)
    (hobj : ∀ v : Vec ℚ n, (∀ i, binary64.Val (v i)) → (o.func v).le (.fin B) = true → FinV binary64 v ∧ ∃ b, o.func v = .fin b ∧ binary64.Fin b)
    (hdir : ∀ s d, FinV binary64 s → (o.func s).le (.fin B) = true → ∃ d', o.dir s d = some d' ∧ FinV binary64 d' ∧ ∃ b ≤ 0, dot (o.grad s) d' = .fin b)
    (fuel : ℕ) (hfuel : 1076 ≤ fuel) : ∀ (it : ℕ) (st : NwSt ℚ n) (b0 : ℚ), FinV binary64 st.sol → o.func st.sol = .fin b0 → b0 ≤ B →
      ∃ st' b, newtonX binary64 dot (backX binary64 fuel) tol o it st = .done st' ∧ FinV binary64 st'.sol ∧ o.func st'.sol = .fin b ∧ b ≤ b0 := by
  intro it
  induction it with
  | zero => intro st b0 h1 h2 _; exact ⟨st, b0, rfl, h1, h2, le_rfl⟩
  | succ it ih =>
    intro st b0 h1 h2 hB
    have hlB : (o.func st.sol).le (.fin B) = true := by rw [h2]; exact decide_eq_true hB
    rw [newtonX]
    split_ifs with hn
    swap
    · exact ⟨st, b0, rfl, h1, h2, le_rfl⟩
    obtain ⟨d, hd, hdf, g, hg, hdot⟩ := hdir st.sol st.d h1 hlB
    rw [hd]
    dsimp only
    set L := mkSrch binary64 dot o st.sol d with hL
    have hz : L.pt binary64 (.fin 0) = st.sol := pt_zero binary64 L h1 hdf
    have hp : L.phi binary64 (.fin 0) = .fin b0 := by
      unfold Srch.phi
      rw [hz]
      exact h2
    have hdp : L.dphi binary64 (.fin 0) = .fin g := by
      unfold Srch.dphi
      rw [hz]
      exact hdot
    obtain ⟨-, b1, hb1, hfin⟩ := hobj st.sol (fun i => by obtain ⟨a, ha, hf⟩ := h1 i; rw [ha]; exact hf) hlB
    have e1 : b1 = b0 := by rw [h2] at hb1; injection hb1 with h; exact h.symm
    subst e1
    have hv : binary64.Val (L.phi binary64 (.fin 0)) := by rw [hp]; exact hfin
    obtain ⟨c, hc0, hc⟩ : ∃ c, 0 ≤ c ∧ L.u1 = .fin c := by
      refine ⟨binary64.rnd (1 / 10000), by decide +kernel, ?_⟩
      show binary64.of (1 / 10000) = _
      exact binary64.of_small (by decide +kernel)
    obtain ⟨r, hr⟩ := (C107_double_returns_iff L hc hv (by rw [hdp]; intro s h; cases h)).2 (by rw [hp]; intro h; cases h) (by rw [hdp]; intro h; cases h)
    have hr' : L.backtrack binary64 (.fin (1 / 2)) fuel (.fin 1) = some r := by
      obtain ⟨k, hk, rest⟩ := (C107_backtrack_iff binary64 L _ r 1076 _).1 hr
      exact (C107_backtrack_iff binary64 L _ r fuel _).2 ⟨k, by omega, rest⟩
    have hle := C107_never_increases binary64 L hc0 hc (rho := 1 / 2) (by norm_num) hv (by rw [hdp]; exact hg) (a := .fin 1) (r := r) ⟨binary64.fin_one, by norm_num⟩ fuel hr'
    rw [hp] at hle
    have hleB : (o.func (L.pt binary64 r)).le (.fin B) = true := by
      revert hle
      change (o.func (L.pt binary64 r)).le (.fin b1) = true → _
      cases o.func (L.pt binary64 r) with
      | nan => exact fun h => h
      | inf s => exact fun h => h
      | fin q => intro h; exact decide_eq_true ((of_decide_eq_true h).trans hB)
    obtain ⟨hfv, b2, hb2, -⟩ := hobj (L.pt binary64 r) (fun i => binary64.addX_val) hleB
    have hle2 : b2 ≤ b1 := by
      change (o.func (L.pt binary64 r)).le (.fin b1) = true at hle
      rw [hb2] at hle
      exact of_decide_eq_true hle
    have hls : backX binary64 fuel L = .done (L.pt binary64 r) := by
      unfold backX
      rw [hr']
    rw [hls]
    obtain ⟨st', b, hst, hf', hb', hbb⟩ := ih ⟨L.pt binary64 r, d, true⟩ b2 hfv hb2 (hle2.trans hB)
    exact ⟨st', b, hst, hf', hb', hbb.trans hle2⟩

/-! ## Searches that hang -/

/-- The objective is 1 everywhere, and the computed derivative -0.001: an objective whose variation is lost in rounding. -/
def flat : Srch ℚ 1 :=
  ⟨fun _ => .fin 0, fun _ => .fin 1, fun _ => .fin 1, fun _ _ => binary64.of (-1 / 1000), fun v w => binary64.mulX (v 0) (w 0),
    binary64.of (1 / 10000), binary64.of (9 / 10)⟩

/-- The two neighbouring doubles at which the bisection of `flat` stands still. -/
def flatLow : ℚ := 78125 / 140737488355328
def flatHigh : ℚ := 5368709120000001 / 9671406556917033397649408

/-- **C107** The bisecting search (`line_search="bracketed"`) can run forever in double precision: on `flat` its interval shrinks to two
neighbouring doubles, whose midpoint rounds to one of them. Backtracking returns on the same data. -/
theorem C107_bracketed_hangs : (∀ fuel, flat.bracketed binary64 (flat.midpoint binary64) fuel (.fin 1) = .fuel) ∧
    ∃ r, flat.backtrack binary64 (.fin (1 / 2)) 1076 (.fin 1) = some r := by
  constructor
  · intro fuel
    have h1 : flat.bracketed binary64 (flat.midpoint binary64) fuel (.fin 1) =
        flat.zoom binary64 (flat.midpoint binary64) fuel (flat.eval binary64 (.fin 0)) (flat.eval binary64 (.fin 1)) := by
      unfold Srch.bracketed
      rw [Srch.bracket, if_pos (by decide +kernel)]
    rw [h1]
    refine zoom_zsteps binary64 flat (flat.midpoint binary64) 90 (st := (flat.eval binary64 (.fin 0), flat.eval binary64 (.fin 1)))
      (st' := (flat.eval binary64 (.fin flatLow), flat.eval binary64 (.fin flatHigh))) (by decide +kernel) ?_ fuel
    exact C107_zoom_cycle binary64 flat _ 0 _ (by decide +kernel)
  · refine (C107_double_returns_iff flat (c := binary64.rnd (1 / 10000)) ?_ ?_ ?_).2 ?_ ?_
    · exact binary64.of_small (by decide +kernel)
    · exact binary64.fin_one
    · intro s; cases s <;> decide +kernel
    · intro h; cases h
    · decide +kernel

/-- The objective jumps up as soon as the start is left, although the gradient promises a descent. -/
def jump : Srch ℚ 1 :=
  ⟨fun _ => .fin 0, fun _ => .fin 1, fun v => if v 0 = .fin 0 then .fin 0 else .fin 1, fun _ _ => .fin (-1), fun v w => binary64.mulX (v 0) (w 0),
    binary64.of (1 / 10000), binary64.of (9 / 10)⟩

theorem jump_fails (b : ℚ) (h : 0 < b) (h1 : b ≤ 1) (hb : binary64.Fin b) : jump.funcDec binary64 (.fin b) = false := by
  have e1 : binary64.mulX (.fin b) (.fin 1) = .fin b := by
    show binary64.of (b * 1) = _
    rw [mul_one, binary64.of_fin hb]
  have e2 : binary64.addX (.fin 0) (.fin b) = .fin b := by
    show binary64.of (0 + b) = _
    rw [zero_add, binary64.of_fin hb]
  have hpt : jump.pt binary64 (.fin b) 0 = .fin b := by
    show binary64.addX (.fin 0) (binary64.mulX (.fin b) (.fin 1)) = _
    rw [e1, e2]
  have hphi : jump.phi binary64 (.fin b) = .fin 1 := by
    show (if jump.pt binary64 (.fin b) 0 = .fin 0 then X.fin (0 : ℚ) else .fin 1) = _
    rw [hpt, if_neg]
    intro hc
    injection hc with hc
    exact h.ne' hc
  have h0 : jump.phi binary64 (.fin 0) = .fin 0 := by decide +kernel
  by_contra hc
  have hc : jump.funcDec binary64 (.fin b) = true := by simpa using hc
  have := funcDec_le binary64 jump (c := binary64.rnd (1 / 10000)) (by decide +kernel) (binary64.of_small (by decide +kernel)) (by rw [h0]; exact binary64.fin_zero)
    (by rw [show jump.dphi binary64 (.fin 0) = .fin (-1) by decide +kernel]; show (-1 : ℚ) ≤ 0; norm_num) (a := .fin b) ⟨hb, h.le⟩ hc
  rw [hphi, h0] at this
  exact absurd this (by decide +kernel)

/-- **C107** On `jump` the default factor 0.5 ends at the start itself after 1076 evaluations and no fewer; the factor 0.9 never ends. -/
theorem C107_factor : jump.backtrack binary64 (.fin (1 / 2)) 1076 (.fin 1) = some (.fin 0) ∧
    jump.backtrack binary64 (.fin (1 / 2)) 1075 (.fin 1) = none ∧
    ∀ fuel, jump.backtrack binary64 (.fin (binary64.rnd (9 / 10))) fuel (.fin 1) = none := by
  have ht : ∀ k ≤ 1074, trial binary64 (.fin (1 / 2)) (.fin 1) k = .fin ((1 / 2) ^ k) ∧ binary64.Fin ((1 / 2 : ℚ) ^ k) := by
    intro k
    induction k with
    | zero => intro _; exact ⟨by simp [trial], by simpa using binary64.fin_one⟩
    | succ k ih =>
      intro hk
      obtain ⟨h1, h2⟩ := ih (by omega)
      have hpw : ((1 / 2 : ℚ)) ^ (k + 1) = 2 ^ (1074 - (k + 1)) * grid 53 (-1022) := by
        unfold grid
        rw [one_div, inv_pow, ← zpow_natCast, ← zpow_neg, ← zpow_natCast (2 : ℚ) (1074 - (k + 1)), ← zpow_add₀ two_ne_zero]
        congr 1
        omega
      have hrep : binary64.rnd ((1 / 2 : ℚ) ^ (k + 1)) = (1 / 2) ^ (k + 1) := by
        rw [hpw]
        exact rns_pow (by norm_num) _
      have hle : |((1 / 2 : ℚ)) ^ (k + 1)| ≤ 1 := by
        rw [abs_of_pos (by positivity)]
        exact pow_le_one₀ (by norm_num) (by norm_num)
      have hf : binary64.Fin ((1 / 2 : ℚ) ^ (k + 1)) := ⟨hrep, hle.trans binary64.one_le_big⟩
      refine ⟨?_, hf⟩
      unfold trial at h1 ⊢
      rw [Function.iterate_succ_apply', h1]
      show binary64.of _ = _
      rw [← pow_succ, binary64.of_fin hf]
  have hz : trial binary64 (.fin (1 / 2)) (.fin 1) 1075 = .fin 0 :=
    trial_zero (p := 53) (e := -1022) (by norm_num) (by norm_num) maxDouble (by decide +kernel) (by decide +kernel) (rho := 1 / 2)
      (by rw [abs_of_pos] <;> norm_num) 1074 binary64.fin_one (by rw [abs_one]; exact le_of_eq (by decide +kernel))
  have hfail : ∀ k ≤ 1074, jump.funcDec binary64 (trial binary64 (.fin (1 / 2)) (.fin 1) k) = false := by
    intro k hk
    obtain ⟨h1, h2⟩ := ht k hk
    rw [h1]
    exact jump_fails _ (by positivity) (pow_le_one₀ (by norm_num) (by norm_num)) h2
  refine ⟨?_, ?_, ?_⟩
  · exact (C107_backtrack_iff binary64 jump _ _ 1076 _).2 ⟨1075, by norm_num, hz.symm, by decide +kernel, fun j hj => hfail j (by omega)⟩
  · cases hb : jump.backtrack binary64 (.fin (1 / 2)) 1075 (.fin 1) with
    | none => rfl
    | some r =>
      obtain ⟨k, hk, hr, hd, -⟩ := (C107_backtrack_iff binary64 jump _ r 1075 _).1 hb
      rw [hr, hfail k (by omega)] at hd
      cases hd
  · rw [never_iff]
    intro k
    obtain ⟨b, hb1, hb2, hb3, hb4⟩ := trial_pos (p := 53) (e := -1022) (by norm_num) (by norm_num) maxDouble (by decide +kernel) (by decide +kernel)
      (rho := binary64.rnd (9 / 10)) (by decide +kernel) (by decide +kernel) k (a := 1) binary64.fin_one (by decide +kernel)
    rw [show trial binary64 (.fin (binary64.rnd (9 / 10))) (.fin 1) k = .fin b from hb1]
    exact jump_fails b (lt_of_lt_of_le grid_pos hb3) hb4 hb2

/-! ## A training run -/

/-- One unknown, objective `(v - 3)²` as computed, Newton direction `3 - v`. -/
def parab : Obj ℚ 1 where
  func := fun v => binary64.mulX (binary64.subX (v 0) (.fin 3)) (binary64.subX (v 0) (.fin 3))
  grad := fun v _ => binary64.mulX (.fin 2) (binary64.subX (v 0) (.fin 3))
  norm := fun v => (binary64.mulX (.fin 2) (binary64.subX (v 0) (.fin 3))).abs
  dir := fun v _ => some fun _ => binary64.subX (.fin 3) (v 0)

/-- The first coordinates of a result. -/
def firsts : Run (List (Vec ℚ 1)) → Run (List (X ℚ))
  | .done l => .done (l.map (· 0))
  | .raised => .raised
  | .hang => .hang

/-- The same with a NaN output. -/
def nanOut : Obj ℚ 1 := { parab with norm := fun _ => .nan }

/-- The same with a solver that returns an infinite direction. -/
def badDir : Obj ℚ 1 := { parab with dir := fun _ _ => some fun _ => .inf false }

/-- Training finds the minimum; with a NaN output beside it training ends normally too and that output is zero; alone it raises. -/
example : firsts (trainX binary64 (fun v w => binary64.mulX (v 0) (w 0)) (backX binary64 1076) (binary64.of (1 / 10 ^ 12)) 10 [parab] [parab] false) = .done [.fin 3] ∧
    firsts (trainX binary64 (fun v w => binary64.mulX (v 0) (w 0)) (backX binary64 1076) (binary64.of (1 / 10 ^ 12)) 10 [parab, nanOut] [parab, nanOut] false) =
      .done [.fin 3, .fin 0] ∧
    firsts (trainX binary64 (fun v w => binary64.mulX (v 0) (w 0)) (backX binary64 1076) (binary64.of (1 / 10 ^ 12)) 10 [nanOut] [nanOut] false) = .raised := by
  refine ⟨by decide +kernel, by decide +kernel, by decide +kernel⟩

theorem sub_three {a : ℚ} (ha : binary64.Fin a) : binary64.subX (.fin 3) (.fin a) = (binary64.subX (.fin a) (.fin 3)).neg := by
  show binary64.of (3 + -a) = (binary64.of (a + -3)).neg
  have e : (3 + -a : ℚ) = -(a + -3) := by ring
  rw [e]
  unfold Format.of
  rw [binary64.odd, abs_neg]
  split
  · rfl
  · rename_i h
    have h0 : a + -3 ≠ 0 := by
      intro h0
      apply h
      rw [h0, binary64.zero, abs_zero]
      exact binary64.big_pos.le
    show X.inf _ = X.inf _
    congr 1
    rcases lt_or_gt_of_ne h0 with h1 | h1
    · rw [decide_eq_true h1, decide_eq_false (by linarith)]; rfl
    · rw [decide_eq_false (not_lt.2 h1.le), decide_eq_true (by linarith)]; rfl

/-- Where the objective is at most 9 the difference to 3 is at most 3. -/
theorem parab_level {v : Vec ℚ 1} (hv : ∀ i, binary64.Val (v i)) (h : (parab.func v).le (.fin 9) = true) :
    ∃ a c, v 0 = .fin a ∧ binary64.Fin a ∧ binary64.subX (.fin a) (.fin 3) = .fin c ∧ binary64.Fin c ∧ |c| < 4 ∧
      ∃ b, parab.func v = .fin b ∧ binary64.Fin b := by
  have hv0 := hv 0
  have h' : (binary64.mulX (binary64.subX (v 0) (.fin 3)) (binary64.subX (v 0) (.fin 3))).le (.fin 9) = true := h
  have hf : parab.func v = binary64.mulX (binary64.subX (v 0) (.fin 3)) (binary64.subX (v 0) (.fin 3)) := rfl
  rw [hf]
  revert h' hv0
  cases v 0 with
  | nan => intro _ h; cases h
  | inf s => intro _ h; cases s <;> cases h
  | fin a =>
    intro ha h'
    have hc : binary64.Val (binary64.subX (.fin a) (.fin 3)) := binary64.addX_val
    revert h' hc
    cases hs : binary64.subX (.fin a) (.fin 3) with
    | nan => intro h _; cases h
    | inf s => intro h _; cases s <;> cases h
    | fin c =>
      intro h hc
      change (binary64.of (c * c)).le (.fin 9) = true at h
      have hb : binary64.Val (binary64.of (c * c)) := binary64.of_val _
      have hval : |binary64.rnd (c * c)| ≤ binary64.big ∧ binary64.rnd (c * c) ≤ 9 := by
        unfold Format.of at h
        split_ifs at h with h1
        · exact ⟨h1, of_decide_eq_true h⟩
        · rw [decide_eq_false (not_lt.2 (mul_self_nonneg c))] at h
          cases h
      refine ⟨a, c, rfl, ha, hs, hc, ?_, binary64.rnd (c * c), ?_, ?_⟩
      · by_contra h4
        have h5 : (16 : ℚ) ≤ c * c := by nlinarith [abs_mul_abs_self c, abs_nonneg c, not_lt.1 h4]
        have h6 := binary64.mono _ _ h5
        have h7 : binary64.rnd 16 = 16 := by decide +kernel
        rw [h7] at h6
        linarith [hval.2]
      · show binary64.of (c * c) = _
        unfold Format.of
        rw [if_pos hval.1]
      · exact ⟨binary64.idem _, hval.1⟩

/-- The hypotheses of `C107_newton_returns` hold for `parab` started at zero. -/
example (it : ℕ) : ∃ st' b, newtonX binary64 (fun v w => binary64.mulX (v 0) (w 0)) (backX binary64 1076) (binary64.of (1 / 10 ^ 12)) parab it
    ⟨fun _ => .fin 0, fun _ => .fin 0, false⟩ = .done st' ∧ FinV binary64 st'.sol ∧ parab.func st'.sol = .fin b ∧ b ≤ 9 := by
  refine C107_newton_returns _ _ parab 9 ?_ ?_ 1076 le_rfl it _ 9 (fun i => ⟨0, rfl, binary64.fin_zero⟩) (by decide +kernel) le_rfl
  · intro v hv h
    obtain ⟨a, c, h1, h2, h3, h4, h5, b, hb, hbf⟩ := parab_level hv h
    refine ⟨fun i => ⟨a, ?_, h2⟩, b, hb, hbf⟩
    rw [← h1]; congr 1; exact Subsingleton.elim _ _
  · intro s d hs h
    obtain ⟨a, c, h1, h2, h3, h4, h5, b, hb, hbf⟩ := parab_level (fun i => by obtain ⟨a, ha, hf⟩ := hs i; rw [ha]; exact hf) h
    have e1 : binary64.subX (.fin 3) (s 0) = .fin (-c) := by rw [h1, sub_three h2, h3]; rfl
    have hneg : binary64.Fin (-c) := ⟨by rw [binary64.odd, h4.1], by rw [abs_neg]; exact h4.2⟩
    have hbig : (100 : ℚ) ≤ binary64.big := by decide +kernel
    have habs := abs_lt.1 h5
    have e2 : binary64.mulX (.fin 2) (.fin c) = .fin (binary64.rnd (2 * c)) := by
      apply binary64.of_small
      rw [abs_le]
      constructor <;> linarith [habs.1, habs.2]
    have e3 : |binary64.rnd (2 * c)| ≤ 8 := by
      have h8 : binary64.rnd 8 = 8 := by decide +kernel
      rw [abs_le]
      refine ⟨?_, ?_⟩
      · have := binary64.mono (-8) (2 * c) (by linarith [habs.1])
        rwa [binary64.odd, h8] at this
      · have := binary64.mono (2 * c) 8 (by linarith [habs.2])
        rwa [h8] at this
    refine ⟨_, rfl, fun i => ⟨-c, e1, hneg⟩, binary64.rnd (binary64.rnd (2 * c) * -c), ?_, ?_⟩
    · apply binary64.nonpos
      rcases le_total 0 c with h0 | h0
      · have := binary64.nonneg (x := 2 * c) (by linarith)
        nlinarith
      · have := binary64.nonpos (x := 2 * c) (by linarith)
        nlinarith
    · show binary64.mulX (binary64.mulX (.fin 2) (binary64.subX (s 0) (.fin 3))) (binary64.subX (.fin 3) (s 0)) = _
      rw [e1, h1, h3, e2]
      apply binary64.of_small
      rw [abs_mul, abs_neg]
      have := abs_nonneg c
      have := abs_nonneg (binary64.rnd (2 * c))
      nlinarith

/-- The hypotheses of `C107_newton_hangs` hold for `badDir`. -/
example : ∀ fuel, newtonX binary64 (fun v w => binary64.mulX (v 0) (w 0)) (backX binary64 fuel) (binary64.of (1 / 10 ^ 12)) badDir 1
    ⟨fun _ => .fin 0, fun _ => .fin 0, false⟩ = .hang := by
  refine C107_newton_hangs binary64 _ _ badDir 0 _ (by decide +kernel) _ rfl ⟨0, Or.inr ⟨false, rfl⟩⟩ ?_
  rintro v ⟨i, hi⟩
  have : v 0 = .nan := by rw [← hi]; congr 1; exact (Subsingleton.elim _ _)
  show binary64.mulX (binary64.subX (v 0) (.fin 3)) _ = .nan
  rw [this]
  rfl

end SMT.Fp
