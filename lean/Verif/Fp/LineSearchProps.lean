import Verif.Fp.LineSearch
import Verif.Fp.IdwProps

/-!
# Property C107: backtracking line search in IEEE arithmetic

Specification: the step lengths tried are `a, a*rho, a*rho*rho, ...` (rounded products); a search "returns" if it does so for some fuel.
-/
set_option linter.unusedSectionVars false
set_option linter.unusedSimpArgs false
set_option linter.unusedVariables false

namespace SMT.Fp
open SMT.MixedInt (roundHalfEven)

section
variable {K : Type} [Field K] [LinearOrder K] [IsStrictOrderedRing K] {n : ℕ} (F : Format K) (L : Srch K n)

/-- The `k`-th step length tried. -/
def trial (rho a : X K) (k : ℕ) : X K := (fun b => F.mulX b rho)^[k] a

/-! ## What is returned -/

/-- **C107** The backtracking search returns the first step length tried that passes the decrease test, and uses one more evaluation
than there were rejections. -/
theorem C107_backtrack_iff (rho r : X K) : ∀ (fuel : ℕ) (a : X K), L.backtrack F rho fuel a = some r ↔
    ∃ k < fuel, r = trial F rho a k ∧ L.funcDec F r = true ∧ ∀ j < k, L.funcDec F (trial F rho a j) = false := by
  intro fuel
  induction fuel with
  | zero => intro a; simp [Srch.backtrack]
  | succ m ih =>
    intro a
    rw [Srch.backtrack]
    by_cases h : L.funcDec F a = true
    · rw [h]
      constructor
      · intro e
        have e : a = r := by simpa using e
        subst e
        exact ⟨0, by omega, rfl, h, fun j hj => by omega⟩
      · rintro ⟨k, hk, hr, hd, hj⟩
        rcases Nat.eq_zero_or_pos k with rfl | h0
        · rw [hr]; rfl
        · have := hj 0 h0
          rw [show trial F rho a 0 = a from rfl, h] at this
          exact absurd this (by simp)
    · have h : L.funcDec F a = false := by simpa using h
      rw [h]
      show L.backtrack F rho m (F.mulX a rho) = some r ↔ _
      rw [ih]
      constructor
      · rintro ⟨k, hk, hr, hd, hj⟩
        refine ⟨k + 1, by omega, hr, hd, fun j hj' => ?_⟩
        rcases j with _ | j
        · exact h
        · exact hj j (by omega)
      · rintro ⟨k, hk, hr, hd, hj⟩
        rcases k with _ | k
        · rw [hr, show trial F rho a 0 = a from rfl, h] at hd
          exact absurd hd (by simp)
        · exact ⟨k, by omega, hr, hd, fun j hj' => hj (j + 1) (by omega)⟩

/-- It never returns exactly when every step length tried fails the test. -/
theorem never_iff (rho a : X K) : (∀ fuel, L.backtrack F rho fuel a = none) ↔ ∀ k, L.funcDec F (trial F rho a k) = false := by
  constructor
  · intro h k
    by_contra hk
    have hex : ∃ k, L.funcDec F (trial F rho a k) = true := ⟨k, by simpa using hk⟩
    classical
    have hs := Nat.find_spec hex
    have hm : ∀ j < Nat.find hex, L.funcDec F (trial F rho a j) = false := fun j hj => by simpa using Nat.find_min hex hj
    have := (C107_backtrack_iff F L rho (trial F rho a (Nat.find hex)) (Nat.find hex + 1) a).2 ⟨_, by omega, rfl, hs, hm⟩
    rw [h] at this
    cases this
  · intro h fuel
    cases hb : L.backtrack F rho fuel a with
    | none => rfl
    | some r =>
      obtain ⟨k, -, hr, hd, -⟩ := (C107_backtrack_iff F L rho r fuel a).1 hb
      rw [hr, h] at hd
      cases hd

/-! ## NaN -/

theorem le_nan_right (a : X K) : a.le .nan = false := by cases a <;> rfl
theorem le_nan_left (a : X K) : (X.nan : X K).le a = false := rfl

/-- **C107** If the objective at the start or the directional derivative is NaN, the search never returns, whatever the step lengths. -/
theorem C107_nan_hangs (h : L.phi F (.fin 0) = .nan ∨ L.dphi F (.fin 0) = .nan) (rho a : X K) :
    ∀ fuel, L.backtrack F rho fuel a = none := by
  rw [never_iff]
  intro k
  unfold Srch.funcDec
  rcases h with h | h
  · rw [h, F.addX_nan_left, le_nan_right]
  · rw [h, F.mulX_nan_right, F.addX_nan_right, le_nan_right]

/-- **C107** In particular if the direction has a NaN or an infinity in it (the product with the step length `0.0` is NaN) and the objective
of a vector containing a NaN is NaN. -/
theorem C107_direction_hangs (hf : ∀ v : Vec K n, (∃ i, v i = .nan) → L.func v = .nan) (h : ∃ i, L.dx i = .nan ∨ ∃ s, L.dx i = .inf s)
    (rho a : X K) : ∀ fuel, L.backtrack F rho fuel a = none := by
  refine C107_nan_hangs F L (Or.inl (hf _ ?_)) rho a
  obtain ⟨i, hi⟩ := h
  refine ⟨i, ?_⟩
  show F.addX (L.x i) (F.mulX (.fin 0) (L.dx i)) = .nan
  rcases hi with hi | ⟨s, hi⟩
  · rw [hi, F.mulX_nan_right, F.addX_nan_right]
  · rw [hi]
    show F.addX (L.x i) (if (0 : K) = 0 then .nan else _) = .nan
    rw [if_pos rfl, F.addX_nan_right]

/-- **C107** An infinitely steep descent also hangs it, unless the objective reaches `-∞`. -/
theorem C107_steep_hangs (hd : L.dphi F (.fin 0) = .inf true) (c : K) (hc : 0 ≤ c) (hu : L.u1 = .fin c) (hp : ∀ a, L.phi F a ≠ .inf true) (rho a : X K)
    (ht : ∀ k, Nn F (trial F rho a k)) :
    ∀ fuel, L.backtrack F rho fuel a = none := by
  rw [never_iff]
  intro k
  unfold Srch.funcDec
  rw [hd, hu]
  have key : F.mulX (F.mulX (.fin c) (trial F rho a k)) (.inf true) = .nan ∨ F.mulX (F.mulX (.fin c) (trial F rho a k)) (.inf true) = .inf true := by
    have h1 : F.mulX (.fin c) (trial F rho a k) = .nan ∨ Nn F (F.mulX (.fin c) (trial F rho a k)) := by
      have := ht k
      revert this
      cases trial F rho a k with
      | nan => intro h; exact h.elim
      | inf s =>
        intro h
        by_cases h0 : c = 0
        · left; exact if_pos h0
        · right
          show Nn F (if c = 0 then .nan else .inf (decide (c < 0) != s))
          rw [if_neg h0, show s = false from h, decide_eq_false (not_lt.2 hc)]
          rfl
      | fin b =>
        intro h
        right
        show Nn F (F.of (c * b))
        have h0 : 0 ≤ c * b := mul_nonneg hc h.2
        unfold Format.of
        split
        · exact ⟨⟨F.idem _, by assumption⟩, F.nonneg h0⟩
        · exact decide_eq_false (not_lt.2 h0)
    rcases h1 with h1 | h1
    · left; rw [h1, F.mulX_nan_left]
    · revert h1
      cases F.mulX (.fin c) (trial F rho a k) with
      | nan => intro h; exact h.elim
      | inf s => intro h; right; rw [show s = false from h]; rfl
      | fin b =>
        intro h
        by_cases h0 : b = 0
        · left; exact if_pos h0
        · right
          show (if b = 0 then X.nan else .inf (decide (b < 0) != true)) = .inf true
          rw [if_neg h0, decide_eq_false (not_lt.2 h.2)]
          rfl
  rcases key with h | h
  · rw [h, F.addX_nan_right, le_nan_right]
  · rw [h]
    have h2 : F.addX (L.phi F (.fin 0)) (.inf true) = .nan ∨ F.addX (L.phi F (.fin 0)) (.inf true) = .inf true := by
      cases L.phi F (.fin 0) with
      | nan => left; rfl
      | fin b => right; rfl
      | inf s => cases s <;> [left; right] <;> rfl
    rcases h2 with h2 | h2
    · rw [h2, le_nan_right]
    · rw [h2]
      have := hp (trial F rho a k)
      revert this
      cases L.phi F (trial F rho a k) with
      | nan => intro _; rfl
      | fin b => intro _; rfl
      | inf s => cases s <;> intro h <;> [rfl; exact (h rfl).elim]

/-! ## The test at step length zero -/

theorem add_zero_val {a : X K} (h : F.Val a) : F.addX a (.fin 0) = a := by
  cases a with
  | nan => rfl
  | inf s => rfl
  | fin b =>
    show F.of (b + 0) = _
    rw [add_zero, F.of_fin h]

theorem le_refl_of_ne_nan {a : X K} (h : a ≠ .nan) : a.le a = true := by
  cases a with
  | nan => exact (h rfl).elim
  | inf s => cases s <;> rfl
  | fin b => exact decide_eq_true le_rfl

/-- At step length zero the test passes: `phi_0 <= phi_0 + 0`. -/
theorem funcDec_zero {c d : K} (hu : L.u1 = .fin c) (hd : L.dphi F (.fin 0) = .fin d) (hv : F.Val (L.phi F (.fin 0)))
    (hn : L.phi F (.fin 0) ≠ .nan) : L.funcDec F (.fin 0) = true := by
  unfold Srch.funcDec
  rw [hu, hd]
  have h1 : F.mulX (.fin c) (.fin 0) = .fin 0 := by
    show F.of (c * 0) = _
    rw [mul_zero, F.of_zero]
  have h2 : F.mulX (.fin 0) (.fin d) = .fin 0 := by
    show F.of (0 * d) = _
    rw [zero_mul, F.of_zero]
  rw [h1, h2, add_zero_val F hv, le_refl_of_ne_nan hn]

/-! ## Monotonicity -/

theorem mul_nn {b rho : K} (hrho : 0 ≤ rho) : ∀ {a : X K}, Nn F a → 0 < rho → Nn F (F.mulX a (.fin rho))
  | .nan, h, _ => h.elim
  | .inf s, h, hp => by
    show Nn F (if rho = 0 then .nan else .inf (decide (rho < 0) != s))
    rw [if_neg hp.ne', show s = false from h, decide_eq_false (not_lt.2 hrho)]
    rfl
  | .fin a, h, _ => by
    show Nn F (F.of (a * rho))
    have h0 : 0 ≤ a * rho := mul_nonneg h.2 hrho
    unfold Format.of
    split
    · exact ⟨⟨F.idem _, by assumption⟩, F.nonneg h0⟩
    · exact decide_eq_false (not_lt.2 h0)

/-- With a positive factor all step lengths tried are non-negative. -/
theorem trial_nn {rho : K} (hrho : 0 < rho) {a : X K} (ha : Nn F a) : ∀ k, Nn F (trial F (.fin rho) a k) := by
  intro k
  induction k with
  | zero => exact ha
  | succ k ih =>
    unfold trial at ih ⊢
    rw [Function.iterate_succ_apply']
    exact mul_nn F (b := 0) hrho.le ih hrho

/-- Not positive (and not NaN). -/
def Np : X K → Prop
  | .fin x => x ≤ 0
  | .inf s => s = true
  | .nan => False

/-- Adding something not positive does not increase, in any format. -/
theorem add_np {a t : X K} (hv : F.Val a) (ht : Np t ∨ t = .nan) {p : X K} (h : p.le (F.addX a t) = true) : p.le a = true := by
  rcases ht with ht | ht
  swap
  · rw [ht, F.addX_nan_right, le_nan_right] at h
    cases h
  cases a with
  | nan => rw [F.addX_nan_left, le_nan_right] at h; cases h
  | inf s =>
    cases t with
    | nan => exact ht.elim
    | fin b => exact h
    | inf r =>
      rw [show r = true from ht] at h
      cases s with
      | true => exact h
      | false =>
        rw [show F.addX (.inf false) (.inf true) = .nan from rfl, le_nan_right] at h
        cases h
  | fin b =>
    cases t with
    | nan => exact ht.elim
    | inf r =>
      rw [show r = true from ht] at h
      revert h
      cases p with
      | nan => exact fun h => h
      | fin q => intro h; cases h
      | inf q => cases q <;> intro h <;> [cases h; rfl]
    | fin r =>
      have h0 : b + r ≤ b := by have : r ≤ 0 := ht; linarith
      have h1 : F.rnd (b + r) ≤ b := F.le_rep hv.1 h0
      revert h
      show p.le (F.of (b + r)) = true → _
      unfold Format.of
      split
      · cases p with
        | nan => exact fun h => h
        | inf q => exact fun h => h
        | fin q =>
          intro h
          exact decide_eq_true ((of_decide_eq_true h).trans h1)
      · rename_i hb
        have hneg : b + r < 0 := by
          by_contra hc
          apply hb
          rw [abs_le]
          have := F.big_pos
          have h2 := F.nonneg (not_lt.1 hc)
          have h3 := (abs_le.1 hv.2).2
          exact ⟨by linarith, h1.trans h3⟩
        rw [decide_eq_true hneg]
        cases p with
        | nan => exact fun h => h
        | fin q => intro h; cases h
        | inf q => cases q <;> intro h <;> [cases h; rfl]

theorem mul_np {c : K} (hc : 0 ≤ c) {a d : X K} (ha : Nn F a) (hd : Np d) : Np (F.mulX (F.mulX (.fin c) a) d) ∨ F.mulX (F.mulX (.fin c) a) d = .nan := by
  have h1 : F.mulX (.fin c) a = .nan ∨ Nn F (F.mulX (.fin c) a) := by
    cases a with
    | nan => exact ha.elim
    | inf s =>
      by_cases h0 : c = 0
      · left; exact if_pos h0
      · right
        show Nn F (if c = 0 then .nan else .inf (decide (c < 0) != s))
        rw [if_neg h0, show s = false from ha, decide_eq_false (not_lt.2 hc)]
        rfl
    | fin b =>
      right
      show Nn F (F.of (c * b))
      have h0 : 0 ≤ c * b := mul_nonneg hc ha.2
      unfold Format.of
      split
      · exact ⟨⟨F.idem _, by assumption⟩, F.nonneg h0⟩
      · exact decide_eq_false (not_lt.2 h0)
  rcases h1 with h1 | h1
  · right; rw [h1, F.mulX_nan_left]
  · revert h1
    cases F.mulX (.fin c) a with
    | nan => intro h; exact h.elim
    | inf s =>
      intro h
      rw [show s = false from h]
      cases d with
      | nan => exact hd.elim
      | inf r => left; rw [show r = true from hd]; rfl
      | fin b =>
        by_cases h0 : b = 0
        · right; exact if_pos h0
        · left
          show Np (if b = 0 then X.nan else .inf (decide (b < 0) != false))
          rw [if_neg h0, decide_eq_true (lt_of_le_of_ne hd h0)]
          rfl
    | fin b =>
      intro h
      cases d with
      | nan => exact hd.elim
      | inf r =>
        by_cases h0 : b = 0
        · right; exact if_pos h0
        · left
          show Np (if b = 0 then X.nan else .inf (decide (b < 0) != r))
          rw [if_neg h0, decide_eq_false (not_lt.2 h.2), show r = true from hd]
          rfl
      | fin r =>
        left
        show Np (F.of (b * r))
        have h0 : b * r ≤ 0 := mul_nonpos_of_nonneg_of_nonpos h.2 hd
        unfold Format.of
        split
        · exact F.nonpos h0
        · rename_i hb
          refine decide_eq_true (lt_of_le_of_ne h0 fun e => hb ?_)
          rw [e, F.zero, abs_zero]
          exact F.big_pos.le

/-- A step that passes the decrease test along a direction that does not ascend does not increase the objective, although all operations
are rounded. -/
theorem funcDec_le {c : K} (hc : 0 ≤ c) (hu : L.u1 = .fin c) (hv : F.Val (L.phi F (.fin 0))) (hd : Np (L.dphi F (.fin 0))) {a : X K} (ha : Nn F a)
    (h : L.funcDec F a = true) : (L.phi F a).le (L.phi F (.fin 0)) = true := by
  unfold Srch.funcDec at h
  rw [hu] at h
  exact add_np F hv (mul_np F hc ha hd) h

/-- **C107** The backtracking search along a direction whose computed directional derivative is not positive never returns a point with a
larger computed objective than the start. -/
theorem C107_never_increases {c rho : K} (hc : 0 ≤ c) (hu : L.u1 = .fin c) (hrho : 0 < rho) (hv : F.Val (L.phi F (.fin 0)))
    (hd : Np (L.dphi F (.fin 0))) {a r : X K} (ha : Nn F a) (fuel : ℕ) (h : L.backtrack F (.fin rho) fuel a = some r) :
    (L.func (L.pt F r)).le (L.phi F (.fin 0)) = true := by
  obtain ⟨k, -, hr, hd', -⟩ := (C107_backtrack_iff F L _ r fuel a).1 h
  exact funcDec_le F L hc hu hv hd (hr ▸ trial_nn F hrho ha k) hd'

end

/-! ## Termination: the step length underflows -/

section
variable {K : Type} [Field K] [LinearOrder K] [IsStrictOrderedRing K] [FloorRing K] {n : ℕ} {p : ℕ} {e : ℤ}

theorem rns_pow (hp : 1 ≤ p) (k : ℕ) : rns p e ((2 : K) ^ k * grid p e) = (2 : K) ^ k * grid p e := by
  unfold rns
  split
  · rw [mul_div_assoc, div_self grid_pos.ne', mul_one]
    have : (2 : K) ^ k = (((2 : ℤ) ^ k : ℤ) : K) := by push_cast; rfl
    rw [this, rhe_intCast]
  · have : (2 : K) ^ k * grid p e = (2 : K) ^ ((k : ℤ) + (e - ((p : ℤ) - 1))) := by
      rw [zpow_add₀ two_ne_zero, zpow_natCast]
      rfl
    rw [this, rne_zpow hp]

theorem rhe_half : roundHalfEven (1 / 2 : K) = 0 := by
  have h : ⌊(1 / 2 : K)⌋ = 0 := by
    rw [Int.floor_eq_iff]
    constructor <;> norm_num
  unfold roundHalfEven
  rw [h]
  norm_num

theorem rns_half (hp : 1 ≤ p) : rns p e (grid p e / 2 : K) = 0 := by
  have hg : (0 : K) < grid p e := grid_pos
  rw [rns, if_pos]
  · rw [div_div_cancel_left' hg.ne', show (2 : K)⁻¹ = 1 / 2 by norm_num, rhe_half]
    simp
  · rw [abs_of_pos (by linarith)]
    have h1 : (grid p e : K) ≤ (2 : K) ^ e := by
      unfold grid
      exact zpow_le_zpow_right₀ (by norm_num) (by omega)
    linarith

theorem rns_abs_le {x y : K} (hp : 1 ≤ p) (hy : rns p e y = y) (h : |x| ≤ y) : |rns p e x| ≤ y := by
  rw [abs_le] at h ⊢
  constructor
  · have := rns_mono (e := e) hp h.1
    rwa [rns_odd, hy] at this
  · have := rns_mono (e := e) hp h.2
    rwa [hy] at this

variable (hp : 1 ≤ p) (he : e ≤ 0) (big : K) (hb : rns p e big = big) (h1 : 1 ≤ big)

/-- Multiplying by a factor of at most one half halves the bound, and takes the smallest number to zero. -/
theorem halve {a rho : K} (ha : (ieee p hp e he big hb h1).Fin a) (hr : |rho| ≤ 1 / 2) : ∃ b, (ieee p hp e he big hb h1).mulX (.fin a) (.fin rho) = .fin b ∧
    (ieee p hp e he big hb h1).Fin b ∧ (|a| ≤ grid p e → b = 0) ∧ ∀ k : ℕ, |a| ≤ 2 ^ (k + 1) * grid p e → |b| ≤ 2 ^ k * grid p e := by
  set F := ieee p hp e he big hb h1
  have hm : |a * rho| ≤ |a| / 2 := by
    rw [abs_mul]
    nlinarith [abs_nonneg a, abs_nonneg rho]
  have hs : |a * rho| ≤ F.big := by
    have := abs_nonneg a
    have := ha.2
    linarith
  refine ⟨F.rnd (a * rho), F.of_small hs, ?_, ?_, ?_⟩
  · have := F.of_val (a * rho)
    rwa [F.of_small hs] at this
  · intro h
    have h2 : |a * rho| ≤ grid p e / 2 := by linarith
    have hz : rns p e (grid p e / 2 : K) = 0 := rns_half hp
    have h3 := abs_le.1 h2
    have h4 := rns_mono (e := e) hp h3.1
    have h5 := rns_mono (e := e) hp h3.2
    rw [rns_odd, hz] at h4
    rw [hz] at h5
    rw [neg_zero] at h4
    exact le_antisymm h5 h4
  · intro k h
    refine rns_abs_le hp (rns_pow hp k) ?_
    rw [pow_succ] at h
    linarith

/-- After `k + 1` halvings of a number of at most `2 ^ k` times the smallest one there is nothing left. -/
theorem trial_zero {rho : K} (hr : |rho| ≤ 1 / 2) : ∀ (k : ℕ) {a : K}, (ieee p hp e he big hb h1).Fin a → |a| ≤ 2 ^ k * grid p e →
    trial (ieee p hp e he big hb h1) (.fin rho) (.fin a) (k + 1) = .fin 0 := by
  intro k
  induction k with
  | zero =>
    intro a ha h
    obtain ⟨b, hb', hf, h0, -⟩ := halve hp he big hb h1 ha hr
    show (ieee p hp e he big hb h1).mulX (.fin a) (.fin rho) = _
    rw [hb', h0 (by simpa using h)]
  | succ k ih =>
    intro a ha h
    obtain ⟨b, hb', hf, -, hk⟩ := halve hp he big hb h1 ha hr
    show trial _ (.fin rho) ((ieee p hp e he big hb h1).mulX (.fin a) (.fin rho)) (k + 1) = _
    rw [hb']
    exact ih hf (hk k h)

/-- **C107** In IEEE arithmetic a backtracking search with a factor of at most one half always returns, for any objective and direction: after at
most `k + 2` evaluations if the first step length is at most `2 ^ k` times the smallest positive number, because the step length underflows to
zero, where the test passes. The objective at the start must not be NaN and the directional derivative must be finite. -/
theorem C107_returns (L : Srch K n) {rho a c d : K} (hr : |rho| ≤ 1 / 2) (ha : (ieee p hp e he big hb h1).Fin a) (k : ℕ) (hk : |a| ≤ 2 ^ k * grid p e)
    (hu : L.u1 = .fin c) (hd : L.dphi (ieee p hp e he big hb h1) (.fin 0) = .fin d)
    (hv : (ieee p hp e he big hb h1).Val (L.phi (ieee p hp e he big hb h1) (.fin 0))) (hn : L.phi (ieee p hp e he big hb h1) (.fin 0) ≠ .nan) :
    ∃ r, L.backtrack (ieee p hp e he big hb h1) (.fin rho) (k + 2) (.fin a) = some r := by
  set F := ieee p hp e he big hb h1
  have hz : L.funcDec F (trial F (.fin rho) (.fin a) (k + 1)) = true := by
    rw [trial_zero hp he big hb h1 hr k ha hk]
    exact funcDec_zero F L hu hd hv hn
  have hex : ∃ k, L.funcDec F (trial F (.fin rho) (.fin a) k) = true := ⟨_, hz⟩
  classical
  have hs := Nat.find_spec hex
  have hm : ∀ j < Nat.find hex, L.funcDec F (trial F (.fin rho) (.fin a) j) = false := fun j hj => by simpa using Nat.find_min hex hj
  exact ⟨_, (C107_backtrack_iff F L _ _ (k + 2) _).2 ⟨_, by have := Nat.find_min' hex hz; omega, rfl, hs, hm⟩⟩

/-- A factor above one half never takes the step length to zero: the smallest positive number is multiplied into itself. -/
theorem trial_pos {rho : K} (hr : 1 / 2 < rho) (hr1 : rho ≤ 1) : ∀ (k : ℕ) {a : K}, (ieee p hp e he big hb h1).Fin a → grid p e ≤ a →
    ∃ b, trial (ieee p hp e he big hb h1) (.fin rho) (.fin a) k = .fin b ∧ (ieee p hp e he big hb h1).Fin b ∧ grid p e ≤ b ∧ b ≤ a := by
  have hg : (0 : K) < grid p e := grid_pos
  intro k
  induction k with
  | zero => intro a ha h; exact ⟨a, rfl, ha, h, le_rfl⟩
  | succ k ih =>
    intro a ha h
    have h0 : 0 < a := lt_of_lt_of_le hg h
    have hle : a * rho ≤ a := by nlinarith
    have hpos : 0 < a * rho := by nlinarith
    have hs : |a * rho| ≤ (ieee p hp e he big hb h1).big := by
      rw [abs_of_pos hpos]
      exact hle.trans ((le_abs_self a).trans ha.2)
    have he1 : (ieee p hp e he big hb h1).mulX (.fin a) (.fin rho) = .fin ((ieee p hp e he big hb h1).rnd (a * rho)) := Format.of_small _ hs
    have hf : (ieee p hp e he big hb h1).Fin ((ieee p hp e he big hb h1).rnd (a * rho)) := by
      have := Format.of_val (ieee p hp e he big hb h1) (a * rho)
      rwa [Format.of_small _ hs] at this
    have hup : (ieee p hp e he big hb h1).rnd (a * rho) ≤ a := Format.le_rep _ ha.1 hle
    have hlow : grid p e ≤ (ieee p hp e he big hb h1).rnd (a * rho) := by
      have h3 : grid p e * rho ≤ a * rho := by nlinarith
      have h4 := rns_mono (e := e) hp h3
      have h5 : rns p e (grid p e * rho) = (grid p e : K) := by
        have hlt : |(grid p e : K) * rho| ≤ grid p e := by
          rw [abs_of_pos (by nlinarith)]; nlinarith
        have hge : (grid p e : K) ≤ (2 : K) ^ e := by
          unfold grid
          exact zpow_le_zpow_right₀ (by norm_num) (by omega)
        have hr2 : roundHalfEven rho = 1 := by
          rcases lt_or_eq_of_le hr1 with hlt1 | rfl
          · have hfl : ⌊rho⌋ = 0 := by
              rw [Int.floor_eq_iff]
              constructor
              · push_cast; linarith
              · push_cast; linarith
            unfold roundHalfEven
            rw [hfl, if_neg (by push_cast; linarith), if_pos (by push_cast; linarith)]
            rfl
          · exact_mod_cast rhe_intCast (K := K) 1
        unfold rns
        split
        · rw [mul_div_cancel_left₀ _ hg.ne', hr2]
          push_cast
          ring
        · rename_i hc
          have h6 : (grid p e : K) * rho = grid p e := by
            have := not_lt.1 hc
            exact le_antisymm (by nlinarith) (by rw [abs_of_pos (by nlinarith)] at this; linarith)
          rw [h6]
          have h7 := rns_pow (K := K) (e := e) hp 0
          rw [pow_zero, one_mul] at h7
          unfold rns at h7
          rw [h6] at hc
          rwa [if_neg hc] at h7
      rw [h5] at h4
      exact h4
    obtain ⟨b, hb1, hb2, hb3, hb4⟩ := ih hf hlow
    refine ⟨b, ?_, hb2, hb3, hb4.trans hup⟩
    show trial _ (.fin rho) ((ieee p hp e he big hb h1).mulX (.fin a) (.fin rho)) k = _
    rw [he1]
    exact hb1

/-- **C107** With a factor above one half the search never returns if no positive step length passes the test: the step length gets stuck
above zero. -/
theorem C107_slow_hangs (L : Srch K n) {rho a : K} (hr : 1 / 2 < rho) (hr1 : rho ≤ 1) (ha : (ieee p hp e he big hb h1).Fin a) (hpos : grid p e ≤ a)
    (hf : ∀ b, 0 < b → b ≤ a → L.funcDec (ieee p hp e he big hb h1) (.fin b) = false) :
    ∀ fuel, L.backtrack (ieee p hp e he big hb h1) (.fin rho) fuel (.fin a) = none := by
  rw [never_iff]
  intro k
  obtain ⟨b, hb1, -, hb3, hb4⟩ := trial_pos hp he big hb h1 hr hr1 k ha hpos
  rw [hb1]
  exact hf b (lt_of_lt_of_le grid_pos hb3) hb4

end

/-! ## Doubles -/

/-- **C107** The default search (`initial_a = 1.0`, `rho = 0.5`, `u1 = 1e-4`) in double precision, with a directional derivative that is not
infinite: it returns if and only if the objective at the start and the directional derivative are not NaN, and then after at most
1076 evaluations of the test. -/
theorem C107_double_returns_iff {n : ℕ} (L : Srch ℚ n) {c : ℚ} (hu : L.u1 = .fin c) (hv : binary64.Val (L.phi binary64 (.fin 0)))
    (hi : ∀ s, L.dphi binary64 (.fin 0) ≠ .inf s) :
    ((∃ fuel r, L.backtrack binary64 (.fin (1 / 2)) fuel (.fin 1) = some r) ↔
      L.phi binary64 (.fin 0) ≠ .nan ∧ L.dphi binary64 (.fin 0) ≠ .nan) ∧
    (L.phi binary64 (.fin 0) ≠ .nan → L.dphi binary64 (.fin 0) ≠ .nan → ∃ r, L.backtrack binary64 (.fin (1 / 2)) 1076 (.fin 1) = some r) := by
  have main : L.phi binary64 (.fin 0) ≠ .nan → L.dphi binary64 (.fin 0) ≠ .nan → ∃ r, L.backtrack binary64 (.fin (1 / 2)) 1076 (.fin 1) = some r := by
    intro h1 h2
    obtain ⟨d, hd⟩ : ∃ d, L.dphi binary64 (.fin 0) = .fin d := by
      revert hi h2
      cases L.dphi binary64 (.fin 0) with
      | nan => intro _ h; exact (h rfl).elim
      | inf s => intro h; exact (h s rfl).elim
      | fin d => intro _ _; exact ⟨d, rfl⟩
    refine C107_returns (p := 53) (e := -1022) (by norm_num) (by norm_num) maxDouble (by decide +kernel) (by decide +kernel) L (rho := 1 / 2) (a := 1)
      (by rw [abs_of_pos] <;> norm_num) (binary64.fin_one) 1074 ?_ hu hd hv h1
    rw [abs_one]
    exact le_of_eq (by decide +kernel)
  refine ⟨⟨?_, fun h => ⟨_, main h.1 h.2⟩⟩, main⟩
  rintro ⟨fuel, r, h⟩
  constructor
  · intro hn
    rw [C107_nan_hangs binary64 L (Or.inl hn)] at h
    cases h
  · intro hn
    rw [C107_nan_hangs binary64 L (Or.inr hn)] at h
    cases h

end SMT.Fp
