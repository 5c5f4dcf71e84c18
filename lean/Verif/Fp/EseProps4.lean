import Verif.Fp.EseProps3

/-!
# Property C106: the ESE optimisation in rounded arithmetic. Instances, termination, and the loss of the criterion in `double`.
-/
set_option linter.unusedSectionVars false
set_option linter.unusedSimpArgs false
set_option linter.unusedVariables false

namespace SMT.Fp.Ese

variable {K : Type} [Field K] [LinearOrder K] [IsStrictOrderedRing K] {n d : ℕ} {q e : ℕ}

/-! ## The specification is that of the real criterion -/

/-- **C106** Over the reals, `crit q` is the `p`-th power of the exact PhiP, `p = 2 q`: the designs are ordered alike. -/
theorem C106_spec (hq : 1 ≤ q) (P : Design ℝ n d) : SMT.Ese.phiP P (2 * q) ^ (2 * q) = crit q P ∧
    ∀ Q : Design ℝ n d, crit q Q ≤ crit q P ↔ SMT.Ese.phiP Q (2 * q) ≤ SMT.Ese.phiP P (2 * q) := by
  have hs : ∀ u v : Fin d → ℝ, SMT.Ese.dist u v ^ (-((2 * q : ℕ) : ℤ)) = (sqd u v ^ q)⁻¹ := by
    intro u v
    rw [zpow_neg, zpow_natCast, pow_mul, SMT.Ese.dist_sq]
    rfl
  have hc : ∀ P : Design ℝ n d, SMT.Ese.phiP P (2 * q) = crit q P ^ (1 / ((2 * q : ℕ) : ℝ)) := by
    intro P
    unfold SMT.Ese.phiP crit
    simp only [hs]
  have hp : ∀ P : Design ℝ n d, SMT.Ese.phiP P (2 * q) ^ (2 * q) = crit q P := by
    intro P
    rw [hc, one_div, Real.rpow_inv_natCast_pow (crit_nonneg P) (by omega)]
  have h0 : ∀ P : Design ℝ n d, 0 ≤ SMT.Ese.phiP P (2 * q) := by
    intro P
    rw [hc]
    exact Real.rpow_nonneg (crit_nonneg P) _
  refine ⟨hp P, fun Q => ?_⟩
  rw [← hp P, ← hp Q]
  exact pow_le_pow_iff_left₀ (h0 Q) (h0 P) (by omega)

/-- Correctly rounded functions over the reals, sums from the left. -/
noncomputable def realArith (R : Rounding ℝ) (q : ℕ) : Arith ℝ where
  R := R
  sq := fun v => R.rnd (Real.sqrt v)
  npow := fun x => R.rnd (((x * x) ^ q)⁻¹)
  ppow := fun x => R.rnd ((x * x) ^ q)
  root := fun y => R.rnd (y ^ (1 / ((2 * q : ℕ) : ℝ)))
  tree := fun m => Tree.left (m - 1)

/-- **C106** The assumptions on the functions are met by correctly rounded ones, for every rounding. -/
theorem C106_good (R : Rounding ℝ) (hq : 1 ≤ q) : Good (realArith R q) q (2 * q) where
  sqrt := sqrt_real R
  npow := fun x hx => (Close.of_rnd (inv_nonneg.2 (pow_nonneg (mul_self_nonneg x) q))).mono (by omega)
  ppow := fun x hx => (Close.of_rnd (pow_nonneg (mul_self_nonneg x) q)).mono (by omega)
  root_nonneg := fun y hy => R.nonneg (Real.rpow_nonneg hy _)
  root := fun y hy => by
    have h1 : (y ^ (1 / ((2 * q : ℕ) : ℝ))) ^ (2 * q) = y := by
      rw [one_div, Real.rpow_inv_natCast_pow hy (by omega)]
    have h2 := (Close.of_rnd (R := R) (Real.rpow_nonneg hy (1 / ((2 * q : ℕ) : ℝ)))).pow (2 * q)
    rw [h1, one_mul] at h2
    show Close R (2 * q) y ((R.rnd (y ^ (1 / ((2 * q : ℕ) : ℝ))) * R.rnd (y ^ (1 / ((2 * q : ℕ) : ℝ)))) ^ q)
    rw [← pow_two, ← pow_mul]
    exact h2
  tree := fun m hm => by
    have := left_adds (m - 1)
    rwa [show m - 1 + 1 = m by omega] at this

/-- The hypothesis on the cancellation, in `double`, for distances that differ by a factor of up to 1000. -/
example (A : Arith ℚ) (hR : A.R = double) : Covers A 2 300000000 1 1000000 := by
  unfold Covers
  rw [hR]
  have hrho : (double : Rounding ℚ).rho = (2 ^ 53 + 1) / (2 ^ 53 - 1) := by decide +kernel
  have h1 : (double : Rounding ℚ).rho ^ (2 + 7) - 1 ≤ 1 / 10 ^ 14 := by decide +kernel
  have h2 : (1 : ℚ) + 300000000 * (2 / (2 ^ 53 - 1)) ≤ (double : Rounding ℚ).rho ^ 300000000 := by
    have := one_add_mul_le_pow (a := (2 / (2 ^ 53 - 1) : ℚ)) (by norm_num) 300000000
    rw [hrho]
    refine le_trans (by norm_num) (this.trans (le_of_eq ?_))
    congr 1
    norm_num
  have h3 : ((double : Rounding ℚ).rho ^ 300000000)⁻¹ ≤ (1 + 300000000 * (2 / (2 ^ 53 - 1)))⁻¹ := inv_anti₀ (by norm_num) h2
  have h4 : ((1 : ℚ) + 300000000 * (2 / (2 ^ 53 - 1)))⁻¹ ≤ 1 - 1 / 10 ^ 14 * (2 * 1000000 + 1) := by norm_num
  have h5 : ((double : Rounding ℚ).rho ^ (2 + 7) - 1) * (2 * 1000000 + 1) ≤ 1 / 10 ^ 14 * (2 * 1000000 + 1) := mul_le_mul_of_nonneg_right h1 (by norm_num)
  linarith

/-- In exact arithmetic nothing is lost: the recorded criterion is that of the returned design, which is no worse than the initial one. -/
example [NeZero d] (hq : 1 ≤ q) {g r : Fin d → ℝ} (hg : ∀ k, 0 ≤ g k) (hlo : 0 < ∑ k, g k ^ 2) (G : Rng ℝ n) (fuel : ℕ) (P0 : Design ℝ n d) (hP0 : Gaps g r P0)
    (outer inner J : ℕ) (tol : ℝ) (seed : G.σ) (Q : Design ℝ n d) (hist : List (X ℝ))
    (h : maximinESE (realArith exact q) G fuel P0 none outer inner J tol [] seed = some (Q, hist)) :
    crit q Q ≤ crit q P0 ∧ ∃ φ, hist.getLast? = some (.fin φ) ∧ (φ * φ) ^ q = crit q Q := by
  have hrho : (realArith exact q).R.rho = 1 := by simp [Rounding.rho, realArith, exact]
  have hm : Covers (realArith exact q) d 0 (∑ k, g k ^ 2) (∑ k, r k ^ 2) := by
    unfold Covers
    rw [hrho]
    simp
  obtain ⟨⟨φ, h1, h2, h3⟩, h4⟩ := C106_result (C106_good exact hq) hg hlo hm G fuel P0 hP0 _ (fun Q hQ => C106_bound hg hlo P0 Q hP0 hQ) none outer inner J tol [] seed Q hist h
  simp only [hrho, one_pow, sub_self, mul_zero, add_zero] at h3 h4
  exact ⟨h4, φ, h1, sub_eq_zero.1 (abs_eq_zero.1 (le_antisymm h3 (abs_nonneg _)))⟩

/-! ## Every run with a fair generator returns -/

section
variable (A : Arith K)

theorem candidates_isSome (G : Rng K n) (fuel : ℕ) (fixed : List (Fin n)) (hF : ∀ (P : Design K n d) k phi s, (exchange A G fuel fixed P k phi s).isSome)
    (P : Design K n d) (k : Fin d) (phi : X K) : ∀ J s, (candidates A G fuel fixed P k phi J s).isSome := by
  intro J
  induction J with
  | zero => intro s; rfl
  | succ J ih =>
    intro s
    obtain ⟨⟨c, s1⟩, h1⟩ := Option.isSome_iff_exists.1 (hF P k phi s)
    obtain ⟨⟨cs, s2⟩, h2⟩ := Option.isSome_iff_exists.1 (ih s1)
    rw [candidates, h1]
    dsimp only
    rw [h2]
    rfl

theorem innerStep_isSome [NeZero d] (G : Rng K n) (fuel : ℕ) (fixed : List (Fin n)) (hF : ∀ (P : Design K n d) k phi s, (exchange A G fuel fixed P k phi s).isSome)
    (J : ℕ) (hJ : 1 ≤ J) (T : X K) (i : ℕ) (st : St K G d) : (innerStep A G fuel fixed J T i st).isSome := by
  obtain ⟨⟨cs, s⟩, hc⟩ := Option.isSome_iff_exists.1 (candidates_isSome A G fuel fixed hF st.P (Fin.ofNat d (i + 1)) st.phi J st.rng)
  have hl := (candidates_ok A G fuel fixed _ _ _ _ _ _ _ hc).1
  unfold innerStep
  rw [hc]
  rcases cs with _ | ⟨c, cs⟩
  · simp at hl; omega
  · dsimp only
    split
    · split <;> rfl
    · rfl

theorem innerLoop_isSome [NeZero d] (G : Rng K n) (fuel : ℕ) (fixed : List (Fin n)) (hF : ∀ (P : Design K n d) k phi s, (exchange A G fuel fixed P k phi s).isSome)
    (J : ℕ) (hJ : 1 ≤ J) (T : X K) : ∀ m i (st : St K G d), (innerLoop A G fuel fixed J T i m st).isSome := by
  intro m
  induction m with
  | zero => intro i st; rfl
  | succ m ih =>
    intro i st
    obtain ⟨st1, h1⟩ := Option.isSome_iff_exists.1 (innerStep_isSome A G fuel fixed hF J hJ T i st)
    rw [innerLoop, h1]
    exact ih _ _

theorem outerLoop_isSome [NeZero d] (G : Rng K n) (fuel : ℕ) (fixed : List (Fin n)) (hF : ∀ (P : Design K n d) k phi s, (exchange A G fuel fixed P k phi s).isSome)
    (J inner : ℕ) (hJ : 1 ≤ J) (hi : 1 ≤ inner) (tol : K) : ∀ m T (st : St K G d), (outerLoop A G fuel fixed J inner tol m T st).isSome := by
  intro m
  induction m with
  | zero => intro T st; rfl
  | succ m ih =>
    intro T st
    obtain ⟨st1, h1⟩ := Option.isSome_iff_exists.1 (innerLoop_isSome A G fuel fixed hF J hJ T inner 0 { st with nAcc := 0, nImp := 0 })
    rw [outerLoop, h1]
    dsimp only
    rw [if_neg (by omega)]
    exact ih _ _

/-- **C106** If the generator always ends the rejection loops, every run with at least one candidate and one iteration returns a design: NaN stops nothing. -/
theorem C106_returns [NeZero d] (G : Rng K n) (fuel : ℕ) (fixed : List (Fin n)) (hF : ∀ (P : Design K n d) k phi s, (exchange A G fuel fixed P k phi s).isSome)
    (P0 : Design K n d) (T0 : Option (X K)) (outer inner J : ℕ) (hJ : 1 ≤ J) (hi : 1 ≤ inner) (tol : K) (seed : G.σ) :
    (maximinESE A G fuel P0 T0 outer inner J tol fixed seed).isSome := by
  unfold maximinESE
  dsimp only
  obtain ⟨st, h⟩ := Option.isSome_iff_exists.1 (outerLoop_isSome A G fuel fixed hF J inner hJ hi tol outer (T0.getD (A.R.mulR (.fin (A.R.rnd (5 / 1000))) (phiP A P0)))
    ⟨P0, phiP A P0, P0, phiP A P0, 0, 0, [phiP A P0], seed⟩)
  rw [h]
  rfl

/-! ## Cancellation in `double` -/

/-- The coordinates of three points of a Latin hypercube design: one value in each third of `[0, 1]`, two of them close to `1/3`. -/
def near (i : Fin 3) : ℚ := if i = 0 then 85 / 256 else if i = 1 then 86 / 256 else 240 / 256

/-- Three points on the diagonal of the unit cube of dimension 4. -/
def P3 : Design ℚ 3 4 := fun i _ => near i

/-- The same design with the coordinates number 1 of the last two points exchanged. -/
def Q3 : Design ℚ 3 4 := fun i k => if k = 1 then near (if i = 1 then 2 else if i = 2 then 1 else 0) else near i

/-- A generator whose integers are `1, 2, 1, 2, …`. -/
def alt : Rng ℚ 3 := ⟨Bool, fun s => (if s then 2 else 1, !s), fun s => (1 / 2, s)⟩

/-- `double`, with functions that are exact on powers of two and otherwise correct up to `e` roundings; sums from the left. -/
structure Doubles (A : Arith ℚ) (e : ℕ) : Prop where
  dbl : A.R = double
  good : Good A 5 e
  few : e ≤ 1000
  left : ∀ m, A.tree m = Tree.left (m - 1)
  sq : A.sq (1 / 2 ^ 14) = 1 / 2 ^ 7
  npow : A.npow (1 / 2 ^ 7) = 2 ^ 70
  ppow : A.ppow (2 ^ 7) = 2 ^ 70
  root : A.root (2 ^ 70) = 2 ^ 7

theorem absorb_up {x : ℚ} (h0 : 0 ≤ x) (h : x ≤ 2 ^ 16) : (double : Rounding ℚ).rnd (2 ^ 70 + x) = 2 ^ 70 := by
  have h1 := (double : Rounding ℚ).mono (2 ^ 70) (2 ^ 70 + x) (by linarith)
  have h2 := (double : Rounding ℚ).mono (2 ^ 70 + x) (2 ^ 70 + 2 ^ 16) (by linarith)
  have e1 : (double : Rounding ℚ).rnd (2 ^ 70) = 2 ^ 70 := by decide +kernel
  have e2 : (double : Rounding ℚ).rnd (2 ^ 70 + 2 ^ 16) = 2 ^ 70 := by decide +kernel
  rw [e1] at h1
  rw [e2] at h2
  exact le_antisymm h2 h1

theorem absorb_down {x : ℚ} (h0 : 0 ≤ x) (h : x ≤ 2 ^ 15) : (double : Rounding ℚ).rnd (-2 ^ 70 + x) = -2 ^ 70 := by
  have h1 := (double : Rounding ℚ).mono (-2 ^ 70) (-2 ^ 70 + x) (by linarith)
  have h2 := (double : Rounding ℚ).mono (-2 ^ 70 + x) (-2 ^ 70 + 2 ^ 15) (by linarith)
  have e1 : (double : Rounding ℚ).rnd (-2 ^ 70) = -2 ^ 70 := by decide +kernel
  have e2 : (double : Rounding ℚ).rnd (-2 ^ 70 + 2 ^ 15) = -2 ^ 70 := by decide +kernel
  rw [e1] at h1
  rw [e2] at h2
  exact le_antisymm h2 h1

theorem absorb_neg {x : ℚ} (h0 : 0 ≤ x) (h : x ≤ 2 ^ 16) : (double : Rounding ℚ).rnd (-2 ^ 70 + -x) = -2 ^ 70 := by
  rw [show (-2 ^ 70 + -x : ℚ) = -(2 ^ 70 + x) by ring, (double : Rounding ℚ).odd, absorb_up h0 h]

theorem swap_P3 : swapEntry P3 1 1 2 = Q3 := by
  funext i k
  revert i k
  decide +kernel

end

section
variable {A : Arith ℚ} {e : ℕ}

/-- The close pair. -/
theorem close_pair (hA : Doubles A e) : dist A (P3 1) (P3 0) = 1 / 2 ^ 7 ∧ dist A (P3 0) (P3 1) = 1 / 2 ^ 7 := by
  have h1 : sqDist A (P3 1) (P3 0) = 1 / 2 ^ 14 := by
    unfold sqDist sqr
    rw [hA.left, hA.dbl]
    decide +kernel
  have h2 : sqDist A (P3 0) (P3 1) = 1 / 2 ^ 14 := by
    unfold sqDist sqr
    rw [hA.left, hA.dbl]
    decide +kernel
  rw [dist, dist, h1, h2]
  exact ⟨hA.sq, hA.sq⟩

theorem rho_small (N : ℕ) (hN : N ≤ 2000) : (double : Rounding ℚ).rho ^ N ≤ 2 := by
  refine (pow_le_pow_right₀ (rho_one_le _) hN).trans ?_
  decide +kernel

/-- Powers of distances of at least `1/2` are small. -/
theorem small_pow (hA : Doubles A e) {N : ℕ} (hN : N ≤ 2000) {s w : ℚ} (hs : 1 / 4 ≤ s) (h : Close A.R N ((s ^ 5)⁻¹) w) : 0 ≤ w ∧ w ≤ 2 ^ 15 := by
  refine ⟨h.2.1, h.2.2.2.trans ?_⟩
  have h1 : (s ^ 5)⁻¹ ≤ ((1 / 4) ^ 5)⁻¹ := inv_anti₀ (by norm_num) (pow_le_pow_left₀ (by norm_num) hs 5)
  have h2 := rho_small N hN
  rw [← hA.dbl] at h2
  calc (s ^ 5)⁻¹ * A.R.rho ^ N ≤ ((1 / 4) ^ 5)⁻¹ * 2 := mul_le_mul h1 h2 (pow_nonneg (rho_pos _).le _) (by norm_num)
    _ ≤ 2 ^ 15 := by norm_num

/-- **C106** In `double` the criterion can be lost. The initial design `P3` is a Latin hypercube design with a close pair: its criterion is recorded as
`2^7`. The exchange that separates the pair subtracts the power of the small distance from itself, and the recorded criterion of the exchanged design is `0`. The true criterion
is positive, and there are better designs. -/
theorem C106_double_collapse (hA : Doubles A e) :
    phiP A P3 = .fin (2 ^ 7) ∧ exchangeVal A P3 1 1 2 (.fin (2 ^ 7)) = .fin 0 ∧ swapEntry P3 1 1 2 = Q3 ∧
    0 < crit 5 Q3 ∧ ∃ Q', ColumnsRearranged P3 Q' ∧ crit 5 Q' < crit 5 Q3 := by
  obtain ⟨p1, p2⟩ := close_pair hA
  have hR := hA.dbl
  have hne : npowX A (.fin (1 / 2 ^ 7 : ℚ)) = .fin (2 ^ 70) := by
    rw [npowX, if_neg (by norm_num), hA.npow]
  have hfew := hA.few
  have hroot0 : A.root 0 = 0 := by
    have := (hA.good.root 0 le_rfl).zero_iff.1 rfl
    have := pow_eq_zero_iff (n := 5) (by norm_num) |>.1 this
    exact mul_self_eq_zero.1 this
  refine ⟨?_, ?_, swap_P3, by decide +kernel, ?_⟩
  · obtain ⟨w, ew, cw⟩ := oldPow_close hA.good (P3 0) (P3 2) (by decide +kernel)
    obtain ⟨v, ev, cv⟩ := oldPow_close hA.good (P3 1) (P3 2) (by decide +kernel)
    have hw := small_pow hA (by omega) (by decide +kernel) cw
    have hv := small_pow hA (by omega) (by decide +kernel) cv
    have hp : pairs 3 = [(0, 1), (0, 2), (1, 2)] := by decide +kernel
    rw [phiP, hp]
    simp only [List.map_cons, List.map_nil]
    rw [p2, hne, ew, ev, sumX, if_neg (by simp), hA.left]
    show rootX A (A.R.addR (A.R.addR (.fin (2 ^ 70)) (.fin w)) (.fin v)) = _
    have e1 : A.R.rnd (2 ^ 70 + w) = 2 ^ 70 := by
      rw [hR]; exact absorb_up hw.1 (hw.2.trans (by norm_num))
    have e2 : A.R.rnd (2 ^ 70 + v) = 2 ^ 70 := by
      rw [hR]; exact absorb_up hv.1 (hv.2.trans (by norm_num))
    show rootX A (.fin (A.R.rnd (A.R.rnd (2 ^ 70 + w) + v))) = _
    rw [e1, e2, rootX, if_neg (by norm_num), hA.root]
  · have hcov1 : Covers A 4 100 (1 / 4) 1 := by
      unfold Covers
      rw [hR]
      decide +kernel
    have hcov2 : Covers A 4 100 1 2 := by
      unfold Covers
      rw [hR]
      decide +kernel
    obtain ⟨w1', e1', c1'⟩ := d1_close (P := P3) (k := 1) (i1 := 1) (i2 := 2) (j := 0) hA.good (by norm_num) hcov1 (by decide) (by decide)
      (by decide +kernel) (by rw [swap_P3]; decide +kernel)
    obtain ⟨w2', e2', c2'⟩ := d2_close (P := P3) (k := 1) (i1 := 1) (i2 := 2) (j := 0) hA.good (by norm_num) hcov2 (by decide) (by decide)
      (by decide +kernel) (by rw [swap_P3]; decide +kernel)
    obtain ⟨w2, e2, c2⟩ := oldPow_close hA.good (P3 2) (P3 0) (by decide +kernel)
    have b1' := small_pow hA (by omega) (by rw [swap_P3]; decide +kernel) c1'
    have b2' := small_pow hA (by omega) (by rw [swap_P3]; decide +kernel) c2'
    have b2 := small_pow hA (by omega) (by decide +kernel) c2
    have ht : term A P3 1 1 2 0 = .fin (-2 ^ 70) := by
      rw [term, e1', e2', e2, p1, hne]
      show X.fin (A.R.rnd (A.R.rnd (A.R.rnd (w1' + -2 ^ 70) + w2') + -w2)) = _
      rw [hR, add_comm w1', absorb_down b1'.1 b1'.2, absorb_down b2'.1 b2'.2, absorb_neg b2.1 (b2.2.trans (by norm_num))]
    have ho : others (1 : Fin 3) 2 = [0] := by decide +kernel
    rw [exchangeVal, ho]
    simp only [List.map_cons, List.map_nil]
    rw [ht, sumX, if_neg (by simp), hA.left, ppowX, hA.ppow]
    show rootX A (.fin (A.R.rnd (2 ^ 70 + -2 ^ 70))) = _
    rw [show (2 ^ 70 + -2 ^ 70 : ℚ) = 0 by norm_num, A.R.zero, rootX, if_neg (lt_irrefl 0), hroot0]
  · refine ⟨swapEntry Q3 2 1 2, ?_, by decide +kernel⟩
    rw [← swap_P3]
    exact rearranged_swap _ _ (rearranged_swap _ _ (rearranged_refl P3) _ _ _) _ _ _

/-- A rational number whose power is close to a given one. -/
theorem root_rat (R : Rounding ℚ) (hu : 0 < R.u) (y : ℚ) (hy : 0 ≤ y) : ∃ r : ℚ, 0 ≤ r ∧ Close R 10 y ((r * r) ^ 5) := by
  rcases hy.eq_or_lt with rfl | hy
  · exact ⟨0, le_rfl, by norm_num [Close]⟩
  · have hyR : (0 : ℝ) < (y : ℝ) := by exact_mod_cast hy
    set x : ℝ := (y : ℝ) ^ (1 / ((10 : ℕ) : ℝ)) with hx
    have hx0 : 0 < x := Real.rpow_pos_of_pos hyR _
    have hx10 : x ^ 10 = y := by
      rw [hx, one_div, Real.rpow_inv_natCast_pow hyR.le (by norm_num)]
    have huR : (0 : ℝ) < (R.u : ℝ) := by exact_mod_cast hu
    obtain ⟨r, h1, h2⟩ := exists_rat_btwn (show x < x * (1 + (R.u : ℝ)) by nlinarith)
    have hr0 : (0 : ℝ) < (r : ℝ) := hx0.trans h1
    have hr0' : (0 : ℚ) < r := by exact_mod_cast hr0
    have l1 : y ≤ r ^ 10 := by
      have := pow_le_pow_left₀ hx0.le h1.le 10
      rw [hx10] at this
      exact_mod_cast this
    have l2 : r ^ 10 ≤ y * (1 + R.u) ^ 10 := by
      have := pow_le_pow_left₀ hr0.le h2.le 10
      rw [mul_pow, hx10] at this
      exact_mod_cast this
    have e : (r * r) ^ 5 = r ^ 10 := by ring
    have hp : (1 + R.u) ^ 10 ≤ R.rho ^ 10 := pow_le_pow_left₀ (by linarith) (one_add_le_rho R) 10
    have hp1 : 1 ≤ R.rho ^ 10 := one_le_pow₀ (rho_one_le R)
    refine ⟨r, hr0'.le, hy.le, by rw [e]; positivity, ?_, ?_⟩
    · rw [e]
      calc y ≤ r ^ 10 := l1
        _ = r ^ 10 * 1 := by ring
        _ ≤ r ^ 10 * R.rho ^ 10 := mul_le_mul_of_nonneg_left hp1 (by positivity)
    · rw [e]
      exact l2.trans (mul_le_mul_of_nonneg_left hp hy.le)

/-- **C106** There are functions as assumed in `Doubles`. -/
theorem C106_doubles : ∃ A : Arith ℚ, Doubles A 10 := by
  classical
  have hu : 0 < (double : Rounding ℚ).u := by decide +kernel
  obtain ⟨sq, hsq⟩ := sqrt_rat (double : Rounding ℚ) hu
  choose! rt hrt using root_rat (double : Rounding ℚ) hu
  refine ⟨⟨double, Function.update sq (1 / 2 ^ 14) (1 / 2 ^ 7), fun x => (double : Rounding ℚ).rnd (((x * x) ^ 5)⁻¹), fun x => (double : Rounding ℚ).rnd ((x * x) ^ 5),
    Function.update rt (2 ^ 70) (2 ^ 7), fun m => Tree.left (m - 1)⟩, rfl, ⟨⟨?_, ?_⟩, ?_, ?_, ?_, ?_, ?_⟩, by norm_num, fun m => rfl, by simp, ?_, ?_, by simp⟩
  · intro v hv
    show 0 ≤ Function.update sq (1 / 2 ^ 14) (1 / 2 ^ 7) v
    by_cases h : v = 1 / 2 ^ 14
    · rw [h, Function.update_self]; norm_num
    · rw [Function.update_of_ne h]; exact hsq.nonneg v hv
  · intro v hv
    show Close double 2 v (Function.update sq (1 / 2 ^ 14) (1 / 2 ^ 7) v * Function.update sq (1 / 2 ^ 14) (1 / 2 ^ 7) v)
    by_cases h : v = 1 / 2 ^ 14
    · rw [h, Function.update_self]
      have := (Close.refl (R := (double : Rounding ℚ)) (x := (1 / 2 ^ 14 : ℚ)) (by norm_num)).mono (m := 2) (by omega)
      rwa [show (1 / 2 ^ 7 * (1 / 2 ^ 7) : ℚ) = 1 / 2 ^ 14 by norm_num]
    · rw [Function.update_of_ne h]; exact hsq.close v hv
  · intro x hx
    exact (Close.of_rnd (inv_nonneg.2 (pow_nonneg (mul_self_nonneg x) 5))).mono (by omega)
  · intro x hx
    exact (Close.of_rnd (pow_nonneg (mul_self_nonneg x) 5)).mono (by omega)
  · intro y hy
    show 0 ≤ Function.update rt (2 ^ 70) (2 ^ 7) y
    by_cases h : y = 2 ^ 70
    · rw [h, Function.update_self]; norm_num
    · rw [Function.update_of_ne h]; exact (hrt y hy).1
  · intro y hy
    show Close _ 10 y ((Function.update rt (2 ^ 70) (2 ^ 7) y * Function.update rt (2 ^ 70) (2 ^ 7) y) ^ 5)
    by_cases h : y = 2 ^ 70
    · rw [h, Function.update_self]
      have := (Close.refl (R := (double : Rounding ℚ)) (x := (2 ^ 70 : ℚ)) (by norm_num)).mono (m := 10) (by omega)
      rwa [show ((2 ^ 7 * 2 ^ 7) ^ 5 : ℚ) = 2 ^ 70 by norm_num]
    · rw [Function.update_of_ne h]; exact (hrt y hy).2
  · intro m hm
    have := left_adds (m - 1)
    rwa [show m - 1 + 1 = m by omega] at this
  · show (double : Rounding ℚ).rnd (((1 / 2 ^ 7 * (1 / 2 ^ 7)) ^ 5)⁻¹) = 2 ^ 70
    decide +kernel
  · show (double : Rounding ℚ).rnd ((2 ^ 7 * 2 ^ 7) ^ 5) = 2 ^ 70
    decide +kernel

/-! ## A whole run -/

theorem alt_exchange (A : Arith ℚ) (fuel : ℕ) (P : Design ℚ 3 4) (k : Fin 4) (phi : X ℚ) :
    exchange A alt (fuel + 1) [] P k phi false = some ((swapEntry P k 1 2, exchangeVal A P k 1 2 phi), false) := rfl

theorem alt_candidates (A : Arith ℚ) (fuel : ℕ) (P : Design ℚ 3 4) (k : Fin 4) (phi : X ℚ) : ∀ J,
    candidates A alt (fuel + 1) [] P k phi J false = some (List.replicate J (swapEntry P k 1 2, exchangeVal A P k 1 2 phi), false) := by
  intro J
  induction J with
  | zero => rfl
  | succ J ih =>
    refine (candidates.eq_2 A alt (fuel + 1) [] P k phi false J).trans ?_
    rw [alt_exchange]
    dsimp only
    rw [ih]
    rfl

theorem firstMin_replicate (c : Design K n d × X K) : ∀ J, firstMin c (List.replicate J c) = c := by
  intro J
  induction J with
  | zero => rfl
  | succ J ih =>
    rw [List.replicate_succ, firstMin]
    rw [ite_self]
    exact ih

theorem alt_step (A : Arith ℚ) (fuel J : ℕ) (T : X ℚ) (i : ℕ) (st : St ℚ alt 4) (h : st.rng = false) (st' : St ℚ alt 4)
    (hs : innerStep A alt (fuel + 1) [] (J + 1) T i st = some st') : st'.rng = false := by
  unfold innerStep at hs
  rw [h, alt_candidates, List.replicate_succ] at hs
  dsimp only at hs
  split at hs
  · split at hs <;> (rw [← Option.some.inj hs]; rfl)
  · rw [← Option.some.inj hs]; rfl

theorem alt_step_isSome (A : Arith ℚ) (fuel J : ℕ) (T : X ℚ) (i : ℕ) (st : St ℚ alt 4) (h : st.rng = false) :
    (innerStep A alt (fuel + 1) [] (J + 1) T i st).isSome := by
  unfold innerStep
  rw [h, alt_candidates, List.replicate_succ]
  dsimp only
  split
  · split <;> rfl
  · rfl

theorem alt_inner_isSome (A : Arith ℚ) (fuel J : ℕ) (T : X ℚ) : ∀ m i (st : St ℚ alt 4), st.rng = false →
    ∃ st', innerLoop A alt (fuel + 1) [] (J + 1) T i m st = some st' ∧ st'.rng = false := by
  intro m
  induction m with
  | zero => intro i st h; exact ⟨st, rfl, h⟩
  | succ m ih =>
    intro i st h
    obtain ⟨st1, h1⟩ := Option.isSome_iff_exists.1 (alt_step_isSome A fuel J T i st h)
    rw [innerLoop, h1]
    exact ih _ _ (alt_step A fuel J T i st h st1 h1)

theorem alt_outer_isSome (A : Arith ℚ) (fuel J inner : ℕ) (tol : ℚ) : ∀ m T (st : St ℚ alt 4), st.rng = false →
    ∃ st', outerLoop A alt (fuel + 1) [] (J + 1) (inner + 1) tol m T st = some st' := by
  intro m
  induction m with
  | zero => intro T st h; exact ⟨st, rfl⟩
  | succ m ih =>
    intro T st h
    obtain ⟨st1, h1, r1⟩ := alt_inner_isSome A fuel J T (inner + 1) 0 { st with nAcc := 0, nImp := 0 } h
    rw [outerLoop, h1]
    dsimp only
    rw [if_neg (by omega)]
    exact ih _ _ r1

/-- The first iteration, for any temperature `≥ 0`. -/
theorem first_step (hA : Doubles A e) (fuel J : ℕ) (T : ℚ) (hT : 0 ≤ T) (a b : ℕ) :
    ∃ st', innerStep A alt (fuel + 1) [] (J + 1) (.fin T) 0 ⟨P3, .fin (2 ^ 7), P3, .fin (2 ^ 7), a, b, [.fin (2 ^ 7)], false⟩ = some st' ∧
      st'.best = Q3 ∧ st'.phiBest = .fin 0 ∧ st'.rng = false := by
  obtain ⟨_, hx, hs, _⟩ := C106_double_collapse hA
  have hk : (Fin.ofNat 4 (0 + 1)) = (1 : Fin 4) := rfl
  unfold innerStep
  dsimp only
  rw [alt_candidates, List.replicate_succ, hk, hx, hs]
  dsimp only
  rw [firstMin_replicate]
  dsimp only
  have hacc : (A.R.subR (.fin 0) (.fin (2 ^ 7))).le (A.R.mulR (.fin T) (.fin (alt.rand false).1)) = true := by
    show decide (A.R.rnd (0 + -2 ^ 7) ≤ A.R.rnd (T * (1 / 2))) = true
    rw [decide_eq_true_eq]
    exact (A.R.nonpos (by norm_num)).trans (A.R.nonneg (by positivity))
  have hlt : (X.fin (0 : ℚ)).lt (.fin (2 ^ 7)) = true := by
    show decide ((0 : ℚ) < 2 ^ 7) = true
    rw [decide_eq_true_eq]
    norm_num
  rw [if_pos hacc, if_pos hlt]
  exact ⟨_, rfl, rfl, rfl, rfl⟩

/-- **C106** The whole optimisation in `double`, with the parameters of `_ese` for 4 dimensions, from a Latin hypercube design with a close pair: it ends with the design of the
first exchange and the recorded criterion `0`, whatever the functions, although there are better designs (`C106_double_collapse`). -/
theorem C106_double_run (hA : Doubles A e) (fuel : ℕ) :
    ∃ hist, ese A alt (fuel + 1) P3 false = some (Q3, hist) ∧ hist.head? = some (.fin (2 ^ 7)) ∧ hist.getLast? = some (.fin 0) := by
  obtain ⟨h0, _⟩ := C106_double_collapse hA
  obtain ⟨st', hst⟩ := alt_outer_isSome A fuel 19 79 (A.R.rnd (1 / 1000)) 6 (A.R.mulR (.fin (A.R.rnd (5 / 1000))) (phiP A P3))
    ⟨P3, phiP A P3, P3, phiP A P3, 0, 0, [phiP A P3], false⟩ rfl
  have hrun : ese A alt (fuel + 1) P3 false = some (st'.best, st'.hist) := by
    unfold ese maximinESE
    dsimp only [Option.getD_none]
    have e1 : min (3 * 4 / 2) 30 = 6 := rfl
    have e2 : min (20 * 4) 100 = 79 + 1 := rfl
    have e3 : (20 : ℕ) = 19 + 1 := rfl
    rw [e1, e2, e3, hst]
  have hT : 0 ≤ A.R.rnd (A.R.rnd (5 / 1000) * 2 ^ 7) := A.R.nonneg (mul_nonneg (A.R.nonneg (by norm_num)) (by norm_num))
  -- after the first iteration the best design is `Q3`
  have hbest : st'.best = Q3 ∧ st'.phiBest = .fin 0 := by
    rw [h0] at hst
    rw [outerLoop] at hst
    split at hst
    · simp at hst
    · rename_i st1 h1
      rw [if_neg (by omega)] at hst
      obtain ⟨s1, f1, f2, f3, f4⟩ := first_step hA fuel 19 (A.R.rnd (A.R.rnd (5 / 1000) * 2 ^ 7)) hT 0 0
      have h1' : innerLoop A alt (fuel + 1) [] (19 + 1) (.fin (A.R.rnd (A.R.rnd (5 / 1000) * 2 ^ 7))) 0 (79 + 1)
          ⟨P3, .fin (2 ^ 7), P3, .fin (2 ^ 7), 0, 0, [.fin (2 ^ 7)], false⟩ = some st1 := h1
      rw [innerLoop, f1] at h1'
      dsimp only at h1'
      have hst1 : st1.best = Q3 ∧ st1.phiBest = .fin 0 := by
        refine innerLoop_ind A alt (fuel + 1) [] (19 + 1) _ (fun _ s => s.best = Q3 ∧ s.phiBest = .fin 0) ?_ 79 1 0 s1 st1 ⟨f2, f3⟩ h1'
        intro k i s s' ⟨g1, g2⟩ hstep
        rcases innerStep_cases A alt (fuel + 1) [] (19 + 1) _ i s s' hstep with ⟨a1, a2, a3, a4, a5⟩ | ⟨i1, i2, _, _, _, e1, e2, hn, ⟨b1, b2, b3, b4⟩ | ⟨b1, b2, b3, b4⟩⟩
        · exact ⟨a3.trans g1, a4.trans g2⟩
        · rw [e2, g2, exchangeVal, rootX_not_neg A hA.good.root_nonneg] at b1
          simp at b1
        · exact ⟨b2.trans g1, b3.trans g2⟩
      have := C106_zero_final A hA.good.root_nonneg alt (fuel + 1) [] (19 + 1) (79 + 1) _ _ _ st1 st' hst1.2 hst
      exact ⟨this.1.trans hst1.1, this.2⟩
  have hk : Kept alt [] P3 (phiP A P3) (0 + 6 * (79 + 1)) st' :=
    outerLoop_ind A alt (fuel + 1) [] (19 + 1) (79 + 1) (A.R.rnd (1 / 1000)) (Kept alt [] P3 (phiP A P3))
      (fun T k i st st' => kept_step A alt (fuel + 1) [] (19 + 1) P3 _ T k i st st')
      (fun k st hI => ⟨hI.cols, hI.rows, hI.bcols, hI.brows, hI.len, hI.head, hI.last, hI.desc⟩) 6 _ 0 _ st' (kept_init alt [] P3 _ false) hst
  refine ⟨st'.hist, by rw [hrun, hbest.1], by rw [hk.head, h0], by rw [hk.last, hbest.2]⟩

/-- The hypotheses are met. -/
example : ∃ A : Arith ℚ, ∃ hist, ese A alt 1 P3 false = some (Q3, hist) ∧ hist.getLast? = some (.fin 0) := by
  obtain ⟨A, hA⟩ := C106_doubles
  obtain ⟨hist, h1, _, h2⟩ := C106_double_run hA 0
  exact ⟨A, hist, h1, h2⟩

end
end SMT.Fp.Ese
