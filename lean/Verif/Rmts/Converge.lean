import Mathlib.Analysis.Calculus.MeanValue
import Mathlib.Analysis.Calculus.ContDiff.Operations
import Verif.Rmts.Order2

/-!
# C88, continued: Newton's method with backtracking reaches the tolerance
-/
namespace SMT.Rmts
open SMT.LineSearch
set_option linter.unusedSectionVars false
set_option linter.unusedSimpArgs false
set_option linter.unusedVariables false

variable {n ny : ℕ}

/-! ## Bounds -/

theorem optGrad_contDiff (H : Fin n → Fin n → ℝ) (bs : List (Block ℝ n)) (p : ℕ) : ContDiff ℝ 1 fun w => optGrad H bs p w := by
  rw [contDiff_pi]
  intro i
  unfold optGrad Block.res
  refine ContDiff.add (by fun_prop) ?_
  induction bs with
  | nil => simpa using contDiff_const
  | cons b bs ih =>
    simp only [List.map_cons, List.sum_cons]
    refine ContDiff.add ?_ ih
    refine ContDiff.sum fun q _ => ?_
    exact contDiff_const.mul (ContDiff.pow (by fun_prop) _)

theorem optHess_continuous (H : Fin n → Fin n → ℝ) (bs : List (Block ℝ n)) (p : ℕ) (i j : Fin n) :
    Continuous fun w => optHess H bs p w i j := by
  unfold optHess Block.res
  refine Continuous.add (by fun_prop) ?_
  induction bs with
  | nil => simpa using continuous_const
  | cons b bs ih =>
    simp only [List.map_cons, List.sum_cons]
    exact Continuous.add (by fun_prop) ih

/-- The constants of the convergence proof, uniform over the points no worse than the start. -/
theorem uniform_step (H : Fin n → Fin n → ℝ) (hS : ∀ i j, H i j = H j i) (lam : ℝ) (hlam : 0 < lam) (hH : Coercive H lam)
    (bs : List (Block ℝ n)) (hc : ∀ b ∈ bs, 0 ≤ b.c) (p : ℕ) (hp : Even p) (hp2 : 2 ≤ p) (ws : Fin n → ℝ)
    (hws : ∀ i, optGrad H bs p ws i = 0) (f0 : ℝ) :
    ∃ a0 E : ℝ, 0 < a0 ∧ a0 ≤ 1 ∧ 0 < E ∧ ∀ x d : Fin n → ℝ, optFunc H bs p x ≤ f0 →
      (∀ i, ∑ j, optHess H bs p x i j * d j = -optGrad H bs p x i) →
      (∀ a, 0 < a → a ≤ a0 → (mkLS (optFunc H bs p) (optGrad H bs p) x d).funcDecreased a) ∧
      ∑ i, optGrad H bs p x i * d i ≤ -(lam / E) * ∑ i, optGrad H bs p x i ^ 2 := by
  -- radius of the set of points no worse than `f0`
  set R := Real.sqrt (2 * (f0 - optFunc H bs p ws) / lam) with hR
  have hball : ∀ x, optFunc H bs p x ≤ f0 → ‖x - ws‖ ≤ R := by
    intro x hx
    have h1 := func_lower' H hS bs hc p hp hp2 ws x
    simp only [hws, zero_mul, Finset.sum_const_zero, add_zero] at h1
    have h2 := hH fun i => x i - ws i
    have h3 := norm_sq_le (x - ws)
    apply Real.le_sqrt_of_sq_le
    rw [le_div_iff₀ hlam]
    simp only [Pi.sub_apply] at h3
    nlinarith
  have hcomp : IsCompact (Metric.closedBall ws R) := isCompact_closedBall _ _
  have hcont : Continuous fun w => optGrad H bs p w := (optGrad_contDiff H bs p).continuous
  obtain ⟨G, hG⟩ := hcomp.exists_bound_of_continuousOn hcont.continuousOn
  obtain ⟨E0, hE0⟩ := hcomp.exists_bound_of_continuousOn (f := fun w => ∑ i, ∑ j, optHess H bs p w i j ^ 2) (by
    refine Continuous.continuousOn ?_
    refine continuous_finset_sum _ fun i _ => continuous_finset_sum _ fun j _ => (optHess_continuous H bs p i j).pow 2)
  set D := Real.sqrt n / lam * |G| with hD
  have hD0 : 0 ≤ D := by positivity
  -- Lipschitz constant of the gradient on the larger ball
  have hcomp2 : IsCompact (Metric.closedBall ws (R + D)) := isCompact_closedBall _ _
  obtain ⟨C, hC⟩ := hcomp2.exists_bound_of_continuousOn ((optGrad_contDiff H bs p).continuous_fderiv (by norm_num)).continuousOn
  have hlipC : ∀ x ∈ Metric.closedBall ws (R + D), ∀ y ∈ Metric.closedBall ws (R + D),
      ‖optGrad H bs p y - optGrad H bs p x‖ ≤ C * ‖y - x‖ := by
    intro x hx y hy
    exact Convex.norm_image_sub_le_of_norm_fderiv_le (f := fun w => optGrad H bs p w)
      (fun z _ => ((optGrad_contDiff H bs p).differentiable (by norm_num)) z) hC (convex_closedBall _ _) hx hy
  set M := n * |C| with hM
  have hM0 : 0 ≤ M := by positivity
  refine ⟨min 1 ((1 - 1 / 10000) * lam / (M + 1)), |E0| + 1, lt_min one_pos (by positivity), min_le_left _ _, by positivity, ?_⟩
  intro x d hx hd
  have hxb := hball x hx
  have hxB : x ∈ Metric.closedBall ws R := by rw [mem_closedBall_iff_norm]; exact hxb
  set g := optGrad H bs p x with hg
  -- slope
  have hgd : ∑ i, g i * d i = -∑ i, d i * ∑ j, optHess H bs p x i j * d j := by
    rw [← Finset.sum_neg_distrib]
    exact Finset.sum_congr rfl fun i _ => by rw [hd i]; ring
  have hpd := (hH d).trans (optHess_pos H bs hc p hp2 hp x d)
  have hd0 : 0 ≤ ∑ i, d i ^ 2 := Finset.sum_nonneg fun i _ => sq_nonneg _
  constructor
  · intro a ha ha0
    have ha1 : a ≤ 1 := ha0.trans (min_le_left _ _)
    have haM : a * M ≤ (1 - 1 / 10000) * lam := by
      have h1 : a ≤ (1 - 1 / 10000) * lam / (M + 1) := ha0.trans (min_le_right _ _)
      rw [le_div_iff₀ (by positivity)] at h1
      nlinarith
    have hnd : ‖d‖ ≤ D := by
      have h1 := hess_dist H lam hlam hH bs hc p hp hp2 x d
      have h2 : ∑ i, (∑ j, optHess H bs p x i j * d j) ^ 2 = ∑ i, g i ^ 2 :=
        Finset.sum_congr rfl fun i _ => by rw [hd i]; ring
      rw [h2] at h1
      refine (norm_le_of_sq lam hlam d g h1).trans ?_
      rw [hD]
      exact mul_le_mul_of_nonneg_left ((hG x hxB).trans (le_abs_self G)) (by positivity)
    set y : Fin n → ℝ := fun i => x i + a * d i with hy
    have hyx : y - x = a • d := by
      funext i; show x i + a * d i - x i = a * d i; ring
    have hyB : y ∈ Metric.closedBall ws (R + D) := by
      rw [mem_closedBall_iff_norm]
      have e : y - ws = (x - ws) + a • d := by
        rw [← hyx]; abel
      rw [e]
      refine (norm_add_le _ _).trans (add_le_add hxb ?_)
      rw [norm_smul, Real.norm_eq_abs, abs_of_pos ha]
      nlinarith [norm_nonneg d]
    have hxB2 : x ∈ Metric.closedBall ws (R + D) := by
      rw [mem_closedBall_iff_norm]; linarith
    have hlip := hlipC x hxB2 y hyB
    rw [hyx, norm_smul, Real.norm_eq_abs, abs_of_pos ha] at hlip
    have hdiff : ∑ i, (optGrad H bs p y i - g i) * d i ≤ a * M * ∑ i, d i ^ 2 := by
      have h1 : ∀ i, (optGrad H bs p y i - g i) * d i ≤ |C| * (a * ‖d‖) * ‖d‖ := by
        intro i
        have h2 := coord_le_norm (optGrad H bs p y - g) i
        have h3 := coord_le_norm d i
        have h4 : |(optGrad H bs p y - g) i| ≤ |C| * (a * ‖d‖) :=
          (h2.trans hlip).trans (mul_le_mul_of_nonneg_right (le_abs_self C) (by positivity))
        calc (optGrad H bs p y i - g i) * d i ≤ |(optGrad H bs p y i - g i) * d i| := le_abs_self _
          _ = |(optGrad H bs p y - g) i| * |d i| := by rw [abs_mul]; rfl
          _ ≤ |C| * (a * ‖d‖) * ‖d‖ := mul_le_mul h4 h3 (abs_nonneg _) (by positivity)
      calc ∑ i, (optGrad H bs p y i - g i) * d i ≤ ∑ i : Fin n, |C| * (a * ‖d‖) * ‖d‖ := Finset.sum_le_sum fun i _ => h1 i
        _ = a * M * ‖d‖ ^ 2 := by simp [hM]; ring
        _ ≤ a * M * ∑ i, d i ^ 2 := mul_le_mul_of_nonneg_left (norm_sq_le d) (by positivity)
    -- convexity
    have hlow := func_lower' H hS bs hc p hp hp2 y x
    have hxy : ∀ i, x i - y i = -(a * d i) := fun i => by show x i - (x i + a * d i) = _; ring
    have hq : 0 ≤ ∑ i, (x i - y i) * ∑ j, H i j * (x j - y j) := by
      have := hH fun i => x i - y i
      have h0 : 0 ≤ ∑ i, (x i - y i) ^ 2 := Finset.sum_nonneg fun i _ => sq_nonneg _
      nlinarith
    have hlin : ∑ i, optGrad H bs p y i * (x i - y i) = -(a * ∑ i, optGrad H bs p y i * d i) := by
      rw [Finset.mul_sum, ← Finset.sum_neg_distrib]
      exact Finset.sum_congr rfl fun i _ => by rw [hxy i]; ring
    have hsplit : ∑ i, optGrad H bs p y i * d i = ∑ i, g i * d i + ∑ i, (optGrad H bs p y i - g i) * d i := by
      rw [← Finset.sum_add_distrib]; exact Finset.sum_congr rfl fun i _ => by ring
    have hmain : optFunc H bs p y ≤ optFunc H bs p x + a * (∑ i, g i * d i + a * M * ∑ i, d i ^ 2) := by
      rw [hlin, hsplit] at hlow
      nlinarith
    have hfin : optFunc H bs p y ≤ optFunc H bs p x + 1 / 10000 * a * ∑ i, g i * d i := by
      have h1 : ∑ i, g i * d i ≤ -(lam * ∑ i, d i ^ 2) := by rw [hgd]; linarith
      have h2 : a * M * ∑ i, d i ^ 2 ≤ (1 - 1 / 10000) * lam * ∑ i, d i ^ 2 := mul_le_mul_of_nonneg_right haM hd0
      have h3 : ∑ i, g i * d i + a * M * ∑ i, d i ^ 2 ≤ 1 / 10000 * ∑ i, g i * d i := by nlinarith
      have := mul_le_mul_of_nonneg_left h3 ha.le
      linarith
    unfold LS.funcDecreased LS.phi LS.dphi
    rw [at_zero]
    exact hfin
  · have hsq : ∑ i, g i ^ 2 ≤ (|E0| + 1) * ∑ i, d i ^ 2 := by
      have h1 : ∀ i, g i ^ 2 ≤ (∑ j, optHess H bs p x i j ^ 2) * ∑ j, d j ^ 2 := by
        intro i
        have := cs (fun j => optHess H bs p x i j) d
        rw [hd i, neg_sq] at this
        exact this
      have h2 : ∑ i, ∑ j, optHess H bs p x i j ^ 2 ≤ |E0| := by
        have := hE0 x hxB
        rw [Real.norm_eq_abs] at this
        exact (le_abs_self _).trans (this.trans (le_abs_self _))
      calc ∑ i, g i ^ 2 ≤ ∑ i, (∑ j, optHess H bs p x i j ^ 2) * ∑ j, d j ^ 2 := Finset.sum_le_sum fun i _ => h1 i
        _ = (∑ i, ∑ j, optHess H bs p x i j ^ 2) * ∑ j, d j ^ 2 := by rw [Finset.sum_mul]
        _ ≤ (|E0| + 1) * ∑ j, d j ^ 2 := mul_le_mul_of_nonneg_right (by linarith) hd0
    rw [hgd]
    have hE : (0 : ℝ) < |E0| + 1 := by positivity
    have h3 : lam / (|E0| + 1) * ∑ i, g i ^ 2 ≤ lam * ∑ i, d i ^ 2 := by
      rw [div_mul_eq_mul_div, div_le_iff₀ hE]
      have := mul_le_mul_of_nonneg_left hsq hlam.le
      linarith
    linarith

/-! ## The loops -/

theorem backtrack_accepts (L : LS ℝ n) (a0 : ℝ) (h : ∀ a, 0 < a → a ≤ a0 → L.funcDecreased a) :
    ∀ (fuel : ℕ) (a : ℝ), 0 < a → a * (1 / 2) ^ fuel ≤ a0 →
    ∃ s, L.backtrack (1 / 2) (fuel + 1) a = some s ∧ min a (a0 / 2) ≤ s ∧ L.funcDecreased s := by
  intro fuel
  induction fuel with
  | zero =>
    intro a ha hle
    have := h a ha (by simpa using hle)
    refine ⟨a, ?_, min_le_left _ _, this⟩
    unfold LS.backtrack
    rw [if_neg (not_not.2 this)]
  | succ fuel ih =>
    intro a ha hle
    by_cases hd : L.funcDecreased a
    · refine ⟨a, ?_, min_le_left _ _, hd⟩
      unfold LS.backtrack
      rw [if_neg (not_not.2 hd)]
    · obtain ⟨s, h1, h2, h3⟩ := ih (a * (1 / 2)) (by positivity) (by rw [pow_succ] at hle; linarith)
      refine ⟨s, ?_, ?_, h3⟩
      · unfold LS.backtrack
        rw [if_pos hd]
        exact h1
      · have hgt : a0 < a := by
          by_contra hc
          exact hd (h a ha (not_lt.1 hc))
        refine le_trans ?_ h2
        apply le_min
        · exact (min_le_right _ _).trans (by linarith)
        · exact min_le_right _ _

/-- From any start, with a line search that has fuel enough, enough passes reach the tolerance. -/
theorem loop_converges (H : Fin n → Fin n → ℝ) (hS : ∀ i j, H i j = H j i) (lam : ℝ) (hlam : 0 < lam) (hH : Coercive H lam)
    (bs : List (Block ℝ n)) (hc : ∀ b ∈ bs, 0 ≤ b.c) (p : ℕ) (hp : Even p) (hp2 : 2 ≤ p) (tol : ℝ) (htol : 0 < tol)
    (solve : (Fin n → Fin n → ℝ) → (Fin n → ℝ) → (Fin n → ℝ)) (hsolve : SolvesPosDef solve) (x0 : Fin n → ℝ) :
    ∃ F N : ℕ, ∀ fuel ≥ F, ∀ it ≥ N, ∀ m, ∃ s m', loopOut H bs p tol solve (backtrackingSearch fuel) it x0 m = some (s, m') ∧
      ∑ i, optGrad H bs p s i ^ 2 ≤ tol ^ 2 ∧ (m.isSome → m'.isSome) := by
  obtain ⟨ws, hws⟩ := exists_stationary H hS lam hlam hH bs hc p hp hp2
  obtain ⟨a0, E, ha0, ha1, hE, hstep⟩ := uniform_step H hS lam hlam hH bs hc p hp hp2 ws hws (optFunc H bs p x0)
  obtain ⟨F, hF⟩ := exists_pow_lt_of_lt_one ha0 (by norm_num : (1 / 2 : ℝ) < 1)
  set δ := 1 / 10000 * (a0 / 2) * (lam / E * tol ^ 2) with hδ
  have hδ0 : 0 < δ := by positivity
  have hmin : ∀ x, optFunc H bs p ws ≤ optFunc H bs p x := by
    intro x
    have h1 := func_lower' H hS bs hc p hp hp2 ws x
    simp only [hws, zero_mul, Finset.sum_const_zero, add_zero] at h1
    have h2 := hH fun i => x i - ws i
    have h0 : 0 ≤ ∑ i, (x i - ws i) ^ 2 := Finset.sum_nonneg fun i _ => sq_nonneg _
    nlinarith
  have key : ∀ fuel ≥ F + 1, ∀ (it : ℕ) (x : Fin n → ℝ) (m : Option (Fin n → Fin n → ℝ)), optFunc H bs p x ≤ optFunc H bs p x0 →
      optFunc H bs p x - optFunc H bs p ws < it * δ →
      ∃ s m', loopOut H bs p tol solve (backtrackingSearch fuel) it x m = some (s, m') ∧ ∑ i, optGrad H bs p s i ^ 2 ≤ tol ^ 2 ∧
        (m.isSome → m'.isSome) := by
    intro fuel hfuel it
    induction it with
    | zero =>
      intro x m _ h
      have := hmin x
      simp at h
      linarith
    | succ it ih =>
      intro x m hx h
      unfold loopOut
      by_cases ht : tol ^ 2 < ∑ i, optGrad H bs p x i ^ 2
      · rw [if_pos ht]
        set d := solve (optHess H bs p x) (fun i => -optGrad H bs p x i) with hd
        have hds := hsolve (optHess H bs p x) (fun i => -optGrad H bs p x i) (hess_posDef H lam hlam hH bs hc p hp hp2 x)
        obtain ⟨h1, h2⟩ := hstep x d hx hds
        obtain ⟨k, rfl⟩ : ∃ k, fuel = k + 1 := ⟨fuel - 1, by omega⟩
        obtain ⟨s, hs1, hs2, hs3⟩ := backtrack_accepts (mkLS (optFunc H bs p) (optGrad H bs p) x d) a0 h1 k 1 one_pos (by
          rw [one_mul]
          exact (pow_le_pow_of_le_one (by norm_num) (by norm_num) (by omega : F ≤ k)).trans hF.le)
        have hls : backtrackingSearch (k + 1) (optFunc H bs p) (optGrad H bs p) x d =
            some ((mkLS (optFunc H bs p) (optGrad H bs p) x d).at s) := by
          unfold backtrackingSearch LS.backtracking
          rw [hs1]; rfl
        have hs0 : a0 / 2 ≤ s := by
          have : min 1 (a0 / 2) = a0 / 2 := min_eq_right (by linarith)
          rw [this] at hs2; exact hs2
        set x' := (mkLS (optFunc H bs p) (optGrad H bs p) x d).at s with hx'
        have hdec : optFunc H bs p x' ≤ optFunc H bs p x - δ := by
          unfold LS.funcDecreased LS.phi LS.dphi at hs3
          rw [at_zero] at hs3
          have hs3' : optFunc H bs p x' ≤ optFunc H bs p x + 1 / 10000 * s * ∑ i, optGrad H bs p x i * d i := hs3
          have h4 : ∑ i, optGrad H bs p x i * d i ≤ -(lam / E * tol ^ 2) := by
            have : lam / E * tol ^ 2 ≤ lam / E * ∑ i, optGrad H bs p x i ^ 2 := mul_le_mul_of_nonneg_left ht.le (by positivity)
            linarith
          have h5 : 0 < lam / E * tol ^ 2 := by positivity
          have h6 : s * ∑ i, optGrad H bs p x i * d i ≤ -(a0 / 2 * (lam / E * tol ^ 2)) := by nlinarith
          rw [hδ]
          linarith
        obtain ⟨sf, m', e1, e2, e3⟩ := ih x' (some (optHess H bs p x)) (by linarith) (by push_cast at h; linarith)
        refine ⟨sf, m', ?_, e2, fun _ => e3 rfl⟩
        show Option.bind _ _ = _
        rw [hls]
        exact e1
      · rw [if_neg ht]
        exact ⟨x, m, rfl, not_lt.1 ht, id⟩
  obtain ⟨N, hN⟩ := exists_nat_gt ((optFunc H bs p x0 - optFunc H bs p ws) / δ)
  refine ⟨F + 1, N, fun fuel hfuel it hit m => key fuel hfuel it x0 m le_rfl ?_⟩
  rw [div_lt_iff₀ hδ0] at hN
  have : (N : ℝ) * δ ≤ it * δ := mul_le_mul_of_nonneg_right (by exact_mod_cast hit) hδ0.le
  linarith

theorem fold_converges (H : Fin n → Fin n → ℝ) (bs : List (MBlock ℝ n ny)) (p : ℕ) (tol : ℝ)
    (solve : (Fin n → Fin n → ℝ) → (Fin n → ℝ) → (Fin n → ℝ)) (ls : Search ℝ n) (it : ℕ) :
    ∀ (L : List (Fin ny)), L.Nodup → ∀ st : NSt ℝ n ny, st.mtx.isSome → (∀ l ∈ L, ∀ m, ∃ s m', loopOut H (outs bs l) p tol solve ls it
      (st.sol l) m = some (s, m') ∧ ∑ i, optGrad H (outs bs l) p s i ^ 2 ≤ tol ^ 2 ∧ (m.isSome → m'.isSome)) →
    ∃ st', L.foldlM (fun st l => (loopOut H (outs bs l) p tol solve ls it (st.sol l) st.mtx).map fun r =>
        (⟨Function.update st.sol l r.1, r.2⟩ : NSt ℝ n ny)) st = some st' ∧ st'.mtx.isSome ∧
      (∀ l, l ∉ L → st'.sol l = st.sol l) ∧ ∀ l ∈ L, ∑ i, optGrad H (outs bs l) p (st'.sol l) i ^ 2 ≤ tol ^ 2 := by
  intro L
  induction L with
  | nil => intro _ st hm _; exact ⟨st, rfl, hm, fun _ _ => rfl, by simp⟩
  | cons l L ih =>
    intro hnd st hm h
    obtain ⟨hlL, hnd'⟩ := List.nodup_cons.1 hnd
    obtain ⟨s, m', h1, h2, h3⟩ := h l List.mem_cons_self st.mtx
    obtain ⟨st', g1, g2, g3, g4⟩ := ih hnd' ⟨Function.update st.sol l s, m'⟩ (h3 hm) (by
      intro l' hl' m
      have hne : l' ≠ l := fun e => hlL (e ▸ hl')
      show ∃ s_1 m'_1, loopOut H (outs bs l') p tol solve ls it (Function.update st.sol l s l') m = _ ∧ _
      rw [Function.update_of_ne hne]
      exact h l' (List.mem_cons_of_mem _ hl') m)
    have hsl : st'.sol l = s := by
      rw [g3 l hlL]
      show Function.update st.sol l s l = _
      rw [Function.update_self]
    refine ⟨st', ?_, g2, ?_, ?_⟩
    · rw [List.foldlM_cons, h1]; exact g1
    · intro l' hl'
      simp only [List.mem_cons, not_or] at hl'
      rw [g3 l' hl'.2]
      show Function.update st.sol l s l' = _
      rw [Function.update_of_ne hl'.1]
    · intro l' hl'
      rcases List.mem_cons.1 hl' with rfl | hl'
      · rw [hsl]; exact h2
      · exact g4 l' hl'

/-- **C88** Training with any even order and the default (backtracking) line search converges: for every data set and every positive
tolerance there is a number of passes after which training, with that iteration limit or a larger one, ends with every output's gradient
within the tolerance, and so with coefficients within `tol / lam` of the optimum. `fuel` bounds the number of halvings in one line
search; it too need only be large enough, so the search always ends. At least one output must be visible (see C87). -/
theorem C88_training_converges (H : Fin n → Fin n → ℝ) (hS : ∀ i j, H i j = H j i) (lam : ℝ) (hlam : 0 < lam) (hH : Coercive H lam)
    (bs : List (MBlock ℝ n ny)) (hc : ∀ b ∈ bs, 0 ≤ b.c) (p : ℕ) (hp : Even p) (hp2 : 2 ≤ p) (tol : ℝ) (htol : 0 < tol)
    (solve : (Fin n → Fin n → ℝ) → (Fin n → ℝ) → (Fin n → ℝ)) (hsolve : SolvesPosDef solve) (hv : ∃ l, Visible bs tol l) :
    ∃ F N : ℕ, ∀ fuel ≥ F, ∀ maxiter ≥ N, ∃ sol mtx, trainAll H bs p maxiter tol solve (backtrackingSearch fuel) = some (sol, mtx) ∧
      ∀ l, ∑ i, optGrad H (outs bs l) p (sol l) i ^ 2 ≤ tol ^ 2 ∧
        ∀ w, Optimal H bs l p w → ∑ i, (sol l i - w i) ^ 2 ≤ (tol / lam) ^ 2 := by
  have hPD : PosDef H := by
    intro d hd
    have h2 := sum_sq_pos_of_ne (v := d) (w := 0) hd
    simp only [Pi.zero_apply, sub_zero] at h2
    exact (mul_pos hlam h2).trans_le (hH d)
  -- the start-up problem, the same for all fuels
  have hstart : ∀ k, ∃ st : NSt ℝ n ny, runNewton H bs 2 1 tol solve (backtrackingSearch (k + 1)) ⟨fun _ _ => 0, none⟩ = some st ∧
      (∀ l, (Visible bs tol l → NormalEq H bs l (st.sol l)) ∧ (¬ Visible bs tol l → st.sol l = fun _ => 0)) ∧ st.mtx.isSome := by
    intro k
    obtain ⟨st, h1, -, h2, h3, -⟩ := startup_fold H hS hPD bs hc tol solve hsolve (backtrackingSearch (k + 1))
      (C87_searches_take_full_step.2.1 k) (List.finRange ny) (List.nodup_finRange ny) ⟨fun _ _ => 0, none⟩ (fun _ _ => rfl)
    refine ⟨st, h1, fun l => h2 l (List.mem_finRange l), ?_⟩
    obtain ⟨l, hl⟩ := hv
    rw [h3 ⟨l, List.mem_finRange l, hl⟩]; rfl
  obtain ⟨st0, -, hst0, -⟩ := hstart 0
  choose F N hFN using fun l => loop_converges H hS lam hlam hH (outs bs l) (outs_c bs hc l) p hp hp2 tol htol solve hsolve (st0.sol l)
  refine ⟨1 + ∑ l, F l, ∑ l, N l, fun fuel hfuel maxiter hmax => ?_⟩
  obtain ⟨k, rfl⟩ : ∃ k, fuel = k + 1 := ⟨fuel - 1, by omega⟩
  obtain ⟨st, h1, h2, h3⟩ := hstart k
  have hsame : ∀ l, st.sol l = st0.sol l := by
    intro l
    by_cases hvl : Visible bs tol l
    · exact (normalMtx_pos H hPD bs hc l).inj fun i => by rw [(h2 l).1 hvl i, (hst0 l).1 hvl i]
    · rw [(h2 l).2 hvl, (hst0 l).2 hvl]
  obtain ⟨st', g1, g2, -, g4⟩ := fold_converges H bs p tol solve (backtrackingSearch (k + 1)) maxiter (List.finRange ny)
    (List.nodup_finRange ny) st h3 (by
      intro l _ m
      rw [hsame l]
      refine hFN l (k + 1) ?_ maxiter ?_ m
      · have := Finset.single_le_sum (f := F) (fun i _ => Nat.zero_le _) (Finset.mem_univ l)
        omega
      · have := Finset.single_le_sum (f := N) (fun i _ => Nat.zero_le _) (Finset.mem_univ l)
        omega)
  obtain ⟨mt, hmt⟩ := Option.isSome_iff_exists.1 g2
  refine ⟨st'.sol, mt, ?_, fun l => ⟨g4 l (List.mem_finRange l), fun w hw => ?_⟩⟩
  · unfold trainAll solveAll
    rw [h1, Option.bind_some]
    have : runNewton H bs p maxiter tol solve (backtrackingSearch (k + 1)) st = some st' := g1
    rw [this]
    simp [hmt]
  · obtain ⟨w', hw', hu⟩ := C88_one_optimum H hS lam hlam hH bs hc l p hp hp2
    have hww : w = w' := by
      by_contra hne
      have a1 := hw w' (Ne.symm hne)
      have a2 := hw'.1 w hne
      linarith
    subst hww
    exact (C88_small_gradient_near_optimum H hS lam hlam hH bs hc l p hp hp2 tol _ w (g4 l (List.mem_finRange l)) hw'.2).1

/-- The hypotheses hold: `H` the identity, one point, order 4. -/
example : Coercive (fun i j : Fin 2 => if i = j then (1 : ℝ) else 0) 1 := by
  intro d
  simp [Fin.sum_univ_two]
  nlinarith

example : ∃ F N : ℕ, ∀ fuel ≥ F, ∀ maxiter ≥ N, ∃ sol mtx,
    trainAll (fun _ _ => 1) [oneBlock fun _ : Fin 1 => (5 : ℝ)] 4 maxiter (1 / 1000) solve1 (backtrackingSearch fuel) = some (sol, mtx) ∧
      ∀ l, ∑ i, optGrad (fun _ _ => 1) (outs [oneBlock fun _ : Fin 1 => (5 : ℝ)] l) 4 (sol l) i ^ 2 ≤ (1 / 1000) ^ 2 := by
  obtain ⟨F, N, h⟩ := C88_training_converges (fun _ _ : Fin 1 => (1 : ℝ)) (fun _ _ => rfl) 1 one_pos (by intro d; simp; nlinarith)
    [oneBlock fun _ : Fin 1 => (5 : ℝ)] (by simp [oneBlock]) 4 (by decide) (by norm_num) (1 / 1000) (by norm_num) solve1 solve1_exact
    ⟨0, by simp [Visible, normalRhs, oneBlock]; norm_num⟩
  exact ⟨F, N, fun f hf m hm => by
    obtain ⟨sol, mtx, h1, h2⟩ := h f hf m hm
    exact ⟨sol, mtx, h1, fun l => (h2 l).1⟩⟩

end SMT.Rmts
