import Mathlib.Tactic
import Mathlib.Analysis.Calculus.Deriv.Mul
import Mathlib.Analysis.Calculus.Deriv.Pow
import Verif.Rmts.Train
import Verif.Rmts.Props
import Verif.LineSearch.Props

/-!
# C87: what a trained regularised spline is, and its derivatives with respect to the training outputs
-/
namespace SMT.Rmts
open SMT.LineSearch
set_option linter.unusedSectionVars false
set_option linter.unusedSimpArgs false
set_option linter.unusedVariables false

variable {K : Type} [Field K] [LinearOrder K] [IsStrictOrderedRing K] {n ny : ℕ}

/-! ## Specification -/

/-- Positive definite. -/
def PosDef (A : Fin n → Fin n → K) : Prop := ∀ d : Fin n → K, d ≠ 0 → 0 < ∑ i, d i * ∑ j, A i j * d j

/-- The solver solves positive definite systems. -/
def SolvesPosDef (solve : (Fin n → Fin n → K) → (Fin n → K) → (Fin n → K)) : Prop :=
  ∀ A b, PosDef A → ∀ i, ∑ j, A i j * solve A b j = b i

/-- Matrix of the regularised least-squares problem: `H + ∑ c Jᵀ J`. -/
def normalMtx (H : Fin n → Fin n → K) (bs : List (MBlock K n ny)) (i j : Fin n) : K :=
  H i j + (bs.map fun b => b.c * ∑ r, b.J r i * b.J r j).sum

/-- Its right-hand side for output `l`: `∑ c Jᵀ y`. -/
def normalRhs (bs : List (MBlock K n ny)) (l : Fin ny) (i : Fin n) : K :=
  (bs.map fun b => b.c * ∑ r, b.J r i * b.Y r l).sum

/-- `w` solves the regularised least-squares problem for output `l`. -/
def NormalEq (H : Fin n → Fin n → K) (bs : List (MBlock K n ny)) (l : Fin ny) (w : Fin n → K) : Prop :=
  ∀ i, ∑ j, normalMtx H bs i j * w j = normalRhs bs l i

/-- A line search that takes the full step whenever the full step satisfies the sufficient-decrease condition and lands where the slope
along the step is zero. -/
def TakesFullStep (ls : Search K n) : Prop :=
  ∀ f g (x d : Fin n → K), f (fun i => x i + d i) ≤ f x + 1 / 10000 * ∑ i, g x i * d i → f (fun i => x i + d i) ≤ f x →
    ∑ i, g (fun i => x i + d i) i * d i = 0 → ls f g x d = some fun i => x i + d i

/-! ## All line searches of the library take the full step -/

theorem at_one (f : (Fin n → K) → K) (g : (Fin n → K) → Fin n → K) (x d : Fin n → K) :
    (mkLS f g x d).at 1 = fun i => x i + d i := by
  funext i; simp [LS.at, mkLS]

theorem at_zero (f : (Fin n → K) → K) (g : (Fin n → K) → Fin n → K) (x d : Fin n → K) : (mkLS f g x d).at 0 = x := by
  funext i; simp [LS.at, mkLS]

theorem funcDecreased_one (f : (Fin n → K) → K) (g : (Fin n → K) → Fin n → K) (x d : Fin n → K)
    (h : f (fun i => x i + d i) ≤ f x + 1 / 10000 * ∑ i, g x i * d i) : (mkLS f g x d).funcDecreased 1 := by
  unfold LS.funcDecreased LS.phi LS.dphi
  rw [at_one, at_zero]
  simpa [mkLS] using h

/-- **C87** All five line-search classes (and every choice of `_compute_minimum`) take the full step of an exactly solved quadratic. -/
theorem C87_searches_take_full_step :
    TakesFullStep (nullSearch : Search K n) ∧ (∀ fuel, TakesFullStep (backtrackingSearch (fuel + 1) : Search K n)) ∧
    ∀ fuel cm, TakesFullStep (bracketedSearch fuel cm : Search K n) := by
  refine ⟨fun f g x d _ _ _ => ?_, fun fuel f g x d h1 _ _ => ?_, fun fuel cm f g x d h1 h2 h3 => ?_⟩
  · show some ((mkLS f g x d).at 1) = _
    rw [at_one]
  · show (mkLS f g x d).backtracking (fuel + 1) 1 (1 / 2) = _
    unfold LS.backtracking LS.backtrack
    rw [if_neg (not_not.2 (funcDecreased_one f g x d h1))]
    show some ((mkLS f g x d).at 1) = _
    rw [at_one]
  · have hp1 : (mkLS f g x d).phi 1 = f fun i => x i + d i := by
      show f ((mkLS f g x d).at 1) = _
      rw [at_one]
    have hp0 : (mkLS f g x d).phi 0 = f x := by
      show f ((mkLS f g x d).at 0) = _
      rw [at_zero]
    have hd1 : (mkLS f g x d).dphi 1 = 0 := by
      show ∑ i, g ((mkLS f g x d).at 1) i * d i = 0
      rw [at_one]; exact h3
    have hgd : (mkLS f g x d).gradDecreased 1 := by
      unfold LS.gradDecreased
      rw [hd1, abs_zero]
      exact abs_nonneg _
    have : (mkLS f g x d).bracketed (cm (mkLS f g x d)) fuel 1 = .step 1 := by
      unfold LS.bracketed LS.bracket
      have hn : ¬ (¬ (mkLS f g x d).funcDecreased 1 ∨ (mkLS f g x d).phi 1 > (mkLS f g x d).phi 0) := by
        rw [hp1, hp0]
        push Not
        exact ⟨funcDecreased_one f g x d h1, h2⟩
      exact (if_neg hn).trans (if_pos hgd)
    unfold bracketedSearch
    rw [this]
    show some ((mkLS f g x d).at 1) = _
    rw [at_one]

/-! ## The quadratic objective -/

theorem hess_two (H : Fin n → Fin n → K) (bs : List (MBlock K n ny)) (l : Fin ny) (w : Fin n → K) :
    optHess H (outs bs l) 2 w = normalMtx H bs := by
  funext i j
  unfold optHess normalMtx outs
  congr 1
  rw [List.map_map]
  congr 1
  refine List.map_congr_left fun b _ => ?_
  show ∑ r, (1 / 2) * b.c * b.J r i * (((2 : ℕ) : K) * (((2 : ℕ) : K) - 1) * (b.out l).res w r ^ (2 - 2)) * b.J r j = _
  rw [Finset.mul_sum]
  refine Finset.sum_congr rfl fun r _ => ?_
  norm_num
  ring

theorem grad_two (H : Fin n → Fin n → K) (bs : List (MBlock K n ny)) (l : Fin ny) (w : Fin n → K) (i : Fin n) :
    optGrad H (outs bs l) 2 w i = ∑ j, normalMtx H bs i j * w j - normalRhs bs l i := by
  unfold optGrad normalMtx normalRhs outs
  simp only [add_mul, Finset.sum_add_distrib]
  rw [add_sub_assoc]
  congr 1
  rw [List.map_map]
  induction bs with
  | nil => simp
  | cons b bs ih =>
    simp only [List.map_cons, List.sum_cons, add_mul, Finset.sum_add_distrib]
    rw [ih]
    have : (((fun b : Block K n => ∑ r, (1 / 2) * b.c * b.J r i * ((2 : ℕ) : K) * b.res w r ^ (2 - 1)) ∘ fun b : MBlock K n ny => b.out l) b) =
        ∑ x, (b.c * ∑ r, b.J r i * b.J r x) * w x - b.c * ∑ r, b.J r i * b.Y r l := by
      show ∑ r, (1 / 2) * b.c * b.J r i * ((2 : ℕ) : K) * ((∑ j, b.J r j * w j) - b.Y r l) ^ (2 - 1) = _
      simp only [Finset.mul_sum, Finset.sum_mul]
      rw [Finset.sum_comm, ← Finset.sum_sub_distrib]
      refine Finset.sum_congr rfl fun r _ => ?_
      norm_num
      rw [mul_sub, Finset.mul_sum]
      congr 1
      · refine Finset.sum_congr rfl fun j _ => by ring
      · ring
    rw [this]; ring

theorem grad_two_iff (H : Fin n → Fin n → K) (bs : List (MBlock K n ny)) (l : Fin ny) (w : Fin n → K) :
    (∀ i, optGrad H (outs bs l) 2 w i = 0) ↔ NormalEq H bs l w := by
  simp only [grad_two, NormalEq, sub_eq_zero]

theorem normalMtx_pos (H : Fin n → Fin n → K) (hH : PosDef H) (bs : List (MBlock K n ny)) (hc : ∀ b ∈ bs, 0 ≤ b.c) (l : Fin ny) :
    PosDef (normalMtx H bs) := by
  intro d hd
  have := optHess_pos H (outs bs l) (by
    intro b hb
    obtain ⟨b', hb', rfl⟩ := List.mem_map.1 hb
    exact hc b' hb') 2 le_rfl even_two 0 d
  rw [hess_two] at this
  exact (hH d hd).trans_le this

theorem PosDef.inj {A : Fin n → Fin n → K} (hA : PosDef A) {v w : Fin n → K} (h : ∀ i, ∑ j, A i j * v j = ∑ j, A i j * w j) :
    v = w := by
  by_contra hne
  have := hA (v - w) (sub_ne_zero.2 hne)
  have h0 : ∑ i, (v - w) i * ∑ j, A i j * (v - w) j = 0 := by
    refine Finset.sum_eq_zero fun i _ => ?_
    simp only [Pi.sub_apply, mul_sub, Finset.sum_sub_distrib, h i, sub_self, mul_zero]
  linarith

theorem blocks_expand (bs : List (Block K n)) (x d : Fin n → K) :
    (bs.map fun b => (1 / 2) * b.c * ∑ r, b.res (fun i => x i + d i) r ^ 2).sum =
      (bs.map fun b => (1 / 2) * b.c * ∑ r, b.res x r ^ 2).sum +
      ∑ i, (bs.map fun b => ∑ r, (1 / 2) * b.c * b.J r i * ((2 : ℕ) : K) * b.res x r ^ (2 - 1)).sum * d i +
      1 / 2 * ∑ i, d i * ∑ j, (bs.map fun b => ∑ r, (1 / 2) * b.c * b.J r i *
        (((2 : ℕ) : K) * (((2 : ℕ) : K) - 1) * b.res x r ^ (2 - 2)) * b.J r j).sum * d j := by
  induction bs with
  | nil => simp
  | cons b bs ih =>
    simp only [List.map_cons, List.sum_cons, add_mul, Finset.sum_add_distrib, mul_add]
    rw [ih]
    have e : ∀ r, b.res (fun i => x i + d i) r = b.res x r + ∑ j, b.J r j * d j := by
      intro r; unfold Block.res; simp only [mul_add, Finset.sum_add_distrib]; ring
    have h1 : ∑ i, (∑ r, 1 / 2 * b.c * b.J r i * ((2 : ℕ) : K) * b.res x r ^ (2 - 1)) * d i =
        b.c * ∑ r, b.res x r * ∑ j, b.J r j * d j := by
      simp only [Finset.sum_mul, Finset.mul_sum]
      rw [Finset.sum_comm]
      refine Finset.sum_congr rfl fun r _ => Finset.sum_congr rfl fun j _ => ?_
      norm_num; ring
    have h2 : ∑ i, d i * ∑ j, (∑ r, 1 / 2 * b.c * b.J r i * (((2 : ℕ) : K) * (((2 : ℕ) : K) - 1) * b.res x r ^ (2 - 2)) * b.J r j) * d j =
        b.c * ∑ r, (∑ j, b.J r j * d j) ^ 2 := by
      have : ∀ r : Fin b.nt, (∑ j, b.J r j * d j) ^ 2 = ∑ i, ∑ j, b.J r i * d i * (b.J r j * d j) := by
        intro r; rw [sq, Finset.sum_mul_sum]
      simp only [this, Finset.mul_sum, Finset.sum_mul]
      conv_rhs => rw [Finset.sum_comm]
      refine Finset.sum_congr rfl fun i _ => ?_
      conv_rhs => rw [Finset.sum_comm]
      refine Finset.sum_congr rfl fun j _ => Finset.sum_congr rfl fun r _ => ?_
      norm_num; ring
    rw [h1, h2]
    have h3 : ∑ r, b.res (fun i => x i + d i) r ^ 2 = ∑ r, b.res x r ^ 2 + 2 * ∑ r, b.res x r * ∑ j, b.J r j * d j +
        ∑ r, (∑ j, b.J r j * d j) ^ 2 := by
      rw [Finset.mul_sum, ← Finset.sum_add_distrib, ← Finset.sum_add_distrib]
      exact Finset.sum_congr rfl fun r _ => by rw [e r]; ring
    rw [h3]; ring

/-- Second-order expansion of the quadratic objective. -/
theorem func_two_expand (H : Fin n → Fin n → K) (hS : ∀ i j, H i j = H j i) (bs : List (Block K n)) (x d : Fin n → K) :
    optFunc H bs 2 (fun i => x i + d i) = optFunc H bs 2 x + ∑ i, optGrad H bs 2 x i * d i +
      1 / 2 * ∑ i, d i * ∑ j, optHess H bs 2 x i j * d j := by
  have hcross : ∑ i, d i * ∑ j, H i j * x j = ∑ i, (∑ j, H i j * x j) * d i := Finset.sum_congr rfl fun i _ => mul_comm _ _
  have hcross2 : ∑ i, x i * ∑ j, H i j * d j = ∑ i, (∑ j, H i j * x j) * d i := by
    simp only [Finset.mul_sum, Finset.sum_mul]
    rw [Finset.sum_comm]
    refine Finset.sum_congr rfl fun i _ => Finset.sum_congr rfl fun j _ => ?_
    rw [hS j i]; ring
  unfold optFunc optGrad optHess
  rw [blocks_expand]
  simp only [add_mul, mul_add, Finset.sum_add_distrib]
  rw [hcross, hcross2]
  ring

/-- One pass from anywhere with the exact step: the full step is taken. -/
theorem full_step (H : Fin n → Fin n → K) (hS : ∀ i j, H i j = H j i) (hH : PosDef H) (bs : List (MBlock K n ny))
    (hc : ∀ b ∈ bs, 0 ≤ b.c) (l : Fin ny) (ls : Search K n) (hls : TakesFullStep ls) (x d : Fin n → K)
    (hd : ∀ i, ∑ j, normalMtx H bs i j * d j = -optGrad H (outs bs l) 2 x i) :
    ls (optFunc H (outs bs l) 2) (optGrad H (outs bs l) 2) x d = some (fun i => x i + d i) ∧
      NormalEq H bs l fun i => x i + d i := by
  have hz : ∀ i, optGrad H (outs bs l) 2 (fun i => x i + d i) i = 0 := by
    intro i
    apply C55_quadratic_one_step
    intro i
    rw [hess_two]; exact hd i
  have hq : ∑ i, d i * ∑ j, normalMtx H bs i j * d j = -∑ i, optGrad H (outs bs l) 2 x i * d i := by
    rw [← Finset.sum_neg_distrib]
    exact Finset.sum_congr rfl fun i _ => by rw [hd i]; ring
  have hn : 0 ≤ ∑ i, d i * ∑ j, normalMtx H bs i j * d j := by
    by_cases h0 : d = 0
    · simp [h0]
    · exact (normalMtx_pos H hH bs hc l d h0).le
  have hf : optFunc H (outs bs l) 2 (fun i => x i + d i) =
      optFunc H (outs bs l) 2 x + 1 / 2 * ∑ i, optGrad H (outs bs l) 2 x i * d i := by
    rw [func_two_expand H hS, hess_two, hq]; ring
  refine ⟨hls _ _ _ _ ?_ ?_ ?_, (grad_two_iff H bs l _).1 hz⟩
  · rw [hf]; linarith
  · rw [hf]; linarith
  · simp [hz]

/-! ## Training with order 2 -/

/-- The gradient at zero. -/
theorem grad_two_zero (H : Fin n → Fin n → K) (bs : List (MBlock K n ny)) (l : Fin ny) :
    ∑ i, optGrad H (outs bs l) 2 (fun _ => 0) i ^ 2 = ∑ i, normalRhs bs l i ^ 2 := by
  refine Finset.sum_congr rfl fun i _ => ?_
  rw [grad_two]; simp

/-- The data of output `l` is visible: the gradient norm at zero exceeds the tolerance. -/
def Visible (bs : List (MBlock K n ny)) (tol : K) (l : Fin ny) : Prop := tol ^ 2 < ∑ i, normalRhs bs l i ^ 2

instance (bs : List (MBlock K n ny)) (tol : K) (l : Fin ny) : Decidable (Visible bs tol l) := by unfold Visible; infer_instance

theorem startup_fold (H : Fin n → Fin n → K) (hS : ∀ i j, H i j = H j i) (hH : PosDef H) (bs : List (MBlock K n ny))
    (hc : ∀ b ∈ bs, 0 ≤ b.c) (tol : K) (solve : (Fin n → Fin n → K) → (Fin n → K) → (Fin n → K)) (hsolve : SolvesPosDef solve)
    (ls : Search K n) (hls : TakesFullStep ls) :
    ∀ (L : List (Fin ny)), L.Nodup → ∀ st : NSt K n ny, (∀ l ∈ L, st.sol l = fun _ => 0) →
    ∃ st', L.foldlM (fun st l => (loopOut H (outs bs l) 2 tol solve ls 1 (st.sol l) st.mtx).map fun r =>
        (⟨Function.update st.sol l r.1, r.2⟩ : NSt K n ny)) st = some st' ∧
      (∀ l, l ∉ L → st'.sol l = st.sol l) ∧
      (∀ l ∈ L, (Visible bs tol l → NormalEq H bs l (st'.sol l)) ∧ (¬ Visible bs tol l → st'.sol l = fun _ => 0)) ∧
      ((∃ l ∈ L, Visible bs tol l) → st'.mtx = some (normalMtx H bs)) ∧
      ((∀ l ∈ L, ¬ Visible bs tol l) → st'.mtx = st.mtx) := by
  intro L
  induction L with
  | nil => intro _ st _; exact ⟨st, rfl, by simp, by simp, by simp, by simp⟩
  | cons l L ih =>
    intro hnd st h0
    obtain ⟨hlL, hnd'⟩ := List.nodup_cons.1 hnd
    have hstep : ∃ r, loopOut H (outs bs l) 2 tol solve ls 1 (st.sol l) st.mtx = some r ∧
        (Visible bs tol l → NormalEq H bs l r.1 ∧ r.2 = some (normalMtx H bs)) ∧
        (¬ Visible bs tol l → r.1 = (fun _ => 0) ∧ r.2 = st.mtx) := by
      rw [h0 l List.mem_cons_self]
      unfold loopOut
      rw [grad_two_zero]
      by_cases hv : Visible bs tol l
      · rw [if_pos (show tol ^ 2 < _ from hv)]
        have hd := hsolve (optHess H (outs bs l) 2 fun _ => 0) (fun i => -optGrad H (outs bs l) 2 (fun _ => 0) i) (by
          rw [hess_two]; exact normalMtx_pos H hH bs hc l)
        rw [hess_two] at hd
        rw [hess_two]
        obtain ⟨h1, h2⟩ := full_step H hS hH bs hc l ls hls (fun _ => 0) _ hd
        refine ⟨(_, some (normalMtx H bs)), ?_, fun _ => ⟨h2, rfl⟩, fun h => absurd hv h⟩
        show Option.bind _ _ = _
        rw [h1]
        rfl
      · rw [if_neg (show ¬ tol ^ 2 < _ from hv)]
        exact ⟨_, rfl, fun h => absurd h hv, fun _ => ⟨rfl, rfl⟩⟩
    obtain ⟨r, hr, hr1, hr2⟩ := hstep
    obtain ⟨st', hst', g1, g2, g3, g4⟩ := ih hnd' ⟨Function.update st.sol l r.1, r.2⟩ (by
      intro l' hl'
      have : l' ≠ l := fun h => hlL (h ▸ hl')
      show Function.update st.sol l r.1 l' = _
      rw [Function.update_of_ne this]
      exact h0 l' (List.mem_cons_of_mem _ hl'))
    have hsl : st'.sol l = r.1 := by
      rw [g1 l hlL]
      show Function.update st.sol l r.1 l = _
      rw [Function.update_self]
    refine ⟨st', ?_, ?_, ?_, ?_, ?_⟩
    · rw [List.foldlM_cons, hr]
      exact hst'
    · intro l' hl'
      simp only [List.mem_cons, not_or] at hl'
      rw [g1 l' hl'.2]
      show Function.update st.sol l r.1 l' = _
      rw [Function.update_of_ne hl'.1]
    · intro l' hl'
      rcases List.mem_cons.1 hl' with rfl | hl'
      · rw [hsl]
        exact ⟨fun h => (hr1 h).1, fun h => (hr2 h).1⟩
      · exact g2 l' hl'
    · rintro ⟨l', hl', hv⟩
      by_cases hex : ∃ l ∈ L, Visible bs tol l
      · exact g3 hex
      · push Not at hex
        rw [g4 hex]
        rcases List.mem_cons.1 hl' with rfl | hl'
        · exact (hr1 hv).2
        · exact absurd hv (hex l' hl')
    · intro h
      rw [g4 fun l' hl' => h l' (List.mem_cons_of_mem _ hl')]
      exact (hr2 (h l List.mem_cons_self)).2

theorem quiet_fold (H : Fin n → Fin n → K) (bs : List (MBlock K n ny)) (p : ℕ) (tol : K)
    (solve : (Fin n → Fin n → K) → (Fin n → K) → (Fin n → K)) (ls : Search K n) (it : ℕ) :
    ∀ (L : List (Fin ny)) (st : NSt K n ny), (∀ l, ¬ tol ^ 2 < ∑ i, optGrad H (outs bs l) p (st.sol l) i ^ 2) →
    L.foldlM (fun st l => (loopOut H (outs bs l) p tol solve ls it (st.sol l) st.mtx).map fun r =>
        (⟨Function.update st.sol l r.1, r.2⟩ : NSt K n ny)) st = some st := by
  intro L
  induction L with
  | nil => intro st _; rfl
  | cons l L ih =>
    intro st h
    have hr : loopOut H (outs bs l) p tol solve ls it (st.sol l) st.mtx = some (st.sol l, st.mtx) := by
      cases it with
      | zero => rfl
      | succ k => unfold loopOut; rw [if_neg (h l)]
    rw [List.foldlM_cons, hr]
    simp only [Option.map_some, Function.update_eq_self]
    exact ih st h

theorem solveAll_two (H : Fin n → Fin n → K) (hS : ∀ i j, H i j = H j i) (hH : PosDef H) (bs : List (MBlock K n ny))
    (hc : ∀ b ∈ bs, 0 ≤ b.c) (maxiter : ℕ) (tol : K) (solve : (Fin n → Fin n → K) → (Fin n → K) → (Fin n → K))
    (hsolve : SolvesPosDef solve) (ls : Search K n) (hls : TakesFullStep ls) :
    ∃ st, solveAll H bs 2 maxiter tol solve ls = some st ∧
      (∀ l, (Visible bs tol l → NormalEq H bs l (st.sol l)) ∧ (¬ Visible bs tol l → st.sol l = fun _ => 0)) ∧
      ((∃ l, Visible bs tol l) → st.mtx = some (normalMtx H bs)) ∧ ((∀ l, ¬ Visible bs tol l) → st.mtx = none) := by
  obtain ⟨st, h1, -, h2, h3, h4⟩ := startup_fold H hS hH bs hc tol solve hsolve ls hls (List.finRange ny) (List.nodup_finRange ny)
    ⟨fun _ _ => 0, none⟩ (fun _ _ => rfl)
  refine ⟨st, ?_, fun l => h2 l (List.mem_finRange l), ?_, ?_⟩
  · unfold solveAll runNewton
    rw [h1, Option.bind_some]
    apply quiet_fold
    intro l
    by_cases hv : Visible bs tol l
    · have := (grad_two_iff H bs l (st.sol l)).2 ((h2 l (List.mem_finRange l)).1 hv)
      simp only [this]
      simp [sq_nonneg]
    · rw [(h2 l (List.mem_finRange l)).2 hv, grad_two_zero]
      exact hv
  · rintro ⟨l, hl⟩
    exact h3 ⟨l, List.mem_finRange l, hl⟩
  · intro h
    exact h4 fun l _ => h l

/-- **C87** Training with `approx_order = 2`, any number of outputs, any of the line searches, any iteration limit, with a solver exact on
positive definite systems: if some output is visible, training succeeds, every visible output gets the solution of the regularised
least-squares problem, every other output gets zero, and the stored matrix is the matrix of that problem. If no output is visible,
training raises. -/
theorem C87_order2_trained (H : Fin n → Fin n → K) (hS : ∀ i j, H i j = H j i) (hH : PosDef H) (bs : List (MBlock K n ny))
    (hc : ∀ b ∈ bs, 0 ≤ b.c) (maxiter : ℕ) (tol : K) (solve : (Fin n → Fin n → K) → (Fin n → K) → (Fin n → K))
    (hsolve : SolvesPosDef solve) (ls : Search K n) (hls : TakesFullStep ls) :
    ((∃ l, Visible bs tol l) → ∃ sol, trainAll H bs 2 maxiter tol solve ls = some (sol, normalMtx H bs) ∧
      ∀ l, (Visible bs tol l → NormalEq H bs l (sol l)) ∧ (¬ Visible bs tol l → sol l = fun _ => 0)) ∧
    ((∀ l, ¬ Visible bs tol l) → trainAll H bs 2 maxiter tol solve ls = none) := by
  obtain ⟨st, h1, h2, h3, h4⟩ := solveAll_two H hS hH bs hc maxiter tol solve hsolve ls hls
  unfold trainAll
  rw [h1]
  constructor
  · intro hv
    refine ⟨st.sol, ?_, h2⟩
    simp [h3 hv]
  · intro hv
    simp [h4 hv]

end SMT.Rmts
