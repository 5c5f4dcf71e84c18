import Verif.Rmts.Model
import Mathlib.Analysis.Calculus.Deriv.Mul
import Mathlib.Analysis.Calculus.Deriv.Add
import Mathlib.Analysis.Calculus.Deriv.Pow
import Mathlib.Algebra.BigOperators.Fin
import Mathlib.Algebra.BigOperators.Field
import Mathlib.Algebra.Order.BigOperators.Ring.Finset
import Mathlib.Tactic.Linarith
import Mathlib.Tactic.Ring
import Mathlib.Tactic.FieldSimp
import Mathlib.Tactic.NormNum
import Mathlib.Tactic.Positivity

/-!
# Properties C27, C55: the RMTS training objective
-/
namespace SMT.Rmts
set_option linter.unusedSectionVars false
set_option linter.unusedSimpArgs false
set_option linter.unusedVariables false

variable {n : ℕ}

theorem hasDerivAt_list_sum {ι : Type} (l : List ι) (f : ι → ℝ → ℝ) (f' : ι → ℝ) (x : ℝ)
    (h : ∀ i ∈ l, HasDerivAt (f i) (f' i) x) :
    HasDerivAt (fun u => (l.map fun i => f i u).sum) (l.map f').sum x := by
  induction l with
  | nil => simpa using hasDerivAt_const x (0 : ℝ)
  | cons a l ih =>
    simp only [List.map_cons, List.sum_cons]
    exact (h a (by simp)).add (ih fun i hi => h i (by simp [hi]))

theorem res_hasDeriv (b : Block ℝ n) (sol d : Fin n → ℝ) (r : Fin b.nt) (s : ℝ) :
    HasDerivAt (fun s => b.res (fun i => sol i + s * d i) r) (∑ j, b.J r j * d j) s := by
  unfold Block.res
  refine HasDerivAt.sub_const _ ?_
  refine HasDerivAt.fun_sum fun j _ => ?_
  have := (((hasDerivAt_id s).mul_const (d j)).const_add (sol j)).const_mul (b.J r j)
  simpa using this

/-- **C27** The gradient used by training is the exact derivative of the objective along every direction, for every
approximation order `p`, every set of value and derivative training blocks and every symmetric quadratic term. -/
theorem C27_gradient (H : Fin n → Fin n → ℝ) (hH : ∀ i j, H i j = H j i) (bs : List (Block ℝ n)) (p : ℕ)
    (sol d : Fin n → ℝ) :
    HasDerivAt (fun s : ℝ => optFunc H bs p (fun i => sol i + s * d i)) (∑ i, optGrad H bs p sol i * d i) 0 := by
  unfold optFunc
  have hx : ∀ i, HasDerivAt (fun s : ℝ => sol i + s * d i) (d i) 0 := fun i => by
    simpa using ((hasDerivAt_id (0 : ℝ)).mul_const (d i)).const_add (sol i)
  have hHx : ∀ i, HasDerivAt (fun s : ℝ => ∑ j, H i j * (sol j + s * d j)) (∑ j, H i j * d j) 0 := fun i =>
    HasDerivAt.fun_sum fun j _ => (hx j).const_mul (H i j)
  have hquad : HasDerivAt (fun s : ℝ => (1 / 2) * ∑ i, (sol i + s * d i) * ∑ j, H i j * (sol j + s * d j))
      ((1 / 2) * ∑ i, (d i * (∑ j, H i j * (sol j + 0 * d j)) + (sol i + 0 * d i) * ∑ j, H i j * d j)) 0 :=
    (HasDerivAt.fun_sum fun i _ => (hx i).mul (hHx i)).const_mul _
  have hbl : HasDerivAt (fun s : ℝ => (bs.map fun b => (1 / 2) * b.c * ∑ r, b.res (fun i => sol i + s * d i) r ^ p).sum)
      (bs.map fun b => (1 / 2) * b.c * ∑ r, (p * b.res (fun i => sol i + 0 * d i) r ^ (p - 1) * ∑ j, b.J r j * d j)).sum 0 := by
    refine hasDerivAt_list_sum bs _ _ 0 fun b _ => ?_
    refine (HasDerivAt.fun_sum fun r _ => ?_).const_mul _
    exact (res_hasDeriv b sol d r 0).pow p
  refine (hquad.add hbl).congr_deriv ?_
  simp only [zero_mul, add_zero]
  unfold optGrad
  simp only [add_mul, Finset.sum_add_distrib]
  congr 1
  · -- symmetric quadratic form
    have hswap : ∑ i, sol i * ∑ j, H i j * d j = ∑ i, d i * ∑ j, H i j * sol j := by
      simp only [Finset.mul_sum]
      rw [Finset.sum_comm]
      refine Finset.sum_congr rfl fun i _ => Finset.sum_congr rfl fun j _ => ?_
      rw [hH]; ring
    rw [hswap]
    have : ∀ i, (∑ j, H i j * sol j) * d i = d i * ∑ j, H i j * sol j := fun i => mul_comm _ _
    simp only [this]; ring
  · induction bs with
    | nil => simp
    | cons b bs ih =>
      simp only [List.map_cons, List.sum_cons, add_mul, Finset.sum_add_distrib]
      rw [ih (hasDerivAt_list_sum bs _ _ 0 fun b _ =>
        (HasDerivAt.fun_sum fun r _ => (res_hasDeriv b sol d r 0).pow p).const_mul _)]
      congr 1
      simp only [Finset.mul_sum, Finset.sum_mul]
      rw [Finset.sum_comm]
      refine Finset.sum_congr rfl fun i _ => Finset.sum_congr rfl fun r _ => ?_
      ring

/-- **C27** The Hessian used by training is the exact derivative of the gradient along every direction. -/
theorem C27_hessian (H : Fin n → Fin n → ℝ) (bs : List (Block ℝ n)) (p : ℕ) (sol d : Fin n → ℝ) (i : Fin n) :
    HasDerivAt (fun s : ℝ => optGrad H bs p (fun i => sol i + s * d i) i) (∑ j, optHess H bs p sol i j * d j) 0 := by
  unfold optGrad
  have hx : ∀ i, HasDerivAt (fun s : ℝ => sol i + s * d i) (d i) 0 := fun i => by
    simpa using ((hasDerivAt_id (0 : ℝ)).mul_const (d i)).const_add (sol i)
  have hHx : HasDerivAt (fun s : ℝ => ∑ j, H i j * (sol j + s * d j)) (∑ j, H i j * d j) 0 :=
    HasDerivAt.fun_sum fun j _ => (hx j).const_mul (H i j)
  have hbl : ∀ bs : List (Block ℝ n), HasDerivAt (fun s : ℝ => (bs.map fun b => ∑ r, (1 / 2) * b.c * b.J r i * (p : ℝ) *
        b.res (fun i => sol i + s * d i) r ^ (p - 1)).sum)
      (bs.map fun b => ∑ r, (1 / 2) * b.c * b.J r i * p *
        (((p - 1 : ℕ) : ℝ) * b.res (fun i => sol i + 0 * d i) r ^ (p - 1 - 1) * ∑ j, b.J r j * d j)).sum 0 := by
    intro bs
    refine hasDerivAt_list_sum bs _ _ 0 fun b _ => ?_
    refine HasDerivAt.fun_sum fun r _ => ?_
    exact ((res_hasDeriv b sol d r 0).pow (p - 1)).const_mul _
  refine (hHx.add (hbl bs)).congr_deriv ?_
  simp only [zero_mul, add_zero]
  unfold optHess
  simp only [add_mul, Finset.sum_add_distrib]
  congr 1
  clear hbl
  induction bs with
  | nil => simp
  | cons b bs ih =>
    simp only [List.map_cons, List.sum_cons, add_mul, Finset.sum_add_distrib]
    rw [ih]
    congr 1
    simp only [Finset.mul_sum, Finset.sum_mul]
    rw [Finset.sum_comm]
    refine Finset.sum_congr rfl fun j _ => Finset.sum_congr rfl fun r _ => ?_
    have hp : (p : ℝ) * ((p - 1 : ℕ) : ℝ) = p * (p - 1) := by
      cases p with
      | zero => simp
      | succ p => push_cast; simp
    have hp2 : p - 1 - 1 = p - 2 := by omega
    rw [hp2]
    calc _ = 1 / 2 * b.c * b.J r i * (p * ((p - 1 : ℕ) : ℝ)) * b.res sol r ^ (p - 2) * (b.J r j * d j) := by ring
      _ = _ := by rw [hp]; ring

/-- **C27** The matrix used for output derivatives is the exact derivative of the gradient with respect to each
training target. -/
theorem C27_dgrad_dyt (H : Fin n → Fin n → ℝ) (bs cs : List (Block ℝ n)) (b : Block ℝ n) (p : ℕ) (sol : Fin n → ℝ)
    (i : Fin n) (r : Fin b.nt) :
    HasDerivAt (fun u : ℝ => optGrad H (bs ++ { b with y := Function.update b.y r u } :: cs) p sol i)
      (optDgradDyt b p sol i r) (b.y r) := by
  unfold optGrad
  simp only [List.map_append, List.map_cons, List.sum_append, List.sum_cons]
  have key : HasDerivAt (fun u : ℝ => ∑ q, (1 / 2) * b.c * b.J q i * p *
      (((∑ j, b.J q j * sol j) - Function.update b.y r u q) ^ (p - 1))) (optDgradDyt b p sol i r) (b.y r) := by
    have hterm : ∀ q : Fin b.nt, HasDerivAt (fun u : ℝ => (1 / 2) * b.c * b.J q i * p *
        (((∑ j, b.J q j * sol j) - Function.update b.y r u q) ^ (p - 1)))
        (if q = r then optDgradDyt b p sol i r else 0) (b.y r) := by
      intro q
      by_cases hq : q = r
      · subst hq
        rw [if_pos rfl]
        simp only [Function.update_self]
        have h1 : HasDerivAt (fun u : ℝ => (∑ j, b.J q j * sol j) - u) (-1) (b.y q) := by
          simpa using (hasDerivAt_id (b.y q)).const_sub (∑ j, b.J q j * sol j)
        refine ((h1.fun_pow (p - 1)).const_mul _).congr_deriv ?_
        unfold optDgradDyt Block.res
        have hp : (p : ℝ) * ((p - 1 : ℕ) : ℝ) = p * (p - 1) := by
          cases p with
          | zero => simp
          | succ p => push_cast; simp
        have hp2 : p - 1 - 1 = p - 2 := by omega
        rw [hp2]
        calc _ = -(1 / 2 * b.c * b.J q i * (p * ((p - 1 : ℕ) : ℝ)) * (∑ j, b.J q j * sol j - b.y q) ^ (p - 2)) := by ring
          _ = _ := by rw [hp]; ring
      · rw [if_neg hq]
        simp only [Function.update_of_ne hq]
        exact hasDerivAt_const _ _
    have := HasDerivAt.fun_sum (u := Finset.univ) fun q _ => hterm q
    simpa using this
  have h2 := ((key.add_const ((cs.map fun b : Block ℝ n => ∑ r, (1 / 2) * b.c * b.J r i * (p : ℝ) * b.res sol r ^ (p - 1)).sum)).const_add
    ((bs.map fun b : Block ℝ n => ∑ r, (1 / 2) * b.c * b.J r i * (p : ℝ) * b.res sol r ^ (p - 1)).sum)).const_add (∑ j, H i j * sol j)
  exact h2

/-! ## The assembled quadratic term -/

/-- **C27** The assembled quadratic term is symmetric, so the hypothesis of `C27_gradient` always holds. -/
theorem C27_quadratic_symmetric {K : Type} [Field K] (reg ew : K) (terms : List (K × (nq : ℕ) × (Fin nq → Fin n → K)))
    (i j : Fin n) : fullHess reg ew terms i j = fullHess reg ew terms j i := by
  unfold fullHess
  congr 1
  · by_cases h : i = j
    · simp [h]
    · simp [h, Ne.symm h]
  · congr 2
    refine List.map_congr_left fun t _ => ?_
    congr 1
    exact Finset.sum_congr rfl fun q _ => mul_comm _ _

/-! ## Newton directions are descent directions -/

variable {K : Type} [Field K] [LinearOrder K] [IsStrictOrderedRing K]

theorem fullHess_pos (reg ew : K) (hreg : 0 < reg) (hew : 0 ≤ ew) (terms : List (K × (nq : ℕ) × (Fin nq → Fin n → K)))
    (hc : ∀ t ∈ terms, 0 ≤ t.1) (d : Fin n → K) :
    reg * ∑ i, d i ^ 2 ≤ ∑ i, d i * ∑ j, fullHess reg ew terms i j * d j := by
  have key : ∑ i, d i * ∑ j, fullHess reg ew terms i j * d j =
      reg * ∑ i, d i ^ 2 + ew * (terms.map fun t => t.1 * ∑ q, (∑ i, t.2.2 q i * d i) ^ 2).sum := by
    unfold fullHess
    simp only [add_mul, Finset.sum_add_distrib, mul_add, ite_mul, zero_mul, Finset.sum_ite_eq, Finset.mem_univ, if_true]
    congr 1
    · rw [Finset.mul_sum]; exact Finset.sum_congr rfl fun i _ => by ring
    · induction terms with
      | nil => simp
      | cons t ts ih =>
        simp only [List.map_cons, List.sum_cons, mul_add, add_mul, Finset.sum_add_distrib]
        rw [ih (fun t ht => hc t (by simp [ht]))]
        congr 1
        have : ∀ q : Fin t.2.1, (∑ i, t.2.2 q i * d i) ^ 2 = ∑ i, ∑ j, t.2.2 q i * d i * (t.2.2 q j * d j) := by
          intro q; rw [sq, Finset.sum_mul_sum]
        simp only [this, Finset.mul_sum, Finset.sum_mul]
        rw [Finset.sum_comm' (s := Finset.univ) (t := fun _ => Finset.univ) (t' := Finset.univ) (s' := fun _ => Finset.univ) (by simp)]
        rw [Finset.sum_comm]
        conv_rhs => rw [Finset.sum_comm]
        refine Finset.sum_congr rfl fun i _ => ?_
        conv_rhs => rw [Finset.sum_comm]
        refine Finset.sum_congr rfl fun j _ => Finset.sum_congr rfl fun q _ => ?_
        ring
  rw [key]
  have : 0 ≤ ew * (terms.map fun t => t.1 * ∑ q, (∑ i, t.2.2 q i * d i) ^ 2).sum := by
    apply mul_nonneg hew
    apply List.sum_nonneg
    intro a ha
    rw [List.mem_map] at ha
    obtain ⟨t, ht, rfl⟩ := ha
    exact mul_nonneg (hc t ht) (Finset.sum_nonneg fun q _ => sq_nonneg _)
  linarith

/-- Non-negative curvature of the data terms for an even order `p ≥ 2`. -/
theorem optHess_pos (H : Fin n → Fin n → K) (bs : List (Block K n)) (hc : ∀ b ∈ bs, 0 ≤ b.c) (p : ℕ) (hp2 : 2 ≤ p)
    (hpe : Even p) (sol d : Fin n → K) :
    ∑ i, d i * ∑ j, H i j * d j ≤ ∑ i, d i * ∑ j, optHess H bs p sol i j * d j := by
  have hpr : (0 : K) ≤ (p : K) * ((p : K) - 1) := by
    apply mul_nonneg (by positivity)
    have : (2 : K) ≤ p := by exact_mod_cast hp2
    linarith
  have hev : Even (p - 2) := by
    obtain ⟨k, hk⟩ := hpe
    exact ⟨k - 1, by omega⟩
  have key : ∑ i, d i * ∑ j, optHess H bs p sol i j * d j = ∑ i, d i * ∑ j, H i j * d j +
      (bs.map fun b => ∑ r, 1 / 2 * b.c * ((p : K) * ((p : K) - 1)) * b.res sol r ^ (p - 2) * (∑ j, b.J r j * d j) ^ 2).sum := by
    unfold optHess
    simp only [add_mul, Finset.sum_add_distrib, mul_add]
    congr 1
    clear hc
    induction bs with
    | nil => simp
    | cons b bs ih =>
      simp only [List.map_cons, List.sum_cons, mul_add, add_mul, Finset.sum_add_distrib]
      rw [ih]
      congr 1
      have : ∀ r : Fin b.nt, (∑ j, b.J r j * d j) ^ 2 = ∑ i, ∑ j, b.J r i * d i * (b.J r j * d j) := by
        intro r; rw [sq, Finset.sum_mul_sum]
      simp only [this, Finset.mul_sum, Finset.sum_mul]
      rw [Finset.sum_comm' (s := Finset.univ) (t := fun _ => Finset.univ) (t' := Finset.univ) (s' := fun _ => Finset.univ) (by simp)]
      rw [Finset.sum_comm]
      conv_rhs => rw [Finset.sum_comm]
      refine Finset.sum_congr rfl fun i _ => ?_
      conv_rhs => rw [Finset.sum_comm]
      refine Finset.sum_congr rfl fun j _ => Finset.sum_congr rfl fun r _ => ?_
      ring
  rw [key]
  have : 0 ≤ (bs.map fun b => ∑ r, 1 / 2 * b.c * ((p : K) * ((p : K) - 1)) * b.res sol r ^ (p - 2) *
      (∑ j, b.J r j * d j) ^ 2).sum := by
    apply List.sum_nonneg
    intro a ha
    rw [List.mem_map] at ha
    obtain ⟨b, hb, rfl⟩ := ha
    refine Finset.sum_nonneg fun r _ => ?_
    have h1 := hc b hb
    have h2 : 0 ≤ b.res sol r ^ (p - 2) := hev.pow_nonneg _
    have h3 : 0 ≤ 1 / 2 * b.c * ((p : K) * ((p : K) - 1)) := mul_nonneg (mul_nonneg (by norm_num) h1) hpr
    exact mul_nonneg (mul_nonneg h3 h2) (sq_nonneg _)
  linarith

/-- **C55** Newton directions are descent directions: for every even order `p ≥ 2`, non-negative weights and positive
regularisation, any exact solution `d` of the Newton system at a non-stationary point satisfies
`grad · d ≤ -reg * |d|² < 0`; and the Newton matrix is non-singular. -/
theorem C55_newton_descent (reg ew : K) (hreg : 0 < reg) (hew : 0 ≤ ew)
    (terms : List (K × (nq : ℕ) × (Fin nq → Fin n → K))) (ht : ∀ t ∈ terms, 0 ≤ t.1)
    (bs : List (Block K n)) (hc : ∀ b ∈ bs, 0 ≤ b.c) (p : ℕ) (hp2 : 2 ≤ p) (hpe : Even p) (sol d : Fin n → K)
    (hd : ∀ i, ∑ j, optHess (fullHess reg ew terms) bs p sol i j * d j = -optGrad (fullHess reg ew terms) bs p sol i) :
    (∑ i, optGrad (fullHess reg ew terms) bs p sol i * d i ≤ -(reg * ∑ i, d i ^ 2)) ∧
    ((∃ i, optGrad (fullHess reg ew terms) bs p sol i ≠ 0) →
      ∑ i, optGrad (fullHess reg ew terms) bs p sol i * d i < 0) := by
  have h1 := fullHess_pos reg ew hreg hew terms ht d
  have h2 := optHess_pos (fullHess reg ew terms) bs hc p hp2 hpe sol d
  have h3 : ∑ i, d i * ∑ j, optHess (fullHess reg ew terms) bs p sol i j * d j =
      -∑ i, optGrad (fullHess reg ew terms) bs p sol i * d i := by
    rw [← Finset.sum_neg_distrib]
    refine Finset.sum_congr rfl fun i _ => ?_
    rw [hd i]; ring
  have h4 : ∑ i, optGrad (fullHess reg ew terms) bs p sol i * d i ≤ -(reg * ∑ i, d i ^ 2) := by linarith
  refine ⟨h4, fun ⟨i, hi⟩ => ?_⟩
  have hne : ∃ j, d j ≠ 0 := by
    by_contra hcon
    push Not at hcon
    apply hi
    have := hd i
    simp only [hcon, mul_zero, Finset.sum_const_zero] at this
    linarith
  obtain ⟨j, hj⟩ := hne
  have : 0 < ∑ i, d i ^ 2 := Finset.sum_pos' (fun i _ => sq_nonneg _) ⟨j, Finset.mem_univ _, by positivity⟩
  have := mul_pos hreg this
  linarith

/-- **C55** With `p = 2` one full Newton step from anywhere lands on a stationary point: the start-up problem is
solved exactly by its single iteration when the full step is accepted. -/
theorem C55_quadratic_one_step (H : Fin n → Fin n → K) (bs : List (Block K n)) (sol d : Fin n → K)
    (hd : ∀ i, ∑ j, optHess H bs 2 sol i j * d j = -optGrad H bs 2 sol i) (i : Fin n) :
    optGrad H bs 2 (fun i => sol i + d i) i = 0 := by
  have key : optGrad H bs 2 (fun i => sol i + d i) i = optGrad H bs 2 sol i + ∑ j, optHess H bs 2 sol i j * d j := by
    clear hd
    unfold optGrad optHess
    simp only [add_mul, Finset.sum_add_distrib, mul_add]
    have : ∀ a b c e : K, a + b + (c) = a + e + (b + (c - e)) := by intros; ring
    rw [add_assoc, add_assoc, add_left_comm (List.sum _) (∑ j, H i j * d j)]
    congr 2
    induction bs with
    | nil => simp
    | cons b bs ih =>
      simp only [List.map_cons, List.sum_cons, add_mul, Finset.sum_add_distrib]
      rw [ih]
      have : ∑ r, 1 / 2 * b.c * b.J r i * ((2 : ℕ) : K) * b.res (fun i => sol i + d i) r ^ (2 - 1) =
          ∑ r, 1 / 2 * b.c * b.J r i * ((2 : ℕ) : K) * b.res sol r ^ (2 - 1) +
          ∑ x, (∑ r, 1 / 2 * b.c * b.J r i * (((2 : ℕ) : K) * (((2 : ℕ) : K) - 1) * b.res sol r ^ (2 - 2)) * b.J r x) * d x := by
        have e : ∀ r, b.res (fun i => sol i + d i) r = b.res sol r + ∑ j, b.J r j * d j := by
          intro r; unfold Block.res; simp only [mul_add, Finset.sum_add_distrib]; ring
        simp only [e, Finset.sum_mul]
        rw [Finset.sum_comm, ← Finset.sum_add_distrib]
        refine Finset.sum_congr rfl fun r _ => ?_
        have : ∑ j, 1 / 2 * b.c * b.J r i * (((2 : ℕ) : K) * (((2 : ℕ) : K) - 1) * b.res sol r ^ (2 - 2)) * b.J r j * d j =
            b.c * b.J r i * ∑ j, b.J r j * d j := by
          rw [Finset.mul_sum]
          refine Finset.sum_congr rfl fun j _ => ?_
          norm_num; ring
        rw [this]
        norm_num; ring
      rw [this]; ring
  rw [key, hd i]; ring

/-- **C55** If the line search never increases the objective, training never increases it either: for any linear solver,
the Newton loop's result is at least as good as its start, for any number of iterations. -/
theorem C55_newton_monotone (H : Fin n → Fin n → K) (bs : List (Block K n)) (p : ℕ) (tol : K)
    (solve : (Fin n → Fin n → K) → (Fin n → K) → (Fin n → K)) (ls : ℕ → (Fin n → K) → (Fin n → K) → (Fin n → K))
    (hls : ∀ sol, optFunc H bs p (ls p sol (solve (optHess H bs p sol) (fun i => -optGrad H bs p sol i))) ≤ optFunc H bs p sol) :
    ∀ (it : ℕ) (sol : Fin n → K) (m : Option (Fin n → Fin n → K)),
      optFunc H bs p (newton H bs p tol solve ls it sol m).1 ≤ optFunc H bs p sol := by
  intro it
  induction it with
  | zero => intro sol m; exact le_refl _
  | succ it ih =>
    intro sol m
    unfold newton
    split
    · exact (ih _ _).trans (hls sol)
    · exact le_refl _

/-- **C55** The whole of `_solve` for one output: the user's objective at the result is at most its value after the
`p = 2` start-up iteration, whose own objective is at most its value at zero. -/
theorem C55_solve_monotone (H : Fin n → Fin n → K) (bs : List (Block K n)) (p maxiter : ℕ) (tol : K)
    (solve : (Fin n → Fin n → K) → (Fin n → K) → (Fin n → K)) (ls : ℕ → (Fin n → K) → (Fin n → K) → (Fin n → K))
    (hls : ∀ q sol, optFunc H bs q (ls q sol (solve (optHess H bs q sol) (fun i => -optGrad H bs q sol i))) ≤ optFunc H bs q sol) :
    ∃ start, optFunc H bs 2 start ≤ optFunc H bs 2 (fun _ => 0) ∧
      optFunc H bs p (solveOne H bs p maxiter tol solve ls).1 ≤ optFunc H bs p start :=
  ⟨(newton H bs 2 tol solve ls 1 (fun _ => 0) none).1, C55_newton_monotone H bs 2 tol solve ls (hls 2) 1 _ _,
    C55_newton_monotone H bs p tol solve ls (hls p) maxiter _ _⟩

/-- **C55** Stopping: the loop ends at a point whose gradient norm is within tolerance, or it made exactly `it`
iterations; in both cases it ends. -/
theorem C55_newton_stops (H : Fin n → Fin n → K) (bs : List (Block K n)) (p : ℕ) (tol : K)
    (solve : (Fin n → Fin n → K) → (Fin n → K) → (Fin n → K)) (ls : ℕ → (Fin n → K) → (Fin n → K) → (Fin n → K)) :
    ∀ (it : ℕ) (sol : Fin n → K) (m : Option (Fin n → Fin n → K)),
      ∑ i, optGrad H bs p (newton H bs p tol solve ls it sol m).1 i ^ 2 ≤ tol ^ 2 ∨
      (newton H bs p tol solve ls it sol m).1 =
        (fun s => ls p s (solve (optHess H bs p s) (fun i => -optGrad H bs p s i)))^[it] sol := by
  intro it
  induction it with
  | zero => intro sol m; right; rfl
  | succ it ih =>
    intro sol m
    unfold newton
    split
    · rcases ih (ls p sol (solve (optHess H bs p sol) (fun i => -optGrad H bs p sol i))) (some (optHess H bs p sol)) with h | h
      · left; exact h
      · right; rw [Function.iterate_succ_apply]; exact h
    · rename_i h; left; exact not_lt.1 h

/-- Observation: if the initial gradient is already within tolerance no iteration runs and no matrix is stored, so
`_train` fails when it reads `self.mtx` (all training outputs zero). -/
theorem C55_zero_outputs_no_matrix (H : Fin n → Fin n → K) (bs : List (Block K n)) (p maxiter : ℕ) (tol : K)
    (hp : 2 ≤ p) (hy : ∀ b ∈ bs, ∀ r, b.y r = 0)
    (solve : (Fin n → Fin n → K) → (Fin n → K) → (Fin n → K)) (ls : ℕ → (Fin n → K) → (Fin n → K) → (Fin n → K)) :
    (solveOne H bs p maxiter tol solve ls).2 = none := by
  have hg : ∀ q, 2 ≤ q → ∀ i, optGrad H bs q (fun _ => 0) i = 0 := by
    intro q hq i
    unfold optGrad
    simp only [mul_zero, Finset.sum_const_zero, zero_add]
    apply List.sum_eq_zero
    intro a ha
    rw [List.mem_map] at ha
    obtain ⟨b, hb, rfl⟩ := ha
    refine Finset.sum_eq_zero fun r _ => ?_
    have : b.res (fun _ => 0) r = 0 := by unfold Block.res; simp [hy b hb r]
    rw [this, zero_pow (by omega), mul_zero]
  have hnlt : ∀ q, 2 ≤ q → ¬ tol ^ 2 < ∑ i, optGrad H bs q (fun _ => 0) i ^ 2 := by
    intro q hq
    simp only [hg q hq]
    simp [sq_nonneg]
  have h1 : newton H bs 2 tol solve ls 1 (fun _ => 0) none = (fun _ => 0, none) := by
    unfold newton; rw [if_neg (hnlt 2 (le_refl _))]
  unfold solveOne
  rw [h1]
  cases maxiter with
  | zero => rfl
  | succ k => unfold newton; rw [if_neg (hnlt p hp)]

/-- Non-vacuity: one unknown, one target. -/
def exBlock : Block ℚ 1 := ⟨1, fun _ _ => 2, 1, fun _ => 3⟩

example : fullHess (n := 1) (1 : ℚ) 1 [] 0 0 = 1 ∧ optGrad (fullHess (1 : ℚ) 1 []) [exBlock] 2 (fun _ => 0) 0 = -6 ∧
    (∀ i, ∑ j, optHess (fullHess (1 : ℚ) 1 []) [exBlock] 2 (fun _ => 0) i j * (6 / 5) =
      -optGrad (fullHess (1 : ℚ) 1 []) [exBlock] 2 (fun _ => 0) i) ∧
    optGrad (fullHess (1 : ℚ) 1 []) [exBlock] 2 (fun _ => 6 / 5) 0 = 0 ∧ Even 4 ∧
    optFunc (fullHess (1 : ℚ) 1 []) [exBlock] 4 (fun _ => 1) = 1 := by
  refine ⟨by decide +kernel, by decide +kernel, by decide +kernel, by decide +kernel, by decide, by decide +kernel⟩

end SMT.Rmts
