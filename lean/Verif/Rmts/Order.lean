import Mathlib.Tactic
import Mathlib.Analysis.Calculus.Deriv.Mul
import Mathlib.Analysis.Calculus.Deriv.Pow
import Mathlib.Analysis.Calculus.Deriv.Comp
import Mathlib.Analysis.Calculus.FDeriv.Pow
import Mathlib.Analysis.Calculus.LocalExtr.Basic
import Mathlib.Topology.Order.Compact
import Verif.Rmts.TrainProps2

/-!
# C88: the regularised splines with an even approximation order (the default is 4)

The objective is strongly convex: there is one optimum, a small gradient means being close to it, and the optimum depends
differentiably on the training outputs, with the derivative given by the Hessian at the optimum.
-/
namespace SMT.Rmts
set_option linter.unusedSectionVars false
set_option linter.unusedSimpArgs false
set_option linter.unusedVariables false

/-! ## Specification -/

section generic
variable {K : Type} [Field K] [LinearOrder K] [IsStrictOrderedRing K] {n ny : ℕ}

/-- The regularised approximation functional of order `p`: `½ wᵀ H w + ∑ ½ c ∑ (J w - y)ᵖ`. -/
def objective (H : Fin n → Fin n → K) (bs : List (MBlock K n ny)) (l : Fin ny) (p : ℕ) (w : Fin n → K) : K :=
  1 / 2 * ∑ i, w i * ∑ j, H i j * w j + (bs.map fun b => 1 / 2 * b.c * ∑ r, ((∑ j, b.J r j * w j) - b.Y r l) ^ p).sum

/-- `w` is the strict minimiser. -/
def Optimal (H : Fin n → Fin n → K) (bs : List (MBlock K n ny)) (l : Fin ny) (p : ℕ) (w : Fin n → K) : Prop :=
  ∀ v, v ≠ w → objective H bs l p w < objective H bs l p v

/-- The quadratic part is at least `lam` times the square norm (`lam` is the regularisation weight, see `fullHess_pos`). -/
def Coercive (H : Fin n → Fin n → K) (lam : K) : Prop := ∀ d : Fin n → K, lam * ∑ i, d i ^ 2 ≤ ∑ i, d i * ∑ j, H i j * d j

theorem objective_eq (H : Fin n → Fin n → K) (bs : List (MBlock K n ny)) (l : Fin ny) (p : ℕ) (w : Fin n → K) :
    objective H bs l p w = optFunc H (outs bs l) p w := by
  unfold objective optFunc outs
  rw [List.map_map]
  rfl

/-! ## Convexity -/

theorem even_pow_tangent (p : ℕ) (hp : Even p) (hp2 : 2 ≤ p) (a b : K) : b ^ p + p * b ^ (p - 1) * (a - b) ≤ a ^ p := by
  have hpow : b ^ p = b ^ (p - 1) * b := by rw [← pow_succ]; congr 1; omega
  by_cases hb : b = 0
  · subst hb
    rw [zero_pow (by omega), zero_pow (by omega)]
    simpa using hp.pow_nonneg a
  · have hbp : 0 < b ^ p := hp.pow_pos hb
    have key : 1 + (p : K) * ((a - b) / b) ≤ (1 + (a - b) / b) ^ p := by
      by_cases ht : -2 ≤ (a - b) / b
      · exact one_add_mul_le_pow ht p
      · push Not at ht
        have h1 : 0 ≤ (1 + (a - b) / b) ^ p := hp.pow_nonneg _
        have h2 : (1 : K) ≤ p := by exact_mod_cast (by omega : 1 ≤ p)
        nlinarith
    have e1 : b ^ p * (1 + (a - b) / b) ^ p = a ^ p := by
      rw [← mul_pow]; congr 1; field_simp; ring
    have e2 : b ^ p * (1 + (p : K) * ((a - b) / b)) = b ^ p + p * b ^ (p - 1) * (a - b) := by
      rw [hpow]; field_simp
    calc _ = b ^ p * (1 + (p : K) * ((a - b) / b)) := e2.symm
      _ ≤ b ^ p * (1 + (a - b) / b) ^ p := mul_le_mul_of_nonneg_left key hbp.le
      _ = a ^ p := e1

theorem blocks_tangent (bs : List (Block K n)) (hc : ∀ b ∈ bs, 0 ≤ b.c) (p : ℕ) (hp : Even p) (hp2 : 2 ≤ p) (x d : Fin n → K) :
    (bs.map fun b => (1 / 2) * b.c * ∑ r, b.res x r ^ p).sum +
      ∑ i, (bs.map fun b => ∑ r, (1 / 2) * b.c * b.J r i * (p : K) * b.res x r ^ (p - 1)).sum * d i ≤
    (bs.map fun b => (1 / 2) * b.c * ∑ r, b.res (fun i => x i + d i) r ^ p).sum := by
  induction bs with
  | nil => simp
  | cons b bs ih =>
    simp only [List.map_cons, List.sum_cons, add_mul, Finset.sum_add_distrib]
    have ih' := ih fun b' hb' => hc b' (List.mem_cons_of_mem _ hb')
    have e : ∀ r, b.res (fun i => x i + d i) r = b.res x r + ∑ j, b.J r j * d j := by
      intro r; unfold Block.res; simp only [mul_add, Finset.sum_add_distrib]; ring
    have h1 : ∑ i, (∑ r, 1 / 2 * b.c * b.J r i * (p : K) * b.res x r ^ (p - 1)) * d i =
        1 / 2 * b.c * ∑ r, p * b.res x r ^ (p - 1) * ∑ j, b.J r j * d j := by
      simp only [Finset.sum_mul, Finset.mul_sum]
      rw [Finset.sum_comm]
      refine Finset.sum_congr rfl fun r _ => Finset.sum_congr rfl fun j _ => ?_
      ring
    have h2 : 1 / 2 * b.c * ∑ r, b.res x r ^ p + 1 / 2 * b.c * ∑ r, p * b.res x r ^ (p - 1) * ∑ j, b.J r j * d j ≤
        1 / 2 * b.c * ∑ r, b.res (fun i => x i + d i) r ^ p := by
      rw [← mul_add, ← Finset.sum_add_distrib]
      refine mul_le_mul_of_nonneg_left (Finset.sum_le_sum fun r _ => ?_) (mul_nonneg (by norm_num) (hc b List.mem_cons_self))
      have := even_pow_tangent p hp hp2 (b.res (fun i => x i + d i) r) (b.res x r)
      rw [e r] at this ⊢
      simpa using this
    rw [h1]
    linarith

/-- The objective lies above its quadratic lower model. -/
theorem func_lower (H : Fin n → Fin n → K) (hS : ∀ i j, H i j = H j i) (bs : List (Block K n)) (hc : ∀ b ∈ bs, 0 ≤ b.c) (p : ℕ)
    (hp : Even p) (hp2 : 2 ≤ p) (x d : Fin n → K) :
    optFunc H bs p x + ∑ i, optGrad H bs p x i * d i + 1 / 2 * ∑ i, d i * ∑ j, H i j * d j ≤ optFunc H bs p (fun i => x i + d i) := by
  have hcross : ∑ i, d i * ∑ j, H i j * x j = ∑ i, (∑ j, H i j * x j) * d i := Finset.sum_congr rfl fun i _ => mul_comm _ _
  have hcross2 : ∑ i, x i * ∑ j, H i j * d j = ∑ i, (∑ j, H i j * x j) * d i := by
    simp only [Finset.mul_sum, Finset.sum_mul]
    rw [Finset.sum_comm]
    refine Finset.sum_congr rfl fun i _ => Finset.sum_congr rfl fun j _ => ?_
    rw [hS j i]; ring
  have := blocks_tangent bs hc p hp hp2 x d
  unfold optFunc optGrad
  simp only [add_mul, mul_add, Finset.sum_add_distrib]
  rw [hcross, hcross2]
  linarith

theorem func_lower' (H : Fin n → Fin n → K) (hS : ∀ i j, H i j = H j i) (bs : List (Block K n)) (hc : ∀ b ∈ bs, 0 ≤ b.c) (p : ℕ)
    (hp : Even p) (hp2 : 2 ≤ p) (x v : Fin n → K) :
    optFunc H bs p x + ∑ i, optGrad H bs p x i * (v i - x i) + 1 / 2 * ∑ i, (v i - x i) * ∑ j, H i j * (v j - x j) ≤ optFunc H bs p v := by
  have := func_lower H hS bs hc p hp hp2 x fun i => v i - x i
  have e : (fun i => x i + (v i - x i)) = v := by funext i; ring
  rwa [e] at this

theorem outs_c (bs : List (MBlock K n ny)) (hc : ∀ b ∈ bs, 0 ≤ b.c) (l : Fin ny) : ∀ b ∈ outs bs l, 0 ≤ b.c := by
  intro b hb
  obtain ⟨b', hb', rfl⟩ := List.mem_map.1 hb
  exact hc b' hb'

theorem sum_sq_pos_of_ne {v w : Fin n → K} (h : v ≠ w) : 0 < ∑ i, (v i - w i) ^ 2 := by
  obtain ⟨i, hi⟩ := Function.ne_iff.1 h
  exact Finset.sum_pos' (fun i _ => sq_nonneg _) ⟨i, Finset.mem_univ i, by have := sub_ne_zero.2 hi; positivity⟩

/-- **C88** A point with zero gradient is the strict minimiser. -/
theorem C88_stationary_is_optimal (H : Fin n → Fin n → K) (hS : ∀ i j, H i j = H j i) (lam : K) (hlam : 0 < lam) (hH : Coercive H lam)
    (bs : List (MBlock K n ny)) (hc : ∀ b ∈ bs, 0 ≤ b.c) (l : Fin ny) (p : ℕ) (hp : Even p) (hp2 : 2 ≤ p) (w : Fin n → K)
    (hw : ∀ i, optGrad H (outs bs l) p w i = 0) : Optimal H bs l p w := by
  intro v hv
  rw [objective_eq, objective_eq]
  have h1 := func_lower' H hS (outs bs l) (outs_c bs hc l) p hp hp2 w v
  simp only [hw, zero_mul, Finset.sum_const_zero, add_zero] at h1
  have h2 := hH fun i => v i - w i
  have h3 := mul_pos hlam (sum_sq_pos_of_ne hv)
  linarith

/-- Cauchy-Schwarz, squared. -/
theorem cs (a b : Fin n → K) : (∑ i, a i * b i) ^ 2 ≤ (∑ i, a i ^ 2) * ∑ i, b i ^ 2 := Finset.sum_mul_sq_le_sq_mul_sq _ _ _

/-- Strong monotonicity of the gradient, as a bound on the distance. -/
theorem grad_dist (H : Fin n → Fin n → K) (hS : ∀ i j, H i j = H j i) (lam : K) (hlam : 0 < lam) (hH : Coercive H lam)
    (bs : List (Block K n)) (hc : ∀ b ∈ bs, 0 ≤ b.c) (p : ℕ) (hp : Even p) (hp2 : 2 ≤ p) (v w : Fin n → K) :
    lam ^ 2 * ∑ i, (v i - w i) ^ 2 ≤ ∑ i, (optGrad H bs p v i - optGrad H bs p w i) ^ 2 := by
  have h1 := func_lower' H hS bs hc p hp hp2 w v
  have h2 := func_lower' H hS bs hc p hp hp2 v w
  have e1 : ∑ i, (w i - v i) * ∑ j, H i j * (w j - v j) = ∑ i, (v i - w i) * ∑ j, H i j * (v j - w j) := by
    refine Finset.sum_congr rfl fun i _ => ?_
    have : ∑ j, H i j * (w j - v j) = -∑ j, H i j * (v j - w j) := by
      rw [← Finset.sum_neg_distrib]; exact Finset.sum_congr rfl fun j _ => by ring
    rw [this]; ring
  have e2 : ∑ i, optGrad H bs p v i * (w i - v i) = -∑ i, optGrad H bs p v i * (v i - w i) := by
    rw [← Finset.sum_neg_distrib]; exact Finset.sum_congr rfl fun j _ => by ring
  have e3 : ∑ i, (optGrad H bs p v i - optGrad H bs p w i) * (v i - w i) =
      ∑ i, optGrad H bs p v i * (v i - w i) - ∑ i, optGrad H bs p w i * (v i - w i) := by
    rw [← Finset.sum_sub_distrib]; exact Finset.sum_congr rfl fun j _ => by ring
  have h3 := hH fun i => v i - w i
  set S := ∑ i, (v i - w i) ^ 2 with hSdef
  have hS0 : 0 ≤ S := Finset.sum_nonneg fun i _ => sq_nonneg _
  have h4 : lam * S ≤ ∑ i, (optGrad H bs p v i - optGrad H bs p w i) * (v i - w i) := by
    rw [e1, e2] at h2
    rw [e3]; linarith
  have h5 := cs (fun i => optGrad H bs p v i - optGrad H bs p w i) fun i => v i - w i
  have h6 : (lam * S) ^ 2 ≤ (∑ i, (optGrad H bs p v i - optGrad H bs p w i) ^ 2) * S :=
    (pow_le_pow_left₀ (mul_nonneg hlam.le hS0) h4 2).trans h5
  rcases hS0.eq_or_lt with h0 | h0
  · rw [← h0, mul_zero]; exact Finset.sum_nonneg fun i _ => sq_nonneg _
  · have : (lam ^ 2 * S) * S ≤ (∑ i, (optGrad H bs p v i - optGrad H bs p w i) ^ 2) * S := by
      calc (lam ^ 2 * S) * S = (lam * S) ^ 2 := by ring
        _ ≤ _ := h6
    exact le_of_mul_le_mul_right this h0

/-- **C88** A gradient of norm at most `tol` (what ends the iteration, and what training prints) puts the coefficients within
`tol / lam` of the stationary point, and the objective within `tol² / (2 lam)` of its least value. -/
theorem C88_small_gradient_near_optimum (H : Fin n → Fin n → K) (hS : ∀ i j, H i j = H j i) (lam : K) (hlam : 0 < lam)
    (hH : Coercive H lam) (bs : List (MBlock K n ny)) (hc : ∀ b ∈ bs, 0 ≤ b.c) (l : Fin ny) (p : ℕ) (hp : Even p) (hp2 : 2 ≤ p)
    (tol : K) (v w : Fin n → K) (hv : ∑ i, optGrad H (outs bs l) p v i ^ 2 ≤ tol ^ 2) (hw : ∀ i, optGrad H (outs bs l) p w i = 0) :
    ∑ i, (v i - w i) ^ 2 ≤ (tol / lam) ^ 2 ∧ objective H bs l p v - objective H bs l p w ≤ tol ^ 2 / (2 * lam) := by
  constructor
  · have := grad_dist H hS lam hlam hH (outs bs l) (outs_c bs hc l) p hp hp2 v w
    simp only [hw, sub_zero] at this
    rw [div_pow, le_div_iff₀ (by positivity)]
    linarith
  · rw [objective_eq, objective_eq]
    have h1 := func_lower' H hS (outs bs l) (outs_c bs hc l) p hp hp2 v w
    have h2 := hH fun i => w i - v i
    have h3 : 0 ≤ ∑ i, (optGrad H (outs bs l) p v i + lam * (w i - v i)) ^ 2 := Finset.sum_nonneg fun i _ => sq_nonneg _
    have e : ∑ i, (optGrad H (outs bs l) p v i + lam * (w i - v i)) ^ 2 = ∑ i, optGrad H (outs bs l) p v i ^ 2 +
        2 * lam * ∑ i, optGrad H (outs bs l) p v i * (w i - v i) + lam ^ 2 * ∑ i, (w i - v i) ^ 2 := by
      rw [Finset.mul_sum, Finset.mul_sum, ← Finset.sum_add_distrib, ← Finset.sum_add_distrib]
      exact Finset.sum_congr rfl fun i _ => by ring
    rw [e] at h3
    rw [le_div_iff₀ (by positivity)]
    nlinarith

end generic

/-! ## Existence -/

section real
variable {n ny : ℕ}

theorem optFunc_continuous (H : Fin n → Fin n → ℝ) (bs : List (Block ℝ n)) (p : ℕ) : Continuous (optFunc H bs p) := by
  unfold optFunc Block.res
  refine Continuous.add (by fun_prop) ?_
  induction bs with
  | nil => simpa using continuous_const
  | cons b bs ih =>
    simp only [List.map_cons, List.sum_cons]
    exact Continuous.add (by fun_prop) ih

theorem coord_le_norm (v : Fin n → ℝ) (i : Fin n) : |v i| ≤ ‖v‖ := by
  simpa using norm_le_pi_norm v i

theorem norm_sq_le (v : Fin n → ℝ) : ‖v‖ ^ 2 ≤ ∑ i, v i ^ 2 := by
  have h0 : 0 ≤ ∑ i, v i ^ 2 := Finset.sum_nonneg fun i _ => sq_nonneg _
  have : ‖v‖ ≤ Real.sqrt (∑ i, v i ^ 2) := by
    rw [pi_norm_le_iff_of_nonneg (Real.sqrt_nonneg _)]
    intro i
    rw [Real.norm_eq_abs]
    apply Real.abs_le_sqrt
    exact Finset.single_le_sum (f := fun i => v i ^ 2) (fun i _ => sq_nonneg _) (Finset.mem_univ i)
  calc ‖v‖ ^ 2 ≤ Real.sqrt (∑ i, v i ^ 2) ^ 2 := pow_le_pow_left₀ (norm_nonneg _) this 2
    _ = _ := Real.sq_sqrt h0

theorem exists_stationary (H : Fin n → Fin n → ℝ) (hS : ∀ i j, H i j = H j i) (lam : ℝ) (hlam : 0 < lam) (hH : Coercive H lam)
    (bs : List (Block ℝ n)) (hc : ∀ b ∈ bs, 0 ≤ b.c) (p : ℕ) (hp : Even p) (hp2 : 2 ≤ p) :
    ∃ w, ∀ i, optGrad H bs p w i = 0 := by
  have htend : Filter.Tendsto (optFunc H bs p) (Filter.cocompact (Fin n → ℝ)) Filter.atTop := by
    set G := ∑ i, |optGrad H bs p 0 i| with hG
    have hlow : ∀ v, optFunc H bs p 0 + ‖v‖ * (lam / 2 * ‖v‖ - G) ≤ optFunc H bs p v := by
      intro v
      have h1 := func_lower' H hS bs hc p hp hp2 0 v
      simp only [Pi.zero_apply, sub_zero] at h1
      have h2 := hH v
      have h3 := norm_sq_le v
      have h4 : -(G * ‖v‖) ≤ ∑ i, optGrad H bs p 0 i * v i := by
        rw [hG, Finset.sum_mul, ← Finset.sum_neg_distrib]
        refine Finset.sum_le_sum fun i _ => ?_
        have := mul_le_mul_of_nonneg_left (coord_le_norm v i) (abs_nonneg (optGrad H bs p 0 i))
        rw [← abs_mul] at this
        have := neg_abs_le (optGrad H bs p 0 i * v i)
        linarith
      nlinarith
    refine Filter.tendsto_atTop_mono hlow ?_
    have hn := tendsto_norm_cocompact_atTop (E := Fin n → ℝ)
    refine Filter.tendsto_atTop_add_const_left _ _ (hn.atTop_mul_atTop₀ ?_)
    exact Filter.tendsto_atTop_add_const_right _ _ (hn.const_mul_atTop (by positivity))
  obtain ⟨w, hw⟩ := (optFunc_continuous H bs p).exists_forall_le htend
  refine ⟨w, fun i => ?_⟩
  have hd := C27_gradient H hS bs p w (Pi.single i 1)
  have hmin : IsLocalMin (fun s : ℝ => optFunc H bs p fun k => w k + s * (Pi.single i 1 : Fin n → ℝ) k) 0 := by
    refine Filter.Eventually.of_forall fun s => ?_
    have e : (fun k => w k + 0 * (Pi.single i 1 : Fin n → ℝ) k) = w := by funext k; ring
    show optFunc H bs p (fun k => w k + 0 * (Pi.single i 1 : Fin n → ℝ) k) ≤ _
    rw [e]; exact hw _
  have := hmin.hasDerivAt_eq_zero hd
  simpa [Pi.single_apply] using this

/-- **C88** For every data set there is exactly one optimum, and it is the only point with zero gradient. -/
theorem C88_one_optimum (H : Fin n → Fin n → ℝ) (hS : ∀ i j, H i j = H j i) (lam : ℝ) (hlam : 0 < lam) (hH : Coercive H lam)
    (bs : List (MBlock ℝ n ny)) (hc : ∀ b ∈ bs, 0 ≤ b.c) (l : Fin ny) (p : ℕ) (hp : Even p) (hp2 : 2 ≤ p) :
    ∃! w, Optimal H bs l p w ∧ ∀ i, optGrad H (outs bs l) p w i = 0 := by
  obtain ⟨w, hw⟩ := exists_stationary H hS lam hlam hH (outs bs l) (outs_c bs hc l) p hp hp2
  have ho := C88_stationary_is_optimal H hS lam hlam hH bs hc l p hp hp2 w hw
  refine ⟨w, ⟨ho, hw⟩, fun v hv => ?_⟩
  by_contra hne
  have h1 := ho v hne
  have h2 := hv.1 w (Ne.symm hne)
  linarith

/-- Non-vacuity: `H = 1`, one point with output 3, order 4: the coefficient 2 is the optimum (`2 + 2 (2 - 3)³ = 0`). -/
example : Optimal (fun _ _ : Fin 1 => (1 : ℝ)) [oneBlock fun _ : Fin 1 => (3 : ℝ)] 0 4 (fun _ => 2) :=
  C88_stationary_is_optimal (fun _ _ : Fin 1 => (1 : ℝ)) (fun _ _ => rfl) 1 one_pos (by intro d; simp; nlinarith)
    [oneBlock fun _ : Fin 1 => (3 : ℝ)] (by simp [oneBlock]) 0 4 (by decide) (by norm_num) _
    (by intro i; simp [optGrad, outs, oneBlock, MBlock.out, Block.res]; norm_num)

/-- … and a coefficient with gradient at most 1/1000 is within 1/1000 of it. -/
example (v : Fin 1 → ℝ) (hv : ∑ i, optGrad (fun _ _ : Fin 1 => (1 : ℝ)) (outs [oneBlock fun _ : Fin 1 => (3 : ℝ)] 0) 4 v i ^ 2 ≤ (1 / 1000) ^ 2) :
    ∑ i, (v i - 2) ^ 2 ≤ (1 / 1000 / 1) ^ 2 :=
  (C88_small_gradient_near_optimum (fun _ _ : Fin 1 => (1 : ℝ)) (fun _ _ => rfl) 1 one_pos (by intro d; simp; nlinarith)
    [oneBlock fun _ : Fin 1 => (3 : ℝ)] (by simp [oneBlock]) 0 4 (by decide) (by norm_num) (1 / 1000) v (fun _ => 2) hv
    (by intro i; simp [optGrad, outs, oneBlock, MBlock.out, Block.res]; norm_num)).1

end real

end SMT.Rmts
