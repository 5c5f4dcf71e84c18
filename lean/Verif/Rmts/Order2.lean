import Mathlib.Analysis.Asymptotics.Lemmas
import Mathlib.Analysis.Calculus.Deriv.Prod
import Mathlib.Analysis.Calculus.Deriv.Pi
import Verif.Rmts.Order

/-!
# C88, continued: the optimum as a function of the training outputs
-/
namespace SMT.Rmts
set_option linter.unusedSectionVars false
set_option linter.unusedSimpArgs false
set_option linter.unusedVariables false
open Asymptotics Filter Topology

variable {n ny : ℕ}

/-- The block with one training value replaced. -/
def Block.setY (b : Block ℝ n) (r : Fin b.nt) (u : ℝ) : Block ℝ n := { b with y := Function.update b.y r u }

/-- The gradient as a function of coefficients and one training value. -/
noncomputable def gradAt (H : Fin n → Fin n → ℝ) (bs cs : List (Block ℝ n)) (b : Block ℝ n) (r : Fin b.nt) (p : ℕ) (z : (Fin n → ℝ) × ℝ) : Fin n → ℝ :=
  fun i => optGrad H (bs ++ b.setY r z.2 :: cs) p z.1 i

theorem update_differentiable (y : Fin m → ℝ) (r q : Fin m) : Differentiable ℝ fun u : ℝ => Function.update y r u q := by
  by_cases h : q = r
  · subst h; simp only [Function.update_self]; exact differentiable_id
  · simp only [Function.update_of_ne h]; exact differentiable_const _

theorem list_sum_differentiable {E : Type} [NormedAddCommGroup E] [NormedSpace ℝ E] {ι : Type} (l : List ι) (f : ι → E → ℝ)
    (h : ∀ i ∈ l, Differentiable ℝ (f i)) : Differentiable ℝ fun z => (l.map fun i => f i z).sum := by
  induction l with
  | nil => simp
  | cons a l ih =>
    simp only [List.map_cons, List.sum_cons]
    exact (h a (by simp)).add (ih fun i hi => h i (by simp [hi]))

theorem gradAt_differentiable (H : Fin n → Fin n → ℝ) (bs cs : List (Block ℝ n)) (b : Block ℝ n) (r : Fin b.nt) (p : ℕ) :
    Differentiable ℝ (gradAt H bs cs b r p) := by
  rw [differentiable_pi]
  intro i
  unfold gradAt optGrad
  simp only [List.map_append, List.map_cons, List.sum_append, List.sum_cons]
  have hw : ∀ j : Fin n, Differentiable ℝ fun z : (Fin n → ℝ) × ℝ => z.1 j := fun j => by fun_prop
  have hres : ∀ (b : Block ℝ n) (q : Fin b.nt), Differentiable ℝ fun z : (Fin n → ℝ) × ℝ => b.res z.1 q := by
    intro b q
    unfold Block.res
    fun_prop
  have hblk : ∀ b : Block ℝ n, Differentiable ℝ fun z : (Fin n → ℝ) × ℝ =>
      ∑ q, (1 / 2) * b.c * b.J q i * (p : ℝ) * b.res z.1 q ^ (p - 1) := by
    intro b
    refine Differentiable.fun_sum fun q _ => ?_
    exact ((hres b q).pow _).const_mul _
  refine Differentiable.add (by fun_prop) (Differentiable.add (list_sum_differentiable _ _ fun b _ => hblk b) (Differentiable.add ?_
    (list_sum_differentiable _ _ fun b _ => hblk b)))
  show Differentiable ℝ fun z : (Fin n → ℝ) × ℝ =>
      ∑ q, (1 / 2) * b.c * b.J q i * (p : ℝ) * ((∑ j, b.J q j * z.1 j) - Function.update b.y r z.2 q) ^ (p - 1)
  refine Differentiable.fun_sum fun q _ => ?_
  refine Differentiable.const_mul (Differentiable.pow (Differentiable.sub (by fun_prop) ?_) _) _
  exact (update_differentiable b.y r q).comp differentiable_snd

theorem setY_self (b : Block ℝ n) (r : Fin b.nt) : b.setY r (b.y r) = b := by
  unfold Block.setY
  rw [Function.update_eq_self]

/-- The total derivative of the gradient. -/
theorem gradAt_fderiv (H : Fin n → Fin n → ℝ) (bs cs : List (Block ℝ n)) (b : Block ℝ n) (r : Fin b.nt) (p : ℕ) (w d : Fin n → ℝ)
    (s : ℝ) (i : Fin n) :
    fderiv ℝ (gradAt H bs cs b r p) (w, b.y r) (d, s) i =
      ∑ j, optHess H (bs ++ b :: cs) p w i j * d j + s * optDgradDyt b p w i r := by
  set L := fderiv ℝ (gradAt H bs cs b r p) (w, b.y r) with hL
  have hF : HasFDerivAt (gradAt H bs cs b r p) L (w, b.y r) := (gradAt_differentiable H bs cs b r p _).hasFDerivAt
  have h1 : L (d, 0) i = ∑ j, optHess H (bs ++ b :: cs) p w i j * d j := by
    have hline : HasDerivAt (fun t : ℝ => ((fun k => w k + t * d k, b.y r) : (Fin n → ℝ) × ℝ)) (d, 0) 0 := by
      refine HasDerivAt.prodMk ?_ (hasDerivAt_const _ _)
      rw [hasDerivAt_pi]
      intro k
      simpa using ((hasDerivAt_id (0 : ℝ)).mul_const (d k)).const_add (w k)
    have e0 : ((fun k => w k + 0 * d k, b.y r) : (Fin n → ℝ) × ℝ) = (w, b.y r) := by
      congr 1; funext k; ring
    have hc := (e0 ▸ hF : HasFDerivAt (gradAt H bs cs b r p) L ((fun k => w k + 0 * d k, b.y r) : (Fin n → ℝ) × ℝ)).comp_hasDerivAt (0 : ℝ) hline
    have hci := (hasDerivAt_pi.1 hc) i
    have hg := C27_hessian H (bs ++ b :: cs) p w d i
    refine hci.unique ?_
    have : (fun x => (gradAt H bs cs b r p ∘ fun t : ℝ => ((fun k => w k + t * d k, b.y r) : (Fin n → ℝ) × ℝ)) x i) =
        fun s => optGrad H (bs ++ b :: cs) p (fun k => w k + s * d k) i := by
      funext x
      show optGrad H (bs ++ b.setY r (b.y r) :: cs) p _ i = _
      rw [setY_self]
    rw [this]
    exact hg
  have h2 : L (0, 1) i = optDgradDyt b p w i r := by
    have hline : HasDerivAt (fun t : ℝ => ((w, t) : (Fin n → ℝ) × ℝ)) (0, 1) (b.y r) :=
      (hasDerivAt_const _ _).prodMk (hasDerivAt_id _)
    have hc := HasFDerivAt.comp_hasDerivAt (b.y r) hF hline
    have hci := (hasDerivAt_pi.1 hc) i
    exact hci.unique (C27_dgrad_dyt H bs cs b p w i r)
  have e : ((d, s) : (Fin n → ℝ) × ℝ) = (d, 0) + s • (0, 1) := by simp
  rw [e, map_add, map_smul, Pi.add_apply, Pi.smul_apply, h1, h2, smul_eq_mul]

theorem norm_le_of_sq (lam : ℝ) (hlam : 0 < lam) (a f : Fin n → ℝ) (h : lam ^ 2 * ∑ i, a i ^ 2 ≤ ∑ i, f i ^ 2) :
    ‖a‖ ≤ Real.sqrt n / lam * ‖f‖ := by
  have h1 := norm_sq_le a
  have h2 : ∑ i, f i ^ 2 ≤ n * ‖f‖ ^ 2 := by
    calc ∑ i, f i ^ 2 ≤ ∑ i : Fin n, ‖f‖ ^ 2 := by
          refine Finset.sum_le_sum fun i _ => ?_
          rw [← sq_abs]
          exact pow_le_pow_left₀ (abs_nonneg _) (coord_le_norm f i) 2
      _ = _ := by simp
  have h3 : ‖a‖ ^ 2 ≤ (Real.sqrt n / lam * ‖f‖) ^ 2 := by
    rw [mul_pow, div_pow, Real.sq_sqrt (Nat.cast_nonneg n), div_mul_eq_mul_div, le_div_iff₀ (by positivity)]
    nlinarith [sq_nonneg lam]
  exact (pow_le_pow_iff_left₀ (norm_nonneg _) (by positivity) two_ne_zero).1 h3

theorem hess_dist (H : Fin n → Fin n → ℝ) (lam : ℝ) (hlam : 0 < lam) (hH : Coercive H lam) (bs : List (Block ℝ n))
    (hc : ∀ b ∈ bs, 0 ≤ b.c) (p : ℕ) (hp : Even p) (hp2 : 2 ≤ p) (w a : Fin n → ℝ) :
    lam ^ 2 * ∑ i, a i ^ 2 ≤ ∑ i, (∑ j, optHess H bs p w i j * a j) ^ 2 := by
  have h1 := (hH a).trans (optHess_pos H bs hc p hp2 hp w a)
  have h2 := cs a fun i => ∑ j, optHess H bs p w i j * a j
  set S := ∑ i, a i ^ 2
  have hS0 : 0 ≤ S := Finset.sum_nonneg fun i _ => sq_nonneg _
  have h3 : (lam * S) ^ 2 ≤ S * ∑ i, (∑ j, optHess H bs p w i j * a j) ^ 2 := (pow_le_pow_left₀ (mul_nonneg hlam.le hS0) h1 2).trans h2
  rcases hS0.eq_or_lt with h0 | h0
  · rw [← h0, mul_zero]; exact Finset.sum_nonneg fun i _ => sq_nonneg _
  · have : S * (lam ^ 2 * S) ≤ S * ∑ i, (∑ j, optHess H bs p w i j * a j) ^ 2 := by
      calc S * (lam ^ 2 * S) = (lam * S) ^ 2 := by ring
        _ ≤ _ := h3
    exact le_of_mul_le_mul_left this h0

/-- The stationary point as a function of one training value is differentiable. -/
theorem stationary_deriv (H : Fin n → Fin n → ℝ) (hS : ∀ i j, H i j = H j i) (lam : ℝ) (hlam : 0 < lam) (hH : Coercive H lam)
    (bs cs : List (Block ℝ n)) (b : Block ℝ n) (hc : ∀ b' ∈ bs ++ b :: cs, 0 ≤ b'.c) (r : Fin b.nt) (p : ℕ) (hp : Even p) (hp2 : 2 ≤ p)
    (w : ℝ → Fin n → ℝ) (hw : ∀ u i, optGrad H (bs ++ b.setY r u :: cs) p (w u) i = 0) (v : Fin n → ℝ)
    (hv : ∀ i, ∑ j, optHess H (bs ++ b :: cs) p (w (b.y r)) i j * v j = -optDgradDyt b p (w (b.y r)) i r) :
    HasDerivAt w v (b.y r) := by
  set u0 := b.y r with hu0
  set w0 := w u0 with hw0
  set L := fderiv ℝ (gradAt H bs cs b r p) (w0, u0) with hL
  have hF : HasFDerivAt (gradAt H bs cs b r p) L (w0, u0) := (gradAt_differentiable H bs cs b r p _).hasFDerivAt
  have hz : ∀ u, gradAt H bs cs b r p (w u, u) = 0 := fun u => funext fun i => hw u i
  have hcu : ∀ u, ∀ b' ∈ bs ++ b.setY r u :: cs, 0 ≤ b'.c := by
    intro u b' hb'
    rcases List.mem_append.1 hb' with h | h
    · exact hc b' (List.mem_append_left _ h)
    · rcases List.mem_cons.1 h with rfl | h
      · exact hc b (by simp)
      · exact hc b' (by simp [h])
  -- Lipschitz at u0
  have hlip : (fun u => w u - w0) =O[𝓝 u0] fun u => u - u0 := by
    have hline : HasDerivAt (fun t : ℝ => ((w0, t) : (Fin n → ℝ) × ℝ)) (0, 1) u0 :=
      (hasDerivAt_const _ _).prodMk (hasDerivAt_id _)
    have hc1 := HasFDerivAt.comp_hasDerivAt u0 hF hline
    have hO : (fun u => gradAt H bs cs b r p (w0, u) - gradAt H bs cs b r p (w0, u0)) =O[𝓝 u0] fun u => u - u0 := hc1.isBigO_sub
    have hb : (fun u => w u - w0) =O[𝓝 u0] fun u => gradAt H bs cs b r p (w0, u) - gradAt H bs cs b r p (w0, u0) := by
      refine IsBigO.of_bound (Real.sqrt n / lam) (Eventually.of_forall fun u => ?_)
      have h1 := grad_dist H hS lam hlam hH (bs ++ b.setY r u :: cs) (hcu u) p hp hp2 (w u) w0
      refine norm_le_of_sq lam hlam (w u - w0) _ ?_
      have e : ∑ i, (gradAt H bs cs b r p (w0, u) - gradAt H bs cs b r p (w0, u0)) i ^ 2 =
          ∑ i, (optGrad H (bs ++ b.setY r u :: cs) p (w u) i - optGrad H (bs ++ b.setY r u :: cs) p w0 i) ^ 2 := by
        refine Finset.sum_congr rfl fun i _ => ?_
        rw [hz u0, hw u i, sub_zero]
        show (optGrad H (bs ++ b.setY r u :: cs) p w0 i) ^ 2 = _
        ring
      rw [e]
      exact h1
    exact hb.trans hO
  -- first-order expansion along the curve
  have hpair : (fun u => ((w u, u) : (Fin n → ℝ) × ℝ) - (w0, u0)) =O[𝓝 u0] fun u => u - u0 := by
    have : (fun u => ((w u, u) : (Fin n → ℝ) × ℝ) - (w0, u0)) = fun u => (w u - w0, u - u0) := by
      funext u; rfl
    rw [this]
    exact hlip.prod_left (isBigO_refl _ _)
  have htend : Tendsto (fun u => ((w u, u) : (Fin n → ℝ) × ℝ)) (𝓝 u0) (𝓝 (w0, u0)) := by
    have h0 : Tendsto (fun u : ℝ => u - u0) (𝓝 u0) (𝓝 0) := by
      have : Continuous fun u : ℝ => u - u0 := by fun_prop
      simpa using this.tendsto u0
    have h1 := hpair.trans_tendsto h0
    have h2 := h1.add_const ((w0, u0) : (Fin n → ℝ) × ℝ)
    simpa using h2
  have hlittle := (hF.isLittleO.comp_tendsto htend).trans_isBigO hpair
  have hL' : (fun u => L ((w u, u) - (w0, u0))) =o[𝓝 u0] fun u => u - u0 := by
    have : (fun u => L (((w u, u) : (Fin n → ℝ) × ℝ) - (w0, u0))) = fun u => -(((fun x => gradAt H bs cs b r p x - gradAt H bs cs b r p (w0, u0) - L (x - (w0, u0))) ∘ fun u => ((w u, u) : (Fin n → ℝ) × ℝ)) u) := by
      funext u
      have h0 : gradAt H bs cs b r p (w0, u0) = 0 := hz u0
      simp only [Function.comp]
      rw [hz u, h0]
      simp
    rw [this]
    exact hlittle.neg_left
  rw [hasDerivAt_iff_isLittleO]
  have hb : (fun u => w u - w u0 - (u - u0) • v) =O[𝓝 u0] fun u => L ((w u, u) - (w0, u0)) := by
    refine IsBigO.of_bound (Real.sqrt n / lam) (Eventually.of_forall fun u => ?_)
    refine norm_le_of_sq lam hlam _ _ ?_
    have h1 := hess_dist H lam hlam hH (bs ++ b :: cs) hc p hp hp2 w0 (w u - w u0 - (u - u0) • v)
    refine h1.trans (le_of_eq (Finset.sum_congr rfl fun i _ => ?_))
    congr 1
    have e : ((w u, u) : (Fin n → ℝ) × ℝ) - (w0, u0) = (w u - w0, u - u0) := rfl
    rw [e, hL, hu0, gradAt_fderiv]
    simp only [Pi.sub_apply, Pi.smul_apply, smul_eq_mul, mul_sub, Finset.sum_sub_distrib]
    have e2 : ∑ j, optHess H (bs ++ b :: cs) p w0 i j * ((u - b.y r) * v j) = (u - b.y r) * -optDgradDyt b p w0 i r := by
      rw [← hv i, Finset.mul_sum]
      exact Finset.sum_congr rfl fun j _ => by ring
    rw [e2]
    ring
  exact hb.trans_isLittleO hL'

theorem hess_posDef (H : Fin n → Fin n → ℝ) (lam : ℝ) (hlam : 0 < lam) (hH : Coercive H lam) (bs : List (Block ℝ n))
    (hc : ∀ b ∈ bs, 0 ≤ b.c) (p : ℕ) (hp : Even p) (hp2 : 2 ≤ p) (w : Fin n → ℝ) : PosDef (optHess H bs p w) := by
  intro d hd
  have h1 := (hH d).trans (optHess_pos H bs hc p hp2 hp w d)
  have h2 := sum_sq_pos_of_ne (v := d) (w := 0) hd
  simp only [Pi.zero_apply, sub_zero] at h2
  exact (mul_pos hlam h2).trans_le h1

theorem outs_setY (pre post : List (MBlock ℝ n ny)) (b : MBlock ℝ n ny) (r : Fin b.nt) (l : Fin ny) (u : ℝ) :
    outs (pre ++ b.setY r l u :: post) l = outs pre l ++ (b.out l).setY r u :: outs post l := by
  unfold outs
  simp only [List.map_append, List.map_cons]
  congr 2
  show (⟨b.nt, b.J, b.c, fun s => Function.update b.Y r (Function.update (b.Y r) l u) s l⟩ : Block ℝ n) =
    ⟨b.nt, b.J, b.c, Function.update (fun s => b.Y s l) r u⟩
  congr 1
  funext s
  by_cases hs : s = r
  · subst hs; rw [Function.update_self, Function.update_self, Function.update_self]
  · rw [Function.update_of_ne hs, Function.update_of_ne hs]

/-- **C88** The optimum depends differentiably on every training output, and the derivative of its prediction is what
`predict_output_derivatives` computes when the stored matrix is the Hessian at the optimum (which it is for order 2, but not in general
for higher orders, see C87). -/
theorem C88_optimum_derivative (H : Fin n → Fin n → ℝ) (hS : ∀ i j, H i j = H j i) (lam : ℝ) (hlam : 0 < lam) (hH : Coercive H lam)
    (pre post : List (MBlock ℝ n ny)) (b : MBlock ℝ n ny) (hc : ∀ b' ∈ pre ++ b :: post, 0 ≤ b'.c) (r : Fin b.nt) (l : Fin ny) (p : ℕ)
    (hp : Even p) (hp2 : 2 ≤ p) (solveD : (Fin n → Fin n → ℝ) → (Fin n → ℝ) → (Fin n → ℝ)) (hsolveD : SolvesPosDef solveD)
    (row : Fin n → ℝ) :
    ∃ w : ℝ → Fin n → ℝ, (∀ u, Optimal H (pre ++ b.setY r l u :: post) l p (w u)) ∧
      ∀ sol : Fin ny → Fin n → ℝ, sol l = w (b.Y r l) →
        HasDerivAt (fun u => ∑ j, row j * w u j)
          (outputDeriv row solveD p sol (optHess H (outs (pre ++ b :: post) l) p (sol l)) b r l) (b.Y r l) := by
  have hcu : ∀ u, ∀ b' ∈ pre ++ b.setY r l u :: post, 0 ≤ b'.c := by
    intro u b' hb'
    rcases List.mem_append.1 hb' with h | h
    · exact hc b' (List.mem_append_left _ h)
    · rcases List.mem_cons.1 h with rfl | h
      · exact hc b (by simp)
      · exact hc b' (by simp [h])
  choose w hw _ using fun u => C88_one_optimum H hS lam hlam hH (pre ++ b.setY r l u :: post) (hcu u) l p hp hp2
  refine ⟨w, fun u => (hw u).1, fun sol hsol => ?_⟩
  have houts : outs (pre ++ b :: post) l = outs pre l ++ b.out l :: outs post l := by
    unfold outs; simp only [List.map_append, List.map_cons]
  have hcb : ∀ b' ∈ outs pre l ++ b.out l :: outs post l, 0 ≤ b'.c := by
    rw [← houts]; exact outs_c _ hc l
  rw [hsol, houts]
  set v : Fin n → ℝ := fun j => solveD (optHess H (outs pre l ++ b.out l :: outs post l) p (w (b.Y r l)))
    (fun i => optDgradDyt (b.out l) p (w (b.Y r l)) i r) j * (-1) with hv
  have hd := stationary_deriv H hS lam hlam hH (outs pre l) (outs post l) (b.out l) hcb r p hp hp2 w (by
    intro u i
    rw [← outs_setY]
    exact (hw u).2 i) v (by
    intro i
    have := hsolveD _ (fun i => optDgradDyt (b.out l) p (w (b.Y r l)) i r) (hess_posDef H lam hlam hH _ hcb p hp hp2 (w (b.Y r l))) i
    show ∑ j, optHess H _ p (w (b.Y r l)) i j * (solveD _ _ j * (-1)) = -optDgradDyt (b.out l) p (w (b.Y r l)) i r
    rw [← this, ← Finset.sum_neg_distrib]
    exact Finset.sum_congr rfl fun j _ => by ring)
  have hpi := hasDerivAt_pi.1 hd
  have := HasDerivAt.fun_sum (u := Finset.univ) fun j _ => (hpi j).const_mul (row j)
  unfold outputDeriv
  rw [hsol]
  exact this

/-- Non-vacuity: `H = 1`, one point with output 3, order 4. -/
example : ∃ w : ℝ → Fin 1 → ℝ, (∀ u, Optimal (fun _ _ : Fin 1 => (1 : ℝ)) ([] ++ (oneBlock fun _ : Fin 1 => (3 : ℝ)).setY (0 : Fin 1) 0 u :: []) 0 4 (w u)) := by
  obtain ⟨w, h, -⟩ := C88_optimum_derivative (fun _ _ : Fin 1 => (1 : ℝ)) (fun _ _ => rfl) 1 one_pos (by intro d; simp; nlinarith)
    [] [] (oneBlock fun _ : Fin 1 => (3 : ℝ)) (by simp [oneBlock]) (0 : Fin 1) 0 4 (by decide) (by norm_num) solve1 solve1_exact (fun _ => 1)
  exact ⟨w, h⟩

end SMT.Rmts
