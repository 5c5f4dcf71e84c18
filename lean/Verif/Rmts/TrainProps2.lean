import Mathlib.Tactic
import Mathlib.Analysis.Calculus.Deriv.Mul
import Mathlib.Analysis.Calculus.Deriv.Pow
import Mathlib.LinearAlgebra.Matrix.NonsingularInverse
import Mathlib.LinearAlgebra.Matrix.ToLinearEquiv
import Verif.Rmts.TrainProps

/-!
# C87, continued: optimality, superposition, independence, order of the data, derivatives with respect to the training outputs
-/
namespace SMT.Rmts
open SMT.LineSearch
set_option linter.unusedSectionVars false
set_option linter.unusedSimpArgs false
set_option linter.unusedVariables false

variable {K : Type} [Field K] [LinearOrder K] [IsStrictOrderedRing K] {n ny : ℕ}

/-! ## Specification -/

/-- Regularised least squares for output `l`. -/
def lsq (H : Fin n → Fin n → K) (bs : List (MBlock K n ny)) (l : Fin ny) (w : Fin n → K) : K :=
  1 / 2 * ∑ i, w i * ∑ j, H i j * w j + (bs.map fun b => 1 / 2 * b.c * ∑ r, ((∑ j, b.J r j * w j) - b.Y r l) ^ 2).sum

/-- Two blocks with the same rows in another order. -/
def SameRows (b b' : MBlock K n ny) : Prop :=
  b.c = b'.c ∧ ∃ σ : Fin b.nt ≃ Fin b'.nt, ∀ r, b.J r = b'.J (σ r) ∧ b.Y r = b'.Y (σ r)

/-- The block with one training value replaced. -/
def MBlock.setY (b : MBlock K n ny) (r : Fin b.nt) (l : Fin ny) (u : K) : MBlock K n ny :=
  ⟨b.nt, b.J, b.c, Function.update b.Y r (Function.update (b.Y r) l u)⟩

/-! ## An exact solver exists -/

theorem exists_exact_solver : ∃ solve : (Fin n → Fin n → K) → (Fin n → K) → (Fin n → K), SolvesPosDef solve := by
  refine ⟨fun A b => (Matrix.of A)⁻¹.mulVec b, fun A b hA => ?_⟩
  have hdet : IsUnit (Matrix.of A).det := by
    rw [isUnit_iff_ne_zero]
    intro h
    obtain ⟨v, hv, hv0⟩ := Matrix.exists_mulVec_eq_zero_iff.2 h
    have := hA v hv
    have h0 : ∑ i, v i * ∑ j, A i j * v j = 0 := Finset.sum_eq_zero fun i _ => by
      have := congrFun hv0 i
      have h' : ∑ j, A i j * v j = 0 := this
      rw [h', mul_zero]
    linarith
  intro i
  have h1 : (Matrix.of A).mulVec ((Matrix.of A)⁻¹.mulVec b) = b := by
    rw [Matrix.mulVec_mulVec, Matrix.mul_nonsing_inv _ hdet, Matrix.one_mulVec]
  exact congrFun h1 i

/-! ## Optimality -/

theorem lsq_eq (H : Fin n → Fin n → K) (bs : List (MBlock K n ny)) (l : Fin ny) (w : Fin n → K) :
    lsq H bs l w = optFunc H (outs bs l) 2 w := by
  unfold lsq optFunc outs
  rw [List.map_map]
  rfl

theorem normalEq_min (H : Fin n → Fin n → K) (hS : ∀ i j, H i j = H j i) (hH : PosDef H) (bs : List (MBlock K n ny))
    (hc : ∀ b ∈ bs, 0 ≤ b.c) (l : Fin ny) (w v : Fin n → K) (hw : NormalEq H bs l w) (hv : v ≠ w) :
    lsq H bs l w < lsq H bs l v := by
  have hz := (grad_two_iff H bs l w).2 hw
  have e : v = fun i => w i + (v i - w i) := by funext i; ring
  rw [lsq_eq, lsq_eq, e, func_two_expand H hS, hess_two]
  have := normalMtx_pos H hH bs hc l (fun i => v i - w i) (by
    intro h
    apply hv
    funext i
    have := congrFun h i
    simpa [sub_eq_zero] using this)
  simp only [hz, zero_mul, Finset.sum_const_zero]
  linarith

/-- **C87** With `approx_order = 2` the coefficients of every visible output are the strict, hence unique, minimiser of the
regularised least-squares functional. -/
theorem C87_order2_unique_minimiser (H : Fin n → Fin n → K) (hS : ∀ i j, H i j = H j i) (hH : PosDef H)
    (bs : List (MBlock K n ny)) (hc : ∀ b ∈ bs, 0 ≤ b.c) (maxiter : ℕ) (tol : K)
    (solve : (Fin n → Fin n → K) → (Fin n → K) → (Fin n → K)) (hsolve : SolvesPosDef solve) (ls : Search K n)
    (hls : TakesFullStep ls) (l : Fin ny) (hv : Visible bs tol l) :
    ∃ sol mtx, trainAll H bs 2 maxiter tol solve ls = some (sol, mtx) ∧ ∀ w, w ≠ sol l → lsq H bs l (sol l) < lsq H bs l w := by
  obtain ⟨sol, h, h2⟩ := (C87_order2_trained H hS hH bs hc maxiter tol solve hsolve ls hls).1 ⟨l, hv⟩
  exact ⟨sol, _, h, fun w hw => normalEq_min H hS hH bs hc l _ w ((h2 l).1 hv) hw⟩

/-- **C87** Superposition: if the training values of output `l` are a linear combination of those of two others, so are the
coefficients, and the predictions everywhere. -/
theorem C87_order2_superposition (H : Fin n → Fin n → K) (hS : ∀ i j, H i j = H j i) (hH : PosDef H)
    (bs : List (MBlock K n ny)) (hc : ∀ b ∈ bs, 0 ≤ b.c) (maxiter : ℕ) (tol : K)
    (solve : (Fin n → Fin n → K) → (Fin n → K) → (Fin n → K)) (hsolve : SolvesPosDef solve) (ls : Search K n)
    (hls : TakesFullStep ls) (l l1 l2 : Fin ny) (hv : Visible bs tol l) (hv1 : Visible bs tol l1) (hv2 : Visible bs tol l2)
    (s t : K) (hY : ∀ b ∈ bs, ∀ r, b.Y r l = s * b.Y r l1 + t * b.Y r l2) (row : Fin n → K) :
    ∃ sol mtx, trainAll H bs 2 maxiter tol solve ls = some (sol, mtx) ∧
      predictRow row sol l = s * predictRow row sol l1 + t * predictRow row sol l2 := by
  obtain ⟨sol, h, h2⟩ := (C87_order2_trained H hS hH bs hc maxiter tol solve hsolve ls hls).1 ⟨l, hv⟩
  refine ⟨sol, _, h, ?_⟩
  have hr : ∀ i, normalRhs bs l i = s * normalRhs bs l1 i + t * normalRhs bs l2 i := by
    intro i
    unfold normalRhs
    clear hv hv1 hv2 h h2 hc
    induction bs with
    | nil => simp
    | cons b bs ih =>
      simp only [List.map_cons, List.sum_cons]
      rw [ih fun b hb => hY b (List.mem_cons_of_mem _ hb)]
      have : ∑ r, b.J r i * b.Y r l = s * ∑ r, b.J r i * b.Y r l1 + t * ∑ r, b.J r i * b.Y r l2 := by
        rw [Finset.mul_sum, Finset.mul_sum, ← Finset.sum_add_distrib]
        exact Finset.sum_congr rfl fun r _ => by rw [hY b List.mem_cons_self r]; ring
      rw [this]; ring
  have e : sol l = fun j => s * sol l1 j + t * sol l2 j := by
    apply (normalMtx_pos H hH bs hc l).inj
    intro i
    rw [(h2 l).1 hv i, hr i, ← (h2 l1).1 hv1 i, ← (h2 l2).1 hv2 i, Finset.mul_sum, Finset.mul_sum, ← Finset.sum_add_distrib]
    exact Finset.sum_congr rfl fun j _ => by ring
  unfold predictRow
  rw [e, Finset.mul_sum, Finset.mul_sum, ← Finset.sum_add_distrib]
  exact Finset.sum_congr rfl fun j _ => by ring

/-! ## Each output on its own, any order -/

theorem loopOut_fst (H : Fin n → Fin n → K) (bs : List (Block K n)) (p : ℕ) (tol : K)
    (solve : (Fin n → Fin n → K) → (Fin n → K) → (Fin n → K)) (ls : Search K n) (it : ℕ) :
    ∀ (sol : Fin n → K) (m m' : Option (Fin n → Fin n → K)),
    (loopOut H bs p tol solve ls it sol m).map Prod.fst = (loopOut H bs p tol solve ls it sol m').map Prod.fst := by
  induction it with
  | zero => intro sol m m'; rfl
  | succ it ih =>
    intro sol m m'
    unfold loopOut
    split_ifs with h
    · simp only [Option.map_bind]
    · rfl

theorem fold_outputs (H : Fin n → Fin n → K) (bs : List (MBlock K n ny)) (p : ℕ) (tol : K)
    (solve : (Fin n → Fin n → K) → (Fin n → K) → (Fin n → K)) (ls : Search K n) (it : ℕ) :
    ∀ (L : List (Fin ny)), L.Nodup → ∀ st st' : NSt K n ny,
    L.foldlM (fun st l => (loopOut H (outs bs l) p tol solve ls it (st.sol l) st.mtx).map fun r =>
        (⟨Function.update st.sol l r.1, r.2⟩ : NSt K n ny)) st = some st' →
    (∀ l, l ∉ L → st'.sol l = st.sol l) ∧
    ∀ l ∈ L, (loopOut H (outs bs l) p tol solve ls it (st.sol l) none).map Prod.fst = some (st'.sol l) := by
  intro L
  induction L with
  | nil => intro _ st st' h; simp at h; subst h; exact ⟨fun _ _ => rfl, by simp⟩
  | cons l L ih =>
    intro hnd st st' h
    obtain ⟨hlL, hnd'⟩ := List.nodup_cons.1 hnd
    rw [List.foldlM_cons] at h
    cases hr : loopOut H (outs bs l) p tol solve ls it (st.sol l) st.mtx with
    | none => rw [hr] at h; simp at h
    | some r =>
      rw [hr] at h
      obtain ⟨g1, g2⟩ := ih hnd' _ _ h
      have hsl : st'.sol l = r.1 := by
        rw [g1 l hlL]
        show Function.update st.sol l r.1 l = _
        rw [Function.update_self]
      refine ⟨?_, ?_⟩
      · intro l' hl'
        simp only [List.mem_cons, not_or] at hl'
        rw [g1 l' hl'.2]
        show Function.update st.sol l r.1 l' = _
        rw [Function.update_of_ne hl'.1]
      · intro l' hl'
        rcases List.mem_cons.1 hl' with rfl | hl'
        · rw [hsl, loopOut_fst _ _ _ _ _ _ _ _ none st.mtx, hr]; rfl
        · have := g2 l' hl'
          have hne : l' ≠ l := fun h => hlL (h ▸ hl')
          have e : Function.update st.sol l r.1 l' = st.sol l' := Function.update_of_ne hne _ _
          rw [← this]
          show _ = Option.map Prod.fst (loopOut H (outs bs l') p tol solve ls it (Function.update st.sol l r.1 l') none)
          rw [e]

/-- The coefficients of output `l` as a function of its own data. -/
theorem trainAll_outputs (H : Fin n → Fin n → K) (bs : List (MBlock K n ny)) (p maxiter : ℕ) (tol : K)
    (solve : (Fin n → Fin n → K) → (Fin n → K) → (Fin n → K)) (ls : Search K n) (sol : Fin ny → Fin n → K)
    (mtx : Fin n → Fin n → K) (h : trainAll H bs p maxiter tol solve ls = some (sol, mtx)) (l : Fin ny) :
    ((loopOut H (outs bs l) 2 tol solve ls 1 (fun _ => 0) none).bind fun r =>
      (loopOut H (outs bs l) p tol solve ls maxiter r.1 none).map Prod.fst) = some (sol l) := by
  unfold trainAll solveAll at h
  rw [Option.bind_eq_some_iff] at h
  obtain ⟨st, h, hm⟩ := h
  rw [Option.bind_eq_some_iff] at h
  obtain ⟨st1, h1, h2⟩ := h
  have g1 := (fold_outputs H bs 2 tol solve ls 1 _ (List.nodup_finRange ny) _ _ h1).2 l (List.mem_finRange l)
  have g2 := (fold_outputs H bs p tol solve ls maxiter _ (List.nodup_finRange ny) _ _ h2).2 l (List.mem_finRange l)
  have hs : st.sol = sol := by
    cases hx : st.mtx with
    | none => rw [hx] at hm; simp at hm
    | some m => rw [hx] at hm; simp at hm; exact hm.1
  rw [← hs]
  rw [Option.map_eq_some_iff] at g1
  obtain ⟨r, hr, hr'⟩ := g1
  rw [hr, Option.bind_some, hr']
  exact g2

/-- **C87** For every order, solver and line search, an output's coefficients do not depend on the other outputs: two trainings (of data
with any numbers of outputs) that both succeed give the same coefficients to outputs with the same data. -/
theorem C87_outputs_independent {ny' : ℕ} (H : Fin n → Fin n → K) (bs : List (MBlock K n ny)) (bs' : List (MBlock K n ny'))
    (p maxiter : ℕ) (tol : K) (solve : (Fin n → Fin n → K) → (Fin n → K) → (Fin n → K)) (ls : Search K n)
    (sol : Fin ny → Fin n → K) (sol' : Fin ny' → Fin n → K) (mtx mtx' : Fin n → Fin n → K)
    (h : trainAll H bs p maxiter tol solve ls = some (sol, mtx)) (h' : trainAll H bs' p maxiter tol solve ls = some (sol', mtx'))
    (l : Fin ny) (l' : Fin ny') (hd : outs bs l = outs bs' l') : sol l = sol' l' := by
  have h1 := trainAll_outputs H bs p maxiter tol solve ls sol mtx h l
  have h2 := trainAll_outputs H bs' p maxiter tol solve ls sol' mtx' h' l'
  rw [hd, h2] at h1
  exact (Option.some.inj h1).symm

/-! ## The order of the training points -/

theorem same_rows_objective (H : Fin n → Fin n → K) (bs bs' : List (MBlock K n ny)) (h : List.Forall₂ SameRows bs bs') (l : Fin ny)
    (p : ℕ) : optFunc H (outs bs l) p = optFunc H (outs bs' l) p ∧ optGrad H (outs bs l) p = optGrad H (outs bs' l) p ∧
      optHess H (outs bs l) p = optHess H (outs bs' l) p := by
  have key : ∀ (F : K → (Fin n → K) → K → K), ((outs bs l).map fun b => ∑ r, F b.c (b.J r) (b.y r)).sum =
      ((outs bs' l).map fun b => ∑ r, F b.c (b.J r) (b.y r)).sum := by
    intro F
    unfold outs
    rw [List.map_map, List.map_map]
    induction h with
    | nil => rfl
    | cons hb _ ih =>
      simp only [List.map_cons, List.sum_cons]
      rw [ih]
      congr 1
      obtain ⟨hc, σ, hσ⟩ := hb
      rename_i b b' _ _ _
      show ∑ r, F b.c (b.J r) (b.Y r l) = ∑ r, F b'.c (b'.J r) (b'.Y r l)
      rw [← Equiv.sum_comp σ fun r => F b'.c (b'.J r) (b'.Y r l)]
      exact Finset.sum_congr rfl fun r _ => by rw [hc, (hσ r).1, (hσ r).2]
  refine ⟨?_, ?_, ?_⟩
  · funext w
    unfold optFunc
    congr 1
    have := key fun c J y => 1 / 2 * c * ((∑ j, J j * w j) - y) ^ p
    simp only [← Finset.mul_sum] at this
    exact this
  · funext w i
    unfold optGrad
    congr 1
    exact key fun c J y => 1 / 2 * c * J i * (p : K) * ((∑ j, J j * w j) - y) ^ (p - 1)
  · funext w i j
    unfold optHess
    congr 1
    exact key fun c J y => 1 / 2 * c * J i * ((p : K) * ((p : K) - 1) * ((∑ j, J j * w j) - y) ^ (p - 2)) * J j

theorem loopOut_congr (H : Fin n → Fin n → K) (bs bs' : List (Block K n)) (p : ℕ)
    (h : optFunc H bs p = optFunc H bs' p ∧ optGrad H bs p = optGrad H bs' p ∧ optHess H bs p = optHess H bs' p) (tol : K)
    (solve : (Fin n → Fin n → K) → (Fin n → K) → (Fin n → K)) (ls : Search K n) (it : ℕ) :
    ∀ (sol : Fin n → K) (m : Option (Fin n → Fin n → K)), loopOut H bs p tol solve ls it sol m = loopOut H bs' p tol solve ls it sol m := by
  induction it with
  | zero => intro sol m; rfl
  | succ it ih =>
    intro sol m
    unfold loopOut
    rw [h.1, h.2.1, h.2.2]
    simp only [ih]

/-- **C87** For every order, solver and line search, the order of the training points changes nothing: not the coefficients, not the
stored matrix, not whether training succeeds. -/
theorem C87_point_order (H : Fin n → Fin n → K) (bs bs' : List (MBlock K n ny)) (h : List.Forall₂ SameRows bs bs') (p maxiter : ℕ)
    (tol : K) (solve : (Fin n → Fin n → K) → (Fin n → K) → (Fin n → K)) (ls : Search K n) :
    trainAll H bs p maxiter tol solve ls = trainAll H bs' p maxiter tol solve ls := by
  have : ∀ p it, runNewton H bs p it tol solve ls = runNewton H bs' p it tol solve ls := by
    intro p it
    funext st
    unfold runNewton
    congr 1
    funext st l
    rw [loopOut_congr H _ _ p (same_rows_objective H bs bs' h l p)]
  unfold trainAll solveAll
  rw [this, this]

/-! ## Derivatives with respect to the training outputs -/

theorem normalMtx_setY (H : Fin n → Fin n → K) (pre post : List (MBlock K n ny)) (b : MBlock K n ny) (r : Fin b.nt) (l : Fin ny) (u : K) :
    normalMtx H (pre ++ b.setY r l u :: post) = normalMtx H (pre ++ b :: post) := by
  funext i j
  unfold normalMtx
  simp only [List.map_append, List.map_cons]
  rfl

theorem normalRhs_setY (pre post : List (MBlock K n ny)) (b : MBlock K n ny) (r : Fin b.nt) (l : Fin ny) (u : K) (i : Fin n) :
    normalRhs (pre ++ b.setY r l u :: post) l i = normalRhs (pre ++ b :: post) l i + (u - b.Y r l) * (b.c * b.J r i) := by
  unfold normalRhs
  simp only [List.map_append, List.map_cons, List.sum_append, List.sum_cons]
  have : ∑ s, (b.setY r l u).J s i * (b.setY r l u).Y s l = ∑ s, b.J s i * b.Y s l + (u - b.Y r l) * b.J r i := by
    show ∑ s, b.J s i * Function.update b.Y r (Function.update (b.Y r) l u) s l = _
    rw [← Finset.sum_erase_add _ _ (Finset.mem_univ r), ← Finset.sum_erase_add (a := r) Finset.univ (fun s => b.J s i * b.Y s l) (Finset.mem_univ r)]
    have e : ∑ s ∈ Finset.univ.erase r, b.J s i * Function.update b.Y r (Function.update (b.Y r) l u) s l =
        ∑ s ∈ Finset.univ.erase r, b.J s i * b.Y s l := by
      refine Finset.sum_congr rfl fun s hs => ?_
      rw [Function.update_of_ne (Finset.ne_of_mem_erase hs)]
    rw [e, Function.update_self, Function.update_self]
    ring
  rw [this]
  show _ + (b.c * _ + _) = _
  ring

/-- The prediction of output `l` at `row` by the model trained on the data; `0` if training fails. -/
def trainedPrediction (H : Fin n → Fin n → K) (bs : List (MBlock K n ny)) (p maxiter : ℕ) (tol : K)
    (solve : (Fin n → Fin n → K) → (Fin n → K) → (Fin n → K)) (ls : Search K n) (row : Fin n → K) (l : Fin ny) : K :=
  match trainAll H bs p maxiter tol solve ls with
  | some (sol, _) => predictRow row sol l
  | none => 0

/-- How the trained prediction moves with one training value while the output stays visible. -/
theorem trained_setY (H : Fin n → Fin n → K) (hS : ∀ i j, H i j = H j i) (hH : PosDef H) (pre post : List (MBlock K n ny))
    (b : MBlock K n ny) (hc : ∀ b' ∈ pre ++ b :: post, 0 ≤ b'.c) (maxiter : ℕ) (tol : K)
    (solve solveD : (Fin n → Fin n → K) → (Fin n → K) → (Fin n → K)) (hsolve : SolvesPosDef solve) (hsolveD : SolvesPosDef solveD)
    (ls : Search K n) (hls : TakesFullStep ls) (row : Fin n → K) (r : Fin b.nt) (l : Fin ny) (sol : Fin ny → Fin n → K)
    (mtx : Fin n → Fin n → K) (ht : trainAll H (pre ++ b :: post) 2 maxiter tol solve ls = some (sol, mtx))
    (hv : Visible (pre ++ b :: post) tol l) (u : K) (hu : Visible (pre ++ b.setY r l u :: post) tol l) :
    trainedPrediction H (pre ++ b.setY r l u :: post) 2 maxiter tol solve ls row l =
      predictRow row sol l + (u - b.Y r l) * outputDeriv row solveD 2 sol mtx b r l := by
  have hcu : ∀ b' ∈ pre ++ b.setY r l u :: post, 0 ≤ b'.c := by
    intro b' hb'
    rcases List.mem_append.1 hb' with h | h
    · exact hc b' (List.mem_append_left _ h)
    · rcases List.mem_cons.1 h with rfl | h
      · exact hc b (by simp)
      · exact hc b' (by simp [h])
  obtain ⟨sol0, h0, g0⟩ := (C87_order2_trained H hS hH _ hc maxiter tol solve hsolve ls hls).1 ⟨l, hv⟩
  obtain ⟨solu, hu1, gu⟩ := (C87_order2_trained H hS hH _ hcu maxiter tol solve hsolve ls hls).1 ⟨l, hu⟩
  rw [h0] at ht
  obtain ⟨rfl, rfl⟩ : sol0 = sol ∧ normalMtx H (pre ++ b :: post) = mtx := by simpa using ht
  have hA := normalMtx_pos H hH _ hc l
  set A := normalMtx H (pre ++ b :: post) with hAdef
  set v := solveD A fun i => optDgradDyt (b.out l) 2 (sol0 l) i r with hvdef
  have hv' : ∀ i, ∑ j, A i j * v j = -(b.c * b.J r i) := by
    intro i
    rw [hsolveD A _ hA i]
    show -((1 / 2) * b.c * b.J r i * (((2 : ℕ) : K) * (((2 : ℕ) : K) - 1) * _ ^ (2 - 2))) = _
    norm_num
    ring
  have e : solu l = fun j => sol0 l j + (u - b.Y r l) * (v j * (-1)) := by
    apply hA.inj
    intro i
    have h1 := (gu l).1 hu i
    rw [normalMtx_setY, normalRhs_setY, ← hAdef, ← (g0 l).1 hv i] at h1
    rw [h1]
    simp only [mul_add, Finset.sum_add_distrib]
    congr 1
    have : ∑ j, A i j * ((u - b.Y r l) * (v j * (-1))) = -((u - b.Y r l) * ∑ j, A i j * v j) := by
      rw [Finset.mul_sum, ← Finset.sum_neg_distrib]
      exact Finset.sum_congr rfl fun j _ => by ring
    rw [this, hv' i]; ring
  unfold trainedPrediction
  rw [hu1]
  show ∑ j, row j * solu l j = ∑ j, row j * sol0 l j + (u - b.Y r l) * ∑ j, row j * (v j * (-1))
  rw [e, Finset.mul_sum, ← Finset.sum_add_distrib]
  exact Finset.sum_congr rfl fun j _ => by ring

/-- **C87** With `approx_order = 2` the reported derivative with respect to a training output is the derivative of what retraining with
that value changed would predict. -/
theorem C87_order2_output_derivatives (H : Fin n → Fin n → ℝ) (hS : ∀ i j, H i j = H j i) (hH : PosDef H)
    (pre post : List (MBlock ℝ n ny)) (b : MBlock ℝ n ny) (hc : ∀ b' ∈ pre ++ b :: post, 0 ≤ b'.c) (maxiter : ℕ) (tol : ℝ)
    (solve solveD : (Fin n → Fin n → ℝ) → (Fin n → ℝ) → (Fin n → ℝ)) (hsolve : SolvesPosDef solve) (hsolveD : SolvesPosDef solveD)
    (ls : Search ℝ n) (hls : TakesFullStep ls) (row : Fin n → ℝ) (r : Fin b.nt) (l : Fin ny) (sol : Fin ny → Fin n → ℝ)
    (mtx : Fin n → Fin n → ℝ) (ht : trainAll H (pre ++ b :: post) 2 maxiter tol solve ls = some (sol, mtx))
    (hv : Visible (pre ++ b :: post) tol l) :
    HasDerivAt (fun u => trainedPrediction H (pre ++ b.setY r l u :: post) 2 maxiter tol solve ls row l)
      (outputDeriv row solveD 2 sol mtx b r l) (b.Y r l) := by
  have hlin : HasDerivAt (fun u => predictRow row sol l + (u - b.Y r l) * outputDeriv row solveD 2 sol mtx b r l)
      (outputDeriv row solveD 2 sol mtx b r l) (b.Y r l) := by
    have := (((hasDerivAt_id (b.Y r l)).sub_const (b.Y r l)).mul_const (outputDeriv row solveD 2 sol mtx b r l)).const_add
      (predictRow row sol l)
    simpa using this
  refine hlin.congr_of_eventuallyEq ?_
  have hcont : Continuous fun u => ∑ i, normalRhs (pre ++ b.setY r l u :: post) l i ^ 2 := by
    simp only [normalRhs_setY]
    fun_prop
  have hev : ∀ᶠ u in nhds (b.Y r l), Visible (pre ++ b.setY r l u :: post) tol l := by
    refine hcont.continuousAt.eventually (lt_mem_nhds ?_)
    have : ∑ i, normalRhs (pre ++ b.setY r l (b.Y r l) :: post) l i ^ 2 = ∑ i, normalRhs (pre ++ b :: post) l i ^ 2 :=
      Finset.sum_congr rfl fun i _ => by rw [normalRhs_setY]; ring
    show tol ^ 2 < ∑ i, normalRhs (pre ++ b.setY r l (b.Y r l) :: post) l i ^ 2
    rw [this]
    exact hv
  filter_upwards [hev] with u hu
  exact trained_setY H hS hH pre post b hc maxiter tol solve solveD hsolve hsolveD ls hls row r l sol mtx ht hv u hu

/-- **C87** Changing a training value of one output changes no other output's prediction (any order, solver and line search; both
trainings succeed). -/
theorem C87_other_outputs_unchanged (H : Fin n → Fin n → K) (pre post : List (MBlock K n ny)) (b : MBlock K n ny) (r : Fin b.nt)
    (l l' : Fin ny) (hl : l' ≠ l) (u : K) (p maxiter : ℕ) (tol : K) (solve : (Fin n → Fin n → K) → (Fin n → K) → (Fin n → K))
    (ls : Search K n) (sol sol' : Fin ny → Fin n → K) (mtx mtx' : Fin n → Fin n → K)
    (h : trainAll H (pre ++ b :: post) p maxiter tol solve ls = some (sol, mtx))
    (h' : trainAll H (pre ++ b.setY r l u :: post) p maxiter tol solve ls = some (sol', mtx')) (row : Fin n → K) :
    predictRow row sol' l' = predictRow row sol l' := by
  have : outs (pre ++ b.setY r l u :: post) l' = outs (pre ++ b :: post) l' := by
    unfold outs
    simp only [List.map_append, List.map_cons]
    congr 2
    show (⟨b.nt, b.J, b.c, fun s => Function.update b.Y r (Function.update (b.Y r) l u) s l'⟩ : Block K n) = ⟨b.nt, b.J, b.c, fun s => b.Y s l'⟩
    congr 1
    funext s
    by_cases hs : s = r
    · subst hs; rw [Function.update_self, Function.update_of_ne hl]
    · rw [Function.update_of_ne hs]
  unfold predictRow
  rw [C87_outputs_independent H _ _ p maxiter tol solve ls sol' sol mtx' mtx h' h l' l' this]

/-! ## What the reported derivatives are for other orders -/

/-- The exact solver in one unknown. -/
def solve1 (A : Fin 1 → Fin 1 → K) (b : Fin 1 → K) : Fin 1 → K := fun i => b i / A 0 0

theorem solve1_exact : SolvesPosDef (solve1 : _ → _ → (Fin 1 → K)) := by
  intro A b hA i
  have := hA (fun _ => 1) (by intro h; simpa using congrFun h 0)
  simp at this
  fin_cases i
  simp [solve1]
  field_simp

/-- One unknown, one training point, `J = c = 1`. -/
def oneBlock (y : Fin ny → K) : MBlock K 1 ny := ⟨1, fun _ _ => 1, 1, fun _ => y⟩

/-- The objective of order 4 in this case: `w² / 2 + (w - y)⁴ / 2`. -/
theorem oneBlock_objective (y w : K) : optFunc (fun _ _ => 1) (outs [oneBlock fun _ : Fin 1 => y] 0) 4 (fun _ => w) =
    w ^ 2 / 2 + (w - y) ^ 4 / 2 := by
  simp [optFunc, outs, oneBlock, MBlock.out, Block.res]
  ring

theorem oneBlock_grad (y w : K) (p : ℕ) (i : Fin 1) : optGrad (fun _ _ => 1) (outs [oneBlock fun _ : Fin 1 => y] 0) p (fun _ => w) i =
    w + p / 2 * (w - y) ^ (p - 1) := by
  simp [optGrad, outs, oneBlock, MBlock.out, Block.res]
  left; ring

/-- **C87** Finding: with `approx_order = 4` the reported derivative is wrong even at the exact optimum. One unknown, `y = √2`: training
ends at the stationary point of the order-4 objective, and reports `3/2`; on the curve of stationary points the derivative is `3/4`
(every differentiable choice of stationary points through this one has that derivative). -/
theorem C87_stale_matrix (maxiter : ℕ) :
    ∃ sol mtx, trainAll (fun _ _ => 1) [oneBlock fun _ : Fin 1 => Real.sqrt 2] 4 maxiter 0 solve1 nullSearch = some (sol, mtx) ∧
      (∀ i, optGrad (fun _ _ => 1) (outs [oneBlock fun _ : Fin 1 => Real.sqrt 2] 0) 4 (sol 0) i = 0) ∧
      outputDeriv (fun _ => 1) solve1 4 sol mtx (oneBlock fun _ : Fin 1 => Real.sqrt 2) (0 : Fin 1) 0 = 3 / 2 ∧
      ∀ (w : ℝ → ℝ) (w' : ℝ), w (Real.sqrt 2) = sol 0 0 → HasDerivAt w w' (Real.sqrt 2) →
        (∀ y i, optGrad (fun _ _ => 1) (outs [oneBlock fun _ : Fin 1 => y] 0) 4 (fun _ => w y) i = 0) → w' = 3 / 4 := by
  have hs : Real.sqrt 2 ^ 2 = 2 := Real.sq_sqrt (by norm_num)
  have hs3 : Real.sqrt 2 ^ 3 = 2 * Real.sqrt 2 := by rw [pow_succ, hs]
  have hg : ∀ i, optGrad (fun _ _ => 1) (outs [oneBlock fun _ : Fin 1 => Real.sqrt 2] 0) 4 (fun _ => Real.sqrt 2 / 2) i = 0 := by
    intro i
    rw [oneBlock_grad]
    norm_num
    nlinarith [hs3]
  have hH : PosDef (fun _ _ : Fin 1 => (1 : ℝ)) := by
    intro d hd
    have h0 : d 0 ≠ 0 := fun h => hd (by funext i; fin_cases i; exact h)
    simpa using h0
  have hv : Visible [oneBlock fun _ : Fin 1 => Real.sqrt 2] 0 0 := by
    simp [Visible, normalRhs, oneBlock]
  obtain ⟨st, h1, -, h2, h3, h4⟩ := startup_fold (fun _ _ : Fin 1 => (1 : ℝ)) (fun _ _ => rfl) hH [oneBlock fun _ : Fin 1 => Real.sqrt 2]
    (by simp [oneBlock]) 0 solve1 solve1_exact nullSearch C87_searches_take_full_step.1 (List.finRange 1) (List.nodup_finRange 1)
    ⟨fun _ _ => 0, none⟩ (fun _ _ => rfl)
  have hsol : st.sol 0 = fun _ => Real.sqrt 2 / 2 := by
    have := (h2 0 (List.mem_finRange 0)).1 hv 0
    funext i
    fin_cases i
    simp [normalMtx, normalRhs, oneBlock] at this
    simp
    linarith
  have hm : st.mtx = some fun _ _ => 2 := by
    rw [h3 ⟨0, List.mem_finRange 0, hv⟩]
    congr 1
    funext i j
    simp [normalMtx, oneBlock]
    norm_num
  refine ⟨st.sol, fun _ _ => 2, ?_, ?_, ?_, ?_⟩
  · unfold trainAll solveAll
    have e1 : runNewton (fun _ _ => 1) [oneBlock fun _ : Fin 1 => Real.sqrt 2] 2 1 0 solve1 nullSearch ⟨fun _ _ => 0, none⟩ = some st := h1
    rw [e1, Option.bind_some]
    have e2 : runNewton (fun _ _ => 1) [oneBlock fun _ : Fin 1 => Real.sqrt 2] 4 maxiter 0 solve1 nullSearch st = some st := by
      unfold runNewton
      apply quiet_fold
      intro l
      obtain rfl : l = 0 := Subsingleton.elim _ _
      rw [hsol]
      simp [hg]
    rw [e2]
    simp [hm]
  · rw [hsol]; exact hg
  · unfold outputDeriv
    rw [hsol]
    simp [solve1, optDgradDyt, oneBlock, MBlock.out, Block.res]
    ring_nf
    rw [hs]; norm_num
  · intro w w' hw hd hstat
    rw [hsol] at hw
    have hd2 : HasDerivAt (fun y => w y + 2 * (w y - y) ^ 3) (w' + 2 * ((3 : ℕ) * (w (Real.sqrt 2) - Real.sqrt 2) ^ (3 - 1) * (w' - 1))) (Real.sqrt 2) :=
      hd.add (((hd.sub (hasDerivAt_id _)).pow 3).const_mul 2)
    have hz : (fun y => w y + 2 * (w y - y) ^ 3) = fun _ => 0 := by
      funext y
      have := hstat y 0
      rw [oneBlock_grad] at this
      norm_num at this
      exact this
    rw [hz] at hd2
    have := hd2.unique (hasDerivAt_const _ _)
    rw [hw] at this
    norm_num at this
    nlinarith [hs]

/-- Two outputs, one unknown: the reported derivative of output 0. -/
def reported (y0 y1 : ℚ) : Option ℚ :=
  (trainAll (fun _ _ => 1) [oneBlock ![y0, y1]] 4 1 0 solve1 nullSearch).map fun r =>
    outputDeriv (fun _ => 1) solve1 4 r.1 r.2 (oneBlock ![y0, y1]) (0 : Fin 1) 0

/-- **C87** Finding: with `approx_order = 4` and two outputs the reported derivative of the first output changes with the second
output's data, although the first output's coefficients do not. -/
theorem C87_derivative_of_other_output :
    (reported 3 1).isSome ∧ (reported 3 2).isSome ∧ reported 3 1 ≠ reported 3 2 ∧
    ((trainAll (fun _ _ => 1) [oneBlock ![(3 : ℚ), 1]] 4 1 0 solve1 nullSearch).map fun r => r.1 0 0) =
      (trainAll (fun _ _ => 1) [oneBlock ![(3 : ℚ), 2]] 4 1 0 solve1 nullSearch).map fun r => r.1 0 0 := by
  decide +kernel

/-! ## Interrupted start-up -/

/-- **C87** Finding: if the start-up problem fails (an exception anywhere in it), the object keeps `approx_order = 2` and
`nonlinear_maxiter = 1`, and every later training, with any data, is of that order. -/
theorem C87_interrupted_startup (H : Fin n → Fin n → K) (bs : List (MBlock K n ny)) (o : NOpts) (tol : K)
    (solve : (Fin n → Fin n → K) → (Fin n → K) → (Fin n → K)) (ls : Search K n)
    (h : runNewton H bs 2 1 tol solve ls ⟨fun _ _ => 0, none⟩ = none) :
    (solveOpts H bs tol solve ls o).1 = none ∧
    ∀ (bs' : List (MBlock K n ny)) (solve' : (Fin n → Fin n → K) → (Fin n → K) → (Fin n → K)) (ls' : Search K n),
      (solveOpts H bs' tol solve' ls' (solveOpts H bs tol solve ls o).2).1 = solveAll H bs' 2 1 tol solve' ls' := by
  have e : solveOpts H bs tol solve ls o = (none, ⟨2, 1⟩) := by
    unfold solveOpts; simp only [h]
  rw [e]
  refine ⟨rfl, fun bs' solve' ls' => ?_⟩
  unfold solveOpts solveAll
  simp only
  cases h' : runNewton H bs' 2 1 tol solve' ls' ⟨fun _ _ => 0, none⟩ with
  | none => rfl
  | some st => rfl

/-- **C87** Training that is not interrupted in the start-up uses the user's order and iteration limit and leaves them as they were. -/
theorem C87_options_restored (H : Fin n → Fin n → K) (bs : List (MBlock K n ny)) (o : NOpts) (tol : K)
    (solve : (Fin n → Fin n → K) → (Fin n → K) → (Fin n → K)) (ls : Search K n)
    (h : runNewton H bs 2 1 tol solve ls ⟨fun _ _ => 0, none⟩ ≠ none) :
    solveOpts H bs tol solve ls o = (solveAll H bs o.approxOrder o.maxiter tol solve ls, o) := by
  unfold solveOpts solveAll
  simp only
  cases h' : runNewton H bs 2 1 tol solve ls ⟨fun _ _ => 0, none⟩ with
  | none => exact absurd h' h
  | some st => rfl

/-! ## Examples -/

/-- Two points, two outputs. -/
def exBlocks : List (MBlock ℚ 1 2) := [⟨2, fun r _ => ![1, 2] r, 1, fun r l => ![![1, 0], ![3, 0]] r l⟩]

theorem posDef_one : PosDef (fun _ _ : Fin 1 => (1 : ℚ)) := by
  intro d hd
  have h0 : d 0 ≠ 0 := fun h => hd (by funext i; fin_cases i; exact h)
  simpa using h0

example : PosDef (fun _ _ : Fin 1 => (1 : ℚ)) ∧ (∀ b ∈ exBlocks, 0 ≤ b.c) ∧ Visible exBlocks 0 0 ∧ ¬ Visible exBlocks 0 1 ∧
    SolvesPosDef (solve1 : _ → _ → (Fin 1 → ℚ)) :=
  ⟨posDef_one, by simp [exBlocks], by decide +kernel, by decide +kernel, solve1_exact⟩

example : ((trainAll (fun _ _ => 1) exBlocks 2 5 0 solve1 nullSearch).map fun r => (r.1 0 0, r.1 1 0, r.2 0 0)) = some (7 / 6, 0, 6) ∧
    ((trainAll (fun _ _ => 1) exBlocks 2 5 0 solve1 (backtrackingSearch 3)).map fun r => (r.1 0 0, r.1 1 0, r.2 0 0)) = some (7 / 6, 0, 6) := by
  decide +kernel

example : (trainAll (fun _ _ => 1) exBlocks 2 5 100 solve1 nullSearch).isNone := by decide +kernel

/-- A search that fails on the first call. -/
example : runNewton (fun _ _ => 1) exBlocks 2 1 0 solve1 (fun _ _ _ _ => none) ⟨fun _ _ => 0, none⟩ = none := by
  rw [← Option.isNone_iff_eq_none]
  decide +kernel

example : List.Forall₂ SameRows exBlocks [⟨2, fun r _ => ![2, 1] r, 1, fun r l => ![![3, 0], ![1, 0]] r l⟩] := by
  refine List.Forall₂.cons ⟨rfl, Equiv.swap 0 1, ?_⟩ .nil
  intro r
  constructor
  · funext j; revert r j; decide +kernel
  · funext l; revert r l; decide +kernel

end SMT.Rmts
