import Verif.Rmts.LinearThm2

/-!
# C113: wrong directions, objective values, derivatives with respect to the training outputs
-/
set_option linter.unusedSectionVars false
set_option linter.unusedSimpArgs false
set_option linter.unusedVariables false

namespace SMT.Rmts
open Matrix SMT.Solvers SMT.LineSearch

variable {K : Type} [Field K] [LinearOrder K] [IsStrictOrderedRing K] {n ny : ℕ}

/-! ## With the backtracking search the objective never increases -/

/-- A step of the backtracking search never increases the objective, whatever the direction. -/
theorem backtracking_le (H : Fin n → Fin n → K) (hS : ∀ i j, H i j = H j i) (hH : PosDef H) (bs : List (MBlock K n ny)) (hc : ∀ b ∈ bs, 0 ≤ b.c) (l : Fin ny) (p : ℕ) (hpe : Even p) (hp2 : 2 ≤ p) (fuel : ℕ)
    (x d s : Fin n → K) (h : backtrackingSearch fuel (optFunc H (outs bs l) p) (optGrad H (outs bs l) p) x d = some s) : optFunc H (outs bs l) p s ≤ optFunc H (outs bs l) p x := by
  by_cases hg : 0 < ∑ i, optGrad H (outs bs l) p x i * d i
  · rw [C113_backtracking_ascent H hS hH bs hc l p hpe hp2 x d hg fuel] at h
    cases h
  · exact (C44_never_increases (mkLS (optFunc H (outs bs l) p) (optGrad H (outs bs l) p) x d) fuel 1 (1 / 2) one_pos (by norm_num) (by show (0 : K) ≤ 1 / 10000; norm_num) (not_lt.1 hg) s h).1

theorem loopW_le (H : Fin n → Fin n → K) (hS : ∀ i j, H i j = H j i) (hH : PosDef H) (bs : List (MBlock K n ny)) (hc : ∀ b ∈ bs, 0 ≤ b.c) (l : Fin ny) (p : ℕ) (hpe : Even p) (hp2 : 2 ≤ p) (tol : K)
    (dir : Dir K n) (fuel it : ℕ) : ∀ sol d m r, loopW H (outs bs l) p tol dir (backtrackingSearch fuel) it sol d m = .ok r → optFunc H (outs bs l) p r.1 ≤ optFunc H (outs bs l) p sol := by
  induction it with
  | zero => intro sol d m r h; cases h; exact le_rfl
  | succ it ih =>
    intro sol d m r h
    unfold loopW at h
    split_ifs at h with hv
    · cases e1 : dir (Matrix.of (optHess H (outs bs l) p sol)) (fun i => -optGrad H (outs bs l) p sol i) d with
      | error e => rw [e1] at h; cases h
      | ok d' =>
        rw [e1] at h
        dsimp only at h
        cases e2 : backtrackingSearch fuel (optFunc H (outs bs l) p) (optGrad H (outs bs l) p) sol d' with
        | none => rw [e2] at h; cases h
        | some s =>
          rw [e2] at h
          exact (ih s d' _ r h).trans (backtracking_le H hS hH bs hc l p hpe hp2 fuel sol d' s e2)
    · cases h; exact le_rfl

/-- What holds for every output at the start and is kept by the loop holds for every output at the end. -/
theorem runW_inv (H : Fin n → Fin n → K) (bs : List (MBlock K n ny)) (p maxiter : ℕ) (tol : K) (dir : Dir K n) (ls : Search K n) (l : Fin ny) (P : (Fin n → K) → Prop)
    (hP : ∀ sol d m r, loopW H (outs bs l) p tol dir ls maxiter sol d m = .ok r → P sol → P r.1) (st st' : NSt K n ny) (h : runW H bs p maxiter tol dir ls st = .ok st') (h0 : P (st.sol l)) :
    P (st'.sol l) := by
  unfold runW at h
  have key : ∀ (L : List (Fin ny)) (st st' : NSt K n ny), L.foldlM (fun (st : NSt K n ny) l =>
      (loopW H (outs bs l) p tol dir ls maxiter (st.sol l) (fun _ => 0) st.mtx).map fun r => (⟨Function.update st.sol l r.1, r.2⟩ : NSt K n ny)) st = .ok st' →
      P (st.sol l) → P (st'.sol l) := by
    intro L
    induction L with
    | nil => intro st st' h h0; cases h; exact h0
    | cons k L ih =>
      intro st st' h h0
      rw [List.foldlM_cons] at h
      cases e : loopW H (outs bs k) p tol dir ls maxiter (st.sol k) (fun _ => 0) st.mtx with
      | error e' => rw [e] at h; cases h
      | ok r =>
        rw [e] at h
        refine ih ⟨Function.update st.sol k r.1, r.2⟩ st' h ?_
        show P (Function.update st.sol k r.1 l)
        by_cases hk : l = k
        · subst hk
          rw [Function.update_self]
          exact hP _ _ _ r e h0
        · rw [Function.update_of_ne hk]; exact h0
  exact key _ st st' h h0

/-- **C113** Whatever the linear solver, if the Newton iterations of `_run_newton_solver` with the backtracking search end normally, the objective of no output has increased. -/
theorem C113_newton_never_increases (H : Fin n → Fin n → K) (hS : ∀ i j, H i j = H j i) (hH : PosDef H) (bs : List (MBlock K n ny)) (hc : ∀ b ∈ bs, 0 ≤ b.c) (p : ℕ) (hpe : Even p) (hp2 : 2 ≤ p)
    (maxiter : ℕ) (tol : K) (dir : Dir K n) (fuel : ℕ) (st st' : NSt K n ny) (h : runW H bs p maxiter tol dir (backtrackingSearch fuel) st = .ok st') (l : Fin ny) :
    objective H bs l p (st'.sol l) ≤ objective H bs l p (st.sol l) := by
  rw [objective_eq, objective_eq]
  exact runW_inv H bs p maxiter tol dir _ l (fun v => optFunc H (outs bs l) p v ≤ optFunc H (outs bs l) p (st.sol l))
    (fun sol d m r hr h0 => (loopW_le H hS hH bs hc l p hpe hp2 tol dir fuel maxiter sol d m r hr).trans h0) st st' h le_rfl

/-- **C113** So training with any solver name, order 2 and the default line search never ends with a worse objective than that of the zero function; with another even order the order-`p` objective is no worse
than at the result of the start-up. -/
theorem C113_training_never_worse (L : LinLib K) (name : String) (H : Fin n → Fin n → K) (hS : ∀ i j, H i j = H j i) (hH : PosDef H) (bs : List (MBlock K n ny)) (hc : ∀ b ∈ bs, 0 ≤ b.c) (p : ℕ)
    (hpe : Even p) (hp2 : 2 ≤ p) (maxiter : ℕ) (tol : K) (fuel : ℕ) (sol : Fin ny → Fin n → K) (M : Fin n → Fin n → K)
    (h : trainNamed L name H bs p maxiter tol (backtrackingSearch fuel) = .ok (sol, M)) (l : Fin ny) :
    (p = 2 → objective H bs l 2 (sol l) ≤ objective H bs l 2 (fun _ => 0)) ∧
    ∃ st, runW H bs 2 1 tol (direction L name (decide (ny = 1 ∨ n ≤ 1))) (backtrackingSearch fuel) ⟨fun _ _ => 0, none⟩ = .ok st ∧
      objective H bs l 2 (st.sol l) ≤ objective H bs l 2 (fun _ => 0) ∧ objective H bs l p (sol l) ≤ objective H bs l p (st.sol l) := by
  unfold trainNamed trainW at h
  cases e1 : runW H bs 2 1 tol (direction L name (decide (ny = 1 ∨ n ≤ 1))) (backtrackingSearch fuel) ⟨fun _ _ => 0, none⟩ with
  | error e => rw [e1] at h; cases h
  | ok st =>
    rw [e1] at h
    dsimp only at h
    have h1 := C113_newton_never_increases H hS hH bs hc 2 even_two le_rfl 1 tol _ fuel _ st e1 l
    cases e2 : runW H bs p maxiter tol (direction L name (decide (ny = 1 ∨ n ≤ 1))) (backtrackingSearch fuel) st with
    | error e => rw [e2] at h; cases h
    | ok st2 =>
      rw [e2] at h
      dsimp only at h
      have h2 := C113_newton_never_increases H hS hH bs hc p hpe hp2 maxiter tol _ fuel _ st2 e2 l
      cases e3 : st2.mtx with
      | none => rw [e3] at h; cases h
      | some m =>
        rw [e3] at h
        have hsol : st2.sol = sol := by injection h with h; exact (Prod.mk.inj h).1
        rw [hsol] at h2
        refine ⟨fun hp => ?_, st, rfl, h1, h2⟩
        subst hp
        exact h2.trans h1

/-! ## `jacobi` -/

/-- Three unknowns, `H = 0.1 I`, one training value 1 at a point where all three basis functions are 1, weight 0.9. -/
def jH : Fin 3 → Fin 3 → ℚ := fun i j => if i = j then 1 / 10 else 0
def jBlocks : List (MBlock ℚ 3 1) := [⟨1, fun _ _ => 1, 9 / 10, fun _ _ => 1⟩]

/-- The direction ten Jacobi iterations give there. -/
def jDir : Fin 3 → ℚ := fun _ => (9 / 28) * (1 - (9 / 5) ^ 10)

theorem jH_posDef : PosDef jH := by
  intro d hd
  have e : ∑ i, d i * ∑ j, jH i j * d j = 1 / 10 * ∑ i, d i * d i := by
    rw [Finset.mul_sum]
    refine Finset.sum_congr rfl fun i _ => ?_
    have : ∑ j, jH i j * d j = 1 / 10 * d i := by
      rw [Finset.sum_eq_single i (fun j _ hj => by unfold jH; rw [if_neg (Ne.symm hj), zero_mul]) (by simp)]
      unfold jH; rw [if_pos rfl]
    rw [this]; ring
  rw [e]
  obtain ⟨i, hi⟩ : ∃ i, d i ≠ 0 := by
    by_contra hc; push Not at hc; exact hd (funext hc)
  have : 0 < ∑ i, d i * d i := Finset.sum_pos' (fun i _ => mul_self_nonneg _) ⟨i, Finset.mem_univ _, mul_self_pos.2 hi⟩
  positivity

/-- **C113 (violation)** With `jacobi` the direction can be one along which the objective increases, although the system is symmetric positive definite: for this problem the first one is, so with the default
line search training never ends, whatever the order and the number of passes. (In floating-point arithmetic the search ends when the step no longer changes the objective.) -/
theorem C113_jacobi_ascent (L : LinLib ℚ) (p maxiter fuel : ℕ) :
    (∀ contig, direction L "jacobi" contig (Matrix.of (normalMtx jH jBlocks)) (normalRhs jBlocks 0) (fun _ => 0) = .ok jDir) ∧ Spd (Matrix.of (normalMtx jH jBlocks)) ∧
    ∑ i, normalRhs jBlocks 0 i * jDir i < 0 ∧ trainNamed L "jacobi" jH jBlocks p maxiter (1 / 10 ^ 12) (backtrackingSearch fuel) = .error .search := by
  have hS : ∀ i j, jH i j = jH j i := by decide +kernel
  have hcn : ∀ b ∈ jBlocks, 0 ≤ b.c := by
    intro b hb
    rw [List.mem_singleton.1 hb]
    norm_num
  have hdir : ∀ contig, direction L "jacobi" contig (Matrix.of (normalMtx jH jBlocks)) (normalRhs jBlocks 0) (fun _ => 0) = .ok jDir := by
    intro c
    unfold direction
    rw [show getSolver "jacobi" = some (.stationary "jacobi") by decide]
    dsimp only
    rw [if_neg fun h => absurd h.1 (by decide)]
    congr 1
    have : ∀ i, stationary "jacobi" (Matrix.of (normalMtx jH jBlocks)) statDamping statLimit (normalRhs jBlocks 0) (some fun _ => 0) i = jDir i := by decide +kernel
    exact funext this
  have hneg : ∑ i, normalRhs jBlocks 0 i * jDir i < 0 := by decide +kernel
  refine ⟨hdir, normalMtx_spd jH hS jH_posDef jBlocks hcn 0, hneg, ?_⟩
  have hg : ∀ i, optGrad jH (outs jBlocks 0) 2 (fun _ => 0) i = - normalRhs jBlocks 0 i := by intro i; rw [grad_two]; simp
  have hls := C113_backtracking_ascent jH hS jH_posDef jBlocks hcn 0 2 even_two le_rfl (fun _ => 0) jDir (by
    simp only [hg, neg_mul, Finset.sum_neg_distrib]; linarith) fuel
  have hloop : ∀ m, loopW jH (outs jBlocks 0) 2 (1 / 10 ^ 12) (direction L "jacobi" (decide (1 = 1 ∨ 3 ≤ 1))) (backtrackingSearch fuel) 1 (fun _ => 0) (fun _ => 0) m = .error .search := by
    intro m
    unfold loopW
    have hv : (1 / 10 ^ 12 : ℚ) ^ 2 < ∑ i, optGrad jH (outs jBlocks 0) 2 (fun _ => 0) i ^ 2 := by
      rw [grad_two_zero]; decide +kernel
    rw [if_pos hv, hess_two]
    have e : (fun i => - optGrad jH (outs jBlocks 0) 2 (fun _ => 0) i) = normalRhs jBlocks 0 := by funext i; rw [hg]; simp
    rw [e, hdir]
    dsimp only
    rw [hls]
  have hrun : runW jH jBlocks 2 1 (1 / 10 ^ 12) (direction L "jacobi" (decide (1 = 1 ∨ 3 ≤ 1))) (backtrackingSearch fuel) ⟨fun _ _ => 0, none⟩ = .error .search := by
    unfold runW
    rw [show List.finRange 1 = [0] by decide, List.foldlM_cons]
    dsimp only
    rw [hloop]
    rfl
  unfold trainNamed trainW
  rw [hrun]

/-! ## `dense-chol` with two outputs -/

/-- Two unknowns, two outputs, `H = diag(3, 1.25)`, two training points with basis functions `(1, 0)` and `(0, 1)`, all values 4. -/
def cH : Fin 2 → Fin 2 → ℚ := fun i j => if i = j then ![3, 5 / 4] i else 0
abbrev cBlock : MBlock ℚ 2 2 := ⟨2, fun r j => if r = j then 1 else 0, 1, fun _ _ => 4⟩
def cBlocks : List (MBlock ℚ 2 2) := [cBlock]

theorem cH_posDef : PosDef cH := by
  intro d hd
  have e : ∑ i, d i * ∑ j, cH i j * d j = 3 * (d 0 * d 0) + 5 / 4 * (d 1 * d 1) := by
    simp [cH, Fin.sum_univ_two]; ring
  rw [e]
  by_cases h0 : d 0 = 0
  · have h1 : d 1 ≠ 0 := fun h1 => hd (by funext i; fin_cases i; exacts [h0, h1])
    have := mul_self_pos.2 h1
    have := mul_self_nonneg (d 0)
    linarith
  · have := mul_self_pos.2 h0
    have := mul_self_nonneg (d 1)
    linarith

theorem cH_symm : ∀ i j, cH i j = cH j i := by decide +kernel

theorem cBlocks_nonneg : ∀ b ∈ cBlocks, 0 ≤ b.c := by
  intro b hb
  rw [List.mem_singleton.1 hb]
  norm_num

/-- The second coefficient never reaches its solution, `16/9`. -/
theorem chol_loop (L : LinLib ℚ) (hL : L.CholRuns) (tol : ℚ) (fuel it : ℕ) : ∀ (sol d : Fin 2 → ℚ) (m : Option (Fin 2 → Fin 2 → ℚ)) (r : (Fin 2 → ℚ) × Option (Fin 2 → Fin 2 → ℚ)),
    loopW cH (outs cBlocks 0) 2 tol (direction L "dense-chol" (decide (2 = 1 ∨ 2 ≤ 1))) (backtrackingSearch fuel) it sol d m = .ok r → sol 1 ≠ 16 / 9 → r.1 1 ≠ 16 / 9 := by
  induction it with
  | zero => intro sol d m r h; cases h; exact id
  | succ it ih =>
    intro sol d m r h h0
    unfold loopW at h
    split_ifs at h with hv
    · rw [show decide (2 = 1 ∨ 2 ≤ 1) = false by decide] at h ih
      rw [hess_two, (C113_direct_solvers L _ (normalMtx_spd cH cH_symm cH_posDef cBlocks cBlocks_nonneg 0) _ _).2.2.2 hL] at h
      dsimp only at h
      cases e2 : backtrackingSearch fuel (optFunc cH (outs cBlocks 0) 2) (optGrad cH (outs cBlocks 0) 2) sol (fun i => -optGrad cH (outs cBlocks 0) 2 sol i) with
      | none => rw [e2] at h; cases h
      | some s =>
        rw [e2] at h
        refine ih s _ _ r h fun hs => h0 ?_
        obtain ⟨k, e, -⟩ := C44_returns_first_armijo_step _ fuel 1 (1 / 2) s e2
        have e1 : s 1 = sol 1 + (1 / 2) ^ k * (4 - 9 / 4 * sol 1) := by
          rw [e]
          show sol 1 + 1 * (1 / 2) ^ k * -optGrad cH (outs cBlocks 0) 2 sol 1 = _
          rw [grad_two, Fin.sum_univ_two, show normalMtx cH cBlocks 1 0 = 0 by decide +kernel, show normalMtx cH cBlocks 1 1 = 9 / 4 by decide +kernel,
            show normalRhs cBlocks 0 1 = 4 by decide +kernel]
          ring
        rw [hs] at e1
        have h1 : (sol 1 - 16 / 9) * (4 * 2 ^ k - 9) = 0 := by
          have h2 : ((1 : ℚ) / 2) ^ k * 2 ^ k = 1 := by rw [← mul_pow]; norm_num
          calc (sol 1 - 16 / 9) * (4 * 2 ^ k - 9) = 4 * (2 ^ k * (sol 1 - 16 / 9)) - 9 * (sol 1 - 16 / 9) * 1 := by ring
            _ = 4 * (2 ^ k * (sol 1 - 16 / 9)) - 9 * (sol 1 - 16 / 9) * ((1 / 2) ^ k * 2 ^ k) := by rw [h2]
            _ = 4 * 2 ^ k * ((sol 1 + (1 / 2) ^ k * (4 - 9 / 4 * sol 1)) - 16 / 9) := by ring
            _ = 0 := by rw [← e1]; ring
        rcases mul_eq_zero.1 h1 with h2 | h2
        · linarith
        · exfalso
          have h3 : ((4 * 2 ^ k : ℕ) : ℚ) = ((9 : ℕ) : ℚ) := by push_cast; linarith
          have h4 : 4 * 2 ^ k = 9 := by exact_mod_cast h3
          omega
    · cases h; exact h0

/-- **C113 (violation)** With `dense-chol`, order 2 and two outputs the training of this problem ends normally (here without further passes) with coefficients that do not solve the normal equations, and no
number of passes gives the solution, although the matrix is factorised exactly and `lu` gives it at once. -/
theorem C113_dense_chol_wrong (L : LinLib ℚ) (hL : L.CholRuns) :
    (∃ sol M, trainNamed L "dense-chol" cH cBlocks 2 0 (1 / 10 ^ 12) (backtrackingSearch 60) = .ok (sol, M) ∧ sol 0 = (fun _ => 2)) ∧
    (∀ maxiter fuel tol sol M, trainNamed L "dense-chol" cH cBlocks 2 maxiter tol (backtrackingSearch fuel) = .ok (sol, M) → ¬ NormalEq cH cBlocks 0 (sol 0)) ∧
    (∀ w, NormalEq cH cBlocks 0 w ↔ w = ![1, 16 / 9]) ∧
    ∀ maxiter, ∃ sol M, trainNamed L "lu" cH cBlocks 2 maxiter (1 / 10 ^ 12) (backtrackingSearch 60) = .ok (sol, M) ∧ sol 0 = ![1, 16 / 9] := by
  have hgen := C113_dense_chol_steepest_descent L hL (by decide : (2 : ℕ) ≠ 1) (by decide : 1 < 2) cH cH_symm cH_posDef cBlocks cBlocks_nonneg 2 le_rfl even_two 0 (1 / 10 ^ 12) (backtrackingSearch 60)
  have h0 : ((trainAll cH cBlocks 2 0 (1 / 10 ^ 12) (fun _ b => b) (backtrackingSearch 60)).map fun r => (r.1 0 0, r.1 0 1)) = some (2, 2) := by decide +kernel
  have hne : ∀ w, NormalEq cH cBlocks 0 w ↔ w = ![1, 16 / 9] := by
    intro w
    have e0 : ∑ j, normalMtx cH cBlocks 0 j * w j = 4 * w 0 := by
      rw [Fin.sum_univ_two, show normalMtx cH cBlocks 0 0 = 4 by decide +kernel, show normalMtx cH cBlocks 0 1 = 0 by decide +kernel]; ring
    have e1 : ∑ j, normalMtx cH cBlocks 1 j * w j = 9 / 4 * w 1 := by
      rw [Fin.sum_univ_two, show normalMtx cH cBlocks 1 0 = 0 by decide +kernel, show normalMtx cH cBlocks 1 1 = 9 / 4 by decide +kernel]; ring
    have r0 : normalRhs cBlocks 0 0 = 4 := by decide +kernel
    have r1 : normalRhs cBlocks 0 1 = 4 := by decide +kernel
    constructor
    · intro hw
      have h0 := hw 0
      have h1 := hw 1
      rw [e0, r0] at h0
      rw [e1, r1] at h1
      funext i
      fin_cases i
      · show w 0 = 1; linarith
      · show w 1 = 16 / 9; linarith
    · rintro rfl i
      fin_cases i
      · exact e0.trans (Eq.trans (by norm_num) r0.symm)
      · exact e1.trans (Eq.trans (by norm_num) r1.symm)
  refine ⟨?_, fun maxiter fuel tol sol M h => ?_, hne, fun maxiter => ?_⟩
  · cases e : trainNamed L "dense-chol" cH cBlocks 2 0 (1 / 10 ^ 12) (backtrackingSearch 60) with
    | error _ => rw [e] at hgen; rw [← hgen] at h0; cases h0
    | ok r =>
      obtain ⟨sol, M⟩ := r
      rw [e] at hgen
      rw [← hgen] at h0
      have h0' : (sol 0 0, sol 0 1) = ((2 : ℚ), (2 : ℚ)) := by injection h0
      refine ⟨sol, M, rfl, ?_⟩
      funext i; fin_cases i; exacts [(Prod.mk.inj h0').1, (Prod.mk.inj h0').2]
  · rw [hne]
    intro hs
    have h16 : sol 0 1 = 16 / 9 := by rw [hs]; rfl
    unfold trainNamed trainW at h
    cases e1 : runW cH cBlocks 2 1 tol (direction L "dense-chol" (decide (2 = 1 ∨ 2 ≤ 1))) (backtrackingSearch fuel) ⟨fun _ _ => 0, none⟩ with
    | error e => rw [e1] at h; cases h
    | ok st =>
      rw [e1] at h
      dsimp only at h
      cases e2 : runW cH cBlocks 2 maxiter tol (direction L "dense-chol" (decide (2 = 1 ∨ 2 ≤ 1))) (backtrackingSearch fuel) st with
      | error e => rw [e2] at h; cases h
      | ok st2 =>
        rw [e2] at h
        dsimp only at h
        cases e3 : st2.mtx with
        | none => rw [e3] at h; cases h
        | some m =>
          rw [e3] at h
          have hsol : st2.sol = sol := by injection h with h; exact (Prod.mk.inj h).1
          have p1 := runW_inv cH cBlocks 2 1 tol _ _ 0 (fun v => v 1 ≠ 16 / 9) (chol_loop L hL tol fuel 1) _ st e1 (by show (0 : ℚ) ≠ 16 / 9; norm_num)
          have p2 := runW_inv cH cBlocks 2 maxiter tol _ _ 0 (fun v => v 1 ≠ 16 / 9) (chol_loop L hL tol fuel maxiter) _ st2 e2 p1
          rw [hsol] at p2
          exact p2 h16
  · have hv : ∃ l, Visible cBlocks (1 / 10 ^ 12) l := ⟨0, by decide +kernel⟩
    obtain ⟨he, hs⟩ := C113_exact_names L "lu" (Or.inl rfl) cH cH_symm cH_posDef cBlocks cBlocks_nonneg 2 le_rfl even_two maxiter (1 / 10 ^ 12) (backtrackingSearch 60) (ny := 2) (n := 2)
    obtain ⟨sol, h1, h2⟩ := (C87_order2_trained cH cH_symm cH_posDef cBlocks cBlocks_nonneg maxiter (1 / 10 ^ 12) exactSolve hs (backtrackingSearch 60) (C87_searches_take_full_step.2.1 59)).1 hv
    rw [← he] at h1
    refine ⟨sol, normalMtx cH cBlocks, ?_, (hne _).1 ((h2 0).1 (by decide +kernel))⟩
    cases e : trainNamed L "lu" cH cBlocks 2 maxiter (1 / 10 ^ 12) (backtrackingSearch 60) with
    | error _ => rw [e] at h1; cases h1
    | ok r => rw [e] at h1; cases h1; rfl

/-! ## Derivatives with respect to the training outputs -/

/-- **C113** `predict_output_derivatives` with the option `derivative_solver`, for the matrix kept from training (symmetric positive definite): exact with `lu`, `mg` and — if there is one training value
of that kind and one output, or one unknown — `dense-chol`; otherwise `dense-chol` silently leaves out the linear solve (violation); `null` gives zero and `dense-lu` raises (violations); with a Krylov solver
and at most 100 unknowns the linear system is solved up to `1e-15 * max(1, |b|)`. -/
theorem C113_output_derivatives (L : LinLib K) (row : Fin n → K) (p : ℕ) (sol : Fin ny → Fin n → K) (mtx : Fin n → Fin n → K) (hm : Spd (Matrix.of mtx)) (b : MBlock K n ny) (r : Fin b.nt) (l : Fin ny) :
    (∀ name, name = "lu" ∨ name = "mg" ∨ (name = "dense-chol" ∧ L.CholOk ∧ (b.nt * ny = 1 ∨ n ≤ 1)) → outputDerivNamed L name row p sol mtx b r l = .ok (outputDeriv row exactSolve p sol mtx b r l)) ∧
    (L.CholRuns → b.nt * ny ≠ 1 → 1 < n → outputDerivNamed L "dense-chol" row p sol mtx b r l = .ok (- ∑ j, row j * optDgradDyt (b.out l) p (sol l) j r)) ∧
    outputDerivNamed L "null" row p sol mtx b r l = .ok 0 ∧ (∃ e, outputDerivNamed L "dense-lu" row p sol mtx b r l = .error e) ∧
    (∀ name, KrylovName name → n ≤ 100 → ∃ x, outputDerivNamed L name row p sol mtx b r l = .ok (- ∑ j, row j * x j) ∧
      resSq (Matrix.of mtx) (fun i => optDgradDyt (b.out l) p (sol l) i r) x ≤ (1 / 10 ^ 15) ^ 2 * max 1 (∑ i, optDgradDyt (b.out l) p (sol l) i r ^ 2)) := by
  have hneg : ∀ x : Fin n → K, ∑ j, row j * (x j * (-1)) = - ∑ j, row j * x j := by
    intro x; rw [← Finset.sum_neg_distrib]; exact Finset.sum_congr rfl fun j _ => by ring
  obtain ⟨h1, h2, h3, h4⟩ := C113_direct_solvers L (Matrix.of mtx) hm (fun i => optDgradDyt (b.out l) p (sol l) i r) (fun _ => 0)
  refine ⟨fun name hname => ?_, fun hL hny hn => ?_, ?_, ⟨.assertion, ?_⟩, fun name hname hn => ?_⟩
  · unfold outputDerivNamed
    rcases hname with rfl | rfl | ⟨rfl, hL, hc⟩
    · obtain ⟨x, e, hx⟩ := h1 (decide (b.nt * ny = 1 ∨ n ≤ 1))
      rw [e, exact_unique hm hx]; rfl
    · obtain ⟨x, e, hx⟩ := h2 (decide (b.nt * ny = 1 ∨ n ≤ 1))
      rw [e, exact_unique hm hx]; rfl
    · obtain ⟨x, e, hx⟩ := h3 hL
      rw [decide_eq_true hc, e, exact_unique hm hx]; rfl
  · unfold outputDerivNamed
    rw [decide_eq_false (by omega), h4 hL]
    exact congrArg Except.ok (hneg _)
  · unfold outputDerivNamed
    rw [(C113_other_directions L _ _ _ _).2.2.1]
    show Except.ok _ = _
    simp
  · unfold outputDerivNamed
    rw [(C113_other_directions L _ _ _ _).1]
    rfl
  · obtain ⟨x, e, -, h5, -⟩ := C113_krylov_direction L name hname (decide (b.nt * ny = 1 ∨ n ≤ 1)) (Matrix.of mtx) hm (fun i => optDgradDyt (b.out l) p (sol l) i r) (fun _ => 0)
    refine ⟨x, ?_, h5 hn⟩
    unfold outputDerivNamed
    rw [e]
    exact congrArg Except.ok (hneg _)

/-- The value `dense-chol` gives for the problem above (derivative of the coefficient of the first basis function with respect to the first training value) is 1; the correct value is 1/4. -/
example (L : LinLib ℚ) (hL : L.CholRuns) : outputDerivNamed L "dense-chol" ![1, 0] 2 (fun _ => ![1, 16 / 9]) (normalMtx cH cBlocks) cBlock 0 0 = .ok 1 ∧
    ∀ solve, SolvesPosDef solve → outputDeriv ![1, 0] solve 2 (fun _ => ![1, 16 / 9]) (normalMtx cH cBlocks) cBlock 0 0 = 1 / 4 := by
  have hspd := normalMtx_spd cH cH_symm cH_posDef cBlocks cBlocks_nonneg 0
  constructor
  · rw [(C113_output_derivatives L ![1, 0] 2 (fun _ => ![1, 16 / 9]) (normalMtx cH cBlocks) hspd cBlock 0 0).2.1 hL (by decide) (by decide)]
    congr 1
    decide +kernel
  · intro solve hsolve
    have h := hsolve (normalMtx cH cBlocks) (fun i => optDgradDyt (cBlock.out 0) 2 ![1, 16 / 9] i (0 : Fin 2)) hspd.2 0
    rw [Fin.sum_univ_two, show normalMtx cH cBlocks 0 0 = 4 by decide +kernel, show normalMtx cH cBlocks 0 1 = 0 by decide +kernel,
      show optDgradDyt (cBlock.out 0) 2 ![1, 16 / 9] 0 (0 : Fin 2) = -1 by decide +kernel] at h
    unfold outputDeriv
    rw [Fin.sum_univ_two]
    simp
    linarith

/-- The hypotheses of the theorems on training are met by both problems: they are visible at the default tolerance, symmetric positive definite, and a library whose Cholesky factorisation does not raise exists. -/
example : (∃ l, Visible cBlocks (1 / 10 ^ 12) l) ∧ (∃ l, Visible jBlocks (1 / 10 ^ 12) l) ∧ (∃ L : LinLib ℚ, L.CholRuns) ∧ (1 : ℚ) / 10 ^ 15 ≤ 1 / 10 ^ 12 ∧
    ∀ l, (1 / 10 ^ 15) ^ 2 * ∑ i, normalRhs cBlocks l i ^ 2 ≤ (1 / 10 ^ 12 : ℚ) ^ 2 := by
  refine ⟨⟨0, by decide +kernel⟩, ⟨0, by decide +kernel⟩, ⟨⟨fun _ _ => some 0, fun _ _ => none⟩, fun n A _ => ⟨0, rfl⟩⟩, by norm_num, by decide +kernel⟩

/-- `krylov` on `diag(4, 9/4)`, right-hand side `(4, 4)`, two iterations: the exact solution. -/
example : ∀ i, cg (!![4, 0; 0, 9 / 4] : Matrix (Fin 2) (Fin 2) ℚ) 1 cgTol cgLimit ![4, 4] 0 i = ![1, 16 / 9] i := by decide +kernel

end SMT.Rmts
