import Verif.Rmts.LinearProps
import Verif.Rmts.TrainProps2
import Verif.Kriging.Oracles
import Verif.Kriging.LikelihoodProps

/-!
# C113: what each linear solver does in the training of RMTB and RMTC
-/
set_option linter.unusedSectionVars false
set_option linter.unusedSimpArgs false
set_option linter.unusedVariables false

namespace SMT.Rmts
open Matrix SMT.Solvers

variable {K : Type} [Field K] [LinearOrder K] [IsStrictOrderedRing K] {n ny : ℕ}

/-! ## Specification -/

/-- `scipy.linalg.cholesky` is correct on symmetric positive definite matrices. -/
def LinLib.CholOk (L : LinLib K) : Prop :=
  ∀ (n : ℕ) (A : Matrix (Fin n) (Fin n) K), Spd A → ∃ U, L.chol n A = some U ∧ Common.IsUpper U ∧ (∀ i, U i i ≠ 0) ∧ Uᵀ * U = A

/-- `scipy.linalg.cholesky` does not raise on symmetric positive definite matrices. -/
def LinLib.CholRuns (L : LinLib K) : Prop := ∀ (n : ℕ) (A : Matrix (Fin n) (Fin n) K), Spd A → ∃ U, L.chol n A = some U

/-- The exact solution. -/
noncomputable def exactSolve (A : Fin n → Fin n → K) (b : Fin n → K) : Fin n → K := (Matrix.of A)⁻¹ *ᵥ b

/-- The solver names whose direction is the exact Newton direction, for training with `ny` outputs and `n` unknowns. -/
def ExactName (L : LinLib K) (n ny : ℕ) (name : String) : Prop :=
  name = "lu" ∨ name = "mg" ∨ name = "dense-chol" ∧ L.CholOk ∧ (ny = 1 ∨ n ≤ 1)

/-- There is a correct `scipy.linalg.cholesky` over the reals. -/
theorem cholOk_exists : ∃ L : LinLib ℝ, L.CholOk := by
  refine ⟨⟨fun n A => (Krg.cholStd A).map transpose, fun _ _ => none⟩, fun n A hA => ?_⟩
  have ht : Aᵀ = A := by ext i j; exact hA.1 j i
  obtain ⟨C, hC⟩ := Option.isSome_iff_exists.1 (Krg.cholStd_complete A ht hA.2)
  have h := Krg.cholStd_ok A C hC
  refine ⟨Cᵀ, ?_, fun i j hij => h.lower j i hij, fun i => (h.pos i).ne', ?_⟩
  · show (Krg.cholStd A).map transpose = _
    rw [hC]; rfl
  · rw [transpose_transpose]; exact h.mul

/-! ## Directions -/

theorem exact_unique {A : Matrix (Fin n) (Fin n) K} (hA : Spd A) {x b : Fin n → K} (h : A *ᵥ x = b) : x = exactSolve A b := by
  apply hA.inj
  rw [h]
  exact (hA.mul_inv b).symm

/-- **C113** With `lu` and `mg` the array holds the exact solution of every symmetric positive definite system afterwards, whatever it held before; with `dense-chol` it does if it is contiguous in
memory, and otherwise it holds the right-hand side. -/
theorem C113_direct_solvers (L : LinLib K) (A : Matrix (Fin n) (Fin n) K) (hA : Spd A) (b d : Fin n → K) :
    (∀ contig, ∃ x, direction L "lu" contig A b d = .ok x ∧ A *ᵥ x = b) ∧
    (∀ contig, ∃ x, direction L "mg" contig A b d = .ok x ∧ A *ᵥ x = b) ∧
    (L.CholOk → ∃ x, direction L "dense-chol" true A b d = .ok x ∧ A *ᵥ x = b) ∧
    (L.CholRuns → direction L "dense-chol" false A b d = .ok b) := by
  have hdet : A.det ≠ 0 := hA.det.ne_zero
  refine ⟨fun c => ⟨directSolve A b, ?_, C46_direct_exact A hA.det b⟩, fun c => ⟨(Hier.solve nullSmoother 0 (Hier.setup A .nil) b).2, ?_, C46_multigrid_without_operators A hA.det _ 0 [] b⟩, fun hL => ?_, fun hL => ?_⟩
  · have e : getSolver "lu" = some (.direct "lu") := by decide
    unfold direction
    rw [e]
    show (if "lu" = "ilu" then _ else if A.det = 0 then _ else _) = _
    rw [if_neg (by decide), if_neg hdet]
  · have e : getSolver "mg" = some .multigrid := by decide
    unfold direction
    rw [e]
    show (if A.det = 0 then _ else _) = _
    rw [if_neg hdet]
  · obtain ⟨U, h1, h2, h3, h4⟩ := hL n A hA
    have e : getSolver "dense-chol" = some .denseChol := by decide
    refine ⟨denseChol true U b, ?_, C46_chol_exact A U h2 h3 h4 b⟩
    unfold direction
    rw [e]
    dsimp only
    rw [h1]
  · obtain ⟨U, h1⟩ := hL n A hA
    have e : getSolver "dense-chol" = some .denseChol := by decide
    unfold direction
    rw [e]
    dsimp only
    rw [h1]
    rfl

/-- **C113** `dense-lu` raises for every matrix, a name that is not in the list raises too, and `null` leaves the array as it was. -/
theorem C113_other_directions (L : LinLib K) (contig : Bool) (A : Matrix (Fin n) (Fin n) K) (b d : Fin n → K) :
    direction L "dense-lu" contig A b d = .error .assertion ∧ (∀ name, name ∉ validSolvers → direction L name contig A b d = .error .attribute) ∧
    direction L "null" contig A b d = .ok d ∧
    ∀ name ∈ validSolvers, direction L name contig A b d ≠ .error .notReached ∧ direction L name contig A b d ≠ .error .attribute := by
  refine ⟨?_, fun name h => ?_, ?_, fun name h => ?_⟩
  · unfold direction
    rw [show getSolver "dense-lu" = some .denseLU by decide]
  · unfold direction
    rw [C46_other_names name h]
  · unfold direction
    rw [show getSolver "null" = some .null by decide]
  · have hp1 : preconditioner (some "dense") = none := by decide
    have hp2 : preconditioner none = none := by decide
    have hp3 : preconditioner (some "lu") = some (.direct "lu") := by decide
    have hp4 : preconditioner (some "mg") = some .multigrid := by decide
    unfold validSolvers at h
    simp only [List.mem_cons, List.not_mem_nil, or_false] at h
    unfold direction
    rcases h with rfl | rfl | rfl | rfl | rfl | rfl | rfl | rfl | rfl | rfl | rfl | rfl
    · rw [show getSolver "krylov-dense" = some (.krylov (some "dense")) by decide]
      dsimp only; rw [hp1]; constructor <;> exact fun h => by cases h
    · rw [show getSolver "dense-lu" = some .denseLU by decide]
      constructor <;> exact fun h => by cases h
    · rw [show getSolver "dense-chol" = some .denseChol by decide]
      dsimp only; cases L.chol n A <;> constructor <;> exact fun h => by cases h
    · rw [show getSolver "lu" = some (.direct "lu") by decide]
      dsimp only; rw [if_neg (by decide)]; split_ifs <;> constructor <;> exact fun h => by cases h
    · rw [show getSolver "ilu" = some (.direct "ilu") by decide]
      dsimp only; rw [if_pos rfl]; cases L.ilu n A <;> constructor <;> exact fun h => by cases h
    · rw [show getSolver "krylov" = some (.krylov none) by decide]
      dsimp only; rw [hp2]; constructor <;> exact fun h => by cases h
    · rw [show getSolver "krylov-lu" = some (.krylov (some "lu")) by decide]
      dsimp only; rw [hp3]; unfold pcMatrix; dsimp only; rw [if_pos rfl]; split_ifs <;> constructor <;> exact fun h => by cases h
    · rw [show getSolver "krylov-mg" = some (.krylov (some "mg")) by decide]
      dsimp only; rw [hp4]; unfold pcMatrix; dsimp only; split_ifs <;> constructor <;> exact fun h => by cases h
    · rw [show getSolver "gs" = some (.stationary "gs") by decide]
      dsimp only; split_ifs <;> constructor <;> exact fun h => by cases h
    · rw [show getSolver "jacobi" = some (.stationary "jacobi") by decide]
      dsimp only; split_ifs <;> constructor <;> exact fun h => by cases h
    · rw [show getSolver "mg" = some .multigrid by decide]
      dsimp only; split_ifs <;> constructor <;> exact fun h => by cases h
    · rw [show getSolver "null" = some .null by decide]
      constructor <;> exact fun h => by cases h

/-! ## Exact solvers -/

theorem exactSolve_solves : SolvesPosDef (exactSolve (K := K) (n := n)) := by
  intro A b hA i
  have hdet : IsUnit (Matrix.of A).det := by
    by_contra hc
    rw [isUnit_iff_ne_zero, not_not] at hc
    obtain ⟨v, hv, h0⟩ := exists_mulVec_eq_zero_iff.2 hc
    have h1 := hA v hv
    have h2 : ∑ i, v i * ∑ j, A i j * v j = v ⬝ᵥ (Matrix.of A *ᵥ v) := rfl
    rw [h2, h0, dotProduct_zero] at h1
    exact lt_irrefl _ h1
  have : Matrix.of A *ᵥ exactSolve A b = b := by
    unfold exactSolve
    rw [mulVec_mulVec, mul_nonsing_inv _ hdet, one_mulVec]
  exact congrFun this i

theorem exactName_dir (L : LinLib K) (name : String) (h : ExactName L n ny name) (A : Matrix (Fin n) (Fin n) K) (b d : Fin n → K) (hA : Spd A) :
    direction L name (decide (ny = 1 ∨ n ≤ 1)) A b d = .ok (exactSolve A b) := by
  obtain ⟨h1, h2, h3, -⟩ := C113_direct_solvers L A hA b d
  rcases h with rfl | rfl | ⟨rfl, hL, hc⟩
  · obtain ⟨x, e, hx⟩ := h1 (decide (ny = 1 ∨ n ≤ 1))
    rw [e, exact_unique hA hx]
  · obtain ⟨x, e, hx⟩ := h2 (decide (ny = 1 ∨ n ≤ 1))
    rw [e, exact_unique hA hx]
  · obtain ⟨x, e, hx⟩ := h3 hL
    rw [decide_eq_true hc, e, exact_unique hA hx]

/-- **C113** Training with `lu`, with `mg`, and with `dense-chol` if there is one output, is Newton's method with exact directions: for every even order it gives the result of C87 and C88's training with
an exact solver. -/
theorem C113_exact_names (L : LinLib K) (name : String) (hn : ExactName L n ny name) (H : Fin n → Fin n → K) (hS : ∀ i j, H i j = H j i) (hH : PosDef H) (bs : List (MBlock K n ny))
    (hc : ∀ b ∈ bs, 0 ≤ b.c) (p : ℕ) (hp2 : 2 ≤ p) (hpe : Even p) (maxiter : ℕ) (tol : K) (ls : Search K n) :
    (trainNamed L name H bs p maxiter tol ls).toOption = trainAll H bs p maxiter tol exactSolve ls ∧ SolvesPosDef (exactSolve (K := K) (n := n)) :=
  ⟨trainW_toOption H hS hH bs hc p hp2 hpe maxiter tol _ ls exactSolve fun A b d hA => exactName_dir L name hn A b d hA, exactSolve_solves⟩

/-- **C113** So with these names and the default (backtracking) line search training converges for every even order: enough passes bring every output within `tol / lam` of its optimum. -/
theorem C113_exact_names_converge (L : LinLib ℝ) (name : String) (hn : ExactName L n ny name) (H : Fin n → Fin n → ℝ) (hS : ∀ i j, H i j = H j i) (lam : ℝ) (hlam : 0 < lam) (hH : Coercive H lam)
    (bs : List (MBlock ℝ n ny)) (hc : ∀ b ∈ bs, 0 ≤ b.c) (p : ℕ) (hp : Even p) (hp2 : 2 ≤ p) (tol : ℝ) (htol : 0 < tol) (hv : ∃ l, Visible bs tol l) :
    ∃ F N : ℕ, ∀ fuel ≥ F, ∀ maxiter ≥ N, ∃ sol mtx, trainNamed L name H bs p maxiter tol (backtrackingSearch fuel) = .ok (sol, mtx) ∧
      ∀ l, ∑ i, optGrad H (outs bs l) p (sol l) i ^ 2 ≤ tol ^ 2 ∧ ∀ w, Optimal H bs l p w → ∑ i, (sol l i - w i) ^ 2 ≤ (tol / lam) ^ 2 := by
  have hPD : PosDef H := by
    intro d hd
    have h2 := sum_sq_pos_of_ne (v := d) (w := 0) hd
    simp only [Pi.zero_apply, sub_zero] at h2
    exact (mul_pos hlam h2).trans_le (hH d)
  obtain ⟨F, N, h⟩ := C88_training_converges H hS lam hlam hH bs hc p hp hp2 tol htol exactSolve exactSolve_solves hv
  refine ⟨F, N, fun fuel hf maxiter hm => ?_⟩
  obtain ⟨sol, mtx, h1, h2⟩ := h fuel hf maxiter hm
  refine ⟨sol, mtx, ?_, h2⟩
  rw [← (C113_exact_names L name hn H hS hPD bs hc p hp2 hp maxiter tol _).1] at h1
  cases e : trainNamed L name H bs p maxiter tol (backtrackingSearch fuel) with
  | error e' => rw [e] at h1; cases h1
  | ok r => rw [e] at h1; cases h1; rfl

/-! ## `dense-chol` with several outputs -/

/-- **C113 (violation)** With `dense-chol`, several outputs and at least two unknowns the Newton direction is silently replaced by the negative gradient: training is the training of `Train.lean` with a "linear
solver" that returns the right-hand side. -/
theorem C113_dense_chol_steepest_descent (L : LinLib K) (hL : L.CholRuns) (hny : ny ≠ 1) (hn : 1 < n) (H : Fin n → Fin n → K) (hS : ∀ i j, H i j = H j i) (hH : PosDef H) (bs : List (MBlock K n ny))
    (hc : ∀ b ∈ bs, 0 ≤ b.c) (p : ℕ) (hp2 : 2 ≤ p) (hpe : Even p) (maxiter : ℕ) (tol : K) (ls : Search K n) :
    (trainNamed L "dense-chol" H bs p maxiter tol ls).toOption = trainAll H bs p maxiter tol (fun _ b => b) ls := by
  refine trainW_toOption H hS hH bs hc p hp2 hpe maxiter tol _ ls (fun _ b => b) fun A b d hA => ?_
  have : decide (ny = 1 ∨ n ≤ 1) = false := decide_eq_false (by omega)
  rw [this]
  exact (C113_direct_solvers L A hA b d).2.2.2 hL

/-! ## `dense-lu` -/

theorem loopW_error (H : Fin n → Fin n → K) (bs : List (Block K n)) (p : ℕ) (tol : K) (dir : Dir K n) (ls : Search K n) (hd : ∀ A b d, ∃ e, dir A b d = .error e) (it : ℕ) (sol d : Fin n → K)
    (m : Option (Fin n → Fin n → K)) : (∃ e, loopW H bs p tol dir ls it sol d m = .error e) ∨ loopW H bs p tol dir ls it sol d m = .ok (sol, m) := by
  cases it with
  | zero => exact Or.inr rfl
  | succ it =>
    unfold loopW
    split_ifs with h
    · obtain ⟨e, he⟩ := hd (Matrix.of (optHess H bs p sol)) (fun i => -optGrad H bs p sol i) d
      rw [he]
      exact Or.inl ⟨e, rfl⟩
    · exact Or.inr rfl

theorem runW_error (H : Fin n → Fin n → K) (bs : List (MBlock K n ny)) (p maxiter : ℕ) (tol : K) (dir : Dir K n) (ls : Search K n) (hd : ∀ A b d, ∃ e, dir A b d = .error e) (st : NSt K n ny) :
    (∃ e, runW H bs p maxiter tol dir ls st = .error e) ∨ runW H bs p maxiter tol dir ls st = .ok st := by
  unfold runW
  induction List.finRange ny with
  | nil => exact Or.inr rfl
  | cons l L ih =>
    rw [List.foldlM_cons]
    rcases loopW_error H (outs bs l) p tol dir ls hd maxiter (st.sol l) (fun _ => 0) st.mtx with ⟨e, he⟩ | he
    · rw [he]; exact Or.inl ⟨e, rfl⟩
    · rw [he]
      show (∃ e, List.foldlM _ (⟨Function.update st.sol l (st.sol l), st.mtx⟩ : NSt K n ny) L = _) ∨ List.foldlM _ (⟨Function.update st.sol l (st.sol l), st.mtx⟩ : NSt K n ny) L = _
      rw [Function.update_eq_self]
      exact ih

/-- **C113 (violation)** `dense-lu`, although listed among the values of the option, can never be used: every training raises, whatever the data. -/
theorem C113_dense_lu_raises (L : LinLib K) (H : Fin n → Fin n → K) (bs : List (MBlock K n ny)) (p maxiter : ℕ) (tol : K) (ls : Search K n) :
    ∃ e, trainNamed L "dense-lu" H bs p maxiter tol ls = .error e := by
  have hd : ∀ (A : Matrix (Fin n) (Fin n) K) b d, ∃ e, direction L "dense-lu" (decide (ny = 1 ∨ n ≤ 1)) A b d = .error e := fun A b d => ⟨_, (C113_other_directions L _ A b d).1⟩
  unfold trainNamed trainW
  rcases runW_error H bs 2 1 tol _ ls hd ⟨fun _ _ => 0, none⟩ with ⟨e, he⟩ | he
  · rw [he]; exact ⟨e, rfl⟩
  · rw [he]
    dsimp only
    rcases runW_error H bs p maxiter tol _ ls hd ⟨fun _ _ => 0, none⟩ with ⟨e, he⟩ | he
    · rw [he]; exact ⟨e, rfl⟩
    · rw [he]; exact ⟨_, rfl⟩

/-! ## `null` -/

theorem null_loop (H : Fin n → Fin n → K) (bs : List (Block K n)) (p : ℕ) (tol : K) (dir : Dir K n) (hd : ∀ A b d, dir A b d = .ok d) (ls : Search K n) (hls : TakesFullStep ls) (it : ℕ)
    (sol : Fin n → K) (m : Option (Fin n → Fin n → K)) :
    ∃ m', loopW H bs p tol dir ls it sol (fun _ => 0) m = .ok (sol, m') ∧ ((0 < it ∧ tol ^ 2 < ∑ i, optGrad H bs p sol i ^ 2) → m' = some (optHess H bs p sol)) ∧
      (¬ (0 < it ∧ tol ^ 2 < ∑ i, optGrad H bs p sol i ^ 2) → m' = m) := by
  have hstep : ls (optFunc H bs p) (optGrad H bs p) sol (fun _ => 0) = some sol := by
    have hz : (fun i => sol i + (fun _ : Fin n => (0 : K)) i) = sol := by funext i; simp
    have := hls (optFunc H bs p) (optGrad H bs p) sol (fun _ => 0) (by rw [hz]; simp) (by rw [hz]) (by simp)
    rw [hz] at this
    exact this
  induction it generalizing m with
  | zero => exact ⟨m, rfl, fun h => absurd h.1 (lt_irrefl _), fun _ => rfl⟩
  | succ it ih =>
    unfold loopW
    by_cases h : tol ^ 2 < ∑ i, optGrad H bs p sol i ^ 2
    · rw [if_pos h, hd]
      dsimp only
      rw [hstep]
      obtain ⟨m', e1, e2, e3⟩ := ih (some (optHess H bs p sol))
      refine ⟨m', e1, fun _ => ?_, fun hn => absurd ⟨Nat.succ_pos _, h⟩ hn⟩
      by_cases hit : 0 < it
      · exact e2 ⟨hit, h⟩
      · exact e3 fun hh => hit hh.1
    · rw [if_neg h]
      exact ⟨m, rfl, fun hh => absurd hh.2 h, fun _ => rfl⟩

/-- **C113 (violation)** With `null` training ends normally and every coefficient of every output is zero, whatever the data, the order, the number of passes and the line search. -/
theorem C113_null_gives_zero (L : LinLib K) (H : Fin n → Fin n → K) (bs : List (MBlock K n ny)) (p maxiter : ℕ) (tol : K) (ls : Search K n) (hls : TakesFullStep ls) (hv : ∃ l, Visible bs tol l) :
    ∃ M, trainNamed L "null" H bs p maxiter tol ls = .ok (fun _ _ => 0, M) := by
  have hd : ∀ (A : Matrix (Fin n) (Fin n) K) b d, direction L "null" (decide (ny = 1 ∨ n ≤ 1)) A b d = .ok d := fun A b d => (C113_other_directions L _ A b d).2.2.1
  obtain ⟨m1, e1, e2, -⟩ := runW_eq H bs 2 1 tol _ ls (fun _ _ => 0) none (fun _ _ => 0) (fun l => 0 < 1 ∧ tol ^ 2 < ∑ i, optGrad H (outs bs l) 2 (fun _ => 0) i ^ 2)
    (fun l => optHess H (outs bs l) 2 (fun _ => 0)) (fun l m => null_loop H (outs bs l) 2 tol _ hd ls hls 1 _ m)
  obtain ⟨l, hl⟩ := hv
  obtain ⟨l1, -, h1⟩ := e2 ⟨l, by omega, by rw [grad_two_zero]; exact hl⟩
  obtain ⟨m2, g1, g2, g3⟩ := runW_eq H bs p maxiter tol _ ls (fun _ _ => 0) m1 (fun _ _ => 0) (fun l => 0 < maxiter ∧ tol ^ 2 < ∑ i, optGrad H (outs bs l) p (fun _ => 0) i ^ 2)
    (fun l => optHess H (outs bs l) p (fun _ => 0)) (fun l m => null_loop H (outs bs l) p tol _ hd ls hls maxiter _ m)
  have hm2 : ∃ M, m2 = some M := by
    by_cases hex : ∃ l, 0 < maxiter ∧ tol ^ 2 < ∑ i, optGrad H (outs bs l) p (fun _ => 0) i ^ 2
    · obtain ⟨l2, -, h2⟩ := g2 hex
      exact ⟨_, h2⟩
    · rw [g3 fun l hl => hex ⟨l, hl⟩, h1]
      exact ⟨_, rfl⟩
  obtain ⟨M, rfl⟩ := hm2
  refine ⟨M, ?_⟩
  unfold trainNamed trainW
  rw [e1]
  dsimp only
  rw [g1]

end SMT.Rmts
