import Verif.Rmts.Linear
import Verif.Rmts.TrainProps
import Verif.Rmts.Converge
import Verif.Solvers.Props
import Verif.Solvers.CgProps

/-!
# C113: what each linear solver does in the training of RMTB and RMTC — helpers
-/
set_option linter.unusedSectionVars false
set_option linter.unusedSimpArgs false
set_option linter.unusedVariables false

namespace SMT.Rmts
open Matrix SMT.Solvers

variable {K : Type} [Field K] [LinearOrder K] [IsStrictOrderedRing K] {n ny : ℕ}

/-! ## The matrices -/

theorem spd_of {A : Fin n → Fin n → K} (hS : ∀ i j, A i j = A j i) (hA : PosDef A) : Spd (Matrix.of A) := ⟨hS, hA⟩

theorem optHess_symm (H : Fin n → Fin n → K) (hS : ∀ i j, H i j = H j i) (bs : List (Block K n)) (p : ℕ) (sol : Fin n → K) (i j : Fin n) :
    optHess H bs p sol i j = optHess H bs p sol j i := by
  unfold optHess
  rw [hS i j]
  congr 2
  refine List.map_congr_left fun b _ => Finset.sum_congr rfl fun r _ => ?_
  ring

theorem optHess_spd (H : Fin n → Fin n → K) (hS : ∀ i j, H i j = H j i) (hH : PosDef H) (bs : List (Block K n)) (hc : ∀ b ∈ bs, 0 ≤ b.c) (p : ℕ) (hp2 : 2 ≤ p) (hpe : Even p)
    (sol : Fin n → K) : Spd (Matrix.of (optHess H bs p sol)) :=
  spd_of (optHess_symm H hS bs p sol) fun d hd => (hH d hd).trans_le (optHess_pos H bs hc p hp2 hpe sol d)

theorem outs_nonneg (bs : List (MBlock K n ny)) (hc : ∀ b ∈ bs, 0 ≤ b.c) (l : Fin ny) : ∀ b ∈ outs bs l, 0 ≤ b.c := by
  intro b hb
  obtain ⟨b', hb', rfl⟩ := List.mem_map.1 hb
  exact hc b' hb'

theorem normalMtx_spd (H : Fin n → Fin n → K) (hS : ∀ i j, H i j = H j i) (hH : PosDef H) (bs : List (MBlock K n ny)) (hc : ∀ b ∈ bs, 0 ≤ b.c) (l : Fin ny) :
    Spd (Matrix.of (normalMtx H bs)) := by
  have := optHess_spd H hS hH (outs bs l) (outs_nonneg bs hc l) 2 le_rfl even_two 0
  rwa [hess_two] at this

/-! ## Solvers that do not look at the previous direction: reduction to `trainAll` -/

theorem loopW_toOption (H : Fin n → Fin n → K) (bs : List (Block K n)) (p : ℕ) (tol : K) (dir : Dir K n) (ls : Search K n)
    (solve : (Fin n → Fin n → K) → (Fin n → K) → Fin n → K)
    (hd : ∀ sol b d, dir (Matrix.of (optHess H bs p sol)) b d = .ok (solve (optHess H bs p sol) b)) (it : ℕ) :
    ∀ sol d m, (loopW H bs p tol dir ls it sol d m).toOption = loopOut H bs p tol solve ls it sol m := by
  induction it with
  | zero => intro sol d m; rfl
  | succ it ih =>
    intro sol d m
    unfold loopW loopOut
    split_ifs with h
    · rw [hd]
      dsimp only
      cases e : ls (optFunc H bs p) (optGrad H bs p) sol (solve (optHess H bs p sol) fun i => -optGrad H bs p sol i) with
      | none => rfl
      | some s => exact ih s _ _
    · rfl

theorem toOption_map {ε α β : Type} (x : Except ε α) (f : α → β) : (x.map f).toOption = x.toOption.map f := by cases x <;> rfl

theorem foldlM_toOption {ε σ ι : Type} (f : σ → ι → Except ε σ) (g : σ → ι → Option σ) (h : ∀ s i, (f s i).toOption = g s i) (L : List ι) :
    ∀ s, (L.foldlM f s).toOption = L.foldlM g s := by
  induction L with
  | nil => intro s; rfl
  | cons i L ih =>
    intro s
    rw [List.foldlM_cons, List.foldlM_cons, ← h]
    cases e : f s i with
    | error e => rfl
    | ok s' => exact ih s'

theorem runW_toOption (H : Fin n → Fin n → K) (bs : List (MBlock K n ny)) (p maxiter : ℕ) (tol : K) (dir : Dir K n) (ls : Search K n)
    (solve : (Fin n → Fin n → K) → (Fin n → K) → Fin n → K)
    (hd : ∀ l sol b d, dir (Matrix.of (optHess H (outs bs l) p sol)) b d = .ok (solve (optHess H (outs bs l) p sol) b)) (st : NSt K n ny) :
    (runW H bs p maxiter tol dir ls st).toOption = runNewton H bs p maxiter tol solve ls st := by
  unfold runW runNewton
  refine foldlM_toOption _ _ (fun s l => ?_) _ _
  rw [toOption_map, loopW_toOption H (outs bs l) p tol dir ls solve (hd l)]

/-- If the solver gives the same as `solve` on symmetric positive definite matrices, training is the training of `Train.lean` with `solve`. -/
theorem trainW_toOption (H : Fin n → Fin n → K) (hS : ∀ i j, H i j = H j i) (hH : PosDef H) (bs : List (MBlock K n ny)) (hc : ∀ b ∈ bs, 0 ≤ b.c) (p : ℕ) (hp2 : 2 ≤ p) (hpe : Even p) (maxiter : ℕ) (tol : K)
    (dir : Dir K n) (ls : Search K n) (solve : (Fin n → Fin n → K) → (Fin n → K) → Fin n → K) (hd : ∀ A b d, Spd A → dir A b d = .ok (solve A b)) :
    (trainW H bs p maxiter tol dir ls).toOption = trainAll H bs p maxiter tol solve ls := by
  have h2 := fun st => runW_toOption H bs 2 1 tol dir ls solve (fun l sol b d => hd _ b d (optHess_spd H hS hH (outs bs l) (outs_nonneg bs hc l) 2 le_rfl even_two sol)) st
  have hp := fun st => runW_toOption H bs p maxiter tol dir ls solve (fun l sol b d => hd _ b d (optHess_spd H hS hH (outs bs l) (outs_nonneg bs hc l) p hp2 hpe sol)) st
  unfold trainW trainAll solveAll
  rw [← h2]
  cases e1 : runW H bs 2 1 tol dir ls ⟨fun _ _ => 0, none⟩ with
  | error e => rfl
  | ok st =>
    dsimp only
    show _ = ((some st).bind _).bind _
    rw [Option.bind_some, ← hp]
    cases e2 : runW H bs p maxiter tol dir ls st with
    | error e => rfl
    | ok st' =>
      dsimp only
      show _ = (some st').bind _
      rw [Option.bind_some]
      cases e3 : st'.mtx <;> rfl

/-! ## The outputs one after the other -/

/-- If the loop for output `l` ends in `D l` and stores a matrix exactly when `V l`, so does the run. -/
theorem runW_eq (H : Fin n → Fin n → K) (bs : List (MBlock K n ny)) (p maxiter : ℕ) (tol : K) (dir : Dir K n) (ls : Search K n)
    (s0 : Fin ny → Fin n → K) (m0 : Option (Fin n → Fin n → K)) (D : Fin ny → Fin n → K) (V : Fin ny → Prop) (M : Fin ny → Fin n → Fin n → K)
    (h : ∀ l m, ∃ m', loopW H (outs bs l) p tol dir ls maxiter (s0 l) (fun _ => 0) m = .ok (D l, m') ∧ (V l → m' = some (M l)) ∧ (¬ V l → m' = m)) :
    ∃ m', runW H bs p maxiter tol dir ls ⟨s0, m0⟩ = .ok ⟨D, m'⟩ ∧ ((∃ l, V l) → ∃ l, V l ∧ m' = some (M l)) ∧ ((∀ l, ¬ V l) → m' = m0) := by
  have key : ∀ (L : List (Fin ny)), L.Nodup → ∀ st : NSt K n ny, (∀ l ∈ L, st.sol l = s0 l) →
      ∃ st', L.foldlM (fun (st : NSt K n ny) l => (loopW H (outs bs l) p tol dir ls maxiter (st.sol l) (fun _ => 0) st.mtx).map fun r =>
          (⟨Function.update st.sol l r.1, r.2⟩ : NSt K n ny)) st = Except.ok st' ∧
        (∀ l ∈ L, st'.sol l = D l) ∧ (∀ l, l ∉ L → st'.sol l = st.sol l) ∧ ((∃ l ∈ L, V l) → ∃ l, V l ∧ st'.mtx = some (M l)) ∧ ((∀ l ∈ L, ¬ V l) → st'.mtx = st.mtx) := by
    intro L
    induction L with
    | nil => intro _ st _; exact ⟨st, rfl, by simp, fun _ _ => rfl, by simp, fun _ => rfl⟩
    | cons l L ih =>
      intro hnd st hst
      obtain ⟨hlL, hnd'⟩ := List.nodup_cons.1 hnd
      obtain ⟨m', e1, e2, e3⟩ := h l st.mtx
      rw [← hst l List.mem_cons_self] at e1
      obtain ⟨st', g1, g2, g3, g4, g5⟩ := ih hnd' ⟨Function.update st.sol l (D l), m'⟩ (by
        intro l' hl'
        have hne : l' ≠ l := fun e => hlL (e ▸ hl')
        show Function.update st.sol l (D l) l' = _
        rw [Function.update_of_ne hne]
        exact hst l' (List.mem_cons_of_mem _ hl'))
      refine ⟨st', ?_, ?_, ?_, ?_, ?_⟩
      · rw [List.foldlM_cons, e1]
        exact g1
      · intro l' hl'
        rcases List.mem_cons.1 hl' with rfl | hl'
        · rw [g3 l' hlL]
          show Function.update st.sol l' (D l') l' = _
          rw [Function.update_self]
        · exact g2 l' hl'
      · intro l' hl'
        simp only [List.mem_cons, not_or] at hl'
        rw [g3 l' hl'.2]
        show Function.update st.sol l (D l) l' = _
        rw [Function.update_of_ne hl'.1]
      · rintro ⟨l', hl', hv⟩
        by_cases hex : ∃ l ∈ L, V l
        · exact g4 hex
        · push Not at hex
          rcases List.mem_cons.1 hl' with rfl | hl'
          · exact ⟨l', hv, by rw [g5 hex]; exact e2 hv⟩
          · exact absurd hv (hex l' hl')
      · intro hno
        rw [g5 fun l' hl' => hno l' (List.mem_cons_of_mem _ hl')]
        exact e3 (hno l List.mem_cons_self)
  obtain ⟨st', h1, h2, -, h4, h5⟩ := key (List.finRange ny) (List.nodup_finRange ny) ⟨s0, m0⟩ (fun _ _ => rfl)
  have hD : st'.sol = D := funext fun l => h2 l (List.mem_finRange l)
  refine ⟨st'.mtx, ?_, ?_, ?_⟩
  · unfold runW
    rw [h1, ← hD]
  · rintro ⟨l, hl⟩
    exact h4 ⟨l, List.mem_finRange l, hl⟩
  · intro hno
    exact h5 fun l _ => hno l

/-! ## Order 2 -/

/-- The full step of a direction orthogonal to its own residual is taken by every line search. -/
theorem galerkin_step (H : Fin n → Fin n → K) (hS : ∀ i j, H i j = H j i) (hH : PosDef H) (bs : List (MBlock K n ny)) (hc : ∀ b ∈ bs, 0 ≤ b.c) (l : Fin ny)
    (ls : Search K n) (hls : TakesFullStep ls) (d : Fin n → K) (hd : (normalRhs bs l - Matrix.of (normalMtx H bs) *ᵥ d) ⬝ᵥ d = 0) :
    ls (optFunc H (outs bs l) 2) (optGrad H (outs bs l) 2) (fun _ => 0) d = some d := by
  have hg0 : ∀ i, optGrad H (outs bs l) 2 (fun _ => 0) i = - normalRhs bs l i := by intro i; rw [grad_two]; simp
  have hg1 : ∀ i, optGrad H (outs bs l) 2 d i = (Matrix.of (normalMtx H bs) *ᵥ d) i - normalRhs bs l i := by intro i; rw [grad_two]; rfl
  have hz : (fun i => (fun _ : Fin n => (0 : K)) i + d i) = d := by funext i; simp
  have hq : ∑ i, d i * ∑ j, normalMtx H bs i j * d j = - ∑ i, optGrad H (outs bs l) 2 (fun _ => 0) i * d i := by
    have e1 : ∑ i, d i * ∑ j, normalMtx H bs i j * d j = (Matrix.of (normalMtx H bs) *ᵥ d) ⬝ᵥ d := by
      rw [dotProduct_comm]; rfl
    have e2 : - ∑ i, optGrad H (outs bs l) 2 (fun _ => 0) i * d i = normalRhs bs l ⬝ᵥ d := by
      simp only [hg0, neg_mul, Finset.sum_neg_distrib, neg_neg]; rfl
    rw [e1, e2]
    rw [sub_dotProduct] at hd
    linarith
  have hn : 0 ≤ ∑ i, d i * ∑ j, normalMtx H bs i j * d j := by
    by_cases h0 : d = 0
    · simp [h0]
    · exact (normalMtx_pos H hH bs hc l d h0).le
  have hf : optFunc H (outs bs l) 2 (fun i => (fun _ : Fin n => (0 : K)) i + d i) =
      optFunc H (outs bs l) 2 (fun _ => 0) + 1 / 2 * ∑ i, optGrad H (outs bs l) 2 (fun _ => 0) i * d i := by
    rw [func_two_expand H hS, hess_two, hq]; ring
  have := hls (optFunc H (outs bs l) 2) (optGrad H (outs bs l) 2) (fun _ => 0) d ?_ ?_ ?_
  · rw [hz] at this; exact this
  · rw [hf]; linarith
  · rw [hf]; linarith
  · rw [hz]
    have : ∑ i, optGrad H (outs bs l) 2 d i * d i = - ((normalRhs bs l - Matrix.of (normalMtx H bs) *ᵥ d) ⬝ᵥ d) := by
      simp only [dotProduct, ← Finset.sum_neg_distrib]
      refine Finset.sum_congr rfl fun i _ => ?_
      rw [hg1, Pi.sub_apply]; ring
    rw [this, hd, neg_zero]

/-- The start-up pass for one output. -/
theorem startW (H : Fin n → Fin n → K) (hS : ∀ i j, H i j = H j i) (hH : PosDef H) (bs : List (MBlock K n ny)) (hc : ∀ b ∈ bs, 0 ≤ b.c) (tol : K) (dir : Dir K n)
    (ls : Search K n) (hls : TakesFullStep ls) (l : Fin ny) (d : Fin n → K)
    (hdir : Visible bs tol l → dir (Matrix.of (normalMtx H bs)) (normalRhs bs l) (fun _ => 0) = .ok d ∧ (normalRhs bs l - Matrix.of (normalMtx H bs) *ᵥ d) ⬝ᵥ d = 0)
    (m : Option (Fin n → Fin n → K)) :
    ∃ m', loopW H (outs bs l) 2 tol dir ls 1 (fun _ => 0) (fun _ => 0) m = .ok (if Visible bs tol l then d else fun _ => 0, m') ∧
      (Visible bs tol l → m' = some (normalMtx H bs)) ∧ (¬ Visible bs tol l → m' = m) := by
  unfold loopW
  rw [grad_two_zero, hess_two]
  by_cases hv : Visible bs tol l
  · obtain ⟨h1, h2⟩ := hdir hv
    have e : (fun i => - optGrad H (outs bs l) 2 (fun _ => 0) i) = normalRhs bs l := by funext i; rw [grad_two]; simp
    refine ⟨some (normalMtx H bs), ?_, fun _ => rfl, fun h => absurd hv h⟩
    have hv' : tol ^ 2 < ∑ i, normalRhs bs l i ^ 2 := hv
    rw [if_pos hv, if_pos hv', e, h1]
    dsimp only
    rw [galerkin_step H hS hH bs hc l ls hls d h2]
    rfl
  · have hv' : ¬ tol ^ 2 < ∑ i, normalRhs bs l i ^ 2 := hv
    exact ⟨m, by rw [if_neg hv, if_neg hv'], fun h => absurd h hv, fun _ => rfl⟩

theorem quietW (H : Fin n → Fin n → K) (bs : List (Block K n)) (p : ℕ) (tol : K) (dir : Dir K n) (ls : Search K n) (it : ℕ) (sol d : Fin n → K) (m : Option (Fin n → Fin n → K))
    (h : ∑ i, optGrad H bs p sol i ^ 2 ≤ tol ^ 2) : loopW H bs p tol dir ls it sol d m = .ok (sol, m) := by
  cases it with
  | zero => rfl
  | succ k => unfold loopW; rw [if_neg (not_lt.2 h)]

/-- Training with order 2 when the start-up directions are orthogonal to their residuals and these are small. -/
theorem trainW_two (H : Fin n → Fin n → K) (hS : ∀ i j, H i j = H j i) (hH : PosDef H) (bs : List (MBlock K n ny)) (hc : ∀ b ∈ bs, 0 ≤ b.c) (maxiter : ℕ) (tol : K) (dir : Dir K n)
    (ls : Search K n) (hls : TakesFullStep ls) (D : Fin ny → Fin n → K)
    (hdir : ∀ l, Visible bs tol l → dir (Matrix.of (normalMtx H bs)) (normalRhs bs l) (fun _ => 0) = .ok (D l) ∧
      (normalRhs bs l - Matrix.of (normalMtx H bs) *ᵥ D l) ⬝ᵥ D l = 0 ∧
      (normalRhs bs l - Matrix.of (normalMtx H bs) *ᵥ D l) ⬝ᵥ (normalRhs bs l - Matrix.of (normalMtx H bs) *ᵥ D l) ≤ tol ^ 2)
    (hv : ∃ l, Visible bs tol l) :
    trainW H bs 2 maxiter tol dir ls = .ok (fun l => if Visible bs tol l then D l else fun _ => 0, normalMtx H bs) := by
  obtain ⟨m1, e1, e2, -⟩ := runW_eq H bs 2 1 tol dir ls (fun _ _ => 0) none (fun l => if Visible bs tol l then D l else fun _ => 0) (Visible bs tol) (fun _ => normalMtx H bs)
    (fun l m => startW H hS hH bs hc tol dir ls hls l (D l) (fun h => ⟨(hdir l h).1, (hdir l h).2.1⟩) m)
  obtain ⟨l0, -, hm1⟩ := e2 hv
  obtain ⟨m2, g1, -, g3⟩ := runW_eq H bs 2 maxiter tol dir ls (fun l => if Visible bs tol l then D l else fun _ => 0) m1 (fun l => if Visible bs tol l then D l else fun _ => 0) (fun _ => False)
    (fun _ => normalMtx H bs) (by
      intro l m
      refine ⟨m, quietW _ _ _ _ _ _ _ _ _ _ ?_, fun h => h.elim, fun _ => rfl⟩
      by_cases h : Visible bs tol l
      · simp only [if_pos h]
        refine le_trans (le_of_eq ?_) (hdir l h).2.2
        refine Finset.sum_congr rfl fun i _ => ?_
        rw [grad_two]
        show _ = (normalRhs bs l i - ∑ j, normalMtx H bs i j * D l j) * (normalRhs bs l i - ∑ j, normalMtx H bs i j * D l j)
        ring
      · simp only [if_neg h]
        rw [grad_two_zero]
        exact not_lt.1 h)
  have hm2 : m2 = some (normalMtx H bs) := by rw [g3 fun l h => h, hm1]
  unfold trainW
  rw [e1]
  dsimp only
  rw [g1]
  dsimp only
  rw [hm2]

end SMT.Rmts
