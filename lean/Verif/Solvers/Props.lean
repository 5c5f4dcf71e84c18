import Verif.Solvers.Model
import Mathlib.Algebra.Order.Field.Basic
import Mathlib.Algebra.Order.BigOperators.Ring.Finset
import Mathlib.Algebra.Order.Ring.Abs
import Mathlib.Algebra.Order.BigOperators.Group.Finset
import Mathlib.Data.Rat.Defs
import Mathlib.LinearAlgebra.Matrix.Notation
import Mathlib.Tactic.Linarith
import Mathlib.Tactic.Ring
import Mathlib.Tactic.FieldSimp
import Mathlib.Tactic.FinCases

set_option linter.unusedSectionVars false
set_option linter.unusedSimpArgs false
set_option linter.unusedVariables false

/-!
# C46: linear solvers
-/
namespace SMT.Solvers
open Matrix

section field
variable {K : Type} [Field K] {n : ℕ}

/-! ## Fixed points -/

theorem ldw_lower (A : Matrix (Fin n) (Fin n) K) (w : K) : Common.IsLower (ldw A w) := by
  intro i j h
  unfold ldw
  rw [if_neg (not_lt.2 h.le), if_neg h.ne]

theorem ldw_diag (A : Matrix (Fin n) (Fin n) K) (w : K) (i : Fin n) : ldw A w i i = A i i / w := by
  simp [ldw]

/-- **C46** A (damped) Jacobi sweep leaves `x` unchanged exactly when `A x = b`. -/
theorem C46_jacobi_fixed_iff (A : Matrix (Fin n) (Fin n) K) (w : K) (hw : w ≠ 0) (hd : ∀ i, A i i ≠ 0) (b x : Fin n → K) :
    jacobi A w b x = x ↔ A *ᵥ x = b := by
  constructor
  · intro h
    funext i
    have := congrFun h i
    simp only [jacobi, add_eq_left, mul_eq_zero, div_eq_zero_iff, hw, hd i, or_self, false_or] at this
    exact (sub_eq_zero.1 this).symm
  · intro h
    funext i
    simp [jacobi, h]

/-- **C46** A (damped) Gauss-Seidel sweep leaves `x` unchanged exactly when `A x = b`. -/
theorem C46_gs_fixed_iff (A : Matrix (Fin n) (Fin n) K) (w : K) (hw : w ≠ 0) (hd : ∀ i, A i i ≠ 0) (b x : Fin n → K) :
    gs A w b x = x ↔ A *ᵥ x = b := by
  have hdl : ∀ i, ldw A w i i ≠ 0 := fun i => by rw [ldw_diag]; exact div_ne_zero (hd i) hw
  set r : Fin n → K := fun i => b i - (A *ᵥ x) i with hr
  have hm := Common.mulVec_fwd (ldw A w) r (ldw_lower A w) hdl
  constructor
  · intro h
    have h0 : Common.fwd (ldw A w) r = 0 := by
      funext i
      have := congrFun h i
      simpa [gs] using this
    rw [h0, mulVec_zero] at hm
    funext i
    have := congrFun hm i
    simp [hr] at this
    exact (sub_eq_zero.1 this.symm).symm
  · intro h
    have h0 : r = 0 := by funext i; simp [hr, h]
    have : Common.fwd (ldw A w) r = 0 := by
      rw [Common.fwd_eq_inv _ _ (ldw_lower A w) hdl, h0, mulVec_zero]
    funext i
    have := congrFun this i
    simp [gs]
    exact this

/-- **C46** Hence a solution is never spoilt by any number of sweeps, and if two consecutive iterates agree the system is solved. -/
theorem C46_stationary_keeps_solution (kind : String) (A : Matrix (Fin n) (Fin n) K) (w : K) (hw : w ≠ 0) (hd : ∀ i, A i i ≠ 0)
    (k : ℕ) (b x : Fin n → K) (h : A *ᵥ x = b) : stationary kind A w k b (some x) = x := by
  unfold stationary
  apply Function.iterate_fixed
  simp only [Option.getD_some]
  split
  · exact (C46_jacobi_fixed_iff A w hw hd b x).2 h
  · exact (C46_gs_fixed_iff A w hw hd b x).2 h

/-! ## Error propagation -/

/-- What a Jacobi sweep does to the error `x - y`, `y` a solution. -/
theorem jacobi_error (A : Matrix (Fin n) (Fin n) K) (w : K) (b x y : Fin n → K) (hy : A *ᵥ y = b) (i : Fin n) :
    jacobi A w b x i - y i = (x i - y i) - w / A i i * (A *ᵥ (x - y)) i := by
  rw [mulVec_sub, hy]
  simp [jacobi]; ring

/-- What a Gauss-Seidel sweep does to the error: the correction `d = x' - x` solves `(L + D/w) d = -A (x - y)`. -/
theorem gs_error (A : Matrix (Fin n) (Fin n) K) (w : K) (hw : w ≠ 0) (hd : ∀ i, A i i ≠ 0) (b x y : Fin n → K) (hy : A *ᵥ y = b) :
    ldw A w *ᵥ (gs A w b x - x) = -(A *ᵥ (x - y)) := by
  have hdl : ∀ i, ldw A w i i ≠ 0 := fun i => by rw [ldw_diag]; exact div_ne_zero (hd i) hw
  have hm := Common.mulVec_fwd (ldw A w) (fun i => b i - (A *ᵥ x) i) (ldw_lower A w) hdl
  have e : gs A w b x - x = Common.fwd (ldw A w) (fun i => b i - (A *ᵥ x) i) := by
    funext i; simp [gs]
  rw [e, hm, mulVec_sub, hy]
  funext i; simp

/-! ## Direct solvers -/

/-- **C46** The LU solvers return the solution of a non-singular system. -/
theorem C46_direct_exact (A : Matrix (Fin n) (Fin n) K) (hA : IsUnit A.det) (b : Fin n → K) : A *ᵥ directSolve A b = b := by
  unfold directSolve
  rw [mulVec_mulVec, mul_nonsing_inv _ hA, one_mulVec]

/-- **C46** The dense Cholesky solver returns the solution when SciPy works in place (contiguous `sol`) ... -/
theorem C46_chol_exact (A U : Matrix (Fin n) (Fin n) K) (hU : Common.IsUpper U) (hd : ∀ i, U i i ≠ 0) (hA : Uᵀ * U = A) (b : Fin n → K) :
    A *ᵥ denseChol true U b = b := by
  have h := Common.chol_solve Uᵀ b (fun i j hij => hU j i hij) hd
  rw [transpose_transpose, hA] at h
  have hdet : IsUnit A.det := by
    rw [← hA, det_mul, det_transpose]
    exact (Common.det_ne_of_upper U hU hd).mul (Common.det_ne_of_upper U hU hd)
  simp only [denseChol, if_true]
  rw [h, mulVec_mulVec, mul_nonsing_inv _ hdet, one_mulVec]

/-- **C46 (violation)** ... and returns the right-hand side unchanged otherwise: with a `sol` that is a column of a matrix with several columns, as the
RMTS Newton solver passes for several outputs, the system is not solved unless `A b = b`. -/
theorem C46_chol_not_in_place (A U : Matrix (Fin n) (Fin n) K) (b : Fin n → K) (h : A *ᵥ b ≠ b) : A *ᵥ denseChol false U b ≠ b := by
  simpa [denseChol] using h

/-! ## Preconditioners are linear -/

theorem fwd_linear (C : Matrix (Fin n) (Fin n) K) (hl : Common.IsLower C) (hd : ∀ i, C i i ≠ 0) (s t : K) (u v : Fin n → K) :
    Common.fwd C (s • u + t • v) = s • Common.fwd C u + t • Common.fwd C v := by
  rw [Common.fwd_eq_inv C _ hl hd, Common.fwd_eq_inv C _ hl hd, Common.fwd_eq_inv C _ hl hd, mulVec_add, mulVec_smul, mulVec_smul]

/-- **C46** Used as a preconditioner (called with the right-hand side only), the stationary solvers are linear in it. -/
theorem C46_stationary_linear (kind : String) (A : Matrix (Fin n) (Fin n) K) (w : K) (hw : w ≠ 0) (hd : ∀ i, A i i ≠ 0) (k : ℕ)
    (s t : K) (u v : Fin n → K) :
    stationary kind A w k (s • u + t • v) none = s • stationary kind A w k u none + t • stationary kind A w k v none := by
  have hdl : ∀ i, ldw A w i i ≠ 0 := fun i => by rw [ldw_diag]; exact div_ne_zero (hd i) hw
  have step : ∀ x y, (if kind = "jacobi" then jacobi A w (s • u + t • v) (s • x + t • y) else gs A w (s • u + t • v) (s • x + t • y)) =
      s • (if kind = "jacobi" then jacobi A w u x else gs A w u x) + t • (if kind = "jacobi" then jacobi A w v y else gs A w v y) := by
    intro x y
    split
    · funext i
      simp [jacobi, mulVec_add, mulVec_smul]; ring
    · have e : (fun i => (s • u + t • v) i - (A *ᵥ (s • x + t • y)) i) =
          s • (fun i => u i - (A *ᵥ x) i) + t • (fun i => v i - (A *ᵥ y) i) := by
        funext i; simp [mulVec_add, mulVec_smul]; ring
      have hl := fwd_linear _ (ldw_lower A w) hdl s t (fun i => u i - (A *ᵥ x) i) (fun i => v i - (A *ᵥ y) i)
      rw [← e] at hl
      funext i
      have hi := congrFun hl i
      simp only [Pi.add_apply, Pi.smul_apply, smul_eq_mul] at hi ⊢
      simp only [gs, Pi.add_apply, Pi.smul_apply, smul_eq_mul, hi]
      ring
  unfold stationary
  simp only [Option.getD_none]
  induction k with
  | zero => rfl
  | succ k ih =>
    rw [Function.iterate_succ_apply', Function.iterate_succ_apply', Function.iterate_succ_apply', ih]
    exact step _ _

/-! ## Selection -/

/-- **C46** Every documented solver name selects a solver. -/
theorem C46_valid_names (s : String) (h : s ∈ validSolvers) : (getSolver s).isSome := by
  simp only [validSolvers, List.mem_cons, List.mem_nil_iff, or_false] at h
  rcases h with rfl | rfl | rfl | rfl | rfl | rfl | rfl | rfl | rfl | rfl | rfl | rfl <;> decide

/-- **C46 (limit)** Conversely any other string silently selects nothing. -/
theorem C46_other_names (s : String) (h : s ∉ validSolvers) : getSolver s = none := by
  simp only [validSolvers, List.mem_cons, List.mem_nil_iff, or_false, not_or] at h
  unfold getSolver
  simp [h]

/-- **C46 (violation)** `"krylov-dense"` runs without any preconditioner, exactly like `"krylov"`: the name `"dense"` it passes on is not a
solver name. The other two combinations do get theirs. -/
theorem C46_krylov_dense_unpreconditioned :
    (∃ pc, getSolver "krylov-dense" = some (.krylov pc) ∧ preconditioner pc = none) ∧
    (∃ pc, getSolver "krylov" = some (.krylov pc) ∧ preconditioner pc = none) ∧
    (∃ pc, getSolver "krylov-lu" = some (.krylov pc) ∧ preconditioner pc = some (.direct "lu")) ∧
    (∃ pc, getSolver "krylov-mg" = some (.krylov pc) ∧ preconditioner pc = some .multigrid) :=
  ⟨⟨some "dense", by decide, by decide⟩, ⟨none, by decide, by decide⟩, ⟨some "lu", by decide, by decide⟩, ⟨some "mg", by decide, by decide⟩⟩

/-- **C46 (violation)** The clones used on the multigrid levels forget their options: a Jacobi smoother becomes a Gauss-Seidel smoother. Cloning keeps
a solver exactly when it has the default options. -/
theorem C46_clone_forgets : clone (.stationary "jacobi") = .stationary "gs" ∧ getSolver "jacobi" = some (.stationary "jacobi") ∧
    ∀ s, clone s = s ↔ (∀ pc, s = .krylov pc → pc = none) ∧ (∀ a, s = .direct a → a = "lu") ∧ (∀ k, s = .stationary k → k = "gs") := by
  refine ⟨rfl, by decide, fun s => ?_⟩
  cases s <;> simp [clone, eq_comm]

/-! ## Multigrid with the default (null) smoother -/

/-- Number of unknowns on the coarsest level. -/
def Ops.coarse : {n : ℕ} → Ops K n → ℕ
  | n, .nil => n
  | _, .cons _ rest => rest.coarse

/-- Specification: the product of the interpolation operators, from the coarsest to the finest level. -/
def Ops.total : {n : ℕ} → (o : Ops K n) → Matrix (Fin n) (Fin o.coarse) K
  | n, .nil => (1 : Matrix (Fin n) (Fin n) K)
  | _, .cons P rest => P * rest.total

/-- `v` is interpolated from the coarsest level. -/
def Ops.InRange : {n : ℕ} → Ops K n → (Fin n → K) → Prop
  | _, .nil, _ => True
  | _, .cons P rest, v => ∃ y, v = P *ᵥ y ∧ rest.InRange y

/-- Recursive form of the Galerkin solution. -/
noncomputable def Ops.galerkin : {n : ℕ} → Matrix (Fin n) (Fin n) K → Ops K n → (Fin n → K) → (Fin n → K)
  | _, A, .nil, b => A⁻¹ *ᵥ b
  | _, A, .cons P rest, b => P *ᵥ rest.galerkin (Pᵀ * A * P) (Pᵀ *ᵥ b)

theorem Ops.galerkin_eq : {n : ℕ} → (A : Matrix (Fin n) (Fin n) K) → (o : Ops K n) → (b : Fin n → K) →
    o.galerkin A b = o.total *ᵥ ((o.totalᵀ * A * o.total)⁻¹ *ᵥ (o.totalᵀ *ᵥ b))
  | n, A, .nil, b => by
    have key : A⁻¹ *ᵥ b = (1 : Matrix (Fin n) (Fin n) K) *ᵥ
      (((1 : Matrix (Fin n) (Fin n) K)ᵀ * A * (1 : Matrix (Fin n) (Fin n) K))⁻¹ *ᵥ ((1 : Matrix (Fin n) (Fin n) K)ᵀ *ᵥ b)) := by simp
    exact key
  | n, A, .cons P rest, b => by
    change P *ᵥ rest.galerkin (Pᵀ * A * P) (Pᵀ *ᵥ b) = (P * rest.total : Matrix (Fin n) (Fin rest.coarse) K) *ᵥ
      (((P * rest.total : Matrix (Fin n) (Fin rest.coarse) K)ᵀ * A * (P * rest.total))⁻¹ *ᵥ ((P * rest.total : Matrix (Fin n) (Fin rest.coarse) K)ᵀ *ᵥ b))
    rw [Ops.galerkin_eq]
    simp only [mulVec_mulVec, transpose_mul, Matrix.mul_assoc]

theorem Ops.galerkin_sub : {n : ℕ} → (A : Matrix (Fin n) (Fin n) K) → (o : Ops K n) → (b c : Fin n → K) →
    o.galerkin A (b - c) = o.galerkin A b - o.galerkin A c
  | _, A, o, b, c => by simp only [Ops.galerkin_eq, mulVec_sub]

/-- The coarsest matrix is non-singular. -/
def Ops.CoarseOk : {n : ℕ} → Matrix (Fin n) (Fin n) K → Ops K n → Prop
  | _, A, .nil => IsUnit A.det
  | _, A, .cons P rest => rest.CoarseOk (Pᵀ * A * P)

theorem Ops.coarseOk_iff : {n : ℕ} → (A : Matrix (Fin n) (Fin n) K) → (o : Ops K n) → (o.CoarseOk A ↔ IsUnit (o.totalᵀ * A * o.total).det)
  | n, A, .nil => by
    have key : IsUnit A.det ↔ IsUnit ((1 : Matrix (Fin n) (Fin n) K)ᵀ * A * (1 : Matrix (Fin n) (Fin n) K)).det := by simp
    exact key
  | n, A, .cons P rest => by
    change rest.CoarseOk (Pᵀ * A * P) ↔ IsUnit ((P * rest.total : Matrix (Fin n) (Fin rest.coarse) K)ᵀ * A * (P * rest.total)).det
    rw [Ops.coarseOk_iff]
    simp only [transpose_mul, Matrix.mul_assoc]

theorem Ops.galerkin_of_range : {n : ℕ} → (A : Matrix (Fin n) (Fin n) K) → (o : Ops K n) → o.CoarseOk A → (v : Fin n → K) → o.InRange v →
    o.galerkin A (A *ᵥ v) = v
  | _, A, .nil, h, v, _ => by
    have h' : IsUnit A.det := h
    simp only [Ops.galerkin]
    rw [mulVec_mulVec, nonsing_inv_mul _ h', one_mulVec]
  | _, A, .cons P rest, h, v, hv => by
    obtain ⟨y, rfl, hy⟩ := hv
    simp only [Ops.galerkin]
    have := Ops.galerkin_of_range (Pᵀ * A * P) rest h y hy
    rw [mulVec_mulVec, mulVec_mulVec]
    rw [this]

theorem Ops.inRange_galerkin : {n : ℕ} → (A : Matrix (Fin n) (Fin n) K) → (o : Ops K n) → (b : Fin n → K) → o.InRange (o.galerkin A b)
  | _, _, .nil, _ => trivial
  | _, A, .cons P rest, b => ⟨_, rfl, Ops.inRange_galerkin (Pᵀ * A * P) rest _⟩

theorem Ops.inRange_zero : {n : ℕ} → (o : Ops K n) → o.InRange (0 : Fin n → K)
  | _, .nil => trivial
  | _, .cons P rest => ⟨0, by simp, Ops.inRange_zero rest⟩

/-- States reachable with the null smoother. -/
inductive Ok : {n : ℕ} → Matrix (Fin n) (Fin n) K → Ops K n → Hier K n → Prop
  | coarsest {n : ℕ} (A : Matrix (Fin n) (Fin n) K) (s) : Ok A .nil (.coarsest A s)
  | level {n m : ℕ} (A : Matrix (Fin n) (Fin n) K) (P : Matrix (Fin n) (Fin m) K) (sol) (rest : Hier K m) (o : Ops K m) :
      (∃ y, sol = P *ᵥ y ∧ o.InRange y) → Ok (Pᵀ * A * P) o rest → Ok A (.cons P o) (.level A P sol rest)

theorem ok_setup : {n : ℕ} → (A : Matrix (Fin n) (Fin n) K) → (o : Ops K n) → Ok A o (Hier.setup A o)
  | _, A, .nil => Ok.coarsest A 0
  | _, A, .cons P rest => Ok.level A P 0 _ rest ⟨0, by simp, Ops.inRange_zero rest⟩ (ok_setup _ rest)

theorem first_ok {n : ℕ} (A : Matrix (Fin n) (Fin n) K) (o : Ops K n) (h : Hier K n) (hok : Ok A o h) (hc : o.CoarseOk A) :
    ∀ b, Ok A o (Hier.first nullSmoother h b) ∧ (Hier.first nullSmoother h b).sol = o.galerkin A b := by
  induction hok with
  | coarsest A s => intro b; exact ⟨Ok.coarsest A _, rfl⟩
  | level A P sol rest o hy hrest ih =>
    intro b
    obtain ⟨y, rfl, hy⟩ := hy
    obtain ⟨h1, h2⟩ := ih hc (Pᵀ *ᵥ (b - A *ᵥ (P *ᵥ y)))
    have key : P *ᵥ y + P *ᵥ (Hier.first nullSmoother rest (Pᵀ *ᵥ (b - A *ᵥ (P *ᵥ y)))).sol = P *ᵥ o.galerkin (Pᵀ * A * P) (Pᵀ *ᵥ b) := by
      rw [h2, mulVec_sub, Ops.galerkin_sub, mulVec_mulVec, mulVec_mulVec, Ops.galerkin_of_range _ o hc y hy, mulVec_sub]
      abel
    constructor
    · simp only [Hier.first, nullSmoother]
      exact Ok.level A P _ _ o ⟨_, key, Ops.inRange_galerkin _ o _⟩ h1
    · simp only [Hier.first, nullSmoother, Hier.sol, Ops.galerkin]
      exact key

theorem cycle_eq_first : {n : ℕ} → (h : Hier K n) → (b : Fin n → K) → Hier.cycle nullSmoother h b = Hier.first nullSmoother h b
  | _, .coarsest A s, b => rfl
  | _, .level A P sol rest, b => by
    simp only [Hier.cycle, Hier.first, nullSmoother]
    rw [← cycle_eq_first rest]

theorem solve_ok {n : ℕ} (A : Matrix (Fin n) (Fin n) K) (o : Ops K n) (h : Hier K n) (hok : Ok A o h) (hc : o.CoarseOk A) (c : ℕ) (b : Fin n → K) :
    Ok A o (Hier.solve nullSmoother c h b).1 ∧ (Hier.solve nullSmoother c h b).2 = o.galerkin A b := by
  unfold Hier.solve
  dsimp only
  induction c with
  | zero => exact first_ok A o h hok hc b
  | succ c ih =>
    rw [Function.iterate_succ_apply', cycle_eq_first]
    exact first_ok A o _ ih.1 hc b

/-- **C46** Multigrid with its default smoother: for any operators, any number of cycles and any history of earlier solves on the same object, it
returns `P (PᵀAP)⁻¹ Pᵀ b` with `P` the product of all interpolation operators. -/
theorem C46_multigrid_null (A : Matrix (Fin n) (Fin n) K) (o : Ops K n) (hc : IsUnit (o.totalᵀ * A * o.total).det) (cycles : ℕ)
    (history : List (Fin n → K)) (b : Fin n → K) :
    (Hier.solve nullSmoother cycles (history.foldl (fun h r => (Hier.solve nullSmoother cycles h r).1) (Hier.setup A o)) b).2 =
      o.total *ᵥ ((o.totalᵀ * A * o.total)⁻¹ *ᵥ (o.totalᵀ *ᵥ b)) := by
  have hc' := (Ops.coarseOk_iff A o).2 hc
  have : ∀ (l : List (Fin n → K)) (h : Hier K n), Ok A o h → Ok A o (l.foldl (fun h r => (Hier.solve nullSmoother cycles h r).1) h) := by
    intro l
    induction l with
    | nil => intro h hh; exact hh
    | cons r l ih => intro h hh; exact ih _ (solve_ok A o h hh hc' cycles r).1
  rw [(solve_ok A o _ (this history _ (ok_setup A o)) hc' cycles b).2, Ops.galerkin_eq]

/-- **C46** In particular, without interpolation operators (how every caller in the package sets it up) multigrid is a direct solver. -/
theorem C46_multigrid_without_operators (A : Matrix (Fin n) (Fin n) K) (hA : IsUnit A.det) (S : Smoother K) (cycles : ℕ) (history : List (Fin n → K))
    (b : Fin n → K) :
    A *ᵥ (Hier.solve S cycles (history.foldl (fun h r => (Hier.solve S cycles h r).1) (Hier.setup A .nil)) b).2 = b := by
  have hfix : ∀ (h : Hier K n) (r : Fin n → K), (∃ s, h = .coarsest A s) → (Hier.solve S cycles h r).1 = .coarsest A (directSolve A r) ∧
      (Hier.solve S cycles h r).2 = directSolve A r := by
    rintro h r ⟨s, rfl⟩
    have : ∀ c, (fun h => Hier.cycle S h r)^[c] (Hier.first S (.coarsest A s) r) = .coarsest A (directSolve A r) := by
      intro c
      induction c with
      | zero => rfl
      | succ c ih => rw [Function.iterate_succ_apply', ih]; rfl
    unfold Hier.solve
    dsimp only
    rw [this]
    exact ⟨rfl, rfl⟩
  have hall : ∀ (l : List (Fin n → K)) (h : Hier K n), (∃ s, h = .coarsest A s) →
      ∃ s, l.foldl (fun h r => (Hier.solve S cycles h r).1) h = .coarsest A s := by
    intro l
    induction l with
    | nil => intro h hh; exact hh
    | cons r l ih => intro h hh; exact ih _ ⟨_, (hfix h r hh).1⟩
  have h0 : ∃ s, Hier.setup A .nil = Hier.coarsest A s := ⟨0, rfl⟩
  rw [(hfix _ b (hall history _ h0)).2]
  exact C46_direct_exact A hA b

end field

/-! ## Convergence -/
section order
variable {K : Type} [Field K] [LinearOrder K] [IsStrictOrderedRing K] {n : ℕ}

/-- **C46** Jacobi on a diagonally dominant matrix: if every row satisfies `∑_{j≠i} |a_ij| ≤ q |a_ii|`, `k` sweeps with damping `w` reduce a bound `E` on all
error components to `(|1-w| + |w| q)^k E`. -/
theorem C46_jacobi_contracts (A : Matrix (Fin n) (Fin n) K) (w q : K) (hd : ∀ i, A i i ≠ 0)
    (hq : ∀ i, ∑ j ∈ Finset.univ.erase i, |A i j| ≤ q * |A i i|) (b y : Fin n → K) (hy : A *ᵥ y = b)
    (k : ℕ) (x : Fin n → K) (E : K) (hE : ∀ i, |x i - y i| ≤ E) (i : Fin n) :
    |stationary "jacobi" A w k b (some x) i - y i| ≤ (|1 - w| + |w| * q) ^ k * E := by
  have hE0 : 0 ≤ E := (abs_nonneg _).trans (hE i)
  have hq0 : 0 ≤ q := by
    have h1 : 0 ≤ q * |A i i| := le_trans (Finset.sum_nonneg fun _ _ => abs_nonneg _) (hq i)
    have h2 : 0 < |A i i| := abs_pos.2 (hd i)
    exact nonneg_of_mul_nonneg_left h1 h2
  have step : ∀ (x : Fin n → K) (E : K), (∀ i, |x i - y i| ≤ E) → ∀ i, |jacobi A w b x i - y i| ≤ (|1 - w| + |w| * q) * E := by
    intro x E hE i
    have hE0 : 0 ≤ E := (abs_nonneg _).trans (hE i)
    rw [jacobi_error A w b x y hy i]
    have hsplit : (A *ᵥ (x - y)) i = A i i * (x i - y i) + ∑ j ∈ Finset.univ.erase i, A i j * (x j - y j) := by
      simp only [mulVec, dotProduct, Pi.sub_apply]
      exact (Finset.add_sum_erase Finset.univ (fun j => A i j * (x j - y j)) (Finset.mem_univ i)).symm
    rw [hsplit]
    have hA := hd i
    have e : (x i - y i) - w / A i i * (A i i * (x i - y i) + ∑ j ∈ Finset.univ.erase i, A i j * (x j - y j)) =
        (1 - w) * (x i - y i) - w / A i i * ∑ j ∈ Finset.univ.erase i, A i j * (x j - y j) := by
      field_simp; ring
    rw [e]
    have hs : |∑ j ∈ Finset.univ.erase i, A i j * (x j - y j)| ≤ q * |A i i| * E := by
      refine (Finset.abs_sum_le_sum_abs _ _).trans ?_
      calc ∑ j ∈ Finset.univ.erase i, |A i j * (x j - y j)| ≤ ∑ j ∈ Finset.univ.erase i, |A i j| * E :=
            Finset.sum_le_sum fun j _ => by rw [abs_mul]; exact mul_le_mul_of_nonneg_left (hE j) (abs_nonneg _)
        _ = (∑ j ∈ Finset.univ.erase i, |A i j|) * E := by rw [Finset.sum_mul]
        _ ≤ _ := mul_le_mul_of_nonneg_right (hq i) hE0
    have hpos : 0 < |A i i| := abs_pos.2 hA
    have h2 : |w / A i i * ∑ j ∈ Finset.univ.erase i, A i j * (x j - y j)| ≤ |w| * q * E := by
      rw [abs_mul, abs_div]
      calc |w| / |A i i| * _ ≤ |w| / |A i i| * (q * |A i i| * E) := mul_le_mul_of_nonneg_left hs (by positivity)
        _ = |w| * q * E := by field_simp
    have h3 : |(1 - w) * (x i - y i)| ≤ |1 - w| * E := by
      rw [abs_mul]; exact mul_le_mul_of_nonneg_left (hE i) (abs_nonneg _)
    calc _ ≤ |(1 - w) * (x i - y i)| + |w / A i i * ∑ j ∈ Finset.univ.erase i, A i j * (x j - y j)| := abs_sub _ _
      _ ≤ _ := by linarith
  unfold stationary
  simp only [if_true, Option.getD_some]
  have : ∀ k, ∀ i, |(jacobi A w b)^[k] x i - y i| ≤ (|1 - w| + |w| * q) ^ k * E := by
    intro k
    induction k with
    | zero => intro i; simpa using hE i
    | succ k ih =>
      intro i
      rw [Function.iterate_succ_apply', pow_succ']
      rw [mul_assoc]
      exact step _ _ ih i
  exact this k i

/-- Error energy. -/
def energy (A : Matrix (Fin n) (Fin n) K) (e : Fin n → K) : K := e ⬝ᵥ (A *ᵥ e)

/-- **C46** Gauss-Seidel / SOR on a symmetric matrix: a sweep lowers the energy of the error by exactly `(2/w - 1) ∑ a_ii d_i²`, `d` the correction. So for
positive diagonal and `0 < w < 2` the energy never increases, and strictly decreases until the system is solved. -/
theorem C46_gs_energy (A : Matrix (Fin n) (Fin n) K) (hs : ∀ i j, A i j = A j i) (hd : ∀ i, 0 < A i i) (w : K) (hw : 0 < w)
    (b x y : Fin n → K) (hy : A *ᵥ y = b) :
    energy A (gs A w b x - y) = energy A (x - y) - (2 / w - 1) * ∑ i, A i i * (gs A w b x i - x i) ^ 2 ∧
    (w < 2 → energy A (gs A w b x - y) ≤ energy A (x - y) ∧
      (A *ᵥ x ≠ b → energy A (gs A w b x - y) < energy A (x - y))) := by
  have hd' : ∀ i, A i i ≠ 0 := fun i => (hd i).ne'
  set d : Fin n → K := gs A w b x - x with hdd
  set e : Fin n → K := x - y with he
  have hM := gs_error A w hw.ne' hd' b x y hy
  rw [← hdd, ← he] at hM
  have hnew : gs A w b x - y = e + d := by rw [hdd, he]; abel
  have hsymm : ∀ u v : Fin n → K, u ⬝ᵥ (A *ᵥ v) = v ⬝ᵥ (A *ᵥ u) := by
    intro u v
    simp only [dotProduct, mulVec, Finset.mul_sum]
    rw [Finset.sum_comm]
    refine Finset.sum_congr rfl fun i _ => Finset.sum_congr rfl fun j _ => ?_
    rw [hs j i]; ring
  -- 2 dᵀ M d = dᵀ A d + (2/w - 1) ∑ a_ii d_i²
  have hquad : 2 * (d ⬝ᵥ (ldw A w *ᵥ d)) = d ⬝ᵥ (A *ᵥ d) + (2 / w - 1) * ∑ i, A i i * d i ^ 2 := by
    have t : d ⬝ᵥ (ldw A w *ᵥ d) = d ⬝ᵥ ((ldw A w)ᵀ *ᵥ d) := by
      simp only [dotProduct, mulVec, Finset.mul_sum, transpose_apply]
      rw [Finset.sum_comm]
      exact Finset.sum_congr rfl fun i _ => Finset.sum_congr rfl fun j _ => by ring
    have hsum : d ⬝ᵥ (ldw A w *ᵥ d) + d ⬝ᵥ ((ldw A w)ᵀ *ᵥ d) = d ⬝ᵥ (A *ᵥ d) + (2 / w - 1) * ∑ i, A i i * d i ^ 2 := by
      simp only [dotProduct, mulVec, Finset.mul_sum, transpose_apply]
      have hdiag : ∑ i, (2 / w - 1) * (A i i * d i ^ 2) = ∑ i, ∑ j, if i = j then (2 / w - 1) * (A i j * d i * d j) else 0 := by
        refine Finset.sum_congr rfl fun i _ => ?_
        rw [Finset.sum_ite_eq]; simp only [Finset.mem_univ, if_true]; ring
      rw [hdiag, ← Finset.sum_add_distrib, ← Finset.sum_add_distrib]
      refine Finset.sum_congr rfl fun i _ => ?_
      rw [← Finset.sum_add_distrib, ← Finset.sum_add_distrib]
      refine Finset.sum_congr rfl fun j _ => ?_
      unfold ldw
      rcases lt_trichotomy i j with h | h | h
      · simp [h, h.ne, not_lt.2 h.le, h.ne', hs j i]
      · subst h; simp; field_simp; ring
      · simp [h, h.ne', not_lt.2 h.le, h.ne]
    linarith
  have hcross : d ⬝ᵥ (A *ᵥ e) = -(d ⬝ᵥ (ldw A w *ᵥ d)) := by rw [hM]; simp [dotProduct_neg]
  have hmain : energy A (gs A w b x - y) = energy A e - (2 / w - 1) * ∑ i, A i i * d i ^ 2 := by
    rw [hnew]
    unfold energy
    rw [mulVec_add, dotProduct_add, add_dotProduct, add_dotProduct, hsymm e d, hcross]
    linarith
  have hd2 : ∑ i, A i i * (gs A w b x i - x i) ^ 2 = ∑ i, A i i * d i ^ 2 := rfl
  rw [hd2]
  refine ⟨hmain, fun hw2 => ?_⟩
  have hc : 0 < 2 / w - 1 := by
    rw [sub_pos, lt_div_iff₀ hw]; linarith
  have hnn : 0 ≤ ∑ i, A i i * d i ^ 2 := Finset.sum_nonneg fun i _ => mul_nonneg (hd i).le (sq_nonneg _)
  rw [hmain]
  refine ⟨by nlinarith [mul_nonneg hc.le hnn], fun hne => ?_⟩
  have hdne : ∃ i, d i ≠ 0 := by
    by_contra hcon
    push Not at hcon
    apply hne
    rw [← C46_gs_fixed_iff A w hw.ne' hd' b x]
    have : d = 0 := funext hcon
    rw [hdd] at this
    exact sub_eq_zero.1 this
  obtain ⟨i, hi⟩ := hdne
  have : 0 < ∑ i, A i i * d i ^ 2 :=
    Finset.sum_pos' (fun i _ => mul_nonneg (hd i).le (sq_nonneg _)) ⟨i, Finset.mem_univ _, mul_pos (hd i) (by positivity)⟩
  have := mul_pos hc this
  linarith

end order

/-! ## Concrete cases -/

/-- A 2x2 symmetric diagonally dominant system with solution `(1, 2)`. -/
def exA : Matrix (Fin 2) (Fin 2) ℚ := !![4, 1; 1, 3]
def exB : Fin 2 → ℚ := ![6, 7]

example : exA *ᵥ ![1, 2] = exB := by decide +kernel
example : ∀ i, exA i i ≠ 0 := by decide +kernel
example : ∀ i, ∑ j ∈ Finset.univ.erase i, |exA i j| ≤ 1 / 3 * |exA i i| := by decide +kernel
/-- Two undamped Jacobi sweeps from 0, and one Gauss-Seidel sweep. -/
example : stationary "jacobi" exA 1 2 exB (some 0) = ![11 / 12, 11 / 6] ∧ gs exA 1 exB 0 = ![3 / 2, 11 / 6] := by decide +kernel
/-- A Cholesky factor and a right-hand side for which the Cholesky solver works, resp. does not. -/
example : denseChol true (!![2, 1; 0, 3] : Matrix (Fin 2) (Fin 2) ℚ) ![6, 12] = ![1, 1] ∧
    denseChol false (!![2, 1; 0, 3] : Matrix (Fin 2) (Fin 2) ℚ) ![6, 12] = ![6, 12] ∧
    (!![2, 1; 0, 3] : Matrix (Fin 2) (Fin 2) ℚ)ᵀ * !![2, 1; 0, 3] = !![4, 2; 2, 10] ∧
    (!![4, 2; 2, 10] : Matrix (Fin 2) (Fin 2) ℚ) *ᵥ ![1, 1] = ![6, 12] := by decide +kernel
/-- A two-level hierarchy whose coarse matrix is non-singular. -/
example : IsUnit ((Ops.cons (!![1; 1] : Matrix (Fin 2) (Fin 1) ℚ) .nil).totalᵀ * exA * (Ops.cons (!![1; 1] : Matrix (Fin 2) (Fin 1) ℚ) .nil).total).det := by
  have : ((Ops.cons (!![1; 1] : Matrix (Fin 2) (Fin 1) ℚ) .nil).totalᵀ * exA * (Ops.cons (!![1; 1] : Matrix (Fin 2) (Fin 1) ℚ) .nil).total).det = 9 := by
    decide +kernel
  rw [this]; exact isUnit_iff_ne_zero.2 (by norm_num)

end SMT.Solvers
