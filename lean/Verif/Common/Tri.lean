import Mathlib.LinearAlgebra.Matrix.Block
import Mathlib.LinearAlgebra.Matrix.NonsingularInverse
import Mathlib.LinearAlgebra.Matrix.ToLin
import Mathlib.Algebra.BigOperators.Fin

/-!
# Triangular solves as scipy performs them

`scipy.linalg.solve_triangular(A, b, lower=True)` reads only the lower triangle of `A` (forward substitution);
with the default `lower=False` it reads only the upper triangle (back substitution).
-/
namespace SMT.Common
open Matrix

variable {K : Type} [Field K] {n p : ℕ}

/-- `linalg.solve_triangular(C, b, lower=True)` for one right-hand side. -/
def fwd (C : Matrix (Fin n) (Fin n) K) (b : Fin n → K) (i : Fin n) : K :=
  (b i - ∑ j : Fin i.val, C i (Fin.castLE i.isLt.le j) * fwd C b (Fin.castLE i.isLt.le j)) / C i i
termination_by i.val
decreasing_by exact j.isLt

/-- `linalg.solve_triangular(U, b)` (default `lower=False`) for one right-hand side: the mirror image. -/
def bwd (U : Matrix (Fin n) (Fin n) K) (b : Fin n → K) (i : Fin n) : K :=
  fwd (U.submatrix Fin.rev Fin.rev) (fun a => b a.rev) i.rev

/-- `fwd` applied to every column of a right-hand side. -/
def fwdM (C : Matrix (Fin n) (Fin n) K) (B : Matrix (Fin n) (Fin p) K) : Matrix (Fin n) (Fin p) K :=
  fun i q => fwd C (fun a => B a q) i

/-- `bwd` applied to every column of a right-hand side. -/
def bwdM (U : Matrix (Fin n) (Fin n) K) (B : Matrix (Fin n) (Fin p) K) : Matrix (Fin n) (Fin p) K :=
  fun i q => bwd U (fun a => B a q) i

/-- Lower triangular. -/
def IsLower (C : Matrix (Fin n) (Fin n) K) : Prop := ∀ i j, i < j → C i j = 0
/-- Upper triangular. -/
def IsUpper (U : Matrix (Fin n) (Fin n) K) : Prop := ∀ i j, j < i → U i j = 0

theorem sum_castLE (i : Fin n) (f : Fin n → K) :
    ∑ j : Fin i.val, f (Fin.castLE i.isLt.le j) = ∑ j : Fin n, if j < i then f j else 0 := by
  rw [← Finset.sum_filter]
  symm
  refine Finset.sum_bij' (fun j hj => ⟨j.val, (Finset.mem_filter.1 hj).2⟩) (fun j _ => Fin.castLE i.isLt.le j) ?_ ?_ ?_ ?_ ?_
  · intro j _; exact Finset.mem_univ _
  · intro j _; exact Finset.mem_filter.2 ⟨Finset.mem_univ _, j.isLt⟩
  · intro j _; rfl
  · intro j _; rfl
  · intro j _; rfl

theorem fwd_eq (C : Matrix (Fin n) (Fin n) K) (b : Fin n → K) (i : Fin n) :
    fwd C b i = (b i - ∑ j : Fin n, if j < i then C i j * fwd C b j else 0) / C i i := by
  rw [fwd, sum_castLE i (fun j => C i j * fwd C b j)]

/-- Forward substitution solves the system of the lower triangle. -/
theorem fwd_lower (C : Matrix (Fin n) (Fin n) K) (b : Fin n → K) (hd : ∀ i, C i i ≠ 0) (i : Fin n) :
    ∑ j, (if j ≤ i then C i j else 0) * fwd C b j = b i := by
  have h : ∀ j, (if j ≤ i then C i j else 0) * fwd C b j =
      (if j < i then C i j * fwd C b j else 0) + if j = i then C i i * fwd C b i else 0 := by
    intro j
    rcases lt_trichotomy j i with h | h | h
    · simp [h, h.le, h.ne]
    · subst h; simp
    · simp [not_le.2 h, not_lt.2 h.le, h.ne']
  simp only [h, Finset.sum_add_distrib, Finset.sum_ite_eq', Finset.mem_univ, if_true]
  rw [fwd_eq C b i]
  have := hd i
  field_simp
  ring

theorem mulVec_fwd (C : Matrix (Fin n) (Fin n) K) (b : Fin n → K) (hl : IsLower C) (hd : ∀ i, C i i ≠ 0) :
    C *ᵥ fwd C b = b := by
  funext i
  rw [← fwd_lower C b hd i, Matrix.mulVec, dotProduct]
  refine Finset.sum_congr rfl fun j _ => ?_
  split_ifs with h
  · rfl
  · rw [hl i j (not_le.1 h)]

theorem det_ne_of_lower (C : Matrix (Fin n) (Fin n) K) (hl : IsLower C) (hd : ∀ i, C i i ≠ 0) : IsUnit C.det := by
  have : C.det = ∏ i, C i i := Matrix.det_of_isLowerTriangular C (fun i j h => hl i j (by simpa using h))
  rw [this, isUnit_iff_ne_zero]
  exact Finset.prod_ne_zero_iff.2 fun i _ => hd i

theorem fwd_eq_inv (C : Matrix (Fin n) (Fin n) K) (b : Fin n → K) (hl : IsLower C) (hd : ∀ i, C i i ≠ 0) :
    fwd C b = C⁻¹ *ᵥ b := by
  have h := mulVec_fwd C b hl hd
  rw [← h, Matrix.mulVec_mulVec, Matrix.nonsing_inv_mul _ (det_ne_of_lower C hl hd), Matrix.one_mulVec, h]

theorem rev_lower (U : Matrix (Fin n) (Fin n) K) (hu : IsUpper U) : IsLower (U.submatrix Fin.rev Fin.rev) :=
  fun i j h => hu _ _ (Fin.rev_lt_rev.2 h)

theorem mulVec_bwd (U : Matrix (Fin n) (Fin n) K) (b : Fin n → K) (hu : IsUpper U) (hd : ∀ i, U i i ≠ 0) :
    U *ᵥ bwd U b = b := by
  have h := mulVec_fwd (U.submatrix Fin.rev Fin.rev) (fun a => b a.rev) (rev_lower U hu) (fun i => hd i.rev)
  funext i
  have h' := congrFun h i.rev
  simp only [Fin.rev_rev] at h'
  rw [← h', Matrix.mulVec, Matrix.mulVec, dotProduct, dotProduct]
  rw [← Equiv.sum_comp Fin.revPerm]
  refine Finset.sum_congr rfl fun j _ => ?_
  simp [bwd, Fin.rev_rev, Fin.revPerm, Matrix.submatrix_apply]

theorem det_ne_of_upper (U : Matrix (Fin n) (Fin n) K) (hu : IsUpper U) (hd : ∀ i, U i i ≠ 0) : IsUnit U.det := by
  rw [← Matrix.det_transpose]
  exact det_ne_of_lower Uᵀ (fun i j h => hu j i h) hd

theorem bwd_eq_inv (U : Matrix (Fin n) (Fin n) K) (b : Fin n → K) (hu : IsUpper U) (hd : ∀ i, U i i ≠ 0) :
    bwd U b = U⁻¹ *ᵥ b := by
  have h := mulVec_bwd U b hu hd
  rw [← h, Matrix.mulVec_mulVec, Matrix.nonsing_inv_mul _ (det_ne_of_upper U hu hd), Matrix.one_mulVec, h]

theorem fwdM_eq (C : Matrix (Fin n) (Fin n) K) (B : Matrix (Fin n) (Fin p) K) (hl : IsLower C) (hd : ∀ i, C i i ≠ 0) :
    fwdM C B = C⁻¹ * B := by
  ext i q
  rw [fwdM, fwd_eq_inv C _ hl hd]; rfl

theorem bwdM_eq (U : Matrix (Fin n) (Fin n) K) (B : Matrix (Fin n) (Fin p) K) (hu : IsUpper U) (hd : ∀ i, U i i ≠ 0) :
    bwdM U B = U⁻¹ * B := by
  ext i q
  rw [bwdM, bwd_eq_inv U _ hu hd]; rfl

/-- Back substitution never reads the strict lower triangle: on a lower triangular matrix it divides by the diagonal. -/
theorem bwd_of_lower (L : Matrix (Fin n) (Fin n) K) (b : Fin n → K) (hl : IsLower L) (i : Fin n) : bwd L b i = b i / L i i := by
  unfold bwd
  rw [fwd_eq]
  rw [Finset.sum_eq_zero]
  · simp
  · intro j _
    split_ifs with h
    · rw [Matrix.submatrix_apply, hl _ _ (Fin.rev_lt_rev.2 h), zero_mul]
    · rfl

/-- Solving `C x = b` then `Cᵀ z = x` gives `(C Cᵀ)⁻¹ b`. -/
theorem chol_solve (C : Matrix (Fin n) (Fin n) K) (b : Fin n → K) (hl : IsLower C) (hd : ∀ i, C i i ≠ 0) :
    bwd Cᵀ (fwd C b) = (C * Cᵀ)⁻¹ *ᵥ b := by
  rw [bwd_eq_inv Cᵀ _ (fun i j h => hl j i h) hd, fwd_eq_inv C b hl hd, Matrix.mulVec_mulVec, Matrix.mul_inv_rev]

end SMT.Common
