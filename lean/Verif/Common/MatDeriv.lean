import Mathlib.LinearAlgebra.Matrix.NonsingularInverse
import Mathlib.LinearAlgebra.Matrix.Adjugate
import Mathlib.LinearAlgebra.Matrix.Trace
import Mathlib.Analysis.Calculus.Deriv.Add
import Mathlib.Analysis.Calculus.Deriv.Mul
import Mathlib.Analysis.Calculus.Deriv.Inv
import Mathlib.Analysis.Calculus.Deriv.Prod
import Mathlib.Analysis.Calculus.Deriv.Comp
import Mathlib.Topology.Instances.Matrix
import Mathlib.Tactic.Ring
import Mathlib.Tactic.Linarith
import Mathlib.Tactic.NoncommRing

set_option linter.unusedSectionVars false
set_option linter.unusedSimpArgs false
set_option linter.unusedVariables false

/-!
# Entrywise derivatives of matrix functions of one real variable (mathematical facts)
-/
namespace SMT.Common
open Matrix

variable {l m n : Type} [Fintype l] [Fintype m] [Fintype n] [DecidableEq l] [DecidableEq m] [DecidableEq n]

/-- Every entry is differentiable at `t`, with the entries of `A'` as derivatives. -/
def MDeriv (A : ℝ → Matrix m n ℝ) (A' : Matrix m n ℝ) (t : ℝ) : Prop := ∀ i j, HasDerivAt (fun s => A s i j) (A' i j) t

/-- The same for vectors. -/
def VDeriv (v : ℝ → n → ℝ) (v' : n → ℝ) (t : ℝ) : Prop := ∀ i, HasDerivAt (fun s => v s i) (v' i) t

lemma MDeriv.const (A : Matrix m n ℝ) (t : ℝ) : MDeriv (fun _ => A) 0 t := fun i j => hasDerivAt_const t _
lemma VDeriv.const (v : n → ℝ) (t : ℝ) : VDeriv (fun _ => v) 0 t := fun i => hasDerivAt_const t _

lemma MDeriv.mul {A : ℝ → Matrix l m ℝ} {A' : Matrix l m ℝ} {B : ℝ → Matrix m n ℝ} {B' : Matrix m n ℝ} {t : ℝ} (hA : MDeriv A A' t) (hB : MDeriv B B' t) :
    MDeriv (fun s => A s * B s) (A' * B t + A t * B') t := by
  intro i j
  simp only [Matrix.mul_apply, Matrix.add_apply]
  rw [← Finset.sum_add_distrib]
  exact HasDerivAt.fun_sum fun k _ => (hA i k).fun_mul (hB k j)

lemma MDeriv.mulVec {A : ℝ → Matrix m n ℝ} {A' : Matrix m n ℝ} {v : ℝ → n → ℝ} {v' : n → ℝ} {t : ℝ} (hA : MDeriv A A' t) (hv : VDeriv v v' t) :
    VDeriv (fun s => A s *ᵥ v s) (A' *ᵥ v t + A t *ᵥ v') t := by
  intro i
  simp only [Matrix.mulVec, dotProduct, Pi.add_apply]
  rw [← Finset.sum_add_distrib]
  exact HasDerivAt.fun_sum fun k _ => (hA i k).fun_mul (hv k)

lemma VDeriv.dot {v w : ℝ → n → ℝ} {v' w' : n → ℝ} {t : ℝ} (hv : VDeriv v v' t) (hw : VDeriv w w' t) :
    HasDerivAt (fun s => v s ⬝ᵥ w s) (v' ⬝ᵥ w t + v t ⬝ᵥ w') t := by
  simp only [dotProduct]
  rw [← Finset.sum_add_distrib]
  exact HasDerivAt.fun_sum fun k _ => (hv k).fun_mul (hw k)

lemma VDeriv.sub {v w : ℝ → n → ℝ} {v' w' : n → ℝ} {t : ℝ} (hv : VDeriv v v' t) (hw : VDeriv w w' t) : VDeriv (fun s => v s - w s) (v' - w') t :=
  fun i => (hv i).sub (hw i)

lemma MDeriv.trace {A : ℝ → Matrix n n ℝ} {A' : Matrix n n ℝ} {t : ℝ} (hA : MDeriv A A' t) : HasDerivAt (fun s => (A s).trace) A'.trace t := by
  simp only [Matrix.trace, Matrix.diag]
  exact HasDerivAt.fun_sum fun k _ => hA k k

/-- Jacobi's formula, entrywise. -/
lemma MDeriv.det_adj {A : ℝ → Matrix n n ℝ} {A' : Matrix n n ℝ} {t : ℝ} (hA : MDeriv A A' t) :
    HasDerivAt (fun s => (A s).det) (((A t).adjugate * A').trace) t := by
  have h : HasDerivAt (fun s => ∑ σ : Equiv.Perm n, (Equiv.Perm.sign σ : ℤ) • ∏ i, A s (σ i) i)
      (∑ σ : Equiv.Perm n, (Equiv.Perm.sign σ : ℤ) • ∑ i, (∏ j ∈ Finset.univ.erase i, A t (σ j) j) • A' (σ i) i) t := by
    refine HasDerivAt.fun_sum fun σ _ => ?_
    simp only [zsmul_eq_mul]
    exact (HasDerivAt.fun_finsetProd fun i _ => hA (σ i) i).const_mul _
  have e : (fun s => (A s).det) = fun s => ∑ σ : Equiv.Perm n, (Equiv.Perm.sign σ : ℤ) • ∏ i, A s (σ i) i := by
    funext s; rw [Matrix.det_apply]; rfl
  rw [e]
  refine h.congr_deriv ?_
  simp only [Finset.smul_sum]
  rw [Finset.sum_comm, Matrix.trace]
  refine Finset.sum_congr rfl fun i _ => ?_
  rw [Matrix.diag_apply]
  have e1 : ((A t).adjugate * A') i i = ((A t).updateCol i (A'.col i)).det := by
    rw [← Matrix.cramer_apply, Matrix.cramer_eq_adjugate_mulVec]; rfl
  rw [e1, Matrix.det_apply]
  refine Finset.sum_congr rfl fun σ _ => ?_
  congr 1
  rw [← Finset.prod_erase_mul _ _ (Finset.mem_univ i)]
  rw [smul_eq_mul]
  congr 1
  · refine Finset.prod_congr rfl fun j hj => ?_
    rw [Matrix.updateCol_apply, if_neg (Finset.ne_of_mem_erase hj)]
  · simp [Matrix.updateCol_apply]

lemma MDeriv.det {A : ℝ → Matrix n n ℝ} {A' : Matrix n n ℝ} {t : ℝ} (hA : MDeriv A A' t) (hd : IsUnit (A t).det) :
    HasDerivAt (fun s => (A s).det) ((A t).det * ((A t)⁻¹ * A').trace) t := by
  refine hA.det_adj.congr_deriv ?_
  rw [Matrix.inv_def, Matrix.smul_mul, Matrix.trace_smul, smul_eq_mul, ← mul_assoc, Ring.mul_inverse_cancel _ hd, one_mul]

lemma MDeriv.exists_inv {A : ℝ → Matrix n n ℝ} {A' : Matrix n n ℝ} {t : ℝ} (hA : MDeriv A A' t) (hd : IsUnit (A t).det) :
    ∃ B', MDeriv (fun s => (A s)⁻¹) B' t := by
  have hadj : ∀ i j, ∃ d, HasDerivAt (fun s => (A s).adjugate i j) d t := by
    intro i j
    have hu : ∃ U, MDeriv (fun s => (A s).updateRow j (Pi.single i 1)) U t := by
      refine ⟨A'.updateRow j 0, fun a b => ?_⟩
      by_cases ha : a = j
      · subst ha; simpa using hasDerivAt_const t _
      · simpa [ha] using hA a b
    obtain ⟨U, hU⟩ := hu
    exact ⟨_, by simpa only [Matrix.adjugate_apply] using hU.det_adj⟩
  choose D hD using hadj
  have hdet := hA.det_adj.fun_inv hd.ne_zero
  have : ∀ i j, ∃ d, HasDerivAt (fun s => (A s)⁻¹ i j) d t := by
    intro i j
    have e : (fun s => (A s)⁻¹ i j) = fun s => ((A s).det)⁻¹ * (A s).adjugate i j := by
      funext s; rw [Matrix.inv_def, Ring.inverse_eq_inv']; simp
    rw [e]
    exact ⟨_, hdet.fun_mul (hD i j)⟩
  choose E hE using this
  exact ⟨Matrix.of E, hE⟩

lemma MDeriv.unique {A : ℝ → Matrix m n ℝ} {A' A'' : Matrix m n ℝ} {t : ℝ} (h : MDeriv A A' t) (h' : MDeriv A A'' t) : A' = A'' := by
  ext i j; exact (h i j).unique (h' i j)

lemma MDeriv.continuousAt_det {A : ℝ → Matrix n n ℝ} {A' : Matrix n n ℝ} {t : ℝ} (hA : MDeriv A A' t) : ContinuousAt (fun s => (A s).det) t :=
  hA.det_adj.continuousAt

/-- Derivative of the inverse. -/
lemma MDeriv.inv {A : ℝ → Matrix n n ℝ} {A' : Matrix n n ℝ} {t : ℝ} (hA : MDeriv A A' t) (hd : IsUnit (A t).det) :
    MDeriv (fun s => (A s)⁻¹) (-((A t)⁻¹ * A' * (A t)⁻¹)) t := by
  obtain ⟨B', hB⟩ := hA.exists_inv hd
  have hm := hA.mul hB
  have hev : ∀ᶠ s in nhds t, A s * (A s)⁻¹ = 1 := by
    have := hA.continuousAt_det.eventually_ne hd.ne_zero
    exact this.mono fun s hs => Matrix.mul_nonsing_inv _ (isUnit_iff_ne_zero.2 hs)
  have hone : MDeriv (fun s => A s * (A s)⁻¹) 0 t := by
    intro i j
    refine (hasDerivAt_const t ((1 : Matrix n n ℝ) i j)).congr_of_eventuallyEq ?_
    exact hev.mono fun s hs => by simp only [hs]
  have h0 := hm.unique hone
  have : B' = -((A t)⁻¹ * A' * (A t)⁻¹) := by
    have h1 : A t * B' = -(A' * (A t)⁻¹) := by rw [eq_neg_iff_add_eq_zero, add_comm]; exact h0
    calc B' = (A t)⁻¹ * (A t * B') := by rw [← Matrix.mul_assoc, Matrix.nonsing_inv_mul _ hd, Matrix.one_mul]
      _ = _ := by rw [h1, Matrix.mul_neg, ← Matrix.mul_assoc]
  rwa [← this]

end SMT.Common
