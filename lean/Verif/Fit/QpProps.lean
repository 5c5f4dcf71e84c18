import Verif.Fit.QpModel
import Verif.Fit.Lsq
import Verif.Qp.Props
import Mathlib.LinearAlgebra.Matrix.ToLinearEquiv
import Mathlib.LinearAlgebra.FiniteDimensional.Lemmas
import Mathlib.LinearAlgebra.Dimension.Constructions
import Mathlib.LinearAlgebra.Matrix.Rank

/-!
# C82-C84 for QP and LS
-/
namespace SMT.Fit
open Matrix SMT.Qp
set_option linter.unusedSectionVars false
set_option linter.unusedSimpArgs false
set_option linter.unusedVariables false

variable {K : Type} [Field K] [LinearOrder K] [IsStrictOrderedRing K] {nt nx : ℕ}

/-! ## Specification -/

/-- All polynomials of degree at most two in `nx` variables. -/
def quadratics (K : Type) [Field K] (nx : ℕ) : Submodule K ((Fin nx → K) → K) where
  carrier := {f | ∃ (c : K) (l : Fin nx → K) (Q : Fin nx → Fin nx → K), ∀ x, f x = c + ∑ i, l i * x i + ∑ i, ∑ j, Q i j * (x i * x j)}
  zero_mem' := ⟨0, 0, 0, fun x => by simp⟩
  add_mem' := by
    rintro f g ⟨c, l, Q, hf⟩ ⟨c', l', Q', hg⟩
    refine ⟨c + c', l + l', Q + Q', fun x => ?_⟩
    simp only [Pi.add_apply, hf, hg, add_mul, Finset.sum_add_distrib]
    ring
  smul_mem' := by
    rintro a f ⟨c, l, Q, hf⟩
    refine ⟨a * c, fun i => a * l i, fun i j => a * Q i j, fun x => ?_⟩
    simp only [Pi.smul_apply, smul_eq_mul, hf, mul_add, Finset.mul_sum, mul_assoc]

/-- All affine functions in `nx` variables. -/
def affines (K : Type) [Field K] (nx : ℕ) : Submodule K ((Fin nx → K) → K) where
  carrier := {f | ∃ (c : K) (l : Fin nx → K), ∀ x, f x = c + ∑ i, l i * x i}
  zero_mem' := ⟨0, 0, fun x => by simp⟩
  add_mem' := by
    rintro f g ⟨c, l, hf⟩ ⟨c', l', hg⟩
    refine ⟨c + c', l + l', fun x => ?_⟩
    simp only [Pi.add_apply, hf, hg, add_mul, Finset.sum_add_distrib]
    ring
  smul_mem' := by
    rintro a f ⟨c, l, hf⟩
    refine ⟨a * c, fun i => a * l i, fun x => ?_⟩
    simp only [Pi.smul_apply, smul_eq_mul, hf, mul_add, Finset.mul_sum, mul_assoc]

/-- What `np.linalg.inv` is trusted for: it returns inverses, and does so for every invertible matrix. -/
def InvOk {m : ℕ} (inv : Matrix (Fin m) (Fin m) K → Option (Matrix (Fin m) (Fin m) K)) : Prop :=
  (∀ A B, inv A = some B → A * B = 1) ∧ ∀ A, IsUnit A.det → (inv A).isSome

/-- What scikit-learn's `LinearRegression` is trusted for: an affine function with the least sum of squared residuals. -/
def LsOk (fit : (Fin nt → Fin nx → K) → (Fin nt → K) → (Fin nx → K) × K) : Prop :=
  ∀ xs y, IsLsq (affines K nx) xs y fun x => (fit xs y).2 + ∑ i, (fit xs y).1 i * x i

/-- Invertible affine maps of the inputs: rotations, changes of unit and of origin. -/
structure AffMap (K : Type) [Field K] (nx : ℕ) where
  A : Matrix (Fin nx) (Fin nx) K
  B : Matrix (Fin nx) (Fin nx) K
  b : Fin nx → K
  inv : A * B = 1

def AffMap.map (φ : AffMap K nx) (x : Fin nx → K) : Fin nx → K := fun i => ∑ j, φ.A i j * x j + φ.b i

/-! ## Quadratics -/

theorem pairRank_lt {i j i' j' : ℕ} (hij : i < j) (hj : j < nx) (hij' : i' < j') (hi : i < i') (hi' : i' < nx) : pairRank nx i j < pairRank nx i' j' := by
  unfold pairRank
  have h1 : ∑ t ∈ Finset.range (i + 1), (nx - 1 - t) ≤ ∑ t ∈ Finset.range i', (nx - 1 - t) :=
    Finset.sum_le_sum_of_subset (fun t ht => Finset.mem_range.2 (by have := Finset.mem_range.1 ht; omega))
  rw [Finset.sum_range_succ] at h1
  omega

theorem pairRank_inj {i j i' j' : ℕ} (hij : i < j) (hj : j < nx) (hij' : i' < j') (hj' : j' < nx) (h : pairRank nx i j = pairRank nx i' j') : i = i' ∧ j = j' := by
  rcases lt_trichotomy i i' with hi | hi | hi
  · have := pairRank_lt hij hj hij' hi (by omega); omega
  · subst hi
    unfold pairRank at h
    exact ⟨rfl, by omega⟩
  · have := pairRank_lt hij' hj' hij hi (by omega); omega

theorem ext_fin (x : Fin nx → K) (i : Fin nx) : ext x (i : ℕ) = x i := by simp [ext]

theorem quadratic_mem (c : ℕ → K) : (fun x : Fin nx → K => quadratic nx c (ext x)) ∈ quadratics K nx := by
  refine ⟨c 0, fun i => c (1 + i), fun i j => if i = j then c (1 + nx + i) else if i < j then c (1 + 2 * nx + pairRank nx i j) else 0, fun x => ?_⟩
  unfold quadratic
  simp only [Finset.sum_range, ext_fin]
  rw [add_assoc (c 0 + _)]
  congr 1
  rw [← Finset.sum_add_distrib]
  refine Finset.sum_congr rfl fun i _ => ?_
  have e : ∀ j : Fin nx, (if i = j then c (1 + nx + i) else if i < j then c (1 + 2 * nx + pairRank nx i j) else 0) * (x i * x j) =
      (if i = j then c (1 + nx + i) * x i ^ 2 else 0) + if i < j then c (1 + 2 * nx + pairRank nx i j) * (x i * x j) else 0 := by
    intro j
    by_cases h : i = j
    · subst h; simp [sq]
    · simp only [if_neg h, zero_add]
      split_ifs <;> simp
  simp only [e, Finset.sum_add_distrib, Finset.sum_ite_eq, Finset.mem_univ, if_true]
  congr 1
  have : ∑ j : Fin nx, (if i < j then c (1 + 2 * nx + pairRank nx i j) * (x i * x j) else 0) =
      ∑ j ∈ Finset.range nx, if (i : ℕ) < j then c (1 + 2 * nx + pairRank nx i j) * (x i * ext x j) else 0 := by
    rw [Finset.sum_range]
    refine Finset.sum_congr rfl fun j _ => ?_
    simp only [ext_fin, Fin.lt_def]
  rw [this, ← Finset.sum_filter]
  refine Finset.sum_congr ?_ fun j _ => rfl
  ext j
  simp only [Finset.mem_Ico, Finset.mem_filter, Finset.mem_range]
  omega

/-- Coefficients in the order of the code for a polynomial given by constant, linear and quadratic parts. -/
def coefOf (c : K) (l : Fin nx → K) (Q : Fin nx → Fin nx → K) (k : ℕ) : K :=
  (if k = 0 then c else 0) + (∑ i : Fin nx, if k = 1 + i then l i else 0) + (∑ i : Fin nx, if k = 1 + nx + i then Q i i else 0) +
    ∑ i : Fin nx, ∑ j : Fin nx, if i < j ∧ k = 1 + 2 * nx + pairRank nx i j then Q i j + Q j i else 0

theorem coefOf_zero (c : K) (l : Fin nx → K) (Q : Fin nx → Fin nx → K) : coefOf c l Q 0 = c := by
  unfold coefOf
  have h1 : ∀ i : Fin nx, ¬ 0 = 1 + (i : ℕ) := fun i => by omega
  have h2 : ∀ i : Fin nx, ¬ 0 = 1 + nx + (i : ℕ) := fun i => by omega
  have h3 : ∀ i j : Fin nx, ¬ (i < j ∧ 0 = 1 + 2 * nx + pairRank nx i j) := fun i j => by omega
  simp only [if_neg (h1 _), if_neg (h2 _), if_neg (h3 _ _)]
  simp

theorem coefOf_lin (c : K) (l : Fin nx → K) (Q : Fin nx → Fin nx → K) (a : Fin nx) : coefOf c l Q (1 + a) = l a := by
  unfold coefOf
  have ha := a.2
  have h0 : ¬ 1 + (a : ℕ) = 0 := by omega
  have h1 : ∀ i : Fin nx, (1 + (a : ℕ) = 1 + (i : ℕ)) ↔ a = i := fun i => ⟨fun h => Fin.ext (by omega), fun h => by rw [h]⟩
  have h2 : ∀ i : Fin nx, ¬ 1 + (a : ℕ) = 1 + nx + (i : ℕ) := fun i => by omega
  have h3 : ∀ i j : Fin nx, ¬ (i < j ∧ 1 + (a : ℕ) = 1 + 2 * nx + pairRank nx i j) := fun i j => by omega
  simp only [if_neg h0, h1, if_neg (h2 _), if_neg (h3 _ _)]
  simp

theorem coefOf_sq (c : K) (l : Fin nx → K) (Q : Fin nx → Fin nx → K) (a : Fin nx) : coefOf c l Q (1 + nx + a) = Q a a := by
  unfold coefOf
  have ha := a.2
  have h0 : ¬ 1 + nx + (a : ℕ) = 0 := by omega
  have h1 : ∀ i : Fin nx, ¬ 1 + nx + (a : ℕ) = 1 + (i : ℕ) := fun i => by have := i.2; omega
  have h2 : ∀ i : Fin nx, (1 + nx + (a : ℕ) = 1 + nx + (i : ℕ)) ↔ a = i := fun i => ⟨fun h => Fin.ext (by omega), fun h => by rw [h]⟩
  have h3 : ∀ i j : Fin nx, ¬ (i < j ∧ 1 + nx + (a : ℕ) = 1 + 2 * nx + pairRank nx i j) := fun i j => by omega
  simp only [if_neg h0, if_neg (h1 _), h2, if_neg (h3 _ _)]
  simp

theorem coefOf_cross (c : K) (l : Fin nx → K) (Q : Fin nx → Fin nx → K) {a b : Fin nx} (hab : a < b) :
    coefOf c l Q (1 + 2 * nx + pairRank nx a b) = Q a b + Q b a := by
  unfold coefOf
  have h0 : ¬ 1 + 2 * nx + pairRank nx a b = 0 := by omega
  have h1 : ∀ i : Fin nx, ¬ 1 + 2 * nx + pairRank nx a b = 1 + (i : ℕ) := fun i => by have := i.2; omega
  have h2 : ∀ i : Fin nx, ¬ 1 + 2 * nx + pairRank nx a b = 1 + nx + (i : ℕ) := fun i => by have := i.2; omega
  have h3 : ∀ i j : Fin nx, (i < j ∧ 1 + 2 * nx + pairRank nx a b = 1 + 2 * nx + pairRank nx i j) ↔ a = i ∧ b = j := by
    intro i j
    constructor
    · rintro ⟨hij, h⟩
      have := pairRank_inj (nx := nx) (i := a) (j := b) (i' := i) (j' := j) hab b.2 hij j.2 (by omega)
      exact ⟨Fin.ext this.1, Fin.ext this.2⟩
    · rintro ⟨rfl, rfl⟩; exact ⟨hab, rfl⟩
  simp only [if_neg h0, if_neg (h1 _), if_neg (h2 _), h3]
  simp [ite_and]

theorem quad_sum_split (Q : Fin nx → Fin nx → K) (x : Fin nx → K) : ∑ i, ∑ j, Q i j * (x i * x j) =
    ∑ i, Q i i * x i ^ 2 + ∑ i, ∑ j, if i < j then (Q i j + Q j i) * (x i * x j) else 0 := by
  have e : ∀ i j, Q i j * (x i * x j) = (if i = j then Q i i * x i ^ 2 else 0) + (if i < j then Q i j * (x i * x j) else 0) + if j < i then Q i j * (x i * x j) else 0 := by
    intro i j
    rcases lt_trichotomy i j with h | h | h
    · simp [h, h.ne, h.not_gt]
    · subst h; simp [sq]
    · simp [h, h.ne', h.not_gt]
  rw [Finset.sum_congr rfl fun i _ => Finset.sum_congr rfl fun j _ => e i j]
  simp only [Finset.sum_add_distrib, Finset.sum_ite_eq, Finset.mem_univ, if_true]
  rw [add_assoc]
  congr 1
  have sw : ∑ i, ∑ j, (if j < i then Q i j * (x i * x j) else 0) = ∑ i, ∑ j, if i < j then Q j i * (x i * x j) else 0 := by
    rw [Finset.sum_comm]
    refine Finset.sum_congr rfl fun i _ => Finset.sum_congr rfl fun j _ => ?_
    rw [mul_comm (x j)]
  rw [sw, ← Finset.sum_add_distrib]
  refine Finset.sum_congr rfl fun i _ => ?_
  rw [← Finset.sum_add_distrib]
  refine Finset.sum_congr rfl fun j _ => ?_
  split_ifs
  · ring
  · simp

/-- The polynomials of the code are all polynomials of degree at most two. -/
theorem quadratics_iff (f : (Fin nx → K) → K) : f ∈ quadratics K nx ↔ ∃ c : ℕ → K, f = fun x => quadratic nx c (ext x) := by
  refine ⟨?_, fun ⟨c, h⟩ => h ▸ quadratic_mem c⟩
  rintro ⟨c, l, Q, hf⟩
  refine ⟨coefOf c l Q, funext fun x => ?_⟩
  rw [hf, quad_sum_split]
  unfold quadratic
  simp only [Finset.sum_range, ext_fin, coefOf_zero, coefOf_lin, coefOf_sq]
  rw [← add_assoc]
  congr 1
  refine Finset.sum_congr rfl fun i _ => ?_
  have : ∑ j : Fin nx, (if i < j then (Q i j + Q j i) * (x i * x j) else 0) =
      ∑ j : Fin nx, if (i : ℕ) < (j : ℕ) then coefOf c l Q (1 + 2 * nx + pairRank nx i j) * (x i * ext x j) else 0 := by
    refine Finset.sum_congr rfl fun j _ => ?_
    by_cases h : i < j
    · rw [if_pos h, if_pos (Fin.lt_def.1 h), coefOf_cross c l Q h, ext_fin]
    · rw [if_neg h, if_neg (fun e => h (Fin.lt_def.2 e))]
  rw [this, ← Finset.sum_range (fun j => if (i : ℕ) < j then coefOf c l Q (1 + 2 * nx + pairRank nx i j) * (x i * ext x j) else 0), ← Finset.sum_filter]
  refine Finset.sum_congr ?_ fun j _ => rfl
  ext j
  simp only [Finset.mem_Ico, Finset.mem_filter, Finset.mem_range]
  omega

theorem quadratics_comp (φ : AffMap K nx) {f : (Fin nx → K) → K} (hf : f ∈ quadratics K nx) : (fun x => f (φ.map x)) ∈ quadratics K nx := by
  obtain ⟨c, l, Q, hf⟩ := hf
  refine ⟨c + ∑ i, l i * φ.b i + ∑ i, ∑ j, Q i j * (φ.b i * φ.b j), fun k => ∑ i, l i * φ.A i k + ∑ i, ∑ j, Q i j * (φ.A i k * φ.b j + φ.b i * φ.A j k),
    fun k m => ∑ i, ∑ j, Q i j * (φ.A i k * φ.A j m), fun x => ?_⟩
  show f (φ.map x) = _
  rw [hf]
  unfold AffMap.map
  beta_reduce
  have e1 : ∑ i, l i * (∑ k, φ.A i k * x k + φ.b i) = ∑ k, (∑ i, l i * φ.A i k) * x k + ∑ i, l i * φ.b i := by
    simp only [mul_add, Finset.sum_add_distrib, Finset.mul_sum, Finset.sum_mul]
    rw [Finset.sum_comm]
    simp only [mul_assoc]
  have e2 : ∀ i j, Q i j * ((∑ k, φ.A i k * x k + φ.b i) * (∑ m, φ.A j m * x m + φ.b j)) =
      (∑ k, ∑ m, Q i j * (φ.A i k * φ.A j m) * (x k * x m)) + (∑ k, Q i j * (φ.A i k * φ.b j + φ.b i * φ.A j k) * x k) + Q i j * (φ.b i * φ.b j) := by
    intro i j
    have h1 : ∑ k, ∑ m, Q i j * (φ.A i k * φ.A j m) * (x k * x m) = Q i j * ((∑ k, φ.A i k * x k) * ∑ m, φ.A j m * x m) := by
      rw [Finset.sum_mul_sum, Finset.mul_sum]
      refine Finset.sum_congr rfl fun k _ => ?_
      rw [Finset.mul_sum]
      exact Finset.sum_congr rfl fun m _ => by ring
    have h2 : ∑ k, Q i j * (φ.A i k * φ.b j + φ.b i * φ.A j k) * x k = Q i j * ((∑ k, φ.A i k * x k) * φ.b j + φ.b i * ∑ k, φ.A j k * x k) := by
      rw [Finset.sum_mul, Finset.mul_sum, ← Finset.sum_add_distrib, Finset.mul_sum]
      exact Finset.sum_congr rfl fun m _ => by ring
    rw [h1, h2]; ring
  rw [e1, Finset.sum_congr rfl fun i _ => Finset.sum_congr rfl fun j _ => e2 i j]
  simp only [Finset.sum_add_distrib, add_mul, Finset.sum_mul]
  have s1 : ∑ i, ∑ j, ∑ k, ∑ m, Q i j * (φ.A i k * φ.A j m) * (x k * x m) = ∑ k, ∑ m, ∑ i, ∑ j, Q i j * (φ.A i k * φ.A j m) * (x k * x m) := by
    rw [Finset.sum_congr rfl fun i _ => Finset.sum_comm]
    rw [Finset.sum_comm]
    refine Finset.sum_congr rfl fun k _ => ?_
    rw [Finset.sum_congr rfl fun i _ => Finset.sum_comm]
    rw [Finset.sum_comm]
  have s2 : ∑ i, ∑ j, ∑ k, Q i j * (φ.A i k * φ.b j + φ.b i * φ.A j k) * x k = ∑ k, ∑ i, ∑ j, Q i j * (φ.A i k * φ.b j + φ.b i * φ.A j k) * x k := by
    rw [Finset.sum_congr rfl fun i _ => Finset.sum_comm]
    rw [Finset.sum_comm]
  rw [s1, s2]
  ring

theorem affines_comp (φ : AffMap K nx) {f : (Fin nx → K) → K} (hf : f ∈ affines K nx) : (fun x => f (φ.map x)) ∈ affines K nx := by
  obtain ⟨c, l, hf⟩ := hf
  refine ⟨c + ∑ i, l i * φ.b i, fun k => ∑ i, l i * φ.A i k, fun x => ?_⟩
  show f (φ.map x) = _
  rw [hf]
  unfold AffMap.map
  beta_reduce
  simp only [mul_add, Finset.sum_add_distrib, Finset.mul_sum, Finset.sum_mul]
  rw [Finset.sum_comm]
  simp only [mul_assoc]
  ring

/-- The inverse map. -/
def AffMap.symm (φ : AffMap K nx) : AffMap K nx := ⟨φ.B, φ.A, fun i => -∑ j, φ.B i j * φ.b j, mul_eq_one_comm.1 φ.inv⟩

theorem AffMap.map_symm (φ : AffMap K nx) (x : Fin nx → K) : φ.map (φ.symm.map x) = x := by
  funext i
  have h : ∀ v : Fin nx → K, ∑ j, φ.A i j * ∑ k, φ.B j k * v k = v i := fun v => by
    have := congrFun (congrArg (fun M => M *ᵥ v) φ.inv) i
    rw [← Matrix.mulVec_mulVec, Matrix.one_mulVec] at this
    exact this
  unfold AffMap.map AffMap.symm
  simp only [mul_add, mul_neg, Finset.sum_add_distrib, Finset.sum_neg_distrib, h]
  ring

theorem AffMap.symm_map (φ : AffMap K nx) (x : Fin nx → K) : φ.symm.map (φ.map x) = x := by
  have := φ.symm.map_symm x
  have e : φ.symm.symm.map x = φ.map x := by
    funext i
    unfold AffMap.map AffMap.symm
    simp only [mul_neg, Finset.sum_neg_distrib, neg_neg]
    have h := congrFun (congrArg (fun M => M *ᵥ φ.b) φ.inv) i
    rw [← Matrix.mulVec_mulVec, Matrix.one_mulVec] at h
    congr 1
  rw [e] at this
  exact this

def AffMap.equiv (φ : AffMap K nx) : (Fin nx → K) ≃ (Fin nx → K) := ⟨φ.map, φ.symm.map, φ.symm_map, φ.map_symm⟩

/-! ## The trained QP model is the least-squares quadratic -/

theorem row_dot (c : ℕ → K) (x : Fin nx → K) : ∑ l : Fin (nApp nx), ((responseRow nx (ext x)).getD []).getD (l : ℕ) 0 * c l = quadratic nx c (ext x) := by
  have h := C32_predict_is_quadratic nx c (ext x)
  unfold predict at h
  rw [responseRow_eq] at h ⊢
  simp only [Option.map_some, Option.some.injEq, Option.getD_some] at h ⊢
  have hl : ((writes nx (ext x)).map (·.2)).length = nApp nx := by
    have := congrArg List.length (C32_columns nx (ext x))
    simpa using this
  rw [hl] at h
  rw [← h, List.range_eq_range', sum_map_range', Finset.sum_range]
  simp only [zero_add]

theorem design_dot (xs : Fin nt → Fin nx → K) (c : ℕ → K) (t : Fin nt) : ∑ l, design xs t l * c l = quadratic nx c (ext (xs t)) := row_dot c (xs t)

/-- Coefficients as the array of the code. -/
def arr {m : ℕ} (c : Fin m → K) (k : ℕ) : K := if h : k < m then c ⟨k, h⟩ else 0

theorem arr_fin {m : ℕ} (c : Fin m → K) (k : Fin m) : arr c (k : ℕ) = c k := by simp [arr]

theorem quadratic_congr {c c' : ℕ → K} (h : ∀ l : Fin (nApp nx), c l = c' l) (x : Fin nx → K) : quadratic nx c (ext x) = quadratic nx c' (ext x) := by
  rw [← row_dot, ← row_dot]
  exact Finset.sum_congr rfl fun l _ => by rw [h l]

theorem qpPredict_eq (c : ℕ → K) (x : Fin nx → K) : qpPredict c x = quadratic nx c (ext x) := by
  unfold qpPredict; rw [C32_predict_is_quadratic]; rfl

variable {inv : Matrix (Fin (nApp nx)) (Fin (nApp nx)) K → Option (Matrix (Fin (nApp nx)) (Fin (nApp nx)) K)}

theorem qpTrain_eq {xs : Fin nt → Fin nx → K} {y : Fin nt → K} {coef : ℕ → K} (h : qpTrain inv xs y = some coef) :
    refuses nx nt = false ∧ ∃ B, inv ((design xs)ᵀ * design xs) = some B ∧ coef = arr (fit (fun a b => B a b) (fun t l => design xs t l) y) := by
  unfold qpTrain at h
  split_ifs at h with hr
  obtain ⟨B, hB, rfl⟩ := Option.map_eq_some_iff.1 h
  exact ⟨by simpa using hr, B, hB, rfl⟩

theorem qp_isLsq (hinv : InvOk inv) {xs : Fin nt → Fin nx → K} {y : Fin nt → K} {coef : ℕ → K} (h : qpTrain inv xs y = some coef) :
    IsLsq (quadratics K nx) xs y (qpPredict coef) := by
  obtain ⟨-, B, hB, rfl⟩ := qpTrain_eq h
  have hAB := hinv.1 _ _ hB
  have hfun : (qpPredict (arr (fit (fun a b => B a b) (fun t l => design xs t l) y)) : (Fin nx → K) → K) = fun x => quadratic nx (arr (fit (fun a b => B a b) (fun t l => design xs t l) y)) (ext x) := funext fun x => qpPredict_eq _ x
  rw [hfun]
  refine ⟨quadratic_mem _, fun q hq => ?_⟩
  obtain ⟨c, rfl⟩ := (quadratics_iff q).1 hq
  have hl := C32_least_squares (fun a b => B a b) (fun t l => design xs t l) (fun k l => by
    have := congrFun (congrFun hAB k) l
    rw [Matrix.mul_apply] at this
    simp only [Matrix.mul_apply, Matrix.transpose_apply, Matrix.one_apply] at this
    exact this) y (fun l => c l)
  unfold rss
  have e : ∀ t, ∑ l, design xs t l * fit (fun a b => B a b) (fun t l => design xs t l) y l = quadratic nx (arr (fit (fun a b => B a b) (fun t l => design xs t l) y)) (ext (xs t)) := by
    intro t
    rw [← design_dot]
    exact Finset.sum_congr rfl fun l _ => by rw [arr_fin]
  simp only [e, design_dot] at hl
  exact hl

/-- The monomials of degree at most two are independent functions. -/
theorem quadratic_zero {c : ℕ → K} (h : ∀ x : Fin nx → K, quadratic nx c (ext x) = 0) (l : Fin (nApp nx)) : c l = 0 := by
  have h0 : c 0 = 0 := by
    have := h 0
    unfold quadratic at this
    simp only [Finset.sum_range, ext_fin] at this
    have z : ∀ k, ext (0 : Fin nx → K) k = 0 := fun k => by unfold ext; split_ifs <;> rfl
    simpa [z] using this
  have hext : ∀ (s : K) (a : Fin nx) k, ext (Pi.single a s) k = if k = (a : ℕ) then s else 0 := by
    intro s a k
    unfold ext
    by_cases hk : k < nx
    · rw [dif_pos hk]
      by_cases ha : k = a
      · subst ha; simp
      · rw [if_neg ha, Pi.single_eq_of_ne]
        intro e; exact ha (by rw [← e])
    · rw [dif_neg hk, if_neg (by have := a.2; omega)]
  have h1 : ∀ (s : K) (a : Fin nx), c (1 + a) * s + c (1 + nx + a) * s ^ 2 = 0 := by
    intro s a
    have := h (Pi.single a s)
    unfold quadratic at this
    simp only [hext, h0, zero_add] at this
    have z : ∑ i ∈ Finset.range nx, ∑ j ∈ Finset.Ico (i + 1) nx, c (1 + 2 * nx + pairRank nx i j) * ((if i = (a : ℕ) then s else 0) * if j = (a : ℕ) then s else 0) = 0 := by
      refine Finset.sum_eq_zero fun i _ => Finset.sum_eq_zero fun j hj => ?_
      have := Finset.mem_Ico.1 hj
      by_cases hi : i = a
      · rw [if_neg (by omega : ¬ j = (a : ℕ))]; ring
      · rw [if_neg hi]; ring
    rw [z, add_zero] at this
    have e1 : ∑ i ∈ Finset.range nx, c (1 + i) * (if i = (a : ℕ) then s else 0) = c (1 + a) * s := by
      rw [Finset.sum_eq_single (a : ℕ)]
      · simp
      · intro b _ hb; simp [hb]
      · intro hn; exact absurd (Finset.mem_range.2 a.2) hn
    have e2 : ∑ i ∈ Finset.range nx, c (1 + nx + i) * (if i = (a : ℕ) then s else 0) ^ 2 = c (1 + nx + a) * s ^ 2 := by
      rw [Finset.sum_eq_single (a : ℕ)]
      · simp
      · intro b _ hb; simp [hb]
      · intro hn; exact absurd (Finset.mem_range.2 a.2) hn
    rw [e1, e2] at this
    exact this
  have hl : ∀ a : Fin nx, c (1 + a) = 0 := fun a => by have e1 := h1 1 a; have e2 := h1 (-1) a; linarith
  have hs : ∀ a : Fin nx, c (1 + nx + a) = 0 := fun a => by have e1 := h1 1 a; have e2 := h1 (-1) a; linarith
  have hx : ∀ a b : Fin nx, a < b → c (1 + 2 * nx + pairRank nx a b) = 0 := by
    intro a b hab
    have := h (fun k => if k = a ∨ k = b then 1 else 0)
    unfold quadratic at this
    simp only [Finset.sum_range, hl, hs, h0, zero_mul, Finset.sum_const_zero, zero_add] at this
    have hext2 : ∀ k : ℕ, ext (fun k : Fin nx => if k = a ∨ k = b then (1 : K) else 0) k = if k = (a : ℕ) ∨ k = (b : ℕ) then 1 else 0 := by
      intro k
      unfold ext
      by_cases hk : k < nx
      · rw [dif_pos hk]; simp only [Fin.ext_iff]
      · rw [dif_neg hk, if_neg (by have := a.2; have := b.2; omega)]
    simp only [hext2] at this
    have hab' : (a : ℕ) < b := hab
    rw [Finset.sum_eq_single a] at this
    · rw [Finset.sum_eq_single (b : ℕ)] at this
      · simpa using this
      · intro j hj hjb
        have := Finset.mem_Ico.1 hj
        rw [if_neg (by omega : ¬ (j = (a : ℕ) ∨ j = (b : ℕ)))]; ring
      · intro hn; exact absurd (Finset.mem_Ico.2 ⟨hab', b.2⟩) hn
    · intro i _ hia
      refine Finset.sum_eq_zero fun j hj => ?_
      have := Finset.mem_Ico.1 hj
      have hia' : (i : ℕ) ≠ a := fun e => hia (Fin.ext e)
      by_cases hib : (i : ℕ) = b
      · rw [if_neg (by omega : ¬ (j = (a : ℕ) ∨ j = (b : ℕ)))]; ring
      · rw [if_neg (by omega : ¬ ((i : ℕ) = (a : ℕ) ∨ (i : ℕ) = (b : ℕ)))]; ring
    · intro hn; exact absurd (Finset.mem_univ a) hn
  -- every column is one of these
  have hmem : (l : ℕ) ∈ (writes nx (fun _ => (0 : K))).map (·.1) := by
    rw [C32_columns]; exact List.mem_range.2 l.2
  obtain ⟨w, hw, hwl⟩ := List.mem_map.1 hmem
  rw [← hwl]
  unfold writes at hw
  simp only [List.mem_cons, List.mem_append, List.mem_map, List.mem_flatMap, List.mem_range'_1, List.mem_range] at hw
  rcases hw with rfl | (⟨i, hi, rfl⟩ | ⟨i, hi, rfl⟩) | ⟨i, hi, j, hj, rfl⟩
  · exact h0
  · have := hl ⟨i - 1, by omega⟩
    simp only at this ⊢
    rwa [show 1 + (i - 1) = i by omega] at this
  · have := hs ⟨i - (nx + 1), by omega⟩
    simp only at this ⊢
    rwa [show 1 + nx + (i - (nx + 1)) = i by omega] at this
  · have := hx ⟨i, by omega⟩ ⟨j, by omega⟩ (by show i < j; omega)
    simp only at this ⊢
    rwa [crossIdx_eq nx i j (by omega) (by omega)]

theorem gram_ker {xs : Fin nt → Fin nx → K} (v : Fin (nApp nx) → K) (h : ((design xs)ᵀ * design xs) *ᵥ v = 0) : design xs *ᵥ v = 0 := by
  have e : (design xs *ᵥ v) ⬝ᵥ (design xs *ᵥ v) = 0 := by
    have := congrArg (fun w => v ⬝ᵥ w) h
    simp only [dotProduct_zero] at this
    rw [← Matrix.mulVec_mulVec, Matrix.dotProduct_mulVec, ← Matrix.mulVec_transpose, Matrix.transpose_transpose] at this
    exact this
  funext t
  have := (Finset.sum_eq_zero_iff_of_nonneg fun t _ => mul_self_nonneg ((design xs *ᵥ v) t)).1 e t (Finset.mem_univ t)
  simpa using this

theorem unisolvent_iff (xs : Fin nt → Fin nx → K) : Unisolvent (quadratics K nx) xs ↔ ∀ v, design xs *ᵥ v = 0 → v = 0 := by
  constructor
  · intro h v hv
    have hq := h _ (quadratic_mem (arr v)) fun t => by
      show quadratic nx (arr v) (ext (xs t)) = 0
      rw [← design_dot]
      have := congrFun hv t
      simp only [Matrix.mulVec, dotProduct, Pi.zero_apply] at this
      simpa only [arr_fin] using this
    funext l
    have := quadratic_zero (fun x => congrFun hq x) l
    rwa [arr_fin] at this
  · intro h q hq hz
    obtain ⟨c, rfl⟩ := (quadratics_iff q).1 hq
    have := h (fun l => c l) (by
      funext t
      have := hz t
      simp only [Matrix.mulVec, dotProduct, Pi.zero_apply]
      rw [← this]
      exact design_dot xs c t)
    funext x
    show quadratic nx c (ext x) = 0
    rw [← row_dot]
    refine Finset.sum_eq_zero fun l _ => ?_
    rw [congrFun this l]; simp

/-! ## Theorems -/

/-- **C84** QP trains exactly when the points determine the quadratics: no polynomial of degree at most two except zero vanishes at all of them. -/
theorem C84_qp_trains (hinv : InvOk inv) (xs : Fin nt → Fin nx → K) (y : Fin nt → K) : (qpTrain inv xs y).isSome ↔ Unisolvent (quadratics K nx) xs := by
  rw [unisolvent_iff]
  constructor
  · intro h v hv
    obtain ⟨coef, hc⟩ := Option.isSome_iff_exists.1 h
    obtain ⟨-, B, hB, -⟩ := qpTrain_eq hc
    have hBA := mul_eq_one_comm.1 (hinv.1 _ _ hB)
    have : B *ᵥ (((design xs)ᵀ * design xs) *ᵥ v) = 0 := by rw [← Matrix.mulVec_mulVec, hv]; simp
    rwa [Matrix.mulVec_mulVec, hBA, Matrix.one_mulVec] at this
  · intro h
    have hnt : nApp nx ≤ nt := by
      by_contra hlt
      have := LinearMap.ker_ne_bot_of_finrank_lt (f := Matrix.mulVecLin (design xs)) (by simp; omega)
      refine this ((LinearMap.ker_eq_bot').2 fun v hv => h v ?_)
      simpa using hv
    have hr : refuses nx nt = false := by
      rw [Bool.eq_false_iff, ne_eq, C32_refuses]; omega
    have hu : IsUnit ((design xs)ᵀ * design xs).det := by
      rw [isUnit_iff_ne_zero]
      intro h0
      obtain ⟨v, hv, hv0⟩ := Matrix.exists_mulVec_eq_zero_iff.2 h0
      exact hv (h v (gram_ker v hv0))
    unfold qpTrain
    rw [if_neg (by simp [hr]), Option.isSome_map]
    exact hinv.2 _ hu

/-- **C82** QP: predictions are linear in the training outputs. -/
theorem C82_qp (hinv : InvOk inv) (xs : Fin nt → Fin nx → K) (y y' : Fin nt → K) (a b : K) {p q r : ℕ → K} (hp : qpTrain inv xs y = some p) (hq : qpTrain inv xs y' = some q)
    (hr : qpTrain inv xs (fun t => a * y t + b * y' t) = some r) (x : Fin nx → K) : qpPredict r x = a * qpPredict p x + b * qpPredict q x := by
  have hu := (C84_qp_trains hinv xs y).1 (by rw [hp]; rfl)
  exact congrFun (IsLsq.unique hu (IsLsq.comb a b (qp_isLsq hinv hp) (qp_isLsq hinv hq)) (qp_isLsq hinv hr)) x

/-- **C83** QP: the order of the training points does not matter, and neither do coordinates of the inputs: after any invertible affine change of the inputs (units, origin, rotation, shear) of
training and query points, the predictions are the same. -/
theorem C83_qp (hinv : InvOk inv) (xs : Fin nt → Fin nx → K) (y : Fin nt → K) (σ : Equiv.Perm (Fin nt)) (φ : AffMap K nx) :
    ((qpTrain inv (fun t => φ.map (xs (σ t))) fun t => y (σ t)).isSome ↔ (qpTrain inv xs y).isSome) ∧
    ∀ p q, qpTrain inv xs y = some p → qpTrain inv (fun t => φ.map (xs (σ t))) (fun t => y (σ t)) = some q → ∀ x, qpPredict q (φ.map x) = qpPredict p x := by
  have hU : ∀ (ψ : AffMap K nx) (zs : Fin nt → Fin nx → K), Unisolvent (quadratics K nx) zs → Unisolvent (quadratics K nx) fun t => ψ.map (zs t) := by
    intro ψ zs h f hf hz
    have := h _ (quadratics_comp ψ hf) hz
    funext x
    have e := congrFun this (ψ.symm.map x)
    simpa only [ψ.map_symm, Pi.zero_apply] using e
  constructor
  · rw [C84_qp_trains hinv, C84_qp_trains hinv]
    constructor
    · intro h
      have := (hU φ.symm _ h).perm σ.symm
      simpa [φ.symm_map] using this
    · intro h
      exact hU φ _ (h.perm σ)
  · intro p q hp hq x
    have hu := (C84_qp_trains hinv _ _).1 (by rw [hq]; rfl)
    have hpl := (qp_isLsq hinv hp).perm σ
    have hch := IsLsq.change (xs := fun t => xs (σ t)) (y := fun t => y (σ t)) φ.equiv (fun f hf => quadratics_comp φ hf) (p' := fun x => qpPredict p (φ.symm.map x))
      (funext fun x => congrArg (qpPredict p) (φ.symm_map x)) (quadratics_comp φ.symm hpl.1) hpl
    have e := congrFun (IsLsq.unique hu hch (qp_isLsq hinv hq)) (φ.map x)
    rw [e, φ.symm_map]

/-- **C84** QP reproduces polynomials of degree at most two: trained on values of such a polynomial it predicts the polynomial, everywhere. -/
theorem C84_qp_reproduces (hinv : InvOk inv) (xs : Fin nt → Fin nx → K) (c : K) (l : Fin nx → K) (Q : Fin nx → Fin nx → K) {p : ℕ → K}
    (hp : qpTrain inv xs (fun t => c + ∑ i, l i * xs t i + ∑ i, ∑ j, Q i j * (xs t i * xs t j)) = some p) (x : Fin nx → K) :
    qpPredict p x = c + ∑ i, l i * x i + ∑ i, ∑ j, Q i j * (x i * x j) := by
  have hu := (C84_qp_trains hinv _ _).1 (by rw [hp]; rfl)
  exact congrFun (IsLsq.unique hu (isLsq_reproduce (S := quadratics K nx) (f := fun x => c + ∑ i, l i * x i + ∑ i, ∑ j, Q i j * (x i * x j)) ⟨c, l, Q, fun _ => rfl⟩) (qp_isLsq hinv hp)) x

variable {fit : (Fin nt → Fin nx → K) → (Fin nt → K) → (Fin nx → K) × K}

theorem ls_isLsq (hf : LsOk fit) (xs : Fin nt → Fin nx → K) (y : Fin nt → K) : IsLsq (affines K nx) xs y (lsModel fit xs y) := by
  have := hf xs y
  have e : lsModel fit xs y = fun x => (fit xs y).2 + ∑ i, (fit xs y).1 i * x i := by
    funext x
    unfold lsModel lsPredict
    rw [add_comm]
    congr 1
    exact Finset.sum_congr rfl fun i _ => mul_comm _ _
  rw [e]; exact this

/-- **C82** LS: predictions are linear in the training outputs (points that determine the affine functions). -/
theorem C82_ls (hf : LsOk fit) (xs : Fin nt → Fin nx → K) (hu : Unisolvent (affines K nx) xs) (y y' : Fin nt → K) (a b : K) (x : Fin nx → K) :
    lsModel fit xs (fun t => a * y t + b * y' t) x = a * lsModel fit xs y x + b * lsModel fit xs y' x :=
  congrFun (IsLsq.unique hu (IsLsq.comb a b (ls_isLsq hf xs y) (ls_isLsq hf xs y')) (ls_isLsq hf xs _)) x

/-- **C83** LS: order of the points and coordinates of the inputs do not matter. -/
theorem C83_ls (hf : LsOk fit) (xs : Fin nt → Fin nx → K) (hu : Unisolvent (affines K nx) xs) (y : Fin nt → K) (σ : Equiv.Perm (Fin nt)) (φ : AffMap K nx) (x : Fin nx → K) :
    lsModel fit (fun t => φ.map (xs (σ t))) (fun t => y (σ t)) (φ.map x) = lsModel fit xs y x := by
  have hpl := (ls_isLsq hf xs y).perm σ
  have hu' : Unisolvent (affines K nx) fun t => φ.map (xs (σ t)) := by
    intro f hf hz
    have := hu.perm σ _ (affines_comp φ hf) hz
    funext x
    have e := congrFun this (φ.symm.map x)
    simpa only [φ.map_symm, Pi.zero_apply] using e
  have hch := IsLsq.change (xs := fun t => xs (σ t)) (y := fun t => y (σ t)) φ.equiv (fun f hf => affines_comp φ hf) (p' := fun x => lsModel fit xs y (φ.symm.map x))
    (funext fun x => congrArg (lsModel fit xs y) (φ.symm_map x)) (affines_comp φ.symm hpl.1) hpl
  have e := congrFun (IsLsq.unique hu' hch (ls_isLsq hf _ _)) (φ.map x)
  rw [e, φ.symm_map]

/-- **C84** LS reproduces affine functions. -/
theorem C84_ls (hf : LsOk fit) (xs : Fin nt → Fin nx → K) (hu : Unisolvent (affines K nx) xs) (c : K) (l : Fin nx → K) (x : Fin nx → K) :
    lsModel fit xs (fun t => c + ∑ i, l i * xs t i) x = c + ∑ i, l i * x i :=
  congrFun (IsLsq.unique hu (isLsq_reproduce (S := affines K nx) (f := fun x => c + ∑ i, l i * x i) ⟨c, l, fun _ => rfl⟩) (ls_isLsq hf xs _)) x

/-! ## The hypotheses can be met -/

/-- An exact inverse. -/
def invStd {m : ℕ} (A : Matrix (Fin m) (Fin m) ℚ) : Option (Matrix (Fin m) (Fin m) ℚ) := if A.det = 0 then none else some ((A.det)⁻¹ • A.adjugate)

theorem invStd_ok {m : ℕ} : InvOk (invStd (m := m)) := by
  constructor
  · intro A B h
    unfold invStd at h
    split_ifs at h with hd
    obtain rfl := Option.some.inj h
    rw [Matrix.mul_smul, Matrix.mul_adjugate, smul_smul, inv_mul_cancel₀ hd, one_smul]
  · intro A h
    unfold invStd
    rw [if_neg (isUnit_iff_ne_zero.1 h)]; rfl

/-- Three different points on a line determine a quadratic: QP trains on them, and predicts the square function when trained on squares. -/
example : ∃ p, qpTrain invStd (fun t : Fin 3 => fun _ : Fin 1 => ((t : ℕ) : ℚ)) (fun t => ((t : ℕ) : ℚ) ^ 2) = some p ∧ ∀ x, qpPredict p (fun _ : Fin 1 => x) = x ^ 2 := by
  have hu : Unisolvent (quadratics ℚ 1) (fun t : Fin 3 => fun _ : Fin 1 => ((t : ℕ) : ℚ)) := by
    rintro q ⟨c, l, Q, hq⟩ hz
    have h0 := hz 0
    have h1 := hz 1
    have h2 := hz 2
    rw [hq] at h0 h1 h2
    simp at h0 h1 h2
    funext x
    rw [hq]
    simp
    have e1 : Q 0 0 = 0 := by linarith
    have e2 : l 0 = 0 := by linarith
    simp [h0, e1, e2]
  obtain ⟨p, hp⟩ := Option.isSome_iff_exists.1 ((C84_qp_trains (nt := 3) (nx := 1) invStd_ok _ (fun t => ((t : ℕ) : ℚ) ^ 2)).2 hu)
  refine ⟨p, hp, fun x => ?_⟩
  have := C84_qp_reproduces (nt := 3) (nx := 1) invStd_ok (fun t => fun _ => ((t : ℕ) : ℚ)) 0 0 (fun _ _ => 1) (p := p) (by simpa [sq] using hp) (fun _ => x)
  simpa [sq] using this

/-- Two different points on a line determine an affine function, and a routine satisfying `LsOk` there exists (the chord). -/
example : Unisolvent (affines ℚ 1) (fun t : Fin 2 => fun _ : Fin 1 => ((t : ℕ) : ℚ)) := by
  rintro q ⟨c, l, hq⟩ hz
  have h0 := hz 0
  have h1 := hz 1
  rw [hq] at h0 h1
  simp at h0 h1
  funext x
  rw [hq]
  simp
  have e2 : l 0 = 0 := by linarith
  simp [h0, e2]

/-- Least-squares affine functions exist for all data, so a routine satisfying `LsOk` exists. -/
theorem ls_exists : ∃ fit : (Fin nt → Fin nx → K) → (Fin nt → K) → (Fin nx → K) × K, LsOk fit := by
  have key : ∀ (xs : Fin nt → Fin nx → K) (y : Fin nt → K), ∃ r : (Fin nx → K) × K, IsLsq (affines K nx) xs y fun x => r.2 + ∑ i, r.1 i * x i := by
    intro xs y
    set X : Matrix (Fin nt) (Option (Fin nx)) K := Matrix.of fun t o => o.elim 1 (xs t) with hX
    have hr : LinearMap.range (Xᵀ * X).mulVecLin = LinearMap.range Xᵀ.mulVecLin := by
      refine Submodule.eq_of_le_of_finrank_eq ?_ ?_
      · rw [Matrix.mulVecLin_mul]; exact LinearMap.range_comp_le_range _ _
      · show (Xᵀ * X).rank = Xᵀ.rank
        rw [Matrix.rank_transpose_mul_self, Matrix.rank_transpose]
    have hm : Xᵀ *ᵥ y ∈ LinearMap.range (Xᵀ * X).mulVecLin := by rw [hr]; exact ⟨y, rfl⟩
    obtain ⟨v, hv⟩ := hm
    refine ⟨(fun i => v (some i), v none), ?_⟩
    rw [isLsq_iff]
    refine ⟨⟨v none, fun i => v (some i), fun x => rfl⟩, ?_⟩
    rintro q ⟨c, l, hq⟩
    have hXv : ∀ t, (X *ᵥ v) t = v none + ∑ i, v (some i) * xs t i := by
      intro t
      simp only [Matrix.mulVec, dotProduct, Fintype.sum_option, hX, Matrix.of_apply, Option.elim, one_mul]
      congr 1
      exact Finset.sum_congr rfl fun i _ => mul_comm _ _
    have h1 : ∀ o, ∑ t, X t o * ((X *ᵥ v) t - y t) = 0 := by
      intro o
      have := congrFun hv o
      rw [Matrix.mulVecLin_apply, ← Matrix.mulVec_mulVec] at this
      simp only [mul_sub, Finset.sum_sub_distrib]
      rw [sub_eq_zero]
      exact this
    have e : ∀ t, ((fun x => v none + ∑ i, v (some i) * x i) (xs t) - y t) * q (xs t) = c * (X t none * ((X *ᵥ v) t - y t)) + ∑ i, l i * (X t (some i) * ((X *ᵥ v) t - y t)) := by
      intro t
      rw [hq, hXv]
      simp only [hX, Matrix.of_apply, Option.elim, one_mul]
      rw [mul_add, Finset.mul_sum]
      congr 1
      · ring
      · exact Finset.sum_congr rfl fun i _ => by ring
    rw [Finset.sum_congr rfl fun t _ => e t, Finset.sum_add_distrib, ← Finset.mul_sum, h1, Finset.sum_comm]
    simp only [← Finset.mul_sum, h1]
    simp
  choose f hf using key
  exact ⟨f, hf⟩

/-- A rotation by a right angle together with a change of origin. -/
example : AffMap ℚ 2 := ⟨!![0, -1; 1, 0], !![0, 1; -1, 0], ![1, 2], by ext i j; fin_cases i <;> fin_cases j <;> simp [Matrix.mul_apply]⟩

end SMT.Fit
