import Verif.Rbf.Model
import Verif.Common.Gauss
import Mathlib.Analysis.SpecialFunctions.ExpDeriv
import Mathlib.Analysis.Calculus.Deriv.Pow
import Mathlib.LinearAlgebra.Matrix.NonsingularInverse
import Mathlib.Tactic.FieldSimp

/-!
# Property C31: RBF training and prediction

`Solves` is what the dense LU solver is trusted for: it returns an exact solution of `mtx sol = rhs`.
-/
namespace SMT.Rbf
set_option linter.unusedSectionVars false
set_option linter.unusedSimpArgs false
set_option linter.unusedVariables false

variable {nt nx : ℕ}

/-! ## Specification -/

def Solves (n : ℕ) (A : ℕ → ℕ → ℝ) (b : ℕ → ℝ) (sol : ℕ → ℝ) : Prop :=
  ∀ i, i < n → ∑ j ∈ Finset.range n, A i j * sol j = b i

/-- The documented predictor: Gaussian bumps `exp(-∑ ((x - t) / d0)²)` plus a polynomial trend. -/
noncomputable def gaussians (d0 : Fin nx → ℝ) (xt : Fin nt → Fin nx → ℝ) (c : Fin nt → ℝ) (x : Fin nx → ℝ) : ℝ :=
  ∑ i, c i * Real.exp (-∑ k, ((x k - xt i k) / d0 k) ^ 2)

/-! ## Lemmas -/

theorem r2_eq (d0 x t : Fin nx → ℝ) : r2 d0 x t = ∑ k, ((x k - t k) / d0 k) ^ 2 := by
  unfold r2
  have : ∀ (l : List (Fin nx)) (a : ℝ), l.foldl (fun acc ix => acc + ((x ix - t ix) / d0 ix) ^ 2) a =
      a + (l.map fun ix => ((x ix - t ix) / d0 ix) ^ 2).sum := by
    intro l
    induction l with
    | nil => intro a; simp
    | cons i l ih => intro a; simp only [List.foldl_cons, List.map_cons, List.sum_cons]; rw [ih]; ring
  rw [this, zero_add, ← List.sum_ofFn, List.ofFn_eq_map]

theorem r2_comm (d0 x t : Fin nx → ℝ) : r2 d0 x t = r2 d0 t x := by
  rw [r2_eq, r2_eq]
  refine Finset.sum_congr rfl fun k _ => ?_
  rw [← neg_sub, neg_div, neg_sq]

theorem row_lt (deg : ℤ) (d0 : Fin nx → ℝ) (xt : Fin nt → Fin nx → ℝ) (x : Fin nx → ℝ) (i : Fin nt) :
    row deg d0 xt x i = Real.exp (-∑ k, ((x k - xt i k) / d0 k) ^ 2) := by
  unfold row; rw [dif_pos i.2, r2_eq]

theorem sum_split (f : ℕ → ℝ) (np : ℕ) : ∑ q ∈ Finset.range (nt + np), f q =
    (∑ i : Fin nt, f i) + ∑ q ∈ Finset.range np, f (nt + q) := by
  rw [Finset.sum_range_add, Finset.sum_range]

/-! ## Theorems -/

/-- **C31** The predictor for each trend. -/
theorem C31_predictor (d0 : Fin nx → ℝ) (xt : Fin nt → Fin nx → ℝ) (sol : ℕ → ℝ) (x : Fin nx → ℝ) :
    predict (-1) 0 d0 xt sol x = gaussians d0 xt (fun i => sol i) x ∧
    predict 0 1 d0 xt sol x = gaussians d0 xt (fun i => sol i) x + sol nt ∧
    predict 1 (1 + nx) d0 xt sol x = gaussians d0 xt (fun i => sol i) x + sol nt + ∑ k : Fin nx, x k * sol (nt + 1 + k) := by
  have hg : ∀ deg : ℤ, ∑ i : Fin nt, row deg d0 xt x i * sol i = gaussians d0 xt (fun i => sol i) x := by
    intro deg
    unfold gaussians
    refine Finset.sum_congr rfl fun i _ => ?_
    rw [row_lt]; ring
  unfold predict
  refine ⟨?_, ?_, ?_⟩
  · rw [sum_split, hg]; simp
  · rw [sum_split, hg]; simp [row]
  · rw [sum_split, hg, Finset.sum_range_add, Finset.sum_range_one]
    have h0 : row 1 d0 xt x (nt + 0) = 1 := by simp [row]
    rw [h0, one_mul, Nat.add_zero, ← add_assoc]
    congr 1
    rw [Finset.sum_range]
    refine Finset.sum_congr rfl fun k _ => ?_
    unfold row
    rw [dif_neg (by omega), if_neg (by omega), dif_pos (by refine ⟨rfl, by omega, by have := k.2; omega⟩)]
    have : (⟨nt + (1 + (k : ℕ)) - (nt + 1), by have := k.2; omega⟩ : Fin nx) = k := by
      apply Fin.ext; simp; omega
    rw [this, ← Nat.add_assoc]

/-- **C31** The training matrix is symmetric. -/
theorem C31_symmetric (deg : ℤ) (reg : ℝ) (d0 : Fin nx → ℝ) (xt : Fin nt → Fin nx → ℝ) (i j : ℕ) :
    mtx deg reg d0 xt i j = mtx deg reg d0 xt j i := by
  unfold mtx
  congr 1
  · by_cases hi : i < nt <;> by_cases hj : j < nt
    · rw [dif_pos hj, dif_pos hi]
      unfold row; rw [dif_pos hi, dif_pos hj, r2_comm]
    · rw [dif_neg hj, dif_pos hi, dif_pos hi]
    · rw [dif_pos hj, dif_neg hi, dif_pos hj]
    · rw [dif_neg hj, dif_neg hi, dif_neg hi, dif_neg hj]
  · by_cases h : i = j
    · subst h; rfl
    · rw [if_neg (fun e => h e.1), if_neg (fun e => h e.1.symm)]

/-- **C31** Training residual: at training point `i` the prediction differs from the data by exactly `reg` times the
trained coefficient; with `reg = 0` the model interpolates. -/
theorem C31_residual (deg : ℤ) (np : ℕ) (reg : ℝ) (d0 : Fin nx → ℝ) (xt : Fin nt → Fin nx → ℝ) (yt : Fin nt → ℝ) (sol : ℕ → ℝ)
    (hs : Solves (nt + np) (mtx deg reg d0 xt) (rhs yt) sol) (i : Fin nt) :
    predict deg np d0 xt sol (xt i) = yt i - reg * sol i := by
  have h := hs i (by have := i.2; omega)
  unfold rhs at h
  rw [dif_pos i.2] at h
  have e : ∑ j ∈ Finset.range (nt + np), mtx deg reg d0 xt i j * sol j =
      predict deg np d0 xt sol (xt i) + reg * sol i := by
    unfold predict
    have : ∀ j ∈ Finset.range (nt + np), mtx deg reg d0 xt i j * sol j =
        row deg d0 xt (xt i) j * sol j + (if j = (i : ℕ) then reg * sol i else 0) := by
      intro j _
      rw [C31_symmetric]
      unfold mtx
      rw [dif_pos i.2, add_mul]
      congr 1
      by_cases h : j = i
      · rw [if_pos ⟨h, by omega⟩, if_pos h, h]
      · rw [if_neg (fun e => h e.1), if_neg h, zero_mul]
    rw [Finset.sum_congr rfl this, Finset.sum_add_distrib, Finset.sum_ite_eq' (Finset.range (nt + np)) (i : ℕ),
      if_pos (Finset.mem_range.2 (by have := i.2; omega))]
  rw [e] at h
  linarith

/-- **C31** Trend conditions: the radial coefficients sum to zero (constant trend) and are orthogonal to the training
inputs (linear trend). -/
theorem C31_trend_orthogonality (deg : ℤ) (np : ℕ) (hnp : numPoly deg nx = some np) (reg : ℝ) (d0 : Fin nx → ℝ)
    (xt : Fin nt → Fin nx → ℝ) (yt : Fin nt → ℝ) (sol : ℕ → ℝ) (hs : Solves (nt + np) (mtx deg reg d0 xt) (rhs yt) sol) :
    (0 ≤ deg → ∑ i : Fin nt, sol i = 0) ∧ (deg = 1 → ∀ k : Fin nx, ∑ i : Fin nt, xt i k * sol i = 0) := by
  have gen : ∀ q, q < np → ∑ i : Fin nt, row deg d0 xt (xt i) (nt + q) * sol i = 0 := by
    intro q hq
    have h := hs (nt + q) (by omega)
    unfold rhs at h
    rw [dif_neg (by omega), sum_split] at h
    have h2 : ∑ p ∈ Finset.range np, mtx deg reg d0 xt (nt + q) (nt + p) * sol (nt + p) = 0 := by
      refine Finset.sum_eq_zero fun p _ => ?_
      unfold mtx
      rw [dif_neg (by omega), dif_neg (by omega), if_neg (by omega)]; simp
    rw [h2, add_zero] at h
    rw [← h]
    refine Finset.sum_congr rfl fun i _ => ?_
    unfold mtx
    rw [dif_pos i.2, if_neg (by have := i.2; omega), add_zero]
  constructor
  · intro hd
    have hp : 0 < np := by
      unfold numPoly at hnp
      split_ifs at hnp <;> simp at hnp <;> omega
    have := gen 0 hp
    rw [← this]
    refine Finset.sum_congr rfl fun i _ => ?_
    have : row deg d0 xt (xt i) (nt + 0) = 1 := by simp [row, hd]
    rw [this, one_mul]
  · intro hd k
    subst hd
    have hp : np = 1 + nx := by simpa [numPoly] using hnp.symm
    have := gen (1 + k) (by have := k.2; omega)
    rw [← this]
    refine Finset.sum_congr rfl fun i _ => ?_
    congr 1
    unfold row
    rw [dif_neg (by omega), if_neg (by omega), dif_pos (by refine ⟨rfl, by omega, by have := k.2; omega⟩)]
    congr 1
    apply Fin.ext; simp; omega

/-- **C31** Without a trend and with a positive `reg` the training system has exactly one solution, whatever the
training points (even repeated ones). -/
theorem C31_trains_uniquely (reg : ℝ) (hreg : 0 < reg) (d0 : Fin nx → ℝ) (xt : Fin nt → Fin nx → ℝ) (yt : Fin nt → ℝ) :
    ∃ sol, Solves (nt + 0) (mtx (-1) reg d0 xt) (rhs yt) sol ∧
      ∀ sol', Solves (nt + 0) (mtx (-1) reg d0 xt) (rhs yt) sol' → ∀ i, i < nt → sol' i = sol i := by
  set A : Matrix (Fin nt) (Fin nt) ℝ := fun i j => mtx (-1) reg d0 xt i j with hA
  have hAe : ∀ i j, A i j = Real.exp (-∑ k, (1 / d0 k ^ 2) * (xt i k - xt j k) ^ 2) + if i = j then reg else 0 := by
    intro i j
    show mtx (-1) reg d0 xt i j = _
    rw [C31_symmetric]
    unfold mtx
    rw [dif_pos i.2, row_lt]
    congr 1
    · congr 2
      refine Finset.sum_congr rfl fun k _ => ?_
      rw [div_pow]; ring
    · by_cases h : i = j
      · subst h; simp
      · rw [if_neg (fun e => h (Fin.ext e.1.symm)), if_neg h]
  have hpd : ∀ c : Fin nt → ℝ, A.mulVec c = 0 → c = 0 := by
    intro c hc
    have h0 : ∑ i, c i * (A.mulVec c) i = 0 := by rw [hc]; simp
    have h1 : ∑ i, c i * (A.mulVec c) i = (∑ i, ∑ j, c i * c j * Real.exp (-∑ k, (1 / d0 k ^ 2) * (xt i k - xt j k) ^ 2)) +
        reg * ∑ i, c i ^ 2 := by
      rw [Finset.mul_sum, ← Finset.sum_add_distrib]
      refine Finset.sum_congr rfl fun i _ => ?_
      simp only [Matrix.mulVec, dotProduct, hAe, add_mul, Finset.sum_add_distrib, ite_mul, zero_mul, Finset.sum_ite_eq,
        Finset.mem_univ, if_true]
      rw [mul_add, Finset.mul_sum]
      congr 1
      · refine Finset.sum_congr rfl fun j _ => ?_
        ring
      · ring
    have h2 := Common.gauss_psd xt (fun k => 1 / d0 k ^ 2) (fun k => by positivity) c
    have h3 : 0 ≤ ∑ i, c i ^ 2 := Finset.sum_nonneg fun i _ => sq_nonneg _
    have h4 : ∑ i, c i ^ 2 = 0 := by
      rw [h1] at h0
      by_contra hne
      have : 0 < ∑ i, c i ^ 2 := lt_of_le_of_ne h3 (Ne.symm hne)
      have := mul_pos hreg this
      linarith
    funext i
    have := (Finset.sum_eq_zero_iff_of_nonneg (fun i _ => sq_nonneg (c i))).1 h4 i (Finset.mem_univ i)
    simpa using this
  have hinj : Function.Injective A.mulVec := by
    intro a b hab
    have := hpd (a - b) (by rw [Matrix.mulVec_sub, hab, sub_self])
    exact sub_eq_zero.1 this
  have hunit : IsUnit A := Matrix.mulVec_injective_iff_isUnit.1 hinj
  obtain ⟨v, hv⟩ := (Matrix.mulVec_surjective_iff_isUnit.2 hunit) yt
  have conv : ∀ sol : ℕ → ℝ, Solves (nt + 0) (mtx (-1) reg d0 xt) (rhs yt) sol ↔ A.mulVec (fun i : Fin nt => sol i) = yt := by
    intro sol
    constructor
    · intro h
      funext i
      have := h i (by have := i.2; omega)
      unfold rhs at this
      rw [dif_pos i.2, Nat.add_zero, Finset.sum_range] at this
      exact this
    · intro h i hi
      have hi : i < nt := by omega
      have := congrFun h ⟨i, hi⟩
      unfold rhs
      rw [dif_pos hi, Nat.add_zero, Finset.sum_range]
      exact this
  refine ⟨fun q => if h : q < nt then v ⟨q, h⟩ else 0, ?_, ?_⟩
  · rw [conv]
    simpa using hv
  · intro sol' h i hi
    have := hinj ((conv sol').1 h |>.trans hv.symm)
    show sol' i = if h : i < nt then v ⟨i, h⟩ else 0
    rw [dif_pos hi]
    exact congrFun this ⟨i, hi⟩

/-- A square system whose homogeneous version has only the zero solution has exactly one solution. -/
theorem solves_unique (N : ℕ) (A : ℕ → ℕ → ℝ) (h0 : ∀ s, Solves N A (fun _ => 0) s → ∀ i, i < N → s i = 0) (b : ℕ → ℝ) :
    ∃ sol, Solves N A b sol ∧ ∀ sol', Solves N A b sol' → ∀ i, i < N → sol' i = sol i := by
  set M : Matrix (Fin N) (Fin N) ℝ := fun i j => A i j with hM
  have conv : ∀ (b sol : ℕ → ℝ), Solves N A b sol ↔ M.mulVec (fun i : Fin N => sol i) = fun i : Fin N => b i := by
    intro b sol
    constructor
    · intro h
      funext i
      have := h i i.2
      rw [Finset.sum_range] at this
      exact this
    · intro h i hi
      have := congrFun h ⟨i, hi⟩
      rw [Finset.sum_range]
      exact this
  have hinj : Function.Injective M.mulVec := by
    intro a c hac
    have h1 : M.mulVec (a - c) = 0 := by rw [Matrix.mulVec_sub, hac, sub_self]
    have h2 := h0 (fun q => if h : q < N then (a - c) ⟨q, h⟩ else 0) ((conv _ _).2 (by simp only [Fin.is_lt, dif_pos, Fin.eta]; exact h1))
    refine sub_eq_zero.1 (funext fun i => ?_)
    have := h2 i i.2
    simpa using this
  obtain ⟨v, hv⟩ := (Matrix.mulVec_surjective_iff_isUnit.2 (Matrix.mulVec_injective_iff_isUnit.1 hinj)) (fun i : Fin N => b i)
  refine ⟨fun q => if h : q < N then v ⟨q, h⟩ else 0, ?_, ?_⟩
  · rw [conv]
    simpa using hv
  · intro sol' h i hi
    have := hinj ((conv b sol').1 h |>.trans hv.symm)
    show sol' i = if h : i < N then v ⟨i, h⟩ else 0
    rw [dif_pos hi]
    exact congrFun this ⟨i, hi⟩

/-- No non-zero trend (constant for degree 0, affine for degree 1) vanishes at all the training points. -/
def TrendUnisolvent (deg : ℤ) (xt : Fin nt → Fin nx → ℝ) : Prop :=
  (deg = 0 → 0 < nt) ∧ (deg = 1 → ∀ (a : ℝ) (b : Fin nx → ℝ), (∀ i, a + ∑ k, b k * xt i k = 0) → a = 0 ∧ ∀ k, b k = 0)

/-- **C31** The training system has exactly one solution for every trend degree, as soon as the training points are distinct (or `reg` is positive) and determine the trend: no
regularisation is needed. -/
theorem C31_trains_uniquely_distinct (deg : ℤ) (np : ℕ) (hnp : numPoly deg nx = some np) (reg : ℝ) (d0 : Fin nx → ℝ) (xt : Fin nt → Fin nx → ℝ) (yt : Fin nt → ℝ)
    (hK : 0 < reg ∨ (0 ≤ reg ∧ Function.Injective xt ∧ ∀ k, d0 k ≠ 0)) (hT : TrendUnisolvent deg xt) :
    ∃ sol, Solves (nt + np) (mtx deg reg d0 xt) (rhs yt) sol ∧ ∀ sol', Solves (nt + np) (mtx deg reg d0 xt) (rhs yt) sol' → ∀ i, i < nt + np → sol' i = sol i := by
  refine solves_unique _ _ (fun s hs => ?_) _
  have hrow : ∀ i : Fin nt, ∀ j : Fin nt, row deg d0 xt (xt i) j = Real.exp (-∑ k, (1 / d0 k ^ 2) * (xt i k - xt j k) ^ 2) := by
    intro i j
    rw [row_lt]
    congr 2
    refine Finset.sum_congr rfl fun k _ => ?_
    rw [div_pow]; ring
  -- the equations of the training points
  have hp : ∀ i : Fin nt, ∑ j : Fin nt, row deg d0 xt (xt i) j * s j + reg * s i + ∑ q ∈ Finset.range np, row deg d0 xt (xt i) (nt + q) * s (nt + q) = 0 := by
    intro i
    have h := C31_residual deg np reg d0 xt (fun _ => 0) s (fun j hj => by
      rw [hs j hj]; unfold rhs; split_ifs <;> rfl) i
    unfold predict at h
    rw [sum_split] at h
    linarith
  -- the equations of the trend
  have ht : ∀ q, q < np → ∑ i : Fin nt, row deg d0 xt (xt i) (nt + q) * s i = 0 := by
    intro q hq
    have h := hs (nt + q) (by omega)
    rw [sum_split] at h
    have h2 : ∑ p ∈ Finset.range np, mtx deg reg d0 xt (nt + q) (nt + p) * s (nt + p) = 0 := by
      refine Finset.sum_eq_zero fun p _ => ?_
      unfold mtx
      rw [dif_neg (by omega), dif_neg (by omega), if_neg (by omega)]; simp
    rw [h2, add_zero] at h
    refine Eq.trans ?_ h
    refine Finset.sum_congr rfl fun i _ => ?_
    unfold mtx
    rw [dif_pos i.2, if_neg (by have := i.2; omega), add_zero]
  have hform : ∑ i : Fin nt, ∑ j : Fin nt, s i * s j * Real.exp (-∑ k, (1 / d0 k ^ 2) * (xt i k - xt j k) ^ 2) + reg * ∑ i : Fin nt, s i ^ 2 = 0 := by
    have h1 : ∑ i : Fin nt, s i * ∑ q ∈ Finset.range np, row deg d0 xt (xt i) (nt + q) * s (nt + q) = 0 := by
      simp only [Finset.mul_sum]
      rw [Finset.sum_comm]
      refine Finset.sum_eq_zero fun q hq => ?_
      have := ht q (Finset.mem_range.1 hq)
      calc _ = s (nt + q) * ∑ i : Fin nt, row deg d0 xt (xt i) (nt + q) * s i := by
            rw [Finset.mul_sum]; exact Finset.sum_congr rfl fun i _ => by ring
        _ = 0 := by rw [this, mul_zero]
    have h2 : ∑ i : Fin nt, s i * (∑ j : Fin nt, row deg d0 xt (xt i) j * s j + reg * s i + ∑ q ∈ Finset.range np, row deg d0 xt (xt i) (nt + q) * s (nt + q)) = 0 :=
      Finset.sum_eq_zero fun i _ => by rw [hp i, mul_zero]
    simp only [mul_add, Finset.sum_add_distrib] at h2
    rw [h1, add_zero] at h2
    rw [← h2, Finset.mul_sum]
    congr 1
    · refine Finset.sum_congr rfl fun i _ => ?_
      rw [Finset.mul_sum]
      exact Finset.sum_congr rfl fun j _ => by rw [hrow i j]; ring
    · exact Finset.sum_congr rfl fun i _ => by ring
  have hz : ∀ i : Fin nt, s i = 0 := by
    rcases hK with hreg | ⟨hreg, hinj, hd⟩
    · have h2 := Common.gauss_psd xt (fun k => 1 / d0 k ^ 2) (fun k => by positivity) fun i => s i
      have h3 : 0 ≤ ∑ i : Fin nt, s i ^ 2 := Finset.sum_nonneg fun i _ => sq_nonneg _
      have h4 : ∑ i : Fin nt, s i ^ 2 = 0 := by
        by_contra hne
        have := mul_pos hreg (lt_of_le_of_ne h3 (Ne.symm hne))
        linarith
      intro i
      have := (Finset.sum_eq_zero_iff_of_nonneg (fun i _ => sq_nonneg (s (i : Fin nt)))).1 h4 i (Finset.mem_univ i)
      simpa using this
    · by_contra hne
      push Not at hne
      obtain ⟨i, hi⟩ := hne
      have h2 := Common.gauss_pd xt hinj (fun k => 1 / d0 k ^ 2) (fun k => by have := hd k; positivity) (fun i => s i) (fun h => hi (congrFun h i))
      have h3 : 0 ≤ reg * ∑ i : Fin nt, s i ^ 2 := mul_nonneg hreg (Finset.sum_nonneg fun i _ => sq_nonneg _)
      linarith
  have htr : ∀ i : Fin nt, ∑ q ∈ Finset.range np, row deg d0 xt (xt i) (nt + q) * s (nt + q) = 0 := by
    intro i
    have := hp i
    simpa [hz] using this
  have hq0 : ∀ q, q < np → s (nt + q) = 0 := by
    unfold numPoly at hnp
    split_ifs at hnp with h1 h2 h3
    · simp at hnp; intro q hq; omega
    · simp at hnp; subst hnp; subst h2
      intro q hq
      obtain rfl : q = 0 := by omega
      have := htr ⟨0, hT.1 rfl⟩
      simpa [row] using this
    · simp at hnp; subst hnp; subst h3
      have hrow0 : ∀ i : Fin nt, row 1 d0 xt (xt i) (nt + 0) = 1 := fun i => by simp [row]
      have hrowk : ∀ (i : Fin nt) (k : Fin nx), row 1 d0 xt (xt i) (nt + (1 + k)) = xt i k := fun i k => by
        unfold row
        rw [dif_neg (by omega), if_neg (by omega), dif_pos (by refine ⟨rfl, by omega, by have := k.2; omega⟩)]
        congr 1
        apply Fin.ext; simp; omega
      have key := hT.2 rfl (s (nt + 0)) (fun k => s (nt + (1 + k))) (fun i => by
        have := htr i
        rw [Nat.add_comm 1 nx, Finset.sum_range_succ', Finset.sum_range] at this
        rw [hrow0, one_mul] at this
        rw [← this, add_comm]
        congr 1
        refine Finset.sum_congr rfl fun k _ => ?_
        rw [Nat.add_comm (k : ℕ) 1, hrowk, mul_comm])
      intro q hq
      rcases Nat.eq_zero_or_pos q with rfl | hpos
      · exact key.1
      · have := key.2 ⟨q - 1, by omega⟩
        simp only at this
        rwa [show 1 + (q - 1) = q by omega] at this
  intro i hi
  by_cases h : i < nt
  · exact hz ⟨i, h⟩
  · have := hq0 (i - nt) (by omega)
    rwa [show nt + (i - nt) = i by omega] at this

/-- Two distinct points on the line determine the linear trend: the hypotheses above hold with `reg = 0`. -/
example : TrendUnisolvent 1 (fun (i : Fin 2) (_ : Fin 1) => (i : ℝ)) ∧ Function.Injective (fun (i : Fin 2) (_ : Fin 1) => (i : ℝ)) := by
  refine ⟨⟨fun h => by simp at h, fun _ a b h => ?_⟩, fun i j h => ?_⟩
  · have h0 := h 0
    have h1 := h 1
    simp at h0 h1
    subst h0
    refine ⟨rfl, fun k => ?_⟩
    fin_cases k
    simpa using h1
  · have := congrFun h 0
    simp only at this
    exact Fin.ext (by exact_mod_cast this)

/-- **C31** Derivatives: `predict_derivatives(x, k)` is the exact partial derivative of `predict_values`. -/
theorem C31_derivative (deg : ℤ) (np : ℕ) (hnp : numPoly deg nx = some np) (d0 : Fin nx → ℝ) (xt : Fin nt → Fin nx → ℝ)
    (sol : ℕ → ℝ) (k : Fin nx) (x : Fin nx → ℝ) :
    HasDerivAt (fun u => predict deg np d0 xt sol (Function.update x k u)) (predictDeriv deg np d0 xt sol k x) (x k) := by
  unfold predict predictDeriv
  refine HasDerivAt.fun_sum fun q hq => HasDerivAt.mul_const ?_ _
  have hq : q < nt + np := Finset.mem_range.1 hq
  unfold row drow
  by_cases h1 : q < nt
  · simp only [dif_pos h1]
    have hr : HasDerivAt (fun u => r2 d0 (Function.update x k u) (xt ⟨q, h1⟩)) (2 * (x k - xt ⟨q, h1⟩ k) / d0 k ^ 2) (x k) := by
      simp only [r2_eq]
      have hsum : HasDerivAt (fun u => ∑ i, ((Function.update x k u i - xt ⟨q, h1⟩ i) / d0 i) ^ 2)
          (∑ i, if i = k then 2 * (x k - xt ⟨q, h1⟩ k) / d0 k ^ 2 else 0) (x k) := by
        refine HasDerivAt.fun_sum fun i _ => ?_
        by_cases hi : i = k
        · subst hi
          simp only [Function.update_self, if_true]
          have := (((hasDerivAt_id (x i)).sub_const (xt ⟨q, h1⟩ i)).div_const (d0 i)).fun_pow 2
          refine this.congr_deriv ?_
          simp; ring
        · simp only [Function.update_of_ne hi, if_neg hi]; exact hasDerivAt_const _ _
      simpa using hsum
    have := hr.neg.exp
    refine this.congr_deriv ?_
    show Real.exp (-r2 d0 (Function.update x k (x k)) (xt ⟨q, h1⟩)) * _ = _
    rw [Function.update_eq_self]
    ring
  · simp only [dif_neg h1]
    by_cases h2 : 0 ≤ deg ∧ q = nt
    · simp only [if_pos h2]; exact hasDerivAt_const _ _
    · simp only [if_neg h2]
      by_cases h3 : deg = 1 ∧ nt + 1 ≤ q ∧ q - (nt + 1) < nx
      · simp only [dif_pos h3]
        by_cases h4 : q = nt + 1 + k
        · rw [if_pos ⟨h3.1, h4⟩]
          have : (⟨q - (nt + 1), h3.2.2⟩ : Fin nx) = k := by apply Fin.ext; simp; omega
          simp only [this, Function.update_self]
          exact hasDerivAt_id _
        · rw [if_neg (fun e => h4 e.2)]
          have : (⟨q - (nt + 1), h3.2.2⟩ : Fin nx) ≠ k := by
            intro e; have := congrArg Fin.val e; simp at this; omega
          simp only [Function.update_of_ne this]
          exact hasDerivAt_const _ _
      · simp only [dif_neg h3]
        have : ¬(deg = 1 ∧ q = nt + 1 + k) := by
          rintro ⟨a, b⟩; exact h3 ⟨a, by omega, by have := k.2; omega⟩
        rw [if_neg this]; exact hasDerivAt_const _ _

/-- **C31** Output derivatives: with an exact inverse, the prediction is the linear combination of the training outputs
with the reported coefficients. -/
theorem C31_output_derivatives (deg : ℤ) (np : ℕ) (reg : ℝ) (d0 : Fin nx → ℝ) (xt : Fin nt → Fin nx → ℝ) (inv : ℕ → ℕ → ℝ)
    (hinv : ∀ i j, i < nt + np → j < nt + np →
      ∑ q ∈ Finset.range (nt + np), inv i q * mtx deg reg d0 xt q j = if i = j then 1 else 0)
    (yt : Fin nt → ℝ) (sol : ℕ → ℝ) (hs : Solves (nt + np) (mtx deg reg d0 xt) (rhs yt) sol) (x : Fin nx → ℝ) :
    predict deg np d0 xt sol x = ∑ j, outputDeriv deg np d0 xt inv x j * yt j := by
  have hsol : ∀ q, q < nt + np → sol q = ∑ j : Fin nt, inv q j * yt j := by
    intro q hq
    have h1 : ∑ p ∈ Finset.range (nt + np), inv q p * rhs yt p = ∑ j : Fin nt, inv q j * yt j := by
      rw [sum_split]
      have : ∑ p ∈ Finset.range np, inv q (nt + p) * rhs yt (nt + p) = 0 :=
        Finset.sum_eq_zero fun p _ => by unfold rhs; rw [dif_neg (by omega)]; simp
      rw [this, add_zero]
      refine Finset.sum_congr rfl fun j _ => ?_
      unfold rhs; rw [dif_pos j.2]
    rw [← h1]
    have h2 : ∀ p ∈ Finset.range (nt + np), inv q p * rhs yt p =
        ∑ j ∈ Finset.range (nt + np), inv q p * mtx deg reg d0 xt p j * sol j := by
      intro p hp
      rw [← hs p (Finset.mem_range.1 hp), Finset.mul_sum]
      refine Finset.sum_congr rfl fun j _ => by ring
    rw [Finset.sum_congr rfl h2, Finset.sum_comm]
    have h3 : ∀ j ∈ Finset.range (nt + np), ∑ p ∈ Finset.range (nt + np), inv q p * mtx deg reg d0 xt p j * sol j =
        if q = j then sol j else 0 := by
      intro j hj
      rw [← Finset.sum_mul, hinv q j hq (Finset.mem_range.1 hj)]
      split_ifs <;> simp
    rw [Finset.sum_congr rfl h3, Finset.sum_ite_eq, if_pos (Finset.mem_range.2 hq)]
  unfold predict outputDeriv
  simp only [Finset.sum_mul]
  rw [Finset.sum_comm]
  refine Finset.sum_congr rfl fun q hq => ?_
  rw [hsol q (Finset.mem_range.1 hq), Finset.mul_sum]
  refine Finset.sum_congr rfl fun j _ => by ring

/-- **C31** A degree other than -1, 0, 1 (accepted by the options, since `types` also matches) leaves the number of
trend terms undefined. -/
theorem C31_bad_degree (deg : ℤ) (nx : ℕ) : numPoly deg nx = none ↔ deg ≠ -1 ∧ deg ≠ 0 ∧ deg ≠ 1 := by
  unfold numPoly; split_ifs <;> simp [*]

/-! ## Non-vacuity -/

/-- One training point, no trend, `reg = 1`: the trained coefficient is half the output. -/
example : Solves (1 + 0) (mtx (nx := 1) (nt := 1) (-1) 1 (fun _ => 1) (fun _ _ => 3)) (rhs (nt := 1) fun _ => 4) (fun _ => 2) := by
  intro i hi
  have : i = 0 := by omega
  subst this
  simp [mtx, row, rhs, r2_eq]
  norm_num

/-- Two training points, constant trend: the hypotheses are met with a nonzero trend. -/
example : Solves (2 + 1) (mtx (nx := 1) (nt := 2) 0 0 (fun _ => 1) (fun i _ => (i : ℝ))) (rhs (nt := 2) fun _ => 5)
    (fun q => if q = 2 then 5 else 0) := by
  intro i hi
  have : i = 0 ∨ i = 1 ∨ i = 2 := by omega
  rcases this with rfl | rfl | rfl <;> simp [Finset.sum_range_succ, mtx, row, rhs]

end SMT.Rbf
