import Verif.Kriging.CoreProps
import Mathlib.Analysis.Calculus.Deriv.Add
import Mathlib.Analysis.Calculus.Deriv.Mul
import Mathlib.Analysis.Calculus.Deriv.Comp

/-!
# Properties C40 (no clipping), C42, C59: Kriging prediction and variance derivatives
-/
namespace SMT.Krg
open Matrix SMT.Common
set_option linter.unusedSectionVars false
set_option linter.unusedSimpArgs false
set_option linter.unusedVariables false

variable {n nx p : ℕ}

/-! ## The chain rule through the standardisation -/

theorem norm_update (M : Model n nx p) (x : Fin nx → ℝ) (k : Fin nx) (t : ℝ) :
    M.norm (Function.update x k t) = Function.update (M.norm x) k (normalise (M.xOS k) t) := by
  funext j
  unfold Model.norm
  by_cases h : j = k
  · subst h; simp
  · simp [h]

theorem normalise_deriv (os : ℝ × ℝ) (t : ℝ) : HasDerivAt (fun t => normalise os t) (1 / os.2) t := by
  unfold normalise
  exact (((hasDerivAt_id t).sub_const os.1).div_const os.2)

/-- `κ i` is the partial derivative, with respect to coordinate `k` of the standardised point, of the correlation with training
point `i`; `φ q` that of regressor `q`. -/
structure PartialAt (M : Model n nx p) (x : Fin nx → ℝ) (k : Fin nx) (κ : Fin n → ℝ) (φ : Fin p → ℝ) : Prop where
  corr : ∀ i, HasDerivAt (fun t => M.kern (Function.update (fun j => M.norm x j - M.Xn i j) k t)) (κ i) (M.norm x k - M.Xn i k)
  trend : ∀ q, HasDerivAt (fun t => M.trend (Function.update (M.norm x) k t) q) (φ q) (M.norm x k)

theorem corr_deriv {M : Model n nx p} {x : Fin nx → ℝ} {k : Fin nx} {κ : Fin n → ℝ} {φ : Fin p → ℝ} (h : PartialAt M x k κ φ) (i : Fin n) :
    HasDerivAt (fun t => M.corr (M.norm (Function.update x k t)) i) (κ i / (M.xOS k).2) (x k) := by
  have e : (fun t => M.corr (M.norm (Function.update x k t)) i) = fun t =>
      M.kern (Function.update (fun j => M.norm x j - M.Xn i j) k (normalise (M.xOS k) t - M.Xn i k)) := by
    funext t
    rw [norm_update]
    unfold Model.corr
    congr 1
    funext j
    by_cases hj : j = k
    · subst hj; simp
    · simp [hj]
  rw [e]
  refine (HasDerivAt.comp (x k) (h₂ := fun s => M.kern (Function.update (fun j => M.norm x j - M.Xn i j) k s)) (h.corr i)
    ((normalise_deriv (M.xOS k) (x k)).sub_const (M.Xn i k))).congr_deriv ?_
  ring

theorem trend_deriv {M : Model n nx p} {x : Fin nx → ℝ} {k : Fin nx} {κ : Fin n → ℝ} {φ : Fin p → ℝ} (h : PartialAt M x k κ φ) (q : Fin p) :
    HasDerivAt (fun t => M.trend (M.norm (Function.update x k t)) q) (φ q / (M.xOS k).2) (x k) := by
  have e : (fun t => M.trend (M.norm (Function.update x k t)) q) = fun t =>
      M.trend (Function.update (M.norm x) k (normalise (M.xOS k) t)) q := by
    funext t; rw [norm_update]
  rw [e]
  refine (HasDerivAt.comp (x k) (h₂ := fun s => M.trend (Function.update (M.norm x) k s) q) (h.trend q)
    (normalise_deriv (M.xOS k) (x k))).congr_deriv ?_
  ring

theorem predict_deriv {M : Model n nx p} {x : Fin nx → ℝ} {k : Fin nx} {κ : Fin n → ℝ} {φ : Fin p → ℝ} (h : PartialAt M x k κ φ) :
    HasDerivAt (fun t => M.predict (Function.update x k t)) ((φ ⬝ᵥ M.par.beta + κ ⬝ᵥ M.par.gamma) * M.yOS.2 / (M.xOS k).2) (x k) := by
  unfold Model.predict denormalise dotProduct
  simp only []
  have h1 := HasDerivAt.fun_sum (u := Finset.univ) fun q _ => (trend_deriv h q).mul_const (M.par.beta q)
  have h2 := HasDerivAt.fun_sum (u := Finset.univ) fun i _ => (corr_deriv h i).mul_const (M.par.gamma i)
  refine (((h1.fun_add h2).const_mul M.yOS.2).const_add M.yOS.1).congr_deriv ?_
  have e1 : ∑ q, φ q / (M.xOS k).2 * M.par.beta q = (∑ q, φ q * M.par.beta q) / (M.xOS k).2 := by
    rw [Finset.sum_div]; exact Finset.sum_congr rfl fun _ _ => by ring
  have e2 : ∑ i, κ i / (M.xOS k).2 * M.par.gamma i = (∑ i, κ i * M.par.gamma i) / (M.xOS k).2 := by
    rw [Finset.sum_div]; exact Finset.sum_congr rfl fun _ _ => by ring
  rw [e1, e2]; ring

/-! ## C42 -/

/-- The squared-exponential correlation of a difference vector with hyper-parameters `θ`. -/
noncomputable def sqKern (θ : Fin nx → ℝ) (dx : Fin nx → ℝ) : ℝ := Real.exp (-∑ j, θ j * dx j ^ 2)

theorem sqKern_deriv (θ dx : Fin nx → ℝ) (k : Fin nx) :
    HasDerivAt (fun t => sqKern θ (Function.update dx k t)) (-2 * θ k * (dx k * sqKern θ dx)) (dx k) :=
  (expRow_spatial θ (fun t => t ^ 2) _ dx k (sq_deriv (dx k))).congr_deriv (by unfold sqKern expRow; ring)

theorem kernOf_squarExp (lim : ℕ) (hl : 0 < lim) (θ : Fin nx → ℝ) : kernOf lim hl .squarExp θ = sqKern θ := by
  funext dx; exact (kernOf_eq lim hl θ dx).2.1

/-- The PLS kernel is the squared exponential with the combined hyper-parameters of `_predict_derivatives`. -/
theorem pls_kernel {m : ℕ} (θ : Fin m → ℝ) (coeff : Fin nx → Fin m → ℝ) (dx : Fin nx → ℝ) :
    expRow θ (compDistPLS .squarExp coeff dx) = sqKern (plsTheta θ coeff) dx := by
  unfold expRow sqKern compDistPLS plsTheta
  simp only []
  congr 2
  simp only [Finset.mul_sum, Finset.sum_mul]
  rw [Finset.sum_comm]
  exact Finset.sum_congr rfl fun j _ => Finset.sum_congr rfl fun l _ => by ring

theorem constant_partial {M : Model n nx 1} (ht : M.trend = trendConstant) {θ : Fin nx → ℝ} (hk : M.kern = sqKern θ) (x : Fin nx → ℝ) (k : Fin nx) :
    PartialAt M x k (fun i => -2 * θ k * ((M.norm x k - M.Xn i k) * M.corr (M.norm x) i)) (fun _ => 0) where
  corr i := by
    rw [hk]
    refine (sqKern_deriv θ (fun j => M.norm x j - M.Xn i j) k).congr_deriv ?_
    unfold Model.corr; rw [hk]
  trend q := by rw [ht]; exact hasDerivAt_const _ _

theorem linear_partial {M : Model n nx (nx + 1)} (ht : M.trend = trendLinear) {θ : Fin nx → ℝ} (hk : M.kern = sqKern θ) (x : Fin nx → ℝ) (k : Fin nx) :
    PartialAt M x k (fun i => -2 * θ k * ((M.norm x k - M.Xn i k) * M.corr (M.norm x) i)) (fun q => if q = k.succ then 1 else 0) where
  corr i := by
    rw [hk]
    refine (sqKern_deriv θ (fun j => M.norm x j - M.Xn i j) k).congr_deriv ?_
    unfold Model.corr; rw [hk]
  trend q := by
    rw [ht]
    refine Fin.cases ?_ (fun j => ?_) q
    · simp only [trendLinear, Fin.cons_zero]
      rw [if_neg (Fin.succ_ne_zero k).symm]
      exact hasDerivAt_const _ _
    · simp only [trendLinear, Fin.cons_succ, Fin.succ_inj]
      by_cases hj : j = k
      · subst hj; simp only [Function.update_self, if_true]; exact hasDerivAt_id _
      · simp only [Function.update_of_ne hj, if_neg hj]; exact hasDerivAt_const _ _

theorem derivSum {M : Model n nx p} (θ : ℝ) (xn : Fin nx → ℝ) (k : Fin nx) :
    ∑ i, -2 * θ * ((xn k - M.Xn i k) * M.corr xn i) * M.par.gamma i = -(2 * θ * ∑ i, ((xn k - M.Xn i k) * M.corr xn i) * M.par.gamma i) := by
  rw [Finset.mul_sum, ← Finset.sum_neg_distrib]
  exact Finset.sum_congr rfl fun _ _ => by ring

/-- **C42** Constant trend, squared-exponential kernel: `predict_derivatives` returns a number and it is the partial derivative of
`predict_values` with respect to input `k`, in the user's units. Holds for `theta = optimal_theta` (Kriging, KPLSK). -/
theorem C42_constant (M : Model n nx 1) (ht : M.trend = trendConstant) (lim : ℕ) (hl : 0 < lim) (θ : Fin nx → ℝ)
    (hk : M.kern = kernOf lim hl .squarExp θ) (x : Fin nx → ℝ) (k : Fin nx) :
    ∃ d, M.derivative .squarExp .constant θ x k = some d ∧ HasDerivAt (fun t => M.predict (Function.update x k t)) d (x k) := by
  rw [kernOf_squarExp] at hk
  refine ⟨_, rfl, (predict_deriv (constant_partial ht hk x k)).congr_deriv ?_⟩
  simp only [dotProduct, derivSum, zero_mul, Finset.sum_const_zero]
  ring

/-- **C42** Linear trend. -/
theorem C42_linear (M : Model n nx (nx + 1)) (ht : M.trend = trendLinear) (lim : ℕ) (hl : 0 < lim) (θ : Fin nx → ℝ)
    (hk : M.kern = kernOf lim hl .squarExp θ) (x : Fin nx → ℝ) (k : Fin nx) :
    ∃ d, M.derivative .squarExp .linear θ x k = some d ∧ HasDerivAt (fun t => M.predict (Function.update x k t)) d (x k) := by
  rw [kernOf_squarExp] at hk
  refine ⟨_, rfl, (predict_deriv (linear_partial ht hk x k)).congr_deriv ?_⟩
  simp only [dotProduct, derivSum, ite_mul, one_mul, zero_mul, Finset.sum_ite_eq', Finset.mem_univ, if_true]
  have hk' : 1 + k.val < nx + 1 := by omega
  rw [dif_pos hk']
  have e : (⟨1 + k.val, hk'⟩ : Fin (nx + 1)) = k.succ := Fin.ext (by simp [Nat.add_comm])
  rw [e]; ring

/-- **C42** KPLS (reduced hyper-parameters `θ`, PLS coefficients `coeff`), constant or linear trend: exact with the combined
hyper-parameters `sum(theta * coeff**2, axis=1)`. -/
theorem C42_kpls {m : ℕ} (θ : Fin m → ℝ) (coeff : Fin nx → Fin m → ℝ) (x : Fin nx → ℝ) (k : Fin nx) :
    (∀ M : Model n nx 1, M.trend = trendConstant → (∀ dx, M.kern dx = expRow θ (compDistPLS .squarExp coeff dx)) →
      ∃ d, M.derivative .squarExp .constant (plsTheta θ coeff) x k = some d ∧ HasDerivAt (fun t => M.predict (Function.update x k t)) d (x k)) ∧
    (∀ M : Model n nx (nx + 1), M.trend = trendLinear → (∀ dx, M.kern dx = expRow θ (compDistPLS .squarExp coeff dx)) →
      ∃ d, M.derivative .squarExp .linear (plsTheta θ coeff) x k = some d ∧ HasDerivAt (fun t => M.predict (Function.update x k t)) d (x k)) := by
  refine ⟨fun M ht hk => C42_constant M ht 1 one_pos _ ?_ x k, fun M ht hk => C42_linear M ht 1 one_pos _ ?_ x k⟩ <;>
    (rw [kernOf_squarExp]; funext dx; rw [hk, pls_kernel])

/-- **C42** All other combinations raise. -/
theorem C42_raises (M : Model n nx p) (c : Corr) (poly : Poly) (θ x : Fin nx → ℝ) (k : Fin nx) :
    M.derivative c poly θ x k = none ↔ c ≠ .squarExp ∨ poly = .quadratic := by
  unfold Model.derivative
  by_cases hc : c ≠ .squarExp
  · simp [hc]
  · cases poly <;> simp [hc]

/-! ## C40: the clipping is inactive -/

section psd
variable {chol : Matrix (Fin n) (Fin n) ℝ → Option (Matrix (Fin n) (Fin n) ℝ)}
  {qr : Matrix (Fin n) (Fin p) ℝ → Matrix (Fin n) (Fin p) ℝ × Matrix (Fin p) (Fin p) ℝ}
  {kern : (Fin nx → ℝ) → ℝ} {trend : (Fin nx → ℝ) → Fin p → ℝ} {nugget : ℝ} {noise : Fin n → ℝ}
  {X : Fin n → Fin nx → ℝ} {y : Fin n → ℝ} {M : Model n nx p}

theorem sqKern_even (θ : Fin nx → ℝ) (d : Fin nx → ℝ) : sqKern θ (fun q => -d q) = sqKern θ d := by simp [sqKern]
theorem sqKern_zero (θ : Fin nx → ℝ) : sqKern θ (fun _ => 0) = 1 := by simp [sqKern]

/-- `1 - rᵀR⁻¹r ≥ 0` for the squared exponential with non-negative nugget and noise. -/
theorem corr_le_one {θ : Fin nx → ℝ} (hθ : ∀ j, 0 ≤ θ j) (hnug : 0 ≤ nugget) (hnoise : ∀ i, 0 ≤ noise i) (Xn : Fin n → Fin nx → ℝ)
    (hdet : IsUnit (corrR (sqKern θ) nugget noise Xn).det) (xn : Fin nx → ℝ) (r : Fin n → ℝ)
    (hr : ∀ i, r i = sqKern θ fun j => xn j - Xn i j) :
    0 ≤ 1 - r ⬝ᵥ ((corrR (sqKern θ) nugget noise Xn)⁻¹ *ᵥ r) := by
  set R := corrR (sqKern θ) nugget noise Xn with hR
  set c := R⁻¹ *ᵥ r with hc
  have hRc : R *ᵥ c = r := by rw [hc, Matrix.mulVec_mulVec, Matrix.mul_nonsing_inv _ hdet, Matrix.one_mulVec]
  have hg := gauss_psd (Fin.cons xn Xn : Fin (n + 1) → Fin nx → ℝ) θ hθ (Fin.cons 1 fun i => -c i)
  have key : ∀ u v : Fin nx → ℝ, Real.exp (-∑ k, θ k * (u k - v k) ^ 2) = sqKern θ fun j => u j - v j := fun u v => rfl
  simp only [Fin.sum_univ_succ, Fin.cons_zero, Fin.cons_succ, key] at hg
  have e0 : sqKern θ (fun j => xn j - xn j) = 1 := by simp [sqKern]
  have e1 : ∀ i, sqKern θ (fun j => xn j - Xn i j) = r i := fun i => (hr i).symm
  have e2 : ∀ i, sqKern θ (fun j => Xn i j - xn j) = r i := fun i => by
    rw [hr i, ← sqKern_even]; congr 1; funext q; ring
  have e3 : ∀ i j, sqKern θ (fun q => Xn i q - Xn j q) = R i j - if i = j then nugget + noise i else 0 := by
    intro i j
    rw [hR, corrR_apply _ (sqKern_even θ)]
    by_cases h : i = j
    · subst h; simp [sqKern]
    · simp [h]
  simp only [e0, e1, e2, e3] at hg
  have s1 : ∑ i, ∑ j, -c i * -c j * (R i j - if i = j then nugget + noise i else 0) =
      r ⬝ᵥ c - ∑ i, c i ^ 2 * (nugget + noise i) := by
    have : ∀ i, ∑ j, -c i * -c j * (R i j - if i = j then nugget + noise i else 0) = c i * r i - c i ^ 2 * (nugget + noise i) := by
      intro i
      have hi := congrFun hRc i
      rw [Matrix.mulVec, dotProduct] at hi
      rw [← hi, Finset.mul_sum]
      simp only [mul_sub, Finset.sum_sub_distrib, mul_ite, mul_zero, Finset.sum_ite_eq, Finset.mem_univ, if_true]
      congr 1
      · exact Finset.sum_congr rfl fun j _ => by ring
      · ring
    simp only [this, Finset.sum_sub_distrib]
    congr 1
    exact Finset.sum_congr rfl fun i _ => mul_comm _ _
  have s2 : 0 ≤ ∑ i, c i ^ 2 * (nugget + noise i) := Finset.sum_nonneg fun i _ => mul_nonneg (sq_nonneg _) (add_nonneg hnug (hnoise i))
  have s3 : ∑ i, -c i * 1 * r i = -(r ⬝ᵥ c) := by
    rw [dotProduct, ← Finset.sum_neg_distrib]; exact Finset.sum_congr rfl fun i _ => by ring
  have s4 : ∑ i, 1 * -c i * r i = -(r ⬝ᵥ c) := by
    rw [dotProduct, ← Finset.sum_neg_distrib]; exact Finset.sum_congr rfl fun i _ => by ring
  rw [Finset.sum_add_distrib, s1, s3, s4] at hg
  linarith

theorem sigma2_nonneg (hM : train chol qr kern trend nugget noise X y = some M) : 0 ≤ M.par.sigma2 := by
  obtain ⟨C, hC, hX, hy, hk, ht, hFF, hOS, hP⟩ := train_eq hM
  rw [hP]
  unfold blup
  exact mul_nonneg (div_nonneg (Finset.sum_nonneg fun _ _ => sq_nonneg _) (Nat.cast_nonneg _)) (sq_nonneg _)

/-- **C40** For the squared-exponential kernel with `theta ≥ 0`, `nugget ≥ 0`, noise `≥ 0`, the computed MSE is already
non-negative: "force to zero" never changes the value, in exact arithmetic. -/
theorem C40_clip_inactive {lim : ℕ} {hl : 0 < lim} {θ : Fin nx → ℝ} (hθ : ∀ j, 0 ≤ θ j) (hnug : 0 ≤ nugget) (hnoise : ∀ i, 0 ≤ noise i)
    (hM : train chol qr (kernOf lim hl .squarExp θ) trend nugget noise X y = some M)
    (hchol : CholOk chol) (hqr : QROk qr) (hF : FullRank M.F) (x : Fin nx → ℝ) :
    let R := corrR (kernOf lim hl .squarExp θ) nugget noise M.Xn
    let r := M.corr (M.norm x)
    let v := M.Fᵀ *ᵥ (R⁻¹ *ᵥ r) - M.trend (M.norm x)
    M.variance x = M.par.sigma2 * (1 - r ⬝ᵥ (R⁻¹ *ᵥ r) + ∑ q, (v q / M.par.G q q) ^ 2) := by
  intro R r v
  rw [C41_reported hM hchol hqr hF x]
  apply max_eq_right
  obtain ⟨C, hC, hX, hy, hk, ht, hFF, hOS, hP⟩ := train_eq hM
  have hdet := (hchol _ _ hC).detR
  refine mul_nonneg (sigma2_nonneg hM) (add_nonneg ?_ (Finset.sum_nonneg fun _ _ => sq_nonneg _))
  rw [kernOf_squarExp] at hk hdet
  rw [kernOf_squarExp]
  exact corr_le_one hθ hnug hnoise M.Xn hdet (M.norm x) _ fun i => by rw [← hk]; rfl

end psd

/-! ## C59: variance derivatives -/

section vd
variable {chol : Matrix (Fin n) (Fin n) ℝ → Option (Matrix (Fin n) (Fin n) ℝ)}
  {qr : Matrix (Fin n) (Fin p) ℝ → Matrix (Fin n) (Fin p) ℝ × Matrix (Fin p) (Fin p) ℝ}
  {kern : (Fin nx → ℝ) → ℝ} {trend : (Fin nx → ℝ) → Fin p → ℝ} {nugget : ℝ} {noise : Fin n → ℝ}
  {X : Fin n → Fin nx → ℝ} {y : Fin n → ℝ} {M : Model n nx p}

/-- Derivative of a quadratic form `z(t)ᵀ S z(t)` for symmetric `S`. -/
theorem quad_deriv {m : ℕ} (S : Matrix (Fin m) (Fin m) ℝ) (hS : Sᵀ = S) (z : ℝ → Fin m → ℝ) (z' : Fin m → ℝ) (t : ℝ)
    (hz : ∀ i, HasDerivAt (fun s => z s i) (z' i) t) :
    HasDerivAt (fun s => z s ⬝ᵥ (S *ᵥ z s)) (2 * (z' ⬝ᵥ (S *ᵥ z t))) t := by
  have h2 : ∀ i, HasDerivAt (fun s => (S *ᵥ z s) i) ((S *ᵥ z') i) t := by
    intro i
    unfold Matrix.mulVec dotProduct
    exact HasDerivAt.fun_sum fun j _ => (hz j).const_mul (S i j)
  have h3 : HasDerivAt (fun s => z s ⬝ᵥ (S *ᵥ z s)) (∑ i, (z' i * (S *ᵥ z t) i + z t i * (S *ᵥ z') i)) t := by
    unfold dotProduct
    exact HasDerivAt.fun_sum fun i _ => (hz i).fun_mul (h2 i)
  refine h3.congr_deriv ?_
  rw [Finset.sum_add_distrib]
  have : z t ⬝ᵥ (S *ᵥ z') = z' ⬝ᵥ (S *ᵥ z t) := by
    rw [Matrix.dotProduct_mulVec, ← Matrix.mulVec_transpose, hS, dotProduct_comm]
  have e : ∑ i, z t i * (S *ᵥ z') i = ∑ i, z' i * (S *ᵥ z t) i := this
  rw [e]; simp only [dotProduct]; ring

/-- **C59** `predict_variance_derivatives` (one point): whenever it returns, the value is the partial derivative of the
universal-Kriging variance, in the user's units, for every kernel and trend whose Jacobians `dr`, `df` are exact. -/
theorem C59_variance_derivative (hM : train chol qr kern trend nugget noise X y = some M) (hchol : CholOk chol)
    (hqr : QROk qr) (hF : FullRank M.F) {cholp : Matrix (Fin p) (Fin p) ℝ → Option (Matrix (Fin p) (Fin p) ℝ)} (hcholp : CholOk cholp)
    (x : Fin nx → ℝ) (k : Fin nx) (dr : Fin n → ℝ) (df : Fin p → ℝ) (hp : PartialAt M x k dr df) (d : ℝ)
    (hd : M.varianceDerivative cholp x k dr df = some d) :
    HasDerivAt (fun t => ukVariance M.par.sigma2 (corrR kern nugget noise M.Xn) M.F (M.corr (M.norm (Function.update x k t)))
      (M.trend (M.norm (Function.update x k t)))) d (x k) := by
  obtain ⟨C, hC, hX, hy, hk, ht, hFF, hOS, hP⟩ := train_eq hM
  have hCh := hchol _ _ hC
  obtain ⟨-, -, -, -, -, -, -, hCC, -⟩ := blup_eq (F := M.F) (y := fun i => normalise M.yOS (y i)) (yStd := M.yOS.2) (dof := n) hCh
    (hqr _ (fullRank_fwdM hCh hF))
  rw [← hP] at hCC
  set R := corrR kern nugget noise M.Xn with hR
  have hsolve : ∀ b, bwd Cᵀ (fwd C b) = R⁻¹ *ᵥ b := fun b => by rw [chol_solve C b hCh.lower hCh.diag, hCh.mul]
  have hsolveM : bwdM Cᵀ (fwdM C M.F) = R⁻¹ * M.F := by
    rw [bwdM_eq Cᵀ _ hCh.upperT hCh.diag, fwdM_eq C _ hCh.lower hCh.diag, ← Matrix.mul_assoc, ← hCh.inv]
  have hRs : Rᵀ = R := hCh.symm
  have hRis : (R⁻¹)ᵀ = R⁻¹ := by rw [Matrix.transpose_nonsing_inv, hRs]
  unfold Model.varianceDerivative at hd
  simp only [hCC, hsolve, hsolveM, Option.map_eq_some_iff] at hd
  obtain ⟨L, hL, hd⟩ := hd
  have hLh := hcholp _ _ hL
  have hB : M.Fᵀ * (R⁻¹ * M.F) = M.Fᵀ * R⁻¹ * M.F := by rw [Matrix.mul_assoc]
  rw [chol_solve L _ hLh.lower hLh.diag, hLh.mul, hB] at hd
  set S := (M.Fᵀ * R⁻¹ * M.F)⁻¹ with hS
  have hSs : Sᵀ = S := by
    rw [hS, Matrix.transpose_nonsing_inv, Matrix.transpose_mul, Matrix.transpose_mul, hRis, Matrix.transpose_transpose, Matrix.mul_assoc]
  have hr := corr_deriv hp
  have hf := trend_deriv hp
  set sc := (M.xOS k).2 with hsc
  have q1 := quad_deriv R⁻¹ hRis (fun t => M.corr (M.norm (Function.update x k t))) (fun i => dr i / sc) (x k) hr
  have hv : ∀ q, HasDerivAt (fun t => (M.Fᵀ *ᵥ (R⁻¹ *ᵥ M.corr (M.norm (Function.update x k t))) - M.trend (M.norm (Function.update x k t))) q)
      ((M.Fᵀ *ᵥ (R⁻¹ *ᵥ fun i => dr i / sc)) q - df q / sc) (x k) := by
    intro q
    simp only [Matrix.mulVec_mulVec, Pi.sub_apply]
    refine HasDerivAt.fun_sub ?_ (hf q)
    unfold Matrix.mulVec dotProduct
    exact HasDerivAt.fun_sum fun i _ => (hr i).const_mul ((M.Fᵀ * R⁻¹) q i)
  have q2 := quad_deriv S hSs (fun t => M.Fᵀ *ᵥ (R⁻¹ *ᵥ M.corr (M.norm (Function.update x k t))) - M.trend (M.norm (Function.update x k t)))
    _ (x k) hv
  unfold ukVariance
  simp only []
  refine (((q1.const_sub 1).fun_add q2).const_mul M.par.sigma2).congr_deriv ?_
  rw [← hd]
  simp only [Function.update_eq_self]
  set r := M.corr (M.norm x) with hr0
  set f := M.trend (M.norm x) with hf0
  have hvm : ∀ b : Fin n → ℝ, b ᵥ* (R⁻¹ * M.F) = M.Fᵀ *ᵥ (R⁻¹ *ᵥ b) := by
    intro b
    rw [← Matrix.mulVec_transpose, Matrix.transpose_mul, hRis, Matrix.mulVec_mulVec]
  have hdiv : ∀ {m : ℕ} (w : Fin m → ℝ), (fun i => w i / sc) = (1 / sc) • w := by
    intro m w; funext i; simp [div_eq_inv_mul]
  rw [hvm, hvm, hdiv dr]
  have hz : (fun q => (M.Fᵀ *ᵥ (R⁻¹ *ᵥ (1 / sc) • dr)) q - df q / sc) = -((1 / sc) • (df - M.Fᵀ *ᵥ (R⁻¹ *ᵥ dr))) := by
    funext q
    simp only [Matrix.mulVec_smul, Pi.smul_apply, Pi.neg_apply, Pi.sub_apply, smul_eq_mul]
    ring
  rw [hz]
  have hn : M.Fᵀ *ᵥ (R⁻¹ *ᵥ r) - f = -(f - M.Fᵀ *ᵥ (R⁻¹ *ᵥ r)) := by abel
  rw [hn, Matrix.mulVec_neg, neg_dotProduct_neg, smul_dotProduct, smul_dotProduct, dotProduct_comm (R⁻¹ *ᵥ r) dr,
    dotProduct_comm (S *ᵥ (f - M.Fᵀ *ᵥ (R⁻¹ *ᵥ r)))]
  simp only [smul_eq_mul]
  ring

end vd

/-- **C59** Constant trend: where the reported variance is positive, the returned derivative is that of the reported variance. -/
theorem C59_reported_variance {chol : Matrix (Fin n) (Fin n) ℝ → Option (Matrix (Fin n) (Fin n) ℝ)}
    {qr : Matrix (Fin n) (Fin 1) ℝ → Matrix (Fin n) (Fin 1) ℝ × Matrix (Fin 1) (Fin 1) ℝ}
    {kern : (Fin nx → ℝ) → ℝ} {trend : (Fin nx → ℝ) → Fin 1 → ℝ} {nugget : ℝ} {noise : Fin n → ℝ}
    {X : Fin n → Fin nx → ℝ} {y : Fin n → ℝ} {M : Model n nx 1} (hM : train chol qr kern trend nugget noise X y = some M)
    (hchol : CholOk chol) (hqr : QROk qr) (hF : FullRank M.F)
    {cholp : Matrix (Fin 1) (Fin 1) ℝ → Option (Matrix (Fin 1) (Fin 1) ℝ)} (hcholp : CholOk cholp)
    (x : Fin nx → ℝ) (k : Fin nx) (dr : Fin n → ℝ) (df : Fin 1 → ℝ) (hp : PartialAt M x k dr df) (d : ℝ)
    (hd : M.varianceDerivative cholp x k dr df = some d) (hpos : 0 < M.variance x) :
    HasDerivAt (fun t => M.variance (Function.update x k t)) d (x k) := by
  have h := C59_variance_derivative hM hchol hqr hF hcholp x k dr df hp d hd
  refine h.congr_of_eventuallyEq ?_
  have hc := h.continuousAt
  have h0 : 0 < ukVariance M.par.sigma2 (corrR kern nugget noise M.Xn) M.F (M.corr (M.norm (Function.update x k (x k))))
      (M.trend (M.norm (Function.update x k (x k)))) := by
    rw [Function.update_eq_self]
    rw [C41_one_column hM hchol hqr hF x] at hpos
    rcases lt_max_iff.1 hpos with h | h
    · exact absurd h (lt_irrefl _)
    · exact h
  filter_upwards [hc.eventually (Ioi_mem_nhds h0)] with t ht
  rw [C41_one_column hM hchol hqr hF]
  exact max_eq_right (le_of_lt ht)

/-- **C59** The Jacobians the code passes are exact (hypothesis `PartialAt` of the theorems above): squared exponential,
Matérn 5/2 and 3/2 everywhere; absolute exponential away from shared coordinates; constant trend. -/
theorem C59_jacobians (M : Model n nx 1) (ht : M.trend = trendConstant) (lim : ℕ) (hl : 0 < lim) (θ x : Fin nx → ℝ) (k : Fin nx) :
    let dx := fun i j => M.norm x j - M.Xn i j
    (M.kern = kernOf lim hl .squarExp θ →
      PartialAt M x k (fun i => expDr (M.corr (M.norm x) i) ((compDistDeriv .squarExp θ (dx i)).getD 0) k) (fun _ => 0)) ∧
    (M.kern = kernOf lim hl .matern52 θ → PartialAt M x k (fun i => m52dr (M.corr (M.norm x) i) θ (dx i) k) (fun _ => 0)) ∧
    (M.kern = kernOf lim hl .matern32 θ → PartialAt M x k (fun i => m32dr (M.corr (M.norm x) i) θ (dx i) k) (fun _ => 0)) ∧
    (M.kern = kernOf lim hl .absExp θ → (∀ i, dx i k ≠ 0) →
      PartialAt M x k (fun i => expDr (M.corr (M.norm x) i) ((compDistDeriv .absExp θ (dx i)).getD 0) k) (fun _ => 0)) := by
  intro dx
  have htr : ∀ q : Fin 1, HasDerivAt (fun t => M.trend (Function.update (M.norm x) k t) q) 0 (M.norm x k) := by
    intro q; rw [ht]; exact hasDerivAt_const _ _
  refine ⟨fun hk => ⟨fun i => ?_, htr⟩, fun hk => ⟨fun i => ?_, htr⟩, fun hk => ⟨fun i => ?_, htr⟩, fun hk h0 => ⟨fun i => ?_, htr⟩⟩
  · unfold Model.corr; rw [hk, kernOf_squarExp]
    refine (sqKern_deriv θ (dx i) k).congr_deriv ?_
    simp only [expDr, compDistDeriv, Option.getD_some]
    ring
  · unfold Model.corr; rw [hk]; exact (C58_matern lim hl θ (dx i) k).1
  · unfold Model.corr; rw [hk]; exact (C58_matern lim hl θ (dx i) k).2
  · unfold Model.corr; rw [hk]
    simp only [fun t => (kernOf_eq lim hl θ t).1]
    exact (expRow_spatial θ (fun t => |t|) _ (dx i) k (der_abs (h0 i)))

/-! ## Non-vacuity: correct factorisations exist and a model trains -/

/-- QR of one column. -/
noncomputable def qr1 (A : Matrix (Fin n) (Fin 1) ℝ) : Matrix (Fin n) (Fin 1) ℝ × Matrix (Fin 1) (Fin 1) ℝ :=
  let g := √(∑ i, A i 0 ^ 2)
  (Matrix.of fun i _ => A i 0 / g, Matrix.of fun _ _ => g)

theorem qr1_ok : QROk (qr1 (n := n)) := by
  intro A hA
  have hpos : 0 < ∑ i, A i 0 ^ 2 := by
    rcases (Finset.sum_nonneg fun i _ => sq_nonneg (A i 0) : 0 ≤ ∑ i, A i 0 ^ 2).lt_or_eq with h | h
    · exact h
    · exfalso
      have h0 := (Finset.sum_eq_zero_iff_of_nonneg fun i _ => sq_nonneg (A i 0)).1 h.symm
      have := hA (fun _ => 1) (by
        funext i
        simp [Matrix.mulVec, dotProduct, pow_eq_zero_iff] at h0 ⊢
        exact h0 i)
      exact one_ne_zero (congrFun this 0)
  have hg : 0 < √(∑ i, A i 0 ^ 2) := Real.sqrt_pos.2 hpos
  refine ⟨?_, ?_, ?_, ?_⟩
  · ext i j
    have : j = 0 := Subsingleton.elim _ _
    subst this
    simp [qr1, Matrix.mul_apply]
    field_simp
  · ext i j
    have hi : i = 0 := Subsingleton.elim _ _
    have hj : j = 0 := Subsingleton.elim _ _
    subst hi; subst hj
    simp only [qr1, Matrix.mul_apply, Matrix.transpose_apply, Matrix.of_apply, Matrix.one_apply_eq]
    have : ∀ i, A i 0 / √(∑ i, A i 0 ^ 2) * (A i 0 / √(∑ i, A i 0 ^ 2)) = A i 0 ^ 2 / (∑ i, A i 0 ^ 2) := fun i => by
      rw [div_mul_div_comm, Real.mul_self_sqrt hpos.le, sq]
    rw [Finset.sum_congr rfl fun i _ => this i, ← Finset.sum_div, div_self hpos.ne']
  · intro i j h; exact absurd h (by have : i = j := Subsingleton.elim _ _; rw [this]; exact lt_irrefl _)
  · intro i; exact hg.ne'

/-- Cholesky of a 2 × 2 matrix; raises unless symmetric positive definite. -/
noncomputable def chol2 (R : Matrix (Fin 2) (Fin 2) ℝ) : Option (Matrix (Fin 2) (Fin 2) ℝ) :=
  open Classical in
  if 0 < R 0 0 ∧ R 0 1 = R 1 0 ∧ 0 < R 1 1 - R 1 0 ^ 2 / R 0 0 then
    some !![√(R 0 0), 0; R 1 0 / √(R 0 0), √(R 1 1 - R 1 0 ^ 2 / R 0 0)]
  else none

theorem chol2_ok : CholOk chol2 := by
  intro R C h
  unfold chol2 at h
  split_ifs at h with hc
  obtain ⟨h0, h1, h2⟩ := hc
  have e := Option.some.inj h
  subst e
  have g0 := Real.sqrt_pos.2 h0
  have s0 := Real.mul_self_sqrt h0.le
  have s2 := Real.mul_self_sqrt h2.le
  refine ⟨?_, ?_, ?_⟩
  · ext i j
    fin_cases i <;> fin_cases j <;> simp [Matrix.mul_apply, Fin.sum_univ_two]
    · exact s0
    · rw [mul_div_cancel₀ _ g0.ne', h1]
    · exact div_mul_cancel₀ _ g0.ne'
    · rw [s2, div_mul_div_comm, s0]; ring
  · intro i j hij
    fin_cases i <;> fin_cases j <;> simp_all
  · intro i
    fin_cases i
    · exact g0
    · exact Real.sqrt_pos.2 h2

/-- Two distinct points in one dimension, any outputs, any `theta > 0`: the model trains, so all hypotheses of the theorems above
hold together. -/
theorem trains_example (θ a b u v : ℝ) (hθ : 0 < θ) (hab : a ≠ b) :
    ∃ M : Model 2 1 1, train chol2 qr1 (kernOf 10 (by decide) .squarExp fun _ => θ) trendConstant 0 (fun _ => 0)
      (fun i _ => if i = 0 then a else b) (fun i => if i = 0 then u else v) = some M ∧ FullRank M.F ∧ CholOk chol2 ∧ QROk (qr1 (n := 2)) := by
  set X : Fin 2 → Fin 1 → ℝ := fun i _ => if i = 0 then a else b with hX
  set Xn := fun i j => normalise (scaling fun i => X i j) (X i j) with hXn
  have hne : Xn 0 0 ≠ Xn 1 0 := by
    intro h
    apply hab
    have h0 := (C38_roundtrip (fun i => X i 0) (X 0 0)).1
    have h1 := (C38_roundtrip (fun i => X i 0) (X 1 0)).1
    have : X 0 0 = X 1 0 := by
      rw [← h0, ← h1]
      exact congrArg _ h
    simpa [hX] using this
  have hk := kernOf_squarExp 10 (by decide) (fun _ : Fin 1 => θ)
  have hR : ∀ i j, corrR (kernOf 10 (by decide) .squarExp fun _ : Fin 1 => θ) 0 (fun _ => 0) Xn i j =
      if i = j then 1 else sqKern (fun _ => θ) fun q => Xn i q - Xn j q := by
    intro i j
    rw [hk, corrR_apply _ (sqKern_even _)]; simp
  have hlt : sqKern (fun _ => θ) (fun q : Fin 1 => Xn 1 q - Xn 0 q) < 1 := by
    unfold sqKern
    rw [← Real.exp_zero, Real.exp_lt_exp]
    have : 0 < (Xn 1 0 - Xn 0 0) ^ 2 := by
      have : Xn 1 0 - Xn 0 0 ≠ 0 := sub_ne_zero.2 (Ne.symm hne)
      positivity
    simp only [Fin.sum_univ_one]
    nlinarith
  have hp : 0 < sqKern (fun _ => θ) (fun q : Fin 1 => Xn 1 q - Xn 0 q) := Real.exp_pos _
  have hch : ∃ C, chol2 (corrR (kernOf 10 (by decide) .squarExp fun _ : Fin 1 => θ) 0 (fun _ => 0) Xn) = some C := by
    unfold chol2
    rw [if_pos]
    · exact ⟨_, rfl⟩
    · simp only [hR]
      refine ⟨by norm_num, ?_, ?_⟩
      · simp only [Fin.isValue, zero_ne_one, one_ne_zero, if_false]
        rw [← sqKern_even]; congr 1; funext q; ring
      · simp only [Fin.isValue, one_ne_zero, if_false, if_true, div_one]
        nlinarith
  obtain ⟨C, hC⟩ := hch
  have htr : ∃ M : Model 2 1 1, train chol2 qr1 (kernOf 10 (by decide) .squarExp fun _ => θ) trendConstant 0 (fun _ => 0)
      X (fun i => if i = 0 then u else v) = some M := by
    unfold train; simp only []; rw [hC]; exact ⟨_, rfl⟩
  obtain ⟨M, hM⟩ := htr
  obtain ⟨C, -, -, -, -, -, hFF, -, -⟩ := train_eq hM
  refine ⟨M, hM, ?_, chol2_ok, qr1_ok⟩
  · rw [hFF]
    intro w hw
    have := congrFun hw 0
    funext q
    have hq : q = 0 := Subsingleton.elim _ _
    subst hq
    simpa [Matrix.mulVec, dotProduct, trendConstant] using this

end SMT.Krg
