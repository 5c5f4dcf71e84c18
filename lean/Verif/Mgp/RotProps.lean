import Verif.Mgp.MargProps
import Mathlib.Data.Matrix.Basis
import Mathlib.Tactic.NoncommRing

/-!
# C77: rotations of the embedding
-/
namespace SMT.Mgp
open Matrix SMT.Common SMT.Krg
set_option linter.unusedSectionVars false
set_option linter.unusedSimpArgs false
set_option linter.unusedVariables false

variable {n nx m p q : ℕ}
variable {chol : Matrix (Fin n) (Fin n) ℝ → Option (Matrix (Fin n) (Fin n) ℝ)}
  {qr : Matrix (Fin n) (Fin p) ℝ → Matrix (Fin n) (Fin p) ℝ × Matrix (Fin p) (Fin p) ℝ}
  {qrC : Matrix (Fin nx) (Fin m) ℝ → Matrix (Fin nx) (Fin m) ℝ × Matrix (Fin m) (Fin m) ℝ}
  {trend : (Fin nx → ℝ) → Fin p → ℝ} {P : Prior} {nugget : ℝ} {noise : Fin n → ℝ} {θ : Fin (m * nx) → ℝ} {X : Fin n → Fin nx → ℝ} {y : Fin n → ℝ} {M : MGP n nx m p} {D : Data n nx p}

/-! ## Specification -/

/-- The hyper-parameters of the embedding rotated by `O` in the active subspace: component `l` becomes the combination of the components with the weights of row `l`. -/
noncomputable def rotate (O : Matrix (Fin m) (Fin m) ℝ) (θ : Fin (m * nx) → ℝ) : Fin (m * nx) → ℝ := fun g => ∑ l, O g.divNat l * θ (finProdFinEquiv (l, g.modNat))

lemma dA_rotate (O : Matrix (Fin m) (Fin m) ℝ) (θ : Fin (m * nx) → ℝ) (d : Fin nx → ℝ) : d ᵥ* embA (rotate O θ) = O *ᵥ (d ᵥ* embA θ) := by
  funext l
  rw [dA_apply]
  simp only [rotate, div_pair, mod_pair, Matrix.mulVec, dotProduct, dA_apply, Finset.mul_sum]
  rw [Finset.sum_comm]
  exact Finset.sum_congr rfl fun l' _ => Finset.sum_congr rfl fun k _ => by ring

lemma sum_sq_rotate {O : Matrix (Fin m) (Fin m) ℝ} (hO : Oᵀ * O = 1) (w : Fin m → ℝ) : ∑ l, (O *ᵥ w) l ^ 2 = ∑ l, w l ^ 2 := by
  have e : ∀ v : Fin m → ℝ, ∑ l, v l ^ 2 = v ⬝ᵥ v := fun v => Finset.sum_congr rfl fun l _ => sq _
  rw [e, e, Matrix.dotProduct_mulVec, ← Matrix.mulVec_transpose, Matrix.mulVec_mulVec, hO, Matrix.one_mulVec]

lemma kern_rotate {O : Matrix (Fin m) (Fin m) ℝ} (hO : Oᵀ * O = 1) (θ : Fin (m * nx) → ℝ) : kern (rotate O θ) = kern θ := by
  funext d
  rw [kern_eq, kern_eq, dA_rotate, sum_sq_rotate hO]

lemma kernGrad_rotate {O : Matrix (Fin m) (Fin m) ℝ} (hO : Oᵀ * O = 1) (θ : Fin (m * nx) → ℝ) (g : Fin (m * nx)) :
    kernGrad (rotate O θ) g = fun d => ∑ l, O g.divNat l * kernGrad θ (finProdFinEquiv (l, g.modNat)) d := by
  funext d
  rw [kernGrad_eq, dA_rotate, kern_rotate hO]
  simp only [kernGrad_eq, div_pair, mod_pair, Matrix.mulVec, dotProduct, Finset.mul_sum, Finset.sum_mul]
  exact Finset.sum_congr rfl fun l _ => by ring

lemma priorVal_rotate {O : Matrix (Fin m) (Fin m) ℝ} (hO : Oᵀ * O = 1) (hP : P.mean = 0) (θ : Fin (m * nx) → ℝ) : priorVal P (rotate O θ) = priorVal P θ := by
  rw [priorVal_eq, priorVal_eq, hP]
  simp only [sub_zero, ← Finset.sum_div]
  congr 2
  rw [sum_pairs, sum_pairs, Finset.sum_comm]
  conv_rhs => rw [Finset.sum_comm]
  refine Finset.sum_congr rfl fun k _ => ?_
  rw [← sum_sq_rotate hO fun l => θ (finProdFinEquiv (l, k))]
  simp [rotate, Matrix.mulVec, dotProduct]

lemma parAt_rotate {O : Matrix (Fin m) (Fin m) ℝ} (hO : Oᵀ * O = 1) (θ : Fin (m * nx) → ℝ) : parAt chol qr D (rotate O θ) = parAt chol qr D θ := by
  unfold parAt; rw [kern_rotate hO]

/-- **C77** With a prior of mean zero the objective does not see rotations (and reflections) of the embedding. -/
theorem C77_objective_invariant {O : Matrix (Fin m) (Fin m) ℝ} (hO : Oᵀ * O = 1) (hP : P.mean = 0) (θ : Fin (m * nx) → ℝ) :
    objective chol qr D P (rotate O θ) = objective chol qr D P θ := by
  unfold objective; rw [kern_rotate hO, priorVal_rotate hO hP]

/-- **C77** Neither do the predictions at points of the input space. -/
theorem C77_prediction_invariant {O : Matrix (Fin m) (Fin m) ℝ} (hO : Oᵀ * O = 1) (hM : mgpTrain chol qr qrC trend P nugget noise θ X y = some M) :
    ∃ M', mgpTrain chol qr qrC trend P nugget noise (rotate O θ) X y = some M' ∧ ∀ x : Fin nx → ℝ, M'.predictValues x = M.predictValues x := by
  have hB := (mgp_eq hM).1
  have h : (mgpTrain chol qr qrC trend P nugget noise (rotate O θ) X y).isSome := by
    unfold mgpTrain
    rw [kern_rotate hO, hB]; rfl
  obtain ⟨M', hM'⟩ := Option.isSome_iff_exists.1 h
  refine ⟨M', hM', fun x => ?_⟩
  rw [C75_value_is_kriging hM, C75_value_is_kriging hM']
  have hB' := (mgp_eq hM').1
  rw [kern_rotate hO, hB] at hB'
  rw [Option.some.inj hB']

/-- The gradient rotates with the embedding. -/
lemma gradient_rotate (hchol : CholOk chol) (hqr : QROk qr) (hF : FullRank D.F) {O : Matrix (Fin m) (Fin m) ℝ} (hO : Oᵀ * O = 1) (hP : P.mean = 0) {par : Par n p}
    (hpar : parAt chol qr D θ = some par) (hσ : par.sigma2 ≠ 0) (g : Fin (m * nx)) :
    gradient chol qr D P (rotate O θ) g = some (∑ l, O g.divNat l * (lhGrad par D.F D.yStd (dR D θ (finProdFinEquiv (l, g.modNat))) + priorGrad P θ (finProdFinEquiv (l, g.modNat)))) := by
  unfold gradient
  rw [parAt_rotate hO, hpar, Option.map_some]
  obtain ⟨C, hC, rfl⟩ := parAt_some hpar
  have hCt := hchol _ _ hC
  congr 1
  simp only [mul_add, Finset.sum_add_distrib]
  congr 1
  · unfold dR
    rw [kernGrad_rotate hO, pairMatrix_sum _ _ fun l d => kernGrad_even _ _ d, lhGrad_sum hCt (hqr _ (fullRank_fwdM hCt hF)) hσ]
  · simp only [priorGrad_eq, hP, sub_zero, rotate, Finset.mul_sum, Finset.sum_div]
    exact Finset.sum_congr rfl fun l _ => by ring

/-! ## Plane rotations -/

/-- Infinitesimal rotation in the plane of the components `a`, `b`. -/
def skew (a b : Fin m) : Matrix (Fin m) (Fin m) ℝ := Matrix.single b a 1 - Matrix.single a b 1

/-- Rotation by the angle `s` in the plane of the components `a`, `b`. -/
noncomputable def plane (a b : Fin m) (s : ℝ) : Matrix (Fin m) (Fin m) ℝ := 1 + Real.sin s • skew a b + (1 - Real.cos s) • (skew a b * skew a b)

lemma skew_trans (a b : Fin m) : (skew a b)ᵀ = -skew a b := by
  unfold skew
  rw [Matrix.transpose_sub, Matrix.transpose_single, Matrix.transpose_single]; abel

lemma skew_cube {a b : Fin m} (h : a ≠ b) : skew a b * skew a b * skew a b = -skew a b := by
  unfold skew
  simp [sub_mul, mul_sub, Matrix.single_mul_single_same, Matrix.single_mul_single_of_ne, h, h.symm]
  abel

lemma cube_alg {A : Type} [Ring A] [Algebra ℝ A] (S : A) (h3 : S * S * S = -S) (t c : ℝ) : (1 + t • -S + c • (-S * -S)) * (1 + t • S + c • (S * S)) = 1 + (2 * c - t ^ 2 - c ^ 2) • (S * S) := by
  have h4 : S * S * (S * S) = -(S * S) := by rw [← mul_assoc, h3, neg_mul]
  have h3' : S * (S * S) = -S := by rw [← mul_assoc, h3]
  have a1 : (1 + t • -S + c • (-S * -S)) * (1 + t • S + c • (S * S)) =
      1 + (2 * c - t ^ 2) • (S * S) + (c * c) • (S * S * (S * S)) + (t * c) • (S * S * S) - (t * c) • (S * (S * S)) := by
    simp only [add_mul, mul_add, one_mul, mul_one, smul_mul_assoc, mul_smul_comm, smul_neg, neg_mul, mul_neg, neg_neg, smul_smul]
    module
  rw [a1, h4, h3, h3']
  module

lemma plane_orth {a b : Fin m} (h : a ≠ b) (s : ℝ) : (plane a b s)ᵀ * plane a b s = 1 := by
  have hct : 2 * (1 - Real.cos s) - Real.sin s ^ 2 - (1 - Real.cos s) ^ 2 = 0 := by
    have := Real.sin_sq_add_cos_sq s
    nlinarith
  unfold plane
  rw [Matrix.transpose_add, Matrix.transpose_add, Matrix.transpose_one, Matrix.transpose_smul, Matrix.transpose_smul, Matrix.transpose_mul, skew_trans, cube_alg _ (skew_cube h), hct, zero_smul, add_zero]

/-- The path of rotated embeddings and its velocity at angle 0. -/
lemma plane_path (a b : Fin m) (θ : Fin (m * nx) → ℝ) : VDeriv (fun s => rotate (plane a b s) θ) (rotate (skew a b) θ) 0 := by
  intro g
  simp only [rotate]
  refine HasDerivAt.fun_sum fun l _ => ?_
  have h1 : HasDerivAt (fun s => plane a b s g.divNat l) (skew a b g.divNat l) 0 := by
    simp only [plane, Matrix.add_apply, Matrix.smul_apply, smul_eq_mul]
    have h2 := (((Real.hasDerivAt_sin 0).mul_const (skew a b g.divNat l)).const_add ((1 : Matrix (Fin m) (Fin m) ℝ) g.divNat l)).fun_add
      (((Real.hasDerivAt_cos 0).const_sub 1).mul_const ((skew a b * skew a b) g.divNat l))
    refine h2.congr_deriv ?_
    simp
  exact h1.mul_const _

lemma skew_apply (a b : Fin m) (h : a ≠ b) (θ : Fin (m * nx) → ℝ) (k : Fin nx) : rotate (skew a b) θ (finProdFinEquiv (b, k)) = θ (finProdFinEquiv (a, k)) := by
  unfold rotate skew
  simp only [div_pair, mod_pair, Matrix.sub_apply, Matrix.single_apply]
  rw [Finset.sum_eq_single a]
  · simp [h]
  · intro l _ hl; simp [h, Ne.symm hl]
  · simp

/-- At a stationary point the Hessian sends every infinitesimal rotation to zero. -/
lemma hess_null (hchol : CholOk chol) (hcc : CholComplete chol) (hqr : QROk qr) (hF : FullRank D.F) (hP : P.mean = 0) {par : Par n p} (hpar : parAt chol qr D θ = some par) (hσ : par.sigma2 ≠ 0)
    (hstat : ∀ g, gradient chol qr D P θ g = some 0) {a b : Fin m} (hab : a ≠ b) (g : Fin (m * nx)) : ∑ h, rotate (skew a b) θ h * hessEntry D P θ par g h = 0 := by
  have h0 : rotate (plane a b 0) θ = θ := by
    funext g
    simp [rotate, plane, Matrix.one_apply, pair_div_mod]
  have h1 := gradient_path (P := P) hchol hcc hqr hF (plane_path a b θ) (by rw [h0]; exact hpar) hσ g
  rw [h0] at h1
  have hz : ∀ g, lhGrad par D.F D.yStd (dR D θ g) + priorGrad P θ g = 0 := fun g => by
    have := hstat g
    unfold gradient at this
    rw [hpar, Option.map_some] at this
    exact Option.some.inj this
  have h2 : (fun s => (gradient chol qr D P (rotate (plane a b s) θ) g).getD 0) = fun _ => 0 := by
    funext s
    rw [gradient_rotate hchol hqr hF (plane_orth hab s) hP hpar hσ]
    simp [hz]
  rw [h2] at h1
  exact h1.unique (hasDerivAt_const _ _)

/-- **C77** With two or more components and a prior of mean zero, the matrix that `predict_variances` solves with is singular at every stationary point of the objective other than `theta = 0`, whatever the data. -/
theorem C77_singular (hchol : CholOk chol) (hcc : CholComplete chol) (hqr : QROk qr) (hF : FullRank D.F) (hP : P.mean = 0) {par : Par n p} (hpar : parAt chol qr D θ = some par)
    (hσ : par.sigma2 ≠ 0) (hstat : ∀ g, gradient chol qr D P θ g = some 0) (hm : 2 ≤ m) (hθ : θ ≠ 0) : (invSigmaR D P θ par).det = 0 := by
  obtain ⟨g0, hg0⟩ := Function.ne_iff.1 hθ
  obtain ⟨b, hb⟩ : ∃ b : Fin m, g0.divNat ≠ b := by
    by_cases h : g0.divNat = ⟨0, by omega⟩
    · exact ⟨⟨1, by omega⟩, by rw [h]; simp⟩
    · exact ⟨_, h⟩
  refine Matrix.exists_mulVec_eq_zero_iff.1 ⟨rotate (skew g0.divNat b) θ, ?_, ?_⟩
  · intro h
    have := congrFun h (finProdFinEquiv (b, g0.modNat))
    rw [skew_apply _ _ hb, pair_div_mod] at this
    exact hg0 this
  · funext g
    have h := hess_null hchol hcc hqr hF hP hpar hσ hstat hb g
    show ∑ h : Fin (m * nx), _ = _
    simp only [C74_inv_sigma, neg_mul, Finset.sum_neg_distrib]
    rw [Pi.zero_apply, neg_eq_zero, ← h]
    exact Finset.sum_congr rfl fun h _ => mul_comm _ _

/-- **C77** Consequently, if training has reached a stationary point exactly, `predict_variances` raises at every point of the input space. -/
theorem C77_predict_variances_raises (hM : mgpTrain chol qr qrC trend P nugget noise θ X y = some M) (hchol : CholOk chol) (hcc : CholComplete chol) (hqr : QROk qr) (hF : FullRank M.base.F) (hP : P.mean = 0)
    (hσ : M.base.par.sigma2 ≠ 0) (hstat : ∀ g, gradient chol qr M.data P θ g = some 0) (hm : 2 ≤ m) (hθ : θ ≠ 0) (x : Fin nx → ℝ) :
    M.predictVariances x = .error "LinAlgError: Matrix is singular" := by
  obtain ⟨hB, hD, -, -, -, -, -, -, -, hS⟩ := mgp_eq hM
  obtain ⟨C, hC, hpar⟩ := mgp_chol hM
  rw [predictVariances_eq, if_pos]
  rw [hS]
  refine C77_singular hchol hcc hqr (by rw [hD]; exact hF) hP ?_ hσ hstat hm hθ
  unfold parAt
  rw [hD]
  simp only [hC, Option.map_some, hpar]

end SMT.Mgp
