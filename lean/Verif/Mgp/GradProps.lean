import Verif.Mgp.Model
import Verif.Kriging.LikelihoodProps
import Verif.Kriging.Definite
import Verif.Kriging.Oracles
import Mathlib.Algebra.BigOperators.Field
import Mathlib.Analysis.SpecialFunctions.ExpDeriv

/-!
# C74: the MGP objective, its gradient and its Hessian; the active-subspace kernel
-/
namespace SMT.Mgp
open Matrix SMT.Common SMT.Krg
set_option linter.unusedSectionVars false
set_option linter.unusedSimpArgs false
set_option linter.unusedVariables false

variable {n nx m p q : ℕ}

/-! ## Specification -/

/-- Squared distance in the active subspace: `|Aᵀ d|²`, with `A[k, l] = theta[l * nx + k]`. -/
noncomputable def activeSq (θ : Fin (m * nx) → ℝ) (d : Fin nx → ℝ) : ℝ := ∑ l : Fin m, (∑ k : Fin nx, θ ⟨l * nx + k, by
  have := l.isLt; have := k.isLt
  calc l.val * nx + k.val < l.val * nx + nx := by omega
    _ = (l.val + 1) * nx := by ring
    _ ≤ m * nx := Nat.mul_le_mul_right _ (by omega)⟩ * d k) ^ 2

/-! ## Indices -/

@[simp] lemma div_pair (l : Fin m) (k : Fin nx) : (finProdFinEquiv (l, k)).divNat = l := congrArg Prod.fst (finProdFinEquiv.symm_apply_apply (l, k))
@[simp] lemma mod_pair (l : Fin m) (k : Fin nx) : (finProdFinEquiv (l, k)).modNat = k := congrArg Prod.snd (finProdFinEquiv.symm_apply_apply (l, k))
lemma pair_div_mod (g : Fin (m * nx)) : finProdFinEquiv (g.divNat, g.modNat) = g := finProdFinEquiv.apply_symm_apply g

lemma sum_pairs (f : Fin (m * nx) → ℝ) : ∑ g, f g = ∑ l : Fin m, ∑ k : Fin nx, f (finProdFinEquiv (l, k)) := by
  rw [← Equiv.sum_comp finProdFinEquiv, Fintype.sum_prod_type]

/-- `d · A`, component `l`. -/
lemma dA_apply (θ : Fin (m * nx) → ℝ) (d : Fin nx → ℝ) (l : Fin m) : (d ᵥ* embA θ) l = ∑ k, d k * θ (finProdFinEquiv (l, k)) := rfl

/-- **C74** The kernel value: a Gaussian of the distance in the active subspace. -/
theorem C74_kernel (θ : Fin (m * nx) → ℝ) (d : Fin nx → ℝ) : kern θ d = Real.exp (-activeSq θ d / 2) := by
  unfold kern actExpRow activeSq
  simp only []
  congr 1
  rw [neg_div, neg_mul, one_div, inv_mul_eq_div]
  congr 2
  refine Finset.sum_congr rfl fun l _ => ?_
  rw [dA_apply]
  congr 1
  refine Finset.sum_congr rfl fun k _ => ?_
  rw [mul_comm]
  congr 2
  ext
  simp [finProdFinEquiv]
  ring

lemma dA_neg (θ : Fin (m * nx) → ℝ) (d : Fin nx → ℝ) : (fun q => -d q) ᵥ* embA θ = fun l => -(d ᵥ* embA θ) l := by
  funext l
  rw [dA_apply, dA_apply, ← Finset.sum_neg_distrib]
  exact Finset.sum_congr rfl fun k _ => by ring

lemma kern_even (θ : Fin (m * nx) → ℝ) (d : Fin nx → ℝ) : kern θ (fun q => -d q) = kern θ d := by
  unfold kern actExpRow
  simp only [dA_neg, neg_sq]

lemma kernGrad_even (θ : Fin (m * nx) → ℝ) (g : Fin (m * nx)) (d : Fin nx → ℝ) : kernGrad θ g (fun q => -d q) = kernGrad θ g d := by
  unfold kernGrad actExpRow
  simp only [dA_neg, neg_sq]
  ring

lemma kernHess_even (θ : Fin (m * nx) → ℝ) (g h : Fin (m * nx)) (d : Fin nx → ℝ) : kernHess θ g h (fun q => -d q) = kernHess θ g h d := by
  unfold kernHess actExpRow
  simp only [dA_neg, neg_sq]
  split_ifs <;> ring

lemma kern_zero (θ : Fin (m * nx) → ℝ) : kern θ (fun _ => 0) = 1 := by
  rw [C74_kernel]; simp [activeSq]

lemma kern_eq (θ : Fin (m * nx) → ℝ) (d : Fin nx → ℝ) : kern θ d = Real.exp (-(1 / 2) * ∑ l, (d ᵥ* embA θ) l ^ 2) := rfl
lemma kernGrad_eq (θ : Fin (m * nx) → ℝ) (g : Fin (m * nx)) (d : Fin nx → ℝ) : kernGrad θ g d = -d g.modNat * (d ᵥ* embA θ) g.divNat * kern θ d := rfl
lemma kernHess_eq (θ : Fin (m * nx) → ℝ) (g h : Fin (m * nx)) (d : Fin nx → ℝ) :
    kernHess θ g h d = -d g.modNat * d h.modNat * ((if h.divNat = g.divNat then 1 else 0) - (d ᵥ* embA θ) g.divNat * (d ᵥ* embA θ) h.divNat) * kern θ d := by
  unfold kernHess kern actExpRow
  simp only []
  split_ifs <;> ring

lemma kernHess_symm (θ : Fin (m * nx) → ℝ) (g h : Fin (m * nx)) (d : Fin nx → ℝ) : kernHess θ g h d = kernHess θ h g d := by
  rw [kernHess_eq, kernHess_eq]
  by_cases e : h.divNat = g.divNat
  · rw [if_pos e, if_pos e.symm]; ring
  · rw [if_neg e, if_neg (Ne.symm e)]; ring

/-! ## Derivatives along paths of hyper-parameters -/

section path
variable {θ : ℝ → Fin (m * nx) → ℝ} {v : Fin (m * nx) → ℝ} {t : ℝ}

lemma dA_deriv (hθ : VDeriv θ v t) (d : Fin nx → ℝ) (l : Fin m) : HasDerivAt (fun s => (d ᵥ* embA (θ s)) l) (∑ k, d k * v (finProdFinEquiv (l, k))) t := by
  simp only [dA_apply]
  exact HasDerivAt.fun_sum fun k _ => (hθ _).const_mul (d k)

lemma kern_path (hθ : VDeriv θ v t) (d : Fin nx → ℝ) : HasDerivAt (fun s => kern (θ s) d) (∑ h, v h * kernGrad (θ t) h d) t := by
  have h1 := ((HasDerivAt.fun_sum (u := Finset.univ) fun l _ => (dA_deriv hθ d l).fun_pow 2).const_mul (-(1 / 2))).exp
  simp only [kern_eq]
  refine h1.congr_deriv ?_
  rw [sum_pairs]
  simp only [kernGrad_eq, div_pair, mod_pair, kern_eq, Finset.mul_sum]
  refine Finset.sum_congr rfl fun l _ => Finset.sum_congr rfl fun k _ => ?_
  push_cast
  ring

lemma kernGrad_path (hθ : VDeriv θ v t) (g : Fin (m * nx)) (d : Fin nx → ℝ) : HasDerivAt (fun s => kernGrad (θ s) g d) (∑ h, v h * kernHess (θ t) g h d) t := by
  have h1 := ((dA_deriv hθ d g.divNat).const_mul (-d g.modNat)).fun_mul (kern_path hθ d)
  simp only [kernGrad_eq]
  refine h1.congr_deriv ?_
  simp only [kernHess_eq, kernGrad_eq]
  have e : ∑ k, d k * v (finProdFinEquiv (g.divNat, k)) = ∑ h, v h * (d h.modNat * if h.divNat = g.divNat then 1 else 0) := by
    rw [sum_pairs]
    simp only [div_pair, mod_pair]
    rw [Finset.sum_eq_single g.divNat]
    · exact Finset.sum_congr rfl fun k _ => by rw [if_pos rfl]; ring
    · intro l _ hl
      exact Finset.sum_eq_zero fun k _ => by rw [if_neg hl]; ring
    · simp
  rw [e, Finset.mul_sum, Finset.sum_mul, Finset.mul_sum, ← Finset.sum_add_distrib]
  refine Finset.sum_congr rfl fun h _ => ?_
  ring

end path

lemma update_path (θ : Fin (m * nx) → ℝ) (g : Fin (m * nx)) : VDeriv (fun s => Function.update θ g s) (Pi.single g 1) (θ g) := by
  intro i
  by_cases h : i = g
  · subst h; simpa using hasDerivAt_id' (θ i)
  · simpa [h] using hasDerivAt_const (θ g) (θ i)

/-- **C74** First and second derivatives of the kernel with respect to the entries of `theta`. -/
theorem C74_kernel_derivatives (θ : Fin (m * nx) → ℝ) (g h : Fin (m * nx)) (d : Fin nx → ℝ) :
    HasDerivAt (fun s => kern (Function.update θ g s) d) (kernGrad θ g d) (θ g) ∧
    HasDerivAt (fun s => kernGrad (Function.update θ h s) g d) (kernHess θ g h d) (θ h) := by
  constructor
  · have := kern_path (update_path θ g) d
    simpa [Function.update_eq_self, Pi.single_apply] using this
  · have := kernGrad_path (update_path θ h) g d
    simpa [Function.update_eq_self, Pi.single_apply] using this

/-! ## The prior -/

lemma priorVal_eq {N : ℕ} (P : Prior) (θ : Fin N → ℝ) : priorVal P θ = -(∑ i, (θ i - P.mean) ^ 2 / P.var) := by
  unfold priorVal
  simp only [dotProduct, Matrix.mulVec, Matrix.of_apply, ite_mul, zero_mul, Finset.sum_ite_eq, Finset.mem_univ, if_true]
  congr 1
  exact Finset.sum_congr rfl fun i _ => by ring

lemma priorGrad_eq {N : ℕ} (P : Prior) (θ : Fin N → ℝ) (g : Fin N) : priorGrad P θ g = -2 * (θ g - P.mean) / P.var := by
  unfold priorGrad; simp; ring

lemma priorHess_eq {N : ℕ} (P : Prior) (g : Fin N) : priorHess P g = -2 / P.var := by
  unfold priorHess; simp; ring

lemma prior_path {N : ℕ} (P : Prior) {θ : ℝ → Fin N → ℝ} {v : Fin N → ℝ} {t : ℝ} (hθ : VDeriv θ v t) :
    HasDerivAt (fun s => priorVal P (θ s)) (∑ g, v g * priorGrad P (θ t) g) t := by
  simp only [priorVal_eq, priorGrad_eq]
  refine (HasDerivAt.fun_sum (u := Finset.univ) fun i _ => (((hθ i).sub_const P.mean).fun_pow 2).div_const P.var).fun_neg.congr_deriv ?_
  rw [← Finset.sum_neg_distrib]
  exact Finset.sum_congr rfl fun i _ => by push_cast; ring

/-- **C74** The prior term is twice the logarithm of an isotropic Gaussian density with the configured mean and variance, up to a constant. -/
theorem C74_prior {N : ℕ} (P : Prior) (hv : 0 < P.var) (θ : Fin N → ℝ) :
    priorVal P θ = 2 * Real.log (∏ i, Real.exp (-(θ i - P.mean) ^ 2 / (2 * P.var))) := by
  rw [priorVal_eq, Real.log_prod (fun i _ => (Real.exp_pos _).ne'), Finset.mul_sum, ← Finset.sum_neg_distrib]
  refine Finset.sum_congr rfl fun i _ => ?_
  rw [Real.log_exp]
  field_simp

/-! ## Linearity of the gradient and of the Hessian in the derivatives of the correlation matrix -/

section lin
variable {R C : Matrix (Fin n) (Fin n) ℝ} {F : Matrix (Fin n) (Fin p) ℝ} {y : Fin n → ℝ} {yStd dof : ℝ}
  {qr : Matrix (Fin n) (Fin p) ℝ → Matrix (Fin n) (Fin p) ℝ × Matrix (Fin p) (Fin p) ℝ} {ι : Type} [Fintype ι]

lemma sum_smul_mulVec (v : ι → ℝ) (E : ι → Matrix (Fin n) (Fin n) ℝ) (w : Fin n → ℝ) : (∑ h, v h • E h) *ᵥ w = ∑ h, v h • (E h *ᵥ w) := by
  rw [Matrix.sum_mulVec]; exact Finset.sum_congr rfl fun h _ => Matrix.smul_mulVec _ _ _

lemma lhGrad_sum (hC : IsChol R C) (hqr : IsQR (fwdM C F) (qr (fwdM C F)).1 (qr (fwdM C F)).2) (hσ : (blup C qr F y yStd dof).sigma2 ≠ 0) (v : ι → ℝ)
    (E : ι → Matrix (Fin n) (Fin n) ℝ) : lhGrad (blup C qr F y yStd dof) F yStd (∑ h, v h • E h) = ∑ h, v h * lhGrad (blup C qr F y yStd dof) F yStd (E h) := by
  simp only [lhGrad_eq hC hqr hσ, sum_smul_mulVec, dotProduct_sum, dotProduct_smul, Matrix.mul_sum, Matrix.mul_smul, Matrix.trace_sum, Matrix.trace_smul, smul_eq_mul]
  rw [Finset.mul_sum, Finset.sum_div, Finset.sum_div, ← Finset.sum_sub_distrib]
  exact Finset.sum_congr rfl fun h _ => by ring

lemma trans_sum (v : ι → ℝ) (E : ι → Matrix (Fin n) (Fin n) ℝ) (hE : ∀ h, (E h)ᵀ = E h) : (∑ h, v h • E h)ᵀ = ∑ h, v h • E h := by
  rw [Matrix.transpose_sum]; exact Finset.sum_congr rfl fun h _ => by rw [Matrix.transpose_smul, hE]

lemma lhHess_sum (hC : IsChol R C) (hqr : IsQR (fwdM C F) (qr (fwdM C F)).1 (qr (fwdM C F)).2) (hσ : (blup C qr F y yStd n).sigma2 ≠ 0) (v : ι → ℝ)
    {dRo : Matrix (Fin n) (Fin n) ℝ} (ho : dRoᵀ = dRo) (E D : ι → Matrix (Fin n) (Fin n) ℝ) (hE : ∀ h, (E h)ᵀ = E h) :
    lhHess (blup C qr F y yStd n) F yStd dRo (∑ h, v h • E h) (∑ h, v h • D h) = ∑ h, v h * lhHess (blup C qr F y yStd n) F yStd dRo (E h) (D h) := by
  have h1 : ∀ h, lhHess (blup C qr F y yStd n) F yStd dRo (E h) (D h) = _ := fun h => lhHess_eq hC hqr hσ ho (hE h)
  simp only [h1]
  rw [lhHess_eq hC hqr hσ ho (trans_sum v E hE)]
  simp only [sum_smul_mulVec]
  set γ := glsGamma R F y
  set W := wss R F y (glsBeta R F y)
  -- the derivative of γ is linear
  let g' : Matrix (Fin n) (Fin n) ℝ → Fin n → ℝ := fun A => -(R⁻¹ *ᵥ (A *ᵥ γ)) - R⁻¹ *ᵥ (F *ᵥ (-((Fᵀ * R⁻¹ * F)⁻¹ *ᵥ (Fᵀ *ᵥ (R⁻¹ *ᵥ (A *ᵥ γ))))))
  have hg : -(R⁻¹ *ᵥ (∑ h, v h • (E h *ᵥ γ))) - R⁻¹ *ᵥ (F *ᵥ (-((Fᵀ * R⁻¹ * F)⁻¹ *ᵥ (Fᵀ *ᵥ (R⁻¹ *ᵥ (∑ h, v h • (E h *ᵥ γ))))))) = ∑ h, v h • g' (E h) := by
    simp only [Matrix.mulVec_sum, Matrix.mulVec_smul, Matrix.mulVec_neg, ← Finset.sum_neg_distrib, ← Finset.sum_sub_distrib, g']
    refine Finset.sum_congr rfl fun h _ => ?_
    rw [smul_sub, smul_neg, smul_neg]
  rw [hg]
  show _ = ∑ h, v h * ((n / Real.log 10 * (g' (E h) ⬝ᵥ (dRo *ᵥ γ) + γ ⬝ᵥ (D h *ᵥ γ + dRo *ᵥ g' (E h))) * W - n / Real.log 10 * (γ ⬝ᵥ (dRo *ᵥ γ)) * (-(γ ⬝ᵥ (E h *ᵥ γ)))) / W ^ 2 -
        (-(R⁻¹ * E h * R⁻¹) * dRo + R⁻¹ * D h).trace / Real.log 10)
  have e1 : (∑ h, v h • g' (E h)) ⬝ᵥ (dRo *ᵥ γ) = ∑ h, v h * (g' (E h) ⬝ᵥ (dRo *ᵥ γ)) := by
    rw [sum_dotProduct]; exact Finset.sum_congr rfl fun h _ => by rw [smul_dotProduct, smul_eq_mul]
  have e2 : γ ⬝ᵥ (∑ h, v h • (D h *ᵥ γ) + dRo *ᵥ ∑ h, v h • g' (E h)) = ∑ h, v h * (γ ⬝ᵥ (D h *ᵥ γ + dRo *ᵥ g' (E h))) := by
    rw [dotProduct_add, dotProduct_sum, Matrix.mulVec_sum, dotProduct_sum, ← Finset.sum_add_distrib]
    exact Finset.sum_congr rfl fun h _ => by rw [dotProduct_smul, Matrix.mulVec_smul, dotProduct_smul, dotProduct_add, smul_eq_mul, smul_eq_mul]; ring
  have e3 : γ ⬝ᵥ (∑ h, v h • (E h *ᵥ γ)) = ∑ h, v h * (γ ⬝ᵥ (E h *ᵥ γ)) := by
    rw [dotProduct_sum]; exact Finset.sum_congr rfl fun h _ => by rw [dotProduct_smul, smul_eq_mul]
  have e4 : (-(R⁻¹ * (∑ h, v h • E h) * R⁻¹) * dRo + R⁻¹ * ∑ h, v h • D h).trace = ∑ h, v h * (-(R⁻¹ * E h * R⁻¹) * dRo + R⁻¹ * D h).trace := by
    rw [Matrix.mul_sum, Matrix.mul_sum, Matrix.sum_mul, ← Finset.sum_neg_distrib, Matrix.sum_mul, ← Finset.sum_add_distrib, Matrix.trace_sum]
    refine Finset.sum_congr rfl fun h _ => ?_
    have e5 : -(R⁻¹ * v h • E h * R⁻¹) * dRo + R⁻¹ * v h • D h = v h • (-(R⁻¹ * E h * R⁻¹) * dRo + R⁻¹ * D h) := by
      simp [Matrix.mul_smul, Matrix.smul_mul, smul_add]
    rw [e5, Matrix.trace_smul, smul_eq_mul]
  rw [e1, e2, e3, e4]
  simp only [← Finset.sum_add_distrib, ← Finset.sum_neg_distrib, Finset.mul_sum, Finset.sum_mul, Finset.sum_div, ← Finset.sum_sub_distrib]
  exact Finset.sum_congr rfl fun h _ => by ring

/-- The Hessian entry is symmetric in the two directions. -/
lemma lhHess_symm (P : Par n p) (F : Matrix (Fin n) (Fin p) ℝ) (yStd : ℝ) (dRo dRe dRR : Matrix (Fin n) (Fin n) ℝ) :
    lhHess P F yStd dRo dRe dRR = lhHess P F yStd dRe dRo dRR := by
  unfold lhHess
  simp only []
  rw [Matrix.trace_mul_comm (lhTr P dRe) (lhTr P dRo)]
  have e : dRe *ᵥ bwd P.Cᵀ (fwd P.C (lhDmu P F dRo)) + dRo *ᵥ bwd P.Cᵀ (fwd P.C (lhDmu P F dRe)) + dRe *ᵥ bwd P.Cᵀ (lhArg P dRo) + dRo *ᵥ bwd P.Cᵀ (lhArg P dRe) - dRR *ᵥ P.gamma =
      dRo *ᵥ bwd P.Cᵀ (fwd P.C (lhDmu P F dRe)) + dRe *ᵥ bwd P.Cᵀ (fwd P.C (lhDmu P F dRo)) + dRo *ᵥ bwd P.Cᵀ (lhArg P dRe) + dRe *ᵥ bwd P.Cᵀ (lhArg P dRo) - dRR *ᵥ P.gamma := by abel
  have e2 : -(dRR *ᵥ P.gamma) + dRe *ᵥ bwd P.Cᵀ (lhArg P dRo) + dRo *ᵥ bwd P.Cᵀ (lhArg P dRe) = -(dRR *ᵥ P.gamma) + dRo *ᵥ bwd P.Cᵀ (lhArg P dRe) + dRe *ᵥ bwd P.Cᵀ (lhArg P dRo) := by abel
  rw [e, e2]
  ring

end lin

lemma pairMatrix_apply (k : (Fin nx → ℝ) → ℝ) (hk : ∀ d, k (fun q => -d q) = k d) (Xn : Fin n → Fin nx → ℝ) (i j : Fin n) :
    pairMatrix k Xn i j = if i = j then 0 else k fun q => Xn i q - Xn j q := by
  unfold pairMatrix; rw [corrR_apply k hk]; simp

lemma pairMatrix_symm (k : (Fin nx → ℝ) → ℝ) (hk : ∀ d, k (fun q => -d q) = k d) (Xn : Fin n → Fin nx → ℝ) : (pairMatrix k Xn)ᵀ = pairMatrix k Xn := corrR_symm k hk _ _

lemma pairMatrix_sum {ι : Type} [Fintype ι] (v : ι → ℝ) (k : ι → (Fin nx → ℝ) → ℝ) (hk : ∀ h d, k h (fun q => -d q) = k h d) (Xn : Fin n → Fin nx → ℝ) :
    pairMatrix (fun d => ∑ h, v h * k h d) Xn = ∑ h, v h • pairMatrix (k h) Xn := by
  ext i j
  rw [pairMatrix_apply _ (fun d => by simp only [hk]), Matrix.sum_apply]
  simp only [Matrix.smul_apply, pairMatrix_apply _ (hk _), smul_eq_mul]
  split_ifs <;> simp

section thms
variable {chol : Matrix (Fin n) (Fin n) ℝ → Option (Matrix (Fin n) (Fin n) ℝ)}
  {qr : Matrix (Fin n) (Fin p) ℝ → Matrix (Fin n) (Fin p) ℝ × Matrix (Fin p) (Fin p) ℝ} {D : Data n nx p} {P : Prior} {par : Par n p}

lemma parAt_some {θ : Fin (m * nx) → ℝ} (h : parAt chol qr D θ = some par) :
    ∃ C, chol (corrR (kern θ) D.nugget D.noise D.Xn) = some C ∧ par = blup C qr D.F D.y D.yStd n := by
  unfold parAt at h
  obtain ⟨C, h1, h2⟩ := Option.map_eq_some_iff.1 h
  exact ⟨C, h1, h2.symm⟩

lemma getD_map_add {α : Type} (o : Option α) (h : o.isSome) (f : α → ℝ) (c : ℝ) : (o.map fun a => f a + c).getD 0 = (o.map f).getD 0 + c := by
  cases o with
  | none => simp at h
  | some a => rfl

/-- Derivative of the objective along a path of hyper-parameters. -/
lemma objective_path (hchol : CholOk chol) (hcc : CholComplete chol) (hqr : QROk qr) (hF : FullRank D.F) {θ : ℝ → Fin (m * nx) → ℝ} {v : Fin (m * nx) → ℝ} {t : ℝ} (hθ : VDeriv θ v t)
    (hpar : parAt chol qr D (θ t) = some par) (hσ : par.sigma2 ≠ 0) :
    (∀ᶠ s in nhds t, (objective chol qr D P (θ s)).isSome) ∧
    HasDerivAt (fun s => (objective chol qr D P (θ s)).getD 0) (∑ g, v g * (lhGrad par D.F D.yStd (dR D (θ t) g) + priorGrad P (θ t) g)) t := by
  obtain ⟨C, hC, rfl⟩ := parAt_some hpar
  obtain ⟨h1, h2⟩ := C63_gradient (y := D.y) (yStd := D.yStd) (dof := n) hchol hcc hqr hF (fun s => kern (θ s)) (fun d => ∑ h, v h * kernGrad (θ t) h d) (fun s d => kern_even _ d)
    (fun d => by simp only [kernGrad_even]) (fun i j _ => kern_path hθ _) hC hσ
  refine ⟨h1.mono fun s hs => by unfold objective; simpa using hs, ?_⟩
  have h3 := h2.fun_add (prior_path P hθ)
  refine (h3.congr_of_eventuallyEq (f₁ := fun s => (objective chol qr D P (θ s)).getD 0) (h1.mono fun s hs => ?_)).congr_deriv ?_
  · simp only [objective]
    obtain ⟨w, hw⟩ := Option.isSome_iff_exists.1 hs
    rw [hw]; rfl
  · rw [pairMatrix_sum v (fun h => kernGrad (θ t) h) (fun h d => kernGrad_even _ h d), lhGrad_sum (hchol _ _ hC) (hqr _ (fullRank_fwdM (hchol _ _ hC) hF)) hσ, ← Finset.sum_add_distrib]
    exact Finset.sum_congr rfl fun g _ => by unfold dR; ring

/-- Derivative of a gradient entry along a path of hyper-parameters. -/
lemma gradient_path (hchol : CholOk chol) (hcc : CholComplete chol) (hqr : QROk qr) (hF : FullRank D.F) {θ : ℝ → Fin (m * nx) → ℝ} {v : Fin (m * nx) → ℝ} {t : ℝ} (hθ : VDeriv θ v t)
    (hpar : parAt chol qr D (θ t) = some par) (hσ : par.sigma2 ≠ 0) (g : Fin (m * nx)) :
    HasDerivAt (fun s => (gradient chol qr D P (θ s) g).getD 0) (∑ h, v h * hessEntry D P (θ t) par g h) t := by
  obtain ⟨C, hC, rfl⟩ := parAt_some hpar
  have h2 := C64_hessian (y := D.y) (yStd := D.yStd) hchol hcc hqr hF (fun s => kern (θ s)) (fun s => kernGrad (θ s) g) (fun d => ∑ h, v h * kernGrad (θ t) h d)
    (fun d => ∑ h, v h * kernHess (θ t) g h d) (fun s d => kern_even _ d) (fun s d => kernGrad_even _ g d)
    (fun d => by simp only [kernGrad_even]) (fun d => by simp only [kernHess_even]) (fun i j _ => kern_path hθ _) (fun i j _ => kernGrad_path hθ g _) hC hσ
  have h3 : HasDerivAt (fun s => priorGrad P (θ s) g) (v g * priorHess P g) t := by
    simp only [priorGrad_eq, priorHess_eq]
    exact ((((hθ g).sub_const P.mean).const_mul (-2)).div_const P.var).congr_deriv (by ring)
  have hnear := rlfAt_near (nugget := D.nugget) (noise := D.noise) hchol hcc (fun s => kern (θ s)) (fun s d => kern_even _ d)
    (corrR_mderiv (Xn := D.Xn) (fun s => kern (θ s)) (fun d => ∑ h, v h * kernGrad (θ t) h d) (fun s d => kern_even _ d) (fun d => by simp only [kernGrad_even]) (fun i j _ => kern_path hθ _)) hC
  refine ((h2.fun_add h3).congr_of_eventuallyEq (f₁ := fun s => (gradient chol qr D P (θ s) g).getD 0) (hnear.mono fun s hs => ?_)).congr_deriv ?_
  · obtain ⟨C', hC', -⟩ := hs
    simp only [gradient, parAt, hC']
    rfl
  · have hCt := hchol _ _ hC
    rw [pairMatrix_sum v (fun h => kernGrad (θ t) h) (fun h d => kernGrad_even _ h d), pairMatrix_sum v (fun h => kernHess (θ t) g h) (fun h d => kernHess_even _ g h d),
      lhHess_sum hCt (hqr _ (fullRank_fwdM hCt hF)) hσ v (pairMatrix_symm _ (kernGrad_even (θ t) g) _) _ _ (fun h => pairMatrix_symm _ (kernGrad_even (θ t) h) _)]
    simp only [hessEntry, mul_add, Finset.sum_add_distrib, dR]
    congr 1
    rw [Finset.sum_eq_single g]
    · rw [if_pos rfl]
    · intro h _ hne; rw [if_neg hne, mul_zero]
    · simp

/-- **C74** Gradient: wherever the objective is finite and the process variance is not zero, the objective is finite nearby and entry `g` of the gradient that the code computes is
its partial derivative with respect to `theta[g]`, likelihood and prior together. -/
theorem C74_gradient (hchol : CholOk chol) (hcc : CholComplete chol) (hqr : QROk qr) (hF : FullRank D.F) (θ : Fin (m * nx) → ℝ) (hpar : parAt chol qr D θ = some par)
    (hσ : par.sigma2 ≠ 0) (g : Fin (m * nx)) :
    (∀ᶠ s in nhds (θ g), (objective chol qr D P (Function.update θ g s)).isSome) ∧
    ∃ dg, gradient chol qr D P θ g = some dg ∧ HasDerivAt (fun s => (objective chol qr D P (Function.update θ g s)).getD 0) dg (θ g) := by
  obtain ⟨h1, h2⟩ := objective_path (P := P) hchol hcc hqr hF (update_path θ g) (by simpa only [Function.update_eq_self] using hpar) hσ
  refine ⟨h1, _, by unfold gradient; rw [hpar]; rfl, ?_⟩
  simpa [Function.update_eq_self, Pi.single_apply] using h2

/-- **C74** Hessian: entry `(g, h)` computed by the code is the partial derivative with respect to `theta[h]` of entry `g` of the gradient. -/
theorem C74_hessian (hchol : CholOk chol) (hcc : CholComplete chol) (hqr : QROk qr) (hF : FullRank D.F) (θ : Fin (m * nx) → ℝ) (hpar : parAt chol qr D θ = some par)
    (hσ : par.sigma2 ≠ 0) (g h : Fin (m * nx)) :
    HasDerivAt (fun s => (gradient chol qr D P (Function.update θ h s) g).getD 0) (hessEntry D P θ par g h) (θ h) := by
  have := gradient_path (P := P) hchol hcc hqr hF (update_path θ h) (by simpa only [Function.update_eq_self] using hpar) hσ g
  simpa [Function.update_eq_self, Pi.single_apply] using this

lemma hessEntry_symm (θ : Fin (m * nx) → ℝ) (g h : Fin (m * nx)) : hessEntry D P θ par g h = hessEntry D P θ par h g := by
  unfold hessEntry
  rw [lhHess_symm, show kernHess θ g h = kernHess θ h g from funext fun d => kernHess_symm θ g h d]
  congr 1
  by_cases e : g = h
  · subst e; rfl
  · rw [if_neg e, if_neg (Ne.symm e)]

lemma mem_hessPairs (N : ℕ) (ij : Fin N × Fin N) : ij ∈ hessPairs N ↔ ij.1 ≤ ij.2 := by
  obtain ⟨i, j⟩ := ij
  simp only [hessPairs, List.mem_flatMap, List.mem_finRange, true_and, List.mem_map, List.mem_filter, decide_eq_true_eq, Prod.mk.injEq]
  constructor
  · rintro ⟨ω, η, h, rfl, rfl⟩; exact h
  · intro h; exact ⟨i, j, h, rfl, rfl⟩

lemma fill_eq {α : Type} [DecidableEq α] (L : List (α × α)) (f : α × α → ℝ) (sel : α × α → α × α) (V : α → α → ℝ) (i j : α) :
    (L.map fun ij => (ij, f ij)).foldl (fun (V : α → α → ℝ) e i j => if i = (sel e.1).1 ∧ j = (sel e.1).2 then e.2 else V i j) V i j = V i j ∧ (∀ e ∈ L, sel e ≠ (i, j)) ∨
    ∃ e ∈ L, sel e = (i, j) ∧ (L.map fun ij => (ij, f ij)).foldl (fun (V : α → α → ℝ) e i j => if i = (sel e.1).1 ∧ j = (sel e.1).2 then e.2 else V i j) V i j = f e := by
  induction L generalizing V with
  | nil => left; simp
  | cons e L ih =>
    simp only [List.map_cons, List.foldl_cons]
    rcases ih (fun i j => if i = (sel e).1 ∧ j = (sel e).2 then f e else V i j) with ⟨h1, h2⟩ | ⟨e', h1, h2, h3⟩
    · by_cases hc : i = (sel e).1 ∧ j = (sel e).2
      · right
        refine ⟨e, by simp, Prod.ext hc.1.symm hc.2.symm, ?_⟩
        rw [h1, if_pos hc]
      · left
        refine ⟨by rw [h1, if_neg hc], fun e' he' => ?_⟩
        rcases List.mem_cons.1 he' with rfl | he'
        · intro h; exact hc ⟨by rw [h], by rw [h]⟩
        · exact h2 e' he'
    · right
      exact ⟨e', List.mem_cons_of_mem _ h1, h2, h3⟩

/-- **C74** The matrix kept for the variances is minus the full Hessian: the fill from the upper triangle loses nothing. -/
theorem C74_inv_sigma (θ : Fin (m * nx) → ℝ) (par : Par n p) (g h : Fin (m * nx)) : invSigmaR D P θ par g h = -hessEntry D P θ par g h := by
  unfold invSigmaR
  simp only [Matrix.neg_apply, Matrix.of_apply]
  congr 1
  have hs := hessEntry_symm (D := D) (P := P) (par := par) θ g h
  rcases fill_eq (hessPairs (m * nx)) (fun ij => hessEntry D P θ par ij.1 ij.2) Prod.swap
      (((hessPairs (m * nx)).map fun ij => (ij, hessEntry D P θ par ij.1 ij.2)).foldl (fun V e i j => if i = e.1.1 ∧ j = e.1.2 then e.2 else V i j) fun _ _ => 0) g h with ⟨h1, h2⟩ | ⟨e, h1, h2, h3⟩
  · refine h1.trans ?_
    rcases fill_eq (hessPairs (m * nx)) (fun ij => hessEntry D P θ par ij.1 ij.2) id (fun _ _ => 0) g h with ⟨h3, h4⟩ | ⟨e, h3, h4, h5⟩
    · exfalso
      rcases le_total g h with hle | hle
      · exact h4 (g, h) ((mem_hessPairs _ _).2 hle) rfl
      · exact h2 (h, g) ((mem_hessPairs _ _).2 hle) rfl
    · refine h5.trans ?_
      have : e = (g, h) := h4
      rw [this]
  · refine h3.trans ?_
    have : e = (h, g) := by rw [← Prod.swap_swap e, h2]; rfl
    rw [this, hs]

/-! ## Positive definiteness and training -/

lemma kern_pullback (θ : Fin (m * nx) → ℝ) (x x' : Fin nx → ℝ) :
    kern θ (fun k => x k - x' k) = kernOf 1 one_pos .squarExp (fun _ : Fin m => (1 / 2 : ℝ)) fun l => (x ᵥ* embA θ) l - (x' ᵥ* embA θ) l := by
  rw [kernOf_squarExp, kern_eq, sqKern]
  congr 1
  rw [neg_mul, Finset.mul_sum]
  congr 1
  refine Finset.sum_congr rfl fun l _ => ?_
  congr 2
  rw [show (fun k => x k - x' k) = x - x' from rfl, Matrix.sub_vecMul]
  rfl

/-- **C74** The kernel is positive semi-definite for every `theta`, of any sign. -/
theorem C74_psd (θ : Fin (m * nx) → ℝ) : PsdKernel (kern θ) := by
  intro n X v
  have := C73_kernels_psd 1 one_pos .squarExp (by simp) (fun _ : Fin m => (1 / 2 : ℝ)) (fun _ => by norm_num) n (fun i => X i ᵥ* embA θ) v
  simpa only [kern_pullback] using this

variable {trend : (Fin nx → ℝ) → Fin p → ℝ} {nugget : ℝ} {noise : Fin n → ℝ} {X : Fin n → Fin nx → ℝ} {y : Fin n → ℝ}

/-- **C74** With a positive nugget training never fails, for every `theta` and all data. -/
theorem C74_trains_nugget (hcc : CholComplete chol) (θ : Fin (m * nx) → ℝ) (hnug : ∀ i, 0 < nugget + noise i) : (train chol qr (kern θ) trend nugget noise X y).isSome :=
  C73_trains_nugget hcc (kern_even θ) (kern_zero θ) (C74_psd θ) hnug

/-- **C74** Without nugget and noise, training succeeds if and only if the standardised training inputs have distinct images in the active subspace. -/
theorem C74_trains_iff (hchol : CholOk chol) (hcc : CholComplete chol) (θ : Fin (m * nx) → ℝ) :
    (train chol qr (kern θ) trend 0 (fun _ => 0) X y).isSome ↔ Function.Injective fun i => (fun j => normalise (scaling fun i => X i j) (X i j)) ᵥ* embA θ := by
  unfold train
  simp only [Option.isSome_map]
  set Xn : Fin n → Fin nx → ℝ := fun i j => normalise (scaling fun i => X i j) (X i j) with hXn
  constructor
  · intro h a b hab
    by_contra hne
    obtain ⟨C, hC⟩ := Option.isSome_iff_exists.1 h
    have hker : ∀ j, kern θ (fun q => Xn a q - Xn j q) = kern θ (fun q => Xn b q - Xn j q) := fun j => by
      rw [kern_pullback, kern_pullback]
      simp only at hab
      rw [hab]
    have haa : ∀ i, kern θ (fun q => Xn i q - Xn i q) = 1 := fun i => by simpa using kern_zero θ
    refine (hchol _ _ hC).detR.ne_zero (Matrix.det_zero_of_row_eq hne (funext fun j => ?_))
    rw [corrR_apply _ (kern_even θ), corrR_apply _ (kern_even θ)]
    by_cases h1 : a = j
    · subst h1
      rw [if_pos rfl, if_neg (Ne.symm hne), ← hker, haa]; simp
    · by_cases h2 : b = j
      · subst h2
        rw [if_neg h1, if_pos rfl, hker, haa]; simp
      · rw [if_neg h1, if_neg h2, hker]
  · intro hinj
    refine hcc _ (corrR_symm _ (kern_even θ) _ _) fun v hv => ?_
    rw [corrR_form _ (kern_even θ) (kern_zero θ)]
    have := C73_kernels_pd 1 one_pos .squarExp (by simp) (fun _ : Fin m => (1 / 2 : ℝ)) (fun _ => by norm_num) n (fun i => Xn i ᵥ* embA θ) hinj v hv
    simpa only [kern_pullback, add_zero, mul_zero, Finset.sum_const_zero] using this

end thms

end SMT.Mgp
