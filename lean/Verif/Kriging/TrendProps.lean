import Verif.Kriging.UnitsProps
import Verif.Kriging.Definite
import Verif.Kriging.Oracles
import Verif.Fit.QpProps
import Mathlib.Algebra.MvPolynomial.Funext

/-!
# C84 for the Kriging models: the trend is reproduced

A Kriging model trained on the values of a function of the space spanned by its trend (constants, affine functions, polynomials of degree at most two) is that function.
-/
namespace SMT.Krg
open Matrix SMT.Common SMT.Fit
set_option linter.unusedSectionVars false
set_option linter.unusedSimpArgs false
set_option linter.unusedVariables false

variable {n nx p : ℕ}

/-! ## Specification -/

/-- The constant functions. -/
def constants (nx : ℕ) : Submodule ℝ ((Fin nx → ℝ) → ℝ) where
  carrier := {f | ∃ c, ∀ x, f x = c}
  zero_mem' := ⟨0, fun x => rfl⟩
  add_mem' := by
    rintro f g ⟨c, hf⟩ ⟨c', hg⟩
    exact ⟨c + c', fun x => by simp only [Pi.add_apply, hf, hg]⟩
  smul_mem' := by
    rintro a f ⟨c, hf⟩
    exact ⟨a * c, fun x => by simp only [Pi.smul_apply, smul_eq_mul, hf]⟩

/-- The functions a trend stands for: the spaces named by the option `poly`. -/
def TrendOf (trend : (Fin nx → ℝ) → Fin p → ℝ) (S : Submodule ℝ ((Fin nx → ℝ) → ℝ)) : Prop :=
  (∀ v, (fun x => trend x ⬝ᵥ v) ∈ S) ∧ (∀ f ∈ S, ∃ v, ∀ x, f x = trend x ⬝ᵥ v) ∧ ∀ v, (∀ x, trend x ⬝ᵥ v = 0) → v = 0

/-- The space contains the constants and does not depend on the units of the inputs. -/
def UnitFree (S : Submodule ℝ ((Fin nx → ℝ) → ℝ)) : Prop :=
  (∀ c : ℝ, (fun _ => c) ∈ S) ∧ ∀ f ∈ S, ∀ a b : Fin nx → ℝ, (fun x => f fun j => a j * x j + b j) ∈ S

/-! ## The three spaces -/

theorem constants_unitFree : UnitFree (constants nx) :=
  ⟨fun c => ⟨c, fun _ => rfl⟩, by rintro f ⟨c, hf⟩ a b; exact ⟨c, fun x => hf _⟩⟩

theorem affines_unitFree : UnitFree (affines ℝ nx) := by
  refine ⟨fun c => ⟨c, 0, fun _ => by simp⟩, ?_⟩
  rintro f ⟨c, l, hf⟩ a b
  refine ⟨c + ∑ i, l i * b i, fun i => l i * a i, fun x => ?_⟩
  simp only [hf, mul_add, Finset.sum_add_distrib, mul_assoc]
  ring

theorem quadratics_unitFree : UnitFree (quadratics ℝ nx) := by
  refine ⟨fun c => ⟨c, 0, 0, fun _ => by simp⟩, ?_⟩
  rintro f ⟨c, l, Q, hf⟩ a b
  refine ⟨c + ∑ i, l i * b i + ∑ i, ∑ j, Q i j * (b i * b j), fun i => l i * a i + ∑ j, (Q i j + Q j i) * (a i * b j), fun i j => Q i j * (a i * a j), fun x => ?_⟩
  simp only [hf]
  have e1 : ∑ i, l i * (a i * x i + b i) = ∑ i, l i * a i * x i + ∑ i, l i * b i := by
    rw [← Finset.sum_add_distrib]; exact Finset.sum_congr rfl fun i _ => by ring
  have e2 : ∑ i, ∑ j, Q i j * ((a i * x i + b i) * (a j * x j + b j)) =
      ∑ i, ∑ j, Q i j * (a i * a j) * (x i * x j) + ∑ i, ∑ j, Q i j * (a i * b j) * x i + ∑ i, ∑ j, Q i j * (b i * a j) * x j + ∑ i, ∑ j, Q i j * (b i * b j) := by
    simp only [← Finset.sum_add_distrib]
    exact Finset.sum_congr rfl fun i _ => Finset.sum_congr rfl fun j _ => by ring
  have e3 : ∑ i, (l i * a i + ∑ j, (Q i j + Q j i) * (a i * b j)) * x i =
      ∑ i, l i * a i * x i + ∑ i, ∑ j, Q i j * (a i * b j) * x i + ∑ i, ∑ j, Q i j * (b i * a j) * x j := by
    rw [Finset.sum_comm (f := fun i j => Q i j * (b i * a j) * x j)]
    simp only [← Finset.sum_add_distrib]
    refine Finset.sum_congr rfl fun i _ => ?_
    rw [add_mul, Finset.sum_mul, add_assoc, ← Finset.sum_add_distrib]
    congr 1
    exact Finset.sum_congr rfl fun j _ => by ring
  rw [e1, e2, e3]
  ring

theorem constants_trend : TrendOf (nx := nx) trendConstant (constants nx) := by
  refine ⟨fun v => ⟨v 0, fun x => by simp [trendConstant, dotProduct]⟩, ?_, fun v hv => ?_⟩
  · rintro f ⟨c, hf⟩
    exact ⟨fun _ => c, fun x => by simp [trendConstant, dotProduct, hf]⟩
  · funext q
    have := hv 0
    rw [Subsingleton.elim q 0]
    simpa [trendConstant, dotProduct] using this

theorem linear_dot (x : Fin nx → ℝ) (v : Fin (nx + 1) → ℝ) : trendLinear x ⬝ᵥ v = v 0 + ∑ i : Fin nx, v i.succ * x i := by
  simp only [trendLinear, dotProduct, Fin.sum_univ_succ, Fin.cons_zero, Fin.cons_succ, one_mul]
  congr 1
  exact Finset.sum_congr rfl fun i _ => mul_comm _ _

theorem linear_trend : TrendOf (nx := nx) trendLinear (affines ℝ nx) := by
  refine ⟨fun v => ⟨v 0, fun i => v i.succ, fun x => linear_dot x v⟩, ?_, fun v hv => ?_⟩
  · rintro f ⟨c, l, hf⟩
    exact ⟨Fin.cons c l, fun x => by rw [linear_dot, hf]; simp⟩
  · have h0 : v 0 = 0 := by simpa [linear_dot] using hv 0
    funext q
    refine Fin.cases h0 (fun i => ?_) q
    have := hv (Pi.single i 1)
    rw [linear_dot, h0] at this
    simpa [Pi.single_apply] using this

/-- The point with coordinates `x` as a function on all indices. -/
def extend (x : Fin nx → ℝ) (i : ℕ) : ℝ := (List.ofFn x).getD i 0

theorem quad_dot (x : Fin nx → ℝ) (v : Fin (monos nx).length → ℝ) :
    trendQuadratic x ⬝ᵥ v = ∑ q, v q * (((monos nx).get q).map (extend x)).prod := by
  unfold trendQuadratic dotProduct
  refine Finset.sum_congr rfl fun q _ => ?_
  rw [(C43_columns (List.ofFn x)).2.2, mul_comm]
  congr 1
  simp only [List.length_ofFn, List.getD_eq_getElem?_getD, List.getElem?_map, q.isLt, List.getElem?_eq_getElem, Option.map_some, Option.getD_some]
  rfl

theorem extend_fin (x : Fin nx → ℝ) (i : Fin nx) : extend x i = x i := by
  simp [extend, List.getD_eq_getElem?_getD, i.isLt]

theorem mono_mem (s : List ℕ) (hs : s ∈ monos nx) (c : ℝ) : (fun x => c * (s.map (extend x)).prod) ∈ quadratics ℝ nx := by
  obtain ⟨-, h2, h3⟩ := (C43_monomials nx).2.1 s |>.1 hs
  match s, h2, h3 with
  | [], _, _ => exact ⟨c, 0, 0, fun x => by simp⟩
  | [i], _, h3 =>
    have hi : i < nx := h3 i (by simp)
    refine ⟨0, Pi.single ⟨i, hi⟩ c, 0, fun x => ?_⟩
    have := extend_fin x ⟨i, hi⟩
    simp only [] at this
    simp [Pi.single_apply, this]
  | [i, j], _, h3 =>
    have hi : i < nx := h3 i (by simp)
    have hj : j < nx := h3 j (by simp)
    refine ⟨0, 0, fun k l => if k = ⟨i, hi⟩ ∧ l = ⟨j, hj⟩ then c else 0, fun x => ?_⟩
    have h1 := extend_fin x ⟨i, hi⟩
    have h2 := extend_fin x ⟨j, hj⟩
    simp only [] at h1 h2
    simp [ite_and, h1, h2]

theorem exists_mono (s : List ℕ) (h1 : s.Pairwise (· ≤ ·)) (h2 : s.length ≤ 2) (h3 : ∀ i ∈ s, i < nx) (c : ℝ) :
    ∃ v, ∀ x : Fin nx → ℝ, trendQuadratic x ⬝ᵥ v = c * (s.map (extend x)).prod := by
  have hs : s ∈ monos nx := ((C43_monomials nx).2.1 s).2 ⟨h1, h2, h3⟩
  obtain ⟨q, hq⟩ := List.get_of_mem hs
  refine ⟨Pi.single q c, fun x => ?_⟩
  rw [quad_dot, Finset.sum_eq_single q]
  · rw [Pi.single_eq_same, hq]
  · intro b _ hb
    rw [Pi.single_eq_of_ne hb, zero_mul]
  · simp

theorem quadratic_trend : TrendOf (nx := nx) trendQuadratic (quadratics ℝ nx) := by
  refine ⟨fun v => ?_, ?_, fun v hv => ?_⟩
  · have e : (fun x : Fin nx → ℝ => trendQuadratic x ⬝ᵥ v) = ∑ q, fun x => v q * (((monos nx).get q).map (extend x)).prod := by
      funext x
      rw [quad_dot, Finset.sum_apply]
    rw [e]
    exact Submodule.sum_mem _ fun q _ => mono_mem _ (List.get_mem _ _) _
  · rintro f ⟨c, l, Q, hf⟩
    obtain ⟨v0, h0⟩ := exists_mono (nx := nx) [] (by simp) (by simp) (by simp) c
    choose v1 h1 using fun i : Fin nx => exists_mono (nx := nx) [i.val] (by simp) (by simp) (by simp) (l i)
    have hQ : ∀ i j : Fin nx, ∃ v, ∀ x : Fin nx → ℝ, trendQuadratic x ⬝ᵥ v = Q i j * (x i * x j) := by
      intro i j
      rcases le_total i j with h | h
      · obtain ⟨v, hv⟩ := exists_mono (nx := nx) [i.val, j.val] (by simpa using h) (by simp) (by simp) (Q i j)
        exact ⟨v, fun x => by rw [hv]; simp [extend_fin]⟩
      · obtain ⟨v, hv⟩ := exists_mono (nx := nx) [j.val, i.val] (by simpa using h) (by simp) (by simp) (Q i j)
        exact ⟨v, fun x => by rw [hv]; simp [extend_fin, mul_comm (x i)]⟩
    choose v2 h2 using hQ
    refine ⟨v0 + ∑ i, v1 i + ∑ i, ∑ j, v2 i j, fun x => ?_⟩
    rw [hf, dotProduct_add, dotProduct_add, h0, dotProduct_sum, dotProduct_sum]
    simp only [dotProduct_sum, h1, h2, List.map_nil, List.prod_nil, mul_one, List.map_cons, List.prod_cons, extend_fin]
  · let e : Fin (monos nx).length → (ℕ →₀ ℕ) := fun q => Multiset.toFinsupp ((monos nx).get q : Multiset ℕ)
    have he : Function.Injective e := by
      intro q q' h
      have h1 : ((monos nx).get q : Multiset ℕ) = (monos nx).get q' := Multiset.toFinsupp.injective h
      have h2 := Multiset.coe_eq_coe.1 h1
      have h3 := ((C43_monomials nx).2.1 _).1 (List.get_mem (monos nx) q)
      have h4 := ((C43_monomials nx).2.1 _).1 (List.get_mem (monos nx) q')
      have h5 := List.Perm.eq_of_pairwise (fun a b _ _ hab hba => le_antisymm hab hba) h3.1 h4.1 h2
      exact (List.nodup_iff_injective_get.1 (C43_monomials nx).1) h5
    let P : MvPolynomial ℕ ℝ := ∑ q, MvPolynomial.monomial (e q) (v q)
    have hev : ∀ x : ℕ → ℝ, MvPolynomial.eval x P = ∑ q, v q * (((monos nx).get q).map x).prod := by
      intro x
      simp only [P, map_sum, MvPolynomial.eval_monomial]
      refine Finset.sum_congr rfl fun q _ => ?_
      congr 1
      simp only [e]
      generalize (monos nx).get q = s
      rw [Finsupp.prod, Multiset.toFinsupp_support, ← Multiset.prod_coe, ← Multiset.map_coe, Finset.prod_multiset_map_count]
      rfl
    have hP : P = 0 := by
      apply MvPolynomial.funext
      intro x
      rw [hev, map_zero]
      have := hv fun i => x i
      rw [quad_dot] at this
      rw [← this]
      refine Finset.sum_congr rfl fun q _ => ?_
      congr 2
      refine List.map_congr_left fun i hi => ?_
      have hlt := (((C43_monomials nx).2.1 _).1 (List.get_mem (monos nx) q)).2.2 i hi
      exact (extend_fin (fun i : Fin nx => x i) ⟨i, hlt⟩).symm
    funext q
    have hc := congrArg (MvPolynomial.coeff (e q)) hP
    simp only [P, MvPolynomial.coeff_sum, MvPolynomial.coeff_monomial, MvPolynomial.coeff_zero] at hc
    rw [Finset.sum_eq_single q] at hc
    · simpa using hc
    · intro b _ hb
      rw [if_neg fun h => hb (he h)]
    · simp

/-- **C84** The three trends: `constant`, `linear` and `quadratic` evaluate a basis of the constants, of the affine functions and of the polynomials of degree at most two. -/
theorem C84_trend_spaces : TrendOf (nx := nx) trendConstant (constants nx) ∧ TrendOf (nx := nx) trendLinear (affines ℝ nx) ∧ TrendOf (nx := nx) trendQuadratic (quadratics ℝ nx) :=
  ⟨constants_trend, linear_trend, quadratic_trend⟩

/-! ## Training -/

section trained
variable {chol : Matrix (Fin n) (Fin n) ℝ → Option (Matrix (Fin n) (Fin n) ℝ)}
  {qr : Matrix (Fin n) (Fin p) ℝ → Matrix (Fin n) (Fin p) ℝ × Matrix (Fin p) (Fin p) ℝ}
  {kern : (Fin nx → ℝ) → ℝ} {trend : (Fin nx → ℝ) → Fin p → ℝ} {nugget : ℝ} {noise : Fin n → ℝ}
  {X : Fin n → Fin nx → ℝ} {y : Fin n → ℝ} {M : Model n nx p} {S : Submodule ℝ ((Fin nx → ℝ) → ℝ)}

/-- The functions of the space, seen from the standardised inputs and outputs. -/
theorem coefficients (hT : TrendOf trend S) (hS : UnitFree S) (xOS : Fin nx → ℝ × ℝ) (hx : ∀ j, (xOS j).2 ≠ 0) (yOS : ℝ × ℝ) (f : (Fin nx → ℝ) → ℝ) (hf : f ∈ S) :
    ∃ β, ∀ x, normalise yOS (f x) = trend (fun j => normalise (xOS j) (x j)) ⬝ᵥ β := by
  have h1 : (fun z : Fin nx → ℝ => (1 / yOS.2) • (f fun j => (xOS j).2 * z j + (xOS j).1) + (-yOS.1 / yOS.2)) ∈ S :=
    S.add_mem (S.smul_mem _ (hS.2 f hf _ _)) (hS.1 _)
  obtain ⟨β, hβ⟩ := hT.2.1 _ h1
  refine ⟨β, fun x => ?_⟩
  rw [← hβ]
  have e : (fun j => (xOS j).2 * normalise (xOS j) (x j) + (xOS j).1) = x := by
    funext j
    unfold normalise
    field_simp [hx j]
    ring
  simp only [e, smul_eq_mul]
  unfold normalise
  ring

/-- **C84** When the trend matrix has full rank (the assumption under which numpy's economic QR returns an invertible factor): exactly when no function of the space except zero vanishes at all
training inputs. -/
theorem C84_kriging_full_rank (hT : TrendOf trend S) (hS : UnitFree S) (hM : train chol qr kern trend nugget noise X y = some M) : FullRank M.F ↔ Unisolvent S X := by
  obtain ⟨C, hC, hXX, hyy, hkk, htt, hFF, hOS, hP⟩ := train_eq hM
  have hx : ∀ j, (M.xOS j).2 ≠ 0 := fun j => by rw [hOS]; exact (scaling_pos _).ne'
  have hrow : ∀ i v, (M.F *ᵥ v) i = trend (M.norm (X i)) ⬝ᵥ v := fun i v => by rw [hFF, hXX]; rfl
  constructor
  · intro hF f hf hz
    obtain ⟨β, hβ⟩ := coefficients hT hS M.xOS hx (0, 1) f hf
    have : β = 0 := hF β (by
      funext i
      rw [hrow]
      have := hβ (X i)
      rw [hz i] at this
      refine this.symm.trans ?_
      simp [normalise])
    funext x
    have h := hβ x
    rw [this] at h
    simpa [normalise] using h
  · intro hu v hv
    have h1 : (fun x : Fin nx → ℝ => trend (M.norm x) ⬝ᵥ v) ∈ S := by
      have h2 := hS.2 _ (hT.1 v) (fun j => 1 / (M.xOS j).2) fun j => -(M.xOS j).1 / (M.xOS j).2
      have e : (fun x : Fin nx → ℝ => trend (fun j => 1 / (M.xOS j).2 * x j + -(M.xOS j).1 / (M.xOS j).2) ⬝ᵥ v) = fun x => trend (M.norm x) ⬝ᵥ v := by
        funext x
        congr 2
        funext j
        unfold Model.norm normalise
        ring
      rw [← e]
      exact h2
    have h3 := hu _ h1 fun i => by
      show trend (M.norm (X i)) ⬝ᵥ v = 0
      rw [← hrow, hv]; rfl
    refine hT.2.2 v fun z => ?_
    have h4 := congrFun h3 fun j => (M.xOS j).2 * z j + (M.xOS j).1
    have e : M.norm (fun j => (M.xOS j).2 * z j + (M.xOS j).1) = z := by
      funext j
      unfold Model.norm normalise
      field_simp [hx j]
      ring
    simpa [e] using h4

/-- **C84** Kriging reproduces its trend: trained on values of a function `f` of the space of its trend, at inputs that determine the functions of that space, it predicts `f` everywhere and reports the
variance zero everywhere - for every kernel, nugget and noise. -/
theorem C84_kriging (hT : TrendOf trend S) (hS : UnitFree S) (hchol : CholOk chol) (hqr : QROk qr) (hu : Unisolvent S X) (f : (Fin nx → ℝ) → ℝ) (hf : f ∈ S)
    (hM : train chol qr kern trend nugget noise X (fun i => f (X i)) = some M) (x : Fin nx → ℝ) : M.predict x = f x ∧ M.variance x = 0 := by
  have hF := (C84_kriging_full_rank hT hS hM).2 hu
  obtain ⟨C, hC, hXX, hyy, hkk, htt, hFF, hOS, hP⟩ := train_eq hM
  have hx : ∀ j, (M.xOS j).2 ≠ 0 := fun j => by rw [hOS]; exact (scaling_pos _).ne'
  have hy2 : M.yOS.2 ≠ 0 := by rw [hyy]; exact (scaling_pos _).ne'
  obtain ⟨β, hβ⟩ := coefficients hT hS M.xOS hx M.yOS f hf
  have hq := hqr _ (fullRank_fwdM (hchol _ _ hC) hF)
  have hb := C39_blup (F := M.F) (y := fun i => normalise M.yOS (f (X i))) (yStd := M.yOS.2) (dof := n) (hchol _ _ hC) hq
  have hs := blup_eq (F := M.F) (y := fun i => normalise M.yOS (f (X i))) (yStd := M.yOS.2) (dof := n) (hchol _ _ hC) hq
  rw [← hP] at hb hs
  have hfit : (fun i => normalise M.yOS (f (X i))) - M.F *ᵥ β = 0 := by
    funext i
    show normalise M.yOS (f (X i)) - (M.F *ᵥ β) i = 0
    rw [hβ (X i), sub_eq_zero, hFF]
    have := hXX i
    show trend (M.norm (X i)) ⬝ᵥ β = trend (M.Xn i) ⬝ᵥ β
    rw [this]
  obtain ⟨h1, h2⟩ := blup_unique (hchol _ _ hC).detR (det_gram (hchol _ _ hC) hq) (y := fun i => normalise M.yOS (f (X i))) (g := 0) (β := β)
    (by rw [hfit, Matrix.mulVec_zero]) (by rw [Matrix.mulVec_zero]) hb.1 hb.2.1
  constructor
  · unfold Model.predict
    simp only [h1, h2, dotProduct_zero, add_zero, htt]
    have := hβ x
    rw [show M.norm x = fun j => normalise (M.xOS j) (x j) from rfl, ← this]
    unfold denormalise normalise
    field_simp
    ring
  · have hsig : M.par.sigma2 = 0 := by
      have h3 : C⁻¹ *ᵥ (fun i => normalise M.yOS (f (X i))) - (C⁻¹ * M.F) *ᵥ M.par.beta = 0 := by
        rw [h1, ← Matrix.mulVec_mulVec, ← Matrix.mulVec_sub, hfit, Matrix.mulVec_zero]
      rw [hs.2.2.2.2.2.2.2.2, h3]
      simp
    unfold Model.variance
    simp [hsig]

end trained

/-- **C84** The three trends of the code, end to end: distinct training inputs that determine the functions of the trend, a kernel of the code, `theta > 0`, non-negative nugget and noise. Training
succeeds, and the trained model is the function it was trained on. -/
theorem C84_kriging_poly {chol : Matrix (Fin n) (Fin n) ℝ → Option (Matrix (Fin n) (Fin n) ℝ)} (hchol : CholOk chol) (hcc : CholComplete chol)
    (qr : (p : ℕ) → Matrix (Fin n) (Fin p) ℝ → Matrix (Fin n) (Fin p) ℝ × Matrix (Fin p) (Fin p) ℝ) (hqr : ∀ p, QROk (qr p))
    (lim : ℕ) (hl : 0 < lim) (k : Corr) (hk : k ≠ .actExp) (θ : Fin nx → ℝ) (hθ : ∀ l, 0 < θ l) (nugget : ℝ) (noise : Fin n → ℝ) (hnug : ∀ i, 0 ≤ nugget + noise i)
    (X : Fin n → Fin nx → ℝ) (hX : Function.Injective X) :
    (∀ c : ℝ, 0 < n → ∃ M, train chol (qr _) (kernOf lim hl k θ) trendConstant nugget noise X (fun _ => c) = some M ∧ ∀ x, M.predict x = c ∧ M.variance x = 0) ∧
    (∀ (c : ℝ) (l : Fin nx → ℝ), Unisolvent (affines ℝ nx) X →
      ∃ M, train chol (qr _) (kernOf lim hl k θ) trendLinear nugget noise X (fun i => c + ∑ j, l j * X i j) = some M ∧ ∀ x, M.predict x = c + ∑ j, l j * x j ∧ M.variance x = 0) ∧
    (∀ (c : ℝ) (l : Fin nx → ℝ) (Q : Fin nx → Fin nx → ℝ), Unisolvent (quadratics ℝ nx) X →
      ∃ M, train chol (qr _) (kernOf lim hl k θ) trendQuadratic nugget noise X (fun i => c + ∑ j, l j * X i j + ∑ a, ∑ b, Q a b * (X i a * X i b)) = some M ∧
        ∀ x, M.predict x = c + ∑ j, l j * x j + ∑ a, ∑ b, Q a b * (x a * x b) ∧ M.variance x = 0) := by
  obtain ⟨heven, hone⟩ := C39_kernels lim hl k hk θ
  have ht : ∀ {p : ℕ} (trend : (Fin nx → ℝ) → Fin p → ℝ) (y : Fin n → ℝ), ∃ M, train chol (qr p) (kernOf lim hl k θ) trend nugget noise X y = some M := fun trend y =>
    Option.isSome_iff_exists.1 (C73_trains_distinct (qr := qr _) (trend := trend) (y := y) hcc heven hone (C73_kernels_pd lim hl k hk θ hθ) hnug hX)
  refine ⟨fun c hn => ?_, fun c l hu => ?_, fun c l Q hu => ?_⟩
  · obtain ⟨M, hM⟩ := ht trendConstant fun _ => c
    refine ⟨M, hM, fun x => C84_kriging constants_trend constants_unitFree hchol (hqr _) ?_ (fun _ => c) ⟨c, fun _ => rfl⟩ hM x⟩
    rintro f ⟨d, hd⟩ hz
    have := hz ⟨0, hn⟩
    rw [hd] at this
    funext x
    rw [hd, this]; rfl
  · obtain ⟨M, hM⟩ := ht trendLinear fun i => c + ∑ j, l j * X i j
    exact ⟨M, hM, fun x => C84_kriging linear_trend affines_unitFree hchol (hqr _) hu (fun x => c + ∑ j, l j * x j) ⟨c, l, fun _ => rfl⟩ hM x⟩
  · obtain ⟨M, hM⟩ := ht trendQuadratic fun i => c + ∑ j, l j * X i j + ∑ a, ∑ b, Q a b * (X i a * X i b)
    exact ⟨M, hM, fun x => C84_kriging quadratic_trend quadratics_unitFree hchol (hqr _) hu (fun x => c + ∑ j, l j * x j + ∑ a, ∑ b, Q a b * (x a * x b)) ⟨c, l, Q, fun _ => rfl⟩ hM x⟩

/-- Three points of the line determine the affine functions, and exact routines exist: a model with linear trend, Matérn kernel and a nugget of one half, trained on `2 + 3x`, is `2 + 3x`. -/
example : ∃ M, train (n := 3) (nx := 1) (p := 2) cholStd qrStd (kernOf 10 (by decide) .matern52 fun _ => 1) trendLinear (1 / 2) (fun _ => 0) (fun i _ => (i.val : ℝ))
    (fun i => 2 + ∑ j : Fin 1, (3 : ℝ) * (i.val : ℝ)) = some M ∧ ∀ x, M.predict x = 2 + ∑ j, 3 * x j ∧ M.variance x = 0 := by
  refine (C84_kriging_poly (n := 3) (nx := 1) cholStd_ok cholStd_complete (fun _ => qrStd) (fun _ => qrStd_ok) 10 (by decide) .matern52 (by simp) (fun _ => 1) (fun _ => one_pos) (1 / 2) (fun _ => 0)
    (fun _ => by norm_num) (fun i _ => (i.val : ℝ)) ?_).2.1 2 (fun _ => 3) ?_
  · intro i j h
    have := congrFun h 0
    simp only [] at this
    exact Fin.ext (by exact_mod_cast this)
  · rintro f ⟨c, l, hf⟩ hz
    have h0 := hz 0
    have h1 := hz 1
    rw [hf] at h0 h1
    simp at h0 h1
    funext x
    rw [hf]
    simp [h0] at h1 ⊢
    simp [h1]

end SMT.Krg
