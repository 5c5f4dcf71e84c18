import Verif.Kriging.Cond
import Verif.Kriging.Oracles
import Verif.Kriging.TrendProps
import Mathlib.Analysis.InnerProductSpace.GramSchmidtOrtho
import Mathlib.Analysis.InnerProductSpace.PiL2

/-!
# C112: the conditioning test of Kriging training
-/
namespace SMT.Krg
open Matrix SMT.Common SMT.Fit SMT.Krg.Optim
set_option linter.unusedSectionVars false
set_option linter.unusedSimpArgs false
set_option linter.unusedVariables false

noncomputable section

variable {n nx p m : ℕ} {Θ : Type}

/-! ## What is assumed of scipy -/

/-- An economic QR factorisation of a tall matrix, of full rank or not. -/
structure IsEcoQR (A Q : Matrix (Fin n) (Fin p) ℝ) (G : Matrix (Fin p) (Fin p) ℝ) : Prop where
  mul : Q * G = A
  orth : Qᵀ * Q = 1
  upper : IsUpper G

/-- `linalg.qr(mode="economic")` is correct on every matrix. -/
def QRAll (qr : Matrix (Fin n) (Fin p) ℝ → Matrix (Fin n) (Fin p) ℝ × Matrix (Fin p) (Fin p) ℝ) : Prop := ∀ A, IsEcoQR A (qr A).1 (qr A).2

/-- The extreme singular values: the largest and the smallest length of `A u` over the vectors `u` of length one. -/
structure IsExtremes (A : Matrix (Fin m) (Fin p) ℝ) (s : ℝ × ℝ) : Prop where
  nonneg : 0 ≤ s.1 ∧ 0 ≤ s.2
  le : ∀ u, u ⬝ᵥ u = 1 → s.2 ^ 2 ≤ (A *ᵥ u) ⬝ᵥ (A *ᵥ u) ∧ (A *ᵥ u) ⬝ᵥ (A *ᵥ u) ≤ s.1 ^ 2
  large : ∃ u, u ⬝ᵥ u = 1 ∧ (A *ᵥ u) ⬝ᵥ (A *ᵥ u) = s.1 ^ 2
  small : ∃ u, u ⬝ᵥ u = 1 ∧ (A *ᵥ u) ⬝ᵥ (A *ᵥ u) = s.2 ^ 2

/-- `linalg.svd(compute_uv=False)` is correct on every tall matrix. -/
def SvdOk (svd : Svd p) : Prop := ∀ m (A : Matrix (Fin m) (Fin p) ℝ), p ≤ m → IsExtremes A (svd m A)

/-! ## Specification -/

/-- The ratio of the extreme eigenvalues of a symmetric positive semi-definite matrix is at most `κ`: no direction counts for more than `κ` times another one. -/
def CondLe (κ : ℝ) (A : Matrix (Fin p) (Fin p) ℝ) : Prop := ∀ u v, u ⬝ᵥ u = 1 → v ⬝ᵥ v = 1 → u ⬝ᵥ (A *ᵥ u) ≤ κ * (v ⬝ᵥ (A *ᵥ v))

/-- Positive definite. -/
def Pd (R : Matrix (Fin n) (Fin n) ℝ) : Prop := ∀ v, v ≠ 0 → 0 < v ⬝ᵥ (R *ᵥ v)

/-- The standardised training points. -/
def stdPoints (X : Fin n → Fin nx → ℝ) : Fin n → Fin nx → ℝ := fun i j => normalise (scaling fun i => X i j) (X i j)

/-- The trend functions at the standardised training points. -/
def trendMat (trend : (Fin nx → ℝ) → Fin p → ℝ) (X : Fin n → Fin nx → ℝ) : Matrix (Fin n) (Fin p) ℝ := Matrix.of fun i => trend (stdPoints X i)

/-! ## The assumptions are satisfiable -/

theorem ecoQR_exists (hpn : p ≤ n) (A : Matrix (Fin n) (Fin p) ℝ) : ∃ QG : Matrix (Fin n) (Fin p) ℝ × Matrix (Fin p) (Fin p) ℝ, IsEcoQR A QG.1 QG.2 := by
  let f : Fin n → EuclideanSpace ℝ (Fin n) := fun k => if h : k.val < p then WithLp.toLp 2 fun i => A i ⟨k, h⟩ else 0
  have hc : Module.finrank ℝ (EuclideanSpace ℝ (Fin n)) = Fintype.card (Fin n) := by simp
  let b := InnerProductSpace.gramSchmidtOrthonormalBasis hc f
  let e : Fin p → Fin n := fun k => ⟨k, lt_of_lt_of_le k.isLt hpn⟩
  have hfe : ∀ k, f (e k) = WithLp.toLp 2 fun i => A i k := fun k => by simp [f, e]
  have hin : ∀ x y : EuclideanSpace ℝ (Fin n), inner ℝ x y = ∑ i, x i * y i := fun x y => by
    rw [PiLp.inner_apply]
    exact Finset.sum_congr rfl fun i _ => by simp [mul_comm]
  refine ⟨(Matrix.of fun i j => b (e j) i, Matrix.of fun j k => inner ℝ (b (e j)) (f (e k))), ?_, ?_, ?_⟩
  · ext i k
    have h1 := b.sum_repr (f (e k))
    have h2 := congrArg (fun z : EuclideanSpace ℝ (Fin n) => z i) h1
    simp only [hfe] at h2
    have h3 : ∑ j : Fin n, (b.repr (f (e k))) j * b j i = A i k := by
      rw [← h2]
      simp [hfe]
    rw [Matrix.mul_apply, ← h3]
    have hz : ∀ j : Fin n, j ∉ Finset.univ.map ⟨e, fun a b h => by simpa [e, Fin.ext_iff] using h⟩ → b.repr (f (e k)) j * b j i = 0 := by
      intro j hj
      have hkj : e k < j := by
        by_contra hlt
        apply hj
        rw [Finset.mem_map]
        have : j.val < p := lt_of_le_of_lt (by simpa [Fin.lt_def, e] using hlt) k.isLt
        exact ⟨⟨j, this⟩, Finset.mem_univ _, rfl⟩
      rw [InnerProductSpace.gramSchmidtOrthonormalBasis_inv_triangular' hc f hkj, zero_mul]
    rw [← Finset.sum_subset (Finset.subset_univ _) (fun j _ hj => hz j hj), Finset.sum_map]
    exact Finset.sum_congr rfl fun j _ => by
      rw [OrthonormalBasis.repr_apply_apply]
      exact mul_comm _ _
  · ext j k
    have h := b.orthonormal
    rw [orthonormal_iff_ite] at h
    have h1 := h (e j) (e k)
    rw [hin] at h1
    rw [Matrix.mul_apply]
    simp only [Matrix.transpose_apply, Matrix.of_apply, Matrix.one_apply]
    rw [h1]
    by_cases hjk : j = k
    · subst hjk; simp
    · have : e j ≠ e k := fun h => hjk (Fin.ext (congrArg (fun z : Fin n => z.val) h))
      rw [if_neg this, if_neg hjk]
  · intro j k hkj
    exact InnerProductSpace.gramSchmidtOrthonormalBasis_inv_triangular hc f (show e k < e j from hkj)

open Classical in
/-- An exact QR routine for all tall matrices. -/
def qrEco (A : Matrix (Fin n) (Fin p) ℝ) : Matrix (Fin n) (Fin p) ℝ × Matrix (Fin p) (Fin p) ℝ :=
  if h : ∃ QG : Matrix (Fin n) (Fin p) ℝ × Matrix (Fin p) (Fin p) ℝ, IsEcoQR A QG.1 QG.2 then h.choose else (0, 0)

theorem qrEco_all (hpn : p ≤ n) : QRAll (qrEco (n := n) (p := p)) := by
  intro A
  unfold qrEco
  rw [dif_pos (ecoQR_exists hpn A)]
  exact (ecoQR_exists hpn A).choose_spec

theorem extremes_exist (hp : 0 < p) (A : Matrix (Fin m) (Fin p) ℝ) : ∃ s, IsExtremes A s := by
  let S : Set (Fin p → ℝ) := {u | u ⬝ᵥ u = 1}
  have hcont : Continuous fun u : Fin p → ℝ => (A *ᵥ u) ⬝ᵥ (A *ᵥ u) := by
    have := Continuous.matrix_mulVec (continuous_const (y := A)) (continuous_id (X := Fin p → ℝ))
    exact this.dotProduct this
  have hcl : IsClosed S := isClosed_eq (continuous_id.dotProduct continuous_id) continuous_const
  have hbd : Bornology.IsBounded S := by
    refine (Metric.isBounded_iff_subset_closedBall 0).2 ⟨1, fun u hu => ?_⟩
    rw [mem_closedBall_zero_iff, pi_norm_le_iff_of_nonneg zero_le_one]
    intro i
    have h1 : u i * u i ≤ u ⬝ᵥ u := Finset.single_le_sum (f := fun i => u i * u i) (fun i _ => mul_self_nonneg _) (Finset.mem_univ i)
    rw [hu] at h1
    rw [Real.norm_eq_abs, ← abs_one (α := ℝ)]
    exact sq_le_sq.1 (by rw [pow_two]; linarith)
  have hco : IsCompact S := Metric.isCompact_of_isClosed_isBounded hcl hbd
  have hne : S.Nonempty := ⟨Pi.single ⟨0, hp⟩ 1, by simp [S]⟩
  obtain ⟨u, hu, humax⟩ := hco.exists_isMaxOn hne hcont.continuousOn
  obtain ⟨v, hv, hvmin⟩ := hco.exists_isMinOn hne hcont.continuousOn
  have h0 : ∀ w : Fin m → ℝ, 0 ≤ w ⬝ᵥ w := fun w => Finset.sum_nonneg fun i _ => mul_self_nonneg _
  refine ⟨(√((A *ᵥ u) ⬝ᵥ (A *ᵥ u)), √((A *ᵥ v) ⬝ᵥ (A *ᵥ v))), ⟨Real.sqrt_nonneg _, Real.sqrt_nonneg _⟩, fun w hw => ?_, ⟨u, hu, ?_⟩, ⟨v, hv, ?_⟩⟩
  · simp only [Real.sq_sqrt (h0 _)]
    exact ⟨hvmin hw, humax hw⟩
  · rw [Real.sq_sqrt (h0 _)]
  · rw [Real.sq_sqrt (h0 _)]

open Classical in
/-- An exact routine for the extreme singular values. -/
def svdStd : Svd p := fun m A => if h : ∃ s, IsExtremes A s then h.choose else (0, 0)

theorem svdStd_ok (hp : 0 < p) : SvdOk (svdStd (p := p)) := by
  intro m A _
  unfold svdStd
  rw [dif_pos (extremes_exist hp A)]
  exact (extremes_exist hp A).choose_spec

/-! ## The test -/

theorem form_gram (A : Matrix (Fin m) (Fin p) ℝ) (u : Fin p → ℝ) : u ⬝ᵥ ((Aᵀ * A) *ᵥ u) = (A *ᵥ u) ⬝ᵥ (A *ᵥ u) := by
  rw [← Matrix.mulVec_mulVec, Matrix.dotProduct_mulVec, Matrix.vecMul_transpose]

theorem extremes_test {A : Matrix (Fin m) (Fin p) ℝ} {s : ℝ × ℝ} (h : IsExtremes A s) {c : ℝ} (hc : 0 < c) : s.2 * c < s.1 ↔ ¬ CondLe (c ^ 2) (Aᵀ * A) := by
  have key : s.2 * c < s.1 ↔ c ^ 2 * s.2 ^ 2 < s.1 ^ 2 := by
    have h2 : 0 ≤ s.2 * c := mul_nonneg h.nonneg.2 hc.le
    rw [← mul_pow, mul_comm c]
    exact (pow_lt_pow_iff_left₀ h2 h.nonneg.1 two_ne_zero).symm
  rw [key]
  unfold CondLe
  push Not
  simp only [form_gram]
  constructor
  · intro hlt
    obtain ⟨u, hu, hu'⟩ := h.large
    obtain ⟨v, hv, hv'⟩ := h.small
    exact ⟨u, v, hu, hv, by rw [hu', hv']; exact hlt⟩
  · rintro ⟨u, v, hu, hv, hlt⟩
    have h1 := (h.le u hu).2
    have h2 := (h.le v hv).1
    have h3 := mul_le_mul_of_nonneg_left h2 (sq_nonneg c)
    linarith

theorem gram_R {R C : Matrix (Fin n) (Fin n) ℝ} {F Q : Matrix (Fin n) (Fin p) ℝ} {G : Matrix (Fin p) (Fin p) ℝ} (hC : IsChol R C) (hq : IsEcoQR (fwdM C F) Q G) : Gᵀ * G = Fᵀ * R⁻¹ * F := by
  have h1 : (Q * G)ᵀ * (Q * G) = Gᵀ * G := by
    rw [Matrix.transpose_mul, Matrix.mul_assoc, ← Matrix.mul_assoc Qᵀ, hq.orth, Matrix.one_mul]
  rw [← h1, hq.mul, fwdM_eq C F hC.lower hC.diag, Matrix.transpose_mul, hC.inv, Matrix.transpose_nonsing_inv]
  simp only [Matrix.mul_assoc]

theorem condTest_eq {svd : Svd p} (hsvd : SvdOk svd) (hpn : p ≤ n) {G : Matrix (Fin p) (Fin p) ℝ} {F : Matrix (Fin n) (Fin p) ℝ} :
    (condTest svd G F = .raised ↔ ¬ CondLe 1e20 (Gᵀ * G) ∧ ¬ CondLe 1e30 (Fᵀ * F)) ∧
    (condTest svd G F = .rejected ↔ ¬ CondLe 1e20 (Gᵀ * G) ∧ CondLe 1e30 (Fᵀ * F)) ∧
    (condTest svd G F = .ok () ↔ CondLe 1e20 (Gᵀ * G)) := by
  have h1 : (svd p G).2 < 1e-10 * (svd p G).1 ↔ ¬ CondLe 1e20 (Gᵀ * G) := by
    have := extremes_test (hsvd p G le_rfl) (c := 1e10) (by norm_num)
    rw [show (1e20 : ℝ) = (1e10 : ℝ) ^ 2 by norm_num, ← this]
    constructor <;> intro h <;> linarith
  have h2 : 1e15 * (svd n F).2 < (svd n F).1 ↔ ¬ CondLe 1e30 (Fᵀ * F) := by
    have := extremes_test (hsvd n F hpn) (c := 1e15) (by norm_num)
    rw [show (1e30 : ℝ) = (1e15 : ℝ) ^ 2 by norm_num, ← this, mul_comm]
  unfold condTest
  dsimp only
  by_cases ha : CondLe 1e20 (Gᵀ * G)
  · rw [if_neg (fun h => h1.1 h ha)]
    simp [ha]
  · rw [if_pos (h1.2 ha)]
    by_cases hb : CondLe 1e30 (Fᵀ * F)
    · rw [if_neg (fun h => h2.1 h hb)]
      simp [ha, hb]
    · rw [if_pos (h2.2 hb)]
      simp [ha, hb]

theorem pd_of_chol {R C : Matrix (Fin n) (Fin n) ℝ} (h : IsChol R C) : Pd R := by
  intro v hv
  have e : v ⬝ᵥ (R *ᵥ v) = (Cᵀ *ᵥ v) ⬝ᵥ (Cᵀ *ᵥ v) := by
    rw [← h.mul, ← form_gram, Matrix.transpose_transpose]
  rw [e]
  have h0 : 0 ≤ (Cᵀ *ᵥ v) ⬝ᵥ (Cᵀ *ᵥ v) := Finset.sum_nonneg fun i _ => mul_self_nonneg _
  refine lt_of_le_of_ne h0 fun h' => hv ?_
  have h1 := dotProduct_self_eq_zero.1 h'.symm
  have hd : IsUnit Cᵀ.det := by rw [Matrix.det_transpose]; exact h.det
  have := congrArg (Cᵀ⁻¹ *ᵥ ·) h1
  simpa [Matrix.mulVec_mulVec, Matrix.nonsing_inv_mul _ hd] using this

/-- A triangular factor that passes the test and has a zero on its diagonal is the zero matrix. -/
theorem zero_of_diag {G : Matrix (Fin p) (Fin p) ℝ} (hU : IsUpper G) {κ : ℝ} (hc : CondLe κ (Gᵀ * G)) (h0 : ∃ i, G i i = 0) : G = 0 := by
  obtain ⟨i, hi⟩ := h0
  have hdet : G.det = 0 := by
    rw [Matrix.det_of_isUpperTriangular (fun a b hab => hU a b (by simpa using hab))]
    exact Finset.prod_eq_zero (Finset.mem_univ i) hi
  obtain ⟨v, hv, hGv⟩ := Matrix.exists_mulVec_eq_zero_iff.2 hdet
  have hvv : 0 < v ⬝ᵥ v := lt_of_le_of_ne (Finset.sum_nonneg fun i _ => mul_self_nonneg _) fun h => hv (dotProduct_self_eq_zero.1 h.symm)
  let w := (√(v ⬝ᵥ v))⁻¹ • v
  have hw : w ⬝ᵥ w = 1 := by
    simp only [w, smul_dotProduct, dotProduct_smul, smul_eq_mul]
    rw [← mul_assoc, ← mul_inv, Real.mul_self_sqrt hvv.le]
    exact inv_mul_cancel₀ hvv.ne'
  have hGw : G *ᵥ w = 0 := by simp only [w, Matrix.mulVec_smul, hGv, smul_zero]
  have hz : ∀ j, G *ᵥ Pi.single j 1 = 0 := by
    intro j
    have := hc (Pi.single j 1) w (by simp) hw
    rw [form_gram, form_gram, hGw, dotProduct_zero, mul_zero] at this
    exact dotProduct_self_eq_zero.1 (le_antisymm this (Finset.sum_nonneg fun i _ => mul_self_nonneg _))
  ext a b
  have := congrFun (hz b) a
  simpa using this

theorem solveChecked_eq {chol : Matrix (Fin n) (Fin n) ℝ → Option (Matrix (Fin n) (Fin n) ℝ)} {qr : Matrix (Fin n) (Fin p) ℝ → Matrix (Fin n) (Fin p) ℝ × Matrix (Fin p) (Fin p) ℝ} {svd : Svd p}
    (hchol : CholOk chol) (hcc : CholComplete chol) (hqr : QRAll qr) (hsvd : SvdOk svd) (hpn : p ≤ n) {R : Matrix (Fin n) (Fin n) ℝ} (hR : Rᵀ = R) {F : Matrix (Fin n) (Fin p) ℝ} (hF : F ≠ 0)
    {α : Type} (body : Matrix (Fin n) (Fin n) ℝ → α) :
    (solveChecked chol qr svd R F body = .raised ↔ Pd R ∧ ¬ CondLe 1e20 (Fᵀ * R⁻¹ * F) ∧ ¬ CondLe 1e30 (Fᵀ * F)) ∧
    (solveChecked chol qr svd R F body = .rejected ↔ ¬ Pd R ∨ (¬ CondLe 1e20 (Fᵀ * R⁻¹ * F) ∧ CondLe 1e30 (Fᵀ * F))) ∧
    (∀ a, solveChecked chol qr svd R F body = .ok a ↔ Pd R ∧ CondLe 1e20 (Fᵀ * R⁻¹ * F) ∧ (chol R).map body = some a) := by
  unfold solveChecked
  cases hC : chol R with
  | none =>
    have hn : ¬ Pd R := fun h => by
      have := hcc R hR h
      rw [hC] at this
      simp at this
    simp [hn]
  | some C =>
    have hch := hchol _ _ hC
    have hpd := pd_of_chol hch
    have hq := hqr (fwdM C F)
    have hg := gram_R hch hq
    obtain ⟨h1, h2, h3⟩ := condTest_eq hsvd hpn (G := (qr (fwdM C F)).2) (F := F)
    rw [hg] at h1 h2 h3
    by_cases hc : CondLe 1e20 (Fᵀ * R⁻¹ * F)
    · have hd : ¬ ∃ i, (qr (fwdM C F)).2 i i = 0 := by
        intro h0
        have hG := zero_of_diag hq.upper (κ := 1e20) (by rw [hg]; exact hc) h0
        have h4 := hq.mul
        rw [hG, Matrix.mul_zero, fwdM_eq C F hch.lower hch.diag] at h4
        apply hF
        have := congrArg (C * ·) h4
        simpa [← Matrix.mul_assoc, Matrix.mul_nonsing_inv _ hch.det] using this.symm
      simp only [h3.2 hc, hd, if_false, hpd, hc, Option.map_some, Option.some.injEq]
      simp
    · by_cases hf : CondLe 1e30 (Fᵀ * F)
      · simp only [h2.2 ⟨hc, hf⟩, hpd, hc, hf]
        simp
      · simp only [h1.2 ⟨hc, hf⟩, hpd, hc, hf]
        simp

/-! ## Quadratic forms of the inverse -/

theorem pd_det {R : Matrix (Fin n) (Fin n) ℝ} (h : Pd R) : IsUnit R.det := by
  rw [isUnit_iff_ne_zero]
  intro h0
  obtain ⟨v, hv, hRv⟩ := Matrix.exists_mulVec_eq_zero_iff.2 h0
  have := h v hv
  rw [hRv, dotProduct_zero] at this
  exact lt_irrefl _ this

theorem inv_form {R : Matrix (Fin n) (Fin n) ℝ} (h : Pd R) (z : Fin n → ℝ) :
    R *ᵥ (R⁻¹ *ᵥ z) = z ∧ z ⬝ᵥ (R⁻¹ *ᵥ z) = (R⁻¹ *ᵥ z) ⬝ᵥ (R *ᵥ (R⁻¹ *ᵥ z)) := by
  have e : R *ᵥ (R⁻¹ *ᵥ z) = z := by rw [Matrix.mulVec_mulVec, Matrix.mul_nonsing_inv _ (pd_det h), Matrix.one_mulVec]
  refine ⟨e, ?_⟩
  rw [e, dotProduct_comm]

theorem form_F (R : Matrix (Fin n) (Fin n) ℝ) (F : Matrix (Fin n) (Fin p) ℝ) (u : Fin p → ℝ) : u ⬝ᵥ ((Fᵀ * R⁻¹ * F) *ᵥ u) = (F *ᵥ u) ⬝ᵥ (R⁻¹ *ᵥ (F *ᵥ u)) := by
  rw [← Matrix.mulVec_mulVec, ← Matrix.mulVec_mulVec, Matrix.dotProduct_mulVec, Matrix.vecMul_transpose]

theorem inv_form_zero {R : Matrix (Fin n) (Fin n) ℝ} (h : Pd R) {z : Fin n → ℝ} (hz : z ⬝ᵥ (R⁻¹ *ᵥ z) ≤ 0) : z = 0 := by
  obtain ⟨h1, h2⟩ := inv_form h z
  rw [h2] at hz
  by_cases hw : R⁻¹ *ᵥ z = 0
  · rw [← h1, hw, Matrix.mulVec_zero]
  · exact absurd (h _ hw) (not_lt.2 hz)

theorem unit_of {v : Fin p → ℝ} (hv : v ≠ 0) : ∃ c : ℝ, (c • v) ⬝ᵥ (c • v) = 1 := by
  have hvv : 0 < v ⬝ᵥ v := lt_of_le_of_ne (Finset.sum_nonneg fun i _ => mul_self_nonneg _) fun h => hv (dotProduct_self_eq_zero.1 h.symm)
  refine ⟨(√(v ⬝ᵥ v))⁻¹, ?_⟩
  simp only [smul_dotProduct, dotProduct_smul, smul_eq_mul]
  rw [← mul_assoc, ← mul_inv, Real.mul_self_sqrt hvv.le]
  exact inv_mul_cancel₀ hvv.ne'

/-- A trend matrix of deficient rank fails both tests, whatever the limits. -/
theorem not_cond_of_deficient {R : Matrix (Fin n) (Fin n) ℝ} (h : Pd R) {F : Matrix (Fin n) (Fin p) ℝ} (hF : F ≠ 0) {v : Fin p → ℝ} (hv : v ≠ 0) (hFv : F *ᵥ v = 0) (κ : ℝ) :
    ¬ CondLe κ (Fᵀ * R⁻¹ * F) ∧ ¬ CondLe κ (Fᵀ * F) := by
  obtain ⟨c, hc⟩ := unit_of hv
  have h0 : F *ᵥ (c • v) = 0 := by rw [Matrix.mulVec_smul, hFv, smul_zero]
  constructor <;> intro hcond <;> apply hF <;> ext a b
  · have := hcond (Pi.single b 1) (c • v) (by simp) hc
    rw [form_F, form_F, h0, zero_dotProduct, mul_zero] at this
    have := congrFun (inv_form_zero h this) a
    simpa using this
  · have := hcond (Pi.single b 1) (c • v) (by simp) hc
    rw [form_gram, form_gram, h0, zero_dotProduct, mul_zero] at this
    have := congrFun (dotProduct_self_eq_zero.1 (le_antisymm this (Finset.sum_nonneg fun i _ => mul_self_nonneg _))) a
    simpa using this

theorem cs (a b : Fin n → ℝ) : (a ⬝ᵥ b) ^ 2 ≤ (a ⬝ᵥ a) * (b ⬝ᵥ b) := by
  have := Finset.sum_mul_sq_le_sq_mul_sq Finset.univ a b
  simp only [dotProduct]
  calc (∑ i, a i * b i) ^ 2 ≤ (∑ i, a i ^ 2) * ∑ i, b i ^ 2 := this
    _ = _ := by simp only [pow_two]

/-- Bounds of the inverse form from bounds of the form. -/
theorem inv_bounds {R C : Matrix (Fin n) (Fin n) ℝ} (hC : IsChol R C) {lo hi : ℝ} (hlo : 0 < lo) (hl : ∀ w, lo * (w ⬝ᵥ w) ≤ w ⬝ᵥ (R *ᵥ w)) (hh : ∀ w, w ⬝ᵥ (R *ᵥ w) ≤ hi * (w ⬝ᵥ w))
    (z : Fin n → ℝ) : lo * (z ⬝ᵥ (R⁻¹ *ᵥ z)) ≤ z ⬝ᵥ z ∧ z ⬝ᵥ z ≤ hi * (z ⬝ᵥ (R⁻¹ *ᵥ z)) := by
  have hpd := pd_of_chol hC
  obtain ⟨h1, h2⟩ := inv_form hpd z
  set w := R⁻¹ *ᵥ z with hw
  have hRf : ∀ a b : Fin n → ℝ, a ⬝ᵥ (R *ᵥ b) = (Cᵀ *ᵥ a) ⬝ᵥ (Cᵀ *ᵥ b) := fun a b => by
    rw [← hC.mul, ← Matrix.mulVec_mulVec, Matrix.dotProduct_mulVec, ← Matrix.mulVec_transpose]
  have hz0 : 0 ≤ z ⬝ᵥ z := Finset.sum_nonneg fun i _ => mul_self_nonneg _
  have hww : 0 ≤ w ⬝ᵥ w := Finset.sum_nonneg fun i _ => mul_self_nonneg _
  have hq0 : 0 ≤ z ⬝ᵥ w := by
    rw [h2]
    exact le_trans (mul_nonneg hlo.le hww) (hl w)
  constructor
  · have a1 := cs z w
    have a2 := hl w
    rw [← h2] at a2
    rcases eq_or_lt_of_le hq0 with h0 | h0
    · rw [← h0, mul_zero]; exact hz0
    · have a3 : lo * (z ⬝ᵥ w) ^ 2 ≤ (z ⬝ᵥ z) * (z ⬝ᵥ w) :=
        calc lo * (z ⬝ᵥ w) ^ 2 ≤ lo * ((z ⬝ᵥ z) * (w ⬝ᵥ w)) := mul_le_mul_of_nonneg_left a1 hlo.le
          _ = (z ⬝ᵥ z) * (lo * (w ⬝ᵥ w)) := by ring
          _ ≤ (z ⬝ᵥ z) * (z ⬝ᵥ w) := mul_le_mul_of_nonneg_left a2 hz0
      have a4 : (lo * (z ⬝ᵥ w)) * (z ⬝ᵥ w) ≤ (z ⬝ᵥ z) * (z ⬝ᵥ w) := by
        rw [mul_assoc, ← pow_two]; exact a3
      exact le_of_mul_le_mul_right a4 h0
  · have b1 : z ⬝ᵥ z = (Cᵀ *ᵥ z) ⬝ᵥ (Cᵀ *ᵥ w) := by rw [← hRf, h1]
    have b2 := cs (Cᵀ *ᵥ z) (Cᵀ *ᵥ w)
    rw [← b1, ← hRf, ← hRf, ← h2] at b2
    have b3 := hh z
    rcases eq_or_lt_of_le hz0 with h0 | h0
    · have hz : z = 0 := dotProduct_self_eq_zero.1 h0.symm
      have : z ⬝ᵥ w = 0 := by rw [hz, zero_dotProduct]
      rw [← h0, this, mul_zero]
    · have b4 : (z ⬝ᵥ z) * (z ⬝ᵥ z) ≤ (hi * (z ⬝ᵥ w)) * (z ⬝ᵥ z) :=
        calc (z ⬝ᵥ z) * (z ⬝ᵥ z) = (z ⬝ᵥ z) ^ 2 := by ring
          _ ≤ (z ⬝ᵥ (R *ᵥ z)) * (z ⬝ᵥ w) := b2
          _ ≤ (hi * (z ⬝ᵥ z)) * (z ⬝ᵥ w) := mul_le_mul_of_nonneg_right b3 hq0
          _ = _ := by ring
      exact le_of_mul_le_mul_right b4 h0

/-- A positive semi-definite kernel with value 1 at 0 is bounded by 1. -/
theorem psd_abs_le {kern : (Fin nx → ℝ) → ℝ} (heven : ∀ d, kern (fun q => -d q) = kern d) (hone : kern (fun _ => 0) = 1) (hk : PsdKernel kern) (d : Fin nx → ℝ) : |kern d| ≤ 1 := by
  have key : ∀ t : ℝ, 0 ≤ 1 + t ^ 2 + 2 * t * kern d := by
    intro t
    have := hk 2 ![d, fun _ => 0] ![1, t]
    simp only [Fin.sum_univ_two, Matrix.cons_val_zero, Matrix.cons_val_one, sub_self, sub_zero, zero_sub, hone, heven] at this
    linarith
  have h1 := key 1
  have h2 := key (-1)
  rw [abs_le]
  constructor <;> linarith

theorem corrR_bounds {kern : (Fin nx → ℝ) → ℝ} (heven : ∀ d, kern (fun q => -d q) = kern d) (hone : kern (fun _ => 0) = 1) (hk : PsdKernel kern) {nugget lo hi : ℝ} {noise : Fin n → ℝ}
    (hlo : ∀ i, lo ≤ nugget + noise i) (hhi : ∀ i, nugget + noise i ≤ hi) (Xn : Fin n → Fin nx → ℝ) (w : Fin n → ℝ) :
    lo * (w ⬝ᵥ w) ≤ w ⬝ᵥ (corrR kern nugget noise Xn *ᵥ w) ∧ w ⬝ᵥ (corrR kern nugget noise Xn *ᵥ w) ≤ (n + hi) * (w ⬝ᵥ w) := by
  rw [corrR_form kern heven hone]
  have e : w ⬝ᵥ w = ∑ i, w i ^ 2 := by simp only [dotProduct, pow_two]
  constructor
  · have h1 := hk n Xn w
    have h2 : lo * (w ⬝ᵥ w) ≤ ∑ i, w i ^ 2 * (nugget + noise i) := by
      rw [e, Finset.mul_sum]
      exact Finset.sum_le_sum fun i _ => by rw [mul_comm]; exact mul_le_mul_of_nonneg_left (hlo i) (sq_nonneg _)
    linarith
  · have h2 : ∑ i, w i ^ 2 * (nugget + noise i) ≤ hi * (w ⬝ᵥ w) := by
      rw [e, Finset.mul_sum]
      exact Finset.sum_le_sum fun i _ => by rw [mul_comm hi]; exact mul_le_mul_of_nonneg_left (hhi i) (sq_nonneg _)
    have h3 : ∑ i, ∑ j, w i * w j * (kern fun q => Xn i q - Xn j q) ≤ ∑ i, ∑ j, (w i ^ 2 + w j ^ 2) / 2 := by
      refine Finset.sum_le_sum fun i _ => Finset.sum_le_sum fun j _ => ?_
      have hb := psd_abs_le heven hone hk fun q => Xn i q - Xn j q
      have h4 : w i * w j * (kern fun q => Xn i q - Xn j q) ≤ |w i * w j| := by
        calc _ ≤ |w i * w j * (kern fun q => Xn i q - Xn j q)| := le_abs_self _
          _ = |w i * w j| * |kern fun q => Xn i q - Xn j q| := abs_mul _ _
          _ ≤ |w i * w j| * 1 := mul_le_mul_of_nonneg_left hb (abs_nonneg _)
          _ = _ := mul_one _
      have h5 : |w i * w j| ≤ (w i ^ 2 + w j ^ 2) / 2 := by
        rw [abs_le]
        constructor
        · have := sq_nonneg (w i + w j); linarith [this, (by ring : (w i + w j) ^ 2 = w i ^ 2 + 2 * (w i * w j) + w j ^ 2)]
        · have := sq_nonneg (w i - w j); linarith [this, (by ring : (w i - w j) ^ 2 = w i ^ 2 - 2 * (w i * w j) + w j ^ 2)]
      exact h4.trans h5
    have h6 : ∑ i : Fin n, ∑ j : Fin n, (w i ^ 2 + w j ^ 2) / 2 = n * (w ⬝ᵥ w) := by
      rw [e]
      have a : ∀ i : Fin n, ∑ j : Fin n, (w i ^ 2 + w j ^ 2) / 2 = n * (w i ^ 2 / 2) + (∑ j, w j ^ 2) / 2 := fun i => by
        rw [← Finset.sum_div, Finset.sum_add_distrib]
        simp only [Finset.sum_const, Finset.card_univ, Fintype.card_fin, nsmul_eq_mul]
        ring
      simp only [a, Finset.sum_add_distrib, Finset.sum_const, Finset.card_univ, Fintype.card_fin, nsmul_eq_mul, ← Finset.mul_sum, ← Finset.sum_div]
      ring
    linarith

end

end SMT.Krg
