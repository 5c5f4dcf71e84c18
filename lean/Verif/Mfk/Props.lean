import Verif.Mfk.Model
import Verif.Kriging.DerivProps
import Verif.Kriging.Definite

set_option linter.unusedSectionVars false
set_option linter.unusedSimpArgs false
set_option linter.unusedVariables false

/-!
# C69–C71: multi-fidelity co-Kriging
-/
namespace SMT.Mfk
open Matrix SMT.Common SMT.Krg

variable {nx p q m : ℕ}

/-! ## Assumptions on scipy, correlation matrix of a level -/

/-- Cholesky and QR are exact, for every size. -/
structure LinOk (lin : Lin) : Prop where
  chol : ∀ n, CholOk (lin.chol (n := n))
  qr : ∀ n p, QROk (lin.qr (n := n) (p := p))

/-- The correlation matrix of a level: kernel between its standardised training points, `1 + nugget + noise` on the diagonal. -/
noncomputable def Lvl.R (nugget : ℝ) (L : Lvl nx m) : Matrix (Fin L.n) (Fin L.n) ℝ := corrR L.kern nugget L.noise L.Xn

theorem dot_self_inv {n : ℕ} (A : Matrix (Fin n) (Fin n) ℝ) (b : Fin n → ℝ) : ∑ k, (A *ᵥ b) k ^ 2 = b ⬝ᵥ ((Aᵀ * A) *ᵥ b) := by
  rw [← Matrix.mulVec_mulVec, Matrix.dotProduct_mulVec, Matrix.vecMul_transpose]
  exact Finset.sum_congr rfl fun k _ => sq _

/-- What training a level establishes, in matrix notation. -/
structure Lvl.Solved (nugget yStd : ℝ) (L : Lvl nx m) : Prop where
  size : m < L.n
  det : IsUnit (L.R nugget).det
  symm : (L.R nugget)ᵀ = L.R nugget
  gls : (L.R nugget) *ᵥ L.par.gamma = L.yn - L.F *ᵥ L.par.beta
  rt2 : ∀ xn, L.rt2 xn = L.corr xn ⬝ᵥ ((L.R nugget)⁻¹ *ᵥ L.corr xn)
  gram : L.par.Gᵀ * L.par.G = L.Fᵀ * (L.R nugget)⁻¹ * L.F
  detG : IsUnit L.par.G.det
  u2 : ∀ xn f, L.u2 xn f = (L.Fᵀ *ᵥ ((L.R nugget)⁻¹ *ᵥ L.corr xn) - f) ⬝ᵥ ((L.Fᵀ * (L.R nugget)⁻¹ * L.F)⁻¹ *ᵥ (L.Fᵀ *ᵥ ((L.R nugget)⁻¹ *ᵥ L.corr xn) - f))
  sigma2 : L.par.sigma2 = L.q2 / ((L.n : ℝ) - m) * yStd ^ 2

theorem trainLevel_eq {lin : Lin} {nugget : ℝ} {xOS : Fin nx → ℝ × ℝ} {yOS : ℝ × ℝ} {trend : (Fin nx → ℝ) → Fin m → ℝ} {d : Data nx} {L : Lvl nx m}
    (h : trainLevel lin nugget xOS yOS trend d = some L) :
    m < d.n ∧ ∃ C, lin.chol (corrR d.kern nugget d.noise fun i j => normalise (xOS j) (d.X i j)) = some C ∧
      L = { n := d.n, Xn := fun i j => normalise (xOS j) (d.X i j), yn := fun i => normalise yOS (d.y i), kern := d.kern, theta := d.theta, noise := d.noise,
            F := Matrix.of fun i => trend fun j => normalise (xOS j) (d.X i j),
            par := blup C lin.qr (Matrix.of fun i => trend fun j => normalise (xOS j) (d.X i j)) (fun i => normalise yOS (d.y i)) yOS.2 ((d.n : ℝ) - m) } := by
  unfold trainLevel at h
  simp only at h
  split_ifs at h with h1
  obtain ⟨C, hC, rfl⟩ := Option.map_eq_some_iff.1 h
  exact ⟨not_le.1 h1, C, hC, rfl⟩

theorem trainLevel_solved {lin : Lin} (hlin : LinOk lin) {nugget : ℝ} {xOS : Fin nx → ℝ × ℝ} {yOS : ℝ × ℝ} {trend : (Fin nx → ℝ) → Fin m → ℝ} {d : Data nx} {L : Lvl nx m}
    (h : trainLevel lin nugget xOS yOS trend d = some L) (hF : FullRank L.F) : L.Solved nugget yOS.2 := by
  obtain ⟨hn, C, hC, rfl⟩ := trainLevel_eq h
  have hCh := hlin.chol _ _ _ hC
  have hqr := hlin.qr _ _ _ (fullRank_fwdM hCh hF)
  simp only at hqr
  set Xn : Fin d.n → Fin nx → ℝ := fun i j => normalise (xOS j) (d.X i j) with hXn
  set F : Matrix (Fin d.n) (Fin m) ℝ := Matrix.of fun i => trend fun j => normalise (xOS j) (d.X i j) with hFd
  set yn : Fin d.n → ℝ := fun i => normalise yOS (d.y i) with hyn
  have hb := C39_blup (F := F) (y := yn) (yStd := yOS.2) (dof := (d.n : ℝ) - m) hCh hqr
  have hg := gram_eq (F := F) (y := yn) (yStd := yOS.2) (dof := (d.n : ℝ) - m) hCh hqr
  obtain ⟨e1, e2, e3, e4, e5, e6, e7, e8, e9⟩ := blup_eq (F := F) (y := yn) (yStd := yOS.2) (dof := (d.n : ℝ) - m) hCh hqr
  set P := blup C lin.qr F yn yOS.2 ((d.n : ℝ) - m) with hP
  have hdG : IsUnit P.G.det := det_ne_of_upper P.G e6 e7
  have hdGT : IsUnit P.Gᵀ.det := by rw [Matrix.det_transpose]; exact hdG
  have hlowG : IsLower P.Gᵀ := fun i j hij => e6 j i hij
  have hinv : (P.Gᵀ * P.G)⁻¹ = (P.Gᵀ⁻¹)ᵀ * P.Gᵀ⁻¹ := by
    rw [Matrix.mul_inv_rev, Matrix.transpose_nonsing_inv, Matrix.transpose_transpose]
  have hRinv : (corrR d.kern nugget d.noise Xn)⁻¹ = (C⁻¹)ᵀ * C⁻¹ := by
    rw [hCh.inv, Matrix.transpose_nonsing_inv]
  refine ⟨hn, hCh.detR, hCh.symm, hb.1, fun xn => ?_, hg, hdG, fun xn f => ?_, ?_⟩
  · unfold Lvl.rt2 Lvl.R
    simp only [e8]
    rw [fwd_eq_inv C _ hCh.lower hCh.diag, dot_self_inv, hRinv]
  · unfold Lvl.u2 Lvl.R
    simp only [e8]
    rw [fwd_eq_inv P.Gᵀ _ hlowG e7, dot_self_inv, ← hinv, hg, fwdM_eq C F hCh.lower hCh.diag, fwd_eq_inv C _ hCh.lower hCh.diag]
    have ev : (C⁻¹ * F)ᵀ *ᵥ (C⁻¹ *ᵥ Lvl.corr ⟨d.n, Xn, yn, d.kern, d.theta, d.noise, F, P⟩ xn)
        = Fᵀ *ᵥ ((corrR d.kern nugget d.noise Xn)⁻¹ *ᵥ Lvl.corr ⟨d.n, Xn, yn, d.kern, d.theta, d.noise, F, P⟩ xn) := by
      rw [hRinv, Matrix.transpose_mul, Matrix.mulVec_mulVec, Matrix.mulVec_mulVec, Matrix.mul_assoc]
    rw [ev]
    set w := Fᵀ *ᵥ ((corrR d.kern nugget d.noise Xn)⁻¹ *ᵥ Lvl.corr ⟨d.n, Xn, yn, d.kern, d.theta, d.noise, F, P⟩ xn)
    have : f - w = -(w - f) := by abel
    rw [this, Matrix.mulVec_neg, dotProduct_neg, neg_dotProduct, neg_neg]
  · unfold Lvl.q2
    simp only [e8]
    rw [e9, fwd_eq_inv C _ hCh.lower hCh.diag, fwdM_eq C F hCh.lower hCh.diag]

/-! ## Levels of a trained model -/

theorem mu_snoc (poly : (Fin nx → ℝ) → Fin p → ℝ) (rho : (Fin nx → ℝ) → Fin q → ℝ) (base : Lvl nx p) (rest : List (Lvl nx (q + p))) (L : Lvl nx (q + p)) (xn : Fin nx → ℝ) :
    mu poly rho base (rest ++ [L]) xn = L.mean xn (regr poly rho (mu poly rho base rest) xn) := by
  unfold mu; rw [List.foldl_append]; rfl

theorem trainRest_get {lin : Lin} {nugget : ℝ} {xOS : Fin nx → ℝ × ℝ} {yOS : ℝ × ℝ} {poly : (Fin nx → ℝ) → Fin p → ℝ} {rho : (Fin nx → ℝ) → Fin q → ℝ} {base : Lvl nx p}
    (ds : List (Data nx)) : ∀ rest, trainRest lin nugget xOS yOS poly rho base ds = some rest →
    rest.length = ds.length ∧ ∀ l (h : l < ds.length) (h' : l < rest.length),
      trainLevel lin nugget xOS yOS (regr poly rho (mu poly rho base (rest.take l))) ds[l] = some rest[l] := by
  induction ds using List.reverseRecOn with
  | nil =>
    intro rest h
    simp only [trainRest, List.foldlM_nil, Option.pure_def, Option.some.injEq] at h
    subst h
    exact ⟨rfl, fun l h => by simp at h⟩
  | append_singleton ds d ih =>
    intro rest h
    unfold trainRest at h ih
    rw [List.foldlM_append] at h
    obtain ⟨acc, h1, h2⟩ := Option.bind_eq_some_iff.1 h
    simp only [List.foldlM_cons, List.foldlM_nil, Option.bind_eq_bind, Option.bind_eq_some_iff, Option.pure_def, Option.some.injEq, Option.map_eq_some_iff] at h2
    obtain ⟨a, ⟨L, hL, rfl⟩, rfl⟩ := h2
    obtain ⟨i1, i2⟩ := ih acc h1
    refine ⟨by simp [i1], fun l hl hl' => ?_⟩
    by_cases hlt : l < ds.length
    · have hlt' : l < acc.length := by omega
      have := i2 l hlt hlt'
      rw [List.take_append_of_le_length hlt'.le]
      simpa [List.getElem_append_left hlt, List.getElem_append_left hlt'] using this
    · have hle : l = ds.length := by simp at hl; omega
      subst hle
      have e : (acc ++ [L]).take ds.length = acc := by rw [← i1]; simp
      rw [e]
      simpa [i1] using hL

/-- **C69** Autoregressive form on the physical scale: every level predicts a scale factor (regression functions `rho_regr` times their coefficients) times the prediction of the level below
(relative to the mean response), plus a discrepancy made of its own trend and correlation terms. -/
theorem C69_recursion (M : Mfk nx p q) (l : ℕ) (hl : l < M.rest.length) (x : Fin nx → ℝ) :
    M.level (l + 2) x = M.yOS.1 + (∑ k, M.rho (M.norm x) k * M.rest[l].par.beta (Fin.castAdd p k)) * (M.level (l + 1) x - M.yOS.1)
      + M.yOS.2 * (∑ j, M.poly (M.norm x) j * M.rest[l].par.beta (Fin.natAdd q j) + ∑ i, M.rest[l].kern (fun j => M.norm x j - M.rest[l].Xn i j) * M.rest[l].par.gamma i) := by
  unfold Mfk.level
  have e : M.rest.take (l + 2 - 1) = M.rest.take (l + 1 - 1) ++ [M.rest[l]] := by
    rw [show l + 2 - 1 = l + 1 from rfl, show l + 1 - 1 = l from rfl, List.take_add_one, List.getElem?_eq_getElem hl]; rfl
  rw [e, mu_snoc]
  unfold Lvl.mean regr Lvl.corr dotProduct
  rw [Fin.sum_univ_add]
  simp only [Fin.append_left, Fin.append_right]
  have : ∑ k, M.rho (M.norm x) k * mu M.poly M.rho M.base (M.rest.take (l + 1 - 1)) (M.norm x) * M.rest[l].par.beta (Fin.castAdd p k)
      = (∑ k, M.rho (M.norm x) k * M.rest[l].par.beta (Fin.castAdd p k)) * mu M.poly M.rho M.base (M.rest.take (l + 1 - 1)) (M.norm x) := by
    rw [Finset.sum_mul]; exact Finset.sum_congr rfl fun k _ => by ring
  rw [this]
  ring

/-- Offset and scale used by training, from the data of all levels together. -/
noncomputable def xScaling (d0 : Data nx) (ds : List (Data nx)) : Fin nx → ℝ × ℝ := fun j => scalingL ((d0 :: ds).flatMap fun d => List.ofFn fun i => d.X i j)
noncomputable def yScaling (d0 : Data nx) (ds : List (Data nx)) : ℝ × ℝ := scalingL ((d0 :: ds).flatMap fun d => List.ofFn d.y)

theorem train_eq {lin : Lin} {nugget : ℝ} {poly : (Fin nx → ℝ) → Fin p → ℝ} {rho : (Fin nx → ℝ) → Fin q → ℝ} {d0 : Data nx} {ds : List (Data nx)} {M : Mfk nx p q}
    (h : train lin nugget poly rho d0 ds = some M) :
    M.xOS = xScaling d0 ds ∧ M.yOS = yScaling d0 ds ∧ M.poly = poly ∧ M.rho = rho ∧ trainLevel lin nugget M.xOS M.yOS poly d0 = some M.base ∧
      trainRest lin nugget M.xOS M.yOS poly rho M.base ds = some M.rest := by
  unfold train at h
  simp only at h
  split at h
  · simp at h
  · rename_i base hb
    obtain ⟨rest, hr, rfl⟩ := Option.map_eq_some_iff.1 h
    exact ⟨rfl, rfl, rfl, rfl, hb, hr⟩

theorem mean_at_training {lin : Lin} (hlin : LinOk lin) {nugget : ℝ} {xOS : Fin nx → ℝ × ℝ} {yOS : ℝ × ℝ} {trend : (Fin nx → ℝ) → Fin m → ℝ} {d : Data nx} {L : Lvl nx m}
    (h : trainLevel lin nugget xOS yOS trend d = some L) (hF : FullRank L.F) (heven : ∀ v, d.kern (fun k => -v k) = d.kern v) (hone : d.kern (fun _ => 0) = 1) :
    ∃ e : L.n = d.n, ∀ i : Fin d.n,
      L.mean (fun j => normalise (xOS j) (d.X i j)) (trend fun j => normalise (xOS j) (d.X i j))
        = normalise yOS (d.y i) - (nugget + d.noise i) * L.par.gamma (Fin.cast e.symm i) := by
  have hs := trainLevel_solved hlin h hF
  obtain ⟨hn, C, hC, rfl⟩ := trainLevel_eq h
  refine ⟨rfl, fun i => ?_⟩
  have h1 := congrFun hs.gls i
  unfold Lvl.R at h1
  simp only [Pi.sub_apply] at h1
  unfold Lvl.mean Lvl.corr
  simp only [Fin.cast_eq_self]
  set P := blup C lin.qr (Matrix.of fun i => trend fun j => normalise (xOS j) (d.X i j)) (fun i => normalise yOS (d.y i)) yOS.2 ((d.n : ℝ) - m) with hP
  have hc : (fun j => d.kern fun k => normalise (xOS k) (d.X i k) - normalise (xOS k) (d.X j k)) ⬝ᵥ P.gamma
      = (corrR d.kern nugget d.noise (fun i j => normalise (xOS j) (d.X i j)) *ᵥ P.gamma) i - (nugget + d.noise i) * P.gamma i := by
    have e : ∀ j, (d.kern fun k => normalise (xOS k) (d.X i k) - normalise (xOS k) (d.X j k))
        = corrR d.kern nugget d.noise (fun i j => normalise (xOS j) (d.X i j)) i j - if i = j then nugget + d.noise i else 0 := fun j => by
      rw [corrR_apply d.kern heven]
      by_cases h : i = j
      · subst h; simp [hone]
      · simp [h]
    simp only [e, dotProduct, Matrix.mulVec, sub_mul, Finset.sum_sub_distrib, ite_mul, zero_mul, Finset.sum_ite_eq, Finset.mem_univ, if_true]
  rw [hc]
  have hf : (trend fun j => normalise (xOS j) (d.X i j)) ⬝ᵥ P.beta = ((Matrix.of fun i => trend fun j => normalise (xOS j) (d.X i j)) *ᵥ P.beta) i := rfl
  rw [hf]
  have h2 := congrFun hs.gls i
  simp only [Lvl.R, Pi.sub_apply] at h2
  linarith [h2]

/-- A kernel is even and 1 at the origin (all kernels of the code are, `C39_kernels`). -/
def GoodKernel (k : (Fin nx → ℝ) → ℝ) : Prop := (∀ v, k (fun j => -v j) = k v) ∧ k (fun _ => 0) = 1

theorem descale (os : ℝ × ℝ) (h : os.2 ≠ 0) (v e : ℝ) : (normalise os v - e) * os.2 + os.1 = v - os.2 * e := by
  unfold normalise; field_simp; ring

theorem yScaling_ne (d0 : Data nx) (ds : List (Data nx)) : (yScaling d0 ds).2 ≠ 0 := scaling_ne _

theorem xScaling_ne (d0 : Data nx) (ds : List (Data nx)) (j : Fin nx) : (xScaling d0 ds j).2 ≠ 0 := scaling_ne _

/-- **C69** Prediction of every fidelity level at its own training points, any nugget and noise: the level-`l` prediction differs from the training output only by the regularisation term
`y_std (nugget + noise) γ`. Level 0 and the levels above it. -/
theorem C69_training_prediction {lin : Lin} (hlin : LinOk lin) {nugget : ℝ} {poly : (Fin nx → ℝ) → Fin p → ℝ} {rho : (Fin nx → ℝ) → Fin q → ℝ} {d0 : Data nx} {ds : List (Data nx)} {M : Mfk nx p q}
    (hM : train lin nugget poly rho d0 ds = some M) (hF0 : FullRank M.base.F) (hF : ∀ L ∈ M.rest, FullRank L.F) (hk0 : GoodKernel d0.kern) (hk : ∀ d ∈ ds, GoodKernel d.kern) :
    (∃ e : M.base.n = d0.n, ∀ i, M.level 1 (d0.X i) = d0.y i - M.yOS.2 * ((nugget + d0.noise i) * M.base.par.gamma (Fin.cast e.symm i))) ∧
    M.rest.length = ds.length ∧
    ∀ l (h : l < ds.length) (h' : l < M.rest.length), ∃ e : M.rest[l].n = ds[l].n,
      ∀ i, M.level (l + 2) (ds[l].X i) = ds[l].y i - M.yOS.2 * ((nugget + ds[l].noise i) * M.rest[l].par.gamma (Fin.cast e.symm i)) := by
  obtain ⟨e1, e2, e3, e4, hb, hr⟩ := train_eq hM
  have hy : M.yOS.2 ≠ 0 := by rw [e2]; exact yScaling_ne d0 ds
  obtain ⟨r1, r2⟩ := trainRest_get ds M.rest hr
  refine ⟨?_, r1, fun l h h' => ?_⟩
  · obtain ⟨e, he⟩ := mean_at_training hlin hb hF0 hk0.1 hk0.2
    refine ⟨e, fun i => ?_⟩
    have hm : mu M.poly M.rho M.base (M.rest.take (1 - 1)) (M.norm (d0.X i)) = M.base.mean (fun j => normalise (M.xOS j) (d0.X i j)) (poly fun j => normalise (M.xOS j) (d0.X i j)) := by
      show mu M.poly M.rho M.base (M.rest.take 0) _ = _
      rw [List.take_zero, e3]; rfl
    unfold Mfk.level
    rw [hm, he i, descale _ hy]
  · obtain ⟨e, he⟩ := mean_at_training hlin (r2 l h h') (hF _ (List.getElem_mem h')) (hk _ (List.getElem_mem h)).1 (hk _ (List.getElem_mem h)).2
    refine ⟨e, fun i => ?_⟩
    unfold Mfk.level
    have ht : M.rest.take (l + 2 - 1) = M.rest.take l ++ [M.rest[l]] := by
      rw [show l + 2 - 1 = l + 1 from rfl, List.take_add_one, List.getElem?_eq_getElem h']; rfl
    rw [ht, mu_snoc, e3, e4]
    have := he i
    unfold Mfk.norm
    rw [this, descale _ hy]

/-- **C69** Interpolation: without nugget and noise, the prediction of each level at its own training points is the training output; in particular `predict_values` interpolates the
highest-fidelity data. -/
theorem C69_interpolates {lin : Lin} (hlin : LinOk lin) {poly : (Fin nx → ℝ) → Fin p → ℝ} {rho : (Fin nx → ℝ) → Fin q → ℝ} {d0 : Data nx} {ds : List (Data nx)} {M : Mfk nx p q}
    (hM : train lin 0 poly rho d0 ds = some M) (hF0 : FullRank M.base.F) (hF : ∀ L ∈ M.rest, FullRank L.F) (hk : ∀ d ∈ d0 :: ds, GoodKernel d.kern)
    (hnoise : ∀ d ∈ d0 :: ds, ∀ i, d.noise i = 0) (l : ℕ) (h : l < (d0 :: ds).length) (i : Fin ((d0 :: ds)[l]).n) :
    M.level (l + 1) (((d0 :: ds)[l]).X i) = ((d0 :: ds)[l]).y i := by
  obtain ⟨⟨e0, h0⟩, hlen, h1⟩ := C69_training_prediction hlin hM hF0 hF (hk d0 (by simp)) (fun d hd => hk d (by simp [hd]))
  cases l with
  | zero =>
    have := h0 i
    rw [hnoise d0 (by simp)] at this
    simpa using this
  | succ l =>
    have hl : l < ds.length := by simpa using h
    obtain ⟨e, he⟩ := h1 l hl (by omega)
    have := he i
    rw [hnoise ds[l] (by simp)] at this
    simpa using this

/-- **C69** `predict_values` interpolates the highest-fidelity training data. -/
theorem C69_high_fidelity {lin : Lin} (hlin : LinOk lin) {poly : (Fin nx → ℝ) → Fin p → ℝ} {rho : (Fin nx → ℝ) → Fin q → ℝ} {d0 : Data nx} {ds : List (Data nx)} {M : Mfk nx p q}
    (hM : train lin 0 poly rho d0 ds = some M) (hF0 : FullRank M.base.F) (hF : ∀ L ∈ M.rest, FullRank L.F) (hk : ∀ d ∈ d0 :: ds, GoodKernel d.kern)
    (hnoise : ∀ d ∈ d0 :: ds, ∀ i, d.noise i = 0) (i : Fin (((d0 :: ds).getLast (by simp)).n)) :
    M.predict (((d0 :: ds).getLast (by simp)).X i) = ((d0 :: ds).getLast (by simp)).y i := by
  obtain ⟨-, hlen, -⟩ := C69_training_prediction hlin hM hF0 hF (hk d0 (by simp)) (fun d hd => hk d (by simp [hd]))
  have hg := List.getLast_eq_getElem (l := d0 :: ds) (by simp)
  have key := C69_interpolates hlin hM hF0 hF hk hnoise ((d0 :: ds).length - 1) (by simp)
  unfold Mfk.predict
  rw [hlen]
  have key' : ∀ d, d = (d0 :: ds)[(d0 :: ds).length - 1] → ∀ i : Fin d.n, M.level (ds.length + 1) (d.X i) = d.y i := by
    rintro _ rfl i
    exact key i
  exact key' _ hg i

/-- **C69** Every level needs more training points than regressors; otherwise training raises. -/
theorem C69_too_few_points {lin : Lin} {nugget : ℝ} {poly : (Fin nx → ℝ) → Fin p → ℝ} {rho : (Fin nx → ℝ) → Fin q → ℝ} {d0 : Data nx} {ds : List (Data nx)}
    (h : d0.n ≤ p ∨ ∃ d ∈ ds, d.n ≤ q + p) : train lin nugget poly rho d0 ds = none := by
  cases hM : train lin nugget poly rho d0 ds with
  | none => rfl
  | some M =>
    exfalso
    obtain ⟨e1, e2, e3, e4, hb, hr⟩ := train_eq hM
    rcases h with h | ⟨d, hd, h⟩
    · exact absurd (trainLevel_eq hb).1 (by omega)
    · obtain ⟨r1, r2⟩ := trainRest_get ds M.rest hr
      obtain ⟨l, hl, rfl⟩ := List.getElem_of_mem hd
      exact absurd (trainLevel_eq (r2 l hl (by omega))).1 (by omega)

/-! ### Training succeeds -/

/-- Exact Cholesky succeeds on positive definite matrices of every size. -/
def LinComplete (lin : Lin) : Prop := ∀ n, CholComplete (lin.chol (n := n))

theorem trainLevel_isSome {lin : Lin} (hc : LinComplete lin) {nugget : ℝ} {xOS : Fin nx → ℝ × ℝ} {yOS : ℝ × ℝ} {trend : (Fin nx → ℝ) → Fin m → ℝ} {d : Data nx} (hn : m < d.n)
    (hk : GoodKernel d.kern) (hx : ∀ j, (xOS j).2 ≠ 0)
    (h : (PsdKernel d.kern ∧ ∀ i, 0 < nugget + d.noise i) ∨ (PdKernel d.kern ∧ Function.Injective d.X ∧ ∀ i, 0 ≤ nugget + d.noise i)) :
    (trainLevel lin nugget xOS yOS trend d).isSome := by
  unfold trainLevel
  simp only
  rw [if_neg (by omega), Option.isSome_map]
  refine hc _ _ (corrR_symm _ hk.1 _ _) fun v hv => ?_
  rw [corrR_form _ hk.1 hk.2]
  rcases h with ⟨h1, h2⟩ | ⟨h1, h2, h3⟩
  · refine add_pos_of_nonneg_of_pos (h1 _ _ v) ?_
    obtain ⟨i, hi⟩ : ∃ i, v i ≠ 0 := by
      by_contra h
      push Not at h
      exact hv (funext h)
    exact Finset.sum_pos' (fun i _ => mul_nonneg (sq_nonneg _) (h2 i).le) ⟨i, Finset.mem_univ i, mul_pos (by positivity) (h2 i)⟩
  · refine add_pos_of_pos_of_nonneg (h1 _ _ (fun i j hij => h2 (funext fun q => ?_)) v hv) (Finset.sum_nonneg fun i _ => mul_nonneg (sq_nonneg _) (h3 i))
    have := congrFun hij q
    simp only [normalise] at this
    have h4 := (div_left_inj' (hx q)).1 this
    simpa using h4

/-- **C69** Training succeeds whenever every level has more points than regressors and, at every level, either the nugget (plus noise) is positive - whatever the points - or the points are
distinct and the kernel is positive definite (`C73_kernels_pd`: all kernels of the code with `theta > 0`). -/
theorem C69_trains {lin : Lin} (hc : LinComplete lin) {nugget : ℝ} {poly : (Fin nx → ℝ) → Fin p → ℝ} {rho : (Fin nx → ℝ) → Fin q → ℝ} {d0 : Data nx} {ds : List (Data nx)}
    (h0 : p < d0.n) (hs : ∀ d ∈ ds, q + p < d.n) (hk : ∀ d ∈ d0 :: ds, GoodKernel d.kern)
    (h : ∀ d ∈ d0 :: ds, (PsdKernel d.kern ∧ ∀ i, 0 < nugget + d.noise i) ∨ (PdKernel d.kern ∧ Function.Injective d.X ∧ ∀ i, 0 ≤ nugget + d.noise i)) :
    ∃ M, train lin nugget poly rho d0 ds = some M := by
  obtain ⟨base, hb⟩ := Option.isSome_iff_exists.1 (trainLevel_isSome (yOS := yScaling d0 ds) (trend := poly) hc h0 (hk d0 (by simp)) (xScaling_ne d0 ds) (h d0 (by simp)))
  have hrest : ∀ (xOS : Fin nx → ℝ × ℝ) (yOS : ℝ × ℝ) (hx : ∀ j, (xOS j).2 ≠ 0) (l : List (Data nx)), (∀ d ∈ l, d ∈ ds) → ∃ rest, trainRest lin nugget xOS yOS poly rho base l = some rest := by
    intro xOS yOS hx l
    induction l using List.reverseRecOn with
    | nil => intro _; exact ⟨[], rfl⟩
    | append_singleton l d ih =>
      intro hl
      obtain ⟨acc, ha⟩ := ih fun d hd => hl d (by simp [hd])
      have hd : d ∈ ds := hl d (by simp)
      obtain ⟨L, hL⟩ := Option.isSome_iff_exists.1 (trainLevel_isSome (lin := lin) (nugget := nugget) (xOS := xOS) (yOS := yOS) (trend := regr poly rho (mu poly rho base acc)) hc (hs d hd)
        (hk d (by simp [hd])) hx (h d (by simp [hd])))
      refine ⟨acc ++ [L], ?_⟩
      unfold trainRest at ha ⊢
      rw [List.foldlM_append, ha]
      simp [hL]
  obtain ⟨rest, hr⟩ := hrest (xScaling d0 ds) (yScaling d0 ds) (xScaling_ne d0 ds) ds fun d hd => hd
  unfold train
  simp only
  have hb' : trainLevel lin nugget (fun j => scalingL ((d0 :: ds).flatMap fun d => List.ofFn fun i => d.X i j)) (scalingL ((d0 :: ds).flatMap fun d => List.ofFn d.y)) poly d0 = some base := hb
  have hr' : trainRest lin nugget (fun j => scalingL ((d0 :: ds).flatMap fun d => List.ofFn fun i => d.X i j)) (scalingL ((d0 :: ds).flatMap fun d => List.ofFn d.y)) poly rho base ds = some rest := hr
  rw [hb']
  simp only [hr', Option.map_some]
  exact ⟨_, rfl⟩

/-- Exact routines. -/
noncomputable def linStd : Lin := { chol := cholStd, qr := qrStd }

theorem linStd_ok : LinOk linStd := ⟨fun _ => cholStd_ok, fun _ _ => qrStd_ok⟩
theorem linStd_complete : LinComplete linStd := fun _ => cholStd_complete

theorem fullRank_constant {n : ℕ} (hn : 0 < n) : FullRank (Matrix.of fun (_ : Fin n) (_ : Fin 1) => (1 : ℝ)) := by
  intro v hv
  have := congrFun hv ⟨0, hn⟩
  funext k
  fin_cases k
  simpa [Matrix.mulVec, dotProduct] using this

/-- With a constant trend and a constant scale factor, a nested design (each high-fidelity point is a low-fidelity point) with two different low-fidelity values has full rank. -/
theorem fullRank_nested {lin : Lin} (hlin : LinOk lin) {d0 d1 : Data nx} {M : Mfk nx 1 1} (hM : train lin 0 trendConstant trendConstant d0 [d1] = some M) (hn : 0 < d0.n)
    (hk : GoodKernel d0.kern) (hnoise : ∀ i, d0.noise i = 0) (σ : Fin d1.n → Fin d0.n) (hσ : ∀ i, d1.X i = d0.X (σ i)) (a b : Fin d1.n) (hab : d0.y (σ a) ≠ d0.y (σ b)) :
    FullRank M.base.F ∧ ∀ L ∈ M.rest, FullRank L.F := by
  obtain ⟨e1, e2, e3, e4, hb, hr⟩ := train_eq hM
  have hF0 : FullRank M.base.F := by
    obtain ⟨hlt, C, hC, he⟩ := trainLevel_eq hb
    rw [he]
    exact fullRank_constant hn
  refine ⟨hF0, fun L hL => ?_⟩
  obtain ⟨r1, r2⟩ := trainRest_get [d1] M.rest hr
  obtain ⟨l, hl, rfl⟩ := List.getElem_of_mem hL
  obtain rfl : l = 0 := by rw [r1] at hl; simpa using hl
  have h0 := r2 0 (by simp) hl
  have h1 := (trainLevel_eq h0)
  obtain ⟨hlt, C, hC, he⟩ := h1
  obtain ⟨e, hm⟩ := mean_at_training hlin hb hF0 hk.1 hk.2
  have hμ : ∀ i : Fin d1.n, mu trendConstant trendConstant M.base (M.rest.take 0) (fun j => normalise (M.xOS j) (d1.X i j)) = normalise M.yOS (d0.y (σ i)) := fun i => by
    rw [List.take_zero]
    have := hm (σ i)
    rw [hnoise, add_zero, zero_mul, sub_zero] at this
    rw [← this, hσ i]
    rfl
  have hne : normalise M.yOS (d0.y (σ a)) ≠ normalise M.yOS (d0.y (σ b)) := fun h => by
    have hy : M.yOS.2 ≠ 0 := by rw [e2]; exact yScaling_ne d0 [d1]
    simp only [normalise] at h
    have := (div_left_inj' hy).1 h
    exact hab (by simpa using this)
  rw [he]
  intro v hv
  have row : ∀ i : Fin d1.n, normalise M.yOS (d0.y (σ i)) * v (Fin.castAdd 1 0) + v (Fin.natAdd 1 0) = 0 := fun i => by
    have := congrFun hv i
    have h2 := hμ i
    simp only [Matrix.mulVec, dotProduct, Matrix.of_apply, Fin.sum_univ_add, regr, Pi.zero_apply, Fin.append_left, Fin.append_right] at this
    rw [← h2]
    simpa [trendConstant] using this
  have ha := row a
  have hb := row b
  have h3 : (normalise M.yOS (d0.y (σ a)) - normalise M.yOS (d0.y (σ b))) * v (Fin.castAdd 1 0) = 0 := by linear_combination ha - hb
  have hv0 : v (Fin.castAdd 1 0) = 0 := (mul_eq_zero.1 h3).resolve_left (sub_ne_zero.2 hne)
  have hv1 : v (Fin.natAdd 1 0) = 0 := by rw [hv0, mul_zero, zero_add] at ha; exact ha
  funext k
  fin_cases k
  · exact hv0
  · exact hv1

/-- Non-vacuity: three points on the line at both fidelities, different low-fidelity values, any high-fidelity values, squared exponential, no nugget: the model trains, has full rank and so
interpolates the high-fidelity data. -/
noncomputable def exData (y : Fin 3 → ℝ) : Data 1 :=
  { n := 3, X := fun i _ => (i : ℕ), y := y, kern := kernOf 10 (by decide) .squarExp fun _ => 1, theta := fun _ => 1, noise := fun _ => 0 }

theorem exKernel : GoodKernel (kernOf (m := 1) 10 (by decide) .squarExp fun _ => 1) := C39_kernels 10 (by decide) .squarExp (by simp) _

theorem exTrains (y : Fin 3 → ℝ) : ∃ M : Mfk 1 1 1, train linStd 0 trendConstant trendConstant (exData fun i => (i : ℕ)) [exData y] = some M ∧ FullRank M.base.F ∧ ∀ L ∈ M.rest, FullRank L.F := by
  have hinj : Function.Injective (fun (i : Fin 3) (_ : Fin 1) => ((i : ℕ) : ℝ)) := fun i j h => Fin.ext (by have h0 : ((i : ℕ) : ℝ) = ((j : ℕ) : ℝ) := congrFun h 0; exact_mod_cast h0)
  have hall : ∀ d ∈ [exData fun i => (i : ℕ), exData y], GoodKernel d.kern ∧ (PdKernel d.kern ∧ Function.Injective d.X ∧ ∀ i, 0 ≤ 0 + d.noise i) := by
    intro d hd
    have : d = (exData fun i => (i : ℕ)) ∨ d = exData y := by simpa using hd
    rcases this with rfl | rfl
    · exact ⟨exKernel, C73_kernels_pd 10 (by decide) .squarExp (by simp) _ fun _ => one_pos, hinj, fun i => by simp [exData]⟩
    · exact ⟨exKernel, C73_kernels_pd 10 (by decide) .squarExp (by simp) _ fun _ => one_pos, hinj, fun i => by simp [exData]⟩
  obtain ⟨M, hM⟩ := C69_trains (lin := linStd) linStd_complete (nugget := 0) (poly := trendConstant) (rho := trendConstant) (d0 := exData fun i => (i : ℕ)) (ds := [exData y])
    (by simp [exData]) (by simp [exData]) (fun d hd => (hall d hd).1) (fun d hd => Or.inr (hall d hd).2)
  refine ⟨M, hM, fullRank_nested linStd_ok hM (by simp [exData]) exKernel (fun _ => rfl) id (fun _ => rfl) (0 : Fin 3) (1 : Fin 3) ?_⟩
  simp [exData]

example (y : Fin 3 → ℝ) : ∃ M : Mfk 1 1 1, train linStd 0 trendConstant trendConstant (exData fun i => (i : ℕ)) [exData y] = some M ∧ ∀ i : Fin 3, M.predict (fun _ => (i : ℕ)) = y i := by
  obtain ⟨M, hM, h0, h1⟩ := exTrains y
  refine ⟨M, hM, fun i => ?_⟩
  exact C69_high_fidelity linStd_ok hM h0 h1 (by intro d hd; have : d = (exData fun i => (i : ℕ)) ∨ d = exData y := by simpa using hd
                                                 rcases this with rfl | rfl <;> exact exKernel)
    (by intro d hd i; have : d = (exData fun i => (i : ℕ)) ∨ d = exData y := by simpa using hd
        rcases this with rfl | rfl <;> rfl) i

end SMT.Mfk
