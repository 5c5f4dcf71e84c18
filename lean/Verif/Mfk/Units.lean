import Verif.Mfk.VarProps
import Verif.Kriging.UnitsProps
import Mathlib.Logic.Equiv.Fin.Basic
import Mathlib.Data.List.OfFn

set_option linter.unusedSectionVars false
set_option linter.unusedSimpArgs false
set_option linter.unusedVariables false

/-!
# C96: order and units of the data of a multi-fidelity model

Two trainings are compared: one with given data on every level, one with the same points listed in another order on every level, every input in other units (`x ↦ a x + b`), and all
outputs in other units (`y ↦ c y + d`).
-/
namespace SMT.Mfk
open Matrix SMT.Common SMT.Krg

variable {nx p q m : ℕ}

/-! ## Specification -/

/-- The data of one level in other units and another order. Kernel and `theta` (which act on standardised inputs) are the same; noise follows its point. -/
def newData (a b : Fin nx → ℝ) (c d : ℝ) (D : Data nx) (σ : Equiv.Perm (Fin D.n)) : Data nx :=
  { n := D.n, X := newX σ a b D.X, y := newY σ c d D.y, kern := D.kern, theta := D.theta, noise := fun i => D.noise (σ i) }

/-- A genuine change of the units of the inputs: no input is collapsed, and an input that has one value in all the data keeps its unit. -/
def UnitChangeL (ds : List (Data nx)) (a : Fin nx → ℝ) : Prop :=
  ∀ j, a j ≠ 0 ∧ ((∃ D ∈ ds, ∃ D' ∈ ds, ∃ (i : Fin D.n) (k : Fin D'.n), D.X i j ≠ D'.X k j) ∨ |a j| = 1)

/-! ## Standardisation of concatenated data -/

/-- Mean and standard deviation (`ddof=1`) of a list. -/
noncomputable def meanL (l : List ℝ) : ℝ := l.sum / l.length
noncomputable def stdL (l : List ℝ) : ℝ := Real.sqrt ((l.map fun v => (v - meanL l) ^ 2).sum / ((l.length : ℝ) - 1))

theorem scalingL_eq (l : List ℝ) : scalingL l = (meanL l, if stdL l = 0 then 1 else stdL l) := by
  have h1 : mean (fun i : Fin l.length => l.get i) = meanL l := by
    unfold mean meanL
    congr 1
    have := Fin.sum_univ_fun_getElem l (fun v : ℝ => v)
    simpa using this
  have h2 : std1 (fun i : Fin l.length => l.get i) = stdL l := by
    unfold std1 stdL
    rw [h1]
    congr 2
    have := Fin.sum_univ_fun_getElem l (fun v : ℝ => (v - meanL l) ^ 2)
    simpa using this
  unfold scalingL scaling
  simp only [h1, h2]

section change
variable {l l' : List ℝ} {a b : ℝ}

theorem meanL_change (hl : l ≠ []) (h : l'.Perm (l.map fun v => a * v + b)) : meanL l' = a * meanL l + b := by
  have h0 : (l.length : ℝ) ≠ 0 := Nat.cast_ne_zero.2 (by rw [Ne, List.length_eq_zero_iff]; exact hl)
  have hs : (l.map fun v => a * v + b).sum = a * l.sum + l.length * b := by
    clear h h0 hl
    induction l with
    | nil => simp
    | cons v l ih => simp only [List.map_cons, List.sum_cons, ih, List.length_cons]; push_cast; ring
  unfold meanL
  rw [h.sum_eq, hs, h.length_eq, List.length_map]
  field_simp

theorem stdL_change (hl : l ≠ []) (h : l'.Perm (l.map fun v => a * v + b)) : stdL l' = |a| * stdL l := by
  have hm := meanL_change hl h
  unfold stdL
  rw [hm, (h.map _).sum_eq, h.length_eq, List.length_map, List.map_map]
  have e : ((fun v => (v - (a * meanL l + b)) ^ 2) ∘ fun v => a * v + b) = fun v => a ^ 2 * (v - meanL l) ^ 2 := by
    funext v; simp only [Function.comp]; ring
  rw [e, List.sum_map_mul_left, mul_div_assoc, Real.sqrt_mul (sq_nonneg a), Real.sqrt_sq_eq_abs]

theorem scalingL_pos (l : List ℝ) : 0 < (scalingL l).2 := scaling_pos _

/-- Standardised values change by the factor `a s / s'`. -/
theorem normalise_changeL (hl : l ≠ []) (h : l'.Perm (l.map fun v => a * v + b)) (v : ℝ) :
    normalise (scalingL l') (a * v + b) = a * (scalingL l).2 / (scalingL l').2 * normalise (scalingL l) v := by
  have h1 := (scalingL_pos l).ne'
  have h2 := (scalingL_pos l').ne'
  have e : (scalingL l').1 = a * (scalingL l).1 + b := by
    rw [scalingL_eq, scalingL_eq]; exact meanL_change hl h
  unfold normalise
  rw [e]
  field_simp
  ring

theorem stdL_ne_zero {u v : ℝ} (hu : u ∈ l) (hv : v ∈ l) (h : u ≠ v) : stdL l ≠ 0 := by
  have h2 : 2 ≤ l.length := by
    match l, hu, hv with
    | [], hu, _ => simp at hu
    | [w], hu, hv => simp only [List.mem_singleton] at hu hv; exact absurd (hu.trans hv.symm) h
    | _ :: _ :: _, _, _ => simp
  have h1 : (0 : ℝ) < (l.length : ℝ) - 1 := by have : (2 : ℝ) ≤ l.length := by exact_mod_cast h2
                                               linarith
  unfold stdL
  rw [Real.sqrt_ne_zero']
  refine div_pos ?_ h1
  refine lt_of_le_of_ne (List.sum_nonneg fun x hx => ?_) fun h0 => h ?_
  · obtain ⟨w, -, rfl⟩ := List.mem_map.1 hx; exact sq_nonneg _
  · have hz : ∀ x ∈ l.map fun v => (v - meanL l) ^ 2, x = 0 := by
      have hnn : ∀ x ∈ l.map fun v => (v - meanL l) ^ 2, 0 ≤ x := fun x hx => by obtain ⟨w, -, rfl⟩ := List.mem_map.1 hx; exact sq_nonneg _
      intro x hx
      exact le_antisymm (by rw [h0]; exact List.single_le_sum hnn x hx) (hnn x hx)
    have e : ∀ w ∈ l, w = meanL l := fun w hw => sub_eq_zero.1 (pow_eq_zero_iff two_ne_zero |>.1 (hz _ (List.mem_map.2 ⟨w, hw, rfl⟩)))
    rw [e u hu, e v hv]

theorem factorL (hl : l ≠ []) (h : l'.Perm (l.map fun v => a * v + b)) (ha : a ≠ 0) (hc : (∃ u ∈ l, ∃ v ∈ l, u ≠ v) ∨ |a| = 1) :
    a * (scalingL l).2 / (scalingL l').2 = if 0 < a then 1 else -1 := by
  have hab : (0 : ℝ) < |a| := abs_pos.2 ha
  have hs : (scalingL l').2 = |a| * (scalingL l).2 := by
    rw [scalingL_eq, scalingL_eq]
    simp only [stdL_change hl h]
    by_cases h0 : stdL l = 0
    · have h1 : |a| = 1 := by
        rcases hc with ⟨u, hu, v, hv, huv⟩ | h1
        · exact absurd h0 (stdL_ne_zero hu hv huv)
        · exact h1
      simp [h0, h1]
    · simp [h0, hab.ne', ha]
  rw [hs]
  have h1 := (scalingL_pos l).ne'
  split_ifs with hp
  · rw [abs_of_pos hp]; field_simp
  · have : a < 0 := lt_of_le_of_ne (not_lt.1 hp) ha
    rw [abs_of_neg this]; field_simp

end change

/-- Concatenated columns of reordered levels. -/
theorem concat_perm (f : (D : Data nx) → Fin D.n → ℝ) (g : (s : Σ D : Data nx, Equiv.Perm (Fin D.n)) → Fin s.1.n → ℝ) (a b : ℝ)
    (h : ∀ s i, g s i = a * f s.1 (s.2 i) + b) (st : List (Σ D : Data nx, Equiv.Perm (Fin D.n))) :
    (st.flatMap fun s => List.ofFn (g s)).Perm (((st.map Sigma.fst).flatMap fun D => List.ofFn (f D)).map fun v => a * v + b) := by
  induction st with
  | nil => simp
  | cons s st ih =>
    simp only [List.flatMap_cons, List.map_cons, List.map_append]
    refine List.Perm.append ?_ ih
    have e : List.ofFn (g s) = List.ofFn ((fun i => a * f s.1 i + b) ∘ s.2) := by
      congr 1; funext i; exact h s i
    rw [e, List.map_ofFn]
    exact Equiv.Perm.ofFn_comp_perm s.2 _

/-! ## One level -/

/-- Two more facts about a trained level: orthogonality of the coefficients and the residual. -/
theorem trainLevel_extra {lin : Lin} (hlin : LinOk lin) {nugget : ℝ} {xOS : Fin nx → ℝ × ℝ} {yOS : ℝ × ℝ} {trend : (Fin nx → ℝ) → Fin m → ℝ} {d : Data nx} {L : Lvl nx m}
    (h : trainLevel lin nugget xOS yOS trend d = some L) (hF : FullRank L.F) :
    L.Fᵀ *ᵥ L.par.gamma = 0 ∧ L.q2 = L.par.gamma ⬝ᵥ ((L.R nugget) *ᵥ L.par.gamma) := by
  have hs := trainLevel_solved hlin h hF
  obtain ⟨hn, C, hC, rfl⟩ := trainLevel_eq h
  have hCh := hlin.chol _ _ _ hC
  have hqr := hlin.qr _ _ _ (fullRank_fwdM hCh hF)
  simp only at hqr
  have hb := C39_blup (F := Matrix.of fun i => trend fun j => normalise (xOS j) (d.X i j)) (y := fun i => normalise yOS (d.y i)) (yStd := yOS.2) (dof := (d.n : ℝ) - m) hCh hqr
  obtain ⟨e1, e2, e3, e4, e5, e6, e7, e8, e9⟩ := blup_eq (F := Matrix.of fun i => trend fun j => normalise (xOS j) (d.X i j)) (y := fun i => normalise yOS (d.y i)) (yStd := yOS.2)
    (dof := (d.n : ℝ) - m) hCh hqr
  refine ⟨hb.2.1, ?_⟩
  have hg := hs.gls
  have hRinv : (corrR d.kern nugget d.noise fun i j => normalise (xOS j) (d.X i j))⁻¹ = (C⁻¹)ᵀ * C⁻¹ := by
    rw [hCh.inv, Matrix.transpose_nonsing_inv]
  unfold Lvl.q2
  simp only [e8] at hg ⊢
  rw [fwd_eq_inv C _ hCh.lower hCh.diag, fwdM_eq C _ hCh.lower hCh.diag, ← Matrix.mulVec_mulVec, ← Matrix.mulVec_sub, dot_self_inv, ← hRinv, ← hg]
  unfold Lvl.R
  rw [Matrix.mulVec_mulVec, Matrix.nonsing_inv_mul _ hCh.detR, Matrix.one_mulVec, dotProduct_comm]

/-- How two trained levels are related: `s` is the direction of the inputs, `t` the factors of the regressors, `e` the factor of the standardised outputs. -/
structure Rel (s : Fin nx → ℝ) (t : Fin m → ℝ) (e y y' : ℝ) (L L' : Lvl nx m) : Prop where
  n : L'.n = L.n
  mean : ∀ xn f, L'.mean (fun j => s j * xn j) (fun k => t k * f k) = e * L.mean xn f
  rt2 : ∀ xn, L'.rt2 (fun j => s j * xn j) = L.rt2 xn
  u2 : ∀ xn f, L'.u2 (fun j => s j * xn j) (fun k => t k * f k) = L.u2 xn f
  beta : ∀ k, t k * L'.par.beta k = e * L.par.beta k
  gram : ∀ k l, t k * t l * (L'.par.Gᵀ * L'.par.G)⁻¹ k l = (L.par.Gᵀ * L.par.G)⁻¹ k l
  q2 : L'.q2 = e ^ 2 * L.q2
  sigma2 : L'.par.sigma2 / y' ^ 2 = e ^ 2 * (L.par.sigma2 / y ^ 2)

/-- Gram matrix of permuted, rescaled regressors. -/
theorem gram_change {n : ℕ} {R : Matrix (Fin n) (Fin n) ℝ} {F F' : Matrix (Fin n) (Fin m) ℝ} {σ : Equiv.Perm (Fin n)} {t : Fin m → ℝ} (hF : ∀ i k, F' i k = t k * F (σ i) k) :
    F'ᵀ * (R.submatrix σ σ)⁻¹ * F' = Matrix.diagonal t * (Fᵀ * R⁻¹ * F) * Matrix.diagonal t := by
  have hinv : (R.submatrix σ σ)⁻¹ = R⁻¹.submatrix σ σ := Matrix.inv_submatrix_equiv R σ σ
  have e4 : ∀ (A : Matrix (Fin n) (Fin m) ℝ) (B : Matrix (Fin n) (Fin n) ℝ) k l, (Aᵀ * B * A) k l = ∑ v, ∑ i, A i k * B i v * A v l := by
    intro A B k l
    rw [Matrix.mul_apply]
    refine Finset.sum_congr rfl fun v _ => ?_
    rw [Matrix.mul_apply, Finset.sum_mul]
    rfl
  ext k l
  rw [hinv, e4, Matrix.mul_diagonal, Matrix.diagonal_mul, e4, mul_assoc, Finset.sum_mul, Finset.mul_sum, ← Equiv.sum_comp σ fun v => t k * ((∑ i, F i k * R⁻¹ i v * F v l) * t l)]
  refine Finset.sum_congr rfl fun v _ => ?_
  rw [Finset.sum_mul, Finset.mul_sum, ← Equiv.sum_comp σ fun i => t k * (F i k * R⁻¹ i (σ v) * F (σ v) l * t l)]
  refine Finset.sum_congr rfl fun i _ => ?_
  rw [hF, hF, Matrix.submatrix_apply]
  ring

theorem gram_inv_change {G : Matrix (Fin m) (Fin m) ℝ} (hG : IsUnit G.det) {t : Fin m → ℝ} (ht : ∀ k, t k ≠ 0) :
    (Matrix.diagonal t * G * Matrix.diagonal t)⁻¹ = Matrix.diagonal (fun k => (t k)⁻¹) * G⁻¹ * Matrix.diagonal (fun k => (t k)⁻¹) := by
  refine Matrix.inv_eq_right_inv ?_
  have h1 : Matrix.diagonal t * Matrix.diagonal (fun k => (t k)⁻¹) = 1 := by
    rw [Matrix.diagonal_mul_diagonal]
    rw [show (fun k => t k * (t k)⁻¹) = fun _ => (1 : ℝ) from funext fun k => mul_inv_cancel₀ (ht k)]
    exact Matrix.diagonal_one
  calc Matrix.diagonal t * G * Matrix.diagonal t * (Matrix.diagonal (fun k => (t k)⁻¹) * G⁻¹ * Matrix.diagonal (fun k => (t k)⁻¹))
      = Matrix.diagonal t * G * (Matrix.diagonal t * Matrix.diagonal (fun k => (t k)⁻¹)) * G⁻¹ * Matrix.diagonal (fun k => (t k)⁻¹) := by simp only [Matrix.mul_assoc]
    _ = 1 := by rw [h1, Matrix.mul_one, Matrix.mul_assoc (Matrix.diagonal t) G, Matrix.mul_nonsing_inv _ hG, Matrix.mul_one, h1]

theorem level_change {lin : Lin} (hlin : LinOk lin) (hcc : LinComplete lin) {nugget : ℝ} {xOS xOS' : Fin nx → ℝ × ℝ} {yOS yOS' : ℝ × ℝ} (hy0 : yOS.2 ≠ 0) (hy0' : yOS'.2 ≠ 0)
    {trend trend' : (Fin nx → ℝ) → Fin m → ℝ} {D : Data nx} {L : Lvl nx m} (h : trainLevel lin nugget xOS yOS trend D = some L) (hF : FullRank L.F)
    (a b : Fin nx → ℝ) (c d : ℝ) (σ : Equiv.Perm (Fin D.n)) {t : Fin m → ℝ} {e : ℝ}
    (hx : ∀ j v, normalise (xOS' j) (a j * v + b j) = dir a j * normalise (xOS j) v) (hy : ∀ v, normalise yOS' (c * v + d) = e * normalise yOS v)
    (heven : ∀ v, D.kern (fun k => -v k) = D.kern v) (hk : KernelSym D.kern (dir a)) (ht : ∀ k, t k ≠ 0) (htr : ∀ xn k, trend' (fun j => dir a j * xn j) k = t k * trend xn k) :
    ∃ L', trainLevel lin nugget xOS' yOS' trend' (newData a b c d D σ) = some L' ∧ FullRank L'.F ∧ Rel (dir a) t e yOS.2 yOS'.2 L L' := by
  have hs := trainLevel_solved hlin h hF
  obtain ⟨ho, hq⟩ := trainLevel_extra hlin h hF
  obtain ⟨hn, C, hC, hL⟩ := trainLevel_eq h
  set Xn : Fin D.n → Fin nx → ℝ := fun i j => normalise (xOS j) (D.X i j) with hXn
  have hXn' : (fun (i : Fin D.n) j => normalise (xOS' j) (newX σ a b D.X i j)) = fun i j => dir a j * Xn (σ i) j := by
    funext i j; exact hx j _
  have hRR : corrR D.kern nugget (fun i => D.noise (σ i)) (fun i j => dir a j * Xn (σ i) j) = (corrR D.kern nugget D.noise Xn).submatrix σ σ := corrR_change heven hk Xn
  obtain ⟨C', hC'⟩ := Option.isSome_iff_exists.1 ((chol_change (hlin.chol _) (hcc _) (corrR D.kern nugget D.noise Xn) σ).2 (by rw [hC]; rfl))
  have hex : ∃ L', trainLevel lin nugget xOS' yOS' trend' (newData a b c d D σ) = some L' := by
    unfold trainLevel newData
    simp only
    rw [if_neg (by omega), hXn', hRR, hC']
    exact ⟨_, rfl⟩
  obtain ⟨L', hL'⟩ := hex
  refine ⟨L', hL', ?_⟩
  obtain ⟨-, C'', hC'', hLe⟩ := trainLevel_eq hL'
  have hFc : ∀ (i : Fin D.n) k, (Matrix.of fun i => trend' fun j => normalise (xOS' j) ((newData a b c d D σ).X i j) : Matrix (Fin D.n) (Fin m) ℝ) i k =
      t k * (Matrix.of fun i => trend fun j => normalise (xOS j) (D.X i j) : Matrix (Fin D.n) (Fin m) ℝ) (σ i) k := by
    intro i k
    have := congrFun hXn' i
    simp only [Matrix.of_apply]
    show trend' (fun j => normalise (xOS' j) (newX σ a b D.X i j)) k = _
    rw [this, htr]
  have hF' : FullRank L'.F := by
    subst hLe
    refine fullRank_change (σ := σ) ht hFc ?_
    subst hL
    exact hF
  have hs' := trainLevel_solved hlin hL' hF'
  obtain ⟨ho', hq'⟩ := trainLevel_extra hlin hL' hF'
  refine ⟨hF', ?_⟩
  -- from here on both levels have the same explicit size
  have key : ∀ (L1 L2 : Lvl nx m) (hn1 : L1.n = D.n) (hn2 : L2.n = D.n), L1.Solved nugget yOS.2 → L2.Solved nugget yOS'.2 → L1.Fᵀ *ᵥ L1.par.gamma = 0 → L2.Fᵀ *ᵥ L2.par.gamma = 0 →
      L1.q2 = L1.par.gamma ⬝ᵥ ((L1.R nugget) *ᵥ L1.par.gamma) → L2.q2 = L2.par.gamma ⬝ᵥ ((L2.R nugget) *ᵥ L2.par.gamma) →
      (∀ i k, L2.F (Fin.cast hn2.symm i) k = t k * L1.F (Fin.cast hn1.symm (σ i)) k) → (∀ i, L2.yn (Fin.cast hn2.symm i) = e * L1.yn (Fin.cast hn1.symm (σ i))) →
      (∀ i j, L2.R nugget (Fin.cast hn2.symm i) (Fin.cast hn2.symm j) = L1.R nugget (Fin.cast hn1.symm (σ i)) (Fin.cast hn1.symm (σ j))) →
      (∀ xn i, L2.corr (fun j => dir a j * xn j) (Fin.cast hn2.symm i) = L1.corr xn (Fin.cast hn1.symm (σ i))) → Rel (dir a) t e yOS.2 yOS'.2 L1 L2 := by
    rintro ⟨n1, X1, y1, k1, t1, z1, F1, P1⟩ ⟨n2, X2, y2, k2, t2, z2, F2, P2⟩ hn1 hn2 S1 S2 o1 o2 q1 q2 hF hy hR hr
    dsimp only at hn1 hn2
    subst hn1
    subst hn2
    simp only [Fin.cast_eq_self] at hF hy hR hr
    set L1 : Lvl nx m := ⟨D.n, X1, y1, k1, t1, z1, F1, P1⟩ with hL1
    set L2 : Lvl nx m := ⟨D.n, X2, y2, k2, t2, z2, F2, P2⟩ with hL2
    set R : Matrix (Fin D.n) (Fin D.n) ℝ := L1.R nugget with hRdef
    have hR2 : L2.R nugget = R.submatrix σ σ := by ext i j; exact hR i j
    have hgram : F2ᵀ * (R.submatrix σ σ)⁻¹ * F2 = Matrix.diagonal t * (F1ᵀ * R⁻¹ * F1) * Matrix.diagonal t := gram_change hF
    have hdet1 : IsUnit (F1ᵀ * R⁻¹ * F1).det := by
      have := S1.gram
      have h2 := S1.detG
      rw [show F1ᵀ * R⁻¹ * F1 = L1.par.Gᵀ * L1.par.G from this.symm, Matrix.det_mul, Matrix.det_transpose]
      exact h2.mul h2
    have hdet2 : IsUnit (F2ᵀ * (R.submatrix σ σ)⁻¹ * F2).det := by
      have := S2.gram
      rw [hR2] at this
      have h2 := S2.detG
      rw [show F2ᵀ * (R.submatrix σ σ)⁻¹ * F2 = L2.par.Gᵀ * L2.par.G from this.symm, Matrix.det_mul, Matrix.det_transpose]
      exact h2.mul h2
    have hRdet : IsUnit (R.submatrix σ σ).det := by rw [Matrix.det_submatrix_equiv_self]; exact S1.det
    have hinv : (R.submatrix σ σ)⁻¹ = R⁻¹.submatrix σ σ := Matrix.inv_submatrix_equiv R σ σ
    have g2 : R.submatrix σ σ *ᵥ P2.gamma = y2 - F2 *ᵥ P2.beta := by rw [← hR2]; exact S2.gls
    have g1 : R *ᵥ P1.gamma = y1 - F1 *ᵥ P1.beta := S1.gls
    obtain ⟨hβ, hγ⟩ := blup_unique (β := fun k => e * P1.beta k / t k) (g := fun i => e * P1.gamma (σ i)) hRdet hdet2 (by
        funext i
        have h1 := congrFun g1 (σ i)
        simp only [Matrix.mulVec, dotProduct, Matrix.submatrix_apply, Pi.sub_apply] at h1 ⊢
        have e1 : ∑ k, R (σ i) (σ k) * (e * P1.gamma (σ k)) = e * ∑ k, R (σ i) k * P1.gamma k := by
          rw [Equiv.sum_comp σ fun k => R (σ i) k * (e * P1.gamma k), Finset.mul_sum]
          exact Finset.sum_congr rfl fun k _ => by ring
        have e2 : ∑ k, F2 i k * (e * P1.beta k / t k) = e * ∑ k, F1 (σ i) k * P1.beta k := by
          rw [Finset.mul_sum]
          refine Finset.sum_congr rfl fun k _ => ?_
          rw [hF]
          have := ht k
          field_simp
        rw [e1, e2, h1, hy]
        ring) (by
        funext k
        have h1 := congrFun o1 k
        simp only [Matrix.mulVec, dotProduct, Matrix.transpose_apply, Pi.zero_apply] at h1 ⊢
        have e1 : ∑ i, F2 i k * (e * P1.gamma (σ i)) = t k * e * ∑ i, F1 i k * P1.gamma i := by
          rw [Finset.mul_sum, ← Equiv.sum_comp σ fun i => t k * e * (F1 i k * P1.gamma i)]
          refine Finset.sum_congr rfl fun i _ => ?_
          rw [hF]
          ring
        rw [e1]
        have h2 : ∑ i, F1 i k * P1.gamma i = 0 := h1
        rw [h2, mul_zero]) g2 o2
    have hRr : ∀ w : Fin D.n → ℝ, (R⁻¹.submatrix σ σ) *ᵥ (fun i => w (σ i)) = fun i => (R⁻¹ *ᵥ w) (σ i) := by
      intro w
      funext i
      simp only [Matrix.mulVec, dotProduct, Matrix.submatrix_apply]
      exact Equiv.sum_comp σ fun k => R⁻¹ (σ i) k * w k
    have hcorr : ∀ xn, L2.corr (fun j => dir a j * xn j) = fun i => L1.corr xn (σ i) := fun xn => funext fun i => hr xn i
    have hq2 : L2.q2 = e ^ 2 * L1.q2 := by
      rw [q1, q2, hR2]
      show P2.gamma ⬝ᵥ (R.submatrix σ σ *ᵥ P2.gamma) = e ^ 2 * (P1.gamma ⬝ᵥ (R *ᵥ P1.gamma))
      rw [hγ]
      simp only [dotProduct, Matrix.mulVec, Matrix.submatrix_apply, Finset.mul_sum]
      rw [← Equiv.sum_comp σ fun i => ∑ k, e ^ 2 * (P1.gamma i * (R i k * P1.gamma k))]
      refine Finset.sum_congr rfl fun i _ => ?_
      rw [← Equiv.sum_comp σ fun k => e ^ 2 * (P1.gamma (σ i) * (R (σ i) k * P1.gamma k))]
      exact Finset.sum_congr rfl fun k _ => by ring
    refine ⟨rfl, fun xn f => ?_, fun xn => ?_, fun xn f => ?_, fun k => ?_, fun k l => ?_, hq2, ?_⟩
    · unfold Lvl.mean
      rw [hcorr xn]
      show (fun k => t k * f k) ⬝ᵥ P2.beta + (fun i => L1.corr xn (σ i)) ⬝ᵥ P2.gamma = e * (f ⬝ᵥ P1.beta + L1.corr xn ⬝ᵥ P1.gamma)
      rw [hβ, hγ, mul_add]
      congr 1
      · simp only [dotProduct, Finset.mul_sum]
        refine Finset.sum_congr rfl fun k _ => ?_
        have := ht k
        field_simp
      · simp only [dotProduct, Finset.mul_sum]
        rw [← Equiv.sum_comp σ fun i => e * (L1.corr xn i * P1.gamma i)]
        exact Finset.sum_congr rfl fun i _ => by ring
    · rw [S2.rt2, S1.rt2, hR2, hinv, hcorr xn, hRr]
      exact Equiv.sum_comp σ fun i => L1.corr xn i * (R⁻¹ *ᵥ L1.corr xn) i
    · rw [S2.u2, S1.u2, hR2, hcorr xn]
      show (F2ᵀ *ᵥ ((R.submatrix σ σ)⁻¹ *ᵥ fun i => L1.corr xn (σ i)) - fun k => t k * f k) ⬝ᵥ ((F2ᵀ * (R.submatrix σ σ)⁻¹ * F2)⁻¹ *ᵥ (F2ᵀ *ᵥ ((R.submatrix σ σ)⁻¹ *ᵥ fun i => L1.corr xn (σ i)) - fun k => t k * f k)) =
        (F1ᵀ *ᵥ (R⁻¹ *ᵥ L1.corr xn) - f) ⬝ᵥ ((F1ᵀ * R⁻¹ * F1)⁻¹ *ᵥ (F1ᵀ *ᵥ (R⁻¹ *ᵥ L1.corr xn) - f))
      have hvec : F2ᵀ *ᵥ ((R.submatrix σ σ)⁻¹ *ᵥ fun i => L1.corr xn (σ i)) - (fun k => t k * f k) = Matrix.diagonal t *ᵥ (F1ᵀ *ᵥ (R⁻¹ *ᵥ L1.corr xn) - f) := by
        rw [hinv, hRr]
        funext k
        rw [Matrix.mulVec_diagonal]
        simp only [Pi.sub_apply, mul_sub]
        congr 1
        simp only [Matrix.mulVec, dotProduct, Matrix.transpose_apply, hF]
        rw [Finset.mul_sum, ← Equiv.sum_comp σ fun i => t k * (F1 i k * ∑ v, R⁻¹ i v * L1.corr xn v)]
        exact Finset.sum_congr rfl fun i _ => by ring
      rw [hvec, hgram, gram_inv_change hdet1 ht]
      set w := F1ᵀ *ᵥ (R⁻¹ *ᵥ L1.corr xn) - f
      have hd1 : ∀ v : Fin m → ℝ, Matrix.diagonal (fun k => (t k)⁻¹) *ᵥ (Matrix.diagonal t *ᵥ v) = v := by
        intro v
        funext k
        rw [Matrix.mulVec_diagonal, Matrix.mulVec_diagonal, ← mul_assoc, inv_mul_cancel₀ (ht k), one_mul]
      rw [← Matrix.mulVec_mulVec, ← Matrix.mulVec_mulVec, hd1]
      simp only [dotProduct, Matrix.mulVec_diagonal]
      refine Finset.sum_congr rfl fun k _ => ?_
      have := ht k
      field_simp
    · show t k * P2.beta k = e * P1.beta k
      rw [hβ]
      have := ht k
      field_simp
    · rw [S2.gram, S1.gram, hR2]
      show t k * t l * (F2ᵀ * (R.submatrix σ σ)⁻¹ * F2)⁻¹ k l = (F1ᵀ * R⁻¹ * F1)⁻¹ k l
      rw [hgram, gram_inv_change hdet1 ht, Matrix.mul_diagonal, Matrix.diagonal_mul]
      have h1 := ht k
      have h2 := ht l
      field_simp
    · rw [S2.sigma2, S1.sigma2, hq2]
      show e ^ 2 * L1.q2 / ((D.n : ℝ) - m) * yOS'.2 ^ 2 / yOS'.2 ^ 2 = e ^ 2 * (L1.q2 / ((D.n : ℝ) - m) * yOS.2 ^ 2 / yOS.2 ^ 2)
      rw [mul_div_cancel_right₀ _ (pow_ne_zero 2 hy0'), mul_div_cancel_right₀ _ (pow_ne_zero 2 hy0)]
      ring
  subst hL
  subst hLe
  refine key _ _ rfl rfl hs hs' ho ho' hq hq' hFc (fun i => hy _) (fun i j => ?_) fun xn i => ?_
  · show corrR D.kern nugget (fun i => D.noise (σ i)) (fun i j => normalise (xOS' j) (newX σ a b D.X i j)) i j = corrR D.kern nugget D.noise Xn (σ i) (σ j)
    rw [hXn', hRR]; rfl
  · show D.kern (fun j => dir a j * xn j - normalise (xOS' j) (newX σ a b D.X i j)) = D.kern fun j => xn j - Xn (σ i) j
    have := congrFun hXn' i
    rw [← hk fun j => xn j - Xn (σ i) j]
    congr 1
    funext j
    have hj := congrFun this j
    rw [hj]; ring

end SMT.Mfk
