import Verif.Kriging.OptimProps
import Verif.Kriging.LikelihoodProps
import Verif.Kriging.Oracles
import Verif.Kriging.Definite

set_option linter.unusedSectionVars false
set_option linter.unusedSimpArgs false
set_option linter.unusedVariables false

/-!
# C65: data the optimisation cannot handle, and data it can
-/
namespace SMT.Krg.Optim
open Matrix SMT.Common SMT.Krg

noncomputable section

variable {n nx p : ℕ} {Θ : Type}

/-- The reduced likelihood with its infinities, `krg_based.py` 239-313: minus infinity when the factorisation fails, plus infinity when the process variance is 0 (`-nt * log10(0)`).
The test of the conditioning of `G` is left out here, see `Cond.lean`. -/
def krgVal (chol : Matrix (Fin n) (Fin n) ℝ → Option (Matrix (Fin n) (Fin n) ℝ))
    (qr : Matrix (Fin n) (Fin p) ℝ → Matrix (Fin n) (Fin p) ℝ × Matrix (Fin p) (Fin p) ℝ)
    (kern : (Fin nx → ℝ) → ℝ) (nugget : ℝ) (noise : Fin n → ℝ) (Xn : Fin n → Fin nx → ℝ) (F : Matrix (Fin n) (Fin p) ℝ) (y : Fin n → ℝ) : Val ℝ :=
  match chol (corrR kern nugget noise Xn) with
  | none => .ninf
  | some C => if (blup C qr F y 1 n).sigma2 = 0 then .pinf else .fin (rlf C qr F y n)

/-- `_new_train` up to the optimisation, `krg_based.py` 116-176: the likelihood of hyper-parameters `θ` for given data. -/
def dataVal (chol : Matrix (Fin n) (Fin n) ℝ → Option (Matrix (Fin n) (Fin n) ℝ))
    (qr : Matrix (Fin n) (Fin p) ℝ → Matrix (Fin n) (Fin p) ℝ × Matrix (Fin p) (Fin p) ℝ)
    (kern : Θ → (Fin nx → ℝ) → ℝ) (trend : (Fin nx → ℝ) → Fin p → ℝ) (nugget : ℝ) (noise : Fin n → ℝ) (X : Fin n → Fin nx → ℝ) (y : Fin n → ℝ) (θ : Θ) : Val ℝ :=
  let Xn := fun i j => normalise (scaling fun i => X i j) (X i j)
  krgVal chol qr (kern θ) nugget noise Xn (Matrix.of fun i => trend (Xn i)) (fun i => normalise (scaling y) (y i))

variable {chol : Matrix (Fin n) (Fin n) ℝ → Option (Matrix (Fin n) (Fin n) ℝ)}
  {qr : Matrix (Fin n) (Fin p) ℝ → Matrix (Fin n) (Fin p) ℝ × Matrix (Fin p) (Fin p) ℝ}
  {kern : Θ → (Fin nx → ℝ) → ℝ} {trend : (Fin nx → ℝ) → Fin p → ℝ} {nugget : ℝ} {noise : Fin n → ℝ} {X : Fin n → Fin nx → ℝ} {y : Fin n → ℝ}

theorem krgVal_infinite (hchol : CholOk chol) (hqr : QROk qr) {k : (Fin nx → ℝ) → ℝ} {Xn : Fin n → Fin nx → ℝ} {F : Matrix (Fin n) (Fin p) ℝ} {z : Fin n → ℝ} (hF : FullRank F) (b : Fin p → ℝ)
    (hz : z = F *ᵥ b) (v : ℝ) : krgVal chol qr k nugget noise Xn F z ≠ .fin v := by
  unfold krgVal
  cases hC : chol (corrR k nugget noise Xn) with
  | none => simp
  | some C =>
    have hch := hchol _ _ hC
    have hq := hqr _ (fullRank_fwdM hch hF)
    have hmin := C63_minimum (y := z) (yStd := 1) (dof := n) hch hqr hF b
    have h0 : wss (corrR k nugget noise Xn) F z b = 0 := by unfold wss; rw [hz]; simp
    have hs := sigma2_eq (y := z) (yStd := 1) (dof := n) hch hq
    have hb := beta_gls (y := z) (yStd := 1) (dof := n) hch hq
    rw [← hb] at hs
    have hnn : 0 ≤ wss (corrR k nugget noise Xn) F z (blup C qr F z 1 n).beta := by
      unfold wss
      rw [← sum_sq_inv hch]
      exact Finset.sum_nonneg fun i _ => sq_nonneg _
    have : (blup C qr F z 1 n).sigma2 = 0 := by
      rw [hs, le_antisymm (h0 ▸ hmin) hnn]; simp
    simp [this]

/-- **C65** If the (standardised) outputs are an exact combination of the trend functions, the likelihood is infinite for every `theta`, so training always raises - a perfectly explained
data set is treated as a failure. -/
theorem C65_trend_data_fails (hchol : CholOk chol) (hqr : QROk qr) (hF : FullRank (Matrix.of fun i => trend fun j => normalise (scaling fun i => X i j) (X i j))) (b : Fin p → ℝ)
    (hy : ∀ i, normalise (scaling y) (y i) = trend (fun j => normalise (scaling fun i => X i j) (X i j)) ⬝ᵥ b) {floor : ℝ} {nb fuel k : ℕ} {att : ℕ → Attempt Θ} {s : St Θ ℝ} :
    optimize (dataVal chol qr kern trend nugget noise X y) floor nb fuel att ≠ some (.returned s k) :=
  C65_never_finite fun θ v => krgVal_infinite hchol hqr hF b (funext hy) v

/-- **C65** As many trend functions as points: the shape test (`p > n_samples_F`) lets this through, but if the regression matrix has full rank the likelihood is infinite for every `theta` and
training always raises (in exact arithmetic). -/
theorem C65_as_many_trends_as_points (hchol : CholOk chol) {qr : Matrix (Fin n) (Fin n) ℝ → Matrix (Fin n) (Fin n) ℝ × Matrix (Fin n) (Fin n) ℝ} {trend : (Fin nx → ℝ) → Fin n → ℝ} (hqr : QROk qr)
    (hF : FullRank (Matrix.of fun i => trend fun j => normalise (scaling fun i => X i j) (X i j))) {floor : ℝ} {nb fuel k : ℕ} {att : ℕ → Attempt Θ} {s : St Θ ℝ} :
    optimize (dataVal chol qr kern trend nugget noise X y) floor nb fuel att ≠ some (.returned s k) := by
  set F : Matrix (Fin n) (Fin n) ℝ := Matrix.of fun i => trend fun j => normalise (scaling fun i => X i j) (X i j) with hFd
  have hu : IsUnit F := by
    rw [← Matrix.mulVec_injective_iff_isUnit]
    intro a b hab
    have := hF (a - b) (by rw [Matrix.mulVec_sub, hab, sub_self])
    exact sub_eq_zero.1 this
  refine C65_trend_data_fails hchol hqr hF (F⁻¹ *ᵥ fun i => normalise (scaling y) (y i)) fun i => ?_
  have : F *ᵥ (F⁻¹ *ᵥ fun i => normalise (scaling y) (y i)) = fun i => normalise (scaling y) (y i) := by
    rw [Matrix.mulVec_mulVec, Matrix.mul_nonsing_inv _ ((Matrix.isUnit_iff_isUnit_det _).1 hu), Matrix.one_mulVec]
  exact (congrFun this i).symm

/-- Two points on a line with a linear trend. -/
example : FullRank (Matrix.of fun i : Fin 2 => (fun z : Fin 1 → ℝ => ![1, z 0]) fun j => normalise (scaling fun i => (![![0], ![1]] : Fin 2 → Fin 1 → ℝ) i j) ((![![0], ![1]] : Fin 2 → Fin 1 → ℝ) i j)) := by
  intro v hv
  have hs : (scaling fun i : Fin 2 => (![![0], ![1]] : Fin 2 → Fin 1 → ℝ) i 0).2 ≠ 0 := scaling_ne _
  set s := scaling fun i : Fin 2 => (![![0], ![1]] : Fin 2 → Fin 1 → ℝ) i 0 with hsd
  have h0 := congrFun hv 0
  have h1 := congrFun hv 1
  simp only [Matrix.mulVec, dotProduct, Fin.sum_univ_two, Matrix.of_apply, normalise, Pi.zero_apply, Matrix.cons_val_zero, Matrix.cons_val_one, one_mul, ← hsd] at h0 h1
  have h2 : v 1 = 0 := by
    have : (1 / s.2) * v 1 = 0 := by
      have := congrArg₂ (· - ·) h1 h0
      simp only [sub_self] at this
      rw [← this]; ring
    rcases mul_eq_zero.1 this with h | h
    · exact absurd h (one_div_ne_zero hs)
    · exact h
  rw [h2] at h0
  simp at h0
  funext i
  fin_cases i
  · exact h0
  · exact h2

theorem fwd_zero (C : Matrix (Fin n) (Fin n) ℝ) : fwd C 0 = 0 := by
  have key : ∀ m (i : Fin n), i.val = m → fwd C 0 i = 0 := by
    intro m
    induction m using Nat.strong_induction_on with
    | _ m ih =>
      intro i hi
      rw [fwd_eq, Finset.sum_eq_zero]
      · simp
      · intro j _
        by_cases hj : j < i
        · rw [if_pos hj, ih j.val (hi ▸ hj) j rfl, mul_zero]
        · rw [if_neg hj]
  exact funext fun i => key i.val i rfl

theorem bwd_zero {q : ℕ} (U : Matrix (Fin q) (Fin q) ℝ) : bwd U 0 = 0 := by
  funext i
  unfold bwd
  have := fwd_zero (U.submatrix Fin.rev Fin.rev)
  exact congrFun this i.rev

/-- **C65** In particular a constant output makes training fail, for every kernel, trend, optimiser, nugget and noise. -/
theorem C65_constant_output {c : ℝ} (hy : ∀ i, y i = c) (hn : 0 < n) {floor : ℝ} {nb fuel k : ℕ} {att : ℕ → Attempt Θ} {s : St Θ ℝ} :
    optimize (dataVal chol qr kern trend nugget noise X y) floor nb fuel att ≠ some (.returned s k) := by
  refine C65_never_finite fun θ v => ?_
  have hmean : mean y = c := by
    unfold mean
    simp only [hy, Finset.sum_const, Finset.card_univ, Fintype.card_fin, nsmul_eq_mul]
    have : (n : ℝ) ≠ 0 := by exact_mod_cast hn.ne'
    field_simp
  have hz : (fun i => normalise (scaling y) (y i)) = 0 := funext fun i => by simp [normalise, scaling, hmean, hy i]
  unfold dataVal krgVal
  simp only [hz]
  cases chol _ with
  | none => simp
  | some C => simp [blup, fwd_zero, bwd_zero]

/-- **C65** End to end, for the kernels of the code: distinct training points, outputs that the trend does not reproduce exactly, and an optimiser whose better result has positive entries:
one attempt suffices, and the model trained with the returned hyper-parameters exists. -/
theorem C65_trains (hchol : CholOk chol) (hcc : CholComplete chol) (hqr : QROk qr) {lim : ℕ} (hl : 0 < lim) {c : Corr} (hc : c ≠ .actExp)
    (hF : FullRank (Matrix.of fun i => trend fun j => normalise (scaling fun i => X i j) (X i j))) (hX : Function.Injective X) (hnug : ∀ i, 0 ≤ nugget + noise i) (hn : 0 < n)
    (hy : ∀ b : Fin p → ℝ, ¬ ∀ i, normalise (scaling y) (y i) = trend (fun j => normalise (scaling fun i => X i j) (X i j)) ⬝ᵥ b)
    {floor : ℝ} {nb fuel : ℕ} {att : ℕ → Attempt (Fin nx → ℝ)} {vs : List (Fin nx → ℝ)} {x1 x2 : Fin nx → ℝ} (h0 : att 0 = .done vs x1 x2) (h1 : ∀ j, 0 < x1 j) (h2 : ∀ j, 0 < x2 j) :
    ∃ s θ, optimize (dataVal chol qr (kernOf lim hl c) trend nugget noise X y) floor nb (fuel + 1) att = some (.returned s 1) ∧ s.best = some θ ∧ (θ = x1 ∨ θ = x2) ∧
      (train chol qr (kernOf lim hl c θ) trend nugget noise X y).isSome := by
  set rl := dataVal chol qr (kernOf lim hl c) trend nugget noise X y with hrl
  have hp := (C65_better_run (rlf := rl) x1 x2).1
  have hpos : ∀ j, 0 < pick rl x1 x2 j := by rcases hp with h | h <;> rw [h] <;> assumption
  have htr : (train chol qr (kernOf lim hl c (pick rl x1 x2)) trend nugget noise X y).isSome :=
    C73_trains_distinct hcc (C39_kernels lim hl c hc _).1 (C39_kernels lim hl c hc _).2 (C73_kernels_pd lim hl c hc _ hpos) hnug hX
  have hfin : ∃ v, rl (pick rl x1 x2) = .fin v := by
    generalize pick rl x1 x2 = θ at htr
    rw [hrl]
    unfold train at htr
    simp only [Option.isSome_map] at htr
    obtain ⟨C, hC⟩ := Option.isSome_iff_exists.1 htr
    unfold dataVal krgVal
    simp only [hC]
    set F : Matrix (Fin n) (Fin p) ℝ := Matrix.of fun i => trend fun j => normalise (scaling fun i => X i j) (X i j) with hFd
    have hch := hchol _ _ hC
    have hq := hqr _ (fullRank_fwdM hch hF)
    have hs := sigma2_eq (y := fun i => normalise (scaling y) (y i)) (yStd := 1) (dof := n) hch hq
    refine ⟨rlf C qr F (fun i => normalise (scaling y) (y i)) n, if_neg fun hz => ?_⟩
    rw [hs] at hz
    have hn' : (n : ℝ) ≠ 0 := by exact_mod_cast hn.ne'
    have hw : wss (corrR (kernOf lim hl c θ) nugget noise fun i j => normalise (scaling fun i => X i j) (X i j)) F (fun i => normalise (scaling y) (y i))
        (glsBeta (corrR (kernOf lim hl c θ) nugget noise fun i j => normalise (scaling fun i => X i j) (X i j)) F fun i => normalise (scaling y) (y i)) = 0 := by
      rw [one_pow, mul_one] at hz
      exact (div_eq_zero_iff.1 hz).resolve_right hn'
    unfold wss at hw
    rw [← sum_sq_inv hch] at hw
    have hzero := fun i => pow_eq_zero_iff (two_ne_zero) |>.1 ((Finset.sum_eq_zero_iff_of_nonneg fun i _ => sq_nonneg _).1 hw i (Finset.mem_univ i))
    have hv : C⁻¹ *ᵥ ((fun i => normalise (scaling y) (y i)) - F *ᵥ glsBeta (corrR (kernOf lim hl c θ) nugget noise fun i j => normalise (scaling fun i => X i j) (X i j)) F fun i => normalise (scaling y) (y i)) = 0 :=
      funext hzero
    have hdet : IsUnit C.det := det_ne_of_lower C hch.lower hch.diag
    have := congrArg (fun z => C *ᵥ z) hv
    simp only [Matrix.mulVec_mulVec, Matrix.mul_nonsing_inv _ hdet, Matrix.one_mulVec, Matrix.mulVec_zero] at this
    refine hy (glsBeta (corrR (kernOf lim hl c θ) nugget noise fun i j => normalise (scaling fun i => X i j) (X i j)) F fun i => normalise (scaling y) (y i)) fun i => ?_
    have hi := congrFun (sub_eq_zero.1 this) i
    simpa [hFd, Matrix.mulVec] using hi
  obtain ⟨v, hv⟩ := hfin
  obtain ⟨s, e1, e2, -, -⟩ := C65_first_success (floor := floor) (nb := nb) (fuel := fuel) h0 hv
  exact ⟨s, _, e1, e2, hp, htr⟩

/-- Non-vacuity of `C65_trains`: three points of the plane, outputs 0, 1, 2, constant trend, an optimiser that answers `(1, 1)`. -/
example : ∃ s θ, optimize (dataVal (n := 3) (nx := 2) (p := 1) cholStd qrStd (kernOf 10 (by decide) .matern52) trendConstant 0 (fun _ => 0) (fun i j => if i.val = j.val then 1 else 0)
      (fun i => (i : ℕ))) (-(10 : ℝ) ^ 20) 5 20 (fun _ => .done [] (fun _ => 1) (fun _ => 1)) = some (.returned s 1) ∧ s.best = some θ ∧ (θ = (fun _ => 1) ∨ θ = (fun _ => 1)) ∧
      (train (n := 3) (nx := 2) (p := 1) cholStd qrStd (kernOf 10 (by decide) .matern52 θ) trendConstant 0 (fun _ => 0) (fun i j => if i.val = j.val then 1 else 0) (fun i => (i : ℕ))).isSome := by
  refine C65_trains cholStd_ok cholStd_complete qrStd_ok (by decide) (c := .matern52) (by simp) ?_ ?_ (fun _ => by simp) (by decide) ?_ (fuel := 19) (vs := []) rfl (fun _ => one_pos) (fun _ => one_pos)
  · intro v hv
    have := congrFun hv 0
    funext q
    fin_cases q
    simpa [Matrix.mulVec, dotProduct, trendConstant] using this
  · intro i j hij
    have h0 := congrFun hij 0
    have h1 := congrFun hij 1
    fin_cases i <;> fin_cases j <;> simp at h0 h1 ⊢
  · intro b h
    have h0 := h 0
    have h1 := h 1
    rw [show (trendConstant fun j => normalise (scaling fun i : Fin 3 => (if i.val = j.val then 1 else 0 : ℝ)) ((if (0 : Fin 3).val = j.val then 1 else 0 : ℝ))) ⬝ᵥ b = b 0 by
      simp [trendConstant, dotProduct]] at h0
    rw [show (trendConstant fun j => normalise (scaling fun i : Fin 3 => (if i.val = j.val then 1 else 0 : ℝ)) ((if (1 : Fin 3).val = j.val then 1 else 0 : ℝ))) ⬝ᵥ b = b 0 by
      simp [trendConstant, dotProduct]] at h1
    have hne : (scaling fun i : Fin 3 => ((i : ℕ) : ℝ)).2 ≠ 0 := by
      unfold scaling
      simp only
      split_ifs with h
      · exact one_ne_zero
      · exact h
    have := h0.trans h1.symm
    simp only [normalise] at this
    have := (div_left_inj' hne).1 this
    simp at this
    linarith

end

end SMT.Krg.Optim
