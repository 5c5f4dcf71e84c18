import Verif.Kriging.MultiProps
import Mathlib.Tactic

set_option linter.unusedSectionVars false
set_option linter.unusedSimpArgs false
set_option linter.unusedVariables false

/-!
# C91, continued: units of the outputs, constant outputs, the gradient, TNC, and heteroscedastic noise
-/
namespace SMT.Krg.Multi
open Matrix SMT.Common SMT.Krg SMT.Krg.Optim

variable {n nx p ny m : ℕ}

theorem fwd_smul (C : Matrix (Fin n) (Fin n) ℝ) (e : ℝ) (b : Fin n → ℝ) : fwd C (e • b) = e • fwd C b := by
  have key : ∀ m (i : Fin n), i.val = m → fwd C (e • b) i = e * fwd C b i := by
    intro m
    induction m using Nat.strong_induction_on with
    | _ m ih =>
      intro i hi
      rw [fwd_eq, fwd_eq C b, mul_div_assoc', mul_sub, Finset.mul_sum]
      congr 2
      refine Finset.sum_congr rfl fun j _ => ?_
      by_cases hj : j < i
      · rw [if_pos hj, if_pos hj, ih j.val (hi ▸ hj) j rfl]; ring
      · rw [if_neg hj, if_neg hj, mul_zero]
  exact funext fun i => key i.val i rfl

theorem bwd_smul (U : Matrix (Fin p) (Fin p) ℝ) (e : ℝ) (b : Fin p → ℝ) : bwd U (e • b) = e • bwd U b := by
  funext i
  unfold bwd
  have := congrFun (fwd_smul (U.submatrix Fin.rev Fin.rev) e fun k => b k.rev) i.rev
  exact this

theorem blup_smul (C : Matrix (Fin n) (Fin n) ℝ) (qr : Matrix (Fin n) (Fin p) ℝ → Matrix (Fin n) (Fin p) ℝ × Matrix (Fin p) (Fin p) ℝ) (F : Matrix (Fin n) (Fin p) ℝ) (e : ℝ) (y : Fin n → ℝ)
    (s s' dof : ℝ) : (blup C qr F (e • y) s' dof).beta = e • (blup C qr F y s dof).beta ∧ (blup C qr F (e • y) s' dof).gamma = e • (blup C qr F y s dof).gamma ∧
      (blup C qr F (e • y) s' dof).sigma2 = e ^ 2 * (blup C qr F y 1 dof).sigma2 * s' ^ 2 := by
  have hb : bwd (qr (fwdM C F)).2 ((qr (fwdM C F)).1ᵀ *ᵥ fwd C (e • y)) = e • bwd (qr (fwdM C F)).2 ((qr (fwdM C F)).1ᵀ *ᵥ fwd C y) := by
    rw [fwd_smul, Matrix.mulVec_smul, bwd_smul]
  have hr : fwd C (e • y) - fwdM C F *ᵥ bwd (qr (fwdM C F)).2 ((qr (fwdM C F)).1ᵀ *ᵥ fwd C (e • y)) =
      e • (fwd C y - fwdM C F *ᵥ bwd (qr (fwdM C F)).2 ((qr (fwdM C F)).1ᵀ *ᵥ fwd C y)) := by
    rw [hb, Matrix.mulVec_smul, fwd_smul, smul_sub]
  refine ⟨hb, ?_, ?_⟩
  · show bwd Cᵀ _ = e • bwd Cᵀ _
    rw [hr, bwd_smul]
  · show (∑ i, _) / dof * s' ^ 2 = e ^ 2 * ((∑ i, _) / dof * 1 ^ 2) * s' ^ 2
    rw [hr]
    simp only [Pi.smul_apply, smul_eq_mul, mul_pow, ← Finset.mul_sum]
    ring

section data
variable {chol : Matrix (Fin n) (Fin n) ℝ → Option (Matrix (Fin n) (Fin n) ℝ)} {qr : Matrix (Fin n) (Fin p) ℝ → Matrix (Fin n) (Fin p) ℝ × Matrix (Fin p) (Fin p) ℝ}
  {kern : (Fin nx → ℝ) → ℝ} {trend : (Fin nx → ℝ) → Fin p → ℝ} {nugget : ℝ} {noise : Fin n → ℝ} {X : Fin n → Fin nx → ℝ} {Y : Matrix (Fin n) (Fin ny) ℝ} {M : ModelM n nx p ny}

theorem stdY_units (hn : 0 < n) {c : ℝ} (hc : c ≠ 0) (d : ℝ) (y : Fin n → ℝ) :
    ∃ e : ℝ, e ^ 2 = 1 ∧ (fun i => normalise (scaling fun i => c * y i + d) (c * y i + d)) = e • (fun i => normalise (scaling y) (y i)) ∧
      (scaling fun i => c * y i + d).1 = c * (scaling y).1 + d ∧ ((∃ i k, y i ≠ y k) → (scaling fun i => c * y i + d).2 * e = c * (scaling y).2) := by
  have hmean : (scaling fun i => c * y i + d).1 = c * (scaling y).1 + d := mean_change hn 1 c d y
  by_cases hy : ∃ i k, y i ≠ y k
  · refine ⟨if 0 < c then 1 else -1, by split_ifs <;> norm_num, ?_, hmean, fun _ => ?_⟩
    · funext i
      have := normalise_change hn 1 c d y (y i)
      have hf := factor_eq hn 1 c d y hc (Or.inl hy)
      rw [hf] at this
      exact this
    · have hf : c * (scaling y).2 / (scaling fun i => c * y i + d).2 = _ := factor_eq hn 1 c d y hc (Or.inl hy)
      rw [← hf]
      field_simp [(scaling_pos fun i => c * y i + d).ne']
  · push Not at hy
    refine ⟨1, by norm_num, ?_, hmean, fun ⟨i, k, h⟩ => absurd (hy i k) h⟩
    have hm : ∀ i, (scaling y).1 = y i := fun i => by
      show mean y = y i
      unfold mean
      simp only [hy _ i, Finset.sum_const, Finset.card_univ, Fintype.card_fin, nsmul_eq_mul]
      have : (n : ℝ) ≠ 0 := by exact_mod_cast hn.ne'
      field_simp
    funext i
    simp [normalise, hmean, hm i]

theorem variance_scale {K : Model n nx p} {P' : Par n p} {o : ℝ × ℝ} {s : ℝ} (hs : 0 < s) (hC : P'.C = K.par.C) (hFt : P'.Ft = K.par.Ft) (hG : P'.G = K.par.G)
    (hsig : P'.sigma2 = s * K.par.sigma2) (x : Fin nx → ℝ) : Model.variance { K with par := P', yOS := o } x = s * K.variance x := by
  obtain ⟨β, γ, C', Ft', Q', G', σ'⟩ := P'
  simp only at hC hFt hG hsig
  subst hC; subst hFt; subst hG; subst hsig
  have key : ∀ B : ℝ, (if s * K.par.sigma2 * B < 0 then (0 : ℝ) else s * K.par.sigma2 * B) = s * if K.par.sigma2 * B < 0 then 0 else K.par.sigma2 * B := fun B => by
    rw [mul_assoc]
    by_cases h : K.par.sigma2 * B < 0
    · rw [if_pos h, if_pos (mul_neg_of_pos_of_neg hs h), mul_zero]
    · rw [if_neg h, if_neg (not_lt.2 (mul_nonneg hs.le (not_lt.1 h)))]
  exact key _

theorem train_eq' {y : Fin n → ℝ} {K : Model n nx p} (h : train chol qr kern trend nugget noise X y = some K) : ∃ C, chol (corrR kern nugget noise (normX X)) = some C ∧
    K = { Xn := normX X, xOS := fun j => scaling fun i => X i j, yOS := scaling y, kern := kern, trend := trend, F := Matrix.of fun i => trend (normX X i),
          par := blup C qr (Matrix.of fun i => trend (normX X i)) (fun i => normalise (scaling y) (y i)) (scaling y).2 n } := by
  change (chol (corrR kern nugget noise (normX X))).map _ = some K at h
  obtain ⟨C, hC, h⟩ := Option.map_eq_some_iff.1 h
  exact ⟨C, hC, h.symm⟩

theorem train_units (hn : 0 < n) {c d : ℝ} (hc : c ≠ 0) {y : Fin n → ℝ} {K K' : Model n nx p} (h : train chol qr kern trend nugget noise X y = some K)
    (h' : train chol qr kern trend nugget noise X (fun i => c * y i + d) = some K') (x : Fin nx → ℝ) : K'.predict x = c * K.predict x + d ∧ K'.variance x = c ^ 2 * K.variance x := by
  obtain ⟨C, hC, rfl⟩ := train_eq' h
  obtain ⟨C', hC', rfl⟩ := train_eq' h'
  obtain rfl : C' = C := Option.some.inj (hC'.symm.trans hC)
  obtain ⟨e, e1, e2, e3, e4⟩ := stdY_units hn hc d y
  set F : Matrix (Fin n) (Fin p) ℝ := Matrix.of fun i => trend (normX X i) with hF
  set z : Fin n → ℝ := fun i => normalise (scaling y) (y i) with hz
  obtain ⟨b1, b2, b3⟩ := blup_smul C' qr F e z (scaling y).2 (scaling fun i => c * y i + d).2 n
  have hs0 : (blup C' qr F z (scaling y).2 n).sigma2 = (blup C' qr F z 1 n).sigma2 * (scaling y).2 ^ 2 := by simp [blup]
  have hconst : (¬ ∃ i k, y i ≠ y k) → z = 0 := fun hy => by
    push Not at hy
    funext i
    have hm : (scaling y).1 = y i := by
      show mean y = y i
      unfold mean
      simp only [hy _ i, Finset.sum_const, Finset.card_univ, Fintype.card_fin, nsmul_eq_mul]
      have : (n : ℝ) ≠ 0 := by exact_mod_cast hn.ne'
      field_simp
    simp [hz, normalise, hm]
  have hzero : z = 0 → (blup C' qr F z (scaling y).2 n).beta = 0 ∧ (blup C' qr F z (scaling y).2 n).gamma = 0 ∧ (blup C' qr F z 1 n).sigma2 = 0 := fun h0 => by
    obtain ⟨a1, a2, -⟩ := blup_smul C' qr F 0 z (scaling y).2 (scaling y).2 n
    obtain ⟨-, -, a3⟩ := blup_smul C' qr F 0 z 1 1 n
    rw [h0, smul_zero] at a1 a2 a3
    rw [h0]
    exact ⟨by rw [a1, zero_smul], by rw [a2, zero_smul], by rw [a3]; ring⟩
  constructor
  · set xn : Fin nx → ℝ := fun j => normalise (scaling fun i => X i j) (x j) with hxn
    set r : Fin n → ℝ := fun i => kern fun j => xn j - normX X i j with hr
    have hp : ∀ (P : Par n p) (o : ℝ × ℝ), Model.predict { Xn := normX X, xOS := fun j => scaling fun i => X i j, yOS := o, kern := kern, trend := trend, F := F, par := P } x =
        o.1 + o.2 * (trend xn ⬝ᵥ P.beta + r ⬝ᵥ P.gamma) := fun _ _ => rfl
    rw [hp, hp, e2, b1, b2, dotProduct_smul, dotProduct_smul, e3, smul_eq_mul, smul_eq_mul]
    by_cases hy : ∃ i k, y i ≠ y k
    · linear_combination (trend xn ⬝ᵥ (blup C' qr F z (scaling y).2 n).beta + r ⬝ᵥ (blup C' qr F z (scaling y).2 n).gamma) * e4 hy
    · obtain ⟨a1, a2, -⟩ := hzero (hconst hy)
      rw [a1, a2]
      simp
  · have hsig : (blup C' qr F (e • z) (scaling fun i => c * y i + d).2 n).sigma2 = c ^ 2 * (blup C' qr F z (scaling y).2 n).sigma2 := by
      rw [b3, hs0]
      by_cases hy : ∃ i k, y i ≠ y k
      · have h6 := congrArg (· ^ 2) (e4 hy)
        simp only [mul_pow] at h6
        linear_combination (blup C' qr F z 1 n).sigma2 * h6
      · rw [(hzero (hconst hy)).2.2]; ring
    rw [e2]
    have hcp : 0 < c ^ 2 := by positivity
    exact variance_scale (K := { Xn := normX X, xOS := fun j => scaling fun i => X i j, yOS := scaling y, kern := kern, trend := trend, F := F, par := blup C' qr F z (scaling y).2 n })
      (P' := blup C' qr F (e • z) (scaling fun i => c * y i + d).2 n) (o := scaling fun i => c * y i + d) hcp rfl rfl rfl hsig x

/-- **C91** Units of the outputs: other units (a factor and an offset for each output) leave the joint likelihood unchanged - the outputs are weighted equally whatever their units - and change
the predicted values and variances accordingly. -/
theorem C91_units (hn : 0 < n) {c d : Fin ny → ℝ} (hc : ∀ j, c j ≠ 0) :
    dataValM chol qr kern trend nugget noise X (Matrix.of fun i j => c j * Y i j + d j) = dataValM chol qr kern trend nugget noise X Y ∧
    ∀ M, trainM chol qr kern trend nugget noise X Y = some M → ∃ M', trainM chol qr kern trend nugget noise X (Matrix.of fun i j => c j * Y i j + d j) = some M' ∧
      ∀ (m : ℕ) (x : Fin m → Fin nx → ℝ) (k : Fin m) (j : Fin ny), M'.predict x k j = c j * M.predict x k j + d j ∧ M'.variance x k j = c j ^ 2 * M.variance x k j := by
  have hall := fun j => stdY_units hn (hc j) (d j) fun i => Y i j
  choose e he1 he2 he3 he4 using hall
  have hcol : ∀ j, (fun i => normY (Matrix.of fun i j => c j * Y i j + d j) i j) = e j • fun i => normY Y i j := fun j => he2 j
  constructor
  · unfold dataValM valM
    cases chol (corrR kern nugget noise (normX X)) with
    | none => rfl
    | some C =>
      have : ∀ j, sigma2M (glsM C qr (Matrix.of fun i => trend (normX X i)) (normY (Matrix.of fun i j => c j * Y i j + d j))).2 j =
          sigma2M (glsM C qr (Matrix.of fun i => trend (normX X i)) (normY Y)).2 j := fun j => by
        rw [sigma2M_eq, sigma2M_eq, hcol, (blup_smul C qr _ (e j) _ 1 1 n).2.2, he1]
        ring
      simp only [this]
  · intro M hM
    have hs : (trainM chol qr kern trend nugget noise X (Matrix.of fun i j => c j * Y i j + d j)).isSome := by
      have : (trainM chol qr kern trend nugget noise X Y).isSome := by rw [hM]; rfl
      unfold trainM at this ⊢
      simpa using this
    obtain ⟨M', hM'⟩ := Option.isSome_iff_exists.1 hs
    refine ⟨M', hM', fun m x k j => ?_⟩
    obtain ⟨N, e1, e2, e3, -⟩ := (C91_columns j).2 M hM
    obtain ⟨N', e1', e2', e3', -⟩ := (C91_columns j).2 M' hM'
    rw [e2, e2', e3, e3']
    exact train_units hn (hc j) e1 e1' (x k)

theorem const_zero (hn : 0 < n) {y : Fin n → ℝ} {c : ℝ} (hy : ∀ i, y i = c) : (scaling y).1 = c ∧ (fun i => normalise (scaling y) (y i)) = 0 := by
  have hm : (scaling y).1 = c := by
    show mean y = c
    unfold mean
    simp only [hy, Finset.sum_const, Finset.card_univ, Fintype.card_fin, nsmul_eq_mul]
    have : (n : ℝ) ≠ 0 := by exact_mod_cast hn.ne'
    field_simp
  exact ⟨hm, funext fun i => by simp [normalise, hm, hy i]⟩

theorem blup_zero (C : Matrix (Fin n) (Fin n) ℝ) (F : Matrix (Fin n) (Fin p) ℝ) (s dof : ℝ) :
    (blup C qr F 0 s dof).beta = 0 ∧ (blup C qr F 0 s dof).gamma = 0 ∧ (blup C qr F 0 s dof).sigma2 = 0 := by
  simp [blup, fwd_zero, bwd_zero]

/-- **C91** A constant output beside others: it is predicted exactly everywhere with variance 0 and has no influence on the joint likelihood: training behaves as if it were left out. (Alone, a constant
output makes training fail, `C65_constant_output`.) -/
theorem C91_constant_output (hn : 0 < n) {Y : Matrix (Fin n) (Fin (ny + 1)) ℝ} {j : Fin (ny + 1)} {c : ℝ} (hY : ∀ i, Y i j = c) :
    dataValM chol qr kern trend nugget noise X Y = dataValM chol qr kern trend nugget noise X (Y.submatrix id j.succAbove) ∧
    ∀ M, trainM chol qr kern trend nugget noise X Y = some M → ∀ (m : ℕ) (x : Fin m → Fin nx → ℝ) (k : Fin m), M.predict x k j = c ∧ M.variance x k j = 0 := by
  obtain ⟨hm, hz⟩ := const_zero hn (y := fun i => Y i j) hY
  constructor
  · unfold dataValM valM
    cases chol (corrR kern nugget noise (normX X)) with
    | none => rfl
    | some C =>
      have : ∑ j, sigma2M (glsM C qr (Matrix.of fun i => trend (normX X i)) (normY Y)).2 j =
          ∑ l, sigma2M (glsM C qr (Matrix.of fun i => trend (normX X i)) (normY (Y.submatrix id j.succAbove))).2 l := by
        rw [Fin.sum_univ_succAbove _ j, sigma2M_eq, show (fun i => normY Y i j) = 0 from hz, (blup_zero C _ 1 n).2.2, zero_add]
        rfl
      simp only [this]
  · intro M hM m x k
    obtain ⟨N, e1, e2, e3, -⟩ := (C91_columns j).2 M hM
    rw [e2, e3]
    obtain ⟨C, -, rfl⟩ := train_eq' e1
    rw [hz]
    set F : Matrix (Fin n) (Fin p) ℝ := Matrix.of fun i => trend (normX X i) with hF
    obtain ⟨a1, a2, a3⟩ := blup_zero (qr := qr) C F (scaling fun i => Y i j).2 n
    constructor
    · set xn : Fin nx → ℝ := fun j => normalise (scaling fun i => X i j) (x k j) with hxn
      set r : Fin n → ℝ := fun i => kern fun j => xn j - normX X i j with hr
      show (scaling fun i => Y i j).1 + (scaling fun i => Y i j).2 * (trend xn ⬝ᵥ (blup C qr F 0 (scaling fun i => Y i j).2 n).beta + r ⬝ᵥ (blup C qr F 0 (scaling fun i => Y i j).2 n).gamma) = c
      rw [a1, a2, hm]
      simp
    · simp only [Model.variance, a3, zero_mul, lt_irrefl, if_false]

/-- **C91** Hence training on several outputs fails for every optimiser if all of them are constant, and only the non-constant outputs matter for the choice of the hyper-parameters. -/
theorem C91_all_constant {Θ : Type} {kern : Θ → (Fin nx → ℝ) → ℝ} (hn : 0 < n) {c : Fin ny → ℝ} (hY : ∀ i j, Y i j = c j) {floor : ℝ} {nb fuel k : ℕ} {att : ℕ → Attempt Θ} {s : St Θ ℝ} :
    optimize (fun θ => dataValM chol qr (kern θ) trend nugget noise X Y) floor nb fuel att ≠ some (.returned s k) := by
  refine C65_never_finite fun θ v => ?_
  unfold dataValM valM
  cases chol (corrR (kern θ) nugget noise (normX X)) with
  | none => simp
  | some C =>
    have : ∑ j, sigma2M (glsM C qr (Matrix.of fun i => trend (normX X i)) (normY Y)).2 j = 0 := Finset.sum_eq_zero fun j _ => by
      rw [sigma2M_eq, show (fun i => normY Y i j) = 0 from (const_zero hn (y := fun i => Y i j) fun i => hY i j).2, (blup_zero C _ 1 n).2.2]
    simp [this]

/-! ## The gradient and TNC -/

/-- **C91** The gradient of the likelihood is available for one output only: with one output it is the gradient of `C63`, with two or more it raises a `ValueError` (as soon as there is one
hyper-parameter). -/
theorem C91_gradient (P : ParM n p ny) (F : Matrix (Fin n) (Fin p) ℝ) (yStd : Fin ny → ℝ) (dRs : List (Matrix (Fin n) (Fin n) ℝ)) :
    (∀ h : ny = 1, gradM P F yStd dRs = some (dRs.map fun dR => lhGrad (P.col ⟨0, by omega⟩) F (yStd ⟨0, by omega⟩) dR)) ∧ (2 ≤ ny → dRs ≠ [] → gradM P F yStd dRs = none) := by
  constructor
  · rintro rfl
    unfold gradM
    have : (fun dR => storeScalar (gradArray P F yStd dR)) = fun dR => some (lhGrad (P.col ⟨0, by omega⟩) F (yStd ⟨0, by omega⟩) dR) := by
      funext dR
      rfl
    rw [this]
    induction dRs with
    | nil => rfl
    | cons a l ih =>
      rw [List.mapM_cons, ih]
      rfl
  · intro h hne
    cases dRs with
    | nil => exact absurd rfl hne
    | cons a l =>
      unfold gradM
      rw [List.mapM_cons, storeScalar, dif_neg (by omega)]
      rfl

end data

section tnc
variable {Θ : Type}

/-- **C91** `hyper_opt="TNC"` with several outputs. Every evaluation of the gradient raises, so every attempt stops after one evaluation, at the starting point `θ0`. Then: (a) if the likelihood at `θ0` is finite
(and above `-1e20`), training "succeeds" after six attempts and returns `θ0` itself, not optimised; the budget is used up. (b) The next training of the same object, on whatever data, raises a `ValueError` at the first
attempt. (c) If the factorisation fails at `θ0`, training stops with a `KeyError`. -/
theorem C91_tnc {rl : Θ → Val ℝ} {grad : Θ → Option (List ℝ)} (hg : ∀ θ, grad θ = none) {floor : ℝ} {go : ℕ → Attempt Θ} {θ0 : Θ} {fuel : ℕ} (hf : 6 ≤ fuel) :
    (∀ v, rl θ0 = .fin v → floor < v → ∃ s, optimize rl floor 5 fuel (fun i => tncAttempt rl grad (go i) θ0) = some (.returned s 6) ∧ s.best = some θ0 ∧ s.bestVal = v ∧ s.nbIll = 0) ∧
    (rl θ0 ≠ .ninf → ∃ s, optimize rl floor 0 fuel (fun i => tncAttempt rl grad (go i) θ0) = some (.failed s 1)) ∧
    (∀ nb, rl θ0 = .ninf → ∃ s, optimize rl floor nb fuel (fun i => tncAttempt rl grad (go i) θ0) = some (.crashed s 1)) := by
  obtain ⟨fuel, rfl⟩ : ∃ f, fuel = f + 6 := ⟨fuel - 6, by omega⟩
  refine ⟨fun v hv hfl => ?_, fun h => ?_, fun nb h => ?_⟩
  · have hatt : (fun i => tncAttempt rl grad (go i) θ0) = fun _ => .raises [θ0] := funext fun i => by simp only [tncAttempt, hv, hg]
    rw [hatt]
    refine ⟨{ mem := some (v, θ0), nbIll := 0, k := 7, stop := 6, bestVal := v, best := some θ0 }, ?_, rfl, rfl, rfl⟩
    simp [optimize, loop, init, step, handler, visit, hv, Val.finite?, hfl]
    rw [loop.eq_def]
    simp
  · have hatt : (fun i => tncAttempt rl grad (go i) θ0) = fun _ => .raises [θ0] := funext fun i => by
      cases hr : rl θ0 with
      | ninf => exact absurd hr h
      | fin v => simp only [tncAttempt, hr, hg]
      | pinf => simp only [tncAttempt, hr, hg]
    rw [hatt]
    exact C65_no_budget (vs := [θ0]) rfl
  · have hatt : (fun i => tncAttempt rl grad (go i) θ0) = fun _ => .fatal [θ0] := funext fun i => by simp only [tncAttempt, h]
    rw [hatt]
    exact ⟨_, by rw [optimize, loop, if_pos (by simp [init])]; simp [step]; rfl⟩

/-- **C91** The same for a sequence of two trainings. -/
theorem C91_tnc_twice {rl rl' : Θ → Val ℝ} {grad grad' : Θ → Option (List ℝ)} (hg : ∀ θ, grad θ = none) (hg' : ∀ θ, grad' θ = none) {floor v : ℝ} {go go' : ℕ → Attempt Θ} {θ0 θ0' : Θ}
    (hv : rl θ0 = .fin v) (hfl : floor < v) (hv' : rl' θ0' ≠ .ninf) :
    ∃ s s', trainings floor 5 [(rl, 6, fun i => tncAttempt rl grad (go i) θ0), (rl', 6, fun i => tncAttempt rl' grad' (go' i) θ0')] = [some (.returned s 6), some (.failed s' 1)] ∧ s.best = some θ0 := by
  obtain ⟨s, h1, h2, -, h4⟩ := (C91_tnc (go := go) hg (le_refl 6)).1 v hv hfl
  obtain ⟨s', h'⟩ := (C91_tnc (floor := floor) (go := go') hg' (le_refl 6)).2.1 hv'
  refine ⟨s, s', ?_, h2⟩
  simp [trainings, h1, Res.nbIll, h4, h']

end tnc

/-! ## Heteroscedastic noise -/

/-- **C91** `eval_noise` with `use_het_noise` and several outputs: values can be predicted for one point at a time only - any other number of points raises - and then every output gets the same
standardised value. -/
theorem C91_het_predict (hny : 2 ≤ ny) (yOS : Fin ny → ℝ × ℝ) (y : Fin m → ℝ) :
    (m ≠ 1 → hetOutput yOS y = none) ∧ (∀ h : m = 1, ∃ A, hetOutput yOS y = some A ∧ ∀ k j, A k j = (yOS j).1 + (yOS j).2 * y ⟨0, by omega⟩) := by
  constructor
  · intro h
    unfold hetOutput
    rw [dif_neg h, dif_neg (by omega), if_neg]
    rintro ⟨h1, h2⟩
    subst h1
    have : m * 2 ≤ m * m := Nat.mul_le_mul_left m hny
    omega
  · intro h
    unfold hetOutput
    rw [dif_pos h]
    exact ⟨_, rfl, fun k j => rfl⟩

theorem outs_flat (X : Fin n → Fin nx → ℝ) (hX : Function.Injective X) (Y : Matrix (Fin n) (Fin ny) ℝ) (i : Fin n) : Het.outs (flatRows X Y) (normX X i) = List.ofFn fun j => normY Y i j := by
  classical
  have hinj : ∀ a, normX X a = normX X i ↔ a = i := fun a => by
    constructor
    · intro h
      exact hX (funext fun j => normalise_inj _ _ _ (congrFun h j))
    · rintro rfl; rfl
  unfold Het.outs flatRows
  rw [List.filter_flatten, List.map_flatten, List.map_ofFn, List.map_ofFn]
  have e : ∀ a, ((List.map Prod.snd ∘ List.filter fun r : (Fin nx → ℝ) × ℝ => decide (r.1 = normX X i)) ∘ fun i => List.ofFn fun j => (normX X i, normY Y i j)) a =
      if a = i then List.ofFn fun j => normY Y i j else [] := fun a => by
    simp only [Function.comp]
    by_cases h : a = i
    · subst h
      rw [if_pos rfl, List.filter_eq_self.2 (by intro r hr; obtain ⟨j, rfl⟩ := List.mem_ofFn.1 hr; simp), List.map_ofFn]
      rfl
    · rw [if_neg h, List.filter_eq_nil_iff.2 (by intro r hr; obtain ⟨j, rfl⟩ := List.mem_ofFn.1 hr; simpa using fun h' => h ((hinj a).1 h'))]
      rfl
  have e2 : ∀ (N : ℕ) (g : Fin N → List ℝ) (i : Fin N), (List.ofFn fun a => if a = i then g i else []).flatten = g i := by
    intro N g i
    induction N with
    | zero => exact i.elim0
    | succ N ih =>
      rw [List.ofFn_succ, List.flatten_cons]
      cases i using Fin.cases with
      | zero =>
        rw [if_pos rfl]
        have : (List.ofFn fun a : Fin N => if a.succ = 0 then g 0 else []) = List.replicate N [] := by
          rw [List.ofFn_congr rfl, List.eq_replicate_iff]
          simp [List.mem_ofFn, Fin.succ_ne_zero]
        rw [this]
        simp
      | succ i =>
        rw [if_neg (Fin.succ_ne_zero i).symm, List.nil_append]
        have := ih (fun a => g a.succ) i
        refine Eq.trans ?_ this
        congr 2
        funext a
        simp
  rw [← e2 n (fun i => List.ofFn fun j => normY Y i j) i]
  congr 2
  funext a
  exact e a

/-- **C91** What such a model fits: for distinct training points, the average over the outputs of the standardised values, with the variance over the outputs as "noise" (unless all outputs
have the same standardised value at that point). -/
theorem C91_het_target (X : Fin n → Fin nx → ℝ) (hX : Function.Injective X) (Y : Matrix (Fin n) (Fin ny) ℝ) (hny : 2 ≤ ny) (noise0 : ℝ) (i : Fin n) :
    hetTarget X Y (normX X i) = (∑ j, normY Y i j) / ny ∧
    hetNoise noise0 X Y (normX X i) = if ∀ j k, normY Y i j = normY Y i k then noise0 else (∑ j, (normY Y i j - (∑ j, normY Y i j) / ny) ^ 2) / (ny - 1) := by
  classical
  have ho := outs_flat X hX Y i
  have ht : hetTarget X Y (normX X i) = (∑ j, normY Y i j) / ny := by
    unfold hetTarget Het.meanL
    rw [ho, List.sum_ofFn, List.length_ofFn]
  refine ⟨ht, ?_⟩
  set μ := (∑ j, normY Y i j) / ny with hμ
  have hny0 : (ny : ℝ) ≠ 0 := by have : (2 : ℝ) ≤ ny := by exact_mod_cast hny
                                 positivity
  have hny1 : (0 : ℝ) < (ny : ℝ) - 1 := by
    have : (2 : ℝ) ≤ ny := by exact_mod_cast hny
    linarith
  unfold hetNoise
  rw [ht, ho]
  simp only [List.map_ofFn, List.sum_ofFn]
  have hlen : ((List.ofFn fun i => normX X i).filter fun r => r = normX X i).length = 1 := by
    have hnd : (List.ofFn fun i => normX X i).Nodup := List.nodup_ofFn.2 fun a b h => hX (funext fun j => normalise_inj _ _ _ (congrFun h j))
    have hmem : normX X i ∈ (List.ofFn fun i => normX X i) := List.mem_ofFn.2 ⟨i, rfl⟩
    rw [← List.countP_eq_length_filter]
    have := List.count_eq_one_of_mem hnd hmem
    rw [List.count] at this
    rw [← this]
    congr 1
  rw [hlen, Nat.cast_one, div_one]
  have hmean0 : Het.meanL (List.ofFn ((fun v => v - μ) ∘ fun j => normY Y i j)) = 0 := by
    unfold Het.meanL
    rw [List.sum_ofFn]
    simp only [Function.comp, Finset.sum_sub_distrib, Finset.sum_const, Finset.card_univ, Fintype.card_fin, nsmul_eq_mul, hμ]
    rw [mul_div_cancel₀ _ hny0, sub_self, zero_div]
  have hsq : Het.stdL (List.ofFn ((fun v => v - μ) ∘ fun j => normY Y i j)) ^ 2 = (∑ j, (normY Y i j - μ) ^ 2) / (ny - 1) := by
    unfold Het.stdL
    rw [hmean0, List.map_ofFn, List.sum_ofFn, List.length_ofFn, Real.sq_sqrt]
    · simp
    · exact div_nonneg (Finset.sum_nonneg fun _ _ => sq_nonneg _) hny1.le
  rw [hsq]
  have hz : (∑ j, ((fun v => v ^ 2) ∘ (fun v => v - μ) ∘ fun j => normY Y i j) j) = ∑ j, (normY Y i j - μ) ^ 2 := rfl
  rw [hz]
  have hiff : (∑ j, (normY Y i j - μ) ^ 2 = 0) ↔ ∀ j k, normY Y i j = normY Y i k := by
    rw [Finset.sum_eq_zero_iff_of_nonneg fun _ _ => sq_nonneg _]
    constructor
    · intro h j k
      have hj := pow_eq_zero_iff two_ne_zero |>.1 (h j (Finset.mem_univ _))
      have hk := pow_eq_zero_iff two_ne_zero |>.1 (h k (Finset.mem_univ _))
      linarith
    · intro h j _
      have : μ = normY Y i j := by
        rw [hμ, Finset.sum_congr rfl fun k _ => h k j]
        simp only [Finset.sum_const, Finset.card_univ, Fintype.card_fin, nsmul_eq_mul]
        field_simp
      rw [this]; simp
  by_cases hall : ∀ j k, normY Y i j = normY Y i k
  · rw [if_neg (not_not.2 (hiff.2 hall)), if_pos hall]
  · rw [if_pos fun h => hall (hiff.1 h), if_neg hall]

/-! ## Examples -/

theorem finite_example {y : Fin 3 → ℝ} (h01 : y 0 ≠ y 1) : ∃ v, dataVal (n := 3) (nx := 2) (p := 1) cholStd qrStd (kernOf 10 (by decide) .matern52) trendConstant 0 (fun _ => 0)
    (fun i j => if i.val = j.val then 1 else 0) y (fun _ => 1) = .fin v := by
  obtain ⟨s, θ, h1, h2, h3, -⟩ := C65_trains (n := 3) (nx := 2) (p := 1) (X := fun i j => if i.val = j.val then 1 else 0) (y := y) (trend := trendConstant) (nugget := 0) (noise := fun _ => 0)
    cholStd_ok cholStd_complete qrStd_ok (lim := 10) (by decide) (c := .matern52) (by simp) (by
      intro v hv
      have := congrFun hv 0
      funext q
      fin_cases q
      simpa [Matrix.mulVec, dotProduct, trendConstant] using this) (by
      intro i j hij
      have h0 := congrFun hij 0
      have h1 := congrFun hij 1
      fin_cases i <;> fin_cases j <;> simp at h0 h1 ⊢) (fun _ => by simp) (by decide) (by
      intro b h
      have h0 := h 0
      have h1 := h 1
      rw [show (trendConstant fun j => normalise (scaling fun i : Fin 3 => (if i.val = j.val then 1 else 0 : ℝ)) ((if (0 : Fin 3).val = j.val then 1 else 0 : ℝ))) ⬝ᵥ b = b 0 by
        simp [trendConstant, dotProduct]] at h0
      rw [show (trendConstant fun j => normalise (scaling fun i : Fin 3 => (if i.val = j.val then 1 else 0 : ℝ)) ((if (1 : Fin 3).val = j.val then 1 else 0 : ℝ))) ⬝ᵥ b = b 0 by
        simp [trendConstant, dotProduct]] at h1
      exact h01 (normalise_inj _ _ _ (h0.trans h1.symm))) (floor := -(10 : ℝ) ^ 20) (nb := 5) (fuel := 19) (att := fun _ => .done [] (fun _ => 1) (fun _ => 1)) (vs := []) rfl (fun _ => one_pos) (fun _ => one_pos)
  have hθ : θ = fun _ => 1 := by rcases h3 with h | h <;> exact h
  have := (C65_sound h1 h2).2
  rw [hθ] at this
  exact ⟨_, this⟩

/-- Two outputs (the second in other units, shifted and reversed) on three points of the plane: the hypotheses of `C91_bounds` are met. -/
example : ∃ (l : Fin 2 → ℝ) (L : ℝ), (∀ j, dataVal (n := 3) (nx := 2) (p := 1) cholStd qrStd (fun _ : Unit => kernOf 10 (by decide) .matern52 fun _ => 1) trendConstant 0 (fun _ => 0)
      (fun i j => if i.val = j.val then 1 else 0) (fun i => (!![0, 3; 1, 2; 5, 7] : Matrix (Fin 3) (Fin 2) ℝ) i j) () = .fin (l j)) ∧
    dataValM (n := 3) (nx := 2) (p := 1) cholStd qrStd (kernOf 10 (by decide) .matern52 fun _ => 1) trendConstant 0 (fun _ => 0) (fun i j => if i.val = j.val then 1 else 0)
      (!![0, 3; 1, 2; 5, 7] : Matrix (Fin 3) (Fin 2) ℝ) = .fin L ∧ ∀ j, L ≤ l j := by
  have h : ∀ j, ∃ v, dataVal (n := 3) (nx := 2) (p := 1) cholStd qrStd (fun _ : Unit => kernOf 10 (by decide) .matern52 fun _ => 1) trendConstant 0 (fun _ => 0)
      (fun i j => if i.val = j.val then 1 else 0) (fun i => (!![0, 3; 1, 2; 5, 7] : Matrix (Fin 3) (Fin 2) ℝ) i j) () = .fin v := fun j =>
    finite_example (y := fun i => (!![0, 3; 1, 2; 5, 7] : Matrix (Fin 3) (Fin 2) ℝ) i j) (by fin_cases j <;> norm_num)
  choose l hl using h
  obtain ⟨L, h1, h2, -⟩ := C91_bounds (by decide) (by decide) cholStd_ok hl
  exact ⟨l, L, hl, h1, h2⟩

/-- Two trainings with TNC and two outputs: the first returns the starting point, the second fails. -/
example : ∃ s s', trainings (Θ := ℕ) (-(10 : ℝ) ^ 20) 5 [((fun _ => .fin 0), 6, fun i => tncAttempt (fun _ => .fin 0) (fun _ => gradM (n := 1) (p := 1) (ny := 2) ⟨0, 0, 0, 0, 0, 0, 0⟩ 0 0 [0]) (.done [] 3 4) 7),
      ((fun _ => .fin 1), 6, fun i => tncAttempt (fun _ => .fin 1) (fun _ => gradM (n := 1) (p := 1) (ny := 2) ⟨0, 0, 0, 0, 0, 0, 0⟩ 0 0 [0]) (.done [] 3 4) 8)] =
    [some (.returned s 6), some (.failed s' 1)] ∧ s.best = some 7 :=
  C91_tnc_twice (v := 0) (fun _ => (C91_gradient _ _ _ _).2 (le_refl 2) (by simp)) (fun _ => (C91_gradient _ _ _ _).2 (le_refl 2) (by simp)) rfl (by norm_num) (by simp)

/-- Two outputs whose standardised values differ at a point: the model fits their average. -/
example (noise0 : ℝ) : hetNoise noise0 (fun i (_ : Fin 1) => ((i : Fin 2) : ℕ) : Fin 2 → Fin 1 → ℝ) (!![0, 1; 1, 0] : Matrix (Fin 2) (Fin 2) ℝ) (normX (fun i (_ : Fin 1) => ((i : Fin 2) : ℕ) : Fin 2 → Fin 1 → ℝ) 0) ≠ 0 := by
  have hX : Function.Injective (fun i (_ : Fin 1) => ((i : Fin 2) : ℕ) : Fin 2 → Fin 1 → ℝ) := fun a b h => by
    have : ((a : ℕ) : ℝ) = ((b : ℕ) : ℝ) := congrFun h 0
    exact Fin.ext (by exact_mod_cast this)
  have hs : (scaling fun i : Fin 2 => (!![0, 1; 1, 0] : Matrix (Fin 2) (Fin 2) ℝ) i 0) = scaling fun i : Fin 2 => (!![0, 1; 1, 0] : Matrix (Fin 2) (Fin 2) ℝ) i 1 := by
    simp [scaling, std1, mean, Fin.sum_univ_two]
    norm_num
  have hne : normY (!![0, 1; 1, 0] : Matrix (Fin 2) (Fin 2) ℝ) 0 0 ≠ normY (!![0, 1; 1, 0] : Matrix (Fin 2) (Fin 2) ℝ) 0 1 := by
    intro h
    have h' : normalise (scaling fun i : Fin 2 => (!![0, 1; 1, 0] : Matrix (Fin 2) (Fin 2) ℝ) i 0) 0 = normalise (scaling fun i : Fin 2 => (!![0, 1; 1, 0] : Matrix (Fin 2) (Fin 2) ℝ) i 1) 1 := h
    rw [hs] at h'
    exact zero_ne_one (normalise_inj _ _ _ h')
  rw [(C91_het_target _ hX _ (le_refl 2) noise0 0).2, if_neg fun h => hne (h 0 1)]
  intro h0
  have hz := (div_eq_zero_iff.1 h0).resolve_right (by norm_num)
  rw [Finset.sum_eq_zero_iff_of_nonneg fun _ _ => sq_nonneg _] at hz
  have a := pow_eq_zero_iff two_ne_zero |>.1 (hz 0 (Finset.mem_univ _))
  have b := pow_eq_zero_iff two_ne_zero |>.1 (hz 1 (Finset.mem_univ _))
  exact hne (by linarith)

end SMT.Krg.Multi
