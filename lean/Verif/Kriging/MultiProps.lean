import Verif.Kriging.Multi
import Verif.Kriging.UnitsProps
import Mathlib.Tactic

set_option linter.unusedSectionVars false
set_option linter.unusedSimpArgs false
set_option linter.unusedVariables false

/-!
# C91: Kriging models trained on several outputs
-/
namespace SMT.Krg.Multi
open Matrix SMT.Common SMT.Krg SMT.Krg.Optim

variable {n nx p ny m : ℕ}

/-! ## Columns -/

theorem reshape_ravel (A : Matrix (Fin m) (Fin ny) ℝ) : reshape (ravel A) = A := by
  ext i j
  simp [reshape, ravel]

/-- Column `j` of `par`. -/
noncomputable def ParM.col (P : ParM n p ny) (j : Fin ny) : Par n p :=
  { beta := fun q => P.beta q j, gamma := fun i => P.gamma i j, C := P.C, Ft := P.Ft, Q := P.Q, G := P.G, sigma2 := P.sigma2 j }

/-- Output `j` of a model. -/
noncomputable def ModelM.col (M : ModelM n nx p ny) (j : Fin ny) : Model n nx p :=
  { Xn := M.Xn, xOS := M.xOS, yOS := M.yOS j, kern := M.kern, trend := M.trend, F := M.F, par := M.par.col j }

theorem fwdM_col (C : Matrix (Fin n) (Fin n) ℝ) (B : Matrix (Fin n) (Fin ny) ℝ) (j : Fin ny) : (fun i => fwdM C B i j) = fwd C fun i => B i j := rfl
theorem bwdM_col (C : Matrix (Fin n) (Fin n) ℝ) (B : Matrix (Fin n) (Fin ny) ℝ) (j : Fin ny) : (fun i => bwdM C B i j) = bwd C fun i => B i j := rfl
theorem mul_col (A : Matrix (Fin m) (Fin n) ℝ) (B : Matrix (Fin n) (Fin ny) ℝ) (j : Fin ny) : (fun i => (A * B) i j) = A *ᵥ fun i => B i j := rfl

theorem glsM_col (C : Matrix (Fin n) (Fin n) ℝ) (qr : Matrix (Fin n) (Fin p) ℝ → Matrix (Fin n) (Fin p) ℝ × Matrix (Fin p) (Fin p) ℝ) (F : Matrix (Fin n) (Fin p) ℝ) (Y : Matrix (Fin n) (Fin ny) ℝ)
    (j : Fin ny) : (fun q => (glsM C qr F Y).1 q j) = bwd (qr (fwdM C F)).2 ((qr (fwdM C F)).1ᵀ *ᵥ fwd C fun i => Y i j) ∧
      (fun i => (glsM C qr F Y).2 i j) = fwd C (fun i => Y i j) - fwdM C F *ᵥ bwd (qr (fwdM C F)).2 ((qr (fwdM C F)).1ᵀ *ᵥ fwd C fun i => Y i j) :=
  ⟨rfl, rfl⟩

theorem blupM_col (C : Matrix (Fin n) (Fin n) ℝ) (qr : Matrix (Fin n) (Fin p) ℝ → Matrix (Fin n) (Fin p) ℝ × Matrix (Fin p) (Fin p) ℝ) (F : Matrix (Fin n) (Fin p) ℝ) (Y : Matrix (Fin n) (Fin ny) ℝ)
    (yStd : Fin ny → ℝ) (j : Fin ny) : (blupM C qr F Y yStd).col j = blup C qr F (fun i => Y i j) (yStd j) n := rfl

section columns
variable {chol : Matrix (Fin n) (Fin n) ℝ → Option (Matrix (Fin n) (Fin n) ℝ)} {qr : Matrix (Fin n) (Fin p) ℝ → Matrix (Fin n) (Fin p) ℝ × Matrix (Fin p) (Fin p) ℝ}
  {kern : (Fin nx → ℝ) → ℝ} {trend : (Fin nx → ℝ) → Fin p → ℝ} {nugget : ℝ} {noise : Fin n → ℝ} {X : Fin n → Fin nx → ℝ} {Y : Matrix (Fin n) (Fin ny) ℝ} {M : ModelM n nx p ny}

theorem trainM_col (j : Fin ny) : (trainM chol qr kern trend nugget noise X Y).map (fun M => M.col j) = train chol qr kern trend nugget noise X fun i => Y i j := by
  unfold trainM train
  simp only [Option.map_map]
  rfl

/-- **C91** For given hyper-parameters the outputs do not influence each other: training on all outputs together succeeds iff training on output `j` alone does, and then column `j` of the predicted
values, variances, derivatives and variance derivatives is what the model trained on output `j` alone predicts, for every batch of points. -/
theorem C91_columns (j : Fin ny) :
    ((trainM chol qr kern trend nugget noise X Y).isSome ↔ (train chol qr kern trend nugget noise X fun i => Y i j).isSome) ∧
    ∀ M, trainM chol qr kern trend nugget noise X Y = some M → ∃ Mj, train chol qr kern trend nugget noise X (fun i => Y i j) = some Mj ∧
      (∀ (m : ℕ) (x : Fin m → Fin nx → ℝ) (k : Fin m), M.predict x k j = Mj.predict (x k)) ∧
      (∀ (m : ℕ) (x : Fin m → Fin nx → ℝ) (k : Fin m), M.variance x k j = Mj.variance (x k)) ∧
      (∀ (m : ℕ) (corr : Corr) (poly : Poly) (theta : Fin nx → ℝ) (x : Fin m → Fin nx → ℝ) (kx : Fin nx) (k : Fin m),
        (M.derivative corr poly theta x kx).map (fun D => D k j) = Mj.derivative corr poly theta (x k) kx) ∧
      ∀ (chol' : Matrix (Fin p) (Fin p) ℝ → Option (Matrix (Fin p) (Fin p) ℝ)) (x : Fin nx → ℝ) (dr : Matrix (Fin n) (Fin nx) ℝ) (df : Matrix (Fin p) (Fin nx) ℝ) (kx : Fin nx),
        (M.varianceDerivatives chol' x dr df).map (fun D => D j kx) = Mj.varianceDerivative chol' x kx (fun i => dr i kx) (fun q => df q kx) := by
  have ht := trainM_col (chol := chol) (qr := qr) (kern := kern) (trend := trend) (nugget := nugget) (noise := noise) (X := X) (Y := Y) j
  refine ⟨by rw [← ht, Option.isSome_map], fun M hM => ⟨M.col j, by rw [← ht, hM]; rfl, fun m x k => ?_, fun m x k => ?_, fun m corr poly theta x kx k => ?_, fun chol' x dr df kx => ?_⟩⟩
  · unfold ModelM.predict
    simp only [reshape_ravel]
    rfl
  · rfl
  · unfold ModelM.derivative Model.derivative
    by_cases hc : corr ≠ .squarExp
    · simp only [if_pos hc, Option.map_none]
    · simp only [if_neg hc]
      cases poly <;> rfl
  · unfold ModelM.varianceDerivatives Model.varianceDerivative
    simp only [Option.map_map]
    rfl

end columns

/-! ## The likelihood -/

section objective
variable {chol : Matrix (Fin n) (Fin n) ℝ → Option (Matrix (Fin n) (Fin n) ℝ)} {qr : Matrix (Fin n) (Fin p) ℝ → Matrix (Fin n) (Fin p) ℝ × Matrix (Fin p) (Fin p) ℝ}
  {kern : (Fin nx → ℝ) → ℝ} {trend : (Fin nx → ℝ) → Fin p → ℝ} {nugget : ℝ} {noise : Fin n → ℝ} {X : Fin n → Fin nx → ℝ} {Y : Matrix (Fin n) (Fin ny) ℝ} {M : ModelM n nx p ny}

/-- Reading of a likelihood value as a badness: `10 ^ (- value / n)`; infinite likelihood is badness 0. -/
noncomputable def bad (n : ℕ) : Val ℝ → Option ℝ
  | .ninf => none
  | .fin v => some ((10 : ℝ) ^ (-v / n))
  | .pinf => some 0

theorem sigma2M_eq (C : Matrix (Fin n) (Fin n) ℝ) (F : Matrix (Fin n) (Fin p) ℝ) (Y : Matrix (Fin n) (Fin ny) ℝ) (j : Fin ny) :
    sigma2M (glsM C qr F Y).2 j = (blup C qr F (fun i => Y i j) 1 n).sigma2 := by
  have := congrArg Par.sigma2 (blupM_col C qr F Y (fun _ => 1) j)
  rw [← this]
  simp [blupM, ParM.col]

theorem sigma2M_nonneg (rho : Matrix (Fin n) (Fin ny) ℝ) (j : Fin ny) : 0 ≤ sigma2M rho j := div_nonneg (Finset.sum_nonneg fun _ _ => sq_nonneg _) (Nat.cast_nonneg _)

theorem bad_formula {s d : ℝ} (hn : 0 < n) (hs : 0 < s) (hd : 0 < d) : bad n (.fin (-n * Real.logb 10 s - n * Real.logb 10 d)) = some (s * d) := by
  have h0 : (n : ℝ) ≠ 0 := Nat.cast_ne_zero.2 hn.ne'
  show some ((10 : ℝ) ^ (-(-(n : ℝ) * Real.logb 10 s - n * Real.logb 10 d) / n)) = some (s * d)
  congr 1
  rw [show -(-(n : ℝ) * Real.logb 10 s - n * Real.logb 10 d) / n = Real.logb 10 s + Real.logb 10 d by field_simp; ring, Real.rpow_add (by norm_num),
    Real.rpow_logb (by norm_num) (by norm_num) hs, Real.rpow_logb (by norm_num) (by norm_num) hd]

theorem detR_pos (hchol : CholOk chol) {R C : Matrix (Fin n) (Fin n) ℝ} (h : chol R = some C) : 0 < ∏ i, (C i i) ^ ((2 : ℝ) / n) :=
  Finset.prod_pos fun i _ => Real.rpow_pos_of_pos ((hchol _ _ h).pos i) _

theorem bad_valM (hn : 0 < n) (hchol : CholOk chol) {Xn : Fin n → Fin nx → ℝ} {F : Matrix (Fin n) (Fin p) ℝ} {C : Matrix (Fin n) (Fin n) ℝ} (Z : Matrix (Fin n) (Fin ny) ℝ)
    (h : chol (corrR kern nugget noise Xn) = some C) :
    bad n (valM chol qr kern nugget noise Xn F Z) = some ((∑ j, sigma2M (glsM C qr F Z).2 j) * ∏ i, (C i i) ^ ((2 : ℝ) / n)) := by
  unfold valM
  rw [h]
  simp only []
  by_cases hs : ∑ j, sigma2M (glsM C qr F Z).2 j = 0
  · rw [if_pos hs, hs]; simp [bad]
  · rw [if_neg hs, bad_formula hn (lt_of_le_of_ne (Finset.sum_nonneg fun j _ => sigma2M_nonneg _ j) (Ne.symm hs)) (detR_pos hchol h)]

theorem bad_krgVal (hn : 0 < n) (hchol : CholOk chol) {Xn : Fin n → Fin nx → ℝ} {F : Matrix (Fin n) (Fin p) ℝ} {C : Matrix (Fin n) (Fin n) ℝ} (z : Fin n → ℝ)
    (h : chol (corrR kern nugget noise Xn) = some C) :
    bad n (krgVal chol qr kern nugget noise Xn F z) = some ((blup C qr F z 1 n).sigma2 * ∏ i, (C i i) ^ ((2 : ℝ) / n)) := by
  unfold krgVal
  rw [h]
  simp only []
  by_cases hs : (blup C qr F z 1 n).sigma2 = 0
  · rw [if_pos hs, hs]; simp [bad]
  · rw [if_neg hs]
    have e : (blup C qr F z 1 n).sigma2 = (∑ i, (fwd C z - fwdM C F *ᵥ bwd (qr (fwdM C F)).2 ((qr (fwdM C F)).1ᵀ *ᵥ fwd C z)) i ^ 2) / n := by simp [blup]
    have hpos : 0 < (blup C qr F z 1 n).sigma2 := lt_of_le_of_ne (by rw [e]; exact div_nonneg (Finset.sum_nonneg fun _ _ => sq_nonneg _) (Nat.cast_nonneg _)) (Ne.symm hs)
    rw [← bad_formula hn hpos (detR_pos hchol h), e]
    rfl

/-- `bad` determines the value. -/
theorem bad_inj (hn : 0 < n) {a b : Val ℝ} (h : bad n a = bad n b) : a = b := by
  have h0 : (n : ℝ) ≠ 0 := Nat.cast_ne_zero.2 hn.ne'
  have pos : ∀ v : ℝ, (10 : ℝ) ^ v ≠ 0 := fun v => (Real.rpow_pos_of_pos (by norm_num) _).ne'
  cases a <;> cases b <;> simp [bad, pos, (pos _).symm] at h ⊢
  rename_i v w
  have := Real.rpow_right_inj (x := (10:ℝ)) (by norm_num) (by norm_num) |>.1 h
  field_simp at this
  linarith

/-- `a < b` for likelihoods is `bad b < bad a`. -/
theorem bad_lt (hn : 0 < n) {a b : Val ℝ} {x y : ℝ} (hx : bad n a = some x) (hy : bad n b = some y) : a.lt b = true ↔ y < x := by
  have h0 : (0 : ℝ) < n := Nat.cast_pos.2 hn
  have pos : ∀ v : ℝ, (0 : ℝ) < (10 : ℝ) ^ v := fun v => Real.rpow_pos_of_pos (by norm_num) _
  cases a <;> cases b <;> simp only [bad, Option.some.injEq, reduceCtorEq] at hx hy <;> subst hx <;> subst hy <;> simp only [Val.lt]
  · rename_i v w
    rw [decide_eq_true_iff, Real.rpow_lt_rpow_left_iff (by norm_num), div_lt_div_iff_of_pos_right h0]
    constructor <;> intro h <;> linarith
  · simp [pos]
  · simp [(pos _).le]
  · simp

/-- The value of a list of badnesses: the likelihood of all outputs together. -/
noncomputable def pooled (n : ℕ) (s : ℝ) : Val ℝ := if s = 0 then .pinf else .fin (-n * Real.logb 10 s)

theorem bad_pooled (hn : 0 < n) {s : ℝ} (hs : 0 ≤ s) : bad n (pooled n s) = some s := by
  unfold pooled
  split_ifs with h
  · rw [h]; rfl
  · have := bad_formula hn (lt_of_le_of_ne hs (Ne.symm h)) one_pos
    simpa using this

/-- **C91** What is maximised. The likelihood of all outputs together is minus infinity exactly when that of each output is (the factorisation fails), and otherwise it is
`- n log10 (sum over the outputs of 10 ^ (- l_j / n))` where `l_j` is the likelihood of output `j` alone - an infinite `l_j` (an output the trend reproduces) contributes 0, and the result is
plus infinity if all do. -/
theorem C91_objective (hn : 0 < n) (hchol : CholOk chol) :
    (chol (corrR kern nugget noise (normX X)) = none → dataValM chol qr kern trend nugget noise X Y = .ninf ∧ ∀ j, dataVal chol qr (fun _ : Unit => kern) trend nugget noise X (fun i => Y i j) () = .ninf) ∧
    (chol (corrR kern nugget noise (normX X)) ≠ none → ∃ b : Fin ny → ℝ, (∀ j, 0 ≤ b j ∧ bad n (dataVal chol qr (fun _ : Unit => kern) trend nugget noise X (fun i => Y i j) ()) = some (b j)) ∧
      dataValM chol qr kern trend nugget noise X Y = pooled n (∑ j, b j)) := by
  refine ⟨fun h => ⟨?_, fun j => ?_⟩, fun h => ?_⟩
  · unfold dataValM valM; rw [h]
  · unfold dataVal krgVal; simp only []; rw [show (fun i j => normalise (scaling fun i => X i j) (X i j)) = normX X from rfl, h]
  · obtain ⟨C, hC⟩ := Option.ne_none_iff_exists'.1 h
    set F : Matrix (Fin n) (Fin p) ℝ := Matrix.of fun i => trend (normX X i) with hF
    have hnn : ∀ j, 0 ≤ sigma2M (glsM C qr F (normY Y)).2 j * ∏ i, (C i i) ^ ((2 : ℝ) / n) := fun j => mul_nonneg (sigma2M_nonneg _ j) (detR_pos hchol hC).le
    refine ⟨fun j => sigma2M (glsM C qr F (normY Y)).2 j * ∏ i, (C i i) ^ ((2 : ℝ) / n), fun j => ⟨hnn j, ?_⟩, ?_⟩
    · have := bad_krgVal (qr := qr) (F := F) hn hchol (fun i => normY Y i j) hC
      show _ = some (sigma2M (glsM C qr F (normY Y)).2 j * _)
      rw [sigma2M_eq]
      exact this
    · refine bad_inj hn ?_
      rw [bad_pooled hn (Finset.sum_nonneg fun j _ => hnn j), ← Finset.sum_mul]
      exact bad_valM hn hchol (normY Y) hC

/-- **C91** The joint likelihood of `ny` outputs with finite likelihoods lies between the smallest of them minus `n log10 ny` and the smallest of them. -/
theorem C91_bounds (hn : 0 < n) (hny : 0 < ny) (hchol : CholOk chol) {l : Fin ny → ℝ} (hl : ∀ j, dataVal chol qr (fun _ : Unit => kern) trend nugget noise X (fun i => Y i j) () = .fin (l j)) :
    ∃ L, dataValM chol qr kern trend nugget noise X Y = .fin L ∧ (∀ j, L ≤ l j) ∧ ∃ j, l j - n * Real.logb 10 ny ≤ L := by
  have h0 : (0 : ℝ) < n := Nat.cast_pos.2 hn
  have hny' : (0 : ℝ) < ny := Nat.cast_pos.2 hny
  obtain ⟨h1, h2⟩ := C91_objective (qr := qr) (kern := kern) (trend := trend) (nugget := nugget) (noise := noise) (X := X) (Y := Y) hn hchol
  have hC : chol (corrR kern nugget noise (normX X)) ≠ none := fun h => by
    have := (h1 h).2 ⟨0, hny⟩
    rw [hl] at this
    simp at this
  obtain ⟨b, hb, hv⟩ := h2 hC
  have hbl : ∀ j, b j = (10 : ℝ) ^ (-l j / n) := fun j => by
    have := (hb j).2
    rw [hl] at this
    exact (Option.some.inj this).symm
  have hbp : ∀ j, 0 < b j := fun j => by rw [hbl]; exact Real.rpow_pos_of_pos (by norm_num) _
  have hls : ∀ j, l j = -n * Real.logb 10 (b j) := fun j => by
    rw [hbl, Real.logb_rpow (by norm_num) (by norm_num)]
    field_simp
  have hle : ∀ j, b j ≤ ∑ j, b j := fun j => Finset.single_le_sum (fun i _ => (hbp i).le) (Finset.mem_univ j)
  have hS : 0 < ∑ j, b j := (hbp ⟨0, hny⟩).trans_le (hle _)
  refine ⟨-n * Real.logb 10 (∑ j, b j), by rw [hv, pooled, if_neg hS.ne'], fun j => ?_, ?_⟩
  · rw [hls j]
    have := (Real.logb_le_logb (by norm_num : (1:ℝ) < 10) (hbp j) hS).2 (hle j)
    nlinarith
  · haveI : Nonempty (Fin ny) := ⟨⟨0, hny⟩⟩
    obtain ⟨j, -, hj⟩ := Finset.exists_max_image Finset.univ b Finset.univ_nonempty
    refine ⟨j, ?_⟩
    have hsum : ∑ j, b j ≤ ny * b j := by
      have := Finset.sum_le_card_nsmul Finset.univ b (b j) fun i hi => hj i hi
      simpa using this
    have := (Real.logb_le_logb (by norm_num : (1:ℝ) < 10) hS (mul_pos hny' (hbp j))).2 hsum
    rw [Real.logb_mul hny'.ne' (hbp j).ne'] at this
    rw [hls j]
    nlinarith

/-- **C91** Hyper-parameters that are optimal for every output separately are optimal for the joint training. -/
theorem C91_common_optimum {Θ : Type} {kern : Θ → (Fin nx → ℝ) → ℝ} (hn : 0 < n) (hny : 0 < ny) (hchol : CholOk chol) {θ : Θ}
    (h : ∀ j θ', (dataVal chol qr kern trend nugget noise X (fun i => Y i j) θ).lt (dataVal chol qr kern trend nugget noise X (fun i => Y i j) θ') = false) (θ' : Θ) :
    (dataValM chol qr (kern θ) trend nugget noise X Y).lt (dataValM chol qr (kern θ') trend nugget noise X Y) = false := by
  obtain ⟨h1, h2⟩ := C91_objective (qr := qr) (kern := kern θ) (trend := trend) (nugget := nugget) (noise := noise) (X := X) (Y := Y) hn hchol
  obtain ⟨h1', h2'⟩ := C91_objective (qr := qr) (kern := kern θ') (trend := trend) (nugget := nugget) (noise := noise) (X := X) (Y := Y) hn hchol
  have lt_ninf : ∀ a : Val ℝ, a.lt .ninf = false := fun a => by cases a <;> rfl
  by_cases hC' : chol (corrR (kern θ') nugget noise (normX X)) = none
  · rw [(h1' hC').1, lt_ninf]
  obtain ⟨b', hb', hv'⟩ := h2' hC'
  by_cases hC : chol (corrR (kern θ) nugget noise (normX X)) = none
  · exfalso
    have e1 := (h1 hC).2 ⟨0, hny⟩
    have e2 := (hb' ⟨0, hny⟩).2
    have e3 := h ⟨0, hny⟩ θ'
    change dataVal chol qr kern trend nugget noise X (fun i => Y i ⟨0, hny⟩) θ = _ at e1
    change bad n (dataVal chol qr kern trend nugget noise X (fun i => Y i ⟨0, hny⟩) θ') = _ at e2
    rw [e1] at e3
    cases hd : dataVal chol qr kern trend nugget noise X (fun i => Y i ⟨0, hny⟩) θ' <;> rw [hd] at e2 e3 <;> simp [bad, Val.lt] at e2 e3
  · obtain ⟨b, hb, hv⟩ := h2 hC
    have hle : ∀ j, b j ≤ b' j := fun j => by
      by_contra hlt
      have := (bad_lt hn (hb j).2 (hb' j).2).2 (not_le.1 hlt)
      have e3 := h j θ'
      rw [show (dataVal chol qr kern trend nugget noise X (fun i => Y i j) θ).lt (dataVal chol qr kern trend nugget noise X (fun i => Y i j) θ') = true from this] at e3
      simp at e3
    rw [hv, hv', ← Bool.not_eq_true, bad_lt hn (bad_pooled hn (Finset.sum_nonneg fun j _ => (hb j).1)) (bad_pooled hn (Finset.sum_nonneg fun j _ => (hb' j).1)), not_lt]
    exact Finset.sum_le_sum fun j _ => hle j

/-- **C91** One output given `ny` times: the joint likelihood is that of the output alone minus the constant `n log10 ny`, so the same hyper-parameters are optimal. -/
theorem C91_copies (hn : 0 < n) (hny : 0 < ny) (hchol : CholOk chol) {y : Fin n → ℝ} (hY : ∀ i j, Y i j = y i) {v : ℝ} (hv : dataVal chol qr (fun _ : Unit => kern) trend nugget noise X y () = .fin v) :
    dataValM chol qr kern trend nugget noise X Y = .fin (v - n * Real.logb 10 ny) := by
  have h0 : (0 : ℝ) < n := Nat.cast_pos.2 hn
  have hny' : (0 : ℝ) < ny := Nat.cast_pos.2 hny
  obtain ⟨h1, h2⟩ := C91_objective (qr := qr) (kern := kern) (trend := trend) (nugget := nugget) (noise := noise) (X := X) (Y := Y) hn hchol
  have hcol : ∀ j, (fun i => Y i j) = y := fun j => funext fun i => hY i j
  have hC : chol (corrR kern nugget noise (normX X)) ≠ none := fun h => by
    have := (h1 h).2 ⟨0, hny⟩
    rw [hcol, hv] at this
    simp at this
  obtain ⟨b, hb, e⟩ := h2 hC
  have hbl : ∀ j, b j = (10 : ℝ) ^ (-v / n) := fun j => by
    have := (hb j).2
    rw [hcol, hv] at this
    exact (Option.some.inj this).symm
  have hp : (0 : ℝ) < (10 : ℝ) ^ (-v / n) := Real.rpow_pos_of_pos (by norm_num) _
  have hS : ∑ j, b j = ny * (10 : ℝ) ^ (-v / n) := by simp [hbl]
  rw [e, hS, pooled, if_neg (mul_pos hny' hp).ne', Real.logb_mul hny'.ne' hp.ne', Real.logb_rpow (by norm_num) (by norm_num)]
  congr 1
  field_simp
  ring

/-- **C91** The order of the outputs is irrelevant: same likelihood, and the predictions are permuted likewise. -/
theorem C91_order (π : Equiv.Perm (Fin ny)) :
    dataValM chol qr kern trend nugget noise X (Y.submatrix id π) = dataValM chol qr kern trend nugget noise X Y ∧
    ∀ M M', trainM chol qr kern trend nugget noise X Y = some M → trainM chol qr kern trend nugget noise X (Y.submatrix id π) = some M' →
      ∀ (m : ℕ) (x : Fin m → Fin nx → ℝ) (k : Fin m) (j : Fin ny), M'.predict x k j = M.predict x k (π j) ∧ M'.variance x k j = M.variance x k (π j) := by
  constructor
  · unfold dataValM valM
    cases chol (corrR kern nugget noise (normX X)) with
    | none => rfl
    | some C =>
      have : ∑ j, sigma2M (glsM C qr (Matrix.of fun i => trend (normX X i)) (normY (Y.submatrix id π))).2 j =
          ∑ j, sigma2M (glsM C qr (Matrix.of fun i => trend (normX X i)) (normY Y)).2 j := by
        rw [← Equiv.sum_comp π fun j => sigma2M (glsM C qr (Matrix.of fun i => trend (normX X i)) (normY Y)).2 j]
        rfl
      simp only [this]
  · intro M M' hM hM' m x k j
    obtain ⟨N, e1, e2, e3, -⟩ := (C91_columns (π j)).2 M hM
    obtain ⟨N', e1', e2', e3', -⟩ := (C91_columns j).2 M' hM'
    have : N' = N := Option.some.inj (e1'.symm.trans e1)
    rw [e2, e2', e3, e3', this]
    exact ⟨rfl, rfl⟩

end objective
end SMT.Krg.Multi
