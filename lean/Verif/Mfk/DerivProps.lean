import Verif.Mfk.Props

set_option linter.unusedSectionVars false
set_option linter.unusedSimpArgs false
set_option linter.unusedVariables false

/-!
# C70: derivatives of the multi-fidelity predictor
-/
namespace SMT.Mfk
open Matrix SMT.Common SMT.Krg

variable {nx p q m : ℕ}

/-- Derivative of one level along standardised input `kx`, given the derivatives of its regressors. -/
theorem mean_deriv (L : Lvl nx m) (hk : L.kern = sqKern L.theta) (f : (Fin nx → ℝ) → Fin m → ℝ) (f' : Fin m → ℝ) (xn : Fin nx → ℝ) (kx : Fin nx)
    (hf : ∀ a, HasDerivAt (fun t => f (Function.update xn kx t) a) (f' a) (xn kx)) :
    HasDerivAt (fun t => L.mean (Function.update xn kx t) (f (Function.update xn kx t))) (L.dmean xn kx f') (xn kx) := by
  have hc : ∀ i, HasDerivAt (fun t => L.corr (Function.update xn kx t) i) (-2 * L.theta kx * ((xn kx - L.Xn i kx) * L.corr xn i)) (xn kx) := fun i => by
    unfold Lvl.corr
    rw [hk]
    have e : ∀ t, (fun j => Function.update xn kx t j - L.Xn i j) = Function.update (fun j => xn j - L.Xn i j) kx (t - L.Xn i kx) := fun t => by
      funext j
      by_cases h : j = kx
      · subst h; simp
      · simp [h]
    simp only [e]
    have h1 := sqKern_deriv L.theta (fun j => xn j - L.Xn i j) kx
    have h2 : HasDerivAt (fun t => t - L.Xn i kx) 1 (xn kx) := (hasDerivAt_id' _).sub_const _
    exact (HasDerivAt.comp (xn kx) (h₂ := fun t => sqKern L.theta (Function.update (fun j => xn j - L.Xn i j) kx t)) h1 h2).congr_deriv (by ring)
  unfold Lvl.mean Lvl.dmean
  simp only [dotProduct]
  have h := (HasDerivAt.fun_sum fun a (_ : a ∈ Finset.univ) => (hf a).mul_const (L.par.beta a)).fun_add (HasDerivAt.fun_sum fun i (_ : i ∈ Finset.univ) => (hc i).mul_const (L.par.gamma i))
  refine h.congr_deriv ?_
  rw [sub_eq_add_neg, Finset.mul_sum, ← Finset.sum_neg_distrib]
  congr 1
  exact Finset.sum_congr rfl fun i _ => by ring

/-- The recursion of `_predict_derivatives` over the levels, for derivatives `df` of the trend functions. -/
noncomputable def dmu (base : Lvl nx p) (rest : List (Lvl nx (1 + p))) (xn : Fin nx → ℝ) (kx : Fin nx) (df : Fin p → ℝ) : ℝ :=
  rest.foldl (fun dprev L => L.dmean xn kx (Fin.append (fun _ => dprev) df)) (base.dmean xn kx df)

theorem mu_deriv (poly : (Fin nx → ℝ) → Fin p → ℝ) (base : Lvl nx p) (hb : base.kern = sqKern base.theta) (rest : List (Lvl nx (1 + p))) (hr : ∀ L ∈ rest, L.kern = sqKern L.theta)
    (xn : Fin nx → ℝ) (kx : Fin nx) (df : Fin p → ℝ) (hf : ∀ a, HasDerivAt (fun t => poly (Function.update xn kx t) a) (df a) (xn kx)) :
    HasDerivAt (fun t => mu poly trendConstant base rest (Function.update xn kx t)) (dmu base rest xn kx df) (xn kx) := by
  induction rest using List.reverseRecOn with
  | nil => exact mean_deriv base hb poly df xn kx hf
  | append_singleton rest L ih =>
    have ih := ih fun L hL => hr L (by simp [hL])
    simp only [mu_snoc]
    unfold dmu at ih ⊢
    rw [List.foldl_append]
    refine mean_deriv L (hr L (by simp)) _ _ xn kx fun a => ?_
    unfold regr
    refine Fin.addCases (fun a => ?_) (fun a => ?_) a
    · simp only [Fin.append_left, trendConstant, one_mul]
      exact ih
    · simp only [Fin.append_right]
      exact hf a

theorem level_deriv (M : Mfk nx p 1) (hrho : M.rho = trendConstant) (hb : M.base.kern = sqKern M.base.theta) (hr : ∀ L ∈ M.rest, L.kern = sqKern L.theta) (x : Fin nx → ℝ) (kx : Fin nx)
    (df : Fin p → ℝ) (hf : ∀ a, HasDerivAt (fun t => M.poly (Function.update (M.norm x) kx t) a) (df a) (M.norm x kx)) :
    HasDerivAt (fun t => M.predict (Function.update x kx t)) (dmu M.base M.rest (M.norm x) kx df * M.yOS.2 / (M.xOS kx).2) (x kx) := by
  have hn : ∀ t, M.norm (Function.update x kx t) = Function.update (M.norm x) kx (normalise (M.xOS kx) t) := fun t => by
    funext j
    unfold Mfk.norm
    by_cases h : j = kx
    · subst h; simp
    · simp [h]
  unfold Mfk.predict Mfk.level
  simp only [hn, Nat.add_sub_cancel, List.take_length, hrho]
  have h1 := mu_deriv M.poly M.base hb M.rest hr (M.norm x) kx df hf
  have h2 := normalise_deriv (M.xOS kx) (x kx)
  have h3 : HasDerivAt (fun t => mu M.poly trendConstant M.base M.rest (Function.update (M.norm x) kx (normalise (M.xOS kx) t)))
      (dmu M.base M.rest (M.norm x) kx df * (1 / (M.xOS kx).2)) (x kx) :=
    HasDerivAt.comp (x kx) (h₂ := fun t => mu M.poly trendConstant M.base M.rest (Function.update (M.norm x) kx t)) h1 h2
  exact ((h3.mul_const M.yOS.2).add_const M.yOS.1).congr_deriv (by ring)

theorem derivative_eq (M : Mfk nx p 1) (hrho : M.rho = trendConstant) (poly : Poly) (df : Fin p → ℝ) (hdf : df0 poly p = some df) (x : Fin nx → ℝ) (kx : Fin nx) :
    M.derivative .squarExp poly .constant x kx = some (dmu M.base M.rest (M.norm x) kx df * M.yOS.2 / (M.xOS kx).2) := by
  unfold Mfk.derivative dmu
  simp only [hdf, hrho, ne_eq, not_true, if_false, trendConstant, one_mul]

/-- **C70** Constant trend, constant scale factor, squared exponential: with any number of fidelity levels, `predict_derivatives` is the partial derivative of `predict_values`. -/
theorem C70_constant (M : Mfk nx 1 1) (hp : M.poly = trendConstant) (hrho : M.rho = trendConstant) (hb : M.base.kern = sqKern M.base.theta) (hr : ∀ L ∈ M.rest, L.kern = sqKern L.theta)
    (x : Fin nx → ℝ) (kx : Fin nx) :
    ∃ d, M.derivative .squarExp .constant .constant x kx = some d ∧ HasDerivAt (fun t => M.predict (Function.update x kx t)) d (x kx) :=
  ⟨_, derivative_eq M hrho .constant (fun _ => 0) rfl x kx, level_deriv M hrho hb hr x kx (fun _ => 0) fun a => by rw [hp]; exact hasDerivAt_const _ _⟩

/-- Sum of the trend coefficients of the inputs other than `kx`. -/
noncomputable def otherSlopes (β : Fin (nx + 1) → ℝ) (kx : Fin nx) : ℝ := ∑ j ∈ Finset.univ.erase kx, β j.succ

/-- What `_predict_derivatives` adds to the derivative with a linear trend, in standardised units: every level adds the slopes of the other inputs and multiplies the error of the level below
by its scale factor. -/
noncomputable def slopeError (base : Lvl nx (nx + 1)) (rest : List (Lvl nx (1 + (nx + 1)))) (kx : Fin nx) : ℝ :=
  rest.foldl (fun e L => L.par.beta (Fin.castAdd (nx + 1) 0) * e + otherSlopes (fun j => L.par.beta (Fin.natAdd 1 j)) kx) (otherSlopes base.par.beta kx)

theorem lin_split (β : Fin (nx + 1) → ℝ) (kx : Fin nx) :
    (fun j : Fin (nx + 1) => if j.val = 0 then (0 : ℝ) else 1) ⬝ᵥ β = (fun j : Fin (nx + 1) => if j = kx.succ then (1 : ℝ) else 0) ⬝ᵥ β + otherSlopes β kx := by
  simp only [dotProduct, ite_mul, one_mul, zero_mul, Finset.sum_ite_eq', Finset.mem_univ, if_true]
  rw [Fin.sum_univ_succ]
  simp only [Fin.val_zero, if_true, zero_add, Fin.val_succ, Nat.add_eq_zero_iff, one_ne_zero, and_false, if_false]
  exact (Finset.add_sum_erase Finset.univ (fun j : Fin nx => β j.succ) (Finset.mem_univ kx)).symm

theorem dot_append {a b : ℕ} (u : Fin a → ℝ) (v : Fin b → ℝ) (β : Fin (a + b) → ℝ) :
    (Fin.append u v) ⬝ᵥ β = u ⬝ᵥ (fun i => β (Fin.castAdd b i)) + v ⬝ᵥ (fun i => β (Fin.natAdd a i)) := by
  simp only [dotProduct, Fin.sum_univ_add, Fin.append_left, Fin.append_right]

theorem dmu_linear (base : Lvl nx (nx + 1)) (rest : List (Lvl nx (1 + (nx + 1)))) (xn : Fin nx → ℝ) (kx : Fin nx) :
    dmu base rest xn kx (fun j => if j.val = 0 then 0 else 1) = dmu base rest xn kx (fun j => if j = kx.succ then 1 else 0) + slopeError base rest kx := by
  induction rest using List.reverseRecOn with
  | nil =>
    unfold dmu slopeError Lvl.dmean
    simp only [List.foldl_nil]
    rw [lin_split]; ring
  | append_singleton rest L ih =>
    unfold dmu slopeError at ih ⊢
    simp only [List.foldl_append, List.foldl_cons, List.foldl_nil]
    rw [ih]
    unfold Lvl.dmean
    simp only [dot_append, lin_split (fun j => L.par.beta (Fin.natAdd 1 j)) kx]
    simp only [dotProduct, Fin.sum_univ_one]
    ring

/-- **C70** Linear trend: `predict_derivatives` returns the derivative plus `y_std / x_std` times the accumulated slopes of the *other* inputs; it is right if and only if those cancel. -/
theorem C70_linear (M : Mfk nx (nx + 1) 1) (hp : M.poly = trendLinear) (hrho : M.rho = trendConstant) (hb : M.base.kern = sqKern M.base.theta) (hr : ∀ L ∈ M.rest, L.kern = sqKern L.theta)
    (x : Fin nx → ℝ) (kx : Fin nx) :
    ∃ d, HasDerivAt (fun t => M.predict (Function.update x kx t)) d (x kx) ∧
      M.derivative .squarExp .linear .constant x kx = some (d + slopeError M.base M.rest kx * M.yOS.2 / (M.xOS kx).2) := by
  refine ⟨_, level_deriv M hrho hb hr x kx (fun j => if j = kx.succ then 1 else 0) fun a => ?_, ?_⟩
  · rw [hp]
    refine Fin.cases ?_ (fun j => ?_) a
    · simp only [trendLinear, Fin.cons_zero]
      rw [if_neg (Fin.succ_ne_zero kx).symm]
      exact hasDerivAt_const _ _
    · simp only [trendLinear, Fin.cons_succ, Fin.succ_inj]
      by_cases hj : j = kx
      · subst hj; simp only [Function.update_self, if_true]; exact hasDerivAt_id' _
      · simp only [Function.update_of_ne hj, if_neg hj]; exact hasDerivAt_const _ _
  · rw [derivative_eq M hrho .linear _ rfl x kx, dmu_linear]
    congr 1; ring

/-- **C70** With one input the linear trend is right too. -/
theorem C70_linear_one_input (M : Mfk 1 (1 + 1) 1) (hp : M.poly = trendLinear) (hrho : M.rho = trendConstant) (hb : M.base.kern = sqKern M.base.theta) (hr : ∀ L ∈ M.rest, L.kern = sqKern L.theta)
    (x : Fin 1 → ℝ) (kx : Fin 1) :
    ∃ d, M.derivative .squarExp .linear .constant x kx = some d ∧ HasDerivAt (fun t => M.predict (Function.update x kx t)) d (x kx) := by
  obtain ⟨d, h1, h2⟩ := C70_linear M hp hrho hb hr x kx
  have hz : ∀ β : Fin (1 + 1) → ℝ, otherSlopes β kx = 0 := fun β => by
    unfold otherSlopes
    have : Finset.univ.erase kx = (∅ : Finset (Fin 1)) := by
      ext j; simp [Subsingleton.elim j kx]
    rw [this, Finset.sum_empty]
  have h0 : slopeError M.base M.rest kx = 0 := by
    unfold slopeError
    simp only [hz, add_zero]
    generalize M.rest = l
    induction l with
    | nil => rfl
    | cons L l ih => simp only [List.foldl_cons, mul_zero]; exact ih
  rw [h0] at h2
  exact ⟨d, by simpa using h2, h1⟩

/-- **C70** Everything else raises. -/
theorem C70_raises (M : Mfk nx p q) (c : Corr) (poly rho : Poly) (x : Fin nx → ℝ) (kx : Fin nx) :
    M.derivative c poly rho x kx = none ↔ c ≠ .squarExp ∨ poly = .quadratic ∨ rho ≠ .constant := by
  unfold Mfk.derivative
  by_cases hc : c ≠ .squarExp
  · simp [hc]
  · cases poly <;> cases rho <;> simp [hc, df0]

/-- The first hypothesis is what training leaves in the model: kernel and `theta` of the data. -/
theorem trained_kernels {lin : Lin} {nugget : ℝ} {poly : (Fin nx → ℝ) → Fin p → ℝ} {rho : (Fin nx → ℝ) → Fin q → ℝ} {d0 : Data nx} {ds : List (Data nx)} {M : Mfk nx p q}
    (hM : train lin nugget poly rho d0 ds = some M) (hk : ∀ d ∈ d0 :: ds, d.kern = sqKern d.theta) :
    M.poly = poly ∧ M.rho = rho ∧ M.base.kern = sqKern M.base.theta ∧ ∀ L ∈ M.rest, L.kern = sqKern L.theta := by
  obtain ⟨e1, e2, e3, e4, hb, hr⟩ := train_eq hM
  refine ⟨e3, e4, ?_, fun L hL => ?_⟩
  · obtain ⟨-, C, -, he⟩ := trainLevel_eq hb
    rw [he]; exact hk d0 (by simp)
  · obtain ⟨r1, r2⟩ := trainRest_get ds M.rest hr
    obtain ⟨l, hl, rfl⟩ := List.getElem_of_mem hL
    obtain ⟨-, C, -, he⟩ := trainLevel_eq (r2 l (by omega) hl)
    rw [he]; exact hk _ (by simp)

/-- Non-vacuity: the trained two-level model of `Props.lean`. -/
example (y : Fin 3 → ℝ) (x : Fin 1 → ℝ) : ∃ M : Mfk 1 1 1, train linStd 0 trendConstant trendConstant (exData fun i => (i : ℕ)) [exData y] = some M ∧
    ∃ d, M.derivative .squarExp .constant .constant x 0 = some d ∧ HasDerivAt (fun t => M.predict (Function.update x 0 t)) d (x 0) := by
  obtain ⟨M, hM, -, -⟩ := exTrains y
  obtain ⟨h1, h2, h3, h4⟩ := trained_kernels hM (by
    intro d hd
    have : d = (exData fun i => (i : ℕ)) ∨ d = exData y := by simpa using hd
    rcases this with rfl | rfl <;> exact kernOf_squarExp 10 (by decide) _)
  exact ⟨M, hM, C70_constant M h1 h2 h3 h4 x 0⟩

/-- The error is real: two inputs, one level, slopes 1 and 1 give the error 1. -/
example : otherSlopes (fun _ : Fin 3 => 1) (0 : Fin 2) = 1 := by
  have : Finset.univ.erase (0 : Fin 2) = {1} := by decide
  simp [otherSlopes, this]

end SMT.Mfk
