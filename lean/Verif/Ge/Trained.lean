import Verif.Ge.Props

set_option linter.unusedSectionVars false
set_option linter.unusedSimpArgs false
set_option linter.unusedVariables false

/-!
# C78, trained: the GEKPLS predictor reproduces values and slopes
-/
namespace SMT.Ge
open SMT.Krg Matrix

variable {h d n p : ℕ}

lemma pls_even (c : Corr) (hc : c = .squarExp ∨ c = .absExp) {m : ℕ} (θ : Fin m → ℝ) (co : Fin d → Fin m → ℝ) :
    (∀ dx : Fin d → ℝ, expRow θ (compDistPLS c co fun q => -dx q) = expRow θ (compDistPLS c co dx)) ∧ expRow θ (compDistPLS c co fun _ => 0) = 1 := by
  rcases hc with rfl | rfl <;> refine ⟨fun dx => ?_, ?_⟩ <;> simp [expRow, compDistPLS]

/-- **C78** A GEKPLS model trained (no nugget, no noise, exact factorisations, trend of full rank) on what the preparation returns takes the training values at the training points, and in `extra_points` different
directions at each training point its slope over the step is the given derivative. -/
theorem C78_slopes (hd : 2 ≤ d) (hn : 0 < n) (E : Ext ℝ h) (hE : ArgsortOk E) (o : Obj ℝ d) (X : Fin n → Fin d → ℝ) (y : Fin n → ℝ) (g : Fin n → Fin d → ℝ) (hp : o.pts = allGrads g) (e : ℕ) (he : o.extra = e)
    {co : Fin d → Fin (h + 1) → ℝ} {r : List ((Fin d → ℝ) × ℝ)} (hr : ((o.setValues (rows X y)).prepare E).2 = some (co, r)) {c : Corr} (hc : c = .squarExp ∨ c = .absExp) (θ : Fin (h + 1) → ℝ)
    {trend : (Fin d → ℝ) → Fin p → ℝ} {chol : Matrix (Fin r.length) (Fin r.length) ℝ → Option (Matrix (Fin r.length) (Fin r.length) ℝ)}
    {qr : Matrix (Fin r.length) (Fin p) ℝ → Matrix (Fin r.length) (Fin p) ℝ × Matrix (Fin p) (Fin p) ℝ} (hchol : CholOk chol) (hqr : QROk qr) {M : Model r.length d p}
    (hM : train chol qr (fun dx => expRow θ (compDistPLS c co dx)) trend 0 (fun _ => 0) (fun i => (r.get i).1) (fun i => (r.get i).2) = some M) (hF : FullRank M.F) :
    (∀ i, M.predict (X i) = y i) ∧ ∃ D : Fin n → List (Fin d), (∀ i, (D i).Nodup ∧ (D i).length = e) ∧
      ∀ i, ∀ j ∈ D i, M.predict (Function.update (X i) j (X i j + o.delta * ((o.lim j).2 - (o.lim j).1))) = M.predict (X i) + g i j * (o.delta * ((o.lim j).2 - (o.lim j).1)) := by
  have hall : ∀ q ∈ r, M.predict q.1 = q.2 := fun q hq => by
    obtain ⟨i, rfl⟩ := List.get_of_mem hq
    exact C39_interpolates hM hchol hqr hF (pls_even c hc θ co).1 (pls_even c hc θ co).2 i
  obtain ⟨hiff, hall2⟩ := C78_prepare hd hn E hE o X y g hp
  have hle : (e : ℤ) ≤ d := by
    have := (hiff.1 (by rw [hr]; rfl)).2
    rwa [he] at this
  obtain ⟨l, hl, rfl, -⟩ := hall2 co r hr
  obtain ⟨L, D, hres, -, -, hD⟩ := C78_result hd E hE o.delta o.lim e X y g
  rw [he] at hl
  rw [hl] at hres
  have hl' := congrArg (fun o => o.map Prod.snd) hres
  simp only [Option.map_some, Option.some.injEq] at hl'
  have hX : ∀ i, M.predict (X i) = y i := fun i => hall (X i, y i) (List.mem_append_left _ (List.mem_ofFn.2 ⟨i, rfl⟩))
  refine ⟨hX, D, fun i => ⟨(hD i).1, by rw [(hD i).2.1]; omega⟩, fun i j hj => ?_⟩
  have := hall (moved o.delta o.lim (X i) j, taylor (X i) (y i) (g i) (moved o.delta o.lim (X i) j)) (List.mem_append_right _ (by
    rw [hl']
    exact List.mem_flatMap.2 ⟨i, List.mem_finRange i, List.mem_map.2 ⟨j, hj, rfl⟩⟩))
  simp only [taylor_moved] at this
  rw [hX i]
  show M.predict (moved o.delta o.lim (X i) j) = _
  rw [this]; ring

/-- **C78** With a constant trend and the squared exponential, `predict_derivatives` therefore returns the given derivative itself at a point strictly between a training point and each of its extra points. -/
theorem C78_derivative (hd : 2 ≤ d) (hn : 0 < n) (E : Ext ℝ h) (hE : ArgsortOk E) (o : Obj ℝ d) (X : Fin n → Fin d → ℝ) (y : Fin n → ℝ) (g : Fin n → Fin d → ℝ) (hp : o.pts = allGrads g) (e : ℕ)
    (he : o.extra = e) (hs : ∀ j, 0 < o.delta * ((o.lim j).2 - (o.lim j).1))
    {co : Fin d → Fin (h + 1) → ℝ} {r : List ((Fin d → ℝ) × ℝ)} (hr : ((o.setValues (rows X y)).prepare E).2 = some (co, r)) (θ : Fin (h + 1) → ℝ)
    {chol : Matrix (Fin r.length) (Fin r.length) ℝ → Option (Matrix (Fin r.length) (Fin r.length) ℝ)}
    {qr : Matrix (Fin r.length) (Fin 1) ℝ → Matrix (Fin r.length) (Fin 1) ℝ × Matrix (Fin 1) (Fin 1) ℝ} (hchol : CholOk chol) (hqr : QROk qr) {M : Model r.length d 1}
    (hM : train chol qr (fun dx => expRow θ (compDistPLS .squarExp co dx)) trendConstant 0 (fun _ => 0) (fun i => (r.get i).1) (fun i => (r.get i).2) = some M) (hF : FullRank M.F) :
    ∃ D : Fin n → List (Fin d), (∀ i, (D i).Nodup ∧ (D i).length = e) ∧ ∀ i, ∀ j ∈ D i, ∃ s, X i j < s ∧ s < X i j + o.delta * ((o.lim j).2 - (o.lim j).1) ∧
      M.derivative .squarExp .constant (plsTheta θ co) (Function.update (X i) j s) j = some (g i j) := by
  obtain ⟨-, D, hD, hsl⟩ := C78_slopes hd hn E hE o X y g hp e he hr (Or.inl rfl) θ hchol hqr hM hF
  refine ⟨D, hD, fun i j hj => ?_⟩
  obtain ⟨C, hC, hXn, hy, hk, ht, hFF, hOS, hP⟩ := train_eq hM
  have hder : ∀ s, ∃ v, M.derivative .squarExp .constant (plsTheta θ co) (Function.update (X i) j s) j = some v ∧ HasDerivAt (fun t => M.predict (Function.update (X i) j t)) v s := fun s => by
    obtain ⟨v, hv, hv'⟩ := (C42_kpls (n := r.length) θ co (Function.update (X i) j s) j).1 M ht (fun dx => by rw [hk])
    refine ⟨v, hv, ?_⟩
    simpa using hv'
  choose v hv hv' using hder
  set w := o.delta * ((o.lim j).2 - (o.lim j).1) with hw
  obtain ⟨s, ⟨hs1, hs2⟩, hs3⟩ := exists_hasDerivAt_eq_slope (fun t => M.predict (Function.update (X i) j t)) v (a := X i j) (b := X i j + w) (by linarith [hs j])
    (fun t _ => (hv' t).continuousAt.continuousWithinAt) (fun t _ => hv' t)
  refine ⟨s, hs1, hs2, ?_⟩
  rw [hv s, hs3, hsl i j hj]
  simp only [Function.update_eq_self]
  congr 1
  have := (hs j).ne'
  rw [add_sub_cancel_left, add_sub_cancel_left, mul_div_cancel_right₀ _ this]

/-- **C78** The model can be trained: if no two rows of the augmented data coincide and every input has a non-zero coefficient in some component with positive hyper-parameter, exact factorisation succeeds. -/
theorem C78_trains {m : ℕ} {r : List ((Fin d → ℝ) × ℝ)} (hdis : Function.Injective fun i => (r.get i).1) (co : Fin d → Fin m → ℝ) (θ : Fin m → ℝ) (hθ : ∀ l, 0 < θ l) (hco : ∀ j, ∃ l, co j l ≠ 0)
    {trend : (Fin d → ℝ) → Fin p → ℝ} {chol : Matrix (Fin r.length) (Fin r.length) ℝ → Option (Matrix (Fin r.length) (Fin r.length) ℝ)} (hcc : CholComplete chol)
    {qr : Matrix (Fin r.length) (Fin p) ℝ → Matrix (Fin r.length) (Fin p) ℝ × Matrix (Fin p) (Fin p) ℝ} :
    (train chol qr (fun dx => expRow θ (compDistPLS .squarExp co dx)) trend 0 (fun _ => 0) (fun i => (r.get i).1) (fun i => (r.get i).2)).isSome := by
  have hk : (fun dx => expRow θ (compDistPLS .squarExp co dx)) = kernOf 1 one_pos .squarExp (plsTheta θ co) := by
    rw [kernOf_squarExp]; funext dx; rw [pls_kernel]
  rw [hk]
  have hpos : ∀ j, 0 < plsTheta θ co j := fun j => by
    obtain ⟨l, hl⟩ := hco j
    exact Finset.sum_pos' (fun l _ => mul_nonneg (hθ l).le (sq_nonneg _)) ⟨l, Finset.mem_univ l, mul_pos (hθ l) (by positivity)⟩
  exact C73_trains_distinct hcc (C39_kernels 1 one_pos .squarExp (by simp) _).1 (C39_kernels 1 one_pos .squarExp (by simp) _).2 (C73_kernels_pd 1 one_pos .squarExp (by simp) _ hpos) (fun _ => by simp) hdis

/-! ## Examples -/

/-- Exact routines of the kind assumed: selection by insertion sort, one coefficient per input (the slope of the values along it). -/
def extEx : Ext ℚ 0 where
  pls := fun _ P v j _ => ((P.zip v).map fun q => q.1 j * q.2).sum
  bb := fun _ => []
  argsort := fun d f => (List.finRange d).insertionSort fun a b => f a ≤ f b

example : ArgsortOk extEx := fun d f => ⟨List.perm_insertionSort _ _, by
  have : IsTrans (Fin d) fun a b => f a ≤ f b := ⟨fun _ _ _ => le_trans⟩
  have : Std.Total fun a b : Fin d => f a ≤ f b := ⟨fun _ _ => le_total _ _⟩
  exact List.pairwise_insertionSort _ _⟩

/-- `f(x) = 2 x0 + 5 x1` on the unit square at two points, step 1/10, one extra point each: the extra points move along input 1. -/
def objEx : Obj ℚ 2 where
  data := []
  pts := allGrads (n := 2) fun _ => ![2, 5]
  nt := 0
  extra := 1
  delta := 1 / 10
  lim := fun _ => (0, 1)

example : (((objEx.setValues (rows (n := 2) ![![0, 0], ![0, 1]] ![0, 5])).prepare extEx).2.map fun r => r.2.map fun q => (q.1 0, q.1 1, q.2)) =
    some [(0, 0, 0), (0, 1, 5), (0, 1 / 10, 1 / 2), (0, 11 / 10, 11 / 2)] := by decide +kernel

/-- Training again raises, and so do more extra points than inputs. -/
example : ((objEx.setValues (rows (n := 2) ![![0, 0], ![0, 1]] ![0, 5])).prepare extEx).1.nt = 4 ∧
    (((objEx.setValues (rows (n := 2) ![![0, 0], ![0, 1]] ![0, 5])).prepare extEx).1.prepare extEx).2.isNone ∧
    ((({ objEx with extra := 3 } : Obj ℚ 2).setValues (rows (n := 2) ![![0, 0], ![0, 1]] ![0, 5])).prepare extEx).2.isNone := by decide +kernel

end SMT.Ge
