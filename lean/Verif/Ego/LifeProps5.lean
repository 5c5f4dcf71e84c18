import Verif.Ego.LifeProps4

set_option linter.unusedSectionVars false
set_option linter.unusedSimpArgs false
set_option linter.unusedVariables false

/-!
# C92, continued: the real-valued criteria, and concrete runs
-/
namespace SMT.Ego.Life

open SMT.Ego

section Order
variable {K : Type} [Field K] [LinearOrder K]

theorem foldl_min_spec (as : List K) : ∀ a : K, (as.foldl min a ∈ a :: as) ∧ ∀ v ∈ a :: as, as.foldl min a ≤ v := by
  induction as with
  | nil => intro a; simp
  | cons b bs ih =>
    intro a
    rw [List.foldl_cons]
    obtain ⟨h1, h2⟩ := ih (min a b)
    refine ⟨?_, ?_⟩
    · rcases List.mem_cons.1 h1 with h | h
      · rw [h]
        rcases min_choice a b with h | h <;> rw [h] <;> simp
      · simp [h]
    · intro v hv
      have hm := h2 (min a b) (by simp)
      simp only [List.mem_cons] at hv
      rcases hv with rfl | rfl | hv
      · exact hm.trans (min_le_left _ _)
      · exact hm.trans (min_le_right _ _)
      · exact h2 v (by simp [hv])

/-- `np.min` of the data: the smallest value. -/
theorem minOf_spec (ys : List K) (h : ys ≠ []) : minOf ys ∈ ys ∧ ∀ v ∈ ys, minOf ys ≤ v := by
  cases ys with
  | nil => exact absurd rfl h
  | cons a as => exact foldl_min_spec as a

end Order

open MeasureTheory ProbabilityTheory

/-- **C92** With the special functions of SciPy, the `"EI"` criterion of a search is the expectation of the
improvement over the smallest value of the data of that search, under the surrogate's normal distribution,
wherever that has a positive variance; and 0 where the variance is 0, even if the prediction is below that
value. The values in the data may be virtual ones. -/
theorem C92_criterion_is_expected_improvement {P μ γ : Type} (E : Env P ℝ μ γ) (hs : E.sqrt = Real.sqrt)
    (hcdf : E.cdf = Ego.cdf) (hpdf : E.pdf = Ego.pdf) (m : μ) (xs : List P) (ys : List ℝ) (hne : ys ≠ []) (p : P) :
    ∃ best ∈ ys, (∀ v ∈ ys, best ≤ v) ∧
      (0 < E.var m p → eiFull E m ys false xs p =
        ∫ t, max (best - (E.mean m p + Real.sqrt (E.var m p) * t)) 0 ∂(gaussianReal 0 1)) ∧
      (E.var m p = 0 → eiFull E m ys false xs p = 0) := by
  refine ⟨minOf ys, (minOf_spec ys hne).1, (minOf_spec ys hne).2, ?_, ?_⟩
  · intro hv
    have hsq : 0 < Real.sqrt (E.var m p) := Real.sqrt_pos.2 hv
    rw [← C21_is_expected_improvement (minOf ys) (E.mean m p) (Real.sqrt (E.var m p)) hsq]
    unfold eiFull eiPlain Ego.ei
    rw [hs, hcdf, hpdf, if_neg hsq.ne']
    simp
  · intro hv
    unfold eiFull
    rw [hs, hv, Real.sqrt_zero, if_pos rfl]

/-- **C92** With tunneling the criterion lies between 0 and the expected improvement. -/
theorem C92_tunneling_criterion {P μ γ : Type} (E : Env P ℝ μ γ) (hs : E.sqrt = Real.sqrt)
    (hcdf : E.cdf = Ego.cdf) (hpdf : E.pdf = Ego.pdf) (m : μ) (xs : List P) (ys : List ℝ) (p : P) :
    0 ≤ eiFull E m ys true xs p ∧ eiFull E m ys true xs p ≤ eiFull E m ys false xs p := by
  have hpl : ∀ q, eiPlain E m ys q = Ego.ei (minOf ys) (E.mean m q) (Real.sqrt (E.var m q)) := by
    intro q
    unfold eiPlain Ego.ei
    rw [hs, hcdf, hpdf]
  have hpen : ∀ (xs : List P) (e : ℝ), penalise E m ys p e xs =
      Ego.tunnel (fun q => Ego.ei (minOf ys) (E.mean m q) (Real.sqrt (E.var m q))) E.dist p e xs := by
    intro xs
    induction xs with
    | nil => intro e; rfl
    | cons x xs ih =>
      intro e
      unfold penalise Ego.tunnel
      simp only [hpl]
      rw [ih]
  have h := C21_tunneling_bounds (minOf ys) (E.mean m) (fun q => Real.sqrt (E.var m q))
    (fun q => Real.sqrt_nonneg _) E.dist xs p
  have h1 : eiFull E m ys true xs p = Ego.eiTunnel (minOf ys) (E.mean m) (fun q => Real.sqrt (E.var m q)) E.dist xs p := by
    unfold eiFull Ego.eiTunnel
    rw [hs, hpen, hpl]
    simp
  have h2 : eiFull E m ys false xs p = Ego.ei (minOf ys) (E.mean m p) (Real.sqrt (E.var m p)) := by
    unfold eiFull
    rw [hpl, hs]
    unfold Ego.ei
    split <;> simp_all
  rw [h1, h2]
  exact h

/-- One entry of the array `EI` returns, `ego.py` 197-207, for a single point (`many = false`) or a batch; the
result `none` is NaN. With a zero standard deviation the division gives NaN or an infinity, for which `norm.cdf`
is 0 or 1 and `norm.pdf` is 0; the early `return 0.0` is only taken for a single point. -/
noncomputable def eiEntry (many : Bool) (fMin pred sig : ℝ) : Option ℝ :=
  if sig = 0 then
    if many then
      if fMin - pred = 0 then none
      else if fMin - pred < 0 then some ((fMin - pred) * 0 + 0 * 0)
      else some ((fMin - pred) * 1 + 0 * 0)
    else some 0
  else some ((fMin - pred) * Ego.cdf ((fMin - pred) / sig) + sig * Ego.pdf ((fMin - pred) / sig))

/-- **C92** `EI` on several points is not `EI` point by point. Where the variance vanishes (the points already
evaluated) a batch gets the plain improvement `max (f_min - pred) 0`, except at the current best point, where
it gets NaN; a single point gets 0. Elsewhere they agree. -/
theorem C92_ei_batch (fMin pred sig : ℝ) :
    (sig ≠ 0 → eiEntry true fMin pred sig = eiEntry false fMin pred sig ∧
      eiEntry false fMin pred sig = some (Ego.ei fMin pred sig)) ∧
    (sig = 0 → eiEntry false fMin pred sig = some 0 ∧ (pred = fMin → eiEntry true fMin pred sig = none) ∧
      (pred ≠ fMin → eiEntry true fMin pred sig = some (max (fMin - pred) 0))) := by
  refine ⟨fun h => ⟨by simp [eiEntry, h], by simp [eiEntry, Ego.ei, h]⟩, ?_⟩
  rintro rfl
  refine ⟨by simp [eiEntry], ?_, ?_⟩
  · rintro rfl; simp [eiEntry]
  · intro hne
    have h0 : fMin - pred ≠ 0 := fun h => hne (by linarith)
    rcases lt_or_gt_of_ne h0 with h | h
    · simp [eiEntry, h0, h, max_eq_right h.le]
    · simp [eiEntry, h0, not_lt.2 h.le, max_eq_left h.le]

/-! ## Concrete runs -/

/-- A toy environment on rational points: the surrogate remembers its data, predicts the distance to the last
point plus the smallest value, with variance 1; the local search only accepts starts that are at least 2 and
moves them by one half; designs are `g, g + 1, ...`. -/
def toy : Env ℚ ℚ (List ℚ × List ℚ) ℤ where
  train _ xs ys := (xs, ys)
  mean m p := minOf m.2 + |p - (m.1.getLast?.getD 0)|
  var _ _ := 1
  sqrt v := v
  cdf t := t
  pdf _ := 1
  dist p q := |p - q|
  slsqp obj x0 := if 2 ≤ x0 then some (obj (x0 - 1/2), x0 - 1/2) else none
  ofSeed k := k
  lhs g n := (List.range n).map fun i => (g + i : ℚ)
  advance g n := g + n

def toyOpts : Opts ℚ where
  criterion := "SBO"
  qEI := "KBLB"
  nIter := some 2
  nPar := 2
  nStart := 3
  nMax := 20
  nDoe := some 3
  xdoe := none
  tunneling := false
  randomState := .seed 1
  unfold := id
  fold := id

def toySt : St ℚ ℚ (List ℚ × List ℚ) ℤ :=
  ⟨([], []), none, 0, fun _ => 0, 0, fun _ => 0, 0, [], none⟩

def toyF (x : ℚ) : ℚ := (x - 2) * (x - 2)

def show' (r : Except Err (Result ℚ ℚ ℚ) × St ℚ ℚ (List ℚ × List ℚ) ℤ) :
    (Err ⊕ ℚ × ℚ × Nat × List ℚ × List ℚ) × List (List ℚ) × Option (List ℚ) :=
  ((match r.1 with
    | .error e => .inl e
    | .ok q => .inr (q.xOpt, q.yOpt, q.ind, q.xData, q.yData)), r.2.calls, r.2.ydoe)

/-- A run of two iterations of two points. -/
example : (show' (optimize toy toyOpts toyF toySt)).1 = .inr (2, 0, 1, [1, 2, 3, 5/2, 5/2, 5/2, 5/2],
      [1, 0, 1, 1/4, 1/4, 1/4, 1/4]) ∧
    (show' (optimize toy toyOpts toyF toySt)).2 = ([[1, 2, 3], [5/2, 5/2], [5/2, 5/2]], none) := by
  constructor <;> decide +kernel

/-- With seed -2 no start point is ever accepted: every search fails and old points are evaluated again; with
the user's generator the retries draw new start points and succeed. -/
example : (show' (optimize toy { toyOpts with randomState := .seed (-2) } toyF toySt)).1 =
      .inr (0, 4, 2, [-2, -1, 0], [16, 9, 4]) ∧
    (show' (optimize toy { toyOpts with randomState := .seed (-2) } toyF toySt)).2 =
      ([[-2, -1, 0], [-1, 0], [-1, 0]], none) ∧
    (show' (optimize toy { toyOpts with randomState := .object } toyF { toySt with gen := -5 })).1 =
      .inr (3/2, 1/4, 3, [-5, -4, -3, 3/2, 7/2, 13/2, 19/2], [49, 36, 25, 1/4, 9/4, 81/4, 225/4]) := by
  refine ⟨?_, ?_, ?_⟩ <;> decide +kernel

/-- Misspelt options on a new object, and no `n_iter`: exceptions after the design has been evaluated. -/
example : (show' (optimize toy { toyOpts with criterion := "LCB" } toyF toySt)).1 = .inl .attribute ∧
    (show' (optimize toy { toyOpts with criterion := "LCB" } toyF toySt)).2.1 = [[1, 2, 3]] ∧
    (show' (optimize toy { toyOpts with qEI := "KL" } toyF toySt)).1 = .inl .unbound ∧
    (show' (optimize toy { toyOpts with qEI := "KL" } toyF toySt)).2.1 = [[1, 2, 3]] ∧
    (show' (optimize toy { toyOpts with nIter := none } toyF toySt)).1 = .inl .type ∧
    (show' (optimize toy { toyOpts with nIter := none } toyF toySt)).2.1 = [[1, 2, 3]] := by
  refine ⟨?_, ?_, ?_, ?_, ?_, ?_⟩ <;> decide +kernel

/-- The user's array: `[7, 8, 9]` becomes `[7, 0, 1]` because the first search fails. -/
example : (show' (optimize toy { toyOpts with randomState := .seed (-2), xdoe := some [1, 2, 3] } toyF
      { toySt with ydoe := some [7, 8, 9] })).1 = .inr (2, 0, 1, [1, 2, 3], [7, 0, 1]) ∧
    (show' (optimize toy { toyOpts with randomState := .seed (-2), xdoe := some [1, 2, 3] } toyF
      { toySt with ydoe := some [7, 8, 9] })).2 = ([[2, 3], [2, 3]], some [7, 0, 1]) := by
  constructor <;> decide +kernel

/-- The object after a run of a constant function with the criterion `"EI"`. -/
def usedSt : St ℚ ℚ (List ℚ × List ℚ) ℤ := (optimize toy { toyOpts with criterion := "EI" } (fun _ => 100) toySt).2

/-- A misspelt criterion on an object used before: another result than `"EI"`, and no error. -/
example : (show' (optimize toy { toyOpts with criterion := "EI" } (fun x => 3 * x) usedSt)).1 =
      .inr (1, 3, 0, [1, 2, 3, 3/2, 5/2, 3/2, 5/2], [3, 6, 9, 9/2, 15/2, 9/2, 15/2]) ∧
    (show' (optimize toy { toyOpts with criterion := "ei" } (fun x => 3 * x) usedSt)).1 =
      .inr (1, 3, 0, [1, 2, 3, 5/2, 5/2, 5/2, 5/2], [3, 6, 9, 15/2, 15/2, 15/2, 15/2]) := by
  constructor <;> decide +kernel

/-- The hypotheses of the theorems on seeds, repetition and bounds hold for the toy environment. -/
example : (∀ m m' xs ys, toy.train m xs ys = toy.train m' xs ys) ∧ toyOpts.randomState = .seed 1 ∧
    toyOpts.criterion ∈ ["EI", "SBO", "UCB"] ∧ toyOpts.qEI ≠ "KBRand" ∧
    (∀ obj x0 v x, toy.slsqp obj x0 = some (v, x) → 3/2 ≤ x) := by
  refine ⟨fun _ _ _ _ => rfl, rfl, by decide, by decide, ?_⟩
  intro obj x0 v x h
  simp only [toy] at h
  split at h
  · simp only [Option.some.injEq, Prod.mk.injEq] at h
    rw [← h.2]
    linarith
  · simp at h

/-- The same for one point at a time. -/
example : (show' (optimize toy { toyOpts with nPar := 1 } toyF toySt)).1 =
    (show' (optimize toy { toyOpts with nPar := 1, qEI := "CLmin" } toyF toySt)).1 := by
  have := C92_sequential_ignores_qei toy { toyOpts with nPar := 1 } "CLmin" toyF toySt rfl (by decide) (by decide)
  have h := this.1
  unfold show'
  rw [← h]

end SMT.Ego.Life
