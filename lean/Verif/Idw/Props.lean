import Verif.Idw.Model
import Mathlib.Analysis.SpecialFunctions.Pow.Deriv
import Mathlib.Analysis.Calculus.Deriv.Mul
import Mathlib.Analysis.Calculus.Deriv.Pow
import Mathlib.Analysis.Calculus.Deriv.Add
import Mathlib.Analysis.Calculus.Deriv.Inv
import Mathlib.Data.List.OfFn
import Mathlib.Tactic.Linarith
import Mathlib.Tactic.Positivity
import Mathlib.Tactic.FieldSimp

/-!
# Properties C29, C30: IDW values and derivatives
-/
namespace SMT.Idw
set_option linter.unusedSectionVars false
set_option linter.unusedSimpArgs false
set_option linter.unusedVariables false
open Classical

variable {nx : ℕ}

/-! ## Specification -/

/-- Squared Euclidean distance. -/
noncomputable def dist2 (x y : Fin nx → ℝ) : ℝ := ∑ i, (x i - y i) ^ 2

/-- Shepard's formula: `∑ yᵢ dᵢ^(-p) / ∑ dᵢ^(-p)` with Euclidean distances `dᵢ`. -/
noncomputable def shepard (p : ℝ) (data : List ((Fin nx → ℝ) × ℝ)) (x : Fin nx → ℝ) : ℝ :=
  (data.map fun d => d.2 * Real.sqrt (dist2 x d.1) ^ (-p)).sum / (data.map fun d => Real.sqrt (dist2 x d.1) ^ (-p)).sum

/-! ## Lemmas -/

theorem foldl_add (l : List ℝ) (a : ℝ) : l.foldl (· + ·) a = a + l.sum := by
  induction l generalizing a with
  | nil => simp
  | cons x xs ih => simp only [List.foldl_cons, List.sum_cons]; rw [ih]; ring

theorem r2_eq (x y : Fin nx → ℝ) : r2 x y = dist2 x y := by
  unfold r2 dist2
  have : ∀ (l : List (Fin nx)) (a : ℝ), l.foldl (fun acc ix => acc + (x ix - y ix) ^ 2) a = a + (l.map fun ix => (x ix - y ix) ^ 2).sum := by
    intro l
    induction l with
    | nil => intro a; simp
    | cons i l ih => intro a; simp only [List.foldl_cons, List.map_cons, List.sum_cons]; rw [ih]; ring
  rw [this, zero_add, ← List.sum_ofFn, List.ofFn_eq_map]

theorem dist2_nonneg (x y : Fin nx → ℝ) : 0 ≤ dist2 x y := Finset.sum_nonneg fun i _ => sq_nonneg _

theorem dist2_eq_zero (x y : Fin nx → ℝ) : dist2 x y = 0 ↔ x = y := by
  unfold dist2
  rw [Finset.sum_eq_zero_iff_of_nonneg (fun i _ => sq_nonneg _)]
  constructor
  · intro h; funext i
    have := h i (Finset.mem_univ i)
    nlinarith [pow_eq_zero_iff (two_ne_zero) |>.1 this]
  · rintro rfl i _; simp

theorem minSearch_nonneg (x : Fin nx → ℝ) : ∀ (xt : List (Fin nx → ℝ)) (it : ℕ) (st : ℝ × ℕ), 0 ≤ st.1 →
    0 ≤ (minSearch x xt it st).1 := by
  intro xt
  induction xt with
  | nil => intro it st h; exact h
  | cons t ts ih =>
    intro it st h
    refine ih (it + 1) _ ?_
    split_ifs
    · rw [r2_eq]; exact dist2_nonneg _ _
    · exact h

/-- Once zero, the search never moves. -/
theorem minSearch_stay (x : Fin nx → ℝ) : ∀ (xt : List (Fin nx → ℝ)) (it j : ℕ), minSearch x xt it (0, j) = (0, j) := by
  intro xt
  induction xt with
  | nil => intros; rfl
  | cons t ts ih =>
    intro it j
    unfold minSearch
    rw [if_neg (by rw [r2_eq]; exact not_lt.2 (dist2_nonneg _ _))]
    exact ih _ _

theorem minSearch_hit (x : Fin nx → ℝ) : ∀ (xt : List (Fin nx → ℝ)) (it j : ℕ) (st : ℝ × ℕ), 0 < st.1 →
    xt[j]? = some x → (∀ i, i < j → xt[i]? ≠ some x) → minSearch x xt it st = (0, it + j) := by
  intro xt
  induction xt with
  | nil => intro it j st _ h; simp at h
  | cons t ts ih =>
    intro it j st hst hj hf
    unfold minSearch
    cases j with
    | zero =>
      simp only [List.getElem?_cons_zero, Option.some.injEq] at hj
      subst hj
      rw [r2_eq, (dist2_eq_zero t t).2 rfl, if_pos hst]
      exact minSearch_stay _ _ _ _
    | succ j =>
      have hne : x ≠ t := by
        rintro rfl
        exact hf 0 (by omega) rfl
      have hpos : 0 < dist2 x t := lt_of_le_of_ne (dist2_nonneg _ _) fun e => hne ((dist2_eq_zero _ _).1 e.symm)
      rw [ih (it + 1) j _ ?_ (by simpa using hj) ?_]
      · congr 1; omega
      · split_ifs
        · rw [r2_eq]; exact hpos
        · exact hst
      · intro i hi
        have := hf (i + 1) (by omega)
        simpa using this

theorem minSearch_miss (x : Fin nx → ℝ) : ∀ (xt : List (Fin nx → ℝ)) (it : ℕ) (st : ℝ × ℕ), 0 < st.1 →
    x ∉ xt → 0 < (minSearch x xt it st).1 := by
  intro xt
  induction xt with
  | nil => intro it st h _; exact h
  | cons t ts ih =>
    intro it st h hx
    refine ih (it + 1) _ ?_ (fun h => hx (List.mem_cons_of_mem _ h))
    have hne : x ≠ t := fun e => hx (by simp [e])
    split_ifs
    · rw [r2_eq]; exact lt_of_le_of_ne (dist2_nonneg _ _) fun e => hne ((dist2_eq_zero _ _).1 e.symm)
    · exact h

theorem dot_onehot : ∀ (xt : List (Fin nx → ℝ)) (yt : List ℝ) (j : ℕ) (y : ℝ), xt.length = yt.length → yt[j]? = some y →
    dot ((xt.map fun _ => (0 : ℝ)).set j 1) yt = y := by
  have hz : ∀ (xt : List (Fin nx → ℝ)) (yt : List ℝ), dot (xt.map fun _ => (0 : ℝ)) yt = 0 := by
    intro xt
    induction xt with
    | nil => intro yt; simp [dot]
    | cons t ts ih => intro yt; cases yt with
      | nil => simp [dot]
      | cons y ys => have := ih ys; simp only [dot, List.map_cons, List.zipWith_cons_cons, List.sum_cons] at this ⊢; rw [this]; simp
  intro xt
  induction xt with
  | nil => intro yt j y h hy; cases yt with
    | nil => simp at hy
    | cons => simp at h
  | cons t ts ih =>
    intro yt j y h hy
    cases yt with
    | nil => simp at h
    | cons y' ys =>
      cases j with
      | zero =>
        simp only [List.getElem?_cons_zero, Option.some.injEq] at hy
        subst hy
        have := hz ts ys
        simp only [dot] at this
        simp only [dot, List.map_cons, List.set_cons_zero, List.zipWith_cons_cons, List.sum_cons, this]
        ring
      | succ j =>
        have := ih ys j y (by simpa using h) (by simpa using hy)
        simp only [dot] at this
        simp only [dot, List.map_cons, List.set_cons_succ, List.zipWith_cons_cons, List.sum_cons, this]
        ring

theorem jac_length (p : ℝ) (xt : List (Fin nx → ℝ)) (x : Fin nx → ℝ) : (jac p xt x).length = xt.length := by
  unfold jac; dsimp only; split_ifs <;> simp

theorem weight_pos (p : ℝ) (x t : Fin nx → ℝ) (h : x ≠ t) : 0 < weight p x t := by
  unfold weight
  rw [r2_eq]
  exact Real.rpow_pos_of_pos (lt_of_le_of_ne (dist2_nonneg _ _) fun e => h ((dist2_eq_zero _ _).1 e.symm)) _

theorem weight_eq (p : ℝ) (x t : Fin nx → ℝ) : weight p x t = Real.sqrt (dist2 x t) ^ (-p) := by
  unfold weight
  rw [r2_eq, Real.sqrt_eq_rpow, ← Real.rpow_mul (dist2_nonneg _ _)]
  congr 1; ring

theorem dot_div (xs : List ℝ) (s : ℝ) (ys : List ℝ) : dot (xs.map (· / s)) ys = dot xs ys / s := by
  induction xs generalizing ys with
  | nil => simp [dot]
  | cons x xs ih =>
    cases ys with
    | nil => simp [dot]
    | cons y ys => have := ih ys; simp only [dot, List.map_cons, List.zipWith_cons_cons, List.sum_cons] at this ⊢; rw [this]; ring

theorem dot_map (f : (Fin nx → ℝ) → ℝ) (data : List ((Fin nx → ℝ) × ℝ)) :
    dot ((data.map (·.1)).map f) (data.map (·.2)) = (data.map fun d => d.2 * f d.1).sum := by
  unfold dot
  induction data with
  | nil => simp
  | cons d ds ih => simp only [List.map_cons, List.zipWith_cons_cons, List.sum_cons]; rw [ih]; ring

/-! ## Theorems: values -/

/-- **C29** Interpolation: at a training input the prediction is the training output of the first training point
with exactly these coordinates, for every exponent and every position of the point. -/
theorem C29_interpolates (p : ℝ) (data : List ((Fin nx → ℝ) × ℝ)) (x : Fin nx → ℝ) (y : ℝ) (j : ℕ)
    (hj : data[j]? = some (x, y)) (hfirst : ∀ i, i < j → ∀ d, data[i]? = some d → d.1 ≠ x) :
    predict p (data.map (·.1)) (data.map (·.2)) x = y := by
  unfold predict jac
  have := minSearch_hit x (data.map (·.1)) 0 j (1, 0) one_pos (by simp [hj]) (by
    intro i hi
    simp only [List.getElem?_map]
    cases hd : data[i]? with
    | none => simp
    | some d => simpa using hfirst i hi d hd)
  rw [this]
  simp only [if_true, zero_add]
  exact dot_onehot _ _ j y (by simp) (by simp [hj])

/-- **C29** Away from training inputs the prediction is Shepard's inverse-distance formula. -/
theorem C29_shepard (p : ℝ) (data : List ((Fin nx → ℝ) × ℝ)) (x : Fin nx → ℝ) (hx : ∀ d ∈ data, d.1 ≠ x) :
    predict p (data.map (·.1)) (data.map (·.2)) x = shepard p data x := by
  have hm := minSearch_miss x (data.map (·.1)) 0 (1, 0) one_pos (by
    intro h; obtain ⟨d, hd, e⟩ := List.mem_map.1 h; exact hx d hd e)
  unfold predict jac shepard
  rw [if_neg hm.ne']
  simp only [foldl_add, zero_add]
  rw [dot_div, dot_map, List.map_map]
  simp only [weight_eq, Function.comp_def]

/-- **C29** Bounds: the prediction lies between the smallest and the largest training output, everywhere. -/
theorem C29_bounded (p : ℝ) (data : List ((Fin nx → ℝ) × ℝ)) (hne : data ≠ []) (lo hi : ℝ)
    (hb : ∀ d ∈ data, lo ≤ d.2 ∧ d.2 ≤ hi) (x : Fin nx → ℝ) :
    lo ≤ predict p (data.map (·.1)) (data.map (·.2)) x ∧ predict p (data.map (·.1)) (data.map (·.2)) x ≤ hi := by
  by_cases hx : ∃ d ∈ data, d.1 = x
  · -- first match
    have hex : ∃ j : ℕ, ∃ d, data[j]? = some d ∧ d.1 = x := by
      obtain ⟨d, hd, e⟩ := hx
      obtain ⟨j, hj⟩ := List.mem_iff_getElem?.1 hd
      exact ⟨j, d, hj, e⟩
    obtain ⟨d, h1, h2⟩ := Nat.find_spec hex
    have := C29_interpolates p data x d.2 (Nat.find hex) (by rw [h1, ← h2]) (by
      intro i hi d' hd' e
      exact Nat.find_min hex hi ⟨d', hd', e⟩)
    rw [this]
    exact hb d (List.mem_of_getElem? h1)
  · push Not at hx
    rw [C29_shepard p data x hx]
    unfold shepard
    have hw : ∀ d ∈ data, 0 < Real.sqrt (dist2 x d.1) ^ (-p) := fun d hd => by
      rw [← weight_eq]; exact weight_pos p x d.1 (Ne.symm (hx d hd))
    have key : ∀ data : List ((Fin nx → ℝ) × ℝ), (∀ d ∈ data, 0 < Real.sqrt (dist2 x d.1) ^ (-p)) →
        (∀ d ∈ data, lo ≤ d.2 ∧ d.2 ≤ hi) →
        lo * (data.map fun d => Real.sqrt (dist2 x d.1) ^ (-p)).sum ≤ (data.map fun d => d.2 * Real.sqrt (dist2 x d.1) ^ (-p)).sum ∧
        (data.map fun d => d.2 * Real.sqrt (dist2 x d.1) ^ (-p)).sum ≤ hi * (data.map fun d => Real.sqrt (dist2 x d.1) ^ (-p)).sum ∧
        0 ≤ (data.map fun d => Real.sqrt (dist2 x d.1) ^ (-p)).sum := by
      intro data
      induction data with
      | nil => intros; simp
      | cons d ds ih =>
        intro h1 h2
        obtain ⟨a, b, c⟩ := ih (fun d hd => h1 d (by simp [hd])) (fun d hd => h2 d (by simp [hd]))
        have w := h1 d (by simp)
        have v := h2 d (by simp)
        simp only [List.map_cons, List.sum_cons]
        refine ⟨?_, ?_, by linarith⟩
        · nlinarith [mul_le_mul_of_nonneg_right v.1 w.le]
        · nlinarith [mul_le_mul_of_nonneg_right v.2 w.le]
    obtain ⟨a, b, c⟩ := key data hw hb
    have hpos : 0 < (data.map fun d => Real.sqrt (dist2 x d.1) ^ (-p)).sum := by
      cases data with
      | nil => exact absurd rfl hne
      | cons d ds =>
        have := (key ds (fun d hd => hw d (by simp [hd])) (fun d hd => hb d (by simp [hd]))).2.2
        simp only [List.map_cons, List.sum_cons]
        linarith [hw d (by simp)]
    exact ⟨(le_div_iff₀ hpos).2 a, (div_le_iff₀ hpos).2 b⟩

/-- **C29** The order of the training points does not matter (no repeated input). -/
theorem C29_order_independent (p : ℝ) (data data' : List ((Fin nx → ℝ) × ℝ)) (hperm : data.Perm data')
    (hnd : (data.map (·.1)).Nodup) (x : Fin nx → ℝ) :
    predict p (data.map (·.1)) (data.map (·.2)) x = predict p (data'.map (·.1)) (data'.map (·.2)) x := by
  by_cases hx : ∃ d ∈ data, d.1 = x
  · obtain ⟨d, hd, e⟩ := hx
    have gen : ∀ data : List ((Fin nx → ℝ) × ℝ), (data.map (·.1)).Nodup → d ∈ data →
        predict p (data.map (·.1)) (data.map (·.2)) x = d.2 := by
      intro data hnd hd
      obtain ⟨j, hj⟩ := List.mem_iff_getElem?.1 hd
      refine C29_interpolates p data x d.2 j (by rw [hj, ← e]) ?_
      intro i hi d' hd' e'
      obtain ⟨h1, h1'⟩ := List.getElem?_eq_some_iff.1 hj
      obtain ⟨h2, h2'⟩ := List.getElem?_eq_some_iff.1 hd'
      have := (List.Nodup.getElem_inj_iff hnd (i := i) (j := j) (hi := by simpa using h2) (hj := by simpa using h1)).1
        (by simp [h1', h2', e', e])
      omega
    rw [gen data hnd hd, gen data' ((hperm.map _).nodup_iff.1 hnd) (hperm.mem_iff.1 hd)]
  · push Not at hx
    rw [C29_shepard p data x hx, C29_shepard p data' x (fun d hd => hx d (hperm.mem_iff.2 hd))]
    unfold shepard
    rw [(hperm.map _).sum_eq, (hperm.map fun d => Real.sqrt (dist2 x d.1) ^ (-p)).sum_eq]

/-- **C29** Output derivatives: the prediction is linear in the training outputs, with the returned row as coefficients,
so the row is the exact derivative; rows sum to one. -/
theorem C29_output_derivatives (p : ℝ) (xt : List (Fin nx → ℝ)) (yt : List ℝ) (x : Fin nx → ℝ) :
    predict p xt yt x = dot (outputDeriv p xt x) yt ∧ (outputDeriv p xt x).length = xt.length ∧
    (xt ≠ [] → (outputDeriv p xt x).sum = 1) := by
  refine ⟨rfl, ?_, ?_⟩
  · exact jac_length p xt x
  · intro hne
    have h1 : (outputDeriv p xt x).sum = predict p xt (xt.map fun _ => 1) x := by
      unfold predict outputDeriv dot
      have : ∀ (l : List ℝ) (xt : List (Fin nx → ℝ)), l.length = xt.length → l = List.zipWith (· * ·) l (xt.map fun _ => 1) := by
        intro l
        induction l with
        | nil => intro xt _; simp
        | cons a l ih => intro xt h; cases xt with
          | nil => simp at h
          | cons t ts => simp only [List.map_cons, List.zipWith_cons_cons, mul_one]; rw [← ih ts (by simpa using h)]
      rw [← this]
      exact jac_length p xt x
    rw [h1]
    have := C29_bounded p (xt.map fun t => (t, (1 : ℝ))) (by simpa using hne) 1 1 (by simp) x
    simp only [List.map_map, Function.comp_def, List.map_id'] at this
    exact le_antisymm this.2 this.1

/-! ## Theorems: derivatives -/

theorem dist2_update (x t : Fin nx → ℝ) (k : Fin nx) (u : ℝ) :
    dist2 (Function.update x k u) t = (u - t k) ^ 2 + ∑ i ∈ Finset.univ.erase k, (x i - t i) ^ 2 := by
  unfold dist2
  rw [← Finset.add_sum_erase _ _ (Finset.mem_univ k), Function.update_self]
  congr 1
  refine Finset.sum_congr rfl fun i hi => ?_
  rw [Function.update_of_ne (Finset.ne_of_mem_erase hi)]

theorem weight_hasDeriv (p : ℝ) (x t : Fin nx → ℝ) (k : Fin nx) (h : x ≠ t) :
    HasDerivAt (fun u => weight p (Function.update x k u) t) (dweight p k x t) (x k) := by
  have hpos : 0 < dist2 x t := lt_of_le_of_ne (dist2_nonneg _ _) fun e => h ((dist2_eq_zero _ _).1 e.symm)
  unfold weight dweight
  simp only [r2_eq]
  have h1 : HasDerivAt (fun u => dist2 (Function.update x k u) t) (2 * (x k - t k)) (x k) := by
    simp only [dist2_update]
    have := (((hasDerivAt_id (x k)).sub_const (t k)).fun_pow 2).add_const (∑ i ∈ Finset.univ.erase k, (x i - t i) ^ 2)
    refine this.congr_deriv ?_
    simp
  have h2 := h1.rpow_const (p := -p / 2) (Or.inl (by simpa using hpos.ne'))
  refine h2.congr_deriv ?_
  simp only [Function.update_eq_self]
  ring

theorem sum_hasDeriv {α : Type} (l : List α) (f : α → ℝ → ℝ) (f' : α → ℝ) (u : ℝ) (h : ∀ a ∈ l, HasDerivAt (f a) (f' a) u) :
    HasDerivAt (fun v => (l.map fun a => f a v).sum) (l.map f').sum u := by
  induction l with
  | nil => simpa using hasDerivAt_const u (0 : ℝ)
  | cons a l ih =>
    simp only [List.map_cons, List.sum_cons]
    exact (h a (by simp)).add (ih fun b hb => h b (by simp [hb]))

/-- **C30** Derivatives at a training input: the reported derivative is `0`, and for `p > 1` (the default is 2.5) that is the
exact partial derivative there, provided the training set is consistent at that input. -/
theorem C30_derivative_at_training_point (p : ℝ) (hp : 1 < p) (data : List ((Fin nx → ℝ) × ℝ)) (x : Fin nx → ℝ) (y : ℝ)
    (k : Fin nx) (hmem : (x, y) ∈ data) (hcons : ∀ d ∈ data, d.1 = x → d.2 = y) :
    predictDeriv p (data.map (·.1)) (data.map (·.2)) k x = 0 ∧
    HasDerivAt (fun u => predict p (data.map (·.1)) (data.map (·.2)) (Function.update x k u)) 0 (x k) := by
  have hex : ∃ j : ℕ, ∃ d, data[j]? = some d ∧ d.1 = x := by
    obtain ⟨j, hj⟩ := List.mem_iff_getElem?.1 hmem
    exact ⟨j, _, hj, rfl⟩
  obtain ⟨d0, h1, h2⟩ := Nat.find_spec hex
  have hd0 : d0 = (x, y) := Prod.ext h2 (hcons d0 (List.mem_of_getElem? h1) h2)
  subst hd0
  have hfirst : ∀ i, i < Nat.find hex → ∀ d, data[i]? = some d → d.1 ≠ x :=
    fun i hi d' hd' e => Nat.find_min hex hi ⟨d', hd', e⟩
  constructor
  · unfold predictDeriv jacDerivs
    have := minSearch_hit x (data.map (·.1)) 0 (Nat.find hex) (1, 0) one_pos (by rw [List.getElem?_map, h1]; rfl) (by
      intro i hi
      simp only [List.getElem?_map]
      cases hd : data[i]? with
      | none => simp
      | some d => simpa using hfirst i hi d hd)
    rw [this]
    simp only [if_true]
    rw [dot_map (fun _ => (0 : ℝ))]
    simp
  · have hv : predict p (data.map (·.1)) (data.map (·.2)) (Function.update x k (x k)) = y := by
      rw [Function.update_eq_self]
      exact C29_interpolates p data x y _ h1 hfirst
    set g : ℝ → ℝ := fun u => ((data.filter fun d => decide (d.1 ≠ x)).map fun d => (d.2 - y) * weight p (Function.update x k u) d.1).sum with hg
    have hgc : ContinuousAt g (x k) := by
      refine HasDerivAt.continuousAt (sum_hasDeriv (data.filter fun d => decide (d.1 ≠ x))
        (fun d u => (d.2 - y) * weight p (Function.update x k u) d.1) (fun d => (d.2 - y) * dweight p k x d.1) (x k) ?_)
      intro d hd
      have := (List.mem_filter.1 hd).2
      exact (weight_hasDeriv p x d.1 k (Ne.symm (by simpa using this))).const_mul _
    have hbd : ∀ᶠ u in nhds (x k), |g u| < |g (x k)| + 1 :=
      hgc.abs.eventually (gt_mem_nhds (by linarith))
    have hnear : ∀ᶠ u in nhds (x k), ∀ d ∈ data, d.1 ≠ x → d.1 ≠ Function.update x k u := by
      have : ∀ l : List ((Fin nx → ℝ) × ℝ), ∀ᶠ u in nhds (x k), ∀ d ∈ l, d.1 ≠ x → d.1 ≠ Function.update x k u := by
        intro l
        induction l with
        | nil => simp
        | cons d l ih =>
          have h1 : ∀ᶠ u in nhds (x k), d.1 ≠ x → 0 < dist2 (Function.update x k u) d.1 := by
            by_cases hd : d.1 = x
            · simp [hd]
            have hc : Continuous fun u => dist2 (Function.update x k u) d.1 := by
              simp only [dist2_update]; fun_prop
            refine (hc.continuousAt.eventually (lt_mem_nhds (a := 0) ?_)).mono fun u hu _ => hu
            show 0 < dist2 (Function.update x k (x k)) d.1
            rw [Function.update_eq_self]
            exact lt_of_le_of_ne (dist2_nonneg _ _) fun e => hd ((dist2_eq_zero _ _).1 e.symm).symm
          filter_upwards [h1, ih] with u hu hl e he hne
          rcases List.mem_cons.1 he with rfl | he
          · intro e'
            have := hu hne
            rw [e', (dist2_eq_zero _ _).2 rfl] at this
            exact lt_irrefl _ this
          · exact hl e he hne
      exact this data
    have hbound : ∀ᶠ u in nhds (x k), |predict p (data.map (·.1)) (data.map (·.2)) (Function.update x k u) - y| ≤
        (|g (x k)| + 1) * |u - x k| ^ p := by
      filter_upwards [hbd, hnear] with u hu hn
      by_cases hux : u = x k
      · rw [hux, hv]; simp; positivity
      have hupd : Function.update x k u ≠ x := fun e => hux (by simpa using congrFun e k)
      have hall : ∀ d ∈ data, d.1 ≠ Function.update x k u := by
        intro d hd
        by_cases hdx : d.1 = x
        · rw [hdx]; exact Ne.symm hupd
        · exact hn d hd hdx
      rw [C29_shepard p data _ hall]
      unfold shepard
      simp only [← weight_eq]
      set S := (data.map fun d => weight p (Function.update x k u) d.1).sum with hS
      have hwpos : ∀ d ∈ data, 0 < weight p (Function.update x k u) d.1 := fun d hd => weight_pos _ _ _ (Ne.symm (hall d hd))
      have hle : weight p (Function.update x k u) x ≤ S := by
        have : ∀ l : List ((Fin nx → ℝ) × ℝ), (∀ d ∈ l, 0 < weight p (Function.update x k u) d.1) → (x, y) ∈ l →
            weight p (Function.update x k u) x ≤ (l.map fun d => weight p (Function.update x k u) d.1).sum := by
          intro l hl hm
          refine List.single_le_sum ?_ _ (List.mem_map.2 ⟨(x, y), hm, rfl⟩)
          intro v hv
          obtain ⟨d, hd, rfl⟩ := List.mem_map.1 hv
          exact (hl d hd).le
        exact this data hwpos hmem
      have hwx : weight p (Function.update x k u) x = |u - x k| ^ (-p) := by
        rw [weight_eq, dist2_update]
        simp [Real.sqrt_sq_eq_abs]
      have hr : 0 < |u - x k| := abs_pos.2 (sub_ne_zero.2 hux)
      have hSpos : 0 < S := lt_of_lt_of_le (weight_pos _ _ _ hupd) hle
      have hnum : (data.map fun d => d.2 * weight p (Function.update x k u) d.1).sum / S - y = g u / S := by
        have : ∀ l : List ((Fin nx → ℝ) × ℝ), (∀ d ∈ l, d.1 = x → d.2 = y) →
            (l.map fun d => d.2 * weight p (Function.update x k u) d.1).sum - y * (l.map fun d => weight p (Function.update x k u) d.1).sum =
            ((l.filter fun d => decide (d.1 ≠ x)).map fun d => (d.2 - y) * weight p (Function.update x k u) d.1).sum := by
          intro l
          induction l with
          | nil => intro _; simp
          | cons d l ih =>
            intro hl
            have ih := ih fun d hd => hl d (by simp [hd])
            by_cases hd : d.1 = x
            · have := hl d (by simp) hd
              rw [List.filter_cons_of_neg (by simp [hd]), ← ih]
              simp only [List.map_cons, List.sum_cons, this]; ring
            · rw [List.filter_cons_of_pos (by simp [hd])]
              simp only [List.map_cons, List.sum_cons]
              rw [← ih]; ring
        have e := this data hcons
        rw [← hS] at e
        show _ = ((data.filter fun d => decide (d.1 ≠ x)).map fun d => (d.2 - y) * weight p (Function.update x k u) d.1).sum / S
        rw [← e]; field_simp
      rw [hnum, abs_div, abs_of_pos hSpos, div_le_iff₀ hSpos]
      have hone : |u - x k| ^ p * |u - x k| ^ (-p) = 1 := by
        rw [← Real.rpow_add hr]; simp
      have hpp : 0 < |u - x k| ^ p := Real.rpow_pos_of_pos hr _
      have : 1 ≤ |u - x k| ^ p * S := by
        rw [← hone]; exact mul_le_mul_of_nonneg_left (hwx ▸ hle) hpp.le
      have hM : 0 < |g (x k)| + 1 := by positivity
      calc |g u| ≤ (|g (x k)| + 1) * 1 := by linarith
        _ ≤ (|g (x k)| + 1) * (|u - x k| ^ p * S) := mul_le_mul_of_nonneg_left this hM.le
        _ = _ := by ring
    rw [hasDerivAt_iff_isLittleO, Asymptotics.isLittleO_iff]
    intro c hc
    have hM : 0 < |g (x k)| + 1 := by positivity
    have hsmall : ∀ᶠ u in nhds (x k), |u - x k| ^ (p - 1) < c / (|g (x k)| + 1) := by
      have hcont : ContinuousAt (fun u => |u - x k| ^ (p - 1)) (x k) := by
        refine ContinuousAt.rpow_const ?_ (Or.inr (by linarith))
        fun_prop
      refine hcont.eventually (gt_mem_nhds ?_)
      simp only [sub_self, abs_zero]
      rw [Real.zero_rpow (by linarith)]
      positivity
    filter_upwards [hbound, hsmall] with u hu hs
    rw [hv]
    simp only [smul_zero, sub_zero, Real.norm_eq_abs]
    refine hu.trans ?_
    by_cases hux : u = x k
    · subst hux; simp [Real.zero_rpow (by linarith : p ≠ 0)]
    have hr : 0 < |u - x k| := abs_pos.2 (sub_ne_zero.2 hux)
    have e : |u - x k| ^ p = |u - x k| ^ (p - 1) * |u - x k| := by
      rw [← Real.rpow_add_one hr.ne']; congr 1; ring
    rw [e]
    have := (lt_div_iff₀ hM).1 hs
    nlinarith [mul_pos hr hM]

/-- **C30** Derivatives away from training inputs: `predict_derivatives(x, k)` is the exact partial derivative of
`predict_values`. -/
theorem C30_derivative (p : ℝ) (data : List ((Fin nx → ℝ) × ℝ)) (hne : data ≠ []) (x : Fin nx → ℝ) (k : Fin nx)
    (hx : ∀ d ∈ data, d.1 ≠ x) :
    HasDerivAt (fun u => predict p (data.map (·.1)) (data.map (·.2)) (Function.update x k u))
      (predictDeriv p (data.map (·.1)) (data.map (·.2)) k x) (x k) := by
  have hm := minSearch_miss x (data.map (·.1)) 0 (1, 0) one_pos (by
    intro h; obtain ⟨d, hd, e⟩ := List.mem_map.1 h; exact hx d hd e)
  -- nearby points are also away from training inputs
  have hnear : ∀ᶠ u in nhds (x k), ∀ d ∈ data, d.1 ≠ Function.update x k u := by
    have : ∀ l : List ((Fin nx → ℝ) × ℝ), (∀ d ∈ l, d.1 ≠ x) → ∀ᶠ u in nhds (x k), ∀ d ∈ l, d.1 ≠ Function.update x k u := by
      intro l
      induction l with
      | nil => intro _; simp
      | cons d l ih =>
        intro h
        have h1 : ∀ᶠ u in nhds (x k), 0 < dist2 (Function.update x k u) d.1 := by
          have hc : Continuous fun u => dist2 (Function.update x k u) d.1 := by
            simp only [dist2_update]; fun_prop
          refine hc.continuousAt.eventually (lt_mem_nhds ?_)
          show 0 < dist2 (Function.update x k (x k)) d.1
          rw [Function.update_eq_self]
          exact lt_of_le_of_ne (dist2_nonneg _ _) fun e => h d (by simp) ((dist2_eq_zero _ _).1 e.symm).symm
        filter_upwards [h1, ih fun d hd => h d (by simp [hd])] with u hu hl e he
        rcases List.mem_cons.1 he with rfl | he
        · intro e'
          rw [e', (dist2_eq_zero _ _).2 rfl] at hu
          exact lt_irrefl _ hu
        · exact hl e he
    exact this data hx
  have hS : ∀ (f : (Fin nx → ℝ) → ℝ), (data.map fun d => f d.1).sum = ((data.map (·.1)).map f).sum := by
    intro f; rw [List.map_map]; rfl
  have hden : HasDerivAt (fun u => (data.map fun d => weight p (Function.update x k u) d.1).sum)
      (data.map fun d => dweight p k x d.1).sum (x k) :=
    sum_hasDeriv data (fun d u => weight p (Function.update x k u) d.1) (fun d => dweight p k x d.1) (x k)
      (fun d hd => weight_hasDeriv p x d.1 k (Ne.symm (hx d hd)))
  have hnum : HasDerivAt (fun u => (data.map fun d => d.2 * weight p (Function.update x k u) d.1).sum)
      (data.map fun d => d.2 * dweight p k x d.1).sum (x k) :=
    sum_hasDeriv data (fun d u => d.2 * weight p (Function.update x k u) d.1) (fun d => d.2 * dweight p k x d.1) (x k)
      (fun d hd => (weight_hasDeriv p x d.1 k (Ne.symm (hx d hd))).const_mul _)
  have hpos : 0 < (data.map fun d => weight p x d.1).sum := by
    have : ∀ l : List ((Fin nx → ℝ) × ℝ), l ≠ [] → (∀ d ∈ l, d.1 ≠ x) → 0 < (l.map fun d => weight p x d.1).sum := by
      intro l
      induction l with
      | nil => intro h; exact absurd rfl h
      | cons d l ih =>
        intro _ h
        have h0 := weight_pos p x d.1 (Ne.symm (h d (by simp)))
        simp only [List.map_cons, List.sum_cons]
        rcases l with _ | ⟨e, l⟩
        · simpa using h0
        · have := ih (by simp) (fun d hd => h d (by simp [hd]))
          linarith
    exact this data hne hx
  have hq := hnum.div hden (by simpa using hpos.ne')
  simp only [Function.update_eq_self] at hq
  refine (hq.congr_deriv ?_).congr_of_eventuallyEq ?_
  · unfold predictDeriv jacDerivs
    rw [if_neg hm.ne']
    simp only [foldl_add, zero_add]
    rw [← hS, ← hS]
    have key : ∀ (S T : ℝ) (l : List ((Fin nx → ℝ) × ℝ)),
        dot (List.zipWith (fun dwi wi => (dwi * S - wi * T) / S ^ 2) ((l.map (·.1)).map (dweight p k x)) ((l.map (·.1)).map (weight p x))) (l.map (·.2)) =
        ((l.map fun d => d.2 * dweight p k x d.1).sum * S - (l.map fun d => d.2 * weight p x d.1).sum * T) / S ^ 2 := by
      intro S T l
      induction l with
      | nil => simp [dot]
      | cons d l ih =>
        simp only [dot, List.map_cons, List.zipWith_cons_cons, List.sum_cons] at ih ⊢
        rw [ih]; ring
    rw [key]
  · filter_upwards [hnear] with u hu
    rw [C29_shepard p data _ hu]
    unfold shepard
    simp only [← weight_eq]
    rfl

/-! ## Non-vacuity -/

/-- Two training points in the plane, one hit, one miss. -/
example : let data : List ((Fin 2 → ℝ) × ℝ) := [(![0, 0], 1), (![1, 0], 3)]
    predict 2.5 (data.map (·.1)) (data.map (·.2)) ![1, 0] = 3 ∧
    (∀ d ∈ data, d.1 ≠ ![1/2, 0]) ∧ predict 2.5 (data.map (·.1)) (data.map (·.2)) ![1/2, 0] = 2 := by
  intro data
  have hmiss : ∀ d ∈ data, d.1 ≠ ![1/2, 0] := by
    intro d hd e
    have h0 := congrFun e 0
    simp [data] at hd
    rcases hd with rfl | rfl <;> norm_num at h0
  refine ⟨C29_interpolates 2.5 data ![1, 0] 3 1 rfl ?_, hmiss, ?_⟩
  · intro i hi d hd e
    obtain rfl : i = 0 := by omega
    simp [data] at hd
    subst hd
    have := congrFun e 0
    norm_num at this
  · rw [C29_shepard 2.5 data _ hmiss]
    have h1 : dist2 (![1/2, 0] : Fin 2 → ℝ) ![0, 0] = 1/4 := by norm_num [dist2]
    have h2 : dist2 (![1/2, 0] : Fin 2 → ℝ) ![1, 0] = 1/4 := by norm_num [dist2]
    have hw : (0 : ℝ) < Real.sqrt (1/4) ^ (-(2.5 : ℝ)) := by positivity
    simp only [shepard, data, List.map_cons, List.map_nil, List.sum_cons, List.sum_nil, h1, h2]
    field_simp
    norm_num
    ring

end SMT.Idw
