import Verif.Fp.IdwProps
import Mathlib.Algebra.Order.BigOperators.Group.List
import Mathlib.Algebra.BigOperators.Ring.List

/-!
# Property C103, second part: what is predicted away from the training points
-/
namespace SMT.Fp
set_option linter.unusedSectionVars false
set_option linter.unusedSimpArgs false
set_option linter.unusedVariables false

variable {K : Type} [Field K] [LinearOrder K] [IsStrictOrderedRing K] (F : Format K)

/-! ## Sums -/

theorem fold_nan : ∀ (l : List (X K)), X.nan ∈ l → ∀ s, l.foldl F.addX s = .nan := by
  intro l
  have hn : ∀ (l : List (X K)), l.foldl F.addX .nan = .nan := by
    intro l
    induction l with
    | nil => rfl
    | cons a l ih => rw [List.foldl_cons, F.addX_nan_left, ih]
  induction l with
  | nil => intro h; cases h
  | cons a l ih =>
    intro h s
    rw [List.foldl_cons]
    rcases List.mem_cons.1 h with h | h
    · rw [← h, F.addX_nan_right, hn]
    · exact ih h _

theorem fold_inf : ∀ (l : List (X K)), (∀ w ∈ l, Nn F w) → l.foldl F.addX (.inf false) = .inf false := by
  intro l
  induction l with
  | nil => intro _; rfl
  | cons a l ih =>
    intro h
    have ha := h a (by simp)
    have : F.addX (.inf false) a = .inf false := by
      cases a with
      | fin a => rfl
      | inf s =>
        have : s = false := ha
        subst this
        simp [Format.addX]
      | nan => exact ha.elim
    rw [List.foldl_cons, this]
    exact ih fun b hb => h b (by simp [hb])

theorem fold_some_inf : ∀ (l : List (X K)), (∀ w ∈ l, Nn F w) → X.inf false ∈ l → ∀ s, Nn F s → l.foldl F.addX s = .inf false := by
  intro l
  induction l with
  | nil => intro _ h; cases h
  | cons a l ih =>
    intro h hm s hs
    rw [List.foldl_cons]
    have hl : ∀ w ∈ l, Nn F w := fun b hb => h b (by simp [hb])
    rcases List.mem_cons.1 hm with e | e
    · have : F.addX s a = .inf false := by
        rw [← e]
        cases s with
        | fin a => rfl
        | inf s =>
          have : s = false := hs
          subst this
          simp [Format.addX]
        | nan => exact hs.elim
      rw [this]
      exact fold_inf F l hl
    · exact ih hl e _ (add_nn F hs (h a (by simp)))

theorem fold_zero : ∀ (n : ℕ), (List.replicate n (X.fin (0 : K))).foldl F.addX (.fin 0) = .fin 0 := by
  intro n
  induction n with
  | zero => rfl
  | succ n ih =>
    have : F.addX (.fin 0) (.fin (0 : K)) = .fin 0 := by
      show F.of (0 + 0) = _
      rw [add_zero, F.of_zero]
    rw [List.replicate_succ, List.foldl_cons, this, ih]

/-! ## Predictions at training points -/

theorem dot_unit (yt : List K) (hy : ∀ y ∈ yt, F.Fin y) (k : ℕ) (y : K) (hk : yt[k]? = some y) :
    dotX F ((List.replicate yt.length (X.fin 0)).set k (.fin 1)) (yt.map .fin) = .fin y := by
  have z0 : ∀ y : K, F.mulX (.fin 0) (.fin y) = .fin 0 := fun y => by
    show F.of (0 * y) = _
    rw [zero_mul, F.of_zero]
  have a0 : ∀ s : K, F.Fin s → F.addX (.fin s) (.fin 0) = .fin s := fun s hs => by
    show F.of (s + 0) = _
    rw [add_zero, F.of_fin hs]
  have zeros : ∀ (l : List K) (s : K), F.Fin s → (List.zipWith F.mulX (List.replicate l.length (X.fin 0)) (l.map .fin)).foldl F.addX (.fin s) = .fin s := by
    intro l
    induction l with
    | nil => intro s _; rfl
    | cons a l ih =>
      intro s hs
      rw [List.length_cons, List.replicate_succ, List.map_cons, List.zipWith_cons_cons, List.foldl_cons, z0, a0 s hs]
      exact ih s hs
  have key : ∀ (yt : List K), (∀ y ∈ yt, F.Fin y) → ∀ (k : ℕ), yt[k]? = some y →
      (List.zipWith F.mulX ((List.replicate yt.length (X.fin 0)).set k (.fin 1)) (yt.map .fin)).foldl F.addX (.fin 0) = .fin y := by
    intro yt
    induction yt with
    | nil => intro _ k hk; simp at hk
    | cons a l ih =>
      intro hy k hk
      cases k with
      | zero =>
        have e : a = y := by simpa using hk
        subst e
        have h1 : F.mulX (.fin 1) (.fin a) = .fin a := by
          show F.of (1 * a) = _
          rw [one_mul, F.of_fin (hy a (by simp))]
        have h2 : F.addX (.fin 0) (.fin a) = .fin a := by
          show F.of (0 + a) = _
          rw [zero_add, F.of_fin (hy a (by simp))]
        rw [List.length_cons, List.replicate_succ, List.set_cons_zero, List.map_cons, List.zipWith_cons_cons, List.foldl_cons, h1, h2]
        exact zeros l a (hy a (by simp))
      | succ k =>
        rw [List.length_cons, List.replicate_succ, List.set_cons_succ, List.map_cons, List.zipWith_cons_cons, List.foldl_cons, z0, a0 0 F.fin_zero]
        exact ih (fun y h => hy y (by simp [h])) k (by simpa using hk)
  exact key yt hy k hk

/-- Training points and an evaluation point with finite coordinates. -/
def Far (xt : List (List K)) (x : List K) : Prop := ∀ t ∈ xt, sqDist F (x.map .fin) (t.map .fin) ≠ .fin 0

/-- The weights as computed. -/
def weights (pw : X K → X K) (xt : List (List K)) (x : List K) : List (X K) := xt.map fun t => pw (sqDist F (x.map .fin) (t.map .fin))

/-- The prediction from finite training data at a point with finite coordinates. -/
def predictFin (pw : X K → X K) (xt : List (List K)) (yt x : List K) : X K := idwPredict F pw (xt.map (·.map .fin)) (yt.map .fin) (x.map .fin)

theorem finite_nn (xt : List (List K)) (x : List K) : ∀ t ∈ xt.map (·.map X.fin), Nn F (sqDist F (x.map .fin) t) ∨ sqDist F (x.map .fin) t = .nan := by
  intro t ht
  obtain ⟨t', -, rfl⟩ := List.mem_map.1 ht
  exact Or.inl (C103_distance F x t').1

/-- **C103** The prediction at a training point is the training output of the first training point there, exactly, in any format
and for any exponent. -/
theorem C103_exact (pw : X K → X K) (xt : List (List K)) (yt x : List K) (hl : xt.length = yt.length) (hy : ∀ y ∈ yt, F.Fin y) (hx : x ∈ xt) :
    ∃ k y, yt[k]? = some y ∧ predictFin F pw xt yt x = .fin y ∧
      (∃ t : List K, xt[k]? = some t ∧ sqDist F (x.map .fin) (t.map .fin) = .fin 0) ∧
      ∀ (j : ℕ) (t : List K), j < k → xt[j]? = some t → sqDist F (x.map .fin) (t.map .fin) ≠ .fin 0 := by
  classical
  have hex : ∃ k : ℕ, ∃ t : List K, xt[k]? = some t ∧ sqDist F (x.map .fin) (t.map .fin) = .fin 0 := by
    obtain ⟨k, hk⟩ := List.mem_iff_getElem?.1 hx
    exact ⟨k, x, hk, C103_same F x⟩
  obtain ⟨t, ht, h0⟩ := Nat.find_spec hex
  set k := Nat.find hex with hkd
  have hlt : k < xt.length := by
    by_contra hc
    rw [List.getElem?_eq_none (by omega)] at ht
    cases ht
  have hk : yt[k]? = some yt[k] := List.getElem?_eq_getElem (by omega)
  have hfirst : ∀ (j : ℕ) (t : List K), j < k → xt[j]? = some t → sqDist F (x.map .fin) (t.map .fin) ≠ .fin 0 := fun j t hj hjt h0 =>
    Nat.find_min hex hj ⟨t, hjt, h0⟩
  refine ⟨k, yt[k], hk, ?_, ⟨t, ht, h0⟩, hfirst⟩
  unfold predictFin idwPredict
  rw [C103_unit_row F pw _ _ (finite_nn F xt x) k]
  · rw [List.length_map, hl]
    exact dot_unit F yt hy k _ hk
  · rw [List.map_map, List.getElem?_map, ht]
    simp only [Option.map_some, Function.comp]
    rw [h0]
  · intro j hj h
    rw [List.map_map, List.getElem?_map] at h
    cases hjt : xt[j]? with
    | none => rw [hjt] at h; cases h
    | some t' =>
      rw [hjt] at h
      simp only [Option.map_some, Function.comp, Option.some.injEq] at h
      exact hfirst j t' hj hjt h

theorem row_far (pw : X K → X K) (xt : List (List K)) (x : List K) (hf : Far F xt x) :
    idwRow F pw (xt.map (·.map .fin)) (x.map .fin) = (weights F pw xt x).map fun v => F.divX v ((weights F pw xt x).foldl F.addX (.fin 0)) := by
  rw [idwRow_quot F pw _ _ (finite_nn F xt x)]
  · have e : ((xt.map (·.map X.fin)).map fun t => pw (sqDist F (x.map .fin) t)) = weights F pw xt x := by
      rw [List.map_map]
      rfl
    rw [e]
  · intro t ht
    obtain ⟨t', ht', rfl⟩ := List.mem_map.1 ht
    exact hf t' ht'

/-- A NaN in the row makes the prediction NaN. -/
theorem dot_nan (row yt : List (X K)) (k : ℕ) (hk : row[k]? = some .nan) (hl : k < yt.length) : dotX F row yt = .nan := by
  refine fold_nan F _ ?_ _
  rw [List.mem_iff_getElem?]
  refine ⟨k, ?_⟩
  rw [List.getElem?_zipWith, hk, List.getElem?_eq_getElem hl]
  show some (F.mulX .nan yt[k]) = _
  rw [F.mulX_nan_left]

/-- **C103** If the weight of some training point overflows (a point very near to it, or a large exponent), the prediction is NaN. -/
theorem C103_overflow (pw : X K → X K) (xt : List (List K)) (yt x : List K) (hl : xt.length = yt.length) (hf : Far F xt x)
    (hw : ∀ w ∈ weights F pw xt x, Nn F w) (ho : X.inf false ∈ weights F pw xt x) : predictFin F pw xt yt x = .nan := by
  unfold predictFin idwPredict
  rw [row_far F pw xt x hf, fold_some_inf F _ hw ho _ (nn_zero F)]
  obtain ⟨k, hk⟩ := List.mem_iff_getElem?.1 ho
  have hlt : k < xt.length := by
    by_contra hc
    rw [List.getElem?_eq_none (by simpa [weights] using hc)] at hk
    cases hk
  refine dot_nan F _ _ k ?_ (by rw [List.length_map]; omega)
  rw [List.getElem?_map, hk]
  rfl

/-- **C103** If every weight underflows to zero (a point far from all training points, or a large exponent), the prediction is NaN. -/
theorem C103_underflow (pw : X K → X K) (xt : List (List K)) (yt x : List K) (hl : xt.length = yt.length) (hne : xt ≠ []) (hf : Far F xt x)
    (hw : ∀ w ∈ weights F pw xt x, w = .fin 0) : predictFin F pw xt yt x = .nan := by
  unfold predictFin idwPredict
  have e : weights F pw xt x = List.replicate xt.length (.fin 0) := by
    rw [List.eq_replicate_iff]
    exact ⟨by simp [weights], hw⟩
  rw [row_far F pw xt x hf, e, fold_zero]
  have hlt : 0 < xt.length := List.length_pos_of_ne_nil hne
  refine dot_nan F _ _ 0 ?_ (by rw [List.length_map]; omega)
  rw [List.getElem?_map, List.getElem?_replicate, if_pos hlt]
  show some (F.divX (.fin 0) (.fin 0)) = _
  simp [Format.divX]

/-- **C103** If only the sum of the weights overflows, the prediction is `0`, whatever the training outputs. -/
theorem C103_sum_overflow (pw : X K → X K) (xt : List (List K)) (yt x : List K) (hl : xt.length = yt.length) (hf : Far F xt x)
    (hw : ∀ w ∈ weights F pw xt x, ∃ v, w = .fin v) (hs : (weights F pw xt x).foldl F.addX (.fin 0) = .inf false) :
    predictFin F pw xt yt x = .fin 0 := by
  unfold predictFin idwPredict
  rw [row_far F pw xt x hf, hs]
  have e : ((weights F pw xt x).map fun v => F.divX v (.inf false)) = List.replicate yt.length (.fin 0) := by
    rw [List.eq_replicate_iff]
    refine ⟨by simp [weights, hl], ?_⟩
    intro b hb
    obtain ⟨w, hwm, rfl⟩ := List.mem_map.1 hb
    obtain ⟨v, rfl⟩ := hw w hwm
    rfl
  rw [e]
  have : List.zipWith F.mulX (List.replicate yt.length (X.fin 0)) (yt.map .fin) = List.replicate yt.length (.fin 0) := by
    rw [List.eq_replicate_iff]
    refine ⟨by simp, ?_⟩
    intro b hb
    obtain ⟨i, hi, rfl⟩ := List.mem_iff_getElem.1 hb
    rw [List.getElem_zipWith, List.getElem_replicate, List.getElem_map]
    show F.of (0 * _) = _
    rw [zero_mul, F.of_zero]
  rw [dotX, this, fold_zero]

end SMT.Fp
