import Verif.Fp.IdwProps3

/-!
# Property C103, fourth part: predictions in the regular case, NaN, double precision
-/
namespace SMT.Fp
set_option linter.unusedSectionVars false
set_option linter.unusedSimpArgs false
set_option linter.unusedVariables false

variable {K : Type} [Field K] [LinearOrder K] [IsStrictOrderedRing K] (F : Format K)

/-- Products of the entries and the outputs. -/
theorem zip_fin (S : K) : ∀ (vs ys : List K), (∀ v ∈ vs, 0 ≤ F.rnd (v / S) ∧ F.rnd (v / S) ≤ 1) → (∀ y ∈ ys, F.Fin y) →
    List.zipWith F.mulX ((vs.map fun v => F.rnd (v / S)).map .fin) (ys.map .fin) = (List.zipWith (fun v y => F.rnd (F.rnd (v / S) * y)) vs ys).map .fin := by
  intro vs
  induction vs with
  | nil => intro ys _ _; rfl
  | cons v vs ih =>
    intro ys h hy
    cases ys with
    | nil => rfl
    | cons y ys =>
      obtain ⟨h0, h1⟩ := h v (by simp)
      have hyf := hy y (by simp)
      have e : F.mulX (.fin (F.rnd (v / S))) (.fin y) = .fin (F.rnd (F.rnd (v / S) * y)) := by
        show F.of (F.rnd (v / S) * y) = _
        rw [F.of_small]
        rw [abs_mul, abs_of_nonneg h0]
        calc F.rnd (v / S) * |y| ≤ 1 * |y| := mul_le_mul_of_nonneg_right h1 (abs_nonneg y)
          _ ≤ F.big := by rw [one_mul]; exact hyf.2
      simp only [List.map_cons, List.zipWith_cons_cons, e]
      rw [ih ys (fun w hw => h w (by simp [hw])) fun w hw => hy w (by simp [hw])]

/-- Errors of the products. -/
theorem zip_err (S M : K) (hM : 0 ≤ M) : ∀ (vs ys : List K), vs.length = ys.length → (∀ v ∈ vs, 0 ≤ v / S ∧ 0 ≤ F.rnd (v / S)) → (∀ y ∈ ys, |y| ≤ M) →
    |(List.zipWith (fun v y => F.rnd (F.rnd (v / S) * y)) vs ys).sum - (List.zipWith (fun v y => v / S * y) vs ys).sum| ≤
        M * ((1 + F.u) ^ 2 - 1) * (vs.sum / S) + vs.length * (F.tiny * (1 + M * (1 + F.u))) ∧
      ((List.zipWith (fun v y => F.rnd (F.rnd (v / S) * y)) vs ys).map abs).sum ≤
        M * (1 + F.u) ^ 2 * (vs.sum / S) + vs.length * (F.tiny * (1 + M * (1 + F.u))) := by
  have hu := F.u_nonneg
  have ht := F.tiny_nonneg
  intro vs
  induction vs with
  | nil => intro ys _ _ _; simp
  | cons v vs ih =>
    intro ys hl h hy
    cases ys with
    | nil => simp at hl
    | cons y ys =>
      obtain ⟨h0, h1⟩ := h v (by simp)
      have hyM := hy y (by simp)
      obtain ⟨i1, i2⟩ := ih ys (by simpa using hl) (fun w hw => h w (by simp [hw])) fun w hw => hy w (by simp [hw])
      set q := v / S with hq
      set e := F.rnd q with he
      have e1 := F.err q
      rw [abs_of_nonneg h0, ← he] at e1
      have e2 := F.err (e * y)
      rw [abs_mul, abs_of_nonneg h1] at e2
      have e3 : e ≤ q * (1 + F.u) + F.tiny := by linarith [(abs_le.1 e1).2]
      have hey : e * |y| ≤ (q * (1 + F.u) + F.tiny) * M := mul_le_mul e3 hyM (abs_nonneg y) (by nlinarith)
      have e4 : |(e - q) * y| ≤ (F.u * q + F.tiny) * M := by
        rw [abs_mul]
        exact mul_le_mul e1 hyM (abs_nonneg y) (by nlinarith)
      have hp : |F.rnd (e * y) - q * y| ≤ M * ((1 + F.u) ^ 2 - 1) * q + F.tiny * (1 + M * (1 + F.u)) := by
        have t := abs_add_le (F.rnd (e * y) - e * y) ((e - q) * y)
        rw [show F.rnd (e * y) - e * y + (e - q) * y = F.rnd (e * y) - q * y by ring] at t
        have : F.u * (e * |y|) ≤ F.u * ((q * (1 + F.u) + F.tiny) * M) := mul_le_mul_of_nonneg_left hey hu
        calc |F.rnd (e * y) - q * y| ≤ F.u * ((q * (1 + F.u) + F.tiny) * M) + F.tiny + (F.u * q + F.tiny) * M := by linarith
          _ = _ := by ring
      have hp' : |F.rnd (e * y)| ≤ M * (1 + F.u) ^ 2 * q + F.tiny * (1 + M * (1 + F.u)) := by
        have t := abs_add_le (F.rnd (e * y) - e * y) (e * y)
        rw [sub_add_cancel, abs_mul, abs_of_nonneg h1] at t
        have : (1 + F.u) * (e * |y|) ≤ (1 + F.u) * ((q * (1 + F.u) + F.tiny) * M) := mul_le_mul_of_nonneg_left hey (by linarith)
        calc |F.rnd (e * y)| ≤ (1 + F.u) * ((q * (1 + F.u) + F.tiny) * M) + F.tiny := by linarith
          _ = _ := by ring
      rw [List.zipWith_cons_cons, List.zipWith_cons_cons, List.sum_cons, List.sum_cons, List.map_cons, List.sum_cons, List.sum_cons, List.length_cons, add_div, ← hq, ← he]
      push_cast
      constructor
      · have t := abs_add_le (F.rnd (e * y) - q * y) ((List.zipWith (fun v y => F.rnd (F.rnd (v / S) * y)) vs ys).sum - (List.zipWith (fun v y => v / S * y) vs ys).sum)
        rw [show F.rnd (e * y) + (List.zipWith (fun v y => F.rnd (F.rnd (v / S) * y)) vs ys).sum - (q * y + (List.zipWith (fun v y => v / S * y) vs ys).sum) =
          (F.rnd (e * y) - q * y) + ((List.zipWith (fun v y => F.rnd (F.rnd (v / S) * y)) vs ys).sum - (List.zipWith (fun v y => v / S * y) vs ys).sum) by ring]
        linarith
      · linarith

theorem zip_hull (S lo hi : K) : ∀ (vs ys : List K), vs.length = ys.length → (∀ v ∈ vs, 0 ≤ v / S) → (∀ y ∈ ys, lo ≤ y ∧ y ≤ hi) →
    lo * (vs.sum / S) ≤ (List.zipWith (fun v y => v / S * y) vs ys).sum ∧ (List.zipWith (fun v y => v / S * y) vs ys).sum ≤ hi * (vs.sum / S) := by
  intro vs
  induction vs with
  | nil => intro ys _ _ _; simp
  | cons v vs ih =>
    intro ys hl h hy
    cases ys with
    | nil => simp at hl
    | cons y ys =>
      obtain ⟨i1, i2⟩ := ih ys (by simpa using hl) (fun w hw => h w (by simp [hw])) fun w hw => hy w (by simp [hw])
      have h0 := h v (by simp)
      have hyb := hy y (by simp)
      have a := mul_le_mul_of_nonneg_left hyb.1 h0
      have b := mul_le_mul_of_nonneg_left hyb.2 h0
      rw [List.zipWith_cons_cons, List.sum_cons, List.sum_cons, add_div]
      constructor <;> linarith

theorem pm_aux {u : K} (hu : 0 ≤ u) (hu1 : u < 1) (n : ℕ) : 2 - 1 / (1 - u) ^ n ≤ 1 / (1 + u) ^ n := by
  have hA1 : 1 ≤ (1 + u) ^ n := one_le_pow₀ (by linarith)
  have hB : 0 < (1 - u) ^ n := pow_pos (by linarith) _
  have h : (1 + u) ^ n * (1 - u) ^ n ≤ 1 := by
    rw [← mul_pow]
    refine pow_le_one₀ (mul_nonneg (by linarith) (by linarith)) ?_
    have := mul_nonneg hu hu
    rw [show (1 + u) * (1 - u) = 1 - u * u by ring]
    linarith
  have h7 : (1 + u) ^ n ≤ 1 / (1 - u) ^ n := by rw [le_div_iff₀ hB]; exact h
  generalize (1 + u) ^ n = P at *
  generalize 1 / (1 - u) ^ n = m at *
  rw [le_div_iff₀ (by linarith)]
  have a := mul_le_mul_of_nonneg_right (show 2 - m ≤ 2 - P by linarith) (show 0 ≤ P by linarith)
  have b := sq_nonneg (P - 1)
  have : (2 - P) * P = 1 - (P - 1) ^ 2 := by ring
  linarith

/-- Allowance for `n` training points and outputs up to `M` in absolute value: roundings and underflows. -/
def slack (n : ℕ) (M : K) : K :=
  M * ((1 + F.u) ^ (n + 2) / (1 - F.u) ^ n - 1) + (1 + F.u) ^ n * (n * (F.tiny * (1 + M * (1 + F.u))))

/-- **C103** In the regular case the prediction is not NaN, not negative if no output is, and, if it does not overflow, between the smallest and
the largest training output up to roundings and underflows. -/
theorem C103_prediction {pw : X K → X K} {xt : List (List K)} {x : List K} (hf : Far F xt x) {vs : List K} (hw : weights F pw xt x = vs.map .fin)
    (hv : ∀ v ∈ vs, F.Fin v ∧ 0 ≤ v) {S : K} (hs : (weights F pw xt x).foldl F.addX (.fin 0) = .fin S) (hS : S ≠ 0)
    (yt : List K) (hl : xt.length = yt.length) (hy : ∀ y ∈ yt, F.Fin y) :
    predictFin F pw xt yt x ≠ .nan ∧ ((∀ y ∈ yt, 0 ≤ y) → Nn F (predictFin F pw xt yt x)) ∧
      ∀ z lo hi M, predictFin F pw xt yt x = .fin z → (∀ y ∈ yt, lo ≤ y ∧ y ≤ hi ∧ |y| ≤ M) → |lo| ≤ M → |hi| ≤ M →
        lo - slack F xt.length M ≤ z ∧ z ≤ hi + slack F xt.length M := by
  have hlen : vs.length = xt.length := by
    have := congrArg List.length hw
    simpa [weights] using this.symm
  rw [hw] at hs
  obtain ⟨hpos, hrow, hq⟩ := row_regular F hf hw hv hs hS
  obtain ⟨-, -, -, h4, h5⟩ := fold_pos F vs hv 0 S F.fin_zero le_rfl hs
  rw [zero_add, hlen] at h4 h5
  have hu := F.u_nonneg
  have hu1 := F.u_lt
  have hpred : predictFin F pw xt yt x = ((List.zipWith (fun v y => F.rnd (F.rnd (v / S) * y)) vs yt).map X.fin).foldl F.addX (.fin 0) := by
    unfold predictFin idwPredict dotX
    rw [hrow, zip_fin F S vs yt (fun v hm => (hq v hm).2.2) hy]
  have hrep : ∀ p ∈ List.zipWith (fun v y => F.rnd (F.rnd (v / S) * y)) vs yt, F.rnd p = p := by
    intro p hp
    obtain ⟨i, hi, rfl⟩ := List.mem_iff_getElem.1 hp
    rw [List.getElem_zipWith]
    exact F.idem _
  have hfold := fold_fin F _ hrep 0 F.fin_zero
  refine ⟨by rw [hpred]; exact hfold.1, fun hpos' => ?_, fun z lo hi M hz hb hlo hhi => ?_⟩
  · unfold predictFin idwPredict dotX
    rw [hrow]
    refine (fold_nn F id _ ?_ _ (nn_zero F)).1
    intro p hp
    obtain ⟨i, hi, rfl⟩ := List.mem_iff_getElem.1 hp
    have hi1 : i < vs.length := by
      have := hi
      rw [List.length_zipWith, List.length_map, List.length_map] at this
      omega
    have hi2 : i < yt.length := by omega
    simp only [List.getElem_zipWith, List.getElem_map, id]
    have a := (hq vs[i] (List.getElem_mem hi1)).2.2
    have b := hy yt[i] (List.getElem_mem hi2)
    have c := hpos' yt[i] (List.getElem_mem hi2)
    show Nn F (F.of (F.rnd (vs[i] / S) * yt[i]))
    unfold Format.of
    split
    · exact ⟨⟨F.idem _, by assumption⟩, F.nonneg (mul_nonneg a.1 c)⟩
    · exact decide_eq_false (not_lt.2 (mul_nonneg a.1 c))
  · rw [hpred] at hz
    obtain ⟨-, hz⟩ := hfold.2 z hz
    have hM : 0 ≤ M := (abs_nonneg lo).trans hlo
    have hlen' : vs.length = yt.length := by omega
    obtain ⟨z1, z2⟩ := zip_err F S M hM vs yt hlen' (fun v hm => ⟨(hq v hm).1, (hq v hm).2.2.1⟩) fun y hm => (hb y hm).2.2
    obtain ⟨u1, u2⟩ := zip_hull S lo hi vs yt hlen' (fun v hm => (hq v hm).1) fun y hm => ⟨(hb y hm).1, (hb y hm).2.1⟩
    rw [List.length_zipWith, ← hlen', min_self, hlen, zero_add, abs_zero, zero_add] at hz
    rw [hlen] at z1 z2
    have hA : 0 < (1 + F.u) ^ xt.length := pow_pos (by linarith) _
    have hB : 0 < (1 - F.u) ^ xt.length := pow_pos (by linarith) _
    have hA1 : 1 ≤ (1 + F.u) ^ xt.length := one_le_pow₀ (by linarith)
    set Q := vs.sum / S with hQ
    have q1 : 1 / (1 + F.u) ^ xt.length ≤ Q := by
      rw [hQ, div_le_div_iff₀ hA hpos, one_mul]
      exact h5
    have q2 : Q ≤ 1 / (1 - F.u) ^ xt.length := by
      rw [hQ, div_le_div_iff₀ hpos hB, one_mul]
      exact h4
    set P := (1 + F.u) ^ xt.length with hP
    set m := 1 / (1 - F.u) ^ xt.length with hm
    set D := (xt.length : K) * (F.tiny * (1 + M * (1 + F.u))) with hD
    have hD0 : 0 ≤ D := by
      have : 0 ≤ F.tiny := F.tiny_nonneg
      rw [hD]
      positivity
    have hslack : slack F xt.length M = M * (P * (1 + F.u) ^ 2 * m - 1) + P * D := by
      rw [slack, pow_add, ← hP, ← hD, hm, mul_one_div]
    -- distance from the exact weighted sum
    set E := (List.zipWith (fun v y => v / S * y) vs yt).sum with hE
    have hmain : |z - E| ≤ M * Q * (P * (1 + F.u) ^ 2 - 1) + P * D := by
      have t := abs_add_le (z - (List.zipWith (fun v y => F.rnd (F.rnd (v / S) * y)) vs yt).sum) ((List.zipWith (fun v y => F.rnd (F.rnd (v / S) * y)) vs yt).sum - E)
      rw [sub_add_sub_cancel] at t
      have z3 := mul_le_mul_of_nonneg_left z2 (show (0 : K) ≤ P - 1 by linarith)
      calc |z - E| ≤ (P - 1) * (M * (1 + F.u) ^ 2 * Q + D) + (M * ((1 + F.u) ^ 2 - 1) * Q + D) := by linarith
        _ = _ := by ring
    have hm1 : 1 ≤ m := by
      rw [hm, one_le_div hB]
      exact pow_le_one₀ (by linarith) (by linarith)
    have hQm : |Q - 1| ≤ m - 1 := by
      have h6 : 2 - m ≤ 1 / P := pm_aux hu hu1 xt.length
      rw [abs_le]
      constructor <;> linarith
    have hQ0 : 0 ≤ Q := le_trans (by positivity) q1
    have hP2 : 1 ≤ P * (1 + F.u) ^ 2 := hA1.trans (le_mul_of_one_le_right hA.le (one_le_pow₀ (by linarith)))
    have hQM : M * Q * (P * (1 + F.u) ^ 2 - 1) ≤ M * m * (P * (1 + F.u) ^ 2 - 1) :=
      mul_le_mul_of_nonneg_right (mul_le_mul_of_nonneg_left q2 hM) (by linarith)
    have key : ∀ c : K, |c| ≤ M → |c * Q - c| ≤ M * (m - 1) := by
      intro c hc
      rw [show c * Q - c = c * (Q - 1) by ring, abs_mul]
      exact mul_le_mul hc hQm (abs_nonneg _) hM
    have k1 := abs_le.1 (key lo hlo)
    have k2 := abs_le.1 (key hi hhi)
    have hz' := abs_le.1 hmain
    have hfin : M * (m - 1) + M * m * (P * (1 + F.u) ^ 2 - 1) = M * (P * (1 + F.u) ^ 2 * m - 1) := by ring
    rw [hslack]
    constructor <;> linarith [k1.1, k2.2, hz'.1, hz'.2]

/-- **C103** Away from the training points the prediction from finite training data is NaN exactly if some weight overflows or all weights
underflow to zero. -/
theorem C103_nan_iff (pw : X K → X K) (xt : List (List K)) (yt x : List K) (hl : xt.length = yt.length) (hne : xt ≠ []) (hf : Far F xt x)
    (hy : ∀ y ∈ yt, F.Fin y) (hw : ∀ w ∈ weights F pw xt x, Nn F w) :
    predictFin F pw xt yt x = .nan ↔ X.inf false ∈ weights F pw xt x ∨ ∀ w ∈ weights F pw xt x, w = .fin 0 := by
  constructor
  · intro h
    by_contra hc
    push Not at hc
    obtain ⟨h1, h2⟩ := hc
    have hfin : ∀ w ∈ weights F pw xt x, ∃ v, w = .fin v := by
      intro w hm
      have := hw w hm
      cases w with
      | fin v => exact ⟨v, rfl⟩
      | inf s =>
        have e : s = false := this
        subst e
        exact absurd hm h1
      | nan => exact this.elim
    obtain ⟨vs, hvs⟩ : ∃ vs : List K, weights F pw xt x = vs.map .fin := by
      generalize weights F pw xt x = l at hfin
      clear h1 h2 hw
      induction l with
      | nil => exact ⟨[], rfl⟩
      | cons a l ih =>
        obtain ⟨v, rfl⟩ := hfin a (by simp)
        obtain ⟨vs, rfl⟩ := ih fun w hw => hfin w (by simp [hw])
        exact ⟨v :: vs, rfl⟩
    have hv : ∀ v ∈ vs, F.Fin v ∧ 0 ≤ v := fun v hm => hw (.fin v) (by rw [hvs]; exact List.mem_map.2 ⟨v, hm, rfl⟩)
    have hsum := fold_nn F id (weights F pw xt x) hw (.fin 0) (nn_zero F)
    simp only [id] at hsum
    cases hS : (weights F pw xt x).foldl F.addX (.fin 0) with
    | fin S =>
      refine (C103_prediction F hf hvs hv hS ?_ yt hl hy).1 h
      intro h0
      have := hsum.2.1 (by rw [show (weights F pw xt x).foldl (fun r a => F.addX r a) (.fin 0) = (weights F pw xt x).foldl F.addX (.fin 0) from rfl, hS, h0])
      obtain ⟨w, hm, hne⟩ := h2
      exact hne (this.2 w hm)
    | inf s =>
      have : Nn F ((weights F pw xt x).foldl F.addX (.fin 0)) := hsum.1
      rw [hS] at this
      have e : s = false := this
      rw [e] at hS
      rw [C103_sum_overflow F pw xt yt x hl hf hfin hS] at h
      cases h
    | nan =>
      have : Nn F ((weights F pw xt x).foldl F.addX (.fin 0)) := hsum.1
      rw [hS] at this
      exact this
  · rintro (h | h)
    · exact C103_overflow F pw xt yt x hl hf hw h
    · exact C103_underflow F pw xt yt x hl hne hf h

/-! ## Double precision -/

/-- `pow(r2, -p / 2.)` for `p = 2 k`, correctly rounded. -/
def powEven (F : Format K) (k : ℕ) : X K → X K
  | .fin r => if r = 0 then .inf false else F.of (1 / r ^ k)
  | .inf _ => .fin 0
  | .nan => .nan

theorem powEven_nn (k : ℕ) {r : X K} (h : Nn F r) : Nn F (powEven F k r) := by
  cases r with
  | fin r =>
    unfold powEven
    dsimp only
    split
    · rfl
    · have hp : 0 ≤ 1 / r ^ k := by
        have := h.2
        positivity
      unfold Format.of
      split
      · exact ⟨⟨F.idem _, by assumption⟩, F.nonneg hp⟩
      · exact decide_eq_false (not_lt.2 hp)
  | inf s => exact nn_zero F
  | nan => exact h.elim

/-- Finite data, even exponents: the hypothesis on the weights is met. -/
theorem C103_weights (k : ℕ) (xt : List (List K)) (x : List K) : ∀ w ∈ weights F (powEven F k) xt x, Nn F w := by
  intro w hw
  obtain ⟨t, -, rfl⟩ := List.mem_map.1 hw
  exact powEven_nn F k (C103_distance F x t).1

/-- **C103** In double precision with `p = 100` and training points `0` and `1`: the prediction at `2⁻¹¹` (about `5e-4`) is NaN, and so is the one
at `2048`, whatever the outputs. -/
theorem C103_double_nan (y0 y1 : ℚ) : predictFin binary64 (powEven binary64 50) [[0], [1]] [y0, y1] [1 / 2 ^ 11] = .nan ∧
    predictFin binary64 (powEven binary64 50) [[0], [1]] [y0, y1] [2048] = .nan := by
  constructor
  · refine C103_overflow binary64 _ [[0], [1]] [y0, y1] [1 / 2 ^ 11] rfl ?_ (C103_weights binary64 50 _ _) (by decide +kernel)
    unfold Far
    decide +kernel
  · refine C103_underflow binary64 _ [[0], [1]] [y0, y1] [2048] rfl (by simp) ?_ (by decide +kernel)
    unfold Far
    decide +kernel

/-- **C103** In double precision with `p = 100`: at any point whose computed squared distance from some training point is at most `2⁻²¹`
(a distance of about `7e-4`) and from none is `0`, the prediction is NaN, whatever the data. -/
theorem C103_double_near_nan (xt : List (List ℚ)) (yt x : List ℚ) (hl : xt.length = yt.length) (hf : Far binary64 xt x)
    (h : ∃ t ∈ xt, ∃ r, sqDist binary64 (x.map .fin) (t.map .fin) = .fin r ∧ r ≤ 1 / 2 ^ 21) : predictFin binary64 (powEven binary64 50) xt yt x = .nan := by
  refine C103_overflow binary64 _ xt yt x hl hf (C103_weights binary64 50 _ _) ?_
  obtain ⟨t, ht, r, e, hr⟩ := h
  refine List.mem_map.2 ⟨t, ht, ?_⟩
  have hn := (C103_distance binary64 x t).1
  rw [e] at hn
  have h0 : 0 ≤ r := hn.2
  have hne : r ≠ 0 := by
    rintro rfl
    exact hf t ht e
  have hpos : 0 < r := lt_of_le_of_ne h0 (Ne.symm hne)
  have hb : (2 : ℚ) ^ 1050 ≤ 1 / r ^ 50 := by
    rw [le_div_iff₀ (pow_pos hpos 50)]
    have : r ^ 50 ≤ (1 / 2 ^ 21) ^ 50 := pow_le_pow_left₀ h0 hr 50
    calc (2 : ℚ) ^ 1050 * r ^ 50 ≤ 2 ^ 1050 * (1 / 2 ^ 21) ^ 50 := mul_le_mul_of_nonneg_left this (by positivity)
      _ = 1 := by decide +kernel
  have hlt : binary64.big < binary64.rnd (1 / r ^ 50) :=
    lt_of_lt_of_le (show binary64.big < binary64.rnd (2 ^ 1050) by decide +kernel) (binary64.mono _ _ hb)
  rw [e, powEven, if_neg hne, Format.of, if_neg]
  · rw [decide_eq_false]
    exact not_lt.2 (le_trans (by positivity) hb)
  · exact not_le.2 (lt_of_lt_of_le hlt (le_abs_self _))

/-- **C103** In double precision with `p = 146` and four training points at distance `1/128`: the prediction in their middle is `0`, whatever the
outputs (all of them may be `5`). -/
theorem C103_double_zero (y0 y1 y2 y3 : ℚ) :
    predictFin binary64 (powEven binary64 73) [[1 / 128, 0], [-1 / 128, 0], [0, 1 / 128], [0, -1 / 128]] [y0, y1, y2, y3] [0, 0] = .fin 0 := by
  refine C103_sum_overflow binary64 _ _ [y0, y1, y2, y3] _ rfl ?_ ?_ (by decide +kernel)
  · unfold Far
    decide +kernel
  · intro w hw
    have : w = .fin (2 ^ 1022) := by
      have h : weights binary64 (powEven binary64 73) [[1 / 128, 0], [-1 / 128, 0], [0, 1 / 128], [0, -1 / 128]] [0, 0] = List.replicate 4 (.fin (2 ^ 1022)) := by
        decide +kernel
      rw [h] at hw
      exact (List.mem_replicate.1 hw).2
    exact ⟨_, this⟩

/-- Points closer than about `1e-162` to a training point count as that point (their squared distance underflows). -/
theorem C103_double_near (y0 : ℚ) (h : binary64.Fin y0) (y1 : ℚ) (h1 : binary64.Fin y1) :
    predictFin binary64 (powEven binary64 1) [[0], [1]] [y0, y1] [1 / 2 ^ 540] = .fin y0 := by
  unfold predictFin idwPredict
  rw [C103_unit_row binary64 _ _ _ (finite_nn binary64 [[0], [1]] [1 / 2 ^ 540]) 0 (by decide +kernel) (by omega)]
  refine dot_unit binary64 [y0, y1] ?_ 0 y0 rfl
  intro y hy
  simp only [List.mem_cons, List.not_mem_nil, or_false] at hy
  rcases hy with rfl | rfl <;> assumption

/-- A regular case: `p = 2`, training points `0`, `1`, evaluation at `1/4`; the result is the double before `0.1`; the allowance is below `1e-15`. -/
example : predictFin binary64 (powEven binary64 1) [[0], [1]] [0, 1] [1 / 4] = .fin (7205759403792793 / 2 ^ 56) := by decide +kernel
example : weights binary64 (powEven binary64 1) [[0], [1]] [1 / 4] = [16, binary64.rnd (16 / 9)].map .fin := by decide +kernel
example : slack binary64 2 1 < 1 / 10 ^ 15 := by decide +kernel

end SMT.Fp
