import Verif.Fp.Rbf
import Verif.Fp.CorrProps3

/-!
# C117: RBF in IEEE arithmetic
-/
set_option linter.unusedSectionVars false
set_option linter.unusedSimpArgs false
set_option linter.unusedVariables false

namespace SMT.Fp.Rbf
open SMT.Fp.Corr SMT.Fp.Moe

variable {K : Type} [Field K] [LinearOrder K] [IsStrictOrderedRing K] {nx nt : ℕ}
variable (F : Format K)

/-- The scalings are numbers of the format, not zero. -/
def ScalingOk (d0 : Fin nx → X K) : Prop := ∀ i, ∃ v, d0 i = .fin v ∧ F.Fin v ∧ v ≠ 0

/-! ## Values -/

theorem div_neg_left : ∀ a b : X K, F.divX a.neg b = (F.divX a b).neg
  | .nan, b => by rw [F.divX_nan_left]; exact F.divX_nan_left _
  | .fin a, .nan => rfl
  | .inf a, .nan => rfl
  | .fin a, .fin b => by
    show (if b = 0 then (if -a = 0 then X.nan else X.inf (decide (-a < 0))) else F.of (-a / b)) = (if b = 0 then (if a = 0 then X.nan else X.inf (decide (a < 0))) else F.of (a / b)).neg
    by_cases hb : b = 0
    · rw [if_pos hb, if_pos hb]
      by_cases ha : a = 0
      · rw [if_pos ha, if_pos (by rw [ha, neg_zero])]; rfl
      · rw [if_neg ha, if_neg (by simpa using ha)]
        show X.inf _ = X.inf _
        rcases lt_or_gt_of_ne ha with h' | h'
        · rw [decide_eq_false (by linarith), decide_eq_true h']; rfl
        · rw [decide_eq_true (by linarith), decide_eq_false (by linarith)]; rfl
    · rw [if_neg hb, if_neg hb, ← of_neg, neg_div]
  | .fin a, .inf s => by show X.fin 0 = X.fin (-0); rw [neg_zero]
  | .inf s, .fin b => by
    show X.inf (decide (b < 0) != !s) = X.inf (!(decide (b < 0) != s))
    cases s <;> cases decide (b < 0) <;> rfl
  | .inf s, .inf t => rfl

theorem term_symm (d0 x t : Fin nx → X K) (i : Fin nx) : F.mulX (ratio F d0 x t i) (ratio F d0 x t i) = F.mulX (ratio F d0 t x i) (ratio F d0 t x i) := by
  have : ratio F d0 x t i = (ratio F d0 t x i).neg := by
    unfold ratio
    rw [sub_swap, div_neg_left]
  rw [this, mul_neg_left, mul_neg_right, neg_neg']

theorem r2_symm (d0 x t : Fin nx → X K) : r2 F d0 x t = r2 F d0 t x := by
  unfold r2
  simp only [term_symm F d0 x t]

/-- **C117** The radial function of two points is the same, bit for bit, in either order, for all values and scalings. -/
theorem C117_symmetric (ex : X K → X K) (d0 x t : Fin nx → X K) : phi F ex d0 x t = phi F ex d0 t x := by
  unfold phi
  rw [r2_symm]

theorem div_zero_num {v : K} (hv : v ≠ 0) : F.divX (.fin 0) (.fin v) = .fin 0 := by
  show (if v = 0 then _ else F.of (0 / v)) = _
  rw [if_neg hv, zero_div, F.of_zero]

theorem self_sub {a : X K} (h : ∃ v, a = .fin v) : F.subX a a = .fin 0 := by
  obtain ⟨v, rfl⟩ := h
  show F.of (v + -v) = _
  rw [add_neg_cancel, F.of_zero]

theorem r2_self {d0 : Fin nx → X K} (hd : ScalingOk F d0) {x : Fin nx → X K} (hx : Finite x) : r2 F d0 x x = .fin 0 := by
  have ht : ∀ i, F.mulX (ratio F d0 x x i) (ratio F d0 x x i) = .fin 0 := by
    intro i
    obtain ⟨v, hv, _, h0⟩ := hd i
    unfold ratio
    rw [self_sub F (hx i), hv, div_zero_num F h0, mul_zero']
  exact ((fold_nn F (fun i => F.mulX (ratio F d0 x x i) (ratio F d0 x x i)) (List.finRange nx) (fun i _ => by rw [ht]; exact nn_zero F) (.fin 0) (nn_zero F)).2).2 ⟨rfl, fun i _ => ht i⟩

/-- **C117** With scalings that are not zero the radial function of a point with itself (or a duplicate) is exactly one. -/
theorem C117_self {ex : X K → X K} {cut : K} (hx : ExpOk F ex cut) {d0 : Fin nx → X K} (hd : ScalingOk F d0) {x : Fin nx → X K} (h : Finite x) : phi F ex d0 x x = .fin 1 := by
  unfold phi
  rw [r2_self F hd h, neg_zero', hx.zero]

theorem fold_nan' {α : Type} (f : α → X K) : ∀ (l : List α) (s : X K), (s = .nan ∨ ∃ a ∈ l, f a = .nan) → l.foldl (fun r a => F.addX r (f a)) s = .nan := by
  intro l
  induction l with
  | nil => rintro s (h | ⟨a, h, _⟩); exacts [h, absurd h (by simp)]
  | cons a l ih =>
    intro s h
    rw [List.foldl_cons]
    refine ih _ ?_
    rcases h with rfl | ⟨b, hb, e⟩
    · exact Or.inl (F.addX_nan_left _)
    · rcases List.mem_cons.1 hb with rfl | hb
      · exact Or.inl (by rw [e, F.addX_nan_right])
      · exact Or.inr ⟨b, hb, e⟩

/-- **C117** (violation) A scaling of zero makes the radial function of a point with itself NaN, so the whole diagonal of the training matrix is; nothing is checked. -/
theorem C117_zero_scaling {ex : X K → X K} {cut : K} (hx : ExpOk F ex cut) {d0 : Fin nx → X K} {i : Fin nx} (hi : d0 i = .fin 0) {x : Fin nx → X K} (h : Finite x) : phi F ex d0 x x = .nan := by
  have : r2 F d0 x x = .nan := by
    refine fold_nan' F (fun i => F.mulX (ratio F d0 x x i) (ratio F d0 x x i)) _ _ (Or.inr ⟨i, List.mem_finRange i, ?_⟩)
    have : ratio F d0 x x i = .nan := by
      unfold ratio
      rw [self_sub F (h i), hi]
      show (if (0 : K) = 0 then (if (0 : K) = 0 then X.nan else _) else _) = X.nan
      rw [if_pos rfl, if_pos rfl]
    rw [this]
    rfl
  unfold phi
  rw [this]
  exact hx.nan

theorem ratio_ne_nan {d0 : Fin nx → X K} (hd : ScalingOk F d0) {x t : Fin nx → X K} (hx : Finite x) (ht : Finite t) (i : Fin nx) : ratio F d0 x t i ≠ .nan := by
  obtain ⟨v, hv, _, h0⟩ := hd i
  obtain ⟨a, ha⟩ := hx i
  obtain ⟨b, hb⟩ := ht i
  unfold ratio
  rw [hv, ha, hb]
  have := sub_fin_ne_nan F a b
  cases h : F.subX (.fin a) (.fin b) with
  | nan => exact absurd h this
  | inf s => show X.inf _ ≠ X.nan; simp
  | fin d =>
    show (if v = 0 then _ else F.of (d / v)) ≠ X.nan
    rw [if_neg h0]
    unfold Format.of
    split <;> simp

theorem r2_nn {d0 : Fin nx → X K} (hd : ScalingOk F d0) {x t : Fin nx → X K} (hx : Finite x) (ht : Finite t) : Nn F (r2 F d0 x t) :=
  (fold_nn F (fun i => F.mulX (ratio F d0 x t i) (ratio F d0 x t i)) (List.finRange nx) (fun i _ => mul_self_nn F (ratio_ne_nan F hd hx ht i)) (.fin 0) (nn_zero F)).1

/-- **C117** With scalings that are not zero the radial function of two finite points is always a number in `[0, 1]`, however far apart they are: overflow of the distance gives `0`. -/
theorem C117_range {ex : X K → X K} {cut : K} (hx : ExpOk F ex cut) {d0 : Fin nx → X K} (hd : ScalingOk F d0) {x t : Fin nx → X K} (h : Finite x) (h' : Finite t) :
    Unit01 F (phi F ex d0 x t) := ex_neg_range F hx (r2_nn F hd h h')

theorem fold_ge {α : Type} (f : α → X K) : ∀ (l : List α), (∀ a ∈ l, Nn F (f a)) → ∀ (s : X K), Nn F s →
    s.le (l.foldl (fun r a => F.addX r (f a)) s) = true ∧ ∀ a ∈ l, (f a).le (l.foldl (fun r a => F.addX r (f a)) s) = true := by
  intro l
  induction l with
  | nil => intro _ s hs; exact ⟨le_refl' F hs, by simp⟩
  | cons a l ih =>
    intro h s hs
    have ha := h a (by simp)
    obtain ⟨h1, h2⟩ := ih (fun b hb => h b (by simp [hb])) (F.addX s (f a)) (add_nn F hs ha)
    rw [List.foldl_cons]
    refine ⟨le_trans' (add_ge_left F hs ha) h1, fun b hb => ?_⟩
    rcases List.mem_cons.1 hb with rfl | hb
    · refine le_trans' ?_ h1
      rw [(C103_comm F _ _).1]
      exact add_ge_left F ha hs
    · exact h2 b hb

/-- A point is far from another one: in some coordinate the square of the scaled difference reaches `-cut` (746 for doubles). -/
def Far (cut : K) (d0 x t : Fin nx → X K) : Prop := ∃ i, (X.fin (-cut)).le (F.mulX (ratio F d0 x t i) (ratio F d0 x t i)) = true

/-- **C117** The radial function of points far from each other is exactly zero. -/
theorem C117_far {ex : X K → X K} {cut : K} (hx : ExpOk F ex cut) {d0 : Fin nx → X K} (hd : ScalingOk F d0) {x t : Fin nx → X K} (h : Finite x) (h' : Finite t) (hf : Far F cut d0 x t) :
    phi F ex d0 x t = .fin 0 := by
  obtain ⟨i, hi⟩ := hf
  have := (fold_ge F (fun i => F.mulX (ratio F d0 x t i) (ratio F d0 x t i)) (List.finRange nx) (fun i _ => mul_self_nn F (ratio_ne_nan F hd h h' i)) (.fin 0) (nn_zero F)).2 i (List.mem_finRange i)
  exact ex_far F hx (le_trans' hi this)

/-! ## The matrix and prediction at a training point -/

/-- The number of degrees of freedom, `rbf.py` 77-84. -/
def dof (deg : ℤ) (nt nx : ℕ) : ℕ := nt + if deg = -1 then 0 else if deg = 0 then 1 else 1 + nx

theorem row_length (ex : X K → X K) {deg : ℤ} (hdeg : deg = -1 ∨ deg = 0 ∨ deg = 1) (d0 : Fin nx → X K) (xt : Fin nt → Fin nx → X K) (x : Fin nx → X K) :
    (jacRow F ex deg d0 xt x).length = dof deg nt nx := by
  unfold jacRow dof
  rcases hdeg with rfl | rfl | rfl
  · simp
  · simp
  · simp [Nat.add_comm]

theorem row_radial (ex : X K → X K) (deg : ℤ) (d0 : Fin nx → X K) (xt : Fin nt → Fin nx → X K) (x : Fin nx → X K) (j : Fin nt) (b : X K) :
    (jacRow F ex deg d0 xt x).getD j b = phi F ex d0 x (xt j) := by
  unfold jacRow
  rw [List.getD_eq_getElem?_getD, List.getElem?_append_left (by simp)]
  simp

/-- **C117** The training matrix is symmetric bit for bit; on the diagonal of the radial part it has the rounded `1 + reg`; and the row `predict_values` evaluates at a training point is that point's row of the matrix, but for `reg` on the diagonal, so
without regularisation prediction repeats the equations that were solved, bit for bit. -/
theorem C117_matrix {ex : X K → X K} {cut : K} (hx : ExpOk F ex cut) {deg : ℤ} (hdeg : deg = -1 ∨ deg = 0 ∨ deg = 1) (reg : X K) {d0 : Fin nx → X K} (hd : ScalingOk F d0) (xt : Fin nt → Fin nx → X K) (hf : ∀ i, Finite (xt i)) :
    (∀ i j, i < dof deg nt nx → j < dof deg nt nx → matrix F ex deg reg d0 xt i j = matrix F ex deg reg d0 xt j i) ∧
    (∀ i : Fin nt, matrix F ex deg reg d0 xt i i = F.addX (.fin 1) reg) ∧
    (∀ (i : Fin nt) (j : ℕ), j < dof deg nt nx → (j : ℕ) ≠ i → (jacRow F ex deg d0 xt (xt i)).getD j .nan = matrix F ex deg reg d0 xt i j) ∧
    (∀ i : Fin nt, (jacRow F ex deg d0 xt (xt i)).getD i .nan = .fin 1) := by
  have rad : ∀ (i j : Fin nt) (b : X K), (jacRow F ex deg d0 xt (xt i)).getD j b = phi F ex d0 (xt i) (xt j) := fun i j b => row_radial F ex deg d0 xt (xt i) j b
  have swap : ∀ i j : Fin nt, (jacRow F ex deg d0 xt (xt i)).getD j (.fin 0) = (jacRow F ex deg d0 xt (xt j)).getD i (.fin 0) := fun i j => by rw [rad, rad, C117_symmetric]
  refine ⟨fun i j hi hj => ?_, fun i => ?_, fun i j hj hne => ?_, fun i => ?_⟩
  · unfold matrix
    by_cases e : i = j
    · rw [e]
    · simp only [e, Ne.symm e, false_and, if_false]
      by_cases h1 : i < nt <;> by_cases h2 : j < nt
      · simp only [h1, h2, if_true, dif_pos]
        exact swap ⟨j, h2⟩ ⟨i, h1⟩
      · simp only [h1, h2, if_true, if_false, dif_pos]
      · simp only [h1, h2, if_true, if_false, dif_pos]
      · simp only [h1, h2, if_false]
  · unfold matrix
    simp only [i.2, if_true, dif_pos, and_self]
    rw [rad i i, C117_self F hx hd (hf i)]
  · unfold matrix
    have e : ¬((i : ℕ) = j ∧ (i : ℕ) < nt) := fun h => hne h.1.symm
    rw [if_neg e]
    by_cases h2 : j < nt
    · simp only [h2, if_true, dif_pos]
      rw [← swap i ⟨j, h2⟩]
      rw [rad i ⟨j, h2⟩, rad i ⟨j, h2⟩]
    · simp only [h2, if_false, i.2, if_true, dif_pos]
      have hl : j < (jacRow F ex deg d0 xt (xt i)).length := by rw [row_length F ex hdeg]; exact hj
      rw [List.getD_eq_getElem?_getD, List.getD_eq_getElem?_getD, List.getElem?_eq_getElem hl, Option.getD_some, Option.getD_some]
  · rw [rad, C117_self F hx hd (hf i)]

/-! ## Far from the data -/

theorem zero_add' : ∀ {a : X K}, F.Val a → F.addX (.fin 0) a = a := fun {a} h => by rw [(C103_comm F _ _).1, add_zero' F h]

/-- A sum of zeros and one value is that value, in any order. -/
theorem tree_one (f : ℕ → X K) (t : Tree) (hnd : t.leaves.Nodup) (k : ℕ) (hk : k ∈ t.leaves) (hv : F.Val (f k)) (h : ∀ i ∈ t.leaves, i ≠ k → f i = .fin 0) : t.evalX F f = f k := by
  have hz : ∀ s : Tree, (∀ i ∈ s.leaves, f i = .fin 0) → s.evalX F f = .fin 0 := fun s hs => ((tree_nn f s fun i hi => by rw [hs i hi]; exact nn_zero F).2).2 hs
  induction t with
  | leaf i => simp [Tree.leaves] at hk; subst hk; rfl
  | node a b ha hb =>
    rw [Tree.leaves, List.nodup_append'] at hnd
    obtain ⟨na, nb, hdis⟩ := hnd
    have la : ∀ i ∈ a.leaves, i ∈ (Tree.node a b).leaves := fun i hi => by simp [Tree.leaves, hi]
    have lb : ∀ i ∈ b.leaves, i ∈ (Tree.node a b).leaves := fun i hi => by simp [Tree.leaves, hi]
    rw [Tree.leaves, List.mem_append] at hk
    rw [Tree.evalX]
    rcases hk with hk | hk
    · rw [ha na hk fun i hi => h i (la i hi), hz b fun i hi => h i (lb i hi) fun e => hdis (e ▸ hk) hi, add_zero' F hv]
    · rw [hb nb hk fun i hi => h i (lb i hi), hz a fun i hi => h i (la i hi) fun e => hdis hi (e ▸ hk), zero_add' F hv]

/-- The coefficients: one for each degree of freedom, numbers of the format. -/
def SolOk (deg : ℤ) (nt nx : ℕ) (sol : List (X K)) : Prop := sol.length = dof deg nt nx ∧ ∀ s ∈ sol, ∃ v, s = .fin v ∧ F.Fin v

theorem sol_at {deg : ℤ} {sol : List (X K)} (hs : SolOk F deg nt nx sol) {j : ℕ} (hj : j < dof deg nt nx) : ∃ v, sol.getD j .nan = .fin v ∧ F.Fin v := by
  have hl : j < sol.length := by rw [hs.1]; exact hj
  rw [List.getD_eq_getElem?_getD, List.getElem?_eq_getElem hl, Option.getD_some]
  exact hs.2 _ (List.getElem_mem hl)

theorem one_mul' : ∀ {a : X K}, F.Val a → F.mulX (.fin 1) a = a
  | .fin a, h => by show F.of (1 * a) = _; rw [one_mul, F.of_fin h]
  | .inf s, _ => by
    show (if (1 : K) = 0 then X.nan else X.inf (decide ((1 : K) < 0) != s)) = _
    rw [if_neg one_ne_zero, decide_eq_false (not_lt.2 zero_le_one)]
    cases s <;> rfl
  | .nan, _ => rfl

/-- **C117** Far from all training points RBF predicts exactly `0` without a polynomial, and exactly the constant coefficient with a constant one, whatever the other (finite) coefficients and the order of summation. -/
theorem C117_far_prediction {ex : X K → X K} {cut : K} (hx : ExpOk F ex cut) {d0 : Fin nx → X K} (hd : ScalingOk F d0) (xt : Fin nt → Fin nx → X K) (hf : ∀ i, Finite (xt i)) {x : Fin nx → X K} (h : Finite x)
    (hfar : ∀ i, Far F cut d0 x (xt i)) {t : Tree} {sol : List (X K)} :
    (t.Adds (dof (-1) nt nx) → SolOk F (-1) nt nx sol → predict F ex t (-1) d0 xt sol x = .fin 0) ∧
    (t.Adds (dof 0 nt nx) → SolOk F 0 nt nx sol → predict F ex t 0 d0 xt sol x = sol.getD nt .nan) := by
  have hz : ∀ (deg : ℤ) (j : Fin nt), (jacRow F ex deg d0 xt x).getD j .nan = .fin 0 := fun deg j => by rw [row_radial, C117_far F hx hd h (hf j) (hfar j)]
  constructor
  · intro ht hs
    unfold predict dot
    have hall : ∀ i ∈ t.leaves, F.mulX ((jacRow F ex (-1) d0 xt x).getD i .nan) (sol.getD i .nan) = .fin 0 := by
      intro i hi
      have hi' := (mem_leaves ht).1 hi
      obtain ⟨v, hv, _⟩ := sol_at F hs hi'
      have : i < nt := by simpa [dof] using hi'
      rw [hv, hz (-1) ⟨i, this⟩, zero_mul']
    exact ((tree_nn _ t fun i hi => by rw [hall i hi]; exact nn_zero F).2).2 hall
  · intro ht hs
    have hd1 : dof 0 nt nx = nt + 1 := by simp [dof]
    obtain ⟨c, hc, hcf⟩ := sol_at F hs (j := nt) (by rw [hd1]; omega)
    have hone : (jacRow F ex 0 d0 xt x).getD nt .nan = .fin 1 := by
      unfold jacRow
      rw [List.getD_eq_getElem?_getD, List.getElem?_append_right (by simp)]
      simp
    have hk : F.mulX ((jacRow F ex 0 d0 xt x).getD nt .nan) (sol.getD nt .nan) = .fin c := by rw [hone, hc, one_mul' F (a := .fin c) hcf]
    unfold predict dot
    rw [tree_one F _ t (ht.nodup_iff.2 List.nodup_range) nt ((mem_leaves ht).2 (by rw [hd1]; omega)) (by rw [hk]; exact hcf), hk, hc]
    intro i hi hne
    have hi' := (mem_leaves ht).1 hi
    obtain ⟨v, hv, _⟩ := sol_at F hs hi'
    have : i < nt := by rw [hd1] at hi'; omega
    rw [hv, hz 0 ⟨i, this⟩, zero_mul']

/-- The columns after the radial ones: `1`, then the coordinates. -/
theorem row_poly (ex : X K → X K) {deg : ℤ} (d0 : Fin nx → X K) (xt : Fin nt → Fin nx → X K) (x : Fin nx → X K) (b : X K) :
    (0 ≤ deg → (jacRow F ex deg d0 xt x).getD nt b = .fin 1) ∧ (deg = 1 → ∀ k : Fin nx, (jacRow F ex deg d0 xt x).getD (nt + 1 + k) b = x k) := by
  constructor
  · intro h
    unfold jacRow
    rw [List.getD_eq_getElem?_getD, List.getElem?_append_right (by simp), if_pos h]
    simp
  · rintro rfl k
    unfold jacRow
    rw [List.getD_eq_getElem?_getD, List.getElem?_append_right (by simp; omega), List.getElem?_append_right (by simp; omega)]
    simp only [List.length_ofFn, zero_le_one, if_true, List.length_singleton]
    rw [show nt + 1 + (k : ℕ) - nt - 1 = k by omega]
    simp

/-- **C117** The polynomial part of the training matrix, bit for bit: the column of ones, the columns of coordinates, and zeros where polynomials meet. -/
theorem C117_polynomial_block (ex : X K → X K) {deg : ℤ} (reg : X K) (d0 : Fin nx → X K) (xt : Fin nt → Fin nx → X K) :
    (0 ≤ deg → ∀ i : Fin nt, matrix F ex deg reg d0 xt i nt = .fin 1) ∧
    (deg = 1 → ∀ (i : Fin nt) (k : Fin nx), matrix F ex deg reg d0 xt i (nt + 1 + k) = xt i k) ∧
    (∀ i j, nt ≤ i → nt ≤ j → matrix F ex deg reg d0 xt i j = .fin 0) := by
  refine ⟨fun h i => ?_, fun h i k => ?_, fun i j hi hj => ?_⟩
  · unfold matrix
    have hi := i.2
    have e : ¬((i : ℕ) = nt ∧ (i : ℕ) < nt) := fun h => by omega
    rw [if_neg e]
    simp only [hi, lt_irrefl, if_true, if_false, dif_pos]
    exact (row_poly F ex d0 xt _ _).1 h
  · unfold matrix
    have hi := i.2
    have e : ¬((i : ℕ) = nt + 1 + k ∧ (i : ℕ) < nt) := fun h => by omega
    have e2 : ¬nt + 1 + (k : ℕ) < nt := by omega
    rw [if_neg e]
    simp only [hi, e2, if_true, if_false, dif_pos]
    exact (row_poly F ex d0 xt _ _).2 h k
  · unfold matrix
    have hi' : ¬i < nt := by omega
    have hj' : ¬j < nt := by omega
    have e : ¬(i = j ∧ i < nt) := fun h => hi' h.2
    rw [if_neg e]
    simp only [hi', hj', if_false]

/-- **C117** For every degree: far from all training points the prediction is determined by the polynomial coefficients alone, bit for bit: whatever finite coefficients the radial functions have, the prediction is the same. -/
theorem C117_far_polynomial {ex : X K → X K} {cut : K} (hx : ExpOk F ex cut) {d0 : Fin nx → X K} (hd : ScalingOk F d0) (xt : Fin nt → Fin nx → X K) (hf : ∀ i, Finite (xt i)) {x : Fin nx → X K} (h : Finite x)
    (hfar : ∀ i, Far F cut d0 x (xt i)) {t : Tree} {deg : ℤ} {sol sol' : List (X K)} (ht : t.Adds (dof deg nt nx)) (hs : SolOk F deg nt nx sol) (hs' : SolOk F deg nt nx sol')
    (he : ∀ j, nt ≤ j → sol.getD j .nan = sol'.getD j .nan) : predict F ex t deg d0 xt sol x = predict F ex t deg d0 xt sol' x := by
  have congr : ∀ (f g : ℕ → X K) (s : Tree), (∀ i ∈ s.leaves, f i = g i) → s.evalX F f = s.evalX F g := by
    intro f g s
    induction s with
    | leaf i => intro h; exact h i (by simp [Tree.leaves])
    | node a b ha hb => intro h; rw [Tree.evalX, Tree.evalX, ha fun i hi => h i (by simp [Tree.leaves, hi]), hb fun i hi => h i (by simp [Tree.leaves, hi])]
  unfold predict dot
  refine congr _ _ t fun i hi => ?_
  have hi' := (mem_leaves ht).1 hi
  by_cases hlt : i < nt
  · obtain ⟨v, hv, _⟩ := sol_at F hs hi'
    obtain ⟨v', hv', _⟩ := sol_at F hs' hi'
    have hz : (jacRow F ex deg d0 xt x).getD i .nan = .fin 0 := by
      have := row_radial F ex deg d0 xt x ⟨i, hlt⟩ .nan
      rw [this, C117_far F hx hd h (hf _) (hfar _)]
    rw [hv, hv', hz, zero_mul', zero_mul']
  · rw [he i (by omega)]

/-! ## Derivatives -/

/-- The factor `2 d / d0²` of the derivative. -/
def slope (d0 : Fin nx → X K) (kx : Fin nx) (x t : Fin nx → X K) : X K := F.divX (F.mulX (.fin 2) (F.subX (x kx) (t kx))) (F.mulX (d0 kx) (d0 kx))

/-- **C117** The derivative of a radial function: while `2 d / d0²` is a number, it is a number of at most that size; when that factor is infinite, the derivative is NaN if the exponential is zero and infinite otherwise; when it is NaN, so is the derivative. -/
theorem C117_derivative {ex : X K → X K} {cut : K} (hx : ExpOk F ex cut) {d0 : Fin nx → X K} (hd : ScalingOk F d0) {x t : Fin nx → X K} (h : Finite x) (h' : Finite t) (kx : Fin nx) :
    (∀ s, slope F d0 kx x t = .fin s → F.Fin s → ∃ v, dphi F ex d0 kx x t = .fin v ∧ F.Fin v ∧ |v| ≤ |s|) ∧
    (∀ b, slope F d0 kx x t = .inf b → dphi F ex d0 kx x t = if phi F ex d0 x t = .fin 0 then .nan else .inf (!b)) ∧
    (slope F d0 kx x t = .nan → dphi F ex d0 kx x t = .nan) := by
  obtain ⟨e, he, hef, he0, he1⟩ := C117_range F hx hd h h'
  have hdphi : dphi F ex d0 kx x t = F.mulX (phi F ex d0 x t).neg (slope F d0 kx x t) := rfl
  rw [hdphi, he]
  refine ⟨fun s hs hsf => ?_, fun b hb => ?_, fun hn => ?_⟩
  · rw [hs]
    have h1 : |-e * s| ≤ |s| := by
      rw [abs_mul, abs_neg, abs_of_nonneg he0]
      exact mul_le_of_le_one_left (abs_nonneg s) he1
    have h2 : |F.rnd (-e * s)| ≤ |s| := by
      have r1 : F.rnd |s| = |s| := by
        rcases le_total 0 s with q | q
        · rw [abs_of_nonneg q]; exact hsf.1
        · rw [abs_of_nonpos q, F.odd, hsf.1]
      rw [abs_le] at h1 ⊢
      refine ⟨F.rep_le (by rw [F.odd, r1]) h1.1, F.le_rep r1 h1.2⟩
    exact ⟨F.rnd (-e * s), F.of_small (h1.trans hsf.2), ⟨F.idem _, h2.trans hsf.2⟩, h2⟩
  · rw [hb]
    show (if -e = 0 then X.nan else X.inf (decide (-e < 0) != b)) = _
    by_cases h0 : e = 0
    · rw [if_pos (by rw [h0, neg_zero]), if_pos (by rw [h0])]
    · rw [if_neg (by simpa using h0), if_neg (fun q => h0 (X.fin.inj q))]
      have : -e < 0 := by
        have := lt_of_le_of_ne he0 (Ne.symm h0)
        linarith
      rw [decide_eq_true this]
      cases b <;> rfl
  · rw [hn, F.mulX_nan_right]

/-- **C117** At a training point the derivative of its own radial function is exactly zero if `d0²` does not underflow; (violation) if it does, it is NaN, though the value there is `1`. -/
theorem C117_derivative_self {ex : X K → X K} {cut : K} (hx : ExpOk F ex cut) {d0 : Fin nx → X K} (hd : ScalingOk F d0) {x : Fin nx → X K} (h : Finite x) (kx : Fin nx) :
    dphi F ex d0 kx x x = if F.mulX (d0 kx) (d0 kx) = .fin 0 then .nan else .fin 0 := by
  have hphi : phi F ex d0 x x = .fin 1 := C117_self F hx hd h
  have hdphi : dphi F ex d0 kx x x = F.mulX (phi F ex d0 x x).neg (slope F d0 kx x x) := rfl
  have hsl : slope F d0 kx x x = if F.mulX (d0 kx) (d0 kx) = .fin 0 then .nan else .fin 0 := by
    unfold slope
    rw [self_sub F (h kx), mul_zero']
    obtain ⟨v, hv, hvf, h0⟩ := hd kx
    have hn := mul_self_nn F (d := d0 kx) (by rw [hv]; simp)
    cases hq : F.mulX (d0 kx) (d0 kx) with
    | nan => rw [hq] at hn; exact hn.elim
    | inf s => rw [if_neg (by simp)]; rfl
    | fin q =>
      by_cases hq0 : q = 0
      · rw [if_pos (by rw [hq0]), hq0]
        show (if (0 : K) = 0 then (if (0 : K) = 0 then X.nan else _) else _) = X.nan
        rw [if_pos rfl, if_pos rfl]
      · rw [if_neg (fun e => hq0 (X.fin.inj e)), div_zero_num F hq0]
  rw [hdphi, hphi, hsl]
  split
  · exact F.mulX_nan_right _
  · exact mul_zero' F (-1)

/-- **C117** Far from all training points the derivative of the radial part is exactly zero as long as the factors `2 d / d0²` are numbers; so `predict_derivatives` is exactly `0` without a polynomial or with a constant one. -/
theorem C117_far_derivative {ex : X K → X K} {cut : K} (hx : ExpOk F ex cut) {d0 : Fin nx → X K} (hd : ScalingOk F d0) (xt : Fin nt → Fin nx → X K) (hf : ∀ i, Finite (xt i)) {x : Fin nx → X K} (h : Finite x)
    (hfar : ∀ i, Far F cut d0 x (xt i)) (kx : Fin nx) (hs : ∀ i, ∃ s, slope F d0 kx x (xt i) = .fin s) {t : Tree} {deg : ℤ} (hdeg : deg = -1 ∨ deg = 0) {sol : List (X K)} (ht : t.Adds (dof deg nt nx)) (hso : SolOk F deg nt nx sol) :
    predictDeriv F ex t deg d0 xt sol kx x = .fin 0 := by
  have hd1 : ∀ i : Fin nt, dphi F ex d0 kx x (xt i) = .fin 0 := by
    intro i
    have e : dphi F ex d0 kx x (xt i) = F.mulX (phi F ex d0 x (xt i)).neg (slope F d0 kx x (xt i)) := rfl
    obtain ⟨s, hs⟩ := hs i
    rw [e, C117_far F hx hd h (hf i) (hfar i), hs, neg_zero', zero_mul']
  unfold predictDeriv dot
  have hall : ∀ i ∈ t.leaves, F.mulX ((jacDerivRow F ex deg d0 xt kx x).getD i .nan) (sol.getD i .nan) = .fin 0 := by
    intro i hi
    have hi' := (mem_leaves ht).1 hi
    obtain ⟨v, hv, _⟩ := sol_at F hso hi'
    have hrow : (jacDerivRow F ex deg d0 xt kx x).getD i .nan = .fin 0 := by
      unfold jacDerivRow
      by_cases hit : i < nt
      · rw [List.getD_eq_getElem?_getD, List.getElem?_append_left (by simpa using hit)]
        simp [hit, hd1]
      · rw [List.getD_eq_getElem?_getD, List.getElem?_append_right (by simpa using hit)]
        rcases hdeg with rfl | rfl
        · simp [dof] at hi'; omega
        · have : i = nt := by simp [dof] at hi'; omega
          subst this
          simp
    rw [hv, hrow, zero_mul']
  exact ((tree_nn _ t fun i hi => by rw [hall i hi]; exact nn_zero F).2).2 hall

/-! ## Doubles -/

/-- Hypotheses met by two points and scalings `(1, 2)`; prediction far away with a constant trend. -/
theorem scaling64 : ScalingOk binary64 ![.fin 1, .fin (-2)] := fun i => ⟨![1, -2] i, by fin_cases i <;> rfl, by fin_cases i <;> exact ⟨by decide +kernel, by decide +kernel⟩, by fin_cases i <;> norm_num⟩
example : phi binary64 crude ![.fin 1, .fin (-2)] ![.fin 3, .fin 4] ![.fin 3, .fin 4] = .fin 1 := by decide +kernel
example : (X.fin (0 : ℚ)).lt (phi binary64 crude ![.fin 1, .fin (-2)] ![.fin 3, .fin 4] ![.fin 5, .fin 5]) = true := by decide +kernel
example : predict binary64 crude (Tree.left 2) 0 ![.fin 1] ![![.fin 3], ![.fin 4]] [.fin (10 ^ 300), .fin (-7), .fin 11] ![.fin 100] = .fin 11 := by decide +kernel
example : Far binary64 (-746) ![.fin 1] ![.fin 100] ![.fin 4] := ⟨0, by decide +kernel⟩
example : SolOk binary64 0 2 1 [.fin 1, .fin (-7), .fin 11] := ⟨rfl, by
  intro s hs
  simp only [List.mem_cons, List.not_mem_nil, or_false] at hs
  rcases hs with rfl | rfl | rfl
  · exact ⟨1, rfl, by decide +kernel, by decide +kernel⟩
  · exact ⟨-7, rfl, by decide +kernel, by decide +kernel⟩
  · exact ⟨11, rfl, by decide +kernel, by decide +kernel⟩⟩
/-- A scaling of `2 ^ -600` (about `2.4e-181`): the value at a training point is one, the derivative NaN. -/
example : phi binary64 crude ![.fin (2 ^ (-600 : ℤ))] ![.fin 3] ![.fin 3] = .fin 1 ∧ dphi binary64 crude ![.fin (2 ^ (-600 : ℤ))] 0 ![.fin 3] ![.fin 3] = .nan := by
  constructor <;> decide +kernel
/-- A distance of `2 ^ 1023`: the value is zero, the derivative NaN. -/
example : phi binary64 crude ![.fin 1] ![.fin (2 ^ 1023)] ![.fin 3] = .fin 0 ∧ dphi binary64 crude ![.fin 1] 0 ![.fin (2 ^ 1023)] ![.fin 3] = .nan := by
  constructor <;> decide +kernel

/-- **C117** The derivatives of the polynomial columns are exact: `0` for the constant, `1` or `0` for a coordinate. -/
theorem C117_derivative_polynomial (ex : X K → X K) {deg : ℤ} (d0 : Fin nx → X K) (xt : Fin nt → Fin nx → X K) (kx : Fin nx) (x : Fin nx → X K) (b : X K) :
    (0 ≤ deg → (jacDerivRow F ex deg d0 xt kx x).getD nt b = .fin 0) ∧ (deg = 1 → ∀ k : Fin nx, (jacDerivRow F ex deg d0 xt kx x).getD (nt + 1 + k) b = .fin (if k = kx then 1 else 0)) := by
  constructor
  · intro h
    unfold jacDerivRow
    rw [List.getD_eq_getElem?_getD, List.getElem?_append_right (by simp), if_pos h]
    simp
  · rintro rfl k
    unfold jacDerivRow
    rw [List.getD_eq_getElem?_getD, List.getElem?_append_right (by simp; omega), List.getElem?_append_right (by simp; omega)]
    simp only [List.length_ofFn, zero_le_one, if_true, List.length_singleton]
    rw [show nt + 1 + (k : ℕ) - nt - 1 = k by omega]
    simp

end SMT.Fp.Rbf
