import Verif.Fp.Corr
import Verif.Fp.MoeProps
import Verif.Kriging.PrepProps

/-!
# C116: Kriging correlations in IEEE arithmetic

Symmetry of the correlations, the training points as seen by training and by prediction, the range of the exponential kernels.
-/
set_option linter.unusedSectionVars false
set_option linter.unusedSimpArgs false
set_option linter.unusedVariables false

namespace SMT.Fp.Corr
open SMT.Fp.Moe

variable {K : Type} [Field K] [LinearOrder K] [IsStrictOrderedRing K] {n m c : ℕ}

/-- What is assumed of `np.exp`: exact at `0` and `-∞`, in `[0, 1]` for arguments that are not positive, and `0` below some `cut` (`-746` for doubles). -/
structure ExpOk (F : Format K) (ex : X K → X K) (cut : K) : Prop where
  nan : ex .nan = .nan
  ninf : ex (.inf true) = .fin 0
  zero : ex (.fin 0) = .fin 1
  range : ∀ x : K, x ≤ 0 → ∃ v, ex (.fin x) = .fin v ∧ F.Fin v ∧ 0 ≤ v ∧ v ≤ 1
  under : ∀ x ≤ cut, ex (.fin x) = .fin 0

/-- Rows of `m` entries are added and multiplied entry by entry, each entry once. -/
structure Rows (L : Lib K) (m : ℕ) : Prop where
  ts : L.ts.Adds m
  tp : L.tp.Adds m

/-- A number in `[0, 1]`. -/
def Unit01 (F : Format K) (r : X K) : Prop := ∃ v, r = .fin v ∧ F.Fin v ∧ 0 ≤ v ∧ v ≤ 1

variable (F : Format K)

/-! ## Signs -/

theorem of_neg (x : K) : F.of (-x) = (F.of x).neg := by
  unfold Format.of
  rw [F.odd, abs_neg]
  split
  · rfl
  · rename_i h
    have hx : x ≠ 0 := by
      rintro rfl
      rw [F.zero, abs_zero] at h
      exact h F.big_pos.le
    show X.inf _ = X.inf _
    rcases lt_or_gt_of_ne hx with h' | h'
    · rw [decide_eq_false (by linarith), decide_eq_true h']; rfl
    · rw [decide_eq_true (by linarith), decide_eq_false (by linarith)]; rfl

theorem neg_neg' : ∀ a : X K, a.neg.neg = a
  | .nan => rfl
  | .fin a => by show X.fin (- -a) = _; rw [neg_neg]
  | .inf s => by cases s <;> rfl

theorem add_neg : ∀ a b : X K, F.addX a.neg b.neg = (F.addX a b).neg
  | .nan, b => by rw [F.addX_nan_left]; exact F.addX_nan_left _
  | .fin a, .nan => rfl
  | .inf a, .nan => rfl
  | .fin a, .fin b => by show F.of (-a + -b) = (F.of (a + b)).neg; rw [← of_neg]; congr 1; ring
  | .fin a, .inf s => rfl
  | .inf s, .fin b => rfl
  | .inf s, .inf t => by cases s <;> cases t <;> rfl

theorem sub_swap (a b : X K) : F.subX a b = (F.subX b a).neg := by
  unfold Format.subX
  rw [← add_neg, neg_neg', (C103_comm F a b.neg).1]

theorem bne_not (a b : Bool) : ((!a) != b) = !(a != b) := by cases a <;> cases b <;> rfl

theorem mul_neg_left : ∀ a b : X K, F.mulX a.neg b = (F.mulX a b).neg
  | .nan, b => by rw [F.mulX_nan_left]; exact F.mulX_nan_left _
  | .fin a, .nan => rfl
  | .inf a, .nan => rfl
  | .fin a, .fin b => by show F.of (-a * b) = (F.of (a * b)).neg; rw [← of_neg]; congr 1; ring
  | .fin a, .inf s => by
    show (if -a = 0 then X.nan else X.inf (decide (-a < 0) != s)) = (if a = 0 then X.nan else X.inf (decide (a < 0) != s)).neg
    by_cases h : a = 0
    · rw [if_pos h, if_pos (by rw [h, neg_zero])]; rfl
    · rw [if_neg h, if_neg (by simpa using h)]
      show X.inf _ = X.inf _
      rcases lt_or_gt_of_ne h with h' | h'
      · rw [decide_eq_false (by linarith), decide_eq_true h']; cases s <;> rfl
      · rw [decide_eq_true (by linarith), decide_eq_false (by linarith)]; cases s <;> rfl
  | .inf s, .fin b => by
    show (if b = 0 then X.nan else X.inf (decide (b < 0) != !s)) = (if b = 0 then X.nan else X.inf (decide (b < 0) != s)).neg
    by_cases h : b = 0
    · rw [if_pos h, if_pos h]; rfl
    · rw [if_neg h, if_neg h]
      show X.inf _ = X.inf _
      cases s <;> cases decide (b < 0) <;> rfl
  | .inf s, .inf t => by cases s <;> cases t <;> rfl

theorem mul_neg_right (a b : X K) : F.mulX a b.neg = (F.mulX a b).neg := by
  rw [(C103_comm F a b.neg).2, mul_neg_left, (C103_comm F b a).2]

theorem tree_neg (f : ℕ → X K) (t : Tree) : t.evalX F (fun i => (f i).neg) = (t.evalX F f).neg := by
  induction t with
  | leaf i => rfl
  | node a b ha hb => rw [Tree.evalX, ha, hb, add_neg]; rfl

theorem rowSum_neg (t : Tree) (v : Fin m → X K) : rowSum F t (fun i => (v i).neg) = (rowSum F t v).neg := by
  unfold rowSum
  rw [← tree_neg]
  congr 1
  funext i
  split <;> rfl

theorem compDist_neg (k : Kind) (d : Fin m → X K) : compDist F k (fun i => (d i).neg) = compDist F k d := by
  have ab : ∀ a : X K, a.neg.abs = a.abs := by
    intro a
    cases a with
    | fin a => show X.fin |-a| = X.fin |a|; rw [abs_neg]
    | inf s => rfl
    | nan => rfl
  funext i
  cases k
  · exact ab _
  · show F.mulX (d i).neg (d i).neg = F.mulX (d i) (d i)
    rw [mul_neg_left, mul_neg_right, neg_neg']
  · exact ab _
  · exact ab _

/-- **C116** The correlation of two points does not depend, bit for bit, on which of them comes first. This is so for all kernels, all
hyperparameters and all values, infinities and NaN included. -/
theorem C116_symmetric (L : Lib K) (k : Kind) (theta : Fin m → K) (td : Tree) (A : Fin m → Fin c → K) (a b : Fin m → X K) :
    corr F L k theta (diff F a b) = corr F L k theta (diff F b a) ∧ actExp F L td A (diff F a b) = actExp F L td A (diff F b a) := by
  have hd : diff F a b = fun i => (diff F b a i).neg := funext fun i => sub_swap F (a i) (b i)
  constructor
  · rw [hd]
    unfold corr
    rw [compDist_neg]
  · unfold actExp
    dsimp only
    congr 2
    congr 1
    funext j
    have : (rowSum F td fun i => F.mulX (diff F a b i) (.fin (A i j))) = (rowSum F td fun i => F.mulX (diff F b a i) (.fin (A i j))).neg := by
      rw [← rowSum_neg]
      congr 1
      funext i
      rw [hd]
      exact mul_neg_left F _ _
    rw [this, mul_neg_left, mul_neg_right, neg_neg']

/-! ## A point with itself -/

theorem rowSum_const {t : Tree} (ht : t.Adds m) (v : Fin m → X K) (h : ∀ i, v i = .fin 0) : rowSum F t v = .fin 0 := by
  refine ((tree_nn _ t fun i hi => ?_).2).2 fun i hi => ?_
  · rw [dif_pos ((mem_leaves ht).1 hi), h]; exact nn_zero F
  · rw [dif_pos ((mem_leaves ht).1 hi), h]

theorem evalM_one (f : ℕ → X K) (t : Tree) (h : ∀ i ∈ t.leaves, f i = .fin 1) : evalM F f t = .fin 1 := by
  induction t with
  | leaf i => exact h i (by simp [Tree.leaves])
  | node a b ha hb =>
    rw [evalM, ha fun i hi => h i (by simp [Tree.leaves, hi]), hb fun i hi => h i (by simp [Tree.leaves, hi])]
    show F.of (1 * 1) = _
    rw [mul_one, F.of_one]

theorem rowProd_one {t : Tree} (ht : t.Adds m) (v : Fin m → X K) (h : ∀ i, v i = .fin 1) : rowProd F t v = .fin 1 :=
  evalM_one F _ t fun i hi => by rw [dif_pos ((mem_leaves ht).1 hi), h]

theorem mul_zero' (a : K) : F.mulX (.fin a) (.fin 0) = .fin 0 := by show F.of (a * 0) = _; rw [mul_zero, F.of_zero]
theorem zero_mul' (a : K) : F.mulX (.fin 0) (.fin a) = .fin 0 := by show F.of (0 * a) = _; rw [zero_mul, F.of_zero]
theorem neg_zero' : (X.fin (0 : K)).neg = .fin 0 := by show X.fin (-0) = _; rw [neg_zero]

theorem corr_zero {L : Lib K} {cut : K} (hx : ExpOk F L.ex cut) (hr : Rows L m) (k : Kind) (theta : Fin m → K) (d : Fin m → X K) (h : ∀ i, d i = .fin 0) :
    corr F L k theta d = .fin 1 := by
  have hc : ∀ i, compDist F k d i = .fin 0 := by
    intro i
    have ab : (X.fin (0 : K)).abs = .fin 0 := by show X.fin |0| = _; rw [abs_zero]
    cases k
    · show (d i).abs = _; rw [h, ab]
    · show F.mulX (d i) (d i) = _; rw [h, mul_zero']
    · show (d i).abs = _; rw [h, ab]
    · show (d i).abs = _; rw [h, ab]
  have hs : ∀ i, scaled F theta (compDist F k d) i = .fin 0 := fun i => by
    show F.mulX _ (compDist F k d i) = _
    rw [hc, mul_zero']
  have hsum : rowSum F L.ts (scaled F theta (compDist F k d)) = .fin 0 := rowSum_const F hr.ts _ hs
  have one_add : F.addX (.fin 1) (.fin 0) = .fin 1 := by show F.of (1 + 0) = _; rw [add_zero, F.of_one]
  have e : expKernel F L theta (compDist F k d) = .fin 1 := by
    unfold expKernel
    rw [hsum, neg_zero', hx.zero]
  have m1 : F.mulX (.fin 1) (.fin 1) = .fin 1 := by show F.of (1 * 1) = _; rw [mul_one, F.of_one]
  unfold corr
  cases k
  · exact e
  · exact e
  · show matern52X F L theta _ = _
    unfold matern52X
    rw [hsum, rowProd_one F hr.tp]
    · show F.mulX _ (L.ex (F.mulX (.fin (-L.s5)) (.fin 0))) = _
      rw [mul_zero', hx.zero, m1]
    · intro i
      show F.addX (F.addX (.fin 1) (F.mulX (.fin L.s5) _)) (F.mulX (.fin L.c53) (F.mulX _ _)) = _
      rw [hs, mul_zero', mul_zero', mul_zero', one_add, one_add]
  · show matern32X F L theta _ = _
    unfold matern32X
    rw [hsum, rowProd_one F hr.tp]
    · show F.mulX _ (L.ex (F.mulX (.fin (-L.s3)) (.fin 0))) = _
      rw [mul_zero', hx.zero, m1]
    · intro i
      show F.addX (.fin 1) (F.mulX (.fin L.s3) _) = _
      rw [hs, mul_zero', one_add]

/-- All coordinates are finite. -/
def Finite (a : Fin m → X K) : Prop := ∀ i, ∃ v, a i = .fin v

/-- **C116** The correlation of a point with itself, or with a duplicate, is exactly one. -/
theorem C116_self {L : Lib K} {cut : K} (hx : ExpOk F L.ex cut) (hr : Rows L m) (k : Kind) (theta : Fin m → K) (a : Fin m → X K) (ha : Finite a) :
    corr F L k theta (diff F a a) = .fin 1 := by
  refine corr_zero F hx hr k theta _ fun i => ?_
  obtain ⟨v, hv⟩ := ha i
  show F.subX (a i) (a i) = _
  rw [hv]
  show F.of (v + -v) = _
  rw [add_neg_cancel, F.of_zero]

/-! ## The matrix -/

/-- **C116** The correlation matrix is built without error, whatever the number of points; it is symmetric bit for bit, has the rounded `1 + nugget + noise` on
the diagonal, and off the diagonal the correlation of the two points, in either order. -/
theorem C116_matrix (L : Lib K) (k : Kind) (theta : Fin m → K) (nugget : K) (noise : ℕ → K) (n : ℕ) (x : ℕ → Fin m → X K) :
    ∃ R, trainMatrix F (corr F L k theta) nugget noise n x = some R ∧ ∀ i j, i < n → j < n →
      R i j = R j i ∧ (i ≠ j → R i j = corr F L k theta (diff F (x i) (x j))) ∧
      R i i = F.mulX (.fin 1) (F.addX (F.addX (.fin 1) (.fin nugget)) (.fin (noise i))) := by
  let _ : Sub (X K) := ⟨F.subX⟩
  let _ : Zero (X K) := ⟨.fin 0⟩
  have ht : crossX F n x = some ((SMT.Krg.pairs n).map (fun p => diff F (x p.1) (x p.2)), SMT.Krg.pairs n) := SMT.Krg.C37_table n x
  unfold trainMatrix
  rw [ht]
  refine ⟨_, rfl, ?_⟩
  have hmem := (SMT.Krg.C37_pairs n).2.1
  dsimp only
  rw [List.map_map]
  set f : ℕ × ℕ → X K := corr F L k theta ∘ fun p => diff F (x p.1) (x p.2) with hf
  have main : ∀ i j, i < n → j < n → (i ≠ j → matrixX F nugget noise (SMT.Krg.pairs n) ((SMT.Krg.pairs n).map f) i j = corr F L k theta (diff F (x i) (x j))) ∧
      (i = j → matrixX F nugget noise (SMT.Krg.pairs n) ((SMT.Krg.pairs n).map f) i j = F.mulX (.fin 1) (F.addX (F.addX (.fin 1) (.fin nugget)) (.fin (noise i)))) := by
    intro i j hi hj
    unfold matrixX
    have up := fun (R : ℕ → ℕ → X K) => SMT.Krg.fold_write_not_mem (K := X K) (fun p => p) i j ((SMT.Krg.pairs n).zip ((SMT.Krg.pairs n).map f)) R
    have lo := fun (R : ℕ → ℕ → X K) => SMT.Krg.fold_write_not_mem (K := X K) (fun p => (p.2, p.1)) i j ((SMT.Krg.pairs n).zip ((SMT.Krg.pairs n).map f)) R
    rcases lt_trichotomy i j with h | h | h
    · refine ⟨fun _ => ?_, fun e => absurd e (by omega)⟩
      rw [lo]
      · exact SMT.Krg.fold_write_mem (fun p => p) f i j (i, j) rfl (SMT.Krg.pairs n) _ (fun p _ e => e) ((hmem i j).2 ⟨h, hj⟩)
      · intro p hp e
        have := (hmem p.1.1 p.1.2).1 (List.of_mem_zip hp).1
        have e1 : p.1.2 = i := congrArg Prod.fst e
        have e2 : p.1.1 = j := congrArg Prod.snd e
        omega
    · subst h
      refine ⟨fun e => absurd rfl e, fun _ => ?_⟩
      rw [lo, up]
      · rw [if_pos rfl]
      · intro p hp e
        have := (hmem p.1.1 p.1.2).1 (List.of_mem_zip hp).1
        rw [e] at this
        have := this.1
        simp at this
      · intro p hp e
        have := (hmem p.1.1 p.1.2).1 (List.of_mem_zip hp).1
        have e1 : p.1.2 = i := congrArg Prod.fst e
        have e2 : p.1.1 = i := congrArg Prod.snd e
        omega
    · refine ⟨fun _ => ?_, fun e => absurd e (by omega)⟩
      rw [(C116_symmetric F L k theta (.leaf 0) (fun _ (_ : Fin 0) => 0) (x i) (x j)).1]
      exact SMT.Krg.fold_write_mem (fun p => (p.2, p.1)) f i j (j, i) rfl (SMT.Krg.pairs n) _ (fun p _ e => by
        have e1 : p.2 = i := congrArg Prod.fst e
        have e2 : p.1 = j := congrArg Prod.snd e
        exact Prod.ext e2 e1) ((hmem j i).2 ⟨h, hi⟩)
  intro i j hi hj
  refine ⟨?_, (main i j hi hj).1, (main i i hi hi).2 rfl⟩
  by_cases h : i = j
  · rw [h]
  · rw [(main i j hi hj).1 h, (main j i hj hi).1 (Ne.symm h), (C116_symmetric F L k theta (.leaf 0) (fun _ (_ : Fin 0) => 0) (x i) (x j)).1]

/-- **C116** At a training point, prediction computes, bit for bit, the column of the correlation matrix of that point, but for the diagonal entry, which is
exactly one (without nugget and noise); this needs that the normalised coordinates are finite. -/
theorem C116_training_point {L : Lib K} {cut : K} (hx : ExpOk F L.ex cut) (hr : Rows L m) (k : Kind) (theta : Fin m → K) (nugget : K) (noise : ℕ → K)
    (off scale : Fin m → X K) (raw : ℕ → Fin m → X K) (hf : ∀ j < n, Finite (normX F off scale (raw j))) :
    ∃ R, trainMatrix F (corr F L k theta) nugget noise n (fun i => normX F off scale (raw i)) = some R ∧
      ∀ i j : Fin n, predCorr F (corr F L k theta) off scale (fun i : Fin n => normX F off scale (raw i)) (raw j) i = if i = j then .fin 1 else R i j := by
  obtain ⟨R, h1, h2⟩ := C116_matrix F L k theta nugget noise n fun i => normX F off scale (raw i)
  refine ⟨R, h1, fun i j => ?_⟩
  by_cases h : i = j
  · rw [if_pos h, h]
    exact C116_self F hx hr k theta _ (hf j j.2)
  · rw [if_neg h, (h2 i j i.2 j.2).1, (h2 j i j.2 i.2).2.1 fun e => h (Fin.ext e.symm)]
    rfl

end SMT.Fp.Corr
