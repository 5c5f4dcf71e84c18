import Mathlib.Tactic
import Mathlib.Analysis.Calculus.Deriv.Add
import Verif.Nn.Props
import Verif.Nn.Life
/-!
# C90, continued: the gradient handed to the optimiser is the derivative of the cost handed to it
-/
set_option linter.unusedSectionVars false
set_option linter.unusedSimpArgs false
set_option linter.unusedVariables false
namespace SMT.Nn.Life
open SMT.Nn

noncomputable section

/-- A family of numbers as a direction of parameter space. -/
def dirOf : {n p : ℕ} → (net : Net n p) → (Key → ℝ) → Grads net
  | _, _, .done _, _ => ()
  | _, _, .layer _ rest, w => ((Matrix.of fun i j => w (0, true, i, j), fun i => w (0, false, i, 0)), dirOf rest fun q => w (q.1 + 1, q.2))

theorem setVec_move : ∀ {n p : ℕ} (net : Net n p) (v w : Key → ℝ) (s : ℝ), setVec net (fun k => v k + s * w k) = (setVec net v).move (dirOf (setVec net v) w) s
  | _, _, .done _, _, _, _ => rfl
  | _, _, .layer L rest, v, w, s => by
    simp only [setVec, Net.move, dirOf]
    congr 1
    exact setVec_move rest (fun q => v (q.1 + 1, q.2)) (fun q => w (q.1 + 1, q.2)) s

theorem inner_zero : ∀ {n p : ℕ} (net : Net n p) (g : Grads net), inner net g (dirOf net fun _ => 0) = 0
  | _, _, .done _, _ => rfl
  | _, _, .layer L rest, g => by
    simp only [inner, dirOf, Matrix.of_apply, mul_zero, Finset.sum_const_zero, zero_add]
    exact inner_zero rest g.2

/-- Number `k` of layer `l`: weight `(i, j)` (`true`) or bias `i` (`false`, second index 0). -/
def unit (q : Key) : Key → ℝ := fun k => if k = q then 1 else 0

theorem inner_unit : ∀ {n p : ℕ} (net : Net n p) (g : Grads net) (q : Key), (q.2.1 = false → q.2.2.2 = 0) → inner net g (dirOf net (unit q)) = gradVec net g q
  | _, _, .done _, _, q, _ => by simp [inner, gradVec]
  | _, _, .layer (n := n) (k := k) L rest, g, (0, true, i, j), _ => by
    have e1 : ∀ (a : Fin k) (b : Fin n), unit (0, true, i, j) (0, true, (a : ℕ), (b : ℕ)) = if (a : ℕ) = i ∧ (b : ℕ) = j then 1 else 0 := by
      intro a b; simp [unit]
    have e2 : ∀ a : Fin k, unit (0, true, i, j) (0, false, (a : ℕ), 0) = 0 := by intro a; simp [unit]
    have e3 : (fun q : Key => unit (0, true, i, j) (q.1 + 1, q.2)) = fun _ => 0 := by funext q; simp [unit]
    simp only [inner, dirOf, Matrix.of_apply, e1, e2, e3, inner_zero, mul_zero, Finset.sum_const_zero, add_zero, gradVec, readMat]
    split
    · rename_i h
      rw [Finset.sum_eq_single ⟨i, h.1⟩, Finset.sum_eq_single ⟨j, h.2⟩]
      · simp
      · intro b _ hb; rw [if_neg (by simp only [true_and]; intro hh; exact hb (Fin.ext hh)), mul_zero]
      · simp
      · intro a _ ha; exact Finset.sum_eq_zero fun b _ => by rw [if_neg (fun hh => ha (Fin.ext hh.1)), mul_zero]
      · simp
    · rename_i h
      refine Finset.sum_eq_zero fun a _ => Finset.sum_eq_zero fun b _ => ?_
      rw [if_neg, mul_zero]
      rintro ⟨rfl, rfl⟩; exact h ⟨a.2, b.2⟩
  | _, _, .layer (n := n) (k := k) L rest, g, (0, false, i, j), h => by
    obtain rfl : j = 0 := h rfl
    have e1 : ∀ (a : Fin k) (b : Fin n), unit (0, false, i, 0) (0, true, (a : ℕ), (b : ℕ)) = 0 := by
      intro a b; simp [unit]
    have e2 : ∀ a : Fin k, unit (0, false, i, 0) (0, false, (a : ℕ), 0) = if (a : ℕ) = i then 1 else 0 := by intro a; simp [unit]
    have e3 : (fun q : Key => unit (0, false, i, 0) (q.1 + 1, q.2)) = fun _ => 0 := by funext q; simp [unit]
    simp only [inner, dirOf, Matrix.of_apply, e1, e2, e3, inner_zero, mul_zero, Finset.sum_const_zero, add_zero, zero_add, gradVec]
    split
    · rename_i h
      rw [Finset.sum_eq_single ⟨i, h⟩]
      · simp
      · intro a _ ha; rw [if_neg (fun hh => ha (Fin.ext hh)), mul_zero]
      · simp
    · rename_i h
      refine Finset.sum_eq_zero fun a _ => ?_
      rw [if_neg, mul_zero]
      rintro rfl; exact h a.2
  | _, _, .layer (n := n) (k := k) L rest, g, (l + 1, w, i, j), h => by
    have e1 : ∀ (a : Fin k) (b : Fin n), unit (l + 1, w, i, j) (0, true, (a : ℕ), (b : ℕ)) = 0 := by
      intro a b; simp [unit]
    have e2 : ∀ a : Fin k, unit (l + 1, w, i, j) (0, false, (a : ℕ), 0) = 0 := by intro a; simp [unit]
    have e3 : (fun q : Key => unit (l + 1, w, i, j) (q.1 + 1, q.2)) = unit (l, w, i, j) := by funext q; simp [unit, Prod.ext_iff]
    simp only [inner, dirOf, Matrix.of_apply, e1, e2, e3, mul_zero, Finset.sum_const_zero, zero_add, gradVec]
    exact inner_unit rest g.2 (l, w, i, j) h

/-- **C90** What the optimiser minimises and the gradient it is given belong together, number by number: for every network, mini-batch of at least two examples, `lambd ≥ 0` and `gamma` 0 or
1, the partial derivative of the cost of the batch in any weight or bias, at any parameter values, is the entry of the gradient with the same name (and entries that name no
parameter are 0, the cost not depending on them). -/
theorem C90_gradient (o : Opts) {nx ny m : ℕ} (net : Net nx ny) (X : Mat nx m) (Y : Mat ny m) (J : Fin nx → Mat ny m) (hm : 2 ≤ m) (hl : 0 ≤ o.lambd) (hg : o.gamma = 0 ∨ o.gamma = 1)
    (v : Key → ℝ) (q : Key) (hq : q.2.1 = false → q.2.2.2 = 0) :
    HasDerivAt (fun t => costFun o net X Y (some J) (Function.update v q t)) (gradFun o net X Y (some J) v q) (v q) := by
  obtain ⟨g, h1, h2⟩ := C53_backprop (setVec net v) X Y J o.lambd o.gamma hm hl hg
  obtain ⟨c, h3, h4⟩ := h2 (dirOf (setVec net v) (unit q))
  rw [inner_unit _ _ _ hq] at h4
  have e : gradFun o net X Y (some J) v q = gradVec (setVec net v) g q := by unfold gradFun; rw [h1]
  have f : (fun t => costFun o net X Y (some J) (Function.update v q t)) = fun t => c (t - v q) := by
    funext t
    have : Function.update v q t = fun k => v k + (t - v q) * unit q k := by
      funext k
      by_cases hk : k = q
      · subst hk; simp [unit]
      · simp [unit, hk]
    unfold costFun
    rw [this, setVec_move, h3]
    rfl
  rw [e, f]
  have := HasDerivAt.comp_sub_const (v q) (v q) (f := c) (f' := gradVec (setVec net v) g q)
  exact this (by rw [sub_self]; exact h4)

/-- The defaults of GENN with `gamma = 1` and a two-layer network meet the hypotheses: slope of the cost of two examples in the first weight. -/
example (o : Opts) (h : o.lambd = 0.1) (h' : o.gamma = 1) (v : Key → ℝ) :
    HasDerivAt (fun t => costFun o net11 (0 : Mat 1 2) 0 (some 0) (Function.update v (0, true, 0, 0) t)) (gradFun o net11 (0 : Mat 1 2) 0 (some 0) v (0, true, 0, 0)) (v (0, true, 0, 0)) :=
  C90_gradient o net11 0 0 0 le_rfl (by rw [h]; norm_num) (Or.inr h') v _ (by simp)

end

end SMT.Nn.Life
